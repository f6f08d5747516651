import Mathlib.Algebra.Field.Rat
import Mathlib.Algebra.Order.Ring.Rat
import Mathlib.Tactic.Ring
import Mathlib.Tactic.Linarith
import Mathlib.Tactic.FieldSimp
import Mathlib.Tactic.Positivity
import Mathlib.Tactic.FinCases
import Mathlib.Algebra.BigOperators.Fin
import Mathlib.LinearAlgebra.Matrix.Notation
import Verif.Model.NumericFns
set_option autoImplicit false
set_option linter.unusedSectionVars false

/-! # C61, C63, C69, C70: numeric functions -/

namespace Verif.Numeric

/-! ### C61 -/

section Tril
variable {K : Type} [Zero K]

theorem assign_fold_other (m : Mat K) (i j : Nat) : ∀ (es : List ((Nat × Nat) × K)),
    (∀ e ∈ es, e.1 ≠ (i, j)) → es.foldl assign m i j = m i j := by
  intro es
  induction es generalizing m with
  | nil => intro _; rfl
  | cons e es ih =>
    intro h
    rw [List.foldl_cons, ih _ fun e' he' => h e' (List.mem_cons_of_mem _ he')]
    unfold assign
    rw [if_neg]
    rintro ⟨h1, h2⟩
    exact h e (List.mem_cons_self ..) (by rw [h1, h2])

theorem assign_fold_at (m : Mat K) : ∀ (es : List ((Nat × Nat) × K)), (es.map Prod.fst).Nodup →
    ∀ e ∈ es, es.foldl assign m e.1.1 e.1.2 = e.2 := by
  intro es
  induction es generalizing m with
  | nil => intro _ e he; simp at he
  | cons e' es ih =>
    intro hn e he
    simp only [List.map_cons, List.nodup_cons] at hn
    rw [List.foldl_cons]
    rcases List.mem_cons.1 he with rfl | he
    · rw [assign_fold_other]
      · simp [assign]
      · intro e'' he'' heq
        exact hn.1 (List.mem_map.2 ⟨e'', he'', heq⟩)
    · exact ih _ hn.2 e he

theorem mem_tril {n i j : Nat} : (i, j) ∈ trilIndices n ↔ i < n ∧ j < i := by
  simp only [trilIndices, List.mem_flatMap, List.mem_range, List.mem_map, Prod.mk.injEq]
  constructor
  · rintro ⟨a, h1, b, h2, rfl, rfl⟩; exact ⟨h1, h2⟩
  · rintro ⟨h1, h2⟩; exact ⟨i, h1, j, h2, rfl, rfl⟩

theorem tril_succ (n : Nat) : trilIndices (n + 1) = trilIndices n ++ (List.range n).map fun j => (n, j) := by
  simp [trilIndices, List.range_succ]

theorem tri_succ (n : Nat) : (n + 1) * (n + 1 - 1) / 2 = n * (n - 1) / 2 + n := by
  cases n with
  | zero => rfl
  | succ n =>
    simp only [Nat.add_sub_cancel]
    have : (n + 1 + 1) * (n + 1) = (n + 1) * n + (n + 1) * 2 := by ring
    rw [this, Nat.add_mul_div_right _ _ (by norm_num)]

theorem tril_length : ∀ n, (trilIndices n).length = n * (n - 1) / 2
  | 0 => rfl
  | n + 1 => by rw [tril_succ, List.length_append, List.length_map, List.length_range, tril_length n, tri_succ]

theorem tril_nodup : ∀ n, (trilIndices n).Nodup
  | 0 => by simp [trilIndices]
  | n + 1 => by
    rw [tril_succ, List.nodup_append]
    refine ⟨tril_nodup n, List.nodup_range.map (fun a b h => by simpa using h), ?_⟩
    rintro ⟨a, b⟩ h1 c h2 rfl
    rw [mem_tril] at h1
    obtain ⟨j, -, hj⟩ := List.mem_map.1 h2
    simp only [Prod.mk.injEq] at hj
    omega

/-- The position of `(i, j)` in the list of indices. -/
theorem tril_at : ∀ (n i j : Nat), i < n → j < i → (trilIndices n)[i * (i - 1) / 2 + j]? = some (i, j)
  | 0, _, _, h, _ => by omega
  | n + 1, i, j, hi, hj => by
    rw [tril_succ]
    by_cases h : i = n
    · subst h
      rw [List.getElem?_append_right (by rw [tril_length]; omega), tril_length, Nat.add_sub_cancel_left,
        List.getElem?_map, List.getElem?_range hj]
      rfl
    · have ih := tril_at n i j (by omega) hj
      rw [List.getElem?_append_left (List.getElem?_eq_some_iff.1 ih).1, ih]

theorem diag_at {n i : Nat} (h : i < n) : (diagIndices n)[i]? = some (i, i) := by
  simp [diagIndices, List.getElem?_range h]

theorem diag_nodup (n : Nat) : (diagIndices n).Nodup :=
  List.nodup_range.map (fun a b h => by simpa using h)

theorem setAt_at (m m' : Mat K) (idx : List (Nat × Nat)) (val : List K) (hn : idx.Nodup)
    (h : setAt m idx val = .ok m') (k i j : Nat) (hk : idx[k]? = some (i, j)) :
    ∃ x, val[k]? = some x ∧ m' i j = x := by
  unfold setAt at h
  split at h
  · rename_i hl
    injection h with h
    subst h
    have hlt := (List.getElem?_eq_some_iff.1 hk).1
    have hv : val[k]? = some val[k] := List.getElem?_eq_getElem (by omega)
    refine ⟨_, hv, ?_⟩
    have hz : (idx.zip val)[k]? = some ((i, j), val[k]) := by
      rw [List.getElem?_zip_eq_some]; exact ⟨hk, hv⟩
    have := assign_fold_at m (idx.zip val) (by
      rw [List.map_fst_zip (by omega)]; exact hn) _ (List.mem_of_getElem? hz)
    exact this
  · cases h

theorem setAt_other (m m' : Mat K) (idx : List (Nat × Nat)) (val : List K)
    (h : setAt m idx val = .ok m') (i j : Nat) (hk : (i, j) ∉ idx) : m' i j = m i j := by
  unfold setAt at h
  split at h
  · injection h with h
    subst h
    apply assign_fold_other
    intro e he heq
    exact hk (heq ▸ (List.of_mem_zip he).1)
  · cases h

/-- **C61**: for every size, the matrix has the diagonal on its diagonal, the other values
below it in row-major order (entry `(i, j)` is number `i (i-1) / 2 + j`), and zero above;
any other number of values below the diagonal is refused. -/
theorem C61_forward (diag nonDiag : List K) :
    (nonDiag.length = diag.length * (diag.length - 1) / 2 →
      ∃ m, lowerTriangular diag nonDiag = .ok m ∧
        (∀ i, (h : i < diag.length) → m i i = diag[i]) ∧
        (∀ i j, i < diag.length → j < i → nonDiag[i * (i - 1) / 2 + j]? = some (m i j)) ∧
        (∀ i j, i < diag.length → i < j → m i j = 0)) ∧
    (nonDiag.length ≠ diag.length * (diag.length - 1) / 2 →
      lowerTriangular diag nonDiag = .error .valueError) := by
  constructor
  · intro hl
    have e1 : setAt (fun _ _ => (0 : K)) (trilIndices diag.length) nonDiag =
        .ok (((trilIndices diag.length).zip nonDiag).foldl assign fun _ _ => 0) := by
      rw [setAt, if_pos (by rw [tril_length, hl])]
    generalize hm1 : ((trilIndices diag.length).zip nonDiag).foldl assign (fun _ _ => (0 : K)) = m1 at e1
    have e2 : setAt m1 (diagIndices diag.length) diag =
        .ok (((diagIndices diag.length).zip diag).foldl assign m1) := by
      rw [setAt, if_pos (by simp [diagIndices])]
    generalize hm2 : ((diagIndices diag.length).zip diag).foldl assign m1 = m2 at e2
    refine ⟨m2, by simp only [lowerTriangular, e1, bind, Except.bind, e2], ?_, ?_, ?_⟩
    · intro i hi
      obtain ⟨x, h1, h2⟩ := setAt_at _ _ _ _ (diag_nodup _) e2 i i i (diag_at hi)
      rw [List.getElem?_eq_getElem hi] at h1
      injection h1 with h1
      rw [h2, h1]
    · intro i j hi hj
      have hnd : (i, j) ∉ diagIndices diag.length := by
        intro h; simp [diagIndices] at h; omega
      rw [setAt_other _ _ _ _ e2 i j hnd]
      obtain ⟨x, h1, h2⟩ := setAt_at _ _ _ _ (tril_nodup _) e1 _ i j (tril_at _ i j hi hj)
      rw [h1, h2]
    · intro i j hi hj
      have hnd : (i, j) ∉ diagIndices diag.length := by
        intro h; simp [diagIndices] at h; omega
      rw [setAt_other _ _ _ _ e2 i j hnd, setAt_other _ _ _ _ e1 i j (by rw [mem_tril]; omega)]
  · intro hl
    have : setAt (fun _ _ => (0 : K)) (trilIndices diag.length) nonDiag = .error .valueError := by
      rw [setAt, if_neg (by rw [tril_length]; exact fun h => hl h.symm)]
    simp only [lowerTriangular, this, bind, Except.bind]

/-- **C61**: the backward pass reads, from any gradient matrix, exactly the positions the
forward pass wrote, in the same order. -/
theorem C61_backward (n : Nat) (gy : Mat K) :
    (lowerTriangularBackward n gy).1.length = n ∧
    (lowerTriangularBackward n gy).2.length = n * (n - 1) / 2 ∧
    (∀ i, i < n → (lowerTriangularBackward n gy).1[i]? = some (gy i i)) ∧
    (∀ i j, i < n → j < i → (lowerTriangularBackward n gy).2[i * (i - 1) / 2 + j]? = some (gy i j)) := by
  refine ⟨by simp [lowerTriangularBackward, getAt, diagIndices], by simp [lowerTriangularBackward, getAt, tril_length],
    ?_, ?_⟩
  · intro i hi
    simp only [lowerTriangularBackward, getAt, List.getElem?_map, diag_at hi, Option.map_some]
  · intro i j hi hj
    simp only [lowerTriangularBackward, getAt, List.getElem?_map, tril_at n i j hi hj, Option.map_some]

/-- **C61**: packing is injective: reading the matrix back gives the two vectors. -/
theorem C61_round_trip (diag nonDiag : List K) (hl : nonDiag.length = diag.length * (diag.length - 1) / 2) :
    ∃ m, lowerTriangular diag nonDiag = .ok m ∧ lowerTriangularBackward diag.length m = (diag, nonDiag) := by
  obtain ⟨m, h1, h2, h3, h4⟩ := (C61_forward diag nonDiag).1 hl
  refine ⟨m, h1, ?_⟩
  obtain ⟨b1, b2, b3, b4⟩ := C61_backward diag.length m
  have e1 : (lowerTriangularBackward diag.length m).1 = diag := by
    apply List.ext_getElem? 
    intro i
    by_cases hi : i < diag.length
    · rw [b3 i hi, h2 i hi, List.getElem?_eq_getElem hi]
    · rw [List.getElem?_eq_none (by omega), List.getElem?_eq_none (by omega)]
  have e2 : (lowerTriangularBackward diag.length m).2 = nonDiag := by
    apply List.ext_getElem? 
    intro k
    by_cases hk : k < nonDiag.length
    · have hk' : k < (trilIndices diag.length).length := by rw [tril_length]; omega
      obtain ⟨⟨i, j⟩, hij⟩ : ∃ e, (trilIndices diag.length)[k]? = some e := ⟨_, List.getElem?_eq_getElem hk'⟩
      have hm : i < diag.length ∧ j < i := mem_tril.1 (List.mem_of_getElem? hij)
      have hat := tril_at diag.length i j hm.1 hm.2
      have hkk : k = i * (i - 1) / 2 + j := by
        have h1' := (List.getElem?_eq_some_iff.1 hij)
        have h2' := (List.getElem?_eq_some_iff.1 hat)
        exact (List.Nodup.getElem_inj_iff (tril_nodup diag.length)).1 (h1'.2.trans h2'.2.symm)
      rw [hkk, b4 i j hm.1 hm.2, h3 i j hm.1 hm.2]
    · rw [List.getElem?_eq_none (by omega), List.getElem?_eq_none (by omega)]
  exact Prod.ext e1 e2

example : ((lowerTriangular [1, 2, 3] [4, 5, 6] : Py (Mat ℤ)).toOption.map fun m =>
    [[m 0 0, m 0 1, m 0 2], [m 1 0, m 1 1, m 1 2], [m 2 0, m 2 1, m 2 2]]) =
    some [[1, 0, 0], [4, 2, 0], [5, 6, 3]] := by decide

end Tril

/-! ### C63 -/

section Quadratic
variable {K : Type} [Field K] [LinearOrder K] [IsStrictOrderedRing K] {n : Nat}

/-- `P` is positive semidefinite: `x^T P x` is never negative. -/
def PSD (P : Matrix (Fin n) (Fin n) K) : Prop := ∀ x, 0 ≤ Matrix.vecMul x P ⬝ᵥ x

/-- An action respects the bounds. -/
def Allowed (q : Quadratic K n) (u : Fin n → K) : Prop :=
  (∀ l, q.minAction = some l → ∀ i, l i ≤ u i) ∧ (∀ h, q.maxAction = some h → ∀ i, u i ≤ h i)

/-- The bounds do not exclude every action. -/
def BoundsOk (q : Quadratic K n) : Prop :=
  ∀ l h, q.minAction = some l → q.maxAction = some h → ∀ i, l i ≤ h i

/-- **C63**: the greedy action respects the bounds. -/
theorem C63_greedy_allowed (q : Quadratic K n) (hb : BoundsOk q) : Allowed q q.greedy := by
  obtain ⟨mu, P, v, lo, hi⟩ := q
  constructor
  · intro l hl i
    simp only at hl
    subst hl
    cases hi with
    | none => simp [Quadratic.greedy, clipHigh, clipLow]
    | some h =>
      have := hb l h rfl rfl i
      simp [Quadratic.greedy, clipHigh, clipLow, this]
  · intro h hh i
    simp only at hh
    subst hh
    simp [Quadratic.greedy, clipHigh]

/-- **C63** (partial): without bounds, or whenever `mu` itself respects the bounds, `max` is
attained at the greedy action and is an upper bound for all actions, for every positive
semidefinite `P`. -/
theorem C63_inside_partial (q : Quadratic K n) (hP : PSD q.mat) (hmu : Allowed q q.mu) :
    q.evaluate q.greedy = q.max ∧ ∀ u, q.evaluate u ≤ q.max := by
  have hg : q.greedy = q.mu := by
    obtain ⟨mu, P, v, lo, hi⟩ := q
    obtain ⟨h1, h2⟩ := hmu
    simp only at h1 h2
    have e1 : clipLow lo mu = mu := by
      cases lo with
      | none => rfl
      | some l => funext i; exact max_eq_right (h1 l rfl i)
    have e2 : clipHigh hi mu = mu := by
      cases hi with
      | none => rfl
      | some h => funext i; exact min_eq_right (h2 h rfl i)
    show clipHigh hi (clipLow lo mu) = mu
    rw [e1, e2]
  have hev : q.evaluate q.mu = q.v := by simp [Quadratic.evaluate]
  have hmax : q.max = q.v := by
    unfold Quadratic.max
    split
    · rfl
    · rw [hg, hev]
  refine ⟨by rw [hg, hev, hmax], fun u => ?_⟩
  rw [hmax, Quadratic.evaluate]
  have := hP (u - q.mu)
  linarith

/-- Clipping minimises the distance in each coordinate. -/
theorem clip_closest (lo hi : Option (Fin n → K)) (mu u : Fin n → K) (i : Fin n)
    (h1 : ∀ l, lo = some l → l i ≤ u i) (h2 : ∀ h, hi = some h → u i ≤ h i)
    (hb : ∀ l h, lo = some l → hi = some h → l i ≤ h i) :
    (clipHigh hi (clipLow lo mu) i - mu i) ^ 2 ≤ (u i - mu i) ^ 2 := by
  cases lo with
  | none =>
    cases hi with
    | none => simp [clipHigh, clipLow, sq_nonneg]
    | some h =>
      have a := h2 h rfl
      simp only [clipHigh, clipLow]
      rcases le_total (h i) (mu i) with c | c
      · rw [min_eq_left c]; nlinarith
      · rw [min_eq_right c, sub_self]; nlinarith [sq_nonneg (u i - mu i)]
  | some l =>
    have b := h1 l rfl
    cases hi with
    | none =>
      simp only [clipHigh, clipLow]
      rcases le_total (l i) (mu i) with c | c
      · rw [max_eq_right c, sub_self]; nlinarith [sq_nonneg (u i - mu i)]
      · rw [max_eq_left c]; nlinarith
    | some h =>
      have a := h2 h rfl
      have d := hb l h rfl rfl
      simp only [clipHigh, clipLow]
      rcases le_total (l i) (mu i) with c | c
      · rw [max_eq_right c]
        rcases le_total (h i) (mu i) with e | e
        · rw [min_eq_left e]; nlinarith
        · rw [min_eq_right e, sub_self]; nlinarith [sq_nonneg (u i - mu i)]
      · rw [max_eq_left c, min_eq_right d]; nlinarith

/-- The quadratic form of a diagonal matrix. -/
theorem diag_form (P : Matrix (Fin n) (Fin n) K) (hd : ∀ i j, i ≠ j → P i j = 0) (x : Fin n → K) :
    Matrix.vecMul x P ⬝ᵥ x = ∑ i, P i i * x i ^ 2 := by
  unfold dotProduct
  refine Finset.sum_congr rfl fun i _ => ?_
  have : Matrix.vecMul x P i = x i * P i i := by
    simp only [Matrix.vecMul, dotProduct]
    rw [Finset.sum_eq_single i]
    · intro j _ hj; rw [hd j i hj, mul_zero]
    · intro h; exact absurd (Finset.mem_univ _) h
  rw [this]; ring

/-- **C63** (partial): with any bounds, if `P` is diagonal with nonnegative entries (in
particular for one-dimensional actions), `max` is attained at the greedy action and is an
upper bound for all allowed actions.  Missing: correlated `P` with active bounds, where
the claim is false (`C63_violated`). -/
theorem C63_diagonal_partial (q : Quadratic K n) (hd : ∀ i j, i ≠ j → q.mat i j = 0) (hp : ∀ i, 0 ≤ q.mat i i)
    (hb : BoundsOk q) :
    q.evaluate q.greedy = q.max ∧ ∀ u, Allowed q u → q.evaluate u ≤ q.max := by
  have key : q.evaluate q.greedy = q.max := by
    unfold Quadratic.max
    split
    · rename_i h
      simp only [Bool.and_eq_true, Option.isNone_iff_eq_none] at h
      obtain ⟨mu, P, v, lo, hi⟩ := q
      obtain ⟨rfl, rfl⟩ := h
      simp [Quadratic.evaluate, Quadratic.greedy, clipHigh, clipLow]
    · rfl
  refine ⟨key, fun u hu => ?_⟩
  rw [← key, Quadratic.evaluate, Quadratic.evaluate, diag_form _ hd, diag_form _ hd]
  have : ∑ i, q.mat i i * (q.greedy - q.mu) i ^ 2 ≤ ∑ i, q.mat i i * (u - q.mu) i ^ 2 := by
    refine Finset.sum_le_sum fun i _ => mul_le_mul_of_nonneg_left ?_ (hp i)
    exact clip_closest q.minAction q.maxAction q.mu u i (fun l hl => hu.1 l hl i) (fun h hh => hu.2 h hh i)
      (fun l h hl hh => hb l h hl hh i)
  linarith

/-- **C63** (partial): under either set of conditions the advantage of allowed actions is
never positive and is zero at the greedy action. -/
theorem C63_advantage_partial (q : Quadratic K n) (hd : ∀ i j, i ≠ j → q.mat i j = 0) (hp : ∀ i, 0 ≤ q.mat i i)
    (hb : BoundsOk q) : q.advantage q.greedy = 0 ∧ ∀ u, Allowed q u → q.advantage u ≤ 0 := by
  obtain ⟨h1, h2⟩ := C63_diagonal_partial q hd hp hb
  exact ⟨by rw [Quadratic.advantage, h1, sub_self], fun u hu => by
    have := h2 u hu; rw [Quadratic.advantage]; linarith⟩

/-- A value with correlated `P` whose unconstrained optimum `(2, 0)` violates the bounds. -/
def correlated : Quadratic ℚ 2 := ⟨![2, 0], !![2, 1; 1, 2], 0, some ![-1, -1], some ![1, 1]⟩

/-- **C63** is false for correlated `P` and active bounds: `P` is positive definite, the
bounds are met, yet another allowed action is worth more than `max`. -/
theorem C63_violated :
    PSD correlated.mat ∧ BoundsOk correlated ∧ Allowed correlated ![1, 1 / 2] ∧
    correlated.max < correlated.evaluate ![1, 1 / 2] := by
  refine ⟨?_, ?_, ?_, ?_⟩
  · intro x
    have : Matrix.vecMul x correlated.mat ⬝ᵥ x = x 0 ^ 2 + x 1 ^ 2 + (x 0 + x 1) ^ 2 := by
      simp [correlated, Matrix.vecMul, dotProduct, Fin.sum_univ_two]
      ring
    rw [this]; positivity
  · intro l h hl hh i
    simp only [correlated, Option.some.injEq] at hl hh
    subst hl; subst hh
    fin_cases i <;> simp
  · constructor
    · intro l hl i
      simp only [correlated, Option.some.injEq] at hl
      subst hl
      fin_cases i <;> norm_num
    · intro h hh i
      simp only [correlated, Option.some.injEq] at hh
      subst hh
      fin_cases i <;> norm_num
  · simp [Quadratic.max, Quadratic.evaluate, Quadratic.greedy, correlated, clipHigh, clipLow, Matrix.vecMul,
      dotProduct, Fin.sum_univ_two]
    norm_num

example : BoundsOk (⟨![2, 0], !![2, 0; 0, 3], 1, some ![-1, -1], some ![1, 1]⟩ : Quadratic ℚ 2) ∧
    (⟨![2, 0], !![2, 0; 0, 3], 1, some ![-1, -1], some ![1, 1]⟩ : Quadratic ℚ 2).max = 0 := by
  constructor
  · intro l h hl hh i
    simp only [Option.some.injEq] at hl hh
    subst hl; subst hh
    fin_cases i <;> simp
  · simp [Quadratic.max, Quadratic.evaluate, Quadratic.greedy, clipHigh, clipLow, Matrix.vecMul,
      dotProduct, Fin.sum_univ_two]
    norm_num

end Quadratic

/-! ### C69, C70 -/

section Small
variable {K : Type} [Field K] [LinearOrder K] [IsStrictOrderedRing K]

/-- **C69**: a gradient that increases the value (`gy < 0`, as updates subtract) is scaled
by the distance to the upper bound: it vanishes at that bound, keeps its sign below and is
inverted above. -/
theorem C69_increasing (lo hi x gy : K) (hw : lo < hi) (hg : gy < 0) :
    invertGradient lo hi x gy = gy * ((hi - x) / (hi - lo)) ∧
    (x = hi → invertGradient lo hi x gy = 0) ∧
    (x < hi → invertGradient lo hi x gy < 0) ∧
    (hi < x → 0 < invertGradient lo hi x gy) ∧
    (x = lo → invertGradient lo hi x gy = gy) := by
  have e : invertGradient lo hi x gy = gy * ((hi - x) / (hi - lo)) := by
    simp [invertGradient, hg]
  have hd : 0 < hi - lo := sub_pos.2 hw
  refine ⟨e, ?_, ?_, ?_, ?_⟩
  · rintro rfl; rw [e]; simp
  · intro h; rw [e]; exact mul_neg_of_neg_of_pos hg (div_pos (sub_pos.2 h) hd)
  · intro h; rw [e]; exact mul_pos_of_neg_of_neg hg (div_neg_of_neg_of_pos (sub_neg.2 h) hd)
  · rintro rfl; rw [e, div_self hd.ne', mul_one]

/-- **C69**: a gradient that decreases the value is scaled by the distance to the lower
bound: it vanishes at that bound, keeps its sign above and is inverted below. -/
theorem C69_decreasing (lo hi x gy : K) (hw : lo < hi) (hg : 0 < gy) :
    invertGradient lo hi x gy = gy * ((x - lo) / (hi - lo)) ∧
    (x = lo → invertGradient lo hi x gy = 0) ∧
    (lo < x → 0 < invertGradient lo hi x gy) ∧
    (x < lo → invertGradient lo hi x gy < 0) ∧
    (x = hi → invertGradient lo hi x gy = gy) := by
  have e : invertGradient lo hi x gy = gy * ((x - lo) / (hi - lo)) := by
    simp [invertGradient, hg.not_gt]
  have hd : 0 < hi - lo := sub_pos.2 hw
  refine ⟨e, ?_, ?_, ?_, ?_⟩
  · rintro rfl; rw [e]; simp
  · intro h; rw [e]; exact mul_pos hg (div_pos (sub_pos.2 h) hd)
  · intro h; rw [e]; exact mul_neg_of_pos_of_neg hg (div_neg_of_neg_of_pos (sub_neg.2 h) hd)
  · rintro rfl; rw [e, div_self hd.ne', mul_one]

/-- **C69**: inside the range the size of the gradient never grows. -/
theorem C69_shrinks (lo hi x gy : K) (hw : lo < hi) (h1 : lo ≤ x) (h2 : x ≤ hi) :
    |invertGradient lo hi x gy| ≤ |gy| := by
  have hd : 0 < hi - lo := sub_pos.2 hw
  have f1 : |(hi - x) / (hi - lo)| ≤ 1 := by
    rw [abs_of_nonneg (div_nonneg (by linarith) hd.le), div_le_one hd]; linarith
  have f2 : |(x - lo) / (hi - lo)| ≤ 1 := by
    rw [abs_of_nonneg (div_nonneg (by linarith) hd.le), div_le_one hd]; linarith
  rcases lt_trichotomy gy 0 with h | h | h
  · rw [(C69_increasing lo hi x gy hw h).1, abs_mul]
    exact mul_le_of_le_one_right (abs_nonneg _) f1
  · subst h; simp [invertGradient]
  · rw [(C69_decreasing lo hi x gy hw h).1, abs_mul]
    exact mul_le_of_le_one_right (abs_nonneg _) f2

example : invertGradient (-1 : ℚ) 1 (1 / 2) (-3) = -3 / 4 ∧ invertGradient (-1 : ℚ) 1 2 (-3) = 3 / 2 := by
  decide +kernel

theorem hook_between {T s : Nat} (start stop : K) (h1 : 1 ≤ s) (h2 : s < T) :
    hookValue T start stop s = start + (stop - start) * (((s : K) - 1) / ((T : K) - 1)) := by
  have hs : (s : K) < T := by exact_mod_cast h2
  have h1' : (1 : K) ≤ s := by exact_mod_cast h1
  have hT : (T : K) - 1 ≠ 0 := by
    have : (1 : K) < T := lt_of_le_of_lt h1' hs
    exact (sub_pos.2 this).ne'
  unfold hookValue interp2
  rw [if_neg (not_lt.2 hs.le), if_neg (not_lt.2 h1'), if_neg (not_le.2 hs)]
  split
  · rename_i h; rw [← h]; ring
  · field_simp; ring

/-- **C70**: the hook sets the start value at step one, the stop value at and after
`total_steps`, and the point of the straight line between them at every step between. -/
theorem C70_values (T : Nat) (start stop : K) (hT : 2 ≤ T) :
    hookValue T start stop 1 = start ∧
    (∀ s, T ≤ s → hookValue T start stop s = stop) ∧
    (∀ s, 1 ≤ s → s ≤ T →
      hookValue T start stop s = start + (stop - start) * (((s : K) - 1) / ((T : K) - 1))) := by
  have hT1 : (T : K) - 1 ≠ 0 := by
    have : (1 : K) < T := by exact_mod_cast (by omega : 1 < T)
    exact (sub_pos.2 this).ne'
  have hge : ∀ s, T ≤ s → hookValue T start stop s = stop := by
    intro s hs
    have hs' : (T : K) ≤ s := by exact_mod_cast hs
    have h1 : (1 : K) ≤ s := by exact_mod_cast (by omega : 1 ≤ s)
    unfold hookValue interp2
    split
    · rfl
    · rw [if_neg (not_lt.2 h1)]
  refine ⟨?_, hge, ?_⟩
  · rw [hook_between start stop (le_refl 1) (by omega)]; simp
  · intro s h1 h2
    rcases Nat.lt_or_ge s T with h | h
    · exact hook_between start stop h1 h
    · obtain rfl : s = T := by omega
      rw [hge s (le_refl _), div_self hT1]; ring

/-- **C70**: at every step the value lies between start and stop, and it moves monotonically
from one to the other. -/
theorem C70_monotone (T : Nat) (start stop : K) (hT : 2 ≤ T) (s s' : Nat) (h1 : 1 ≤ s) (h2 : s ≤ s') :
    (start ≤ stop → start ≤ hookValue T start stop s ∧ hookValue T start stop s ≤ hookValue T start stop s' ∧
      hookValue T start stop s' ≤ stop) ∧
    (stop ≤ start → stop ≤ hookValue T start stop s' ∧ hookValue T start stop s' ≤ hookValue T start stop s ∧
      hookValue T start stop s ≤ start) := by
  obtain ⟨-, hge, hle⟩ := C70_values T start stop hT
  have hTp : (0 : K) < (T : K) - 1 := by
    have : (1 : K) < T := by exact_mod_cast (by omega : 1 < T)
    exact sub_pos.2 this
  -- the fraction of the way
  have frac : ∀ s : Nat, 1 ≤ s → ∃ f : K, 0 ≤ f ∧ f ≤ 1 ∧ hookValue T start stop s = start + (stop - start) * f ∧
      (T ≤ s → f = 1) ∧ (s ≤ T → f = ((s : K) - 1) / ((T : K) - 1)) := by
    intro s hs
    have hs' : (1 : K) ≤ s := by exact_mod_cast hs
    rcases Nat.lt_or_ge s T with h | h
    · have hsT : (s : K) < T := by exact_mod_cast h
      refine ⟨((s : K) - 1) / ((T : K) - 1), div_nonneg (by linarith) hTp.le, ?_, hle s hs h.le,
        fun h' => by omega, fun _ => rfl⟩
      rw [div_le_one hTp]; linarith
    · refine ⟨1, by norm_num, le_refl _, ?_, fun _ => rfl, fun h' => ?_⟩
      · rw [hge s h]; ring
      · obtain rfl : s = T := by omega
        rw [div_self hTp.ne']
  obtain ⟨f, f0, f1, fe, fT, fs⟩ := frac s h1
  obtain ⟨g, g0, g1, ge, gT, gs⟩ := frac s' (by omega)
  have hfg : f ≤ g := by
    rcases Nat.lt_or_ge s' T with h | h
    · rw [fs (by omega), gs h.le]
      have : (s : K) ≤ s' := by exact_mod_cast h2
      exact div_le_div_of_nonneg_right (by linarith) hTp.le
    · rw [gT h]; exact f1
  rw [fe, ge]
  constructor
  · intro h
    refine ⟨?_, ?_, ?_⟩ <;> nlinarith [mul_nonneg (sub_nonneg.2 h) f0, mul_nonneg (sub_nonneg.2 h) (sub_nonneg.2 hfg),
      mul_nonneg (sub_nonneg.2 h) (sub_nonneg.2 g1)]
  · intro h
    refine ⟨?_, ?_, ?_⟩ <;> nlinarith [mul_nonneg (sub_nonneg.2 h) f0, mul_nonneg (sub_nonneg.2 h) (sub_nonneg.2 hfg),
      mul_nonneg (sub_nonneg.2 h) (sub_nonneg.2 g1)]

example : hookValue 5 (1 : ℚ) 0 2 = 3 / 4 ∧ hookValue 5 (1 : ℚ) 0 9 = 0 := by decide +kernel

end Small

end Verif.Numeric
