import Mathlib.Data.List.Nodup
import Mathlib.Tactic.Ring
import Mathlib.Tactic.NormNum
import Verif.Model.Gpu
import Verif.Props.NumericFns
set_option autoImplicit false
set_option linter.unusedSectionVars false

/-!
# C120: the GPU kernels compute what the CPU code computes
-/

namespace Verif.Gpu
open Numeric

section Tril
variable {K : Type} [Zero K]

/-- Where element `(i, j)` of batch element `b` is, in C order. -/
def pos (n b i j : Nat) : Nat := b * (n * n) + (i * n + j)

theorem arange_eq (batch n : Nat) (hn : 0 < n) : arange (batch * n * n) (n * n) = (List.range batch).map (· * (n * n)) := by
  unfold arange
  have h : 0 < n * n := Nat.mul_pos hn hn
  have : (batch * n * n + n * n - 1) / (n * n) = batch := by
    rw [Nat.mul_assoc]
    generalize n * n = q at h
    have e : batch * q + q - 1 = q * batch + (q - 1) := by rw [Nat.mul_comm]; omega
    rw [e, Nat.mul_add_div h, Nat.div_eq_of_lt (by omega), Nat.add_zero]
  rw [this]

theorem idxArray_eq (batch n : Nat) (hn : 0 < n) (idx : List (Nat × Nat)) :
    idxArray batch n idx = (List.range batch).map fun b => idx.map fun p => pos n b p.1 p.2 := by
  unfold idxArray ravel pos
  rw [arange_eq _ _ hn, List.map_map]
  apply List.map_congr_left
  intro b _
  simp [Nat.add_comm]

theorem pos_inj {n b i j b' i' j' : Nat} (hi : i < n) (hj : j < n) (hi' : i' < n) (hj' : j' < n) (h : pos n b i j = pos n b' i' j') :
    b = b' ∧ i = i' ∧ j = j' := by
  unfold pos at h
  have key : ∀ {q a r a' r' : Nat}, r < q → r' < q → a * q + r = a' * q + r' → a = a' ∧ r = r' := by
    intro q a r a' r' h1 h2 h
    have e : a = a' := by
      have := congrArg (· / q) h
      simpa [Nat.mul_comm _ q, Nat.mul_add_div (by omega : 0 < q), Nat.div_eq_of_lt h1, Nat.div_eq_of_lt h2] using this
    subst e
    exact ⟨rfl, by omega⟩
  have hlt : ∀ {i j : Nat}, i < n → j < n → i * n + j < n * n := by
    intro i j h1 h2
    have : (i + 1) * n ≤ n * n := Nat.mul_le_mul_right n h1
    rw [Nat.add_mul] at this
    omega
  obtain ⟨h1, h2⟩ := key (hlt hi hj) (hlt hi' hj') h
  exact ⟨h1, key hj hj' h2⟩

theorem fold_other (k : Nat) : ∀ (es : List (Nat × K)) (m : Nat → K), (∀ e ∈ es, e.1 ≠ k) →
    es.foldl (fun m e => fun k => if k = e.1 then e.2 else m k) m k = m k
  | [], _, _ => rfl
  | e :: es, m, h => by
    rw [List.foldl_cons, fold_other k es _ fun e' he' => h e' (List.mem_cons_of_mem _ he'), if_neg]
    exact fun he => h e (List.mem_cons_self ..) he.symm

theorem fold_at : ∀ (es : List (Nat × K)) (m : Nat → K), (es.map Prod.fst).Nodup → ∀ e ∈ es,
    es.foldl (fun m e => fun k => if k = e.1 then e.2 else m k) m e.1 = e.2
  | e' :: es, m, hn, e, he => by
    simp only [List.map_cons, List.nodup_cons] at hn
    rw [List.foldl_cons]
    rcases List.mem_cons.1 he with rfl | he
    · rw [fold_other]
      · simp
      · intro e'' h'' heq
        exact hn.1 (List.mem_map.2 ⟨e'', h'', heq⟩)
    · exact fold_at es _ hn.2 e he

theorem pairs_fst : ∀ (idx : List (List Nat)) (val : List (List K)), idx.map List.length = val.map List.length →
    (pairs idx val).map Prod.fst = idx.flatten
  | [], [], _ => rfl
  | [], _ :: _, h => by simp at h
  | _ :: _, [], h => by simp at h
  | r :: idx, v :: val, h => by
    simp only [List.map_cons, List.cons.injEq] at h
    have := pairs_fst idx val h.2
    simp only [pairs, List.zip_cons_cons, List.flatMap_cons, List.map_append, List.flatten_cons] at this ⊢
    rw [List.map_fst_zip (by omega), this]

theorem idx_nodup (batch n : Nat) (hn : 0 < n) (idx : List (Nat × Nat)) (hidx : idx.Nodup) (hb : ∀ p ∈ idx, p.1 < n ∧ p.2 < n) :
    (idxArray batch n idx).flatten.Nodup := by
  rw [idxArray_eq _ _ hn, List.nodup_flatten]
  constructor
  · intro l hl
    obtain ⟨b, _, rfl⟩ := List.mem_map.1 hl
    refine hidx.map_on ?_
    intro p hp q hq h
    obtain ⟨_, h1, h2⟩ := pos_inj (hb p hp).1 (hb p hp).2 (hb q hq).1 (hb q hq).2 h
    exact Prod.ext h1 h2
  · rw [List.pairwise_map]
    refine List.Pairwise.imp ?_ (List.nodup_range (n := batch))
    intro a b hab x hx hy
    obtain ⟨p, hp, rfl⟩ := List.mem_map.1 hx
    obtain ⟨q, hq, h⟩ := List.mem_map.1 hy
    exact hab (pos_inj (hb q hq).1 (hb q hq).2 (hb p hp).1 (hb p hp).2 h).1.symm

/-- The scatter kernel. -/
theorem scatter_spec (batch n : Nat) (hn : 0 < n) (idx : List (Nat × Nat)) (hidx : idx.Nodup) (hb : ∀ p ∈ idx, p.1 < n ∧ p.2 < n)
    (val : List (List K)) (hl : val.length = batch) (hv : ∀ v ∈ val, v.length = idx.length) (mat : Nat → K) :
    ∃ y, scatter mat (idxArray batch n idx) val = .ok y ∧
      (∀ (b k : Nat) (p : Nat × Nat) (v : List K), idx[k]? = some p → val[b]? = some v → v[k]? = some (y (pos n b p.1 p.2))) ∧
      (∀ b i j, i < n → j < n → (i, j) ∉ idx → y (pos n b i j) = mat (pos n b i j)) := by
  have hshape : (idxArray batch n idx).map List.length = val.map List.length := by
    rw [idxArray_eq _ _ hn, List.map_map]
    apply List.ext_getElem
    · simp [hl]
    · intro k h1 h2
      simp only [List.getElem_map, Function.comp, List.length_map]
      exact (hv _ (List.getElem_mem _)).symm
  refine ⟨_, by rw [scatter, if_pos (by simpa [sameShape] using hshape)], ?_, ?_⟩
  · intro b k p v hk hbv
    have hkl := (List.getElem?_eq_some_iff.1 hk).1
    have hbl := (List.getElem?_eq_some_iff.1 hbv).1
    have hvl := hv v (List.mem_of_getElem? hbv)
    have hvk : v[k]? = some v[k] := List.getElem?_eq_getElem (by omega)
    rw [hvk]
    congr 1
    have hmem : (pos n b p.1 p.2, v[k]) ∈ pairs (idxArray batch n idx) val := by
      unfold pairs
      rw [List.mem_flatMap]
      refine ⟨(idx.map fun p => pos n b p.1 p.2, v), ?_, ?_⟩
      · apply List.mem_of_getElem? (i := b)
        rw [List.getElem?_zip_eq_some]
        refine ⟨?_, hbv⟩
        rw [idxArray_eq _ _ hn, List.getElem?_map, List.getElem?_range (by omega)]
        rfl
      · apply List.mem_of_getElem? (i := k)
        rw [List.getElem?_zip_eq_some]
        exact ⟨by rw [List.getElem?_map, hk]; rfl, hvk⟩
    exact (fold_at _ mat (by rw [pairs_fst _ _ hshape]; exact idx_nodup batch n hn idx hidx hb) _ hmem).symm
  · intro b i j hi hj hnot
    apply fold_other
    intro e he heq
    have he' : e.1 ∈ (idxArray batch n idx).flatten := by
      rw [← pairs_fst _ _ hshape]
      exact List.mem_map_of_mem he
    rw [idxArray_eq _ _ hn] at he'
    obtain ⟨r, hr, hx⟩ := List.mem_flatten.1 he'
    obtain ⟨b', _, rfl⟩ := List.mem_map.1 hr
    obtain ⟨p, hp, hp'⟩ := List.mem_map.1 hx
    rw [heq] at hp'
    obtain ⟨_, h1, h2⟩ := pos_inj (hb p hp).1 (hb p hp).2 hi hj hp'
    exact hnot (by rw [← h1, ← h2]; exact hp)

/-- C120: for every batch size and every size of matrices, each matrix computed on the GPU has exactly the elements of the matrix the CPU computes from the same
row of the inputs. -/
theorem C120_tril (n : Nat) (hn : 0 < n) (diag nonDiag : List (List K)) (hl : nonDiag.length = diag.length)
    (hd : ∀ v ∈ diag, v.length = n) (hnd : ∀ v ∈ nonDiag, v.length = n * (n - 1) / 2) :
    ∃ y, lowerTriangularGpu n diag nonDiag = .ok y ∧
      ∀ (b : Nat) (d nd : List K), diag[b]? = some d → nonDiag[b]? = some nd →
        ∃ m, lowerTriangular d nd = .ok m ∧ ∀ i j, i < n → j < n → y (pos n b i j) = m i j := by
  have hbt : ∀ p ∈ trilIndices n, p.1 < n ∧ p.2 < n := by
    rintro ⟨i, j⟩ hp
    have := mem_tril.1 hp
    exact ⟨this.1, by omega⟩
  have hbd : ∀ p ∈ diagIndices n, p.1 < n ∧ p.2 < n := by
    rintro ⟨i, j⟩ hp
    simp only [diagIndices, List.mem_map, List.mem_range, Prod.mk.injEq] at hp
    omega
  obtain ⟨y1, e1, a1, o1⟩ := scatter_spec diag.length n hn (trilIndices n) (tril_nodup n) hbt nonDiag hl
    (fun v hv => by rw [hnd v hv, tril_length]) (fun _ => (0 : K))
  obtain ⟨y2, e2, a2, o2⟩ := scatter_spec diag.length n hn (diagIndices n) (diag_nodup n) hbd diag rfl
    (fun v hv => by rw [hd v hv]; simp [diagIndices]) y1
  refine ⟨y2, by simp only [lowerTriangularGpu, e1, bind, Except.bind, e2], ?_⟩
  intro b d nd hbd' hbnd
  have hdl := hd d (List.mem_of_getElem? hbd')
  have hndl := hnd nd (List.mem_of_getElem? hbnd)
  obtain ⟨m, hm, m1, m2, m3⟩ := (C61_forward d nd).1 (by rw [hndl, hdl])
  rw [hdl] at m2 m3
  refine ⟨m, hm, ?_⟩
  intro i j hi hj
  have hnotd : i ≠ j → (i, j) ∉ diagIndices n := by
    intro h h'
    simp only [diagIndices, List.mem_map, List.mem_range, Prod.mk.injEq] at h'
    omega
  rcases Nat.lt_trichotomy i j with h | rfl | h
  · rw [m3 i j hi h, o2 b i j hi hj (hnotd (by omega)), o1 b i j hi hj (by rw [mem_tril]; omega)]
  · have := a2 b i (i, i) d (diag_at hi) hbd'
    rw [m1 i (by omega)]
    rw [List.getElem?_eq_getElem (by omega)] at this
    injection this with this
    exact this.symm
  · rw [o2 b i j hi hj (hnotd (by omega))]
    have h1 := a1 b _ (i, j) nd (tril_at n i j hi h) hbnd
    have h2 := m2 i j hi h
    rw [h2] at h1
    injection h1 with h1
    exact h1.symm

/-- C120: the gradients, too. -/
theorem C120_tril_backward (batch n : Nat) (hn : 0 < n) (gy : Nat → K) (b : Nat) (hb : b < batch) :
    (lowerTriangularBackwardGpu batch n gy).1[b]? = some (lowerTriangularBackward n fun i j => gy (pos n b i j)).1 ∧
    (lowerTriangularBackwardGpu batch n gy).2[b]? = some (lowerTriangularBackward n fun i j => gy (pos n b i j)).2 := by
  simp only [lowerTriangularBackwardGpu, lowerTriangularBackward, gather, getAt, idxArray_eq _ _ hn, List.map_map]
  constructor <;>
  · rw [List.getElem?_map, List.getElem?_range hb]
    simp

end Tril

/-! ## Sums -/

theorem foldl_congr {α : Type} (f g : ℝ → α → ℝ) : ∀ (l : List α) (a : ℝ), (∀ x ∈ l, ∀ y, f y x = g y x) → l.foldl f a = l.foldl g a
  | [], _, _ => rfl
  | x :: l, a, h => by
    rw [List.foldl_cons, List.foldl_cons, h x (by simp), foldl_congr f g l _ fun z hz => h z (by simp [hz])]

/-- C120: the sum of contiguous arrays of one shape is, element for element, the same on the GPU. -/
theorem C120_sum (xs : List (Arr ℝ)) (size : Nat) (hc : ∀ x ∈ xs, x.Contiguous size) (i : Nat) (hi : i < size) :
    sumArraysGpu xs i = Functions.sumArraysForward (xs.map fun x => x.at' i) := by
  unfold sumArraysGpu Functions.sumArraysForward
  rw [List.foldl_map]
  apply foldl_congr
  intro x hx y
  show _ = y + x.mem (x.offset i)
  rw [hc x hx i hi]

/-- C120: likewise the weighted sum. -/
theorem C120_weighted (weights : List ℝ) (xs : List (Arr ℝ)) (size : Nat) (hc : ∀ x ∈ xs, x.Contiguous size)
    (i : Nat) (hi : i < size) :
    weightedSumGpu weights xs i = Functions.weightedSumForward weights (xs.map fun x => x.at' i) := by
  unfold weightedSumGpu Functions.weightedSumForward
  generalize (0 : ℝ) = a
  induction xs generalizing weights a with
  | nil => cases weights <;> rfl
  | cons x xs ih =>
    cases weights with
    | nil => rfl
    | cons w ws =>
      simp only [List.zip_cons_cons, List.foldl_cons, List.map_cons, List.zipWith_cons_cons]
      rw [ih ws (fun z hz => hc z (by simp [hz]))]
      congr 1
      show _ = a + w * x.mem (x.offset i)
      rw [hc x (by simp) i hi]
      ring

/-- C120, violated: for arrays that are not contiguous the GPU adds other elements: the sum of a transposed matrix alone is not that matrix.  `x` may be any
matrix that is not symmetric. -/
theorem C120_violated_views (x : Arr ℝ) (n : Nat) (hx : x.Contiguous (n * n)) (i j : Nat) (hi : i < n) (hj : j < n)
    (hne : x.at' (i * n + j) ≠ x.at' (j * n + i)) :
    sumArraysGpu [x.transpose n n] (i * n + j) ≠ Functions.sumArraysForward [(x.transpose n n).at' (i * n + j)] := by
  have hlt : ∀ {i j : Nat}, i < n → j < n → i * n + j < n * n := by
    intro i j h1 h2
    have : (i + 1) * n ≤ n * n := Nat.mul_le_mul_right n h1
    rw [Nat.add_mul] at this
    omega
  have e1 : (i * n + j) % n = j := by rw [Nat.mul_comm, Nat.mul_add_mod, Nat.mod_eq_of_lt hj]
  have e2 : (i * n + j) / n = i := by rw [Nat.mul_comm, Nat.mul_add_div (by omega), Nat.div_eq_of_lt hj, Nat.add_zero]
  have a : (x.transpose n n).at' (i * n + j) = x.at' (j * n + i) := by
    simp only [Arr.at', Arr.transpose, e1, e2]
  have b : (x.transpose n n).mem (i * n + j) = x.at' (i * n + j) := by
    simp only [Arr.at', Arr.transpose, hx _ (hlt hi hj)]
  simp only [sumArraysGpu, Functions.sumArraysForward, List.foldl_cons, List.foldl_nil, a, b, zero_add]
  exact hne

/-- C120: `muladd` and its gradients agree for all arrays. -/
theorem C120_muladd (x y z gw : Arr ℝ) (i : Nat) :
    muladdGpu x y z i = Functions.muladdForward (x.at' i) (y.at' i) (z.at' i) ∧
    muladdBackwardGpu x y z gw i = Functions.muladdBackward (x.at' i) (y.at' i) (z.at' i) (gw.at' i) := ⟨rfl, rfl⟩

/-- C120: after any sequence of gradients the parameter and the optimizer's state are the same on the GPU. -/
theorem C120_rmsprop {ι : Type} (hp : Optimizers.Hyper) (p : Optimizers.Param ι) (gs : List (Option (ι → ℝ))) :
    gs.foldl (fun p g => updateCoreGpu hp { p with grad := g }) p = gs.foldl (fun p g => Optimizers.updateCore hp { p with grad := g }) p := by
  have key : ∀ p : Optimizers.Param ι, updateCoreGpu hp p = Optimizers.updateCore hp p := by
    intro p
    unfold updateCoreGpu Optimizers.updateCore
    cases p.grad with
    | none => rfl
    | some g =>
      have : ∀ i, hp.alpha * p.ms i + (1 - hp.alpha) * g i * g i = p.ms i * hp.alpha + (1 - hp.alpha) * g i * g i := by
        intro i; ring
      simp only [this]
  simp only [key]

/-! ## Concrete cases -/

/-- Two 2x2 matrices. -/
example : ((lowerTriangularGpu 2 [[1, 2], [4, 5]] [[3], [6]] : Py (Nat → ℤ)).toOption.map fun y => (List.range 8).map y) =
    some [1, 0, 3, 2, 4, 0, 6, 5] := by decide

/-- The hypotheses of `C120_violated_views`. -/
example : (⟨fun k => (k : ℝ), id⟩ : Arr ℝ).at' (0 * 2 + 1) ≠ (⟨fun k => (k : ℝ), id⟩ : Arr ℝ).at' (1 * 2 + 0) := by
  simp [Arr.at']

end Verif.Gpu
