import Mathlib.Algebra.BigOperators.Group.List.Basic
import Mathlib.Algebra.BigOperators.Ring.List
import Mathlib.Algebra.Order.BigOperators.Group.List
import Mathlib.Algebra.Order.Floor.Ring
import Mathlib.Data.Rat.Floor
import Mathlib.Tactic.FieldSimp
import Mathlib.Tactic.Linarith
import Mathlib.Tactic.LinearCombination
import Mathlib.Tactic.NormNum
import Mathlib.Tactic.Ring
import Verif.Model.Categorical
import Verif.Spec.Categorical
set_option autoImplicit false
set_option linter.unusedSectionVars false

/-! # C46: the categorical projection -/

namespace Verif.Categorical
variable {K : Type} [Field K] [LinearOrder K] [IsStrictOrderedRing K] [FloorRing K]

/-! ## Scattered sums -/

/-- What the updates `ivs` add to cell `i`. -/
def contrib (ivs : List (Int × K)) (i : Nat) : K :=
  (ivs.map (fun iv => if iv.1 = (i : Int) then iv.2 else 0)).sum

theorem scatterAdd_spec (ivs : List (Int × K)) : ∀ (a : List K),
    (∀ iv ∈ ivs, 0 ≤ iv.1 ∧ iv.1 < a.length) →
    ∃ a', scatterAdd a ivs = .ok a' ∧ a'.length = a.length ∧
      ∀ (i : Nat) x, a[i]? = some x → a'[i]? = some (x + contrib ivs i) := by
  induction ivs with
  | nil => intro a _; exact ⟨a, rfl, rfl, by simp [contrib]⟩
  | cons iv ivs ih =>
    intro a h
    obtain ⟨h0, h1⟩ := h iv (by simp)
    have hidx : pyIndex a.length iv.1 = some iv.1.toNat := by simp [pyIndex, h0, h1]
    obtain ⟨a', e1, e2, e3⟩ := ih (a.modify iv.1.toNat (· + iv.2)) (by
      intro iv' hm
      rw [List.length_modify]
      exact h iv' (by simp [hm]))
    refine ⟨a', ?_, by rw [e2, List.length_modify], ?_⟩
    · simp only [scatterAdd, List.foldlM_cons, addAt, hidx, bind, Except.bind]
      exact e1
    · intro i x hx
      have := e3 i (if iv.1 = (i : Int) then x + iv.2 else x) (by
        rw [List.getElem?_modify, hx]
        by_cases hi : iv.1 = (i : Int)
        · have : iv.1.toNat = i := by omega
          simp [hi]
        · have : iv.1.toNat ≠ i := by omega
          simp [hi, this])
      rw [this]
      simp only [contrib, List.map_cons, List.sum_cons, Option.some.injEq]
      split <;> ring

theorem contrib_append (l₁ l₂ : List (Int × K)) (i : Nat) :
    contrib (l₁ ++ l₂) i = contrib l₁ i + contrib l₂ i := by
  simp [contrib]

theorem contrib_zero (l : List (Int × K)) (i : Nat) (h : ∀ iv ∈ l, iv.1 ≠ (i : Int)) :
    contrib l i = 0 := by
  induction l with
  | nil => rfl
  | cons a l ih =>
    have := h a (by simp)
    simp only [contrib, List.map_cons, List.sum_cons, this, if_false, zero_add]
    exact ih (fun iv hm => h iv (by simp [hm]))

/-- The contribution of the flattened updates to cell `r * n + m`: only row `r`
matters. -/
theorem contrib_flat (b : K → K) (round : K → Int) (weight : K → K) (n : Nat)
    (hr : ∀ y, 0 ≤ round (b y) ∧ round (b y) < n) (m : Nat) (hm : m < n) :
    ∀ (ys ps : List (List K)) (r₀ r : Nat) (yr pr : List K), ys[r]? = some yr → ps[r]? = some pr →
      contrib (flat b round weight n r₀ ys ps) ((r₀ + r) * n + m) =
        (List.zipWith (fun y p => if round (b y) = (m : Int) then p * weight (b y) else 0) yr pr).sum
  | [], ps, r₀, r, yr, pr, hy, hp => by simp at hy
  | y :: ys, [], r₀, r, yr, pr, hy, hp => by simp at hp
  | y :: ys, p :: ps, r₀, r, yr, pr, hy, hp => by
    rw [flat, contrib_append]
    cases r with
    | zero =>
      simp only [List.getElem?_cons_zero, Option.some.injEq] at hy hp
      subst hy hp
      rw [contrib_zero (flat b round weight n (r₀ + 1) ys ps), add_zero]
      · simp only [contrib, List.map_zipWith, Nat.add_zero]
        congr 2
        funext u v
        congr 1
        push_cast
        apply propext
        constructor <;> intro h <;> omega
      · intro iv hiv heq
        exact absurd (flat_lower b round weight n (fun y => (hr y).1) ys ps (r₀ + 1) iv hiv) (by
          rw [heq]; push_cast
          have : (m : Int) < n := by exact_mod_cast hm
          have e : ((r₀ : Int) + 1) * n = (r₀ + 0) * n + n := by ring
          rw [e]; omega)
    | succ r =>
      simp only [List.getElem?_cons_succ] at hy hp
      have ih := contrib_flat b round weight n hr m hm ys ps (r₀ + 1) r yr pr hy hp
      rw [show (r₀ + (r + 1)) * n + m = (r₀ + 1 + r) * n + m by ring, ih, contrib_zero, zero_add]
      intro iv hiv heq
      obtain ⟨i, hi⟩ := List.mem_iff_getElem?.1 hiv
      rw [List.getElem?_zipWith] at hi
      rcases h1 : y[i]? with _ | u
      · rw [h1] at hi; simp at hi
      · rcases h2 : p[i]? with _ | v
        · rw [h1, h2] at hi; simp at hi
        · rw [h1, h2] at hi
          simp only [Option.some.injEq] at hi
          subst hi
          have := (hr u).2
          push_cast at heq
          have e : ((r₀ : Int) + 1 + r) * n = r₀ * n + n + r * n := by ring
          have : (0 : Int) ≤ r * n := by positivity
          rw [e] at heq
          omega
where
  flat_lower (b : K → K) (round : K → Int) (weight : K → K) (n : Nat)
      (hr : ∀ y, 0 ≤ round (b y)) : ∀ (ys ps : List (List K)) (r : Nat),
      ∀ iv ∈ flat b round weight n r ys ps, (r : Int) * n ≤ iv.1
    | [], ps, r, iv, h => by simp [flat] at h
    | y :: ys, [], r, iv, h => by simp [flat] at h
    | y :: ys, p :: ps, r, iv, h => by
      rw [flat, List.mem_append] at h
      rcases h with h | h
      · obtain ⟨i, hi⟩ := List.mem_iff_getElem?.1 h
        rw [List.getElem?_zipWith] at hi
        rcases h1 : y[i]? with _ | u
        · rw [h1] at hi; simp at hi
        · rcases h2 : p[i]? with _ | v
          · rw [h1, h2] at hi; simp at hi
          · rw [h1, h2] at hi
            simp only [Option.some.injEq] at hi
            subst hi
            have := hr u
            push_cast
            omega
      · have := flat_lower b round weight n hr ys ps (r + 1) iv h
        push_cast at this
        have e : ((r : Int) + 1) * n = r * n + n := by ring
        rw [e] at this
        omega

theorem flat_range (b : K → K) (round : K → Int) (weight : K → K) (n : Nat)
    (hr : ∀ y, 0 ≤ round (b y) ∧ round (b y) < n) : ∀ (ys ps : List (List K)) (r : Nat),
    ∀ iv ∈ flat b round weight n r ys ps, 0 ≤ iv.1 ∧ iv.1 < ((r + ys.length) * n : Nat)
  | [], ps, r, iv, h => by simp [flat] at h
  | y :: ys, [], r, iv, h => by simp [flat] at h
  | y :: ys, p :: ps, r, iv, h => by
    rw [flat, List.mem_append] at h
    rcases h with h | h
    · obtain ⟨i, hi⟩ := List.mem_iff_getElem?.1 h
      rw [List.getElem?_zipWith] at hi
      rcases h1 : y[i]? with _ | u
      · rw [h1] at hi; simp at hi
      · rcases h2 : p[i]? with _ | v
        · rw [h1, h2] at hi; simp at hi
        · rw [h1, h2] at hi
          simp only [Option.some.injEq] at hi
          subst hi
          have := hr u
          push_cast [List.length_cons]
          have e : ((r : Int) + (ys.length + 1)) * n = r * n + n + ys.length * n := by ring
          have : (0 : Int) ≤ ys.length * n := by positivity
          have : (0 : Int) ≤ r * n := by positivity
          rw [e]
          constructor <;> omega
    · have := flat_range b round weight n hr ys ps (r + 1) iv h
      rw [List.length_cons]
      rw [show r + (ys.length + 1) = r + 1 + ys.length by omega]
      exact this

theorem toRows_get (n : Nat) : ∀ (R : Nat) (a : List K) (r : Nat), r < R →
    (toRows n R a)[r]? = some ((a.drop (r * n)).take n)
  | 0, a, r, h => by omega
  | R + 1, a, 0, h => by simp [toRows]
  | R + 1, a, r + 1, h => by
    rw [toRows, List.getElem?_cons_succ, toRows_get n R _ r (by omega), List.drop_drop]
    congr 3
    ring

theorem toRows_length (n : Nat) : ∀ (R : Nat) (a : List K), (toRows n R a).length = R
  | 0, a => rfl
  | R + 1, a => by simp [toRows, toRows_length n R]

/-! ## One atom -/

theorem bj_eq (vMin dz : K) (n : Nat) (hn : 2 ≤ n) (hd : 0 < dz) (y : K) :
    bj vMin (vMin + (n - 1) * dz) dz n y = (clipped vMin dz n y - vMin) / dz ∧
    0 ≤ (clipped vMin dz n y - vMin) / dz ∧ (clipped vMin dz n y - vMin) / dz ≤ n - 1 := by
  have hn' : (0 : K) ≤ n - 1 := by
    have : (2 : K) ≤ n := by exact_mod_cast hn
    linarith
  have hM : vMin ≤ vMin + (n - 1) * dz := by
    have := mul_nonneg hn' hd.le
    linarith
  have hc : clip y vMin (vMin + (n - 1) * dz) = clipped vMin dz n y := by
    rw [clip, clipped]
    rcases le_total y vMin with h | h
    · rw [max_eq_right h, min_eq_left hM, min_eq_right (h.trans hM), max_eq_left h]
    · rw [max_eq_left h, min_comm, max_eq_right (le_min hM h)]
  have h1 : vMin ≤ clipped vMin dz n y := le_max_left _ _
  have h2 : clipped vMin dz n y ≤ vMin + (n - 1) * dz := max_le hM (min_le_left _ _)
  have h3 : 0 ≤ (clipped vMin dz n y - vMin) / dz := div_nonneg (by linarith) hd.le
  have h4 : (clipped vMin dz n y - vMin) / dz ≤ n - 1 := by
    rw [div_le_iff₀ hd]; linarith
  refine ⟨?_, h3, h4⟩
  rw [bj, hc, clip, max_eq_left h3, min_eq_left h4]

/-- The two updates of one atom add up to the triangular share. -/
theorem two_updates (b p : K) (m : Nat) :
    (if Int.floor b = (m : Int) then p * (1 - (b - (Int.floor b : K))) else 0) +
      (if Int.ceil b = (m : Int) then p * (b - (Int.floor b : K)) else 0) =
    p * max 0 (1 - |b - m|) := by
  have hf := Int.floor_le b
  have hf' := Int.lt_floor_add_one b
  by_cases h1 : Int.floor b = (m : Int)
  · have hb : ((Int.floor b : Int) : K) = m := by rw [h1]; simp
    rw [hb] at hf hf'
    have habs : |b - m| = b - m := abs_of_nonneg (by linarith)
    rw [if_pos h1, hb, habs, max_eq_right (by linarith)]
    by_cases h2 : Int.ceil b = (m : Int)
    · have : b ≤ m := by
        have := Int.le_ceil b
        rw [h2] at this
        simpa using this
      have : b = m := le_antisymm this hf
      rw [if_pos h2, this]; ring
    · rw [if_neg h2, add_zero]
  · rw [if_neg h1, zero_add]
    by_cases h2 : Int.ceil b = (m : Int)
    · have hc : b ≤ m := by
        have := Int.le_ceil b
        rw [h2] at this
        simpa using this
      have hfm : Int.floor b = (m : Int) - 1 := by
        have a1 : Int.floor b ≤ Int.ceil b := Int.floor_le_ceil b
        have a2 : Int.ceil b ≤ Int.floor b + 1 := Int.ceil_le_floor_add_one b
        omega
      have hb : ((Int.floor b : Int) : K) = m - 1 := by rw [hfm]; push_cast; ring
      rw [hb] at hf hf'
      have habs : |b - m| = m - b := by rw [abs_sub_comm]; exact abs_of_nonneg (by linarith)
      rw [if_pos h2, hb, habs, max_eq_right (by linarith)]
      ring
    · rw [if_neg h2, max_eq_left, mul_zero]
      by_contra hlt
      push Not at hlt
      have habs : |b - m| < 1 := by linarith
      rw [abs_lt] at habs
      rcases le_total b m with hle | hle
      · apply h2
        rw [Int.ceil_eq_iff]
        push_cast
        exact ⟨by linarith [habs.1], hle⟩
      · apply h1
        rw [Int.floor_eq_iff]
        push_cast
        exact ⟨hle, by linarith [habs.2]⟩

theorem sum_zipWith_add (f g : K → K → K) : ∀ (l₁ l₂ : List K),
    (List.zipWith f l₁ l₂).sum + (List.zipWith g l₁ l₂).sum =
      (List.zipWith (fun a b => f a b + g a b) l₁ l₂).sum
  | [], l₂ => by simp
  | a :: l₁, [] => by simp
  | a :: l₁, b :: l₂ => by
    simp only [List.zipWith_cons_cons, List.sum_cons]
    rw [← sum_zipWith_add f g l₁ l₂]; ring

theorem support_get (vMin dz : K) (n i : Nat) (h : i < n) :
    (support vMin dz n)[i]? = some (vMin + i * dz) := by
  simp [support, h]

/-- **C46**: on an evenly spaced support of at least two atoms the projection
succeeds for every batch of atom values and probabilities, and each row of the
result is the projection of that row as the paper defines it. -/
theorem C46_paper (vMin dz : K) (n : Nat) (hn : 2 ≤ n) (hd : 0 < dz) (y p : List (List K))
    (hlen : p.length = y.length) (hy : ∀ r ∈ y, r.length = n) (hp : ∀ r ∈ p, r.length = n) :
    ∃ out, project y p (support vMin dz n) = .ok out ∧ out.length = y.length ∧
      ∀ (r : Nat) yr pr, y[r]? = some yr → p[r]? = some pr →
        out[r]? = some (paperRow vMin dz n yr pr) := by
  have hz : (support vMin dz n).length = n := by simp [support]
  have hz0 : pyGet (support vMin dz n) 0 = .ok vMin := by
    have h1 : pyIndex n 0 = some 0 := by
      simp [pyIndex, show 0 < n by omega]
    simp only [pyGet, hz, h1, support_get vMin dz n 0 (by omega)]
    simp
  have hz1 : pyGet (support vMin dz n) 1 = .ok (vMin + dz) := by
    have h1 : pyIndex n 1 = some 1 := by
      simp only [pyIndex]
      rw [if_pos (by omega), if_pos (by omega)]
      rfl
    simp only [pyGet, hz, h1, support_get vMin dz n 1 (by omega)]
    simp
  have hzl : pyGet (support vMin dz n) (-1) = .ok (vMin + (n - 1) * dz) := by
    have h1 : pyIndex n (-1) = some (n - 1) := by
      simp only [pyIndex]
      rw [if_neg (by omega), if_pos (by omega)]
      congr 1; omega
    simp only [pyGet, hz, h1, support_get vMin dz n (n - 1) (by omega)]
    rw [Nat.cast_sub (by omega)]
    simp
  set b := bj vMin (vMin + (n - 1) * dz) dz n with hb
  have hrange : ∀ u, 0 ≤ b u ∧ b u ≤ n - 1 := by
    intro u
    obtain ⟨h1, h2, h3⟩ := bj_eq vMin dz n hn hd u
    rw [hb, h1]; exact ⟨h2, h3⟩
  have hfl : ∀ u, 0 ≤ Int.floor (b u) ∧ Int.floor (b u) < n := by
    intro u
    obtain ⟨h1, h2⟩ := hrange u
    refine ⟨Int.floor_nonneg.2 h1, ?_⟩
    rw [Int.floor_lt]
    push_cast
    linarith
  have hce : ∀ u, 0 ≤ Int.ceil (b u) ∧ Int.ceil (b u) < n := by
    intro u
    obtain ⟨h1, h2⟩ := hrange u
    refine ⟨(hfl u).1.trans (Int.floor_le_ceil _), ?_⟩
    have : Int.ceil (b u) ≤ (n : Int) - 1 := by
      rw [Int.ceil_le]; push_cast; exact h2
    omega
  obtain ⟨a, ha1, ha2, ha3⟩ := scatterAdd_spec
    (flat b Int.floor (fun x => 1 - (x - (Int.floor x : K))) n 0 y p)
    (List.replicate (y.length * n) 0) (by
      intro iv hiv
      have := flat_range b Int.floor _ n hfl y p 0 iv hiv
      simpa using this)
  obtain ⟨a', hb1, hb2, hb3⟩ := scatterAdd_spec
    (flat b Int.ceil (fun x => x - (Int.floor x : K)) n 0 y p) a (by
      intro iv hiv
      have := flat_range b Int.ceil _ n hce y p 0 iv hiv
      rw [ha2]
      simpa using this)
  refine ⟨toRows n y.length a', ?_, toRows_length _ _ _, ?_⟩
  · have hya : (y.all fun r => r.length == n) = true := by
      simpa using hy
    have hpa : (p.length == y.length && p.all fun r => r.length == n) = true := by
      simpa [hlen] using hp
    simp only [project, hz, hya, hpa, pyAssert, if_true, hz0, hz1, hzl, bind, Except.bind, pure,
      Except.pure, show vMin + dz - vMin = dz by ring, ← hb, ha1, hb1]
  · intro r yr pr hyr hpr
    have hr : r < y.length := (List.getElem?_eq_some_iff.1 hyr).1
    rw [toRows_get n y.length a' r hr, Option.some.injEq]
    apply List.ext_getElem?
    intro m
    by_cases hm : m < n
    · rw [List.getElem?_take_of_lt hm, List.getElem?_drop]
      have hcell : r * n + m < y.length * n := by
        calc r * n + m < r * n + n := by omega
          _ = (r + 1) * n := by ring
          _ ≤ y.length * n := Nat.mul_le_mul_right n hr
      have h0 : (List.replicate (y.length * n) (0 : K))[r * n + m]? = some 0 := by
        simp [hcell]
      have h1 := hb3 _ _ (ha3 _ _ h0)
      have c1 := contrib_flat b Int.floor (fun x => 1 - (x - (Int.floor x : K))) n hfl m hm y p 0 r
        yr pr hyr hpr
      have c2 := contrib_flat b Int.ceil (fun x => x - (Int.floor x : K)) n hce m hm y p 0 r
        yr pr hyr hpr
      rw [Nat.zero_add] at c1 c2
      rw [h1, c1, c2, zero_add, sum_zipWith_add]
      simp only [paperRow, List.getElem?_map, List.getElem?_range hm, Option.map_some]
      congr 3
      funext u v
      rw [two_updates, share, hb, (bj_eq vMin dz n hn hd u).1]
      congr 3
      rw [← abs_of_pos hd, ← abs_div, abs_of_pos hd]
      congr 1
      field_simp
      ring
    · rw [List.getElem?_eq_none (by simp; omega), List.getElem?_eq_none (by simp [paperRow]; omega)]

/-! ## Consequences for each row -/

theorem sum_range_ite (n : Nat) (i : Nat) (hi : i < n) (f : Nat → K) :
    ((List.range n).map (fun m => if i = m then f m else 0)).sum = f i := by
  induction n with
  | zero => omega
  | succ n ih =>
    rw [List.range_succ, List.map_append, List.sum_append]
    by_cases h : i = n
    · subst h
      have : ((List.range i).map (fun m => if i = m then f m else 0)).sum = 0 := by
        apply List.sum_eq_zero
        intro x hx
        obtain ⟨m, hm, rfl⟩ := List.mem_map.1 hx
        rw [if_neg]
        rw [List.mem_range] at hm; omega
      rw [this]; simp
    · rw [ih (by omega)]; simp [h]

/-- The shares of one atom over the support have total 1 and mean the clipped value. -/
theorem share_sums (vMin dz : K) (n : Nat) (hn : 2 ≤ n) (hd : 0 < dz) (y : K) :
    ((List.range n).map (fun m => share vMin dz n y m)).sum = 1 ∧
    ((List.range n).map (fun (m : Nat) => share vMin dz n y m * (vMin + m * dz))).sum = clipped vMin dz n y := by
  obtain ⟨-, h2, h3⟩ := bj_eq vMin dz n hn hd y
  set b := (clipped vMin dz n y - vMin) / dz with hb
  have hy : clipped vMin dz n y = vMin + b * dz := by rw [hb]; field_simp; ring
  have hs : ∀ m : Nat, share vMin dz n y m =
      (if Int.floor b = (m : Int) then (1 - (b - (Int.floor b : K))) else 0) +
      (if Int.ceil b = (m : Int) then (b - (Int.floor b : K)) else 0) := by
    intro m
    have := two_updates b 1 m
    simp only [one_mul] at this
    rw [this, share, hy]
    congr 2
    rw [show vMin + b * dz - (vMin + m * dz) = (b - m) * dz by ring, abs_mul, abs_of_pos hd]
    field_simp
  obtain ⟨l, hl⟩ := Int.eq_ofNat_of_zero_le (Int.floor_nonneg.2 h2)
  have hu0 : 0 ≤ Int.ceil b := (Int.floor_nonneg.2 h2).trans (Int.floor_le_ceil _)
  obtain ⟨u, hu⟩ := Int.eq_ofNat_of_zero_le hu0
  have hln : l < n := by
    have : Int.floor b < n := by rw [Int.floor_lt]; push_cast; linarith
    omega
  have hun : u < n := by
    have : Int.ceil b ≤ (n : Int) - 1 := by rw [Int.ceil_le]; push_cast; exact h3
    omega
  have hlK : ((Int.floor b : Int) : K) = l := by rw [hl]; simp
  have hs' : ∀ m : Nat, share vMin dz n y m =
      (if l = m then (1 - (b - l)) else 0) + (if u = m then (b - l) else 0) := by
    intro m
    rw [hs m, hl, hu]
    simp only [Int.natCast_inj, Int.cast_natCast]
  constructor
  · simp only [hs', List.sum_map_add]
    rw [sum_range_ite n l hln (fun _ => 1 - (b - l)), sum_range_ite n u hun (fun _ => b - l)]
    ring
  · simp only [hs', add_mul, List.sum_map_add, ite_mul, zero_mul]
    rw [sum_range_ite n l hln (fun m => (1 - (b - l)) * (vMin + m * dz)),
      sum_range_ite n u hun (fun m => (b - l) * (vMin + m * dz)), hy]
    have hlu : u = l ∧ b = l ∨ u = l + 1 := by
      have a1 : Int.floor b ≤ Int.ceil b := Int.floor_le_ceil b
      have a2 : Int.ceil b ≤ Int.floor b + 1 := Int.ceil_le_floor_add_one b
      have : u = l ∨ u = l + 1 := by omega
      rcases this with h | h
      · left
        refine ⟨h, le_antisymm ?_ ?_⟩
        · have := Int.le_ceil b
          rw [hu, h] at this
          simpa using this
        · have := Int.floor_le b
          rw [hl] at this
          simpa using this
      · right; exact h
    rcases hlu with ⟨h, hbl⟩ | h
    · rw [h, hbl]; ring
    · rw [h]; push_cast; ring

theorem sum_swap (n : Nat) (f : K → Nat → K) (w : Nat → K) : ∀ (yr pr : List K),
    ((List.range n).map (fun m => (List.zipWith (fun y p => p * f y m) yr pr).sum * w m)).sum =
      (List.zipWith (fun y p => p * ((List.range n).map (fun m => f y m * w m)).sum) yr pr).sum
  | [], pr => by simp
  | y :: yr, [] => by simp
  | y :: yr, p :: pr => by
    simp only [List.zipWith_cons_cons, List.sum_cons, add_mul, List.sum_map_add]
    rw [sum_swap n f w yr pr, ← List.sum_map_mul_left]
    congr 2
    apply List.map_congr_left
    intro m _
    ring

theorem sum_zip_right : ∀ (yr pr : List K), yr.length = pr.length →
    (List.zipWith (fun _ p => p) yr pr).sum = pr.sum
  | [], [], _ => rfl
  | y :: yr, p :: pr, h => by
    simp only [List.zipWith_cons_cons, List.sum_cons]
    rw [sum_zip_right yr pr (by simpa using h)]
  | [], p :: pr, h => by simp at h
  | y :: yr, [], h => by simp at h

/-- **C46**: each projected row has the total mass of its input row, is
nonnegative if the input is, and its mean is the mean of the clipped atoms. -/
theorem C46_row (vMin dz : K) (n : Nat) (hn : 2 ≤ n) (hd : 0 < dz) (y p out : List (List K))
    (hlen : p.length = y.length) (hy : ∀ r ∈ y, r.length = n) (hp : ∀ r ∈ p, r.length = n)
    (hout : project y p (support vMin dz n) = .ok out)
    (r : Nat) (yr pr : List K) (hyr : y[r]? = some yr) (hpr : p[r]? = some pr) :
    ∃ o, out[r]? = some o ∧ o.length = n ∧ o.sum = pr.sum ∧ ((∀ x ∈ pr, 0 ≤ x) → ∀ x ∈ o, 0 ≤ x) ∧
      (List.zipWith (· * ·) o (support vMin dz n)).sum =
        (List.zipWith (fun u x => x * clipped vMin dz n u) yr pr).sum := by
  obtain ⟨out', h1, -, h3⟩ := C46_paper vMin dz n hn hd y p hlen hy hp
  rw [hout] at h1
  simp only [Except.ok.injEq] at h1
  subst h1
  have hl : yr.length = pr.length := by
    rw [hy yr (List.mem_of_getElem? hyr), hp pr (List.mem_of_getElem? hpr)]
  refine ⟨_, h3 r yr pr hyr hpr, by simp [paperRow], ?_, ?_, ?_⟩
  · have := sum_swap n (fun y m => share vMin dz n y m) (fun _ => (1 : K)) yr pr
    simp only [mul_one] at this
    rw [paperRow, this]
    simp only [(share_sums vMin dz n hn hd _).1, mul_one]
    exact sum_zip_right yr pr hl
  · intro hpos x hx
    obtain ⟨m, -, rfl⟩ := List.mem_map.1 hx
    apply List.sum_nonneg
    intro v hv
    obtain ⟨i, hi⟩ := List.mem_iff_getElem?.1 hv
    rw [List.getElem?_zipWith] at hi
    rcases g1 : yr[i]? with _ | a
    · rw [g1] at hi; simp at hi
    · rcases g2 : pr[i]? with _ | c
      · rw [g1, g2] at hi; simp at hi
      · rw [g1, g2] at hi
        simp only [Option.some.injEq] at hi
        rw [← hi]
        exact mul_nonneg (hpos c (List.mem_of_getElem? g2)) (le_max_left _ _)
  · have := sum_swap n (fun y m => share vMin dz n y m) (fun m => vMin + m * dz) yr pr
    simp only [(share_sums vMin dz n hn hd _).2] at this
    rw [← this, paperRow, support, List.zipWith_map]
    congr 1
    rw [List.zipWith_self]

/-- **C46**, no atom clipped: the mean is conserved. -/
theorem C46_mean (vMin dz : K) (n : Nat) (hn : 2 ≤ n) (hd : 0 < dz) (y p out : List (List K))
    (hlen : p.length = y.length) (hy : ∀ r ∈ y, r.length = n) (hp : ∀ r ∈ p, r.length = n)
    (hout : project y p (support vMin dz n) = .ok out)
    (r : Nat) (yr pr o : List K) (hyr : y[r]? = some yr) (hpr : p[r]? = some pr)
    (ho : out[r]? = some o) (hin : ∀ u ∈ yr, vMin ≤ u ∧ u ≤ vMin + (n - 1) * dz) :
    (List.zipWith (· * ·) o (support vMin dz n)).sum = (List.zipWith (· * ·) pr yr).sum := by
  obtain ⟨o', h1, -, -, -, h5⟩ := C46_row vMin dz n hn hd y p out hlen hy hp hout r yr pr hyr hpr
  rw [ho, Option.some.injEq] at h1
  subst h1
  rw [h5]
  congr 1
  apply List.ext_getElem?
  intro i
  rw [List.getElem?_zipWith, List.getElem?_zipWith]
  rcases g1 : yr[i]? with _ | u
  · cases pr[i]? <;> rfl
  · rcases pr[i]? with _ | c
    · rfl
    · obtain ⟨a1, a2⟩ := hin u (List.mem_of_getElem? g1)
      simp only [clipped, min_eq_right a2, max_eq_right a1]

omit [IsStrictOrderedRing K] in
/-- **C46**: inputs of the wrong shape are rejected. -/
theorem C46_shape (y p : List (List K)) (z : List K)
    (h : ¬ ((∀ r ∈ y, r.length = z.length) ∧ p.length = y.length ∧ ∀ r ∈ p, r.length = z.length)) :
    project y p z = .error .assertionError := by
  by_cases h1 : ∀ r ∈ y, r.length = z.length
  · have h2 : ¬ ((p.length == y.length && p.all fun r => r.length == z.length) = true) := by
      intro h3
      apply h
      simp only [Bool.and_eq_true, beq_iff_eq, List.all_eq_true] at h3
      exact ⟨h1, h3⟩
    simp only [project, pyAssert]
    rw [if_neg h2]
    split <;> rfl
  · have h2 : ¬ ((y.all fun r => r.length == z.length) = true) := by
      simpa using h1
    simp only [project, pyAssert]
    rw [if_neg h2]

/-! ## Non-vacuity -/

example : project [[(-5 : ℚ), 1/2, 3], [1, 1, 1]] [[1/4, 1/4, 1/2], [1/3, 1/3, 1/3]]
    (support 0 1 3) = .ok [[1/4 + 1/8, 1/8, 1/2], [0, 1, 0]] := by decide +kernel
example : support (0 : ℚ) 1 3 = [0, 1, 2] := by decide +kernel

end Verif.Categorical
