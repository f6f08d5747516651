import Verif.Proofs.Float64Range
import Verif.Proofs.PrioritizedBuffer
import Mathlib.Tactic.IntervalCases
import Mathlib.Tactic.NormNum
set_option autoImplicit false
set_option linter.unusedSectionVars false
set_option exponentiation.threshold 1100

/-!
# C142: prioritized sampling in the floating-point arithmetic of Python

The models of C04–C11 run over any field; here the same definitions run over `float`
(`Model/Float64.lean`).
-/

namespace Verif
open Node ListQueue TreeQueue Float64

/-- The number a `float` stands for. -/
def F64.toRat (x : F64) : ℚ := (x.m : ℚ) / 2 ^ 1074

/-- C142: rounding never touches the contents.  After every history of `append`, `popleft` and
index assignment of `float`s, the queue of sums and the queue of minima return and show exactly what
a plain list does, bit for bit. -/
theorem C142_contents (ops : List (TreeQueue.Op F64)) :
    let q := (TreeQueue.init : TreeQueue F64).run List.sum ops
    let p := (TreeQueue.init : TreeQueue F64).run listMin ops
    let l := ListQueue.run [] ops
    q.2 = l.2 ∧ Shows List.sum q.1 l.1 ∧ p.2 = l.2 ∧ Shows listMin p.1 l.1 ∧
    (l.1 ≠ [] → ∃ m ∈ l.1, p.1.rootValue = some m ∧ ∀ x ∈ l.1, m ≤ x) := by
  obtain ⟨h1, h2⟩ := run_holds f64_sum_single ops TreeQueue.init [] (holds_init _)
  obtain ⟨h3, h4⟩ := run_holds (min_law (K := F64)).single ops TreeQueue.init [] (holds_init _)
  have hr := rootValue_holds min_law _ _ h3
  refine ⟨h2, holds_shows _ _ _ h1, h4, holds_shows _ _ _ h3, ?_⟩
  intro h
  obtain ⟨m1, m2⟩ := listMin_spec _ h
  exact ⟨_, m1, by rw [hr, if_neg h], m2⟩

/-- C142: the total the queue of sums reports is the exact total of its elements up to the rounding
of `h` additions, where `2 ^ h` is at most four times the largest number of elements it ever held:
for a million elements, the relative error is below `22 · 2⁻⁵³`. -/
theorem C142_total (ops : List (TreeQueue.Op F64)) (N : Nat)
    (hN : ∀ k, (ListQueue.run ([] : List F64) (ops.take k)).1.length ≤ N) :
    let q := ((TreeQueue.init : TreeQueue F64).run List.sum ops).1
    let S := ((ListQueue.run [] ops).1.map F64.toRat).sum
    ∃ h : Nat, 2 ^ h ≤ 4 * N + 1 ∧
      (1 - 1 / 2 ^ 53) ^ h * S ≤ (SumTree.sum q).toRat ∧
      (SumTree.sum q).toRat ≤ (1 + 1 / 2 ^ 53) ^ h * S := by
  intro q S
  have hS : S = (totalM (ListQueue.run [] ops).1 : ℚ) / 2 ^ 1074 := by
    simp only [S, totalM]
    generalize (ListQueue.run [] ops).1 = xs
    induction xs with
    | nil => simp
    | cons x xs ih => simp only [List.map_cons, List.sum_cons, ih, F64.toRat]; push_cast; ring
  obtain ⟨h1, -⟩ := run_holds f64_sum_single ops TreeQueue.init [] (holds_init _)
  have hw : width q ≤ 4 * N := run_width _ f64_sum_single N ops _ _ (holds_init _)
    (by simp [width, TreeQueue.init]) hN
  change Holds List.sum q _ at h1
  generalize (ListQueue.run [] ops).1 = xs at *
  obtain ⟨hlen, ht⟩ := h1
  cases htree : q.tree with
  | none =>
    rw [htree] at ht
    subst ht
    refine ⟨0, by simp, ?_⟩
    have h0 : SumTree.sum q = 0 := by
      have : q.length = 0 := by simpa using hlen
      simp [SumTree.sum, TreeQueue.rootValue, this]
    rw [h0, hS]
    simp [F64.toRat, F64.zero_m, totalM]
  | some tr =>
    obtain ⟨root, l, r⟩ := tr
    rw [htree] at ht
    obtain ⟨hne, h, th, _⟩ := ht
    have hun := holds_unitSum h root l r xs th
    have hpos : q.length ≠ 0 := by
      rw [hlen]
      exact fun h => hne (List.length_eq_zero_iff.1 h)
    have hsum : (SumTree.sum q).m = slotM root.value? := by
      simp only [SumTree.sum, TreeQueue.rootValue, if_neg hpos, htree]
      cases root.value? <;> rfl
    obtain ⟨e1, e2⟩ := value_err h root th.shaped
    rw [hun, ← hsum] at e1 e2
    refine ⟨h, ?_, ?_, ?_⟩
    · simp only [width, htree, th.hr] at hw
      have : (2 : Int) ^ h ≤ 4 * N := by omega
      have : 2 ^ h ≤ 4 * N := by exact_mod_cast this
      omega
    · rw [hS, F64.toRat, ← mul_div_assoc]
      refine div_le_div_of_nonneg_right ?_ (by positivity)
      have e3 : ((2 ^ 53 - 1 : ℕ) : ℚ) ^ h * (totalM xs : ℚ) ≤ (2 ^ 53) ^ h * ((SumTree.sum q).m : ℚ) := by
        exact_mod_cast e2
      have e4 : ((2 ^ 53 - 1 : ℕ) : ℚ) = 2 ^ 53 * (1 - 1 / 2 ^ 53) := by norm_num
      rw [e4, mul_pow, mul_assoc] at e3
      exact le_of_mul_le_mul_left e3 (by positivity)
    · rw [hS, F64.toRat, ← mul_div_assoc]
      refine div_le_div_of_nonneg_right ?_ (by positivity)
      have e3 : (2 ^ 53 : ℚ) ^ h * ((SumTree.sum q).m : ℚ) ≤ ((2 ^ 53 + 1 : ℕ) : ℚ) ^ h * (totalM xs : ℚ) := by
        exact_mod_cast e1
      have e4 : ((2 ^ 53 + 1 : ℕ) : ℚ) = 2 ^ 53 * (1 + 1 / 2 ^ 53) := by norm_num
      rw [e4, mul_pow, mul_assoc] at e3
      exact le_of_mul_le_mul_left e3 (by positivity)

-- the bound for a million elements
example (h : Nat) (hh : 2 ^ h ≤ 4 * 10 ^ 6 + 1) :
    (1 + 1 / 2 ^ 53 : ℚ) ^ h < 1 + 22 / 2 ^ 53 ∧ 1 - 22 / 2 ^ 53 < (1 - 1 / 2 ^ 53 : ℚ) ^ h := by
  have h22 : h < 22 := by
    by_contra hc
    have := Nat.pow_le_pow_right (n := 2) (by omega) (Nat.le_of_not_lt hc)
    omega
  interval_cases h <;> norm_num

/-- C142: sampling is right as long as the sums need no rounding.  When all priorities are multiples
of a power of two `2 ^ k` units whose total stays below `2 ^ 53` times it (and no positive one is as
small as 2⁻¹⁰²¹), the reported total is exact and drawing, with whatever variates of
`numpy.random`, as many elements as there are positive ones or fewer returns distinct elements of
the queue with positive priorities; afterwards the queue shows what it showed, or with
`remove=True` zeros at the drawn places. -/
theorem C142_sampling_partial (ops : List (TreeQueue.Op F64)) (us : List F64) (remove : Bool) (k : Nat)
    (hd : ∀ x ∈ (ListQueue.run ([] : List F64) ops).1, 2 ^ k ∣ x.m)
    (hb : ((ListQueue.run ([] : List F64) ops).1.map F64.m).sum < 2 ^ (53 + k))
    (hs : ∀ x ∈ (ListQueue.run ([] : List F64) ops).1, x = 0 ∨ 2 ^ 53 ≤ x.m)
    (hu : ∀ u ∈ us, ∃ j hj, u = F64.variate j hj)
    (hn : us.length ≤ (ListQueue.run ([] : List F64) ops).1.countP (fun x => decide (0 < x))) :
    let q := ((TreeQueue.init : TreeQueue F64).run List.sum ops).1
    let xs := (ListQueue.run ([] : List F64) ops).1
    (SumTree.sum q).toRat = (xs.map F64.toRat).sum ∧
    ∃ (ixs : List Nat) (q' : TreeQueue F64) (ys : List F64),
      SumTree.prioritizedSample q us remove
        = .ok (ixs.map Int.ofNat, ixs.map (fun i => xs[i]?), q') ∧
      ixs.length = us.length ∧ ixs.Nodup ∧ (∀ i ∈ ixs, ∃ x, xs[i]? = some x ∧ 0 < x) ∧
      Shows List.sum q' ys ∧
      (remove = false → ys = xs) ∧
      (remove = true → ∀ j, ys[j]? = if j ∈ ixs then some 0 else xs[j]?) := by
  intro q xs
  obtain ⟨hq, -⟩ := run_holds f64_sum_single ops TreeQueue.init [] (holds_init _)
  have hx : ExactAt k xs := ⟨hd, hb, fun x h => by
    rcases hs x h with h | h
    · rw [h]; exact .inl rfl
    · exact .inr h⟩
  constructor
  · have hS : (xs.map F64.toRat).sum = (totalM xs : ℚ) / 2 ^ 1074 := by
      simp only [totalM]
      clear_value xs
      clear hb hn hs hd hx
      induction xs with
      | nil => simp
      | cons x xs ih => simp only [List.map_cons, List.sum_cons, ih, F64.toRat]; push_cast; ring
    rw [hS, F64.toRat]
    congr 2
    obtain ⟨hlen, ht⟩ := hq
    cases htree : q.tree with
    | none =>
      rw [htree] at ht
      have hxs : xs = [] := ht
      have : q.length = 0 := by rw [hlen]; exact List.length_eq_zero_iff.2 hxs
      rw [hxs]
      simp [SumTree.sum, TreeQueue.rootValue, this, totalM, F64.zero_m]
    | some tr =>
      obtain ⟨root, l, r⟩ := tr
      rw [htree] at ht
      obtain ⟨hne, h, th, _⟩ := ht
      have hun := holds_unitSum h root l r xs th
      have hpos : q.length ≠ 0 := by
        rw [hlen]
        exact fun h => hne (List.length_eq_zero_iff.1 h)
      have hsum : (SumTree.sum q).m = slotM root.value? := by
        simp only [SumTree.sum, TreeQueue.rootValue, if_neg hpos, htree]
        cases root.value? <;> rfl
      rw [hsum, ← hun]
      exact value_exact k h root th.shaped (holds_dvd k h root l r xs th hd) (by rw [hun]; exact hb)
  · obtain ⟨ixs, q1, e1, e2, e3, e4, e5⟩ := sampleLoop_exact k us q xs hq hx hu hn
    have hz := zeroAt_spec xs ixs
    unfold SumTree.prioritizedSample
    rw [e1]
    have e5' : ∀ i ∈ ixs, ∃ x, xs[i]? = some x ∧ 0 < x := fun i hi => by
      obtain ⟨h, hp⟩ := e5 i hi
      exact ⟨xs[i], List.getElem?_eq_getElem h, hp⟩
    cases remove with
    | true =>
      refine ⟨ixs, q1, _, rfl, e3, e4, e5', holds_shows _ _ _ e2, by simp, fun _ j => ?_⟩
      rw [hz.2 j]
      by_cases hj : j ∈ ixs
      · rw [if_pos ⟨hj, (e5 j hj).1⟩, if_pos hj]
      · rw [if_neg (fun h => hj h.1), if_neg hj]
    | false =>
      obtain ⟨q2, f1, f2⟩ := restoreLoop_spec ixs q1 xs (zeroAt xs ixs) e2 hz.1
        (fun i hi => (e5 i hi).1) (fun j hj => by rw [hz.2, if_neg (fun h => hj h.1)])
      exact ⟨ixs, q2, xs, by simp [f1], e3, e4, e5', holds_shows _ _ _ f2, fun _ => rfl, by simp⟩

/-- C142: whatever the priorities, all but 126 of the 2⁵³ variates of `numpy.random` are safe.  When
a queue that never held more than 2⁶⁰ elements has at least `n` positive priorities above the
subnormal range (2⁻¹⁰²¹), drawing `n` times with variates at most `1 - 126 / 2⁵³` raises nothing and
every draw ends at an element of the queue with its priority, also with arbitrary rounding. -/
theorem C142_in_range (ops : List (TreeQueue.Op F64)) (us : List F64) (remove : Bool)
    (hN : ∀ k, (ListQueue.run ([] : List F64) (ops.take k)).1.length ≤ 2 ^ 60)
    (hu : ∀ u ∈ us, ∃ j hj, u = F64.variate j hj ∧ j + 126 ≤ 2 ^ 53)
    (hn : us.length ≤ (ListQueue.run ([] : List F64) ops).1.countP (fun x => decide (2 ^ 53 ≤ x.m))) :
    let q := ((TreeQueue.init : TreeQueue F64).run List.sum ops).1
    let xs := (ListQueue.run ([] : List F64) ops).1
    ∃ (ixs : List Nat) (ps : List F64) (q' : TreeQueue F64) (ys : List F64),
      SumTree.prioritizedSample q us remove = .ok (ixs.map Int.ofNat, ps.map some, q') ∧
      ixs.length = us.length ∧ ps.length = us.length ∧ (∀ i ∈ ixs, i < xs.length) ∧
      Shows List.sum q' ys ∧ ys.length = xs.length := by
  intro q xs
  obtain ⟨hq, -⟩ := run_holds f64_sum_single ops TreeQueue.init [] (holds_init _)
  have hw : width q ≤ 4 * ((2 ^ 60 : Nat) : Int) := run_width _ f64_sum_single (2 ^ 60) ops _ _ (holds_init _)
    (by simp [width, TreeQueue.init]) hN
  obtain ⟨ixs, ps, q1, ys, e1, e2, e3, e4, e5, e6⟩ := sampleLoop_range us q xs hq
    (by push_cast at hw; omega) hu hn
  unfold SumTree.prioritizedSample
  rw [e1]
  cases remove with
  | true => exact ⟨ixs, ps, q1, ys, rfl, e4, e5, e6, holds_shows _ _ _ e2, e3⟩
  | false =>
    obtain ⟨q2, zs, f1, f2, f3⟩ := restoreLoop_range ixs ps q1 ys e2 (by omega) (by rw [e3]; exact e6)
    exact ⟨ixs, ps, q2, zs, by simp [f1], e4, e5, e6, holds_shows _ _ _ f2, f3.trans e3⟩

/-- `j · 2 ^ e` units. -/
def F64.ofUnits (j e : Nat) (h : j < 2 ^ 53) : F64 := ⟨j * 2 ^ e, Float64.round_shift j e h⟩

/-- 0.25, 0.25 + 3·2⁻⁵³ and 1 + 2⁻⁵¹ … -/
def fA : F64 := .ofUnits 1 1072 (by decide)
def fB : F64 := .ofUnits (2 ^ 51 + 3) 1021 (by decide)
def fC : F64 := .ofUnits (2 ^ 51 + 1) 1023 (by decide)
/-- … and the largest variate of `numpy.random`, 1 − 2⁻⁵³. -/
def fU : F64 := .variate (2 ^ 53 - 1) (by decide)

example : fA.toRat = 1 / 4 ∧ fB.toRat = 1 / 4 + 3 / 2 ^ 53 ∧ fC.toRat = 1 + 1 / 2 ^ 51 ∧
    fU.toRat = 1 - 1 / 2 ^ 53 ∧ (1 : F64).toRat = 1 := by
  refine ⟨?_, ?_, ?_, ?_, ?_⟩
  · simp only [F64.toRat, fA, F64.ofUnits]; norm_num
  · simp only [F64.toRat, fB, F64.ofUnits]; norm_num
  · simp only [F64.toRat, fC, F64.ofUnits]; norm_num
  · simp only [F64.toRat, fU, F64.variate]; norm_num
  · have : (1 : F64).m = 2 ^ 1074 := by decide +kernel
    rw [F64.toRat, this]; norm_num

/-- C142, what fails: with rounding, a buffer of three items with positive priorities can raise an
error when sampled: the draw ends at the fourth, empty, slot of the tree and the priority found
there is `None`. -/
theorem C142_violated_range :
    ((do
      let b ← (PBuf.init none true 1 : PBuf String F64).append "a" (some fA)
      let b ← b.append "b" (some fB)
      let b ← b.append "c" (some fC)
      let (sampled, _) ← b.sample 0 ⟨[], [fU]⟩
      pure sampled : Py (List String))) = .error .typeError := by decide +kernel

/-- C142, what fails: a batch of two drawn without replacement from four items with positive
priorities can contain the same item twice. -/
theorem C142_violated_repeat :
    ((do
      let b ← (PBuf.init none true 1 : PBuf String F64).append "a" (some fA)
      let b ← b.append "b" (some fB)
      let b ← b.append "c" (some fC)
      let b ← b.append "d" (some 1)
      let (sampled, _) ← b.sample 0 ⟨[], [fU, fU]⟩
      pure sampled : Py (List String))) = .ok ["d", "d"] := by decide +kernel

-- the hypotheses of the positive theorem hold for multiples of 0.25 up to any practical total:
-- a batch of three with the largest variates
example : ((SumTree.prioritizedSample
    ((TreeQueue.init : TreeQueue F64).run List.sum
      [.append 1, .append fA, .append (3 : Nat), .popleft, .append (.ofUnits 5 1072 (by decide))]).1
    [fU, fU, fU] true).toOption.map (fun x => x.1)) = some [2, 1, 0] := by decide +kernel

example :
    let xs := (ListQueue.run ([] : List F64)
      [.append 1, .append fA, .append (3 : Nat), .popleft, .append (.ofUnits 5 1072 (by decide))]).1
    (∀ x ∈ xs, 2 ^ 1072 ∣ x.m) ∧ (xs.map F64.m).sum < 2 ^ (53 + 1072) ∧
    (∀ x ∈ xs, x = 0 ∨ 2 ^ 53 ≤ x.m) ∧ (∃ j hj, fU = F64.variate j hj) ∧
    xs.countP (fun x => decide (0 < x)) = 3 := by
  refine ⟨by decide +kernel, by decide +kernel, by decide +kernel, ⟨_, _, rfl⟩, by decide +kernel⟩

-- the priorities of the violations meet the hypotheses of `C142_in_range`: only the variate does not
example :
    let xs := (ListQueue.run ([] : List F64) [.append fA, .append fB, .append fC]).1
    xs.countP (fun x => decide (2 ^ 53 ≤ x.m)) = 3 ∧ ¬ (2 ^ 53 - 1 + 126 ≤ 2 ^ 53) ∧
    ((SumTree.prioritizedSample
      ((TreeQueue.init : TreeQueue F64).run List.sum [.append fA, .append fB, .append fC]).1
      [F64.variate (2 ^ 53 - 126) (by decide), F64.variate 0 (by decide)] true).toOption.map (fun x => x.1))
      = some [2, 0] := by decide +kernel

-- rounding does happen: one tenth three times is not three tenths, and is within the bound
example :
    let t : F64 := .ofUnits 7205759403792794 1018 (by decide)
    let q := ((TreeQueue.init : TreeQueue F64).run List.sum [.append t, .append t, .append t]).1
    (SumTree.sum q).m ≠ 3 * t.m ∧
    (SumTree.sum q) = F64.ofUnits 5404319552844596 1020 (by decide) := by decide +kernel

end Verif
