import Verif.Proofs.TreeQueueSum
import Mathlib.Data.List.Count

/-! Helper lemmas: sampling several elements, with and without removal. -/

namespace Verif
open Node ListQueue TreeQueue

variable {K : Type _} [Field K] [LinearOrder K] [IsStrictOrderedRing K]

/-- The number of positive elements. -/
def numPos {K : Type _} [Zero K] [LT K] [DecidableLT K] (xs : List K) : Nat := xs.countP (fun x => decide (0 < x))

theorem sum_pos_of_numPos (xs : List K) (hx : ∀ x ∈ xs, 0 ≤ x) (h : 0 < numPos xs) : 0 < xs.sum := by
  unfold numPos at h
  rw [List.countP_pos_iff] at h
  obtain ⟨x, hm, hp⟩ := h
  simp only [decide_eq_true_eq] at hp
  exact hp.trans_le (List.single_le_sum hx x hm)

theorem numPos_set {K : Type _} [Zero K] [Preorder K] [DecidableLT K] (xs : List K) (i : Nat)
    (hi : i < xs.length) (hp : 0 < xs[i]) :
    numPos (xs.set i 0) + 1 = numPos xs := by
  unfold numPos
  induction xs generalizing i with
  | nil => simp at hi
  | cons x xs ih =>
    cases i with
    | zero => simp at hp; simp [hp]
    | succ i =>
      simp at hi hp
      have := ih i hi hp
      simp only [List.set_cons_succ, List.countP_cons]; omega

theorem set_zero_nonneg (xs : List K) (hx : ∀ x ∈ xs, 0 ≤ x) (i : Nat) :
    ∀ x ∈ xs.set i 0, 0 ≤ x := by
  intro x h
  rcases List.mem_or_eq_of_mem_set h with h | h
  · exact hx x h
  · rw [h]

/-- Zero the elements at the positions `ixs`. -/
def zeroAt {K : Type _} [Zero K] (xs : List K) (ixs : List Nat) : List K := ixs.foldl (fun xs i => xs.set i 0) xs

theorem zeroAt_spec {K : Type _} [Zero K] (xs : List K) (ixs : List Nat) :
    (zeroAt xs ixs).length = xs.length ∧
    ∀ j, (zeroAt xs ixs)[j]? = if j ∈ ixs ∧ j < xs.length then some 0 else xs[j]? := by
  unfold zeroAt
  induction ixs generalizing xs with
  | nil => simp
  | cons i ixs ih =>
    obtain ⟨h1, h2⟩ := ih (xs.set i 0)
    simp only [List.foldl_cons]
    refine ⟨by rw [h1]; simp, ?_⟩
    intro j
    rw [h2]
    simp only [List.length_set, List.mem_cons]
    by_cases hj : j ∈ ixs ∧ j < xs.length
    · rw [if_pos hj, if_pos ⟨Or.inr hj.1, hj.2⟩]
    · rw [if_neg hj]
      rw [List.getElem?_set]
      by_cases hij : i = j
      · subst hij
        by_cases hl : i < xs.length
        · simp [hl]
        · simp [hl]
      · rw [if_neg hij]
        rw [if_neg (by rintro ⟨h | h, h'⟩ <;> [exact hij h.symm; exact hj ⟨h, h'⟩])]

theorem sampleLoop_spec (us : List K) (q : TreeQueue K) (xs : List K)
    (hq : Holds List.sum q xs) (hx : ∀ x ∈ xs, 0 ≤ x) (hu : ∀ u ∈ us, 0 ≤ u ∧ u < 1)
    (hn : us.length ≤ numPos xs) :
    ∃ (ixs : List Nat) (q' : TreeQueue K),
      SumTree.sampleLoop us q = .ok (ixs.map Int.ofNat, ixs.map (fun i => xs[i]?), q') ∧
      Holds List.sum q' (zeroAt xs ixs) ∧ ixs.length = us.length ∧ ixs.Nodup ∧
      (∀ i ∈ ixs, ∃ h : i < xs.length, 0 < xs[i]) ∧
      Draws xs us ixs := by
  induction us generalizing q xs with
  | nil => exact ⟨[], q, rfl, by simpa [zeroAt] using hq, rfl, by simp, by simp, trivial⟩
  | cons u us ih =>
    have hu0 := hu u (by simp)
    have hpos : 0 < xs.sum := sum_pos_of_numPos xs hx (by simp at hn; omega)
    have hp0 : 0 ≤ u * xs.sum := mul_nonneg hu0.1 hpos.le
    have hp1 : u * xs.sum < xs.sum := by
      calc u * xs.sum < 1 * xs.sum := by
            exact mul_lt_mul_of_pos_right hu0.2 hpos
        _ = xs.sum := one_mul _
    obtain ⟨root, l, r, ht, hval, i, hi, hfind, hlo, hhi⟩ := find_holds q xs hq hx _ hp0 hp1
    have hxi : 0 < xs[i] := by
      have := hlo.trans_lt hhi
      rw [prefixSum_succ xs i hi] at this
      exact (lt_add_iff_pos_right _).1 this
    obtain ⟨q1, hw, hq1⟩ := write_holds List.sum q xs i 0 hq hi
    have hcount := numPos_set xs i hi hxi
    obtain ⟨ixs, q', e1, e2, e3, e4, e5, e6⟩ := ih q1 (xs.set i 0) hq1 (set_zero_nonneg xs hx i)
      (fun v hv => hu v (by simp [hv])) (by simp at hn; omega)
    have hnot : i ∉ ixs := by
      intro hmem
      obtain ⟨h1, h2⟩ := e5 i hmem
      simp at h2
    refine ⟨i :: ixs, q', ?_, ?_, by simp [e3], by simp [hnot, e4], ?_, hlo, hhi, e6⟩
    · simp only [SumTree.sampleLoop, ht, hval, hfind]
      rw [hw]
      simp only [e1, List.map_cons, List.getElem?_eq_getElem hi]
      congr 3
      · congr 1
        apply List.map_congr_left
        intro j hj
        rw [List.getElem?_set_ne (by rintro rfl; exact hnot hj)]
    · simpa [zeroAt] using e2
    · intro j hj
      rcases List.mem_cons.1 hj with rfl | hj
      · exact ⟨hi, hxi⟩
      · obtain ⟨h1, h2⟩ := e5 j hj
        have hne : i ≠ j := by rintro rfl; exact hnot hj
        rw [List.getElem_set_ne hne] at h2
        exact ⟨by simpa using h1, h2⟩

theorem zeroLoop_spec {K : Type _} [Zero K] [Add K] (ixs : List Nat) (q : TreeQueue K) (xs : List K)
    (hq : Holds List.sum q xs) (hn : ixs.Nodup) (hi : ∀ i ∈ ixs, i < xs.length) :
    ∃ q', SumTree.zeroLoop (ixs.map Int.ofNat) q = .ok (ixs.map (fun i => xs[i]?), q') ∧
      Holds List.sum q' (zeroAt xs ixs) := by
  induction ixs generalizing q xs with
  | nil => exact ⟨q, rfl, by simpa [zeroAt] using hq⟩
  | cons i ixs ih =>
    have hil := hi i (by simp)
    obtain ⟨q1, hw, hq1⟩ := write_holds List.sum q xs i 0 hq hil
    rw [List.nodup_cons] at hn
    obtain ⟨q', e1, e2⟩ := ih q1 (xs.set i 0) hq1 hn.2
      (fun j hj => by simpa using hi j (by simp [hj]))
    refine ⟨q', ?_, by simpa [zeroAt] using e2⟩
    simp only [SumTree.zeroLoop, List.map_cons, Int.ofNat_eq_natCast]
    rw [hw]
    simp only
    rw [e1]
    simp only [List.getElem?_eq_getElem hil]
    congr 3
    apply List.map_congr_left
    intro j hj
    rw [List.getElem?_set_ne (by rintro rfl; exact hn.1 hj)]

theorem restoreLoop_spec {K : Type _} [Zero K] [Add K] (ixs : List Nat) (q : TreeQueue K) (xs ys : List K)
    (hq : Holds List.sum q ys) (hlen : ys.length = xs.length) (hi : ∀ i ∈ ixs, i < xs.length)
    (hagree : ∀ j, j ∉ ixs → ys[j]? = xs[j]?) :
    ∃ q', SumTree.restoreLoop ((ixs.map Int.ofNat).zip (ixs.map (fun i => xs[i]?))) q = .ok q' ∧
      Holds List.sum q' xs := by
  induction ixs generalizing q ys with
  | nil =>
    have : ys = xs := List.ext_getElem? (fun j => hagree j (by simp))
    exact ⟨q, rfl, this ▸ hq⟩
  | cons i ixs ih =>
    have hil := hi i (by simp)
    obtain ⟨q1, hw, hq1⟩ := write_holds List.sum q ys i xs[i] hq (by omega)
    obtain ⟨q', e1, e2⟩ := ih q1 (ys.set i xs[i]) hq1 (by simpa using hlen)
      (fun j hj => hi j (by simp [hj])) (by
        intro j hj
        by_cases hij : i = j
        · subst hij
          rw [List.getElem?_set_self (by omega), List.getElem?_eq_getElem hil]
        · rw [List.getElem?_set_ne hij]
          exact hagree j (by simp; exact ⟨fun h => hij h.symm, hj⟩))
    refine ⟨q', ?_, e2⟩
    simp only [List.map_cons, List.zip_cons_cons, SumTree.restoreLoop, Int.ofNat_eq_natCast,
      List.getElem?_eq_getElem hil]
    rw [hw]
    exact e1

theorem prioritizedSample_spec (us : List K) (q : TreeQueue K) (xs : List K) (remove : Bool)
    (hq : Holds List.sum q xs) (hx : ∀ x ∈ xs, 0 ≤ x) (hu : ∀ u ∈ us, 0 ≤ u ∧ u < 1)
    (hn : us.length ≤ numPos xs) :
    ∃ (ixs : List Nat) (q' : TreeQueue K),
      SumTree.prioritizedSample q us remove
        = .ok (ixs.map Int.ofNat, ixs.map (fun i => xs[i]?), q') ∧
      Holds List.sum q' (if remove then zeroAt xs ixs else xs) ∧
      ixs.length = us.length ∧ ixs.Nodup ∧ (∀ i ∈ ixs, ∃ h : i < xs.length, 0 < xs[i]) ∧
      Draws xs us ixs := by
  obtain ⟨ixs, q1, e1, e2, e3, e4, e5, e6⟩ := sampleLoop_spec us q xs hq hx hu hn
  unfold SumTree.prioritizedSample
  rw [e1]
  simp only
  cases remove with
  | true => exact ⟨ixs, q1, rfl, e2, e3, e4, e5, e6⟩
  | false =>
    have hz := zeroAt_spec xs ixs
    obtain ⟨q2, f1, f2⟩ := restoreLoop_spec ixs q1 xs (zeroAt xs ixs) e2 hz.1
      (fun i hi => (e5 i hi).1) (fun j hj => by rw [hz.2, if_neg (fun h => hj h.1)])
    refine ⟨ixs, q2, ?_, f2, e3, e4, e5, e6⟩
    simp [f1]

theorem uniformSample_spec {K : Type _} [Zero K] [Add K] (ixs : List Nat) (q : TreeQueue K) (xs : List K) (remove : Bool)
    (hq : Holds List.sum q xs) (hn : ixs.Nodup) (hi : ∀ i ∈ ixs, i < xs.length) :
    ∃ q', SumTree.uniformSample q (ixs.map Int.ofNat) remove
        = .ok (ixs.map Int.ofNat, ixs.map (fun i => xs[i]?), q') ∧
      Holds List.sum q' (if remove then zeroAt xs ixs else xs) := by
  obtain ⟨q1, e1, e2⟩ := zeroLoop_spec ixs q xs hq hn hi
  unfold SumTree.uniformSample
  rw [e1]
  simp only
  cases remove with
  | true => exact ⟨q1, rfl, e2⟩
  | false =>
    have hz := zeroAt_spec xs ixs
    obtain ⟨q2, f1, f2⟩ := restoreLoop_spec ixs q1 xs (zeroAt xs ixs) e2 hz.1 hi
      (fun j hj => by rw [hz.2, if_neg (fun h => hj h.1)])
    refine ⟨q2, ?_, f2⟩
    simp [f1]

omit [LinearOrder K] [IsStrictOrderedRing K] in
theorem sum_holds (q : TreeQueue K) (xs : List K) (hq : Holds List.sum q xs) :
    SumTree.sum q = xs.sum := by
  unfold SumTree.sum
  rw [rootValue_holds sum_law _ _ hq]
  by_cases h : xs = []
  · rw [if_pos h, h]; rfl
  · rw [if_neg h]; rfl

theorem numPos_of_sum_pos (xs : List K) (hs : 0 < xs.sum) : 1 ≤ numPos xs := by
  induction xs with
  | nil => simp at hs
  | cons x xs ih =>
    unfold numPos at ih ⊢
    rw [List.countP_cons]
    by_cases hx : 0 < x
    · simp [hx]
    · rw [List.sum_cons] at hs
      have := ih (by
        rw [not_lt] at hx
        calc 0 < x + xs.sum := hs
          _ ≤ 0 + xs.sum := by gcongr
          _ = xs.sum := zero_add _)
      omega

end Verif
