import Verif.Proofs.TreeQueueSample
import Mathlib.MeasureTheory.Measure.Lebesgue.Basic

/-! # C04, C05, C06: `SumTreeQueue` and `MinTreeQueue` -/

namespace Verif
open ListQueue TreeQueue

section
variable {K : Type _} [Field K] [LinearOrder K] [IsStrictOrderedRing K]

/-- C04, `SumTreeQueue`: after every history of `append`, `popleft` and index
assignment, every value returned or exception raised is that of a plain list,
the queue shows exactly the list, and `sum()` is the sum of its elements. -/
theorem C04_sum_tree_is_list (ops : List (TreeQueue.Op K)) :
    let q := (TreeQueue.init : TreeQueue K).run List.sum ops
    let l := ListQueue.run [] ops
    q.2 = l.2 ∧ Shows List.sum q.1 l.1 ∧ SumTree.sum q.1 = l.1.sum := by
  obtain ⟨h1, h2⟩ := run_holds sum_law.single ops TreeQueue.init [] (holds_init _)
  exact ⟨h2, holds_shows _ _ _ h1, sum_holds _ _ h1⟩

omit [IsStrictOrderedRing K] in
/-- C04, `MinTreeQueue`: the same, and `min()` is the least element, or `inf`
(here `none`) when the queue is empty. -/
theorem C04_min_tree_is_list (ops : List (TreeQueue.Op K)) :
    let q := (TreeQueue.init : TreeQueue K).run listMin ops
    let l := ListQueue.run [] ops
    q.2 = l.2 ∧ Shows listMin q.1 l.1 ∧
    (l.1 = [] → q.1.rootValue = none) ∧
    (l.1 ≠ [] → ∃ m ∈ l.1, q.1.rootValue = some m ∧ ∀ x ∈ l.1, m ≤ x) := by
  obtain ⟨h1, h2⟩ := run_holds min_law.single ops TreeQueue.init [] (holds_init _)
  have hr := rootValue_holds min_law _ _ h1
  refine ⟨h2, holds_shows _ _ _ h1, ?_, ?_⟩
  · intro h; rw [hr, if_pos h]
  · intro h
    obtain ⟨m1, m2⟩ := listMin_spec _ h
    exact ⟨_, m1, by rw [hr, if_neg h], m2⟩

-- a history that grows the tree to height 2, drops its left half and regrows
example : ((TreeQueue.init : TreeQueue ℚ).run List.sum
    [.append 1, .append 2, .append 3, .popleft, .popleft, .append 4, .append 5,
     .setitem 1 7, .setitem 3 0, .popleft]).2 =
    [.ok none, .ok none, .ok none, .ok (some 1), .ok (some 2), .ok none, .ok none,
     .ok none, .error .assertionError, .ok (some 3)] := by
  rw [(C04_sum_tree_is_list _).1]; rfl

/-- C05: on every queue reached by a history of operations whose elements are
non-negative with a positive sum, a draw with variate `u * sum`, `0 ≤ u < 1`,
succeeds and selects the index `i` exactly when `u * sum` lies between the
prefix sums at `i` and `i + 1`; it reports the priority of that element. -/
theorem C05_selection_interval (ops : List (TreeQueue.Op K)) (u : K) (remove : Bool)
    (hx : ∀ x ∈ (ListQueue.run ([] : List K) ops).1, 0 ≤ x)
    (hs : 0 < (ListQueue.run ([] : List K) ops).1.sum) (h0 : 0 ≤ u) (h1 : u < 1) :
    let q := ((TreeQueue.init : TreeQueue K).run List.sum ops).1
    let xs := (ListQueue.run ([] : List K) ops).1
    ∃ i : Nat, ∃ hi : i < xs.length,
      (∃ q', SumTree.prioritizedSample q [u] remove = .ok ([(i : Int)], [some xs[i]], q')) ∧
      ∀ j, j = i ↔ (prefixSum xs j ≤ u * xs.sum ∧ u * xs.sum < prefixSum xs (j + 1)) := by
  intro q xs
  obtain ⟨hq, _⟩ := run_holds sum_law.single ops (TreeQueue.init : TreeQueue K) [] (holds_init _)
  have hpos : 1 ≤ numPos xs := numPos_of_sum_pos xs hs
  obtain ⟨ixs, q', e1, _, e3, _, e5, e6⟩ := prioritizedSample_spec [u] q xs remove hq hx
    (by simpa using ⟨h0, h1⟩) (by simpa using hpos)
  match ixs, e3 with
  | [i], _ =>
    obtain ⟨hi, hp⟩ := e5 i (by simp)
    obtain ⟨e7, e8, _⟩ := e6
    refine ⟨i, hi, ⟨q', ?_⟩, ?_⟩
    · rw [e1]; simp [hi]
    · intro j
      constructor
      · rintro rfl; exact ⟨e7, e8⟩
      · rintro ⟨j1, j2⟩; exact interval_unique xs hx _ j i j1 j2 e7 e8

/-- C05, consequence: an element of priority zero is never selected. -/
theorem C05_zero_priority_never_selected (ops : List (TreeQueue.Op K)) (u : K) (remove : Bool)
    (hx : ∀ x ∈ (ListQueue.run ([] : List K) ops).1, 0 ≤ x)
    (hs : 0 < (ListQueue.run ([] : List K) ops).1.sum) (h0 : 0 ≤ u) (h1 : u < 1)
    (j : Nat) (hj : (ListQueue.run ([] : List K) ops).1[j]? = some 0) :
    ∀ vals q', SumTree.prioritizedSample
      ((TreeQueue.init : TreeQueue K).run List.sum ops).1 [u] remove ≠ .ok ([(j : Int)], vals, q') := by
  intro vals q' heq
  obtain ⟨i, hi, ⟨q2, hs2⟩, huniq⟩ := C05_selection_interval ops u remove hx hs h0 h1
  rw [heq] at hs2
  have hij : j = i := by
    injection hs2 with h
    injection h with h
    simpa using h
  have hlt := (huniq j).1 hij
  subst hij
  rw [prefixSum_succ _ _ hi] at hlt
  rw [List.getElem?_eq_getElem hi] at hj
  injection hj with hj
  rw [hj, add_zero] at hlt
  exact absurd (hlt.1.trans_lt hlt.2) (lt_irrefl _)

example : ∃ i : Nat, ∃ q', SumTree.prioritizedSample
    ((TreeQueue.init : TreeQueue ℚ).run List.sum [.append 1, .append 0, .append 3]).1 [1/2] false
    = .ok ([(i : Int)], [some 3], q') ∧ i = 2 := by
  obtain ⟨i, hi, ⟨q', h⟩, hu⟩ := C05_selection_interval (K := ℚ)
    [.append 1, .append 0, .append 3] (1/2) false
    (by simp [ListQueue.run, ListQueue.step])
    (by simp [ListQueue.run, ListQueue.step]; norm_num) (by norm_num) (by norm_num)
  have : 2 = i := (hu 2).2 (by simp [ListQueue.run, ListQueue.step, prefixSum]; norm_num)
  subst this
  exact ⟨2, q', by rw [h]; rfl, rfl⟩

/-- C06: with at least `n` positive elements, sampling `n` times returns `n`
pairwise distinct indices, each drawn in proportion to what is left, together
with their priorities.  With `remove=False` the queue shows the same list as
before; with `remove=True` it shows the list in which exactly the selected
elements became zero. -/
theorem C06_sample_without_replacement (ops : List (TreeQueue.Op K)) (us : List K) (remove : Bool)
    (hx : ∀ x ∈ (ListQueue.run ([] : List K) ops).1, 0 ≤ x)
    (hn : us.length ≤ (ListQueue.run ([] : List K) ops).1.countP (fun x => decide (0 < x)))
    (hu : ∀ u ∈ us, 0 ≤ u ∧ u < 1) :
    let q := ((TreeQueue.init : TreeQueue K).run List.sum ops).1
    let xs := (ListQueue.run ([] : List K) ops).1
    ∃ (ixs : List Nat) (q' : TreeQueue K) (ys : List K),
      SumTree.prioritizedSample q us remove
        = .ok (ixs.map Int.ofNat, ixs.map (fun i => xs[i]?), q') ∧
      ixs.length = us.length ∧ ixs.Nodup ∧ (∀ i ∈ ixs, i < xs.length) ∧ Draws xs us ixs ∧
      Shows List.sum q' ys ∧ SumTree.sum q' = ys.sum ∧
      (remove = false → ys = xs) ∧
      (remove = true → ∀ j, ys[j]? = if j ∈ ixs then some 0 else xs[j]?) := by
  intro q xs
  obtain ⟨hq, _⟩ := run_holds sum_law.single ops (TreeQueue.init : TreeQueue K) [] (holds_init _)
  obtain ⟨ixs, q', e1, e2, e3, e4, e5, e6⟩ := prioritizedSample_spec us q xs remove hq hx hu hn
  refine ⟨ixs, q', _, e1, e3, e4, fun i hi => (e5 i hi).1, e6, holds_shows _ _ _ e2, ?_, ?_, ?_⟩
  · exact sum_holds _ _ e2
  · intro h; rw [h]; simp
  · intro h j
    rw [if_pos h, (zeroAt_spec xs ixs).2 j]
    by_cases hj : j ∈ ixs
    · rw [if_pos ⟨hj, (e5 j hj).1⟩, if_pos hj]
    · rw [if_neg (fun h => hj h.1), if_neg hj]

omit [LinearOrder K] [IsStrictOrderedRing K] in
/-- C06 for `uniform_sample`: the indices chosen by `sample_n_k` are returned
with their priorities; with `remove=False` nothing changes, with `remove=True`
exactly the chosen elements become zero. -/
theorem C06_uniform_sample (ops : List (TreeQueue.Op K)) (ixs : List Nat) (remove : Bool)
    (hn : ixs.Nodup) (hi : ∀ i ∈ ixs, i < (ListQueue.run ([] : List K) ops).1.length) :
    let q := ((TreeQueue.init : TreeQueue K).run List.sum ops).1
    let xs := (ListQueue.run ([] : List K) ops).1
    ∃ (q' : TreeQueue K) (ys : List K),
      SumTree.uniformSample q (ixs.map Int.ofNat) remove
        = .ok (ixs.map Int.ofNat, ixs.map (fun i => xs[i]?), q') ∧
      Shows List.sum q' ys ∧ SumTree.sum q' = ys.sum ∧
      (remove = false → ys = xs) ∧
      (remove = true → ∀ j, ys[j]? = if j ∈ ixs then some 0 else xs[j]?) := by
  intro q xs
  obtain ⟨hq, _⟩ := run_holds sum_law.single ops (TreeQueue.init : TreeQueue K) [] (holds_init _)
  obtain ⟨q', e1, e2⟩ := uniformSample_spec ixs q xs remove hq hn hi
  refine ⟨q', _, e1, holds_shows _ _ _ e2, ?_, ?_, ?_⟩
  · exact sum_holds _ _ e2
  · intro h; rw [h]; simp
  · intro h j
    rw [if_pos h, (zeroAt_spec xs ixs).2 j]
    by_cases hj : j ∈ ixs
    · rw [if_pos ⟨hj, hi j hj⟩, if_pos hj]
    · rw [if_neg (fun h => hj h.1), if_neg hj]

example : ∃ (ixs : List Nat) (q' : TreeQueue ℚ), SumTree.prioritizedSample
    ((TreeQueue.init : TreeQueue ℚ).run List.sum [.append 1, .append 2, .append 3]).1
      [1/2, 0, 1/3] true = .ok (ixs.map Int.ofNat, ixs.map (fun i => [(1 : ℚ), 2, 3][i]?), q') ∧
    ixs.length = 3 ∧ ixs.Nodup := by
  obtain ⟨ixs, q', ys, h1, h2, h3, _⟩ := C06_sample_without_replacement (K := ℚ)
    [.append 1, .append 2, .append 3] [1/2, 0, 1/3] true
    (by simp [ListQueue.run, ListQueue.step]) (by decide +kernel)
    (by intro u hu; simp at hu; rcases hu with rfl | rfl | rfl <;> norm_num)
  exact ⟨ixs, q', h1, h2, h3⟩

end

open MeasureTheory in
/-- C05, measure: over the reals, the set of variates in `[0,1)` that select
element `i` has Lebesgue measure `priority i / sum`. -/
theorem C05_selection_probability (ops : List (TreeQueue.Op ℝ)) (remove : Bool)
    (hx : ∀ x ∈ (ListQueue.run ([] : List ℝ) ops).1, 0 ≤ x)
    (hs : 0 < (ListQueue.run ([] : List ℝ) ops).1.sum)
    (i : Nat) (hi : i < (ListQueue.run ([] : List ℝ) ops).1.length) :
    volume {u : ℝ | 0 ≤ u ∧ u < 1 ∧ ∃ vals q', SumTree.prioritizedSample
        ((TreeQueue.init : TreeQueue ℝ).run List.sum ops).1 [u] remove = .ok ([(i : Int)], vals, q')}
      = ENNReal.ofReal ((ListQueue.run ([] : List ℝ) ops).1[i] /
          (ListQueue.run ([] : List ℝ) ops).1.sum) := by
  have hset : {u : ℝ | 0 ≤ u ∧ u < 1 ∧ ∃ vals q', SumTree.prioritizedSample
        ((TreeQueue.init : TreeQueue ℝ).run List.sum ops).1 [u] remove = .ok ([(i : Int)], vals, q')}
      = Set.Ico (prefixSum (ListQueue.run ([] : List ℝ) ops).1 i /
            (ListQueue.run ([] : List ℝ) ops).1.sum)
          (prefixSum (ListQueue.run ([] : List ℝ) ops).1 (i + 1) /
            (ListQueue.run ([] : List ℝ) ops).1.sum) := by
    ext u
    simp only [Set.mem_setOf_eq, Set.mem_Ico]
    constructor
    · rintro ⟨h0, h1, vals, q', heq⟩
      obtain ⟨i', hi', ⟨q2, hs2⟩, huniq⟩ := C05_selection_interval ops u remove hx hs h0 h1
      rw [heq] at hs2
      have hij : i = i' := by
        injection hs2 with h
        injection h with h
        simpa using h
      obtain ⟨a, b⟩ := (huniq i).1 hij
      exact ⟨(div_le_iff₀ hs).2 a, (lt_div_iff₀ hs).2 b⟩
    · rintro ⟨a, b⟩
      have h0 : 0 ≤ u := by
        refine le_trans (div_nonneg ?_ hs.le) a
        exact List.sum_nonneg (fun x hxm => hx x (List.mem_of_mem_take hxm))
      have h1 : u < 1 := by
        refine lt_of_lt_of_le b ?_
        rw [div_le_one hs]
        have := prefixSum_mono _ hx (show i + 1 ≤ (ListQueue.run ([] : List ℝ) ops).1.length by omega)
        rwa [prefixSum_ge_length _ (ListQueue.run ([] : List ℝ) ops).1.length le_rfl] at this
      obtain ⟨i', hi', ⟨q2, hs2⟩, huniq⟩ := C05_selection_interval ops u remove hx hs h0 h1
      have hij : i = i' := (huniq i).2 ⟨(div_le_iff₀ hs).1 a, (lt_div_iff₀ hs).1 b⟩
      subst hij
      exact ⟨h0, h1, _, _, hs2⟩
  rw [hset, Real.volume_Ico]
  congr 1
  rw [prefixSum_succ _ _ hi]
  ring

example : (0 : ℝ) < (ListQueue.run ([] : List ℝ) [.append 1, .append 0, .append 3]).1.sum ∧
    ∀ x ∈ (ListQueue.run ([] : List ℝ) [.append 1, .append 0, .append 3]).1, 0 ≤ x := by
  simp [ListQueue.run, ListQueue.step]; norm_num

end Verif
