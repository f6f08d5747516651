import Verif.Proofs.TreeQueue
import Verif.Spec.ListQueue
import Mathlib.Algebra.Order.BigOperators.Group.List

/-! Helper lemmas: histories, aggregates, and weighted selection. -/

namespace Verif
open Node ListQueue

namespace TreeQueue
variable {V : Type _}

theorem step_holds {op : List V → V} (law : ∀ a, op [a] = a) (q : TreeQueue V) (xs : List V)
    (o : Op V) (hq : Holds op q xs) :
    Holds op (q.step op o).1 (ListQueue.step xs o).1 ∧ (q.step op o).2 = (ListQueue.step xs o).2 := by
  cases o with
  | append v =>
    obtain ⟨q', h1, h2⟩ := append_holds law q xs v hq
    simp only [step, h1, ListQueue.step]; exact ⟨h2, trivial⟩
  | popleft =>
    have h := popleft_holds op q xs hq
    cases xs with
    | nil => simp only at h; simp only [step, h, ListQueue.step]; exact ⟨hq, trivial⟩
    | cons x t =>
      obtain ⟨q', h1, h2⟩ := h
      simp only [step, h1, ListQueue.step]; exact ⟨h2, trivial⟩
  | setitem ix v =>
    have h := setitem_holds op q xs ix v hq
    simp only [step, ListQueue.step]
    split at h
    · rename_i hb
      obtain ⟨q', h1, h2⟩ := h
      rw [h1, if_pos hb]; exact ⟨h2, rfl⟩
    · rename_i hb
      rw [h, if_neg hb]; exact ⟨hq, rfl⟩

theorem run_holds {op : List V → V} (law : ∀ a, op [a] = a) (os : List (Op V)) (q : TreeQueue V)
    (xs : List V) (hq : Holds op q xs) :
    Holds op (q.run op os).1 (ListQueue.run xs os).1 ∧ (q.run op os).2 = (ListQueue.run xs os).2 := by
  induction os generalizing q xs with
  | nil => exact ⟨hq, rfl⟩
  | cons o os ih =>
    obtain ⟨h1, h2⟩ := step_holds law q xs o hq
    obtain ⟨h3, h4⟩ := ih _ _ h1
    refine ⟨h3, ?_⟩
    simp only [run, ListQueue.run, h2, h4]

theorem holds_shows (op : List V → V) (q : TreeQueue V) (xs : List V) (hq : Holds op q xs) :
    Shows op q xs := by
  refine ⟨hq.1, ?_⟩
  rw [hq.1]
  induction xs generalizing q with
  | nil => rfl
  | cons x t ih =>
    obtain ⟨q', h1, h2⟩ := popleft_holds op q (x :: t) hq
    simp only [List.length_cons, drain, h1, ih q' h2, List.map_cons]

theorem shows_inj {op : List V → V} {q : TreeQueue V} {xs ys : List V}
    (h1 : Shows op q xs) (h2 : Shows op q ys) : xs = ys := by
  have := h1.2.symm.trans h2.2
  induction xs generalizing ys q with
  | nil => cases ys with
    | nil => rfl
    | cons => simp at this
  | cons x t ih => cases ys with
    | nil => simp at this
    | cons y u =>
      have : t.map (fun x => (Except.ok (some x) : Py (Option V))) = u.map (fun x => .ok (some x)) ∧ x = y := by
        simpa [and_comm] using this
      obtain ⟨h, rfl⟩ := this
      congr 1
      have hinj : Function.Injective (fun x : V => (Except.ok (some x) : Py (Option V))) := by
        intro a b hab; simpa using hab
      exact List.map_injective_iff.2 hinj h

end TreeQueue

section
variable {K : Type _} [Field K] [LinearOrder K] [IsStrictOrderedRing K]

omit [LinearOrder K] [IsStrictOrderedRing K] in
theorem sum_law : OpLaw (List.sum : List K → K) where
  single a := by simp
  append xs ys _ _ := by simp

omit [Field K] [IsStrictOrderedRing K] in
theorem foldl_min_assoc (ys : List K) (a b : K) : ys.foldl min (min a b) = min a (ys.foldl min b) := by
  induction ys generalizing b with
  | nil => rfl
  | cons y ys ih => simp only [List.foldl_cons]; rw [min_assoc, ih]

omit [Field K] [IsStrictOrderedRing K] in
theorem min_law [Zero K] : OpLaw (listMin : List K → K) where
  single a := rfl
  append xs ys hx hy := by
    cases xs with
    | nil => exact absurd rfl hx
    | cons x xs =>
      cases ys with
      | nil => exact absurd rfl hy
      | cons y ys =>
        simp only [listMin, List.cons_append, List.foldl_append, List.foldl_cons, List.foldl_nil]
        rw [foldl_min_assoc]

omit [Field K] [IsStrictOrderedRing K] in
theorem listMin_spec [Zero K] (xs : List K) (h : xs ≠ []) :
    listMin xs ∈ xs ∧ ∀ x ∈ xs, listMin xs ≤ x := by
  cases xs with
  | nil => exact absurd rfl h
  | cons x xs =>
    simp only [listMin]
    clear h
    induction xs generalizing x with
    | nil => simp
    | cons y ys ih =>
      simp only [List.foldl_cons]
      obtain ⟨h1, h2⟩ := ih (min x y)
      constructor
      · rcases List.mem_cons.1 h1 with h | h
        · rw [h]; rcases min_choice x y with h' | h' <;> simp [h']
        · exact List.mem_cons_of_mem _ (List.mem_cons_of_mem _ h)
      · intro z hz
        have hm := h2 (min x y) (by simp)
        rcases List.mem_cons.1 hz with rfl | hz
        · exact hm.trans (min_le_left _ _)
        · rcases List.mem_cons.1 hz with rfl | hz
          · exact hm.trans (min_le_right _ _)
          · exact h2 z (by simp [hz])

/-- Slot values with `0` for an empty slot. -/
def vals (s : List (Option K)) : List K := s.map (fun x => x.getD 0)

omit [LinearOrder K] [IsStrictOrderedRing K] in
theorem vals_sum (s : List (Option K)) : (vals s).sum = (present s).sum := by
  induction s with
  | nil => rfl
  | cons a s ih =>
    cases a with
    | none =>
      simp only [vals, present, List.map_cons, List.sum_cons, Option.getD_none, zero_add,
        List.filterMap_cons, id] at ih ⊢
      exact ih
    | some a =>
      simp only [vals, present, List.map_cons, List.sum_cons, Option.getD_some,
        List.filterMap_cons, id] at ih ⊢
      rw [ih]

omit [LinearOrder K] [IsStrictOrderedRing K] in
theorem value_getD (h : Nat) (node : Node K) (hs : Shaped List.sum h node) :
    node.value?.getD 0 = (vals (slots h node)).sum := by
  have hlaw : OpLaw (List.sum : List K → K) := ⟨by intro a; simp, by intro xs ys _ _; simp⟩
  rw [vals_sum]
  rcases value_spec hlaw h node hs with ⟨v1, v2⟩ | ⟨_, v2⟩
  · rw [v1, v2]; rfl
  · rw [v2]; rfl

theorem find_spec (h : Nat) (l : Int) (node : Node K) (pos : K) (hs : Shaped List.sum h node)
    (h0 : 0 ≤ pos) (h1 : pos < (vals (slots h node)).sum) :
    ∃ i : Nat, i < 2 ^ h ∧ node.find l (l + 2 ^ h) pos = .ok (l + i) ∧
      prefixSum (vals (slots h node)) i ≤ pos ∧ pos < prefixSum (vals (slots h node)) (i + 1) := by
  induction h generalizing l node pos with
  | zero =>
    refine ⟨0, by simp, ?_, by simpa [prefixSum] using h0, ?_⟩
    · rw [Node.find.eq_def, if_pos (by simp)]; simp
    · have : prefixSum (vals (slots 0 node)) (0 + 1) = (vals (slots 0 node)).sum := by
        simp [prefixSum, slots, vals]
      rw [this]; exact h1
  | succ h ih =>
    have hpow : (2 : Int) ^ (h + 1) = 2 * 2 ^ h := by rw [Int.pow_succ]; omega
    have hpos : (0 : Int) < 2 ^ h := Int.pow_pos (by decide)
    have hposN : ((2 ^ h : Nat) : Int) = 2 ^ h := by norm_cast
    rw [Node.find.eq_def, if_neg (by omega), if_neg (by omega)]
    have hc : (l + (l + 2 ^ (h + 1))) / 2 = l + 2 ^ h := by omega
    cases node with
    | nil =>
      exfalso
      rw [vals_sum, slots_nil, present_replicate] at h1
      simp at h1; exact absurd h0 (not_le.2 h1)
    | leaf v => exact hs.elim
    | inner nl nr v =>
      obtain ⟨s1, s2, s3⟩ := hs
      have hv : vals (slots (h + 1) (.inner nl nr v)) = vals (slots h nl) ++ vals (slots h nr) := by
        simp [slots, vals]
      have hll : (vals (slots h nl)).length = 2 ^ h := by simp [vals, length_slots]
      rw [hv] at h1 ⊢
      simp only [hc]
      rw [value_getD h nl s1]
      by_cases hlt : pos < (vals (slots h nl)).sum
      · rw [if_pos hlt]
        obtain ⟨i, i1, i2, i3, i4⟩ := ih l nl pos s1 h0 hlt
        refine ⟨i, by omega, i2, ?_, ?_⟩
        · unfold prefixSum at i3 ⊢
          rw [List.take_append_of_le_length (by omega)]; exact i3
        · unfold prefixSum at i4 ⊢
          rw [List.take_append_of_le_length (by omega)]; exact i4
      · rw [if_neg hlt]
        rw [not_lt] at hlt
        have e0 : l + 2 ^ (h + 1) = (l + 2 ^ h) + 2 ^ h := by omega
        rw [e0]
        rw [List.sum_append] at h1
        obtain ⟨i, i1, i2, i3, i4⟩ := ih (l + 2 ^ h) nr (pos - (vals (slots h nl)).sum) s2
          (sub_nonneg.2 hlt) (by rw [sub_lt_iff_lt_add']; exact h1)
        refine ⟨2 ^ h + i, by omega, ?_, ?_, ?_⟩
        · rw [i2]; congr 1; push_cast; omega
        · unfold prefixSum at i3 ⊢
          rw [List.take_append, hll, Nat.add_sub_cancel_left,
            List.take_of_length_le (by omega), List.sum_append]
          rw [le_sub_iff_add_le'] at i3; exact i3
        · unfold prefixSum at i4 ⊢
          rw [List.take_append, hll, show 2 ^ h + i + 1 - 2 ^ h = i + 1 by omega,
            List.take_of_length_le (by omega), List.sum_append]
          rw [sub_lt_iff_lt_add'] at i4; exact i4

theorem prefixSum_mono (xs : List K) (hx : ∀ x ∈ xs, 0 ≤ x) {i j : Nat} (h : i ≤ j) :
    prefixSum xs i ≤ prefixSum xs j := by
  induction xs generalizing i j with
  | nil => simp [prefixSum]
  | cons x xs ih =>
    cases i with
    | zero =>
      simp only [prefixSum, List.take_zero, List.sum_nil]
      apply List.sum_nonneg
      intro y hy; exact hx y (List.mem_of_mem_take hy)
    | succ i =>
      cases j with
      | zero => omega
      | succ j =>
        have := ih (fun y hy => hx y (by simp [hy])) (show i ≤ j by omega)
        simp only [prefixSum, List.take_succ_cons, List.sum_cons] at this ⊢
        exact add_le_add_right this x

omit [LinearOrder K] [IsStrictOrderedRing K] in
theorem prefixSum_succ (xs : List K) (i : Nat) (h : i < xs.length) :
    prefixSum xs (i + 1) = prefixSum xs i + xs[i] := by
  simp only [prefixSum]
  rw [List.take_add_one, List.getElem?_eq_getElem h, List.sum_append]; simp only [Option.toList_some, List.sum_singleton]

omit [LinearOrder K] [IsStrictOrderedRing K] in
theorem prefixSum_ge_length (xs : List K) (i : Nat) (h : xs.length ≤ i) :
    prefixSum xs i = xs.sum := by
  simp only [prefixSum]; rw [List.take_of_length_le h]

theorem interval_unique (xs : List K) (hx : ∀ x ∈ xs, 0 ≤ x) (pos : K) (i j : Nat)
    (i1 : prefixSum xs i ≤ pos) (i2 : pos < prefixSum xs (i + 1))
    (j1 : prefixSum xs j ≤ pos) (j2 : pos < prefixSum xs (j + 1)) : i = j := by
  rcases Nat.lt_trichotomy i j with h | h | h
  · have := prefixSum_mono xs hx (show i + 1 ≤ j by omega)
    exact absurd (i2.trans_le (this.trans j1)) (lt_irrefl _)
  · exact h
  · have := prefixSum_mono xs hx (show j + 1 ≤ i by omega)
    exact absurd (j2.trans_le (this.trans i1)) (lt_irrefl _)

open TreeQueue

/-- Weighted selection on a queue holding `xs`. -/
theorem find_holds (q : TreeQueue K) (xs : List K) (hq : Holds List.sum q xs)
    (hx : ∀ x ∈ xs, 0 ≤ x) (pos : K) (h0 : 0 ≤ pos) (h1 : pos < xs.sum) :
    ∃ root l r, q.tree = some (root, l, r) ∧ root.value? = some xs.sum ∧
      ∃ i : Nat, i < xs.length ∧ root.find l r pos = .ok (i : Int) ∧
        prefixSum xs i ≤ pos ∧ pos < prefixSum xs (i + 1) := by
  have hne : xs ≠ [] := by
    rintro rfl; simp at h1; exact absurd h0 (not_le.2 h1)
  obtain ⟨hlen, ht⟩ := hq
  cases htree : q.tree with
  | none => rw [htree] at ht; exact absurd ht hne
  | some tr =>
    obtain ⟨root, l, r⟩ := tr
    rw [htree] at ht
    obtain ⟨_, h, th, _⟩ := ht
    have hpres : present (slots h root) = xs := by
      rw [th.slots]; simp only [present_append, present_replicate, present_map_some]; simp
    refine ⟨root, l, r, rfl, ?_, ?_⟩
    · rcases value_spec sum_law h root th.shaped with ⟨v1, v2⟩ | ⟨v1, v2⟩
      · rw [hpres] at v2; exact absurd v2 hne
      · rw [v2, hpres]
    · have hsum : (vals (slots h root)).sum = xs.sum := by rw [vals_sum, hpres]
      obtain ⟨i, i1, i2, i3, i4⟩ := find_spec h l root pos th.shaped h0 (by rw [hsum]; exact h1)
      have hvals : vals (slots h root) = List.replicate (-l).toNat 0 ++ xs
          ++ List.replicate (r - xs.length).toNat 0 := by
        rw [th.slots]; simp [vals, List.map_append, List.map_replicate, List.map_map]
      have hl := th.hl
      -- prefix sums of the padded list
      have hpre : ∀ k : Nat, k ≤ (-l).toNat →
          prefixSum (vals (slots h root)) k = 0 := by
        intro k hk
        rw [hvals]; unfold prefixSum
        rw [List.append_assoc, List.take_append_of_le_length (by simpa using hk)]
        simp
      have hmid : ∀ k : Nat, (-l).toNat ≤ k →
          prefixSum (vals (slots h root)) k = prefixSum xs (k - (-l).toNat) := by
        intro k hk
        rw [hvals]; unfold prefixSum
        rw [List.append_assoc, List.take_append, List.take_append]
        simp
      have hge : (-l).toNat ≤ i := by
        rcases Nat.lt_or_ge i (-l).toNat with hlt | hge
        · rw [hpre (i + 1) (by omega)] at i4
          exact absurd (h0.trans_lt i4) (lt_irrefl _)
        · exact hge
      rw [hmid i hge] at i3
      rw [hmid (i + 1) (by omega)] at i4
      rw [show i + 1 - (-l).toNat = i - (-l).toNat + 1 by omega] at i4
      refine ⟨i - (-l).toNat, ?_, ?_, i3, i4⟩
      · rcases Nat.lt_or_ge (i - (-l).toNat) xs.length with hlt | hge2
        · exact hlt
        · rw [prefixSum_ge_length xs _ hge2] at i3
          exact absurd (i3.trans_lt h1) (lt_irrefl _)
      · rw [th.hr, i2]; congr 1; omega

end
end Verif
