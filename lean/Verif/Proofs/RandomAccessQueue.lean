import Verif.Spec.BoundedList

/-! Helper lemmas for the queue refinement. -/

namespace Verif.RAQ
open BoundedList
variable {α : Type _}

theorem applyMaxlen_iter (q : RAQ α) :
    q.applyMaxlen.iter = newest q.maxlen q.iter ∧ q.applyMaxlen.maxlen = q.maxlen := by
  fun_induction applyMaxlen q with
  | case1 q hm => simp [hm, newest]
  | case2 q m hm hlt x q' h ih =>
    have hp := popleft_iter q
    rw [len_eq] at hlt
    cases hq : q.iter with
    | nil => simp [hq] at hlt
    | cons y t =>
      rw [hq] at hp
      obtain ⟨q2, h2, h3, h4⟩ := hp
      rw [h2] at h; cases h
      rw [ih.1, ih.2, h4, h3, hm]
      refine ⟨?_, rfl⟩
      simp only [newest]
      rw [hq] at hlt
      simp only [List.length_cons] at hlt ⊢
      rw [show t.length + 1 - m = (t.length - m) + 1 by omega]
      rfl
  | case3 q m hm hlt e h =>
    have hp := popleft_iter q
    rw [len_eq] at hlt
    cases hq : q.iter with
    | nil => simp [hq] at hlt
    | cons y t =>
      rw [hq] at hp
      obtain ⟨q2, h2, _⟩ := hp
      rw [h2] at h; cases h
  | case4 q m hm hlt =>
    rw [len_eq] at hlt
    simp only [hm, newest]
    rw [show q.iter.length - m = 0 by omega]
    simp

/-- The length limit is respected. -/
def Ok (q : RAQ α) : Prop := ∀ m, q.maxlen = some m → q.iter.length ≤ m

theorem newest_length (m : Nat) (l : List α) : (newest (some m) l).length ≤ m := by
  simp [newest]; omega

theorem append_iter (q : RAQ α) (x : α) (hq : q.Ok) :
    (q.append x).iter = newest q.maxlen (q.iter ++ [x]) ∧ (q.append x).maxlen = q.maxlen := by
  obtain ⟨m, f, b⟩ := q
  cases m with
  | none => simp [append, iter, newest]
  | some m =>
    have hle := hq m rfl
    simp only [iter, List.length_append, List.length_reverse] at hle
    have hp := popleft_iter (⟨some m, f, b ++ [x]⟩ : RAQ α)
    simp only [append]
    split
    · rename_i hlt
      simp only [len, List.length_append, List.length_singleton] at hlt
      have hn : newest (some m) (iter ⟨some m, f, b⟩ ++ [x]) = (f.reverse ++ (b ++ [x])).drop 1 := by
        simp only [newest, iter, List.append_assoc, List.length_append, List.length_reverse,
          List.length_singleton]
        congr 1; omega
      rw [hn]
      simp only [iter] at hp
      split at hp
      · rename_i h; simp at h
      · rename_i y t h
        obtain ⟨q2, h2, h3, h4⟩ := hp
        rw [h2, h]
        exact ⟨h3, h4⟩
    · rename_i hlt
      simp only [len, List.length_append, List.length_singleton] at hlt
      simp only [newest, iter, List.append_assoc, List.length_append, List.length_reverse,
          List.length_singleton]
      rw [show f.length + (b.length + 1) - m = 0 by omega]
      simp

theorem pyGet_eq (l : List α) (i : Int) :
    pyGet l i = match BoundedList.get l i with
      | some x => .ok x
      | none => .error .indexError := by
  simp only [pyGet, pyIndex, BoundedList.get]
  by_cases h : 0 ≤ i
  · simp only [h, if_true]
    by_cases h2 : i < l.length
    · simp only [h2, if_true]
      have : i.toNat < l.length := by omega
      simp [this]
    · simp only [h2, if_false]
      have : l.length ≤ i.toNat := by omega
      simp [this]
  · simp only [h, if_false]
    by_cases h2 : -(l.length : Int) ≤ i
    · have h3 : 0 ≤ (l.length : Int) + i := by omega
      have : ((l.length : Int) + i).toNat < l.length := by omega
      simp [h2, h3, this]
    · have h3 : ¬ 0 ≤ (l.length : Int) + i := by omega
      simp [h2, h3]

theorem get_reverse (l : List α) (i : Int) (h0 : -(l.length : Int) ≤ i) (h1 : i < l.length) :
    BoundedList.get l (pyInvert i) = BoundedList.get l.reverse i := by
  simp only [BoundedList.get, pyInvert, List.length_reverse]
  by_cases h : 0 ≤ i
  · have h2 : ¬ 0 ≤ -i - 1 := by omega
    have h3 : 0 ≤ (l.length : Int) + (-i - 1) := by omega
    simp only [h, h2, h3, if_true, if_false]
    rw [List.getElem?_reverse (by omega)]
    congr 1; omega
  · have h2 : 0 ≤ -i - 1 := by omega
    have h3 : 0 ≤ (l.length : Int) + i := by omega
    simp only [h, h2, h3, if_true, if_false]
    rw [List.getElem?_reverse (by omega)]
    congr 1; omega

theorem getitem_eq (q : RAQ α) (i : Int) :
    q.getitem i = match BoundedList.get q.iter i with
      | some x => .ok x
      | none => .error .indexError := by
  obtain ⟨m, f, b⟩ := q
  simp only [getitem, iter]
  split
  · rename_i h
    split
    · rename_i h2
      rw [pyGet_eq, get_reverse f i (by omega) h2]
      have h4 : i.toNat < f.length := by omega
      simp [BoundedList.get, h, h4, List.getElem?_append_left]
    · rename_i h2
      have h5 : f.length ≤ i.toNat := by omega
      have hg : BoundedList.get (f.reverse ++ b) i = BoundedList.get b (i - f.length) := by
        have h6 : 0 ≤ i - (f.length : Int) := by omega
        simp only [BoundedList.get]
        rw [if_pos (show 0 ≤ i from h), if_pos h6]
        rw [List.getElem?_append_right (by simpa using h5)]
        congr 1; simp
      rw [hg]
      split
      · rw [pyGet_eq]
      · rename_i h3
        have : b.length ≤ (i - (f.length : Int)).toNat := by omega
        have h6 : 0 ≤ i - (f.length : Int) := by omega
        simp only [BoundedList.get]
        rw [if_pos h6, List.getElem?_eq_none this]
  · rename_i h
    split
    · rename_i h2
      rw [pyGet_eq]
      have hg : BoundedList.get (f.reverse ++ b) i = BoundedList.get b i := by
        have h3 : ¬ 0 ≤ i := by omega
        have h4 : 0 ≤ (b.length : Int) + i := by omega
        have h5 : 0 ≤ ((f.reverse ++ b).length : Int) + i := by simp; omega
        simp only [BoundedList.get, h3, h4, h5, if_true, if_false]
        rw [List.getElem?_append_right (by simp; omega)]
        congr 1; simp; omega
      rw [hg]
    · rename_i h2
      split
      · rename_i h3
        rw [pyGet_eq, get_reverse f _ h3 (by omega)]
        have hg : BoundedList.get (f.reverse ++ b) i = BoundedList.get f.reverse (i + b.length) := by
          have h4 : ¬ 0 ≤ i := by omega
          have h5 : ¬ 0 ≤ i + (b.length : Int) := by omega
          have h6 : 0 ≤ ((f.reverse ++ b).length : Int) + i := by simp; omega
          have h7 : 0 ≤ (f.reverse.length : Int) + (i + b.length) := by simp; omega
          simp only [BoundedList.get, h4, h5, h6, h7, if_true, if_false]
          rw [List.getElem?_append_left (by simp; omega)]
          congr 1; simp; omega
        rw [hg]
      · rename_i h3
        have h4 : ¬ 0 ≤ i := by omega
        have h6 : ¬ 0 ≤ ((f.reverse ++ b).length : Int) + i := by simp; omega
        simp only [BoundedList.get, h4, h6, if_false]

theorem set_reverse' (l : List α) (k : Nat) (x : α) (h : k < l.length) :
    (l.set k x).reverse = l.reverse.set (l.length - 1 - k) x := by
  apply List.ext_getElem
  · simp
  · intro n h1 h2
    simp only [List.length_reverse, List.length_set] at h1
    simp only [List.getElem_reverse, List.getElem_set, List.length_set]
    by_cases hk : k = l.length - 1 - n
    · rw [if_pos hk, if_pos (by omega)]
    · rw [if_neg hk, if_neg (by omega)]

theorem setitem_eq (q : RAQ α) (i : Int) (x : α) :
    match BoundedList.set q.iter i x with
      | some l => ∃ q', q.setitem i x = .ok q' ∧ q'.iter = l ∧ q'.maxlen = q.maxlen
      | none => q.setitem i x = .error .indexError := by
  obtain ⟨m, f, b⟩ := q
  simp only [setitem, iter, BoundedList.set]
  by_cases h : i ≥ 0
  · have h' : 0 ≤ i := h
    simp only [h, h', if_true, true_and]
    by_cases h2 : i < f.length
    · have hi : pyIndex f.length (pyInvert i) = some (f.length - 1 - i.toNat) := by
        unfold pyIndex pyInvert
        rw [if_neg (by omega), if_pos (by omega)]
        congr 1; omega
      simp only [h2, if_true, pySet, hi]
      rw [if_pos (by simp; omega)]
      refine ⟨_, rfl, ?_, rfl⟩
      simp only
      rw [set_reverse' _ _ _ (by omega), List.set_append_left _ _ (by simp; omega)]
      congr 2; omega
    · simp only [h2, if_false]
      by_cases h3 : i - f.length < b.length
      · have hi : pyIndex b.length (i - f.length) = some (i.toNat - f.length) := by
          simp only [pyIndex]
          rw [if_pos (by omega), if_pos (by omega)]
          congr 1; omega
        simp only [h3, if_true, pySet, hi]
        rw [if_pos (by simp; omega)]
        refine ⟨_, rfl, ?_, rfl⟩
        simp only
        rw [List.set_append_right _ _ (by simp; omega)]
        simp
      · simp only [h3, if_false]
        rw [if_neg (by simp; omega)]
        trivial
  · have h' : ¬ 0 ≤ i := h
    simp only [h, h', if_false]
    by_cases h2 : i ≥ -(b.length : Int)
    · have hi : pyIndex b.length i = some ((b.length : Int) + i).toNat := by
        simp only [pyIndex]
        rw [if_neg (by omega), if_pos (by omega)]
      simp only [h2, if_true, pySet, hi]
      rw [if_pos (by simp; omega)]
      refine ⟨_, rfl, ?_, rfl⟩
      simp only
      rw [List.set_append_right _ _ (by simp; omega)]
      congr 2; simp; omega
    · simp only [h2, if_false]
      by_cases h3 : i + b.length ≥ -(f.length : Int)
      · have hi : pyIndex f.length (pyInvert (i + b.length)) = some (-(i + b.length) - 1).toNat := by
          unfold pyIndex pyInvert
          rw [if_pos (by omega), if_pos (by omega)]
        simp only [h3, if_true, pySet, hi]
        rw [if_pos (by simp; omega)]
        refine ⟨_, rfl, ?_, rfl⟩
        simp only
        rw [set_reverse' _ _ _ (by omega), List.set_append_left _ _ (by simp; omega)]
        congr 2; simp; omega
      · simp only [h3, if_false]
        rw [if_neg (by simp; omega)]
        trivial

theorem newest_of_le (m : Option Nat) (l : List α) (h : ∀ k, m = some k → l.length ≤ k) :
    newest m l = l := by
  cases m with
  | none => rfl
  | some k => have := h k rfl; simp [newest, show l.length - k = 0 by omega]

theorem ok_of_iter {q : RAQ α} {l : List α} (h : q.iter = newest q.maxlen l) : q.Ok := by
  intro m hm
  rw [h, hm]; exact newest_length m l

theorem step_refines (q : RAQ α) (hq : q.Ok) (op : Op α) :
    (q.step op).1.iter = (BoundedList.step q.maxlen q.iter op).1 ∧
    (q.step op).2 = (BoundedList.step q.maxlen q.iter op).2 ∧
    (q.step op).1.maxlen = q.maxlen ∧ (q.step op).1.Ok := by
  cases op with
  | append x =>
    have h := append_iter q x hq
    refine ⟨h.1, rfl, h.2, ?_⟩
    exact ok_of_iter (l := q.iter ++ [x]) (by simp only [step]; rw [h.2]; exact h.1)
  | extend xs =>
    have h := applyMaxlen_iter ({ q with back := q.back ++ xs } : RAQ α)
    have h1 : (q.extend xs).iter = newest q.maxlen (q.iter ++ xs) := by
      simp only [extend, h.1]; simp [iter]
    refine ⟨h1, rfl, h.2, ?_⟩
    exact ok_of_iter (l := q.iter ++ xs) (by
      show (q.extend xs).iter = newest (q.extend xs).maxlen _
      rw [h1]; exact congrArg (newest · _) h.2.symm)
  | popleft =>
    have hp := popleft_iter q
    simp only [step, BoundedList.step]
    cases hi : q.iter with
    | nil => rw [hi] at hp; rw [hp]; simp [hi, hq]
    | cons x t =>
      rw [hi] at hp
      obtain ⟨q2, h2, h3, h4⟩ := hp
      rw [h2]
      refine ⟨h3, rfl, h4, ?_⟩
      intro m hm
      have := hq m (h4 ▸ hm)
      rw [hi] at this
      simp only at *
      rw [h3]; simp at this; omega
  | getitem i =>
    simp only [step, BoundedList.step, getitem_eq]
    cases BoundedList.get q.iter i <;> exact ⟨rfl, rfl, rfl, hq⟩
  | setitem i x =>
    have h := setitem_eq q i x
    simp only [step, BoundedList.step]
    cases hs : BoundedList.set q.iter i x with
    | none => rw [hs] at h; rw [h]; exact ⟨rfl, rfl, rfl, hq⟩
    | some l =>
      rw [hs] at h
      obtain ⟨q2, h2, h3, h4⟩ := h
      rw [h2]
      refine ⟨h3, rfl, h4, ?_⟩
      intro m hm
      have hl := hq m (h4 ▸ hm)
      have : l.length = q.iter.length := by
        simp only [BoundedList.set] at hs
        grind
      simp only at *
      rw [h3, this]; exact hl
  | len => exact ⟨rfl, by simp [step, BoundedList.step, len_eq], rfl, hq⟩
  | iter => exact ⟨rfl, rfl, rfl, hq⟩

theorem run_refines (ops : List (Op α)) (q : RAQ α) (hq : q.Ok) :
    (q.run ops).1.iter = (BoundedList.run q.maxlen q.iter ops).1 ∧
    (q.run ops).2 = (BoundedList.run q.maxlen q.iter ops).2 ∧
    (q.run ops).1.maxlen = q.maxlen ∧ (q.run ops).1.Ok := by
  induction ops generalizing q with
  | nil => exact ⟨rfl, rfl, rfl, hq⟩
  | cons op ops ih =>
    obtain ⟨h1, h2, h3, h4⟩ := step_refines q hq op
    have := ih _ h4
    rw [h1, h3] at this
    obtain ⟨i1, i2, i3, i4⟩ := this
    refine ⟨i1, ?_, i3, i4⟩
    simp only [run, BoundedList.run]
    rw [i2, h2]

theorem init_iter (maxlen : Option Nat) (xs : List α) :
    (init maxlen xs).iter = newest maxlen xs ∧ (init maxlen xs).maxlen = maxlen := by
  have := applyMaxlen_iter (⟨maxlen, [], xs⟩ : RAQ α)
  simpa [init, iter] using this

theorem init_ok (maxlen : Option Nat) (xs : List α) : (init maxlen xs).Ok :=
  ok_of_iter (l := xs) (by rw [(init_iter maxlen xs).2]; exact (init_iter maxlen xs).1)

end Verif.RAQ
