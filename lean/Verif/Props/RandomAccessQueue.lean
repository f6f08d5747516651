import Verif.Proofs.RandomAccessQueue

/-! # C01, C02: `RandomAccessQueue` -/

namespace Verif
open RAQ (Op Out)
variable {α : Type _}

/-- C01.  Whatever the limit, the initial content and the history of
operations, everything the caller sees (values returned, lengths, iteration,
exceptions) is what a plain list that drops its oldest elements shows, and the
content at the end is that list. -/
theorem C01_queue_is_bounded_list (maxlen : Option Nat) (xs : List α) (ops : List (Op α)) :
    let q := (RAQ.init maxlen xs).run ops
    let l := BoundedList.run maxlen (BoundedList.newest maxlen xs) ops
    q.2 = l.2 ∧ q.1.iter = l.1 ∧ q.1.len = l.1.length := by
  have h := RAQ.run_refines ops (RAQ.init maxlen xs) (RAQ.init_ok maxlen xs)
  rw [(RAQ.init_iter maxlen xs).1, (RAQ.init_iter maxlen xs).2] at h
  exact ⟨h.2.1, h.1, by rw [RAQ.len_eq, h.1]⟩

/-- C01, the limit: no reachable queue holds more than `maxlen` elements. -/
theorem C01_length_limit (m : Nat) (xs : List α) (ops : List (Op α)) :
    ((RAQ.init (some m) xs).run ops).1.len ≤ m := by
  have h := RAQ.run_refines ops (RAQ.init (some m) xs) (RAQ.init_ok _ xs)
  have h2 := (RAQ.init_iter (some m) xs).2
  rw [RAQ.len_eq]
  exact h.2.2.2 m (h.2.2.1.trans h2)

/-- C01, `popleft`: on every reachable queue it raises `IndexError` exactly
when the queue is empty, and otherwise returns the oldest element. -/
theorem C01_popleft (maxlen : Option Nat) (xs : List α) (ops : List (Op α)) :
    let q := ((RAQ.init maxlen xs).run ops).1
    (q.iter = [] → q.popleft = .error .indexError) ∧
    (∀ x t, q.iter = x :: t → ∃ q', q.popleft = .ok (x, q') ∧ q'.iter = t) := by
  intro q
  have h := RAQ.popleft_iter q
  constructor
  · intro he; rw [he] at h; exact h
  · intro x t he
    rw [he] at h
    obtain ⟨q', h1, h2, _⟩ := h
    exact ⟨q', h1, h2⟩

-- a history that rotates the lists, drops on append and raises
example : ((RAQ.init (some 2) [1, 2, 3]).run
    [.iter, .append 4, .popleft, .extend [5, 6], .getitem (-1), .popleft, .popleft, .popleft]).2
    = [.items [2, 3], .unit, .item 3, .unit, .item 6, .item 5, .item 6, .raised .indexError] := by
  decide +kernel

/-- C02, reads: `q[i]` for every integer `i` on every reachable queue. -/
theorem C02_getitem (maxlen : Option Nat) (xs : List α) (ops : List (Op α)) (i : Int) :
    let q := ((RAQ.init maxlen xs).run ops).1
    let n : Int := q.iter.length
    (∀ h : 0 ≤ i ∧ i < n, q.getitem i = .ok (q.iter[i.toNat]'(by omega))) ∧
    (∀ h : -n ≤ i ∧ i < 0, q.getitem i = .ok (q.iter[(n + i).toNat]'(by omega))) ∧
    ((i < -n ∨ n ≤ i) → q.getitem i = .error .indexError) := by
  intro q n
  refine ⟨?_, ?_, ?_⟩
  · intro h
    have h2 : i.toNat < q.iter.length := by omega
    rw [RAQ.getitem_eq, BoundedList.get, if_pos h.1, List.getElem?_eq_getElem h2]
  · intro h
    have h2 : (n + i).toNat < q.iter.length := by omega
    have h3 : ¬ 0 ≤ i := by omega
    have h4 : 0 ≤ (q.iter.length : Int) + i := by omega
    rw [RAQ.getitem_eq, BoundedList.get, if_neg h3, if_pos h4, List.getElem?_eq_getElem h2]
  · intro h
    rw [RAQ.getitem_eq, BoundedList.get]
    by_cases h0 : 0 ≤ i
    · rw [if_pos h0, List.getElem?_eq_none (by omega)]
    · rw [if_neg h0, if_neg (by omega)]

/-- C02, writes: `q[i] = x` replaces exactly the addressed element, and raises
`IndexError` without changing anything for an index out of range. -/
theorem C02_setitem (maxlen : Option Nat) (xs : List α) (ops : List (Op α)) (i : Int) (x : α) :
    let q := ((RAQ.init maxlen xs).run ops).1
    let n : Int := q.iter.length
    (0 ≤ i ∧ i < n → ∃ q', q.setitem i x = .ok q' ∧ q'.iter = q.iter.set i.toNat x) ∧
    (-n ≤ i ∧ i < 0 → ∃ q', q.setitem i x = .ok q' ∧ q'.iter = q.iter.set (n + i).toNat x) ∧
    ((i < -n ∨ n ≤ i) → q.step (.setitem i x) = (q, .raised .indexError)) := by
  intro q n
  have h := RAQ.setitem_eq q i x
  simp only [BoundedList.set] at h
  refine ⟨?_, ?_, ?_⟩
  · intro hi
    rw [if_pos hi.1, if_pos (by omega)] at h
    obtain ⟨q', h1, h2, _⟩ := h
    exact ⟨q', h1, h2⟩
  · intro hi
    rw [if_neg (show ¬ 0 ≤ i by omega), if_pos (by omega)] at h
    obtain ⟨q', h1, h2, _⟩ := h
    exact ⟨q', h1, h2⟩
  · intro hi
    have : ¬ (0 ≤ (if 0 ≤ i then i else (q.iter.length : Int) + i) ∧
        (if 0 ≤ i then i else (q.iter.length : Int) + i) < q.iter.length) := by
      split <;> omega
    rw [if_neg this] at h
    simp only at h
    simp only [RAQ.step, h]

-- a queue with a front and a back part: indices on both sides of the boundary
example : ((RAQ.init none [1, 2, 3]).run
    [.popleft, .append 4, .getitem 0, .getitem 2, .getitem (-1), .getitem (-3),
     .getitem 3, .getitem (-4), .setitem (-3) 9, .iter]).2
    = [.item 1, .unit, .item 2, .item 4, .item 4, .item 2, .raised .indexError,
       .raised .indexError, .unit, .items [9, 3, 4]] := by decide +kernel

end Verif
