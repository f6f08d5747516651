import Verif.Model.Py

/-!
# Model of `chainerrl/misc/collections.py` (class `RandomAccessQueue`)
-/

namespace Verif

/-- `collections.py:13-18`.  `front` is `_queue_front` in Python list order
(its *last* element is the oldest one), `back` is `_queue_back`. -/
structure RAQ (α : Type _) where
  maxlen : Option Nat
  front : List α
  back : List α

namespace RAQ
variable {α : Type _}

/-- `collections.py:25-27`: `chain(reversed(front), back)`. -/
def iter (q : RAQ α) : List α := q.front.reverse ++ q.back

/-- `collections.py:32-33`. -/
def len (q : RAQ α) : Nat := q.front.length + q.back.length

/-- `collections.py:91-97`: when the front list is empty the reversed back
list becomes the front list. -/
def rotate (q : RAQ α) : RAQ α :=
  match q.front with
  | [] => { q with front := q.back.reverse, back := [] }
  | _ :: _ => q

/-- `collections.py:90-99`.  Moving the back list to the front and popping the
last element; `IndexError` when both lists are empty. -/
def popleft (q : RAQ α) : Py (α × RAQ α) :=
  match q.rotate.front.getLast? with
  | none => .error .indexError
  | some x => .ok (x, { q.rotate with front := q.rotate.front.dropLast })

theorem iter_rotate (q : RAQ α) : q.rotate.iter = q.iter := by
  obtain ⟨m, f, b⟩ := q
  cases f <;> simp [rotate, iter]

/-- Used for the termination of `applyMaxlen`. -/
theorem popleft_iter (q : RAQ α) :
    match q.iter with
    | [] => q.popleft = .error .indexError
    | x :: t => ∃ q', q.popleft = .ok (x, q') ∧ q'.iter = t ∧ q'.maxlen = q.maxlen := by
  obtain ⟨m, f, b⟩ := q
  cases f with
  | nil =>
    cases b with
    | nil => simp [iter, popleft, rotate]
    | cons x t => simp [iter, popleft, rotate]
  | cons a f =>
    obtain ⟨f', x, hfx⟩ : ∃ f' x, a :: f = f' ++ [x] :=
      ⟨(a :: f).dropLast, (a :: f).getLast (by simp), by rw [List.dropLast_concat_getLast]⟩
    simp only [iter, popleft, rotate]
    rw [hfx]
    simp

theorem len_eq (q : RAQ α) : q.len = q.iter.length := by simp [len, iter]

theorem len_popleft {q q' : RAQ α} {x : α} (h : q.popleft = .ok (x, q')) :
    q'.len + 1 = q.len := by
  have := popleft_iter q
  rw [len_eq, len_eq]
  split at this
  · rw [this] at h; cases h
  · rename_i hq
    obtain ⟨q2, h2, h3, _⟩ := this
    rw [h2] at h; cases h
    rw [hq, h3]; simp

/-- `collections.py:20-23`: `while len(self) > maxlen: popleft()`. -/
def applyMaxlen (q : RAQ α) : RAQ α :=
  match q.maxlen with
  | none => q
  | some m =>
    if q.len > m then
      match _h : q.popleft with
      | .ok (_, q') => applyMaxlen q'
      | .error _ => q
    else q
termination_by q.len
decreasing_by have := len_popleft _h; omega

/-- `collections.py:13-18`: `RandomAccessQueue(xs, maxlen=maxlen)`.
(`maxlen >= 0` of line 15 is expressed by the type `Nat`.) -/
def init (maxlen : Option Nat) (xs : List α) : RAQ α :=
  applyMaxlen { maxlen := maxlen, front := [], back := xs }

/-- `collections.py:35-56`. -/
def getitem (q : RAQ α) (i : Int) : Py α :=
  if i ≥ 0 then
    let nf : Int := q.front.length
    if i < nf then pyGet q.front (pyInvert i)
    else
      let i := i - nf
      if i < q.back.length then pyGet q.back i
      else .error .indexError
  else
    let nb : Int := q.back.length
    if i ≥ -nb then pyGet q.back i
    else
      let i := i + nb
      if i ≥ -(q.front.length : Int) then pyGet q.front (pyInvert i)
      else .error .indexError

/-- `collections.py:58-79`. -/
def setitem (q : RAQ α) (i : Int) (x : α) : Py (RAQ α) :=
  if i ≥ 0 then
    let nf : Int := q.front.length
    if i < nf then do let f ← pySet q.front (pyInvert i) x; pure { q with front := f }
    else
      let i := i - nf
      if i < q.back.length then do let b ← pySet q.back i x; pure { q with back := b }
      else .error .indexError
  else
    let nb : Int := q.back.length
    if i ≥ -nb then do let b ← pySet q.back i x; pure { q with back := b }
    else
      let i := i + nb
      if i ≥ -(q.front.length : Int) then do
        let f ← pySet q.front (pyInvert i) x; pure { q with front := f }
      else .error .indexError

/-- `collections.py:81-84`. -/
def append (q : RAQ α) (x : α) : RAQ α :=
  let q := { q with back := q.back ++ [x] }
  match q.maxlen with
  | none => q
  | some m =>
    if q.len > m then
      match q.popleft with
      | .ok (_, q') => q'
      | .error _ => q
    else q

/-- `collections.py:86-88`. -/
def extend (q : RAQ α) (xs : List α) : RAQ α :=
  applyMaxlen { q with back := q.back ++ xs }

/-- The public operations of the queue (collections.py:32-99). -/
inductive Op (α : Type _) where
  | append (x : α) | extend (xs : List α) | popleft
  | getitem (i : Int) | setitem (i : Int) (x : α) | len | iter

/-- What an operation shows to its caller (collections.py:32-99). -/
inductive Out (α : Type _) where
  | unit | item (x : α) | nat (n : Nat) | items (l : List α) | raised (e : PyErr)
  deriving DecidableEq

/-- One public operation: new state and what the caller sees.  A raised
exception leaves the queue as it was at that point (collections.py:32-99). -/
def step (q : RAQ α) : Op α → RAQ α × Out α
  | .append x => (q.append x, .unit)
  | .extend xs => (q.extend xs, .unit)
  | .popleft => match q.popleft with
    | .ok (x, q') => (q', .item x)
    | .error e => (q, .raised e)
  | .getitem i => match q.getitem i with
    | .ok x => (q, .item x)
    | .error e => (q, .raised e)
  | .setitem i x => match q.setitem i x with
    | .ok q' => (q', .unit)
    | .error e => (q, .raised e)
  | .len => (q, .nat q.len)
  | .iter => (q, .items q.iter)

/-- A history of operations, with everything the caller saw (iterates collections.py:32-99). -/
def run (q : RAQ α) : List (Op α) → RAQ α × List (Out α)
  | [] => (q, [])
  | op :: ops =>
    let (q', o) := q.step op
    let (q'', os) := run q' ops
    (q'', o :: os)

end RAQ
end Verif
