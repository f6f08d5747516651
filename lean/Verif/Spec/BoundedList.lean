import Verif.Model.RandomAccessQueue

/-!
# Specification: a plain list that forgets its oldest elements

Independent of the implementation: a Python list whose leftmost elements are
dropped whenever its length exceeds `maxlen`.
-/

namespace Verif.BoundedList
variable {α : Type _}

/-- The newest `maxlen` elements of `l` (all of them if there is no limit). -/
def newest (maxlen : Option Nat) (l : List α) : List α :=
  match maxlen with
  | none => l
  | some m => l.drop (l.length - m)

/-- Element of a plain Python list at any integer index: `l[i]` for
`0 ≤ i < n`, `l[n+i]` for `-n ≤ i < 0`. -/
def get (l : List α) (i : Int) : Option α :=
  if 0 ≤ i then l[i.toNat]?
  else if 0 ≤ (l.length : Int) + i then l[((l.length : Int) + i).toNat]? else none

/-- Plain list assignment `l[i] = x`, `none` where Python raises. -/
def set (l : List α) (i : Int) (x : α) : Option (List α) :=
  let k := if 0 ≤ i then i else (l.length : Int) + i
  if 0 ≤ k ∧ k < l.length then some (l.set k.toNat x) else none

open RAQ (Op Out) in
/-- The plain-list semantics of every operation. -/
def step (maxlen : Option Nat) (l : List α) : Op α → List α × Out α
  | .append x => (newest maxlen (l ++ [x]), .unit)
  | .extend xs => (newest maxlen (l ++ xs), .unit)
  | .popleft => match l with
    | [] => ([], .raised .indexError)
    | x :: t => (t, .item x)
  | .getitem i => match get l i with
    | some x => (l, .item x)
    | none => (l, .raised .indexError)
  | .setitem i x => match set l i x with
    | some l' => (l', .unit)
    | none => (l, .raised .indexError)
  | .len => (l, .nat l.length)
  | .iter => (l, .items l)

open RAQ (Op Out) in
/-- A history of plain-list operations. -/
def run (maxlen : Option Nat) (l : List α) : List (Op α) → List α × List (Out α)
  | [] => (l, [])
  | op :: ops =>
    let (l', o) := step maxlen l op
    let (l'', os) := run maxlen l' ops
    (l'', o :: os)

end Verif.BoundedList
