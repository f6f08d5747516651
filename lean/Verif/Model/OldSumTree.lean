import Mathlib.Data.Real.Basic
import Verif.Model.Py
set_option autoImplicit false

/-!
# Model of the deprecated `SumTree` (`chainerrl/misc/prioritized.py:295-415`)

Values are real numbers.  A tree with `bd=None` is `none`; a leaf is a tree whose bounds differ by 1 (line 331), any
other tree that the methods make has two children.  Indices are Python integers of any sign.
-/

namespace Verif.OldSumTree

/-- A tree with bounds (lines 303-308). -/
inductive Tree where
  | leaf (lo : ℤ) (s : ℝ)
  | node (lo hi : ℤ) (s : ℝ) (left right : Tree)

namespace Tree

/-- `self.s` (prioritized.py:303-308). -/
def s : Tree → ℝ
  | leaf _ s => s
  | node _ _ s _ _ => s

/-- `self.bd[0]` (prioritized.py:303-308). -/
def lo : Tree → ℤ
  | leaf lo _ => lo
  | node lo _ _ _ _ => lo

/-- `self.bd[1]` (prioritized.py:303-308). -/
def hi : Tree → ℤ
  | leaf lo _ => lo + 1
  | node _ hi _ _ _ => hi

end Tree

/-- `_center` (lines 333-334) -/
def center (lo hi : ℤ) : ℤ := (lo + hi) / 2

/-- `SumTree(bd=(lo, hi))._initdescendant()` (lines 323-328).  `fuel` bounds the recursion depth. -/
def fresh : Nat → ℤ → ℤ → Tree
  | 0, lo, _ => .leaf lo 0
  | fuel + 1, lo, hi =>
    if hi - lo = 1 then .leaf lo 0
    else .node lo hi 0 (fresh fuel lo (center lo hi)) (fresh fuel (center lo hi) hi)

/-- `fresh` with enough depth: it halves the width (prioritized.py:323-328). -/
def initDescendant (lo hi : ℤ) : Tree := fresh (hi - lo).toNat lo hi

/-- One round of the loop in lines 339-346. -/
def growRight (t : Tree) : Tree :=
  let right := initDescendant t.hi (t.hi * 2 - t.lo)
  .node t.lo (t.hi * 2 - t.lo) t.s t right

/-- One round of the loop in lines 348-354. -/
def growLeft (t : Tree) : Tree :=
  let left := initDescendant (t.lo * 2 - t.hi) t.lo
  .node (t.lo * 2 - t.hi) t.hi t.s left t

/-- The loop of lines 339-346; every round raises the upper bound, so `fuel` rounds are enough if `fuel` is the distance. -/
def allocRight : Nat → ℤ → Tree → Tree
  | 0, _, t => t
  | fuel + 1, ix, t => if ix ≥ t.hi then allocRight fuel ix (growRight t) else t

/-- The loop of lines 348-354. -/
def allocLeft : Nat → ℤ → Tree → Tree
  | 0, _, t => t
  | fuel + 1, ix, t => if ix < t.lo then allocLeft fuel ix (growLeft t) else t

/-- `_allocindex` (lines 336-355) -/
noncomputable def allocIndex (ix : ℤ) : Option Tree → Tree
  | none => .leaf ix 0
  | some t =>
    let t := allocRight (ix - t.hi + 1).toNat ix t
    allocLeft (t.lo - ix).toNat ix t

/-- `_write` (lines 361-370) -/
noncomputable def write (ix : ℤ) (val : ℝ) : Tree → Tree
  | .leaf lo _ => .leaf lo val
  | .node lo hi _ left right =>
    if ix < center lo hi then
      let left := write ix val left
      .node lo hi (left.s + right.s) left right
    else
      let right := write ix val right
      .node lo hi (left.s + right.s) left right

/-- `_read` (lines 379-387) -/
def read (ix : ℤ) : Tree → ℝ
  | .leaf _ s => s
  | .node lo hi _ left right => if ix < center lo hi then read ix left else read ix right

/-- `__setitem__` (lines 357-359) -/
noncomputable def setItem (t : Option Tree) (ix : ℤ) (val : ℝ) : Option Tree := some (write ix val (allocIndex ix t))

/-- `__delitem__` (lines 372-373) -/
noncomputable def delItem (t : Option Tree) (ix : ℤ) : Option Tree := setItem t ix 0

/-- `__getitem__` (lines 375-377); `self.bd[0]` of an empty tree is a `TypeError`. -/
def getItem (t : Option Tree) (ix : ℤ) : Py ℝ :=
  match t with
  | none => .error .typeError
  | some t => if t.lo ≤ ix ∧ ix < t.hi then .ok (read ix t) else .error .assertionError

/-- `_pick` (lines 408-415) -/
noncomputable def pick (cum : ℝ) : Tree → ℤ × ℝ
  | .leaf lo s => (lo, s)
  | .node _ _ _ left right => if cum < left.s then pick cum left else pick (cum - left.s) right

/-- `prioritized_choice` (lines 404-406).  `u` in [0, 1) is the random number behind `np.random.uniform(0.0, self.s)`. -/
noncomputable def choice (t : Tree) (u : ℝ) : Py (ℤ × ℝ) :=
  let (ix, v) := pick (u * t.s) t
  if t.s = 0 then .error .zeroDivisionError else .ok (ix, v / t.s)

/-- The loop of lines 394-398, with one random number per round. -/
noncomputable def draw : Tree → List ℝ → Tree × List (ℤ × ℝ)
  | t, [] => (t, [])
  | t, u :: us =>
    let p := pick (u * t.s) t
    let r := draw (write p.1 0 t) us
    (r.1, p :: r.2)

/-- The loop of lines 400-401. -/
noncomputable def restore : Tree → List (ℤ × ℝ) → Tree
  | t, [] => t
  | t, p :: ps => restore (write p.1 p.2 t) ps

/-- `prioritized_sample(len(us), remove)` (lines 389-402). -/
noncomputable def sample (t : Tree) (us : List ℝ) (remove : Bool) : Tree × Py (List ℤ × List ℝ) :=
  let total := t.s
  let r := draw t us
  let t' := if remove then r.1 else restore r.1 r.2
  (t', if total = 0 ∧ r.2 ≠ [] then .error .zeroDivisionError
    else .ok (r.2.map (·.1), r.2.map fun p => p.2 / total))

end Verif.OldSumTree
