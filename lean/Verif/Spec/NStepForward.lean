import Verif.Model.NStepForward

/-!
What a stateless recurrent model means: one step on one row, from one sequence's state.
A row is the list of its parts: one for an array, several for a tuple of arrays.
-/

set_option autoImplicit false

namespace Verif.NStepForward
variable {V S : Type}

mutual
/-- The state of one sequence in a layer. -/
def State : Layer V S → Type
  | .core _ _ => S
  | .fn _ => Unit
  | .fnTup _ _ => Unit
  | .seq ls => States ls
  | .branch cs => States cs
/-- The states of one sequence in several layers. -/
def States : List (Layer V S) → Type
  | [] => Unit
  | l :: ls => State l × States ls
end

mutual
/-- The state of a sequence that has not begun. -/
def initial : (l : Layer V S) → State l
  | .core _ zero => (zero : S)
  | .fn _ => ()
  | .fnTup _ _ => ()
  | .seq ls => initials ls
  | .branch cs => initials cs
/-- The same for several layers. -/
def initials : (ls : List (Layer V S)) → States ls
  | [] => ()
  | l :: ls => (initial l, initials ls)
end

variable [Inhabited V]

mutual
/-- One step of one sequence: a core link applies its cell to the (only) part of the row, a
function is applied to the row, a sequential model passes the row through its layers, and a
branched model gives the row to every child and collects their outputs. -/
def step : (l : Layer V S) → State l → List V → State l × List V
  | .core cell _, s, row => ((cell s (row.headD default)).1, [(cell s (row.headD default)).2])
  | .fn f, _, row => ((), [f row])
  | .fnTup _ f, _, row => ((), List.ofFn (f row))
  | .seq ls, ss, row => through ls ss row
  | .branch cs, ss, row => parallel cs ss row
/-- A row passed through layers. -/
def through : (ls : List (Layer V S)) → States ls → List V → States ls × List V
  | [], _, row => ((), row)
  | l :: ls, ss, row =>
    (((step l ss.1 row).1, (through ls ss.2 (step l ss.1 row).2).1),
      (through ls ss.2 (step l ss.1 row).2).2)
/-- A row given to every child. -/
def parallel : (cs : List (Layer V S)) → States cs → List V → States cs × List V
  | [], _, _ => ((), [])
  | c :: cs, ss, row =>
    (((step c ss.1 row).1, (parallel cs ss.2 row).1), (step c ss.1 row).2 ++ (parallel cs ss.2 row).2)
end

/-- Steps one after the other: the last state and the outputs. -/
def runWith {σ : Type} (f : σ → List V → σ × List V) : σ → List (List V) → σ × List (List V)
  | s, [] => (s, [])
  | s, row :: rows => ((runWith f (f s row).1 rows).1, (f s row).2 :: (runWith f (f s row).1 rows).2)

/-- The kind of value: an array, or a tuple of so many arrays. -/
abbrev Shape := Option Nat

/-- The number of parts of a row. -/
def Shape.width (sh : Shape) : Nat := sh.getD 1

/-- The value that holds the given rows. -/
def pack (sh : Shape) (rows : List (List V)) : Val V :=
  match sh with
  | none => .arr (rows.map fun r => r.headD default)
  | some k => .tup ((List.range k).map fun i => rows.map fun r => r.getD i default)

mutual
/-- A layer accepts values of kind `a` and returns values of kind `b`; sequential models are
only given arrays. -/
def Fits : Layer V S → Shape → Shape → Prop
  | .core _ _, a, b => a = none ∧ b = none
  | .fn _, a, b => a ≠ some 0 ∧ b = none
  | .fnTup k _, a, b => a ≠ some 0 ∧ b = some k ∧ k ≠ 0
  | .seq ls, a, b => a = none ∧ FitsSeq ls a b
  | .branch cs, a, b => a ≠ some 0 ∧ cs ≠ [] ∧ b = some cs.length ∧ FitsAll cs a
/-- The layers of a sequential model. -/
def FitsSeq : List (Layer V S) → Shape → Shape → Prop
  | [], a, b => a = b
  | l :: ls, a, b => ∃ m, Fits l a m ∧ FitsSeq ls m b
/-- The children of a branched model: recurrent links that return arrays. -/
def FitsAll : List (Layer V S) → Shape → Prop
  | [], _ => True
  | c :: cs, a => c.isRecurrent = true ∧ Fits c a none ∧ FitsAll cs a
end

mutual
/-- The batched state `rs` stands for the states `ss` of the sequences; `None` stands for
the initial states. -/
def Stands : (l : Layer V S) → RS S → List (State l) → Prop
  | .core cell zero, rs, ss => match rs with
    | .none => ∀ s ∈ ss, s = initial (.core cell zero)
    | .rows r => r = ss
    | .list _ => False
  | .fn _, _, _ => True
  | .fnTup _ _, _, _ => True
  | .seq ls, rs, ss => match rs with
    | .none => ∀ s ∈ ss, s = initial (.seq ls)
    | .list r => StandsSeq ls r ss
    | .rows _ => False
  | .branch cs, rs, ss => match rs with
    | .none => ∀ s ∈ ss, s = initial (.branch cs)
    | .list r => StandsSeq cs r ss
    | .rows _ => False
/-- One entry for every recurrent layer. -/
def StandsSeq : (ls : List (Layer V S)) → List (RS S) → List (States ls) → Prop
  | [], rs, _ => rs = []
  | l :: ls, rs, ss =>
    if l.isRecurrent then
      ∃ r rs', rs = r :: rs' ∧ Stands l r (ss.map (fun s => s.1)) ∧ StandsSeq ls rs' (ss.map (fun s => s.2))
    else StandsSeq ls rs (ss.map (fun s => s.2))
end

end Verif.NStepForward
