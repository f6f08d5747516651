import Verif.Spec.NStepForward
import Verif.Model.RecurrentUpdate

/-! What the recurrent state of one sequence stands for, and which models share a structure. -/

set_option autoImplicit false

namespace Verif.NStepForward
variable {V S : Type}

mutual
/-- The stored state `srs` stands for the state `s` of one sequence; `None` stands for the
initial state. -/
def StandsOne : (l : Layer V S) → SRS S → State l → Prop
  | .core cell zero, srs, s => match srs with
    | .none => s = initial (.core cell zero)
    | .row r => r = s
    | .list _ => False
  | .fn _, _, _ => True
  | .fnTup _ _, _, _ => True
  | .seq ls, srs, s => match srs with
    | .none => s = initial (.seq ls)
    | .list r => StandsOnes ls r s
    | .row _ => False
  | .branch cs, srs, s => match srs with
    | .none => s = initial (.branch cs)
    | .list r => StandsOnes cs r s
    | .row _ => False
/-- One entry for every recurrent layer. -/
def StandsOnes : (ls : List (Layer V S)) → List (SRS S) → States ls → Prop
  | [], rs, _ => rs = []
  | l :: ls, rs, s =>
    if l.isRecurrent then ∃ r rs', rs = r :: rs' ∧ StandsOne l r s.1 ∧ StandsOnes ls rs' s.2
    else StandsOnes ls rs s.2
end

mutual
/-- The same structure with other parameters, as a model and a copy of it have. -/
def SameShape : Layer V S → Layer V S → Prop
  | .core _ z, .core _ z' => z = z'
  | .fn _, .fn _ => True
  | .fnTup k _, .fnTup k' _ => k = k'
  | .seq ls, .seq ls' => SameShapes ls ls'
  | .branch ls, .branch ls' => SameShapes ls ls'
  | _, _ => False
/-- The same for lists of layers. -/
def SameShapes : List (Layer V S) → List (Layer V S) → Prop
  | [], [] => True
  | l :: ls, l' :: ls' => SameShape l l' ∧ SameShapes ls ls'
  | _, _ => False
end

end Verif.NStepForward
