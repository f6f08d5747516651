import Verif.Model.OldStyle

/-! Specification for C143: reachability, chains and walks in a computational graph. -/

set_option autoImplicit false

namespace Verif.OldStyle

variable {V F : Type}

/-- The function `f` took part in the computation of one of the variables `outs`. -/
inductive Used (g : Graph V F) (outs : List V) : F → Prop where
  | direct {v : V} {f : F} : v ∈ outs → g.creator v = some f → Used g outs f
  | indirect {f f' : F} {v : V} : Used g outs f → v ∈ g.inputs f → g.creator v = some f' → Used g outs f'

/-- A chain of functions, each of which created an input of the one before. -/
def Chain (g : Graph V F) : List V → List F → Prop
  | _, [] => True
  | outs, f :: fs => (∃ v ∈ outs, g.creator v = some f) ∧ Chain g (g.inputs f) fs

/-- A walk through the graph: the positions of the variables in the list of outputs and then in the lists of
inputs. -/
def Walk (g : Graph V F) : List V → List Nat → Prop
  | _, [] => False
  | outs, [i] => i < outs.length
  | outs, i :: j :: rest => ∃ v f, outs[i]? = some v ∧ g.creator v = some f ∧ Walk g (g.inputs f) (j :: rest)

end Verif.OldStyle
