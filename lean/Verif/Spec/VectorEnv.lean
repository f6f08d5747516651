import Verif.Model.VectorEnv
set_option autoImplicit false

/-! # One environment on its own

The reference for C32 and C33: a single environment that remembers its last
observation.  It uses nothing of the vector environments but the types of calls
and results. -/

namespace Verif.VectorEnv
variable {S O A I : Type}

/-- What a call on the vector environment means for one environment. -/
inductive EOp (A : Type) where
  | step (a : A)
  | reset
  /-- not to be reset -/
  | keep

/-- What one environment shows. -/
inductive EOut (O I : Type) where
  | out (o : O × I)
  | obs (o : Option O)
  deriving DecidableEq

/-- One call on a single environment; the state has the last observation. -/
def EOp.call (dyn : Env S O A I) : EOp A → S × Option O → (S × Option O) × EOut O I
  | .step a, (s, _) => (((dyn.step s a).1, some (dyn.step s a).2.1), .out (dyn.step s a).2)
  | .reset, (s, _) => (((dyn.reset s).1, some (dyn.reset s).2), .obs (some (dyn.reset s).2))
  | .keep, (s, o) => ((s, o), .obs o)

/-- A sequence of calls on a single environment. -/
def EOp.run (dyn : Env S O A I) : S × Option O → List (EOp A) → (S × Option O) × List (EOut O I)
  | s, [] => (s, [])
  | s, e :: es =>
    let r := e.call dyn s
    let rs := EOp.run dyn r.1 es
    (rs.1, r.2 :: rs.2)

/-- The call has an action or mask entry for each of `n` environments. -/
def Op.width (n : Nat) : Op A → Prop
  | .step actions => actions.length = n
  | .reset none => True
  | .reset (some mask) => mask.length = n

/-- The call as seen by environment `i`. -/
def Op.at (i : Nat) : Op A → EOp A
  | .step actions => match actions[i]? with | some a => .step a | none => .keep
  | .reset none => .reset
  | .reset (some mask) => if mask[i]? = some false then .reset else .keep

/-- The result for environment `i`. -/
def Out.at (i : Nat) : Out O I → Option (EOut O I)
  | .step outs => (outs[i]?).map .out
  | .reset obs => (obs[i]?).map .obs

end Verif.VectorEnv
