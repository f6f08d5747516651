import Verif.Model.SimpleWrappers
set_option autoImplicit false

/-! # What the simple wrappers may change -/

namespace Verif.SimpleWrappers.Spec
open Verif.Train (StepOut)
variable {O O' A W V : Type}

/-- The calls the environment gets for one call of a `Render`. -/
def rendered (kw : W) : Call A W → List (Call A W)
  | .reset => [.reset, .render kw]
  | .step a => [.step a, .render kw]
  | c => [c]

/-- The calls the environment gets for one call after `make_rendered`. -/
def modified (args closing : W) : Call A W → List (Call A W)
  | .step a => [.step a, .render args]
  | .close => [.render closing, .close]
  | c => [c]

/-- A result with another reward. -/
def withReward (g : ℝ → ℝ) : Py (Ret O V) → Py (Ret O V)
  | .ok (.step out) => .ok (.step ⟨out.obs, g out.r, out.done, out.needsReset⟩)
  | r => r

/-- A result with another observation. -/
def withObs (g : O → O') : Py (Ret O V) → Py (Ret O' V)
  | .ok (.obs o) => .ok (.obs (g o))
  | .ok (.step out) => .ok (.step ⟨g out.obs, out.r, out.done, out.needsReset⟩)
  | .ok (.value v) => .ok (.value v)
  | .ok .none => .ok .none
  | .error e => .error e

/-- The reward in a result, if it has one. -/
def reward? : Py (Ret O V) → Option ℝ
  | .ok (.step out) => some out.r
  | _ => none

/-- The observation in a result, if it has one. -/
def obs? : Py (Ret O V) → Option O
  | .ok (.step out) => some out.obs
  | .ok (.obs o) => some o
  | _ => none

/-- Only `step` returns a step result: what gym asks of an environment. -/
def StepsOnly {S : Type} (f : Env S O A W V) : Prop :=
  ∀ s c out, (f s c).2 = .ok (.step out) → ∃ a, c = .step a

/-- The latest of some values, or `start`. -/
def latest {X : Type} (start : Option X) (xs : List X) : Option X :=
  match xs.getLast? with
  | some x => some x
  | none => start

end Verif.SimpleWrappers.Spec
