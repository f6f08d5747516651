import Verif.Spec.AtariStack
import Verif.Spec.StepLimits
import Verif.Spec.EvalEpisodes
import Verif.Spec.BatchEpisodes
import Verif.Model.AtariStack
import Verif.Model.BatchRunEval
set_option autoImplicit false

/-!
# Specification for C178: the games of an evaluation
-/

namespace Verif.AtariScores
open Train (StepOut)
open Wrappers (ends)
open AtariStack (Raw Options)
variable {O A K T X : Type}

/-- The call of the environment, if it is one. -/
def ofEnv : RunEval.Ev O A K → Option (Train.Ev O A K Unit)
  | .reset o => some (.reset o)
  | .step a out => some (.step a out)
  | _ => none

/-- The evaluation used the environment `call`, which was in state `t` at first. -/
def Served (call : T → Wrappers.Op A → T × Wrappers.Out O K) (t : T) (evs : List (RunEval.Ev O A K)) : Prop :=
  StepLimits.Served call t (evs.filterMap ofEnv)

/-- One game as seen at the emulator: games that were over before the agent could play, the frames of this one before the agent took over, and those
after that. -/
structure Game (X A : Type) where
  aborted : List (Raw X A ℝ)
  warm : List (A × StepOut X ℝ)
  played : List (A × StepOut X ℝ)

/-- What the observer sees of it. -/
def Game.log (e : Game X A) : List (Raw X A ℝ) := e.aborted ++ .reset :: (e.warm ++ e.played).map fun f => .frame f.1 f.2

/-- What the game awarded the agent. -/
def Game.score (e : Game X A) : ℝ := (e.played.map (·.2.r)).sum

/-- The agent's part begins after no-ops and fire actions only. -/
def Game.Fair (o : Options A) (e : Game X A) : Prop :=
  (∀ a out, .frame a out ∈ e.aborted → a = o.a₀ ∨ a = o.a₁ ∨ a = o.a₂) ∧
    ∀ f ∈ e.warm, (f.1 = o.a₀ ∨ f.1 = o.a₁ ∨ f.1 = o.a₂) ∧ ends f.2 = false

/-- The game is over with its last frame, or has as many frames as are allowed. -/
def Game.Over (o : Options A) (e : Game X A) : Prop :=
  ∃ f, e.played.getLast? = some f ∧ (ends f.2 = true ∨ o.maxFrames ≠ 0 ∧ (e.warm ++ e.played).length = o.maxFrames)

/-- The game was left after `n` steps of the agent. -/
def Game.Left (n : Nat) (e : Game X A) : Prop := n ≤ e.played.length ∧ e.played.length ≤ 4 * n

/-! ## Vectorised evaluation -/

/-- The call of environment `i`, if there is one: a reset with mask `True` does not reach it. -/
def ofBatch (i : Nat) : BatchRunEval.Ev O A K → Option (Train.Ev O A K Unit)
  | .reset mask obss => if mask.bind (·[i]?) = some true then none else obss[i]?.map .reset
  | .step actions outs =>
    match actions[i]?, outs[i]? with
    | some a, some out => some (.step a out)
    | _, _ => none
  | _ => none

/-- The evaluation used `call`, which was in state `t` at first, as environment `i`. -/
def BatchServed (i : Nat) (call : T → Wrappers.Op A → T × Wrappers.Out O K) (t : T) (evs : List (BatchRunEval.Ev O A K)) : Prop :=
  StepLimits.Served call t (evs.filterMap (ofBatch i))

/-- How many episodes environment `e` has begun before time `s`; `out n e` is what it returned in the `n`-th step. -/
def begun (maxLen : Option Nat) (out : Nat → Nat → StepOut O K) (e s : Nat) : Nat :=
  ((List.range s).filter fun u => BatchEpisodes.len maxLen out e u = 0).length

end Verif.AtariScores
