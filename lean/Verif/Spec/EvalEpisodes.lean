import Mathlib.Algebra.BigOperators.Group.List.Basic
import Verif.Model.RunEval
set_option autoImplicit false

/-! # Evaluation episodes, as seen from outside -/

namespace Verif.RunEval
open Train (StepOut)
variable {O A K : Type}

/-- An episode: the first observation, and the actions taken with their results. -/
structure Episode (O A K : Type) where
  first : O
  steps : List (A × StepOut O K)

/-- The calls of the steps of an episode, from the observation `obs`: the agent
is asked for an action on the current observation, which is then executed. -/
def stepEvents : O → List (A × StepOut O K) → List (Ev O A K)
  | _, [] => []
  | obs, (a, out) :: l => .act obs a :: .step a out :: stepEvents out.obs l

/-- The calls of an episode. -/
def Episode.events (e : Episode O A K) : List (Ev O A K) :=
  .reset e.first :: stepEvents e.first e.steps ++ [.stop]

/-- The return of an episode: the sum of its rewards. -/
def Episode.ret [AddMonoid K] (e : Episode O A K) : K := (e.steps.map (·.2.r)).sum

/-- The `i`-th step (from 0) ends the episode: it is done, the environment asks
for a reset or the maximal length is reached. -/
def EndsAt (maxLen : Option Nat) (steps : List (A × StepOut O K)) (i : Nat) : Prop :=
  ∃ x, steps[i]? = some x ∧ (x.2.done = true ∨ x.2.needsReset = true ∨ maxLen = some (i + 1))

/-- A complete episode: it ends at its last step and not before. -/
def Complete (maxLen : Option Nat) (e : Episode O A K) : Prop :=
  e.steps ≠ [] ∧ ∀ i, EndsAt maxLen e.steps i ↔ i + 1 = e.steps.length

/-- An unfinished episode: no step ended it. -/
def Unfinished (maxLen : Option Nat) (e : Episode O A K) : Prop :=
  e.steps ≠ [] ∧ ∀ i, ¬ EndsAt maxLen e.steps i

end Verif.RunEval
