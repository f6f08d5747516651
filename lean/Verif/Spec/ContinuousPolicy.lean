import Verif.Spec.Optimality
set_option autoImplicit false

/-! # Specification: processes with any actions, and policies given by samples (for C139) -/

namespace Verif.CMDP
open MDP
variable {S U K : Type} [Field K] [LinearOrder K]

/-- The outcomes of each action in each state, with their probabilities; actions are of any kind, for example vectors. -/
abbrev Env (S U K : Type) := S → U → List (K × Outcome S K)

/-- A policy: for each state the actions it samples, with their probabilities; each action comes with the log probability (density) that the policy reports. -/
abbrev Policy (S U K : Type) := S → List (K × (U × K))

/-- The expected discounted return of action `u` in state `s` and of the policy's actions afterwards, at most `n` steps in all, with the bonus `-temp * log prob` for
each of the policy's actions. -/
def ret (env : Env S U K) (gamma temp : K) (pol : Policy S U K) : Nat → S → U → K
  | 0, _, _ => 0
  | n + 1, s, u => expect (env s u) fun o => o.reward + if o.done then 0 else
      gamma * expect (pol o.next) fun x => -(temp * x.2) + ret env gamma temp pol n o.next x.1

/-- All probabilities are probabilities. -/
def Valid (env : Env S U K) (pol : Policy S U K) : Prop := (∀ s u, IsDist (env s u)) ∧ ∀ s, IsDist (pol s)

end Verif.CMDP
