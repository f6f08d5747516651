import Verif.Spec.Returns
import Verif.Model.NStep
set_option autoImplicit false

/-! # Specification: n-step returns over episodes (C47) -/

namespace Verif.NStepAgent
variable {X K : Type} [CommSemiring K]

/-- A step of an episode: the value of the observation it starts from, the network
output for the action taken, and the reward that followed. -/
structure Step (X K : Type) where
  boot : K
  x : X
  reward : K

/-- An episode: its steps, whether it ended in a terminal state, and the value of
the last state. -/
structure Episode (X K : Type) where
  steps : List (Step X K)
  done : Bool
  boot : K

/-- The value an episode ends with: 0 at a terminal state. -/
def Episode.endValue (e : Episode X K) : K := if e.done then 0 else e.boot

/-- The calls a training loop makes after `reward` was received: each step is an
`act_and_train` carrying the reward of the step before, then
`stop_episode_and_train`. -/
def callsFrom (e : Episode X K) : K → List (Step X K) → List (Call X K)
  | reward, [] => [.stop reward e.done e.boot]
  | reward, s :: ss => .act reward s.boot s.x :: callsFrom e s.reward ss

/-- The calls of one episode; the first reward is arbitrary. -/
def Episode.calls (e : Episode X K) (reward₀ : K) : List (Call X K) := callsFrom e reward₀ e.steps

/-- `Rollouts tMax endValue steps us`: `us` cuts `steps` into consecutive rollouts
of `tMax` steps, the last of 1 to `tMax` steps, each with its bootstrap value:
that of the state the next rollout starts from, or the value of the episode's end. -/
inductive Rollouts (tMax : Nat) (endValue : K) :
    List (Step X K) → List (List (Step X K) × K) → Prop where
  | last (c : List (Step X K)) : 1 ≤ c.length → c.length ≤ tMax →
      Rollouts tMax endValue c [(c, endValue)]
  | more (c : List (Step X K)) (s : Step X K) (rest : List (Step X K))
      (us : List (List (Step X K) × K)) : c.length = tMax →
      Rollouts tMax endValue (s :: rest) us →
      Rollouts tMax endValue (c ++ s :: rest) ((c, s.boot) :: us)

/-- The steps of a rollout with their return targets: the discounted sum of the
rewards from the step to the end of the rollout plus the discounted bootstrap value. -/
def returnsOf (gamma : K) (boot : K) : List (Step X K) → List (X × K)
  | [] => []
  | s :: c => (s.x, discounted gamma ((s :: c).map (·.reward)) + gamma ^ (s :: c).length * boot) ::
      returnsOf gamma boot c

end Verif.NStepAgent
