import Verif.Spec.PolicyGradient
import Verif.Model.PolicyGradient
import Verif.Spec.NStep
import Verif.Spec.A2C
set_option autoImplicit false

/-! # Specification: the losses of the agents for given rollouts, as functions of the
parameters (C103)

Each agent is called the way the training loops call it, along a given rollout; the log
probabilities and entropies it stores are those of the parameters `θ`, the values are those
of the value function `v`. -/

namespace Verif.PolicyGradient
variable {Ω O A E : Type}

/-- What the network returns for a step. -/
noncomputable def outAt (pi : E → List O → A → ℝ) (ent : E → List O → ℝ) (v : List O → ℝ) (θ : E)
    (s : Step O A) : Out := ⟨Real.log (pi θ s.hist s.act), ent θ s.hist, v s.hist⟩

/-- REINFORCE is called with the reward of the step before. -/
noncomputable def reinforceCalls (pi : E → List O → A → ℝ) (ent : E → List O → ℝ) (θ : E) (done : Bool) :
    ℝ → List (Step O A) → List (Reinforce.Call ℝ)
  | r, [] => [.stop r done]
  | r, s :: l =>
    .act r (Real.log (pi θ s.hist s.act)) (ent θ s.hist) :: reinforceCalls pi ent θ done s.reward l

/-- The calls of several episodes of REINFORCE. -/
noncomputable def reinforceAll (pi : E → List O → A → ℝ) (ent : E → List O → ℝ) (θ : E) (r₀ : ℝ)
    (qs : List (Path O A)) : List (Reinforce.Call ℝ) :=
  qs.flatMap fun q => reinforceCalls pi ent θ q.done r₀ q.steps

/-- The sum of the losses of REINFORCE's updates in these episodes. -/
noncomputable def reinforceLoss (c : Reinforce.Cfg ℝ) (pi : E → List O → A → ℝ) (ent : E → List O → ℝ)
    (r₀ : ℝ) (qs : List (Path O A)) (θ : E) : ℝ :=
  match Reinforce.run c Reinforce.St.init (reinforceAll pi ent θ r₀ qs) with
  | .ok x => x.2.sum
  | .error _ => 0

/-- The calls of A3C along a rollout. -/
noncomputable def a3cCalls (pi : E → List O → A → ℝ) (ent : E → List O → ℝ) (v : List O → ℝ) (r₀ : ℝ)
    (q : Path O A) (θ : E) : List (NStepAgent.Call Out ℝ) :=
  NStepAgent.Episode.calls ⟨q.steps.map fun s => ⟨v s.hist, outAt pi ent v θ s, s.reward⟩, q.done, q.boot⟩ r₀

/-- The sum of A3C's policy losses in a rollout. -/
noncomputable def a3cLoss (c : A3CCfg) (γ : ℝ) (pi : E → List O → A → ℝ) (ent : E → List O → ℝ)
    (v : List O → ℝ) (r₀ : ℝ) (q : Path O A) (θ : E) : ℝ :=
  match NStepAgent.run γ c.tMax NStepAgent.St.init (a3cCalls pi ent v r₀ q θ) with
  | .ok x => (x.2.map (a3cPiLoss c)).sum
  | .error _ => 0

/-- The calls of A2C along a rollout of one process; the value of the observation after a
step is that of the next step, or at the end the rollout's. -/
def a2cSteps (v : List O → ℝ) (endValue : ℝ) : List (Step O A) → List (A2C.Step ℝ)
  | [] => []
  | [s] => [⟨v s.hist, s.reward, s.ended, false, endValue⟩]
  | s :: s' :: l => ⟨v s.hist, s.reward, s.ended, false, v s'.hist⟩ :: a2cSteps v endValue (s' :: l)

/-- The returns that A2C computes for the first rollout of a process (without GAE). -/
noncomputable def a2cReturns (γ : ℝ) (n : Nat) (v : List O → ℝ) (q : Path O A) : List ℝ :=
  match A2C.run γ none n A2C.St.init ((a2cSteps v q.endValue q.steps).flatMap A2C.Step.calls) with
  | .ok x => x.2.flatten
  | .error _ => []

/-- A2C's policy loss for the rollouts of its processes. -/
noncomputable def a2cLoss (c : A2CCfg) (γ : ℝ) (n : Nat) (pi : E → List O → A → ℝ) (ent : E → List O → ℝ)
    (v : List O → ℝ) (qs : List (Path O A)) (θ : E) : ℝ :=
  a2cPolicyLoss c (qs.map fun q => (q.steps.map (outAt pi ent v θ)).zip (a2cReturns γ n v q))

end Verif.PolicyGradient
