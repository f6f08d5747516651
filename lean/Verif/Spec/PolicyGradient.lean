import Mathlib.Analysis.SpecialFunctions.Log.Deriv
import Mathlib.Analysis.Calculus.FDeriv.Add
import Mathlib.Analysis.Calculus.FDeriv.Mul
set_option autoImplicit false

/-! # Specification: expected returns and their gradients (C103)

Environments with random outcomes, the distribution of rollouts in them under a stochastic
policy, and the gradient of what the policy earns.  Independent of the agents. -/

namespace Verif.PolicyGradient

/-- What may happen from now on in an environment.  `leaf`: the rollout is over, in a
terminal state or not; the value function gives `boot` to the last state.  `node`: the
observation is `obs`; if the agent chooses `a` the outcome `ω` has probability `p a ω`, pays
`r a ω`, ends an episode inside the rollout iff `e a ω` (the environment is then reset), and
leads to `next a ω`.  The environment may have any hidden state and any memory; every
rollout in it is finite. -/
inductive World (Ω O A : Type) where
  | leaf (done : Bool) (boot : ℝ)
  | node (obs : O) (p r : A → Ω → ℝ) (e : A → Ω → Bool) (next : A → Ω → World Ω O A)

/-- A step of a rollout: all observations so far (a recurrent policy may use all), the
action, the reward after it, and whether it ended an episode. -/
structure Step (O A : Type) where
  hist : List O
  act : A
  reward : ℝ
  ended : Bool

/-- A rollout. -/
structure Path (O A : Type) where
  steps : List (Step O A)
  done : Bool
  boot : ℝ

variable {Ω O A : Type}

/-- The value a rollout ends with. -/
def Path.endValue (q : Path O A) : ℝ := if q.done then 0 else q.boot

/-- A rollout with one more step before it. -/
def Path.cons (s : Step O A) (q : Path O A) : Path O A := ⟨s :: q.steps, q.done, q.boot⟩

/-- The return of the first of some steps: discounted rewards up to the end of the episode,
and the discounted end value if the episode does not end before. -/
def ret (γ endValue : ℝ) : List (Step O A) → ℝ
  | [] => endValue
  | s :: l => s.reward + if s.ended then 0 else γ * ret γ endValue l

/-- The probabilities of the outcomes add up to one everywhere. -/
def World.Stochastic [Fintype Ω] : World Ω O A → Prop
  | .leaf _ _ => True
  | .node _ p _ _ next => (∀ a, ∑ ω, p a ω = 1) ∧ ∀ a ω, (next a ω).Stochastic

/-- No episode ends inside a rollout. -/
def World.Unbroken : World Ω O A → Prop
  | .leaf _ _ => True
  | .node _ _ _ e next => ∀ a ω, e a ω = false ∧ (next a ω).Unbroken

/-- Rollouts end in terminal states only. -/
def World.Complete : World Ω O A → Prop
  | .leaf d _ => d = true
  | .node _ _ _ _ next => ∀ a ω, (next a ω).Complete

/-- No rollout has more than `n` steps. -/
def World.AtMost : Nat → World Ω O A → Prop
  | _, .leaf _ _ => True
  | 0, .node .. => False
  | n + 1, .node _ _ _ _ next => ∀ a ω, (next a ω).AtMost n

/-- Every rollout has exactly `n` steps. -/
def World.Exactly : Nat → World Ω O A → Prop
  | 0, .leaf _ _ => True
  | _ + 1, .leaf _ _ => False
  | 0, .node .. => False
  | n + 1, .node _ _ _ _ next => ∀ a ω, (next a ω).Exactly n

/-- Something happens at all. -/
def World.Starts : World Ω O A → Prop
  | .leaf _ _ => False
  | .node .. => True

/-- The rollouts that can occur. -/
def Occurs : World Ω O A → List O → Path O A → Prop
  | .leaf d b, _, q => q = ⟨[], d, b⟩
  | .node o _ r e next, h, q => ∃ a ω q', Occurs (next a ω) (h ++ [o]) q' ∧
      q = q'.cons ⟨h ++ [o], a, r a ω, e a ω⟩

section
variable [Fintype Ω] [Fintype A] {F : Type} [AddCommGroup F] [Module ℝ F]

/-- The expected value of `f` of the rollout when actions are drawn from the policy `pi`
and `h` has been observed before. -/
def expect (pi : List O → A → ℝ) : World Ω O A → List O → (Path O A → F) → F
  | .leaf d b, _, f => f ⟨[], d, b⟩
  | .node o p r e next, h, f =>
    ∑ a, ∑ ω, (pi (h ++ [o]) a * p a ω) •
      expect pi (next a ω) (h ++ [o]) fun q => f (q.cons ⟨h ++ [o], a, r a ω, e a ω⟩)

/-- The same for independent rollouts in several environments. -/
def expectAll (pi : List O → A → ℝ) : List (World Ω O A) → (List (Path O A) → F) → F
  | [], f => f []
  | w :: ws, f => expect pi w [] fun q => expectAll pi ws fun qs => f (q :: qs)

/-- The expected return. -/
def value (γ : ℝ) (pi : List O → A → ℝ) (w : World Ω O A) (h : List O) : ℝ :=
  expect pi w h fun q => ret γ q.endValue q.steps

end

section
variable [Fintype Ω] [Fintype A] {E : Type} [NormedAddCommGroup E] [NormedSpace ℝ E]

/-- The policy gradient at `θ₀`: the expected sum, over the states visited under `θ₀`, of the
derivative of the mean of the action values `Q(s, a)` under the policy's probabilities in that
state, where `Q(s, a)` is the expected return after `a` if the policy `θ₀` is followed. -/
noncomputable def policyGradient (γ : ℝ) (pi : E → List O → A → ℝ) (θ₀ : E) :
    World Ω O A → List O → (E →L[ℝ] ℝ)
  | .leaf _ _, _ => 0
  | .node o p r e next, h =>
    fderiv ℝ (fun θ => ∑ a, pi θ (h ++ [o]) a *
      ∑ ω, p a ω * (r a ω + if e a ω then 0 else γ * value γ (pi θ₀) (next a ω) (h ++ [o]))) θ₀ +
    ∑ a, ∑ ω, (pi θ₀ (h ++ [o]) a * p a ω) • policyGradient γ pi θ₀ (next a ω) (h ++ [o])

/-- A policy whose probabilities are positive, add up to one and are differentiable in the
parameters, and whose entropy is differentiable. -/
structure Smooth {X : Type} (pi : E → X → A → ℝ) (ent : E → X → ℝ) (θ₀ : E) : Prop where
  diff : ∀ x a, DifferentiableAt ℝ (fun θ => pi θ x a) θ₀
  pos : ∀ x a, 0 < pi θ₀ x a
  sum : ∀ θ x, ∑ a, pi θ x a = 1
  ent : ∀ x, DifferentiableAt ℝ (fun θ => ent θ x) θ₀

/-- The expected sum of the entropy gradients in the visited states. -/
noncomputable def entropyGradient (pi : E → List O → A → ℝ) (ent : E → List O → ℝ) (θ₀ : E)
    (w : World Ω O A) : E →L[ℝ] ℝ :=
  expect (pi θ₀) w [] fun q => (q.steps.map fun s => fderiv ℝ (fun θ => ent θ s.hist) θ₀).sum

end

end Verif.PolicyGradient
