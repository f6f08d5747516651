import Verif.Spec.Optimality
import Verif.Model.ACER
set_option autoImplicit false

/-! # Specification: segments of experience of a behaviour policy (for C137) -/

namespace Verif.MDP
variable {S K : Type} [Field K] [LinearOrder K]

/-- Probabilities of the actions of the process. -/
def IsProbs (env : Env S K) (p : Nat → K) : Prop := (∀ a, a < env.nA → 0 ≤ p a) ∧ ((List.range env.nA).map p).sum = 1

/-- The actions with their probabilities. -/
def choices (env : Env S K) (p : Nat → K) : List (K × Nat) := (List.range env.nA).map fun a => (p a, a)

/-- The value of a state for the policy `p`. -/
def stateValue (env : Env S K) (p : S → Nat → K) (Q : S → Nat → K) (s : S) : K := expect (choices env (p s)) (Q s)

/-- The segments of at most `n + 1` steps that begin with action `a` in state `s` after the history `h`, when the following actions are chosen by the behaviour policy
`mu`, with their probabilities; and the value after the last step: 0 after the end of an episode, else the value of the state reached.  A step holds what ACER's loss
reads: the reward, the values of the state and of the action (by `Q` and the policy `p`), and the trace coefficient `c`. -/
def segments (env : Env S K) (p : S → Nat → K) (Q : S → Nat → K) (mu c : List (S × Nat) → S → Nat → K) :
    Nat → List (S × Nat) → S → Nat → List (K × (List (ACER.Step K) × K))
  | n, h, s, a => (env.outcomes s a).flatMap fun x =>
    let step : ACER.Step K := ⟨x.2.reward, stateValue env p Q s, Q s a, c h s a⟩
    if x.2.done then [(x.1, ([step], 0))]
    else match n with
      | 0 => [(x.1, ([step], stateValue env p Q x.2.next))]
      | n + 1 => (choices env (mu (h ++ [(s, a)]) x.2.next)).flatMap fun x' =>
          (segments env p Q mu c n (h ++ [(s, a)]) x.2.next x'.2).map fun y => (x.1 * x'.1 * y.1, (step :: y.2.1, y.2.2))

/-- `Q` are the values of the policy `p`: each is the expected reward plus the discounted value of the next state. -/
def ValuesOf (env : Env S K) (gamma : K) (p : S → Nat → K) (Q : S → Nat → K) : Prop :=
  ∀ s a, a < env.nA → Q s a = expect (env.outcomes s a) fun o => o.reward + if o.done then 0 else gamma * stateValue env p Q o.next

end Verif.MDP
