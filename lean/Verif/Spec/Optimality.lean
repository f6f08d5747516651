import Mathlib.Algebra.BigOperators.Group.List.Basic
import Mathlib.Algebra.Order.Field.Basic
set_option autoImplicit false

/-! # Specification: Markov decision processes, policies and optimal values (for C135) -/

namespace Verif.MDP
variable {S K α : Type} [Field K] [LinearOrder K]

/-- The expectation of a function over weighted outcomes. -/
def expect (l : List (K × α)) (f : α → K) : K := (l.map fun x => x.1 * f x.2).sum

/-- The weights are probabilities. -/
def IsDist (l : List (K × α)) : Prop := (∀ x ∈ l, 0 ≤ x.1) ∧ (l.map Prod.fst).sum = 1

/-- What may follow an action. -/
structure Outcome (S K : Type) where
  reward : K
  next : S
  done : Bool

/-- A Markov decision process with `nA` actions: the outcomes of each action in each state, with their probabilities. -/
structure Env (S K : Type) where
  nA : Nat
  outcomes : S → Nat → List (K × Outcome S K)

/-- A policy: the probabilities of actions, which may depend on all states and actions before. -/
abbrev Policy (S K : Type) := List (S × Nat) → S → List (K × Nat)

/-- The policy chooses among the actions of the process. -/
def Policy.Valid (env : Env S K) (π : Policy S K) : Prop := ∀ h s, IsDist (π h s) ∧ ∀ x ∈ π h s, x.2 < env.nA

/-- The expected discounted return of at most `n` steps from `s` after the history `h`. -/
def ret (env : Env S K) (gamma : K) (π : Policy S K) : Nat → List (S × Nat) → S → K
  | 0, _, _ => 0
  | n + 1, h, s => expect (π h s) fun a => expect (env.outcomes s a) fun o =>
      o.reward + if o.done then 0 else gamma * ret env gamma π n (h ++ [(s, a)]) o.next

/-- `V` gives the best possible expected return: no policy gets more within any number `n` of steps, and the choice `g` gets it, up to `gamma ^ n * B`. -/
def Optimal (env : Env S K) (gamma B : K) (V : S → K) (g : S → Nat) : Prop :=
  (∀ π : Policy S K, π.Valid env → ∀ n h s, ret env gamma π n h s ≤ V s + gamma ^ n * B) ∧
  ∀ n h s, V s - gamma ^ n * B ≤ ret env gamma (fun _ s => [(1, g s)]) n h s

end Verif.MDP
