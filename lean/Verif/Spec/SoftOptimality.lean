import Mathlib.Analysis.SpecialFunctions.Log.Basic
import Mathlib.Algebra.BigOperators.Fin
set_option autoImplicit false

/-! # Specification: returns with an entropy bonus, in a deterministic process (for C136) -/

namespace Verif.SoftMDP
variable {S : Type} {n : Nat}

/-- A deterministic process with `n` actions. -/
structure Env (S : Type) (n : Nat) where
  reward : S → Fin n → ℝ
  next : S → Fin n → S
  done : S → Fin n → Bool

/-- A policy: the probabilities of the actions, which may depend on all states and actions before. -/
abbrev Policy (S : Type) (n : Nat) := List (S × Fin n) → S → Fin n → ℝ

/-- The policy's probabilities are probabilities. -/
def Policy.Valid (π : Policy S n) : Prop := ∀ h s, (∀ a, 0 ≤ π h s a) ∧ ∑ a, π h s a = 1

/-- The expected discounted return of at most `k` steps with the bonus `-tau log π(a|s)` for every action, which is `tau` times the entropy of the policy on
average. -/
noncomputable def ret (env : Env S n) (gamma tau : ℝ) (π : Policy S n) : Nat → List (S × Fin n) → S → ℝ
  | 0, _, _ => 0
  | k + 1, h, s => ∑ a, π h s a * (env.reward s a - tau * Real.log (π h s a) +
      if env.done s a then 0 else gamma * ret env gamma tau π k (h ++ [(s, a)]) (env.next s a))

/-- `V` is the best possible expected return with the bonus and `p` the policy that gets it: within any number `k` of steps no policy gets more, and `p` gets it,
up to `gamma ^ k * B`. -/
def Optimal (env : Env S n) (gamma tau B : ℝ) (V : S → ℝ) (p : S → Fin n → ℝ) : Prop :=
  (∀ π : Policy S n, π.Valid → ∀ k h s, ret env gamma tau π k h s ≤ V s + gamma ^ k * B) ∧
  ∀ k h s, V s - gamma ^ k * B ≤ ret env gamma tau (fun _ => p) k h s

end Verif.SoftMDP
