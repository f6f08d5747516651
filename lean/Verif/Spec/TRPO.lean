import Verif.Model.TRPO
set_option autoImplicit false

/-! # Specification: conjugate gradient and line search (C55, C62) -/

namespace Verif.TRPO

section CG
variable {K : Type} [Field K] {n : Nat}

/-- The textbook conjugate gradient sequence: the approximate solution and the search
direction after `k` steps; the residual is always `b - A x`. -/
def cgSeq (A : (Fin n → K) → (Fin n → K)) (b : Fin n → K) : Nat → (Fin n → K) × (Fin n → K)
  | 0 => (0, b - A 0)
  | k + 1 =>
    let (x, p) := cgSeq A b k
    let r := b - A x
    let x' := x + ((r ⬝ᵥ r) / (p ⬝ᵥ A p)) • p
    let r' := b - A x'
    (x', r' + ((r' ⬝ᵥ r') / (r ⬝ᵥ r)) • p)

/-- The approximate solution after `k` steps. -/
def cgX (A : (Fin n → K) → (Fin n → K)) (b : Fin n → K) (k : Nat) : Fin n → K := (cgSeq A b k).1

/-- `A` is linear, symmetric and positive definite. -/
structure SPD [LinearOrder K] (A : (Fin n → K) → (Fin n → K)) : Prop where
  add : ∀ u v, A (u + v) = A u + A v
  smul : ∀ (c : K) u, A (c • u) = c • A u
  symm : ∀ u v, A u ⬝ᵥ v = u ⬝ᵥ A v
  pos : ∀ u, u ≠ 0 → 0 < A u ⬝ᵥ u

/-- `A` is linear. -/
structure Linear (A : (Fin n → K) → (Fin n → K)) : Prop where
  add : ∀ u v, A (u + v) = A u + A v
  smul : ∀ (c : K) u, A (c • u) = c • A u

end CG

section LineSearch
variable {K : Type} [Field K] [LinearOrder K]

/-- Each array has as many elements as its shape says. -/
def WellShaped (ps : List (Arr K)) : Prop := ∀ p ∈ ps, p.data.length = p.shape.prod

/-- `ps'` are the parameters `ps + t * step`: same shapes, and elementwise sums in order. -/
def Shifted (ps : List (Arr K)) (step : List K) (t : K) (ps' : List (Arr K)) : Prop :=
  ps'.map Arr.shape = ps.map Arr.shape ∧ WellShaped ps' ∧
  (ps'.map Arr.data).flatten = List.zipWith (fun p d => p + t * d) (ps.map Arr.data).flatten step

/-- An evaluation `(objective, KL)` is safe: both are finite, the objective is not below
the old one and the KL divergence is at most `maxKl`. -/
def Safe (gain : Fl K) (maxKl : K) (r : Fl K × Fl K) : Prop :=
  ∃ g kl : K, r = (.fin g, .fin kl) ∧ kl ≤ maxKl ∧
    match gain with
    | .fin old => old ≤ g
    | .pinf => False
    | .ninf => True
    | .nan => True

end LineSearch

end Verif.TRPO
