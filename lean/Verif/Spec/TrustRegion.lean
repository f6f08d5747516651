import Verif.Model.TrustRegion
set_option autoImplicit false

/-! # Specification for C171: how far an update moves the policy -/

namespace Verif.TrustRegion
variable {n : Nat} {O A D I : Type}

/-- A policy as the user sees it: the distribution of actions for an observation, with parameters `θ` and the normalizer in state `s`. -/
noncomputable def Setup.acts (u : Setup n O A D I) (s : EmpNorm.State ℝ I) (θ : Fin n → ℝ) (o : O) : D :=
  u.policy θ (match u.norm with
    | some c => normalize c s (u.phi o)
    | none => u.phi o)

/-- The mean divergence of the policy with parameters `θ'` and normalizer `s'` from that with `θ` and `s`, over some observations. -/
noncomputable def Setup.moved (u : Setup n O A D I) (s : EmpNorm.State ℝ I) (θ : Fin n → ℝ) (s' : EmpNorm.State ℝ I) (θ' : Fin n → ℝ) (obs : List O) : ℝ :=
  (obs.map fun o => u.kind.kl (u.acts s θ o) (u.acts s' θ' o)).sum / obs.length

/-- The normalizer no longer changes: there is none, or it has seen as many values as it learns from. -/
def Setup.Still (u : Setup n O A D I) (s : EmpNorm.State ℝ I) : Prop :=
  ∀ c, u.norm = some c → ∃ limit, c.untilCount = some limit ∧ limit ≤ s.count

end Verif.TrustRegion
