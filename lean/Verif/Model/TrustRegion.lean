import Verif.Model.TRPOUpdate
import Verif.Model.PPODataset
import Verif.Model.PPOLoss
import Verif.Model.EmpiricalNorm
set_option autoImplicit false

/-!
# Model: an update of TRPO or PPO from the episodes on, with the normalizer of observations

`chainerrl/agents/trpo.py` lines 256-290, 302-308, 357-361 and 395-443, `chainerrl/agents/ppo.py` lines 375-419, 421-425
and 427-478, for networks that are not recurrent: the dataset is made, the normalizer experiences its states, and
then the policy is updated.  Numbers are real; observations after `phi` are vectors.  The parameters of the value function, which
is a link of its own in TRPO, are not modelled.
-/

namespace Verif.TrustRegion
open PPODataset (Tr Full pre makeDataset)
variable {n : Nat} {O A D S I : Type}

/-- `obs_normalizer(x, update=False)` for one observation (trpo.py:408-409, 678-679, ppo.py:450-451, 619-620;
empirical_normalization.py:81-103). -/
noncomputable def normalize (c : EmpNorm.Config ℝ) (s : EmpNorm.State ℝ I) (x : I → ℝ) : I → ℝ :=
  ((EmpNorm.call ⟨fun v => (Real.sqrt v)⁻¹, Real.sqrt⟩ c s [x] false).2.head?).getD x

/-- What is done to an observation before a network sees it, if `obs_normalizer` is in state `s` (trpo.py:404-409). -/
noncomputable def view (norm : Option (EmpNorm.Config ℝ)) (s : EmpNorm.State ℝ I) : Option ((I → ℝ) → I → ℝ) := norm.map fun c => normalize c s

/-- `_update_obs_normalizer` (trpo.py:305-306, 357-361, ppo.py:421-425, 430-431). -/
noncomputable def learn (norm : Option (EmpNorm.Config ℝ)) (s : EmpNorm.State ℝ I) (states : List (I → ℝ)) : EmpNorm.State ℝ I :=
  match norm with
  | some c => EmpNorm.experience c s states
  | none => s

/-- The arguments of the constructors (trpo.py:161-188, ppo.py:291-330). -/
structure Setup (n : Nat) (O A D I : Type) where
  phi : O → I → ℝ
  norm : Option (EmpNorm.Config ℝ)
  policy : (Fin n → ℝ) → (I → ℝ) → D
  vf : (I → ℝ) → ℝ
  kind : TRPO.Kind D A
  gamma : ℝ
  lambd : ℝ
  standardize : Bool

/-- `_make_dataset` with the current parameters and normalizer (trpo.py:276-284, ppo.py:395-403). -/
noncomputable def Setup.dataset (u : Setup n O A D I) (s : EmpNorm.State ℝ I) (θ : Fin n → ℝ) (episodes : List (List (Tr O A S))) : List (Full O A S) :=
  makeDataset u.phi (view u.norm s) (fun x => (u.policy θ x, u.vf x)) u.kind.logProb u.gamma u.lambd episodes

/-- The state of the normalizer while the networks are updated (trpo.py:302-308, ppo.py:427-431). -/
noncomputable def Setup.learned (u : Setup n O A D I) (s : EmpNorm.State ℝ I) (θ : Fin n → ℝ) (episodes : List (List (Tr O A S))) : EmpNorm.State ℝ I :=
  learn u.norm s ((u.dataset s θ episodes).map fun b => u.phi b.ann.tr.state)

/-- What `_update_policy` of TRPO reads (trpo.py:405-420). -/
noncomputable def Setup.samples (u : Setup n O A D I) (s : EmpNorm.State ℝ I) (θ : Fin n → ℝ) (episodes : List (List (Tr O A S))) :
    List (TRPO.Sample (I → ℝ) A) :=
  let ds := u.dataset s θ episodes
  let advs := ds.map fun b => b.adv
  List.zipWith (fun b adv => ⟨pre u.phi (view u.norm (u.learned s θ episodes)) b.ann.tr.state, b.ann.tr.action, b.ann.logProb, adv⟩)
    ds (if u.standardize then PPOLoss.standardize advs else advs)

/-- The update of the policy in `_update_if_dataset_is_ready` of TRPO (trpo.py:256-290, 302-307, 395-443), with the parameters `ps` of the policy and
the normalizer in state `s`: the outcome, and the normalizer afterwards. -/
noncomputable def Setup.trpo (u : Setup n O A D I) (cfg : TRPO.UpdateConfig) (s : EmpNorm.State ℝ I) (ps : List (TRPO.Arr ℝ))
    (episodes : List (List (Tr O A S))) : Option (Py (TRPO.Outcome ℝ)) × EmpNorm.State ℝ I :=
  (TRPO.updatePolicy u.kind u.policy cfg (u.samples s (TRPO.vec n ps) episodes) ps, u.learned s (TRPO.vec n ps) episodes)

/-- The policy part of `_lossfun` of PPO in the first minibatch, for one of its transitions, as a function of the parameters
(ppo.py:448-478, 564-568); before it no parameter has changed. -/
noncomputable def Setup.ppoTerm (u : Setup n O A D I) (eps : ℝ) (s : EmpNorm.State ℝ I) (episodes : List (List (Tr O A S))) (θ₀ : Fin n → ℝ)
    (b : Full O A S) (adv : ℝ) (θ : Fin n → ℝ) : ℝ :=
  PPOLoss.surrogate eps (u.kind.logProb (u.policy θ (pre u.phi (view u.norm (u.learned s θ₀ episodes)) b.ann.tr.state)) b.ann.tr.action) b.ann.logProb adv

end Verif.TrustRegion
