import Verif.Spec.TrustRegion
import Verif.Props.EmpiricalNorm
import Verif.Props.PPODataset
import Verif.Props.PPOLoss
import Verif.Props.TRPOUpdate
set_option autoImplicit false
set_option linter.unusedSectionVars false

/-! # C171: the trust region of TRPO and the clipping of PPO with a normalizer of observations -/

namespace Verif.TrustRegion
open PPODataset (Tr Full Ann pre makeDataset)
open TRPO (Kind Sample vec meanKl gainAt updatePolicy UpdateConfig WellShaped flattenAll)
variable {n : Nat} {O A D S I : Type}

theorem learned_still (u : Setup n O A D I) (s : EmpNorm.State ℝ I) (h : u.Still s) (θ : Fin n → ℝ) (episodes : List (List (Tr O A S))) :
    u.learned s θ episodes = s := by
  unfold Setup.learned learn
  cases hn : u.norm with
  | none => rfl
  | some c =>
    obtain ⟨l, h1, h2⟩ := h c hn
    simp [EmpNorm.experience, EmpNorm.full, h1, h2]

theorem acts_pre (u : Setup n O A D I) (s : EmpNorm.State ℝ I) (θ : Fin n → ℝ) (o : O) : u.policy θ (pre u.phi (view u.norm s) o) = u.acts s θ o := by
  unfold Setup.acts pre view
  cases u.norm <;> rfl

theorem dataset_states (u : Setup n O A D I) (s : EmpNorm.State ℝ I) (θ : Fin n → ℝ) (episodes : List (List (Tr O A S))) :
    (u.dataset s θ episodes).map (fun b => b.ann.tr) = episodes.flatten := by
  have h := PPODataset.C109_dataset u.phi (view u.norm s) (fun x => (u.policy θ x, u.vf x)) u.kind.logProb u.gamma u.lambd episodes
  have := congrArg (List.map fun a : Ann O A S => a.tr) h
  simpa [List.map_map, Function.comp_def, Setup.dataset] using this

theorem samples_inputs (u : Setup n O A D I) (s : EmpNorm.State ℝ I) (θ : Fin n → ℝ) (episodes : List (List (Tr O A S))) :
    (u.samples s θ episodes).map (fun r => r.input) =
      (episodes.flatten.map fun t => t.state).map (pre u.phi (view u.norm (u.learned s θ episodes))) := by
  have hz : ∀ (ds : List (Full O A S)) (advs : List ℝ) (f : O → I → ℝ), advs.length = ds.length →
      (List.zipWith (fun (b : Full O A S) adv => (⟨f b.ann.tr.state, b.ann.tr.action, b.ann.logProb, adv⟩ : Sample (I → ℝ) A)) ds advs).map (fun r => r.input) =
        (ds.map fun b => b.ann.tr).map fun t => f t.state := by
    intro ds
    induction ds with
    | nil => intro advs f _; rfl
    | cons b ds ih =>
      intro advs f hl
      cases advs with
      | nil => simp at hl
      | cons a advs => simp [ih advs f (by simpa using hl)]
  unfold Setup.samples
  simp only
  rw [hz _ _ _ (by split <;> simp [PPOLoss.standardize]), dataset_states, List.map_map]
  rfl

/-- The divergence that TRPO measures is that of the policies as they act, with the new statistics for both. -/
theorem meanKl_moved (u : Setup n O A D I) (s : EmpNorm.State ℝ I) (θ θ' : Fin n → ℝ) (episodes : List (List (Tr O A S))) :
    meanKl u.kind u.policy (u.samples s θ episodes) θ θ' =
      u.moved (u.learned s θ episodes) θ (u.learned s θ episodes) θ' (episodes.flatten.map fun t => t.state) := by
  have h := samples_inputs u s θ episodes
  unfold meanKl TRPO.mean Setup.moved
  have e1 : ((u.samples s θ episodes).map fun r => u.kind.kl (u.policy θ r.input) (u.policy θ' r.input)) =
      ((u.samples s θ episodes).map fun r => r.input).map fun x => u.kind.kl (u.policy θ x) (u.policy θ' x) := by
    rw [List.map_map]; rfl
  rw [e1, h, List.map_map, List.length_map, List.length_map]
  simp only [Function.comp_def, acts_pre]

/-- **C171**: whatever the normalizer does, an update of TRPO moves the policy by at most `max_kl`, in the mean over the observations it was made
from, if the old policy is also looked at through the statistics after the update. -/
theorem C171_measured (u : Setup n O A D I) (hself : ∀ θ x, u.kind.kl (u.policy θ x) (u.policy θ x) = 0) (cfg : UpdateConfig) (hk : 0 ≤ cfg.maxKl)
    (s s' : EmpNorm.State ℝ I) (ps : List (TRPO.Arr ℝ)) (hw : WellShaped ps) (hl : (flattenAll ps).length = n) (episodes : List (List (Tr O A S)))
    (out : TRPO.Outcome ℝ) (h : u.trpo cfg s ps episodes = (some (.ok out), s')) :
    u.moved s' (vec n ps) s' (vec n out.params) (episodes.flatten.map fun t => t.state) ≤ cfg.maxKl := by
  simp only [Setup.trpo, Prod.mk.injEq] at h
  obtain ⟨h, rfl⟩ := h
  rw [← meanKl_moved]
  unfold updatePolicy at h
  simp only at h
  split at h
  · cases h
  · rename_i st _
    simp only [Option.some.injEq] at h
    have hlen : (List.ofFn st).length = (ps.map fun p => p.data.length).sum := by
      rw [List.length_ofFn, ← hl, flattenAll, List.length_flatten, List.map_map]
      rfl
    obtain ⟨cand, -, out', h1, h2⟩ := TRPO.C55_line_search _ _ cfg.maxKl cfg.maxBacktrack _ ps hw hlen
    rw [h] at h1
    cases h1
    rcases h2 with ⟨j, -, hp, -, hs, -⟩ | ⟨hp, -⟩
    · obtain ⟨g, kl, e1, e2, -⟩ := hs
      simp only [Prod.mk.injEq, TRPO.Fl.fin.injEq] at e1
      rw [hp, e1.2]
      exact e2
    · rw [hp]
      refine le_trans (le_of_eq ?_) hk
      exact TRPO.mean_zero _ _ fun r _ => hself _ _

/-- **C171**: without a normalizer, or when it no longer learns, an update of TRPO moves the policy that acted by at most `max_kl`, in the mean
over the observations of the update, and the ratios it starts from are one. -/
theorem C171_trust_region (u : Setup n O A D I) (hself : ∀ θ x, u.kind.kl (u.policy θ x) (u.policy θ x) = 0) (cfg : UpdateConfig) (hk : 0 ≤ cfg.maxKl)
    (s s' : EmpNorm.State ℝ I) (hs : u.Still s) (ps : List (TRPO.Arr ℝ)) (hw : WellShaped ps) (hl : (flattenAll ps).length = n)
    (episodes : List (List (Tr O A S))) (out : TRPO.Outcome ℝ) (h : u.trpo cfg s ps episodes = (some (.ok out), s')) :
    u.moved s (vec n ps) s' (vec n out.params) (episodes.flatten.map fun t => t.state) ≤ cfg.maxKl := by
  have h1 := C171_measured u hself cfg hk s s' ps hw hl episodes out h
  have h2 : s' = s := by
    simp only [Setup.trpo, Prod.mk.injEq] at h
    rw [← h.2, learned_still u s hs]
  rwa [h2] at h1 ⊢

/-- **C171**: without a normalizer, or when it no longer learns, no transition is clipped in the first minibatch of PPO: as a function of the
log probability the loss of a transition has the slope of its advantage. -/
theorem C171_first_minibatch (u : Setup n O A D I) (eps : ℝ) (he : 0 < eps) (s : EmpNorm.State ℝ I) (hs : u.Still s) (episodes : List (List (Tr O A S)))
    (θ₀ : Fin n → ℝ) (b : Full O A S) (hb : b ∈ u.dataset s θ₀ episodes) (adv : ℝ) :
    u.ppoTerm eps s episodes θ₀ b adv θ₀ = adv ∧
    HasDerivAt (fun x => PPOLoss.surrogate eps x b.ann.logProb adv) adv (u.kind.logProb (u.acts (u.learned s θ₀ episodes) θ₀ b.ann.tr.state) b.ann.tr.action) := by
  have hlp : u.kind.logProb (u.acts s θ₀ b.ann.tr.state) b.ann.tr.action = b.ann.logProb := by
    have hm := List.mem_map_of_mem (f := fun b : Full O A S => b.ann) hb
    unfold Setup.dataset at hm
    rw [PPODataset.C109_dataset] at hm
    obtain ⟨t, -, ht⟩ := List.mem_map.1 hm
    rw [← ht]
    simp only [acts_pre]
  obtain ⟨h1, h2⟩ := PPOLoss.C87_first_gradient eps b.ann.logProb adv he
  rw [learned_still u s hs]
  refine ⟨?_, by rw [hlp]; exact h2⟩
  unfold Setup.ppoTerm
  rw [learned_still u s hs, acts_pre, hlp]
  exact h1

/-- **C171**: what the normalizer knows after any updates are the mean and the variance of the states of all transitions the agent has learned from, each
counted once: of all updates, or of those before `until` was reached. -/
theorem C171_statistics (u : Setup n O A D I) (c : EmpNorm.Config ℝ) (hn : u.norm = some c) (updates : List ((Fin n → ℝ) × List (List (Tr O A S)))) :
    EmpNorm.Tracks (updates.foldl (fun s x => u.learned s x.1 x.2) EmpNorm.init)
      (EmpNorm.learned c.untilCount [] (updates.map fun x => x.2.flatten.map fun t => u.phi t.state)) := by
  have h : ∀ s (x : (Fin n → ℝ) × List (List (Tr O A S))), u.learned s x.1 x.2 = EmpNorm.experience c s (x.2.flatten.map fun t => u.phi t.state) := by
    intro s x
    unfold Setup.learned learn
    rw [hn]
    simp only
    rw [← dataset_states u s x.1 x.2, List.map_map]
    rfl
  simp only [h]
  have := EmpNorm.C57_statistics c (updates.map fun x => x.2.flatten.map fun t => u.phi t.state)
  rwa [List.foldl_map] at this

/-! ### A normalizer that still learns -/

/-- A Gaussian policy with variance one whose mean is linear in the observation, with the normalizer of the examples (examples/mujoco/train_trpo_gym.py). -/
noncomputable def exSetup : Setup 2 (Fin 1 → ℝ) (Fin 1 → ℝ) (Distrib.Gaussian 1) (Fin 1) where
  phi := id
  norm := some ⟨1 / 100, none, some 5⟩
  policy θ x := ⟨fun _ => θ 0 * x 0 + θ 1, fun _ => 1⟩
  vf _ := 0
  kind := TRPO.gaussianKind 1
  gamma := 0.995
  lambd := 0.97
  standardize := true

/-- Two episodes of one step, both with the observation one: one action was good, the other was bad. -/
noncomputable def exEpisodes : List (List (Tr (Fin 1 → ℝ) (Fin 1 → ℝ) Unit)) :=
  [[⟨fun _ => 1, fun _ => 1, 1, fun _ => 1, 0, (), ()⟩], [⟨fun _ => 1, fun _ => -1, -1, fun _ => 1, 0, (), ()⟩]]

noncomputable def exSeen : ℝ := (Real.sqrt (1 + 1 / 100))⁻¹

theorem exSeen_pos : 0 < exSeen := by unfold exSeen; positivity

theorem exSeen_le : exSeen ≤ 1 := by
  unfold exSeen
  refine inv_le_one_of_one_le₀ ?_
  rw [Real.one_le_sqrt]; norm_num

theorem exBefore : normalize ⟨1 / 100, none, some 5⟩ (EmpNorm.init : EmpNorm.State ℝ (Fin 1)) (fun _ => 1) = fun _ => exSeen := by
  funext i
  have h1 := exSeen_pos
  have h2 := exSeen_le
  have h3 : ((1 : ℝ) - 0) * (Real.sqrt (1 + 1 / 100))⁻¹ = exSeen := by rw [exSeen]; ring
  simp only [normalize, EmpNorm.call, EmpNorm.stdInverse, EmpNorm.init, Bool.false_eq_true, if_false, List.map, List.head?, Option.getD, EmpNorm.clipTo]
  rw [h3, max_eq_left (by linarith), min_eq_left (by linarith)]

theorem exLearned (θ : Fin 2 → ℝ) : (exSetup.learned EmpNorm.init θ exEpisodes).mean = fun _ => 1 := by
  funext i
  have h := dataset_states exSetup (EmpNorm.init : EmpNorm.State ℝ (Fin 1)) θ exEpisodes
  have h2 : (exSetup.dataset EmpNorm.init θ exEpisodes).map (fun b => exSetup.phi b.ann.tr.state) = [fun _ => 1, fun _ => 1] := by
    have := congrArg (List.map fun t : Tr (Fin 1 → ℝ) (Fin 1 → ℝ) Unit => exSetup.phi t.state) h
    rw [List.map_map] at this
    exact this
  rw [Setup.learned, h2]
  norm_num [learn, exSetup, EmpNorm.experience, EmpNorm.full, EmpNorm.init, EmpNorm.batchMean]

theorem exAfter (θ : Fin 2 → ℝ) : normalize ⟨1 / 100, none, some 5⟩ (exSetup.learned EmpNorm.init θ exEpisodes) (fun _ => 1) = fun _ => 0 := by
  funext i
  have hm := exLearned θ
  simp only [normalize, EmpNorm.call, EmpNorm.stdInverse, Bool.false_eq_true, if_false, List.map, List.head?, Option.getD, EmpNorm.clipTo]
  cases hc : (exSetup.learned EmpNorm.init θ exEpisodes).cache <;> simp [hm]

theorem exDataset (θ : Fin 2 → ℝ) : exSetup.dataset EmpNorm.init θ exEpisodes =
    [⟨⟨⟨fun _ => 1, fun _ => 1, 1, fun _ => 1, 0, (), ()⟩, Distrib.Gaussian.logProb (exSetup.policy θ fun _ => exSeen) (fun _ => 1), 0, 0⟩, 1, 1⟩,
      ⟨⟨⟨fun _ => 1, fun _ => -1, -1, fun _ => 1, 0, (), ()⟩, Distrib.Gaussian.logProb (exSetup.policy θ fun _ => exSeen) (fun _ => -1), 0, 0⟩, -1, -1⟩] := by
  have hv : pre exSetup.phi (view exSetup.norm (EmpNorm.init : EmpNorm.State ℝ (Fin 1))) (fun _ => 1) = fun _ => exSeen := exBefore
  have hf : ∀ x, exSetup.vf x = 0 := fun _ => rfl
  have hk : exSetup.kind.logProb = Distrib.Gaussian.logProb := rfl
  simp only [Setup.dataset, exEpisodes, makeDataset, PPODataset.addPlain, PPODataset.addAdvantages, List.flatten_cons, List.flatten_nil,
    List.cons_append, List.nil_append, List.map, List.length_cons, List.length_nil, hv, hf, hk, List.zipWith, PPODataset.annotate, PPODataset.regroup]
  simp [PPOData.addAdvantage, Ann.toV]

/-- What the update of the example reads. -/
theorem exSamples (θ : Fin 2 → ℝ) : ∃ L₁ L₂ a : ℝ, 0 < a ∧ exSetup.samples EmpNorm.init θ exEpisodes =
    [⟨fun _ => 0, fun _ => 1, L₁, a⟩, ⟨fun _ => 0, fun _ => -1, L₂, -a⟩] := by
  have h := exDataset θ
  have hv : pre exSetup.phi (view exSetup.norm (exSetup.learned EmpNorm.init θ exEpisodes)) (fun _ => 1) = fun _ => 0 := exAfter θ
  refine ⟨Distrib.Gaussian.logProb (exSetup.policy θ fun _ => exSeen) (fun _ => 1),
    Distrib.Gaussian.logProb (exSetup.policy θ fun _ => exSeen) (fun _ => -1), 1 / (1 + 1e-8), by norm_num, ?_⟩
  have hstd : exSetup.standardize = true := rfl
  unfold Setup.samples
  simp only [h, hstd, if_true, List.map, PPOLoss.standardize, List.zipWith, hv]
  norm_num [PPOLoss.mean, PPOLoss.std]

noncomputable def exParams (w : ℝ) : List (TRPO.Arr ℝ) := [⟨[1], [w]⟩, ⟨[1], [0]⟩]

theorem exVec (w : ℝ) : vec 2 (exParams w) = ![w, 0] := by
  funext i
  fin_cases i <;> simp [vec, exParams, flattenAll, List.getD_eq_getElem?_getD]

theorem exSelf (θ : Fin 2 → ℝ) (x : Fin 1 → ℝ) : exSetup.kind.kl (exSetup.policy θ x) (exSetup.policy θ x) = 0 := by
  simp [exSetup, TRPO.gaussianKind, Distrib.Gaussian.kl, Distrib.Gaussian.lnVar]

theorem exMean_smooth (x : Fin 1 → ℝ) (θ₀ : Fin 2 → ℝ) (i : Fin 1) : ContDiffAt ℝ 2 (fun θ => (exSetup.policy θ x).mean i) θ₀ := by
  change ContDiffAt ℝ 2 (fun θ : Fin 2 → ℝ => θ 0 * x 0 + θ 1) θ₀
  exact (((contDiff_apply ℝ ℝ 0).mul contDiff_const).add (contDiff_apply ℝ ℝ 1)).contDiffAt

theorem exGain (L₁ L₂ a coef : ℝ) (θ : Fin 2 → ℝ) :
    gainAt exSetup.kind exSetup.policy coef [⟨fun _ => 0, fun _ => 1, L₁, a⟩, ⟨fun _ => 0, fun _ => -1, L₂, -a⟩] θ =
      (Real.exp (-(1 / 2) * Real.log (2 * Real.pi) - L₁ - (1 - θ 1) ^ 2 / 2) * a +
        Real.exp (-(1 / 2) * Real.log (2 * Real.pi) - L₂ - (-1 - θ 1) ^ 2 / 2) * (-a)) / 2 +
      coef * (1 / 2 * (Real.log (2 * Real.pi) + 1)) := by
  simp only [gainAt, TRPO.computeGain, TRPO.mean, exSetup, TRPO.gaussianKind, Distrib.Gaussian.logProb, Distrib.Gaussian.entropy,
    Distrib.gaussianLogLikelihood, Distrib.Gaussian.lnVar, List.map, List.sum_cons, List.sum_nil, List.length_cons, List.length_nil,
    Finset.univ_unique, Finset.sum_singleton, Real.log_one]
  have e1 : (-0.5 * Real.log (2 * Real.pi) - 0.5 * 0 - (1 - (θ 0 * 0 + θ 1)) ^ 2 / (2 * 1) - L₁) =
      (-(1 / 2) * Real.log (2 * Real.pi) - L₁ - (1 - θ 1) ^ 2 / 2) := by ring
  have e2 : (-0.5 * Real.log (2 * Real.pi) - 0.5 * 0 - (-1 - (θ 0 * 0 + θ 1)) ^ 2 / (2 * 1) - L₂) =
      (-(1 / 2) * Real.log (2 * Real.pi) - L₂ - (-1 - θ 1) ^ 2 / 2) := by ring
  rw [e1, e2]
  push_cast
  ring

theorem exGradient (L₁ L₂ a coef w : ℝ) (ha : 0 < a) :
    TRPO.gradient (gainAt exSetup.kind exSetup.policy coef [⟨fun _ => 0, fun _ => 1, L₁, a⟩, ⟨fun _ => 0, fun _ => -1, L₂, -a⟩]) ![w, 0] ≠ 0 := by
  intro h0
  have h := TRPO.gaussian_regular (n := 2) (k := 1) (policy := exSetup.policy)
    (data := [⟨fun _ => 0, fun _ => 1, L₁, a⟩, ⟨fun _ => 0, fun _ => -1, L₂, -a⟩]) (θ₀ := ![w, 0]) (fun _ _ _ => one_pos)
    (fun r _ i => exMean_smooth _ _ i) (fun r _ i => contDiffAt_const)
  have h1 := TRPO.hasDerivAt_line (f := gainAt exSetup.kind exSetup.policy coef [⟨fun _ => 0, fun _ => 1, L₁, a⟩, ⟨fun _ => 0, fun _ => -1, L₂, -a⟩])
    (θ := ![w, 0]) (v := ![0, 1]) (t := 0) (by
      rw [zero_smul, add_zero]; exact (TRPO.gain_smooth h coef).differentiableAt (by norm_num))
  rw [zero_smul, add_zero, ← TRPO.gradient_dot, h0, zero_dotProduct] at h1
  have h3 : ∀ L m : ℝ, HasDerivAt (fun t : ℝ => Real.exp (-(1 / 2) * Real.log (2 * Real.pi) - L - (m - t) ^ 2 / 2))
      (Real.exp (-(1 / 2) * Real.log (2 * Real.pi) - L - m ^ 2 / 2) * m) 0 := by
    intro L m
    have e : HasDerivAt (fun t : ℝ => -(1 / 2) * Real.log (2 * Real.pi) - L - (m - t) ^ 2 / 2) m 0 := by
      have := ((((hasDerivAt_id (0 : ℝ)).const_sub m).pow 2).div_const 2).const_sub (-(1 / 2) * Real.log (2 * Real.pi) - L)
      refine this.congr_deriv ?_
      simp
      ring
    have := e.exp
    simpa using this
  have h4 := ((((h3 L₁ 1).mul_const a).add ((h3 L₂ (-1)).mul_const (-a))).div_const 2).add_const (coef * (1 / 2 * (Real.log (2 * Real.pi) + 1)))
  have h5 : (fun t : ℝ => gainAt exSetup.kind exSetup.policy coef [⟨fun _ => 0, fun _ => 1, L₁, a⟩, ⟨fun _ => 0, fun _ => -1, L₂, -a⟩]
      (![w, 0] + t • ![0, 1])) = fun t => (Real.exp (-(1 / 2) * Real.log (2 * Real.pi) - L₁ - (1 - t) ^ 2 / 2) * a +
        Real.exp (-(1 / 2) * Real.log (2 * Real.pi) - L₂ - (-1 - t) ^ 2 / 2) * (-a)) / 2 +
      coef * (1 / 2 * (Real.log (2 * Real.pi) + 1)) := by
    funext t
    rw [exGain]; simp
  rw [h5] at h1
  have h6 := h1.unique h4
  have p1 := Real.exp_pos (-(1 / 2) * Real.log (2 * Real.pi) - L₁ - 1 ^ 2 / 2)
  have p2 := Real.exp_pos (-(1 / 2) * Real.log (2 * Real.pi) - L₂ - (-1) ^ 2 / 2)
  have q1 := mul_pos p1 ha
  have q2 := mul_pos p2 ha
  linarith

/-- **C171**: with a normalizer that still learns, `max_kl` does not limit how far an update of TRPO moves the policy: whatever `max_kl` and whatever the
bound, there are parameters of a linear policy and two episodes from which the update accepts a step, and the policy that acts
afterwards differs by more than the bound from the policy that acted, on the very observation the update was made from. -/
theorem C171_violated_trust_region (maxKl bound damping coef : ℝ) (hk : 0 < maxKl) (hd : 0 < damping) (maxIter : Nat) (hm : 0 < maxIter) :
    ∃ (w : ℝ) (N : Nat), ∀ b ≥ N, ∃ (out : TRPO.Outcome ℝ) (s' : EmpNorm.State ℝ (Fin 1)),
      exSetup.trpo ⟨damping, maxKl, maxIter, b, coef⟩ EmpNorm.init (exParams w) exEpisodes = (some (.ok out), s') ∧ 0 < out.stepSize ∧
      bound < exSetup.moved EmpNorm.init (vec 2 (exParams w)) s' (vec 2 out.params) (exEpisodes.flatten.map fun t => t.state) := by
  have hv := exSeen_pos
  set w : ℝ := (Real.sqrt (2 * maxKl) + Real.sqrt (2 * |bound|) + 1) / exSeen with hw
  obtain ⟨L₁, L₂, a, ha, hs⟩ := exSamples (vec 2 (exParams w))
  have hshape : WellShaped (exParams w) := by simp [WellShaped, exParams]
  have hlen : (flattenAll (exParams w)).length = 2 := by simp [exParams, flattenAll]
  obtain ⟨N, hN⟩ := TRPO.C144_update_gaussian (n := 2) (k := 1) (policy := exSetup.policy)
    (data := exSetup.samples EmpNorm.init (vec 2 (exParams w)) exEpisodes) (fun _ _ _ => one_pos) ⟨damping, maxKl, maxIter, 0, coef⟩ hd hk hm
    (exParams w) hshape hlen (fun r _ i => exMean_smooth _ _ i) (fun r _ i => contDiffAt_const)
    (by rw [hs, exVec]; exact exGradient L₁ L₂ a coef w ha)
  refine ⟨w, N, fun b hb => ?_⟩
  obtain ⟨out, h1, h2, -⟩ := hN b hb
  have ht : exSetup.trpo ⟨damping, maxKl, maxIter, b, coef⟩ EmpNorm.init (exParams w) exEpisodes =
      (some (.ok out), exSetup.learned EmpNorm.init (vec 2 (exParams w)) exEpisodes) := by
    rw [← h1]; rfl
  refine ⟨out, _, ht, h2, ?_⟩
  have hmeas := C171_measured exSetup exSelf ⟨damping, maxKl, maxIter, b, coef⟩ hk.le EmpNorm.init _ (exParams w) hshape hlen exEpisodes out ht
  have hobs : (exEpisodes.flatten.map fun t => t.state) = [fun _ => 1, fun _ => 1] := rfl
  have ha1 : ∀ θ, exSetup.acts EmpNorm.init θ (fun _ => 1) = ⟨fun _ => θ 0 * exSeen + θ 1, fun _ => 1⟩ := fun θ => by
    have : exSetup.acts EmpNorm.init θ (fun _ => 1) = exSetup.policy θ (normalize ⟨1 / 100, none, some 5⟩ EmpNorm.init fun _ => 1) := rfl
    rw [this, exBefore]; rfl
  have ha2 : ∀ θ, exSetup.acts (exSetup.learned EmpNorm.init (vec 2 (exParams w)) exEpisodes) θ (fun _ => 1) = ⟨fun _ => θ 1, fun _ => 1⟩ := fun θ => by
    have : exSetup.acts (exSetup.learned EmpNorm.init (vec 2 (exParams w)) exEpisodes) θ (fun _ => 1) =
      exSetup.policy θ (normalize ⟨1 / 100, none, some 5⟩ (exSetup.learned EmpNorm.init (vec 2 (exParams w)) exEpisodes) fun _ => 1) := rfl
    rw [this, exAfter]
    simp [exSetup]
  have hkl : ∀ x y : ℝ, exSetup.kind.kl ⟨fun _ => x, fun _ => 1⟩ ⟨fun _ => y, fun _ => 1⟩ = (x - y) ^ 2 / 2 := fun x y => by
    simp [exSetup, TRPO.gaussianKind, Distrib.Gaussian.kl, Distrib.Gaussian.lnVar]
    ring
  rw [hobs] at hmeas ⊢
  simp only [Setup.moved, List.map, ha1, ha2, hkl, List.sum_cons, List.sum_nil, List.length_cons, List.length_nil] at hmeas ⊢
  rw [exVec] at hmeas ⊢
  generalize vec 2 out.params 1 = y at hmeas ⊢
  simp only [Matrix.cons_val_zero, Matrix.cons_val_one] at hmeas ⊢
  have hy : y ≤ Real.sqrt (2 * maxKl) := by
    refine Real.le_sqrt_of_sq_le ?_
    push_cast at hmeas
    linarith
  have hwv : w * exSeen = Real.sqrt (2 * maxKl) + Real.sqrt (2 * |bound|) + 1 := by rw [hw]; field_simp
  have hb := Real.sq_sqrt (show (0 : ℝ) ≤ 2 * |bound| by positivity)
  have hb0 := Real.sqrt_nonneg (2 * |bound|)
  have habs := le_abs_self bound
  rw [hwv]
  push_cast
  have hz : Real.sqrt (2 * |bound|) + 1 ≤ Real.sqrt (2 * maxKl) + Real.sqrt (2 * |bound|) + 1 + 0 - y := by linarith
  nlinarith

/-- **C171**: with a normalizer that still learns, clipping removes transitions before any parameter has changed: for every `clip_eps` there
are parameters of a linear policy such that the good transition of the two, with a positive advantage, has no influence on any parameter in the
first minibatch. -/
theorem C171_violated_first_minibatch (eps : ℝ) (he : 0 < eps) :
    ∃ (w : ℝ) (b : Full (Fin 1 → ℝ) (Fin 1 → ℝ) Unit), b ∈ exSetup.dataset EmpNorm.init (vec 2 (exParams w)) exEpisodes ∧ b.adv = 1 ∧
      ∀ adv > 0, HasFDerivAt (exSetup.ppoTerm eps EmpNorm.init exEpisodes (vec 2 (exParams w)) b adv) (0 : (Fin 2 → ℝ) →L[ℝ] ℝ) (vec 2 (exParams w)) := by
  have hv := exSeen_pos
  set m : ℝ := 2 + 2 * eps with hmdef
  refine ⟨m / exSeen, _, by rw [exDataset]; exact List.mem_cons_self, rfl, fun adv hadv => ?_⟩
  set θ₀ := vec 2 (exParams (m / exSeen)) with hθ
  have hin : pre exSetup.phi (view exSetup.norm (exSetup.learned EmpNorm.init θ₀ exEpisodes)) (fun _ => 1) = fun _ => 0 := exAfter _
  have h0 : θ₀ 0 = m / exSeen := by rw [hθ, exVec]; rfl
  have h1 : θ₀ 1 = 0 := by rw [hθ, exVec]; rfl
  have hlp : ∀ (θ : Fin 2 → ℝ) (x : ℝ), Distrib.Gaussian.logProb (exSetup.policy θ fun _ => x) (fun _ => 1) =
      -(1 / 2) * Real.log (2 * Real.pi) - (1 - (θ 0 * x + θ 1)) ^ 2 / 2 := fun θ x => by
    simp [Distrib.Gaussian.logProb, Distrib.gaussianLogLikelihood, exSetup, Distrib.Gaussian.lnVar]
    norm_num
  have hdiff : DifferentiableAt ℝ (fun θ : Fin 2 → ℝ => Distrib.Gaussian.logProb (exSetup.policy θ fun _ => 0) (fun _ => 1)) θ₀ := by
    have e : (fun θ : Fin 2 → ℝ => Distrib.Gaussian.logProb (exSetup.policy θ fun _ => 0) (fun _ => 1)) =
        fun θ : Fin 2 → ℝ => -(1 / 2) * Real.log (2 * Real.pi) - (1 - (θ 0 * 0 + θ 1)) ^ 2 / 2 := funext fun θ => hlp θ 0
    rw [e]
    fun_prop
  have hclip : PPOLoss.Clipped eps (Distrib.Gaussian.logProb (exSetup.policy θ₀ fun _ => 0) (fun _ => 1))
      (Distrib.Gaussian.logProb (exSetup.policy θ₀ fun _ => exSeen) (fun _ => 1)) adv := by
    refine Or.inl ⟨hadv, ?_⟩
    rw [hlp, hlp, h0, h1, div_mul_cancel₀ _ hv.ne']
    refine lt_of_lt_of_le ?_ (Real.add_one_le_exp _)
    rw [hmdef]
    nlinarith
  have hd := (PPOLoss.C87_gradient eps _ _ adv he.le).2 hclip
  have := hd.comp_hasFDerivAt θ₀ hdiff.hasFDerivAt
  rw [zero_smul] at this
  refine this.congr_of_eventuallyEq (Filter.Eventually.of_forall fun θ => ?_)
  unfold Setup.ppoTerm
  simp only [hin, Function.comp_def]
  rfl

/-- The hypotheses of `C171_trust_region` and `C171_first_minibatch` are met: the example without its normalizer, and with one that has learned enough. -/
example : ({ exSetup with norm := none } : Setup 2 (Fin 1 → ℝ) (Fin 1 → ℝ) (Distrib.Gaussian 1) (Fin 1)).Still EmpNorm.init := by
  intro c h
  simp at h

example : ({ exSetup with norm := some ⟨1 / 100, some 2, some 5⟩ } : Setup 2 (Fin 1 → ℝ) (Fin 1 → ℝ) (Distrib.Gaussian 1) (Fin 1)).Still
    ⟨fun _ => 1, fun _ => 1, 2, none⟩ := by
  intro c h
  simp only [Option.some.injEq] at h
  subst h
  exact ⟨2, rfl, le_refl _⟩

/-- The example without a normalizer, for observations that are zero. -/
noncomputable def exPlain : Setup 2 (Fin 1 → ℝ) (Fin 1 → ℝ) (Distrib.Gaussian 1) (Fin 1) := { exSetup with norm := none, phi := fun _ _ => 0 }

theorem exPlainSamples (θ : Fin 2 → ℝ) : ∃ L₁ L₂ a : ℝ, 0 < a ∧ exPlain.samples EmpNorm.init θ exEpisodes =
    [⟨fun _ => 0, fun _ => 1, L₁, a⟩, ⟨fun _ => 0, fun _ => -1, L₂, -a⟩] := by
  refine ⟨Distrib.Gaussian.logProb (exSetup.policy θ fun _ => 0) (fun _ => 1),
    Distrib.Gaussian.logProb (exSetup.policy θ fun _ => 0) (fun _ => -1), 1 / (1 + 1e-8), by norm_num, ?_⟩
  have hv : ∀ s o, pre exPlain.phi (view exPlain.norm s) o = fun _ => 0 := fun _ _ => rfl
  have hf : ∀ x, exPlain.vf x = 0 := fun _ => rfl
  have hp : exPlain.policy = exSetup.policy := rfl
  have hk : exPlain.kind.logProb = Distrib.Gaussian.logProb := rfl
  have hd : exPlain.dataset EmpNorm.init θ exEpisodes =
      [⟨⟨⟨fun _ => 1, fun _ => 1, 1, fun _ => 1, 0, (), ()⟩, Distrib.Gaussian.logProb (exSetup.policy θ fun _ => 0) (fun _ => 1), 0, 0⟩, 1, 1⟩,
        ⟨⟨⟨fun _ => 1, fun _ => -1, -1, fun _ => 1, 0, (), ()⟩, Distrib.Gaussian.logProb (exSetup.policy θ fun _ => 0) (fun _ => -1), 0, 0⟩, -1, -1⟩] := by
    simp only [Setup.dataset, exEpisodes, makeDataset, PPODataset.addPlain, PPODataset.addAdvantages, List.flatten_cons, List.flatten_nil,
      List.cons_append, List.nil_append, List.map, List.length_cons, List.length_nil, hv, hf, hk, hp, List.zipWith, PPODataset.annotate, PPODataset.regroup]
    simp [PPOData.addAdvantage, Ann.toV]
  have hstd : exPlain.standardize = true := rfl
  unfold Setup.samples
  simp only [hd, hstd, if_true, List.map, PPOLoss.standardize, List.zipWith, hv]
  norm_num [PPOLoss.mean, PPOLoss.std]

/-- There the update accepts a step, and the policy moves by at most `max_kl`. -/
example : ∃ N, ∀ b ≥ N, ∃ out s', exPlain.trpo ⟨0.1, 0.01, 10, b, 0⟩ EmpNorm.init (exParams 3) exEpisodes = (some (.ok out), s') ∧ 0 < out.stepSize ∧
    exPlain.moved EmpNorm.init (vec 2 (exParams 3)) s' (vec 2 out.params) (exEpisodes.flatten.map fun t => t.state) ≤ 0.01 := by
  obtain ⟨L₁, L₂, a, ha, hs⟩ := exPlainSamples (vec 2 (exParams 3))
  have hshape : WellShaped (exParams 3) := by simp [WellShaped, exParams]
  have hlen : (flattenAll (exParams 3)).length = 2 := by simp [exParams, flattenAll]
  obtain ⟨N, hN⟩ := TRPO.C144_update_gaussian (n := 2) (k := 1) (policy := exSetup.policy)
    (data := exPlain.samples EmpNorm.init (vec 2 (exParams 3)) exEpisodes) (fun _ _ _ => one_pos) ⟨0.1, 0.01, 10, 0, 0⟩ (by norm_num) (by norm_num) (by norm_num)
    (exParams 3) hshape hlen (fun r _ i => exMean_smooth _ _ i) (fun r _ i => contDiffAt_const)
    (by rw [hs, exVec]; exact exGradient L₁ L₂ a 0 3 ha)
  refine ⟨N, fun b hb => ?_⟩
  obtain ⟨out, h1, h2, -⟩ := hN b hb
  have ht : exPlain.trpo ⟨0.1, 0.01, 10, b, 0⟩ EmpNorm.init (exParams 3) exEpisodes =
      (some (.ok out), exPlain.learned EmpNorm.init (vec 2 (exParams 3)) exEpisodes) := by
    rw [← h1]; rfl
  exact ⟨out, _, ht, h2, C171_trust_region exPlain exSelf ⟨0.1, 0.01, 10, b, 0⟩ (by norm_num) EmpNorm.init _ (fun c h => by simp [exPlain] at h)
    (exParams 3) hshape hlen exEpisodes out ht⟩

end Verif.TrustRegion
