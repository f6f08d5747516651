import Mathlib.Analysis.SpecialFunctions.Log.Deriv
import Mathlib.Analysis.SpecialFunctions.ExpDeriv
import Mathlib.Analysis.SpecificLimits.Basic
import Mathlib.Analysis.Calculus.ContDiff.Operations
import Verif.Proofs.SecondOrder
import Verif.Props.TRPO
import Verif.Props.Distrib

/-!
C144: the policy update of TRPO as a whole.

`C144_fisher_softmax`, `C144_fisher_gaussian`: what the conjugate gradient method multiplies with is symmetric and
positive semidefinite.  `C144_second_order`: the quadratic form TRPO scales its step with is the second-order
approximation of the KL divergence.  `C144_update_softmax`, `C144_update_gaussian`: with enough backtracking steps the
line search accepts a step, which changes the parameters, does not lower the gain and keeps the KL divergence.
-/

set_option autoImplicit false
set_option linter.unusedSectionVars false

open Filter Topology Asymptotics

namespace Verif.TRPO

variable {n k : Nat} {D A S : Type}

/-! ### Sums over the dataset -/

theorem contDiffAt_mean {α : Type} (l : List α) (F : (Fin n → ℝ) → α → ℝ) (θ₀ : Fin n → ℝ) (m : ℕ)
    (h : ∀ a ∈ l, ContDiffAt ℝ m (fun θ => F θ a) θ₀) : ContDiffAt ℝ m (fun θ => mean (l.map (F θ))) θ₀ := by
  unfold mean
  simp only [List.length_map]
  refine ContDiffAt.div_const ?_ _
  induction l with
  | nil => simpa using contDiffAt_const
  | cons a l ih =>
    simp only [List.map_cons, List.sum_cons]
    exact (h a (by simp)).add (ih fun b hb => h b (List.mem_cons_of_mem _ hb))

theorem mean_nonneg {α : Type} (l : List α) (F : α → ℝ) (h : ∀ a ∈ l, 0 ≤ F a) : 0 ≤ mean (l.map F) :=
  div_nonneg (List.sum_nonneg fun x hx => by obtain ⟨a, ha, rfl⟩ := List.mem_map.1 hx; exact h a ha) (by positivity)

theorem mean_zero {α : Type} (l : List α) (F : α → ℝ) (h : ∀ a ∈ l, F a = 0) : mean (l.map F) = 0 := by
  unfold mean
  rw [List.sum_eq_zero fun x hx => by obtain ⟨a, ha, rfl⟩ := List.mem_map.1 hx; exact h a ha, zero_div]

/-- What the theorems need of a policy near its current parameters. -/
structure Regular (K : Kind D A) (policy : (Fin n → ℝ) → S → D) (data : List (Sample S A)) (θ₀ : Fin n → ℝ) : Prop where
  kl : ∀ r ∈ data, ContDiffAt ℝ 2 (fun θ => K.kl (policy θ₀ r.input) (policy θ r.input)) θ₀
  nonneg : ∀ r ∈ data, ∀ θ, 0 ≤ K.kl (policy θ₀ r.input) (policy θ r.input)
  zero : ∀ r ∈ data, K.kl (policy θ₀ r.input) (policy θ₀ r.input) = 0
  logProb : ∀ r ∈ data, ContDiffAt ℝ 2 (fun θ => K.logProb (policy θ r.input) r.action) θ₀
  entropy : ∀ r ∈ data, ContDiffAt ℝ 2 (fun θ => K.entropy (policy θ r.input)) θ₀

section
variable {K : Kind D A} {policy : (Fin n → ℝ) → S → D} {data : List (Sample S A)} {θ₀ : Fin n → ℝ}

theorem meanKl_smooth (h : Regular K policy data θ₀) : ContDiffAt ℝ 2 (meanKl K policy data θ₀) θ₀ :=
  contDiffAt_mean data (fun θ r => K.kl (policy θ₀ r.input) (policy θ r.input)) θ₀ 2 h.kl

theorem meanKl_self (h : Regular K policy data θ₀) : meanKl K policy data θ₀ θ₀ = 0 := mean_zero _ _ h.zero

theorem meanKl_min (h : Regular K policy data θ₀) : IsLocalMin (meanKl K policy data θ₀) θ₀ := by
  refine Filter.Eventually.of_forall fun θ => ?_
  rw [meanKl_self h]
  exact mean_nonneg _ _ fun r hr => h.nonneg r hr θ

theorem gain_smooth (h : Regular K policy data θ₀) (coef : ℝ) : ContDiffAt ℝ 2 (gainAt K policy coef data) θ₀ := by
  have h1 := contDiffAt_mean data (fun θ r => Real.exp (K.logProb (policy θ r.input) r.action - r.logProbOld) * r.adv)
    θ₀ 2 fun r hr => (((h.logProb r hr).sub contDiffAt_const).exp).mul contDiffAt_const
  have h2 := contDiffAt_mean data (fun θ r => K.entropy (policy θ r.input)) θ₀ 2 h.entropy
  have h3 := h1.add (contDiffAt_const (c := coef) |>.mul h2)
  refine h3.congr_of_eventuallyEq (Filter.Eventually.of_forall fun θ => ?_)
  simp only [gainAt, computeGain, List.map_map, Function.comp_def]

theorem fisher_psd (h : Regular K policy data θ₀) : PSD (hessianVectorProduct (meanKl K policy data θ₀) θ₀) :=
  hvp_psd (meanKl_smooth h) (meanKl_min h)

/-- **C144.** The quadratic form that TRPO scales its step with is the second-order approximation of the mean KL
divergence: along the step the divergence is that form times the square of the distance, up to terms of higher order,
and the form is below `max_kl`. -/
theorem C144_second_order (h : Regular K policy data θ₀) {damping maxKl : ℝ} (hd : 0 < damping) (hk : 0 < maxKl)
    (maxIter : Nat) (hm : 0 < maxIter) {g : Fin n → ℝ} (hg : g ≠ 0) :
    ∃ s, klStep (hessianVectorProduct (meanKl K policy data θ₀) θ₀) damping maxKl maxIter g = some s ∧
      ∃ q < maxKl, 0 ≤ q ∧
        (fun t : ℝ => meanKl K policy data θ₀ (θ₀ + t • s) - t ^ 2 * q) =o[𝓝 0] fun t => t ^ 2 := by
  obtain ⟨s, h1, h2, -⟩ := C89_step (fisher_psd h) hd hk maxIter hm hg
  refine ⟨s, h1, _, h2, mul_nonneg (by norm_num) ((fisher_psd h).nonneg s), ?_⟩
  have := taylor_two (meanKl_smooth h) (meanKl_min h).fderiv_eq_zero s
  rw [meanKl_self h] at this
  simpa only [zero_add, quadraticKl] using this

theorem vec_shifted {ps qs : List (Arr ℝ)} {s : Fin n → ℝ} {t : ℝ} (hl : (flattenAll ps).length = n)
    (h : Shifted ps (List.ofFn s) t qs) : vec n qs = vec n ps + t • s := by
  funext i
  have e : flattenAll qs = List.zipWith (fun p d => p + t * d) (flattenAll ps) (List.ofFn s) := h.2.2
  have hi : (i : Nat) < (flattenAll ps).length := by rw [hl]; exact i.2
  simp [vec, e, List.getD_eq_getElem?_getD, List.getElem?_zipWith, List.getElem?_eq_getElem hi]

theorem eventually_half {P : ℝ → Prop} (h : ∀ᶠ t in 𝓝[>] (0 : ℝ), P t) : ∃ N : Nat, ∀ j ≥ N, P ((1 / 2) ^ j) := by
  have h1 : Tendsto (fun j : Nat => ((1 : ℝ) / 2) ^ j) atTop (𝓝[>] 0) :=
    tendsto_nhdsWithin_iff.2 ⟨tendsto_pow_atTop_nhds_zero_of_lt_one (by norm_num) (by norm_num),
      Filter.Eventually.of_forall fun j => Set.mem_Ioi.2 (by positivity)⟩
  exact Filter.eventually_atTop.1 (h1.eventually h)

theorem update_accepts (cfg : UpdateConfig) (hd : 0 < cfg.damping) (hk : 0 < cfg.maxKl) (hm : 0 < cfg.maxIter)
    (ps : List (Arr ℝ)) (hw : WellShaped ps) (hl : (flattenAll ps).length = n) (h : Regular K policy data (vec n ps))
    (hg : gradient (gainAt K policy cfg.coef data) (vec n ps) ≠ 0) :
    ∃ N, ∀ b ≥ N, ∃ out, updatePolicy (n := n) K policy { cfg with maxBacktrack := b } data ps = some (.ok out) ∧
      0 < out.stepSize ∧ out.params ≠ ps ∧
      gainAt K policy cfg.coef data (vec n ps) ≤ gainAt K policy cfg.coef data (vec n out.params) ∧
      meanKl K policy data (vec n ps) (vec n out.params) ≤ cfg.maxKl := by
  set θ₀ := vec n ps with hθ
  set G := gainAt K policy cfg.coef data with hG
  obtain ⟨s, h1, -, -, h4⟩ := C89_step (fisher_psd h) hd hk cfg.maxIter hm hg
  have hup : ∀ᶠ t in 𝓝[>] (0 : ℝ), G θ₀ < G (θ₀ + t • s) := by
    have hdv : HasDerivAt (fun t : ℝ => G (θ₀ + t • s)) (fderiv ℝ G θ₀ s) 0 := by
      have := hasDerivAt_line (f := G) (θ := θ₀) (v := s) (t := 0) (by
        rw [zero_smul, add_zero]; exact (gain_smooth h cfg.coef).differentiableAt (by norm_num))
      rw [zero_smul, add_zero] at this
      exact this
    rw [gradient_dot] at h4
    have := hdv.tendsto_slope.eventually (eventually_gt_nhds h4)
    refine Filter.Eventually.filter_mono (nhdsWithin_mono 0 fun t (ht : 0 < t) => ne_of_gt ht) this |>.and
      self_mem_nhdsWithin |>.mono ?_
    rintro t ⟨h5, ht : 0 < t⟩
    rw [slope_def_field] at h5
    simp only [zero_smul, add_zero, sub_zero] at h5
    have := (div_pos_iff_of_pos_right ht).1 h5
    linarith
  have hkl : ∀ᶠ t in 𝓝[>] (0 : ℝ), meanKl K policy data θ₀ (θ₀ + t • s) ≤ cfg.maxKl := by
    have hc : ContinuousAt (fun t : ℝ => meanKl K policy data θ₀ (θ₀ + t • s)) 0 := by
      refine ContinuousAt.comp (g := meanKl K policy data θ₀) ?_ (by fun_prop)
      rw [zero_smul, add_zero]; exact (meanKl_smooth h).continuousAt
    have hv : meanKl K policy data θ₀ (θ₀ + (0 : ℝ) • s) < cfg.maxKl := by
      rw [zero_smul, add_zero, meanKl_self h]; exact hk
    exact Filter.Eventually.filter_mono nhdsWithin_le_nhds ((hc.eventually (eventually_lt_nhds hv)).mono fun t ht => ht.le)
  obtain ⟨N, hN⟩ := eventually_half (hup.and hkl)
  refine ⟨N, fun b hb => ?_⟩
  have hlen : (List.ofFn s).length = (ps.map (fun p => p.data.length)).sum := by
    rw [List.length_ofFn, ← hl, flattenAll, List.length_flatten, List.map_map]; rfl
  obtain ⟨cand, hc, out, ho, hcase⟩ := C55_line_search
    (fun qs => (.fin (G (vec n qs)), .fin (meanKl K policy data θ₀ (vec n qs)))) (.fin (G θ₀)) cfg.maxKl b
    (List.ofFn s) ps hw hlen
  have hvec : ∀ j, vec n (cand j) = θ₀ + ((1 : ℝ) / 2) ^ j • s := fun j => vec_shifted hl (hc j)
  have hsafe : Safe (.fin (G θ₀)) cfg.maxKl ((.fin (G (vec n (cand b))), .fin (meanKl K policy data θ₀ (vec n (cand b)))) : Fl ℝ × Fl ℝ) := by
    refine ⟨_, _, rfl, ?_, ?_⟩
    · rw [hvec]; exact (hN b hb).2
    · show G θ₀ ≤ _
      rw [hvec]; exact (hN b hb).1.le
  have hs0 : s ≠ 0 := by
    rintro rfl
    simp at h4
  rcases hcase with ⟨j, hj, e1, e2, ⟨g, kl, e3, e4, e5⟩, -⟩ | ⟨-, -, hno⟩
  · have e6 := Prod.mk.inj e3
    have e7 : G (vec n (cand j)) = g := Fl.fin.inj e6.1
    have e8 : meanKl K policy data θ₀ (vec n (cand j)) = kl := Fl.fin.inj e6.2
    refine ⟨out, ?_, ?_, ?_, ?_, ?_⟩
    · simp only [updatePolicy]
      rw [← hθ, ← hG, h1]
      exact congrArg some ho
    · rw [e2]; positivity
    · intro e
      have := hvec j
      rw [← e1, e] at this
      have h0 : ((1 : ℝ) / 2) ^ j • s = 0 := by
        have : θ₀ = θ₀ + ((1 : ℝ) / 2) ^ j • s := this
        simpa using this
      rcases smul_eq_zero.1 h0 with h0 | h0
      · exact absurd h0 (by positivity)
      · exact hs0 h0
    · rw [e1, e7]; exact e5
    · rw [e1, e8]; exact e4
  · exact absurd hsafe (hno b le_rfl)

end

/-! ### Softmax policies -/

section Softmax
open Verif.Distrib

variable {net : (Fin n → ℝ) → S → Fin k → ℝ} {beta minProb : ℝ} {policy : (Fin n → ℝ) → S → Categorical k}
  {data : List (Sample S (Fin k))} {θ₀ : Fin n → ℝ}

theorem softmaxProb_smooth {z : (Fin n → ℝ) → Fin k → ℝ} (hz : ContDiffAt ℝ 2 z θ₀) (beta minProb : ℝ) (i : Fin k) :
    ContDiffAt ℝ 2 (fun θ => softmaxProb (z θ) beta minProb i) θ₀ := by
  have hzi : ∀ j, ContDiffAt ℝ 2 (fun θ => Real.exp (beta * z θ j)) θ₀ := fun j =>
    (contDiffAt_const.mul (contDiffAt_pi.1 hz j)).exp
  have hsum : ContDiffAt ℝ 2 (fun θ => ∑ j, Real.exp (beta * z θ j)) θ₀ := ContDiffAt.sum fun j _ => hzi j
  have hsm : ContDiffAt ℝ 2 (fun θ => softmax (fun j => beta * z θ j) i) θ₀ :=
    (hzi i).div hsum (sum_exp_pos (fun j => beta * z θ₀ j) i).ne'
  unfold softmaxProb
  split
  · exact (hsm.mul contDiffAt_const).add contDiffAt_const
  · exact hsm

/-- A softmax policy whose logits are twice continuously differentiable is regular. -/
theorem softmax_regular (hk : 0 < k) (hp : ∀ θ s, softmaxDist (net θ s) beta minProb = .ok (policy θ s))
    (hz : ∀ r ∈ data, ContDiffAt ℝ 2 (fun θ => net θ r.input) θ₀) : Regular (categoricalKind k) policy data θ₀ := by
  have hprob : ∀ θ s, (policy θ s).allProb = softmaxProb (net θ s) beta minProb := fun θ s => by
    obtain ⟨-, e⟩ := softmaxDist_ok (hp θ s); rw [e]
  have hall := fun θ s => (C66_probabilities (net θ s) beta minProb hk).2.2 _ (hp θ s)
  have hP : ∀ r ∈ data, ∀ i, ContDiffAt ℝ 2 (fun θ => (policy θ r.input).allProb i) θ₀ := fun r hr i => by
    simp only [hprob]; exact softmaxProb_smooth (hz r hr) beta minProb i
  have hL : ∀ r ∈ data, ∀ i, ContDiffAt ℝ 2 (fun θ => (policy θ r.input).allLogProb i) θ₀ := fun r hr i => by
    simp only [fun θ => (hall θ r.input).2.2.2 i]
    exact (hP r hr i).log ((hall θ₀ r.input).2.1 i).ne'
  exact {
    kl := fun r hr => by
      show ContDiffAt ℝ 2 (fun θ => ∑ i, (policy θ₀ r.input).allProb i *
        ((policy θ₀ r.input).allLogProb i - (policy θ r.input).allLogProb i)) θ₀
      exact ContDiffAt.sum fun i _ => contDiffAt_const.mul (contDiffAt_const.sub (hL r hr i))
    nonneg := fun r hr θ => (C66_kl_entropy _ _ _ _ _ _ hk _ _ (hp θ₀ r.input) (hp θ r.input)).1
    zero := fun r hr => (C66_kl_entropy _ _ _ _ _ _ hk _ _ (hp θ₀ r.input) (hp θ₀ r.input)).2.1.2 rfl
    logProb := fun r hr => hL r hr r.action
    entropy := fun r hr => (ContDiffAt.sum fun i _ => (hP r hr i).mul (hL r hr i)).neg }

/-- **C144.** For a softmax policy, with any inverse temperature and minimum probability, whose logits are twice
continuously differentiable at the current parameters, the product TRPO hands to the conjugate gradient method is
linear, symmetric and positive semidefinite. -/
theorem C144_fisher_softmax (hk : 0 < k) (hp : ∀ θ s, softmaxDist (net θ s) beta minProb = .ok (policy θ s))
    (hz : ∀ r ∈ data, ContDiffAt ℝ 2 (fun θ => net θ r.input) θ₀) :
    PSD (hessianVectorProduct (meanKl (categoricalKind k) policy data θ₀) θ₀) :=
  fisher_psd (softmax_regular hk hp hz)

/-- **C144.** For such a policy and a nonvanishing gradient of the gain: with enough backtracking steps the update
accepts a step.  The new parameters differ from the old ones, the gain has not fallen and the mean KL divergence from
the old policy is at most `max_kl`. -/
theorem C144_update_softmax (hk : 0 < k) (hp : ∀ θ s, softmaxDist (net θ s) beta minProb = .ok (policy θ s))
    (cfg : UpdateConfig) (hd : 0 < cfg.damping) (hkl : 0 < cfg.maxKl) (hm : 0 < cfg.maxIter)
    (ps : List (Arr ℝ)) (hw : WellShaped ps) (hl : (flattenAll ps).length = n)
    (hz : ∀ r ∈ data, ContDiffAt ℝ 2 (fun θ => net θ r.input) (vec n ps))
    (hg : gradient (gainAt (categoricalKind k) policy cfg.coef data) (vec n ps) ≠ 0) :
    ∃ N, ∀ b ≥ N, ∃ out, updatePolicy (n := n) (categoricalKind k) policy { cfg with maxBacktrack := b } data ps =
        some (.ok out) ∧
      0 < out.stepSize ∧ out.params ≠ ps ∧
      gainAt (categoricalKind k) policy cfg.coef data (vec n ps) ≤
        gainAt (categoricalKind k) policy cfg.coef data (vec n out.params) ∧
      meanKl (categoricalKind k) policy data (vec n ps) (vec n out.params) ≤ cfg.maxKl :=
  update_accepts cfg hd hkl hm ps hw hl (softmax_regular hk hp hz) hg

end Softmax

/-! ### Gaussian policies -/

section Gauss
open Verif.Distrib

variable {policy : (Fin n → ℝ) → S → Gaussian k} {data : List (Sample S (Fin k → ℝ))} {θ₀ : Fin n → ℝ}

/-- A Gaussian policy with positive variances, whose means and variances are twice continuously differentiable, is
regular. -/
theorem gaussian_regular (hv : ∀ θ s i, 0 < (policy θ s).var i)
    (hmean : ∀ r ∈ data, ∀ i, ContDiffAt ℝ 2 (fun θ => (policy θ r.input).mean i) θ₀)
    (hvar : ∀ r ∈ data, ∀ i, ContDiffAt ℝ 2 (fun θ => (policy θ r.input).var i) θ₀) :
    Regular (gaussianKind k) policy data θ₀ := by
  have hln : ∀ r ∈ data, ∀ i, ContDiffAt ℝ 2 (fun θ => (policy θ r.input).lnVar i) θ₀ := fun r hr i =>
    (hvar r hr i).log (hv θ₀ r.input i).ne'
  exact {
    kl := fun r hr => contDiffAt_const.mul (ContDiffAt.sum fun i _ =>
      (((hln r hr i).sub contDiffAt_const).add
        ((contDiffAt_const.add ((contDiffAt_const.sub (hmean r hr i)).pow 2)).div (hvar r hr i)
          (hv θ₀ r.input i).ne')).sub contDiffAt_const)
    nonneg := fun r hr θ => (C67_kl _ _ (hv θ₀ r.input) (hv θ r.input)).1
    zero := fun r hr => (C67_kl _ _ (hv θ₀ r.input) (hv θ₀ r.input)).2.2 rfl
    logProb := fun r hr => by
      show ContDiffAt ℝ 2 (fun θ => ∑ i, gaussianLogLikelihood (r.action i) ((policy θ r.input).mean i)
        ((policy θ r.input).var i) ((policy θ r.input).lnVar i)) θ₀
      refine ContDiffAt.sum fun i _ => ?_
      unfold gaussianLogLikelihood
      have h1 := hln r hr i
      have h2 := hmean r hr i
      have h3 := hvar r hr i
      have h4 : 2 * (policy θ₀ r.input).var i ≠ 0 := mul_ne_zero two_ne_zero (hv θ₀ r.input i).ne'
      fun_prop (disch := assumption)
    entropy := fun r hr => contDiffAt_const.add (contDiffAt_const.mul (ContDiffAt.sum fun i _ => hln r hr i)) }

/-- **C144.** The same for Gaussian policies with positive variances. -/
theorem C144_fisher_gaussian (hv : ∀ θ s i, 0 < (policy θ s).var i)
    (hmean : ∀ r ∈ data, ∀ i, ContDiffAt ℝ 2 (fun θ => (policy θ r.input).mean i) θ₀)
    (hvar : ∀ r ∈ data, ∀ i, ContDiffAt ℝ 2 (fun θ => (policy θ r.input).var i) θ₀) :
    PSD (hessianVectorProduct (meanKl (gaussianKind k) policy data θ₀) θ₀) :=
  fisher_psd (gaussian_regular hv hmean hvar)

/-- **C144.** The same for Gaussian policies with positive variances. -/
theorem C144_update_gaussian (hv : ∀ θ s i, 0 < (policy θ s).var i)
    (cfg : UpdateConfig) (hd : 0 < cfg.damping) (hkl : 0 < cfg.maxKl) (hm : 0 < cfg.maxIter)
    (ps : List (Arr ℝ)) (hw : WellShaped ps) (hl : (flattenAll ps).length = n)
    (hmean : ∀ r ∈ data, ∀ i, ContDiffAt ℝ 2 (fun θ => (policy θ r.input).mean i) (vec n ps))
    (hvar : ∀ r ∈ data, ∀ i, ContDiffAt ℝ 2 (fun θ => (policy θ r.input).var i) (vec n ps))
    (hg : gradient (gainAt (gaussianKind k) policy cfg.coef data) (vec n ps) ≠ 0) :
    ∃ N, ∀ b ≥ N, ∃ out, updatePolicy (n := n) (gaussianKind k) policy { cfg with maxBacktrack := b } data ps =
        some (.ok out) ∧
      0 < out.stepSize ∧ out.params ≠ ps ∧
      gainAt (gaussianKind k) policy cfg.coef data (vec n ps) ≤
        gainAt (gaussianKind k) policy cfg.coef data (vec n out.params) ∧
      meanKl (gaussianKind k) policy data (vec n ps) (vec n out.params) ≤ cfg.maxKl :=
  update_accepts cfg hd hkl hm ps hw hl (gaussian_regular hv hmean hvar) hg

end Gauss

/-! ### Example: two actions, one parameter -/

section Example
open Verif.Distrib

/-- The logits are the parameter and zero. -/
def exampleNet (θ : Fin 1 → ℝ) (_ : Unit) : Fin 2 → ℝ := ![θ 0, 0]

noncomputable def examplePolicy (θ : Fin 1 → ℝ) (s : Unit) : Categorical 2 :=
  ⟨softmaxProb (exampleNet θ s) 1 0, softmaxLogProb (exampleNet θ s) 1 0⟩

/-- One transition: the first action, advantage one. -/
def exampleData : List (Sample Unit (Fin 2)) := [⟨(), 0, 0, 1⟩]

theorem examplePolicy_ok (θ : Fin 1 → ℝ) (s : Unit) : softmaxDist (exampleNet θ s) 1 0 = .ok (examplePolicy θ s) := by
  rw [softmaxDist, if_pos (by norm_num)]; rfl

theorem exampleNet_smooth (θ₀ : Fin 1 → ℝ) : ContDiffAt ℝ 2 (fun θ => exampleNet θ ()) θ₀ := by
  rw [contDiffAt_pi]
  intro i
  fin_cases i
  · exact (contDiff_apply ℝ ℝ (0 : Fin 1)).contDiffAt
  · exact contDiffAt_const

theorem exampleGain (θ : Fin 1 → ℝ) :
    gainAt (categoricalKind 2) examplePolicy 0 exampleData θ = Real.exp (θ 0) / (Real.exp (θ 0) + 1) := by
  have h : (0 : ℝ) < Real.exp (θ 0) + 1 := by positivity
  simp [gainAt, computeGain, mean, exampleData, categoricalKind, examplePolicy, softmaxLogProb, logSoftmax,
    exampleNet, Fin.sum_univ_two]
  rw [Real.exp_sub, Real.exp_log h]

theorem exampleGradient : gradient (gainAt (categoricalKind 2) examplePolicy 0 exampleData) (vec 1 [⟨[1], [0]⟩]) ≠ 0 := by
  intro h0
  have hv : vec 1 [⟨[1], [0]⟩] = 0 := by
    funext i; simp [vec, flattenAll, List.getD_eq_getElem?_getD]
  rw [hv] at h0
  have h := softmax_regular (n := 1) (k := 2) (S := Unit) (net := exampleNet) (beta := 1) (minProb := 0)
    (policy := examplePolicy) (data := exampleData) (θ₀ := 0) (by norm_num) examplePolicy_ok
    (fun r _ => exampleNet_smooth 0)
  have h1 := hasDerivAt_line (f := gainAt (categoricalKind 2) examplePolicy 0 exampleData) (θ := 0)
    (v := fun _ => 1) (t := 0) (by
      rw [zero_smul, add_zero]; exact (gain_smooth h 0).differentiableAt (by norm_num))
  rw [zero_smul, add_zero, ← gradient_dot, h0, zero_dotProduct] at h1
  have h2 : HasDerivAt (fun t : ℝ => Real.exp t / (Real.exp t + 1)) (1 / 4) 0 := by
    have := (Real.hasDerivAt_exp 0).div ((Real.hasDerivAt_exp 0).add_const 1) (by positivity)
    refine this.congr_deriv ?_
    norm_num [Real.exp_zero]
  have h3 : (fun t : ℝ => gainAt (categoricalKind 2) examplePolicy 0 exampleData (0 + t • fun _ => 1)) =
      fun t => Real.exp t / (Real.exp t + 1) := by
    funext t
    rw [exampleGain]; simp
  rw [h3] at h1
  have := h1.unique h2
  norm_num at this

/-- All hypotheses of `C144_update_softmax` hold of it: the update accepts a step. -/
example : ∃ N, ∀ b ≥ N, ∃ out, updatePolicy (n := 1) (categoricalKind 2) examplePolicy ⟨0.01, 0.01, 10, b, 0⟩ exampleData
    [⟨[1], [0]⟩] = some (.ok out) ∧ 0 < out.stepSize ∧ out.params ≠ [⟨[1], [0]⟩] := by
  obtain ⟨N, h⟩ := C144_update_softmax (n := 1) (k := 2) (S := Unit) (net := exampleNet) (beta := 1) (minProb := 0)
    (policy := examplePolicy) (data := exampleData) (by norm_num) examplePolicy_ok ⟨0.01, 0.01, 10, 0, 0⟩
    (by norm_num) (by norm_num) (by norm_num) [⟨[1], [0]⟩] (by simp [WellShaped]) (by simp [flattenAll])
    (fun r _ => exampleNet_smooth _) exampleGradient
  refine ⟨N, fun b hb => ?_⟩
  obtain ⟨out, h1, h2, h3, -⟩ := h b hb
  exact ⟨out, h1, h2, h3⟩

/-- A Gaussian policy whose mean is its parameter. -/
example : PSD (hessianVectorProduct (meanKl (gaussianKind 1) (fun (θ : Fin 1 → ℝ) (_ : Unit) => ⟨θ, fun _ => 2⟩)
    [⟨(), ![1], 0, 1⟩] 0) 0) :=
  C144_fisher_gaussian (fun _ _ _ => by norm_num) (fun r _ i => (contDiff_apply ℝ ℝ i).contDiffAt)
    (fun r _ i => contDiffAt_const)

end Example

end Verif.TRPO
