import Mathlib.Analysis.Calculus.FDeriv.Symmetric
import Mathlib.Analysis.Calculus.MeanValue
import Mathlib.Analysis.Calculus.LocalExtr.Basic
import Mathlib.Analysis.Calculus.Deriv.Pow
import Mathlib.Analysis.Asymptotics.Lemmas
import Verif.Model.TRPOUpdate
import Verif.Props.TRPOStep

set_option autoImplicit false
set_option linter.unusedSectionVars false

open Filter Topology Asymptotics

namespace Verif.TRPO

variable {n : Nat} {f : (Fin n → ℝ) → ℝ} {θ₀ : Fin n → ℝ}

theorem clm_sum (L : (Fin n → ℝ) →L[ℝ] ℝ) (v : Fin n → ℝ) : (fun i => L (Pi.single i 1)) ⬝ᵥ v = L v := by
  conv_rhs => rw [show v = ∑ i, v i • (Pi.single i 1 : Fin n → ℝ) by
    funext j; simp [Finset.sum_apply, Pi.single_apply]]
  simp only [map_sum, map_smul, smul_eq_mul, dotProduct]
  exact Finset.sum_congr rfl fun i _ => mul_comm _ _

theorem gradient_dot (f : (Fin n → ℝ) → ℝ) (θ v : Fin n → ℝ) : gradient f θ ⬝ᵥ v = fderiv ℝ f θ v := clm_sum _ _

theorem differentiable_fderiv (hf : ContDiffAt ℝ 2 f θ₀) : DifferentiableAt ℝ (fderiv ℝ f) θ₀ :=
  (hf.fderiv_right (m := 1) (by norm_num)).differentiableAt (by norm_num)

theorem hvp_apply (hf : ContDiffAt ℝ 2 f θ₀) (v : Fin n → ℝ) (i : Fin n) :
    hessianVectorProduct f θ₀ v i = fderiv ℝ (fderiv ℝ f) θ₀ (Pi.single i 1) v := by
  have h : (fun θ' => gradient f θ' ⬝ᵥ v) = fun θ' => fderiv ℝ f θ' v := by
    funext θ'; exact gradient_dot f θ' v
  unfold hessianVectorProduct
  rw [h]
  have hd := (differentiable_fderiv hf).hasFDerivAt.clm_apply (hasFDerivAt_const v θ₀)
  show fderiv ℝ _ θ₀ (Pi.single i 1) = _
  rw [hd.fderiv]
  simp

theorem hvp_dot (hf : ContDiffAt ℝ 2 f θ₀) (u v : Fin n → ℝ) :
    hessianVectorProduct f θ₀ v ⬝ᵥ u = fderiv ℝ (fderiv ℝ f) θ₀ u v := by
  have := clm_sum ((fderiv ℝ (fderiv ℝ f) θ₀).flip v) u
  simp only [ContinuousLinearMap.flip_apply] at this
  rw [← this]
  congr 1
  funext i
  exact hvp_apply hf v i

theorem hasDerivAt_line {θ v : Fin n → ℝ} {t : ℝ} (h : DifferentiableAt ℝ f (θ + t • v)) :
    HasDerivAt (fun t => f (θ + t • v)) (fderiv ℝ f (θ + t • v) v) t := by
  have h1 : HasDerivAt (fun t : ℝ => θ + t • v) ((1 : ℝ) • v) t := ((hasDerivAt_id t).smul_const v).const_add θ
  have := h.hasFDerivAt.comp_hasDerivAt t h1
  exact this.congr_deriv (by rw [one_smul])

theorem hasDerivAt_line_fderiv (hf : ContDiffAt ℝ 2 f θ₀) (v : Fin n → ℝ) :
    HasDerivAt (fun t : ℝ => fderiv ℝ f (θ₀ + t • v) v) (fderiv ℝ (fderiv ℝ f) θ₀ v v) 0 := by
  have h1 : HasDerivAt (fun t : ℝ => θ₀ + t • v) ((1 : ℝ) • v) 0 :=
    ((hasDerivAt_id (0 : ℝ)).smul_const v).const_add θ₀
  have hg : HasFDerivAt (fun θ => fderiv ℝ f θ v) ((fderiv ℝ (fderiv ℝ f) θ₀).flip v) θ₀ := by
    have h := (differentiable_fderiv hf).hasFDerivAt.clm_apply (hasFDerivAt_const v θ₀)
    refine h.congr_fderiv ?_
    ext; simp
  have hg' : HasFDerivAt (fun θ => fderiv ℝ f θ v) ((fderiv ℝ (fderiv ℝ f) θ₀).flip v) (θ₀ + (0 : ℝ) • v) := by
    rw [zero_smul, add_zero]; exact hg
  have := hg'.comp_hasDerivAt (0 : ℝ) h1
  exact this.congr_deriv (by rw [one_smul, ContinuousLinearMap.flip_apply])

/-- Second-order expansion at a stationary point. -/
theorem taylor_two (hf : ContDiffAt ℝ 2 f θ₀) (h0 : fderiv ℝ f θ₀ = 0) (v : Fin n → ℝ) :
    (fun t : ℝ => f (θ₀ + t • v) - (f θ₀ + t ^ 2 * (1 / 2 * (v ⬝ᵥ hessianVectorProduct f θ₀ v)))) =o[𝓝 0]
      fun t => t ^ 2 := by
  set b := v ⬝ᵥ hessianVectorProduct f θ₀ v with hb
  have hb' : fderiv ℝ (fderiv ℝ f) θ₀ v v = b := by rw [hb, dotProduct_comm, hvp_dot hf]
  have hline : Tendsto (fun t : ℝ => θ₀ + t • v) (𝓝 0) (𝓝 θ₀) := by
    have : Continuous fun t : ℝ => θ₀ + t • v := by fun_prop
    simpa using this.tendsto 0
  have hdiff : ∀ᶠ θ in 𝓝 θ₀, DifferentiableAt ℝ f θ := by
    have := hf.eventually (by simp)
    exact this.mono fun θ h => h.differentiableAt (by norm_num)
  obtain ⟨ε, hε, hball⟩ := Metric.eventually_nhds_iff_ball.1 (hline.eventually hdiff)
  have hder : ∀ t ∈ Metric.ball (0 : ℝ) ε, HasDerivAt
      (fun t => f (θ₀ + t • v) - (f θ₀ + t ^ 2 * (1 / 2 * b))) (fderiv ℝ f (θ₀ + t • v) v - t * b) t := by
    intro t ht
    have h1 := hasDerivAt_line (hball t ht)
    have h2 : HasDerivAt (fun t : ℝ => f θ₀ + t ^ 2 * (1 / 2 * b)) (t * b) t := by
      have := ((hasDerivAt_pow 2 t).mul_const (1 / 2 * b)).const_add (f θ₀)
      refine this.congr_deriv ?_
      push_cast; ring
    exact h1.sub h2
  have hlit : (fun t : ℝ => fderiv ℝ f (θ₀ + t • v) v - t * b) =o[𝓝[Metric.ball 0 ε] 0] fun t => (t - 0) ^ 1 := by
    have hd := hasDerivAt_line_fderiv hf v
    rw [hb'] at hd
    have := hd.isLittleO
    refine (this.congr (fun t => ?_) (fun t => ?_)).mono nhdsWithin_le_nhds
    · simp [h0]
    · simp
  have := Convex.isLittleO_pow_succ_real (s := Metric.ball (0 : ℝ) ε) (convex_ball 0 ε) (Metric.mem_ball_self hε)
    (fun t ht => (hder t ht).hasDerivWithinAt) hlit
  rw [nhdsWithin_eq_nhds.2 (Metric.ball_mem_nhds 0 hε)] at this
  refine this.congr (fun t => ?_) (fun t => ?_)
  · simp
  · simp

/-- At a local minimum the product with the Hessian is positive semidefinite. -/
theorem hvp_psd (hf : ContDiffAt ℝ 2 f θ₀) (hmin : IsLocalMin f θ₀) : PSD (hessianVectorProduct f θ₀) where
  add u v := by
    funext i; simp [hvp_apply hf]
  smul c u := by
    funext i; simp [hvp_apply hf]
  symm u v := by
    rw [hvp_dot hf, dotProduct_comm, hvp_dot hf]
    exact ((hf.isSymmSndFDerivAt (by simp)).eq u v).symm
  nonneg v := by
    by_contra hneg
    have hneg := not_le.1 hneg
    set b := v ⬝ᵥ hessianVectorProduct f θ₀ v with hb
    have ht := taylor_two hf hmin.fderiv_eq_zero v
    rw [← hb] at ht
    have h1 := ht.def (c := -b / 4) (by linarith)
    have hline : Tendsto (fun t : ℝ => θ₀ + t • v) (𝓝 0) (𝓝 θ₀) := by
      have : Continuous fun t : ℝ => θ₀ + t • v := by fun_prop
      simpa using this.tendsto 0
    have h2 := hline.eventually hmin
    obtain ⟨ε, hε, h⟩ := Metric.eventually_nhds_iff_ball.1 (h1.and h2)
    obtain ⟨h3, h4⟩ := h (ε / 2) (by simp [abs_of_pos hε, hε])
    rw [Real.norm_eq_abs, Real.norm_of_nonneg (by positivity)] at h3
    have h5 := (abs_le.1 h3).2
    have : 0 < (ε / 2) ^ 2 := by positivity
    nlinarith

end Verif.TRPO
