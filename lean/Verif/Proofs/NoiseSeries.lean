import Mathlib.Probability.Martingale.Convergence
import Mathlib.MeasureTheory.Function.ConditionalExpectation.PullOut
import Mathlib.Tactic.Linarith
import Mathlib.Tactic.Ring

/-! # Sums of noise with summable squares converge -/

set_option autoImplicit false
set_option linter.unusedSectionVars false

open Filter Topology MeasureTheory

namespace Verif.StochasticApproximation

variable {Ω : Type} {mΩ : MeasurableSpace Ω}

/-- Terms whose conditional means vanish and whose squares have bounded sums: the sums converge almost surely. -/
theorem noise_series (μ : Measure Ω) [IsProbabilityMeasure μ] (ℱ : Filtration ℕ mΩ) (D : ℕ → Ω → ℝ) (hD : ∀ k, StronglyMeasurable[ℱ (k + 1)] (D k)) (C : ℝ)
    (hC : ∀ m ω, ∑ k ∈ Finset.range m, D k ω ^ 2 ≤ C) (h0 : ∀ k, μ[D k | ℱ k] =ᵐ[μ] 0) :
    ∀ᵐ ω ∂μ, ∃ L, Tendsto (fun m => ∑ k ∈ Finset.range m, D k ω) atTop (𝓝 L) := by
  have hb : ∀ k ω, |D k ω| ≤ 1 + C := fun k ω => by
    have h1 := Finset.single_le_sum (f := fun k => D k ω ^ 2) (fun i _ => sq_nonneg _) (Finset.mem_range.2 (Nat.lt_succ_self k))
    have h2 := hC (k + 1) ω
    rw [abs_le]
    constructor <;> nlinarith
  let M : ℕ → Ω → ℝ := fun m ω => ∑ k ∈ Finset.range m, D k ω
  have hM : ∀ m, StronglyMeasurable[ℱ m] (M m) := fun m =>
    Finset.stronglyMeasurable_fun_sum _ fun k hk => (hD k).mono (ℱ.mono (Finset.mem_range.1 hk))
  have hMb : ∀ m ω, |M m ω| ≤ m * (1 + C) := fun m ω => by
    refine (Finset.abs_sum_le_sum_abs _ _).trans ((Finset.sum_le_sum fun k _ => hb k ω).trans ?_)
    rw [Finset.sum_const, Finset.card_range, nsmul_eq_mul]
  have hMm : ∀ m, StronglyMeasurable (M m) := fun m => (hM m).mono (ℱ.le m)
  have hDm : ∀ m, StronglyMeasurable (D m) := fun m => (hD m).mono (ℱ.le _)
  have hMi : ∀ m, Integrable (M m) μ := fun m => Integrable.of_bound (hMm m).aestronglyMeasurable _ (Eventually.of_forall fun ω => hMb m ω)
  have hDi : ∀ m, Integrable (D m) μ := fun m => Integrable.of_bound (hDm m).aestronglyMeasurable _ (Eventually.of_forall fun ω => hb m ω)
  have hcross : ∀ m, ∫ ω, M m ω * D m ω ∂μ = 0 := fun m => by
    have h1 : μ[M m * D m | ℱ m] =ᵐ[μ] M m * μ[D m | ℱ m] := condExp_stronglyMeasurable_mul_of_bound (ℱ.le m) (hM m) (hDi m) _ (Eventually.of_forall fun ω => hMb m ω)
    have h2 : ∫ ω, (M m * D m) ω ∂μ = ∫ ω, (μ[M m * D m | ℱ m]) ω ∂μ := (integral_condExp (ℱ.le m)).symm
    have h3 : μ[M m * D m | ℱ m] =ᵐ[μ] 0 := by
      filter_upwards [h1, h0 m] with ω e1 e2
      rw [e1, Pi.mul_apply, e2]; simp
    have h4 : ∫ ω, (M m * D m) ω ∂μ = 0 := by rw [h2, integral_congr_ae h3]; simp
    exact h4
  have hsq : ∀ m, Integrable (fun ω => M m ω ^ 2) μ := fun m =>
    Integrable.of_bound ((hMm m).pow 2).aestronglyMeasurable ((m * (1 + C)) ^ 2) (Eventually.of_forall fun ω => by
      rw [Real.norm_eq_abs, abs_pow]; exact pow_le_pow_left₀ (abs_nonneg _) (hMb m ω) 2)
  have hDsq : ∀ m, Integrable (fun ω => D m ω ^ 2) μ := fun m =>
    Integrable.of_bound ((hDm m).pow 2).aestronglyMeasurable ((1 + C) ^ 2) (Eventually.of_forall fun ω => by
      rw [Real.norm_eq_abs, abs_pow]; exact pow_le_pow_left₀ (abs_nonneg _) (hb m ω) 2)
  have hMD : ∀ m, Integrable (fun ω => M m ω * D m ω) μ := fun m =>
    Integrable.of_bound ((hMm m).mul (hDm m)).aestronglyMeasurable (m * (1 + C) * (1 + C)) (Eventually.of_forall fun ω => by
      rw [Real.norm_eq_abs, abs_mul]
      exact mul_le_mul (hMb m ω) (hb m ω) (abs_nonneg _) ((abs_nonneg _).trans (hMb m ω)))
  have hsum : ∀ m, ∫ ω, M m ω ^ 2 ∂μ = ∫ ω, ∑ k ∈ Finset.range m, D k ω ^ 2 ∂μ := by
    intro m
    induction m with
    | zero => simp [M]
    | succ m ih =>
      have e : ∀ ω, M (m + 1) ω ^ 2 = M m ω ^ 2 + 2 * (M m ω * D m ω) + D m ω ^ 2 := fun ω => by
        simp only [M, Finset.sum_range_succ]; ring
      simp only [e, Finset.sum_range_succ]
      have ha : Integrable (fun ω => M m ω ^ 2 + 2 * (M m ω * D m ω)) μ := (hsq m).add ((hMD m).const_mul 2)
      rw [integral_add ha (hDsq m), integral_add (hsq m) ((hMD m).const_mul 2), integral_const_mul, hcross, ih,
        integral_add (integrable_finset_sum _ fun k _ => hDsq k) (hDsq m)]
      ring
  have hle : ∀ m, ∫ ω, M m ω ^ 2 ∂μ ≤ C := fun m => by
    rw [hsum]
    calc ∫ ω, ∑ k ∈ Finset.range m, D k ω ^ 2 ∂μ ≤ ∫ _ω, C ∂μ := integral_mono (integrable_finset_sum _ fun k _ => hDsq k) (integrable_const C) fun ω => hC m ω
      _ = C := by simp
  have hmart : Martingale M ℱ μ := by
    refine martingale_of_condExp_sub_eq_zero_nat hM hMi fun m => ?_
    have e : M (m + 1) - M m = D m := by
      funext ω; simp [M, Finset.sum_range_succ]
    rw [e]; exact h0 m
  refine hmart.submartingale.exists_ae_tendsto_of_bdd (R := (1 + C).toNNReal) fun m => ?_
  rw [eLpNorm_one_eq_lintegral_enorm, ← ofReal_integral_norm_eq_lintegral_enorm (hMi m)]
  refine ENNReal.ofReal_le_ofReal ?_
  calc ∫ ω, ‖M m ω‖ ∂μ ≤ ∫ ω, (1 + M m ω ^ 2) ∂μ := integral_mono (hMi m).norm ((integrable_const 1).add (hsq m)) fun ω => by
        rw [Real.norm_eq_abs, ← sq_abs]; nlinarith [sq_nonneg (|M m ω| - 1)]
    _ = 1 + ∫ ω, M m ω ^ 2 ∂μ := by rw [integral_add (integrable_const 1) (hsq m)]; simp
    _ ≤ 1 + C := by linarith [hle m]

end Verif.StochasticApproximation
