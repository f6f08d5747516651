import Mathlib.Probability.Distributions.Gaussian.Real
import Mathlib.MeasureTheory.Function.Jacobian
import Mathlib.Analysis.SpecialFunctions.Trigonometric.DerivHyp
import Verif.Props.Distrib
set_option autoImplicit false

/-! # C75, C77: Gaussian and squashed Gaussian policies are what they say

The specification is Mathlib's normal distribution (`gaussianReal`, `gaussianPDFReal`). -/

namespace Verif.Distrib

open Real MeasureTheory ProbabilityTheory
open scoped NNReal ENNReal

variable {n : Nat}

/-- The density of component `i`. -/
noncomputable def density (d : Gaussian n) (i : Fin n) : ℝ → ℝ := gaussianPDFReal (d.mean i) (d.var i).toNNReal

/-- The law of component `i`. -/
noncomputable def law (d : Gaussian n) (i : Fin n) : Measure ℝ := gaussianReal (d.mean i) (d.var i).toNNReal

theorem toNN_ne {v : ℝ} (hv : 0 < v) : v.toNNReal ≠ 0 := by
  rw [Ne, Real.toNNReal_eq_zero, not_le]; exact hv

/-- The elementwise log likelihood is the logarithm of the normal density. -/
theorem loglik_eq (x m v : ℝ) (hv : 0 < v) :
    gaussianLogLikelihood x m v (log v) = log (gaussianPDFReal m v.toNNReal x) := by
  have hs : 0 < √(2 * π * v) := by positivity
  rw [gaussianPDFReal, Real.coe_toNNReal _ hv.le, log_mul (inv_ne_zero hs.ne') (exp_pos _).ne', log_inv, log_exp,
    log_sqrt (by positivity), log_mul (by positivity) hv.ne', gaussianLogLikelihood]
  ring

theorem density_pos (d : Gaussian n) (hv : ∀ i, 0 < d.var i) (i : Fin n) (x : ℝ) : 0 < density d i x :=
  gaussianPDFReal_pos _ _ _ (toNN_ne (hv i))

/-- **C75**: `prob` is the product of the normal densities of the components and `log_prob`
its logarithm, for every mean and positive variance. -/
theorem C75_log_prob (d : Gaussian n) (hv : ∀ i, 0 < d.var i) (x : Fin n → ℝ) :
    d.prob x = ∏ i, density d i (x i) ∧ d.logProb x = log (∏ i, density d i (x i)) := by
  have h : d.logProb x = ∑ i, log (density d i (x i)) := by
    unfold Gaussian.logProb
    exact Finset.sum_congr rfl fun i _ => loglik_eq _ _ _ (hv i)
  have h2 : d.logProb x = log (∏ i, density d i (x i)) := by
    rw [h, log_prod fun i _ => (density_pos d hv i (x i)).ne']
  refine ⟨?_, h2⟩
  rw [Gaussian.prob, h2, exp_log (Finset.prod_pos fun i _ => density_pos d hv i (x i))]

theorem integrable_sq (m : ℝ) (v : ℝ≥0) (c : ℝ) : Integrable (fun x => (x - c) ^ 2) (gaussianReal m v) := by
  have h : MemLp (fun x : ℝ => x - c) 2 (gaussianReal m v) :=
    (memLp_id_gaussianReal (μ := m) (v := v) 2).sub (memLp_const c)
  exact h.integrable_sq

theorem integral_sq (m : ℝ) (v : ℝ≥0) (c : ℝ) : ∫ x, (x - c) ^ 2 ∂gaussianReal m v = v + (m - c) ^ 2 := by
  have hid : Integrable (fun x : ℝ => x) (gaussianReal m v) :=
    (memLp_id_gaussianReal (μ := m) (v := v) 1).integrable (by norm_num)
  have hvar : ∫ x, (x - m) ^ 2 ∂gaussianReal m v = v := by
    have := variance_fun_id_gaussianReal (μ := m) (v := v)
    rw [variance_eq_integral measurable_id'.aemeasurable] at this
    simpa using this
  have e : (fun x : ℝ => (x - c) ^ 2) = fun x => (x - m) ^ 2 + (2 * (m - c) * x + ((m - c) ^ 2 - 2 * (m - c) * m)) := by
    funext x; ring
  have hlin : Integrable (fun x : ℝ => 2 * (m - c) * x + ((m - c) ^ 2 - 2 * (m - c) * m)) (gaussianReal m v) :=
    (hid.const_mul _).add (integrable_const _)
  rw [e, integral_add (integrable_sq m v m) hlin,
    integral_add (hid.const_mul _) (integrable_const _),
    integral_const_mul, integral_id_gaussianReal, integral_const, hvar]
  simp

theorem integral_loglik (m v m' v' : ℝ) (hv : 0 < v) (hv' : 0 < v') :
    ∫ x, log (gaussianPDFReal m' v'.toNNReal x) ∂gaussianReal m v.toNNReal =
      -0.5 * log (2 * π) - 0.5 * log v' - (v + (m - m') ^ 2) / (2 * v') := by
  have e : (fun x => log (gaussianPDFReal m' v'.toNNReal x)) =
      fun x => (-0.5 * log (2 * π) - 0.5 * log v') - (x - m') ^ 2 / (2 * v') := by
    funext x; rw [← loglik_eq x m' v' hv', gaussianLogLikelihood]
  rw [e, integral_sub (integrable_const _) ((integrable_sq m _ m').div_const _), integral_const,
    integral_div, integral_sq, Real.coe_toNNReal _ hv.le]
  simp

theorem integrable_loglik (m v m' v' : ℝ) (hv' : 0 < v') :
    Integrable (fun x => log (gaussianPDFReal m' v'.toNNReal x)) (gaussianReal m v.toNNReal) := by
  have e : (fun x => log (gaussianPDFReal m' v'.toNNReal x)) =
      fun x => (-0.5 * log (2 * π) - 0.5 * log v') - (x - m') ^ 2 / (2 * v') := by
    funext x; rw [← loglik_eq x m' v' hv', gaussianLogLikelihood]
  rw [e]
  exact (integrable_const _).sub ((integrable_sq m _ m').div_const _)

/-- **C75**: `entropy` is the differential entropy, the sum over the components of
`-E[log density]`. -/
theorem C75_entropy (d : Gaussian n) (hv : ∀ i, 0 < d.var i) :
    d.entropy = ∑ i, -∫ x, log (density d i x) ∂law d i := by
  have h : ∀ i, -∫ x, log (density d i x) ∂law d i = 0.5 * (log (2 * π) + 1) + 0.5 * log (d.var i) := by
    intro i
    rw [density, law, integral_loglik _ _ _ _ (hv i) (hv i)]
    have := (hv i).ne'
    rw [sub_self]
    field_simp
    ring
  rw [Finset.sum_congr rfl fun i _ => h i, Finset.sum_add_distrib, Finset.sum_const, Finset.card_univ,
    Fintype.card_fin, nsmul_eq_mul, ← Finset.mul_sum, Gaussian.entropy]
  simp only [Gaussian.lnVar]
  ring

/-- **C75**: `kl` is the Kullback-Leibler divergence, the sum over the components of
`E_p[log p - log q]`. -/
theorem C75_kl (p q : Gaussian n) (hp : ∀ i, 0 < p.var i) (hq : ∀ i, 0 < q.var i) :
    p.kl q = ∑ i, ∫ x, (log (density p i x) - log (density q i x)) ∂law p i := by
  have h : ∀ i, ∫ x, (log (density p i x) - log (density q i x)) ∂law p i =
      0.5 * (q.lnVar i - p.lnVar i + (p.var i + (p.mean i - q.mean i) ^ 2) / q.var i - 1) := by
    intro i
    unfold density law
    rw [integral_sub (integrable_loglik _ _ _ _ (hp i)) (integrable_loglik _ _ _ _ (hq i)),
      integral_loglik _ _ _ _ (hp i) (hp i), integral_loglik _ _ _ _ (hp i) (hq i)]
    have h1 := (hp i).ne'
    have h2 := (hq i).ne'
    simp only [Gaussian.lnVar]
    field_simp
    ring
  rw [Finset.sum_congr rfl fun i _ => h i, ← Finset.mul_sum, Gaussian.kl]

example : ∀ i, 0 < (⟨![0, 1], ![1, 2]⟩ : Gaussian 2).var i := by
  intro i; fin_cases i <;> simp

/-! ### C77 -/

theorem one_sub_tanh_sq (x : ℝ) : 1 - tanh x ^ 2 = 1 / cosh x ^ 2 := by
  have h := (cosh_pos x).ne'
  rw [tanh_eq_sinh_div_cosh, div_pow, eq_div_iff (pow_ne_zero 2 h), sub_mul, div_mul_cancel₀ _ (pow_ne_zero 2 h)]
  have := cosh_sq x
  linarith

theorem tanh_deriv (x : ℝ) : HasDerivAt tanh (1 - tanh x ^ 2) x := by
  have h := (cosh_pos x).ne'
  have e : tanh = fun y => sinh y / cosh y := funext tanh_eq_sinh_div_cosh
  have hd : HasDerivAt (fun y => sinh y / cosh y) ((cosh x * cosh x - sinh x * sinh x) / cosh x ^ 2) x :=
    (hasDerivAt_sinh x).div (hasDerivAt_cosh x) h
  rw [one_sub_tanh_sq, e]
  convert hd using 1
  congr 1
  have := cosh_sq x
  nlinarith

/-- The log determinant is the logarithm of the derivative of `tanh`. -/
theorem tanhLogDet_eq (x : ℝ) : tanhLogDet x = log (1 - tanh x ^ 2) := by
  have hc := cosh_pos x
  rw [one_sub_tanh_sq, log_div one_ne_zero (pow_ne_zero 2 hc.ne'), log_one, log_pow, tanhLogDet, softplus]
  have e : 1 + exp (-2 * x) = cosh x * 2 * exp (-x) := by
    rw [cosh_eq, show -2 * x = -x + -x by ring, exp_add]
    have : exp x * exp (-x) = 1 := by rw [← exp_add]; simp
    linear_combination -this
  rw [e, log_mul (mul_pos hc two_pos).ne' (exp_pos _).ne', log_mul hc.ne' two_ne_zero, log_exp]
  push_cast
  ring

/-- **C77**: the log determinant is the logarithm of the derivative of `tanh`, everywhere. -/
theorem C77_log_det (x : ℝ) : ∃ t, HasDerivAt tanh t x ∧ 0 < t ∧ tanhLogDet x = log t := by
  refine ⟨_, tanh_deriv x, ?_, tanhLogDet_eq x⟩
  rw [one_sub_tanh_sq]
  have := cosh_pos x
  positivity

/-- **C77**: a sample lies strictly inside `(-1, 1)` in every component, and the log
probability returned with it is what `log_prob` computes for it. -/
theorem C77_sample (d : Gaussian n) (x : Fin n → ℝ) :
    (∀ i, -1 < (squashedSample d x).1 i ∧ (squashedSample d x).1 i < 1) ∧
    squashedLogProb d (squashedSample d x).1 = (squashedSample d x).2 := by
  refine ⟨fun i => ⟨neg_one_lt_tanh _, tanh_lt_one _⟩, ?_⟩
  simp only [squashedLogProb, squashedSample, artanh_tanh]

/-- The density of component `i` according to `log_prob`. -/
noncomputable def squashedDensity (d : Gaussian n) (i : Fin n) (y : ℝ) : ℝ :=
  exp (gaussianLogLikelihood (artanh y) (d.mean i) (d.var i) (d.lnVar i) - tanhLogDet (artanh y))

/-- **C77**: `log_prob` is the density of the squashed sample: `exp (log_prob y)` is the
product over the components of functions, each of which integrates, over every measurable
part of `(-1, 1)`, to the probability that `tanh` of a normal draw falls there. -/
theorem C77_density (d : Gaussian n) (hv : ∀ i, 0 < d.var i) :
    (∀ y, exp (squashedLogProb d y) = ∏ i, squashedDensity d i (y i)) ∧
    ∀ i s, MeasurableSet s → s ⊆ Set.Ioo (-1) 1 →
      ((law d i).map tanh) s = ∫⁻ y in s, ENNReal.ofReal (squashedDensity d i y) := by
  constructor
  · intro y
    rw [squashedLogProb, exp_sum]
    rfl
  · intro i s hs hsub
    have hmeas : Measurable tanh := (continuous_iff_continuousAt.2 fun x => (tanh_deriv x).continuousAt).measurable
    have himage : tanh '' (tanh ⁻¹' s) = s := by
      rw [Set.image_preimage_eq_inter_range, Set.inter_eq_left]
      intro y hy
      exact ⟨artanh y, tanh_artanh (hsub hy)⟩
    have hcv := lintegral_image_eq_lintegral_abs_deriv_mul (hmeas hs) (fun x _ => (tanh_deriv x).hasDerivWithinAt)
      (tanh_injective.injOn) (fun y => ENNReal.ofReal (squashedDensity d i y))
    rw [himage] at hcv
    rw [hcv, Measure.map_apply hmeas hs, law, gaussianReal_apply _ (toNN_ne (hv i))]
    refine setLIntegral_congr_fun (hmeas hs) fun x _ => ?_
    have hpos : 0 < 1 - tanh x ^ 2 := by
      rw [one_sub_tanh_sq]; have := cosh_pos x; positivity
    rw [abs_of_pos hpos, ← ENNReal.ofReal_mul hpos.le]
    simp only [gaussianPDF]
    congr 1
    rw [squashedDensity, artanh_tanh, Gaussian.lnVar, loglik_eq _ _ _ (hv i), exp_sub,
      exp_log (gaussianPDFReal_pos _ _ _ (toNN_ne (hv i))), tanhLogDet_eq, exp_log hpos]
    field_simp

/-- **C77**: `bound_by_tanh` maps every real vector strictly inside the bounds, increasing
in every component, and reaches every point inside. -/
theorem C77_bound (low high : Fin n → ℝ) (i : Fin n) (h : low i < high i) :
    (∀ x, low i < boundByTanh x low high i ∧ boundByTanh x low high i < high i) ∧
    (∀ x y : Fin n → ℝ, x i < y i → boundByTanh x low high i < boundByTanh y low high i) ∧
    (∀ b, low i < b → b < high i → ∃ x, boundByTanh x low high i = b) := by
  have hw : 0 < (high i - low i) / 2 := by linarith
  refine ⟨fun x => ?_, fun x y hxy => ?_, fun b h1 h2 => ?_⟩
  · have a := neg_one_lt_tanh (x i)
    have b := tanh_lt_one (x i)
    simp only [boundByTanh]
    constructor <;> nlinarith
  · have hm : tanh (x i) < tanh (y i) := by
      rw [← artanh_lt_artanh_iff ⟨neg_one_lt_tanh _, tanh_lt_one _⟩ ⟨neg_one_lt_tanh _, tanh_lt_one _⟩,
        artanh_tanh, artanh_tanh]
      exact hxy
    simp only [boundByTanh]
    nlinarith
  · refine ⟨fun _ => artanh ((b - (high i + low i) / 2) / ((high i - low i) / 2)), ?_⟩
    simp only [boundByTanh]
    rw [tanh_artanh]
    · rw [div_mul_cancel₀ _ hw.ne']; ring
    · constructor
      · rw [lt_div_iff₀ hw]; linarith
      · rw [div_lt_iff₀ hw]; linarith

example : (![-1, 0] : Fin 2 → ℝ) 0 < ![2, 1] 0 := by norm_num

end Verif.Distrib
