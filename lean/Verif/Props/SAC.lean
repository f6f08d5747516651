import Mathlib.MeasureTheory.Integral.Pi
import Mathlib.InformationTheory.KullbackLeibler.KLFun
import Mathlib.Analysis.SpecialFunctions.ExpDeriv
import Mathlib.MeasureTheory.Integral.Bochner.ContinuousLinearMap
import Mathlib.Tactic.Ring
import Mathlib.Tactic.FieldSimp
import Mathlib.Tactic.Positivity
import Mathlib.Tactic.NormNum
import Mathlib.Tactic.Linarith
import Mathlib.Analysis.Calculus.Deriv.Pow
import Verif.Model.SAC
set_option autoImplicit false
set_option linter.unusedSectionVars false

/-! # C104: the losses of SoftActorCritic and TD3 -/

namespace Verif.SAC
open MeasureTheory
open scoped NNReal ENNReal

/-! ### Temperature -/

/-- **C104**: a learned temperature is always positive and starts with the value asked for; without
an entropy target the temperature is that value. -/
theorem C104_temperature (init : ℝ) (h : 0 < init) (target logT : ℝ) :
    temperature none init logT = init ∧ 0 < temperature (some target) init logT ∧
    temperature (some target) init (initialLogTemperature init) = init :=
  ⟨rfl, Real.exp_pos _, Real.exp_log h⟩

theorem mul_neg_right {a b : ℝ} (hb : 0 < b) : a * b < 0 ↔ a < 0 := by
  rw [mul_neg_iff]
  exact ⟨fun h => h.elim (fun h => absurd h.2 (not_lt.2 hb.le)) (fun h => h.1), fun h => Or.inr ⟨h, hb⟩⟩

theorem temperatureLoss_eq (lps : List ℝ) (hne : lps ≠ []) (target logT : ℝ) :
    temperatureLoss lps target logT = (mean (lps.map fun lp => -lp) - target) * Real.exp logT := by
  have hl : (lps.length : ℝ) ≠ 0 := by
    have := List.length_pos_iff.2 hne
    positivity
  have h1 : ∀ l : List ℝ, (l.map fun lp => Real.exp logT * (lp + target)).sum =
      Real.exp logT * (l.sum + l.length * target) := by
    intro l
    induction l with
    | nil => simp
    | cons a l ih => simp only [List.map_cons, List.sum_cons, ih, List.length_cons, Nat.cast_succ]; ring
  have h2 : ∀ l : List ℝ, (l.map fun lp => -lp).sum = -l.sum := by
    intro l
    induction l with
    | nil => simp
    | cons a l ih => simp only [List.map_cons, List.sum_cons, ih]; ring
  simp only [temperatureLoss, mean, holderCall, h1, h2, List.length_map]
  field_simp
  ring

/-- **C104**: the gradient of the temperature loss is negative, so that a gradient step raises the
temperature, exactly if the entropy estimated from the sampled actions is below the target,
and positive exactly if it is above. -/
theorem C104_temperature_gradient (lps : List ℝ) (hne : lps ≠ []) (target logT : ℝ) :
    ∃ g, HasDerivAt (temperatureLoss lps target) g logT ∧
      (g < 0 ↔ mean (lps.map fun lp => -lp) < target) ∧ (0 < g ↔ target < mean (lps.map fun lp => -lp)) := by
  refine ⟨(mean (lps.map fun lp => -lp) - target) * Real.exp logT, ?_, ?_, ?_⟩
  · rw [funext (temperatureLoss_eq lps hne target)]
    exact (Real.hasDerivAt_exp logT).const_mul _
  · rw [mul_neg_right (Real.exp_pos _), sub_neg]
  · rw [mul_pos_iff_of_pos_right (Real.exp_pos _), sub_pos]

/-- **C104**: not only locally: of two temperatures the higher has the smaller loss exactly if
the estimated entropy is below the target. -/
theorem C104_temperature_direction (lps : List ℝ) (hne : lps ≠ []) (target l₁ l₂ : ℝ) (h : l₁ < l₂) :
    temperatureLoss lps target l₂ < temperatureLoss lps target l₁ ↔ mean (lps.map fun lp => -lp) < target := by
  have he := Real.exp_lt_exp.2 h
  rw [temperatureLoss_eq lps hne, temperatureLoss_eq lps hne, ← sub_neg, ← mul_sub,
    mul_neg_right (sub_pos.2 he), sub_neg]

/-! ### Policy -/

section
variable {U : Type} [MeasurableSpace U] (μ : Measure U)

/-- A policy in a state: the density of its actions with respect to `μ`, and the Q-functions in
that state; integrable as far as the losses need it. -/
structure PolicyAt (temp : ℝ) (p : U → ℝ≥0) (q1 q2 : U → ℝ) : Prop where
  meas : Measurable p
  total : ∫⁻ a, (p a : ℝ≥0∞) ∂μ = 1
  entropy : Integrable (fun a => (p a : ℝ) * Real.log (p a)) μ
  value : Integrable (fun a => (p a : ℝ) * min (q1 a) (q2 a)) μ
  measQ : Measurable fun a => min (q1 a) (q2 a)
  boltzmann : Integrable (fun a => Real.exp (min (q1 a) (q2 a) / temp)) μ

/-- The normalising constant of the Boltzmann distribution of the smaller Q-value. -/
noncomputable def partition (temp : ℝ) (q1 q2 : U → ℝ) : ℝ := ∫ a, Real.exp (min (q1 a) (q2 a) / temp) ∂μ

/-- The density of the Boltzmann distribution of the smaller Q-value. -/
noncomputable def boltzmann (temp : ℝ) (q1 q2 : U → ℝ) (a : U) : ℝ :=
  Real.exp (min (q1 a) (q2 a) / temp) / partition μ temp q1 q2

variable {μ}

theorem PolicyAt.integrable {temp : ℝ} {p : U → ℝ≥0} {q1 q2 : U → ℝ} (h : PolicyAt μ temp p q1 q2) :
    Integrable (fun a => (p a : ℝ)) μ := by
  refine ⟨h.meas.coe_nnreal_real.aestronglyMeasurable, ?_⟩
  rw [hasFiniteIntegral_iff_enorm]
  have : ∀ a, ‖(p a : ℝ)‖ₑ = p a := fun a => by simp
  simp only [this, h.total]
  exact ENNReal.one_lt_top

theorem PolicyAt.integral {temp : ℝ} {p : U → ℝ≥0} {q1 q2 : U → ℝ} (h : PolicyAt μ temp p q1 q2) :
    ∫ a, (p a : ℝ) ∂μ = 1 := by
  have e := integral_eq_lintegral_of_nonneg_ae (μ := μ) (f := fun a => (p a : ℝ))
    (Filter.Eventually.of_forall fun a => (p a).coe_nonneg) h.meas.coe_nnreal_real.aestronglyMeasurable
  rw [e]
  simp [h.total]

theorem PolicyAt.partition_pos {temp : ℝ} {p : U → ℝ≥0} {q1 q2 : U → ℝ} (h : PolicyAt μ temp p q1 q2) :
    0 < partition μ temp q1 q2 := by
  have hμ : μ ≠ 0 := by
    rintro rfl
    simpa using h.total
  have : NeZero μ := ⟨hμ⟩
  exact integral_exp_pos h.boltzmann

/-- The loss in one state: `-temp * log Z` plus `temp` times a divergence. -/
theorem state_loss {temp : ℝ} (ht : 0 < temp) {p : U → ℝ≥0} {q1 q2 : U → ℝ} (h : PolicyAt μ temp p q1 q2) :
    ∫ a, (p a : ℝ) * (temp * Real.log (p a) - min (q1 a) (q2 a)) ∂μ =
      -temp * Real.log (partition μ temp q1 q2) +
        temp * ∫ a, boltzmann μ temp q1 q2 a * InformationTheory.klFun (p a / boltzmann μ temp q1 q2 a) ∂μ ∧
    Integrable (fun a => boltzmann μ temp q1 q2 a * InformationTheory.klFun (p a / boltzmann μ temp q1 q2 a)) μ := by
  have hZ := h.partition_pos
  set Z := partition μ temp q1 q2 with hZd
  have hb : ∀ a, 0 < boltzmann μ temp q1 q2 a := fun a => div_pos (Real.exp_pos _) hZ
  have hkl : ∀ a, boltzmann μ temp q1 q2 a * InformationTheory.klFun (p a / boltzmann μ temp q1 q2 a) =
      (p a : ℝ) * Real.log (p a) - temp⁻¹ * ((p a : ℝ) * min (q1 a) (q2 a)) + Real.log Z * p a +
        (boltzmann μ temp q1 q2 a - p a) := by
    intro a
    rw [InformationTheory.klFun_apply]
    have hb' := (hb a).ne'
    rcases eq_or_ne (p a : ℝ) 0 with hp | hp
    · simp [hp]
    · rw [Real.log_div hp hb']
      have : Real.log (boltzmann μ temp q1 q2 a) = min (q1 a) (q2 a) / temp - Real.log Z := by
        rw [boltzmann, Real.log_div (Real.exp_pos _).ne' hZ.ne', Real.log_exp]
      rw [this]
      field_simp
      ring
  have hib : Integrable (fun a => boltzmann μ temp q1 q2 a) μ := h.boltzmann.div_const Z
  have hintb : ∫ a, boltzmann μ temp q1 q2 a ∂μ = 1 := by
    have : ∫ a, boltzmann μ temp q1 q2 a ∂μ = Z / Z := integral_div Z _
    rw [this, div_self hZ.ne']
  have hp := h.integrable
  have i1 : Integrable (fun a => (p a : ℝ) * Real.log (p a) - temp⁻¹ * ((p a : ℝ) * min (q1 a) (q2 a))) μ :=
    h.entropy.sub (h.value.const_mul _)
  have i2 : Integrable (fun a => (p a : ℝ) * Real.log (p a) - temp⁻¹ * ((p a : ℝ) * min (q1 a) (q2 a)) +
      Real.log Z * p a) μ := i1.add (hp.const_mul _)
  have i3 : Integrable (fun a => boltzmann μ temp q1 q2 a - p a) μ := hib.sub hp
  refine ⟨?_, ?_⟩
  · simp only [hkl]
    rw [integral_add i2 i3, integral_add i1 (hp.const_mul _), integral_sub hib hp, hintb, h.integral,
      integral_const_mul, h.integral, integral_sub h.entropy (h.value.const_mul _), integral_const_mul]
    have e1 : ∀ a, (p a : ℝ) * (temp * Real.log (p a) - min (q1 a) (q2 a)) =
        temp * ((p a : ℝ) * Real.log (p a)) - (p a : ℝ) * min (q1 a) (q2 a) := fun a => by ring
    simp only [e1]
    rw [integral_sub (h.entropy.const_mul _) h.value, integral_const_mul]
    field_simp
    ring
  · simp only [hkl]
    exact i2.add i3

theorem divergence_nonneg {temp : ℝ} {p : U → ℝ≥0} {q1 q2 : U → ℝ} (h : PolicyAt μ temp p q1 q2) (a : U) :
    0 ≤ boltzmann μ temp q1 q2 a * InformationTheory.klFun (p a / boltzmann μ temp q1 q2 a) := by
  have hb : 0 < boltzmann μ temp q1 q2 a := div_pos (Real.exp_pos _) h.partition_pos
  exact mul_nonneg hb.le (InformationTheory.klFun_nonneg (div_nonneg (p a).2 hb.le))

theorem divergence_zero {temp : ℝ} {p : U → ℝ≥0} {q1 q2 : U → ℝ} (h : PolicyAt μ temp p q1 q2) (a : U) :
    boltzmann μ temp q1 q2 a * InformationTheory.klFun (p a / boltzmann μ temp q1 q2 a) = 0 ↔
      (p a : ℝ) = boltzmann μ temp q1 q2 a := by
  have hb : 0 < boltzmann μ temp q1 q2 a := div_pos (Real.exp_pos _) h.partition_pos
  rw [mul_eq_zero, or_iff_right hb.ne', InformationTheory.klFun_eq_zero_iff (div_nonneg (p a).coe_nonneg hb.le),
    div_eq_one_iff_eq hb.ne']

/-- The rows of a minibatch of states for the sampled actions. -/
noncomputable def rowsOf {n : Nat} (p : Fin n → U → ℝ≥0) (q1 q2 : Fin n → U → ℝ) (acts : Fin n → U) : List Row :=
  List.ofFn fun i => ⟨Real.log (p i (acts i)), q1 i (acts i), q2 i (acts i)⟩

/-- The law of independent actions in the states of a minibatch. -/
noncomputable def law (μ : Measure U) {n : Nat} (p : Fin n → U → ℝ≥0) : Measure (Fin n → U) :=
  Measure.pi fun i => μ.withDensity fun a => (p i a : ℝ≥0∞)

theorem expected_loss {temp : ℝ} {n : Nat} (p : Fin n → U → ℝ≥0) (q1 q2 : Fin n → U → ℝ)
    (h : ∀ i, PolicyAt μ temp (p i) (q1 i) (q2 i)) :
    ∫ acts, policyLoss temp (rowsOf p q1 q2 acts) ∂law μ p =
      (∑ i, ∫ a, (p i a : ℝ) * (temp * Real.log (p i a) - min (q1 i a) (q2 i a)) ∂μ) / n := by
  have : ∀ i, IsProbabilityMeasure (μ.withDensity fun a => (p i a : ℝ≥0∞)) := fun i =>
    ⟨by rw [withDensity_apply _ MeasurableSet.univ, Measure.restrict_univ, (h i).total]⟩
  let f : Fin n → U → ℝ := fun i a => temp * Real.log (p i a) - min (q1 i a) (q2 i a)
  have hrow : ∀ acts, policyLoss temp (rowsOf p q1 q2 acts) = (∑ i, f i (acts i)) / n := by
    intro acts
    simp only [policyLoss, mean, rowsOf, List.map_ofFn, List.sum_ofFn, List.length_ofFn, Function.comp_def]
    rfl
  have hf : ∀ i, Integrable (f i) (μ.withDensity fun a => (p i a : ℝ≥0∞)) := by
    intro i
    rw [integrable_withDensity_iff_integrable_coe_smul (h i).meas]
    have : (fun a => (p i a : ℝ) • f i a) = fun a => temp * ((p i a : ℝ) * Real.log (p i a)) -
        (p i a : ℝ) * min (q1 i a) (q2 i a) := by
      funext a
      simp only [f, smul_eq_mul]
      ring
    rw [this]
    exact ((h i).entropy.const_mul _).sub (h i).value
  simp only [hrow, law]
  rw [integral_div, integral_finsetSum _ fun i _ => integrable_comp_eval (hf i)]
  congr 1
  refine Finset.sum_congr rfl fun i _ => ?_
  rw [integral_comp_eval (hf i).aestronglyMeasurable, integral_withDensity_eq_integral_smul (h i).meas]
  rfl

/-- **C104**: the expected policy loss over the sampled actions is never below
`-temperature * mean (log Z)`, and it attains this bound exactly if in every state of the
minibatch the policy is the Boltzmann policy of the smaller of the two Q-values. -/
theorem C104_policy_optimum {temp : ℝ} (ht : 0 < temp) {n : Nat} (hn : 0 < n) (p : Fin n → U → ℝ≥0)
    (q1 q2 : Fin n → U → ℝ) (h : ∀ i, PolicyAt μ temp (p i) (q1 i) (q2 i)) :
    -temp * ((∑ i, Real.log (partition μ temp (q1 i) (q2 i))) / n) ≤
      ∫ acts, policyLoss temp (rowsOf p q1 q2 acts) ∂law μ p ∧
    (∫ acts, policyLoss temp (rowsOf p q1 q2 acts) ∂law μ p =
      -temp * ((∑ i, Real.log (partition μ temp (q1 i) (q2 i))) / n) ↔
      ∀ i, (fun a => (p i a : ℝ)) =ᵐ[μ] boltzmann μ temp (q1 i) (q2 i)) := by
  let D : Fin n → ℝ := fun i => ∫ a, boltzmann μ temp (q1 i) (q2 i) a *
    InformationTheory.klFun (p i a / boltzmann μ temp (q1 i) (q2 i) a) ∂μ
  have hD : ∀ i, 0 ≤ D i := fun i => integral_nonneg fun a => divergence_nonneg (h i) a
  have hn' : (0 : ℝ) < n := by exact_mod_cast hn
  have e : ∫ acts, policyLoss temp (rowsOf p q1 q2 acts) ∂law μ p =
      -temp * ((∑ i, Real.log (partition μ temp (q1 i) (q2 i))) / n) + temp * (∑ i, D i) / n := by
    rw [expected_loss p q1 q2 h, Finset.sum_congr rfl fun i _ => (state_loss ht (h i)).1,
      Finset.sum_add_distrib, ← Finset.mul_sum, ← Finset.mul_sum]
    ring
  have hsum : 0 ≤ ∑ i, D i := Finset.sum_nonneg fun i _ => hD i
  rw [e]
  constructor
  · have : 0 ≤ temp * (∑ i, D i) / n := by positivity
    linarith
  · rw [add_eq_left, div_eq_zero_iff, or_iff_left hn'.ne', mul_eq_zero, or_iff_right ht.ne',
      Finset.sum_eq_zero_iff_of_nonneg fun i _ => hD i]
    constructor
    · intro h0 i
      have h1 := (integral_eq_zero_iff_of_nonneg_ae (Filter.Eventually.of_forall fun a => divergence_nonneg (h i) a)
        (state_loss ht (h i)).2).1 (h0 i (Finset.mem_univ i))
      filter_upwards [h1] with a ha
      exact (divergence_zero (h i) a).1 ha
    · intro h0 i _
      refine (integral_eq_zero_iff_of_nonneg_ae (Filter.Eventually.of_forall fun a => divergence_nonneg (h i) a)
        (state_loss ht (h i)).2).2 ?_
      filter_upwards [h0 i] with a ha
      exact (divergence_zero (h i) a).2 ha

/-- Two actions with Q-values `0` and `2` (and a larger second Q-function), a uniform policy. -/
example : PolicyAt (Measure.count : Measure Bool) 1 (fun _ => 1 / 2) (fun a => if a then 2 else 0) (fun _ => 5) where
  meas := measurable_const
  total := by
    simp only [lintegral_count, tsum_fintype, Fintype.sum_bool]
    rw [← ENNReal.coe_add, add_halves]
    rfl
  entropy := .of_finite
  value := .of_finite
  measQ := measurable_of_finite _
  boltzmann := .of_finite

end

/-! ### Q-functions -/

theorem sum_update {n : Nat} (t p : Fin n → ℝ) (i : Fin n) (x : ℝ) :
    mse (List.ofFn t) (List.ofFn (Function.update p i x)) =
      ((t i - x) ^ 2 + ∑ j ∈ Finset.univ.erase i, (t j - p j) ^ 2) / n := by
  have hz : List.zipWith (fun x y => (x - y) ^ 2) (List.ofFn t) (List.ofFn (Function.update p i x)) =
      List.ofFn fun j => (t j - Function.update p i x j) ^ 2 := by
    apply List.ext_getElem
    · simp
    · intro j h1 h2
      simp
  rw [mse, mean, hz, List.sum_ofFn, List.length_ofFn, ← Finset.add_sum_erase _ _ (Finset.mem_univ i)]
  congr 2
  · simp
  · refine Finset.sum_congr rfl fun j hj => ?_
    rw [Function.update_of_ne (Finset.ne_of_mem_erase hj)]

/-- **C104**: the gradients of the Q-function losses with respect to a prediction: the prediction
minus its target, divided by the size of the minibatch (twice that in TD3); the targets are
constants. -/
theorem C104_q_gradient {n : Nat} (t p : Fin n → ℝ) (i : Fin n) :
    HasDerivAt (fun x => qLoss (List.ofFn t) (List.ofFn (Function.update p i x))) ((p i - t i) / n) (p i) ∧
    HasDerivAt (fun x => td3QLoss (List.ofFn t) (List.ofFn (Function.update p i x))) (2 * (p i - t i) / n) (p i) := by
  have h : HasDerivAt (fun x => mse (List.ofFn t) (List.ofFn (Function.update p i x))) (2 * (p i - t i) / n) (p i) := by
    simp only [sum_update]
    have h1 : HasDerivAt (fun x : ℝ => (t i - x) ^ 2) (2 * (t i - p i) ^ 1 * (-1)) (p i) := by
      exact_mod_cast ((hasDerivAt_id (p i)).const_sub (t i)).fun_pow 2
    refine ((h1.add_const _).div_const (n : ℝ)).congr_deriv ?_
    ring
  refine ⟨?_, h⟩
  refine (h.const_mul (0.5 : ℝ)).congr_deriv ?_
  ring

/-- **C104**: the gradient of TD3's policy loss with respect to the Q-value of the policy's action in any state of the minibatch is `-1/n`: a step against
the gradient raises every one of them equally. -/
theorem C104_td3_policy {n : Nat} (q : Fin n → ℝ) (i : Fin n) :
    HasDerivAt (fun x => td3PolicyLoss (List.ofFn (Function.update q i x))) (-1 / n) (q i) := by
  have h : ∀ x, td3PolicyLoss (List.ofFn (Function.update q i x)) = -((x + ∑ j ∈ Finset.univ.erase i, q j) / n) := by
    intro x
    rw [td3PolicyLoss, mean, List.sum_ofFn, List.length_ofFn, ← Finset.add_sum_erase _ _ (Finset.mem_univ i), Function.update_self]
    congr 3
    exact Finset.sum_congr rfl fun j hj => Function.update_of_ne (Finset.ne_of_mem_erase hj) _ _
  simp only [h]
  refine ((((hasDerivAt_id (q i)).add_const _).div_const (n : ℝ)).neg).congr_deriv ?_
  ring

/-! ### Target policy smoothing of TD3 -/

/-- **C104**: smoothed target actions are in `[-1, 1]`, and a target action in `[-1, 1]` is moved by
at most one half, whatever noise is drawn. -/
theorem C104_smoothing (a z : ℝ) : -1 ≤ smooth a z ∧ smooth a z ≤ 1 ∧
    (-1 ≤ a → a ≤ 1 → |smooth a z - a| ≤ 1 / 2) := by
  have hc : ∀ x lo hi : ℝ, lo ≤ hi → lo ≤ clip x lo hi ∧ clip x lo hi ≤ hi :=
    fun x lo hi h => ⟨le_min (le_max_right _ _) h, min_le_right _ _⟩
  obtain ⟨h1, h2⟩ := hc (a + clip (0.2 * z) (-0.5) 0.5) (-1) 1 (by norm_num)
  refine ⟨h1, h2, fun ha hb => ?_⟩
  obtain ⟨h3, h4⟩ := hc (0.2 * z) (-0.5) 0.5 (by norm_num)
  unfold smooth
  generalize clip (0.2 * z) (-0.5) 0.5 = e at h1 h2 h3 h4
  rw [abs_le]
  unfold clip
  norm_num at h3 h4
  constructor
  · have : a - 1 / 2 ≤ min (max (a + e) (-1)) 1 := le_min (le_trans (by linarith) (le_max_left _ _)) (by linarith)
    linarith
  · have : min (max (a + e) (-1)) 1 ≤ a + 1 / 2 :=
      (min_le_left _ _).trans (max_le (by linarith) (by linarith))
    linarith

/-- Noise that is cut, and an action at the bound. -/
example : smooth 0.2 10 = 0.7 ∧ smooth 0.9 10 = 1 := by
  constructor <;> norm_num [smooth, clip]

end Verif.SAC
