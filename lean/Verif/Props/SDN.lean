import Verif.Model.SDN
import Mathlib.Probability.Moments.Variance
import Mathlib.MeasureTheory.Integral.Pi
import Mathlib.Probability.Distributions.Gaussian.Real
import Mathlib.Tactic.Ring
import Mathlib.Tactic.FieldSimp
import Mathlib.Tactic.Linarith
set_option autoImplicit false
set_option linter.unusedSectionVars false

/-! # C129: the value heads of ACER's models -/

namespace Verif.SDN
open MeasureTheory ProbabilityTheory
open scoped BigOperators
variable {A : Type} [MeasurableSpace A]

/-- The value that a call of the evaluator returns, when it returns one. -/
noncomputable def returned (r : Py ℝ) : ℝ := r.toOption.getD 0

theorem returned_evaluator {n : Nat} (hn : n ≠ 0) (v : ℝ) (adv : A → ℝ) (s : Fin n → A) (a : A) :
    returned (evaluator n v adv s a) = v + adv a - (∑ i, adv (s i)) / (n : ℝ) := by
  simp [returned, evaluator, hn, Except.toOption]

/-- **C129.** With at least one sample the evaluator returns a value; with none it raises. -/
theorem C129_returns (n : Nat) (v : ℝ) (adv : A → ℝ) (s : Fin n → A) (a : A) :
    (n ≠ 0 → ∃ q, evaluator n v adv s a = .ok q) ∧ (n = 0 → evaluator n v adv s a = .error .zeroDivisionError) :=
  ⟨fun h => ⟨_, by simp only [evaluator, if_neg h]; rfl⟩, fun h => by simp only [evaluator, if_pos h]⟩

/-- **C129.** Only differences of the advantage network matter: a constant added to it changes no value, for any samples. -/
theorem C129_shift (n : Nat) (v : ℝ) (adv : A → ℝ) (c : ℝ) (s : Fin n → A) (a : A) :
    evaluator n v (fun x => adv x + c) s a = evaluator n v adv s a := by
  by_cases h : n = 0
  · simp [evaluator, h]
  · have hn : (n : ℝ) ≠ 0 := Nat.cast_ne_zero.2 h
    simp only [evaluator, if_neg h, Except.ok.injEq, Finset.sum_add_distrib, Finset.sum_const, Finset.card_univ, Fintype.card_fin, nsmul_eq_mul]
    field_simp
    ring

theorem integrable_eval (n : Nat) (μ : Measure A) [IsProbabilityMeasure μ] (adv : A → ℝ) (h : Integrable adv μ) (i : Fin n) :
    Integrable (fun s : Fin n → A => adv (s i)) (Measure.pi fun _ => μ) :=
  (measurePreserving_eval (fun _ : Fin n => μ) i).integrable_comp_of_integrable h

theorem integral_eval (n : Nat) (μ : Measure A) [IsProbabilityMeasure μ] (adv : A → ℝ) (h : Integrable adv μ) (i : Fin n) :
    ∫ s : Fin n → A, adv (s i) ∂(Measure.pi fun _ => μ) = ∫ a, adv a ∂μ := by
  have hp := measurePreserving_eval (fun _ : Fin n => μ) i
  have hm : AEStronglyMeasurable adv (Measure.map (Function.eval i) (Measure.pi fun _ : Fin n => μ)) := by
    have e : Measure.map (Function.eval i) (Measure.pi fun _ : Fin n => μ) = μ := hp.map_eq
    rw [e]; exact h.aestronglyMeasurable
  have := integral_map hp.measurable.aemeasurable hm
  have e : Measure.map (Function.eval i) (Measure.pi fun _ : Fin n => μ) = μ := hp.map_eq
  rw [e] at this
  exact this.symm

/-- **C129.** On average over the samples, which are drawn from the policy `μ`, the value of an action is the state's value plus the advantage of the action over the
policy's average. -/
theorem C129_unbiased (n : Nat) (hn : n ≠ 0) (v : ℝ) (adv : A → ℝ) (μ : Measure A) [IsProbabilityMeasure μ] (h : Integrable adv μ) (a : A) :
    ∫ s : Fin n → A, returned (evaluator n v adv s a) ∂(Measure.pi fun _ => μ) = v + (adv a - ∫ b, adv b ∂μ) := by
  have hn' : (n : ℝ) ≠ 0 := Nat.cast_ne_zero.2 hn
  simp only [returned_evaluator hn]
  have hs : Integrable (fun s : Fin n → A => ∑ i, adv (s i)) (Measure.pi fun _ => μ) :=
    integrable_finsetSum _ fun i _ => integrable_eval n μ adv h i
  rw [integral_sub (integrable_const _) (hs.div_const _), integral_const, integral_div, integral_finsetSum _ fun i _ => integrable_eval n μ adv h i]
  simp only [integral_eval n μ adv h, Finset.sum_const, Finset.card_univ, Fintype.card_fin, nsmul_eq_mul, probReal_univ, one_smul]
  field_simp
  ring

/-- **C129.** So the average of the values over the actions of the policy is the state's value: the two outputs of the model are consistent. -/
theorem C129_consistent (n : Nat) (hn : n ≠ 0) (v : ℝ) (adv : A → ℝ) (μ : Measure A) [IsProbabilityMeasure μ] (h : Integrable adv μ) :
    ∫ a, ∫ s : Fin n → A, returned (evaluator n v adv s a) ∂(Measure.pi fun _ => μ) ∂μ = v := by
  simp only [C129_unbiased n hn v adv μ h]
  have hs : Integrable (fun a => adv a - ∫ b, adv b ∂μ) μ := h.sub (integrable_const _)
  rw [integral_add (integrable_const _) hs, integral_sub h (integrable_const _), integral_const, integral_const]
  simp

/-- **C129.** The noise of the samples has the variance of the advantage under the policy divided by the number of samples, the same for every action. -/
theorem C129_variance (n : Nat) (hn : n ≠ 0) (v : ℝ) (adv : A → ℝ) (μ : Measure A) [IsProbabilityMeasure μ] (h : MemLp adv 2 μ) (a : A) :
    Var[fun s : Fin n → A => returned (evaluator n v adv s a); Measure.pi fun _ => μ] = Var[adv; μ] / (n : ℝ) := by
  have hn' : (n : ℝ) ≠ 0 := Nat.cast_ne_zero.2 hn
  have hv := variance_sum_pi (ι := Fin n) (μ := fun _ => μ) (X := fun _ => adv) (fun _ => h)
  have e : (fun s : Fin n → A => returned (evaluator n v adv s a)) =
      fun s => (v + adv a) - (1 / (n : ℝ)) * (∑ i, fun s : Fin n → A => adv (s i)) s := by
    funext s
    rw [returned_evaluator hn, Finset.sum_apply]
    ring
  have hm : AEStronglyMeasurable (fun s : Fin n → A => (1 / (n : ℝ)) * (∑ i, fun s : Fin n → A => adv (s i)) s) (Measure.pi fun _ => μ) := by
    apply AEStronglyMeasurable.const_mul
    apply Finset.aestronglyMeasurable_sum
    intro i _
    exact (integrable_eval n μ adv (h.integrable (by norm_num)) i).aestronglyMeasurable
  rw [e, variance_const_sub hm, variance_const_mul, hv]
  simp only [Finset.sum_const, Finset.card_univ, Fintype.card_fin, nsmul_eq_mul]
  field_simp

/-- **C129.** The difference of two actions' values is on average the difference of their advantages. -/
theorem C129_double_advantage (n : Nat) (hn : n ≠ 0) (v : ℝ) (adv : A → ℝ) (μ : Measure A) [IsProbabilityMeasure μ] (h : Integrable adv μ) (a a' : A) :
    ∫ s : Fin n → A, ∫ s' : Fin n → A, returned (doubleAdvantage n v adv s s' a a') ∂(Measure.pi fun _ => μ) ∂(Measure.pi fun _ => μ) = adv a - adv a' := by
  have hn' : (n : ℝ) ≠ 0 := Nat.cast_ne_zero.2 hn
  have hs : Integrable (fun s : Fin n → A => (∑ i, adv (s i)) / (n : ℝ)) (Measure.pi fun _ => μ) :=
    (integrable_finsetSum _ fun i _ => integrable_eval n μ adv h i).div_const _
  have hi : ∀ b, Integrable (fun s : Fin n → A => returned (evaluator n v adv s b)) (Measure.pi fun _ => μ) := by
    intro b
    simp only [returned_evaluator hn]
    exact (integrable_const _).sub hs
  have e : ∀ s s' : Fin n → A, returned (doubleAdvantage n v adv s s' a a') = returned (evaluator n v adv s a) - returned (evaluator n v adv s' a') := by
    intro s s'
    simp [returned, doubleAdvantage, evaluator, hn, Except.toOption, bind, Except.bind, pure, Except.pure]
  simp only [e]
  have e2 : ∀ s : Fin n → A, ∫ s' : Fin n → A, (returned (evaluator n v adv s a) - returned (evaluator n v adv s' a')) ∂(Measure.pi fun _ => μ) =
      returned (evaluator n v adv s a) - (v + (adv a' - ∫ b, adv b ∂μ)) := by
    intro s
    rw [integral_sub (integrable_const _) (hi a'), integral_const, C129_unbiased n hn v adv μ h a']
    simp
  simp only [e2]
  rw [integral_sub (hi a) (integrable_const _), C129_unbiased n hn v adv μ h a, integral_const]
  simp

/-- **C129.** The model gives no greedy action for continuous actions: asking for one raises. -/
theorem C129_no_greedy : greedy (none : Option A) = .error .typeError := rfl

/-- **C129.** With discrete actions the state's value is the average of the actions' values under the policy, and so lies between them. -/
theorem C129_discrete {k : Nat} (p q : Fin k → ℝ) (hp : ∀ i, 0 ≤ p i) (h1 : ∑ i, p i = 1) (lo hi : ℝ) (hq : ∀ i, lo ≤ q i ∧ q i ≤ hi) :
    discreteV p q = ∑ i, p i * q i ∧ lo ≤ discreteV p q ∧ discreteV p q ≤ hi := by
  refine ⟨rfl, ?_, ?_⟩
  · calc lo = ∑ i, p i * lo := by rw [← Finset.sum_mul, h1, one_mul]
      _ ≤ discreteV p q := Finset.sum_le_sum fun i _ => mul_le_mul_of_nonneg_left (hq i).1 (hp i)
  · calc discreteV p q ≤ ∑ i, p i * hi := Finset.sum_le_sum fun i _ => mul_le_mul_of_nonneg_left (hq i).2 (hp i)
      _ = hi := by rw [← Finset.sum_mul, h1, one_mul]

/-! ## Concrete cases -/

/-- Three samples. -/
example : evaluator 3 10 (fun x : ℝ => 2 * x) ![1, 2, 3] 5 = .ok (10 + 2 * 5 - 4) := by
  simp only [evaluator, Fin.sum_univ_three, OfNat.ofNat_ne_zero, if_false, Except.ok.injEq]
  simp
  norm_num

/-- A policy concentrated on one action has no noise. -/
example := C129_unbiased 3 (by decide) 10 (fun x : ℝ => 2 * x) (Measure.dirac 1) (integrable_dirac (by simp)) 5

/-- A Gaussian policy. -/
example := C129_variance 5 (by decide) 10 id (gaussianReal 0 1) (memLp_id_gaussianReal 2) 3

example := C129_consistent 5 (by decide) 10 id (gaussianReal 0 1) ((memLp_id_gaussianReal 1).integrable (by norm_num))

example := C129_discrete (k := 2) ![1 / 2, 1 / 2] ![3, 5] (by intro i; fin_cases i <;> norm_num) (by norm_num [Fin.sum_univ_two]) 3 5
  (by intro i; fin_cases i <;> norm_num)

end Verif.SDN
