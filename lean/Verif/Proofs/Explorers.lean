import Mathlib.Probability.Distributions.Gaussian.Real
import Mathlib.Probability.Independence.Basic
import Mathlib.Tactic.Linarith
import Mathlib.Tactic.FieldSimp
import Mathlib.Tactic.Ring
import Verif.Model.Explorers

set_option autoImplicit false
set_option linter.unusedSectionVars false

namespace Verif.Explorers

open Real MeasureTheory ProbabilityTheory
open scoped NNReal

variable {n : Nat} {Ω : Type} [MeasurableSpace Ω] {P : Measure Ω}

/-- The noise added in the `k`-th call. -/
noncomputable def OU.noise (c : OU n) (a z : Nat → Fin n → ℝ) (k : Nat) : Fin n → ℝ :=
  (c.select (c.stateBefore a z k) (a k) (z k)).1

theorem OU.action_eq (c : OU n) (a z : Nat → Fin n → ℝ) (k : Nat) (i : Fin n) :
    c.action a z k i = a k i + c.noise a z k i := rfl

theorem OU.noise_zero (c : OU n) (a z : Nat → Fin n → ℝ) : c.noise a z 0 = c.first (z 0) := rfl

theorem OU.noise_succ (c : OU n) (a z : Nat → Fin n → ℝ) (k : Nat) :
    c.noise a z (k + 1) = c.evolve (c.noise a z k) (z (k + 1)) := rfl

/-- The noise of component `i` is a measurable function of the draws so far. -/
theorem OU.noise_factors (c : OU n) (a : Nat → Fin n → ℝ) (i : Fin n) (k : Nat) :
    ∃ g : ((Finset.range (k + 1)) → ℝ) → ℝ, Measurable g ∧
      ∀ z : Nat → Fin n → ℝ, c.noise a z k i = g (fun j => z j i) := by
  induction k with
  | zero =>
    refine ⟨fun x => if c.startWithMu then c.mu
      else c.mu + c.sigma i / √(2 * c.theta - c.theta ^ 2) * x ⟨0, by simp⟩, ?_, ?_⟩
    · cases c.startWithMu <;> simp <;> fun_prop
    · intro z; rw [OU.noise_zero]; unfold OU.first; cases c.startWithMu <;> simp
  | succ k ih =>
    obtain ⟨g, hg, h⟩ := ih
    have hm : ∀ j : Finset.range (k + 1), (j : Nat) ∈ Finset.range (k + 2) := by
      rintro ⟨j, hj⟩; simp at hj ⊢; omega
    refine ⟨fun x => g (fun j => x ⟨j, hm j⟩) +
      (c.theta * (c.mu - g (fun j => x ⟨j, hm j⟩)) + c.sigma i * x ⟨k + 1, by simp⟩), ?_, ?_⟩
    · have : Measurable fun x : (Finset.range (k + 2) → ℝ) => g (fun j => x ⟨j, hm j⟩) :=
        hg.comp (by fun_prop)
      fun_prop
    · intro z; rw [OU.noise_succ]; unfold OU.evolve; rw [h]

/-- Variance of the noise in the `k`-th call. -/
noncomputable def OU.variance (c : OU n) (i : Fin n) (k : Nat) : ℝ :=
  c.sigma i ^ 2 / (2 * c.theta - c.theta ^ 2) *
    (1 - if c.startWithMu then (1 - c.theta) ^ (2 * k) else 0)

theorem OU.variance_nonneg (c : OU n) (i : Fin n) (k : Nat) (h0 : 0 < c.theta) (h2 : c.theta < 2) :
    0 ≤ c.variance i k := by
  unfold OU.variance
  have hd : 0 < 2 * c.theta - c.theta ^ 2 := by nlinarith
  have : (1 - c.theta) ^ (2 * k) ≤ 1 := by
    rw [pow_mul]; exact pow_le_one₀ (sq_nonneg _) (by nlinarith)
  refine mul_nonneg (div_nonneg (sq_nonneg _) hd.le) ?_
  split <;> linarith

theorem OU.noise_law (c : OU n) (h0 : 0 < c.theta) (h2 : c.theta < 2) (a : Nat → Fin n → ℝ)
    (i : Fin n) (Z : Nat → Ω → Fin n → ℝ) (hm : ∀ k, Measurable fun ω => Z k ω i)
    (hlaw : ∀ k, P.map (fun ω => Z k ω i) = gaussianReal 0 1)
    (hind : iIndepFun (fun k ω => Z k ω i) P) (k : Nat) :
    P.map (fun ω => c.noise a (fun j => Z j ω) k i) = gaussianReal c.mu (c.variance i k).toNNReal := by
  have hd : 0 < 2 * c.theta - c.theta ^ 2 := by nlinarith
  have hP := hind.isProbabilityMeasure
  have scaled : ∀ (k : Nat) (s : ℝ), P.map (fun ω => s * Z k ω i) = gaussianReal 0 (s ^ 2).toNNReal := by
    intro k s
    have e : (fun ω => s * Z k ω i) = (fun x => s * x) ∘ fun ω => Z k ω i := rfl
    rw [e, ← Measure.map_map (by fun_prop) (hm k), hlaw, gaussianReal_map_const_mul]
    congr 1
    · simp
    · ext; simp [sq_nonneg]
  induction k with
  | zero =>
    simp only [OU.noise_zero]
    unfold OU.first
    cases hs : c.startWithMu
    · simp only [Bool.false_eq_true, if_false]
      have e : (fun ω => c.mu + c.sigma i / √(2 * c.theta - c.theta ^ 2) * Z 0 ω i) =
          (fun x => c.mu + x) ∘ fun ω => c.sigma i / √(2 * c.theta - c.theta ^ 2) * Z 0 ω i := rfl
      rw [e, ← Measure.map_map (by fun_prop) ((hm 0).const_mul _), scaled, gaussianReal_map_const_add]
      unfold OU.variance
      rw [hs, div_pow, Real.sq_sqrt hd.le]; simp
    · simp only [if_true, Measure.map_const, measure_univ, one_smul]
      unfold OU.variance
      simp [hs, gaussianReal_zero_var]
  | succ k ih =>
    obtain ⟨g, hg, hgz⟩ := c.noise_factors a i k
    have hI : IndepFun (fun ω => (1 - c.theta) * (c.noise a (fun j => Z j ω) k i) + c.theta * c.mu)
        (fun ω => c.sigma i * Z (k + 1) ω i) P := by
      have h := hind.indepFun_finset (Finset.range (k + 1)) {k + 1} (by simp) hm
      have h' := h.comp (φ := fun x => (1 - c.theta) * g x + c.theta * c.mu)
        (ψ := fun y : (({k + 1} : Finset Nat) → ℝ) => c.sigma i * y ⟨k + 1, by simp⟩) (by fun_prop) (by fun_prop)
      refine h'.congr ?_ ?_
      · exact Filter.Eventually.of_forall fun ω => by simp [hgz]
      · exact Filter.Eventually.of_forall fun ω => rfl
    have hmn : Measurable fun ω => c.noise a (fun j => Z j ω) k i := by
      simp only [hgz]
      exact hg.comp (measurable_pi_lambda _ fun j => hm j)
    have h1 : P.map (fun ω => (1 - c.theta) * (c.noise a (fun j => Z j ω) k i) + c.theta * c.mu) =
        gaussianReal c.mu ((1 - c.theta) ^ 2 * c.variance i k).toNNReal := by
      have e : (fun ω => (1 - c.theta) * (c.noise a (fun j => Z j ω) k i) + c.theta * c.mu) =
        (fun x => (1 - c.theta) * x + c.theta * c.mu) ∘ fun ω => c.noise a (fun j => Z j ω) k i := rfl
      have e2 : (fun x : ℝ => (1 - c.theta) * x + c.theta * c.mu) =
        (fun x => x + c.theta * c.mu) ∘ fun x => (1 - c.theta) * x := rfl
      rw [e, ← Measure.map_map (by fun_prop) hmn, ih, e2,
        ← Measure.map_map (by fun_prop) (by fun_prop), gaussianReal_map_const_mul,
        gaussianReal_map_add_const]
      congr 1
      · ring
      · ext
        have := c.variance_nonneg i k h0 h2
        simp [this, mul_nonneg (sq_nonneg (1 - c.theta)) this]
    have h := gaussianReal_add_gaussianReal_of_indepFun hI h1 (scaled (k + 1) (c.sigma i))
    have e : (fun ω => c.noise a (fun j => Z j ω) (k + 1) i) =
        (fun ω => (1 - c.theta) * (c.noise a (fun j => Z j ω) k i) + c.theta * c.mu) +
        (fun ω => c.sigma i * Z (k + 1) ω i) := by
      funext ω
      rw [OU.noise_succ]; unfold OU.evolve; simp only [Pi.add_apply]; ring
    rw [e, h]
    congr 1
    · ring
    · have hv := c.variance_nonneg i k h0 h2
      rw [← Real.toNNReal_add (mul_nonneg (sq_nonneg _) hv) (sq_nonneg _)]
      congr 1
      unfold OU.variance
      have hd' : 2 - c.theta ≠ 0 := by linarith
      have e : 2 * c.theta - c.theta ^ 2 = c.theta * (2 - c.theta) := by ring
      rw [e]
      cases c.startWithMu
      · simp only [Bool.false_eq_true, if_false]
        field_simp
        ring
      · simp only [if_true]
        rw [show 2 * (k + 1) = 2 * k + 2 by ring, pow_add]
        field_simp
        ring

end Verif.Explorers
