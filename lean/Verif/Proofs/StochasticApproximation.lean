import Mathlib.Analysis.SpecialFunctions.Exp
import Mathlib.Topology.Algebra.Order.LiminfLimsup
import Mathlib.Tactic.Linarith
import Mathlib.Tactic.Ring
import Verif.Proofs.AsyncIteration

/-!
# Averaging noisy targets

Values that move towards targets with weights whose sums diverge.  The noise in the targets has convergent weighted sums.
-/

set_option autoImplicit false
set_option linter.unusedSectionVars false

open Filter Topology

namespace Verif.StochasticApproximation

theorem prod_tendsto (a : ℕ → ℝ) (ha : ∀ k, 0 ≤ a k ∧ a k ≤ 1) (hs : Tendsto (fun n => ∑ k ∈ Finset.range n, a k) atTop atTop) :
    Tendsto (fun n => ∏ k ∈ Finset.range n, (1 - a k)) atTop (𝓝 0) := by
  refine squeeze_zero (g := fun n => Real.exp (-∑ k ∈ Finset.range n, a k)) (fun n => Finset.prod_nonneg fun k _ => by linarith [(ha k).2]) (fun n => ?_)
    (Real.tendsto_exp_neg_atTop_nhds_zero.comp hs)
  rw [← Finset.sum_neg_distrib, Real.exp_sum]
  exact Finset.prod_le_prod (fun k _ => by linarith [(ha k).2]) fun k _ => by linarith [Real.add_one_le_exp (-a k)]

theorem sum_shift {a : ℕ → ℝ} (hs : Tendsto (fun n => ∑ k ∈ Finset.range n, a k) atTop atTop) (K : ℕ) :
    Tendsto (fun n => ∑ k ∈ Finset.range n, a (K + k)) atTop atTop := by
  have h := (tendsto_add_atTop_iff_nat K).2 hs
  have e : (fun n => ∑ k ∈ Finset.range (n + K), a k) = fun n => (∑ k ∈ Finset.range K, a k) + ∑ k ∈ Finset.range n, a (K + k) := by
    funext n
    rw [add_comm n K, Finset.sum_range_add]
  rw [e] at h
  have h2 := tendsto_atTop_add_const_left atTop (-∑ k ∈ Finset.range K, a k) h
  simpa using h2

/-- Targets within `D` draw the value there. -/
theorem mix_below (V a t : ℕ → ℝ) (ha : ∀ k, 0 ≤ a k ∧ a k ≤ 1) (hs : Tendsto (fun n => ∑ k ∈ Finset.range n, a k) atTop atTop) (hV : ∀ k, V (k + 1) = (1 - a k) * V k + a k * t k)
    (D : ℝ) (ht : ∀ᶠ k in atTop, |t k| ≤ D) (ε : ℝ) (hε : 0 < ε) : ∀ᶠ k in atTop, |V k| ≤ D + ε := by
  obtain ⟨K, hK⟩ := eventually_atTop.1 ht
  have hD : 0 ≤ D := (abs_nonneg _).trans (hK K le_rfl)
  have hb : ∀ m, |V (K + m)| ≤ D + |V K| * ∏ k ∈ Finset.range m, (1 - a (K + k)) := by
    intro m
    induction m with
    | zero => simp; linarith
    | succ m ih =>
      obtain ⟨a0, a1⟩ := ha (K + m)
      rw [← Nat.add_assoc, hV, Finset.prod_range_succ]
      have h1 := abs_add_le ((1 - a (K + m)) * V (K + m)) (a (K + m) * t (K + m))
      rw [abs_mul, abs_mul, abs_of_nonneg a0, abs_of_nonneg (by linarith : 0 ≤ 1 - a (K + m))] at h1
      have h2 := mul_le_mul_of_nonneg_left ih (by linarith : 0 ≤ 1 - a (K + m))
      have h3 := mul_le_mul_of_nonneg_left (hK (K + m) (by omega)) a0
      nlinarith
  have h0 := (prod_tendsto (fun k => a (K + k)) (fun k => ha _) (sum_shift hs K)).const_mul |V K|
  rw [mul_zero] at h0
  have h1 : ∀ᶠ m in atTop, |V K| * ∏ k ∈ Finset.range m, (1 - a (K + k)) < ε := h0.eventually_lt_const hε
  obtain ⟨M, hM⟩ := eventually_atTop.1 h1
  refine eventually_atTop.2 ⟨K + M, fun k hk => ?_⟩
  have := hb (k - K)
  rw [Nat.add_sub_cancel' (by omega)] at this
  linarith [hM (k - K) (by omega)]

/-- Averaged noise vanishes. -/
theorem noise_vanishes (W a n : ℕ → ℝ) (ha : ∀ k, 0 ≤ a k ∧ a k ≤ 1) (hs : Tendsto (fun n => ∑ k ∈ Finset.range n, a k) atTop atTop) (hW : ∀ k, W (k + 1) = (1 - a k) * W k + a k * n k)
    (L : ℝ) (hn : Tendsto (fun m => ∑ k ∈ Finset.range m, a k * n k) atTop (𝓝 L)) : Tendsto W atTop (𝓝 0) := by
  let r : ℕ → ℝ := fun m => (∑ k ∈ Finset.range m, a k * n k) - L
  have hr : Tendsto r atTop (𝓝 0) := by simpa [r] using hn.sub_const L
  have hV : ∀ k, (fun k => W k - r k) (k + 1) = (1 - a k) * (fun k => W k - r k) k + a k * (-r k) := by
    intro k
    simp only [r, Finset.sum_range_succ, hW]
    ring
  have h0 : Tendsto (fun k => W k - r k) atTop (𝓝 0) := by
    rw [Metric.tendsto_nhds]
    intro ε hε
    have ht : ∀ᶠ k in atTop, |-r k| ≤ ε / 3 := by
      have := (Metric.tendsto_nhds.1 hr) (ε / 3) (by linarith)
      exact this.mono fun k hk => by rw [abs_neg]; rw [Real.dist_eq, sub_zero] at hk; exact hk.le
    exact (mix_below (fun k => W k - r k) a _ ha hs hV _ ht (ε / 3) (by linarith)).mono fun k hk => by
      rw [Real.dist_eq, sub_zero]; linarith
  simpa using h0.add hr

variable {ι : Type}

/-- Values `X` that move towards noisy targets `y + n`, computed from slowly renewed copies `T`. -/
structure Noisy (X T : ℕ → ι → ℝ) (Xs : ι → ℝ) (gamma : ℝ) (c y n : ℕ → ι → ℝ) (τ : ℕ → ℝ) : Prop where
  gamma_nonneg : 0 ≤ gamma
  gamma_lt : gamma < 1
  step : ∀ k i, X (k + 1) i = (1 - c k i) * X k i + c k i * (y k i + n k i)
  weight : ∀ k i, 0 ≤ c k i ∧ c k i ≤ 1
  value : ∀ k E, (∀ i, |T k i - Xs i| ≤ E) → ∀ i, |y k i - Xs i| ≤ gamma * E
  copy : ∀ k i, T (k + 1) i = (1 - τ k) * T k i + τ k * X (k + 1) i
  rate : ∀ k, 0 ≤ τ k ∧ τ k ≤ 1
  bounded : ∃ E, ∀ k i, |T k i - Xs i| ≤ E
  weights : ∀ i, Tendsto (fun m => ∑ k ∈ Finset.range m, c k i) atTop atTop
  copies : Tendsto (fun m => ∑ k ∈ Finset.range m, τ k) atTop atTop
  noise : ∀ i, ∃ L, Tendsto (fun m => ∑ k ∈ Finset.range m, c k i * n k i) atTop (𝓝 L)

/-- The averaged noise. -/
def avg (a n : ℕ → ℝ) : ℕ → ℝ
  | 0 => 0
  | k + 1 => (1 - a k) * avg a n k + a k * n k

theorem Noisy.shrink {X T : ℕ → ι → ℝ} {Xs : ι → ℝ} {gamma : ℝ} {c y n : ℕ → ι → ℝ} {τ : ℕ → ℝ} (h : Noisy X T Xs gamma c y n τ) (E : ℝ)
    (hE : ∀ᶠ k in atTop, ∀ i, |T k i - Xs i| ≤ E) (i : ι) (ε : ℝ) (hε : 0 < ε) : ∀ᶠ k in atTop, |X k i - Xs i| ≤ gamma * E + ε := by
  obtain ⟨L, hL⟩ := h.noise i
  have hw := noise_vanishes (avg (fun k => c k i) fun k => n k i) _ _ (fun k => h.weight k i) (h.weights i) (fun k => rfl) L hL
  have hv := mix_below (fun k => X k i - Xs i - avg (fun k => c k i) (fun k => n k i) k) (fun k => c k i) (fun k => y k i - Xs i) (fun k => h.weight k i) (h.weights i)
    (fun k => by simp only [avg, h.step]; ring) (gamma * E) (hE.mono fun k hk => h.value k E hk i) (ε / 2) (by linarith)
  have hw' : ∀ᶠ k in atTop, |avg (fun k => c k i) (fun k => n k i) k| ≤ ε / 2 :=
    ((Metric.tendsto_nhds.1 hw) (ε / 2) (by linarith)).mono fun k hk => by rw [Real.dist_eq, sub_zero] at hk; exact hk.le
  filter_upwards [hv, hw'] with k h1 h2
  have h3 := abs_le.1 h1
  have h4 := abs_le.1 h2
  rw [abs_le]
  constructor <;> linarith

/-- Everything converges. -/
theorem Noisy.converges [Finite ι] {X T : ℕ → ι → ℝ} {Xs : ι → ℝ} {gamma : ℝ} {c y n : ℕ → ι → ℝ} {τ : ℕ → ℝ} (h : Noisy X T Xs gamma c y n τ) (i : ι) :
    Tendsto (fun k => X k i) atTop (𝓝 (Xs i)) ∧ Tendsto (fun k => T k i) atTop (𝓝 (Xs i)) := by
  have hT : ∀ E, (∀ᶠ k in atTop, ∀ i, |T k i - Xs i| ≤ E) → ∀ ε > 0, ∀ᶠ k in atTop, ∀ i, |T k i - Xs i| ≤ gamma * E + ε := by
    intro E hE ε hε
    refine eventually_all.2 fun i => ?_
    have hx := h.shrink E hE i (ε / 2) (by linarith)
    have hx' : ∀ᶠ k in atTop, |X (k + 1) i - Xs i| ≤ gamma * E + ε / 2 := (tendsto_add_atTop_nat 1).eventually hx
    exact (mix_below (fun k => T k i - Xs i) τ (fun k => X (k + 1) i - Xs i) h.rate h.copies (fun k => by simp only [h.copy]; ring) _ hx' (ε / 2) (by linarith)).mono fun k hk => by linarith
  have hall : ∀ ε > 0, ∀ᶠ k in atTop, ∀ i, |T k i - Xs i| ≤ ε := by
    let A : Set ℝ := {E | 0 ≤ E ∧ ∀ᶠ k in atTop, ∀ i, |T k i - Xs i| ≤ E}
    obtain ⟨E₀, hE₀⟩ := h.bounded
    have hne : A.Nonempty := ⟨max E₀ 0, le_max_right _ _, Eventually.of_forall fun k i => (hE₀ k i).trans (le_max_left _ _)⟩
    have hbd : BddBelow A := ⟨0, fun E hE => hE.1⟩
    have hg := h.gamma_lt
    have hg0 := h.gamma_nonneg
    have h0 : sInf A ≤ 0 := by
      by_contra hpos
      rw [not_le] at hpos
      have hlt : sInf A < sInf A + (1 - gamma) * sInf A / 4 := by nlinarith
      obtain ⟨E, hE, hE'⟩ := exists_lt_of_csInf_lt hne hlt
      have h1 := hT E hE.2 ((1 - gamma) * sInf A / 4) (by nlinarith)
      have h2 : gamma * E + (1 - gamma) * sInf A / 4 ∈ A := ⟨by nlinarith [mul_nonneg hg0 hE.1], h1⟩
      have h3 := csInf_le hbd h2
      nlinarith
    intro ε hε
    obtain ⟨E, hE, hE'⟩ := exists_lt_of_csInf_lt hne (lt_of_le_of_lt h0 hε)
    exact hE.2.mono fun k hk i => (hk i).trans hE'.le
  constructor
  · rw [Metric.tendsto_nhds]
    intro ε hε
    refine (h.shrink (ε / 3) (hall _ (by linarith)) i (ε / 3) (by linarith)).mono fun k hk => ?_
    have := h.gamma_lt
    have := h.gamma_nonneg
    rw [Real.dist_eq]; nlinarith
  · rw [Metric.tendsto_nhds]
    intro ε hε
    exact (hall (ε / 2) (by linarith)).mono fun k hk => by rw [Real.dist_eq]; linarith [hk i]

end Verif.StochasticApproximation
