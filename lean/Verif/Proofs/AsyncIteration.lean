import Mathlib.Topology.Algebra.Order.LiminfLimsup
import Mathlib.Analysis.SpecificLimits.Basic
import Mathlib.Order.Filter.AtTopBot.Basic
import Mathlib.Tactic.Linarith
import Mathlib.Tactic.Ring
import Mathlib.Tactic.Positivity
import Mathlib.Tactic.NormNum

/-! Convergence of asynchronous iterations towards a fixed point, with a copy that lags behind (for C152). -/

set_option autoImplicit false

open Filter Topology

namespace Verif.AsyncIteration

/-- A sequence that is pulled towards `b`, again and again with at least the weight `η`, comes as close to `b` from above as wanted. -/
theorem eventually_below (v c : ℕ → ℝ) (b η : ℝ) (hη : 0 < η) (hc : ∀ k, 0 ≤ c k ∧ c k ≤ 1)
    (hv : ∀ᶠ k in atTop, v (k + 1) ≤ (1 - c k) * v k + c k * b) (hf : ∃ᶠ k in atTop, η ≤ c k) (ε : ℝ) (hε : 0 < ε) :
    ∀ᶠ k in atTop, v k ≤ b + ε := by
  obtain ⟨N, hN⟩ := eventually_atTop.1 hv
  -- the excess
  have hmono : ∀ k ≥ N, max (v (k + 1) - b) 0 ≤ max (v k - b) 0 := fun k hk => by
    refine max_le ?_ (le_max_right _ _)
    have h1 := hN k hk
    obtain ⟨h2, h3⟩ := hc k
    have h4 : v k - b ≤ max (v k - b) 0 := le_max_left _ _
    have h5 : 0 ≤ max (v k - b) 0 := le_max_right _ _
    nlinarith
  have hanti : ∀ k ≥ N, ∀ j ≥ k, max (v j - b) 0 ≤ max (v k - b) 0 := fun k hk j hj => by
    induction j, hj using Nat.le_induction with
    | base => exact le_rfl
    | succ j hj ih => exact (hmono j (le_trans hk hj)).trans ih
  have hη1 : η ≤ 1 := by
    obtain ⟨k, hk⟩ := hf.exists
    exact hk.trans (hc k).2
  have hshrink : ∀ n : ℕ, ∃ k ≥ N, max (v k - b) 0 ≤ (1 - η) ^ n * max (v N - b) 0 := fun n => by
    induction n with
    | zero => exact ⟨N, le_rfl, by simp⟩
    | succ n ih =>
      obtain ⟨k, hk, h⟩ := ih
      obtain ⟨j, hj, hjc⟩ := (frequently_atTop.1 hf) k
      refine ⟨j + 1, by omega, ?_⟩
      have h1 := hN j (by omega)
      have h2 := hanti k hk j hj
      have h0 : 0 ≤ max (v j - b) 0 := le_max_right _ _
      have h3 : max (v (j + 1) - b) 0 ≤ (1 - η) * max (v j - b) 0 := by
        refine max_le ?_ (mul_nonneg (by linarith) h0)
        have h4 : v j - b ≤ max (v j - b) 0 := le_max_left _ _
        have h5 := (hc j).2
        nlinarith
      calc max (v (j + 1) - b) 0 ≤ (1 - η) * max (v j - b) 0 := h3
        _ ≤ (1 - η) * ((1 - η) ^ n * max (v N - b) 0) := mul_le_mul_of_nonneg_left (h2.trans h) (by linarith)
        _ = _ := by rw [pow_succ]; ring
  have hlim : Tendsto (fun n : ℕ => (1 - η) ^ n * max (v N - b) 0) atTop (𝓝 0) := by
    simpa using (tendsto_pow_atTop_nhds_zero_of_lt_one (by linarith : 0 ≤ 1 - η) (by linarith)).mul_const (max (v N - b) 0)
  obtain ⟨n, hn⟩ := (hlim.eventually (gt_mem_nhds hε)).exists
  obtain ⟨k, hk, h⟩ := hshrink n
  refine eventually_atTop.2 ⟨k, fun j hj => ?_⟩
  have h1 := hanti k hk j hj
  have h2 : v j - b ≤ max (v j - b) 0 := le_max_left _ _
  linarith

variable {ι : Type} (X T : ℕ → ι → ℝ) (Xs : ι → ℝ) (gamma : ℝ) (c y : ℕ → ι → ℝ) (τ : ℕ → ℝ)

/-- An iteration whose entries are moved towards values `y` that are computed from a copy `T`, which in turn is moved towards the entries. -/
structure Moves : Prop where
  gamma_nonneg : 0 ≤ gamma
  gamma_lt : gamma < 1
  step : ∀ k i, X (k + 1) i = (1 - c k i) * X k i + c k i * y k i
  weight : ∀ k i, 0 ≤ c k i ∧ c k i ≤ 1
  value : ∀ k E, (∀ i, |T k i - Xs i| ≤ E) → ∀ i, |y k i - Xs i| ≤ gamma * E
  copy : ∀ k i, T (k + 1) i = (1 - τ k) * T k i + τ k * X (k + 1) i
  rate : ∀ k, 0 ≤ τ k ∧ τ k ≤ 1

variable {X T Xs gamma c y τ}

theorem abs_mix {a p q s E : ℝ} (h0 : 0 ≤ a) (h1 : a ≤ 1) : |(1 - a) * p + a * q - s| ≤ (1 - a) * |p - s| + a * |q - s| := by
  have : (1 - a) * p + a * q - s = (1 - a) * (p - s) + a * (q - s) := by ring
  rw [this]
  refine (abs_add_le _ _).trans (le_of_eq ?_)
  rw [abs_mul, abs_mul, abs_of_nonneg h0, abs_of_nonneg (by linarith : 0 ≤ 1 - a)]

/-- Errors stay below a common bound. -/
theorem Moves.box (h : Moves X T Xs gamma c y τ) {E : ℝ} (hE : 0 ≤ E) {k₀ : ℕ} (hX : ∀ i, |X k₀ i - Xs i| ≤ E) (hT : ∀ i, |T k₀ i - Xs i| ≤ E) :
    ∀ k ≥ k₀, (∀ i, |X k i - Xs i| ≤ E) ∧ ∀ i, |T k i - Xs i| ≤ E := by
  intro k hk
  induction k, hk using Nat.le_induction with
  | base => exact ⟨hX, hT⟩
  | succ k hk ih =>
    obtain ⟨h1, h2⟩ := ih
    have hX' : ∀ i, |X (k + 1) i - Xs i| ≤ E := fun i => by
      obtain ⟨c0, c1⟩ := h.weight k i
      rw [h.step]
      have h3 := h.value k E h2 i
      have h4 := h.gamma_lt
      have h5 := h1 i
      have h6 : gamma * E ≤ E := by nlinarith
      have := abs_mix (p := X k i) (q := y k i) (s := Xs i) (E := E) c0 c1
      nlinarith
    refine ⟨hX', fun i => ?_⟩
    obtain ⟨c0, c1⟩ := h.rate k
    rw [h.copy]
    have := abs_mix (p := T k i) (q := X (k + 1) i) (s := Xs i) (E := E) c0 c1
    have h5 := h2 i
    have h6 := hX' i
    nlinarith

/-- The entries converge to the fixed point when every entry is moved, and the copy renewed, again and again. -/
theorem Moves.converges [Finite ι] (h : Moves X T Xs gamma c y τ) (hf : ∀ i, ∃ η > 0, ∃ᶠ k in atTop, η ≤ c k i)
    (hτ : ∃ η > 0, ∃ᶠ k in atTop, η ≤ τ k) (i : ι) :
    Tendsto (fun k => X k i) atTop (𝓝 (Xs i)) ∧ Tendsto (fun k => T k i) atTop (𝓝 (Xs i)) := by
  have := Fintype.ofFinite ι
  obtain ⟨g0, g1⟩ := (⟨h.gamma_nonneg, h.gamma_lt⟩ : 0 ≤ gamma ∧ gamma < 1)
  obtain ⟨E, hE0, hE⟩ : ∃ E, 0 < E ∧ ∀ i, |X 0 i - Xs i| ≤ E ∧ |T 0 i - Xs i| ≤ E := by
    refine ⟨(∑ i, (|X 0 i - Xs i| + |T 0 i - Xs i|)) + 1, ?_, fun i => ?_⟩
    · have : 0 ≤ ∑ i, (|X 0 i - Xs i| + |T 0 i - Xs i|) := Finset.sum_nonneg fun i _ => by positivity
      linarith
    · have := Finset.single_le_sum (f := fun i => |X 0 i - Xs i| + |T 0 i - Xs i|) (fun i _ => by positivity) (Finset.mem_univ i)
      have h1 := abs_nonneg (X 0 i - Xs i)
      have h2 := abs_nonneg (T 0 i - Xs i)
      constructor <;> linarith
  -- one round of shrinking
  have round : ∀ (D : ℝ), 0 < D → (∀ᶠ k in atTop, (∀ i, |X k i - Xs i| ≤ D) ∧ ∀ i, |T k i - Xs i| ≤ D) →
      ∀ᶠ k in atTop, (∀ i, |X k i - Xs i| ≤ (1 + gamma) / 2 * D) ∧ ∀ i, |T k i - Xs i| ≤ (1 + gamma) / 2 * D := by
    intro D hD hbox
    have hε : 0 < (1 - gamma) / 4 * D := by nlinarith
    have hX : ∀ i, ∀ᶠ k in atTop, |X k i - Xs i| ≤ gamma * D + (1 - gamma) / 4 * D := fun i => by
      obtain ⟨η, hη, hfi⟩ := hf i
      refine eventually_below (fun k => |X k i - Xs i|) (fun k => c k i) (gamma * D) η hη (fun k => h.weight k i) ?_ hfi _ hε
      refine hbox.mono fun k hk => ?_
      obtain ⟨c0, c1⟩ := h.weight k i
      beta_reduce
      rw [h.step]
      have := abs_mix (p := X k i) (q := y k i) (s := Xs i) (E := D) c0 c1
      have h3 := mul_le_mul_of_nonneg_left (h.value k D hk.2 i) c0
      linarith
    have hXall := eventually_all.2 hX
    have hT : ∀ i, ∀ᶠ k in atTop, |T k i - Xs i| ≤ gamma * D + (1 - gamma) / 4 * D + (1 - gamma) / 4 * D := fun i => by
      obtain ⟨η, hη, hfi⟩ := hτ
      refine eventually_below (fun k => |T k i - Xs i|) τ (gamma * D + (1 - gamma) / 4 * D) η hη h.rate ?_ hfi _ hε
      refine ((tendsto_add_atTop_nat 1).eventually hXall).mono fun k hk => ?_
      obtain ⟨c0, c1⟩ := h.rate k
      beta_reduce
      rw [h.copy]
      have := abs_mix (p := T k i) (q := X (k + 1) i) (s := Xs i) (E := D) c0 c1
      have h3 := mul_le_mul_of_nonneg_left (hk i) c0
      linarith
    refine (hXall.and (eventually_all.2 hT)).mono fun k hk => ⟨fun i => (hk.1 i).trans ?_, fun i => (hk.2 i).trans ?_⟩ <;> nlinarith
  have rounds : ∀ n : ℕ, ∀ᶠ k in atTop, (∀ i, |X k i - Xs i| ≤ ((1 + gamma) / 2) ^ n * E) ∧ ∀ i, |T k i - Xs i| ≤ ((1 + gamma) / 2) ^ n * E := by
    intro n
    induction n with
    | zero =>
      refine eventually_atTop.2 ⟨0, fun k hk => ?_⟩
      rw [pow_zero, one_mul]
      exact h.box hE0.le (fun i => (hE i).1) (fun i => (hE i).2) k hk
    | succ n ih =>
      have := round _ (mul_pos (pow_pos (by linarith) n) hE0) ih
      rw [pow_succ']
      simpa only [mul_assoc] using this
  have hlim : Tendsto (fun n : ℕ => ((1 + gamma) / 2) ^ n * E) atTop (𝓝 0) := by
    simpa using (tendsto_pow_atTop_nhds_zero_of_lt_one (by linarith : 0 ≤ (1 + gamma) / 2) (by linarith)).mul_const E
  constructor <;>
  · rw [Metric.tendsto_atTop]
    intro ε hε
    obtain ⟨n, hn⟩ := (hlim.eventually (gt_mem_nhds hε)).exists
    obtain ⟨N, hN⟩ := eventually_atTop.1 (rounds n)
    refine ⟨N, fun k hk => ?_⟩
    rw [Real.dist_eq]
    first
      | exact ((hN k hk).1 i).trans_lt hn
      | exact ((hN k hk).2 i).trans_lt hn

end Verif.AsyncIteration
