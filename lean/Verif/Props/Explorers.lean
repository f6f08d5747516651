import Mathlib.Probability.Independence.InfinitePi
import Mathlib.Probability.ProductMeasure
import Mathlib.Data.Fin.VecNotation
import Mathlib.Tactic.NormNum
import Verif.Proofs.Explorers

set_option autoImplicit false
set_option linter.unusedSectionVars false

namespace Verif
open Explorers Real MeasureTheory ProbabilityTheory

variable {n : Nat}

/-- C79, bounds: whatever noise is drawn, every component of an action selected by
`AdditiveGaussian` is at most `high` if there is an upper bound, and at least `low` if
there is a lower bound (not above the upper one). -/
theorem C79_gaussian_bounds (c : AdditiveGaussian n) (a z : Fin n → ℝ) (i : Fin n) :
    (∀ h, c.high = some h → c.select a z i ≤ h i) ∧
    (∀ l, c.low = some l → (∀ h, c.high = some h → l i ≤ h i) → l i ≤ c.select a z i) := by
  obtain ⟨s, lo, hi⟩ := c
  unfold AdditiveGaussian.select npClip
  cases lo <;> cases hi <;> simp

example : ∃ c : AdditiveGaussian 1, c.low = some ![-1] ∧ c.high = some ![1] ∧
    c.select ![0] ![5] 0 = 1 := by
  refine ⟨⟨![1], some ![-1], some ![1]⟩, rfl, rfl, ?_⟩
  simp [AdditiveGaussian.select, npClip]

/-- C79: the action is the greedy one plus the scaled noise wherever that respects the
bounds; and if the greedy action respects the bounds, clipping never moves the action
away from it: the deviation has the sign of the noise and at most its size. -/
theorem C79_gaussian_noise (c : AdditiveGaussian n) (a z : Fin n → ℝ) (i : Fin n) :
    ((∀ l, c.low = some l → l i ≤ a i + c.scale i * z i) →
      (∀ h, c.high = some h → a i + c.scale i * z i ≤ h i) → c.select a z i = a i + c.scale i * z i) ∧
    ((∀ l, c.low = some l → l i ≤ a i) → (∀ h, c.high = some h → a i ≤ h i) →
      |c.select a z i - a i| ≤ |c.scale i * z i| ∧
      0 ≤ (c.select a z i - a i) * (c.scale i * z i)) := by
  obtain ⟨s, lo, hi⟩ := c
  constructor
  · unfold AdditiveGaussian.select npClip
    cases lo <;> cases hi <;> simp +contextual
  · intro hl hh
    have key : ∃ w, AdditiveGaussian.select ⟨s, lo, hi⟩ a z i = a i + w ∧
        ((0 ≤ w ∧ w ≤ s i * z i) ∨ (w ≤ 0 ∧ s i * z i ≤ w)) := by
      refine ⟨AdditiveGaussian.select ⟨s, lo, hi⟩ a z i - a i, by ring, ?_⟩
      generalize hw : s i * z i = w
      have aux : ∀ x y : ℝ, y ≤ x → (0 ≤ w → max (x + w) y = x + w) ∧
          (w ≤ 0 → x + w ≤ max (x + w) y ∧ max (x + w) y ≤ x) := by
        intro x y h
        refine ⟨fun h' => max_eq_left (by linarith), fun h' => ⟨le_max_left _ _, max_le (by linarith) h⟩⟩
      unfold AdditiveGaussian.select npClip
      rcases le_total 0 w with h0 | h0
      · left
        cases lo with
        | none =>
          cases hi with
          | none => simp [hw, h0]
          | some h =>
            have := hh h rfl
            simp only [Option.isSome_none, Option.isSome_some, Bool.or_true, if_true, hw]
            exact ⟨by have : a i ≤ min (a i + w) (h i) := le_min (by linarith) this
                      linarith, by have := min_le_left (a i + w) (h i); linarith⟩
        | some l =>
          have e := (aux (a i) (l i) (hl l rfl)).1 h0
          cases hi with
          | none =>
            simp only [Option.isSome_none, Option.isSome_some, Bool.true_or, if_true, hw, e]
            exact ⟨by linarith, by linarith⟩
          | some h =>
            have := hh h rfl
            simp only [Option.isSome_some, Bool.true_or, if_true, hw, e]
            exact ⟨by have : a i ≤ min (a i + w) (h i) := le_min (by linarith) this
                      linarith, by have := min_le_left (a i + w) (h i); linarith⟩
      · right
        cases lo with
        | none =>
          cases hi with
          | none => simp [hw, h0]
          | some h =>
            have := hh h rfl
            simp only [Option.isSome_none, Option.isSome_some, Bool.or_true, if_true, hw]
            rw [min_eq_left (by linarith)]
            exact ⟨by linarith, by linarith⟩
        | some l =>
          have e := (aux (a i) (l i) (hl l rfl)).2 h0
          cases hi with
          | none =>
            simp only [Option.isSome_none, Option.isSome_some, Bool.true_or, if_true, hw]
            exact ⟨by linarith, by linarith⟩
          | some h =>
            have := hh h rfl
            simp only [Option.isSome_some, Bool.true_or, if_true, hw]
            rw [min_eq_left (by linarith)]
            exact ⟨by linarith, by linarith⟩
    obtain ⟨w, e, h⟩ := key
    simp only [e, add_sub_cancel_left]
    rcases h with ⟨h1, h2⟩ | ⟨h1, h2⟩
    · exact ⟨by rw [abs_of_nonneg h1, abs_of_nonneg (h1.trans h2)]; exact h2,
        mul_nonneg h1 (h1.trans h2)⟩
    · exact ⟨by rw [abs_of_nonpos h1, abs_of_nonpos (h2.trans h1)]; linarith,
        mul_nonneg_of_nonpos_of_nonpos h1 (h2.trans h1)⟩

example : ∃ c : AdditiveGaussian 1, c.low = some ![-1] ∧ c.high = none ∧
    c.select ![0] ![5] 0 = 5 ∧ c.select ![0] ![-5] 0 = -1 := by
  refine ⟨⟨![1], some ![-1], none⟩, rfl, rfl, ?_, ?_⟩ <;>
  · simp [AdditiveGaussian.select, npClip]
    try norm_num

/-- C79, Ornstein-Uhlenbeck noise: the noise added by a new `AdditiveOU` starts at `mu`
(`start_with_mu`) or at `mu` plus a normal number of the stationary scale, and moves by
`theta * (mu - x)` plus normal noise of scale `sigma`, independently of the actions. -/
theorem C79_ou_recursion (c : OU n) (a z : Nat → Fin n → ℝ) (k : Nat) (i : Fin n) :
    (c.startWithMu = true → c.action a z 0 i - a 0 i = c.mu) ∧
    (c.startWithMu = false → c.action a z 0 i - a 0 i =
      c.mu + c.sigma i / √(2 * c.theta - c.theta ^ 2) * z 0 i) ∧
    (c.action a z (k + 1) i - a (k + 1) i) - (c.action a z k i - a k i) =
      c.theta * (c.mu - (c.action a z k i - a k i)) + c.sigma i * z (k + 1) i := by
  simp only [OU.action_eq, add_sub_cancel_left, OU.noise_zero, OU.noise_succ]
  refine ⟨?_, ?_, ?_⟩
  · intro h; unfold OU.first; simp [h]
  · intro h; unfold OU.first; simp [h]
  · unfold OU.evolve; ring

/-- C79, law of the noise: for independent standard normal draws, `0 < theta < 2` and any
greedy actions, component `i` of the action of the `k`-th call is normal around the greedy
action plus `mu`; its variance is the stationary `sigma² / (2 theta - theta²)` in every
call, or with `start_with_mu` grows from zero towards it by the factor
`1 - (1 - theta)^(2k)`. -/
theorem C79_ou_law {Ω : Type} [MeasurableSpace Ω] {P : Measure Ω} (c : OU n)
    (h0 : 0 < c.theta) (h2 : c.theta < 2) (a : Nat → Fin n → ℝ) (i : Fin n)
    (Z : Nat → Ω → Fin n → ℝ) (hm : ∀ k, Measurable fun ω => Z k ω i)
    (hlaw : ∀ k, P.map (fun ω => Z k ω i) = gaussianReal 0 1)
    (hind : iIndepFun (fun k ω => Z k ω i) P) (k : Nat) :
    P.map (fun ω => c.action a (fun j => Z j ω) k i) =
      gaussianReal (c.mu + a k i) (Real.toNNReal (c.sigma i ^ 2 / (2 * c.theta - c.theta ^ 2) *
        (1 - if c.startWithMu then (1 - c.theta) ^ (2 * k) else 0))) := by
  have h := c.noise_law h0 h2 a i Z hm hlaw hind k
  obtain ⟨g, hg, hgz⟩ := c.noise_factors a i k
  have hmn : Measurable fun ω => c.noise a (fun j => Z j ω) k i := by
    simp only [hgz]
    exact hg.comp (measurable_pi_lambda _ fun j => hm j)
  have e : (fun ω => c.action a (fun j => Z j ω) k i) =
      (fun x => a k i + x) ∘ fun ω => c.noise a (fun j => Z j ω) k i := rfl
  rw [e, ← Measure.map_map (by fun_prop) hmn, h, gaussianReal_map_const_add]
  rfl

/-- Independent standard normal draws exist. -/
example : ∃ (Ω : Type) (_ : MeasurableSpace Ω) (P : Measure Ω) (Z : Nat → Ω → Fin 1 → ℝ),
    (∀ k, Measurable fun ω => Z k ω 0) ∧ (∀ k, P.map (fun ω => Z k ω 0) = gaussianReal 0 1) ∧
    iIndepFun (fun k ω => Z k ω 0) P := by
  refine ⟨Nat → ℝ, inferInstance, Measure.infinitePi (fun _ => gaussianReal 0 1), fun k ω _ => ω k,
    fun k => by fun_prop, fun k => ?_, ?_⟩
  · exact Measure.infinitePi_map_eval _ k
  · exact iIndepFun_infinitePi (X := fun _ x => x) (P := fun _ => gaussianReal 0 1) (fun _ => measurable_id)

/-- C79, Boltzmann exploration: probabilities are positive, sum to one, and the ratio of
two of them is `exp((q_i - q_j) / T)`; so for positive `T` a larger value has the larger
probability. -/
theorem C79_boltzmann_prob (T : ℝ) (q : Fin n → ℝ) :
    (∀ i, 0 < boltzmannProb T q i) ∧ (0 < n → ∑ i, boltzmannProb T q i = 1) ∧
    (∀ i j, boltzmannProb T q i / boltzmannProb T q j = exp ((q i - q j) / T)) ∧
    (0 < T → ∀ i j, q i < q j → boltzmannProb T q i < boltzmannProb T q j) := by
  have hs : ∀ _ : Fin n, 0 < ∑ j, exp (q j / T) := fun i =>
    Finset.sum_pos (fun j _ => exp_pos _) ⟨i, Finset.mem_univ _⟩
  unfold boltzmannProb Distrib.softmax
  refine ⟨fun i => div_pos (exp_pos _) (hs i), ?_, ?_, ?_⟩
  · intro hn
    rw [← Finset.sum_div]
    exact div_self (hs ⟨0, hn⟩).ne'
  · intro i j
    rw [div_div_div_cancel_right₀ (hs i).ne', ← exp_sub, sub_div]
  · intro hT i j h
    exact div_lt_div_of_pos_right (exp_lt_exp.2 (div_lt_div_of_pos_right h hT)) (hs i)

/-- C79: for a uniform draw the action `i` is chosen exactly on an interval of length its
probability; the action chosen is always one of the `n`. -/
theorem C79_boltzmann_choice (T : ℝ) (q : Fin n → ℝ) (hn : 0 < n) :
    (∀ u ∈ Set.Ico (0 : ℝ) 1, boltzmannSelect T q u < n) ∧
    ∀ i : Fin n, volume {u ∈ Set.Ico (0 : ℝ) 1 | boltzmannSelect T q u = i} =
      ENNReal.ofReal (boltzmannProb T q i) := by
  obtain ⟨hp, hsum, -, -⟩ := C79_boltzmann_prob T q
  have hsum := hsum hn
  unfold boltzmannSelect
  generalize boltzmannProb T q = p at hp hsum
  have hc : ∀ u, choice p u = (Finset.univ.filter fun k => (∑ j ∈ Finset.Iic k, p j) ≤ u).card := by
    intro u; unfold choice; rw [hsum]; simp
  have mono : ∀ k l : Fin n, k ≤ l → ∑ j ∈ Finset.Iic k, p j ≤ ∑ j ∈ Finset.Iic l, p j := by
    intro k l h
    exact Finset.sum_le_sum_of_subset_of_nonneg (Finset.Iic_subset_Iic.2 h) fun j _ _ => (hp j).le
  have key : ∀ (u : ℝ) (i : Fin n), choice p u = i ↔
      (∀ k < i, ∑ j ∈ Finset.Iic k, p j ≤ u) ∧ u < ∑ j ∈ Finset.Iic i, p j := by
    intro u i
    rw [hc]
    constructor
    · intro h
      constructor
      · intro k hk
        by_contra hu
        have hsub : (Finset.univ.filter fun k => (∑ j ∈ Finset.Iic k, p j) ≤ u) ⊆ Finset.Iio k := by
          intro l hl
          simp only [Finset.mem_filter, Finset.mem_univ, true_and] at hl
          rw [Finset.mem_Iio]
          by_contra hlk
          exact hu ((mono k l (not_lt.1 hlk)).trans hl)
        have := Finset.card_le_card hsub
        rw [h, Fin.card_Iio] at this
        exact absurd hk (not_lt.2 this)
      · by_contra hu
        have hsub : Finset.Iic i ⊆ (Finset.univ.filter fun k => (∑ j ∈ Finset.Iic k, p j) ≤ u) := by
          intro l hl
          rw [Finset.mem_Iic] at hl
          simp only [Finset.mem_filter, Finset.mem_univ, true_and]
          exact (mono l i hl).trans (not_lt.1 hu)
        have := Finset.card_le_card hsub
        rw [h, Fin.card_Iic] at this
        omega
    · rintro ⟨h1, h2⟩
      have : (Finset.univ.filter fun k => (∑ j ∈ Finset.Iic k, p j) ≤ u) = Finset.Iio i := by
        ext k
        simp only [Finset.mem_filter, Finset.mem_univ, true_and, Finset.mem_Iio]
        constructor
        · intro h
          by_contra hk
          exact absurd (h2.trans_le (mono i k (not_lt.1 hk))) (not_lt.2 h)
        · exact h1 k
      rw [this, Fin.card_Iio]
  constructor
  · rintro u ⟨-, hu⟩
    by_contra h
    have hfull : choice p u = n := by
      refine le_antisymm ?_ (not_lt.1 h)
      rw [hc]
      exact (Finset.card_le_univ _).trans (by simp)
    rw [hc] at hfull
    have hall : (Finset.univ.filter fun k => (∑ j ∈ Finset.Iic k, p j) ≤ u) = Finset.univ :=
      Finset.eq_univ_of_card _ (by simpa using hfull)
    have hlast := Finset.mem_univ (⟨n - 1, by omega⟩ : Fin n)
    rw [← hall] at hlast
    simp only [Finset.mem_filter, Finset.mem_univ, true_and] at hlast
    have : Finset.Iic (⟨n - 1, by omega⟩ : Fin n) = Finset.univ := by
      ext k; simp only [Finset.mem_Iic, Finset.mem_univ, iff_true, Fin.le_def]; omega
    rw [this, hsum] at hlast
    linarith
  · intro i
    have e : {u ∈ Set.Ico (0 : ℝ) 1 | choice p u = i} =
        Set.Ico (∑ j ∈ Finset.Iio i, p j) (∑ j ∈ Finset.Iic i, p j) := by
      have hle1 : ∑ j ∈ Finset.Iic i, p j ≤ 1 := by
        rw [← hsum]
        exact Finset.sum_le_sum_of_subset_of_nonneg (Finset.subset_univ _) fun j _ _ => (hp j).le
      have hge0 : 0 ≤ ∑ j ∈ Finset.Iio i, p j := Finset.sum_nonneg fun j _ => (hp j).le
      ext u
      simp only [Set.mem_ofPred_eq, Set.mem_Ico, key]
      constructor
      · rintro ⟨⟨h0, -⟩, h1, h2⟩
        refine ⟨?_, h2⟩
        by_cases hi : i.val = 0
        · have : Finset.Iio i = ∅ := by
            ext k; simp only [Finset.mem_Iio, Fin.lt_def, hi]; simp
          rw [this]; simpa using h0
        · have : Finset.Iio i = Finset.Iic (⟨i.val - 1, by omega⟩ : Fin n) := by
            ext k; simp only [Finset.mem_Iio, Finset.mem_Iic, Fin.lt_def, Fin.le_def]; omega
          rw [this]
          exact h1 _ (by simp only [Fin.lt_def]; omega)
      · rintro ⟨h1, h2⟩
        refine ⟨⟨hge0.trans h1, h2.trans_le hle1⟩, ?_, h2⟩
        intro k hk
        refine le_trans (Finset.sum_le_sum_of_subset_of_nonneg ?_ fun j _ _ => (hp j).le) h1
        intro l hl
        simp only [Finset.mem_Iic, Finset.mem_Iio] at hl ⊢
        exact lt_of_le_of_lt hl hk
    rw [e, Real.volume_Ico]
    congr 1
    have : Finset.Iic i = insert i (Finset.Iio i) := by
      ext k; simp only [Finset.mem_Iic, Finset.mem_insert, Finset.mem_Iio]; exact le_iff_eq_or_lt
    rw [this, Finset.sum_insert (by simp)]
    ring

example : boltzmannProb 1 ![0, Real.log 3] 1 = 3 / 4 := by
  simp [boltzmannProb, Distrib.softmax, Real.exp_log]; norm_num

end Verif
