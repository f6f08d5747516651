import Mathlib.Probability.Distributions.Gaussian.Real
import Mathlib.MeasureTheory.Constructions.Pi
import Mathlib.Analysis.SpecialFunctions.Integrals.Basic
import Mathlib.Analysis.SpecialFunctions.Pow.Real
import Mathlib.Tactic.Ring
import Mathlib.Tactic.FieldSimp
import Mathlib.Tactic.Linarith
import Mathlib.Tactic.Positivity
import Verif.Model.Sampling

/-!
C102: the law of sampled actions.
-/

set_option autoImplicit false
set_option linter.unusedSectionVars false

namespace Verif.Sampling
open MeasureTheory Set

variable {n : Nat}

/-! ## argmax -/

theorem foldl_max (s : Fin (n + 1) → EReal) (l : List (Fin (n + 1))) (b : Fin (n + 1)) :
    s b ≤ s (l.foldl (fun b j => if s b < s j then j else b) b) ∧
    ∀ j ∈ l, s j ≤ s (l.foldl (fun b j => if s b < s j then j else b) b) := by
  induction l generalizing b with
  | nil => exact ⟨le_refl _, by simp⟩
  | cons x l ih =>
    simp only [List.foldl_cons, List.mem_cons, forall_eq_or_imp]
    obtain ⟨h1, h2⟩ := ih (if s b < s x then x else b)
    have hb : s b ≤ s (if s b < s x then x else b) := by split <;> order
    have hx : s x ≤ s (if s b < s x then x else b) := by split <;> order
    exact ⟨hb.trans h1, hx.trans h1, h2⟩

theorem le_argmax (s : Fin (n + 1) → EReal) (j : Fin (n + 1)) : s j ≤ s (argmax s) :=
  (foldl_max s _ 0).2 j (List.mem_finRange j)

theorem argmax_eq (s : Fin (n + 1) → EReal) (i : Fin (n + 1)) (h : ∀ j, j ≠ i → s j < s i) : argmax s = i := by
  by_contra hne
  exact absurd (le_argmax s i) (not_le.mpr (h _ hne))

/-! ## Where an action wins -/

/-- The open unit cube. -/
def cube (n : Nat) : Set (Fin n → ℝ) := {u | ∀ j, u j ∈ Ioo (0 : ℝ) 1}

theorem score_lt (p q u v : ℝ) (hp : 0 < p) (hq : 0 ≤ q) (hu : u ∈ Ioo (0 : ℝ) 1) (hv : v ∈ Ioo (0 : ℝ) 1)
    (h : v < u ^ (q / p)) : score q (gumbel v) < score p (gumbel u) := by
  unfold score
  rw [if_neg hp.ne']
  by_cases hq0 : q = 0
  · rw [if_pos hq0]; exact EReal.bot_lt_coe _
  rw [if_neg hq0, EReal.coe_lt_coe_iff]
  have hq' : 0 < q := lt_of_le_of_ne hq (Ne.symm hq0)
  have hlu : Real.log u < 0 := Real.log_neg hu.1 hu.2
  have hlv : Real.log v < 0 := Real.log_neg hv.1 hv.2
  have h1 : Real.log v < q / p * Real.log u := by
    have := Real.log_lt_log hv.1 h
    rwa [Real.log_rpow hu.1] at this
  have h2 : q * -Real.log u < p * -Real.log v := by
    have : p * Real.log v < p * (q / p * Real.log u) := mul_lt_mul_of_pos_left h1 hp
    have e : p * (q / p * Real.log u) = q * Real.log u := by field_simp
    linarith
  have h3 : Real.log (q * -Real.log u) < Real.log (p * -Real.log v) :=
    Real.log_lt_log (mul_pos hq' (by linarith)) h2
  rw [Real.log_mul hq0 (by linarith), Real.log_mul hp.ne' (by linarith)] at h3
  unfold gumbel
  linarith

/-- The draws for which action `i` wins. -/
def wins (p : Fin (n + 1) → ℝ) (i : Fin (n + 1)) : Set (Fin (n + 1) → ℝ) :=
  {u | u i ∈ Ioo (0 : ℝ) 1 ∧ ∀ k : Fin n, u (i.succAbove k) ∈ Ioo 0 (u i ^ (p (i.succAbove k) / p i))}

theorem wins_subset (p : Fin (n + 1) → ℝ) (hp : ∀ j, 0 ≤ p j) (i : Fin (n + 1)) (hi : 0 < p i) :
    wins p i ⊆ {u | u ∈ cube (n + 1) ∧ sampleRow p u = i} := by
  intro u hu
  have hc : u ∈ cube (n + 1) := fun j => by
    rcases Fin.eq_self_or_eq_succAbove i j with rfl | ⟨k, rfl⟩
    · exact hu.1
    · have := hu.2 k
      refine ⟨this.1, this.2.trans_le ?_⟩
      exact Real.rpow_le_one hu.1.1.le hu.1.2.le (div_nonneg (hp _) hi.le)
  refine ⟨hc, argmax_eq _ i fun j hj => ?_⟩
  obtain ⟨k, rfl⟩ := Fin.exists_succAbove_eq hj
  exact score_lt _ _ _ _ hi (hp _) (hc i) (hc _) (hu.2 k).2

theorem measurable_wins (p : Fin (n + 1) → ℝ) (i : Fin (n + 1)) : MeasurableSet (wins p i) := by
  have h1 : Measurable fun u : Fin (n + 1) → ℝ => u i := measurable_pi_apply i
  have e : wins p i = {u | 0 < u i} ∩ {u | u i < 1} ∩
      ⋂ k : Fin n, {u | 0 < u (i.succAbove k)} ∩ {u | u (i.succAbove k) < u i ^ (p (i.succAbove k) / p i)} := by
    ext u
    simp only [wins, mem_Ioo, mem_ofPred_eq, mem_inter_iff, mem_iInter]
  rw [e]
  refine ((measurableSet_lt measurable_const h1).inter (measurableSet_lt h1 measurable_const)).inter
    (MeasurableSet.iInter fun k => ?_)
  have h2 : Measurable fun u : Fin (n + 1) → ℝ => u (i.succAbove k) := measurable_pi_apply _
  exact (measurableSet_lt measurable_const h2).inter (measurableSet_lt h2 (h1.pow_const _))

theorem volume_wins (p : Fin (n + 1) → ℝ) (hp : ∀ j, 0 ≤ p j) (hs : ∑ j, p j = 1) (i : Fin (n + 1)) (hi : 0 < p i) :
    volume (wins p i) = ENNReal.ofReal (p i) := by
  have hmp := volume_preserving_piFinSuccAbove (fun _ : Fin (n + 1) => ℝ) i
  set T : Set (ℝ × (Fin n → ℝ)) :=
    {x | x.1 ∈ Ioo (0 : ℝ) 1 ∧ ∀ k, x.2 k ∈ Ioo 0 (x.1 ^ (p (i.succAbove k) / p i))} with hT
  have hpre : (MeasurableEquiv.piFinSuccAbove (fun _ : Fin (n + 1) => ℝ) i) ⁻¹' T = wins p i := by
    ext u
    simp [hT, wins, MeasurableEquiv.piFinSuccAbove, Fin.insertNthEquiv, Fin.removeNth]
  have hTm : MeasurableSet T := by
    rw [← MeasurableEquiv.measurableSet_preimage (MeasurableEquiv.piFinSuccAbove (fun _ : Fin (n + 1) => ℝ) i), hpre]
    exact measurable_wins p i
  rw [← hpre, hmp.measure_preimage hTm.nullMeasurableSet]
  have hsum : ∑ k, p (i.succAbove k) / p i = (1 - p i) / p i := by
    rw [← Finset.sum_div]
    congr 1
    rw [Fin.sum_univ_succAbove p i] at hs
    linarith
  show (volume.prod volume) T = _
  rw [Measure.prod_apply hTm]
  have hsec : ∀ t : ℝ, volume (Prod.mk t ⁻¹' T) =
      (Ioo (0 : ℝ) 1).indicator (fun t => ENNReal.ofReal (t ^ ((1 - p i) / p i))) t := by
    intro t
    by_cases ht : t ∈ Ioo (0 : ℝ) 1
    · rw [indicator_of_mem ht]
      have : Prod.mk t ⁻¹' T = Set.pi univ fun k => Ioo 0 (t ^ (p (i.succAbove k) / p i)) := by
        ext v
        simp only [hT, mem_preimage, mem_ofPred_eq, mem_pi, mem_univ, true_imp_iff]
        exact ⟨fun h => h.2, fun h => ⟨ht, h⟩⟩
      rw [this, volume_pi_pi]
      simp only [Real.volume_Ioo, sub_zero]
      rw [← ENNReal.ofReal_prod_of_nonneg fun k _ => Real.rpow_nonneg ht.1.le _, ← Real.rpow_sum_of_pos ht.1, hsum]
    · rw [indicator_of_notMem ht]
      have : Prod.mk t ⁻¹' T = ∅ := by
        ext v
        simp only [hT, mem_preimage, mem_ofPred_eq, mem_empty_iff_false, iff_false]
        exact fun h => ht h.1
      rw [this, measure_empty]
  simp only [hsec]
  rw [lintegral_indicator measurableSet_Ioo]
  have ha : 0 ≤ (1 - p i) / p i := by
    rw [← hsum]
    exact Finset.sum_nonneg fun k _ => div_nonneg (hp _) hi.le
  have hint : IntegrableOn (fun t : ℝ => t ^ ((1 - p i) / p i)) (Ioo 0 1) := by
    have := (intervalIntegral.intervalIntegrable_rpow' (a := 0) (b := 1) (r := (1 - p i) / p i) (by linarith))
    rw [intervalIntegrable_iff_integrableOn_Ioo_of_le zero_le_one] at this
    exact this
  rw [← ofReal_integral_eq_lintegral_ofReal hint]
  · congr 1
    rw [← integral_Ioc_eq_integral_Ioo, ← intervalIntegral.integral_of_le zero_le_one,
      integral_rpow (Or.inl (by linarith))]
    have e : (1 - p i) / p i + 1 = 1 / p i := by field_simp; ring
    rw [e, Real.one_rpow, Real.zero_rpow (by positivity)]
    field_simp
    ring
  · exact (ae_restrict_iff' measurableSet_Ioo).mpr (.of_forall fun t ht => Real.rpow_nonneg ht.1.le _)

theorem wins_disjoint (p : Fin (n + 1) → ℝ) (hp : ∀ j, 0 ≤ p j) (i j : Fin (n + 1)) (hi : 0 < p i) (hj : 0 < p j)
    (h : i ≠ j) : Disjoint (wins p i) (wins p j) :=
  Set.disjoint_left.mpr fun u h1 h2 =>
    h (((wins_subset p hp i hi h1).2).symm.trans (wins_subset p hp j hj h2).2)

theorem volume_cube : volume (cube n) = 1 := by
  have : cube n = Set.pi univ fun _ => Ioo (0 : ℝ) 1 := by ext u; simp [cube]
  rw [this, volume_pi_pi]
  simp

/-! ## C102 -/

/-- With independent uniform numbers in the open unit interval, a row's action is `i` with probability `p i`. -/
theorem C102_action_probability (p : Fin (n + 1) → ℝ) (hp : ∀ j, 0 ≤ p j) (hs : ∑ j, p j = 1) (i : Fin (n + 1)) :
    volume {u : Fin (n + 1) → ℝ | (∀ j, u j ∈ Ioo (0 : ℝ) 1) ∧ sampleRow p u = i} = ENNReal.ofReal (p i) := by
  classical
  -- the other actions' wins
  set J : Finset (Fin (n + 1)) := Finset.univ.filter fun j => j ≠ i ∧ 0 < p j with hJ
  have hmem : ∀ j, j ∈ J ↔ j ≠ i ∧ 0 < p j := fun j => by simp [hJ]
  have hU : volume (⋃ j ∈ J, wins p j) = ENNReal.ofReal (1 - p i) := by
    rw [measure_biUnion_finset (fun a ha b hb hab => wins_disjoint p hp a b ((hmem a).mp ha).2 ((hmem b).mp hb).2 hab)
      (fun j _ => measurable_wins p j)]
    rw [Finset.sum_congr rfl fun j hj => volume_wins p hp hs j ((hmem j).mp hj).2]
    rw [← ENNReal.ofReal_sum_of_nonneg fun j _ => hp j]
    congr 1
    have e : ∑ j ∈ J, p j = ∑ j ∈ Finset.univ.erase i, p j := by
      refine Finset.sum_subset (fun j hj => by simpa using ((hmem j).mp hj).1) fun j hj hj' => ?_
      by_contra h0
      exact hj' ((hmem j).mpr ⟨by simpa using hj, lt_of_le_of_ne (hp j) (Ne.symm h0)⟩)
    rw [e]
    have := Finset.add_sum_erase Finset.univ p (Finset.mem_univ i)
    linarith
  have hp1 : p i ≤ 1 := by
    rw [← hs]
    exact Finset.single_le_sum (fun j _ => hp j) (Finset.mem_univ i)
  refine le_antisymm ?_ ?_
  · have hsub : {u : Fin (n + 1) → ℝ | (∀ j, u j ∈ Ioo (0 : ℝ) 1) ∧ sampleRow p u = i} ⊆
        cube (n + 1) \ ⋃ j ∈ J, wins p j := by
      rintro u ⟨h1, h2⟩
      refine ⟨h1, fun h3 => ?_⟩
      simp only [mem_iUnion] at h3
      obtain ⟨j, hj, h4⟩ := h3
      exact ((hmem j).mp hj).1 ((wins_subset p hp j ((hmem j).mp hj).2 h4).2.symm.trans h2)
    refine (measure_mono hsub).trans ?_
    have hUm : MeasurableSet (⋃ j ∈ J, wins p j) := J.measurableSet_biUnion fun j _ => measurable_wins p j
    have hUs : (⋃ j ∈ J, wins p j) ⊆ cube (n + 1) :=
      iUnion₂_subset fun j hj u hu => (wins_subset p hp j ((hmem j).mp hj).2 hu).1
    rw [measure_sdiff hUs hUm.nullMeasurableSet (by rw [hU]; exact ENNReal.ofReal_ne_top), volume_cube, hU,
      ← ENNReal.ofReal_one, ← ENNReal.ofReal_sub _ (by linarith)]
    exact le_of_eq (by congr 1; ring)
  · rcases (hp i).eq_or_lt with h0 | h0
    · rw [← h0]; simp
    · rw [← volume_wins p hp hs i h0]
      exact measure_mono (wins_subset p hp i h0)

/-- The rows of a batch are sampled independently, each from its own probabilities. -/
theorem C102_batch {m : Nat} (p : Fin m → Fin (n + 1) → ℝ) (hp : ∀ k j, 0 ≤ p k j) (hs : ∀ k, ∑ j, p k j = 1)
    (a : Fin m → Fin (n + 1)) :
    volume {u : Fin m → Fin (n + 1) → ℝ | (∀ k j, u k j ∈ Ioo (0 : ℝ) 1) ∧ sampleDiscrete p u = a} =
      ∏ k, ENNReal.ofReal (p k (a k)) := by
  have e : {u : Fin m → Fin (n + 1) → ℝ | (∀ k j, u k j ∈ Ioo (0 : ℝ) 1) ∧ sampleDiscrete p u = a} =
      Set.pi univ fun k => {u : Fin (n + 1) → ℝ | (∀ j, u j ∈ Ioo (0 : ℝ) 1) ∧ sampleRow (p k) u = a k} := by
    ext u
    simp only [mem_ofPred_eq, mem_pi, mem_univ, true_imp_iff, sampleDiscrete, funext_iff]
    exact ⟨fun h k => ⟨h.1 k, h.2 k⟩, fun h => ⟨fun k => (h k).1, fun k => (h k).2⟩⟩
  rw [e, volume_pi_pi]
  exact Finset.prod_congr rfl fun k _ => C102_action_probability (p k) (hp k) (hs k) (a k)

/-- An action of probability 0 is never sampled, whatever is drawn. -/
theorem C102_impossible (p : Fin (n + 1) → ℝ) (u : Fin (n + 1) → ℝ) (h : ∃ j, p j ≠ 0) : p (sampleRow p u) ≠ 0 := by
  intro h0
  obtain ⟨j, hj⟩ := h
  have h1 := le_argmax (fun j => score (p j) (gumbel (u j))) j
  have h2 : score (p (sampleRow p u)) (gumbel (u (sampleRow p u))) = ⊥ := by rw [score, if_pos h0]
  rw [show argmax (fun j => score (p j) (gumbel (u j))) = sampleRow p u from rfl, h2] at h1
  rw [score, if_neg hj] at h1
  exact absurd h1 (not_le.mpr (EReal.bot_lt_coe _))

/-- With a standard normal number, a sample of a Gaussian distribution has its mean and variance and is normal. -/
theorem C102_gaussian (mean : ℝ) (var : NNReal) (hv : 0 < var) :
    (ProbabilityTheory.gaussianReal 0 1).map (fun z => sampleGaussian mean var z) =
      ProbabilityTheory.gaussianReal mean var := by
  have e : (fun z => sampleGaussian mean var z) = (fun y => mean + y) ∘ fun z => Real.exp (Real.log var / 2) * z := rfl
  rw [e, ← Measure.map_map (by fun_prop) (by fun_prop), ProbabilityTheory.gaussianReal_map_const_mul,
    ProbabilityTheory.gaussianReal_map_const_add]
  congr 1
  · simp
  · ext
    simp only [mul_one, NNReal.coe_mk]
    rw [← Real.exp_nat_mul]
    have : ((2 : ℕ) : ℝ) * (Real.log var / 2) = Real.log var := by push_cast; ring
    rw [this, Real.exp_log (by exact_mod_cast hv)]

/-- Of the probabilities 1/2, 0, 1/2: each of the outer actions half of the time. -/
example : volume {u : Fin 3 → ℝ | (∀ j, u j ∈ Ioo (0 : ℝ) 1) ∧ sampleRow ![1 / 2, 0, 1 / 2] u = 2} =
    ENNReal.ofReal (1 / 2) := by
  refine (C102_action_probability ![1 / 2, 0, 1 / 2] (fun j => ?_) ?_ 2).trans ?_
  · fin_cases j <;> simp
  · simp [Fin.sum_univ_three]; norm_num
  · simp

/-- **C102**: the sampled action of a deterministic policy is its output with probability 1, whatever else is random. -/
theorem C102_deterministic {Ω α : Type} [MeasurableSpace Ω] [MeasurableSpace α] (μ : Measure Ω) [IsProbabilityMeasure μ] (x : α) :
    μ.map (fun _ => sampleDeterministic x) = Measure.dirac x := by
  simp [sampleDeterministic, Measure.map_const]

example : (volume.restrict (Ioo (0 : ℝ) 1)).map (fun _ => sampleDeterministic (3 : ℝ)) = Measure.dirac 3 :=
  haveI : IsProbabilityMeasure (volume.restrict (Ioo (0 : ℝ) 1)) := ⟨by simp⟩
  C102_deterministic _ 3

end Verif.Sampling
