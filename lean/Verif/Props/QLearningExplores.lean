import Verif.Props.QLearningExists
import Mathlib.Analysis.PSeries

/-!
# C155: exploration

If within some number of steps every state and action is tried with a probability that stays above a positive bound, whatever happened before, the values converge to the optimal ones almost surely.
-/

set_option autoImplicit false
set_option linter.unusedSectionVars false

open Filter Topology MeasureTheory ProbabilityTheory

namespace Verif.QLearning
open ActionValue Targets MDP ValueLoss TabularDQN UniformDraws

/-! ## Sums over windows -/

theorem sum_windows (f : ℕ → ℝ) (n M : ℕ) : ∑ k ∈ Finset.range (M * n), f k = ∑ m ∈ Finset.range M, ∑ i ∈ Finset.range n, f (m * n + i) := by
  induction M with
  | zero => simp
  | succ M ih => rw [Nat.succ_mul, Finset.sum_range_add, ih, Finset.sum_range_succ]

theorem windows_le (f : ℕ → ℝ) (hf : ∀ k, 0 ≤ f k) (n M : ℕ) (hn : 0 < n) : ∑ m ∈ Finset.range M, f (m * n + (n - 1)) ≤ ∑ k ∈ Finset.range (M * n), f k := by
  rw [sum_windows]
  exact Finset.sum_le_sum fun m _ => Finset.single_le_sum (f := fun i => f (m * n + i)) (fun i _ => hf _) (Finset.mem_range.2 (by omega))

theorem windows_diverge (f : ℕ → ℝ) (hf : Antitone f) (n : ℕ) (hn : 0 < n) (h : Tendsto (fun m => ∑ k ∈ Finset.range m, f k) atTop atTop) :
    Tendsto (fun M => ∑ m ∈ Finset.range M, f (m * n + (n - 1))) atTop atTop := by
  have h1 : ∀ M, ∑ k ∈ Finset.range ((M + 1) * n), f k ≤ n * f 0 + n * ∑ m ∈ Finset.range M, f (m * n + (n - 1)) := by
    intro M
    induction M with
    | zero =>
      simp only [Nat.zero_add, one_mul, Finset.range_zero, Finset.sum_empty, mul_zero, add_zero]
      calc _ ≤ ∑ _k ∈ Finset.range n, f 0 := Finset.sum_le_sum fun k _ => hf (Nat.zero_le k)
        _ = _ := by simp
    | succ M ih =>
      rw [Nat.succ_mul, Finset.sum_range_add, Finset.sum_range_succ]
      have : ∑ i ∈ Finset.range n, f ((M + 1) * n + i) ≤ n * f (M * n + (n - 1)) :=
        calc _ ≤ ∑ _i ∈ Finset.range n, f (M * n + (n - 1)) := Finset.sum_le_sum fun i _ => hf (by rw [Nat.succ_mul]; omega)
          _ = _ := by simp
      linarith
  have h2 : Tendsto (fun M => ∑ k ∈ Finset.range ((M + 1) * n), f k) atTop atTop := by
    refine h.comp (tendsto_atTop_mono (fun M => ?_) tendsto_id)
    show M ≤ (M + 1) * n
    nlinarith
  have h3 := tendsto_atTop_mono h1 h2
  have h4 : Tendsto (fun M => (n : ℝ) * ∑ m ∈ Finset.range M, f (m * n + (n - 1))) atTop atTop := by
    have := tendsto_atTop_add_const_left atTop (-(n * f 0)) h3
    simpa using this
  exact (tendsto_const_mul_atTop_of_pos (by exact_mod_cast hn)).1 h4

variable {S Ω : Type} {mΩ : MeasurableSpace Ω}

/-- Events that keep a positive probability, whatever happened before, carry infinitely much of a divergent sum. -/
theorem hits_diverge (μ : Measure Ω) [IsProbabilityMeasure μ] (𝒢 : Filtration ℕ mΩ) (A : ℕ → Set Ω) (hA : ∀ m, MeasurableSet[𝒢 (m + 1)] (A m)) (c : ℕ → ℝ) (hc : ∀ m, 0 ≤ c m) (C : ℝ)
    (hC : ∀ M, ∑ m ∈ Finset.range M, c m ^ 2 ≤ C) (hd : Tendsto (fun M => ∑ m ∈ Finset.range M, c m) atTop atTop) (p : ℝ) (hp : 0 < p)
    (h : ∀ m, (fun _ => p) ≤ᵐ[μ] μ[Set.indicator (A m) (fun _ => (1 : ℝ)) | 𝒢 m]) :
    ∀ᵐ ω ∂μ, Tendsto (fun M => ∑ m ∈ Finset.range M, c m * Set.indicator (A m) (fun _ => (1 : ℝ)) ω) atTop atTop := by
  let I : ℕ → Ω → ℝ := fun m => Set.indicator (A m) fun _ => 1
  have hI : ∀ m, Integrable (I m) μ := fun m => (integrable_const _).indicator (𝒢.le _ _ (hA m))
  have hI0 : ∀ m ω, 0 ≤ I m ω ∧ I m ω ≤ 1 := fun m ω => by
    simp only [I, Set.indicator]
    split <;> norm_num
  let E : ℕ → Ω → ℝ := fun m ω => max 0 (min 1 ((μ[I m | 𝒢 m]) ω))
  have hEm : ∀ m, StronglyMeasurable[𝒢 m] (E m) := fun m =>
    (show Continuous fun x : ℝ => max 0 (min 1 x) from continuous_const.max (continuous_const.min continuous_id)).comp_stronglyMeasurable stronglyMeasurable_condExp
  have hE0 : ∀ m ω, 0 ≤ E m ω ∧ E m ω ≤ 1 := fun m ω => ⟨le_max_left _ _, max_le zero_le_one (min_le_left _ _)⟩
  have hE : ∀ m, μ[I m | 𝒢 m] =ᵐ[μ] E m := fun m => by
    have h1 : 0 ≤ᵐ[μ] μ[I m | 𝒢 m] := condExp_nonneg (Eventually.of_forall fun ω => (hI0 m ω).1)
    have h2 : μ[I m | 𝒢 m] ≤ᵐ[μ] μ[fun _ => (1 : ℝ) | 𝒢 m] := condExp_mono (hI m) (integrable_const _) (Eventually.of_forall fun ω => (hI0 m ω).2)
    rw [condExp_const (𝒢.le m)] at h2
    filter_upwards [h1, h2] with ω h1 h2
    have h1 : 0 ≤ (μ[I m | 𝒢 m]) ω := h1
    simp only [E]
    rw [min_eq_right h2, max_eq_right h1]
  have hEi : ∀ m, Integrable (E m) μ := fun m => integrable_condExp.congr (hE m)
  have hn := StochasticApproximation.noise_series μ 𝒢 (fun m ω => c m * (I m ω - E m ω)) (fun m => ?_) C (fun M ω => ?_) fun m => ?_
  · have h2 : ∀ᵐ ω ∂μ, ∀ m, p ≤ (μ[I m | 𝒢 m]) ω ∧ (μ[I m | 𝒢 m]) ω = E m ω := ae_all_iff.2 fun m => by
      filter_upwards [h m, hE m] with ω h1 h2 using ⟨h1, h2⟩
    filter_upwards [hn, h2] with ω hω h2
    obtain ⟨L, hL⟩ := hω
    have h3 : Tendsto (fun M => ∑ m ∈ Finset.range M, c m * E m ω) atTop atTop := by
      refine tendsto_atTop_mono (fun M => ?_) (hd.const_mul_atTop hp)
      rw [Finset.mul_sum]
      refine Finset.sum_le_sum fun m _ => ?_
      have := h2 m
      nlinarith [hc m]
    refine (hL.add_atTop h3).congr fun M => ?_
    rw [← Finset.sum_add_distrib]
    exact Finset.sum_congr rfl fun m _ => by ring
  · have h1 : StronglyMeasurable[𝒢 (m + 1)] (I m) := (@stronglyMeasurable_const _ _ (𝒢 (m + 1)) _ _).indicator (hA m)
    exact (h1.sub ((hEm m).mono (𝒢.mono (Nat.le_succ m)))).const_mul (c m)
  · refine (Finset.sum_le_sum fun m _ => ?_).trans (hC M)
    have h1 := hI0 m ω
    have h2 := hE0 m ω
    rw [mul_pow]
    have h3 : (I m ω - E m ω) ^ 2 ≤ 1 := by rw [sq_le_one_iff_abs_le_one, abs_le]; constructor <;> linarith
    nlinarith [sq_nonneg (c m)]
  · have e : (fun ω => c m * (I m ω - E m ω)) = c m • (I m - E m) := rfl
    rw [e]
    refine (condExp_smul _ _ _).trans ?_
    filter_upwards [condExp_sub (hI m) (hEi m) (𝒢 m), hE m] with ω h1 h2
    rw [Pi.smul_apply, h1, Pi.sub_apply, h2, condExp_of_stronglyMeasurable (𝒢.le m) (hEm m) (hEi m)]
    simp

variable [DecidableEq S] {env : Env S ℝ} {gamma : ℝ} {mean : Bool} {μ : Measure Ω} {ℱ : Filtration ℕ mΩ} {v : ℕ → Ω → Visit S} {j : ℕ → Ω → ℕ} {lr : ℕ → ℝ} {tau : ℕ → ℝ}
  {Q T : Ω → ℕ → S → List ℝ}

/-- Whatever is learned: the learning rates at the visits of each pair have an infinite sum. -/
theorem visits_diverge [Finite S] [IsProbabilityMeasure μ] (hs : Samples env μ ℱ v j (fun k _ => lr k)) (hlr : ∀ k, 0 ≤ lr k)
    (hdec : Antitone lr) (hsum : Tendsto (fun m => ∑ k ∈ Finset.range m, lr k) atTop atTop) (C : ℝ) (hC : ∀ m, ∑ k ∈ Finset.range m, lr k ^ 2 ≤ C)
    (𝒢 : Filtration ℕ mΩ) (hord : ∀ k, ℱ k ≤ 𝒢 (k + 1)) (n : ℕ) (hn1 : 0 < n) (p : ℝ) (hp : 0 < p)
    (hexp : ∀ s a, a < env.nA → ∀ m, (fun _ => p) ≤ᵐ[μ] μ[Set.indicator {ω | ∃ i < n, (v (m * n + i) ω).state = s ∧ (v (m * n + i) ω).action = a} (fun _ => (1 : ℝ)) | 𝒢 (m * n)]) :
    ∀ᵐ ω ∂μ, ∀ (s : S) (a : Fin env.nA), Tendsto (fun m => ∑ k ∈ Finset.range m, if (v k ω).state = s ∧ (v k ω).action = (a : ℕ) then lr k else 0) atTop atTop := by
  have key : ∀ s a, a < env.nA → ∀ᵐ ω ∂μ, Tendsto (fun m => ∑ k ∈ Finset.range m, if (v k ω).state = s ∧ (v k ω).action = a then lr k else 0) atTop atTop := by
    intro s a ha
    let 𝒢' : Filtration ℕ mΩ := ⟨fun m => 𝒢 (m * n), fun x y hxy => 𝒢.mono (Nat.mul_le_mul_right n hxy), fun m => 𝒢.le _⟩
    have hA : ∀ m, MeasurableSet[𝒢' (m + 1)] {ω | ∃ i < n, (v (m * n + i) ω).state = s ∧ (v (m * n + i) ω).action = a} := by
      intro m
      have e : {ω | ∃ i < n, (v (m * n + i) ω).state = s ∧ (v (m * n + i) ω).action = a} =
          ⋃ i : Fin n, {ω | (v (m * n + i) ω).state = s} ∩ {ω | (v (m * n + i) ω).action = a} := by
        ext ω
        simp only [Set.mem_ofPred_eq, Set.mem_iUnion, Set.mem_inter_iff]
        exact ⟨fun ⟨i, hi, h⟩ => ⟨⟨i, hi⟩, h⟩, fun ⟨i, h⟩ => ⟨i, i.2, h⟩⟩
      rw [e]
      refine MeasurableSet.iUnion fun i => ?_
      have hle : ℱ (m * n + i) ≤ 𝒢' (m + 1) := (hord _).trans (𝒢.mono (by rw [Nat.succ_mul]; have := i.2; omega))
      exact (hle _ (hs.state _ _)).inter (hle _ (hs.action _ _))
    have hh := hits_diverge μ 𝒢' _ hA (fun m => lr (m * n + (n - 1))) (fun m => hlr _) C (fun M => (windows_le (fun k => lr k ^ 2) (fun k => sq_nonneg _) n M hn1).trans (hC _))
      (windows_diverge lr hdec n hn1 hsum) p hp (hexp s a ha)
    filter_upwards [hh] with ω hω
    refine tendsto_atTop_atTop_of_monotone (monotone_nat_of_le_succ fun m => ?_) fun b => ?_
    · rw [Finset.sum_range_succ]
      have := hlr m
      split <;> linarith
    · obtain ⟨M, hM⟩ := (hω.eventually_ge_atTop b).exists
      refine ⟨M * n, hM.trans ?_⟩
      rw [sum_windows]
      refine Finset.sum_le_sum fun m _ => ?_
      have hnn : ∀ i ∈ Finset.range n, 0 ≤ (if (v (m * n + i) ω).state = s ∧ (v (m * n + i) ω).action = a then lr (m * n + i) else 0) := fun i _ => by
        have := hlr (m * n + i)
        split <;> linarith
      by_cases hv : ∃ i < n, (v (m * n + i) ω).state = s ∧ (v (m * n + i) ω).action = a
      · rw [Set.indicator_of_mem (show ω ∈ {ω | ∃ i < n, (v (m * n + i) ω).state = s ∧ (v (m * n + i) ω).action = a} from hv), mul_one]
        obtain ⟨i, hi, hvi⟩ := hv
        refine le_trans ?_ (Finset.single_le_sum hnn (Finset.mem_range.2 hi))
        rw [if_pos hvi]
        exact hdec (by omega)
      · rw [Set.indicator_of_notMem (show ω ∉ {ω | ∃ i < n, (v (m * n + i) ω).state = s ∧ (v (m * n + i) ω).action = a} from hv), mul_zero]
        exact Finset.sum_nonneg hnn
  exact ae_all_iff.2 fun s => ae_all_iff.2 fun a => key s a a.2

/-- **C155**: exploration suffices.  `𝒢 k` is what is known before the state and the action of the update `k` are chosen.  If among each `n` updates every state and action is used with
probability at least `p`, whatever happened before, and the learning rates decrease, with an infinite sum and a finite sum of squares, then almost surely the values converge to the optimal ones
and the greedy actions become optimal. -/
theorem C155_explores [Finite S] [IsProbabilityMeasure μ] (he : env.Valid) (hn : 0 < env.nA) (hg : 0 ≤ gamma) (hg1 : gamma < 1)
    (h : ∀ ω, Learns env gamma mean (Q ω) (T ω) (fun k => v k ω) lr tau) (hs : Samples env μ ℱ v j (fun k _ => lr k)) (Q₀ T₀ : S → List ℝ) (h0 : ∀ ω, Q ω 0 = Q₀ ∧ T ω 0 = T₀)
    (hdec : Antitone lr) (hsum : Tendsto (fun m => ∑ k ∈ Finset.range m, lr k) atTop atTop) (C : ℝ) (hC : ∀ m, ∑ k ∈ Finset.range m, lr k ^ 2 ≤ C)
    (htau : Tendsto (fun m => ∑ k ∈ Finset.range m, tau k) atTop atTop)
    (𝒢 : Filtration ℕ mΩ) (hord : ∀ k, ℱ k ≤ 𝒢 (k + 1)) (n : ℕ) (hn1 : 0 < n) (p : ℝ) (hp : 0 < p)
    (hexp : ∀ s a, a < env.nA → ∀ m, (fun _ => p) ≤ᵐ[μ] μ[Set.indicator {ω | ∃ i < n, (v (m * n + i) ω).state = s ∧ (v (m * n + i) ω).action = a} (fun _ => (1 : ℝ)) | 𝒢 (m * n)]) :
    ∃ B Qs, Table env B Qs ∧ Optimal env gamma B (fun s => maxQ (Qs s)) (fun s => greedy (Qs s)) ∧
      (∀ s a, a < env.nA → evaluate (Qs s) a = backup env gamma (fun s => maxQ (Qs s)) s a) ∧
      ∀ᵐ ω ∂μ, ∀ s, (∀ a, a < env.nA → Tendsto (fun k => evaluate (Q ω k s) a) atTop (𝓝 (evaluate (Qs s) a))) ∧
          ∀ᶠ k in atTop, evaluate (Qs s) (greedy (Q ω k s)) = maxQ (Qs s) := by
  obtain ⟨B, Qs, h1, h2, h3, h4⟩ := C155_converges he hn hg hg1 h hs Q₀ T₀ h0 C (fun m _ => hC m) htau
  refine ⟨B, Qs, h1, h2, h3, ?_⟩
  obtain ⟨ω₀⟩ : Nonempty Ω := μ.nonempty_of_neZero
  have hlr : ∀ k, 0 ≤ lr k := fun k => ((h ω₀).rates k).1
  have hall := visits_diverge hs hlr hdec hsum C hC 𝒢 hord n hn1 p hp hexp
  filter_upwards [h4, hall] with ω h5 h6
  exact h5 fun s a ha => h6 s ⟨a, ha⟩

/-! ## A case -/

/-- Two bets: the first pays 1 with probability 1/2, the second pays 1/4. -/
noncomputable def bets : Env Unit ℝ where
  nA := 2
  outcomes _ a := if a = 0 then [(1 / 2, ⟨1, (), true⟩), (1 / 2, ⟨0, (), true⟩)] else [(1, ⟨1 / 4, (), true⟩)]

theorem bets_valid : bets.Valid := by
  intro s a _
  simp only [bets]
  split
  · exact ⟨by simp, by norm_num⟩
  · exact ⟨by simp, by norm_num⟩

/-- The bet is chosen by a fair coin. -/
noncomputable def fair (_ : List (Unit × ℕ × ℕ)) (u _ : ℝ) : Unit × ℕ := ((), if u < 1 / 2 then 0 else 1)

theorem fair_prob (a : ℕ) (ha : a < 2) : uniform01.real {u | (fair [] u 0).2 = a} = 1 / 2 := by
  have e : ∀ u : ℝ, (fair [] u 0).2 = draw [1 / 2, 1 / 2] u := fun u => by simp [fair, draw]
  simp only [e]
  rw [draw_prob [1 / 2, 1 / 2] (by simp) (by norm_num)]
  interval_cases a <;> simp

theorem rates_diverge : Tendsto (fun m => ∑ k ∈ Finset.range m, (1 : ℝ) / (k + 1)) atTop atTop := Real.tendsto_sum_range_one_div_nat_succ_atTop

theorem rates_square (m : ℕ) : ∑ k ∈ Finset.range m, ((1 : ℝ) / (k + 1)) ^ 2 ≤ 2 := by
  have h : ∀ m : ℕ, ∑ k ∈ Finset.range (m + 1), ((1 : ℝ) / (k + 1)) ^ 2 ≤ 2 - 1 / ((m : ℝ) + 1) := by
    intro m
    induction m with
    | zero => norm_num
    | succ m ih =>
      rw [Finset.sum_range_succ]
      have hm : (0 : ℝ) < (m : ℝ) + 1 := by positivity
      have : ((1 : ℝ) / ((m + 1 : ℕ) + 1)) ^ 2 ≤ 1 / ((m : ℝ) + 1) - 1 / ((m + 1 : ℕ) + 1) := by
        push_cast
        rw [div_sub_div _ _ (by positivity) (by positivity), div_pow, div_le_div_iff₀ (by positivity) (by positivity)]
        nlinarith
      linarith
  cases m with
  | zero => simp
  | succ m =>
    refine (h m).trans ?_
    have : (0 : ℝ) ≤ 1 / ((m : ℝ) + 1) := by positivity
    linarith

/-- The hypotheses of `C155_exists`, `C155_converges` and `C155_explores` are met: bets chosen by a fair coin, learning rates 1, 1/2, 1/3, …, the target network copied after each update.
Almost surely the value of the first bet converges to 1/2, the value of the second to 1/4, and in the end the first is preferred, although its outcomes go on varying. -/
example : ∃ (v : ℕ → (ℕ → ℝ) → Visit Unit) (Q T : (ℕ → ℝ) → ℕ → Unit → List ℝ), (∀ ω, Q ω 0 = fun _ => [0, 9]) ∧
    (∀ ω, Learns bets (9 / 10) true (Q ω) (T ω) (fun k => v k ω) (fun k => 1 / (k + 1)) fun _ => 1) ∧
    ∀ᵐ ω ∂draws, Tendsto (fun k => evaluate (Q ω k ()) 0) atTop (𝓝 (1 / 2)) ∧ Tendsto (fun k => evaluate (Q ω k ()) 1) atTop (𝓝 (1 / 4)) ∧ ∀ᶠ k in atTop, greedy (Q ω k ()) = 0 := by
  obtain ⟨v, j, Q, T, h0, hr, -, hs, hl⟩ := C155_exists bets bets_valid (9 / 10) true fair (fun l z => by
      have : Measurable fun u : ℝ => (fair [] u 0).2 := Measurable.ite measurableSet_Iio measurable_const measurable_const
      have e : {u : ℝ × ℝ | fair l u.1 u.2 = z} = (fun u : ℝ × ℝ => (fair [] u.1 0).2) ⁻¹' {z.2} := by ext u; simp [fair, Prod.ext_iff]
      rw [e]
      exact (this.comp measurable_fst) (measurableSet_singleton _)) (fun l u r => by simp only [fair, bets]; split <;> norm_num)
    (fun l _ => 1 / ((l.length : ℝ) + 1)) (fun l _ => ⟨by positivity, by rw [div_le_one (by positivity)]; have : (0 : ℝ) ≤ l.length := by positivity
                                                                         linarith⟩)
    (fun _ => 1) (fun _ => by norm_num) (fun _ => [0, 9]) (fun _ => [0, 0]) (fun _ => rfl) (fun _ => rfl)
  have e : (fun k ω => 1 / (((history v j k ω).length : ℝ) + 1)) = fun (k : ℕ) (_ : ℕ → ℝ) => 1 / ((k : ℝ) + 1) := by
    funext k ω
    simp [history]
  have el : ∀ k ω, 1 / (((history v j k ω).length : ℝ) + 1) = 1 / ((k : ℝ) + 1) := fun k ω => congrFun (congrFun e k) ω
  simp only [el] at hs hl
  refine ⟨v, Q, T, fun ω => (h0 ω).1, hl, ?_⟩
  obtain ⟨B, Qs, h1, h2, h3, h4⟩ := C155_explores bets_valid (by simp [bets]) (by norm_num) (by norm_num) hl hs _ _ h0 (fun a b hab => by
      have : (a : ℝ) ≤ b := by exact_mod_cast hab
      exact one_div_le_one_div_of_le (by positivity) (by linarith)) rates_diverge 2 rates_square
    (by simpa using tendsto_natCast_atTop_atTop) before past_le_before 1 one_pos (1 / 2) (by norm_num) fun s a ha m => by
      have e : (Set.indicator {ω | ∃ i < 1, (v (m * 1 + i) ω).state = s ∧ (v (m * 1 + i) ω).action = a} fun _ => (1 : ℝ)) =
          fun ω => (Set.indicator {u | (fair [] u 0).2 = a} fun _ => (1 : ℝ)) (ω (3 * m)) := by
        funext ω
        have h := congrArg Prod.snd (hr m ω)
        simp only [Set.indicator, Set.mem_ofPred_eq]
        congr 1
        have h' : (v m ω).action = (fair [] (ω (3 * m)) 0).2 := h
        simp [h']
      have hmeas : MeasurableSet {u : ℝ | (fair [] u 0).2 = a} :=
        (Measurable.ite measurableSet_Iio measurable_const measurable_const : Measurable fun u : ℝ => (fair [] u 0).2) (measurableSet_singleton a)
      rw [e, mul_one]
      filter_upwards [fresh (3 * m) (Set.indicator {u | (fair [] u 0).2 = a} fun _ => (1 : ℝ)) (measurable_const.indicator hmeas)] with ω hω
      rw [show (draws[fun ω => Set.indicator {u | (fair [] u 0).2 = a} (fun _ => (1 : ℝ)) (ω (3 * m)) | before m]) ω = _ from hω, integral_indicator_const _ hmeas, fair_prob a ha]
      simp
  have v0 : evaluate (Qs ()) 0 = 1 / 2 := by
    rw [h3 () 0 (by simp [bets])]
    simp [backup, bets, expect]
  have v1 : evaluate (Qs ()) 1 = 1 / 4 := by
    rw [h3 () 1 (by simp [bets])]
    simp [backup, bets, expect]
  filter_upwards [h4] with ω hω
  have t0 := (hω ()).1 0 (by simp [bets])
  have t1 := (hω ()).1 1 (by simp [bets])
  rw [v0] at t0
  rw [v1] at t1
  refine ⟨t0, t1, ?_⟩
  refine (hω ()).2.mono fun k hk => ?_
  have hlen : (Qs ()).length = 2 := (h1.2 ()).1
  have hge : 1 / 2 ≤ maxQ (Qs ()) := by
    rw [← v0]
    refine (C64_max (Qs ()) (by intro h'; rw [h'] at hlen; simp at hlen)).2 _ ?_
    simp [evaluate, hlen]
  have hlt : greedy (Q ω k ()) < 2 := by
    have hq : (Q ω k ()).length = 2 := ((hl ω).tables k ()).1
    obtain ⟨u, hu, -⟩ := C64_greedy (Q ω k ()) (by intro h'; rw [h'] at hq; simp at hq)
    rw [← hq]; exact (List.getElem?_eq_some_iff.1 hu).1
  rcases (by omega : greedy (Q ω k ()) = 0 ∨ greedy (Q ω k ()) = 1) with h' | h'
  · exact h'
  · rw [h', v1] at hk; linarith

end Verif.QLearning
