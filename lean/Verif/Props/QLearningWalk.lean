import Verif.Props.QLearningExplores

/-!
# C155: an agent that walks through the process

The agent acts in one episode after another and learns from each step.  If every action keeps a positive probability in every step, as with epsilon-greedy exploration, and each state can be
reached from each other, then the values converge to the optimal ones almost surely.
-/

set_option autoImplicit false
set_option linter.unusedSectionVars false

open Filter Topology MeasureTheory ProbabilityTheory

namespace Verif.QLearning
open ActionValue Targets MDP ValueLoss TabularDQN UniformDraws

variable {S Ω : Type} {mΩ : MeasurableSpace Ω}

/-! ## Specification -/

/-- Where the agent is after an outcome: episodes begin in the state `start`. -/
def after (start : S) (o : Outcome S ℝ) : S := if o.done then start else o.next

/-- Each step begins where the one before ended. -/
def Walks (start : S) (v : ℕ → Visit S) : Prop := (v 0).state = start ∧ ∀ k, (v (k + 1)).state = after start (v k).outcome

/-- The state `t` can be reached from `s` by some actions and outcomes, possibly over several episodes. -/
inductive Reach (env : Env S ℝ) (start : S) : S → S → Prop
  | refl (s : S) : Reach env start s s
  | step (s t : S) (a : ℕ) (p : ℝ) (o : Outcome S ℝ) : a < env.nA → (p, o) ∈ env.outcomes s a → 0 < p → Reach env start (after start o) t → Reach env start s t

/-- Every action keeps the probability `ε`, whatever happened before; `𝒢 k` is what is known before the action `k` is chosen. -/
structure Tries (env : Env S ℝ) (μ : Measure Ω) (𝒢 ℱ : Filtration ℕ mΩ) (v : ℕ → Ω → Visit S) (j : ℕ → Ω → ℕ) (ε : ℝ) : Prop where
  before : ∀ k, 𝒢 k ≤ ℱ k
  next : ∀ k, ℱ k ≤ 𝒢 (k + 1)
  state : ∀ k x, MeasurableSet[𝒢 k] {ω | (v k ω).state = x}
  outcome : ∀ k x, MeasurableSet[𝒢 (k + 1)] {ω | j k ω = x}
  often : ∀ k a, a < env.nA → (fun _ => ε) ≤ᵐ[μ] μ[Set.indicator {ω | (v k ω).action = a} (fun _ => (1 : ℝ)) | 𝒢 k]

/-! ## Proofs -/

/-- The indicator of an event. -/
noncomputable abbrev ind (A : Set Ω) : Ω → ℝ := Set.indicator A fun _ => 1

theorem ind_inter (A B : Set Ω) : ind (A ∩ B) = ind A * ind B := by
  funext ω
  by_cases h1 : ω ∈ A <;> by_cases h2 : ω ∈ B <;> simp [ind, h1, h2]

theorem ind_integrable (μ : Measure Ω) [IsProbabilityMeasure μ] {A : Set Ω} (hA : MeasurableSet A) : Integrable (ind A) μ := (integrable_const _).indicator hA

theorem ind_sm {m : MeasurableSpace Ω} {A : Set Ω} (hA : MeasurableSet[m] A) : StronglyMeasurable[m] (ind A) := (@stronglyMeasurable_const _ _ m _ _).indicator hA

/-- What is known can be pulled out. -/
theorem condExp_ind_inter (μ : Measure Ω) [IsProbabilityMeasure μ] {m : MeasurableSpace Ω} (hm : m ≤ mΩ) {A B : Set Ω} (hA : MeasurableSet[m] A) (hB : MeasurableSet[mΩ] B) :
    μ[ind (A ∩ B) | m] =ᵐ[μ] ind A * μ[ind B | m] := by
  rw [ind_inter]
  refine condExp_mul_of_stronglyMeasurable_left (ind_sm hA) ?_ (ind_integrable μ hB)
  rw [← ind_inter]
  exact ind_integrable μ ((hm _ hA).inter hB)

variable [DecidableEq S] {env : Env S ℝ} {μ : Measure Ω} {𝒢 ℱ : Filtration ℕ mΩ} {v : ℕ → Ω → Visit S} {j : ℕ → Ω → ℕ} {lr : ℕ → Ω → ℝ}

/-- The event that the state `s` and the action `a` are used by one of `n` updates. -/
def hit (v : ℕ → Ω → Visit S) (s : S) (a k n : ℕ) : Set Ω := {ω | ∃ i < n, (v (k + i) ω).state = s ∧ (v (k + i) ω).action = a}

theorem hit_measurable (hs : Samples env μ ℱ v j lr) (s : S) (a k n : ℕ) : MeasurableSet (hit v s a k n) := by
  have e : hit v s a k n = ⋃ i : Fin n, {ω | (v (k + i) ω).state = s} ∩ {ω | (v (k + i) ω).action = a} := by
    ext ω
    simp only [hit, Set.mem_ofPred_eq, Set.mem_iUnion, Set.mem_inter_iff]
    exact ⟨fun ⟨i, hi, h⟩ => ⟨⟨i, hi⟩, h⟩, fun ⟨i, h⟩ => ⟨i, i.2, h⟩⟩
  rw [e]
  exact MeasurableSet.iUnion fun i => (ℱ.le _ _ (hs.state _ _)).inter (ℱ.le _ _ (hs.action _ _))

theorem hit_mono (v : ℕ → Ω → Visit S) (s : S) (a k : ℕ) {n m : ℕ} (h : n ≤ m) : hit v s a k n ⊆ hit v s a k m := fun _ ⟨i, hi, h'⟩ => ⟨i, hi.trans_le h, h'⟩

theorem ind_mono {A B : Set Ω} (h : A ⊆ B) (ω : Ω) : ind A ω ≤ ind B ω := Set.indicator_le_indicator_of_subset h (fun _ => zero_le_one) ω

/-- From a state from which `t` can be reached, the pair `t`, `b` is used within some number of steps with some positive probability. -/
theorem reach_hit [IsProbabilityMeasure μ] (start : S) (hs : Samples env μ ℱ v j lr) (ε : ℝ) (hε : 0 < ε) (ht : Tries env μ 𝒢 ℱ v j ε) (hw : ∀ ω, Walks start fun k => v k ω)
    (b : ℕ) (hb : b < env.nA) (s t : S) (hr : Reach env start s t) :
    ∃ n p, 0 < p ∧ ∀ k, ∀ᵐ ω ∂μ, (v k ω).state = s → p ≤ (μ[ind (hit v t b k n) | 𝒢 k]) ω := by
  induction hr with
  | refl s =>
    refine ⟨1, ε, hε, fun k => ?_⟩
    have e : hit v s b k 1 = {ω | (v k ω).state = s} ∩ {ω | (v k ω).action = b} := by
      ext ω
      simp [hit]
    rw [e]
    filter_upwards [condExp_ind_inter μ (𝒢.le k) (ht.state k s) (ℱ.le _ _ (hs.action k b)), ht.often k b hb] with ω h1 h2 h3
    rw [h1, Pi.mul_apply, show ind {ω | (v k ω).state = s} ω = 1 from Set.indicator_of_mem (s := {ω | (v k ω).state = s}) h3 _, one_mul]
    exact h2
  | step s t a q o ha hmem hq _ ih =>
    obtain ⟨n, p, hp, ih⟩ := ih
    obtain ⟨x, hx⟩ := List.mem_iff_getElem?.1 hmem
    refine ⟨n + 1, p * (q * ε), by positivity, fun k => ?_⟩
    have hqx : prob env s a x = q := by simp [prob, hx]
    let A := {ω | (v k ω).state = s}
    let A₁ := {ω | (v k ω).action = a}
    let A₂ := {ω | j k ω = x}
    let H := hit v t b (k + 1) n
    have hA : MeasurableSet[𝒢 k] A := ht.state k s
    have hA₁ : MeasurableSet[ℱ k] A₁ := hs.action k a
    have hA₂ : MeasurableSet[𝒢 (k + 1)] A₂ := ht.outcome k x
    have hF : MeasurableSet[𝒢 (k + 1)] (A ∩ (A₁ ∩ A₂)) := (𝒢.mono (Nat.le_succ k) _ hA).inter ((ht.next k _ hA₁).inter hA₂)
    have hH : MeasurableSet H := hit_measurable hs t b (k + 1) n
    -- the step to the next state
    have hsub : (A ∩ (A₁ ∩ A₂)) ∩ H ⊆ hit v t b k (n + 1) := by
      rintro ω ⟨-, i, hi, h⟩
      exact ⟨i + 1, by omega, by rw [show k + (i + 1) = k + 1 + i by omega]; exact h⟩
    have h1 : μ[ind ((A ∩ (A₁ ∩ A₂)) ∩ H) | 𝒢 k] ≤ᵐ[μ] μ[ind (hit v t b k (n + 1)) | 𝒢 k] :=
      condExp_mono (ind_integrable μ ((𝒢.le _ _ hF).inter hH)) (ind_integrable μ (hit_measurable hs _ _ _ _)) (Eventually.of_forall fun ω => ind_mono hsub ω)
    have h2 : μ[μ[ind ((A ∩ (A₁ ∩ A₂)) ∩ H) | 𝒢 (k + 1)] | 𝒢 k] =ᵐ[μ] μ[ind ((A ∩ (A₁ ∩ A₂)) ∩ H) | 𝒢 k] := condExp_condExp_of_le (𝒢.mono (Nat.le_succ k)) (𝒢.le _)
    have h3 : (fun ω => p * ind (A ∩ (A₁ ∩ A₂)) ω) ≤ᵐ[μ] μ[ind ((A ∩ (A₁ ∩ A₂)) ∩ H) | 𝒢 (k + 1)] := by
      filter_upwards [condExp_ind_inter μ (𝒢.le (k + 1)) hF hH, ih (k + 1)] with ω h4 h5
      rw [h4, Pi.mul_apply]
      by_cases hω : ω ∈ A ∩ (A₁ ∩ A₂)
      · rw [show ind (A ∩ (A₁ ∩ A₂)) ω = 1 from Set.indicator_of_mem hω _, one_mul, mul_one]
        refine h5 ?_
        obtain ⟨g1, g2, g3⟩ := hω
        have g1 : (v k ω).state = s := g1
        have g2 : (v k ω).action = a := g2
        have g3 : j k ω = x := g3
        obtain ⟨p', hp'⟩ := hs.drawn k ω
        rw [g1, g2, g3, hx] at hp'
        have : o = (v k ω).outcome := by
          have := Option.some.inj hp'
          exact congrArg Prod.snd this
        rw [this]
        exact (hw ω).2 k
      · rw [show ind (A ∩ (A₁ ∩ A₂)) ω = 0 from Set.indicator_of_notMem hω _]
        simp
    have h4 : μ[fun ω => p * ind (A ∩ (A₁ ∩ A₂)) ω | 𝒢 k] ≤ᵐ[μ] μ[μ[ind ((A ∩ (A₁ ∩ A₂)) ∩ H) | 𝒢 (k + 1)] | 𝒢 k] :=
      condExp_mono ((ind_integrable μ (𝒢.le _ _ hF)).const_mul p) integrable_condExp h3
    have h5 : μ[fun ω => p * ind (A ∩ (A₁ ∩ A₂)) ω | 𝒢 k] =ᵐ[μ] fun ω => p * (μ[ind (A ∩ (A₁ ∩ A₂)) | 𝒢 k]) ω := condExp_smul p _ _
    -- the probability of the step
    have hA₂' : MeasurableSet A₂ := 𝒢.le _ _ hA₂
    have hAA : MeasurableSet[ℱ k] (A ∩ A₁) := (ht.before k _ hA).inter hA₁
    have h6 : μ[ind (A ∩ (A₁ ∩ A₂)) | ℱ k] =ᵐ[μ] fun ω => q * ind (A ∩ A₁) ω := by
      rw [← Set.inter_assoc]
      filter_upwards [condExp_ind_inter μ (ℱ.le k) hAA hA₂', hs.law k x] with ω g1 g2
      rw [g1, Pi.mul_apply, show (μ[ind A₂ | ℱ k]) ω = _ from g2]
      by_cases hω : ω ∈ A ∩ A₁
      · have e1 : (v k ω).state = s := hω.1
        have e2 : (v k ω).action = a := hω.2
        rw [e1, e2, hqx, mul_comm]
      · rw [show ind (A ∩ A₁) ω = 0 from Set.indicator_of_notMem hω _]
        simp
    have h7 : μ[μ[ind (A ∩ (A₁ ∩ A₂)) | ℱ k] | 𝒢 k] =ᵐ[μ] μ[ind (A ∩ (A₁ ∩ A₂)) | 𝒢 k] := condExp_condExp_of_le (ht.before k) (ℱ.le _)
    have h8 : μ[μ[ind (A ∩ (A₁ ∩ A₂)) | ℱ k] | 𝒢 k] =ᵐ[μ] μ[fun ω => q * ind (A ∩ A₁) ω | 𝒢 k] := condExp_congr_ae h6
    have h9 : μ[fun ω => q * ind (A ∩ A₁) ω | 𝒢 k] =ᵐ[μ] fun ω => q * (μ[ind (A ∩ A₁) | 𝒢 k]) ω := condExp_smul q _ _
    filter_upwards [h1, h2, h4, h5, h7, h8, h9, condExp_ind_inter μ (𝒢.le k) hA (ℱ.le _ _ hA₁), ht.often k a ha] with ω g1 g2 g4 g5 g7 g8 g9 g10 g11 hω
    have g12 : (μ[ind (A ∩ A₁) | 𝒢 k]) ω = (μ[ind A₁ | 𝒢 k]) ω := by
      rw [g10, Pi.mul_apply, show ind A ω = 1 from Set.indicator_of_mem (s := A) hω _, one_mul]
    have g13 : ε ≤ (μ[ind (A ∩ A₁) | 𝒢 k]) ω := by rw [g12]; exact g11
    refine le_trans ?_ ((g4.trans g2.le).trans g1)
    rw [g5, ← g7, g8, g9]
    exact mul_le_mul_of_nonneg_left (mul_le_mul_of_nonneg_left g13 hq.le) hp.le

variable {gamma : ℝ} {mean : Bool} {lrs : ℕ → ℝ} {tau : ℕ → ℝ} {Q T : Ω → ℕ → S → List ℝ}

/-- The walk visits every pair so often that the learning rates there have an infinite sum. -/
theorem walk_visits [Finite S] [IsProbabilityMeasure μ] (hn : 0 < env.nA) (hs : Samples env μ ℱ v j (fun k _ => lrs k)) (hlr : ∀ k, 0 ≤ lrs k)
    (hdec : Antitone lrs) (hsum : Tendsto (fun m => ∑ k ∈ Finset.range m, lrs k) atTop atTop) (C : ℝ) (hC : ∀ m, ∑ k ∈ Finset.range m, lrs k ^ 2 ≤ C)
    (start : S) (hw : ∀ ω, Walks start fun k => v k ω) (ε : ℝ) (hε : 0 < ε) (ht : Tries env μ 𝒢 ℱ v j ε) (hr : ∀ s t, Reach env start s t) :
    ∀ᵐ ω ∂μ, ∀ (s : S) (a : Fin env.nA), Tendsto (fun m => ∑ k ∈ Finset.range m, if (v k ω).state = s ∧ (v k ω).action = (a : ℕ) then lrs k else 0) atTop atTop := by
  have : Nonempty (S × S × Fin env.nA) := ⟨(start, start, ⟨0, hn⟩)⟩
  choose N P hP hhit using fun y : S × S × Fin env.nA => reach_hit start hs ε hε ht hw y.2.2 y.2.2.2 y.1 y.2.1 (hr _ _)
  obtain ⟨yn, hyn⟩ := Finite.exists_max N
  obtain ⟨yp, hyp⟩ := Finite.exists_min P
  refine visits_diverge hs hlr hdec hsum C hC 𝒢 ht.next (N yn + 1) (Nat.succ_pos _) (P yp) (hP yp) fun t b hb m => ?_
  have hmono : ∀ s, μ[ind (hit v t b (m * (N yn + 1)) (N (s, t, ⟨b, hb⟩))) | 𝒢 (m * (N yn + 1))] ≤ᵐ[μ] μ[ind (hit v t b (m * (N yn + 1)) (N yn + 1)) | 𝒢 (m * (N yn + 1))] := fun s =>
    condExp_mono (ind_integrable μ (hit_measurable hs _ _ _ _)) (ind_integrable μ (hit_measurable hs _ _ _ _))
      (Eventually.of_forall fun ω => ind_mono (hit_mono v t b _ ((hyn _).trans (Nat.le_succ _))) ω)
  have h1 : ∀ᵐ ω ∂μ, ∀ s, (v (m * (N yn + 1)) ω).state = s → P (s, t, ⟨b, hb⟩) ≤ (μ[ind (hit v t b (m * (N yn + 1)) (N yn + 1)) | 𝒢 (m * (N yn + 1))]) ω :=
    ae_all_iff.2 fun s => by
      filter_upwards [hhit (s, t, ⟨b, hb⟩) (m * (N yn + 1)), hmono s] with ω g1 g2 g3
      exact (g1 g3).trans g2
  filter_upwards [h1] with ω hω
  exact (hyp _).trans (hω _ rfl)

/-- **C155**: an agent that walks through the process, tries every action with at least the probability `ε` in each step and learns from each step, almost surely ends with the optimal values and
optimal greedy actions, if each state can be reached from each other one. -/
theorem C155_walk [Finite S] [IsProbabilityMeasure μ] (he : env.Valid) (hn : 0 < env.nA) (hg : 0 ≤ gamma) (hg1 : gamma < 1)
    (h : ∀ ω, Learns env gamma mean (Q ω) (T ω) (fun k => v k ω) lrs tau) (hs : Samples env μ ℱ v j (fun k _ => lrs k)) (Q₀ T₀ : S → List ℝ) (h0 : ∀ ω, Q ω 0 = Q₀ ∧ T ω 0 = T₀)
    (hdec : Antitone lrs) (hsum : Tendsto (fun m => ∑ k ∈ Finset.range m, lrs k) atTop atTop) (C : ℝ) (hC : ∀ m, ∑ k ∈ Finset.range m, lrs k ^ 2 ≤ C)
    (htau : Tendsto (fun m => ∑ k ∈ Finset.range m, tau k) atTop atTop)
    (start : S) (hw : ∀ ω, Walks start fun k => v k ω) (ε : ℝ) (hε : 0 < ε) (ht : Tries env μ 𝒢 ℱ v j ε) (hr : ∀ s t, Reach env start s t) :
    ∃ B Qs, Table env B Qs ∧ Optimal env gamma B (fun s => maxQ (Qs s)) (fun s => greedy (Qs s)) ∧
      (∀ s a, a < env.nA → evaluate (Qs s) a = backup env gamma (fun s => maxQ (Qs s)) s a) ∧
      ∀ᵐ ω ∂μ, ∀ s, (∀ a, a < env.nA → Tendsto (fun k => evaluate (Q ω k s) a) atTop (𝓝 (evaluate (Qs s) a))) ∧
          ∀ᶠ k in atTop, evaluate (Qs s) (greedy (Q ω k s)) = maxQ (Qs s) := by
  obtain ⟨B, Qs, h1, h2, h3, h4⟩ := C155_converges he hn hg hg1 h hs Q₀ T₀ h0 C (fun m _ => hC m) htau
  obtain ⟨ω₀⟩ : Nonempty Ω := μ.nonempty_of_neZero
  refine ⟨B, Qs, h1, h2, h3, ?_⟩
  filter_upwards [h4, walk_visits hn hs (fun k => ((h ω₀).rates k).1) hdec hsum C hC start hw ε hε ht hr] with ω h5 h6
  exact h5 fun s a ha => h6 s ⟨a, ha⟩

end Verif.QLearning
