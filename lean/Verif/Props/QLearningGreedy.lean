import Verif.Props.QLearningWalk
import Verif.Model.EpsilonGreedy

/-!
# C155: epsilon-greedy exploration
-/

set_option autoImplicit false
set_option linter.unusedSectionVars false

open Filter Topology MeasureTheory ProbabilityTheory

namespace Verif.QLearning
open ActionValue Targets MDP ValueLoss TabularDQN UniformDraws

variable {S : Type} [DecidableEq S]

theorem evaluate_ext {l l' : List ℝ} (n : ℕ) (h : l.length = n) (h' : l'.length = n) (he : ∀ a, a < n → evaluate l a = evaluate l' a) : l = l' := by
  refine List.ext_getElem (h.trans h'.symm) fun i h1 h2 => ?_
  have := he i (h ▸ h1)
  simpa [evaluate, h1, h2] using this

section
variable (env : Env S ℝ) (gamma : ℝ) (mean : Bool) (start : S) (eps lrs tau : ℕ → ℝ) (Q₀ T₀ : S → List ℝ)

/-- The step with the outcome number `x`. -/
def visitOf (y : S × ℕ × ℕ) : Visit S := ⟨y.1, y.2.1, (((env.outcomes y.1 y.2.1)[y.2.2]?).map Prod.snd).getD ⟨0, y.1, false⟩⟩

/-- One update of the tables. -/
noncomputable def relearn (p : ℕ × (S → List ℝ) × (S → List ℝ)) (y : S × ℕ × ℕ) : ℕ × (S → List ℝ) × (S → List ℝ) :=
  let q := nextTable env gamma (lrs p.1) false mean p.2.1 p.2.2 [visitOf env y] none
  (p.1 + 1, q, fun s => (List.range env.nA).map fun a => CopyParam.soft (tau p.1) (evaluate (p.2.2 s) a) (evaluate (q s) a))

/-- The tables after a history. -/
noncomputable def tablesOf (l : List (S × ℕ × ℕ)) : ℕ × (S → List ℝ) × (S → List ℝ) := l.foldl (relearn env gamma mean lrs tau) (0, Q₀, T₀)

/-- The state after a history. -/
noncomputable def stateOf (l : List (S × ℕ × ℕ)) : S := (l.getLast?.map fun y => after start (visitOf env y).outcome).getD start

/-- A random action. -/
noncomputable def randomAction (r : ℝ) : ℕ := draw (List.replicate env.nA (1 / (env.nA : ℝ))) r

/-- Epsilon-greedy actions along the walk. -/
noncomputable def greedyRule (l : List (S × ℕ × ℕ)) (u r : ℝ) : S × ℕ :=
  (stateOf env start l, (EpsGreedy.select (eps l.length) u (randomAction env r) (greedy ((tablesOf env gamma mean lrs tau Q₀ T₀ l).2.1 (stateOf env start l)))).1)

variable {env gamma mean start eps lrs tau Q₀ T₀}

theorem visitOf_eq {Ω : Type} {mΩ : MeasurableSpace Ω} {μ : Measure Ω} {ℱ : Filtration ℕ mΩ} {v : ℕ → Ω → Visit S} {j : ℕ → Ω → ℕ} {lr : ℕ → Ω → ℝ} (hs : Samples env μ ℱ v j lr) (k : ℕ) (ω : Ω) :
    visitOf env ((v k ω).state, (v k ω).action, j k ω) = v k ω := by
  obtain ⟨p, hp⟩ := hs.drawn k ω
  simp [visitOf, hp]

theorem tablesOf_eq {Ω : Type} {mΩ : MeasurableSpace Ω} {μ : Measure Ω} {ℱ : Filtration ℕ mΩ} {v : ℕ → Ω → Visit S} {j : ℕ → Ω → ℕ} {lr : ℕ → Ω → ℝ} (hs : Samples env μ ℱ v j lr)
    (ω : Ω) (Q T : ℕ → S → List ℝ) (h0 : Q 0 = Q₀ ∧ T 0 = T₀) (hl : Learns env gamma mean Q T (fun k => v k ω) lrs tau) (k : ℕ) :
    tablesOf env gamma mean lrs tau Q₀ T₀ (history v j k ω) = (k, Q k, T k) := by
  induction k with
  | zero => rw [← h0.1, ← h0.2]; rfl
  | succ k ih =>
    have e : history v j (k + 1) ω = history v j k ω ++ [((v k ω).state, (v k ω).action, j k ω)] := by simp [history, List.range_succ]
    have hstep : relearn env gamma mean lrs tau (k, Q k, T k) ((v k ω).state, (v k ω).action, j k ω) = (k + 1, Q (k + 1), T (k + 1)) := by
      have hq : nextTable env gamma (lrs k) false mean (Q k) (T k) [v k ω] none = Q (k + 1) := by
        funext s
        refine evaluate_ext env.nA (by simp [nextTable]) (hl.tables (k + 1) s).1 fun a ha => ?_
        rw [(descends_iff env gamma (lrs k) false mean (Q k) (T k) (Q (k + 1)) (fun s => (hl.tables k s).1) [v k ω] (by simp) none (by simp)).1 (hl.descends k) s a ha, nextTable,
          evaluate_map_range _ _ _ ha]
      simp only [relearn, visitOf_eq hs, hq]
      congr 2
      funext s
      refine evaluate_ext env.nA (by simp) (hl.tables (k + 1) s).2 fun a ha => ?_
      rw [evaluate_map_range _ _ _ ha, hl.target k s a ha]
    rw [tablesOf, e, List.foldl_append, ← tablesOf, ih]
    exact hstep

theorem stateOf_succ {Ω : Type} {mΩ : MeasurableSpace Ω} {μ : Measure Ω} {ℱ : Filtration ℕ mΩ} {v : ℕ → Ω → Visit S} {j : ℕ → Ω → ℕ} {lr : ℕ → Ω → ℝ} (hs : Samples env μ ℱ v j lr)
    (ω : Ω) (k : ℕ) : stateOf env start (history v j (k + 1) ω) = after start (v k ω).outcome := by
  have e : history v j (k + 1) ω = history v j k ω ++ [((v k ω).state, (v k ω).action, j k ω)] := by simp [history, List.range_succ]
  rw [stateOf, e]
  simp [visitOf_eq hs]

end

/-- **C155**: epsilon-greedy exploration.  For every finite process in which each state can be reached from each other, there are runs with the actions of `select_action_epsilon_greedily` for the
table that is being learned, whose epsilon may change but stays above a positive bound; almost surely the values converge to the optimal ones and the greedy actions become optimal. -/
theorem C155_epsilon_greedy [Finite S] (env : Env S ℝ) (he : env.Valid) (hn : 0 < env.nA) (gamma : ℝ) (hg : 0 ≤ gamma) (hg1 : gamma < 1) (mean : Bool) (start : S)
    (hr : ∀ s t, Reach env start s t) (eps : ℕ → ℝ) (ε : ℝ) (hε : 0 < ε) (heps : ∀ k, ε ≤ eps k ∧ eps k ≤ 1)
    (lrs : ℕ → ℝ) (hlr : ∀ k, 0 ≤ lrs k ∧ lrs k ≤ 1) (hdec : Antitone lrs) (hsum : Tendsto (fun m => ∑ k ∈ Finset.range m, lrs k) atTop atTop) (C : ℝ)
    (hC : ∀ m, ∑ k ∈ Finset.range m, lrs k ^ 2 ≤ C) (tau : ℕ → ℝ) (htau : ∀ k, 0 ≤ tau k ∧ tau k ≤ 1) (htau' : Tendsto (fun m => ∑ k ∈ Finset.range m, tau k) atTop atTop)
    (Q₀ T₀ : S → List ℝ) (hQ : ∀ s, (Q₀ s).length = env.nA) (hT : ∀ s, (T₀ s).length = env.nA) :
    ∃ (v : ℕ → (ℕ → ℝ) → Visit S) (j : ℕ → (ℕ → ℝ) → ℕ) (Q T : (ℕ → ℝ) → ℕ → S → List ℝ),
      (∀ ω, Q ω 0 = Q₀ ∧ T ω 0 = T₀) ∧ (∀ ω, Walks start fun k => v k ω) ∧
      (∀ k ω, (v k ω).action = (EpsGreedy.select (eps k) (ω (3 * k)) (randomAction env (ω (3 * k + 1))) (greedy (Q ω k (v k ω).state))).1) ∧
      Samples env draws past v j (fun k _ => lrs k) ∧ (∀ ω, Learns env gamma mean (Q ω) (T ω) (fun k => v k ω) lrs tau) ∧
      ∃ B Qs, Table env B Qs ∧ Optimal env gamma B (fun s => maxQ (Qs s)) (fun s => greedy (Qs s)) ∧
        (∀ s a, a < env.nA → evaluate (Qs s) a = backup env gamma (fun s => maxQ (Qs s)) s a) ∧
        ∀ᵐ ω ∂draws, ∀ s, (∀ a, a < env.nA → Tendsto (fun k => evaluate (Q ω k s) a) atTop (𝓝 (evaluate (Qs s) a))) ∧
          ∀ᶠ k in atTop, evaluate (Qs s) (greedy (Q ω k s)) = maxQ (Qs s) := by
  have hnr : (0 : ℝ) < env.nA := by exact_mod_cast hn
  have hrand : ∀ r, randomAction env r < env.nA := fun r => by
    have := draw_lt (List.replicate env.nA (1 / (env.nA : ℝ))) r (by simp; omega)
    simpa [randomAction] using this
  have hrm : Measurable (randomAction env) := draw_measurable _
  -- all tables that occur have the right size
  have htab : ∀ l s, ((tablesOf env gamma mean lrs tau Q₀ T₀ l).2.1 s).length = env.nA := by
    intro l s
    rcases List.eq_nil_or_concat l with h | ⟨l', y, h⟩
    · rw [h]; exact hQ s
    · rw [h, tablesOf, List.concat_eq_append, List.foldl_append]
      simp [relearn, nextTable]
  obtain ⟨v, j, Q, T, h0, hrule, hj, hs, hl⟩ := C155_exists env he gamma mean (greedyRule env gamma mean start eps lrs tau Q₀ T₀) (fun l z => by
      have e : {u : ℝ × ℝ | greedyRule env gamma mean start eps lrs tau Q₀ T₀ l u.1 u.2 = z} = {_u : ℝ × ℝ | stateOf env start l = z.1} ∩
          (fun u : ℝ × ℝ => if u.1 < eps l.length then randomAction env u.2 else greedy ((tablesOf env gamma mean lrs tau Q₀ T₀ l).2.1 (stateOf env start l))) ⁻¹' {z.2} := by
        ext u
        simp only [greedyRule, EpsGreedy.select, Prod.ext_iff, Set.mem_ofPred_eq, Set.mem_inter_iff, Set.mem_preimage, Set.mem_singleton_iff]
        refine and_congr_right fun _ => ?_
        split <;> rfl
      rw [e]
      exact (MeasurableSet.const _).inter ((Measurable.ite (measurable_fst measurableSet_Iio) (hrm.comp measurable_snd) measurable_const) (measurableSet_singleton _)))
    (fun l u r => by
      simp only [greedyRule, EpsGreedy.select]
      split
      · exact hrand r
      · have hlen := htab l (stateOf env start l)
        obtain ⟨u, hu, -⟩ := C64_greedy ((tablesOf env gamma mean lrs tau Q₀ T₀ l).2.1 (stateOf env start l)) (by intro h'; rw [h'] at hlen; simp at hlen; omega)
        have := (List.getElem?_eq_some_iff.1 hu).1
        rwa [hlen] at this)
    (fun l _ => lrs l.length) (fun l _ => hlr _) tau htau Q₀ T₀ hQ hT
  have el : ∀ k ω, (history v j k ω).length = k := fun k ω => by simp [history]
  simp only [el] at hs hl
  have hstate : ∀ k ω, (v k ω).state = stateOf env start (history v j k ω) := fun k ω => congrArg Prod.fst (hrule k ω)
  have hact : ∀ k ω, (v k ω).action = (EpsGreedy.select (eps k) (ω (3 * k)) (randomAction env (ω (3 * k + 1))) (greedy (Q ω k (v k ω).state))).1 := fun k ω => by
    have h1 := congrArg Prod.snd (hrule k ω)
    have h2 : (v k ω).action = (greedyRule env gamma mean start eps lrs tau Q₀ T₀ (history v j k ω) (ω (3 * k)) (ω (3 * k + 1))).2 := h1
    rw [h2, greedyRule, el, tablesOf_eq hs ω (Q ω) (T ω) (h0 ω) (hl ω) k, ← hstate]
  have hw : ∀ ω, Walks start fun k => v k ω := fun ω => ⟨by rw [hstate]; rfl, fun k => by rw [hstate, stateOf_succ hs]⟩
  have hsm : ∀ k x, MeasurableSet[before k] {ω | (v k ω).state = x} := by
    intro k x
    have hh : ∀ k l, MeasurableSet[before k] {ω | history v j k ω = l} := by
      intro k
      induction k with
      | zero => intro l; exact @MeasurableSet.const _ (before 0) ([] = l)
      | succ k ih =>
        intro l
        have e : {ω | history v j (k + 1) ω = l} = ⋃ y : List (S × ℕ × ℕ) × S × ℕ × ℕ, {ω | y.1 ++ [y.2] = l} ∩ ({ω | history v j k ω = y.1} ∩ ({ω | (v k ω).state = y.2.1} ∩
            ({ω | (v k ω).action = y.2.2.1} ∩ {ω | j k ω = y.2.2.2}))) := by
          ext ω
          have e' : history v j (k + 1) ω = history v j k ω ++ [((v k ω).state, (v k ω).action, j k ω)] := by simp [history, List.range_succ]
          simp only [Set.mem_ofPred_eq, Set.mem_iUnion, Set.mem_inter_iff, e']
          constructor
          · intro h; exact ⟨(history v j k ω, (v k ω).state, (v k ω).action, j k ω), h, rfl, rfl, rfl, rfl⟩
          · rintro ⟨y, h1, h2, h3, h4, h5⟩
            rw [h2, h3, h4, h5]; exact h1
        rw [e]
        exact MeasurableSet.iUnion fun y => (@MeasurableSet.const _ (before (k + 1)) _).inter ((before.mono (Nat.le_succ k) _ (ih _)).inter ((past_le_before k _ (hs.state k _)).inter
          ((past_le_before k _ (hs.action k _)).inter (hj k _))))
    have e : {ω | (v k ω).state = x} = ⋃ l, {ω | stateOf env start l = x} ∩ {ω | history v j k ω = l} := by
      ext ω
      simp only [Set.mem_ofPred_eq, Set.mem_iUnion, Set.mem_inter_iff, hstate]
      exact ⟨fun h => ⟨_, h, rfl⟩, fun ⟨l, h1, h2⟩ => by rw [h2]; exact h1⟩
    rw [e]
    exact MeasurableSet.iUnion fun l => (@MeasurableSet.const _ (before k) _).inter (hh k l)
  have hdraw : ∀ a, a < env.nA → uniform01.real {r | randomAction env r = a} = 1 / env.nA := fun a ha => by
    have := draw_prob (List.replicate env.nA (1 / (env.nA : ℝ))) (fun p hp => by rw [(List.mem_replicate.1 hp).2]; positivity) (by simp [hnr.ne']) a
    simp only [randomAction]
    rw [this]
    simp [ha]
  have ht : Tries env draws before past v j (1 / env.nA * ε) := by
    refine ⟨before_le_past, past_le_before, hsm, hj, fun k a ha => ?_⟩
    let A : Set (ℕ → ℝ) := {ω | ω (3 * k) < eps k}
    let R : Set (ℕ → ℝ) := {ω | randomAction env (ω (3 * k + 1)) = a}
    have hRm : MeasurableSet {r | randomAction env r = a} := hrm (measurableSet_singleton a)
    have hA : MeasurableSet[first (3 * k + 1)] A := (coord_first (3 * k) (3 * k + 1) (by omega)) measurableSet_Iio
    have hR : MeasurableSet R := (coord_measurable (3 * k + 1)).measurable hRm
    have hsub : A ∩ R ⊆ {ω | (v k ω).action = a} := by
      rintro ω ⟨h1, h2⟩
      have h1 : ω (3 * k) < eps k := h1
      show (v k ω).action = a
      rw [hact, EpsGreedy.select, if_pos h1]
      exact h2
    have h1 : draws[ind (A ∩ R) | before k] ≤ᵐ[draws] draws[ind {ω | (v k ω).action = a} | before k] :=
      condExp_mono (ind_integrable draws ((first.le _ _ hA).inter hR)) (ind_integrable draws (past.le _ _ (hs.action k a))) (Eventually.of_forall fun ω => ind_mono hsub ω)
    have h2 : draws[draws[ind (A ∩ R) | first (3 * k + 1)] | first (3 * k)] =ᵐ[draws] draws[ind (A ∩ R) | first (3 * k)] :=
      condExp_condExp_of_le (first.mono (Nat.le_succ _)) (first.le _)
    have h3 : draws[ind (A ∩ R) | first (3 * k + 1)] =ᵐ[draws] fun ω => 1 / (env.nA : ℝ) * ind A ω := by
      filter_upwards [condExp_ind_inter draws (first.le (3 * k + 1)) hA hR, fresh (3 * k + 1) (Set.indicator {r | randomAction env r = a} fun _ => (1 : ℝ)) (measurable_const.indicator hRm)] with ω g1 g2
      have g3 : (draws[ind R | first (3 * k + 1)]) ω = 1 / env.nA := by
        refine Eq.trans (b := ∫ u, Set.indicator {r | randomAction env r = a} (fun _ => (1 : ℝ)) u ∂uniform01) g2 ?_
        rw [integral_indicator_const _ hRm, hdraw a ha]
        simp
      rw [g1, Pi.mul_apply, g3, mul_comm]
    have h4 : draws[draws[ind (A ∩ R) | first (3 * k + 1)] | first (3 * k)] =ᵐ[draws] draws[fun ω => 1 / (env.nA : ℝ) * ind A ω | first (3 * k)] := condExp_congr_ae h3
    have h5 : draws[fun ω => 1 / (env.nA : ℝ) * ind A ω | first (3 * k)] =ᵐ[draws] fun ω => 1 / (env.nA : ℝ) * (draws[ind A | first (3 * k)]) ω := condExp_smul (1 / (env.nA : ℝ)) _ _
    have h6 := fresh (3 * k) (Set.indicator (Set.Iio (eps k)) fun _ => (1 : ℝ)) (measurable_const.indicator measurableSet_Iio)
    filter_upwards [h1, h2, h4, h5, h6] with ω g1 g2 g4 g5 g6
    have g7 : (draws[ind A | first (3 * k)]) ω = eps k := by
      refine Eq.trans (b := ∫ u, Set.indicator (Set.Iio (eps k)) (fun _ => (1 : ℝ)) u ∂uniform01) g6 ?_
      rw [integral_indicator_const _ measurableSet_Iio, smul_eq_mul, mul_one, uniform01, measureReal_def, Measure.restrict_apply measurableSet_Iio]
      have e : Set.Iio (eps k) ∩ Set.Ico 0 1 = Set.Ico 0 (eps k) := by
        ext u
        simp only [Set.mem_inter_iff, Set.mem_Iio, Set.mem_Ico]
        have := (heps k).2
        exact ⟨fun h => ⟨h.2.1, h.1⟩, fun h => ⟨h.2, h.1, by linarith [h.2]⟩⟩
      rw [e, Real.volume_Ico, sub_zero, ENNReal.toReal_ofReal (by linarith [(heps k).1])]
    refine le_trans ?_ ((g2.symm.trans g4 |>.trans g5).symm.le.trans g1)
    rw [g7]
    exact mul_le_mul_of_nonneg_left (heps k).1 (by positivity)
  exact ⟨v, j, Q, T, h0, hw, hact, hs, hl, C155_walk he hn hg hg1 hl hs Q₀ T₀ h0 hdec hsum C hC htau' start hw _ (by positivity) ht hr⟩

/-! ## A case -/

/-- Two rooms with a door that is stuck half of the time: action 0 waits, action 1 tries to go from the first room to the second one, or from the second to the exit, where the reward is 1. -/
noncomputable def stuck : Env Bool ℝ where
  nA := 2
  outcomes s a := if a = 1 then [(1 / 2, ⟨if s then 1 else 0, true, s⟩), (1 / 2, ⟨0, s, false⟩)] else [(1, ⟨0, s, false⟩)]

theorem stuck_valid : stuck.Valid := by
  intro s a _
  simp only [stuck]
  split
  · exact ⟨by simp, by norm_num⟩
  · exact ⟨by simp, by norm_num⟩

theorem stuck_reach (s t : Bool) : Reach stuck false s t := by
  have h1 : Reach stuck false false true := .step false true 1 (1 / 2) ⟨0, true, false⟩ (by simp [stuck]) (by simp [stuck]) (by norm_num) (.refl true)
  have h2 : Reach stuck false true false := .step true false 1 (1 / 2) ⟨1, true, true⟩ (by simp [stuck]) (by simp [stuck]) (by norm_num) (.refl false)
  cases s <;> cases t
  · exact .refl _
  · exact h1
  · exact h2
  · exact .refl _

/-- The hypotheses of `C155_epsilon_greedy` and of `C155_walk` are met: an agent with epsilon = 1/10 that begins in the first room with arbitrary values and learning rates 1, 1/2, 1/3, … almost
surely learns to go through both doors. -/
example (q₀ : Bool → List ℝ) (hq : ∀ s, (q₀ s).length = 2) : ∃ (v : ℕ → (ℕ → ℝ) → Visit Bool) (Q T : (ℕ → ℝ) → ℕ → Bool → List ℝ), (∀ ω, Q ω 0 = q₀) ∧ (∀ ω, Walks false fun k => v k ω) ∧
    (∀ ω, Learns stuck (9 / 10) true (Q ω) (T ω) (fun k => v k ω) (fun k => 1 / (k + 1)) fun _ => 1) ∧
    ∀ᵐ ω ∂draws, ∀ᶠ k in atTop, greedy (Q ω k true) = 1 ∧ greedy (Q ω k false) = 1 := by
  obtain ⟨v, j, Q, T, h0, hw, -, -, hl, B, Qs, h1, h2, h3, h4⟩ := C155_epsilon_greedy stuck stuck_valid (by simp [stuck]) (9 / 10) (by norm_num) (by norm_num) true false stuck_reach
    (fun _ => 1 / 10) (1 / 10) (by norm_num) (fun _ => by norm_num) (fun k => 1 / ((k : ℝ) + 1)) (fun k => ⟨by positivity, by
      rw [div_le_one (by positivity)]
      have : (0 : ℝ) ≤ k := by positivity
      linarith⟩) (fun a b hab => by
      have : (a : ℝ) ≤ b := by exact_mod_cast hab
      exact one_div_le_one_div_of_le (by positivity) (by linarith)) rates_diverge 2 rates_square (fun _ => 1) (fun _ => by norm_num) (by simpa using tendsto_natCast_atTop_atTop) q₀ q₀ hq hq
  refine ⟨v, Q, T, fun ω => (h0 ω).1, hw, hl, ?_⟩
  have hlen : ∀ s, (Qs s).length = 2 := fun s => (h1.2 s).1
  have hmx : ∀ s a, a < 2 → evaluate (Qs s) a ≤ maxQ (Qs s) := fun s a ha => by
    refine (C64_max (Qs s) (by intro h'; have := hlen s; rw [h'] at this; simp at this)).2 _ ?_
    simp [evaluate, hlen, ha]
  have v11 : evaluate (Qs true) 1 = 1 / 2 + 1 / 2 * (9 / 10 * maxQ (Qs true)) := by
    rw [h3 true 1 (by simp [stuck])]
    simp [backup, stuck, expect]
  have v10 : evaluate (Qs true) 0 = 9 / 10 * maxQ (Qs true) := by
    rw [h3 true 0 (by simp [stuck])]
    simp [backup, stuck, expect]
  have v01 : evaluate (Qs false) 1 = 1 / 2 * (9 / 10 * maxQ (Qs true)) + 1 / 2 * (9 / 10 * maxQ (Qs false)) := by
    rw [h3 false 1 (by simp [stuck])]
    simp [backup, stuck, expect]
  have v00 : evaluate (Qs false) 0 = 9 / 10 * maxQ (Qs false) := by
    rw [h3 false 0 (by simp [stuck])]
    simp [backup, stuck, expect]
  have m1 := hmx true 1 (by norm_num)
  have m0 := hmx false 1 (by norm_num)
  filter_upwards [h4] with ω hω
  filter_upwards [(hω true).2, (hω false).2] with k k1 k0
  have hlt : ∀ s, greedy (Q ω k s) = 0 ∨ greedy (Q ω k s) = 1 := fun s => by
    have hq : (Q ω k s).length = 2 := ((hl ω).tables k s).1
    obtain ⟨u, hu, -⟩ := C64_greedy (Q ω k s) (by intro h'; rw [h'] at hq; simp at hq)
    have := (List.getElem?_eq_some_iff.1 hu).1
    omega
  constructor
  · rcases hlt true with h | h
    · rw [h, v10] at k1; linarith
    · exact h
  · rcases hlt false with h | h
    · rw [h, v00] at k0; linarith
    · exact h

end Verif.QLearning
