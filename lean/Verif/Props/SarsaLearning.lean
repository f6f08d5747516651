import Verif.Model.TabularSarsa
import Verif.Props.QLearning
import Verif.Props.SarsaIteration

/-!
# C165: a table trained with SARSA's loss on each step as it happens learns the values of the explorer's behaviour, almost surely

The network is a table, the optimizer plain gradient descent, the replay buffer holds one step.  Outcomes are random, and so are the next actions that the explorer selects.
-/

set_option autoImplicit false
set_option linter.unusedSectionVars false

open Filter Topology MeasureTheory

namespace Verif.SarsaLearning
open ActionValue Targets MDP ValueLoss TabularDQN TabularSarsa SarsaIteration
open QLearning (Samples prob pick_measurable maxQ_measurable weight sum_getD backup_near maxQ_abs)

variable {S Ω : Type} [DecidableEq S] {mΩ : MeasurableSpace Ω}

/-! ## Specification -/

/-- Learning along one history: the tables `Q k` and `T k` of the network and of the target network before the update `k`, which is made with the step `v k` alone, the next action `b k` that the
explorer selects and the learning rate `lr k`; afterwards the target network is moved by the factor `tau k`. -/
structure LearnsSarsa (env : Env S ℝ) (gamma : ℝ) (mean : Bool) (Q T : ℕ → S → List ℝ) (v : ℕ → Visit S) (b : ℕ → ℕ) (lr tau : ℕ → ℝ) : Prop where
  tables : ∀ k s, (Q k s).length = env.nA ∧ (T k s).length = env.nA
  descends : ∀ k, Descends env (fun q => sarsaLoss gamma false (accName mean) q (T k) [b k] [(v k).entry] none) (lr k) (Q k) (Q (k + 1))
  rates : ∀ k, 0 ≤ lr k ∧ lr k ≤ 1
  taus : ∀ k, 0 ≤ tau k ∧ tau k ≤ 1
  target : ∀ k s a, a < env.nA → evaluate (T (k + 1) s) a = CopyParam.soft (tau k) (evaluate (T k s) a) (evaluate (Q (k + 1) s) a)

/-- The next state after the outcome number `x`. -/
def nextAt (env : Env S ℝ) (s : S) (a x : ℕ) : S := ((env.outcomes s a)[x]?.map fun p => p.2.next).getD s

/-- Random next actions: the action `b k` is known after the update `k`.  Whatever the past, the outcome and the next action together have the probability of the outcome, times that
of the action when the explorer selects with `ε = eps k` and the greedy action is that of the target network. -/
structure NextActions (env : Env S ℝ) (μ : Measure Ω) (ℱ : Filtration ℕ mΩ) (T : Ω → ℕ → S → List ℝ) (v : ℕ → Ω → Visit S) (j b : ℕ → Ω → ℕ) (eps : ℕ → ℝ) : Prop where
  allowed : ∀ k ω, b k ω < env.nA
  known : ∀ k y, MeasurableSet[ℱ (k + 1)] {ω | b k ω = y}
  law : ∀ k x y, y < env.nA → μ[Set.indicator {ω | j k ω = x ∧ b k ω = y} (fun _ => (1 : ℝ)) | ℱ k] =ᵐ[μ]
    fun ω => prob env (v k ω).state (v k ω).action x * probOf (behaviour env (eps k) (T ω k) (nextAt env (v k ω).state (v k ω).action x)) y

/-! ## One update -/

/-- The worth of an outcome with the next action `y`. -/
noncomputable def sworth (gamma : ℝ) (qt : S → List ℝ) (o : Outcome S ℝ) (y : ℕ) : ℝ := o.reward + if o.done then 0 else gamma * evaluate (qt o.next) y

theorem loss_reduces (gamma : ℝ) (clip : Bool) (acc : String) (q qt : S → List ℝ) (y : ℕ) (v : Visit S) (w : Option (List ℝ)) :
    sarsaLoss gamma clip acc q qt [y] [v.entry] w = tableLoss gamma clip acc q (fun s => [evaluate (qt s) y]) [v.entry] w := by
  obtain ⟨e, he, -⟩ := target_eq gamma qt v.state v.action y v.outcome
  have hs : sarsa qt [y] e = dqn (fun s => [evaluate (qt s) y]) e := by
    cases he
    rfl
  have he' : batchExperiences id gamma [v.entry] = .ok e := he
  simp only [sarsaLoss, tableLoss, he', Bind.bind, Except.bind, hs]

/-- C165: an importance weight multiplies the loss of a step, so that it acts like a factor of the learning rate. -/
theorem C165_weight (gamma : ℝ) (clip mean : Bool) (q qt : S → List ℝ) (y : ℕ) (v : Visit S) (x : ℝ) :
    ∃ l, sarsaLoss gamma clip (accName mean) q qt [y] [v.entry] none = .ok l ∧ sarsaLoss gamma clip (accName mean) q qt [y] [v.entry] (some [x]) = .ok (x * l) := by
  have h := fun w hw => loss_eq gamma clip mean q (fun s => [evaluate (qt s) y]) [v] (by simp) w hw
  refine ⟨_, by rw [loss_reduces]; exact h none (by simp), ?_⟩
  rw [loss_reduces]
  refine (h (some [x]) (by simp)).trans ?_
  congr 1
  simp [weightsOf]
  ring

theorem LearnsSarsa.step {env : Env S ℝ} {gamma : ℝ} {mean : Bool} {Q T : ℕ → S → List ℝ} {v : ℕ → Visit S} {b : ℕ → ℕ} {lr tau : ℕ → ℝ} (h : LearnsSarsa env gamma mean Q T v b lr tau)
    (k : ℕ) (s : S) (a : ℕ) (ha : a < env.nA) :
    evaluate (Q (k + 1) s) a = evaluate (Q k s) a - (if (v k).state = s ∧ (v k).action = a then lr k else 0) * (evaluate (Q k s) a - sworth gamma (T k) (v k).outcome (b k)) := by
  have hd := h.descends k
  simp only [loss_reduces] at hd
  have hd := (descends_iff env gamma (lr k) false mean (Q k) _ (Q (k + 1)) (fun s => (h.tables k s).1) [v k] (by simp) none (by simp)).1 hd s a ha
  rw [hd]
  have hf : factor mean [v k].length = 1 := by cases mean <;> simp [factor]
  rw [hf]
  have hg : goal gamma (fun s => [evaluate (T k s) (b k)]) (v k) = sworth gamma (T k) (v k).outcome (b k) := rfl
  by_cases hm : (v k).state = s ∧ (v k).action = a
  · simp [weightsOf, hm, ValueLoss.slope, hg]
  · simp [weightsOf, hm]

theorem sworth_abs (env : Env S ℝ) (gamma R B : ℝ) (hg : 0 ≤ gamma) (hB : 0 ≤ B) (hRB : R + gamma * B ≤ B) (qt : S → List ℝ)
    (hqt : ∀ s a, a < env.nA → |evaluate (qt s) a| ≤ B) (o : Outcome S ℝ) (ho : |o.reward| ≤ R) (y : ℕ) (hy : y < env.nA) : |sworth gamma qt o y| ≤ B := by
  unfold sworth
  split
  · rw [add_zero]; exact ho.trans (by nlinarith)
  · refine (abs_add_le _ _).trans ?_
    rw [abs_mul, abs_of_nonneg hg]
    have := mul_le_mul_of_nonneg_left (hqt o.next y hy) hg
    linarith

theorem LearnsSarsa.bounded {env : Env S ℝ} {gamma : ℝ} {mean : Bool} {Q T : ℕ → S → List ℝ} {v : ℕ → Visit S} {b : ℕ → ℕ} {lr tau : ℕ → ℝ} (h : LearnsSarsa env gamma mean Q T v b lr tau) (R B : ℝ)
    (hg : 0 ≤ gamma) (hB : 0 ≤ B) (hRB : R + gamma * B ≤ B) (hR : ∀ k, |(v k).outcome.reward| ≤ R) (hb : ∀ k, b k < env.nA)
    (h0 : ∀ s a, a < env.nA → |evaluate (Q 0 s) a| ≤ B ∧ |evaluate (T 0 s) a| ≤ B) (k : ℕ) :
    ∀ s a, a < env.nA → |evaluate (Q k s) a| ≤ B ∧ |evaluate (T k s) a| ≤ B := by
  induction k with
  | zero => exact h0
  | succ k ih =>
    intro s a ha
    have hgoal := abs_le.1 (sworth_abs env gamma R B hg hB hRB (T k) (fun s a ha => (ih s a ha).2) _ (hR k) _ (hb k))
    have hq := abs_le.1 (ih s a ha).1
    have ht := abs_le.1 (ih s a ha).2
    obtain ⟨l0, l1⟩ := h.rates k
    obtain ⟨t0, t1⟩ := h.taus k
    have hQ : |evaluate (Q (k + 1) s) a| ≤ B := by
      rw [h.step k s a ha, abs_le]
      split
      · constructor <;> nlinarith
      · constructor <;> linarith
    refine ⟨hQ, ?_⟩
    have hq' := abs_le.1 hQ
    rw [h.target k s a ha, CopyParam.soft, abs_le]
    constructor <;> nlinarith

/-! ## Measurability -/

theorem greedy_measurable {m : MeasurableSpace Ω} (n : ℕ) (hn : 0 < n) (q : Ω → List ℝ) (hl : ∀ ω, (q ω).length = n) (hq : ∀ a, a < n → Measurable[m] fun ω => evaluate (q ω) a) (g : ℕ) :
    MeasurableSet[m] {ω | greedy (q ω) = g} := by
  by_cases hg : g < n
  swap
  · have e : {ω | greedy (q ω) = g} = ∅ := by
      ext ω
      simp only [Set.mem_setOf_eq, Set.mem_empty_iff_false, iff_false]
      intro h
      have hne : q ω ≠ [] := fun h' => by have := hl ω; rw [h'] at this; simp at this; omega
      obtain ⟨u, hu, -⟩ := C64_greedy (q ω) hne
      have := (List.getElem?_eq_some_iff.1 hu).1
      rw [hl, h] at this
      exact hg this
    rw [e]; exact @MeasurableSet.empty _ m
  have e : {ω | greedy (q ω) = g} = (⋂ a : Fin n, {ω | evaluate (q ω) a ≤ evaluate (q ω) g}) ∩ ⋂ a : Fin n, if (a : ℕ) < g then {ω | evaluate (q ω) a < evaluate (q ω) g} else Set.univ := by
    ext ω
    have hne : q ω ≠ [] := fun h' => by have := hl ω; rw [h'] at this; simp at this; omega
    obtain ⟨u, hu, hmax, hfirst⟩ := C64_greedy (q ω) hne
    have ev : ∀ a, a < n → (q ω)[a]? = some (evaluate (q ω) a) := fun a ha => by
      have : a < (q ω).length := by rw [hl]; exact ha
      simp [evaluate, this]
    have hlt : greedy (q ω) < n := by
      have := (List.getElem?_eq_some_iff.1 hu).1
      rwa [hl] at this
    have hue : u = evaluate (q ω) (greedy (q ω)) := by
      have := ev _ hlt
      rw [hu] at this; exact Option.some.inj this
    simp only [Set.mem_setOf_eq, Set.mem_inter_iff, Set.mem_iInter]
    constructor
    · intro h
      subst h
      refine ⟨fun a => ?_, fun a => ?_⟩
      · rw [← hue]; exact hmax.2 _ (List.mem_of_getElem? (ev a a.2))
      · split
        · rename_i ha
          rw [Set.mem_setOf_eq, ← hue]
          exact hfirst a _ (ev a a.2) ha
        · trivial
    · rintro ⟨h1, h2⟩
      have h3 := h1 ⟨greedy (q ω), hlt⟩
      simp only at h3
      have h4 := hmax.2 _ (List.mem_of_getElem? (ev g hg))
      rw [hue] at h4
      rcases lt_trichotomy (greedy (q ω)) g with hc | hc | hc
      · have := h2 ⟨greedy (q ω), hlt⟩
        rw [if_pos hc] at this
        have this : evaluate (q ω) (greedy (q ω)) < evaluate (q ω) g := this
        exact absurd this (not_lt.2 h4)
      · exact hc
      · have := hfirst g _ (ev g hg) hc
        rw [hue] at this
        exact absurd this (not_lt.2 h3)
  rw [e]
  refine MeasurableSet.inter (MeasurableSet.iInter fun a => measurableSet_le (hq a a.2) (hq g hg)) (MeasurableSet.iInter fun a => ?_)
  split
  · exact measurableSet_lt (hq a a.2) (hq g hg)
  · exact @MeasurableSet.univ _ m

theorem probOf_behaviour (env : Env S ℝ) (ε : ℝ) (Q : S → List ℝ) (s : S) (y : ℕ) (hy : y < env.nA) :
    probOf (behaviour env ε Q s) y = (if greedy (Q s) = y then 1 - ε else 0) + ε / env.nA := by
  have h2 : probOf ((List.range env.nA).map fun r => (ε / env.nA, r)) y = ε / env.nA := by
    simp only [probOf, List.map_map, Function.comp_def]
    have : ∀ n, y < n → ((List.range n).map fun r => if r = y then ε / (env.nA:ℝ) else 0).sum = ε / env.nA := by
      intro n hn
      rw [List.sum_map_ite_eq]
      simp [List.count_range, hn]
    exact this _ hy
  have h3 : probOf (behaviour env ε Q s) y = (if greedy (Q s) = y then 1 - ε else 0) + probOf ((List.range env.nA).map fun r => (ε / env.nA, r)) y := by
    simp [probOf, behaviour]
  rw [h3, h2]

section
variable {env : Env S ℝ} {gamma : ℝ} {mean : Bool} {Q T : Ω → ℕ → S → List ℝ} {v : ℕ → Ω → Visit S} {j b : ℕ → Ω → ℕ} {lr : ℕ → Ω → ℝ} {tau eps : ℕ → ℝ} {μ : Measure Ω} {ℱ : Filtration ℕ mΩ}

theorem probOf_measurable {m : MeasurableSpace Ω} (hn : 0 < env.nA) (T : Ω → S → List ℝ) (hl : ∀ ω s, (T ω s).length = env.nA) (hT : ∀ s a, a < env.nA → Measurable[m] fun ω => evaluate (T ω s) a)
    (ε : ℝ) (s : S) (y : ℕ) (hy : y < env.nA) : Measurable[m] fun ω => probOf (behaviour env ε (T ω) s) y := by
  simp only [probOf_behaviour env ε _ s y hy]
  exact (Measurable.ite (greedy_measurable env.nA hn (fun ω => T ω s) (fun ω => hl ω s) (hT s) y) measurable_const measurable_const).add measurable_const

/-- The worth of the outcome number `x` with the next action `y`. -/
noncomputable def sworthAt (env : Env S ℝ) (gamma : ℝ) (qt : S → List ℝ) (s : S) (a x y : ℕ) : ℝ := ((env.outcomes s a)[x]?.map fun p => sworth gamma qt p.2 y).getD 0

theorem goal_eq (hs : Samples env μ ℱ v j lr) (qt : S → List ℝ) (k : ℕ) (ω : Ω) (y : ℕ) :
    sworth gamma qt (v k ω).outcome y = sworthAt env gamma qt (v k ω).state (v k ω).action (j k ω) y := by
  obtain ⟨p, hp⟩ := hs.drawn k ω
  simp [sworthAt, hp]

theorem sworthAt_measurable {m : MeasurableSpace Ω} (T : Ω → S → List ℝ) (hT : ∀ s a, a < env.nA → Measurable[m] fun ω => evaluate (T ω s) a)
    (s : S) (a x y : ℕ) (hy : y < env.nA) : Measurable[m] fun ω => sworthAt env gamma (T ω) s a x y := by
  unfold sworthAt
  cases (env.outcomes s a)[x]? with
  | none => exact measurable_const
  | some p =>
    simp only [Option.map_some, Option.getD_some, sworth]
    split
    · exact measurable_const
    · exact measurable_const.add ((hT _ y hy).const_mul gamma)

theorem tables_measurable [Finite S] (h : ∀ ω, LearnsSarsa env gamma mean (Q ω) (T ω) (fun k => v k ω) (fun k => b k ω) (fun k => lr k ω) tau) (hs : Samples env μ ℱ v j lr)
    (hb : NextActions env μ ℱ T v j b eps) (Q₀ T₀ : S → List ℝ) (h0 : ∀ ω, Q ω 0 = Q₀ ∧ T ω 0 = T₀) (k : ℕ) :
    ∀ s a, a < env.nA → Measurable[ℱ k] (fun ω => evaluate (Q ω k s) a) ∧ Measurable[ℱ k] (fun ω => evaluate (T ω k s) a) := by
  induction k with
  | zero =>
    intro s a _
    simp only [h0]
    exact ⟨measurable_const, measurable_const⟩
  | succ k ih =>
    have hle := ℱ.mono (Nat.le_succ k)
    have hgoal : Measurable[ℱ (k + 1)] fun ω => sworth gamma (T ω k) (v k ω).outcome (b k ω) := by
      simp only [goal_eq hs]
      refine pick_measurable (m := ℱ (k + 1)) (D := S × ℕ × ℕ × Fin env.nA) (fun ω => ((v k ω).state, (v k ω).action, j k ω, ⟨b k ω, hb.allowed k ω⟩)) (fun z => ?_)
        (fun z ω => sworthAt env gamma (T ω k) z.1 z.2.1 z.2.2.1 z.2.2.2) fun z => ?_
      · have e : {ω | ((v k ω).state, (v k ω).action, j k ω, (⟨b k ω, hb.allowed k ω⟩ : Fin env.nA)) = z} =
            {ω | (v k ω).state = z.1} ∩ ({ω | (v k ω).action = z.2.1} ∩ ({ω | j k ω = z.2.2.1} ∩ {ω | b k ω = z.2.2.2})) := by
          ext ω; simp [Prod.ext_iff, Fin.ext_iff]
        rw [e]
        exact (hle _ (hs.state k z.1)).inter ((hle _ (hs.action k z.2.1)).inter ((hs.known k z.2.2.1).inter (hb.known k _)))
      · exact sworthAt_measurable (fun ω => T ω k) (fun s a ha => (ih s a ha).2.mono hle le_rfl) _ _ _ _ z.2.2.2.2
    intro s a ha
    have hQ : Measurable[ℱ (k + 1)] fun ω => evaluate (Q ω (k + 1) s) a := by
      have e : (fun ω => evaluate (Q ω (k + 1) s) a) = fun ω => evaluate (Q ω k s) a - (if (v k ω).state = s ∧ (v k ω).action = a then lr k ω else 0) *
          (evaluate (Q ω k s) a - sworth gamma (T ω k) (v k ω).outcome (b k ω)) := by
        funext ω; exact (h ω).step k s a ha
      rw [e]
      have hq := (ih s a ha).1.mono hle le_rfl
      refine hq.sub (Measurable.mul (Measurable.ite ?_ ((hs.rate k).mono hle le_rfl) measurable_const) (hq.sub hgoal))
      exact (hle _ (hs.state k s)).inter (hle _ (hs.action k a))
    refine ⟨hQ, ?_⟩
    have e : (fun ω => evaluate (T ω (k + 1) s) a) = fun ω => CopyParam.soft (tau k) (evaluate (T ω k s) a) (evaluate (Q ω (k + 1) s) a) := by
      funext ω; exact (h ω).target k s a ha
    rw [e]
    unfold CopyParam.soft
    exact (((ih s a ha).2.mono hle le_rfl).mul_const _).add (hQ.const_mul _)

/-! ## The noise -/

theorem sum_probOf (hn : 0 < env.nA) (ε : ℝ) (Q : S → List ℝ) (hl : ∀ s, (Q s).length = env.nA) (s : S) (f : ℕ → ℝ) :
    ∑ y ∈ Finset.range env.nA, probOf (behaviour env ε Q s) y * f y = (1 - ε) * f (greedy (Q s)) + ε * ((∑ y ∈ Finset.range env.nA, f y) / env.nA) := by
  have hne : Q s ≠ [] := fun h' => by have := hl s; rw [h'] at this; simp at this; omega
  have hlt : greedy (Q s) < env.nA := by
    obtain ⟨u, hu, -⟩ := C64_greedy (Q s) hne
    have := (List.getElem?_eq_some_iff.1 hu).1
    rwa [hl] at this
  rw [Finset.sum_congr rfl fun y hy => by rw [probOf_behaviour env ε Q s y (Finset.mem_range.1 hy), add_mul, ite_mul, zero_mul], Finset.sum_add_distrib, Finset.sum_ite_eq,
    if_pos (Finset.mem_range.2 hlt), ← Finset.mul_sum]
  ring

theorem backup_sum (hn : 0 < env.nA) (ε : ℝ) (qt : S → List ℝ) (hl : ∀ s, (qt s).length = env.nA) (s : S) (a : ℕ) :
    backup env gamma (fun s => soft env.nA ε (qt s)) s a =
      ∑ x ∈ Finset.range (env.outcomes s a).length, ∑ y ∈ Finset.range env.nA, prob env s a x * probOf (behaviour env ε qt (nextAt env s a x)) y * sworthAt env gamma qt s a x y := by
  have hnA : (env.nA : ℝ) ≠ 0 := by positivity
  have e : backup env gamma (fun s => soft env.nA ε (qt s)) s a = ((env.outcomes s a).map fun p => p.1 * (p.2.reward + if p.2.done then 0 else gamma * soft env.nA ε (qt p.2.next))).sum := rfl
  rw [e, sum_getD]
  refine Finset.sum_congr rfl fun x hx => ?_
  have hx' := Finset.mem_range.1 hx
  simp only [mul_assoc]
  rw [← Finset.mul_sum, sum_probOf hn ε qt hl]
  simp only [prob, sworthAt, nextAt, List.getElem?_eq_getElem hx', Option.map_some, Option.getD_some, sworth]
  congr 1
  split
  · simp only [add_zero, Finset.sum_const, Finset.card_range, nsmul_eq_mul]; field_simp; ring
  · simp only [soft, Finset.sum_add_distrib, Finset.sum_const, Finset.card_range, nsmul_eq_mul, ← Finset.mul_sum]
    have : maxQ (qt ((env.outcomes s a)[x].2.next)) = evaluate (qt ((env.outcomes s a)[x].2.next)) (greedy (qt ((env.outcomes s a)[x].2.next))) := rfl
    rw [this]; field_simp; ring

/-- The joint probability that the law gives. -/
noncomputable def joint (env : Env S ℝ) (ε : ℝ) (qt : S → List ℝ) (s : S) (a x y : ℕ) : ℝ := prob env s a x * probOf (behaviour env ε qt (nextAt env s a x)) y

theorem term_zero [IsProbabilityMeasure μ] (hs : Samples env μ ℱ v j lr) (hb : NextActions env μ ℱ T v j b eps) (k : ℕ) (s : S) (a x y : ℕ) (hy : y < env.nA) (f : Ω → ℝ) (hf : Measurable[ℱ k] f)
    (c : ℝ) (hc : ∀ ω, |f ω| ≤ c) (h0 : ∀ ω, f ω ≠ 0 → (v k ω).state = s ∧ (v k ω).action = a) (hi : Integrable (fun ω => joint env (eps k) (T ω k) s a x y) μ)
    (hm : Measurable[ℱ k] fun ω => joint env (eps k) (T ω k) s a x y) :
    μ[f * (Set.indicator {ω | j k ω = x ∧ b k ω = y} (fun _ => (1 : ℝ)) - fun ω => joint env (eps k) (T ω k) s a x y) | ℱ k] =ᵐ[μ] 0 := by
  have hk : MeasurableSet {ω | j k ω = x ∧ b k ω = y} := ℱ.le _ _ ((hs.known k x).inter (hb.known k y))
  have h1i : Integrable (Set.indicator {ω | j k ω = x ∧ b k ω = y} (fun _ => (1 : ℝ))) μ := (integrable_const 1).indicator hk
  have h1 := condExp_stronglyMeasurable_mul_of_bound (ℱ.le k) hf.stronglyMeasurable (h1i.sub hi) c (Eventually.of_forall hc)
  have h2 := condExp_sub (m := ℱ k) h1i hi
  have h3 : μ[fun ω => joint env (eps k) (T ω k) s a x y | ℱ k] = fun ω => joint env (eps k) (T ω k) s a x y := condExp_of_stronglyMeasurable (ℱ.le k) hm.stronglyMeasurable hi
  filter_upwards [h1, h2, hb.law k x y hy] with ω e1 e2 e3
  rw [e1, Pi.mul_apply, e2, Pi.sub_apply, e3, h3]
  by_cases hz : f ω = 0
  · simp [hz]
  · obtain ⟨q1, q2⟩ := h0 ω hz
    simp [q1, q2, joint]

/-- The noise of the update `k` for an entry. -/
noncomputable def noise (env : Env S ℝ) (gamma : ℝ) (T : Ω → ℕ → S → List ℝ) (v : ℕ → Ω → Visit S) (b : ℕ → Ω → ℕ) (eps : ℕ → ℝ) (s : S) (a k : ℕ) (ω : Ω) : ℝ :=
  sworth gamma (T ω k) (v k ω).outcome (b k ω) - backup env gamma (fun s => soft env.nA (eps k) (T ω k s)) s a

theorem noise_sum (hn : 0 < env.nA) (hl : ∀ ω k s, (T ω k s).length = env.nA) (hs : Samples env μ ℱ v j lr) (hb : NextActions env μ ℱ T v j b eps) (s : S) (a k : ℕ) :
    (fun ω => weight v lr s a k ω * noise env gamma T v b eps s a k ω) =
    ∑ x ∈ Finset.range (env.outcomes s a).length, ∑ y ∈ Finset.range env.nA, (fun ω => weight v lr s a k ω * sworthAt env gamma (T ω k) s a x y) *
      (Set.indicator {ω | j k ω = x ∧ b k ω = y} (fun _ => (1 : ℝ)) - fun ω => joint env (eps k) (T ω k) s a x y) := by
  funext ω
  simp only [Finset.sum_apply, Pi.mul_apply, Pi.sub_apply, noise, backup_sum hn (eps k) (T ω k) (hl ω k)]
  by_cases hm : (v k ω).state = s ∧ (v k ω).action = a
  · obtain ⟨p, hp⟩ := hs.drawn k ω
    rw [goal_eq hs, hm.1, hm.2]
    rw [hm.1, hm.2] at hp
    have hlt : j k ω < (env.outcomes s a).length := (List.getElem?_eq_some_iff.1 hp).1
    have e : sworthAt env gamma (T ω k) s a (j k ω) (b k ω) = ∑ x ∈ Finset.range (env.outcomes s a).length, ∑ y ∈ Finset.range env.nA,
        sworthAt env gamma (T ω k) s a x y * Set.indicator {ω | j k ω = x ∧ b k ω = y} (fun _ => (1 : ℝ)) ω := by
      rw [Finset.sum_eq_single (j k ω), Finset.sum_eq_single (b k ω)]
      · simp
      · intro y _ hy
        simp [Set.indicator, Ne.symm hy]
      · intro h'; exact absurd (Finset.mem_range.2 (hb.allowed k ω)) h'
      · intro x _ hx
        simp [Set.indicator, Ne.symm hx]
      · intro h'; exact absurd (Finset.mem_range.2 hlt) h'
    rw [e, ← Finset.sum_sub_distrib, Finset.mul_sum]
    refine Finset.sum_congr rfl fun x _ => ?_
    rw [← Finset.sum_sub_distrib, Finset.mul_sum]
    exact Finset.sum_congr rfl fun y _ => by simp only [joint]; ring
  · simp [weight, hm]

/-! ## Convergence -/

theorem soft_abs' (hn : 0 < env.nA) (ε : ℝ) (h0 : 0 ≤ ε) (h1 : ε ≤ 1) (B : ℝ) (q : List ℝ) (hq : q.length = env.nA) (h : ∀ a, a < env.nA → |evaluate q a| ≤ B) (s : S) : |soft env.nA ε q| ≤ B :=
  soft_abs env ε h0 h1 B (fun _ => q) ⟨hn, fun _ => ⟨hq, fun x hx => by
    obtain ⟨i, hi, rfl⟩ := List.mem_iff_getElem.1 hx
    have := h i (by rw [← hq]; exact hi)
    simpa [evaluate, hi] using this⟩⟩ s

theorem joint_abs (he : env.Valid) (hn : 0 < env.nA) (ε : ℝ) (h0 : 0 ≤ ε) (h1 : ε ≤ 1) (qt : S → List ℝ) (s : S) (a x y : ℕ) (ha : a < env.nA) (hy : y < env.nA) :
    |joint env ε qt s a x y| ≤ prob env s a x * 2 := by
  have hp : 0 ≤ prob env s a x := by
    unfold prob
    cases hx : (env.outcomes s a)[x]? with
    | none => simp
    | some p => exact (he s a ha).1 p (List.mem_of_getElem? hx)
  have hnA : (1:ℝ) ≤ env.nA := by exact_mod_cast hn
  have hd : ε / env.nA ≤ 1 := by rw [div_le_one (by linarith)]; linarith
  have hd0 : 0 ≤ ε / env.nA := by positivity
  rw [joint, abs_mul, abs_of_nonneg hp]
  refine mul_le_mul_of_nonneg_left ?_ hp
  rw [probOf_behaviour env ε qt _ y hy, abs_le]
  split <;> constructor <;> linarith

/-- **C165**: let a table be trained with SARSA's unclipped loss on each step of an environment as it happens.  The states and actions may be chosen in any way from what is known, the outcomes follow
the probabilities of a process with finitely many states, and the explorer selects the next actions epsilon-greedily; `epsilon` may change until it stays at `ε` (as with a linear decay).  Learning
rates are at most 1 and their squares have bounded sums; the target network is moved by factors whose sum diverges.  Then, almost surely: if the learning rates at the visits of each action in each
state have an infinite sum, the values converge to those of the one table that meets the targets of SARSA for `ε`.  It holds the values of the epsilon-greedy behaviour for this table, which are at
least those of every policy that explores as much. -/
theorem C165_converges [Finite S] [IsProbabilityMeasure μ] (he : env.Valid) (hn : 0 < env.nA) (hg : 0 ≤ gamma) (hg1 : gamma < 1)
    (h : ∀ ω, LearnsSarsa env gamma mean (Q ω) (T ω) (fun k => v k ω) (fun k => b k ω) (fun k => lr k ω) tau) (hs : Samples env μ ℱ v j lr) (hb : NextActions env μ ℱ T v j b eps)
    (heps : ∀ k, 0 ≤ eps k ∧ eps k ≤ 1) (ε : ℝ) (hε : ∀ᶠ k in atTop, eps k = ε) (Q₀ T₀ : S → List ℝ) (h0 : ∀ ω, Q ω 0 = Q₀ ∧ T ω 0 = T₀)
    (C : ℝ) (hC : ∀ m ω, ∑ k ∈ Finset.range m, lr k ω ^ 2 ≤ C) (htau : Tendsto (fun m => ∑ k ∈ Finset.range m, tau k) atTop atTop) :
    ∃ B Qs, Table env B Qs ∧ SarsaFits env gamma ε Qs Qs ∧
      (∀ n h s, |ret env gamma (fun _ => behaviour env ε Qs) n h s - expect (behaviour env ε Qs s) (evaluate (Qs s))| ≤ gamma ^ n * B) ∧
      (∀ π : Policy S ℝ, π.Valid env → Explores env ε π → ∀ n h s, ret env gamma π n h s ≤ expect (behaviour env ε Qs s) (evaluate (Qs s)) + gamma ^ n * B) ∧
      ∀ᵐ ω ∂μ, (∀ s a, a < env.nA → Tendsto (fun m => ∑ k ∈ Finset.range m, if (v k ω).state = s ∧ (v k ω).action = a then lr k ω else 0) atTop atTop) →
        ∀ s, (∀ a, a < env.nA → Tendsto (fun k => evaluate (Q ω k s) a) atTop (𝓝 (evaluate (Qs s) a))) ∧
          ∀ᶠ k in atTop, evaluate (Qs s) (greedy (Q ω k s)) = maxQ (Qs s) := by
  have := Fintype.ofFinite S
  -- bounds
  obtain ⟨R, hR0, hR⟩ : ∃ R, 0 ≤ R ∧ ∀ s a, a < env.nA → ∀ x ∈ env.outcomes s a, |x.2.reward| ≤ R := by
    refine ⟨∑ s, ∑ a ∈ Finset.range env.nA, ((env.outcomes s a).map fun x => |x.2.reward|).sum, Finset.sum_nonneg fun s _ => Finset.sum_nonneg fun a _ => List.sum_nonneg fun y hy => ?_, fun s a ha x hx => ?_⟩
    · obtain ⟨z, -, rfl⟩ := List.mem_map.1 hy; exact abs_nonneg _
    · have hnn : ∀ s a, 0 ≤ ((env.outcomes s a).map fun x => |x.2.reward|).sum := fun s a => List.sum_nonneg fun y hy => by
        obtain ⟨z, -, rfl⟩ := List.mem_map.1 hy; exact abs_nonneg _
      have h1 : |x.2.reward| ≤ ((env.outcomes s a).map fun x => |x.2.reward|).sum := List.single_le_sum (fun y hy => by
        obtain ⟨z, -, rfl⟩ := List.mem_map.1 hy; exact abs_nonneg _) _ (List.mem_map.2 ⟨x, hx, rfl⟩)
      have h2 := Finset.single_le_sum (f := fun a => ((env.outcomes s a).map fun x => |x.2.reward|).sum) (fun a _ => hnn s a) (Finset.mem_range.2 ha)
      have h3 := Finset.single_le_sum (f := fun s => ∑ a ∈ Finset.range env.nA, ((env.outcomes s a).map fun x => |x.2.reward|).sum) (fun s _ => Finset.sum_nonneg fun a _ => hnn s a) (Finset.mem_univ s)
      exact h1.trans (h2.trans h3)
  obtain ⟨D, hD0, hD⟩ : ∃ D, 0 ≤ D ∧ ∀ s a, a < env.nA → |evaluate (Q₀ s) a| ≤ D ∧ |evaluate (T₀ s) a| ≤ D := by
    refine ⟨∑ s, ∑ a ∈ Finset.range env.nA, (|evaluate (Q₀ s) a| + |evaluate (T₀ s) a|), Finset.sum_nonneg fun s _ => Finset.sum_nonneg fun a _ => by positivity, fun s a ha => ?_⟩
    have h2 := Finset.single_le_sum (f := fun a => |evaluate (Q₀ s) a| + |evaluate (T₀ s) a|) (fun a _ => by positivity) (Finset.mem_range.2 ha)
    have h3 := Finset.single_le_sum (f := fun s => ∑ a ∈ Finset.range env.nA, (|evaluate (Q₀ s) a| + |evaluate (T₀ s) a|)) (fun s _ => Finset.sum_nonneg fun a _ => by positivity) (Finset.mem_univ s)
    have h4 := abs_nonneg (evaluate (Q₀ s) a)
    have h5 := abs_nonneg (evaluate (T₀ s) a)
    constructor <;> linarith
  obtain ⟨B, hB, hRB, hDB⟩ : ∃ B, 0 ≤ B ∧ R + gamma * B ≤ B ∧ D ≤ B := by
    have hg' : 0 < 1 - gamma := by linarith
    have hd : 0 ≤ R / (1 - gamma) := div_nonneg hR0 hg'.le
    refine ⟨R / (1 - gamma) + D, by linarith, ?_, by linarith⟩
    have : R / (1 - gamma) * (1 - gamma) = R := div_mul_cancel₀ _ hg'.ne'
    nlinarith
  have hvR : ∀ ω k, |(v k ω).outcome.reward| ≤ R := fun ω k => by
    obtain ⟨p, hp⟩ := hs.drawn k ω
    exact hR _ _ (hs.allowed k ω) _ (List.mem_of_getElem? hp)
  have hlT : ∀ ω k s, (T ω k s).length = env.nA := fun ω k s => ((h ω).tables k s).2
  have hbd : ∀ ω k s a, a < env.nA → |evaluate (Q ω k s) a| ≤ B ∧ |evaluate (T ω k s) a| ≤ B := fun ω k =>
    (h ω).bounded R B hg hB hRB (hvR ω) (fun k => hb.allowed k ω) (fun s a ha => by rw [(h0 ω).1, (h0 ω).2]; exact ⟨(hD s a ha).1.trans hDB, (hD s a ha).2.trans hDB⟩) k
  have hmeas := tables_measurable h hs hb Q₀ T₀ h0
  have hw : ∀ s a k, Measurable[ℱ k] (weight v lr s a k) := fun s a k =>
    Measurable.ite ((hs.state k s).inter (hs.action k a)) (hs.rate k) measurable_const
  have hwb : ∀ s a k ω, 0 ≤ weight v lr s a k ω ∧ weight v lr s a k ω ≤ 1 ∧ weight v lr s a k ω ≤ lr k ω := fun s a k ω => by
    obtain ⟨l0, l1⟩ := (h ω).rates k
    unfold weight
    split
    · exact ⟨l0, l1, le_rfl⟩
    · exact ⟨le_rfl, zero_le_one, l0⟩
  have hbk : ∀ ω k s a, a < env.nA → |backup env gamma (fun s => soft env.nA (eps k) (T ω k s)) s a| ≤ B := fun ω k s a ha => by
    have h' := expect_close (env.outcomes s a) (he s a ha) (fun o => o.reward + if o.done then 0 else gamma * soft env.nA (eps k) (T ω k o.next)) (fun _ => 0) B fun x hx => by
      have hr := hR s a ha x hx
      rw [sub_zero]
      split
      · rw [add_zero]; exact hr.trans (by nlinarith)
      · refine (abs_add_le _ _).trans ?_
        rw [abs_mul, abs_of_nonneg hg]
        have := mul_le_mul_of_nonneg_left (soft_abs' (env := env) hn (eps k) (heps k).1 (heps k).2 B (T ω k x.2.next) (hlT ω k _) (fun a ha => (hbd ω k _ a ha).2) s) hg
        linarith
    rw [expect_const _ (he s a ha), sub_zero] at h'
    exact h'
  -- the noise
  have hnoise : ∀ s a, a < env.nA → ∀ᵐ ω ∂μ, ∃ L, Tendsto (fun m => ∑ k ∈ Finset.range m, weight v lr s a k ω * noise env gamma T v b eps s a k ω) atTop (𝓝 L) := by
    intro s a ha
    have hh : ∀ k x y, y < env.nA → Measurable[ℱ k] fun ω => weight v lr s a k ω * sworthAt env gamma (T ω k) s a x y := fun k x y hy =>
      (hw s a k).mul (sworthAt_measurable (fun ω => T ω k) (fun s a ha => (hmeas k s a ha).2) s a x y hy)
    have hjm : ∀ k x y, y < env.nA → Measurable[ℱ k] fun ω => joint env (eps k) (T ω k) s a x y := fun k x y hy =>
      measurable_const.mul (probOf_measurable hn (fun ω => T ω k) (fun ω s => hlT ω k s) (fun s a ha => (hmeas k s a ha).2) _ _ y hy)
    have hji : ∀ k x y, y < env.nA → Integrable (fun ω => joint env (eps k) (T ω k) s a x y) μ := fun k x y hy =>
      Integrable.of_bound ((hjm k x y hy).mono (ℱ.le k) le_rfl).aestronglyMeasurable (prob env s a x * 2)
        (Eventually.of_forall fun ω => joint_abs he hn (eps k) (heps k).1 (heps k).2 (T ω k) s a x y ha hy)
    have hki : ∀ k x y, Integrable (Set.indicator {ω | j k ω = x ∧ b k ω = y} (fun _ => (1 : ℝ))) μ := fun k x y =>
      (integrable_const 1).indicator (ℱ.le _ _ ((hs.known k x).inter (hb.known k y)))
    have hhb : ∀ k x y, y < env.nA → ∀ ω, |weight v lr s a k ω * sworthAt env gamma (T ω k) s a x y| ≤ B := fun k x y hy ω => by
      obtain ⟨w0, w1, -⟩ := hwb s a k ω
      have : |sworthAt env gamma (T ω k) s a x y| ≤ B := by
        unfold sworthAt
        cases hx : (env.outcomes s a)[x]? with
        | none => simpa using hB
        | some p => exact sworth_abs env gamma R B hg hB hRB _ (fun s a ha => (hbd ω k s a ha).2) _ (hR s a ha p (List.mem_of_getElem? hx)) y hy
      rw [abs_mul, abs_of_nonneg w0]
      exact (mul_le_of_le_one_left (abs_nonneg _) w1).trans this
    refine StochasticApproximation.noise_series μ ℱ _ (fun k => ?_) (4 * B ^ 2 * C) (fun m ω => ?_) fun k => ?_
    · rw [noise_sum hn hlT hs hb]
      refine Finset.stronglyMeasurable_sum _ fun x _ => Finset.stronglyMeasurable_sum _ fun y hy => StronglyMeasurable.mul ?_ (StronglyMeasurable.sub ?_ ?_)
      · exact ((hh k x y (Finset.mem_range.1 hy)).mono (ℱ.mono (Nat.le_succ k)) le_rfl).stronglyMeasurable
      · exact stronglyMeasurable_const.indicator ((hs.known k x).inter (hb.known k y))
      · exact ((hjm k x y (Finset.mem_range.1 hy)).mono (ℱ.mono (Nat.le_succ k)) le_rfl).stronglyMeasurable
    · have hle : ∀ k, (weight v lr s a k ω * noise env gamma T v b eps s a k ω) ^ 2 ≤ 4 * B ^ 2 * lr k ω ^ 2 := fun k => by
        obtain ⟨w0, -, w2⟩ := hwb s a k ω
        have h1 := abs_le.1 (sworth_abs env gamma R B hg hB hRB (T ω k) (fun s a ha => (hbd ω k s a ha).2) _ (hvR ω k) _ (hb.allowed k ω))
        have h2 := abs_le.1 (hbk ω k s a ha)
        have h3 : noise env gamma T v b eps s a k ω ^ 2 ≤ (2 * B) ^ 2 := sq_le_sq' (by unfold noise; linarith) (by unfold noise; linarith)
        have h4 : weight v lr s a k ω ^ 2 ≤ lr k ω ^ 2 := pow_le_pow_left₀ w0 w2 2
        rw [mul_pow]
        calc _ ≤ lr k ω ^ 2 * (2 * B) ^ 2 := mul_le_mul h4 h3 (sq_nonneg _) (sq_nonneg _)
          _ = _ := by ring
      refine (Finset.sum_le_sum fun k _ => hle k).trans ?_
      rw [← Finset.mul_sum]
      exact mul_le_mul_of_nonneg_left (hC m ω) (by positivity)
    · rw [noise_sum hn hlT hs hb]
      have hint : ∀ x, ∀ y ∈ Finset.range env.nA, Integrable ((fun ω => weight v lr s a k ω * sworthAt env gamma (T ω k) s a x y) *
          (Set.indicator {ω | j k ω = x ∧ b k ω = y} (fun _ => (1 : ℝ)) - fun ω => joint env (eps k) (T ω k) s a x y)) μ := fun x y hy => by
        have hy := Finset.mem_range.1 hy
        refine Integrable.bdd_mul (c := B) ((hki k x y).sub (hji k x y hy)) ((hh k x y hy).mono (ℱ.le k) le_rfl).aestronglyMeasurable ?_
        exact Eventually.of_forall fun ω => hhb k x y hy ω
      have hz : ∀ x, ∀ y ∈ Finset.range env.nA, μ[(fun ω => weight v lr s a k ω * sworthAt env gamma (T ω k) s a x y) *
          (Set.indicator {ω | j k ω = x ∧ b k ω = y} (fun _ => (1 : ℝ)) - fun ω => joint env (eps k) (T ω k) s a x y) | ℱ k] =ᵐ[μ] 0 := fun x y hy => by
        have hy := Finset.mem_range.1 hy
        exact term_zero hs hb k s a x y hy _ (hh k x y hy) B (hhb k x y hy) (fun ω hω => by
          by_contra hm
          simp [weight, hm] at hω) (hji k x y hy) (hjm k x y hy)
      have hzx : ∀ x, μ[∑ y ∈ Finset.range env.nA, (fun ω => weight v lr s a k ω * sworthAt env gamma (T ω k) s a x y) *
          (Set.indicator {ω | j k ω = x ∧ b k ω = y} (fun _ => (1 : ℝ)) - fun ω => joint env (eps k) (T ω k) s a x y) | ℱ k] =ᵐ[μ] 0 := fun x => by
        refine (condExp_finsetSum (fun y hy => hint x y hy) _).trans ?_
        have hall := (eventually_all_finset (l := ae μ) (Finset.range env.nA)).2 fun y hy => hz x y hy
        filter_upwards [hall] with ω hω
        rw [Finset.sum_apply]
        exact Finset.sum_eq_zero fun y hy => hω y hy
      refine (condExp_finsetSum (fun x _ => integrable_finsetSum' _ fun y hy => hint x y hy) _).trans ?_
      filter_upwards [ae_all_iff.2 hzx] with ω hω
      rw [Finset.sum_apply]
      exact Finset.sum_eq_zero fun x _ => hω x
  -- the limit
  have hε01 : 0 ≤ ε ∧ ε ≤ 1 := by
    obtain ⟨k, hk⟩ := hε.exists
    rw [← hk]; exact heps k
  obtain ⟨B', Qs, hQs, hfit, hret, hopt, -⟩ := C160_learns env he hn gamma R ε hg hg1 hε01.1 hε01.2 fun s a ha => by
    have := expect_close (env.outcomes s a) (he s a ha) Outcome.reward (fun _ => 0) R fun x hx => by rw [sub_zero]; exact hR s a ha x hx
    rwa [expect_const _ (he s a ha), sub_zero] at this
  have hbq := (fits_iff env gamma ε hε01.1 hε01.2 hn Qs Qs fun s => (hQs.2 s).1).1 hfit
  refine ⟨B', Qs, hQs, hfit, hret, hopt, ?_⟩
  have hae : ∀ᵐ ω ∂μ, ∀ s, ∀ a : Fin env.nA, ∃ L, Tendsto (fun m => ∑ k ∈ Finset.range m, weight v lr s a k ω * noise env gamma T v b eps s a k ω) atTop (𝓝 L) :=
    ae_all_iff.2 fun s => ae_all_iff.2 fun a => hnoise s a a.2
  filter_upwards [hae] with ω hω hvisit
  obtain ⟨N, hN⟩ := eventually_atTop.1 hε
  have hN : StochasticApproximation.Noisy (ι := S × Fin env.nA) (fun k i => evaluate (Q ω k i.1) i.2) (fun k i => evaluate (T ω k i.1) i.2) (fun i => evaluate (Qs i.1) i.2) gamma
      (fun k i => weight v lr i.1 i.2 k ω) (fun k i => backup env gamma (fun s => soft env.nA ε (T ω k s)) i.1 i.2)
      (fun k i => noise env gamma T v b eps i.1 i.2 k ω +
        (backup env gamma (fun s => soft env.nA (eps k) (T ω k s)) i.1 i.2 - backup env gamma (fun s => soft env.nA ε (T ω k s)) i.1 i.2)) tau := by
    refine ⟨hg, hg1, fun k i => ?_, fun k i => ⟨(hwb _ _ k ω).1, (hwb _ _ k ω).2.1⟩, fun k E hE i => ?_, fun k i => ?_, (h ω).taus, ?_, fun i => hvisit i.1 i.2 i.2.2, htau, fun i => ?_⟩
    · simp only [(h ω).step k i.1 i.2 i.2.2, weight, noise]; ring
    · rw [hbq i.1 i.2 i.2.2]
      have hE0 : 0 ≤ E := (abs_nonneg _).trans (hE i)
      exact backup_near he hg _ _ E hE0 (fun s => soft_close env ε hε01.1 hε01.2 hn _ _ (hlT ω k s) (hQs.2 s).1 E fun a ha => hE (s, ⟨a, ha⟩)) _ _ i.2.2
    · simp only [(h ω).target k i.1 i.2 i.2.2, CopyParam.soft]; ring
    · refine ⟨B + ∑ i : S × Fin env.nA, |evaluate (Qs i.1) i.2|, fun k i => ?_⟩
      have h1 := Finset.single_le_sum (f := fun i : S × Fin env.nA => |evaluate (Qs i.1) i.2|) (fun i _ => abs_nonneg _) (Finset.mem_univ i)
      exact (abs_sub _ _).trans (add_le_add (hbd ω k i.1 i.2 i.2.2).2 h1)
    · obtain ⟨L, hL⟩ := hω i.1 i.2
      simp only [mul_add, Finset.sum_add_distrib]
      refine ⟨_, hL.add (tendsto_atTop_of_eventually_const (i₀ := N) (x := ∑ k ∈ Finset.range N, weight v lr i.1 i.2 k ω *
        (backup env gamma (fun s => soft env.nA (eps k) (T ω k s)) i.1 i.2 - backup env gamma (fun s => soft env.nA ε (T ω k s)) i.1 i.2)) fun m hm => ?_)⟩
      refine (Finset.sum_subset (Finset.range_mono hm) fun k _ hk => ?_).symm
      rw [hN k (not_lt.1 fun hlt => hk (Finset.mem_range.2 hlt)), sub_self, mul_zero]
  have hconv : ∀ i : S × Fin env.nA, Tendsto (fun k => evaluate (Q ω k i.1) i.2) atTop (𝓝 (evaluate (Qs i.1) i.2)) := fun i => (hN.converges i).1
  have hne : ∀ (q : S → List ℝ), (∀ s, (q s).length = env.nA) → ∀ s, q s ≠ [] := fun q hq s h' => by
    have := hq s
    rw [h'] at this; simp at this; omega
  have hmax : ∀ (q : S → List ℝ), (∀ s, (q s).length = env.nA) → ∀ s E, (∀ a, a < env.nA → |evaluate (q s) a - evaluate (Qs s) a| ≤ E) → |maxQ (q s) - maxQ (Qs s)| ≤ E :=
    fun q hq s E hE => max_close (q s) (Qs s) (by rw [hq, (hQs.2 s).1]) E (fun a ha => hE a (by rwa [hq] at ha)) _ _ (C64_max _ (hne q hq s))
      (C64_max _ (hne Qs (fun s => (hQs.2 s).1) s))
  refine fun s => ⟨fun a ha => hconv (s, ⟨a, ha⟩), ?_⟩
  refine greedy_becomes_optimal (fun k => ⟨B, hn, fun s => ⟨((h ω).tables k s).1, fun x hx => ?_⟩⟩) hQs s fun a ha ε hε => ?_
  · obtain ⟨i, hi, rfl⟩ := List.mem_iff_getElem.1 hx
    have := (hbd ω k s i (by rw [← ((h ω).tables k s).1]; exact hi)).1
    simpa [evaluate, hi] using this
  · have hclose : ∀ᶠ k in atTop, ∀ a : Fin env.nA, |evaluate (Q ω k s) a - evaluate (Qs s) a| ≤ ε / 4 := by
      refine eventually_all.2 fun a => ?_
      have := (Metric.tendsto_nhds.1 (hconv (s, a))) (ε / 4) (by linarith)
      exact this.mono fun k hk => by rw [Real.dist_eq] at hk; exact hk.le
    refine hclose.mono fun k hk => ?_
    have h1 := abs_le.1 (hmax (Q ω k) (fun s => ((h ω).tables k s).1) s _ fun a ha => hk ⟨a, ha⟩)
    have h2 := abs_le.1 (hk ⟨a, ha⟩)
    simp only at h2
    linarith

end

end Verif.SarsaLearning
