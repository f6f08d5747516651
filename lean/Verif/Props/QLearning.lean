import Verif.Proofs.StochasticApproximation
import Verif.Proofs.NoiseSeries
import Verif.Props.TabularDQN

/-!
# C155: a table trained with DQN's loss on each step as it happens learns the optimal values of every finite process, almost surely

The network is a table, the optimizer plain gradient descent, the replay buffer holds one step.  Outcomes are random.
-/

set_option autoImplicit false
set_option linter.unusedSectionVars false

open Filter Topology MeasureTheory

namespace Verif.QLearning
open ActionValue Targets MDP ValueLoss TabularDQN

variable {S Ω : Type} [DecidableEq S] {mΩ : MeasurableSpace Ω}

/-! ## Specification -/

/-- Learning along one history: the tables `Q k` and `T k` of the network and of the target network before the update `k`, which is made with the step `v k` alone and the learning rate `lr k`;
afterwards the target network is moved by the factor `tau k`. -/
structure Learns (env : Env S ℝ) (gamma : ℝ) (mean : Bool) (Q T : ℕ → S → List ℝ) (v : ℕ → Visit S) (lr tau : ℕ → ℝ) : Prop where
  tables : ∀ k s, (Q k s).length = env.nA ∧ (T k s).length = env.nA
  descends : ∀ k, Descends env (fun q => tableLoss gamma false (accName mean) q (T k) [(v k).entry] none) (lr k) (Q k) (Q (k + 1))
  rates : ∀ k, 0 ≤ lr k ∧ lr k ≤ 1
  taus : ∀ k, 0 ≤ tau k ∧ tau k ≤ 1
  target : ∀ k s a, a < env.nA → evaluate (T (k + 1) s) a = CopyParam.soft (tau k) (evaluate (T k s) a) (evaluate (Q (k + 1) s) a)

/-- The probability of the outcome number `x`. -/
def prob (env : Env S ℝ) (s : S) (a x : ℕ) : ℝ := ((env.outcomes s a)[x]?.map Prod.fst).getD 0

/-- Random steps: `ℱ k` is what is known before the update `k`.  States, actions and learning rates are known before, and may depend on the past in any way; the number `j k` of the outcome
is known afterwards, and follows the probabilities of the process, whatever the past. -/
structure Samples (env : Env S ℝ) (μ : Measure Ω) (ℱ : Filtration ℕ mΩ) (v : ℕ → Ω → Visit S) (j : ℕ → Ω → ℕ) (lr : ℕ → Ω → ℝ) : Prop where
  state : ∀ k x, MeasurableSet[ℱ k] {ω | (v k ω).state = x}
  action : ∀ k x, MeasurableSet[ℱ k] {ω | (v k ω).action = x}
  rate : ∀ k, Measurable[ℱ k] (lr k)
  allowed : ∀ k ω, (v k ω).action < env.nA
  drawn : ∀ k ω, ∃ p, (env.outcomes (v k ω).state (v k ω).action)[j k ω]? = some (p, (v k ω).outcome)
  known : ∀ k x, MeasurableSet[ℱ (k + 1)] {ω | j k ω = x}
  law : ∀ k x, μ[Set.indicator {ω | j k ω = x} (fun _ => (1 : ℝ)) | ℱ k] =ᵐ[μ] fun ω => prob env (v k ω).state (v k ω).action x

/-! ## One update -/

theorem Learns.step {env : Env S ℝ} {gamma : ℝ} {mean : Bool} {Q T : ℕ → S → List ℝ} {v : ℕ → Visit S} {lr tau : ℕ → ℝ} (h : Learns env gamma mean Q T v lr tau) (k : ℕ) (s : S) (a : ℕ) (ha : a < env.nA) :
    evaluate (Q (k + 1) s) a = evaluate (Q k s) a - (if (v k).state = s ∧ (v k).action = a then lr k else 0) * (evaluate (Q k s) a - goal gamma (T k) (v k)) := by
  have hd := (descends_iff env gamma (lr k) false mean (Q k) (T k) (Q (k + 1)) (fun s => (h.tables k s).1) [v k] (by simp) none (by simp)).1 (h.descends k) s a ha
  rw [hd]
  have hf : factor mean [v k].length = 1 := by cases mean <;> simp [factor]
  rw [hf]
  by_cases hm : (v k).state = s ∧ (v k).action = a
  · simp [weightsOf, hm, ValueLoss.slope]
  · simp [weightsOf, hm]

/-- The value of an outcome. -/
noncomputable def worth (gamma : ℝ) (qt : S → List ℝ) (o : Outcome S ℝ) : ℝ := o.reward + if o.done then 0 else gamma * maxQ (qt o.next)

theorem goal_worth (gamma : ℝ) (qt : S → List ℝ) (v : Visit S) : goal gamma qt v = worth gamma qt v.outcome := rfl

theorem maxQ_abs (env : Env S ℝ) (hn : 0 < env.nA) (q : List ℝ) (hq : q.length = env.nA) (B : ℝ) (h : ∀ a, a < env.nA → |evaluate q a| ≤ B) : |maxQ q| ≤ B := by
  have hne : q ≠ [] := fun h' => by rw [h'] at hq; simp at hq; omega
  obtain ⟨u, hu, -⟩ := C64_greedy q hne
  have := (List.getElem?_eq_some_iff.1 hu).1
  rw [hq] at this
  exact h _ this

theorem worth_abs (env : Env S ℝ) (hn : 0 < env.nA) (gamma R B : ℝ) (hg : 0 ≤ gamma) (hB : 0 ≤ B) (hRB : R + gamma * B ≤ B) (qt : S → List ℝ) (hl : ∀ s, (qt s).length = env.nA)
    (hqt : ∀ s a, a < env.nA → |evaluate (qt s) a| ≤ B) (o : Outcome S ℝ) (ho : |o.reward| ≤ R) : |worth gamma qt o| ≤ B := by
  unfold worth
  split
  · rw [add_zero]; exact ho.trans (by nlinarith)
  · refine (abs_add_le _ _).trans ?_
    rw [abs_mul, abs_of_nonneg hg]
    have := mul_le_mul_of_nonneg_left (maxQ_abs env hn _ (hl o.next) B (hqt o.next)) hg
    linarith

/-- Values stay bounded. -/
theorem Learns.bounded {env : Env S ℝ} (hn : 0 < env.nA) {gamma : ℝ} {mean : Bool} {Q T : ℕ → S → List ℝ} {v : ℕ → Visit S} {lr tau : ℕ → ℝ} (h : Learns env gamma mean Q T v lr tau) (R B : ℝ)
    (hg : 0 ≤ gamma) (hB : 0 ≤ B) (hRB : R + gamma * B ≤ B) (hR : ∀ k, |(v k).outcome.reward| ≤ R) (h0 : ∀ s a, a < env.nA → |evaluate (Q 0 s) a| ≤ B ∧ |evaluate (T 0 s) a| ≤ B) (k : ℕ) :
    ∀ s a, a < env.nA → |evaluate (Q k s) a| ≤ B ∧ |evaluate (T k s) a| ≤ B := by
  induction k with
  | zero => exact h0
  | succ k ih =>
    intro s a ha
    have hgoal := abs_le.1 (worth_abs env hn gamma R B hg hB hRB (T k) (fun s => (h.tables k s).2) (fun s a ha => (ih s a ha).2) _ (hR k))
    have hq := abs_le.1 (ih s a ha).1
    have ht := abs_le.1 (ih s a ha).2
    obtain ⟨l0, l1⟩ := h.rates k
    obtain ⟨t0, t1⟩ := h.taus k
    have hQ : |evaluate (Q (k + 1) s) a| ≤ B := by
      rw [h.step k s a ha, goal_worth, abs_le]
      split
      · constructor <;> nlinarith
      · constructor <;> linarith
    refine ⟨hQ, ?_⟩
    have hq' := abs_le.1 hQ
    rw [h.target k s a ha, CopyParam.soft, abs_le]
    constructor <;> nlinarith

/-! ## Measurability -/

theorem pick_measurable {m : MeasurableSpace Ω} {D : Type} [Countable D] (Z : Ω → D) (hZ : ∀ z, MeasurableSet[m] {ω | Z ω = z}) (f : D → Ω → ℝ) (hf : ∀ z, Measurable[m] (f z)) :
    Measurable[m] fun ω => f (Z ω) ω := by
  intro A hA
  have e : (fun ω => f (Z ω) ω) ⁻¹' A = ⋃ z, {ω | Z ω = z} ∩ f z ⁻¹' A := by
    ext ω; simp
  rw [e]
  exact MeasurableSet.iUnion fun z => (hZ z).inter (hf z hA)

theorem maxQ_measurable {m : MeasurableSpace Ω} (n : ℕ) (hn : 0 < n) (q : Ω → List ℝ) (hl : ∀ ω, (q ω).length = n) (hq : ∀ a, a < n → Measurable[m] fun ω => evaluate (q ω) a) :
    Measurable[m] fun ω => maxQ (q ω) := by
  refine measurable_of_Iic fun c => ?_
  have e : (fun ω => maxQ (q ω)) ⁻¹' Set.Iic c = ⋂ a : Fin n, {ω | evaluate (q ω) a ≤ c} := by
    ext ω
    have hne : q ω ≠ [] := fun h' => by have := hl ω; rw [h'] at this; simp at this; omega
    obtain ⟨h1, h2⟩ := C64_max (q ω) hne
    simp only [Set.mem_preimage, Set.mem_Iic, Set.mem_iInter, Set.mem_setOf_eq]
    constructor
    · intro h a
      refine le_trans (h2 _ ?_) h
      have : (a : ℕ) < (q ω).length := by rw [hl]; exact a.2
      simp [evaluate, this]
    · intro h
      obtain ⟨i, hi, hiu⟩ := List.mem_iff_getElem.1 h1
      have := h ⟨i, by rw [← hl ω]; exact hi⟩
      simp only [evaluate, List.getElem?_eq_getElem hi, Option.getD_some, hiu] at this
      exact this
  rw [e]
  exact MeasurableSet.iInter fun a => measurableSet_le (hq a a.2) measurable_const

section
variable {env : Env S ℝ} {gamma : ℝ} {mean : Bool} {Q T : Ω → ℕ → S → List ℝ} {v : ℕ → Ω → Visit S} {j : ℕ → Ω → ℕ} {lr : ℕ → Ω → ℝ} {tau : ℕ → ℝ} {μ : Measure Ω} {ℱ : Filtration ℕ mΩ}

/-- The worth of the outcome number `x`. -/
noncomputable def worthAt (env : Env S ℝ) (gamma : ℝ) (qt : S → List ℝ) (s : S) (a x : ℕ) : ℝ := ((env.outcomes s a)[x]?.map fun p => worth gamma qt p.2).getD 0

theorem Samples.goal_eq (hs : Samples env μ ℱ v j lr) (qt : S → List ℝ) (k : ℕ) (ω : Ω) :
    goal gamma qt (v k ω) = worthAt env gamma qt (v k ω).state (v k ω).action (j k ω) := by
  obtain ⟨p, hp⟩ := hs.drawn k ω
  simp [worthAt, hp, goal_worth]

theorem worthAt_measurable {m : MeasurableSpace Ω} (hn : 0 < env.nA) (T : Ω → S → List ℝ) (hl : ∀ ω s, (T ω s).length = env.nA) (hT : ∀ s a, a < env.nA → Measurable[m] fun ω => evaluate (T ω s) a)
    (s : S) (a x : ℕ) : Measurable[m] fun ω => worthAt env gamma (T ω) s a x := by
  unfold worthAt
  cases (env.outcomes s a)[x]? with
  | none => exact measurable_const
  | some p =>
    simp only [Option.map_some, Option.getD_some, worth]
    split
    · exact measurable_const
    · exact measurable_const.add ((maxQ_measurable env.nA hn _ (fun ω => hl ω _) fun a ha => hT _ a ha).const_mul gamma)

/-- The values before the update `k` are known before it. -/
theorem tables_measurable [Finite S] (hn : 0 < env.nA) (h : ∀ ω, Learns env gamma mean (Q ω) (T ω) (fun k => v k ω) (fun k => lr k ω) tau) (hs : Samples env μ ℱ v j lr) (Q₀ T₀ : S → List ℝ)
    (h0 : ∀ ω, Q ω 0 = Q₀ ∧ T ω 0 = T₀) (k : ℕ) :
    ∀ s a, a < env.nA → Measurable[ℱ k] (fun ω => evaluate (Q ω k s) a) ∧ Measurable[ℱ k] (fun ω => evaluate (T ω k s) a) := by
  induction k with
  | zero =>
    intro s a _
    simp only [h0]
    exact ⟨measurable_const, measurable_const⟩
  | succ k ih =>
    have hle := ℱ.mono (Nat.le_succ k)
    have hgoal : Measurable[ℱ (k + 1)] fun ω => goal gamma (T ω k) (v k ω) := by
      simp only [hs.goal_eq]
      refine pick_measurable (m := ℱ (k + 1)) (D := S × ℕ × ℕ) (fun ω => ((v k ω).state, (v k ω).action, j k ω)) (fun z => ?_) (fun z ω => worthAt env gamma (T ω k) z.1 z.2.1 z.2.2) fun z => ?_
      · have e : {ω | ((v k ω).state, (v k ω).action, j k ω) = z} = {ω | (v k ω).state = z.1} ∩ ({ω | (v k ω).action = z.2.1} ∩ {ω | j k ω = z.2.2}) := by
          ext ω; simp [Prod.ext_iff]
        rw [e]
        exact (hle _ (hs.state k z.1)).inter ((hle _ (hs.action k z.2.1)).inter (hs.known k z.2.2))
      · exact worthAt_measurable hn (fun ω => T ω k) (fun ω s => ((h ω).tables k s).2) (fun s a ha => (ih s a ha).2.mono hle le_rfl) _ _ _
    intro s a ha
    have hQ : Measurable[ℱ (k + 1)] fun ω => evaluate (Q ω (k + 1) s) a := by
      have e : (fun ω => evaluate (Q ω (k + 1) s) a) = fun ω => evaluate (Q ω k s) a - (if (v k ω).state = s ∧ (v k ω).action = a then lr k ω else 0) * (evaluate (Q ω k s) a - goal gamma (T ω k) (v k ω)) := by
        funext ω; exact (h ω).step k s a ha
      rw [e]
      have hq := (ih s a ha).1.mono hle le_rfl
      refine hq.sub (Measurable.mul (Measurable.ite ?_ ((hs.rate k).mono hle le_rfl) measurable_const) (hq.sub hgoal))
      exact (hle _ (hs.state k s)).inter (hle _ (hs.action k a))
    refine ⟨hQ, ?_⟩
    have e : (fun ω => evaluate (T ω (k + 1) s) a) = fun ω => CopyParam.soft (tau k) (evaluate (T ω k s) a) (evaluate (Q ω (k + 1) s) a) := by
      funext ω; exact (h ω).target k s a ha
    rw [e]
    unfold CopyParam.soft
    exact (((ih s a ha).2.mono hle le_rfl).mul_const _).add (hQ.const_mul _)

/-! ## The noise -/

theorem sum_getD {α : Type} (l : List α) (f : α → ℝ) : (l.map f).sum = ∑ x ∈ Finset.range l.length, (l[x]?.map f).getD 0 := by
  induction l with
  | nil => simp
  | cons y l ih => rw [List.map_cons, List.sum_cons, List.length_cons, Finset.sum_range_succ', ih]; simp [add_comm]

theorem backup_sum (qt : S → List ℝ) (s : S) (a : ℕ) :
    backup env gamma (fun s => maxQ (qt s)) s a = ∑ x ∈ Finset.range (env.outcomes s a).length, prob env s a x * worthAt env gamma qt s a x := by
  have e : backup env gamma (fun s => maxQ (qt s)) s a = ((env.outcomes s a).map fun p => p.1 * worth gamma qt p.2).sum := rfl
  rw [e, sum_getD]
  refine Finset.sum_congr rfl fun x hx => ?_
  have hx' := Finset.mem_range.1 hx
  simp [prob, worthAt, List.getElem?_eq_getElem hx']

theorem term_zero [IsProbabilityMeasure μ] (hs : Samples env μ ℱ v j lr) (k : ℕ) (s : S) (a x : ℕ) (f : Ω → ℝ) (hf : Measurable[ℱ k] f) (b : ℝ) (hb : ∀ ω, |f ω| ≤ b)
    (h0 : ∀ ω, f ω ≠ 0 → (v k ω).state = s ∧ (v k ω).action = a) :
    μ[f * (Set.indicator {ω | j k ω = x} (fun _ => (1 : ℝ)) - fun _ => prob env s a x) | ℱ k] =ᵐ[μ] 0 := by
  have hi : Integrable (Set.indicator {ω | j k ω = x} (fun _ => (1 : ℝ))) μ := (integrable_const 1).indicator (ℱ.le _ _ (hs.known k x))
  have h1 := condExp_stronglyMeasurable_mul_of_bound (ℱ.le k) hf.stronglyMeasurable (hi.sub (integrable_const (μ := μ) (prob env s a x))) b (Eventually.of_forall hb)
  have h2 := condExp_sub (m := ℱ k) hi (integrable_const (μ := μ) (prob env s a x))
  have h3 : μ[fun _ : Ω => prob env s a x | ℱ k] = fun _ => prob env s a x := condExp_const (ℱ.le k) _
  filter_upwards [h1, h2, hs.law k x] with ω e1 e2 e3
  rw [e1, Pi.mul_apply, e2, Pi.sub_apply, e3, h3]
  by_cases hz : f ω = 0
  · simp [hz]
  · obtain ⟨q1, q2⟩ := h0 ω hz
    simp [q1, q2]

/-- The weight of the update `k` for an entry. -/
def weight (v : ℕ → Ω → Visit S) (lr : ℕ → Ω → ℝ) (s : S) (a k : ℕ) (ω : Ω) : ℝ := if (v k ω).state = s ∧ (v k ω).action = a then lr k ω else 0

/-- The noise of the update `k` for an entry. -/
noncomputable def noise (env : Env S ℝ) (gamma : ℝ) (T : Ω → ℕ → S → List ℝ) (v : ℕ → Ω → Visit S) (s : S) (a k : ℕ) (ω : Ω) : ℝ :=
  goal gamma (T ω k) (v k ω) - backup env gamma (fun s => maxQ (T ω k s)) s a

theorem noise_sum (hs : Samples env μ ℱ v j lr) (s : S) (a k : ℕ) : (fun ω => weight v lr s a k ω * noise env gamma T v s a k ω) =
    ∑ x ∈ Finset.range (env.outcomes s a).length, (fun ω => weight v lr s a k ω * worthAt env gamma (T ω k) s a x) * (Set.indicator {ω | j k ω = x} (fun _ => (1 : ℝ)) - fun _ => prob env s a x) := by
  funext ω
  simp only [Finset.sum_apply, Pi.mul_apply, Pi.sub_apply, noise, backup_sum]
  by_cases hm : (v k ω).state = s ∧ (v k ω).action = a
  · obtain ⟨p, hp⟩ := hs.drawn k ω
    rw [hs.goal_eq, hm.1, hm.2]
    rw [hm.1, hm.2] at hp
    have hlt : j k ω < (env.outcomes s a).length := (List.getElem?_eq_some_iff.1 hp).1
    have e : worthAt env gamma (T ω k) s a (j k ω) = ∑ x ∈ Finset.range (env.outcomes s a).length, worthAt env gamma (T ω k) s a x * Set.indicator {ω | j k ω = x} (fun _ => (1 : ℝ)) ω := by
      rw [Finset.sum_eq_single (j k ω)]
      · simp
      · intro x _ hx
        simp [Set.indicator, Ne.symm hx]
      · intro h'; exact absurd (Finset.mem_range.2 hlt) h'
    rw [e, ← Finset.sum_sub_distrib, Finset.mul_sum]
    exact Finset.sum_congr rfl fun x _ => by ring
  · simp [weight, hm]

/-! ## Convergence -/

theorem backup_near (he : env.Valid) (hg : 0 ≤ gamma) (V V' : S → ℝ) (E : ℝ) (hE : 0 ≤ E) (hV : ∀ s, |V s - V' s| ≤ E) (s : S) (a : ℕ) (ha : a < env.nA) :
    |backup env gamma V s a - backup env gamma V' s a| ≤ gamma * E := by
  refine expect_close _ (he s a ha) _ _ _ fun x _ => ?_
  rw [add_sub_add_left_eq_sub]
  split
  · simp; positivity
  · rw [← mul_sub, abs_mul, abs_of_nonneg hg]
    exact mul_le_mul_of_nonneg_left (hV _) hg

theorem backup_abs (he : env.Valid) (hn : 0 < env.nA) (R B : ℝ) (hg : 0 ≤ gamma) (hB : 0 ≤ B) (hRB : R + gamma * B ≤ B) (hR : ∀ s a, a < env.nA → ∀ x ∈ env.outcomes s a, |x.2.reward| ≤ R)
    (qt : S → List ℝ) (hl : ∀ s, (qt s).length = env.nA) (hqt : ∀ s a, a < env.nA → |evaluate (qt s) a| ≤ B) (s : S) (a : ℕ) (ha : a < env.nA) :
    |backup env gamma (fun s => maxQ (qt s)) s a| ≤ B := by
  have h := expect_close (env.outcomes s a) (he s a ha) (worth gamma qt) (fun _ => 0) B fun x hx => by
    rw [sub_zero]; exact worth_abs env hn gamma R B hg hB hRB qt hl hqt _ (hR s a ha x hx)
  rw [expect_const _ (he s a ha), sub_zero] at h
  exact h

/-- **C155**: let a table be trained with DQN's unclipped loss on each step of an environment as it happens.  The states and actions may be chosen in any way from what is known, the outcomes follow
the probabilities of a process with finitely many states; learning rates are at most 1 and their squares have bounded sums; the target network is moved by factors whose sum diverges (copies,
again and again, for instance).  Then, almost surely: if the learning rates at the visits of each action in each state have an infinite sum, the values converge to those of an optimal table, and from
some update on the greedy actions are optimal. -/
theorem C155_converges [Finite S] [IsProbabilityMeasure μ] (he : env.Valid) (hn : 0 < env.nA) (hg : 0 ≤ gamma) (hg1 : gamma < 1)
    (h : ∀ ω, Learns env gamma mean (Q ω) (T ω) (fun k => v k ω) (fun k => lr k ω) tau) (hs : Samples env μ ℱ v j lr) (Q₀ T₀ : S → List ℝ) (h0 : ∀ ω, Q ω 0 = Q₀ ∧ T ω 0 = T₀)
    (C : ℝ) (hC : ∀ m ω, ∑ k ∈ Finset.range m, lr k ω ^ 2 ≤ C) (htau : Tendsto (fun m => ∑ k ∈ Finset.range m, tau k) atTop atTop) :
    ∃ B Qs, Table env B Qs ∧ Optimal env gamma B (fun s => maxQ (Qs s)) (fun s => greedy (Qs s)) ∧
      (∀ s a, a < env.nA → evaluate (Qs s) a = backup env gamma (fun s => maxQ (Qs s)) s a) ∧
      ∀ᵐ ω ∂μ, (∀ s a, a < env.nA → Tendsto (fun m => ∑ k ∈ Finset.range m, if (v k ω).state = s ∧ (v k ω).action = a then lr k ω else 0) atTop atTop) →
        ∀ s, (∀ a, a < env.nA → Tendsto (fun k => evaluate (Q ω k s) a) atTop (𝓝 (evaluate (Qs s) a))) ∧
          ∀ᶠ k in atTop, evaluate (Qs s) (greedy (Q ω k s)) = maxQ (Qs s) := by
  have := Fintype.ofFinite S
  -- bounds
  obtain ⟨R, hR0, hR⟩ : ∃ R, 0 ≤ R ∧ ∀ s a, a < env.nA → ∀ x ∈ env.outcomes s a, |x.2.reward| ≤ R := by
    refine ⟨∑ s, ∑ a ∈ Finset.range env.nA, ((env.outcomes s a).map fun x => |x.2.reward|).sum, Finset.sum_nonneg fun s _ => Finset.sum_nonneg fun a _ => List.sum_nonneg fun y hy => ?_, fun s a ha x hx => ?_⟩
    · obtain ⟨z, -, rfl⟩ := List.mem_map.1 hy; exact abs_nonneg _
    · have hnn : ∀ s a, 0 ≤ ((env.outcomes s a).map fun x => |x.2.reward|).sum := fun s a => List.sum_nonneg fun y hy => by
        obtain ⟨z, -, rfl⟩ := List.mem_map.1 hy; exact abs_nonneg _
      have h1 : |x.2.reward| ≤ ((env.outcomes s a).map fun x => |x.2.reward|).sum := List.single_le_sum (fun y hy => by
        obtain ⟨z, -, rfl⟩ := List.mem_map.1 hy; exact abs_nonneg _) _ (List.mem_map.2 ⟨x, hx, rfl⟩)
      have h2 := Finset.single_le_sum (f := fun a => ((env.outcomes s a).map fun x => |x.2.reward|).sum) (fun a _ => hnn s a) (Finset.mem_range.2 ha)
      have h3 := Finset.single_le_sum (f := fun s => ∑ a ∈ Finset.range env.nA, ((env.outcomes s a).map fun x => |x.2.reward|).sum) (fun s _ => Finset.sum_nonneg fun a _ => hnn s a) (Finset.mem_univ s)
      exact h1.trans (h2.trans h3)
  obtain ⟨D, hD0, hD⟩ : ∃ D, 0 ≤ D ∧ ∀ s a, a < env.nA → |evaluate (Q₀ s) a| ≤ D ∧ |evaluate (T₀ s) a| ≤ D := by
    refine ⟨∑ s, ∑ a ∈ Finset.range env.nA, (|evaluate (Q₀ s) a| + |evaluate (T₀ s) a|), Finset.sum_nonneg fun s _ => Finset.sum_nonneg fun a _ => by positivity, fun s a ha => ?_⟩
    have h2 := Finset.single_le_sum (f := fun a => |evaluate (Q₀ s) a| + |evaluate (T₀ s) a|) (fun a _ => by positivity) (Finset.mem_range.2 ha)
    have h3 := Finset.single_le_sum (f := fun s => ∑ a ∈ Finset.range env.nA, (|evaluate (Q₀ s) a| + |evaluate (T₀ s) a|)) (fun s _ => Finset.sum_nonneg fun a _ => by positivity) (Finset.mem_univ s)
    have h4 := abs_nonneg (evaluate (Q₀ s) a)
    have h5 := abs_nonneg (evaluate (T₀ s) a)
    constructor <;> linarith
  obtain ⟨B, hB, hRB, hDB⟩ : ∃ B, 0 ≤ B ∧ R + gamma * B ≤ B ∧ D ≤ B := by
    have hg' : 0 < 1 - gamma := by linarith
    have hd : 0 ≤ R / (1 - gamma) := div_nonneg hR0 hg'.le
    refine ⟨R / (1 - gamma) + D, by linarith, ?_, by linarith⟩
    have : R / (1 - gamma) * (1 - gamma) = R := div_mul_cancel₀ _ hg'.ne'
    nlinarith
  have hvR : ∀ ω k, |(v k ω).outcome.reward| ≤ R := fun ω k => by
    obtain ⟨p, hp⟩ := hs.drawn k ω
    exact hR _ _ (hs.allowed k ω) _ (List.mem_of_getElem? hp)
  have hbd : ∀ ω k s a, a < env.nA → |evaluate (Q ω k s) a| ≤ B ∧ |evaluate (T ω k s) a| ≤ B := fun ω k =>
    (h ω).bounded hn R B hg hB hRB (hvR ω) (fun s a ha => by rw [(h0 ω).1, (h0 ω).2]; exact ⟨(hD s a ha).1.trans hDB, (hD s a ha).2.trans hDB⟩) k
  have hmeas := tables_measurable hn h hs Q₀ T₀ h0
  have hw : ∀ s a k, Measurable[ℱ k] (weight v lr s a k) := fun s a k =>
    Measurable.ite ((hs.state k s).inter (hs.action k a)) (hs.rate k) measurable_const
  have hwb : ∀ s a k ω, 0 ≤ weight v lr s a k ω ∧ weight v lr s a k ω ≤ 1 ∧ weight v lr s a k ω ≤ lr k ω := fun s a k ω => by
    obtain ⟨l0, l1⟩ := (h ω).rates k
    unfold weight
    split
    · exact ⟨l0, l1, le_rfl⟩
    · exact ⟨le_rfl, zero_le_one, l0⟩
  -- the noise
  have hnoise : ∀ s a, a < env.nA → ∀ᵐ ω ∂μ, ∃ L, Tendsto (fun m => ∑ k ∈ Finset.range m, weight v lr s a k ω * noise env gamma T v s a k ω) atTop (𝓝 L) := by
    intro s a ha
    have hh : ∀ k x, Measurable[ℱ k] fun ω => weight v lr s a k ω * worthAt env gamma (T ω k) s a x := fun k x =>
      (hw s a k).mul (worthAt_measurable hn (fun ω => T ω k) (fun ω s => ((h ω).tables k s).2) (fun s a ha => (hmeas k s a ha).2) s a x)
    have hhb : ∀ k x ω, |weight v lr s a k ω * worthAt env gamma (T ω k) s a x| ≤ B := fun k x ω => by
      obtain ⟨w0, w1, -⟩ := hwb s a k ω
      have : |worthAt env gamma (T ω k) s a x| ≤ B := by
        unfold worthAt
        cases hx : (env.outcomes s a)[x]? with
        | none => simpa using hB
        | some p =>
          exact worth_abs env hn gamma R B hg hB hRB _ (fun s => ((h ω).tables k s).2) (fun s a ha => (hbd ω k s a ha).2) _ (hR s a ha p (List.mem_of_getElem? hx))
      rw [abs_mul, abs_of_nonneg w0]
      exact (mul_le_of_le_one_left (abs_nonneg _) w1).trans this
    refine StochasticApproximation.noise_series μ ℱ _ (fun k => ?_) (4 * B ^ 2 * C) (fun m ω => ?_) fun k => ?_
    · rw [noise_sum hs]
      refine Finset.stronglyMeasurable_sum _ fun x _ => StronglyMeasurable.mul ?_ (StronglyMeasurable.sub ?_ stronglyMeasurable_const)
      · exact ((hh k x).mono (ℱ.mono (Nat.le_succ k)) le_rfl).stronglyMeasurable
      · exact stronglyMeasurable_const.indicator (hs.known k x)
    · have hle : ∀ k, (weight v lr s a k ω * noise env gamma T v s a k ω) ^ 2 ≤ 4 * B ^ 2 * lr k ω ^ 2 := fun k => by
        obtain ⟨w0, -, w2⟩ := hwb s a k ω
        have h1 := abs_le.1 (worth_abs env hn gamma R B hg hB hRB (T ω k) (fun s => ((h ω).tables k s).2) (fun s a ha => (hbd ω k s a ha).2) _ (hvR ω k))
        have h2 := abs_le.1 (backup_abs he hn R B hg hB hRB hR (T ω k) (fun s => ((h ω).tables k s).2) (fun s a ha => (hbd ω k s a ha).2) s a ha)
        have h3 : noise env gamma T v s a k ω ^ 2 ≤ (2 * B) ^ 2 := sq_le_sq' (by unfold noise; rw [goal_worth]; linarith) (by unfold noise; rw [goal_worth]; linarith)
        have h4 : weight v lr s a k ω ^ 2 ≤ lr k ω ^ 2 := pow_le_pow_left₀ w0 w2 2
        rw [mul_pow]
        calc _ ≤ lr k ω ^ 2 * (2 * B) ^ 2 := mul_le_mul h4 h3 (sq_nonneg _) (sq_nonneg _)
          _ = _ := by ring
      refine (Finset.sum_le_sum fun k _ => hle k).trans ?_
      rw [← Finset.mul_sum]
      exact mul_le_mul_of_nonneg_left (hC m ω) (by positivity)
    · rw [noise_sum hs]
      have hint : ∀ x, Integrable ((fun ω => weight v lr s a k ω * worthAt env gamma (T ω k) s a x) * (Set.indicator {ω | j k ω = x} (fun _ => (1 : ℝ)) - fun _ => prob env s a x)) μ := fun x => by
        refine Integrable.bdd_mul (c := B) (((integrable_const 1).indicator (ℱ.le _ _ (hs.known k x))).sub (integrable_const _)) ((hh k x).mono (ℱ.le k) le_rfl).aestronglyMeasurable ?_
        exact Eventually.of_forall fun ω => hhb k x ω
      have hz : ∀ x, μ[(fun ω => weight v lr s a k ω * worthAt env gamma (T ω k) s a x) * (Set.indicator {ω | j k ω = x} (fun _ => (1 : ℝ)) - fun _ => prob env s a x) | ℱ k] =ᵐ[μ] 0 := fun x =>
        term_zero hs k s a x _ (hh k x) B (hhb k x) fun ω hω => by
          by_contra hm
          simp [weight, hm] at hω
      refine (condExp_finset_sum (fun x _ => hint x) _).trans ?_
      have hall : ∀ᵐ ω ∂μ, ∀ x, (μ[(fun ω => weight v lr s a k ω * worthAt env gamma (T ω k) s a x) * (Set.indicator {ω | j k ω = x} (fun _ => (1 : ℝ)) - fun _ => prob env s a x) | ℱ k]) ω = 0 :=
        ae_all_iff.2 fun x => hz x
      filter_upwards [hall] with ω hω
      rw [Finset.sum_apply]
      exact Finset.sum_eq_zero fun x _ => hω x
  -- the optimum
  obtain ⟨B', Qs, hQs, hms⟩ := optimal_exists env he hn gamma R hg hg1 fun s a ha => by
    have := expect_close (env.outcomes s a) (he s a ha) Outcome.reward (fun _ => 0) R fun x hx => by rw [sub_zero]; exact hR s a ha x hx
    rwa [expect_const _ (he s a ha), sub_zero] at this
  have hopt := C135_dqn env he gamma B' hg Qs hQs hms
  refine ⟨B', Qs, hQs, hopt.1, hopt.2, ?_⟩
  have hae : ∀ᵐ ω ∂μ, ∀ s, ∀ a : Fin env.nA, ∃ L, Tendsto (fun m => ∑ k ∈ Finset.range m, weight v lr s a k ω * noise env gamma T v s a k ω) atTop (𝓝 L) :=
    ae_all_iff.2 fun s => ae_all_iff.2 fun a => hnoise s a a.2
  filter_upwards [hae] with ω hω hvisit
  have hne : ∀ (q : S → List ℝ), (∀ s, (q s).length = env.nA) → ∀ s, q s ≠ [] := fun q hq s h' => by
    have := hq s
    rw [h'] at this; simp at this; omega
  have hmax : ∀ (q : S → List ℝ), (∀ s, (q s).length = env.nA) → ∀ s E, (∀ a, a < env.nA → |evaluate (q s) a - evaluate (Qs s) a| ≤ E) → |maxQ (q s) - maxQ (Qs s)| ≤ E :=
    fun q hq s E hE => max_close (q s) (Qs s) (by rw [hq, (hQs.2 s).1]) E (fun a ha => hE a (by rwa [hq] at ha)) _ _ (C64_max _ (hne q hq s))
      (C64_max _ (hne Qs (fun s => (hQs.2 s).1) s))
  have hN : StochasticApproximation.Noisy (ι := S × Fin env.nA) (fun k i => evaluate (Q ω k i.1) i.2) (fun k i => evaluate (T ω k i.1) i.2) (fun i => evaluate (Qs i.1) i.2) gamma
      (fun k i => weight v lr i.1 i.2 k ω) (fun k i => backup env gamma (fun s => maxQ (T ω k s)) i.1 i.2) (fun k i => noise env gamma T v i.1 i.2 k ω) tau := by
    refine ⟨hg, hg1, fun k i => ?_, fun k i => ⟨(hwb _ _ k ω).1, (hwb _ _ k ω).2.1⟩, fun k E hE i => ?_, fun k i => ?_, (h ω).taus, ?_, fun i => hvisit i.1 i.2 i.2.2, htau, fun i => hω i.1 i.2⟩
    · simp only [(h ω).step k i.1 i.2 i.2.2, weight, noise]; ring
    · rw [hopt.2 i.1 i.2 i.2.2]
      have hE0 : 0 ≤ E := (abs_nonneg _).trans (hE i)
      exact backup_near he hg _ _ E hE0 (fun s => hmax (T ω k) (fun s => ((h ω).tables k s).2) s E fun a ha => hE (s, ⟨a, ha⟩)) _ _ i.2.2
    · simp only [(h ω).target k i.1 i.2 i.2.2, CopyParam.soft]; ring
    · refine ⟨B + ∑ i : S × Fin env.nA, |evaluate (Qs i.1) i.2|, fun k i => ?_⟩
      have h1 := Finset.single_le_sum (f := fun i : S × Fin env.nA => |evaluate (Qs i.1) i.2|) (fun i _ => abs_nonneg _) (Finset.mem_univ i)
      exact (abs_sub _ _).trans (add_le_add (hbd ω k i.1 i.2 i.2.2).2 h1)
  have hconv : ∀ i : S × Fin env.nA, Tendsto (fun k => evaluate (Q ω k i.1) i.2) atTop (𝓝 (evaluate (Qs i.1) i.2)) := fun i => (hN.converges i).1
  refine fun s => ⟨fun a ha => hconv (s, ⟨a, ha⟩), ?_⟩
  refine greedy_becomes_optimal (fun k => ⟨B, hn, fun s => ⟨((h ω).tables k s).1, fun x hx => ?_⟩⟩) hQs s fun a ha ε hε => ?_
  · obtain ⟨i, hi, rfl⟩ := List.mem_iff_getElem.1 hx
    have := (hbd ω k s i (by rw [← ((h ω).tables k s).1]; exact hi)).1
    simpa [evaluate, hi] using this
  · have hclose : ∀ᶠ k in atTop, ∀ a : Fin env.nA, |evaluate (Q ω k s) a - evaluate (Qs s) a| ≤ ε / 4 := by
      refine eventually_all.2 fun a => ?_
      have := (Metric.tendsto_nhds.1 (hconv (s, a))) (ε / 4) (by linarith)
      exact this.mono fun k hk => by rw [Real.dist_eq] at hk; exact hk.le
    refine hclose.mono fun k hk => ?_
    have h1 := abs_le.1 (hmax (Q ω k) (fun s => ((h ω).tables k s).1) s _ fun a ha => hk ⟨a, ha⟩)
    have h2 := abs_le.1 (hk ⟨a, ha⟩)
    simp only at h2
    linarith

end

end Verif.QLearning
