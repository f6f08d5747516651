import Mathlib.MeasureTheory.Integral.IntervalIntegral.Basic
import Mathlib.Analysis.SpecialFunctions.Integrals.Basic
import Verif.Model.EpsilonGreedy
import Verif.Props.GapLearning

/-!
# C160: what SARSA with an epsilon-greedy explorer learns
-/

set_option autoImplicit false
set_option linter.unusedSectionVars false

open Filter Topology

namespace Verif.SarsaIteration
open ActionValue Targets MDP

variable {S : Type}

/-! ## Specification -/

/-- The mean of `y` over the actions that `select_action_epsilon_greedily` may return when the greedy action is `g`: over the uniform variate `u` and over the actions `r` that the explorer's
random function returns with equal probabilities. -/
noncomputable def average (nA : ℕ) (ε : ℝ) (g : ℕ) (y : ℕ → ℝ) : ℝ :=
  ∫ u in (0:ℝ)..1, (∑ r ∈ Finset.range nA, y (EpsGreedy.select ε u r g).1) / nA

/-- The table `Q'` fits the targets of SARSA that are computed with the target network `Q`, for the next actions of the explorer. -/
def SarsaFits (env : Env S ℝ) (gamma ε : ℝ) (Q Q' : S → List ℝ) : Prop :=
  ∀ s a, a < env.nA → ∃ y : Outcome S ℝ → ℕ → ℝ,
    (∀ x ∈ env.outcomes s a, ∀ a', a' < env.nA →
      ∃ b, batchExperiences id gamma [[transition s a x.2]] = .ok b ∧ sarsa Q [a'] b = [y x.2 a']) ∧
    evaluate (Q' s) a = expect (env.outcomes s a) fun o => average env.nA ε (greedy (Q o.next)) (y o)

/-- The behaviour: with probability `1 - ε` the greedy action of the table, otherwise any action. -/
noncomputable def behaviour (env : Env S ℝ) (ε : ℝ) (Q : S → List ℝ) (s : S) : List (ℝ × ℕ) :=
  (1 - ε, greedy (Q s)) :: (List.range env.nA).map fun r => (ε / env.nA, r)

/-- The probability of an action. -/
noncomputable def probOf (l : List (ℝ × ℕ)) (a : ℕ) : ℝ := (l.map fun x => if x.2 = a then x.1 else 0).sum

/-- The policy explores at least as much as the explorer: every action has at least the probability that it has as a random action. -/
def Explores (env : Env S ℝ) (ε : ℝ) (π : Policy S ℝ) : Prop := ∀ h s a, a < env.nA → ε / env.nA ≤ probOf (π h s) a

/-! ## Proofs -/

/-- The value of a row under the behaviour. -/
noncomputable def soft (nA : ℕ) (ε : ℝ) (q : List ℝ) : ℝ := (1 - ε) * maxQ q + ε * ((∑ r ∈ Finset.range nA, evaluate q r) / nA)

theorem average_eq (nA : ℕ) (ε : ℝ) (h0 : 0 ≤ ε) (h1 : ε ≤ 1) (hn : 0 < nA) (g : ℕ) (y : ℕ → ℝ) :
    average nA ε g y = (1 - ε) * y g + ε * ((∑ r ∈ Finset.range nA, y r) / nA) := by
  have hnA : (nA : ℝ) ≠ 0 := by positivity
  have e1 : Set.EqOn (fun _ : ℝ => (∑ r ∈ Finset.range nA, y r) / nA)
      (fun u => (∑ r ∈ Finset.range nA, y (EpsGreedy.select ε u r g).1) / nA) (Set.Ioo 0 ε) := by
    intro u hu
    simp [EpsGreedy.select, hu.2]
  have e2 : Set.EqOn (fun _ : ℝ => y g)
      (fun u => (∑ r ∈ Finset.range nA, y (EpsGreedy.select ε u r g).1) / nA) (Set.Ioo ε 1) := by
    intro u hu
    simp [EpsGreedy.select, not_lt.2 hu.1.le, hnA]
  have i1 : IntervalIntegrable (fun u => (∑ r ∈ Finset.range nA, y (EpsGreedy.select ε u r g).1) / nA) MeasureTheory.volume 0 ε :=
    IntervalIntegrable.congr_uIoo intervalIntegrable_const (by rw [Set.uIoo_of_le h0]; exact e1)
  have i2 : IntervalIntegrable (fun u => (∑ r ∈ Finset.range nA, y (EpsGreedy.select ε u r g).1) / nA) MeasureTheory.volume ε 1 :=
    IntervalIntegrable.congr_uIoo intervalIntegrable_const (by rw [Set.uIoo_of_le h1]; exact e2)
  rw [average, ← intervalIntegral.integral_add_adjacent_intervals i1 i2, ← intervalIntegral.integral_congr_Ioo_of_le h0 e1,
    ← intervalIntegral.integral_congr_Ioo_of_le h1 e2, intervalIntegral.integral_const, intervalIntegral.integral_const]
  simp only [smul_eq_mul]
  ring

theorem expect_behaviour (env : Env S ℝ) (ε : ℝ) (Q : S → List ℝ) (s : S) :
    expect (behaviour env ε Q s) (evaluate (Q s)) = soft env.nA ε (Q s) := by
  have : ((List.range env.nA).map fun r => ε / env.nA * evaluate (Q s) r).sum = ε * ((∑ r ∈ Finset.range env.nA, evaluate (Q s) r) / env.nA) := by
    rw [List.sum_map_mul_left]
    have : ((List.range env.nA).map (evaluate (Q s))).sum = ∑ r ∈ Finset.range env.nA, evaluate (Q s) r := by
      induction env.nA with
      | zero => simp
      | succ n ih => rw [List.range_succ, Finset.sum_range_succ, ← ih]; simp
    rw [this]; ring
  simp only [expect, behaviour, List.map_cons, List.sum_cons, List.map_map, Function.comp_def, this]
  rfl

theorem behaviour_valid (env : Env S ℝ) (ε : ℝ) (h0 : 0 ≤ ε) (h1 : ε ≤ 1) (B : ℝ) (Q : S → List ℝ) (hQ : Table env B Q) :
    Policy.Valid env fun _ => behaviour env ε Q := by
  have hn : (0:ℝ) < env.nA := by exact_mod_cast hQ.1
  intro _ s
  refine ⟨⟨fun x hx => ?_, ?_⟩, fun x hx => ?_⟩
  · rcases List.mem_cons.1 hx with rfl | hx
    · show 0 ≤ 1 - ε
      linarith
    · obtain ⟨r, -, rfl⟩ := List.mem_map.1 hx
      show 0 ≤ ε / env.nA
      positivity
  · simp only [behaviour, List.map_cons, List.sum_cons, List.map_map, Function.comp_def, List.map_const', List.length_range, List.sum_replicate, nsmul_eq_mul]
    field_simp
    ring
  · rcases List.mem_cons.1 hx with rfl | hx
    · exact greedy_lt env B Q hQ s
    · obtain ⟨r, hr, rfl⟩ := List.mem_map.1 hx
      exact List.mem_range.1 hr

theorem target_eq (gamma : ℝ) (Q : S → List ℝ) (s : S) (a a' : ℕ) (o : Outcome S ℝ) :
    ∃ b, batchExperiences id gamma [[transition s a o]] = .ok b ∧
      sarsa Q [a'] b = [o.reward + if o.done then 0 else gamma * evaluate (Q o.next) a'] := by
  refine ⟨_, rfl, ?_⟩
  cases hd : o.done <;> simp [sarsa, bellman, transition, expReward, hd]

/-- The targets are those of one step of lookahead with the values of the behaviour. -/
theorem fits_iff (env : Env S ℝ) (gamma ε : ℝ) (h0 : 0 ≤ ε) (h1 : ε ≤ 1) (hn : 0 < env.nA) (Q Q' : S → List ℝ) (hQ : ∀ s, (Q s).length = env.nA) :
    SarsaFits env gamma ε Q Q' ↔ ∀ s a, a < env.nA → evaluate (Q' s) a = backup env gamma (fun s => soft env.nA ε (Q s)) s a := by
  have hnA : (env.nA : ℝ) ≠ 0 := by positivity
  have hg : ∀ s, greedy (Q s) < env.nA := fun s => by
    have hne : Q s ≠ [] := fun h => by have := hQ s; rw [h] at this; simp at this; omega
    obtain ⟨m, h1, -⟩ := C64_greedy _ hne
    have := (List.getElem?_eq_some_iff.1 h1).1
    rwa [hQ] at this
  have key : ∀ (o : Outcome S ℝ), average env.nA ε (greedy (Q o.next)) (fun a' => o.reward + if o.done then 0 else gamma * evaluate (Q o.next) a') =
      o.reward + if o.done then 0 else gamma * soft env.nA ε (Q o.next) := fun o => by
    rw [average_eq env.nA ε h0 h1 hn]
    cases o.done with
    | true => simp only [if_true, add_zero, Finset.sum_const, Finset.card_range, nsmul_eq_mul]; field_simp; ring
    | false =>
      simp only [Bool.false_eq_true, if_false, soft, Finset.sum_add_distrib, Finset.sum_const, Finset.card_range, nsmul_eq_mul, ← Finset.mul_sum]
      have : maxQ (Q o.next) = evaluate (Q o.next) (greedy (Q o.next)) := rfl
      rw [this]; field_simp; ring
  constructor
  · intro h s a ha
    obtain ⟨y, e1, e2⟩ := h s a ha
    rw [e2]
    refine expect_congr _ _ _ fun x hx => ?_
    have hy : ∀ a', a' < env.nA → y x.2 a' = x.2.reward + if x.2.done then 0 else gamma * evaluate (Q x.2.next) a' := fun a' ha' => by
      obtain ⟨b, hb, hs⟩ := e1 x hx a' ha'
      obtain ⟨b', hb', hs'⟩ := target_eq gamma Q s a a' x.2
      rw [hb] at hb'; cases hb'
      rw [hs] at hs'
      simpa using hs'
    rw [← key x.2, average_eq _ _ h0 h1 hn, average_eq _ _ h0 h1 hn, hy _ (hg _), Finset.sum_congr rfl fun r hr => hy r (Finset.mem_range.1 hr)]
  · intro h s a ha
    refine ⟨fun o a' => o.reward + if o.done then 0 else gamma * evaluate (Q o.next) a', fun x _ a' _ => target_eq gamma Q s a a' x.2, ?_⟩
    rw [h s a ha]
    exact expect_congr _ _ _ fun x _ => (key x.2).symm

theorem soft_close (env : Env S ℝ) (ε : ℝ) (h0 : 0 ≤ ε) (h1 : ε ≤ 1) (hn : 0 < env.nA) (p q : List ℝ) (hp : p.length = env.nA) (hq : q.length = env.nA) (δ : ℝ)
    (h : ∀ a, a < env.nA → |evaluate p a - evaluate q a| ≤ δ) : |soft env.nA ε p - soft env.nA ε q| ≤ δ := by
  have hne : ∀ q : List ℝ, q.length = env.nA → q ≠ [] := fun q hq h => by rw [h] at hq; simp at hq; omega
  have hm := max_close p q (by rw [hp, hq]) δ (fun a ha => h a (by rwa [hp] at ha)) _ _ (C64_max _ (hne p hp)) (C64_max _ (hne q hq))
  have hnA : (0:ℝ) < env.nA := by exact_mod_cast hn
  have hs : |(∑ r ∈ Finset.range env.nA, evaluate p r) / env.nA - (∑ r ∈ Finset.range env.nA, evaluate q r) / env.nA| ≤ δ := by
    rw [← sub_div, ← Finset.sum_sub_distrib, abs_div, abs_of_pos hnA, div_le_iff₀ hnA]
    refine (Finset.abs_sum_le_sum_abs _ _).trans ((Finset.sum_le_sum fun r hr => h r (Finset.mem_range.1 hr)).trans ?_)
    simp [mul_comm]
  have e : soft env.nA ε p - soft env.nA ε q = (1 - ε) * (maxQ p - maxQ q) +
      ε * ((∑ r ∈ Finset.range env.nA, evaluate p r) / env.nA - (∑ r ∈ Finset.range env.nA, evaluate q r) / env.nA) := by
    simp only [soft]; ring
  rw [e, abs_le]
  have a1 := abs_le.1 hm
  have a2 := abs_le.1 hs
  constructor <;> nlinarith [mul_le_mul_of_nonneg_left a1.1 (sub_nonneg.2 h1), mul_le_mul_of_nonneg_left a1.2 (sub_nonneg.2 h1),
    mul_le_mul_of_nonneg_left a2.1 h0, mul_le_mul_of_nonneg_left a2.2 h0]

theorem backup_contracts {env : Env S ℝ} (he : env.Valid) (gamma : ℝ) (hg : 0 ≤ gamma) (V V' : S → ℝ) (E : ℝ) (hE : 0 ≤ E) (hV : ∀ s, |V s - V' s| ≤ E) (s : S) (a : ℕ)
    (ha : a < env.nA) : |backup env gamma V s a - backup env gamma V' s a| ≤ gamma * E := by
  refine expect_close _ (he s a ha) _ _ _ fun x _ => ?_
  rw [add_sub_add_left_eq_sub]
  split
  · rw [sub_zero, abs_zero]; positivity
  · rw [← mul_sub, abs_mul, abs_of_nonneg hg]
    exact mul_le_mul_of_nonneg_left (hV _) hg

/-! ### The process in which the environment explores -/

/-- With probability `ε` the action is replaced by a random one. -/
noncomputable def shaken (env : Env S ℝ) (ε : ℝ) : Env S ℝ where
  nA := env.nA
  outcomes s a := (env.outcomes s a).map (fun x => ((1 - ε) * x.1, x.2)) ++
    (List.range env.nA).flatMap fun r => (env.outcomes s r).map fun x => (ε / env.nA * x.1, x.2)

theorem expect_scale {α : Type} (l : List (ℝ × α)) (c : ℝ) (f : α → ℝ) : expect (l.map fun x => (c * x.1, x.2)) f = c * expect l f := by
  simp only [expect, List.map_map, Function.comp_def, mul_assoc, List.sum_map_mul_left]

theorem sum_flatMap_range {α : Type} (n : ℕ) (g : ℕ → List α) (F : α → ℝ) : (((List.range n).flatMap g).map F).sum = ∑ r ∈ Finset.range n, ((g r).map F).sum := by
  induction n with
  | zero => simp
  | succ n ih => rw [List.range_succ, List.flatMap_append, List.map_append, List.sum_append, ih, Finset.sum_range_succ]; simp

theorem expect_shaken (env : Env S ℝ) (ε : ℝ) (s : S) (a : ℕ) (f : Outcome S ℝ → ℝ) :
    expect ((shaken env ε).outcomes s a) f = (1 - ε) * expect (env.outcomes s a) f + ε * ((∑ r ∈ Finset.range env.nA, expect (env.outcomes s r) f) / env.nA) := by
  have h1 : expect ((shaken env ε).outcomes s a) f = expect ((env.outcomes s a).map fun x => ((1 - ε) * x.1, x.2)) f +
      ∑ r ∈ Finset.range env.nA, expect ((env.outcomes s r).map fun x => (ε / env.nA * x.1, x.2)) f := by
    rw [expect, shaken, List.map_append, List.sum_append, sum_flatMap_range]
    rfl
  rw [h1, expect_scale, Finset.sum_congr rfl fun r _ => expect_scale _ _ _, ← Finset.mul_sum]
  ring

theorem shaken_valid (env : Env S ℝ) (he : env.Valid) (hn : 0 < env.nA) (ε : ℝ) (h0 : 0 ≤ ε) (h1 : ε ≤ 1) : (shaken env ε).Valid := by
  have hnA : (0:ℝ) < env.nA := by exact_mod_cast hn
  intro s a ha
  refine ⟨fun x hx => ?_, ?_⟩
  · rcases List.mem_append.1 hx with hx | hx
    · obtain ⟨y, hy, rfl⟩ := List.mem_map.1 hx
      exact mul_nonneg (by linarith) ((he s a ha).1 y hy)
    · obtain ⟨r, hr, hx⟩ := List.mem_flatMap.1 hx
      obtain ⟨y, hy, rfl⟩ := List.mem_map.1 hx
      exact mul_nonneg (by positivity) ((he s r (List.mem_range.1 hr)).1 y hy)
  · have h := expect_shaken env ε s a fun _ => 1
    rw [expect_const _ (he s a ha), Finset.sum_congr rfl fun r hr => expect_const _ (he s r (Finset.mem_range.1 hr)) 1] at h
    have e : expect ((shaken env ε).outcomes s a) (fun _ => 1) = (((shaken env ε).outcomes s a).map Prod.fst).sum := by simp [expect]
    rw [← e, h, Finset.sum_const, Finset.card_range, nsmul_eq_mul]
    field_simp
    ring

theorem soft_row (env : Env S ℝ) (hn : 0 < env.nA) (ε : ℝ) (h1 : ε ≤ 1) (p q : List ℝ) (hp : p.length = env.nA) (hq : q.length = env.nA)
    (h : ∀ a, a < env.nA → evaluate p a = (1 - ε) * evaluate q a + ε * ((∑ r ∈ Finset.range env.nA, evaluate q r) / env.nA)) : maxQ p = soft env.nA ε q := by
  have hne : ∀ q : List ℝ, q.length = env.nA → q ≠ [] := fun q hq h => by rw [h] at hq; simp at hq; omega
  have ev : ∀ (l : List ℝ) (a : ℕ) (ha : a < l.length), evaluate l a = l[a] := fun l a ha => by simp [evaluate, ha]
  obtain ⟨m1, m2⟩ := C64_max q (hne q hq)
  refine isMax_unique (C64_max p (hne p hp)) ⟨?_, fun x hx => ?_⟩
  · obtain ⟨a, ha, e⟩ := List.getElem_of_mem m1
    have ha' : a < p.length := by rw [hp, ← hq]; exact ha
    have := h a (by rw [← hq]; exact ha)
    rw [ev p a ha', ev q a ha, e] at this
    rw [soft, ← this]
    exact List.getElem_mem _
  · obtain ⟨a, ha, rfl⟩ := List.getElem_of_mem hx
    have ha' : a < q.length := by rw [hq, ← hp]; exact ha
    have := h a (by rw [← hp]; exact ha)
    rw [ev p a ha, ev q a ha'] at this
    rw [soft, this]
    have := mul_le_mul_of_nonneg_left (m2 _ (List.getElem_mem ha')) (sub_nonneg.2 h1)
    linarith

/-- A table that meets its own targets exists. -/
theorem rest_exists (env : Env S ℝ) (he : env.Valid) (hn : 0 < env.nA) (gamma R ε : ℝ) (hg0 : 0 ≤ gamma) (hg1 : gamma < 1) (h0 : 0 ≤ ε) (h1 : ε ≤ 1)
    (hR : ∀ s a, a < env.nA → |expect (env.outcomes s a) Outcome.reward| ≤ R) :
    ∃ B Qs, Table env B Qs ∧ ∀ s a, a < env.nA → evaluate (Qs s) a = backup env gamma (fun s => soft env.nA ε (Qs s)) s a := by
  have hnA : (0:ℝ) < env.nA := by exact_mod_cast hn
  have hR' : ∀ s a, a < (shaken env ε).nA → |expect ((shaken env ε).outcomes s a) Outcome.reward| ≤ R := fun s a ha => by
    rw [expect_shaken]
    have a1 := abs_le.1 (hR s a ha)
    have a2 : |(∑ r ∈ Finset.range env.nA, expect (env.outcomes s r) Outcome.reward) / env.nA| ≤ R := by
      rw [abs_div, abs_of_pos hnA, div_le_iff₀ hnA]
      refine (Finset.abs_sum_le_sum_abs _ _).trans ((Finset.sum_le_sum fun r hr => hR s r (Finset.mem_range.1 hr)).trans ?_)
      simp [mul_comm]
    have a2 := abs_le.1 a2
    rw [abs_le]
    constructor <;> nlinarith [mul_le_mul_of_nonneg_left a1.1 (sub_nonneg.2 h1), mul_le_mul_of_nonneg_left a1.2 (sub_nonneg.2 h1),
      mul_le_mul_of_nonneg_left a2.1 h0, mul_le_mul_of_nonneg_left a2.2 h0]
  obtain ⟨B, P, hP, hfit⟩ := optimal_exists (shaken env ε) (shaken_valid env he hn ε h0 h1) hn gamma R hg0 hg1 hR'
  have hb := dqn_backup (shaken env ε) gamma B P P hP hfit
  let Qs : S → List ℝ := row env (backup env gamma fun s => maxQ (P s))
  have hlen : ∀ s, (Qs s).length = env.nA := fun s => by simp [Qs, row]
  have hev : ∀ s a, a < env.nA → evaluate (Qs s) a = backup env gamma (fun s => maxQ (P s)) s a := fun s a ha => evaluate_row env _ s a ha
  have hsoft : ∀ s, maxQ (P s) = soft env.nA ε (Qs s) := fun s =>
    soft_row env hn ε h1 (P s) (Qs s) (hP.2 s).1 (hlen s) fun a ha => by
      rw [hb s a ha, hev s a ha, Finset.sum_congr rfl fun r hr => hev s r (Finset.mem_range.1 hr)]
      exact expect_shaken env ε s a _
  have hB : ∀ s : S, 0 ≤ B := fun s => (abs_nonneg _).trans (max_bound (shaken env ε) B P hP s)
  refine ⟨R + gamma * B, Qs, ⟨hn, fun s => ⟨hlen s, fun x hx => ?_⟩⟩, fun s a ha => ?_⟩
  · obtain ⟨a, ha, rfl⟩ := List.mem_map.1 hx
    have ha := List.mem_range.1 ha
    have e0 : backup env gamma (fun _ => 0) s a = expect (env.outcomes s a) Outcome.reward := expect_congr _ _ _ fun x _ => by simp
    have h3 := backup_contracts he gamma hg0 (fun s => maxQ (P s)) (fun _ => 0) B (hB s) (fun s => by rw [sub_zero]; exact max_bound (shaken env ε) B P hP s) s a ha
    rw [e0] at h3
    have h4 := hR s a ha
    calc |backup env gamma (fun s => maxQ (P s)) s a|
        = |expect (env.outcomes s a) Outcome.reward + (backup env gamma (fun s => maxQ (P s)) s a - expect (env.outcomes s a) Outcome.reward)| := by ring_nf
      _ ≤ _ := (abs_add_le _ _).trans (add_le_add h4 h3)
  · rw [hev s a ha]
    simp only [hsoft]

/-! ### What the values mean -/

theorem expect_probOf (n : ℕ) (l : List (ℝ × ℕ)) (hl : ∀ x ∈ l, x.2 < n) (f : ℕ → ℝ) : expect l f = ∑ a ∈ Finset.range n, probOf l a * f a := by
  induction l with
  | nil => simp [expect, probOf]
  | cons x l ih =>
    have h1 : expect (x :: l) f = x.1 * f x.2 + expect l f := by simp [expect]
    have h2 : ∀ a, probOf (x :: l) a = (if x.2 = a then x.1 else 0) + probOf l a := fun a => by simp [probOf]
    rw [h1, ih fun y hy => hl y (List.mem_cons_of_mem _ hy)]
    simp only [h2, add_mul, Finset.sum_add_distrib]
    congr 1
    rw [Finset.sum_eq_single x.2]
    · simp
    · intro b _ hb
      rw [if_neg (fun e => hb e.symm), zero_mul]
    · intro h
      exact absurd (Finset.mem_range.2 (hl x List.mem_cons_self)) h

/-- Among all ways to choose that explore enough, none is better than the behaviour. -/
theorem expect_le_soft (env : Env S ℝ) (hn : 0 < env.nA) (ε : ℝ) (l : List (ℝ × ℕ)) (hl : IsDist l) (hA : ∀ x ∈ l, x.2 < env.nA)
    (hex : ∀ a, a < env.nA → ε / env.nA ≤ probOf l a) (q : List ℝ) (hq : q.length = env.nA) : expect l (evaluate q) ≤ soft env.nA ε q := by
  have hnA : (0:ℝ) < env.nA := by exact_mod_cast hn
  have hne : q ≠ [] := fun h => by rw [h] at hq; simp at hq; omega
  have hsum : ∑ a ∈ Finset.range env.nA, probOf l a = 1 := by
    have h1 := expect_probOf env.nA l hA fun _ => 1
    rw [expect_const _ hl] at h1
    simpa using h1.symm
  have hle : ∀ a, a < env.nA → evaluate q a ≤ maxQ q := fun a ha => by
    have : evaluate q a = q[a]'(by omega) := by simp [evaluate, hq, ha]
    rw [this]; exact (C64_max q hne).2 _ (List.getElem_mem _)
  have h2 : ∑ a ∈ Finset.range env.nA, (probOf l a - ε / env.nA) * evaluate q a ≤ ∑ a ∈ Finset.range env.nA, (probOf l a - ε / env.nA) * maxQ q :=
    Finset.sum_le_sum fun a ha => mul_le_mul_of_nonneg_left (hle a (Finset.mem_range.1 ha)) (sub_nonneg.2 (hex a (Finset.mem_range.1 ha)))
  rw [← Finset.sum_mul, Finset.sum_sub_distrib, hsum, Finset.sum_const, Finset.card_range, nsmul_eq_mul, mul_div_cancel₀ _ hnA.ne'] at h2
  simp only [sub_mul, Finset.sum_sub_distrib, ← Finset.mul_sum] at h2
  rw [expect_probOf env.nA l hA, soft]
  have e : ε * ((∑ r ∈ Finset.range env.nA, evaluate q r) / env.nA) = ε / env.nA * ∑ r ∈ Finset.range env.nA, evaluate q r := by ring
  rw [e]
  linarith

/-- The behaviour explores enough. -/
theorem behaviour_explores (env : Env S ℝ) (ε : ℝ) (h1 : ε ≤ 1) (Q : S → List ℝ) : Explores env ε fun _ => behaviour env ε Q := by
  intro _ s a ha
  have h2 : probOf ((List.range env.nA).map fun r => (ε / env.nA, r)) a = ε / env.nA := by
    simp only [probOf, List.map_map, Function.comp_def]
    have : ∀ n, a < n → ((List.range n).map fun r => if r = a then ε / (env.nA:ℝ) else 0).sum = ε / env.nA := by
      intro n hn
      rw [List.sum_map_ite_eq]
      simp [List.count_range, hn]
    exact this _ ha
  have h3 : probOf (behaviour env ε Q s) a = (if greedy (Q s) = a then 1 - ε else 0) + probOf ((List.range env.nA).map fun r => (ε / env.nA, r)) a := by
    simp [probOf, behaviour]
  rw [h3, h2]
  split
  · linarith
  · linarith

theorem soft_abs (env : Env S ℝ) (ε : ℝ) (h0 : 0 ≤ ε) (h1 : ε ≤ 1) (B : ℝ) (Q : S → List ℝ) (hQ : Table env B Q) (s : S) : |soft env.nA ε (Q s)| ≤ B := by
  have hv := behaviour_valid env ε h0 h1 B Q hQ [] s
  rw [← expect_behaviour env ε Q s, ← sub_zero (expect _ _), ← expect_const _ hv.1 0]
  refine expect_close _ hv.1 _ _ _ fun x hx => ?_
  have hx := hv.2 x hx
  have : evaluate (Q s) x.2 = (Q s)[x.2]'(by rw [(hQ.2 s).1]; exact hx) := by simp [evaluate, (hQ.2 s).1, hx]
  rw [sub_zero, this]
  exact (hQ.2 s).2 _ (List.getElem_mem _)

/-- No policy that explores enough gets more. -/
theorem ret_le (env : Env S ℝ) (he : env.Valid) (gamma ε B : ℝ) (hg0 : 0 ≤ gamma) (h0 : 0 ≤ ε) (h1 : ε ≤ 1) (Q : S → List ℝ) (hQ : Table env B Q)
    (hb : ∀ s a, a < env.nA → evaluate (Q s) a = backup env gamma (fun s => soft env.nA ε (Q s)) s a) (π : Policy S ℝ) (hπ : π.Valid env) (hex : Explores env ε π) (n : ℕ) :
    ∀ h s, ret env gamma π n h s ≤ soft env.nA ε (Q s) + gamma ^ n * B := by
  induction n with
  | zero =>
    intro h s
    have := (abs_le.1 (soft_abs env ε h0 h1 B Q hQ s)).1
    simp only [ret, pow_zero, one_mul]; linarith
  | succ n ih =>
    intro h s
    simp only [ret]
    obtain ⟨hd, hA⟩ := hπ h s
    have hc : 0 ≤ gamma ^ (n + 1) * B := mul_nonneg (pow_nonneg hg0 _) ((abs_nonneg _).trans (soft_abs env ε h0 h1 B Q hQ s))
    refine le_trans (b := expect (π h s) fun a => evaluate (Q s) a + gamma ^ (n + 1) * B) (expect_mono _ hd _ _ fun x hx => ?_) ?_
    · rw [hb s x.2 (hA x hx), backup, ← expect_add _ (he s x.2 (hA x hx))]
      refine expect_mono _ (he s x.2 (hA x hx)) _ _ fun y _ => ?_
      cases y.2.done with
      | true => simp only [if_true]; linarith
      | false =>
        simp only [Bool.false_eq_true, if_false]
        have := mul_le_mul_of_nonneg_left (ih (h ++ [(s, x.2)]) y.2.next) hg0
        rw [mul_add, ← mul_assoc, ← pow_succ'] at this
        linarith
    · rw [expect_add _ hd]
      have := expect_le_soft env hQ.1 ε (π h s) hd hA (hex h s) (Q s) (hQ.2 s).1
      linarith

/-- The behaviour gets the values. -/
theorem ret_behaviour (env : Env S ℝ) (he : env.Valid) (gamma ε B : ℝ) (hg0 : 0 ≤ gamma) (h0 : 0 ≤ ε) (h1 : ε ≤ 1) (Q : S → List ℝ) (hQ : Table env B Q)
    (hb : ∀ s a, a < env.nA → evaluate (Q s) a = backup env gamma (fun s => soft env.nA ε (Q s)) s a) (n : ℕ) (h : List (S × ℕ)) (s : S) :
    |ret env gamma (fun _ => behaviour env ε Q) n h s - soft env.nA ε (Q s)| ≤ gamma ^ n * B := by
  have := C135_sarsa env he gamma B hg0 (behaviour env ε Q) (behaviour_valid env ε h0 h1 B Q hQ) Q hQ (fun s a ha => by
    refine ⟨fun o a' => o.reward + if o.done then 0 else gamma * evaluate (Q o.next) a', fun x _ x' _ => target_eq gamma Q s a x'.2 x.2, ?_⟩
    rw [hb s a ha]
    refine expect_congr _ _ _ fun x _ => ?_
    have hd := (behaviour_valid env ε h0 h1 B Q hQ [] x.2.next).1
    show (x.2.reward + if x.2.done = true then 0 else gamma * soft env.nA ε (Q x.2.next)) =
      expect (behaviour env ε Q x.2.next) fun a' => x.2.reward + if x.2.done = true then 0 else gamma * evaluate (Q x.2.next) a'
    rw [← expect_behaviour]
    cases x.2.done with
    | true => simp only [if_true, add_zero]; exact (expect_const _ hd _).symm
    | false =>
      simp only [Bool.false_eq_true, if_false]
      have := expect_affine (behaviour env ε Q x.2.next) (evaluate (Q x.2.next)) gamma x.2.reward
      rw [hd.2, mul_one] at this
      rw [add_comm, ← this]
      exact expect_congr _ _ _ fun y _ => add_comm _ _) n h s
  rwa [expect_behaviour] at this

/-! ## The theorems -/

/-- **C160.** For every process with bounded expected rewards and every `ε` there is exactly one bounded table that meets the targets of SARSA.  It holds the values of the epsilon-greedy behaviour for
this table: its expected return of `n` steps differs from the value by at most `gamma ^ n * B`.  And no policy that chooses each action with at least the probability of a random action, however it
uses the past, gets more.  If the network is trained until it fits its targets, then copied to the target network, and so on, then the values approach those of this table at the rate `gamma`. -/
theorem C160_learns (env : Env S ℝ) (he : env.Valid) (hn : 0 < env.nA) (gamma R ε : ℝ) (hg0 : 0 ≤ gamma) (hg1 : gamma < 1) (h0 : 0 ≤ ε) (h1 : ε ≤ 1)
    (hR : ∀ s a, a < env.nA → |expect (env.outcomes s a) Outcome.reward| ≤ R) :
    ∃ B Qs, Table env B Qs ∧ SarsaFits env gamma ε Qs Qs ∧
      (∀ n h s, |ret env gamma (fun _ => behaviour env ε Qs) n h s - expect (behaviour env ε Qs s) (evaluate (Qs s))| ≤ gamma ^ n * B) ∧
      (∀ π : Policy S ℝ, π.Valid env → Explores env ε π → ∀ n h s, ret env gamma π n h s ≤ expect (behaviour env ε Qs s) (evaluate (Qs s)) + gamma ^ n * B) ∧
      ∀ (Q : ℕ → S → List ℝ) (B₀ : ℝ), Table env B₀ (Q 0) → (∀ k s, (Q k s).length = env.nA) → (∀ k, SarsaFits env gamma ε (Q k) (Q (k + 1))) →
        ∀ k s a, a < env.nA → |evaluate (Q k s) a - evaluate (Qs s) a| ≤ gamma ^ k * (B₀ + B) := by
  obtain ⟨B, Qs, hQs, hb⟩ := rest_exists env he hn gamma R ε hg0 hg1 h0 h1 hR
  have ev : ∀ (B : ℝ) (Q : S → List ℝ), Table env B Q → ∀ s a, a < env.nA → |evaluate (Q s) a| ≤ B := fun B Q hQ s a ha => by
    have : evaluate (Q s) a = (Q s)[a]'(by rw [(hQ.2 s).1]; exact ha) := by simp [evaluate, (hQ.2 s).1, ha]
    rw [this]; exact (hQ.2 s).2 _ (List.getElem_mem _)
  refine ⟨B, Qs, hQs, (fits_iff env gamma ε h0 h1 hn Qs Qs fun s => (hQs.2 s).1).2 hb, fun n h s => ?_, fun π hπ hex n h s => ?_, fun Q B₀ hQ0 hl hf k => ?_⟩
  · rw [expect_behaviour]
    exact ret_behaviour env he gamma ε B hg0 h0 h1 Qs hQs hb n h s
  · rw [expect_behaviour]
    exact ret_le env he gamma ε B hg0 h0 h1 Qs hQs hb π hπ hex n h s
  · induction k with
    | zero =>
      intro s a ha
      rw [pow_zero, one_mul]
      exact (abs_sub _ _).trans (add_le_add (ev _ _ hQ0 s a ha) (ev _ _ hQs s a ha))
    | succ k ih =>
      intro s a ha
      rw [(fits_iff env gamma ε h0 h1 hn (Q k) (Q (k + 1)) (hl k)).1 (hf k) s a ha, hb s a ha, pow_succ', mul_assoc]
      have hE : 0 ≤ gamma ^ k * (B₀ + B) := (abs_nonneg _).trans (ih s 0 hn)
      exact backup_contracts he gamma hg0 _ _ _ hE (fun s => soft_close env ε h0 h1 hn _ _ (hl k s) (hQs.2 s).1 _ (ih s)) s a ha

/-- **C160**, the table is the only one. -/
theorem C160_unique (env : Env S ℝ) (he : env.Valid) (hn : 0 < env.nA) (gamma R ε : ℝ) (hg0 : 0 ≤ gamma) (hg1 : gamma < 1) (h0 : 0 ≤ ε) (h1 : ε ≤ 1)
    (hR : ∀ s a, a < env.nA → |expect (env.outcomes s a) Outcome.reward| ≤ R) (B B' : ℝ) (Q Q' : S → List ℝ) (hQ : Table env B Q) (hQ' : Table env B' Q')
    (hf : SarsaFits env gamma ε Q Q) (hf' : SarsaFits env gamma ε Q' Q') : ∀ s a, a < env.nA → evaluate (Q s) a = evaluate (Q' s) a := by
  obtain ⟨Bs, Qs, -, -, -, -, h⟩ := C160_learns env he hn gamma R ε hg0 hg1 h0 h1 hR
  have key : ∀ (B : ℝ) (Q : S → List ℝ), Table env B Q → SarsaFits env gamma ε Q Q → ∀ s a, a < env.nA → evaluate (Q s) a = evaluate (Qs s) a := fun B Q hQ hf s a ha => by
    have h2 := h (fun _ => Q) B hQ (fun _ s => (hQ.2 s).1) (fun _ => hf)
    have h3 : Tendsto (fun k : ℕ => gamma ^ k * (B + Bs)) atTop (𝓝 (0 * (B + Bs))) := (tendsto_pow_atTop_nhds_zero_of_lt_one hg0 hg1).mul_const _
    rw [zero_mul] at h3
    have h4 := ge_of_tendsto' h3 fun k => h2 k s a ha
    exact sub_eq_zero.1 (abs_eq_zero.1 (le_antisymm h4 (abs_nonneg _)))
  intro s a ha
  rw [key B Q hQ hf s a ha, key B' Q' hQ' hf' s a ha]

/-! ## A process at an edge -/

/-- The first state leads to the edge (action 0) or ends the episode (action 1).  On the edge action 0 ends the episode with the reward 1 and action 1 with a great loss. -/
noncomputable def edge (ε : ℝ) : Env Bool ℝ where
  nA := 2
  outcomes s a := match s, a with
    | false, 0 => [(1, ⟨0, true, false⟩)]
    | false, _ => [(1, ⟨0, false, true⟩)]
    | true, 0 => [(1, ⟨1, true, true⟩)]
    | true, _ => [(1, ⟨-(2 / ε), true, true⟩)]

theorem edge_valid (ε : ℝ) : (edge ε).Valid := by
  intro s a _
  rcases s with _ | _ <;> rcases a with _ | a <;> simp [edge, IsDist]

theorem edge_rewards (ε : ℝ) (hε : 0 < ε) : ∀ s a, a < (edge ε).nA → |expect ((edge ε).outcomes s a) Outcome.reward| ≤ 1 + 2 / ε := by
  have : 0 < 2 / ε := by positivity
  intro s a _
  rcases s with _ | _ <;> rcases a with _ | a <;> simp [edge, expect]
  · linarith
  · linarith
  · linarith
  · rw [abs_of_pos this]; linarith

theorem two_row (l : List ℝ) (h : l.length = 2) : l = [evaluate l 0, evaluate l 1] := by
  match l, h with
  | [x, y], _ => rfl

theorem greedy_pair (x y : ℝ) : greedy [x, y] = if x < y then 1 else 0 := by simp [greedy, argmaxFrom]

/-- **C160**, SARSA does not learn what is best without exploration: near an edge, for every positive `ε` and discount, the greedy action of the table learnt by SARSA keeps away from the edge, and the
greedy action of the table learnt by DQN goes there. -/
theorem C160_cautious (gamma ε : ℝ) (hg : 0 < gamma) (h0 : 0 < ε) (h1 : ε ≤ 1) (B B' : ℝ) (Q Q' : Bool → List ℝ) (hQ : Table (edge ε) B Q) (hQ' : Table (edge ε) B' Q')
    (hf : SarsaFits (edge ε) gamma ε Q Q) (hf' : MeetsTargets (edge ε) gamma dqn Q') : greedy (Q false) = 1 ∧ greedy (Q' false) = 0 := by
  have hp : 0 < 2 / ε := by positivity
  constructor
  · have hb := (fits_iff (edge ε) gamma ε h0.le h1 hQ.1 Q Q fun s => (hQ.2 s).1).1 hf
    have e1 : Q true = [1, -(2 / ε)] := by
      rw [two_row _ (hQ.2 true).1, hb true 0 (by simp [edge]), hb true 1 (by simp [edge])]
      simp [backup, expect, edge]
    have e2 : soft (edge ε).nA ε (Q true) = -(ε / 2) := by
      have : ¬ (1 : ℝ) < -(2 / ε) := by linarith
      rw [e1]
      simp only [soft, edge, maxQ, greedy_pair, this, if_false, Finset.sum_range_succ, Finset.sum_range_zero]
      simp [evaluate]
      field_simp
      ring
    have e3 : Q false = [-(gamma * (ε / 2)), 0] := by
      rw [two_row _ (hQ.2 false).1, hb false 0 (by simp [edge]), hb false 1 (by simp [edge])]
      have : backup (edge ε) gamma (fun s => soft (edge ε).nA ε (Q s)) false 0 = gamma * soft (edge ε).nA ε (Q true) := by simp [backup, expect, edge]
      rw [this, e2]
      simp [backup, expect, edge]
    rw [e3, greedy_pair, if_pos]
    have : 0 < gamma * (ε / 2) := by positivity
    linarith
  · have hb := dqn_backup (edge ε) gamma B' Q' Q' hQ' hf'
    have e1 : Q' true = [1, -(2 / ε)] := by
      rw [two_row _ (hQ'.2 true).1, hb true 0 (by simp [edge]), hb true 1 (by simp [edge])]
      simp [backup, expect, edge]
    have e3 : Q' false = [gamma, 0] := by
      rw [two_row _ (hQ'.2 false).1, hb false 0 (by simp [edge]), hb false 1 (by simp [edge])]
      have : backup (edge ε) gamma (fun s => maxQ (Q' s)) false 0 = gamma * maxQ (Q' true) := by simp [backup, expect, edge]
      have h3 : ¬ (1 : ℝ) < -(2 / ε) := by linarith
      rw [this, e1]
      simp [backup, expect, edge, maxQ, greedy_pair, h3, evaluate]
    rw [e3, greedy_pair, if_neg (by linarith)]

/-- The hypotheses of all three theorems are met by the process at an edge. -/
example (ε : ℝ) (h0 : 0 < ε) (h1 : ε ≤ 1) : ∃ B B' Q Q', Table (edge ε) B Q ∧ Table (edge ε) B' Q' ∧ SarsaFits (edge ε) (9 / 10) ε Q Q ∧ MeetsTargets (edge ε) (9 / 10) dqn Q' := by
  obtain ⟨B, Q, h2, h3, -⟩ := C160_learns (edge ε) (edge_valid ε) (by simp [edge]) (9 / 10) _ ε (by norm_num) (by norm_num) h0.le h1 (edge_rewards ε h0)
  obtain ⟨B', Q', h4, h5⟩ := optimal_exists (edge ε) (edge_valid ε) (by simp [edge]) (9 / 10) _ (by norm_num) (by norm_num) (edge_rewards ε h0)
  exact ⟨B, B', Q, Q', h2, h4, h3, h5⟩

/-- The behaviour is itself one of the policies that explore enough. -/
example (ε : ℝ) (h0 : 0 ≤ ε) (h1 : ε ≤ 1) (B : ℝ) (Q : Bool → List ℝ) (hQ : Table (edge ε) B Q) :
    Policy.Valid (edge ε) (fun _ => behaviour (edge ε) ε Q) ∧ Explores (edge ε) ε fun _ => behaviour (edge ε) ε Q :=
  ⟨behaviour_valid _ ε h0 h1 B Q hQ, behaviour_explores _ ε h1 Q⟩

end Verif.SarsaIteration
