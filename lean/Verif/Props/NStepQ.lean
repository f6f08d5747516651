import Mathlib.Tactic.Linarith
import Mathlib.Tactic.Ring
import Mathlib.Tactic.FieldSimp
import Mathlib.Algebra.Order.Archimedean.Basic
import Verif.Spec.OnPolicy
import Verif.Props.OnPolicy
set_option autoImplicit false
set_option linter.unusedSectionVars false

/-! # C140: multi-step Q-learning targets: optimal for greedy data, between the behaviour's values and the optimal ones otherwise -/

namespace Verif.MDP
open Targets ActionValue
variable {S K : Type} [Field K] [LinearOrder K] [IsStrictOrderedRing K]

/-- The replay buffer's entry for a path. -/
def entry (l : List (Exp S K)) : List (Transition S Nat K) := l.map fun e => transition e.state e.action e.out

/-- The table meets, on average over the paths that begin with each action and go on with the behaviour policy `p`, the targets that DQN computes from it for multi-step
entries; the length of the entries may depend on the state and the action. -/
def MeetsReplay (env : Env S K) (gamma : K) (p : S → Nat → K) (len : S → Nat → Nat) (Q : S → List K) : Prop :=
  ∀ s a, a < env.nA → ∃ y : List (Exp S K) → K,
    (∀ x ∈ paths env p (len s a) s a, ∃ b, batchExperiences id gamma [entry x.2] = .ok b ∧ dqn Q b = [y x.2]) ∧
    evaluate (Q s) a = expect (paths env p (len s a) s a) y

/-- The same for the targets of NSQ, which bootstraps rollouts with the largest action value. -/
def MeetsNsq (env : Env S K) (gamma : K) (p : S → Nat → K) (len : S → Nat → Nat) (Q : S → List K) : Prop :=
  ∀ s a, a < env.nA → evaluate (Q s) a = expect (paths env p (len s a) s a) (a3cTarget gamma fun s => maxQ (Q s))

/-- DQN's target of a path. -/
def replayTarget (gamma : K) (V : S → K) (l : List (Exp S K)) : K :=
  nStepTarget gamma (entry l) (match l.getLast? with | none => 0 | some e => V e.out.next)

theorem replay_lambda (gamma : K) (V : S → K) : Lambda gamma 1 V (replayTarget gamma V) where
  one e := by
    simp only [replayTarget, entry, List.map_cons, List.map_nil, List.getLast?_singleton]
    exact single_target gamma _ _ _ _
  more e f l he _ := by
    simp only [replayTarget, entry, List.map_cons, List.getLast?_cons_cons, nStepTarget, discounted, List.length_cons, List.mem_cons, exists_eq_or_imp]
    have : (transition e.state e.action e.out).terminal = false := he
    rw [this]
    simp only [Bool.false_eq_true, false_or]
    have hr : (transition e.state e.action e.out).reward = e.out.reward := rfl
    rw [hr]
    split <;> ring

theorem replay_target (env : Env S K) (gamma B : K) (Q : S → List K) (hQ : Table env B Q) (l : List (Exp S K)) (hl : l ≠ []) (b : ExpBatch S Nat K)
    (hb : batchExperiences id gamma [entry l] = .ok b) (y : K) (hy : dqn Q b = [y]) : y = replayTarget gamma (fun s => maxQ (Q s)) l := by
  have h := C44_dqn id gamma _ b hb Q (row_ne env B Q hQ)
  rw [hy] at h
  obtain ⟨e₀, h0⟩ : ∃ e, l.head? = some e := by
    cases l with
    | nil => exact absurd rfl hl
    | cons a l => exact ⟨a, rfl⟩
  obtain ⟨e, he⟩ : ∃ e, l.getLast? = some e := ⟨_, List.getLast?_eq_some_getLast hl⟩
  obtain ⟨y', h1, v, h2, h3⟩ := h.2 0 (entry l) (transition e₀.state e₀.action e₀.out) (transition e.state e.action e.out) rfl
    (by simp [entry, h0]) (by simp [entry, he])
  simp at h1
  subst h1
  rw [h3, replayTarget, he]
  congr 1
  exact isMax_unique h2 (C64_max _ (row_ne env B Q hQ _))

theorem meets_lambda (env : Env S K) (gamma B : K) (p : S → Nat → K) (len : S → Nat → Nat) (Q : S → List K) (hQ : Table env B Q)
    (h : MeetsReplay env gamma p len Q ∨ MeetsNsq env gamma p len Q) :
    ∃ G, Lambda gamma 1 (fun s => maxQ (Q s)) G ∧ ∀ s a, a < env.nA → evaluate (Q s) a = expect (paths env p (len s a) s a) G := by
  rcases h with h | h
  · refine ⟨_, replay_lambda gamma _, fun s a ha => ?_⟩
    obtain ⟨y, h1, h2⟩ := h s a ha
    rw [h2]
    refine expect_congr _ _ _ (fun x hx => ?_)
    obtain ⟨b, hb, hy⟩ := h1 x hx
    obtain ⟨e, l, hl, -⟩ := paths_head env p _ _ _ x hx
    exact replay_target env gamma B Q hQ x.2 (by rw [hl]; simp) b hb _ hy
  · exact ⟨_, a3c_lambda gamma _, h⟩

/-! ## Bounds of expected targets -/

section
variable (env : Env S K) (he : env.Valid) (p : S → Nat → K) (hp : ∀ s, IsProbs env (p s)) (gamma : K) (hg : 0 ≤ gamma) (hg1 : gamma < 1)
include he hp hg hg1

/-- Expected targets are monotone: comparison with values `W` that dominate what they imply. -/
theorem target_le {V : S → K} {G : List (Exp S K) → K} (hG : Lambda gamma 1 V G) (W : S → Nat → K) (U : S → K)
    (hW : ∀ s a, a < env.nA → backup env gamma U s a ≤ W s a) (hU : ∀ s, expect (choices env (p s)) (W s) ≤ U s) (δ : K) (hδ0 : 0 ≤ δ)
    (hV : ∀ s, V s ≤ U s + δ) (n : Nat) : ∀ s a, a < env.nA → expect (paths env p n s a) G ≤ W s a + gamma * δ := by
  have key : ∀ (X : S → K), (∀ s, X s ≤ U s + δ) → ∀ s a, a < env.nA →
      expect (env.outcomes s a) (fun o => o.reward + if o.done then 0 else gamma * X o.next) ≤ W s a + gamma * δ := by
    intro X hX s a ha
    refine le_trans ?_ (add_le_add_left (hW s a ha) _)
    unfold backup
    rw [← expect_add _ (he s a ha)]
    refine expect_mono _ (he s a ha) _ _ (fun x _ => ?_)
    cases x.2.done with
    | true => simpa using mul_nonneg hg hδ0
    | false =>
      simp only [Bool.false_eq_true, if_false]
      have := mul_le_mul_of_nonneg_left (hX x.2.next) hg
      linarith
  induction n with
  | zero =>
    intro s a ha
    rw [expected_lambda_zero env p hG]
    exact key V hV s a ha
  | succ n ih =>
    intro s a ha
    rw [expected_lambda env p he hp hG]
    refine le_trans (le_of_eq ?_) (key (fun s => expect (choices env (p s)) fun a' => expect (paths env p n s a') G) (fun s => ?_) s a ha)
    · refine expect_congr _ _ _ (fun x _ => ?_)
      split <;> ring
    · have := expect_mono _ (choices_dist env (hp s)) (fun a' => expect (paths env p n s a') G) (fun a' => W s a' + gamma * δ)
        (fun x hx => ih s _ (mem_choices env hx).1)
      rw [expect_add _ (choices_dist env (hp s))] at this
      have h2 := hU s
      nlinarith

theorem target_ge {V : S → K} {G : List (Exp S K) → K} (hG : Lambda gamma 1 V G) (W : S → Nat → K) (hW : ValuesOf env gamma p W) (δ : K) (hδ0 : 0 ≤ δ)
    (hV : ∀ s, stateValue env p W s ≤ V s + δ) (n : Nat) : ∀ s a, a < env.nA → W s a ≤ expect (paths env p n s a) G + gamma * δ := by
  have key : ∀ (X : S → K), (∀ s, stateValue env p W s ≤ X s + δ) → ∀ s a, a < env.nA →
      W s a ≤ expect (env.outcomes s a) (fun o => o.reward + if o.done then 0 else gamma * X o.next) + gamma * δ := by
    intro X hX s a ha
    rw [hW s a ha, ← expect_add _ (he s a ha)]
    refine expect_mono _ (he s a ha) _ _ (fun x _ => ?_)
    cases x.2.done with
    | true => simpa using mul_nonneg hg hδ0
    | false =>
      simp only [Bool.false_eq_true, if_false]
      have := mul_le_mul_of_nonneg_left (hX x.2.next) hg
      linarith
  induction n with
  | zero =>
    intro s a ha
    rw [expected_lambda_zero env p hG]
    exact key V hV s a ha
  | succ n ih =>
    intro s a ha
    rw [expected_lambda env p he hp hG]
    refine le_trans (key (fun s => expect (choices env (p s)) fun a' => expect (paths env p n s a') G) (fun s => ?_) s a ha) (le_of_eq ?_)
    · have := expect_mono _ (choices_dist env (hp s)) (W s) (fun a' => expect (paths env p n s a') G + gamma * δ)
        (fun x hx => ih s _ (mem_choices env hx).1)
      rw [expect_add _ (choices_dist env (hp s))] at this
      unfold stateValue
      nlinarith
    · congr 1
      refine expect_congr _ _ _ (fun x _ => ?_)
      split <;> ring

omit he hp in
theorem le_of_geometric [Archimedean K] {x c : K} (h : ∀ k : Nat, x ≤ gamma ^ k * c) : x ≤ 0 := by
  by_contra hx
  rw [not_le] at hx
  have hc : 0 < c := by have := h 0; simp at this; linarith
  obtain ⟨k, hk⟩ := exists_pow_lt_of_lt_one (div_pos hx hc) hg1
  have := h k
  rw [lt_div_iff₀ hc] at hk
  linarith

/-- C140, bounds: whatever the behaviour policy of the data and the lengths of the entries, a table that meets its multi-step targets never exceeds the optimal action
values `Qs`, and is never below the values of the behaviour policy. -/
theorem C140_bounds [Archimedean K] (len : S → Nat → Nat) (Q : S → List K) (B : K) (hQ : Table env B Q)
    (h : MeetsReplay env gamma p len Q ∨ MeetsNsq env gamma p len Q) :
    (∀ (Qs : S → List K) (Bs : K), Table env Bs Qs → MeetsTargets env gamma dqn Qs → ∀ s a, a < env.nA → evaluate (Q s) a ≤ evaluate (Qs s) a) ∧
    ∀ (Qp : S → Nat → K) (Bp : K), ValuesOf env gamma p Qp → (∀ s a, a < env.nA → |Qp s a| ≤ Bp) → ∀ s a, a < env.nA → Qp s a ≤ evaluate (Q s) a := by
  obtain ⟨G, hG, hm⟩ := meets_lambda env gamma B p len Q hQ h
  have hbound : ∀ s a, a < env.nA → |evaluate (Q s) a| ≤ B := by
    intro s a ha
    have hl : a < (Q s).length := by rw [(hQ.2 s).1]; exact ha
    have e : evaluate (Q s) a = (Q s)[a] := by simp [evaluate, hl]
    rw [e]; exact (hQ.2 s).2 _ (List.getElem_mem _)
  constructor
  · intro Qs Bs hQs hs
    have hb := dqn_backup env gamma Bs Qs Qs hQs hs
    have hboundS : ∀ s a, a < env.nA → |evaluate (Qs s) a| ≤ Bs := by
      intro s a ha
      have hl : a < (Qs s).length := by rw [(hQs.2 s).1]; exact ha
      have e : evaluate (Qs s) a = (Qs s)[a] := by simp [evaluate, hl]
      rw [e]; exact (hQs.2 s).2 _ (List.getElem_mem _)
    have hc : ∀ s a, a < env.nA → 0 ≤ B + Bs := fun s a ha => add_nonneg (le_trans (abs_nonneg _) (hbound s a ha)) (le_trans (abs_nonneg _) (hboundS s a ha))
    have hk : ∀ k : Nat, ∀ s a, a < env.nA → evaluate (Q s) a ≤ evaluate (Qs s) a + gamma ^ k * (B + Bs) := by
      intro k
      induction k with
      | zero =>
        intro s a ha
        have h1 := abs_le.1 (hbound s a ha)
        have h2 := abs_le.1 (hboundS s a ha)
        simp only [pow_zero, one_mul]
        linarith [h1.2, h2.1]
      | succ k ih =>
        intro s a ha
        rw [hm s a ha, pow_succ', mul_assoc]
        refine target_le env he p hp gamma hg hg1 hG (fun s a => evaluate (Qs s) a) (fun s => maxQ (Qs s)) (fun s a ha => (hb s a ha).ge) (fun s => ?_) _
          (mul_nonneg (pow_nonneg hg _) (hc s a ha)) (fun s => ?_) (len s a) s a ha
        · have := expect_mono _ (choices_dist env (hp s)) (evaluate (Qs s)) (fun _ => maxQ (Qs s)) (fun x hx => evaluate_le env Bs Qs hQs s _ (mem_choices env hx).1)
          rwa [expect_const _ (choices_dist env (hp s))] at this
        · have h1 := ih s _ (greedy_lt env B Q hQ s)
          have h2 := evaluate_le env Bs Qs hQs s _ (greedy_lt env B Q hQ s)
          have h3 : maxQ (Q s) = evaluate (Q s) (greedy (Q s)) := rfl
          show maxQ (Q s) ≤ _
          linarith
    intro s a ha
    have := le_of_geometric gamma hg hg1 (x := evaluate (Q s) a - evaluate (Qs s) a) (c := B + Bs) (fun k => by linarith [hk k s a ha])
    linarith
  · intro Qp Bp hQp hBp
    have hc : ∀ s a, a < env.nA → 0 ≤ B + Bp := fun s a ha => add_nonneg (le_trans (abs_nonneg _) (hbound s a ha)) (le_trans (abs_nonneg _) (hBp s a ha))
    have hk : ∀ k : Nat, ∀ s a, a < env.nA → Qp s a ≤ evaluate (Q s) a + gamma ^ k * (B + Bp) := by
      intro k
      induction k with
      | zero =>
        intro s a ha
        have h1 := abs_le.1 (hbound s a ha)
        have h2 := abs_le.1 (hBp s a ha)
        simp only [pow_zero, one_mul]
        linarith [h1.1, h2.2]
      | succ k ih =>
        intro s a ha
        rw [hm s a ha, pow_succ', mul_assoc]
        refine target_ge env he p hp gamma hg hg1 hG Qp hQp _ (mul_nonneg (pow_nonneg hg _) (hc s a ha)) (fun s => ?_) (len s a) s a ha
        have := expect_mono _ (choices_dist env (hp s)) (Qp s) (fun _ => maxQ (Q s) + gamma ^ k * (B + Bp)) (fun x hx => by
          have h1 := ih s _ (mem_choices env hx).1
          have h2 := evaluate_le env B Q hQ s _ (mem_choices env hx).1
          linarith)
        rwa [expect_const _ (choices_dist env (hp s))] at this
    intro s a ha
    have := le_of_geometric gamma hg hg1 (x := Qp s a - evaluate (Q s) a) (c := B + Bp) (fun k => by linarith [hk k s a ha])
    linarith

end

/-! ## Greedy data -/

/-- The value of an action after `j` steps of the policy `p` from the table. -/
def iter (env : Env S K) (gamma : K) (p : S → Nat → K) (Q : S → Nat → K) : Nat → S → Nat → K
  | 0 => Q
  | j + 1 => fun s a => expect (env.outcomes s a) fun o => o.reward + if o.done then 0 else gamma * stateValue env p (iter env gamma p Q j) o.next

section
variable (env : Env S K) (he : env.Valid) (p : S → Nat → K) (hp : ∀ s, IsProbs env (p s)) (gamma : K) (hg : 0 ≤ gamma) (hg1 : gamma < 1)
include he hp hg

theorem step_close (X Y : S → Nat → K) (δ : K) (hδ : ∀ s a, a < env.nA → |X s a - Y s a| ≤ δ) (hδ0 : 0 ≤ δ) (s : S) (a : Nat) (ha : a < env.nA) :
    |(expect (env.outcomes s a) fun o => o.reward + if o.done then 0 else gamma * stateValue env p X o.next) -
      (expect (env.outcomes s a) fun o => o.reward + if o.done then 0 else gamma * stateValue env p Y o.next)| ≤ gamma * δ := by
  refine expect_close _ (he s a ha) _ _ _ (fun x _ => ?_)
  rw [add_sub_add_left_eq_sub]
  cases x.2.done with
  | true => simpa using mul_nonneg hg hδ0
  | false =>
    simp only [Bool.false_eq_true, if_false]
    rw [← mul_sub, abs_mul, abs_of_nonneg hg]
    exact mul_le_mul_of_nonneg_left (expect_close _ (choices_dist env (hp _)) _ _ _ fun x' hx' => hδ _ _ (mem_choices env hx').1) hg

theorem iter_close (Q : S → Nat → K) (j : Nat) (δ : K) (hδ0 : 0 ≤ δ) (hδ : ∀ s a, a < env.nA → |iter env gamma p Q j s a - Q s a| ≤ δ) (i : Nat) :
    ∀ s a, a < env.nA → |iter env gamma p Q (j + i) s a - iter env gamma p Q i s a| ≤ gamma ^ i * δ := by
  induction i with
  | zero => intro s a ha; simpa [iter] using hδ s a ha
  | succ i ih =>
    intro s a ha
    rw [pow_succ', mul_assoc]
    exact step_close env he p hp gamma hg _ _ _ ih (mul_nonneg (pow_nonneg hg _) hδ0) s a ha

include hg1 in
/-- C140, greedy data: if the data's later actions are greedy for the table (exploration aside, those of an agent that acts on its newest values), a table that meets its
multi-step targets holds the optimal values, for entries of any lengths. -/
theorem C140_greedy [Archimedean K] (len : S → Nat → Nat) (Q : S → List K) (B R : K) (hQ : Table env B Q)
    (hR : ∀ s a, a < env.nA → ∀ x ∈ env.outcomes s a, |x.2.reward| ≤ R)
    (hgr : ∀ s a, a < env.nA → p s a ≠ 0 → evaluate (Q s) a = maxQ (Q s)) (h : MeetsReplay env gamma p len Q ∨ MeetsNsq env gamma p len Q) :
    Optimal env gamma B (fun s => maxQ (Q s)) (fun s => greedy (Q s)) ∧
    ∀ s a, a < env.nA → evaluate (Q s) a = backup env gamma (fun s => maxQ (Q s)) s a := by
  obtain ⟨G, hG, hm⟩ := meets_lambda env gamma B p len Q hQ h
  let q : S → Nat → K := fun s a => evaluate (Q s) a
  have hq : ∀ s a, q s a = evaluate (Q s) a := fun _ _ => rfl
  have hbound : ∀ s a, a < env.nA → |q s a| ≤ B := by
    intro s a ha
    have hl : a < (Q s).length := by rw [(hQ.2 s).1]; exact ha
    have e : q s a = (Q s)[a] := by simp [q, evaluate, hl]
    rw [e]; exact (hQ.2 s).2 _ (List.getElem_mem _)
  have hsv : ∀ s, stateValue env p q s = maxQ (Q s) := by
    intro s
    unfold stateValue
    have hd := choices_dist env (hp s)
    rw [← expect_const _ hd (maxQ (Q s))]
    unfold expect
    congr 1
    refine List.map_congr_left (fun x hx => ?_)
    obtain ⟨h1, h2⟩ := mem_choices env hx
    by_cases h0 : p s x.2 = 0
    · rw [h2, h0, zero_mul, zero_mul]
    · rw [hq, hgr s _ h1 h0]
  -- the expected targets are iterates
  have hpaths : ∀ n s a, a < env.nA → expect (paths env p n s a) G = iter env gamma p q (n + 1) s a := by
    intro n
    induction n with
    | zero =>
      intro s a ha
      rw [expected_lambda_zero env p hG, iter]
      refine expect_congr _ _ _ (fun x _ => ?_)
      simp only [iter, hsv]
    | succ n ih =>
      intro s a ha
      rw [expected_lambda env p he hp hG, iter]
      refine expect_congr _ _ _ (fun x _ => ?_)
      have : stateValue env p (iter env gamma p q (n + 1)) x.2.next = expect (choices env (p x.2.next)) fun a' => expect (paths env p n x.2.next a') G :=
        expect_congr _ _ _ (fun x' hx' => (ih _ _ (mem_choices env hx').1).symm)
      rw [this]
      split <;> ring
  have hfix : ∀ s a, a < env.nA → q s a = iter env gamma p q (len s a + 1) s a := fun s a ha => (hm s a ha).trans (hpaths _ s a ha)
  -- a bound for all iterates
  have hone : ∀ s a, a < env.nA → iter env gamma p q 1 s a = q s a := by
    intro s₀ a₀ ha₀
    have hB0 : 0 ≤ B := le_trans (abs_nonneg _) (hbound s₀ a₀ ha₀)
    have hc1 : ∀ s a, a < env.nA → |iter env gamma p q 1 s a - q s a| ≤ R + gamma * B + B := by
      intro s a ha
      have h1 : |iter env gamma p q 1 s a| ≤ R + gamma * B := by
        have := expect_close _ (he s a ha) (fun o => o.reward + if o.done then 0 else gamma * stateValue env p q o.next) (fun _ => 0) (R + gamma * B) (fun x hx => by
          rw [sub_zero]
          refine (abs_add_le _ _).trans (add_le_add (hR s a ha x hx) ?_)
          split
          · simpa using mul_nonneg hg hB0
          · rw [abs_mul, abs_of_nonneg hg, hsv]
            exact mul_le_mul_of_nonneg_left (max_bound env B Q hQ _) hg)
        rwa [expect_const _ (he s a ha), sub_zero] at this
      have h2 := abs_sub (iter env gamma p q 1 s a) (q s a)
      have h3 := hbound s a ha
      linarith
    have hc0 : 0 ≤ R + gamma * B + B := le_trans (abs_nonneg _) (hc1 s₀ a₀ ha₀)
    have h1g : 0 < 1 - gamma := by linarith
    obtain ⟨D, hD⟩ : ∃ D, D = (R + gamma * B + B) / (1 - gamma) := ⟨_, rfl⟩
    have hD0 : 0 ≤ D := by rw [hD]; exact div_nonneg hc0 h1g.le
    have hDeq : gamma * D + (R + gamma * B + B) = D := by rw [hD]; field_simp; ring
    have hstart : ∀ j s a, a < env.nA → |iter env gamma p q j s a - q s a| ≤ D := by
      intro j
      induction j with
      | zero => intro s a _; simpa [iter] using hD0
      | succ j ih =>
        intro s a ha
        have h1 := iter_close env he p hp gamma hg q j D hD0 ih 1 s a ha
        rw [pow_one] at h1
        have h2 := abs_sub_le (iter env gamma p q (j + 1) s a) (iter env gamma p q 1 s a) (q s a)
        have h3 := hc1 s a ha
        linarith
    have hshrink : ∀ k : Nat, ∀ j s a, a < env.nA → |iter env gamma p q j s a - q s a| ≤ gamma ^ k * D := by
      intro k
      induction k with
      | zero => simpa using hstart
      | succ k ih =>
        intro j s a ha
        have hk0 : 0 ≤ gamma ^ k * D := mul_nonneg (pow_nonneg hg _) hD0
        have hle : ∀ i : Nat, gamma ^ (i + 1) * (gamma ^ k * D) ≤ gamma ^ (k + 1) * D := by
          intro i
          rw [pow_succ', pow_succ', mul_assoc, mul_assoc]
          refine mul_le_mul_of_nonneg_left ?_ hg
          exact mul_le_of_le_one_left hk0 (pow_le_one₀ hg hg1.le)
        cases j with
        | zero => simpa [iter] using mul_nonneg (pow_nonneg hg (k + 1)) hD0
        | succ j =>
          rw [hfix s a ha]
          rcases Nat.le_total (j + 1) (len s a + 1) with hjl | hjl
          · obtain ⟨d, hd⟩ := Nat.exists_eq_add_of_le' hjl
            rw [hd, abs_sub_comm]
            exact (iter_close env he p hp gamma hg q d _ hk0 (ih d) (j + 1) s a ha).trans (hle j)
          · obtain ⟨d, hd⟩ := Nat.exists_eq_add_of_le' hjl
            rw [hd]
            exact (iter_close env he p hp gamma hg q d _ hk0 (ih d) (len s a + 1) s a ha).trans (hle _)
    have := le_of_geometric gamma hg hg1 (fun k => hshrink k 1 s₀ a₀ ha₀)
    exact sub_eq_zero.1 (abs_eq_zero.1 (le_antisymm this (abs_nonneg _)))
  have hb : ∀ s a, a < env.nA → evaluate (Q s) a = backup env gamma (fun s => maxQ (Q s)) s a := by
    intro s a ha
    rw [← hq, ← hone s a ha, iter]
    refine expect_congr _ _ _ (fun x _ => ?_)
    simp only [iter, hsv]
  refine ⟨optimal_of_targets env he gamma B hg Q hQ ?_ ?_, hb⟩
  · intro s a ha
    rw [← hb s a ha]; exact evaluate_le env B Q hQ s a ha
  · intro s
    rw [← hb s _ (greedy_lt env B Q hQ s)]; rfl

end

/-! ## Other data -/

/-- Two states: in `true` both actions lead to `false` without reward; there action 0 gives 1, action 1 gives 0, and the episode ends. -/
def corridor : Env Bool ℚ where
  nA := 2
  outcomes s a := match s with
    | true => [(1, ⟨0, false, false⟩)]
    | false => [(1, ⟨if a = 0 then 1 else 0, false, true⟩)]

/-- The table that two-step entries of a uniformly random policy teach. -/
def corridorQ : Bool → List ℚ
  | true => [1 / 4, 1 / 4]
  | false => [1, 0]

/-- The target that DQN computes for a path. -/
def corridorTarget (l : List (Exp Bool ℚ)) : ℚ :=
  match batchExperiences id (1 / 2) [entry l] with
  | .ok b => (dqn corridorQ b).headD 0
  | .error _ => 0

/-- C140, other data: with a behaviour policy that also explores, tables that meet their two-step targets need not be optimal: the best return in the first state is 1/2, but
the table that meets the targets says 1/4. -/
theorem C140_not_optimal :
    corridor.Valid ∧ (∀ s, IsProbs corridor ((fun _ _ => 1 / 2 : Bool → Nat → ℚ) s)) ∧ Table corridor 1 corridorQ ∧
    MeetsReplay corridor (1 / 2) (fun _ _ => 1 / 2) (fun _ _ => 1) corridorQ ∧ MeetsNsq corridor (1 / 2) (fun _ _ => 1 / 2) (fun _ _ => 1) corridorQ ∧
    (∀ n h, ret corridor (1 / 2) (fun _ _ => [(1, 0)]) (n + 2) h true = 1 / 2) ∧ maxQ (corridorQ true) = 1 / 4 := by
  have hnA : corridor.nA = 2 := rfl
  refine ⟨?_, ?_, ⟨by decide, ?_⟩, ?_, ?_, ?_, by decide +kernel⟩
  · intro s a _
    cases s <;> exact ⟨by simp [corridor], by simp [corridor]⟩
  · intro s
    exact ⟨fun a _ => by norm_num, by rw [hnA]; cases s <;> decide +kernel⟩
  · intro s
    cases s <;> refine ⟨rfl, ?_⟩ <;> intro x hx <;> simp [corridorQ] at hx
    · rcases hx with rfl | rfl <;> norm_num
    · rw [hx, abs_of_pos] <;> norm_num
  · intro s a ha
    rw [hnA] at ha
    refine ⟨corridorTarget, fun x hx => ?_, ?_⟩
    · have : ∀ s : Bool, ∀ a : Fin 2, (paths corridor (fun _ _ => 1 / 2) 1 s a).all (fun x => match batchExperiences id (1 / 2) [entry x.2] with
          | .ok b => dqn corridorQ b == [(dqn corridorQ b).headD 0]
          | .error _ => false) = true := by decide +kernel
      have := List.all_eq_true.1 (this s ⟨a, ha⟩) x hx
      unfold corridorTarget
      split at this
      · rename_i b hb
        exact ⟨b, hb, beq_iff_eq.1 this⟩
      · exact absurd this (by simp)
    · have : ∀ s : Bool, ∀ a : Fin 2, evaluate (corridorQ s) a = expect (paths corridor (fun _ _ => 1 / 2) 1 s a) corridorTarget := by decide +kernel
      exact this s ⟨a, ha⟩
  · intro s a ha
    rw [hnA] at ha
    have : ∀ s : Bool, ∀ a : Fin 2, evaluate (corridorQ s) a =
      expect (paths corridor (fun _ _ => 1 / 2) 1 s a) (a3cTarget (1 / 2) fun s => maxQ (corridorQ s)) := by decide +kernel
    exact this s ⟨a, ha⟩
  · intro n h
    simp [ret, expect, corridor]

/-! ## An instance of the hypotheses for greedy data: the policy that always takes action 0, entries of two steps in the first state and one in the other -/

/-- The optimal table. -/
def corridorBest : Bool → List ℚ
  | true => [1 / 2, 1 / 2]
  | false => [1, 0]

example : Table corridor 1 corridorBest ∧ (∀ s, IsProbs corridor ((fun _ a => if a = 0 then 1 else 0 : Bool → Nat → ℚ) s)) ∧
    (∀ s a, a < corridor.nA → ∀ x ∈ corridor.outcomes s a, |x.2.reward| ≤ 1) ∧
    (∀ s a, a < corridor.nA → (if a = 0 then (1 : ℚ) else 0) ≠ 0 → evaluate (corridorBest s) a = maxQ (corridorBest s)) ∧
    MeetsNsq corridor (1 / 2) (fun _ a => if a = 0 then 1 else 0) (fun s _ => if s then 1 else 0) corridorBest := by
  have hnA : corridor.nA = 2 := rfl
  refine ⟨⟨by decide, ?_⟩, ?_, ?_, ?_, ?_⟩
  · intro s
    cases s <;> refine ⟨rfl, ?_⟩ <;> intro x hx <;> simp [corridorBest] at hx
    · rcases hx with rfl | rfl <;> norm_num
    · rw [hx, abs_of_pos] <;> norm_num
  · intro s
    refine ⟨fun a _ => by dsimp only; split <;> norm_num, by rw [hnA]; cases s <;> decide +kernel⟩
  · intro s a _ x hx
    cases s <;> simp [corridor] at hx <;> subst hx
    · dsimp only; split <;> norm_num
    · norm_num
  · intro s a ha h0
    have ha0 : a = 0 := by by_contra h; simp [h] at h0
    subst ha0
    cases s <;> decide +kernel
  · intro s a ha
    rw [hnA] at ha
    have : ∀ s : Bool, ∀ a : Fin 2, evaluate (corridorBest s) a =
      expect (paths corridor (fun _ a => if a = 0 then 1 else 0) (if s then 1 else 0) s a) (a3cTarget (1 / 2) fun s => maxQ (corridorBest s)) := by decide +kernel
    exact this s ⟨a, ha⟩

end Verif.MDP
