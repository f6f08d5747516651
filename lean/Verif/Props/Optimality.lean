import Mathlib.Tactic.Linarith
import Mathlib.Tactic.Ring
import Mathlib.Tactic.LinearCombination
import Mathlib.Tactic.NormNum
import Mathlib.Algebra.Order.BigOperators.Group.List
import Mathlib.Algebra.BigOperators.Ring.List
import Verif.Spec.Optimality
import Verif.Props.Targets
set_option autoImplicit false
set_option linter.unusedSectionVars false

/-! # C135: networks that meet their own targets have the optimal values -/

namespace Verif.MDP
open ActionValue Targets
variable {S K α : Type} [Field K] [LinearOrder K] [IsStrictOrderedRing K]

theorem expect_mono (l : List (K × α)) (hl : IsDist l) (f g : α → K) (h : ∀ x ∈ l, f x.2 ≤ g x.2) : expect l f ≤ expect l g :=
  List.sum_le_sum fun x hx => mul_le_mul_of_nonneg_left (h x hx) (hl.1 x hx)

theorem expect_affine (l : List (K × α)) (f : α → K) (a c : K) : expect l (fun x => a * f x + c) = a * expect l f + c * (l.map Prod.fst).sum := by
  unfold expect
  induction l with
  | nil => simp
  | cons x l ih => simp only [List.map_cons, List.sum_cons, ih]; ring

theorem expect_add (l : List (K × α)) (hl : IsDist l) (f : α → K) (c : K) : expect l (fun x => f x + c) = expect l f + c := by
  have := expect_affine l f 1 c
  rw [hl.2] at this
  simpa using this

theorem expect_const (l : List (K × α)) (hl : IsDist l) (c : K) : expect l (fun _ => c) = c := by
  have := expect_affine l (fun _ => (0 : K)) 0 c
  rw [hl.2] at this
  simpa using this

theorem expect_congr (l : List (K × α)) (f g : α → K) (h : ∀ x ∈ l, f x.2 = g x.2) : expect l f = expect l g := by
  unfold expect
  congr 1
  exact List.map_congr_left fun x hx => by rw [h x hx]

/-- The value of an action by one step of lookahead. -/
def backup (env : Env S K) (gamma : K) (V : S → K) (s : S) (a : Nat) : K :=
  expect (env.outcomes s a) fun o => o.reward + if o.done then 0 else gamma * V o.next

/-- All rewards and successors have probabilities. -/
def Env.Valid (env : Env S K) : Prop := ∀ s a, a < env.nA → IsDist (env.outcomes s a)

/-- The optimality equation suffices. -/
theorem optimal_of_backup (env : Env S K) (he : env.Valid) (gamma B : K) (hg0 : 0 ≤ gamma) (V : S → K) (hB : ∀ s, |V s| ≤ B)
    (g : S → Nat) (hg : ∀ s, g s < env.nA) (h1 : ∀ s a, a < env.nA → backup env gamma V s a ≤ V s) (h2 : ∀ s, backup env gamma V s (g s) = V s) :
    Optimal env gamma B V g := by
  constructor
  · intro π hπ n
    induction n with
    | zero =>
      intro h s
      have := (abs_le.1 (hB s)).1
      simp only [ret, pow_zero, one_mul]; linarith
    | succ n ih =>
      intro h s
      simp only [ret]
      obtain ⟨hd, hA⟩ := hπ h s
      have hc : 0 ≤ gamma ^ (n + 1) * B := mul_nonneg (pow_nonneg hg0 _) (le_trans (abs_nonneg _) (hB s))
      refine (expect_mono _ hd _ (fun _ => V s + gamma ^ (n + 1) * B) ?_).trans (le_of_eq (expect_const _ hd _))
      intro x hx
      have hx' := hA x hx
      have hdist := he s x.2 hx'
      refine le_trans (expect_mono _ hdist _ (fun o => (o.reward + if o.done then 0 else gamma * V o.next) + gamma ^ (n + 1) * B) ?_) ?_
      · intro y _
        cases y.2.done with
        | true => simp only [if_true]; linarith
        | false =>
          simp only [Bool.false_eq_true, if_false]
          have := mul_le_mul_of_nonneg_left (ih (h ++ [(s, x.2)]) y.2.next) hg0
          rw [mul_add, ← mul_assoc, ← pow_succ'] at this
          linarith
      · rw [expect_add _ hdist]
        have := h1 s x.2 hx'
        unfold backup at this
        linarith
  · intro n
    induction n with
    | zero =>
      intro h s
      have := (abs_le.1 (hB s)).2
      simp only [ret, pow_zero, one_mul]; linarith
    | succ n ih =>
      intro h s
      have hdist := he s (g s) (hg s)
      have hc : 0 ≤ gamma ^ (n + 1) * B := mul_nonneg (pow_nonneg hg0 _) (le_trans (abs_nonneg _) (hB s))
      have e1 : ret env gamma (fun _ s => [(1, g s)]) (n + 1) h s = expect (env.outcomes s (g s)) fun o =>
          o.reward + if o.done then 0 else gamma * ret env gamma (fun _ s => [(1, g s)]) n (h ++ [(s, g s)]) o.next := by
        simp [ret, expect]
      rw [e1]
      refine le_trans (b := expect (env.outcomes s (g s)) fun o => (o.reward + if o.done then 0 else gamma * V o.next) + -(gamma ^ (n + 1) * B)) ?_ ?_
      · rw [expect_add _ hdist]
        have := h2 s
        unfold backup at this
        linarith
      · refine expect_mono _ hdist _ _ ?_
        intro y _
        cases y.2.done with
        | true => simp only [if_true]; linarith
        | false =>
          simp only [Bool.false_eq_true, if_false]
          have := mul_le_mul_of_nonneg_left (ih (h ++ [(s, g s)]) y.2.next) hg0
          rw [mul_sub, ← mul_assoc, ← pow_succ'] at this
          linarith

/-- The transition recorded for an outcome. -/
def transition (s : S) (a : Nat) (o : Outcome S K) : Transition S Nat K := ⟨s, a, o.reward, o.next, none, o.done⟩

/-- The table `Q'` fits the targets that an agent computes with the table `Q`: for every state and action, its value is the expected target of the batch that
consists of the one transition. -/
def Fits (env : Env S K) (gamma : K) (target : (S → List K) → ExpBatch S Nat K → List K) (Q Q' : S → List K) : Prop :=
  ∀ s a, a < env.nA → ∃ y : Outcome S K → K,
    (∀ x ∈ env.outcomes s a, ∃ b, batchExperiences id gamma [[transition s a x.2]] = .ok b ∧ target Q b = [y x.2]) ∧
    evaluate (Q' s) a = expect (env.outcomes s a) y

/-- The table meets the targets that an agent computes from it. -/
def MeetsTargets (env : Env S K) (gamma : K) (target : (S → List K) → ExpBatch S Nat K → List K) (Q : S → List K) : Prop := Fits env gamma target Q Q

/-- A table with a row of `nA` values, all between `-B` and `B`, for every state. -/
def Table (env : Env S K) (B : K) (Q : S → List K) : Prop := 0 < env.nA ∧ ∀ s, (Q s).length = env.nA ∧ ∀ x ∈ Q s, |x| ≤ B

section
variable (env : Env S K) (B : K) (Q : S → List K) (hQ : Table env B Q)
include hQ

theorem row_ne (s : S) : Q s ≠ [] := by
  intro h
  have := (hQ.2 s).1
  rw [h] at this
  have := hQ.1
  simp at *; omega

theorem max_bound (s : S) : |maxQ (Q s)| ≤ B := (hQ.2 s).2 _ (C64_max (Q s) (row_ne env B Q hQ s)).1

theorem greedy_lt (s : S) : greedy (Q s) < env.nA := by
  obtain ⟨v, h, -⟩ := C64_greedy (Q s) (row_ne env B Q hQ s)
  have := (List.getElem?_eq_some_iff.1 h).1
  rwa [(hQ.2 s).1] at this

theorem evaluate_le (s : S) (a : Nat) (ha : a < env.nA) : evaluate (Q s) a ≤ maxQ (Q s) := by
  have h := (C64_advantage (Q s) (row_ne env B Q hQ s)).1 a (by rw [(hQ.2 s).1]; exact ha)
  unfold advantage at h
  linarith

end

theorem isMax_unique {l : List K} {u v : K} (hu : IsMaxOf u l) (hv : IsMaxOf v l) : u = v := le_antisymm (hv.2 _ hu.1) (hu.2 _ hv.1)

theorem single_target (gamma : K) (s : S) (a : Nat) (o : Outcome S K) (v : K) :
    nStepTarget gamma [transition s a o] v = o.reward + if o.done then 0 else gamma * v := by
  unfold nStepTarget transition
  cases h : o.done with
  | true => simp [discounted]
  | false => simp [discounted]

/-- What one row of `Rows` says about a batch of one transition. -/
theorem rows_single {P : List (Transition S Nat K) → Transition S Nat K → Transition S Nat K → K → Prop} {t : Transition S Nat K} {y : K}
    (h : Rows [[t]] [y] P) : P [t] t t y := by
  obtain ⟨y', h1, h2⟩ := h.2 0 [t] t t rfl rfl rfl
  simp at h1
  subst h1
  exact h2

/-- What the targets have in common: without the advantage terms they are those of DQN. -/
theorem optimal_of_targets (env : Env S K) (he : env.Valid) (gamma B : K) (hg0 : 0 ≤ gamma) (Q : S → List K) (hQ : Table env B Q)
    (h1 : ∀ s a, a < env.nA → backup env gamma (fun s => maxQ (Q s)) s a ≤ maxQ (Q s))
    (h2 : ∀ s, backup env gamma (fun s => maxQ (Q s)) s (greedy (Q s)) = maxQ (Q s)) :
    Optimal env gamma B (fun s => maxQ (Q s)) (fun s => greedy (Q s)) :=
  optimal_of_backup env he gamma B hg0 _ (max_bound env B Q hQ) _ (greedy_lt env B Q hQ) h1 h2

/-- The backup from targets of the form of DQN. -/
theorem dqn_backup (env : Env S K) (gamma B : K) (Q Q' : S → List K) (hQ : Table env B Q)
    (h : Fits env gamma dqn Q Q') (s : S) (a : Nat) (ha : a < env.nA) : evaluate (Q' s) a = backup env gamma (fun s => maxQ (Q s)) s a := by
  obtain ⟨y, h1, h2⟩ := h s a ha
  rw [h2]
  refine expect_congr _ _ _ (fun x hx => ?_)
  obtain ⟨b, hb, hy⟩ := h1 x hx
  have := C44_dqn id gamma _ b hb Q (row_ne env B Q hQ)
  rw [hy] at this
  obtain ⟨v, hv, hy'⟩ := rows_single this
  rw [hy', single_target, isMax_unique hv (C64_max _ (row_ne env B Q hQ _))]
  rfl

/-- C135, DQN: a bounded table that meets its own one-step targets on average holds the optimal values: `Q s a` is the expected reward of `a` plus the discounted
best possible return, no policy does better than `max Q`, and the greedy one gets it. -/
theorem C135_dqn (env : Env S K) (he : env.Valid) (gamma B : K) (hg0 : 0 ≤ gamma) (Q : S → List K) (hQ : Table env B Q)
    (h : MeetsTargets env gamma dqn Q) :
    Optimal env gamma B (fun s => maxQ (Q s)) (fun s => greedy (Q s)) ∧
    ∀ s a, a < env.nA → evaluate (Q s) a = backup env gamma (fun s => maxQ (Q s)) s a := by
  have hb := dqn_backup env gamma B Q Q hQ h
  refine ⟨optimal_of_targets env he gamma B hg0 Q hQ ?_ ?_, hb⟩
  · intro s a ha
    rw [← hb s a ha]; exact evaluate_le env B Q hQ s a ha
  · intro s
    rw [← hb s _ (greedy_lt env B Q hQ s)]; rfl

/-- C135, Double DQN: the same if both networks are the same table. -/
theorem C135_double_dqn (env : Env S K) (he : env.Valid) (gamma B : K) (hg0 : 0 ≤ gamma) (Q : S → List K) (hQ : Table env B Q)
    (h : MeetsTargets env gamma (fun Q => doubleDqn Q Q) Q) :
    Optimal env gamma B (fun s => maxQ (Q s)) (fun s => greedy (Q s)) ∧
    ∀ s a, a < env.nA → evaluate (Q s) a = backup env gamma (fun s => maxQ (Q s)) s a := by
  refine C135_dqn env he gamma B hg0 Q hQ ?_
  intro s a ha
  obtain ⟨y, h1, h2⟩ := h s a ha
  exact ⟨y, fun x hx => h1 x hx, h2⟩

/-- C135, advantage learning: for `alpha < 1` the greedy values are the optimal ones too, and the gaps between actions are those of the optimal values divided
by `1 - alpha`. -/
theorem C135_al (env : Env S K) (he : env.Valid) (gamma B alpha : K) (hg0 : 0 ≤ gamma) (ha1 : alpha < 1) (Q : S → List K) (hQ : Table env B Q)
    (h : MeetsTargets env gamma (al alpha) Q) :
    Optimal env gamma B (fun s => maxQ (Q s)) (fun s => greedy (Q s)) ∧
    ∀ s a, a < env.nA → maxQ (Q s) - evaluate (Q s) a = (maxQ (Q s) - backup env gamma (fun s => maxQ (Q s)) s a) / (1 - alpha) := by
  have hb : ∀ s a, a < env.nA → evaluate (Q s) a = backup env gamma (fun s => maxQ (Q s)) s a + alpha * advantage (Q s) a := by
    intro s a ha
    obtain ⟨y, h1, h2⟩ := h s a ha
    rw [h2]
    unfold backup
    rw [← expect_add _ (he s a ha)]
    refine expect_congr _ _ _ (fun x hx => ?_)
    obtain ⟨b, hb, hy⟩ := h1 x hx
    have := C44_al id gamma alpha _ b hb Q (row_ne env B Q hQ)
    rw [hy] at this
    obtain ⟨v, hv, hy'⟩ := rows_single this
    rw [hy', single_target, isMax_unique hv (C64_max _ (row_ne env B Q hQ _))]
    rfl
  have hpos : 0 < 1 - alpha := by linarith
  refine ⟨optimal_of_targets env he gamma B hg0 Q hQ ?_ ?_, ?_⟩
  · intro s a ha
    have h1 := hb s a ha
    have h2 := evaluate_le env B Q hQ s a ha
    unfold advantage at h1
    nlinarith
  · intro s
    have h1 := hb s _ (greedy_lt env B Q hQ s)
    rw [(C64_advantage (Q s) (row_ne env B Q hQ s)).2, mul_zero, add_zero] at h1
    exact h1.symm
  · intro s a ha
    rw [eq_div_iff hpos.ne']
    have h1 := hb s a ha
    unfold advantage at h1
    linear_combination h1 * (-1)

/-- C135, persistent advantage learning: for `0 ≤ alpha < 1` the greedy values are the optimal ones. -/
theorem C135_pal (env : Env S K) (he : env.Valid) (gamma B alpha : K) (hg0 : 0 ≤ gamma) (ha0 : 0 ≤ alpha) (ha1 : alpha < 1) (Q : S → List K) (hQ : Table env B Q)
    (h : MeetsTargets env gamma (pal alpha) Q) : Optimal env gamma B (fun s => maxQ (Q s)) (fun s => greedy (Q s)) := by
  have hrow : ∀ s a, a < env.nA → evaluate (Q s) a = expect (env.outcomes s a) fun o =>
      (o.reward + if o.done then 0 else gamma * maxQ (Q o.next)) + alpha * max (advantage (Q s) a) (advantage (Q o.next) a) := by
    intro s a ha
    obtain ⟨y, h1, h2⟩ := h s a ha
    rw [h2]
    refine expect_congr _ _ _ (fun x hx => ?_)
    obtain ⟨b, hb, hy⟩ := h1 x hx
    have := C44_pal_partial id gamma alpha _ b hb Q (row_ne env B Q hQ)
    rw [hy] at this
    obtain ⟨v, hv, hy'⟩ := rows_single this
    rw [hy', single_target, isMax_unique hv (C64_max _ (row_ne env B Q hQ _))]
    rfl
  refine optimal_of_targets env he gamma B hg0 Q hQ ?_ ?_
  · intro s a ha
    have hd := he s a ha
    have h1 := hrow s a ha
    have h2 := evaluate_le env B Q hQ s a ha
    have h3 : backup env gamma (fun s => maxQ (Q s)) s a + alpha * advantage (Q s) a ≤ evaluate (Q s) a := by
      rw [h1]
      unfold backup
      rw [← expect_add _ hd]
      refine expect_mono _ hd _ _ (fun x _ => ?_)
      have := mul_le_mul_of_nonneg_left (le_max_left (advantage (Q s) a) (advantage (Q x.2.next) a)) ha0
      linarith
    unfold advantage at h3
    nlinarith
  · intro s
    have hg := greedy_lt env B Q hQ s
    have h1 := hrow s _ hg
    refine Eq.trans ?_ h1.symm
    unfold backup
    refine expect_congr _ _ _ (fun x _ => ?_)
    have h2 := (C64_advantage (Q x.2.next) (row_ne env B Q hQ _)).1 (greedy (Q s)) (by rw [(hQ.2 _).1]; exact hg)
    rw [(C64_advantage (Q s) (row_ne env B Q hQ s)).2, max_eq_left h2, mul_zero, add_zero]

theorem doublePal_self (alpha : K) : (fun q : S → List K => doublePal (F := S) alpha q q) = pal alpha := by
  funext q b
  simp only [doublePal, pal]
  congr 2

/-- C135, double persistent advantage learning, when the online network equals the target network. -/
theorem C135_double_pal (env : Env S K) (he : env.Valid) (gamma B alpha : K) (hg0 : 0 ≤ gamma) (ha0 : 0 ≤ alpha) (ha1 : alpha < 1) (Q : S → List K)
    (hQ : Table env B Q) (h : MeetsTargets env gamma (fun q => doublePal alpha q q) Q) :
    Optimal env gamma B (fun s => maxQ (Q s)) (fun s => greedy (Q s)) := by
  refine C135_pal env he gamma B alpha hg0 ha0 ha1 Q hQ ?_
  rw [doublePal_self] at h
  exact h

/-! ## Contraction -/

variable {F A : Type}

theorem max_close (p q : List K) (hl : p.length = q.length) (δ : K) (h : ∀ a, a < p.length → |evaluate p a - evaluate q a| ≤ δ) (u v : K)
    (hu : IsMaxOf u p) (hv : IsMaxOf v q) : |u - v| ≤ δ := by
  obtain ⟨i, hi, hiu⟩ := List.mem_iff_getElem.1 hu.1
  obtain ⟨j, hj, hjv⟩ := List.mem_iff_getElem.1 hv.1
  have h1 := abs_le.1 (h i hi)
  have h2 := abs_le.1 (h j (by omega))
  have e1 : evaluate p i = u := by simp [evaluate, hi, hiu]
  have e2 : evaluate q j = v := by simp [evaluate, hj, hjv]
  have e3 : evaluate q i ≤ v := by
    have : evaluate q i = q[i]'(by omega) := by simp [evaluate, show i < q.length by omega]
    rw [this]; exact hv.2 _ (List.getElem_mem _)
  have e4 : evaluate p j ≤ u := by
    have : evaluate p j = p[j]'(by omega) := by simp [evaluate, show j < p.length by omega]
    rw [this]; exact hu.2 _ (List.getElem_mem _)
  rw [abs_le]
  constructor <;> linarith [h1.1, h1.2, h2.1, h2.2]

/-- C135, contraction: if two target networks differ by at most `δ` in every state and action, the targets that DQN computes for an n-step entry of any batch
differ by at most `gamma ^ n * δ`, and not at all if the entry contains a terminal transition. -/
theorem C135_contraction (phi : S → F) (gamma : K) (hg : 0 ≤ gamma) (exps : List (List (Transition S A K))) (b : ExpBatch F A K)
    (hb : batchExperiences phi gamma exps = .ok b) (q q' : F → List K) (hq : ∀ s, q s ≠ []) (hl : ∀ s, (q s).length = (q' s).length) (δ : K)
    (hδ : ∀ s a, a < (q s).length → |evaluate (q s) a - evaluate (q' s) a| ≤ δ) (k : Nat) (e : List (Transition S A K)) (hk : exps[k]? = some e) :
    ∃ y y', (dqn q b)[k]? = some y ∧ (dqn q' b)[k]? = some y' ∧ |y - y'| ≤ gamma ^ e.length * δ ∧ ((∃ t ∈ e, t.terminal = true) → y = y') := by
  obtain ⟨hne, -⟩ := batch_row phi gamma exps b hb
  have hee := hne e (List.mem_of_getElem? hk)
  have hq' : ∀ s, q' s ≠ [] := fun s h => by
    have h1 := hl s
    rw [h] at h1
    exact hq s (List.length_eq_zero_iff.1 h1)
  obtain ⟨t₀, h0⟩ : ∃ t, e.head? = some t := by
    cases e with
    | nil => exact absurd rfl hee
    | cons a l => exact ⟨a, rfl⟩
  obtain ⟨t, ht⟩ : ∃ t, e.getLast? = some t := ⟨e.getLast hee, List.getLast?_eq_some_getLast hee⟩
  obtain ⟨y, hy, v, hv, rfl⟩ := (C44_dqn phi gamma exps b hb q hq).2 k e t₀ t hk h0 ht
  obtain ⟨y', hy', v', hv', rfl⟩ := (C44_dqn phi gamma exps b hb q' hq').2 k e t₀ t hk h0 ht
  have hvv := max_close _ _ (hl _) δ (hδ (phi t.nextState)) v v' hv hv'
  have hδ0 : 0 ≤ δ := le_trans (abs_nonneg _) hvv
  refine ⟨_, _, hy, hy', ?_, ?_⟩
  · unfold nStepTarget
    split
    · simp only [add_zero, sub_self, abs_zero]
      exact mul_nonneg (pow_nonneg hg _) hδ0
    · rw [add_sub_add_left_eq_sub, ← mul_sub, abs_mul, abs_of_nonneg (pow_nonneg hg _)]
      exact mul_le_mul_of_nonneg_left hvv (pow_nonneg hg _)
  · intro hterm
    unfold nStepTarget
    rw [if_pos hterm, if_pos hterm]

/-! ## Fitting the targets again and again -/

/-- The expectations of close functions are close. -/
theorem expect_close (l : List (K × α)) (hl : IsDist l) (f g : α → K) (δ : K) (h : ∀ x ∈ l, |f x.2 - g x.2| ≤ δ) : |expect l f - expect l g| ≤ δ := by
  have h1 := expect_mono l hl f (fun x => g x + δ) (fun x hx => by have := (abs_le.1 (h x hx)).2; linarith)
  have h2 := expect_mono l hl g (fun x => f x + δ) (fun x hx => by have := (abs_le.1 (h x hx)).1; linarith)
  rw [expect_add l hl] at h1 h2
  rw [abs_le]
  constructor <;> linarith

/-- C135, iteration: if each table fits the targets computed with the table before (the target network), the distance to a table that meets its own targets shrinks by
the factor `gamma` each time. -/
theorem C135_iteration (env : Env S K) (he : env.Valid) (gamma B : K) (hg0 : 0 ≤ gamma) (Q : Nat → S → List K) (hQ : ∀ k, ∃ Bk, Table env Bk (Q k))
    (hfit : ∀ k, Fits env gamma dqn (Q k) (Q (k + 1))) (Qs : S → List K) (hQs : Table env B Qs) (hs : MeetsTargets env gamma dqn Qs) (δ : K)
    (h0 : ∀ s a, a < env.nA → |evaluate (Q 0 s) a - evaluate (Qs s) a| ≤ δ) (hδ : 0 ≤ δ) (k : Nat) :
    ∀ s a, a < env.nA → |evaluate (Q k s) a - evaluate (Qs s) a| ≤ gamma ^ k * δ := by
  induction k with
  | zero => simpa using h0
  | succ k ih =>
    intro s a ha
    obtain ⟨Bk, hk⟩ := hQ k
    rw [dqn_backup env gamma Bk _ _ hk (hfit k) s a ha, dqn_backup env gamma B _ _ hQs hs s a ha]
    refine expect_close _ (he s a ha) _ _ _ (fun x _ => ?_)
    rw [add_sub_add_left_eq_sub]
    cases x.2.done with
    | true => simpa using mul_nonneg (pow_nonneg hg0 _) hδ
    | false =>
      simp only [Bool.false_eq_true, if_false]
      rw [← mul_sub, abs_mul, abs_of_nonneg hg0, pow_succ', mul_assoc]
      refine mul_le_mul_of_nonneg_left ?_ hg0
      refine max_close (Q k x.2.next) (Qs x.2.next) ?_ _ ?_ _ _ (C64_max _ (row_ne env Bk _ hk _)) (C64_max _ (row_ne env B _ hQs _))
      · rw [(hk.2 _).1, (hQs.2 _).1]
      · intro a ha
        exact ih _ a (by rwa [(hk.2 _).1] at ha)

/-- C135, approximation: acting greedily by a table that is `ε` away from one that meets its own targets loses at most `2 ε` in each step. -/
theorem C135_approximate (env : Env S K) (he : env.Valid) (gamma B ε : K) (hg0 : 0 ≤ gamma) (Q Qs : S → List K) (Bq : K) (hQ : Table env Bq Q) (hQs : Table env B Qs)
    (hs : MeetsTargets env gamma dqn Qs) (hε : ∀ s a, a < env.nA → |evaluate (Q s) a - evaluate (Qs s) a| ≤ ε) (n : Nat) :
    ∀ h s, maxQ (Qs s) - gamma ^ n * B - ((List.range n).map fun i => gamma ^ i).sum * (2 * ε) ≤ ret env gamma (fun _ s => [(1, greedy (Q s))]) n h s := by
  have hloss : ∀ s, maxQ (Qs s) - 2 * ε ≤ backup env gamma (fun s => maxQ (Qs s)) s (greedy (Q s)) := by
    intro s
    have g1 := greedy_lt env Bq Q hQ s
    have g2 := greedy_lt env B Qs hQs s
    rw [← dqn_backup env gamma B Qs Qs hQs hs s _ g1]
    have e1 := abs_le.1 (hε s _ g1)
    have e2 := abs_le.1 (hε s _ g2)
    have e3 := evaluate_le env Bq Q hQ s _ g2
    have e4 : maxQ (Q s) = evaluate (Q s) (greedy (Q s)) := rfl
    have e5 : maxQ (Qs s) = evaluate (Qs s) (greedy (Qs s)) := rfl
    linarith [e1.1, e1.2, e2.1, e2.2]
  have hgeo : ∀ n, ((List.range (n + 1)).map fun i => gamma ^ i).sum = 1 + gamma * ((List.range n).map fun i => gamma ^ i).sum := by
    intro n
    rw [List.range_succ_eq_map, List.map_cons, List.sum_cons, List.map_map, pow_zero, ← List.sum_map_mul_left]
    congr 3
    funext i
    simp [pow_succ']
  induction n with
  | zero =>
    intro h s
    have := (abs_le.1 (max_bound env B Qs hQs s)).2
    simp only [ret, pow_zero, one_mul, List.range_zero, List.map_nil, List.sum_nil, zero_mul]; linarith
  | succ n ih =>
    intro h s
    have hε0 : 0 ≤ ε := le_trans (abs_nonneg _) (hε s _ (greedy_lt env Bq Q hQ s))
    have hdist := he s _ (greedy_lt env Bq Q hQ s)
    have hB0 : 0 ≤ B := le_trans (abs_nonneg _) (max_bound env B Qs hQs s)
    have hgs : 0 ≤ ((List.range n).map fun i => gamma ^ i).sum := List.sum_nonneg (by
      intro x hx
      obtain ⟨i, -, rfl⟩ := List.mem_map.1 hx
      exact pow_nonneg hg0 i)
    have e1 : ret env gamma (fun _ s => [(1, greedy (Q s))]) (n + 1) h s = expect (env.outcomes s (greedy (Q s))) fun o =>
        o.reward + if o.done then 0 else gamma * ret env gamma (fun _ s => [(1, greedy (Q s))]) n (h ++ [(s, greedy (Q s))]) o.next := by
      simp [ret, expect]
    have hc : 0 ≤ gamma ^ (n + 1) * B + gamma * ((List.range n).map fun i => gamma ^ i).sum * (2 * ε) :=
      add_nonneg (mul_nonneg (pow_nonneg hg0 _) hB0) (mul_nonneg (mul_nonneg hg0 hgs) (by linarith))
    rw [e1, hgeo]
    refine le_trans (b := expect (env.outcomes s (greedy (Q s))) fun o => (o.reward + if o.done then 0 else gamma * maxQ (Qs o.next)) +
      -(gamma ^ (n + 1) * B + gamma * ((List.range n).map fun i => gamma ^ i).sum * (2 * ε))) ?_ ?_
    · rw [expect_add _ hdist]
      have := hloss s
      unfold backup at this
      linarith
    · refine expect_mono _ hdist _ _ ?_
      intro y _
      cases y.2.done with
      | true => simp only [if_true]; linarith
      | false =>
        simp only [Bool.false_eq_true, if_false]
        have := mul_le_mul_of_nonneg_left (ih (h ++ [(s, greedy (Q s))]) y.2.next) hg0
        rw [mul_sub, mul_sub, ← mul_assoc, ← pow_succ', ← mul_assoc] at this
        linarith

/-! ## SARSA -/

/-- The table fits SARSA's targets, for next actions chosen by the policy. -/
def MeetsSarsa (env : Env S K) (gamma : K) (policy : S → List (K × Nat)) (Q : S → List K) : Prop :=
  ∀ s a, a < env.nA → ∃ y : Outcome S K → Nat → K,
    (∀ x ∈ env.outcomes s a, ∀ x' ∈ policy x.2.next, ∃ b, batchExperiences id gamma [[transition s a x.2]] = .ok b ∧ sarsa Q [x'.2] b = [y x.2 x'.2]) ∧
    evaluate (Q s) a = expect (env.outcomes s a) fun o => expect (policy o.next) (y o)

/-- C135, SARSA: a bounded table that meets SARSA's targets on average holds the values of the explorer's policy: the expected return of `n` steps is the expected
value, up to `gamma ^ n * B`. -/
theorem C135_sarsa (env : Env S K) (he : env.Valid) (gamma B : K) (hg0 : 0 ≤ gamma) (policy : S → List (K × Nat))
    (hp : Policy.Valid env fun _ => policy) (Q : S → List K) (hQ : Table env B Q) (h : MeetsSarsa env gamma policy Q) (n : Nat) :
    ∀ hist s, |ret env gamma (fun _ => policy) n hist s - expect (policy s) (evaluate (Q s))| ≤ gamma ^ n * B := by
  have hev : ∀ s a, a < env.nA → |evaluate (Q s) a| ≤ B ∧ (Q s)[a]? = some (evaluate (Q s) a) := by
    intro s a ha
    have hl : a < (Q s).length := by rw [(hQ.2 s).1]; exact ha
    have e : evaluate (Q s) a = (Q s)[a] := by simp [evaluate, hl]
    exact ⟨by rw [e]; exact (hQ.2 s).2 _ (List.getElem_mem _), by rw [e]; exact List.getElem?_eq_getElem hl⟩
  have hb : ∀ s a, a < env.nA → evaluate (Q s) a = backup env gamma (fun s => expect (policy s) (evaluate (Q s))) s a := by
    intro s a ha
    obtain ⟨y, h1, h2⟩ := h s a ha
    rw [h2]
    refine expect_congr _ _ _ (fun x hx => ?_)
    have hd := (hp [] x.2.next).1
    have : ∀ x' ∈ policy x.2.next, y x.2 x'.2 = (if x.2.done then 0 else gamma) * evaluate (Q x.2.next) x'.2 + x.2.reward := by
      intro x' hx'
      obtain ⟨b, hb, hy⟩ := h1 x hx x' hx'
      have ha' := (hp [] x.2.next).2 x' hx'
      have := (C44_sarsa id gamma _ b hb Q [x'.2] rfl).2 0 _ _ x'.2 _ rfl rfl rfl (hev _ _ ha').2
      rw [hy] at this
      simp only [List.getElem?_cons_zero, Option.some.injEq] at this
      rw [this, single_target]
      simp only [transition, id, List.getLast_singleton]
      split <;> ring
    rw [expect_congr _ _ (fun a' => (if x.2.done then 0 else gamma) * evaluate (Q x.2.next) a' + x.2.reward) this, expect_affine, hd.2]
    split <;> ring
  have hB0 : ∀ s : S, 0 ≤ B := fun s => le_trans (abs_nonneg _) (max_bound env B Q hQ s)
  induction n with
  | zero =>
    intro hist s
    simp only [ret, pow_zero, one_mul, zero_sub, abs_neg]
    have hd := (hp [] s)
    have := expect_close (policy s) hd.1 (evaluate (Q s)) (fun _ => 0) B (fun x hx => by
      simpa using (hev s x.2 (hd.2 x hx)).1)
    rwa [expect_const _ hd.1, sub_zero] at this
  | succ n ih =>
    intro hist s
    have hd := hp [] s
    simp only [ret]
    refine expect_close _ hd.1 _ _ _ (fun x hx => ?_)
    rw [hb s x.2 (hd.2 x hx)]
    refine expect_close _ (he s _ (hd.2 x hx)) _ _ _ (fun y _ => ?_)
    rw [add_sub_add_left_eq_sub]
    cases y.2.done with
    | true => simpa using mul_nonneg (pow_nonneg hg0 _) (hB0 s)
    | false =>
      simp only [Bool.false_eq_true, if_false]
      rw [← mul_sub, abs_mul, abs_of_nonneg hg0, pow_succ', mul_assoc]
      exact mul_le_mul_of_nonneg_left (ih _ _) hg0

/-! ## A process and its table -/

/-- One state: action 0 ends the episode with reward 1, action 1 goes on or ends with reward 0, each with probability 1/2. -/
def exEnv : Env Unit ℚ := ⟨2, fun _ a => if a = 0 then [(1, ⟨1, (), true⟩)] else [(1 / 2, ⟨0, (), false⟩), (1 / 2, ⟨0, (), true⟩)]⟩

theorem exEnv_valid : exEnv.Valid := by
  intro s a _
  unfold exEnv IsDist
  by_cases h : a = 0 <;> simp [h] <;> norm_num

example : Table exEnv 1 (fun _ => [1, 1 / 4]) ∧ MeetsTargets exEnv (1 / 2) dqn (fun _ => [1, 1 / 4]) := by
  refine ⟨⟨by decide, fun s => ⟨rfl, ?_⟩⟩, ?_⟩
  · intro x hx
    simp at hx
    rcases hx with rfl | rfl
    · simp
    · rw [abs_of_nonneg] <;> norm_num
  · rintro ⟨⟩ a ha
    refine ⟨fun o => o.reward + if o.done then 0 else 1 / 2 * 1, ?_, ?_⟩
    · intro x hx
      refine ⟨_, rfl, ?_⟩
      have : a = 0 ∨ a = 1 := by
        have : a < 2 := ha
        omega
      rcases this with rfl | rfl
      · simp [exEnv] at hx
        subst hx
        decide +kernel
      · simp [exEnv] at hx
        rcases hx with rfl | rfl <;> decide +kernel
    · have : a = 0 ∨ a = 1 := by
        have : a < 2 := ha
        omega
      rcases this with rfl | rfl
      · simp [exEnv, expect, evaluate]
      · simp [exEnv, expect, evaluate]; norm_num

end Verif.MDP
