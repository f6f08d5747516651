import Mathlib.Tactic.Linarith
import Mathlib.Tactic.Ring
import Mathlib.Tactic.Positivity
import Mathlib.Tactic.FieldSimp
import Verif.Spec.SoftOptimality
import Verif.Props.PCL
import Verif.Props.Distrib
set_option autoImplicit false
set_option linter.unusedSectionVars false

/-! # C136: PCL's loss vanishes exactly at the optimum with an entropy bonus -/

namespace Verif.SoftMDP
open PCL Real
variable {S : Type} {n : Nat}

/-- The value of an action by one step of lookahead. -/
noncomputable def lookahead (env : Env S n) (gamma : ℝ) (V : S → ℝ) (s : S) (a : Fin n) : ℝ :=
  env.reward s a + if env.done s a then 0 else gamma * V (env.next s a)

/-- One-step consistency suffices. -/
theorem optimal_of_consistent (env : Env S n) (gamma tau B : ℝ) (hg : 0 ≤ gamma) (ht : 0 < tau) (V : S → ℝ) (hB : ∀ s, |V s| ≤ B) (p : S → Fin n → ℝ)
    (hp : ∀ s, Distrib.IsProb (p s)) (hpos : ∀ s a, 0 < p s a) (h : ∀ s a, lookahead env gamma V s a - tau * log (p s a) = V s) :
    Optimal env gamma tau B V p := by
  have hB0 : ∀ s : S, 0 ≤ B := fun s => le_trans (abs_nonneg _) (hB s)
  constructor
  · intro ρ hρ k
    induction k with
    | zero =>
      intro h' s
      have := (abs_le.1 (hB s)).1
      simp only [ret, pow_zero, one_mul]; linarith
    | succ k ih =>
      intro h' s
      simp only [ret]
      obtain ⟨h0, h1⟩ := hρ h' s
      have hc : 0 ≤ gamma ^ (k + 1) * B := mul_nonneg (pow_nonneg hg _) (hB0 s)
      have step : ∀ a, ρ h' s a * (env.reward s a - tau * log (ρ h' s a) +
          if env.done s a then 0 else gamma * ret env gamma tau ρ k (h' ++ [(s, a)]) (env.next s a)) ≤
          ρ h' s a * (V s + gamma ^ (k + 1) * B) - tau * (ρ h' s a * (log (ρ h' s a) - log (p s a))) := by
        intro a
        have e := h s a
        unfold lookahead at e
        have : env.reward s a - tau * log (ρ h' s a) + (if env.done s a then 0 else gamma * ret env gamma tau ρ k (h' ++ [(s, a)]) (env.next s a)) ≤
            V s + gamma ^ (k + 1) * B - tau * (log (ρ h' s a) - log (p s a)) := by
          cases hd : env.done s a with
          | true => simp only [hd, if_true] at e ⊢; linarith
          | false =>
            simp only [hd, Bool.false_eq_true, if_false] at e ⊢
            have := mul_le_mul_of_nonneg_left (ih (h' ++ [(s, a)]) (env.next s a)) hg
            rw [mul_add, ← mul_assoc, ← pow_succ'] at this
            linarith
        have := mul_le_mul_of_nonneg_left this (h0 a)
        linarith
      refine le_trans (Finset.sum_le_sum fun a _ => step a) ?_
      rw [Finset.sum_sub_distrib, ← Finset.sum_mul, h1, one_mul, ← Finset.mul_sum]
      have := mul_nonneg ht.le (Distrib.gibbs (ρ h' s) (p s) ⟨h0, h1⟩ (hp s) (fun a _ => hpos s a))
      linarith
  · intro k
    induction k with
    | zero =>
      intro h' s
      have := (abs_le.1 (hB s)).2
      simp only [ret, pow_zero, one_mul]; linarith
    | succ k ih =>
      intro h' s
      simp only [ret]
      have hc : 0 ≤ gamma ^ (k + 1) * B := mul_nonneg (pow_nonneg hg _) (hB0 s)
      have step : ∀ a, p s a * (V s - gamma ^ (k + 1) * B) ≤ p s a * (env.reward s a - tau * log (p s a) +
          if env.done s a then 0 else gamma * ret env gamma tau (fun _ => p) k (h' ++ [(s, a)]) (env.next s a)) := by
        intro a
        refine mul_le_mul_of_nonneg_left ?_ (hpos s a).le
        have e := h s a
        unfold lookahead at e
        cases hd : env.done s a with
        | true => simp only [hd, if_true] at e ⊢; linarith
        | false =>
          simp only [hd, Bool.false_eq_true, if_false] at e ⊢
          have := mul_le_mul_of_nonneg_left (ih (h' ++ [(s, a)]) (env.next s a)) hg
          rw [mul_sub, ← mul_assoc, ← pow_succ'] at this
          linarith
      refine le_trans (le_of_eq ?_) (Finset.sum_le_sum fun a _ => step a)
      rw [← Finset.sum_mul, (hp s).2, one_mul]

/-- The transition of the process. -/
def transition (env : Env S n) (s : S) (a : Fin n) : Tr S (Fin n) ℝ := ⟨s, a, env.reward s a, env.next s a, env.done s a⟩

theorem pathError_single (env : Env S n) (c : Cfg ℝ) (V : S → ℝ) (logp : S → Fin n → ℝ) (s : S) (a : Fin n) :
    pathError c V logp [transition env s a] = lookahead env c.gamma V s a - c.tau * logp s a - V s := by
  simp only [pathError, transition, List.head?_cons, List.getLast?_singleton, List.map_cons, List.map_nil, disc, List.length_singleton, pow_one, nextV, lookahead]
  split <;> ring

/-- The loss of an episode is nonnegative, and zero only if all paths are consistent. -/
theorem episodeLoss_zero {O A : Type} (c : Cfg ℝ) (ht : 0 < c.tau) (h1 : 0 ≤ c.piLossCoef) (h2 : 0 ≤ c.vLossCoef) (h12 : 0 < c.piLossCoef + c.vLossCoef)
    (V : O → ℝ) (logp : O → A → ℝ) (ep : List (Tr O A ℝ)) (hne : ep ≠ []) :
    episodeLoss c V logp ep = 0 ↔ ∀ tl ∈ ep.tails.dropLast, pathError c V logp (tl.take c.rolloutLen) = 0 := by
  have hl : (0 : ℝ) < ep.length := by
    have := List.length_pos_iff.2 hne
    exact_mod_cast this
  have hd : (0 : ℝ) < if c.normalize then (ep.length : ℝ) else 1 := by split <;> linarith
  have hk : 0 < 1 / 2 / c.tau * c.piLossCoef + 1 / 2 * c.vLossCoef := by
    have ht' : (0 : ℝ) < 1 / 2 / c.tau := by positivity
    rcases h1.eq_or_lt with h | h
    · rw [← h] at h12 ⊢; nlinarith
    · have := mul_pos ht' h
      nlinarith
  have hs : ∀ l : List (List (Tr O A ℝ)), 0 ≤ (l.map (fun tl => pathError c V logp (tl.take c.rolloutLen) ^ 2)).sum ∧
      ((l.map (fun tl => pathError c V logp (tl.take c.rolloutLen) ^ 2)).sum = 0 ↔ ∀ tl ∈ l, pathError c V logp (tl.take c.rolloutLen) = 0) := by
    intro l
    induction l with
    | nil => simp
    | cons x l ih =>
      simp only [List.map_cons, List.sum_cons, List.forall_mem_cons]
      refine ⟨add_nonneg (sq_nonneg _) ih.1, ?_⟩
      rw [add_eq_zero_iff_of_nonneg (sq_nonneg _) ih.1, ih.2, sq_eq_zero_iff]
  obtain ⟨-, hs⟩ := hs ep.tails.dropLast
  rw [← hs]
  unfold episodeLoss
  constructor
  · intro h
    rw [div_eq_zero_iff] at h
    rcases h with h | h
    · have : (ep.tails.dropLast.map (fun tl => pathError c V logp (tl.take c.rolloutLen) ^ 2)).sum *
          (1 / 2 / c.tau * c.piLossCoef + 1 / 2 * c.vLossCoef) = 0 := by rw [← h]; ring
      rcases mul_eq_zero.1 this with h | h
      · exact h
      · exact absurd h hk.ne'
    · exact absurd h hd.ne'
  · intro h
    simp only [h, zero_div, zero_mul, add_zero]

/-- The loss of a batch of one episode. -/
theorem single_episode {O A : Type} (c : Cfg ℝ) (hr : 1 ≤ c.rolloutLen) (V : O → ℝ) (logp : O → A → ℝ) (ep : List (Tr O A ℝ)) (hne : ep ≠ []) (hc : Contiguous ep) :
    replayLoss c V logp 1 [ep] [1] = .ok (episodeLoss c V logp ep) := by
  rw [replayLoss_eq c V logp 1 hr [ep] [1] (by simp) (by simpa using hc) (by simpa using hne)]
  have : sortEpisodes [ep] = [ep] := List.perm_singleton.1 (sort_perm [ep])
  simp [this]

/-- The loss PCL computes for every single transition of the process is zero. -/
def LossVanishes (env : Env S n) (c : Cfg ℝ) (V : S → ℝ) (p : S → Fin n → ℝ) : Prop :=
  ∀ s a, replayLoss c V (fun s a => log (p s a)) 1 [[transition env s a]] [1] = .ok 0

theorem vanishes_iff (env : Env S n) (c : Cfg ℝ) (hr : 1 ≤ c.rolloutLen) (ht : 0 < c.tau) (h1 : 0 ≤ c.piLossCoef) (h2 : 0 ≤ c.vLossCoef)
    (h12 : 0 < c.piLossCoef + c.vLossCoef) (V : S → ℝ) (p : S → Fin n → ℝ) :
    LossVanishes env c V p ↔ ∀ s a, lookahead env c.gamma V s a - c.tau * log (p s a) = V s := by
  refine forall_congr' fun s => forall_congr' fun a => ?_
  rw [single_episode c hr V _ _ (by simp) (by simp [Contiguous]), Except.ok.injEq, episodeLoss_zero c ht h1 h2 h12 _ _ _ (by simp)]
  obtain ⟨m, hm⟩ : ∃ m, c.rolloutLen = m + 1 := ⟨c.rolloutLen - 1, by omega⟩
  have : ([transition env s a].tails.dropLast) = [[transition env s a]] := rfl
  rw [this]
  simp only [List.mem_singleton, forall_eq, hm, List.take_succ_cons, List.take_nil, pathError_single]
  exact sub_eq_zero

/-- C136, optimum: if PCL's loss vanishes on every transition of a deterministic process, for bounded values, then the values are the best possible expected returns
with an entropy bonus of weight `tau`, and the policy gets them; both are the soft maximum and its weights. -/
theorem C136_optimal (env : Env S n) (c : Cfg ℝ) (hr : 1 ≤ c.rolloutLen) (ht : 0 < c.tau) (h1 : 0 ≤ c.piLossCoef) (h2 : 0 ≤ c.vLossCoef)
    (h12 : 0 < c.piLossCoef + c.vLossCoef) (hg : 0 ≤ c.gamma) (V : S → ℝ) (B : ℝ) (hB : ∀ s, |V s| ≤ B) (p : S → Fin n → ℝ)
    (hp : ∀ s, Distrib.IsProb (p s)) (hpos : ∀ s a, 0 < p s a) (h : LossVanishes env c V p) :
    Optimal env c.gamma c.tau B V p ∧
    (∀ s a, p s a = exp ((lookahead env c.gamma V s a - V s) / c.tau)) ∧
    ∀ s, V s = c.tau * log (∑ a, exp (lookahead env c.gamma V s a / c.tau)) := by
  have hc := (vanishes_iff env c hr ht h1 h2 h12 V p).1 h
  have e1 : ∀ s a, p s a = exp ((lookahead env c.gamma V s a - V s) / c.tau) := by
    intro s a
    have : (lookahead env c.gamma V s a - V s) / c.tau = log (p s a) := by
      rw [div_eq_iff ht.ne']
      have := hc s a
      linarith
    rw [this, exp_log (hpos s a)]
  refine ⟨optimal_of_consistent env c.gamma c.tau B hg ht V hB p hp hpos hc, e1, fun s => ?_⟩
  have e2 : ∑ a, exp (lookahead env c.gamma V s a / c.tau) = exp (V s / c.tau) := by
    have : ∀ a, exp (lookahead env c.gamma V s a / c.tau) = p s a * exp (V s / c.tau) := by
      intro a
      rw [e1, ← exp_add]
      congr 1
      ring
    rw [Finset.sum_congr rfl fun a _ => this a, ← Finset.sum_mul, (hp s).2, one_mul]
  rw [e2, log_exp]
  field_simp

/-- The transitions of an episode are those of the process, and only the last one may end it. -/
def Generated (env : Env S n) (ep : List (Tr S (Fin n) ℝ)) : Prop :=
  Contiguous ep ∧ (∀ t ∈ ep, t = transition env t.state t.action) ∧ ∀ t ∈ ep.dropLast, t.terminal = false

theorem generated_path (env : Env S n) (c : Cfg ℝ) (V : S → ℝ) (p : S → Fin n → ℝ)
    (h : ∀ s a, lookahead env c.gamma V s a - c.tau * log (p s a) = V s) :
    ∀ path : List (Tr S (Fin n) ℝ), Generated env path → pathError c V (fun s a => log (p s a)) path = 0
  | [], _ => rfl
  | [t], hg => by
    have := hg.2.1 t (by simp)
    rw [this, pathError_single, h, sub_self]
  | t :: u :: path, hg => by
    obtain ⟨h1, h2, h3⟩ := hg
    have hnext : t.nextState = u.state := by
      unfold Contiguous at h1
      exact (List.isChain_cons_cons.1 h1).1
    have hnt : t.terminal = false := h3 t (by simp)
    have ih := generated_path env c V p h (u :: path) ⟨(List.isChain_cons_cons.1 h1).2, fun x hx => h2 x (List.mem_cons_of_mem _ hx), fun x hx => h3 x (by
      rw [List.dropLast_cons_of_ne_nil (by simp)]
      exact List.mem_cons_of_mem _ hx)⟩
    have e := h t.state t.action
    have ht := h2 t (by simp)
    have e1 : lookahead env c.gamma V t.state t.action = t.reward + c.gamma * V u.state := by
      unfold lookahead
      have r1 : env.reward t.state t.action = t.reward := by
        conv_rhs => rw [ht]
        rfl
      have r2 : env.next t.state t.action = t.nextState := by
        conv_rhs => rw [ht]
        rfl
      have r3 : env.done t.state t.action = t.terminal := by
        conv_rhs => rw [ht]
        rfl
      rw [r1, r2, r3, hnt, hnext]
      simp
    rw [e1] at e
    obtain ⟨last, hlast⟩ : ∃ l, (u :: path).getLast? = some l := ⟨_, List.getLast?_eq_some_getLast (by simp)⟩
    have hlast' : (t :: u :: path).getLast? = some last := by rw [List.getLast?_cons_cons]; exact hlast
    simp only [pathError, List.head?_cons, hlast, hlast', List.map_cons, disc, List.length_cons] at ih ⊢
    have : c.gamma * 0 = (0 : ℝ) := mul_zero _
    rw [← ih] at this
    rw [pow_succ]
    nlinarith [this, e]

theorem generated_take (env : Env S n) (ep : List (Tr S (Fin n) ℝ)) (hg : Generated env ep) (tl : List (Tr S (Fin n) ℝ)) (htl : tl <:+ ep) (k : Nat) :
    Generated env (tl.take k) := by
  obtain ⟨h1, h2, h3⟩ := hg
  obtain ⟨pre, rfl⟩ := htl
  refine ⟨?_, fun x hx => h2 x (List.mem_append_right _ (List.mem_of_mem_take hx)), fun x hx => h3 x ?_⟩
  · exact List.IsChain.take (List.isChain_append.1 h1).2.1 k
  · cases tl with
    | nil => simp at hx
    | cons a tl =>
      rw [List.dropLast_append_of_ne_nil (by simp)]
      refine List.mem_append_right _ ?_
      rw [List.dropLast_take_eq_take_dropLast] at hx
      exact List.mem_of_mem_take hx

/-- C136, all paths: at this optimum the loss vanishes for every episode of the process, of any length, for every rollout length. -/
theorem C136_all_episodes (env : Env S n) (c : Cfg ℝ) (hr : 1 ≤ c.rolloutLen) (ht : 0 < c.tau) (h1 : 0 ≤ c.piLossCoef) (h2 : 0 ≤ c.vLossCoef)
    (h12 : 0 < c.piLossCoef + c.vLossCoef) (V : S → ℝ) (p : S → Fin n → ℝ)
    (hp : ∀ s a, p s a = exp ((lookahead env c.gamma V s a - V s) / c.tau))
    (ep : List (Tr S (Fin n) ℝ)) (hne : ep ≠ []) (hg : Generated env ep) :
    replayLoss c V (fun s a => log (p s a)) 1 [ep] [1] = .ok 0 := by
  have hc : ∀ s a, lookahead env c.gamma V s a - c.tau * log (p s a) = V s := by
    intro s a
    rw [hp, log_exp]
    field_simp
    ring
  rw [single_episode c hr V _ ep hne hg.1, Except.ok.injEq, episodeLoss_zero c ht h1 h2 h12 _ _ _ hne]
  intro tl htl
  exact generated_path env c V p hc _ (generated_take env ep hg tl ((List.mem_tails _ _).1 (List.mem_of_mem_dropLast htl)) _)

/-! ## An instance -/

/-- One state, two actions with reward 0, an episode without end. -/
def exEnv : Env Unit 2 := ⟨fun _ _ => 0, fun _ _ => (), fun _ _ => false⟩

example : LossVanishes exEnv ⟨1 / 2, 1, 1, 1, 5, true⟩ (fun _ => 2 * log 2) (fun _ _ => 1 / 2) := by
  rw [vanishes_iff _ _ (by simp) (by simp) (by simp) (by simp) (by norm_num)]
  intro s a
  simp [lookahead, exEnv]
  ring

end Verif.SoftMDP
