import Mathlib.Tactic.IntervalCases
import Mathlib.Topology.Algebra.Order.LiminfLimsup
import Mathlib.Analysis.SpecificLimits.Basic
import Verif.Props.Optimality
import Verif.Props.TabularDQN

/-!
# C158: iterating the targets of Double DQN

Between two copies to the target network, Double DQN's network is trained towards targets that depend on the network itself: it chooses the next actions, the target network evaluates them.
-/

set_option autoImplicit false
set_option linter.unusedSectionVars false

open Filter Topology

namespace Verif.DoubleIteration
open ActionValue Targets MDP

variable {S : Type}

/-! ## Specification -/

/-- `Q'` meets the targets that Double DQN computes with the network `Q'` and the target network `Q`. -/
def DoubleFits (env : Env S ℝ) (gamma : ℝ) (Q Q' : S → List ℝ) : Prop := Fits env gamma (fun Q => doubleDqn Q' Q) Q Q'

/-! ## Proofs -/

theorem double_backup (env : Env S ℝ) (gamma : ℝ) (Q Q' : S → List ℝ) (h : DoubleFits env gamma Q Q') (s : S) (a : ℕ) (ha : a < env.nA) :
    evaluate (Q' s) a = backup env gamma (fun s => evaluate (Q s) (greedy (Q' s))) s a := by
  obtain ⟨y, h1, h2⟩ := h s a ha
  rw [h2]
  refine expect_congr _ _ _ fun x hx => ?_
  obtain ⟨b, hb, hy⟩ := h1 x hx
  have hb' : b = ⟨[s], [a], [x.2.reward], [x.2.next], [if x.2.done then 1 else 0], [gamma], none⟩ := by
    have := Except.ok.inj hb.symm
    rw [this]
    simp [transition, expReward]
  rw [hb'] at hy
  cases hd : x.2.done <;> simp [doubleDqn, bellman, hd] at hy ⊢ <;> exact hy.symm

theorem double_of_backup (env : Env S ℝ) (gamma : ℝ) (Q Q' : S → List ℝ)
    (h : ∀ s a, a < env.nA → evaluate (Q' s) a = backup env gamma (fun s => evaluate (Q s) (greedy (Q' s))) s a) : DoubleFits env gamma Q Q' := by
  refine fun s a ha => ⟨fun o => o.reward + if o.done then 0 else gamma * evaluate (Q o.next) (greedy (Q' o.next)), fun x _ => ?_, h s a ha⟩
  refine ⟨_, rfl, ?_⟩
  cases hd : x.2.done <;> simp [doubleDqn, bellman, transition, expReward, hd]

theorem backup_shift {env : Env S ℝ} (he : env.Valid) (gamma : ℝ) (hg : 0 ≤ gamma) (V V' : S → ℝ) (c : ℝ) (hc : 0 ≤ c) (h : ∀ s, V s ≤ V' s + c) (s : S) (a : ℕ) (ha : a < env.nA) :
    backup env gamma V s a ≤ backup env gamma V' s a + gamma * c := by
  unfold backup
  rw [← expect_add _ (he s a ha)]
  refine expect_mono _ (he s a ha) _ _ fun x _ => ?_
  cases x.2.done with
  | true => have := mul_nonneg hg hc; simp only [if_true]; linarith
  | false =>
    have := mul_le_mul_of_nonneg_left (h x.2.next) hg
    simp only [Bool.false_eq_true, if_false]; linarith

/-- Values that fall little below their own backups are not far below the optimal values. -/
theorem near_of_residual {env : Env S ℝ} (he : env.Valid) (gamma : ℝ) (hg : 0 ≤ gamma) (hg1 : gamma < 1) (V Vs : S → ℝ) (M ε : ℝ) (hM : 0 ≤ M) (hε : 0 ≤ ε) (hb : ∀ s, Vs s ≤ V s + M)
    (g : S → ℕ) (hgl : ∀ s, g s < env.nA) (hVs : ∀ s, Vs s = backup env gamma Vs s (g s)) (hV : ∀ s a, a < env.nA → backup env gamma V s a ≤ V s + ε) (s : S) : Vs s ≤ V s + ε / (1 - gamma) := by
  have h1g : 0 < 1 - gamma := by linarith
  have key : ∀ n : ℕ, ∀ s, Vs s ≤ V s + (gamma ^ n * M + ε / (1 - gamma)) := by
    intro n
    induction n with
    | zero => intro s; have := hb s; have := div_nonneg hε h1g.le; simp only [pow_zero, one_mul]; linarith
    | succ n ih =>
      intro s
      have hc : 0 ≤ gamma ^ n * M + ε / (1 - gamma) := by positivity
      have h1 := backup_shift he gamma hg Vs V _ hc ih s (g s) (hgl s)
      have h2 := hV s (g s) (hgl s)
      rw [hVs s]
      have : gamma * (gamma ^ n * M + ε / (1 - gamma)) + ε = gamma ^ (n + 1) * M + ε / (1 - gamma) := by
        field_simp; ring
      linarith
  have hlim : Tendsto (fun n : ℕ => V s + (gamma ^ n * M + ε / (1 - gamma))) atTop (𝓝 (V s + (0 * M + ε / (1 - gamma)))) :=
    (((tendsto_pow_atTop_nhds_zero_of_lt_one hg hg1).mul_const M).add_const _).const_add _
  rw [zero_mul, zero_add] at hlim
  exact ge_of_tendsto' hlim fun n => key n s

/-! ## The theorems -/

/-- **C158**: train Double DQN's network until it meets its targets, copy it to the target network, and repeat: the values converge to the optimal values, with the factor `gamma` for each
round. -/
theorem C158_iteration (env : Env S ℝ) (he : env.Valid) (gamma B : ℝ) (hg : 0 ≤ gamma) (hg1 : gamma < 1) (Q : ℕ → S → List ℝ) (hQ : ∀ k, ∃ Bk, Table env Bk (Q k))
    (hfit : ∀ k, DoubleFits env gamma (Q k) (Q (k + 1))) (Qs : S → List ℝ) (hQs : Table env B Qs) (hs : MeetsTargets env gamma dqn Qs) (δ : ℝ)
    (h0 : ∀ s a, a < env.nA → |evaluate (Q 0 s) a - evaluate (Qs s) a| ≤ δ) (hδ : 0 ≤ δ) (k : ℕ) :
    ∀ s a, a < env.nA → |evaluate (Q k s) a - evaluate (Qs s) a| ≤ gamma ^ k * ((2 * B + (1 + gamma) * δ) / (1 - gamma)) := by
  have h1g : 0 < 1 - gamma := by linarith
  have hlt : ∀ k s, greedy (Q k s) < env.nA := fun k s => by obtain ⟨Bk, h⟩ := hQ k; exact greedy_lt env Bk _ h s
  have hle : ∀ k s a, a < env.nA → evaluate (Q k s) a ≤ maxQ (Q k s) := fun k s a ha => by obtain ⟨Bk, h⟩ := hQ k; exact evaluate_le env Bk _ h s a ha
  let Vs : S → ℝ := fun s => maxQ (Qs s)
  let V : ℕ → S → ℝ := fun k s => evaluate (Q k s) (greedy (Q (k + 1) s))
  have hq : ∀ k s a, a < env.nA → evaluate (Q (k + 1) s) a = backup env gamma (V k) s a := fun k => double_backup env gamma _ _ (hfit k)
  have hqs : ∀ s a, a < env.nA → evaluate (Qs s) a = backup env gamma Vs s a := dqn_backup env gamma B Qs Qs hQs hs
  have hVs : ∀ s a, a < env.nA → backup env gamma Vs s a ≤ Vs s := fun s a ha => by rw [← hqs s a ha]; exact evaluate_le env B Qs hQs s a ha
  have hB : ∀ s a, a < env.nA → |evaluate (Qs s) a| ≤ B := fun s a ha => by
    have hl : a < (Qs s).length := by rw [(hQs.2 s).1]; exact ha
    refine (hQs.2 s).2 _ ?_
    simp [evaluate, hl]
  have hVB : ∀ s, |Vs s| ≤ B := fun s => hB s _ (greedy_lt env B Qs hQs s)
  set D : ℝ := 2 * B + (1 + gamma) * δ with hD
  have up : ∀ k s, V k s ≤ Vs s + gamma ^ k * δ := by
    intro k
    induction k with
    | zero =>
      intro s
      have h1 := abs_le.1 (h0 s _ (hlt 1 s))
      have h2 := evaluate_le env B Qs hQs s _ (hlt 1 s)
      simp only [pow_zero, one_mul, V, Vs]; linarith
    | succ k ih =>
      intro s
      show evaluate (Q (k + 1) s) (greedy (Q (k + 2) s)) ≤ _
      rw [hq k s _ (hlt _ s)]
      have h1 := backup_shift he gamma hg (V k) Vs _ (by positivity) ih s _ (hlt (k + 2) s)
      have h2 := hVs s _ (hlt (k + 2) s)
      rw [pow_succ']
      linarith
  have low0 : ∀ s, Vs s ≤ V 0 s + (2 * B + δ) := fun s => by
    have h1 := abs_le.1 (h0 s _ (hlt 1 s))
    have h2 := abs_le.1 (hB s _ (hlt 1 s))
    have h3 := abs_le.1 (hVB s)
    simp only [V]; linarith
  have hB0 : S → 0 ≤ B := fun s => (abs_nonneg _).trans (hVB s)
  have diff : ∀ k s, V (k + 1) s ≤ V k s + gamma ^ k * D := by
    intro k
    induction k with
    | zero =>
      intro s
      have h1 := up 1 s
      have h2 := low0 s
      simp only [pow_zero, pow_one, one_mul] at h1 ⊢
      rw [hD]; linarith
    | succ k ih =>
      intro s
      have hD0 : 0 ≤ D := by have := hB0 s; positivity
      have h1 : V (k + 2) s ≤ maxQ (Q (k + 2) s) := hle (k + 2) s _ (hlt (k + 3) s)
      have h2 : maxQ (Q (k + 2) s) = backup env gamma (V (k + 1)) s (greedy (Q (k + 2) s)) := hq (k + 1) s _ (hlt (k + 2) s)
      have h3 := backup_shift he gamma hg (V (k + 1)) (V k) _ (by positivity) ih s _ (hlt (k + 2) s)
      have h4 : V (k + 1) s = backup env gamma (V k) s (greedy (Q (k + 2) s)) := hq k s _ (hlt (k + 2) s)
      rw [pow_succ']
      show V (k + 2) s ≤ _
      linarith
  have low : ∀ k s, Vs s ≤ V k s + gamma ^ k * (D / (1 - gamma)) := by
    intro k
    cases k with
    | zero =>
      intro s
      have := low0 s
      have hb := hB0 s
      have : 2 * B + δ ≤ D / (1 - gamma) := by
        rw [le_div_iff₀ h1g, hD]; nlinarith
      simp only [pow_zero, one_mul]; linarith [low0 s]
    | succ k =>
      intro s
      have hb := hB0 s
      have hD0 : 0 ≤ D := by positivity
      obtain ⟨Bk, hk⟩ := hQ (k + 1)
      have hbound : ∀ s, Vs s ≤ V (k + 1) s + (B + Bk) := fun s => by
        have h1 := abs_le.1 (hVB s)
        have hl : greedy (Q (k + 2) s) < (Q (k + 1) s).length := by rw [(hk.2 s).1]; exact hlt _ s
        have h2 := abs_le.1 ((hk.2 s).2 (evaluate (Q (k + 1) s) (greedy (Q (k + 2) s))) (by simp [evaluate, hl]))
        show Vs s ≤ evaluate (Q (k + 1) s) (greedy (Q (k + 2) s)) + _
        linarith
      have hM : 0 ≤ max (B + Bk) 0 := le_max_right _ _
      have := near_of_residual he gamma hg hg1 (V (k + 1)) Vs (max (B + Bk) 0) (gamma ^ (k + 1) * D) hM (by positivity)
        (fun s => (hbound s).trans (by gcongr; exact le_max_left _ _)) (fun s => greedy (Qs s)) (greedy_lt env B Qs hQs)
        (fun s => hqs s _ (greedy_lt env B Qs hQs s)) (fun s a ha => by
          have h1 : backup env gamma (V (k + 1)) s a ≤ maxQ (Q (k + 2) s) := by rw [← hq (k + 1) s a ha]; exact hle _ s a ha
          have h2 : maxQ (Q (k + 2) s) = backup env gamma (V (k + 1)) s (greedy (Q (k + 2) s)) := hq (k + 1) s _ (hlt (k + 2) s)
          have h3 := backup_shift he gamma hg (V (k + 1)) (V k) _ (by positivity) (diff k) s _ (hlt (k + 2) s)
          have h4 : V (k + 1) s = backup env gamma (V k) s (greedy (Q (k + 2) s)) := hq k s _ (hlt (k + 2) s)
          rw [pow_succ']
          linarith) s
      rwa [mul_div_assoc] at this
  intro s a ha
  have hb := hB0 s
  have hDδ : δ ≤ D / (1 - gamma) := by
    rw [le_div_iff₀ h1g, hD]; nlinarith
  have hC0 : 0 ≤ D / (1 - gamma) := hδ.trans hDδ
  cases k with
  | zero => simpa using (h0 s a ha).trans hDδ
  | succ k =>
    rw [hq k s a ha, hqs s a ha]
    have h1 := backup_shift he gamma hg (V k) Vs _ (by positivity) (fun s => (up k s).trans (by gcongr : Vs s + gamma ^ k * δ ≤ Vs s + gamma ^ k * (D / (1 - gamma)))) s a ha
    have h2 := backup_shift he gamma hg Vs (V k) _ (by positivity) (low k) s a ha
    rw [abs_le, pow_succ', mul_assoc]
    constructor <;> linarith

/-- Two states and two actions: 0 goes to the other state, 1 ends the episode with a reward. -/
noncomputable def cross (gamma : ℝ) : Env Bool ℝ where
  nA := 2
  outcomes s a := [(1, if a = 0 then ⟨0, !s, false⟩ else ⟨gamma / 2, s, true⟩)]

theorem greedy_two (x y : ℝ) : greedy [x, y] = if x < y then 1 else 0 := by simp [greedy, argmaxFrom]

/-- **C158**: for some target networks the training between two copies has no end: no table meets its targets, since the choice in the first state follows that in the second, which avoids that
in the first.  DQN's targets can always be met. -/
theorem C158_rest_violated (gamma : ℝ) (hg : 0 < gamma) :
    (¬ ∃ Q' : Bool → List ℝ, (∀ s, (Q' s).length = 2) ∧ DoubleFits (cross gamma) gamma (fun s => if s then [1, 0] else [0, 1]) Q') ∧
    ∀ (env : Env Bool ℝ) (Q : Bool → List ℝ), ∃ Q' : Bool → List ℝ, (∀ s, (Q' s).length = env.nA) ∧ Fits env gamma dqn Q Q' := by
  constructor
  · rintro ⟨Q', hl, h⟩
    have hb := double_backup _ gamma _ _ h
    obtain ⟨x, y, hx⟩ := List.length_eq_two.1 (hl false)
    obtain ⟨u, v, hu⟩ := List.length_eq_two.1 (hl true)
    have g0 := greedy_two x y
    have g1 := greedy_two u v
    have e1 : y = gamma / 2 := by
      have := hb false 1 (by simp [cross])
      simpa [hx, evaluate, backup, cross, expect] using this
    have e2 : v = gamma / 2 := by
      have := hb true 1 (by simp [cross])
      simpa [hu, evaluate, backup, cross, expect] using this
    have e3 : x = gamma * evaluate [1, 0] (greedy [u, v]) := by
      have := hb false 0 (by simp [cross])
      rw [hx] at this
      simpa [backup, cross, expect, hu, evaluate] using this
    have e4 : u = gamma * evaluate [0, 1] (greedy [x, y]) := by
      have := hb true 0 (by simp [cross])
      rw [hu] at this
      simpa [backup, cross, expect, hx, evaluate] using this
    rw [g1] at e3
    rw [g0] at e4
    by_cases h1 : u < v
    · rw [if_pos h1] at e3
      have : x = 0 := by simpa [evaluate] using e3
      rw [if_pos (by rw [this, e1]; linarith)] at e4
      have : u = gamma := by simpa [evaluate] using e4
      linarith
    · rw [if_neg h1] at e3
      have : x = gamma := by simpa [evaluate] using e3
      rw [if_neg (by rw [this, e1]; linarith)] at e4
      have : u = 0 := by simpa [evaluate] using e4
      linarith
  · intro env Q
    refine ⟨fun s => (List.range env.nA).map fun a => backup env gamma (fun s => maxQ (Q s)) s a, fun s => by simp, fun s a ha => ?_⟩
    refine ⟨fun o => o.reward + if o.done then 0 else gamma * maxQ (Q o.next), fun x _ => ⟨_, rfl, ?_⟩, ?_⟩
    · cases hd : x.2.done <;> simp [dqn, bellman, transition, expReward, hd]
    · simp [evaluate, ha, backup]

/-! ## A case -/

/-- Rounds of Double DQN in the two rooms of C152, from values 0. -/
noncomputable def roomRounds : ℕ → Bool → List ℝ
  | 0, _ => [0, 0]
  | 1, s => if s then [0, 1] else [0, 0]
  | 2, s => if s then [9 / 10, 1] else [0, 9 / 10]
  | _ + 3, s => if s then [9 / 10, 1] else [81 / 100, 9 / 10]

/-- The hypotheses of `C158_iteration` are met by these rounds. -/
example (k : ℕ) : DoubleFits TabularDQN.rooms (9 / 10) (roomRounds k) (roomRounds (k + 1)) := by
  refine double_of_backup _ _ _ _ fun s a ha => ?_
  have ha' : a < 2 := ha
  rcases k with _ | _ | _ | k <;> interval_cases a <;> cases s <;>
    simp only [backup, TabularDQN.rooms, expect, roomRounds, evaluate, greedy_two, if_true, if_false, Bool.false_eq_true, Nat.zero_add, Nat.reduceAdd, zero_ne_one, one_ne_zero] <;> norm_num [greedy_two]

end Verif.DoubleIteration
