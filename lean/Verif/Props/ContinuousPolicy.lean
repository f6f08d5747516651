import Mathlib.Tactic.Linarith
import Mathlib.Tactic.Ring
import Verif.Spec.ContinuousPolicy
import Verif.Props.Optimality
set_option autoImplicit false
set_option linter.unusedSectionVars false

/-! # C139: critics of DDPG, TD3 and SAC that meet their targets hold the values of the policy -/

namespace Verif.CMDP
open MDP Targets
variable {S U K : Type} [Field K] [LinearOrder K] [IsStrictOrderedRing K]

/-- The transition recorded for an outcome. -/
def transition (s : S) (u : U) (o : Outcome S K) : Transition S U K := ⟨s, u, o.reward, o.next, none, o.done⟩

theorem single_target (gamma : K) (s : S) (u : U) (o : Outcome S K) (v : K) :
    nStepTarget gamma [transition s u o] v = o.reward + if o.done then 0 else gamma * v := by
  unfold nStepTarget transition
  cases h : o.done <;> simp [discounted]

/-- `Q'` fits the targets `target` (a function of the action sampled in the next state, its log probability, and the batch) on average over the outcomes and the
policy's samples. -/
def Fits (env : Env S U K) (gamma : K) (pol : Policy S U K) (target : U × K → ExpBatch S U K → List K) (Q' : S → U → K) : Prop :=
  ∀ s u, ∃ y : Outcome S K → U × K → K,
    (∀ x ∈ env s u, ∀ x' ∈ pol x.2.next, ∃ b, batchExperiences id gamma [[transition s u x.2]] = .ok b ∧ target x'.2 b = [y x.2 x'.2]) ∧
    Q' s u = expect (env s u) fun o => expect (pol o.next) (y o)

theorem head_of {l : List K} {y z : K} (h1 : l = [y]) (h2 : l[0]? = some z) : y = z := by
  rw [h1] at h2
  simpa using h2

/-- What the targets have in common. -/
theorem fits_eq {env : Env S U K} {gamma : K} {pol : Policy S U K} (hv : Valid env pol) {target : U × K → ExpBatch S U K → List K} {Q' : S → U → K}
    (h : Fits env gamma pol target Q') (next : S → U × K → K)
    (ht : ∀ s u o x b, batchExperiences id gamma [[transition s u o]] = .ok b → (target x b)[0]? = some (nStepTarget gamma [transition s u o] (next o.next x)))
    (s : S) (u : U) : Q' s u = expect (env s u) fun o => o.reward + if o.done then 0 else gamma * expect (pol o.next) (next o.next) := by
  obtain ⟨y, h1, h2⟩ := h s u
  rw [h2]
  refine expect_congr _ _ _ (fun x hx => ?_)
  have : ∀ x' ∈ pol x.2.next, y x.2 x'.2 = (if x.2.done then 0 else gamma) * next x.2.next x'.2 + x.2.reward := by
    intro x' hx'
    obtain ⟨b, hb, hy⟩ := h1 x hx x' hx'
    rw [head_of hy (ht s u x.2 x'.2 b hb), single_target]
    split <;> ring
  rw [expect_congr _ _ (fun a' => (if x.2.done then 0 else gamma) * next x.2.next a' + x.2.reward) this, expect_affine, (hv.2 _).2]
  split <;> ring

theorem sac_next (gamma temp : K) (q1 q2 : S → U → K) (s : S) (u : U) (o : Outcome S K) (x : U × K) (b : ExpBatch S U K)
    (hb : batchExperiences id gamma [[transition s u o]] = .ok b) :
    (sac temp q1 q2 [x] b)[0]? = some (nStepTarget gamma [transition s u o] (min (q1 o.next x.1) (q2 o.next x.1) - temp * x.2)) :=
  (C44_sac id gamma _ b hb temp q1 q2 [x] rfl).2 0 _ (transition s u o) x.1 x.2 rfl rfl rfl

theorem td3_next (gamma : K) (q1 q2 : S → U → K) (s : S) (u : U) (o : Outcome S K) (x : U × K) (b : ExpBatch S U K)
    (hb : batchExperiences id gamma [[transition s u o]] = .ok b) :
    (td3 q1 q2 [x.1] b)[0]? = some (nStepTarget gamma [transition s u o] (min (q1 o.next x.1) (q2 o.next x.1))) :=
  (C44_td3 id gamma _ b hb q1 q2 [x.1] rfl).2 0 _ (transition s u o) x.1 rfl rfl rfl

theorem ddpg_next (gamma : K) (q : S → U → K) (s : S) (u : U) (o : Outcome S K) (x : U × K) (b : ExpBatch S U K)
    (hb : batchExperiences id gamma [[transition s u o]] = .ok b) :
    (ddpg gamma q [x.1] b)[0]? = some (nStepTarget gamma [transition s u o] (q o.next x.1)) :=
  C45_one_step_partial id gamma _ b hb q [x.1] rfl (by simp) 0 _ (transition s u o) x.1 rfl rfl rfl

/-- Values that satisfy the equation of the policy are its returns. -/
theorem values_of_equation (env : Env S U K) (gamma temp : K) (hg : 0 ≤ gamma) (pol : Policy S U K) (hv : Valid env pol) (Q : S → U → K) (B : K)
    (hB : ∀ s u, |Q s u| ≤ B)
    (h : ∀ s u, Q s u = expect (env s u) fun o => o.reward + if o.done then 0 else gamma * expect (pol o.next) fun x => Q o.next x.1 - temp * x.2) (n : Nat) :
    ∀ s u, |Q s u - ret env gamma temp pol n s u| ≤ gamma ^ n * B := by
  induction n with
  | zero => intro s u; simpa [ret] using hB s u
  | succ n ih =>
    intro s u
    have hB0 : 0 ≤ B := le_trans (abs_nonneg _) (hB s u)
    rw [h s u, ret]
    refine expect_close _ (hv.1 s u) _ _ _ (fun x _ => ?_)
    rw [add_sub_add_left_eq_sub]
    cases x.2.done with
    | true => simpa using mul_nonneg (pow_nonneg hg _) hB0
    | false =>
      simp only [Bool.false_eq_true, if_false]
      rw [← mul_sub, abs_mul, abs_of_nonneg hg, pow_succ', mul_assoc]
      refine mul_le_mul_of_nonneg_left ?_ hg
      refine expect_close _ (hv.2 _) _ _ _ (fun x' _ => ?_)
      have e : Q x.2.next x'.2.1 - temp * x'.2.2 - (-(temp * x'.2.2) + ret env gamma temp pol n x.2.next x'.2.1) =
          Q x.2.next x'.2.1 - ret env gamma temp pol n x.2.next x'.2.1 := by ring
      rw [e]
      exact ih _ _

/-- C139, SAC: two critics that both meet, on average, the targets computed from them agree, and hold the expected returns of the policy with the entropy bonus, up to
`gamma ^ n * B` for the first `n` steps. -/
theorem C139_sac (env : Env S U K) (gamma temp : K) (hg : 0 ≤ gamma) (pol : Policy S U K) (hv : Valid env pol) (Q1 Q2 : S → U → K) (B : K)
    (hB : ∀ s u, |Q1 s u| ≤ B) (h1 : Fits env gamma pol (fun x => sac temp Q1 Q2 [x]) Q1) (h2 : Fits env gamma pol (fun x => sac temp Q1 Q2 [x]) Q2) :
    (∀ s u, Q1 s u = Q2 s u) ∧ ∀ n s u, |Q1 s u - ret env gamma temp pol n s u| ≤ gamma ^ n * B := by
  have e1 := fits_eq hv h1 (fun s x => min (Q1 s x.1) (Q2 s x.1) - temp * x.2) (sac_next gamma temp Q1 Q2)
  have e2 := fits_eq hv h2 (fun s x => min (Q1 s x.1) (Q2 s x.1) - temp * x.2) (sac_next gamma temp Q1 Q2)
  have e : ∀ s u, Q1 s u = Q2 s u := fun s u => (e1 s u).trans (e2 s u).symm
  refine ⟨e, fun n => values_of_equation env gamma temp hg pol hv Q1 B hB (fun s u => ?_) n⟩
  rw [e1 s u]
  refine expect_congr _ _ _ (fun x _ => ?_)
  simp only [← e, min_self]

/-- C139, TD3: the same, for the policy with the smoothing noise of the targets, without a bonus. -/
theorem C139_td3 (env : Env S U K) (gamma : K) (hg : 0 ≤ gamma) (pol : Policy S U K) (hv : Valid env pol) (Q1 Q2 : S → U → K) (B : K)
    (hB : ∀ s u, |Q1 s u| ≤ B) (h1 : Fits env gamma pol (fun x => td3 Q1 Q2 [x.1]) Q1) (h2 : Fits env gamma pol (fun x => td3 Q1 Q2 [x.1]) Q2) :
    (∀ s u, Q1 s u = Q2 s u) ∧ ∀ n s u, |Q1 s u - ret env gamma 0 pol n s u| ≤ gamma ^ n * B := by
  have e1 := fits_eq hv h1 (fun s x => min (Q1 s x.1) (Q2 s x.1)) (td3_next gamma Q1 Q2)
  have e2 := fits_eq hv h2 (fun s x => min (Q1 s x.1) (Q2 s x.1)) (td3_next gamma Q1 Q2)
  have e : ∀ s u, Q1 s u = Q2 s u := fun s u => (e1 s u).trans (e2 s u).symm
  refine ⟨e, fun n => values_of_equation env gamma 0 hg pol hv Q1 B hB (fun s u => ?_) n⟩
  rw [e1 s u]
  refine expect_congr _ _ _ (fun x _ => ?_)
  simp only [← e, min_self, zero_mul, sub_zero]

/-- C139, DDPG: a critic that meets its targets on average holds the returns of the deterministic policy (one-step entries; for longer ones the targets are wrong, C45). -/
theorem C139_ddpg (env : Env S U K) (gamma : K) (hg : 0 ≤ gamma) (act : S → U) (hv : Valid env fun s => [(1, (act s, 0))]) (Q : S → U → K) (B : K)
    (hB : ∀ s u, |Q s u| ≤ B) (h : Fits env gamma (fun s => [(1, (act s, 0))]) (fun x => ddpg gamma Q [x.1]) Q) (n : Nat) (s : S) (u : U) :
    |Q s u - ret env gamma 0 (fun s => [(1, (act s, 0))]) n s u| ≤ gamma ^ n * B := by
  have e := fits_eq hv h (fun s x => Q s x.1) (ddpg_next gamma Q)
  refine values_of_equation env gamma 0 hg _ hv Q B hB (fun s u => ?_) n s u
  rw [e s u]
  refine expect_congr _ _ _ (fun x _ => ?_)
  simp only [zero_mul, sub_zero]

theorem min_close (a b c δ : K) (h1 : |a - c| ≤ δ) (h2 : |b - c| ≤ δ) : |min a b - c| ≤ δ := by
  rcases min_choice a b with h | h <;> rw [h] <;> assumption

/-- C139, contraction: if both target critics are `δ` away from the values of the policy with the bonus, critics that fit the targets of SAC are `gamma * δ` away. -/
theorem C139_sac_contraction (env : Env S U K) (gamma temp : K) (hg : 0 ≤ gamma) (pol : Policy S U K) (hv : Valid env pol) (Q1 Q2 Q' Qp : S → U → K) (δ : K) (hδ0 : 0 ≤ δ)
    (hQp : ∀ s u, Qp s u = expect (env s u) fun o => o.reward + if o.done then 0 else gamma * expect (pol o.next) fun x => Qp o.next x.1 - temp * x.2)
    (h1 : ∀ s u, |Q1 s u - Qp s u| ≤ δ) (h2 : ∀ s u, |Q2 s u - Qp s u| ≤ δ) (h : Fits env gamma pol (fun x => sac temp Q1 Q2 [x]) Q') (s : S) (u : U) :
    |Q' s u - Qp s u| ≤ gamma * δ := by
  rw [fits_eq hv h (fun s x => min (Q1 s x.1) (Q2 s x.1) - temp * x.2) (sac_next gamma temp Q1 Q2) s u, hQp s u]
  refine expect_close _ (hv.1 s u) _ _ _ (fun x _ => ?_)
  rw [add_sub_add_left_eq_sub]
  cases x.2.done with
  | true => simpa using mul_nonneg hg hδ0
  | false =>
    simp only [Bool.false_eq_true, if_false]
    rw [← mul_sub, abs_mul, abs_of_nonneg hg]
    refine mul_le_mul_of_nonneg_left ?_ hg
    refine expect_close _ (hv.2 _) _ _ _ (fun x' _ => ?_)
    rw [sub_sub_sub_cancel_right]
    exact min_close _ _ _ _ (h1 _ _) (h2 _ _)

/-! ## An instance: one state, one of two actions pays 1, and the episode goes on -/

/-- What an action pays. -/
def pays (u : Bool) : ℚ := if u then 1 else 0

/-- The policy samples the two actions alike and reports the log probability -1. -/
def exPol : Policy Unit Bool ℚ := fun _ => [(1 / 2, (false, -1)), (1 / 2, (true, -1))]

/-- The process. -/
def exEnv : Env Unit Bool ℚ := fun _ u => [(1, ⟨pays u, (), false⟩)]

theorem exValid : Valid exEnv exPol := by
  refine ⟨fun _ u => ⟨by simp [exEnv], by simp [exEnv]⟩, fun _ => ⟨?_, by simp [exPol]; norm_num⟩⟩
  intro x hx
  simp [exPol] at hx
  rcases hx with rfl | rfl <;> norm_num

theorem exSac : Fits exEnv (1 / 2) exPol (fun x => sac 2 (fun _ u => pays u + 5 / 2) (fun _ u => pays u + 5 / 2) [x]) (fun _ u => pays u + 5 / 2) := by
  rintro ⟨⟩ u
  refine ⟨fun o x => o.reward + 1 / 2 * (pays x.1 + 5 / 2 - 2 * x.2), ?_, ?_⟩
  · intro x hx x' _
    refine ⟨_, rfl, ?_⟩
    simp only [exEnv, List.mem_singleton] at hx
    subst hx
    simp [sac, bellman, transition, expReward]
  · simp [exEnv, exPol, expect, pays]
    split <;> norm_num

theorem exTd3 : Fits exEnv (1 / 2) exPol (fun x => td3 (fun _ u => pays u + 1 / 2) (fun _ u => pays u + 1 / 2) [x.1]) (fun _ u => pays u + 1 / 2) := by
  rintro ⟨⟩ u
  refine ⟨fun o x => o.reward + 1 / 2 * (pays x.1 + 1 / 2), ?_, ?_⟩
  · intro x hx x' _
    refine ⟨_, rfl, ?_⟩
    simp only [exEnv, List.mem_singleton] at hx
    subst hx
    simp [td3, bellman, transition, expReward]
  · simp [exEnv, exPol, expect, pays]
    split <;> norm_num

theorem exDdpg : Fits exEnv (1 / 2) (fun _ => [(1, (true, 0))]) (fun x => ddpg (1 / 2) (fun _ u => pays u + 1) [x.1]) (fun _ u => pays u + 1) := by
  rintro ⟨⟩ u
  refine ⟨fun o x => o.reward + 1 / 2 * (pays x.1 + 1), ?_, ?_⟩
  · intro x hx x' _
    refine ⟨_, rfl, ?_⟩
    simp only [exEnv, List.mem_singleton] at hx
    subst hx
    simp [ddpg, bellman, transition, expReward]
  · simp [exEnv, expect, pays]
    norm_num

theorem pays_bound (c : ℚ) (hc : 0 ≤ c) (u : Bool) : |pays u + c| ≤ 1 + c := by
  rw [abs_of_nonneg] <;> unfold pays <;> split <;> linarith

example := C139_sac exEnv (1 / 2) 2 (by norm_num) exPol exValid _ _ (1 + 5 / 2) (fun _ u => pays_bound (5 / 2) (by norm_num) u) exSac exSac

example := C139_td3 exEnv (1 / 2) (by norm_num) exPol exValid _ _ (1 + 1 / 2) (fun _ u => pays_bound (1 / 2) (by norm_num) u) exTd3 exTd3

example := C139_ddpg exEnv (1 / 2) (by norm_num) (fun _ => true) ⟨fun _ u => ⟨by simp [exEnv], by simp [exEnv]⟩, fun _ => ⟨by simp, by simp⟩⟩
  _ (1 + 1) (fun _ u => pays_bound 1 (by norm_num) u) exDdpg

-- starting from critics that are 0 and 1 everywhere, with the values of the policy as above
example (Q' : Unit → Bool → ℚ) (h : Fits exEnv (1 / 2) exPol (fun x => sac 2 (fun _ _ => 0) (fun _ _ => 1) [x]) Q') (u : Bool) :
    |Q' () u - (pays u + 5 / 2)| ≤ 1 / 2 * (7 / 2) :=
  C139_sac_contraction exEnv (1 / 2) 2 (by norm_num) exPol exValid (fun _ _ => 0) (fun _ _ => 1) Q' (fun _ u => pays u + 5 / 2) (7 / 2) (by norm_num)
    (fun _ u => by simp [exEnv, exPol, expect, pays]; norm_num)
    (fun _ u => by cases u <;> norm_num [pays, abs_le]) (fun _ u => by cases u <;> norm_num [pays, abs_le]) h () u

end Verif.CMDP
