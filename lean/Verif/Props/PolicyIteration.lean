import Mathlib.Analysis.SpecificLimits.Basic
import Verif.Model.CopyParam
import Verif.Model.SAC
import Verif.Props.ContinuousPolicy

/-!
C149: alternating critics and actors of DDPG, TD3 and SoftActorCritic.

`C149_soft_targets`: critics with soft target updates converge.  `C149_sac`, `C149_ddpg`, `C149_td3`: actor updates improve the policy.
`C149_sac_iteration`, `C149_ddpg_iteration`: repeated, they reach the best policy.
-/

set_option autoImplicit false
set_option linter.unusedSectionVars false

open Filter Topology

namespace Verif.CMDP
open MDP Targets

variable {S U : Type}

/-! ### Values -/

/-- The values of a policy: what follows an action, then the policy's samples, with the bonus. -/
noncomputable def step (env : Env S U ℝ) (gamma temp : ℝ) (pol : Policy S U ℝ) (Q : S → U → ℝ) (s : S) (u : U) : ℝ :=
  expect (env s u) fun o => o.reward + if o.done then 0 else gamma * expect (pol o.next) fun x => Q o.next x.1 - temp * x.2

theorem step_close {env : Env S U ℝ} {gamma temp : ℝ} (hg : 0 ≤ gamma) {pol : Policy S U ℝ} (hv : Valid env pol) (Q Q' : S → U → ℝ) (δ : ℝ) (hδ : 0 ≤ δ)
    (h : ∀ s u, |Q s u - Q' s u| ≤ δ) (s : S) (u : U) : |step env gamma temp pol Q s u - step env gamma temp pol Q' s u| ≤ gamma * δ := by
  refine expect_close _ (hv.1 s u) _ _ _ (fun x _ => ?_)
  rw [add_sub_add_left_eq_sub]
  cases x.2.done with
  | true => simpa using mul_nonneg hg hδ
  | false =>
    simp only [Bool.false_eq_true, if_false]
    rw [← mul_sub, abs_mul, abs_of_nonneg hg]
    refine mul_le_mul_of_nonneg_left (expect_close _ (hv.2 _) _ _ _ (fun x' _ => ?_)) hg
    rw [sub_sub_sub_cancel_right]
    exact h _ _

theorem step_mono {env : Env S U ℝ} {gamma temp : ℝ} (hg : 0 ≤ gamma) {pol pol' : Policy S U ℝ} (hv : Valid env pol) (Q Q' : S → U → ℝ)
    (h : ∀ s, expect (pol s) (fun x => Q s x.1 - temp * x.2) ≤ expect (pol' s) fun x => Q' s x.1 - temp * x.2) (s : S) (u : U) :
    step env gamma temp pol Q s u ≤ step env gamma temp pol' Q' s u := by
  refine expect_mono _ (hv.1 s u) _ _ (fun x _ => ?_)
  cases x.2.done with
  | true => simp
  | false =>
    simp only [Bool.false_eq_true, if_false]
    have := mul_le_mul_of_nonneg_left (h x.2.next) hg
    linarith

theorem tendsto_expect {α : Type} (l : List (ℝ × α)) (f : ℕ → α → ℝ) (g : α → ℝ) (h : ∀ x ∈ l, Tendsto (fun k => f k x.2) atTop (𝓝 (g x.2))) :
    Tendsto (fun k => expect l (f k)) atTop (𝓝 (expect l g)) := by
  unfold expect
  induction l with
  | nil => simp
  | cons x l ih =>
    simp only [List.map_cons, List.sum_cons]
    exact ((h x (by simp)).const_mul _).add (ih fun y hy => h y (List.mem_cons_of_mem _ hy))

theorem ret_succ (env : Env S U ℝ) (gamma temp : ℝ) (pol : Policy S U ℝ) (n : ℕ) (s : S) (u : U) :
    ret env gamma temp pol (n + 1) s u = step env gamma temp pol (ret env gamma temp pol n) s u := by
  unfold step
  rw [ret]
  refine expect_congr _ _ _ fun x _ => ?_
  split
  · rfl
  · congr 2
    refine expect_congr _ _ _ fun y _ => ?_
    ring

/-- With bounded expected rewards and bonuses the values of a policy exist. -/
theorem values_exist {env : Env S U ℝ} {gamma temp : ℝ} (hg : 0 ≤ gamma) (hg1 : gamma < 1) {pol : Policy S U ℝ} (hv : Valid env pol) (C : ℝ)
    (hC : ∀ s u, |step env gamma temp pol (fun _ _ => 0) s u| ≤ C) :
    ∃ Q : S → U → ℝ, (∀ s u, |Q s u| ≤ C / (1 - gamma)) ∧ ∀ s u, Q s u = step env gamma temp pol Q s u := by
  have hclose : ∀ (k : ℕ) (s : S) (u : U), |ret env gamma temp pol k s u - ret env gamma temp pol (k + 1) s u| ≤ C * gamma ^ k := by
    intro k
    induction k with
    | zero =>
      intro s u
      rw [ret_succ, abs_sub_comm]
      simp only [pow_zero, mul_one]
      have := hC s u
      simpa [ret] using this
    | succ k ih =>
      intro s u
      rw [ret_succ env gamma temp pol k, ret_succ env gamma temp pol (k + 1), pow_succ, ← mul_assoc, mul_comm _ gamma]
      exact step_close hg hv _ _ _ ((abs_nonneg _).trans (ih s u)) ih s u
  have hlim : ∀ s u, ∃ l, Tendsto (fun k => ret env gamma temp pol k s u) atTop (𝓝 l) := fun s u =>
    cauchySeq_tendsto_of_complete (cauchySeq_of_le_geometric gamma C hg1 (f := fun k => ret env gamma temp pol k s u) fun k => by
      rw [Real.dist_eq]; exact hclose k s u)
  choose Q hQ using hlim
  refine ⟨Q, fun s u => ?_, fun s u => ?_⟩
  · have := dist_le_of_le_geometric_of_tendsto gamma C hg1 (f := fun k => ret env gamma temp pol k s u)
      (fun k => by rw [Real.dist_eq]; exact hclose k s u) (hQ s u) 0
    rw [Real.dist_eq] at this
    simpa [ret] using this
  · have h1 := (tendsto_add_atTop_iff_nat 1).2 (hQ s u)
    simp only [ret_succ] at h1
    refine tendsto_nhds_unique h1 ?_
    unfold step
    refine tendsto_expect _ _ _ fun x _ => ?_
    cases x.2.done with
    | true => simp
    | false =>
      simp only [Bool.false_eq_true, if_false]
      refine tendsto_const_nhds.add (Tendsto.const_mul _ ?_)
      exact tendsto_expect _ _ _ fun y _ => (hQ _ _).sub tendsto_const_nhds

theorem sac_step {env : Env S U ℝ} {gamma temp : ℝ} {pol : Policy S U ℝ} (hv : Valid env pol) {Q1 Q2 Q' : S → U → ℝ}
    (h : Fits env gamma pol (fun x => sac temp Q1 Q2 [x]) Q') (s : S) (u : U) :
    Q' s u = step env gamma temp pol (fun s u => min (Q1 s u) (Q2 s u)) s u :=
  fits_eq hv h (fun s x => min (Q1 s x.1) (Q2 s x.1) - temp * x.2) (sac_next gamma temp Q1 Q2) s u

theorem td3_step {env : Env S U ℝ} {gamma : ℝ} {pol : Policy S U ℝ} (hv : Valid env pol) {Q1 Q2 Q' : S → U → ℝ}
    (h : Fits env gamma pol (fun x => td3 Q1 Q2 [x.1]) Q') (s : S) (u : U) :
    Q' s u = step env gamma 0 pol (fun s u => min (Q1 s u) (Q2 s u)) s u := by
  rw [fits_eq hv h (fun s x => min (Q1 s x.1) (Q2 s x.1)) (td3_next gamma Q1 Q2) s u]
  unfold step
  simp

theorem ddpg_step {env : Env S U ℝ} {gamma : ℝ} {act : S → U} (hv : Valid env fun s => [(1, (act s, 0))]) {Q Q' : S → U → ℝ}
    (h : Fits env gamma (fun s => [(1, (act s, 0))]) (fun x => ddpg gamma Q [x.1]) Q') (s : S) (u : U) :
    Q' s u = step env gamma 0 (fun s => [(1, (act s, 0))]) Q s u := by
  rw [fits_eq hv h (fun s x => Q s x.1) (ddpg_next gamma Q) s u]
  unfold step
  simp

/-! ### Soft target updates -/

/-- **C149**: let the critics of SoftActorCritic be fitted to the targets computed with the target critics, and the target critics then be updated softly, again and again,
for a fixed policy with bounded expected rewards and bonuses.  Then the target critics approach the values of the policy by the factor `1 - tau * (1 - gamma)` in each round. -/
theorem C149_soft_targets (env : Env S U ℝ) (gamma temp tau : ℝ) (hg : 0 ≤ gamma) (hg1 : gamma < 1) (ht0 : 0 ≤ tau) (ht1 : tau ≤ 1)
    (pol : Policy S U ℝ) (hv : Valid env pol) (C : ℝ) (hC : ∀ s u, |step env gamma temp pol (fun _ _ => 0) s u| ≤ C)
    (T1 T2 Q1 Q2 : ℕ → S → U → ℝ) (B : ℝ) (hB : ∀ s u, |T1 0 s u| ≤ B ∧ |T2 0 s u| ≤ B)
    (h1 : ∀ k, Fits env gamma pol (fun x => sac temp (T1 k) (T2 k) [x]) (Q1 (k + 1)))
    (h2 : ∀ k, Fits env gamma pol (fun x => sac temp (T1 k) (T2 k) [x]) (Q2 (k + 1)))
    (hs1 : ∀ k s u, T1 (k + 1) s u = CopyParam.soft tau (T1 k s u) (Q1 (k + 1) s u))
    (hs2 : ∀ k s u, T2 (k + 1) s u = CopyParam.soft tau (T2 k s u) (Q2 (k + 1) s u)) :
    ∃ Qp : S → U → ℝ, (∀ n s u, |Qp s u - ret env gamma temp pol n s u| ≤ gamma ^ n * (C / (1 - gamma))) ∧
      ∀ k s u, |T1 k s u - Qp s u| ≤ (1 - tau * (1 - gamma)) ^ k * (B + C / (1 - gamma)) ∧
        |T2 k s u - Qp s u| ≤ (1 - tau * (1 - gamma)) ^ k * (B + C / (1 - gamma)) ∧
        |Q1 (k + 1) s u - Qp s u| ≤ gamma * ((1 - tau * (1 - gamma)) ^ k * (B + C / (1 - gamma))) := by
  obtain ⟨Qp, hb, hQp⟩ := values_exist hg hg1 hv C hC
  refine ⟨Qp, fun n s u => values_of_equation env gamma temp hg pol hv Qp _ hb hQp n s u, ?_⟩
  set ρ := 1 - tau * (1 - gamma) with hρ
  have hρ0 : 0 ≤ ρ := by
    have : tau * (1 - gamma) ≤ 1 * 1 := mul_le_mul ht1 (by linarith) (by linarith) zero_le_one
    linarith
  have key : ∀ k, (∀ s u, |T1 k s u - Qp s u| ≤ ρ ^ k * (B + C / (1 - gamma))) ∧ (∀ s u, |T2 k s u - Qp s u| ≤ ρ ^ k * (B + C / (1 - gamma))) →
      (∀ s u, |Q1 (k + 1) s u - Qp s u| ≤ gamma * (ρ ^ k * (B + C / (1 - gamma)))) ∧
      ∀ s u, |Q2 (k + 1) s u - Qp s u| ≤ gamma * (ρ ^ k * (B + C / (1 - gamma))) := by
    intro k ih
    have hm : ∀ s u, |min (T1 k s u) (T2 k s u) - Qp s u| ≤ ρ ^ k * (B + C / (1 - gamma)) := fun s u => min_close _ _ _ _ (ih.1 s u) (ih.2 s u)
    constructor <;> intro s u
    · rw [sac_step hv (h1 k), hQp]
      exact step_close hg hv _ _ _ ((abs_nonneg _).trans (hm s u)) hm s u
    · rw [sac_step hv (h2 k), hQp]
      exact step_close hg hv _ _ _ ((abs_nonneg _).trans (hm s u)) hm s u
  have move : ∀ a b c δ : ℝ, |a - c| ≤ δ → |b - c| ≤ gamma * δ → |CopyParam.soft tau a b - c| ≤ ρ * δ := by
    intro a b c δ i1 i2
    have e : CopyParam.soft tau a b - c = (1 - tau) * (a - c) + tau * (b - c) := by unfold CopyParam.soft; ring
    rw [e]
    refine (abs_add_le _ _).trans ?_
    rw [abs_mul, abs_mul, abs_of_nonneg ht0, abs_of_nonneg (sub_nonneg.2 ht1)]
    have j1 := mul_le_mul_of_nonneg_left i1 (sub_nonneg.2 ht1)
    have j2 := mul_le_mul_of_nonneg_left i2 ht0
    calc _ ≤ _ := add_le_add j1 j2
      _ = _ := by rw [hρ]; ring
  have all : ∀ k, (∀ s u, |T1 k s u - Qp s u| ≤ ρ ^ k * (B + C / (1 - gamma))) ∧ ∀ s u, |T2 k s u - Qp s u| ≤ ρ ^ k * (B + C / (1 - gamma)) := by
    intro k
    induction k with
    | zero =>
      constructor <;> intro s u <;> rw [pow_zero, one_mul]
      · exact (abs_sub _ _).trans (add_le_add (hB s u).1 (hb s u))
      · exact (abs_sub _ _).trans (add_le_add (hB s u).2 (hb s u))
    | succ k ih =>
      obtain ⟨k1, k2⟩ := key k ih
      constructor <;> intro s u
      · rw [hs1, pow_succ', mul_assoc]
        exact move _ _ _ _ (ih.1 s u) (k1 s u)
      · rw [hs2, pow_succ', mul_assoc]
        exact move _ _ _ _ (ih.2 s u) (k2 s u)
  exact fun k s u => ⟨(all k).1 s u, (all k).2 s u, (key k (all k)).1 s u⟩

/-! ### Improvement -/

/-- A limit of `gamma ^ n`. -/
theorem le_of_pow {gamma : ℝ} (hg : 0 ≤ gamma) (hg1 : gamma < 1) {a b D : ℝ} (h : ∀ n : ℕ, a ≤ b + gamma ^ n * D) : a ≤ b := by
  have h1 : Tendsto (fun n : ℕ => b + gamma ^ n * D) atTop (𝓝 (b + 0 * D)) :=
    tendsto_const_nhds.add ((tendsto_pow_atTop_nhds_zero_of_lt_one hg hg1).mul_const D)
  rw [zero_mul, add_zero] at h1
  exact ge_of_tendsto' h1 h

section
variable {env : Env S U ℝ} {gamma temp : ℝ} (hg : 0 ≤ gamma) (hg1 : gamma < 1)
include hg hg1

/-- Values that a policy's step does not decrease are at most its own values. -/
theorem le_values {pol : Policy S U ℝ} (hv : Valid env pol) {Q Q' : S → U → ℝ} {B : ℝ} (hB : ∀ s u, |Q s u| ≤ B) (hB' : ∀ s u, |Q' s u| ≤ B)
    (h : ∀ s u, Q s u ≤ step env gamma temp pol Q s u) (h' : ∀ s u, Q' s u = step env gamma temp pol Q' s u) (s : S) (u : U) : Q s u ≤ Q' s u := by
  have key : ∀ n : ℕ, ∀ s u, Q s u ≤ Q' s u + gamma ^ n * (2 * B) := by
    intro n
    induction n with
    | zero =>
      intro s u
      have h1 := abs_le.1 (hB s u)
      have h2 := abs_le.1 (hB' s u)
      rw [pow_zero]; linarith
    | succ n ih =>
      intro s u
      have hB0 : 0 ≤ B := (abs_nonneg _).trans (hB s u)
      refine (h s u).trans ?_
      have h1 : step env gamma temp pol Q s u ≤ step env gamma temp pol (fun s u => Q' s u + gamma ^ n * (2 * B)) s u :=
        step_mono hg hv _ _ (fun s => expect_mono _ (hv.2 s) _ _ fun x _ => by have := ih s x.2.1; linarith) s u
      have h2 := (abs_le.1 (step_close (temp := temp) hg hv (fun s u => Q' s u + gamma ^ n * (2 * B)) Q' (gamma ^ n * (2 * B)) (by positivity)
        (fun s u => by rw [add_sub_cancel_left, abs_of_nonneg (by positivity)]) s u)).2
      rw [← h' s u] at h2
      rw [pow_succ', mul_assoc]
      linarith
  exact le_of_pow hg hg1 fun n => key n s u

theorem improve {pol pol' : Policy S U ℝ} (hv : Valid env pol) (hv' : Valid env pol') {Q Q' : S → U → ℝ} {B : ℝ} (hB : ∀ s u, |Q s u| ≤ B)
    (hB' : ∀ s u, |Q' s u| ≤ B) (h : ∀ s u, Q s u = step env gamma temp pol Q s u) (h' : ∀ s u, Q' s u = step env gamma temp pol' Q' s u)
    (hl : ∀ s, expect (pol s) (fun x => Q s x.1 - temp * x.2) ≤ expect (pol' s) fun x => Q s x.1 - temp * x.2) (s : S) (u : U) : Q s u ≤ Q' s u :=
  le_values hg hg1 hv' hB hB' (fun s u => (h s u).le.trans (step_mono hg hv Q Q hl s u)) h' s u

/-- One round of policy iteration against a competitor. -/
theorem iterate_step {pol pol' comp : Policy S U ℝ} (hv : Valid env pol) (hv' : Valid env pol') (hc : Valid env comp) {Q Q' Qc : S → U → ℝ} {B : ℝ}
    (hB : ∀ s u, |Q s u| ≤ B) (hB' : ∀ s u, |Q' s u| ≤ B) (h : ∀ s u, Q s u = step env gamma temp pol Q s u)
    (h' : ∀ s u, Q' s u = step env gamma temp pol' Q' s u) (hQc : ∀ s u, Qc s u = step env gamma temp comp Qc s u)
    (hl : ∀ s, expect (pol s) (fun x => Q s x.1 - temp * x.2) ≤ expect (pol' s) fun x => Q s x.1 - temp * x.2)
    (hlc : ∀ s, expect (comp s) (fun x => Q s x.1 - temp * x.2) ≤ expect (pol' s) fun x => Q s x.1 - temp * x.2)
    (δ : ℝ) (hδ : 0 ≤ δ) (hd : ∀ s u, Qc s u ≤ Q s u + δ) (s : S) (u : U) : Qc s u ≤ Q' s u + gamma * δ := by
  have himp := improve hg hg1 hv hv' hB hB' h h' hl
  rw [hQc s u, h' s u]
  have h1 : step env gamma temp comp Qc s u ≤ step env gamma temp comp (fun s u => Q s u + δ) s u :=
    step_mono hg hc _ _ (fun s => expect_mono _ (hc.2 s) _ _ fun x _ => by have := hd s x.2.1; linarith) s u
  have h2 := (abs_le.1 (step_close (temp := temp) hg hc (fun s u => Q s u + δ) Q δ hδ
    (fun s u => by rw [add_sub_cancel_left, abs_of_nonneg hδ]) s u)).2
  have h3 := step_mono hg hc Q Q hlc s u
  have h4 : step env gamma temp pol' Q s u ≤ step env gamma temp pol' Q' s u :=
    step_mono hg hv' _ _ (fun s => expect_mono _ (hv'.2 s) _ _ fun x _ => by have := himp s x.2.1; linarith) s u
  linarith

end

/-- The expected loss of SoftActorCritic's policy in a state. -/
noncomputable def sacLoss (temp : ℝ) (Q1 Q2 : S → U → ℝ) (pol : Policy S U ℝ) (s : S) : ℝ :=
  expect (pol s) fun x => SAC.policyLoss temp [⟨x.2, Q1 s x.1, Q2 s x.1⟩]

/-- Both critics meet, on average, the targets computed from them, and are bounded. -/
structure SACValues (env : Env S U ℝ) (gamma temp : ℝ) (B : ℝ) (pol : Policy S U ℝ) (Q1 Q2 : S → U → ℝ) : Prop where
  valid : Valid env pol
  bound : ∀ s u, |Q1 s u| ≤ B
  fits1 : Fits env gamma pol (fun x => sac temp Q1 Q2 [x]) Q1
  fits2 : Fits env gamma pol (fun x => sac temp Q1 Q2 [x]) Q2

theorem SACValues.eqn {env : Env S U ℝ} {gamma temp B : ℝ} (hg : 0 ≤ gamma) {pol : Policy S U ℝ} {Q1 Q2 : S → U → ℝ} (h : SACValues env gamma temp B pol Q1 Q2) :
    (∀ s u, Q1 s u = Q2 s u) ∧ (∀ s u, Q1 s u = step env gamma temp pol Q1 s u) ∧
    ∀ (p : Policy S U ℝ) s, sacLoss temp Q1 Q2 p s = -expect (p s) fun x => Q1 s x.1 - temp * x.2 := by
  have e := (C139_sac env gamma temp hg pol h.valid Q1 Q2 B h.bound h.fits1 h.fits2).1
  have e' : Q2 = Q1 := by funext s u; exact (e s u).symm
  refine ⟨e, fun s u => ?_, fun p s => ?_⟩
  · have := sac_step h.valid h.fits1 s u
    rwa [e', funext fun s => funext fun u => min_self (Q1 s u)] at this
  · rw [e', sacLoss]
    have := expect_affine (p s) (fun x => Q1 s x.1 - temp * x.2) (-1) 0
    rw [zero_mul, add_zero, neg_one_mul] at this
    rw [← this]
    refine expect_congr _ _ _ fun x _ => ?_
    simp [SAC.policyLoss, SAC.mean]

/-- The critic meets the targets of DDPG and is bounded. -/
structure DDPGValues (env : Env S U ℝ) (gamma : ℝ) (B : ℝ) (act : S → U) (Q : S → U → ℝ) : Prop where
  valid : Valid env fun s => [(1, (act s, 0))]
  bound : ∀ s u, |Q s u| ≤ B
  fits : Fits env gamma (fun s => [(1, (act s, 0))]) (fun x => ddpg gamma Q [x.1]) Q

/-- Both critics meet the targets of TD3 without smoothing and are bounded. -/
structure TD3Values (env : Env S U ℝ) (gamma : ℝ) (B : ℝ) (pol : Policy S U ℝ) (Q1 Q2 : S → U → ℝ) : Prop where
  valid : Valid env pol
  bound : ∀ s u, |Q1 s u| ≤ B
  fits1 : Fits env gamma pol (fun x => td3 Q1 Q2 [x.1]) Q1
  fits2 : Fits env gamma pol (fun x => td3 Q1 Q2 [x.1]) Q2

theorem TD3Values.eqn {env : Env S U ℝ} {gamma B : ℝ} (hg : 0 ≤ gamma) {pol : Policy S U ℝ} {Q1 Q2 : S → U → ℝ} (h : TD3Values env gamma B pol Q1 Q2) :
    ∀ s u, Q1 s u = step env gamma 0 pol Q1 s u := by
  have e := (C139_td3 env gamma hg pol h.valid Q1 Q2 B h.bound h.fits1 h.fits2).1
  have e' : Q2 = Q1 := by funext s u; exact (e s u).symm
  intro s u
  have := td3_step h.valid h.fits1 s u
  rwa [e', funext fun s => funext fun u => min_self (Q1 s u)] at this

section
variable (env : Env S U ℝ) (gamma : ℝ) (hg : 0 ≤ gamma) (hg1 : gamma < 1)
include hg hg1

/-- **C149**, SoftActorCritic: a policy whose loss, computed with the critics of the old policy, is in no state above that of the old one has at least its values,
bonus included, for all states and actions. -/
theorem C149_sac (temp B : ℝ) (pol pol' : Policy S U ℝ) (Q1 Q2 Q1' Q2' : S → U → ℝ) (h : SACValues env gamma temp B pol Q1 Q2)
    (h' : SACValues env gamma temp B pol' Q1' Q2') (hl : ∀ s, sacLoss temp Q1 Q2 pol' s ≤ sacLoss temp Q1 Q2 pol s) (s : S) (u : U) : Q1 s u ≤ Q1' s u := by
  obtain ⟨-, e1, e2⟩ := h.eqn hg
  refine improve hg hg1 h.valid h'.valid h.bound h'.bound e1 (h'.eqn hg).2.1 (fun s => ?_) s u
  have := hl s
  rw [e2, e2] at this
  linarith

/-- **C149**, DDPG: a policy whose actions have, in every state, at least the critic's values of those of the old policy, so that the loss is not above in any state, has
at least its returns. -/
theorem C149_ddpg (B : ℝ) (act act' : S → U) (Q Q' : S → U → ℝ) (h : DDPGValues env gamma B act Q) (h' : DDPGValues env gamma B act' Q')
    (hl : ∀ s, SAC.td3PolicyLoss [Q s (act' s)] ≤ SAC.td3PolicyLoss [Q s (act s)]) (s : S) (u : U) : Q s u ≤ Q' s u := by
  refine improve hg hg1 h.valid h'.valid h.bound h'.bound (ddpg_step h.valid h.fits) (ddpg_step h'.valid h'.fits) (fun s => ?_) s u
  have := hl s
  simp only [SAC.td3PolicyLoss, SAC.mean] at this
  simpa [expect] using this

/-- **C149**, TD3 without target policy smoothing. -/
theorem C149_td3 (B : ℝ) (pol pol' : Policy S U ℝ) (Q1 Q2 Q1' Q2' : S → U → ℝ) (h : TD3Values env gamma B pol Q1 Q2)
    (h' : TD3Values env gamma B pol' Q1' Q2')
    (hl : ∀ s, expect (pol' s) (fun x => SAC.td3PolicyLoss [Q1 s x.1]) ≤ expect (pol s) fun x => SAC.td3PolicyLoss [Q1 s x.1]) (s : S) (u : U) :
    Q1 s u ≤ Q1' s u := by
  refine improve hg hg1 h.valid h'.valid h.bound h'.bound (h.eqn hg) (h'.eqn hg) (fun s => ?_) s u
  have e : ∀ p : Policy S U ℝ, expect (p s) (fun x => SAC.td3PolicyLoss [Q1 s x.1]) = -expect (p s) fun x => Q1 s x.1 - 0 * x.2 := fun p => by
    have := expect_affine (p s) (fun x => Q1 s x.1 - 0 * x.2) (-1) 0
    rw [zero_mul, add_zero, neg_one_mul] at this
    rw [← this]
    refine expect_congr _ _ _ fun x _ => ?_
    simp [SAC.td3PolicyLoss, SAC.mean]
  have := hl s
  rw [e, e] at this
  linarith

/-- **C149**, SoftActorCritic: when each policy's loss is in every state as small as that of the policy before and of a competitor, the values approach or exceed
those of the competitor by the factor `gamma` in each round. -/
theorem C149_sac_iteration (temp B : ℝ) (pol : ℕ → Policy S U ℝ) (Q1 Q2 : ℕ → S → U → ℝ) (h : ∀ k, SACValues env gamma temp B (pol k) (Q1 k) (Q2 k))
    (comp : Policy S U ℝ) (R1 R2 : S → U → ℝ) (hc : SACValues env gamma temp B comp R1 R2)
    (hl : ∀ k s, sacLoss temp (Q1 k) (Q2 k) (pol (k + 1)) s ≤ sacLoss temp (Q1 k) (Q2 k) (pol k) s ∧
      sacLoss temp (Q1 k) (Q2 k) (pol (k + 1)) s ≤ sacLoss temp (Q1 k) (Q2 k) comp s) (k : ℕ) :
    ∀ s u, R1 s u ≤ Q1 k s u + gamma ^ k * (2 * B) := by
  induction k with
  | zero =>
    intro s u
    have h1 := abs_le.1 ((h 0).bound s u)
    have h2 := abs_le.1 (hc.bound s u)
    rw [pow_zero]; linarith
  | succ k ih =>
    intro s u
    have hB0 : 0 ≤ B := (abs_nonneg _).trans (hc.bound s u)
    obtain ⟨-, e1, e2⟩ := (h k).eqn hg
    rw [pow_succ', mul_assoc]
    refine iterate_step hg hg1 (h k).valid (h (k + 1)).valid hc.valid (h k).bound (h (k + 1)).bound e1 ((h (k + 1)).eqn hg).2.1 (hc.eqn hg).2.1
      (fun s => ?_) (fun s => ?_) _ (by positivity) ih s u
    · have := (hl k s).1
      rw [e2, e2] at this
      linarith
    · have := (hl k s).2
      rw [e2, e2] at this
      linarith

/-- **C149**, DDPG: when each policy's actions maximise the critic of the policy before in every state, the values approach or exceed those of every other policy. -/
theorem C149_ddpg_iteration (B : ℝ) (act : ℕ → S → U) (Q : ℕ → S → U → ℝ) (h : ∀ k, DDPGValues env gamma B (act k) (Q k))
    (hmax : ∀ k s u, Q k s u ≤ Q k s (act (k + 1) s)) (comp : S → U) (R : S → U → ℝ) (hc : DDPGValues env gamma B comp R) (k : ℕ) :
    ∀ s u, R s u ≤ Q k s u + gamma ^ k * (2 * B) := by
  induction k with
  | zero =>
    intro s u
    have h1 := abs_le.1 ((h 0).bound s u)
    have h2 := abs_le.1 (hc.bound s u)
    rw [pow_zero]; linarith
  | succ k ih =>
    intro s u
    have hB0 : 0 ≤ B := (abs_nonneg _).trans (hc.bound s u)
    rw [pow_succ', mul_assoc]
    refine iterate_step hg hg1 (h k).valid (h (k + 1)).valid hc.valid (h k).bound (h (k + 1)).bound (ddpg_step (h k).valid (h k).fits)
      (ddpg_step (h (k + 1)).valid (h (k + 1)).fits) (ddpg_step hc.valid hc.fits) (fun s => ?_) (fun s => ?_) _ (by positivity) ih s u
    · have := hmax k s (act k s)
      simpa [expect] using this
    · have := hmax k s (comp s)
      simpa [expect] using this

end

/-! ### A case: one state, an action is a number between 0 and 1 that is the reward, and the episode goes on -/

/-- The process. -/
def payEnv : Env Unit (Set.Icc (0 : ℝ) 1) ℝ := fun _ u => [(1, ⟨u, (), false⟩)]

theorem pay_values (c : Set.Icc (0 : ℝ) 1) : DDPGValues payEnv (1 / 2) 2 (fun _ => c) fun _ u => (u : ℝ) + c := by
  refine ⟨⟨fun _ u => ⟨by simp [payEnv], by simp [payEnv]⟩, fun _ => ⟨by simp, by simp⟩⟩, fun _ u => ?_, fun s u => ?_⟩
  · have h1 := u.2.1; have h2 := u.2.2; have h3 := c.2.1; have h4 := c.2.2
    rw [abs_le]; constructor <;> linarith
  · refine ⟨fun o x => o.reward + 1 / 2 * ((x.1 : ℝ) + c), fun x hx x' _ => ⟨_, rfl, ?_⟩, ?_⟩
    · simp only [payEnv, List.mem_singleton] at hx
      subst hx
      simp [ddpg, bellman, transition, expReward]
    · simp [payEnv, expect]
      ring

/-- The hypotheses of `C149_ddpg` and `C149_ddpg_iteration` are met. -/
example (c : Set.Icc (0 : ℝ) 1) (k : ℕ) (u : Set.Icc (0 : ℝ) 1) :
    (u : ℝ) + c ≤ (u : ℝ) + (if k = 0 then (0 : Set.Icc (0 : ℝ) 1) else 1 : Set.Icc (0 : ℝ) 1) + (1 / 2) ^ k * (2 * 2) := by
  refine C149_ddpg_iteration payEnv (1 / 2) (by norm_num) (by norm_num) 2 (fun k _ => if k = 0 then 0 else 1)
    (fun k _ u => (u : ℝ) + (if k = 0 then (0 : Set.Icc (0 : ℝ) 1) else 1 : Set.Icc (0 : ℝ) 1)) (fun k => pay_values _)
    (fun k s u => ?_) (fun _ => c) (fun _ u => (u : ℝ) + c) (pay_values c) k () u
  have := u.2.2
  simpa using this

/-- The values of a policy that always takes `c`, with a log-probability of 0 (a point of density 1), for SoftActorCritic. -/
theorem pay_sac (c : Set.Icc (0 : ℝ) 1) :
    Fits payEnv (1 / 2) (fun _ => [(1, c, 0)]) (fun x => sac (1 / 5) (fun _ (u : Set.Icc (0 : ℝ) 1) => (u : ℝ) + c) (fun _ u => (u : ℝ) + c) [x]) fun _ u => (u : ℝ) + c := by
  intro s u
  refine ⟨fun o x => o.reward + 1 / 2 * ((x.1 : ℝ) + c - 1 / 5 * x.2), fun x hx x' _ => ⟨_, rfl, ?_⟩, ?_⟩
  · simp only [payEnv, List.mem_singleton] at hx
    subst hx
    simp [sac, bellman, transition, expReward]
  · simp [payEnv, expect]
    ring

theorem pay_sac_values (c : Set.Icc (0 : ℝ) 1) :
    SACValues payEnv (1 / 2) (1 / 5) 2 (fun _ => [(1, c, 0)]) (fun _ (u : Set.Icc (0 : ℝ) 1) => (u : ℝ) + c) fun _ u => (u : ℝ) + c :=
  ⟨⟨fun _ u => ⟨by simp [payEnv], by simp [payEnv]⟩, fun _ => ⟨by simp, by simp⟩⟩, (pay_values c).bound, pay_sac c, pay_sac c⟩

/-- The hypotheses of `C149_sac` and `C149_soft_targets` are met. -/
example (c : Set.Icc (0 : ℝ) 1) (u : Set.Icc (0 : ℝ) 1) : (u : ℝ) + c ≤ (u : ℝ) + (1 : Set.Icc (0 : ℝ) 1) :=
  C149_sac payEnv (1 / 2) (by norm_num) (by norm_num) (1 / 5) 2 _ _ _ _ _ _ (pay_sac_values c) (pay_sac_values 1) (fun s => by
    have := c.2.2
    simpa [sacLoss, expect, SAC.policyLoss, SAC.mean] using this) () u

example (c : Set.Icc (0 : ℝ) 1) : ∃ Qp : Unit → Set.Icc (0 : ℝ) 1 → ℝ,
    ∀ (k : ℕ) (u : Set.Icc (0 : ℝ) 1), |(u : ℝ) + c - Qp () u| ≤ (1 - 1 / 100 * (1 - 1 / 2)) ^ k * (2 + 2 / (1 - 1 / 2)) := by
  have hC : ∀ s (u : Set.Icc (0 : ℝ) 1), |step payEnv (1 / 2) (1 / 5) (fun _ => [(1, c, 0)]) (fun _ _ => 0) s u| ≤ 2 := fun s u => by
    have h1 := u.2.1; have h2 := u.2.2
    simp only [step, payEnv, expect]
    rw [abs_le]; constructor <;> simp <;> linarith
  obtain ⟨Qp, -, h⟩ := C149_soft_targets payEnv (1 / 2) (1 / 5) (1 / 100) (by norm_num) (by norm_num) (by norm_num) (by norm_num) (fun _ => [(1, c, 0)])
    (pay_sac_values c).valid 2 hC (fun _ _ u => (u : ℝ) + c) (fun _ _ u => (u : ℝ) + c) (fun _ _ u => (u : ℝ) + c) (fun _ _ u => (u : ℝ) + c) 2
    (fun s u => ⟨(pay_values c).bound s u, (pay_values c).bound s u⟩) (fun _ => pay_sac c) (fun _ => pay_sac c)
    (fun k s u => by simp only [CopyParam.soft]; ring) (fun k s u => by simp only [CopyParam.soft]; ring)
  exact ⟨Qp, fun k u => (h k () u).1⟩

end Verif.CMDP
