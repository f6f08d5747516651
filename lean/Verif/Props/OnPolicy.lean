import Mathlib.Tactic.Linarith
import Mathlib.Tactic.Ring
import Verif.Spec.OnPolicy
import Verif.Props.Retrace
import Verif.Props.PPOData
import Verif.Props.NStep
import Verif.Props.A2C
set_option autoImplicit false
set_option linter.unusedSectionVars false

/-! # C138: the targets of A3C, A2C, PPO and TRPO evaluate the current policy -/

namespace Verif.MDP
variable {S K : Type} [Field K] [LinearOrder K] [IsStrictOrderedRing K]

/-! ## The targets of the first step of a path -/

/-- What PPO and TRPO read of a step. -/
def vtrans (V : S → K) (e : Exp S K) : PPOData.VTrans K := ⟨e.out.reward, if e.out.done then 0 else 1, V e.state, V e.out.next⟩

/-- The advantage and the value target that PPO and TRPO compute. -/
def ppoTarget (gamma lambd : K) (V : S → K) (l : List (Exp S K)) : K × K :=
  (PPOData.addAdvantage gamma lambd (l.map (vtrans V))).1.headD (0, 0)

/-- The return target of A3C. -/
def a3cTarget (gamma : K) (V : S → K) (l : List (Exp S K)) : K :=
  ((NStepAgent.returnsOf gamma (endOf V l) (l.map fun e => (⟨V e.state, (), e.out.reward⟩ : NStepAgent.Step Unit K))).headD ((), 0)).2

/-- What A2C reads of a step. -/
def a2cStep (V : S → K) (e : Exp S K) : A2C.Step K := ⟨V e.state, e.out.reward, e.out.done, false, V e.out.next⟩

/-- The return target of A2C, with or without GAE; when the episode has ended, the rollout goes on with any other steps `rest` and any value at its end. -/
def a2cTarget (gamma : K) (tau : Option K) (V : S → K) (rest : List (A2C.Step K)) (boot : K) (l : List (Exp S K)) : K :=
  match l.getLast? with
  | none => 0
  | some e => if e.out.done then A2C.target gamma tau boot (l.map (a2cStep V) ++ rest) else A2C.target gamma tau (V e.out.next) (l.map (a2cStep V))

/-- What the targets have in common. -/
structure Lambda (gamma lambd : K) (V : S → K) (G : List (Exp S K) → K) : Prop where
  one : ∀ e, G [e] = e.out.reward + if e.out.done then 0 else gamma * V e.out.next
  more : ∀ e f l, e.out.done = false → f.state = e.out.next → G (e :: f :: l) = e.out.reward + gamma * ((1 - lambd) * V e.out.next + lambd * G (f :: l))

theorem ppo_lambda (gamma lambd : K) (V : S → K) : Lambda gamma lambd V fun l => (ppoTarget gamma lambd V l).2 where
  one e := by
    simp only [ppoTarget, List.map_cons, List.map_nil, PPOData.addAdvantage, List.headD_cons, vtrans]
    split <;> ring
  more e f l he hf := by
    simp only [ppoTarget, List.map_cons, PPOData.addAdvantage, List.headD_cons, vtrans, he, hf]
    simp only [Bool.false_eq_true, if_false]
    ring

theorem ppo_adv (gamma lambd : K) (V : S → K) (e : Exp S K) (l : List (Exp S K)) :
    (ppoTarget gamma lambd V (e :: l)).1 = (ppoTarget gamma lambd V (e :: l)).2 - V e.state := by
  simp only [ppoTarget, List.map_cons, PPOData.addAdvantage, List.headD_cons, vtrans]
  ring

theorem a3c_lambda (gamma : K) (V : S → K) : Lambda gamma 1 V (a3cTarget gamma V) where
  one e := by
    simp only [a3cTarget, endOf, List.map_cons, List.map_nil, NStepAgent.returnsOf, List.headD_cons, List.getLast?_singleton, discounted, List.length_singleton]
    split <;> ring
  more e f l _ _ := by
    simp only [a3cTarget, endOf, List.map_cons, NStepAgent.returnsOf, List.headD_cons, List.getLast?_cons_cons, discounted, List.length_cons]
    ring

theorem a2c_ended (gamma : K) (tau : Option K) (boot : K) (s : A2C.Step K) (l : List (A2C.Step K)) (h : s.ended = true) :
    A2C.target gamma tau boot (s :: l) = s.reward := by
  cases tau with
  | none => simp [A2C.target, A2C.ret, A2C.untilEnd, h, discounted]
  | some t => simp [A2C.target, A2C.gae, A2C.untilEnd, h, discounted, A2C.deltas, A2C.valueOf]

theorem a2c_goes_on (gamma : K) (tau : Option K) (boot : K) (s : A2C.Step K) (l : List (A2C.Step K)) (h : s.ended = false) :
    A2C.target gamma tau boot (s :: l) = s.reward + gamma * ((1 - tau.getD 1) * A2C.valueOf boot l + tau.getD 1 * A2C.target gamma tau boot l) := by
  cases tau with
  | none =>
    simp only [A2C.target, A2C.ret, A2C.untilEnd, h, Bool.false_eq_true, if_false, List.map_cons, discounted, List.any_cons, Bool.false_or, List.length_cons,
      Option.getD_none]
    split <;> ring
  | some t =>
    have hv : A2C.valueOf boot (A2C.untilEnd l) = A2C.valueOf boot l := by
      cases l with
      | nil => rfl
      | cons a l => unfold A2C.untilEnd; split <;> rfl
    simp only [A2C.target, A2C.gae, A2C.untilEnd, h, Bool.false_eq_true, if_false, A2C.deltas, discounted, hv, Option.getD_some]
    rw [show A2C.valueOf boot (s :: l) = s.value from rfl]
    ring

theorem a2c_lambda (gamma : K) (tau : Option K) (V : S → K) (rest : List (A2C.Step K)) (boot : K) : Lambda gamma (tau.getD 1) V (a2cTarget gamma tau V rest boot) where
  one e := by
    simp only [a2cTarget, List.getLast?_singleton, List.map_cons, List.map_nil, List.singleton_append]
    cases hd : e.out.done with
    | true =>
      simp only [if_true, add_zero]
      exact a2c_ended _ _ _ _ _ (by simp [A2C.Step.ended, a2cStep, hd])
    | false =>
      simp only [Bool.false_eq_true, if_false]
      rw [a2c_goes_on _ _ _ _ _ (by simp [A2C.Step.ended, a2cStep, hd])]
      have : A2C.target gamma tau (V e.out.next) [] = V e.out.next := by
        cases tau <;> simp [A2C.target, A2C.ret, A2C.gae, A2C.untilEnd, A2C.deltas, discounted, A2C.valueOf]
      rw [this]
      simp only [A2C.valueOf, a2cStep]
      ring
  more e f l he hf := by
    have hend : (a2cStep V e).ended = false := by simp [A2C.Step.ended, a2cStep, he]
    obtain ⟨last, hlast⟩ : ∃ x, (f :: l).getLast? = some x := ⟨_, List.getLast?_eq_some_getLast (by simp)⟩
    simp only [a2cTarget, List.getLast?_cons_cons, hlast]
    have hv : ∀ (b : K) (m : List (A2C.Step K)), A2C.valueOf b ((f :: l).map (a2cStep V) ++ m) = V e.out.next := by
      intro b m
      simp [A2C.valueOf, a2cStep, hf]
    split
    · rw [List.map_cons, List.cons_append, a2c_goes_on _ _ _ _ _ hend, hv]
      rfl
    · rw [List.map_cons, a2c_goes_on _ _ _ _ _ hend]
      have := hv (V last.out.next) []
      rw [List.append_nil] at this
      rw [this]
      rfl

/-! ## Their expectations -/

section
variable (env : Env S K) (p : S → Nat → K)

/-- All paths begin in the given state. -/
theorem paths_head (n : Nat) (s : S) (a : Nat) : ∀ y ∈ paths env p n s a, ∃ e l, y.2 = e :: l ∧ e.state = s := by
  intro y hy
  rw [paths] at hy
  obtain ⟨x, -, hy⟩ := List.mem_flatMap.1 hy
  cases hd : x.2.done with
  | true =>
    simp only [hd, if_true, List.mem_singleton] at hy
    subst hy
    exact ⟨_, _, rfl, rfl⟩
  | false =>
    simp only [hd, Bool.false_eq_true, if_false] at hy
    cases n with
    | zero =>
      simp only [List.mem_singleton] at hy
      subst hy
      exact ⟨_, _, rfl, rfl⟩
    | succ n =>
      simp only at hy
      obtain ⟨x', -, hy⟩ := List.mem_flatMap.1 hy
      obtain ⟨z, -, rfl⟩ := List.mem_map.1 hy
      exact ⟨_, _, rfl, rfl⟩

theorem expect_zero_paths (s : S) (a : Nat) (G : List (Exp S K) → K) :
    expect (paths env p 0 s a) G = expect (env.outcomes s a) fun o => G [⟨s, a, o⟩] := by
  rw [paths, expect_flatMap]
  unfold expect
  congr 1
  refine List.map_congr_left (fun x _ => ?_)
  cases hd : x.2.done <;> simp [hd]

theorem expect_succ_paths (n : Nat) (s : S) (a : Nat) (G : List (Exp S K) → K) :
    expect (paths env p (n + 1) s a) G = expect (env.outcomes s a) fun o => if o.done then G [⟨s, a, o⟩] else
      expect (choices env (p o.next)) fun a' => expect (paths env p n o.next a') fun l => G (⟨s, a, o⟩ :: l) := by
  rw [paths, expect_flatMap]
  conv_rhs => unfold expect
  congr 1
  refine List.map_congr_left (fun x _ => ?_)
  cases hd : x.2.done with
  | true => simp [hd, expect_single]
  | false =>
    simp only [hd, Bool.false_eq_true, if_false]
    rw [expect_flatMap]
    have e : ∀ x' ∈ choices env (p x.2.next), expect ((paths env p n x.2.next x'.2).map fun y => (x.1 * x'.1 * y.1, (⟨s, a, x.2⟩ : Exp S K) :: y.2)) G =
        x.1 * (x'.1 * expect (paths env p n x.2.next x'.2) fun l => G (⟨s, a, x.2⟩ :: l)) := by
      intro x' _
      rw [expect_scaled (paths env p n x.2.next x'.2) (x.1 * x'.1) (fun l => (⟨s, a, x.2⟩ : Exp S K) :: l) G]
      ring
    rw [List.map_congr_left e, List.sum_map_mul_left]
    rfl

theorem paths_sum (he : env.Valid) (hp : ∀ s, IsProbs env (p s)) (n : Nat) : ∀ s a, a < env.nA → ((paths env p n s a).map Prod.fst).sum = 1 := by
  have hsum : ∀ l : List (K × List (Exp S K)), (l.map Prod.fst).sum = expect l fun _ => 1 := by
    intro l; simp [expect]
  induction n with
  | zero =>
    intro s a ha
    rw [hsum, expect_zero_paths, expect_const _ (he s a ha)]
  | succ n ih =>
    intro s a ha
    rw [hsum, expect_succ_paths]
    refine Eq.trans (expect_congr _ _ (fun _ => 1) (fun x _ => ?_)) (expect_const _ (he s a ha) 1)
    split
    · rfl
    · refine Eq.trans (expect_congr _ _ (fun _ => 1) (fun x' hx' => ?_)) (expect_const _ (choices_dist env (hp _)) 1)
      rw [← hsum]
      exact ih _ _ (mem_choices env hx').1

/-- The recursion of the expected targets. -/
theorem expected_lambda (he : env.Valid) (hp : ∀ s, IsProbs env (p s)) {gamma lambd : K} {V : S → K} {G : List (Exp S K) → K} (hG : Lambda gamma lambd V G)
    (n : Nat) (s : S) (a : Nat) :
    expect (paths env p (n + 1) s a) G = expect (env.outcomes s a) fun o => o.reward + if o.done then 0 else
      gamma * ((1 - lambd) * V o.next + lambd * expect (choices env (p o.next)) fun a' => expect (paths env p n o.next a') G) := by
  rw [expect_succ_paths]
  refine expect_congr _ _ _ (fun x _ => ?_)
  cases hd : x.2.done with
  | true => simp [hG.one, hd]
  | false =>
    simp only [Bool.false_eq_true, if_false]
    have e : ∀ x' ∈ choices env (p x.2.next), expect (paths env p n x.2.next x'.2) (fun l => G (⟨s, a, x.2⟩ :: l)) =
        (gamma * lambd) * expect (paths env p n x.2.next x'.2) G + (x.2.reward + gamma * ((1 - lambd) * V x.2.next)) := by
      intro x' hx'
      have e1 : expect (paths env p n x.2.next x'.2) (fun l => G (⟨s, a, x.2⟩ :: l)) =
          expect (paths env p n x.2.next x'.2) (fun l => (gamma * lambd) * G l + (x.2.reward + gamma * ((1 - lambd) * V x.2.next))) := by
        refine expect_congr _ _ _ (fun y hy => ?_)
        obtain ⟨f, l, h1, h2⟩ := paths_head env p n _ _ y hy
        rw [h1, hG.more _ f l hd h2]
        ring
      rw [e1, expect_affine, paths_sum env p he hp n _ _ (mem_choices env hx').1, mul_one]
    rw [expect_congr _ _ (fun a' => (gamma * lambd) * expect (paths env p n x.2.next a') G + (x.2.reward + gamma * ((1 - lambd) * V x.2.next))) e,
      expect_affine, (choices_dist env (hp _)).2]
    ring

theorem expected_lambda_zero {gamma lambd : K} {V : S → K} {G : List (Exp S K) → K} (hG : Lambda gamma lambd V G) (s : S) (a : Nat) :
    expect (paths env p 0 s a) G = expect (env.outcomes s a) fun o => o.reward + if o.done then 0 else gamma * V o.next := by
  rw [expect_zero_paths]
  exact expect_congr _ _ _ (fun x _ => hG.one _)

/-- The distance of the expected target from the true value, for paths of at most `n + 1` steps: `gamma` for `lambda = 0`, `gamma ^ (n + 1)` for `lambda = 1`. -/
def shrink (gamma lambd : K) : Nat → K
  | 0 => gamma
  | n + 1 => gamma * ((1 - lambd) + lambd * shrink gamma lambd n)

theorem lambda_close (he : env.Valid) (hp : ∀ s, IsProbs env (p s)) {gamma lambd : K} (hg : 0 ≤ gamma) (hl0 : 0 ≤ lambd) (hl1 : lambd ≤ 1) {V : S → K}
    {G : List (Exp S K) → K} (hG : Lambda gamma lambd V G) (Qp : S → Nat → K) (hQp : ValuesOf env gamma p Qp) (δ : K) (hδ0 : 0 ≤ δ)
    (hδ : ∀ s, |V s - stateValue env p Qp s| ≤ δ) (n : Nat) :
    0 ≤ shrink gamma lambd n ∧ ∀ s a, a < env.nA → |expect (paths env p n s a) G - Qp s a| ≤ shrink gamma lambd n * δ := by
  induction n with
  | zero =>
    refine ⟨hg, fun s a ha => ?_⟩
    rw [expected_lambda_zero env p hG, hQp s a ha]
    refine expect_close _ (he s a ha) _ _ _ (fun x _ => ?_)
    rw [add_sub_add_left_eq_sub]
    cases x.2.done with
    | true => simpa [shrink] using mul_nonneg hg hδ0
    | false =>
      simp only [Bool.false_eq_true, if_false]
      rw [← mul_sub, abs_mul, abs_of_nonneg hg]
      exact mul_le_mul_of_nonneg_left (hδ _) hg
  | succ n ih =>
    obtain ⟨ih0, ih⟩ := ih
    have h0 : 0 ≤ shrink gamma lambd (n + 1) := mul_nonneg hg (add_nonneg (by linarith) (mul_nonneg hl0 ih0))
    refine ⟨h0, fun s a ha => ?_⟩
    rw [expected_lambda env p he hp hG, hQp s a ha]
    refine expect_close _ (he s a ha) _ _ _ (fun x _ => ?_)
    rw [add_sub_add_left_eq_sub]
    cases x.2.done with
    | true => simpa using mul_nonneg h0 hδ0
    | false =>
      simp only [Bool.false_eq_true, if_false]
      rw [← mul_sub, abs_mul, abs_of_nonneg hg, shrink, mul_assoc]
      refine mul_le_mul_of_nonneg_left ?_ hg
      have e1 : |expect (choices env (p x.2.next)) (fun a' => expect (paths env p n x.2.next a') G) - stateValue env p Qp x.2.next| ≤ shrink gamma lambd n * δ :=
        expect_close _ (choices_dist env (hp _)) _ _ _ (fun x' hx' => ih _ _ (mem_choices env hx').1)
      have e2 : (1 - lambd) * V x.2.next + lambd * expect (choices env (p x.2.next)) (fun a' => expect (paths env p n x.2.next a') G) - stateValue env p Qp x.2.next =
          (1 - lambd) * (V x.2.next - stateValue env p Qp x.2.next) +
          lambd * (expect (choices env (p x.2.next)) (fun a' => expect (paths env p n x.2.next a') G) - stateValue env p Qp x.2.next) := by ring
      rw [e2]
      refine (abs_add_le _ _).trans ?_
      rw [abs_mul, abs_mul, abs_of_nonneg hl0, abs_of_nonneg (by linarith : (0 : K) ≤ 1 - lambd)]
      have e3 := mul_le_mul_of_nonneg_left (hδ x.2.next) (by linarith : (0 : K) ≤ 1 - lambd)
      have e4 := mul_le_mul_of_nonneg_left e1 hl0
      linarith

theorem shrink_le {gamma lambd : K} (hg : 0 ≤ gamma) (hg1 : gamma ≤ 1) (hl0 : 0 ≤ lambd) (hl1 : lambd ≤ 1) (n : Nat) : shrink gamma lambd n ≤ gamma := by
  induction n with
  | zero => exact le_refl _
  | succ n ih =>
    unfold shrink
    have : (1 - lambd) + lambd * shrink gamma lambd n ≤ 1 := by nlinarith
    nlinarith

theorem shrink_one (gamma : K) (n : Nat) : shrink gamma 1 n = gamma ^ (n + 1) := by
  induction n with
  | zero => simp [shrink]
  | succ n ih => rw [shrink, ih]; ring

end

section
variable (env : Env S K) (he : env.Valid) (p : S → Nat → K) (hp : ∀ s, IsProbs env (p s)) (gamma : K) (hg : 0 ≤ gamma) (hg1 : gamma ≤ 1)
  (Qp : S → Nat → K) (hQp : ValuesOf env gamma p Qp)
include he hp hg hg1 hQp

/-- C138, PPO and TRPO: with value predictions `δ` away from the true values of the current policy, the expected value target of a step is at most `gamma * δ` away from the
true value of its action; with true predictions it is that value, and the expected advantage is the true advantage.  For paths of any length and any `lambda`. -/
theorem C138_ppo (lambd : K) (hl0 : 0 ≤ lambd) (hl1 : lambd ≤ 1) (V : S → K) (n : Nat) (s : S) (a : Nat) (ha : a < env.nA) :
    (∀ δ, 0 ≤ δ → (∀ s, |V s - stateValue env p Qp s| ≤ δ) → |expect (paths env p n s a) (fun l => (ppoTarget gamma lambd V l).2) - Qp s a| ≤ gamma * δ) ∧
    ((∀ s, V s = stateValue env p Qp s) → expect (paths env p n s a) (fun l => (ppoTarget gamma lambd V l).2) = Qp s a ∧
      expect (paths env p n s a) (fun l => (ppoTarget gamma lambd V l).1) = Qp s a - stateValue env p Qp s) := by
  have key : ∀ δ, 0 ≤ δ → (∀ s, |V s - stateValue env p Qp s| ≤ δ) → |expect (paths env p n s a) (fun l => (ppoTarget gamma lambd V l).2) - Qp s a| ≤ gamma * δ := by
    intro δ h0 hδ
    exact ((lambda_close env p he hp hg hl0 hl1 (ppo_lambda gamma lambd V) Qp hQp δ h0 hδ n).2 s a ha).trans
      (mul_le_mul_of_nonneg_right (shrink_le hg hg1 hl0 hl1 n) h0)
  refine ⟨key, fun hV => ?_⟩
  have h1 : expect (paths env p n s a) (fun l => (ppoTarget gamma lambd V l).2) = Qp s a := by
    have := key 0 (le_refl _) (fun s => by rw [hV, sub_self, abs_zero])
    rw [mul_zero] at this
    exact sub_eq_zero.1 (abs_eq_zero.1 (le_antisymm this (abs_nonneg _)))
  refine ⟨h1, ?_⟩
  have h2 : expect (paths env p n s a) (fun l => (ppoTarget gamma lambd V l).1) =
      expect (paths env p n s a) (fun l => 1 * (ppoTarget gamma lambd V l).2 + -V s) := by
    refine expect_congr _ _ _ (fun y hy => ?_)
    obtain ⟨e, l, e1, e2⟩ := paths_head env p n s a y hy
    rw [e1, ppo_adv, e2]
    ring
  rw [h2, expect_affine, h1, paths_sum env p he hp n s a ha, hV]
  ring

/-- C138, A3C: with value predictions `δ` away from the true values, the expected return target of a step that is followed by up to `n` more in its rollout is at most
`gamma ^ (n + 1) * δ` away from the true value of its action. -/
theorem C138_a3c (V : S → K) (n : Nat) (s : S) (a : Nat) (ha : a < env.nA) (δ : K) (h0 : 0 ≤ δ) (hδ : ∀ s, |V s - stateValue env p Qp s| ≤ δ) :
    |expect (paths env p n s a) (a3cTarget gamma V) - Qp s a| ≤ gamma ^ (n + 1) * δ := by
  rw [← shrink_one]
  exact (lambda_close env p he hp hg zero_le_one (le_refl 1) (a3c_lambda gamma V) Qp hQp δ h0 hδ n).2 s a ha

/-- C138, A2C without GAE: the same, whatever follows in the rollout after the end of the episode. -/
theorem C138_a2c (V : S → K) (rest : List (A2C.Step K)) (boot : K) (n : Nat) (s : S) (a : Nat) (ha : a < env.nA) (δ : K) (h0 : 0 ≤ δ)
    (hδ : ∀ s, |V s - stateValue env p Qp s| ≤ δ) :
    |expect (paths env p n s a) (a2cTarget gamma none V rest boot) - Qp s a| ≤ gamma ^ (n + 1) * δ := by
  rw [← shrink_one]
  exact (lambda_close env p he hp hg zero_le_one (le_refl 1) (a2c_lambda gamma none V rest boot) Qp hQp δ h0 hδ n).2 s a ha

/-- C138, A2C with GAE. -/
theorem C138_a2c_gae (tau : K) (hl0 : 0 ≤ tau) (hl1 : tau ≤ 1) (V : S → K) (rest : List (A2C.Step K)) (boot : K) (n : Nat) (s : S) (a : Nat) (ha : a < env.nA) (δ : K)
    (h0 : 0 ≤ δ) (hδ : ∀ s, |V s - stateValue env p Qp s| ≤ δ) :
    |expect (paths env p n s a) (a2cTarget gamma (some tau) V rest boot) - Qp s a| ≤ gamma * δ :=
  ((lambda_close env p he hp hg hl0 hl1 (a2c_lambda gamma (some tau) V rest boot) Qp hQp δ h0 hδ n).2 s a ha).trans
    (mul_le_mul_of_nonneg_right (shrink_le hg hg1 hl0 hl1 n) h0)

omit hg1 in
/-- C138, uniqueness: for `gamma < 1`, value predictions that meet, on average over the policy's actions, the targets computed from them are the true values (PPO and TRPO;
for `lambda = 1` these are the targets of A3C and A2C). -/
theorem C138_unique [Archimedean K] (hg1 : gamma < 1) (lambd : K) (hl0 : 0 ≤ lambd) (hl1 : lambd ≤ 1) (V : S → K) (B : K) (hB : ∀ s, |V s - stateValue env p Qp s| ≤ B)
    (n : S → Nat) (h : ∀ s, V s = expect (choices env (p s)) fun a => expect (paths env p (n s) s a) fun l => (ppoTarget gamma lambd V l).2) :
    ∀ s, V s = stateValue env p Qp s := by
  intro s
  have hB0 : 0 ≤ B := le_trans (abs_nonneg _) (hB s)
  have step : ∀ k : Nat, ∀ s, |V s - stateValue env p Qp s| ≤ gamma ^ k * B := by
    intro k
    induction k with
    | zero => simpa using hB
    | succ k ih =>
      intro s
      rw [h s, pow_succ', mul_assoc]
      refine expect_close _ (choices_dist env (hp s)) _ _ _ (fun x hx => ?_)
      exact (C138_ppo env he p hp gamma hg hg1.le Qp hQp lambd hl0 hl1 V (n s) s x.2 (mem_choices env hx).1).1 _ (mul_nonneg (pow_nonneg hg _) hB0) ih
  by_contra hne
  have hpos : 0 < |V s - stateValue env p Qp s| := abs_pos.2 (sub_ne_zero.2 hne)
  obtain ⟨k, hk⟩ := exists_pow_lt_of_lt_one (div_pos hpos (by linarith : (0 : K) < B + 1)) hg1
  rw [lt_div_iff₀ (by linarith)] at hk
  have := step k s
  have h2 : 0 ≤ gamma ^ k := pow_nonneg hg _
  nlinarith

end

/-! ## An instance: the targets of a path of the process of C135 (its other instances are in Props/Retrace.lean) -/

example : ppoTarget (1 / 2) (1 / 2) (fun _ => 4 / 7) [(⟨(), 1, ⟨0, (), false⟩⟩ : Exp Unit ℚ), ⟨(), 0, ⟨1, (), true⟩⟩] = (-5 / 28, 11 / 28) := by decide +kernel

end Verif.MDP
