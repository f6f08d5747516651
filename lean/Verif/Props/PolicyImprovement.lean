import Mathlib.Analysis.SpecificLimits.Basic
import Mathlib.Analysis.SpecialFunctions.Log.Basic
import Mathlib.Algebra.Order.BigOperators.Ring.Finset
import Verif.Model.TRPOStep
import Verif.Model.PPOLoss
import Verif.Model.Distrib
import Verif.Props.OnPolicy
set_option autoImplicit false
set_option linter.unusedSectionVars false

/-!
C151: policy updates of PPO and TRPO with the intended effect on their objectives improve the policy.

The objectives are those of the code (`computeGain` of `Model/TRPOStep.lean`, `surrogate` of `Model/PPOLoss.lean`) on advantages computed as in the code
(`Model/PPOData.lean`, through `ppoTarget`), with true value predictions.
-/

open Filter Topology

namespace Verif.MDP

variable {S : Type} (env : Env S ℝ) (gamma : ℝ)

/-! ### Specification -/

/-- The expected advantage, with respect to the values `Q` of the policy `p`, of the actions of the policy `p'`. -/
noncomputable def expAdvantage (p p' : S → Nat → ℝ) (Q : S → Nat → ℝ) (s : S) : ℝ := expect (choices env (p' s)) fun a => Q s a - stateValue env p Q s

/-- The expected gain of TRPO (without entropy bonus) for a transition that starts in `s`: the action is chosen by the old policy `p`, what follows is a path of the old
policy, the new log probability is that of `p'`, the advantage is computed from the path with the value predictions `V`. -/
noncomputable def trpoGain (lambd : ℝ) (p p' : S → Nat → ℝ) (V : S → ℝ) (n : Nat) (s : S) : ℝ :=
  expect (choices env (p s)) fun a => expect (paths env p n s a) fun l =>
    TRPO.computeGain 0 [⟨Real.log (p' s a), Real.log (p s a), 0, (ppoTarget gamma lambd V l).1⟩]

/-- The same for the clipped objective of PPO. -/
noncomputable def ppoObjective (eps lambd : ℝ) (p p' : S → Nat → ℝ) (V : S → ℝ) (n : Nat) (s : S) : ℝ :=
  expect (choices env (p s)) fun a => expect (paths env p n s a) fun l =>
    PPOLoss.surrogate eps (Real.log (p' s a)) (Real.log (p s a)) (ppoTarget gamma lambd V l).1

/-- The distribution object of the policy in a state. -/
noncomputable def asCategorical (p : S → Nat → ℝ) (s : S) : Distrib.Categorical env.nA := ⟨fun i => p s i, fun i => Real.log (p s i)⟩

/-- What the policy `q` expects to find of `f` one step ahead, discounted; nothing after the end of an episode. -/
noncomputable def lookahead (q : S → Nat → ℝ) (f : S → ℝ) (s : S) : ℝ :=
  expect (choices env (q s)) fun a => expect (env.outcomes s a) fun o => if o.done then 0 else gamma * f o.next

/-- The discounted sum of `g` over the first `n` states that the policy `q` visits, in expectation. -/
noncomputable def visits (q : S → Nat → ℝ) (g : S → ℝ) : Nat → S → ℝ
  | 0, _ => 0
  | n + 1, s => g s + lookahead env gamma q (visits q g n) s

/-! ### Sums -/

theorem expect_choices (q : Nat → ℝ) (f : Nat → ℝ) : expect (choices env q) f = ∑ a ∈ Finset.range env.nA, q a * f a := by
  unfold expect choices
  rw [List.map_map]
  generalize env.nA = m
  induction m with
  | zero => simp
  | succ m ih => rw [List.range_succ, List.map_append, List.sum_append, ih, Finset.sum_range_succ]; simp

theorem sum_probs {q : Nat → ℝ} (hq : IsProbs env q) : ∑ a ∈ Finset.range env.nA, q a = 1 := by
  have h := expect_const _ (choices_dist env hq) 1
  rw [expect_choices] at h
  simpa using h

theorem expect_sub' {α : Type} (l : List (ℝ × α)) (f g : α → ℝ) : expect l (fun x => f x - g x) = expect l f - expect l g := by
  unfold expect
  rw [sum_sub]
  congr 2; funext x; ring

theorem expect_mul' {α : Type} (l : List (ℝ × α)) (c : ℝ) (f : α → ℝ) : expect l (fun x => c * f x) = c * expect l f := by
  have := expect_affine l f c 0
  simpa using this

theorem expect_bound {α : Type} (l : List (ℝ × α)) (hl : IsDist l) (f : α → ℝ) (C : ℝ) (h : ∀ x ∈ l, |f x.2| ≤ C) : |expect l f| ≤ C := by
  have := expect_close l hl f (fun _ => 0) C (fun x hx => by simpa using h x hx)
  rwa [expect_const l hl, sub_zero] at this

section
variable {env gamma} (he : env.Valid) (hg : 0 ≤ gamma) (hg1 : gamma < 1)

theorem ahead_sub (q : S → Nat → ℝ) (f g : S → ℝ) (s : S) : lookahead env gamma q f s - lookahead env gamma q g s = lookahead env gamma q (fun s => f s - g s) s := by
  unfold lookahead
  rw [← expect_sub']
  refine expect_congr _ _ _ fun a _ => ?_
  rw [← expect_sub']
  refine expect_congr _ _ _ fun o _ => ?_
  split <;> ring

include he hg in
theorem next_bound (f : S → ℝ) (C : ℝ) (hC : 0 ≤ C) (h : ∀ s, |f s| ≤ C) (s : S) (a : Nat) (ha : a < env.nA) :
    |expect (env.outcomes s a) fun o => if o.done then 0 else gamma * f o.next| ≤ gamma * C := by
  refine expect_bound _ (he s a ha) _ _ fun o _ => ?_
  split
  · rw [abs_zero]; exact mul_nonneg hg hC
  · rw [abs_mul, abs_of_nonneg hg]; exact mul_le_mul_of_nonneg_left (h _) hg

include he hg in
theorem lookahead_bound {q : S → Nat → ℝ} (hq : ∀ s, IsProbs env (q s)) (f : S → ℝ) (C : ℝ) (hC : 0 ≤ C) (h : ∀ s, |f s| ≤ C) (s : S) :
    |lookahead env gamma q f s| ≤ gamma * C :=
  expect_bound _ (choices_dist env (hq s)) _ _ fun x hx => next_bound he hg f C hC h s x.2 (mem_choices env hx).1

include he hg in
theorem ahead_ge {q : S → Nat → ℝ} (hq : ∀ s, IsProbs env (q s)) (f : S → ℝ) (C : ℝ) (hC : 0 ≤ C) (h : ∀ s, -C ≤ f s) (s : S) :
    -(gamma * C) ≤ lookahead env gamma q f s := by
  have hd := choices_dist env (hq s)
  have e := expect_mono _ hd (fun _ => -(gamma * C)) (fun a => expect (env.outcomes s a) fun o => if o.done then 0 else gamma * f o.next) ?_
  · rwa [expect_const _ hd] at e
  · intro x hx
    have hd' := he s x.2 (mem_choices env hx).1
    have e := expect_mono _ hd' (fun _ => -(gamma * C)) (fun o => if o.done then 0 else gamma * f o.next) ?_
    · rwa [expect_const _ hd'] at e
    · intro o _
      split
      · have := mul_nonneg hg hC; linarith
      · have := mul_le_mul_of_nonneg_left (h o.2.next) hg; linarith

/-- The difference of two policies: with each policy's own future, the values differ by the advantages of the new actions and the differences lookahead. -/
theorem difference {p p' : S → Nat → ℝ} (hp' : ∀ s, IsProbs env (p' s)) {Q Q' : S → Nat → ℝ} (hQ : ValuesOf env gamma p Q) (hQ' : ValuesOf env gamma p' Q') (s : S) :
    stateValue env p' Q' s - stateValue env p Q s =
      expAdvantage env p p' Q s + lookahead env gamma p' (fun s => stateValue env p' Q' s - stateValue env p Q s) s := by
  have h1 : lookahead env gamma p' (fun s => stateValue env p' Q' s - stateValue env p Q s) s = expect (choices env (p' s)) fun a => Q' s a - Q s a := by
    unfold lookahead
    refine expect_congr _ _ _ fun x hx => ?_
    have ha := (mem_choices env hx).1
    rw [hQ s _ ha, hQ' s _ ha, ← expect_sub']
    refine expect_congr _ _ _ fun o _ => ?_
    split <;> ring
  rw [h1]
  unfold expAdvantage
  rw [expect_sub', expect_sub', expect_const _ (choices_dist env (hp' s))]
  unfold stateValue
  ring

end

/-! ### The objectives of the code -/

section
variable (he : env.Valid) (hg : 0 ≤ gamma) (hg1 : gamma < 1) (p p' : S → Nat → ℝ) (hp : ∀ s, IsProbs env (p s)) (hp' : ∀ s, IsProbs env (p' s))
  (hpos : ∀ s a, a < env.nA → 0 < p s a) (hpos' : ∀ s a, a < env.nA → 0 < p' s a)
  (Q Q' : S → Nat → ℝ) (hQ : ValuesOf env gamma p Q) (hQ' : ValuesOf env gamma p' Q')

include he hg hg1 hp hpos hpos' hQ in
/-- C151, the objective of TRPO: with true value predictions, the expected gain of a transition from a state, for paths of any length and any `lambda`, is the expected
advantage of the new policy in that state. -/
theorem C151_gain (lambd : ℝ) (hl0 : 0 ≤ lambd) (hl1 : lambd ≤ 1) (n : Nat) (s : S) :
    trpoGain env gamma lambd p p' (stateValue env p Q) n s = expAdvantage env p p' Q s := by
  unfold trpoGain expAdvantage
  rw [expect_choices, expect_choices]
  refine Finset.sum_congr rfl fun a ha => ?_
  have ha := Finset.mem_range.1 ha
  have h1 := ((C138_ppo env he p hp gamma hg hg1.le Q hQ lambd hl0 hl1 (stateValue env p Q) n s a ha).2 fun _ => rfl).2
  have e : ∀ adv : ℝ, TRPO.computeGain 0 [⟨Real.log (p' s a), Real.log (p s a), 0, adv⟩] = p' s a / p s a * adv := by
    intro adv
    simp only [TRPO.computeGain, TRPO.mean, List.map_cons, List.map_nil, List.sum_cons, List.sum_nil, List.length_cons, List.length_nil, add_zero, zero_mul]
    rw [Real.exp_sub, Real.exp_log (hpos' s a ha), Real.exp_log (hpos s a ha)]
    simp
  simp only [e]
  rw [expect_mul', h1, ← mul_assoc, mul_div_cancel₀ _ (hpos s a ha).ne']

theorem paths_isDist (he : env.Valid) (hp : ∀ s, IsProbs env (p s)) (n : Nat) (s : S) (a : Nat) (ha : a < env.nA) : IsDist (paths env p n s a) := by
  refine ⟨?_, paths_sum env p he hp n s a ha⟩
  induction n generalizing s a with
  | zero =>
    intro y hy
    unfold paths at hy
    obtain ⟨x, hx, hy⟩ := List.mem_flatMap.1 hy
    have h0 := (he s a ha).1 x hx
    split at hy <;> (rw [List.mem_singleton.1 hy]; exact h0)
  | succ n ih =>
    intro y hy
    unfold paths at hy
    obtain ⟨x, hx, hy⟩ := List.mem_flatMap.1 hy
    have h0 := (he s a ha).1 x hx
    split at hy
    · rw [List.mem_singleton.1 hy]; exact h0
    · obtain ⟨x', hx', hy⟩ := List.mem_flatMap.1 hy
      obtain ⟨z, hz, rfl⟩ := List.mem_map.1 hy
      have hm := mem_choices env hx'
      exact mul_nonneg (mul_nonneg h0 ((choices_dist env (hp _)).1 x' hx')) (ih _ _ hm.1 z hz)

include he hg hg1 hp hpos hpos' hQ in
/-- C151, the clipped objective of PPO is no larger, whatever the clipping. -/
theorem C151_clipped (eps lambd : ℝ) (hl0 : 0 ≤ lambd) (hl1 : lambd ≤ 1) (n : Nat) (s : S) :
    ppoObjective env gamma eps lambd p p' (stateValue env p Q) n s ≤ expAdvantage env p p' Q s := by
  rw [← C151_gain env gamma he hg hg1 p p' hp hpos hpos' Q hQ lambd hl0 hl1 n s]
  unfold ppoObjective trpoGain
  refine expect_mono _ (choices_dist env (hp s)) _ _ fun x hx => ?_
  refine expect_mono _ (paths_isDist env p he hp n s x.2 (mem_choices env hx).1) _ _ fun l _ => ?_
  simp only [TRPO.computeGain, TRPO.mean, List.map_cons, List.map_nil, List.sum_cons, List.sum_nil, List.length_cons, List.length_nil, add_zero, zero_mul, PPOLoss.surrogate]
  simp

include he hg hg1 hp hpos hQ in
/-- C151, the old policy itself: both objectives are 0 in expectation (for a clipping parameter that is not negative). -/
theorem C151_unchanged (eps lambd : ℝ) (heps : 0 ≤ eps) (hl0 : 0 ≤ lambd) (hl1 : lambd ≤ 1) (n : Nat) (s : S) :
    trpoGain env gamma lambd p p (stateValue env p Q) n s = 0 ∧ ppoObjective env gamma eps lambd p p (stateValue env p Q) n s = 0 := by
  have h1 : trpoGain env gamma lambd p p (stateValue env p Q) n s = 0 := by
    rw [C151_gain env gamma he hg hg1 p p hp hpos hpos Q hQ lambd hl0 hl1 n s]
    unfold expAdvantage
    rw [expect_sub', expect_const _ (choices_dist env (hp s))]
    exact sub_self _
  refine ⟨h1, ?_⟩
  rw [← h1]
  unfold ppoObjective trpoGain
  refine expect_congr _ _ _ fun x _ => expect_congr _ _ _ fun l _ => ?_
  have hc : PPOLoss.clip 1 (1 - eps) (1 + eps) = 1 := by
    simp only [PPOLoss.clip]
    rw [max_eq_left (by linarith), min_eq_left (by linarith)]
  simp only [TRPO.computeGain, TRPO.mean, List.map_cons, List.map_nil, List.sum_cons, List.sum_nil, List.length_cons, List.length_nil, add_zero, zero_mul, PPOLoss.surrogate,
    sub_self, Real.exp_zero, hc, min_self]
  simp

include he hg hg1 hp' hQ hQ' in
/-- Actions that are in no state worse, in expectation, than those of the old policy give a policy with at least its values. -/
theorem improves (B : ℝ) (hB : ∀ s, |stateValue env p' Q' s - stateValue env p Q s| ≤ B) (h : ∀ s, 0 ≤ expAdvantage env p p' Q s) (s : S) :
    stateValue env p Q s ≤ stateValue env p' Q' s := by
  have hB0 : 0 ≤ B := (abs_nonneg _).trans (hB s)
  have key : ∀ k : Nat, ∀ s, -(gamma ^ k * B) ≤ stateValue env p' Q' s - stateValue env p Q s := by
    intro k
    induction k with
    | zero => intro s; rw [pow_zero, one_mul]; exact neg_le_of_abs_le (hB s)
    | succ k ih =>
      intro s
      rw [difference hp' hQ hQ' s, pow_succ', mul_assoc]
      have := ahead_ge he hg hp' _ (gamma ^ k * B) (mul_nonneg (pow_nonneg hg _) hB0) ih s
      linarith [h s]
  have ht : Tendsto (fun k : ℕ => -(gamma ^ k * B)) atTop (𝓝 0) := by
    have := ((tendsto_pow_atTop_nhds_zero_of_lt_one hg hg1).mul_const B).neg
    simpa using this
  have := le_of_tendsto' (b := stateValue env p' Q' s - stateValue env p Q s) ht fun k => key k s
  linarith

include he hg hg1 hp hp' hpos hpos' hQ hQ' in
/-- C151, improvement: a new policy whose objective is in no state below that of the old policy (which is 0) has at least its values in every state, whether the objective
is the gain of TRPO or the clipped objective of PPO, for paths of any lengths. -/
theorem C151_improves (B : ℝ) (hB : ∀ s, |stateValue env p' Q' s - stateValue env p Q s| ≤ B) (eps lambd : ℝ) (hl0 : 0 ≤ lambd) (hl1 : lambd ≤ 1) (n : S → Nat)
    (h : (∀ s, 0 ≤ trpoGain env gamma lambd p p' (stateValue env p Q) (n s) s) ∨ ∀ s, 0 ≤ ppoObjective env gamma eps lambd p p' (stateValue env p Q) (n s) s) (s : S) :
    stateValue env p Q s ≤ stateValue env p' Q' s := by
  refine improves env gamma he hg hg1 p p' hp' Q Q' hQ hQ' B hB (fun s => ?_) s
  rcases h with h | h
  · rw [← C151_gain env gamma he hg hg1 p p' hp hpos hpos' Q hQ lambd hl0 hl1 (n s) s]; exact h s
  · exact (h s).trans (C151_clipped env gamma he hg hg1 p p' hp hpos hpos' Q hQ eps lambd hl0 hl1 (n s) s)

include he hg hg1 hp hp' hpos hpos' hQ hQ' in
/-- C151, nothing left to gain: if the expected gain of the policy `p'` is positive in no state, `p'` has in no state more than the values of the old policy. -/
theorem C151_no_gain (B : ℝ) (hB : ∀ s, |stateValue env p' Q' s - stateValue env p Q s| ≤ B) (lambd : ℝ) (hl0 : 0 ≤ lambd) (hl1 : lambd ≤ 1) (n : S → Nat)
    (h : ∀ s, trpoGain env gamma lambd p p' (stateValue env p Q) (n s) s ≤ 0) (s : S) :
    stateValue env p' Q' s ≤ stateValue env p Q s := by
  have hB0 : 0 ≤ B := (abs_nonneg _).trans (hB s)
  have key : ∀ k : Nat, ∀ s, -(gamma ^ k * B) ≤ -(stateValue env p' Q' s - stateValue env p Q s) := by
    intro k
    induction k with
    | zero => intro s; rw [pow_zero, one_mul]; exact neg_le_neg (le_of_abs_le (hB s))
    | succ k ih =>
      intro s
      have e := ahead_ge he hg hp' _ (gamma ^ k * B) (mul_nonneg (pow_nonneg hg _) hB0) ih s
      have e' : lookahead env gamma p' (fun s => -(stateValue env p' Q' s - stateValue env p Q s)) s =
          -lookahead env gamma p' (fun s => stateValue env p' Q' s - stateValue env p Q s) s := by
        have h0 : lookahead env gamma p' (fun _ => 0) s = 0 := by
          have := lookahead_bound he hg hp' (fun _ => 0) 0 le_rfl (fun _ => by simp) s
          rw [mul_zero] at this
          exact abs_eq_zero.1 (le_antisymm this (abs_nonneg _))
        have := ahead_sub (env := env) (gamma := gamma) p' (fun _ => 0) (fun s => stateValue env p' Q' s - stateValue env p Q s) s
        rw [h0] at this
        simpa using this.symm
      rw [difference hp' hQ hQ' s, pow_succ', mul_assoc]
      have hs := h s
      rw [C151_gain env gamma he hg hg1 p p' hp hpos hpos' Q hQ lambd hl0 hl1 (n s) s] at hs
      linarith
  have ht : Tendsto (fun k : ℕ => -(gamma ^ k * B)) atTop (𝓝 0) := by
    have := ((tendsto_pow_atTop_nhds_zero_of_lt_one hg hg1).mul_const B).neg
    simpa using this
  have := le_of_tendsto' (b := -(stateValue env p' Q' s - stateValue env p Q s)) ht fun k => key k s
  linarith

end

/-! ### The KL constraint -/

/-- Close in divergence, close in probabilities (a form of Pinsker's inequality). -/
theorem l1_sq_le_kl {m : Nat} (p q : Fin m → ℝ) (hp : ∀ i, 0 < p i) (hq : ∀ i, 0 < q i) (sp : ∑ i, p i = 1) (sq : ∑ i, q i = 1) :
    (∑ i, |q i - p i|) ^ 2 ≤ 4 * ∑ i, p i * (Real.log (p i) - Real.log (q i)) := by
  have hA : ∀ i, Real.sqrt (p i) * Real.sqrt (p i) = p i := fun i => Real.mul_self_sqrt (hp i).le
  have hB : ∀ i, Real.sqrt (q i) * Real.sqrt (q i) = q i := fun i => Real.mul_self_sqrt (hq i).le
  set C := ∑ i, Real.sqrt (p i) * Real.sqrt (q i) with hC
  have h1 : 2 * (1 - C) ≤ ∑ i, p i * (Real.log (p i) - Real.log (q i)) := by
    rw [hC, ← sp, ← Finset.sum_sub_distrib, Finset.mul_sum]
    refine Finset.sum_le_sum fun i _ => ?_
    have a0 := Real.sqrt_pos.2 (hp i)
    have b0 := Real.sqrt_pos.2 (hq i)
    have hl := Real.log_le_sub_one_of_pos (div_pos b0 a0)
    rw [Real.log_div b0.ne' a0.ne', Real.log_sqrt (hp i).le, Real.log_sqrt (hq i).le] at hl
    have hm := mul_le_mul_of_nonneg_left hl (hp i).le
    have e : p i * (Real.sqrt (q i) / Real.sqrt (p i) - 1) = Real.sqrt (p i) * Real.sqrt (q i) - p i := by
      rw [mul_sub, mul_one]
      congr 1
      rw [mul_div_assoc', div_eq_iff a0.ne']
      nlinarith [hA i]
    rw [e] at hm
    nlinarith
  have h2 : (∑ i, |q i - p i|) ^ 2 ≤ (2 - 2 * C) * (2 + 2 * C) := by
    have e1 : ∀ i, |q i - p i| = |Real.sqrt (q i) - Real.sqrt (p i)| * (Real.sqrt (q i) + Real.sqrt (p i)) := by
      intro i
      rw [← abs_of_nonneg (add_nonneg (Real.sqrt_nonneg (q i)) (Real.sqrt_nonneg (p i))), ← abs_mul]
      congr 1
      nlinarith [hA i, hB i]
    simp only [e1]
    refine (Finset.sum_mul_sq_le_sq_mul_sq _ _ _).trans (le_of_eq ?_)
    have s1 : ∑ i, |Real.sqrt (q i) - Real.sqrt (p i)| ^ 2 = 2 - 2 * C := by
      have : ∀ i, |Real.sqrt (q i) - Real.sqrt (p i)| ^ 2 = q i + p i - 2 * (Real.sqrt (p i) * Real.sqrt (q i)) := by
        intro i; rw [sq_abs]; nlinarith [hA i, hB i]
      simp only [this, Finset.sum_sub_distrib, Finset.sum_add_distrib, ← Finset.mul_sum, sp, sq, ← hC]
      ring
    have s2 : ∑ i, (Real.sqrt (q i) + Real.sqrt (p i)) ^ 2 = 2 + 2 * C := by
      have : ∀ i, (Real.sqrt (q i) + Real.sqrt (p i)) ^ 2 = q i + p i + 2 * (Real.sqrt (p i) * Real.sqrt (q i)) := by
        intro i; nlinarith [hA i, hB i]
      simp only [this, Finset.sum_add_distrib, ← Finset.mul_sum, sp, sq, ← hC]
      ring
    rw [s1, s2]
  have hC0 : 0 ≤ C := Finset.sum_nonneg fun i _ => mul_nonneg (Real.sqrt_nonneg _) (Real.sqrt_nonneg _)
  nlinarith [sq_nonneg (1 - C)]

section
variable (he : env.Valid) (hg : 0 ≤ gamma) (hg1 : gamma < 1) (p p' : S → Nat → ℝ) (hp : ∀ s, IsProbs env (p s)) (hp' : ∀ s, IsProbs env (p' s))
  (hpos : ∀ s a, a < env.nA → 0 < p s a) (hpos' : ∀ s a, a < env.nA → 0 < p' s a)
  (Q Q' : S → Nat → ℝ) (hQ : ValuesOf env gamma p Q) (hQ' : ValuesOf env gamma p' Q')

theorem weighted (s : S) (f : Nat → ℝ) (C d : ℝ) (hC : 0 ≤ C) (hf : ∀ a, a < env.nA → |f a| ≤ C) (hd : ∑ i : Fin env.nA, |p' s i - p s i| ≤ d) :
    |expect (choices env (p' s)) f - expect (choices env (p s)) f| ≤ d * C := by
  rw [expect_choices, expect_choices, ← Finset.sum_sub_distrib]
  refine (Finset.abs_sum_le_sum_abs _ _).trans ?_
  have : ∑ i ∈ Finset.range env.nA, |p' s i - p s i| ≤ d := by rw [Finset.sum_range]; exact hd
  refine le_trans ?_ (mul_le_mul_of_nonneg_right this hC)
  rw [Finset.sum_mul]
  refine Finset.sum_le_sum fun a ha => ?_
  rw [← sub_mul, abs_mul]
  exact mul_le_mul_of_nonneg_left (hf a (Finset.mem_range.1 ha)) (abs_nonneg _)

include he hg hg1 hp hp' hpos hpos' hQ hQ' in
/-- C151, TRPO's constraint: if the divergence of the new policy from the old one, as the code computes it, is at most `δ` in every state, and no advantage exceeds `eps`,
then the values of the new policy differ from the values of the old policy plus the discounted sum of the expected gains in the first `n` states visited by the *old*
policy by at most `4 gamma eps δ / (1 - gamma)²`, and what the states after the first `n` can contribute.  The gains are estimated on states of the old policy, as in
the code, and the constraint is what makes the estimate right for the new policy. -/
theorem C151_trust_region (B eps δ lambd : ℝ) (hB : ∀ s, |stateValue env p' Q' s - stateValue env p Q s| ≤ B) (heps : 0 ≤ eps) (hδ : 0 ≤ δ) (hl0 : 0 ≤ lambd) (hl1 : lambd ≤ 1)
    (hadv : ∀ s a, a < env.nA → |Q s a - stateValue env p Q s| ≤ eps) (hkl : ∀ s, (asCategorical env p s).kl (asCategorical env p' s) ≤ δ) (len : S → Nat) (n : Nat) (s : S) :
    |stateValue env p' Q' s - (stateValue env p Q s + visits env gamma p (fun s => trpoGain env gamma lambd p p' (stateValue env p Q) (len s) s) n s)| ≤
      4 * gamma * eps * δ / (1 - gamma) ^ 2 + gamma ^ n * (2 * Real.sqrt δ * eps / (1 - gamma)) := by
  have h1g : 0 < 1 - gamma := by linarith
  set d := 2 * Real.sqrt δ with hd
  have hd0 : 0 ≤ d := by positivity
  have hdd : d * d = 4 * δ := by rw [hd]; nlinarith [Real.mul_self_sqrt hδ]
  have hl1' : ∀ s, ∑ i : Fin env.nA, |p' s i - p s i| ≤ d := by
    intro s
    have sp : ∑ i : Fin env.nA, p s i = 1 := by rw [← Finset.sum_range]; exact sum_probs env (hp s)
    have sp' : ∑ i : Fin env.nA, p' s i = 1 := by rw [← Finset.sum_range]; exact sum_probs env (hp' s)
    have h := l1_sq_le_kl (fun i : Fin env.nA => p s i) (fun i => p' s i) (fun i => hpos s i i.2) (fun i => hpos' s i i.2) sp sp'
    have hk : ∑ i : Fin env.nA, p s i * (Real.log (p s i) - Real.log (p' s i)) ≤ δ := hkl s
    refine abs_le_of_sq_le_sq' ?_ hd0 |>.2
    nlinarith
  set g : S → ℝ := fun s => trpoGain env gamma lambd p p' (stateValue env p Q) (len s) s with hgdef
  have hgA : ∀ s, g s = expAdvantage env p p' Q s := fun s => C151_gain env gamma he hg hg1 p p' hp hpos hpos' Q hQ lambd hl0 hl1 (len s) s
  have hG : ∀ s, |g s| ≤ d * eps := by
    intro s
    have h0 : expect (choices env (p s)) (fun a => Q s a - stateValue env p Q s) = 0 := by
      rw [expect_sub', expect_const _ (choices_dist env (hp s))]; exact sub_self _
    have := weighted env p p' s (fun a => Q s a - stateValue env p Q s) eps d heps (hadv s) (hl1' s)
    rw [h0, sub_zero] at this
    rw [hgA]; exact this
  set G := d * eps with hGdef
  have hG0 : 0 ≤ G := mul_nonneg hd0 heps
  set D : S → ℝ := fun s => stateValue env p' Q' s - stateValue env p Q s with hD
  have hDeq : ∀ s, D s = g s + lookahead env gamma p' D s := fun s => by rw [hgA]; exact difference hp' hQ hQ' s
  have hDb : ∀ s, |D s| ≤ G / (1 - gamma) := by
    have key : ∀ k : Nat, ∀ s, |D s| ≤ G / (1 - gamma) + gamma ^ k * B := by
      intro k
      have hB0 : 0 ≤ B := (abs_nonneg _).trans (hB s)
      induction k with
      | zero => intro s; rw [pow_zero, one_mul]; exact (hB s).trans (le_add_of_nonneg_left (div_nonneg hG0 h1g.le))
      | succ k ih =>
        intro s
        rw [hDeq s]
        refine (abs_add_le _ _).trans ?_
        have h2 := lookahead_bound he hg hp' D _ (add_nonneg (div_nonneg hG0 h1g.le) (mul_nonneg (pow_nonneg hg _) hB0)) ih s
        have e : G / (1 - gamma) = G + gamma * (G / (1 - gamma)) := by field_simp; ring
        rw [e, pow_succ']
        nlinarith [hG s]
    intro s
    have ht : Tendsto (fun k : ℕ => G / (1 - gamma) + gamma ^ k * B) atTop (𝓝 (G / (1 - gamma))) := by
      have := ((tendsto_pow_atTop_nhds_zero_of_lt_one hg hg1).mul_const B).const_add (G / (1 - gamma))
      simpa using this
    exact ge_of_tendsto' ht fun k => key k s
  have hLb : ∀ n s, |visits env gamma p g n s| ≤ G / (1 - gamma) := by
    intro n
    induction n with
    | zero => intro s; simp only [visits, abs_zero]; exact div_nonneg hG0 h1g.le
    | succ n ih =>
      intro s
      simp only [visits]
      refine (abs_add_le _ _).trans ?_
      have h2 := lookahead_bound he hg hp _ _ (div_nonneg hG0 h1g.le) ih s
      have e : G / (1 - gamma) = G + gamma * (G / (1 - gamma)) := by field_simp; ring
      rw [e]; linarith [hG s]
  have main : ∀ n s, |D s - visits env gamma p g n s| ≤ gamma * d * G / (1 - gamma) ^ 2 + gamma ^ n * (G / (1 - gamma)) := by
    intro n
    induction n with
    | zero =>
      intro s
      simp only [visits, sub_zero, pow_zero, one_mul]
      exact (hDb s).trans (le_add_of_nonneg_left (by positivity))
    | succ n ih =>
      intro s
      have e : D s - visits env gamma p g (n + 1) s = lookahead env gamma p' (fun s => D s - visits env gamma p g n s) s +
          (lookahead env gamma p' (visits env gamma p g n) s - lookahead env gamma p (visits env gamma p g n) s) := by
        rw [← ahead_sub]
        conv_lhs => rw [hDeq s]
        simp only [visits]; ring
      rw [e]
      refine (abs_add_le _ _).trans ?_
      have h2 := lookahead_bound he hg hp' _ _ (by positivity) ih s
      have h3 : |lookahead env gamma p' (visits env gamma p g n) s - lookahead env gamma p (visits env gamma p g n) s| ≤ d * (gamma * (G / (1 - gamma))) := by
        refine weighted env p p' s _ _ d (mul_nonneg hg (div_nonneg hG0 h1g.le)) (fun a ha => ?_) (hl1' s)
        exact next_bound he hg _ _ (div_nonneg hG0 h1g.le) (hLb n) s a ha
      have e2 : gamma * d * G / (1 - gamma) ^ 2 = gamma * (gamma * d * G / (1 - gamma) ^ 2) + d * (gamma * (G / (1 - gamma))) := by
        field_simp; ring
      calc _ ≤ gamma * (gamma * d * G / (1 - gamma) ^ 2 + gamma ^ n * (G / (1 - gamma))) + d * (gamma * (G / (1 - gamma))) := add_le_add h2 h3
        _ = _ := by rw [pow_succ']; linear_combination -e2
  have hm := main n s
  have e : stateValue env p' Q' s - (stateValue env p Q s + visits env gamma p g n s) = D s - visits env gamma p g n s := by simp only [hD]; ring
  rw [e]
  have e2 : gamma * d * G / (1 - gamma) ^ 2 = 4 * gamma * eps * δ / (1 - gamma) ^ 2 := by
    congr 1; rw [hGdef]; linear_combination gamma * eps * hdd
  rw [e2] at hm
  exact hm

end

/-! ### A concrete case -/

/-- One state, two actions that end the episode: action 0 pays 1, action 1 pays nothing. -/
def payOnce : Env Unit ℝ := ⟨2, fun _ a => [(1, ⟨if a = 0 then 1 else 0, (), true⟩)]⟩

theorem payOnce_values (q : Unit → Nat → ℝ) : ValuesOf payOnce (1 / 2) q fun _ a => if a = 0 then 1 else 0 := by
  intro s a _
  simp [payOnce, expect]

theorem payOnce_state (q : Unit → Nat → ℝ) : stateValue payOnce q (fun _ a => if a = 0 then 1 else 0) () = q () 0 := by
  simp [stateValue, choices, expect, payOnce, List.range_succ]

/-- From even odds to odds of 3 to 1: the hypotheses of the theorems hold, the expected gain is 1/4, and so is the improvement. -/
example : ∃ p p' : Unit → Nat → ℝ, payOnce.Valid ∧ (∀ s, IsProbs payOnce (p s)) ∧ (∀ s, IsProbs payOnce (p' s)) ∧
    trpoGain payOnce (1 / 2) (1 / 2) p p' (stateValue payOnce p fun _ a => if a = 0 then 1 else 0) 3 () = 1 / 4 ∧
    stateValue payOnce p' (fun _ a => if a = 0 then 1 else 0) () - stateValue payOnce p (fun _ a => if a = 0 then 1 else 0) () = 1 / 4 := by
  have hv : payOnce.Valid := fun s a _ => by simp [payOnce, IsDist]
  have hp : ∀ s : Unit, IsProbs payOnce ((fun _ _ => 1 / 2 : Unit → Nat → ℝ) s) := fun s => by
    refine ⟨fun _ _ => by norm_num, ?_⟩
    simp only [payOnce, List.range_succ]; norm_num
  have hp' : ∀ s : Unit, IsProbs payOnce ((fun _ a => if a = 0 then 3 / 4 else 1 / 4 : Unit → Nat → ℝ) s) := fun s => by
    refine ⟨fun a _ => by dsimp only; split <;> norm_num, ?_⟩
    simp only [payOnce, List.range_succ]; norm_num
  refine ⟨_, _, hv, hp, hp', ?_, ?_⟩
  · rw [C151_gain payOnce (1 / 2) hv (by norm_num) (by norm_num) _ _ hp (fun _ _ _ => by norm_num) (fun _ a _ => by split <;> norm_num) _ (payOnce_values _)
      (1 / 2) (by norm_num) (by norm_num)]
    simp only [expAdvantage, payOnce_state]
    simp [choices, expect, payOnce, List.range_succ]; norm_num
  · simp only [payOnce_state]; norm_num

/-- The hypotheses of `C151_improves` and `C151_trust_region` hold of these two policies. -/
example : ∃ p p' : Unit → Nat → ℝ, (∀ s, IsProbs payOnce (p s)) ∧ (∀ s, IsProbs payOnce (p' s)) ∧ p () 0 < p' () 0 ∧
    stateValue payOnce p (fun _ a => if a = 0 then 1 else 0) () ≤ stateValue payOnce p' (fun _ a => if a = 0 then 1 else 0) () ∧
    ∃ δ, ∀ n, |stateValue payOnce p' (fun _ a => if a = 0 then 1 else 0) () - (stateValue payOnce p (fun _ a => if a = 0 then 1 else 0) () +
      visits payOnce (1 / 2) p (fun s => trpoGain payOnce (1 / 2) 1 p p' (stateValue payOnce p fun _ a => if a = 0 then 1 else 0) 0 s) n ())| ≤
      4 * (1 / 2) * 1 * δ / (1 - 1 / 2) ^ 2 + (1 / 2) ^ n * (2 * Real.sqrt δ * 1 / (1 - 1 / 2)) := by
  have hv : payOnce.Valid := fun s a _ => by simp [payOnce, IsDist]
  have hp : ∀ s : Unit, IsProbs payOnce ((fun _ _ => 1 / 2 : Unit → Nat → ℝ) s) := fun s => by
    refine ⟨fun _ _ => by norm_num, ?_⟩
    simp only [payOnce, List.range_succ]; norm_num
  have hp' : ∀ s : Unit, IsProbs payOnce ((fun _ a => if a = 0 then 3 / 4 else 1 / 4 : Unit → Nat → ℝ) s) := fun s => by
    refine ⟨fun a _ => by dsimp only; split <;> norm_num, ?_⟩
    simp only [payOnce, List.range_succ]; norm_num
  have hB : ∀ s : Unit, |stateValue payOnce (fun _ a => if a = 0 then 3 / 4 else 1 / 4) (fun _ a => if a = 0 then 1 else 0) s -
      stateValue payOnce (fun _ _ => 1 / 2) (fun _ a => if a = 0 then 1 else 0) s| ≤ 1 := fun s => by
    cases s; simp only [payOnce_state]; norm_num
  refine ⟨_, _, hp, hp', by norm_num, ?_, max 0 ((asCategorical payOnce (fun _ _ => 1 / 2) ()).kl (asCategorical payOnce (fun _ a => if a = 0 then 3 / 4 else 1 / 4) ())),
    fun n => ?_⟩
  · refine C151_improves payOnce (1 / 2) hv (by norm_num) (by norm_num) _ _ hp hp' (fun _ _ _ => by norm_num) (fun _ a _ => by split <;> norm_num) _ _
      (payOnce_values _) (payOnce_values _) 1 hB (1 / 10) 1 (by norm_num) (by norm_num) (fun _ => 0) (Or.inl fun s => ?_) ()
    rw [C151_gain payOnce (1 / 2) hv (by norm_num) (by norm_num) _ _ hp (fun _ _ _ => by norm_num) (fun _ a _ => by split <;> norm_num) _ (payOnce_values _)
      1 (by norm_num) (by norm_num)]
    cases s
    simp only [expAdvantage, payOnce_state]
    simp [choices, expect, payOnce, List.range_succ]; norm_num
  · refine C151_trust_region payOnce (1 / 2) hv (by norm_num) (by norm_num) _ _ hp hp' (fun _ _ _ => by norm_num) (fun _ a _ => by split <;> norm_num) _ _
      (payOnce_values _) (payOnce_values _) 1 1 _ 1 hB (by norm_num) (le_max_left _ _) (by norm_num) (by norm_num) (fun s a _ => ?_) (fun s => le_max_right _ _)
      (fun _ => 0) n ()
    cases s
    simp only [payOnce_state]
    split <;> norm_num

end Verif.MDP
