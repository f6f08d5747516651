import Mathlib.Algebra.BigOperators.Group.Finset.Basic
import Mathlib.Algebra.BigOperators.Fin
import Mathlib.Algebra.BigOperators.Ring.Finset
import Mathlib.Analysis.SpecificLimits.Basic
import Mathlib.Tactic.Linarith
import Mathlib.Tactic.NormNum
import Mathlib.Tactic.Ring
import Verif.Model.AverageReward
set_option autoImplicit false
set_option linter.unusedSectionVars false

/-!
# C116: A3C in the average reward setting
-/

namespace Verif.AverageReward
open Finset

/-! ## Specification -/

/-- Differential returns of rewards `rs` with the reward rates `rhos` (one per step), after which there is a state of value `boot`. -/
def diffReturn (gamma boot : ℝ) : List ℝ → List ℝ → ℝ
  | r :: rs, rho :: rhos => (r - rho) + gamma * diffReturn gamma boot rs rhos
  | _, _ => boot

/-- The values `average_reward` takes during an update, for each step the one it has when the step is reached (steps in their order; the
last step comes first). -/
def rates (c : Args) : ℝ → ℝ → List Step → List ℝ
  | _, _, [] => []
  | R, avg, s :: l => avg :: rates c (body c R avg s).1 (body c R avg s).2.1 l

/-- The sum that `diffReturn` is, for readers who prefer it. -/
theorem diffReturn_sum (gamma boot : ℝ) : ∀ rs rhos : List ℝ, rs.length = rhos.length →
    diffReturn gamma boot rs rhos =
      ∑ k ∈ range rs.length, gamma ^ k * ((rs[k]?.getD 0) - (rhos[k]?.getD 0)) + gamma ^ rs.length * boot
  | [], [], _ => by simp [diffReturn]
  | r :: rs, rho :: rhos, h => by
    have ih := diffReturn_sum gamma boot rs rhos (by simpa using h)
    simp only [diffReturn, List.length_cons, ih]
    rw [Finset.sum_range_succ']
    simp only [List.getElem?_cons_succ, List.getElem?_cons_zero, Option.getD_some, pow_zero, one_mul]
    rw [mul_add, Finset.mul_sum]
    have : ∀ k, gamma * (gamma ^ k * (rs[k]?.getD 0 - rhos[k]?.getD 0)) = gamma ^ (k + 1) * (rs[k]?.getD 0 - rhos[k]?.getD 0) := by
      intro k; ring
    simp only [this]
    ring
  | [], _ :: _, h => by simp at h
  | _ :: _, [], h => by simp at h

/-! ## Returns -/

theorem loop_length (c : Args) : ∀ (l : List Step) (R avg : ℝ), (loop c R avg l).2.length = l.length
  | [], _, _ => rfl
  | s :: l, R, avg => by simp [loop, loop_length c l]

theorem rates_length (c : Args) : ∀ (l : List Step) (R avg : ℝ), (rates c R avg l).length = l.length
  | [], _, _ => rfl
  | s :: l, R, avg => by simp [rates, rates_length c l]

theorem diffReturn_append (gamma boot : ℝ) : ∀ (rs rhos rs' rhos' : List ℝ), rs.length = rhos.length →
    diffReturn gamma boot (rs ++ rs') (rhos ++ rhos') = diffReturn gamma (diffReturn gamma boot rs' rhos') rs rhos
  | [], [], _, _, _ => by simp [diffReturn]
  | r :: rs, rho :: rhos, rs', rhos', h => by
    simp only [List.cons_append, diffReturn]
    rw [diffReturn_append gamma boot rs rhos rs' rhos' (by simpa using h)]
  | [], _ :: _, _, _, h => by simp at h
  | _ :: _, [], _, _, h => by simp at h

theorem loop_ret (c : Args) (hc : c.useAverageReward = true) : ∀ (l : List Step) (R avg : ℝ) (i : Nat) (o : Out),
    (loop c R avg l).2[i]? = some o →
    o.ret = diffReturn c.gamma R ((l.take (i + 1)).map (·.reward)).reverse ((rates c R avg l).take (i + 1)).reverse ∧
      (∃ s, l[i]? = some s ∧ o.advantage = o.ret - s.value)
  | [], R, avg, i, o, h => by simp [loop] at h
  | s :: l, R, avg, 0, o, h => by
    simp only [loop, List.getElem?_cons_zero, Option.some.injEq] at h
    subst h
    refine ⟨?_, s, rfl, ?_⟩
    · simp [body, hc, rates, diffReturn]; ring
    · simp [body]
  | s :: l, R, avg, i + 1, o, h => by
    simp only [loop, List.getElem?_cons_succ] at h
    obtain ⟨e, s', hs, ha⟩ := loop_ret c hc l _ _ i o h
    refine ⟨?_, s', by simpa using hs, ha⟩
    simp only [List.take_succ_cons, List.map_cons, List.reverse_cons, rates]
    rw [diffReturn_append _ _ _ _ _ _ (by simp [rates_length]), e]
    congr 1
    simp [body, hc, diffReturn]
    ring

theorem rates_value (c : Args) (hc : c.useAverageReward = true) : ∀ (l : List Step) (R avg : ℝ) (j : Nat), j < l.length →
    (rates c R avg l)[j]? = some (avg + c.averageRewardTau * (((loop c R avg l).2.take j).map (·.advantage)).sum)
  | [], _, _, _, h => by simp at h
  | s :: l, R, avg, 0, _ => by simp [rates]
  | s :: l, R, avg, j + 1, h => by
    simp only [rates, loop, List.getElem?_cons_succ, List.take_succ_cons, List.map_cons, List.sum_cons]
    rw [rates_value c hc l _ _ j (by simpa using h)]
    congr 1
    simp [body, hc]
    ring

/-- C116: with `use_average_reward` the return of the step at position `i` of a rollout is the discounted sum of all its later rewards,
each minus the estimated reward rate, plus the discounted value of the last state; and the advantage is the return minus the step's
value.  (`rhos` are the estimates, in the order of the steps; the last step has the one from before the update, and each other step that one moved
by `average_reward_tau` times the advantages of the steps after it.) -/
theorem C116_return (c : Args) (hc : c.useAverageReward = true) (avg : ℝ) (boot : Option ℝ) (steps : List Step) :
    ∃ rhos : List ℝ, rhos.length = steps.length ∧ (steps ≠ [] → rhos.getLast? = some avg) ∧
      (∀ i, i < steps.length → rhos[i]? = some (avg + c.averageRewardTau *
        (((update c avg boot steps).2.drop (i + 1)).map (·.advantage)).sum)) ∧
      ∀ i (hi : i < steps.length), ∃ o, (update c avg boot steps).2[i]? = some o ∧
        o.ret = diffReturn c.gamma (boot.getD 0) ((steps.drop i).map (·.reward)) (rhos.drop i) ∧
        o.advantage = o.ret - steps[i].value := by
  refine ⟨(rates c (boot.getD 0) avg steps.reverse).reverse, by simp [rates_length], ?_, ?_, ?_⟩
  · intro h
    cases hr : steps.reverse with
    | nil => simp at hr; exact absurd hr h
    | cons s l => simp [rates]
  · intro i hi
    rw [List.getElem?_reverse (by simpa [rates_length] using hi), rates_length, List.length_reverse,
      rates_value c hc _ _ _ _ (by simp; omega)]
    simp only [update, List.drop_reverse, loop_length, List.length_reverse, List.map_reverse, List.sum_reverse]
    rw [show steps.length - 1 - i = steps.length - (i + 1) by omega]
  · intro i hi
    have hl := loop_length c steps.reverse (boot.getD 0) avg
    simp only [List.length_reverse] at hl
    have hj : steps.length - 1 - i < (loop c (boot.getD 0) avg steps.reverse).2.length := by omega
    obtain ⟨e, s, hs, ha⟩ := loop_ret c hc steps.reverse (boot.getD 0) avg (steps.length - 1 - i) _ (List.getElem?_eq_getElem hj)
    refine ⟨(loop c (boot.getD 0) avg steps.reverse).2[steps.length - 1 - i], ?_, ?_, ?_⟩
    · simp only [update]
      rw [List.getElem?_reverse (by omega), hl]
      exact List.getElem?_eq_getElem hj
    · rw [e]
      have e1 : steps.length - 1 - i + 1 = steps.length - i := by omega
      rw [e1]
      rw [← List.map_reverse, List.take_reverse, List.reverse_reverse, List.reverse_take, rates_length, List.length_reverse]
      have e2 : steps.length - (steps.length - i) = i := by omega
      rw [e2]
    · rw [ha]
      have hs' : steps.reverse[steps.length - 1 - i]? = some steps[i] := by
        rw [List.getElem?_reverse (by omega)]
        have : steps.length - 1 - (steps.length - 1 - i) = i := by omega
        rw [this, List.getElem?_eq_getElem hi]
      rw [hs'] at hs
      cases hs
      rfl

/-! ## The estimate -/

theorem loop_rate (c : Args) (hc : c.useAverageReward = true) : ∀ (l : List Step) (R avg : ℝ),
    (loop c R avg l).1 = avg + c.averageRewardTau * ((loop c R avg l).2.map (·.advantage)).sum
  | [], _, _ => by simp [loop]
  | s :: l, R, avg => by
    simp only [loop]
    rw [loop_rate c hc l]
    simp [body, hc]
    ring

/-- C116: an update moves the estimated reward rate by `average_reward_tau` times the sum of the advantages of its steps. -/
theorem C116_rate (c : Args) (hc : c.useAverageReward = true) (avg : ℝ) (boot : Option ℝ) (steps : List Step) :
    (update c avg boot steps).1 = avg + c.averageRewardTau * ((update c avg boot steps).2.map (·.advantage)).sum := by
  simp only [update, List.map_reverse, List.sum_reverse]
  exact loop_rate c hc _ _ _

theorem loop_shift (c : Args) (hc : c.useAverageReward = true) (d : ℝ) : ∀ (l : List Step) (R avg : ℝ),
    loop c R (avg + d) (l.map fun s => ⟨s.reward + d, s.value⟩) = ((loop c R avg l).1 + d, (loop c R avg l).2)
  | [], _, _ => by simp [loop]
  | s :: l, R, avg => by
    have e1 : (body c R (avg + d) ⟨s.reward + d, s.value⟩).1 = (body c R avg s).1 := by simp [body, hc]; ring
    have e2 : (body c R (avg + d) ⟨s.reward + d, s.value⟩).2.1 = (body c R avg s).2.1 + d := by simp [body, hc]; ring
    have e3 : (body c R (avg + d) ⟨s.reward + d, s.value⟩).2.2 = (body c R avg s).2.2 := by
      simp only [body, hc, if_true, Out.mk.injEq]; constructor <;> ring
    simp only [List.map_cons, loop, e1, e2, e3]
    rw [loop_shift c hc d l]

/-- C116: adding a constant to all rewards (and to the estimate) changes neither returns nor advantages, and is followed by the estimate: only
differences to the average matter. -/
theorem C116_shift (c : Args) (hc : c.useAverageReward = true) (d avg : ℝ) (boot : Option ℝ) (steps : List Step) :
    update c (avg + d) boot (steps.map fun s => ⟨s.reward + d, s.value⟩) =
      ((update c avg boot steps).1 + d, (update c avg boot steps).2) := by
  simp only [update, ← List.map_reverse, loop_shift c hc d]

/-- Values that satisfy the differential Bellman equation with reward rate `rho` along a rollout. -/
def Consistent (gamma rho boot : ℝ) : List Step → Prop
  | [] => True
  | s :: l => s.value = s.reward - rho + gamma * (match l with | [] => boot | s' :: _ => s'.value) ∧ Consistent gamma rho boot l

theorem consistent_snoc (gamma rho boot : ℝ) : ∀ (l : List Step) (s : Step),
    Consistent gamma rho boot (l ++ [s]) → s.value = s.reward - rho + gamma * boot ∧ Consistent gamma rho s.value l
  | [], s, h => ⟨h.1, trivial⟩
  | [x], s, h => ⟨h.2.1, h.1, trivial⟩
  | x :: y :: l, s, h => by
    have ih := consistent_snoc gamma rho boot (y :: l) s h.2
    exact ⟨ih.1, h.1, ih.2⟩

theorem loop_fixed (c : Args) (hc : c.useAverageReward = true) (rho : ℝ) : ∀ (l : List Step) (R : ℝ), Consistent c.gamma rho R l.reverse →
    (loop c R rho l).1 = rho ∧ ∀ o ∈ (loop c R rho l).2, o.advantage = 0
  | [], _, _ => by simp [loop]
  | s :: l, R, h => by
    rw [List.reverse_cons] at h
    obtain ⟨h1, h2⟩ := consistent_snoc _ _ _ _ _ h
    have e1 : (body c R rho s).1 = s.value := by simp [body, hc, h1]; ring
    have ea : (body c R rho s).2.2.advantage = 0 := by simp [body, hc, h1]; ring
    have e2 : (body c R rho s).2.1 = rho := by simp [body, hc, h1]; right; ring
    simp only [loop, e1, e2]
    obtain ⟨k1, k2⟩ := loop_fixed c hc rho l s.value h2
    refine ⟨k1, ?_⟩
    intro o ho
    rcases List.mem_cons.1 ho with rfl | ho
    · exact ea
    · exact k2 o ho

/-- C116: what the algorithm is after stays put: if the values satisfy the differential Bellman equation for the estimated rate along a rollout,
all advantages are 0 and the estimate is unchanged. -/
theorem C116_fixed (c : Args) (hc : c.useAverageReward = true) (rho : ℝ) (boot : Option ℝ) (steps : List Step)
    (h : Consistent c.gamma rho (boot.getD 0) steps) :
    (update c rho boot steps).1 = rho ∧ ∀ o ∈ (update c rho boot steps).2, o.advantage = 0 := by
  have := loop_fixed c hc rho steps.reverse (boot.getD 0) (by simpa using h)
  simpa [update] using this

/-- A rollout with rate 2 that meets the hypothesis: rewards 1, 3, 2. -/
example : Consistent 1 2 0 [⟨1, 0⟩, ⟨3, 1⟩, ⟨2, 0⟩] := by
  refine ⟨?_, ?_, ?_, trivial⟩ <;> norm_num

/-- C116: without bootstrapping errors, that is when each update has one step whose value equals that of the next state, and without discounting, the
estimate after any rewards is their exponential average; -/
theorem C116_average (c : Args) (hc : c.useAverageReward = true) (hg : c.gamma = 1) (v : ℝ) (rs : List ℝ) (avg : ℝ) :
    run c avg (rs.map fun r => (some v, [⟨r, v⟩])) =
      (1 - c.averageRewardTau) ^ rs.length * avg +
        ∑ j ∈ range rs.length, c.averageRewardTau * (1 - c.averageRewardTau) ^ (rs.length - 1 - j) * (rs[j]?.getD 0) := by
  induction rs generalizing avg with
  | nil => simp [run]
  | cons r rs ih =>
    simp only [List.map_cons, run, ih, List.length_cons]
    rw [Finset.sum_range_succ']
    simp only [List.getElem?_cons_succ, List.getElem?_cons_zero, Option.getD_some, Nat.add_sub_cancel, Nat.sub_zero]
    have e : ∑ j ∈ range rs.length, c.averageRewardTau * (1 - c.averageRewardTau) ^ (rs.length - (j + 1)) * (rs[j]?.getD 0) =
        ∑ j ∈ range rs.length, c.averageRewardTau * (1 - c.averageRewardTau) ^ (rs.length - 1 - j) * (rs[j]?.getD 0) := by
      refine Finset.sum_congr rfl fun j _ => ?_
      have : rs.length - (j + 1) = rs.length - 1 - j := by omega
      rw [this]
    rw [e]
    simp [update, loop, body, hc, hg]
    ring

/-- ... and approaches a constant reward, for a rate between 0 and 1. -/
theorem C116_converges (c : Args) (hc : c.useAverageReward = true) (hg : c.gamma = 1) (h0 : 0 < c.averageRewardTau)
    (h1 : c.averageRewardTau ≤ 1) (v r avg : ℝ) :
    Filter.Tendsto (fun n : Nat => run c avg (List.replicate n (some v, [⟨r, v⟩]))) Filter.atTop (nhds r) := by
  have e : ∀ n : Nat, ∀ avg, run c avg (List.replicate n (some v, [⟨r, v⟩])) = r + (1 - c.averageRewardTau) ^ n * (avg - r) := by
    intro n
    induction n with
    | zero => intro avg; simp [run]
    | succ n ih =>
      intro avg
      simp only [List.replicate_succ, run, ih]
      simp [update, loop, body, hc, hg]
      ring
  simp only [e]
  have := (tendsto_pow_atTop_nhds_zero_of_lt_one (r := 1 - c.averageRewardTau) (by linarith) (by linarith)).mul_const (avg - r)
  have := this.const_add r
  simpa using this

/-! ## Switched off -/

theorem loop_off (c : Args) (hc : c.useAverageReward = false) : ∀ (l : List Step) (R avg : ℝ), (loop c R avg l).1 = avg
  | [], _, _ => rfl
  | s :: l, R, avg => by
    simp only [loop]
    rw [loop_off c hc l]
    simp [body, hc]

theorem loop_off_zero (c : Args) (hc : c.useAverageReward = false) (tau : ℝ) : ∀ (l : List Step) (R avg avg' : ℝ),
    (loop c R avg l).2 = (loop { c with averageRewardTau := tau } R avg' l).2
  | [], _, _, _ => rfl
  | s :: l, R, avg, avg' => by
    simp only [loop]
    rw [loop_off_zero c hc tau l _ _ (body { c with averageRewardTau := tau } R avg' s).2.1]
    simp [body, hc]

/-- C116: without `use_average_reward` (the default) the estimate is never changed, and neither it nor its rate has any influence. -/
theorem C116_off (c : Args) (hc : c.useAverageReward = false) (avg avg' tau : ℝ) (boot : Option ℝ) (steps : List Step) :
    (update c avg boot steps).1 = avg ∧
      (update c avg boot steps).2 = (update { c with averageRewardTau := tau } avg' boot steps).2 := by
  refine ⟨loop_off c hc _ _ _, ?_⟩
  simp only [update]
  rw [loop_off_zero c hc tau]

/-! ## Saving -/

/-- C116, violated: the estimate is learned but not saved: an agent that is saved and loaded goes on with other returns than the agent
itself. Here it has seen one reward of 1. -/
theorem C116_violated_save (c : Args) (hc : c.useAverageReward = true) (ht : c.averageRewardTau ≠ 0) :
    let avg := run c 0 [(none, [⟨1, 0⟩])]
    ((update c avg none [⟨1, 0⟩]).2.map (·.ret)) ≠ ((update c (reloaded avg) none [⟨1, 0⟩]).2.map (·.ret)) := by
  simp [run, update, loop, body, hc, reloaded, ht]

end Verif.AverageReward
