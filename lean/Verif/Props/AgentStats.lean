import Mathlib.Algebra.BigOperators.Group.Finset.Basic
import Mathlib.Algebra.BigOperators.Ring.Finset
import Mathlib.Analysis.SpecificLimits.Basic
import Mathlib.Tactic.Linarith
import Mathlib.Tactic.NormNum
import Mathlib.Tactic.Ring
import Verif.Model.AgentStats
set_option autoImplicit false
set_option linter.unusedSectionVars false

/-!
# C117: statistics of agents
-/

namespace Verif.AgentStats
open Finset

/-! ## Specification -/

/-- The values of one quantity in a history, in order. -/
def values (k : Quantity) (h : List (Quantity × ℝ)) : List ℝ := (h.filter fun e => e.1 = k).map (·.2)

/-- The exponential average with decay `d` of values, starting from 0. -/
noncomputable def expAverage (d : ℝ) (vs : List ℝ) : ℝ :=
  ∑ j ∈ range vs.length, (1 - d) * d ^ (vs.length - 1 - j) * (vs[j]?.getD 0)

/-- The mean of the last `w` values. -/
noncomputable def windowMean (w : Nat) (vs : List ℝ) : Option ℝ :=
  let last := vs.drop (vs.length - w)
  if last = [] then none else some (last.sum / last.length)

/-- What a statistic of values should be. -/
noncomputable def Keep.spec : Keep → List ℝ → Option ℝ
  | .scaled d, vs => some (expAverage d vs)
  | .moved d, vs => some (expAverage d vs)
  | .window w, vs => windowMean w vs

/-- What the names mean. -/
def named : String → Option Quantity
  | "average_q" => some .q
  | "average_q1" => some .q1
  | "average_q2" => some .q2
  | "average_value" => some .value
  | "average_entropy" => some .entropy
  | "average_kl" => some .kl
  | "average_loss" => some .loss
  | "average_actor" => some .actorLoss
  | "average_actor_loss" => some .actorLoss
  | "average_critic_loss" => some .criticLoss
  | "average_q_func1_loss" => some .q1Loss
  | "average_q_func2_loss" => some .q2Loss
  | "average_value_loss" => some .valueLoss
  | "average_policy_loss" => some .policyLoss
  | "average_policy_step_size" => some .stepSize
  | _ => none

/-! ## One cell -/

theorem expAverage_snoc (d v : ℝ) (vs : List ℝ) : expAverage d (vs ++ [v]) = expAverage d vs * d + (1 - d) * v := by
  unfold expAverage
  simp only [List.length_append, List.length_singleton, Nat.add_sub_cancel]
  rw [Finset.sum_range_succ]
  simp only [Nat.sub_self, pow_zero, mul_one]
  rw [List.getElem?_append_right (Nat.le_refl _)]
  simp only [Nat.sub_self, List.getElem?_cons_zero, Option.getD_some]
  rw [Finset.sum_mul]
  congr 1
  refine Finset.sum_congr rfl fun j hj => ?_
  have hj := Finset.mem_range.1 hj
  rw [List.getElem?_append_left hj]
  have : vs.length - j = vs.length - 1 - j + 1 := by omega
  rw [this, pow_succ]
  ring

theorem window_push (w : Nat) (vs : List ℝ) (v : ℝ) :
    push w (vs.drop (vs.length - w)) v = (vs ++ [v]).drop ((vs ++ [v]).length - w) := by
  unfold push
  simp only [List.length_append, List.length_drop, List.length_singleton]
  split
  · rename_i h
    rw [List.drop_append, List.drop_append, List.drop_drop]
    simp only [List.length_drop]
    by_cases hw : w = 0
    · subst hw
      simp
    · have e1 : vs.length - w + 1 = vs.length + 1 - w := by omega
      have e2 : 1 - (vs.length - (vs.length - w)) = vs.length + 1 - w - vs.length := by omega
      rw [e1, e2]
  · rename_i h
    have e : vs.length + 1 - w = 0 := by omega
    have e' : vs.length - w = 0 := by omega
    simp [e, e']

/-- The cell after values. -/
def cell (k : Keep) (vs : List ℝ) : Cell := vs.foldl k.add k.init

theorem cell_snoc (k : Keep) (vs : List ℝ) (v : ℝ) : cell k (vs ++ [v]) = k.add (cell k vs) v := by
  simp [cell]

theorem cell_eq (k : Keep) (vs : List ℝ) : cell k vs = match k with
    | .scaled d => .num (expAverage d vs)
    | .moved d => .num (expAverage d vs)
    | .window w => .deque (vs.drop (vs.length - w)) := by
  induction vs using List.reverseRecOn with
  | nil => cases k <;> simp [cell, Keep.init, expAverage]
  | append_singleton vs v ih =>
    rw [cell_snoc, ih]
    cases k with
    | scaled d => simp only [Keep.add, expAverage_snoc]
    | moved d =>
      simp only [Keep.add, expAverage_snoc]
      congr 1
      ring
    | window w => simp only [Keep.add, window_push]

theorem report_cell (k : Keep) (vs : List ℝ) : report (cell k vs) = k.spec vs := by
  rw [cell_eq]
  cases k <;> rfl

/-! ## All statistics -/

theorem run_eq (h : List (Quantity × ℝ)) : ∀ l : List (String × Keep × Quantity × Cell),
    run l h = l.map fun x => (x.1, x.2.1, x.2.2.1, (values x.2.2.1 h).foldl x.2.1.add x.2.2.2) := by
  induction h with
  | nil => intro l; simp [run, values]
  | cons e h ih =>
    intro l
    simp only [run, ih, see, List.map_map]
    refine List.map_congr_left fun x _ => ?_
    simp only [Function.comp, values]
    by_cases hx : x.2.2.1 = e.1
    · simp [hx]
    · have : ¬ e.1 = x.2.2.1 := fun h => hx h.symm
      simp [hx, this]

/-- C117: after any history `get_statistics` reports for each statistic the average of the quantity that the agent puts in: with decay `d` the
exponential average, with weight `(1 - d) d^j` for the value with `j` later ones, and with a window of size `w` the mean of the last
`w` values, or nan if there is none. -/
theorem C117_averages (a : Args) (k : Kind) (h : List (Quantity × ℝ)) :
    getStatistics (run (start (stats a k)) h) = (stats a k).map fun x => (x.1, x.2.1.spec (values x.2.2 h)) := by
  rw [run_eq]
  simp only [getStatistics, start, List.map_map]
  refine List.map_congr_left fun x _ => ?_
  simp only [Function.comp]
  rw [← report_cell]
  rfl

/-- C117: and this quantity is the one that the name of the statistic promises, for all agents but A2C. -/
theorem C117_names (a : Args) (k : Kind) (hk : k ≠ .a2c) : ∀ x ∈ stats a k, named x.1 = some x.2.2 := by
  cases k <;> first | exact absurd rfl hk | simp [stats, named]

/-- The decay or window that the user means to set for a statistic: `average_q_decay`, `average_loss_decay` (also for the losses of actor
and critic), `average_value_decay`, ..., `value_stats_window`, `kl_stats_window`, ...; SAC and TD3 have fixed windows of 1000 values and 100
losses. -/
def meant (a : Args) (k : Kind) (name : String) : Option Keep :=
  let d : Quantity → ℝ := a.decay
  let w : Quantity → Nat := a.window
  match k, name with
  | .ddpg, "average_actor_loss" => some (.scaled (d .loss))
  | .ddpg, "average_critic_loss" => some (.scaled (d .loss))
  | .pgt, "average_actor_loss" => some (.scaled (d .loss))
  | .pgt, "average_critic_loss" => some (.scaled (d .loss))
  | .sac, "average_q_func1_loss" => some (.window 100)
  | .sac, "average_q_func2_loss" => some (.window 100)
  | .td3, "average_q_func1_loss" => some (.window 100)
  | .td3, "average_q_func2_loss" => some (.window 100)
  | .td3, "average_policy_loss" => some (.window 100)
  | .sac, _ => some (.window 1000)
  | .td3, _ => some (.window 1000)
  | .ppo, n => (named n).map fun q => .window (w q)
  | .trpo, n => (named n).map fun q => .window (w q)
  | .ddpg, n => (named n).map fun q => .scaled (d q)
  | .dqn, n => (named n).map fun q => .scaled (d q)
  | .pgt, n => (named n).map fun q => .scaled (d q)
  | _, n => (named n).map fun q => .moved (d q)

/-- C117: every statistic is kept with the decay or window that the constructor argument of this name sets. -/
theorem C117_parameters (a : Args) (k : Kind) : ∀ x ∈ stats a k, meant a k x.1 = some x.2.1 := by
  cases k <;> simp [stats, meant, named]

/-- C117: and all statistics that an agent has names for are there, each once. -/
theorem C117_complete (a : Args) (k : Kind) (h : List (Quantity × ℝ)) :
    (getStatistics (run (start (stats a k)) h)).map Prod.fst = match k with
      | .a2c => ["average_actor", "average_value", "average_entropy"]
      | .a3c => ["average_value", "average_entropy"]
      | .acer => ["average_value", "average_entropy", "average_kl"]
      | .ddpg => ["average_q", "average_actor_loss", "average_critic_loss"]
      | .dqn => ["average_q", "average_loss"]
      | .nsq => ["average_q"]
      | .pcl => ["average_loss", "average_value", "average_entropy"]
      | .pgt => ["average_q", "average_actor_loss", "average_critic_loss"]
      | .ppo => ["average_value", "average_entropy", "average_value_loss", "average_policy_loss"]
      | .reinforce => ["average_entropy"]
      | .sac => ["average_q1", "average_q2", "average_q_func1_loss", "average_q_func2_loss", "average_entropy"]
      | .td3 => ["average_q1", "average_q2", "average_q_func1_loss", "average_q_func2_loss", "average_policy_loss"]
      | .trpo => ["average_value", "average_entropy", "average_kl", "average_policy_step_size"] := by
  rw [C117_averages, List.map_map]
  cases k <;> rfl

/-- C117, violated: the `average_value` of A2C is the average of the losses of the value function, not of values: it does not depend on the
values at all. -/
theorem C117_violated_a2c (a : Args) (h : List (Quantity × ℝ)) :
    (getStatistics (run (start (stats a .a2c)) h)).lookup "average_value" = some (some (expAverage (a.decay .value) (values .valueLoss h))) := by
  rw [C117_averages]
  rfl

/-! ## Consequences -/

/-- C117: an average with decay in [0, 1] of values from an interval that contains 0 lies in this interval, -/
theorem C117_bounds (d : ℝ) (h0 : 0 ≤ d) (h1 : d ≤ 1) (a b : ℝ) (ha : a ≤ 0) (hb : 0 ≤ b) (vs : List ℝ) (hv : ∀ v ∈ vs, a ≤ v ∧ v ≤ b) :
    a ≤ expAverage d vs ∧ expAverage d vs ≤ b := by
  induction vs using List.reverseRecOn with
  | nil => simp [expAverage, ha, hb]
  | append_singleton vs v ih =>
    rw [expAverage_snoc]
    obtain ⟨i1, i2⟩ := ih fun x hx => hv x (by simp [hx])
    obtain ⟨c1, c2⟩ := hv v (by simp)
    constructor <;> nlinarith

/-- and is not corrected for its start: after `n` equal values `v` it is `(1 - d^n) v`, -/
theorem C117_constant (d v : ℝ) (n : Nat) : expAverage d (List.replicate n v) = (1 - d ^ n) * v := by
  induction n with
  | zero => simp [expAverage]
  | succ n ih =>
    rw [List.replicate_succ', expAverage_snoc, ih, pow_succ]
    ring

/-- C117, violated: with the value `v` in every state A2C reports the average value 0, where A3C reports `(1 - d^n) v`. -/
theorem C117_violated_a2c_constant (a : Args) (n : Nat) (v : ℝ) :
    let h := List.replicate n (Quantity.value, v)
    (getStatistics (run (start (stats a .a2c)) h)).lookup "average_value" = some (some 0) ∧
      (getStatistics (run (start (stats a .a3c)) h)).lookup "average_value" = some (some ((1 - a.decay .value ^ n) * v)) := by
  intro h
  have e1 : values .valueLoss h = [] := by
    simp only [values, h]
    rw [List.filter_eq_nil_iff.2]
    · rfl
    · intro e he
      rw [List.eq_of_mem_replicate he]
      simp
  have e2 : values .value h = List.replicate n v := by
    simp only [values, h]
    rw [List.filter_eq_self.2, List.map_replicate]
    intro e he
    rw [List.eq_of_mem_replicate he]
    simp
  refine ⟨?_, ?_⟩
  · rw [C117_violated_a2c, e1]
    simp [expAverage]
  · rw [C117_averages]
    have : ((stats a .a3c).map fun x => (x.1, x.2.1.spec (values x.2.2 h))).lookup "average_value" =
        some (some (expAverage (a.decay .value) (values .value h))) := rfl
    rw [this, e2, C117_constant]

/-- which approaches `v`. -/
theorem C117_converges (d v : ℝ) (h0 : 0 ≤ d) (h1 : d < 1) :
    Filter.Tendsto (fun n => expAverage d (List.replicate n v)) Filter.atTop (nhds v) := by
  simp only [C117_constant]
  have := ((tendsto_pow_atTop_nhds_zero_of_lt_one h0 h1).const_sub 1).mul_const v
  simpa using this

/-- C117: a windowed statistic is nan if and only if nothing was recorded. -/
theorem C117_nan (w : Nat) (hw : 0 < w) (vs : List ℝ) : windowMean w vs = none ↔ vs = [] := by
  unfold windowMean
  simp only [ite_eq_left_iff, reduceCtorEq, imp_false, not_not]
  constructor
  · intro h
    have := List.drop_eq_nil_iff.1 h
    cases vs with
    | nil => rfl
    | cons v vs => simp only [List.length_cons] at this; omega
  · rintro rfl; simp

/-- TD3 after two updates with policy losses 1 and 3, and Q-losses not yet recorded. -/
example (a : Args) : (getStatistics (run (start (stats a .td3)) [(.policyLoss, 1), (.policyLoss, 3)])).lookup "average_policy_loss" = some (some 2) ∧
    (getStatistics (run (start (stats a .td3)) [(.policyLoss, 1), (.policyLoss, 3)])).lookup "average_q1" = some none := by
  rw [C117_averages]
  constructor
  · have : ((stats a .td3).map fun x => (x.1, x.2.1.spec (values x.2.2 [(.policyLoss, 1), (.policyLoss, 3)]))).lookup "average_policy_loss" =
      some (windowMean 100 (values .policyLoss [(.policyLoss, 1), (.policyLoss, 3)])) := rfl
    rw [this]
    have e : values .policyLoss [(.policyLoss, 1), (.policyLoss, 3)] = [1, 3] := by simp [values]
    rw [e]
    simp [windowMean]; norm_num
  · have : ((stats a .td3).map fun x => (x.1, x.2.1.spec (values x.2.2 [(.policyLoss, 1), (.policyLoss, 3)]))).lookup "average_q1" =
      some (windowMean 1000 (values .q1 [(.policyLoss, 1), (.policyLoss, 3)])) := rfl
    rw [this]
    simp [windowMean, values]

end Verif.AgentStats
