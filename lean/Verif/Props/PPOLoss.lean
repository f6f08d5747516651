import Mathlib.Tactic.Ring
import Mathlib.Tactic.Linarith
import Mathlib.Tactic.Positivity
import Mathlib.Tactic.FieldSimp
import Mathlib.Analysis.Calculus.Deriv.Mul
import Mathlib.Analysis.Calculus.Deriv.Add
import Mathlib.Algebra.BigOperators.Group.List.Basic
import Verif.Model.PPOLoss

/-!
C87: the loss of PPO.

`C87_objective`: the clipped objective of one transition in closed form.  `C87_gradient` and
`C87_first_gradient`: which transitions the policy learns from.  `C87_value`: the clipped value loss.
`C87_loss`: the loss is the mean over the transitions.  `C87_standardized`: what standardised
advantages are.  `C87_violated_recurrent`: equal advantages stop the training of a recurrent model.
-/

set_option autoImplicit false
set_option linter.unusedSectionVars false

namespace Verif.PPOLoss
open Real

/-- **C87.** The clipped objective: a gain counts up to the ratio `1 + eps`, a loss down to the ratio
`1 - eps`; moves in the bad direction always count in full. -/
theorem C87_objective (eps lp lo adv : ℝ) (he : 0 ≤ eps) :
    surrogate eps lp lo adv =
      if 0 ≤ adv then min (exp (lp - lo)) (1 + eps) * adv else max (exp (lp - lo)) (1 - eps) * adv := by
  unfold surrogate clip
  simp only
  generalize exp (lp - lo) = r
  split
  · next h =>
    rw [← min_mul_of_nonneg _ _ h]
    congr 1
    rcases le_total r (1 - eps) with h1 | h1 <;> rcases le_total r (1 + eps) with h2 | h2 <;>
      rcases le_total (1 - eps) (1 + eps) with h3 | h3 <;>
      simp [max_def, min_def] <;> split_ifs <;> linarith
  · next h =>
    have h : adv ≤ 0 := by linarith
    rw [show ∀ x : ℝ, min (r * adv) (x * adv) = max r x * adv from fun x => by
      rcases le_total r x with hx | hx
      · rw [max_eq_right hx, min_eq_right (mul_le_mul_of_nonpos_right hx h)]
      · rw [max_eq_left hx, min_eq_left (mul_le_mul_of_nonpos_right hx h)]]
    congr 1
    rcases le_total r (1 - eps) with h1 | h1 <;> rcases le_total r (1 + eps) with h2 | h2 <;>
      rcases le_total (1 - eps) (1 + eps) with h3 | h3 <;>
      simp [max_def, min_def] <;> split_ifs <;> linarith

/-- **C87.** The objective never promises more than the unclipped one, and is the unclipped one
while the ratio is within `eps` of 1. -/
theorem C87_pessimistic (eps lp lo adv : ℝ) :
    surrogate eps lp lo adv ≤ exp (lp - lo) * adv ∧
    (|exp (lp - lo) - 1| ≤ eps → surrogate eps lp lo adv = exp (lp - lo) * adv) := by
  refine ⟨min_le_left _ _, fun h => ?_⟩
  rw [abs_le] at h
  unfold surrogate clip
  simp only
  rw [max_eq_left (by linarith), min_eq_left (a := exp (lp - lo)) (by linarith), min_self]

/-- The transition is clipped: its ratio has already moved further than `eps` in the direction its
advantage asks for. -/
def Clipped (eps lp lo adv : ℝ) : Prop :=
  (0 < adv ∧ 1 + eps < exp (lp - lo)) ∨ (adv < 0 ∧ exp (lp - lo) < 1 - eps)

/-- The transition is not clipped, and not at the corner. -/
def Free (eps lp lo adv : ℝ) : Prop :=
  (0 < adv ∧ exp (lp - lo) < 1 + eps) ∨ (adv < 0 ∧ 1 - eps < exp (lp - lo)) ∨ adv = 0

theorem hasDerivAt_ratio (lp lo adv : ℝ) :
    HasDerivAt (fun x => exp (x - lo) * adv) (exp (lp - lo) * adv) lp := by
  have h : HasDerivAt (fun x : ℝ => x - lo) 1 lp := by simpa using (hasDerivAt_id lp).sub_const lo
  have := h.exp
  rw [mul_one] at this
  exact this.mul_const adv

/-- **C87.** Seen as a function of the log probability of the action, the objective has slope
`ratio * advantage` for a transition that is not clipped and slope zero for one that is. -/
theorem C87_gradient (eps lp lo adv : ℝ) (he : 0 ≤ eps) :
    (Free eps lp lo adv → HasDerivAt (fun x => surrogate eps x lo adv) (exp (lp - lo) * adv) lp) ∧
    (Clipped eps lp lo adv → HasDerivAt (fun x => surrogate eps x lo adv) 0 lp) := by
  have hcont : Continuous fun x : ℝ => exp (x - lo) := by continuity
  constructor
  · rintro (⟨ha, h⟩ | ⟨ha, h⟩ | ha)
    · refine (hasDerivAt_ratio lp lo adv).congr_of_eventuallyEq ?_
      filter_upwards [hcont.continuousAt.eventually_lt continuousAt_const h] with x hx
      rw [C87_objective _ _ _ _ he, if_pos ha.le, min_eq_left hx.le]
    · refine (hasDerivAt_ratio lp lo adv).congr_of_eventuallyEq ?_
      filter_upwards [continuousAt_const.eventually_lt hcont.continuousAt h] with x hx
      rw [C87_objective _ _ _ _ he, if_neg (by linarith), max_eq_left hx.le]
    · subst ha
      have : (fun x => surrogate eps x lo 0) = fun _ => (0 : ℝ) := by
        funext x; simp [surrogate]
      rw [this, mul_zero]
      exact hasDerivAt_const _ _
  · rintro (⟨ha, h⟩ | ⟨ha, h⟩)
    · refine (hasDerivAt_const lp ((1 + eps) * adv)).congr_of_eventuallyEq ?_
      filter_upwards [continuousAt_const.eventually_lt hcont.continuousAt h] with x hx
      rw [C87_objective _ _ _ _ he, if_pos ha.le, min_eq_right hx.le]
    · refine (hasDerivAt_const lp ((1 - eps) * adv)).congr_of_eventuallyEq ?_
      filter_upwards [hcont.continuousAt.eventually_lt continuousAt_const h] with x hx
      rw [C87_objective _ _ _ _ he, if_neg (by linarith), max_eq_right hx.le]

/-- **C87.** As long as the policy is the one that acted, the slope is the advantage: the first update
is a policy gradient step. -/
theorem C87_first_gradient (eps lp adv : ℝ) (he : 0 < eps) :
    surrogate eps lp lp adv = adv ∧ HasDerivAt (fun x => surrogate eps x lp adv) adv lp := by
  constructor
  · rw [(C87_pessimistic eps lp lp adv).2 (by simp [he.le])]
    simp
  · have hf : Free eps lp lp adv := by
      unfold Free
      rcases lt_trichotomy adv 0 with h | h | h
      · right; left; simp [h, he]
      · right; right; exact h
      · left; simp [h, he]
    have := (C87_gradient eps lp lp adv he.le).1 hf
    simpa using this

/-- **C87.** Without `clip_eps_vf` the value loss is the squared error.  With it, the loss is at
least that, it is the squared error while the value is within `clip_eps_vf` of the old one, and it does
not change with the value where the clipped value is the worse one and the value is out of range. -/
theorem C87_value (e v vOld teacher : ℝ) (he : 0 ≤ e) :
    valueLoss none v vOld teacher = (v - teacher) ^ 2 ∧
    (v - teacher) ^ 2 ≤ valueLoss (some e) v vOld teacher ∧
    (|v - vOld| ≤ e → valueLoss (some e) v vOld teacher = (v - teacher) ^ 2) ∧
    (vOld + e < v → (v - teacher) ^ 2 ≤ (vOld + e - teacher) ^ 2 → valueLoss (some e) v vOld teacher = (vOld + e - teacher) ^ 2) ∧
    (v < vOld - e → (v - teacher) ^ 2 ≤ (vOld - e - teacher) ^ 2 → valueLoss (some e) v vOld teacher = (vOld - e - teacher) ^ 2) := by
  refine ⟨rfl, le_max_left _ _, fun h => ?_, fun h1 h2 => ?_, fun h1 h2 => ?_⟩
  · rw [abs_le] at h
    simp only [valueLoss, clip]
    rw [max_eq_left (a := v) (by linarith), min_eq_left (by linarith), max_self]
  · simp only [valueLoss, clip]
    rw [max_eq_left (a := v) (by linarith), min_eq_right (by linarith), max_eq_right h2]
  · simp only [valueLoss, clip]
    rw [max_eq_right (a := v) (by linarith), min_eq_left (by linarith), max_eq_right h2]

theorem mean_map_sub (l : List Row) (f g : Row → ℝ) :
    mean (l.map f) - mean (l.map g) = mean (l.map fun r => f r - g r) := by
  unfold mean
  simp only [List.length_map]
  rw [← sub_div]
  congr 1
  induction l with
  | nil => simp
  | cons a l ih => simp only [List.map_cons, List.sum_cons, ← ih]; ring

/-- **C87.** The loss of a minibatch is the mean over its transitions of minus the objective plus
the weighted value loss minus the weighted entropy. -/
theorem C87_loss (c : Args) (rows : List Row) :
    lossfun c rows = (rows.map fun r => -surrogate c.clipEps r.logProb r.logProbOld r.adv +
      c.valueCoef * valueLoss c.clipEpsVf r.vPred r.vPredOld r.vTeacher - c.entropyCoef * r.entropy).sum / rows.length := by
  unfold lossfun mean
  simp only [List.length_map]
  rw [show ∀ a b d n v e : ℝ, -(a / n) + v * (b / n) + e * -(d / n) = (-a + v * b - e * d) / n from
    fun a b d n v e => by ring]
  congr 1
  induction rows with
  | nil => simp
  | cons a l ih =>
    simp only [List.map_cons, List.sum_cons, ← ih]
    ring

/-- **C87.** The slope of the whole loss along the log probability of transition `k`: one `n`-th of
the slope of its own objective, with the sign reversed. -/
theorem C87_loss_gradient (c : Args) (rows : List Row) (k : Nat) (hk : k < rows.length) (d : ℝ)
    (h : HasDerivAt (fun x => surrogate c.clipEps x rows[k].logProbOld rows[k].adv) d rows[k].logProb) :
    HasDerivAt (fun x => lossfun c (rows.set k { rows[k] with logProb := x })) (-(d / rows.length)) rows[k].logProb := by
  have key : ∀ x, lossfun c (rows.set k { rows[k] with logProb := x }) =
      (((rows.take k ++ rows.drop (k + 1)).map fun r => -surrogate c.clipEps r.logProb r.logProbOld r.adv +
      c.valueCoef * valueLoss c.clipEpsVf r.vPred r.vPredOld r.vTeacher - c.entropyCoef * r.entropy).sum +
      (c.valueCoef * valueLoss c.clipEpsVf rows[k].vPred rows[k].vPredOld rows[k].vTeacher - c.entropyCoef * rows[k].entropy) +
      -surrogate c.clipEps x rows[k].logProbOld rows[k].adv) / rows.length := by
    intro x
    rw [C87_loss, List.length_set, List.set_eq_take_append_cons_drop, if_pos hk]
    congr 1
    simp only [List.map_append, List.map_cons, List.sum_append, List.sum_cons]
    ring
  rw [show (fun x => lossfun c (rows.set k { rows[k] with logProb := x })) = _ from funext key]
  have := (h.neg.const_add ((((rows.take k ++ rows.drop (k + 1)).map fun r => -surrogate c.clipEps r.logProb r.logProbOld r.adv +
      c.valueCoef * valueLoss c.clipEpsVf r.vPred r.vPredOld r.vTeacher - c.entropyCoef * r.entropy).sum +
      (c.valueCoef * valueLoss c.clipEpsVf rows[k].vPred rows[k].vPredOld rows[k].vTeacher - c.entropyCoef * rows[k].entropy)))).div_const (rows.length : ℝ)
  rw [neg_div] at this
  exact this

theorem sum_map_sub_const (a : ℝ) (xs : List ℝ) : (xs.map fun x => x - a).sum = xs.sum - xs.length * a := by
  induction xs with
  | nil => simp
  | cons x xs ih => simp only [List.map_cons, List.sum_cons, ih, List.length_cons, Nat.cast_add, Nat.cast_one]; ring

theorem sum_map_div (c : ℝ) (f : ℝ → ℝ) (xs : List ℝ) : (xs.map fun x => f x / c).sum = (xs.map f).sum / c := by
  induction xs with
  | nil => simp
  | cons x xs ih => simp only [List.map_cons, List.sum_cons, ih]; ring

/-- **C87.** Standardised advantages have mean zero, and their standard deviation is that of the
advantages over itself plus 1e-8, hence less than one. -/
theorem C87_standardized (xs : List ℝ) (h : xs ≠ []) :
    mean (standardize xs) = 0 ∧ std (standardize xs) = std xs / (std xs + 1e-8) ∧ std (standardize xs) < 1 := by
  have hn : (xs.length : ℝ) ≠ 0 := by
    have : xs.length ≠ 0 := by simpa using h
    exact_mod_cast this
  have hs : 0 ≤ std xs := sqrt_nonneg _
  have hpos : 0 < std xs + 1e-8 := by have : (0 : ℝ) < 1e-8 := by norm_num
                                      linarith
  have h0 : mean (standardize xs) = 0 := by
    unfold standardize
    rw [mean, List.length_map, sum_map_div, sum_map_sub_const]
    rw [show xs.sum - xs.length * mean xs = 0 by unfold mean; field_simp; ring]
    simp
  have h1 : std (standardize xs) = std xs / (std xs + 1e-8) := by
    rw [std, h0]
    have : mean ((standardize xs).map fun x => (x - 0) ^ 2) = mean (xs.map fun x => (x - mean xs) ^ 2) / (std xs + 1e-8) ^ 2 := by
      unfold standardize
      rw [List.map_map, mean, List.length_map]
      rw [show ((fun x : ℝ => (x - 0) ^ 2) ∘ fun x => (x - mean xs) / (std xs + 1e-8)) =
        fun x => (x - mean xs) ^ 2 / (std xs + 1e-8) ^ 2 from by funext x; simp [div_pow]]
      rw [sum_map_div]
      show _ = (List.map _ xs).sum / _ / _
      rw [List.length_map]
      ring
    rw [this, sqrt_div', sqrt_sq hpos.le]
    · rfl
    · positivity
  refine ⟨h0, h1, ?_⟩
  rw [h1, div_lt_one hpos]
  have : (0 : ℝ) < 1e-8 := by norm_num
  linarith

/-- **C87.** The order of the advantages is kept. -/
theorem C87_standardized_order (xs : List ℝ) (i j : Nat) (x y : ℝ) (hi : xs[i]? = some x) (hj : xs[j]? = some y)
    (hxy : x ≤ y) : ∃ x' y', (standardize xs)[i]? = some x' ∧ (standardize xs)[j]? = some y' ∧ x' ≤ y' := by
  have hs : 0 ≤ std xs := sqrt_nonneg _
  have hpos : 0 < std xs + 1e-8 := by have : (0 : ℝ) < 1e-8 := by norm_num
                                      linarith
  refine ⟨(x - mean xs) / (std xs + 1e-8), (y - mean xs) / (std xs + 1e-8), ?_, ?_, ?_⟩
  · simp [standardize, hi]
  · simp [standardize, hj]
  · apply div_le_div_of_nonneg_right _ hpos.le
    linarith

/-- **C87.** Advantages that are not all equal can be used by both kinds of models. -/
theorem C87_usable (b : Bool) (xs : List ℝ) (h : 0 < std xs) : recurrentAdvs b xs = plainAdvs b xs := by
  unfold recurrentAdvs plainAdvs
  rw [if_pos h]

/-- **C87 (violated).** If all advantages of a dataset are equal, for instance because it has one
transition only, the update of a recurrent model raises, while that of another model does not. -/
theorem C87_violated_recurrent (a : ℝ) (n : Nat) :
    recurrentAdvs true (List.replicate (n + 1) a) = .error .assertionError ∧
    ∃ xs, plainAdvs true (List.replicate (n + 1) a) = .ok xs ∧ xs = List.replicate (n + 1) 0 := by
  have hm : mean (List.replicate (n + 1) a) = a := by
    unfold mean
    rw [List.sum_replicate, List.length_replicate, nsmul_eq_mul]
    have : ((n + 1 : Nat) : ℝ) ≠ 0 := by positivity
    field_simp
  have hs : std (List.replicate (n + 1) a) = 0 := by
    unfold std
    rw [hm, List.map_replicate]
    simp [mean]
  constructor
  · unfold recurrentAdvs
    rw [if_pos rfl, hs, if_neg (lt_irrefl _)]
  · refine ⟨_, rfl, ?_⟩
    unfold standardize
    rw [hm, hs, List.map_replicate]
    simp

/-! ### Examples -/

/-- A transition with a positive advantage whose ratio has grown to `e`: it is clipped for
`eps = 1/5`, and so does not teach anything. -/
example : HasDerivAt (fun x => surrogate (1 / 5) x 0 3) 0 1 :=
  (C87_gradient (1 / 5) 1 0 3 (by norm_num)).2 (.inl ⟨by norm_num, by
    have := Real.add_one_lt_exp (x := 1) (by norm_num)
    simp only [sub_zero]
    linarith⟩)

/-- Two transitions with opposite advantages, the policy unchanged: the loss is minus the mean. -/
example : lossfun ⟨1 / 5, none, 0, 0⟩ [⟨0, 0, 2, 0, 2, 3, 0⟩, ⟨0, 0, 1, 0, 1, -1, 0⟩] = -1 := by
  rw [C87_loss]
  simp only [List.map_cons, List.map_nil, (C87_first_gradient (1 / 5) _ _ (by norm_num)).1]
  norm_num

/-- The advantages 1 and 3 have standard deviation 1, so that both kinds of models can use them. -/
example : 0 < std [1, 3] := by
  simp [std, mean]
  norm_num

end Verif.PPOLoss
