import Mathlib.Algebra.BigOperators.Group.List.Basic
import Mathlib.Algebra.BigOperators.Ring.List
import Mathlib.Algebra.Field.Rat
import Mathlib.Algebra.Order.Ring.Rat
import Mathlib.Tactic.Linarith
import Mathlib.Tactic.NormNum
import Mathlib.Tactic.Ring
import Verif.Model.IQN
import Verif.Spec.IQN
set_option autoImplicit false
set_option linter.unusedSectionVars false

/-! # C65: the quantile Huber loss of IQN -/

namespace Verif.IQN
variable {K : Type} [Field K] [LinearOrder K] [IsStrictOrderedRing K]

theorem huber_eq (kappa y t : K) : huber kappa y t = huberOf kappa (t - y) := by
  rw [huber, huberOf, abs_sub_comm y t]
  congr 1
  ring

theorem huberOf_zero (kappa : K) (hk : 0 ≤ kappa) : huberOf kappa 0 = 0 := by
  simp [huberOf, hk]

/-- **C65**, what holds: for every threshold, prediction, target and `tau` in
`[0, 1]`, the element of the loss is the paper's loss for the quantile level
`1 - tau`.  Missing: the level `tau` itself, see `C65_violated`. -/
theorem C65_reflected_partial (kappa y t tau : K) (hk : 0 ≤ kappa) (h0 : 0 ≤ tau) (h1 : tau ≤ 1) :
    eltwise kappa y t tau = paperLoss kappa y t (1 - tau) := by
  rw [eltwise, paperLoss, huber_eq]
  rcases lt_trichotomy y t with h | h | h
  · rw [if_pos (by linarith), if_neg (by linarith), abs_sub_comm, abs_of_nonneg (by linarith)]
  · subst h
    rw [sub_self, huberOf_zero kappa hk, mul_zero, mul_zero]
  · rw [if_neg (by linarith), if_pos h, sub_zero, abs_of_nonneg h0]
    ring

/-- **C65 does not hold**: wherever prediction and target differ and `tau` is not
one half, the loss is not the paper's loss for `tau`. -/
theorem C65_violated (kappa y t tau : K) (hk : 0 < kappa) (h0 : 0 ≤ tau) (h1 : tau ≤ 1)
    (hne : y ≠ t) (hhalf : 2 * tau ≠ 1) : eltwise kappa y t tau ≠ paperLoss kappa y t tau := by
  rw [C65_reflected_partial kappa y t tau hk.le h0 h1, paperLoss, paperLoss]
  have hpos : 0 < huberOf kappa (t - y) := by
    have hu : 0 < |t - y| := abs_pos.2 (sub_ne_zero.2 hne.symm)
    rw [huberOf]
    split
    · have : 0 < (t - y) * (t - y) := by rw [← abs_mul_abs_self]; exact mul_pos hu hu
      linarith
    · rename_i h
      push Not at h
      exact mul_pos hk (by linarith)
  intro heq
  have := mul_right_cancel₀ hpos.ne' heq
  apply hhalf
  split at this <;> linarith

/-- **C65**: the loss is zero exactly when prediction equals target, for levels
strictly between 0 and 1, and never negative. -/
theorem C65_zero_iff (kappa y t tau : K) (hk : 0 < kappa) (h0 : 0 < tau) (h1 : tau < 1) :
    0 ≤ eltwise kappa y t tau ∧ (eltwise kappa y t tau = 0 ↔ y = t) := by
  have hh : 0 ≤ huberOf kappa (t - y) ∧ (huberOf kappa (t - y) = 0 → y = t) := by
    by_cases hne : y = t
    · subst hne; simp [huberOf_zero kappa hk.le]
    · have hu : 0 < |t - y| := abs_pos.2 (sub_ne_zero.2 (Ne.symm hne))
      have hpos : 0 < huberOf kappa (t - y) := by
        rw [huberOf]
        split
        · have : 0 < (t - y) * (t - y) := by rw [← abs_mul_abs_self]; exact mul_pos hu hu
          linarith
        · rename_i h
          push Not at h
          exact mul_pos hk (by linarith)
      exact ⟨hpos.le, fun h => absurd h hpos.ne'⟩
  have hw : 0 < |tau - if 0 < t - y then 1 else 0| := by
    apply abs_pos.2
    split <;> intro h <;> linarith
  rw [eltwise, huber_eq]
  refine ⟨mul_nonneg hw.le hh.1, ?_⟩
  constructor
  · intro h
    rcases mul_eq_zero.1 h with h | h
    · exact absurd h hw.ne'
    · exact hh.2 h
  · rintro rfl
    rw [sub_self, huberOf_zero kappa hk.le, mul_zero]

theorem mul_sum_left (c : K) (l : List K) : (l.map (fun x => x * c)).sum = l.sum * c := by
  induction l with
  | nil => simp
  | cons a l ih => simp [ih, add_mul]

/-- **C65**: scaling importance weights: with every weight equal to `c`, the
weighted loss is `c` times the unweighted one, in both modes. -/
theorem C65_uniform_weights (sumMode : Bool) (loss : List (List (List K))) (c : K) :
    weightedValueLoss sumMode loss (List.replicate loss.length c) = c * valueLoss sumMode loss := by
  have h : (List.zipWith (fun (b : List (List K)) w => (b.map mean).sum * w) loss
      (List.replicate loss.length c)).sum = c * (loss.map (fun b => (b.map mean).sum)).sum := by
    clear sumMode
    induction loss with
    | nil => simp
    | cons a l ih =>
      rw [List.length_cons, List.replicate_succ, List.zipWith_cons_cons, List.sum_cons, ih,
        List.map_cons, List.sum_cons]
      ring
  cases sumMode
  · simp only [weightedValueLoss, valueLoss, h, Bool.false_eq_true, if_false]
    ring
  · simp only [weightedValueLoss, valueLoss, h, if_true]

/-! ## Non-vacuity -/

-- prediction 0, target 1/2, level 9/10: under-estimation, weight 1/10 instead of 9/10
example : eltwise (1 : ℚ) 0 (1/2) (9/10) = 1/80 := by decide +kernel
example : paperLoss (1 : ℚ) 0 (1/2) (9/10) = 9/80 := by decide +kernel
example : eltwise (1 : ℚ) 0 (1/2) (9/10) ≠ paperLoss (1 : ℚ) 0 (1/2) (9/10) :=
  C65_violated 1 0 (1/2) (9/10) (by norm_num) (by norm_num) (by norm_num) (by norm_num) (by norm_num)
example : weightedValueLoss false [[[(1 : ℚ), 3]], [[5, 5]]] [2, 4] = (4 + 20) / 2 := by decide +kernel

/-- **C65**, what holds: every element of the loss of a row, prediction `i` against target `j`,
is the paper's loss for the level `1 - tau_i`. -/
theorem C65_row_partial (kappa : K) (y taus t : List K) (hk : 0 ≤ kappa) (i j : Nat) (yi tau tj : K)
    (hy : y[i]? = some yi) (hs : taus[i]? = some tau) (ht : t[j]? = some tj) (h0 : 0 ≤ tau) (h1 : tau ≤ 1) :
    ((eltwiseRow kappa y taus t)[i]?.bind fun row => row[j]?) = some (paperLoss kappa yi tj (1 - tau)) := by
  simp [eltwiseRow, List.getElem?_zipWith, hy, hs, ht, C65_reflected_partial kappa yi tj tau hk h0 h1]

example : eltwiseRow (1 : ℚ) [0, 1] [9/10, 1/2] [1/2] = [[1/80], [1/16]] := by decide +kernel

end Verif.IQN
