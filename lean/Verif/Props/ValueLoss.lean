import Mathlib.Analysis.Calculus.Deriv.Mul
import Mathlib.Analysis.Calculus.Deriv.Add
import Mathlib.Analysis.Calculus.Deriv.Pow
import Mathlib.Analysis.Calculus.Deriv.Inv
import Mathlib.Analysis.Calculus.MeanValue
import Mathlib.Tactic.Linarith
import Mathlib.Tactic.Ring
import Mathlib.Tactic.FieldSimp
import Mathlib.Tactic.NormNum
import Verif.Model.ValueLoss

/-!
C90: the losses of DQN.

The loss of a transition is specified by its gradient.
-/

set_option autoImplicit false
set_option linter.unusedSectionVars false

namespace Verif.ValueLoss

/-! ### Specification -/

/-- `x` cut to `[-1, 1]`. -/
noncomputable def clip1 (x : ℝ) : ℝ := max (-1) (min 1 x)

/-- The gradient of one transition's loss with respect to the prediction, `e` being the prediction minus
the target: the error, or the error cut to `[-1, 1]`. -/
noncomputable def slope (clipDelta : Bool) (e : ℝ) : ℝ := if clipDelta then clip1 e else e

/-- A loss function of the error with the wanted gradient: zero for no error. -/
structure IsLoss (clipDelta : Bool) (l : ℝ → ℝ) : Prop where
  zero : l 0 = 0
  deriv : ∀ e, HasDerivAt l (slope clipDelta e) e

/-- The factor of the accumulator. -/
noncomputable def factor (mean : Bool) (n : Nat) : ℝ := if mean then 1 / n else 1

/-- The name of the accumulator. -/
def accName (mean : Bool) : String := if mean then "mean" else "sum"

/-- One transition: prediction, target, weight. -/
structure Row where
  y : ℝ
  t : ℝ
  w : ℝ

/-- The weighted sum of losses. -/
noncomputable def total (l : ℝ → ℝ) (rows : List Row) : ℝ := (rows.map fun r => r.w * l (r.y - r.t)).sum

/-! ### Proofs -/

/-- The loss of one transition in the model. -/
noncomputable def term (clipDelta : Bool) (e : ℝ) : ℝ := if clipDelta then huber 1 e else e ^ 2 / 2

theorem huber_mid {e : ℝ} (h : |e| ≤ 1) : huber 1 e = e ^ 2 / 2 := if_neg (not_lt.2 h)

theorem huber_pos {e : ℝ} (h : 1 ≤ e) : huber 1 e = e - 1 / 2 := by
  unfold huber
  rw [abs_of_nonneg (by linarith)]
  split
  · ring
  · have : e = 1 := by linarith
    subst this; norm_num

theorem huber_neg {e : ℝ} (h : e ≤ -1) : huber 1 e = -e - 1 / 2 := by
  unfold huber
  rw [abs_of_nonpos (by linarith)]
  split
  · ring
  · have : e = -1 := by linarith
    subst this; norm_num

/-- The square of the positive part. -/
noncomputable def sqPos (x : ℝ) : ℝ := (max x 0) ^ 2

theorem sqPos_deriv (x : ℝ) : HasDerivAt sqPos (2 * max x 0) x := by
  have hsq : HasDerivAt (fun z : ℝ => z ^ 2) (2 * x) x := by simpa using hasDerivAt_pow 2 x
  rcases lt_trichotomy x 0 with h | h | h
  · rw [max_eq_right h.le, mul_zero]
    refine (hasDerivAt_const x (0 : ℝ)).congr_of_eventuallyEq ?_
    filter_upwards [Iio_mem_nhds h] with z hz
    simp [sqPos, max_eq_right (Set.mem_Iio.1 hz).le]
  · subst h
    have h1 : HasDerivWithinAt sqPos (2 * max 0 0) (Set.Iic 0) (0 : ℝ) := by
      refine ((hasDerivAt_const (0 : ℝ) (0 : ℝ)).hasDerivWithinAt.congr (fun z hz => ?_) ?_).congr_deriv (by simp)
      · simp [sqPos, max_eq_right (Set.mem_Iic.1 hz)]
      · simp [sqPos]
    have h2 : HasDerivWithinAt sqPos (2 * max 0 0) (Set.Ici 0) (0 : ℝ) := by
      refine (hsq.hasDerivWithinAt.congr (fun z hz => ?_) ?_).congr_deriv (by simp)
      · simp [sqPos, max_eq_left (Set.mem_Ici.1 hz)]
      · simp [sqPos]
    have := h1.union h2
    rwa [Set.Iic_union_Ici, hasDerivWithinAt_univ] at this
  · rw [max_eq_left h.le]
    refine hsq.congr_of_eventuallyEq ?_
    filter_upwards [Ioi_mem_nhds h] with z hz
    simp [sqPos, max_eq_left (Set.mem_Ioi.1 hz).le]

theorem huber_eq (e : ℝ) : huber 1 e = e ^ 2 / 2 - sqPos (e - 1) / 2 - sqPos (-e - 1) / 2 := by
  unfold sqPos
  rcases le_or_gt 1 e with h | h
  · rw [huber_pos h, max_eq_left (by linarith), max_eq_right (by linarith)]; ring
  · rcases le_or_gt e (-1) with h' | h'
    · rw [huber_neg h', max_eq_right (by linarith), max_eq_left (by linarith)]; ring
    · rw [huber_mid (abs_le.2 ⟨h'.le, h.le⟩), max_eq_right (by linarith), max_eq_right (by linarith)]; ring

theorem huber_deriv (e : ℝ) : HasDerivAt (huber 1) (clip1 e) e := by
  have e1 : huber 1 = fun e => e ^ 2 / 2 - sqPos (e - 1) / 2 - sqPos (-e - 1) / 2 := funext huber_eq
  rw [e1]
  have hsq : HasDerivAt (fun z : ℝ => z ^ 2) (2 * e) e := by simpa using hasDerivAt_pow 2 e
  have ha : HasDerivAt (fun z : ℝ => sqPos (z - 1)) (2 * max (e - 1) 0 * 1) e :=
    HasDerivAt.comp (h₂ := sqPos) (h := fun z : ℝ => z - 1) e (sqPos_deriv (e - 1)) ((hasDerivAt_id' e).sub_const 1)
  have hb : HasDerivAt (fun z : ℝ => sqPos (-z - 1)) (2 * max (-e - 1) 0 * (-1)) e :=
    HasDerivAt.comp (h₂ := sqPos) (h := fun z : ℝ => -z - 1) e (sqPos_deriv (-e - 1)) (((hasDerivAt_id' e).neg).sub_const 1)
  refine (((hsq.div_const 2).sub (ha.div_const 2)).sub (hb.div_const 2)).congr_deriv ?_
  unfold clip1
  rcases le_or_gt 1 e with h | h
  · rw [max_eq_left (a := e - 1) (by linarith), max_eq_right (a := -e - 1) (by linarith), min_eq_left h,
      max_eq_right (by norm_num)]; ring
  · rcases le_or_gt e (-1) with h' | h'
    · rw [max_eq_right (a := e - 1) (by linarith), max_eq_left (a := -e - 1) (by linarith), min_eq_right h.le,
        max_eq_left h']; ring
    · rw [max_eq_right (a := e - 1) (by linarith), max_eq_right (a := -e - 1) (by linarith), min_eq_right h.le,
        max_eq_right h'.le]; ring

theorem term_isLoss (clipDelta : Bool) : IsLoss clipDelta (term clipDelta) where
  zero := by cases clipDelta <;> simp [term, huber]
  deriv e := by
    cases clipDelta
    · have hsq : HasDerivAt (fun z : ℝ => z ^ 2) (2 * e) e := by simpa using hasDerivAt_pow 2 e
      exact (hsq.div_const 2).congr_deriv (by simp [slope])
    · exact huber_deriv e

theorem IsLoss.unique {clipDelta : Bool} {l l' : ℝ → ℝ} (h : IsLoss clipDelta l) (h' : IsLoss clipDelta l') : l = l' := by
  funext e
  have hd : ∀ x, HasDerivAt (fun x => l x - l' x) 0 x := fun x =>
    ((h.deriv x).sub (h'.deriv x)).congr_deriv (sub_self _)
  have := is_const_of_deriv_eq_zero (f := fun x => l x - l' x) (fun x => (hd x).differentiableAt)
    (fun x => (hd x).deriv) e 0
  simp only [h.zero, h'.zero, sub_self] at this
  linarith

theorem differences_rows (rows : List Row) :
    differences (rows.map Row.y) (rows.map Row.t) = .ok (rows.map fun r => r.y - r.t) := by
  unfold differences
  rw [if_pos (by simp)]
  congr 1
  induction rows with
  | nil => rfl
  | cons r rows ih => simp

theorem acc_ok (mean : Bool) : (accName mean == "mean" || accName mean == "sum") = true := by
  cases mean <;> decide

theorem acc_mean (mean : Bool) : (accName mean == "mean") = mean := by
  cases mean <;> decide

theorem weighted_eq (rows : List Row) (clipDelta mean : Bool) :
    computeWeightedValueLoss (rows.map Row.y) (rows.map Row.t) (rows.map Row.w) clipDelta (accName mean) =
      .ok (factor mean rows.length * total (term clipDelta) rows) := by
  have hl : (if clipDelta then (rows.map fun r => r.y - r.t).map (huber 1)
      else (rows.map fun r => r.y - r.t).map (fun e => e ^ 2 / 2)) = rows.map fun r => term clipDelta (r.y - r.t) := by
    cases clipDelta <;> simp [term, Function.comp_def]
  have hz : (List.zipWith (fun l w => l * w) (rows.map fun r => term clipDelta (r.y - r.t)) (rows.map Row.w)).sum =
      total (term clipDelta) rows := by
    unfold total
    congr 1
    induction rows with
    | nil => rfl
    | cons r rows ih => simp [mul_comm]
  unfold computeWeightedValueLoss
  rw [pyAssert, if_pos (acc_ok mean), differences_rows]
  simp only [bind, Except.bind, hl]
  rw [if_pos (by simp), hz, acc_mean]
  congr 1
  cases mean
  · simp [factor]
  · simp [factor, div_eq_mul_inv, mul_comm]

theorem unweighted_eq (rows : List Row) (clipDelta mean : Bool) (hw : ∀ r ∈ rows, r.w = 1) (hne : rows ≠ []) :
    computeValueLoss (rows.map Row.y) (rows.map Row.t) clipDelta (accName mean) =
      .ok (factor mean rows.length * total (term clipDelta) rows) := by
  have hn : (rows.length : ℝ) ≠ 0 := by
    have := List.length_pos_iff.2 hne
    exact_mod_cast this.ne'
  have ht : total (term clipDelta) rows = (rows.map fun r => term clipDelta (r.y - r.t)).sum := by
    unfold total
    congr 1
    refine List.map_congr_left fun r hr => ?_
    rw [hw r hr, one_mul]
  unfold computeValueLoss
  rw [pyAssert, if_pos (acc_ok mean), differences_rows]
  simp only [bind, Except.bind, acc_mean, ht]
  cases clipDelta
  · have h2 : ((rows.map fun r => r.y - r.t).map fun e => e ^ 2).sum = 2 * (rows.map fun r => term false (r.y - r.t)).sum := by
      rw [← List.sum_map_mul_left, List.map_map]
      congr 1
      refine List.map_congr_left fun r _ => ?_
      simp [term]; ring
    simp only [h2, List.length_map]
    cases mean <;> simp [factor] <;> field_simp
  · cases mean
    · simp [factor, term, Function.comp_def]
    · simp [factor, term, Function.comp_def, div_eq_mul_inv, mul_comm]

/-! ### C90 -/

/-- **C90.** With importance weights the loss is the weighted sum (or that divided by the size of the batch) of a loss
whose gradient is the error, cut to `[-1, 1]` with `clip_delta`; there is only one such
loss function. -/
theorem C90_weighted (rows : List Row) (clipDelta mean : Bool) (l : ℝ → ℝ) (hl : IsLoss clipDelta l) :
    computeWeightedValueLoss (rows.map Row.y) (rows.map Row.t) (rows.map Row.w) clipDelta (accName mean) =
      .ok (factor mean rows.length * total l rows) := by
  rw [hl.unique (term_isLoss clipDelta)]
  exact weighted_eq rows clipDelta mean

/-- **C90.** Without importance weights the loss is the one with all weights 1. -/
theorem C90_unweighted (rows : List Row) (clipDelta mean : Bool) (hw : ∀ r ∈ rows, r.w = 1) (hne : rows ≠ [])
    (l : ℝ → ℝ) (hl : IsLoss clipDelta l) :
    computeValueLoss (rows.map Row.y) (rows.map Row.t) clipDelta (accName mean) =
        .ok (factor mean rows.length * total l rows) ∧
    computeValueLoss (rows.map Row.y) (rows.map Row.t) clipDelta (accName mean) =
      computeWeightedValueLoss (rows.map Row.y) (rows.map Row.t) (rows.map Row.w) clipDelta (accName mean) := by
  rw [C90_weighted rows clipDelta mean l hl, hl.unique (term_isLoss clipDelta)]
  exact ⟨unweighted_eq rows clipDelta mean hw hne, unweighted_eq rows clipDelta mean hw hne⟩

theorem total_set (l : ℝ → ℝ) : ∀ (rows : List Row) (k : Nat) (h : k < rows.length) (x : ℝ),
    total l (rows.set k { rows[k] with y := x }) =
      total l rows - rows[k].w * l (rows[k].y - rows[k].t) + rows[k].w * l (x - rows[k].t)
  | r :: rows, 0, _, x => by simp [total]; ring
  | r :: rows, k + 1, h, x => by
    have := total_set l rows k (by simpa using h) x
    simp only [total, List.set_cons_succ, List.getElem_cons_succ, List.map_cons, List.sum_cons] at this ⊢
    rw [this]; ring

/-- **C90.** The gradient of the loss with respect to the prediction of transition `k`: its weight times its error
(cut to `[-1, 1]` with `clip_delta`), divided by the size of the batch for the accumulator 'mean'. -/
theorem C90_gradient (rows : List Row) (clipDelta mean : Bool) (k : Nat) (h : k < rows.length) :
    ∃ loss : ℝ → ℝ,
      (∀ x, computeWeightedValueLoss ((rows.map Row.y).set k x) (rows.map Row.t) (rows.map Row.w) clipDelta
        (accName mean) = .ok (loss x)) ∧
      HasDerivAt loss (factor mean rows.length * (rows[k].w * slope clipDelta (rows[k].y - rows[k].t))) rows[k].y := by
  refine ⟨fun x => factor mean rows.length * total (term clipDelta) (rows.set k { rows[k] with y := x }), ?_, ?_⟩
  · intro x
    have := weighted_eq (rows.set k { rows[k] with y := x }) clipDelta mean
    rw [List.map_set, List.map_set, List.map_set, List.length_set] at this
    have ht : (rows.map Row.t).set k rows[k].t = rows.map Row.t := by
      rw [show rows[k].t = (rows.map Row.t)[k]'(by simpa using h) by simp]; exact List.set_getElem_self _
    have hw : (rows.map Row.w).set k rows[k].w = rows.map Row.w := by
      rw [show rows[k].w = (rows.map Row.w)[k]'(by simpa using h) by simp]; exact List.set_getElem_self _
    rw [ht, hw] at this
    exact this
  · simp only [total_set _ rows k h]
    have h1 : HasDerivAt (fun x => term clipDelta (x - rows[k].t)) (slope clipDelta (rows[k].y - rows[k].t) * 1) rows[k].y :=
      HasDerivAt.comp (h₂ := term clipDelta) (h := fun x : ℝ => x - rows[k].t) rows[k].y
        ((term_isLoss clipDelta).deriv _) ((hasDerivAt_id' rows[k].y).sub_const rows[k].t)
    exact (((h1.const_mul rows[k].w).const_add _).const_mul _).congr_deriv (by ring)

/-- **C90.** With `clip_delta` no single transition moves its prediction by more than its weight. -/
theorem C90_bounded (e : ℝ) : |slope true e| ≤ 1 := by
  simp only [slope, if_true, clip1]
  rw [abs_le]
  exact ⟨le_max_left _ _, max_le (by norm_num) (min_le_left _ _)⟩

/-- The loss function is nonnegative, and zero only for no error. -/
theorem term_nonneg (clipDelta : Bool) (e : ℝ) : 0 ≤ term clipDelta e ∧ (term clipDelta e = 0 ↔ e = 0) := by
  cases clipDelta
  · simp only [term, Bool.false_eq_true, if_false]
    exact ⟨by have := sq_nonneg e; linarith, by constructor <;> intro h <;> simp_all⟩
  · simp only [term, if_true]
    rcases le_or_gt 1 e with h | h
    · rw [huber_pos h]; exact ⟨by linarith, ⟨fun _ => by linarith, fun _ => by linarith⟩⟩
    · rcases le_or_gt e (-1) with h' | h'
      · rw [huber_neg h']; exact ⟨by linarith, ⟨fun _ => by linarith, fun _ => by linarith⟩⟩
      · rw [huber_mid (abs_le.2 ⟨h'.le, h.le⟩)]
        exact ⟨by have := sq_nonneg e; linarith, by constructor <;> intro h <;> simp_all⟩

/-- **C90.** With positive weights the loss is nonnegative, and zero exactly if every prediction is
its target. -/
theorem C90_zero (rows : List Row) (clipDelta mean : Bool) (hw : ∀ r ∈ rows, 0 < r.w) (hne : rows ≠ []) (loss : ℝ)
    (h : computeWeightedValueLoss (rows.map Row.y) (rows.map Row.t) (rows.map Row.w) clipDelta (accName mean) =
      .ok loss) : 0 ≤ loss ∧ (loss = 0 ↔ ∀ r ∈ rows, r.y = r.t) := by
  rw [weighted_eq] at h
  have h' := (Except.ok.inj h).symm
  clear h
  subst h'
  have hf : 0 < factor mean rows.length := by
    cases mean
    · simp [factor]
    · have : (0 : ℝ) < rows.length := by exact_mod_cast List.length_pos_iff.2 hne
      simp only [factor, if_true]; exact div_pos one_pos this
  have ht : 0 ≤ total (term clipDelta) rows ∧ (total (term clipDelta) rows = 0 ↔ ∀ r ∈ rows, r.y = r.t) := by
    clear hne hf
    induction rows with
    | nil => simp [total]
    | cons r rows ih =>
      obtain ⟨i1, i2⟩ := ih fun s hs => hw s (List.mem_cons_of_mem _ hs)
      obtain ⟨t1, t2⟩ := term_nonneg clipDelta (r.y - r.t)
      have hr := hw r List.mem_cons_self
      have e : total (term clipDelta) (r :: rows) = r.w * term clipDelta (r.y - r.t) + total (term clipDelta) rows := by
        simp [total]
      have hp : 0 ≤ r.w * term clipDelta (r.y - r.t) := mul_nonneg hr.le t1
      rw [e]
      refine ⟨by linarith, ⟨fun h0 => ?_, fun h0 => ?_⟩⟩
      · have h1 : r.w * term clipDelta (r.y - r.t) = 0 := by linarith
        have h2 := t2.1 ((mul_eq_zero.1 h1).resolve_left hr.ne')
        have h3 := i2.1 (by linarith)
        intro s hs
        rcases List.mem_cons.1 hs with rfl | hs
        · linarith
        · exact h3 s hs
      · rw [i2.2 fun s hs => h0 s (List.mem_cons_of_mem _ hs), t2.2 (sub_eq_zero.2 (h0 r List.mem_cons_self))]
        simp
  refine ⟨mul_nonneg hf.le ht.1, ?_⟩
  rw [← ht.2]
  exact ⟨fun h => (mul_eq_zero.1 h).resolve_left hf.ne', fun h => by rw [h, mul_zero]⟩

/-- **C90.** The priorities reported by an update are the absolute errors, in the order of the batch, and the loss is
weighted exactly if the batch has weights. -/
theorem C90_errors (rows : List Row) (clipDelta mean : Bool) (hne : rows ≠ []) (l : ℝ → ℝ) (hl : IsLoss clipDelta l) :
    computeLoss (rows.map Row.y) (rows.map Row.t) (some (rows.map Row.w)) clipDelta (accName mean) =
      .ok (rows.map (fun r => |r.y - r.t|), factor mean rows.length * total l rows) ∧
    computeLoss (rows.map Row.y) (rows.map Row.t) none clipDelta (accName mean) =
      .ok (rows.map (fun r => |r.y - r.t|),
        factor mean rows.length * total l (rows.map fun r => { r with w := 1 })) := by
  have h2 := (C90_unweighted (rows.map fun r => { r with w := 1 }) clipDelta mean (by
    intro r hr; obtain ⟨s, -, rfl⟩ := List.mem_map.1 hr; rfl) (by simpa using hne) l hl).1
  simp only [List.map_map, Function.comp_def, List.length_map] at h2
  have e1 : rows.map (fun r => r.y) = rows.map Row.y := rfl
  have e2 : rows.map (fun r => r.t) = rows.map Row.t := rfl
  rw [e1, e2] at h2
  unfold computeLoss
  simp only [differences_rows, bind, Except.bind, C90_weighted rows clipDelta mean l hl, h2, List.map_map,
    Function.comp_def]
  exact ⟨trivial, trivial⟩

/-- **C90.** Another accumulator is rejected. -/
theorem C90_bad_accumulator (y t w : List ℝ) (clipDelta : Bool) (acc : String) (h1 : acc ≠ "mean") (h2 : acc ≠ "sum") :
    computeValueLoss y t clipDelta acc = .error .assertionError ∧
    computeWeightedValueLoss y t w clipDelta acc = .error .assertionError := by
  have : (acc == "mean" || acc == "sum") = false := by simp [h1, h2]
  simp [computeValueLoss, computeWeightedValueLoss, pyAssert, this]

/-! ### Examples -/

example : IsLoss true (huber 1) := term_isLoss true

/-- A large error counts linearly, a small one quadratically, each with its weight. -/
example : computeWeightedValueLoss [3, 1] [0, 1 / 2] [1, 1 / 2] true "mean" = .ok (41 / 32) := by
  have := weighted_eq [⟨3, 0, 1⟩, ⟨1, 1 / 2, 1 / 2⟩] true true
  have e : factor true 2 * total (term true) [⟨3, 0, 1⟩, ⟨1, 1 / 2, 1 / 2⟩] = 41 / 32 := by
    simp only [factor, total, term, if_true, List.map_cons, List.map_nil, List.sum_cons, List.sum_nil]
    rw [huber_pos (by norm_num), huber_mid (by rw [abs_le]; constructor <;> norm_num)]
    norm_num
  rw [← e]
  exact this

end Verif.ValueLoss
