import Mathlib.Analysis.Calculus.Deriv.Mul
import Mathlib.Analysis.Calculus.Deriv.Add
import Mathlib.Analysis.Calculus.Deriv.Inv
import Mathlib.Analysis.SpecialFunctions.Log.Deriv
import Mathlib.Tactic.Linarith
import Mathlib.Tactic.Ring
import Mathlib.Tactic.FieldSimp
import Verif.Model.Functions
import Verif.Props.ValueLoss

/-!
C91: the functions with their own gradients compute gradients.

`IsGradient` is the specification: however the inputs move, the rate of change of the output times its gradient is the
sum of the rates of change of the inputs times their gradients.
-/

set_option autoImplicit false
set_option linter.unusedSectionVars false

namespace Verif.Functions

/-! ### Specification -/

/-- A list of inputs on the move at time `t₀`: each is a function of time with a derivative. -/
def Moving (t₀ : ℝ) (xs : List (ℝ → ℝ)) (dxs : List ℝ) : Prop := List.Forall₂ (fun x dx => HasDerivAt x dx t₀) xs dxs

/-- `grads` are the gradients of the inputs of `f` at `point`, if the gradient of the output is `gy`: chain rule. -/
def IsGradient (f : List ℝ → ℝ) (point grads : List ℝ) (gy : ℝ) : Prop :=
  grads.length = point.length ∧
  ∀ (t₀ : ℝ) (xs : List (ℝ → ℝ)) (dxs : List ℝ), Moving t₀ xs dxs → xs.map (fun x => x t₀) = point →
    HasDerivAt (fun t => gy * f (xs.map fun x => x t)) (List.zipWith (fun g dx => g * dx) grads dxs).sum t₀

/-! ### Proofs -/

theorem foldl_add (l : List ℝ) : ∀ a, l.foldl (· + ·) a = a + l.sum := by
  induction l with
  | nil => simp
  | cons x l ih => intro a; rw [List.foldl_cons, ih, List.sum_cons]; ring

theorem mul_sum (g : ℝ) : ∀ l : List ℝ, g * l.sum = (l.map fun x => g * x).sum
  | [] => by simp
  | x :: l => by simp [mul_add, mul_sum g l]

theorem sum_moving (gy t₀ : ℝ) : ∀ (ws : List ℝ) (xs : List (ℝ → ℝ)) (dxs : List ℝ), Moving t₀ xs dxs →
    HasDerivAt (fun t => (List.zipWith (fun w x => gy * (w * x)) ws (xs.map fun x => x t)).sum)
      (List.zipWith (fun w dx => gy * (w * dx)) ws dxs).sum t₀
  | [], xs, dxs, _ => by simpa using hasDerivAt_const t₀ (0 : ℝ)
  | w :: ws, [], [], _ => by simpa using hasDerivAt_const t₀ (0 : ℝ)
  | w :: ws, x :: xs, dx :: dxs, h => by
    cases h with
    | cons h1 h2 =>
      simp only [List.map_cons, List.zipWith_cons_cons, List.sum_cons]
      exact ((h1.const_mul w).const_mul gy).add (sum_moving gy t₀ ws xs dxs h2)

/-! ### C91 -/

/-- **C91.** `weighted_sum_arrays`: the weighted sum and its gradient. -/
theorem C91_weighted_sum (weights point : List ℝ) (gy : ℝ) (h : weights.length = point.length) :
    weightedSumForward weights point = (List.zipWith (fun w x => w * x) weights point).sum ∧
    IsGradient (weightedSumForward weights) point (weightedSumBackward weights gy) gy := by
  refine ⟨by rw [weightedSumForward, foldl_add, zero_add], by simp [weightedSumBackward, h], ?_⟩
  intro t₀ xs dxs hm _
  have := sum_moving gy t₀ weights xs dxs hm
  have e1 : (fun t => gy * weightedSumForward weights (xs.map fun x => x t)) =
      (fun t => (List.zipWith (fun w x => gy * (w * x)) weights (xs.map fun x => x t)).sum) := by
    funext t
    rw [weightedSumForward, foldl_add, zero_add, mul_sum, List.map_zipWith]
  have e2 : List.zipWith (fun g dx => g * dx) (weightedSumBackward weights gy) dxs =
      List.zipWith (fun w dx => gy * (w * dx)) weights dxs := by
    rw [weightedSumBackward, List.zipWith_map_left]
    congr 1
    funext w dx
    ring
  rw [e1, e2]
  exact this

/-- **C91.** `sum_arrays`: the sum and its gradient. -/
theorem C91_sum (point : List ℝ) (gy : ℝ) :
    sumArraysForward point = point.sum ∧ IsGradient sumArraysForward point (sumArraysBackward point gy) gy := by
  refine ⟨by rw [sumArraysForward, foldl_add, zero_add], by simp [sumArraysBackward], ?_⟩
  intro t₀ xs dxs hm hp
  have hl : xs.length = point.length := by rw [← hp, List.length_map]
  have hz : ∀ (n : Nat) (l : List ℝ), l.length = n →
      List.zipWith (fun w x => gy * (w * x)) (List.replicate n 1) l = l.map fun x => gy * x := by
    intro n
    induction n with
    | zero => intro l h; simp [List.length_eq_zero_iff.1 h]
    | succ n ih =>
      intro l h
      cases l with
      | nil => simp at h
      | cons x l => simp [List.replicate_succ, ih l (by simpa using h)]
  have hz2 : ∀ (n : Nat) (l : List ℝ),
      List.zipWith (fun g dx => g * dx) (List.replicate n gy) l =
      List.zipWith (fun w dx => gy * (w * dx)) (List.replicate n 1) l := by
    intro n
    induction n with
    | zero => simp
    | succ n ih =>
      intro l
      cases l with
      | nil => simp
      | cons x l => simp [List.replicate_succ, ih l]
  have := sum_moving gy t₀ (List.replicate point.length 1) xs dxs hm
  have e1 : (fun t => gy * sumArraysForward (xs.map fun x => x t)) =
      (fun t => (List.zipWith (fun w x => gy * (w * x)) (List.replicate point.length 1) (xs.map fun x => x t)).sum) := by
    funext t
    rw [sumArraysForward, foldl_add, zero_add, hz _ _ (by simpa using hl), mul_sum]
  rw [e1, sumArraysBackward, hz2]
  exact this

/-- **C91.** `muladd`: `x * y + z` and its gradient. -/
theorem C91_muladd (x y z gw : ℝ) :
    muladdForward x y z = x * y + z ∧
    IsGradient (fun l => muladdForward (l.getD 0 0) (l.getD 1 0) (l.getD 2 0)) [x, y, z]
      [(muladdBackward x y z gw).1, (muladdBackward x y z gw).2.1, (muladdBackward x y z gw).2.2] gw := by
  refine ⟨rfl, rfl, ?_⟩
  intro t₀ xs dxs hm hp
  match xs, hp with
  | [fx, fy, fz], hp =>
    simp only [List.map_cons, List.map_nil, List.cons.injEq, and_true] at hp
    obtain ⟨h1, h2, h3⟩ := hp
    cases hm with
    | cons m1 hm => cases hm with
      | cons m2 hm => cases hm with
        | cons m3 hm =>
          cases hm
          simp only [List.map_cons, List.map_nil, muladdForward, muladdBackward, List.getD_cons_zero, List.getD_cons_succ,
            List.zipWith_cons_cons, List.zipWith_nil_left, List.sum_cons, List.sum_nil]
          refine (((m1.mul m2).add m3).const_mul gw).congr_deriv ?_
          rw [← h1, ← h2]
          ring

/-- **C91.** `arctanh`: the inverse of `tanh` inside `(-1, 1)`, and its gradient. -/
theorem C91_arctanh (x gy : ℝ) (h1 : -1 < x) (h2 : x < 1) :
    Real.tanh (arctanhForward x) = x ∧
    IsGradient (fun l => arctanhForward (l.getD 0 0)) [x] [arctanhBackward x gy] gy := by
  refine ⟨Real.tanh_artanh ⟨h1, h2⟩, rfl, ?_⟩
  intro t₀ xs dxs hm hp
  match xs, hp with
  | [fx], hp =>
    simp only [List.map_cons, List.map_nil, List.cons.injEq, and_true] at hp
    subst hp
    cases hm with
    | cons m1 hm =>
      cases hm
      rename_i dx
      simp only [List.map_cons, List.map_nil, List.getD_cons_zero, List.zipWith_cons_cons, List.zipWith_nil_left,
        List.sum_cons, List.sum_nil, add_zero]
      have p1 : 0 < 1 + fx t₀ := by linarith
      have p2 : 0 < 1 - fx t₀ := by linarith
      have hd : HasDerivAt (fun t => 1 / 2 * Real.log ((1 + fx t) / (1 - fx t)))
          (1 / (1 - fx t₀ ^ 2) * dx) t₀ := by
        have a := (m1.const_add 1).div (m1.const_sub 1) p2.ne'
        have b := (a.log (div_ne_zero p1.ne' p2.ne')).const_mul (1 / 2)
        refine b.congr_deriv ?_
        have p3 : 1 - fx t₀ ^ 2 ≠ 0 := by
          have : 1 - fx t₀ ^ 2 = (1 + fx t₀) * (1 - fx t₀) := by ring
          rw [this]; exact mul_ne_zero p1.ne' p2.ne'
        have p4 := p1.ne'
        have p5 := p2.ne'
        simp only [Pi.div_apply]
        field_simp
        ring
      have ev : (fun t => gy * arctanhForward (fx t)) =ᶠ[nhds t₀]
          fun t => gy * (1 / 2 * Real.log ((1 + fx t) / (1 - fx t))) := by
        have hc := m1.continuousAt
        filter_upwards [hc (Ioo_mem_nhds h1 h2)] with t ht
        rw [arctanhForward, Real.artanh_eq_half_log ⟨ht.1.le, ht.2.le⟩]
      refine ((hd.const_mul gy).congr_of_eventuallyEq ev).congr_deriv ?_
      rw [arctanhBackward]
      ring

/-- **C91.** `scale_grad` passes the value on, and multiplies the gradient. -/
theorem C91_scale_grad (scale x gy : ℝ) :
    scaleGradForward x = x ∧ scaleGradBackward scale gy = scale * gy := ⟨rfl, mul_comm _ _⟩

open Verif.ValueLoss in
/-- **C91.** `ResidualDQN` follows, for `grad_scale = 1`, the gradient of the loss of the Bellman residual `y - t` as a
function of the parameters; for `grad_scale = 0`, the gradient with the target held fixed, as DQN does; otherwise, the
interpolation between the two.  `θ` is a parameter, `y` and `t` prediction and target. -/
theorem C91_residual (clipDelta : Bool) (l : ℝ → ℝ) (hl : IsLoss clipDelta l) (y t : ℝ → ℝ) (dy dt θ gradScale : ℝ)
    (hy : HasDerivAt y dy θ) (ht : HasDerivAt t dt θ) :
    ∃ full frozen : ℝ,
      HasDerivAt (fun p => l (y p - t p)) full θ ∧ HasDerivAt (fun p => l (y p - t θ)) frozen θ ∧
      residualGradient gradScale (slope clipDelta (y θ - t θ)) dy dt = gradScale * full + (1 - gradScale) * frozen := by
  have h1 : HasDerivAt (fun p => l (y p - t p)) (slope clipDelta (y θ - t θ) * (dy - dt)) θ :=
    HasDerivAt.comp (h₂ := l) (h := fun p => y p - t p) θ (hl.deriv _) (hy.sub ht)
  have h2 : HasDerivAt (fun p => l (y p - t θ)) (slope clipDelta (y θ - t θ) * dy) θ :=
    HasDerivAt.comp (h₂ := l) (h := fun p => y p - t θ) θ (hl.deriv _) (hy.sub_const _)
  refine ⟨_, _, h1, h2, ?_⟩
  rw [residualGradient, scaleGradBackward]
  ring

/-! ### Examples -/

/-- Two inputs moving: one as `t`, the other as `2 - t`. -/
example : Moving 1 [fun t => t, fun t => 2 - t] [1, -1] :=
  .cons (hasDerivAt_id' 1) (.cons (by simpa using (hasDerivAt_id' (1 : ℝ)).const_sub 2) .nil)

example : weightedSumForward [1, 1 / 2] [3, 4] = 5 := by
  rw [(C91_weighted_sum [1, 1 / 2] [3, 4] 0 rfl).1]; norm_num

end Verif.Functions
