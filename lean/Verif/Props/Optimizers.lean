import Mathlib.Tactic.Ring
import Mathlib.Tactic.Linarith
import Mathlib.Tactic.Positivity
import Mathlib.Tactic.FieldSimp
import Mathlib.Algebra.BigOperators.Intervals
import Mathlib.Algebra.Order.BigOperators.Group.Finset
import Verif.Spec.Optimizers

/-!
C85: RMSpropAsync and NonbiasWeightDecay.
-/

set_option autoImplicit false
set_option linter.unusedSectionVars false

namespace Verif.Optimizers
open Real

variable {ι : Type}

theorem meanSquare_nil (alpha : ℝ) (i : ι) : meanSquare alpha [] i = 0 := by simp [meanSquare]

theorem meanSquare_snoc (alpha : ℝ) (gs : List (ι → ℝ)) (g : ι → ℝ) (i : ι) :
    meanSquare alpha (gs ++ [g]) i = alpha * meanSquare alpha gs i + (1 - alpha) * g i ^ 2 := by
  unfold meanSquare
  rw [List.length_append, List.length_singleton, Finset.sum_range_succ, Finset.mul_sum]
  congr 1
  · apply Finset.sum_congr rfl
    intro j hj
    rw [Finset.mem_range] at hj
    rw [List.getElem?_append_left hj, show gs.length + 1 - 1 - j = (gs.length - 1 - j) + 1 by omega, pow_succ]
    ring
  · simp

theorem meanSquare_nonneg {alpha : ℝ} (h0 : 0 ≤ alpha) (h1 : alpha ≤ 1) (gs : List (ι → ℝ)) (i : ι) :
    0 ≤ meanSquare alpha gs i := by
  unfold meanSquare
  apply Finset.sum_nonneg
  intro j _
  have : 0 ≤ ((gs[j]?.map fun g => g i ^ 2).getD 0) := by
    cases gs[j]? with
    | none => simp
    | some g => simp; positivity
  have h2 : 0 ≤ 1 - alpha := by linarith
  positivity

theorem updates_append (hp : Hyper) : ∀ (gs hs : List (ι → ℝ)) (p : Param ι),
    updates hp (gs ++ hs) p = updates hp hs (updates hp gs p)
  | [], _, _ => rfl
  | _ :: gs, hs, p => updates_append hp gs hs _

theorem updates_ms (hp : Hyper) (gs : List (ι → ℝ)) (p : Param ι) (h : p.ms = fun _ => 0) (i : ι) :
    (updates hp gs p).ms i = meanSquare hp.alpha gs i := by
  induction gs using List.reverseRecOn generalizing i with
  | nil => rw [meanSquare_nil, updates, h]
  | append_singleton gs g ih =>
    rw [updates_append, meanSquare_snoc, ← ih i]
    simp only [updates, updateCore]
    ring

theorem updates_name (hp : Hyper) : ∀ (gs : List (ι → ℝ)) (p : Param ι), (updates hp gs p).name = p.name
  | [], _ => rfl
  | _ :: gs, p => (updates_name hp gs _).trans rfl

/-- **C85.** After any updates from a fresh state, one more update with gradient `g` moves the
parameter by `lr * g` over the square root of the exponential average of all squared gradients plus
`eps`. -/
theorem C85_update (hp : Hyper) (gs : List (ι → ℝ)) (g : ι → ℝ) (name : String) (x : ι → ℝ) (i : ι) :
    let before := updates hp gs (initState name x none)
    let after := updates hp (gs ++ [g]) (initState name x none)
    after.array i = before.array i - hp.lr * g i / sqrt (meanSquare hp.alpha (gs ++ [g]) i + hp.eps) ∧
    after.ms i = meanSquare hp.alpha (gs ++ [g]) i := by
  intro before after
  have h := updates_ms hp (gs ++ [g]) (initState name x none) rfl i
  refine ⟨?_, h⟩
  rw [← h]
  show (updates hp (gs ++ [g]) (initState name x none)).array i = _
  rw [updates_append]
  rfl

/-- **C85.** No element moves further than `lr / sqrt (1 - alpha)` in one update, whatever the
gradients so far. -/
theorem C85_bounded (hp : Hyper) (hlr : 0 ≤ hp.lr) (h0 : 0 ≤ hp.alpha) (h1 : hp.alpha < 1) (he : 0 ≤ hp.eps)
    (gs : List (ι → ℝ)) (g : ι → ℝ) (name : String) (x : ι → ℝ) (i : ι) :
    |(updates hp (gs ++ [g]) (initState name x none)).array i - (updates hp gs (initState name x none)).array i| ≤
      hp.lr / sqrt (1 - hp.alpha) := by
  rw [(C85_update hp gs g name x i).1]
  have h2 : 0 < 1 - hp.alpha := by linarith
  have hs : 0 < sqrt (1 - hp.alpha) := sqrt_pos.mpr h2
  rw [show ∀ a b : ℝ, a - b - a = -b from fun a b => by ring, abs_neg, abs_div, abs_mul, abs_of_nonneg hlr,
    abs_of_nonneg (sqrt_nonneg _)]
  have hm := meanSquare_nonneg h0 (le_of_lt h1) gs i
  have hle : sqrt (1 - hp.alpha) * |g i| ≤ sqrt (meanSquare hp.alpha (gs ++ [g]) i + hp.eps) := by
    apply le_sqrt_of_sq_le
    rw [mul_pow, sq_sqrt (le_of_lt h2), sq_abs, meanSquare_snoc]
    have := mul_nonneg h0 hm
    linarith
  rcases eq_or_lt_of_le (sqrt_nonneg (meanSquare hp.alpha (gs ++ [g]) i + hp.eps)) with hz | hz
  · rw [← hz, div_zero]; positivity
  · rw [div_le_div_iff₀ hz hs, mul_assoc, mul_comm |g i|]
    exact mul_le_mul_of_nonneg_left hle hlr

/-- **C85.** The moves do not depend on the scale of the gradients: multiplying all of them by
`k > 0` leaves every parameter value as it is, if `eps = 0`. -/
theorem C85_scale_free (hp : Hyper) (he : hp.eps = 0) (k : ℝ) (hk : 0 < k) (gs : List (ι → ℝ)) (name : String)
    (x : ι → ℝ) (i : ι) :
    (updates hp (gs.map fun g j => k * g j) (initState name x none)).array i =
      (updates hp gs (initState name x none)).array i := by
  have hms : ∀ gs : List (ι → ℝ), meanSquare hp.alpha (gs.map fun g j => k * g j) i = k ^ 2 * meanSquare hp.alpha gs i := by
    intro gs
    induction gs using List.reverseRecOn with
    | nil => simp [meanSquare_nil]
    | append_singleton gs g ih =>
      rw [List.map_append, List.map_singleton, meanSquare_snoc, meanSquare_snoc, ih]
      ring
  induction gs using List.reverseRecOn with
  | nil => rfl
  | append_singleton gs g ih =>
    have e2 := hms (gs ++ [g])
    rw [List.map_append, List.map_singleton] at e2 ⊢
    rw [(C85_update hp (gs.map fun g j => k * g j) (fun j => k * g j) name x i).1, (C85_update hp gs g name x i).1, ih, e2,
      he, add_zero, add_zero, sqrt_mul (by positivity), sqrt_sq (le_of_lt hk)]
    congr 1
    by_cases hz : sqrt (meanSquare hp.alpha (gs ++ [g]) i) = 0
    · rw [hz]; simp
    · field_simp

/-- **C85.** Each element is updated with its own gradients only: if two histories agree at an
element, so do the results. -/
theorem C85_elementwise (hp : Hyper) (gs hs : List (ι → ℝ)) (name : String) (x y : ι → ℝ) (i : ι)
    (hg : gs.map (· i) = hs.map (· i)) (hx : x i = y i) :
    (updates hp gs (initState name x none)).array i = (updates hp hs (initState name y none)).array i := by
  have key : ∀ (gs hs : List (ι → ℝ)) (p q : Param ι), gs.map (· i) = hs.map (· i) → p.array i = q.array i →
      p.ms i = q.ms i → (updates hp gs p).array i = (updates hp hs q).array i := by
    intro gs
    induction gs with
    | nil =>
      intro hs p q h1 h2 _
      cases hs with
      | nil => exact h2
      | cons h hs => simp at h1
    | cons g gs ih =>
      intro hs p q h1 h2 h3
      cases hs with
      | nil => simp at h1
      | cons h hs =>
        simp only [List.map_cons, List.cons.injEq] at h1
        apply ih hs _ _ h1.2
        · simp only [updateCore, h1.1, h2, h3]
        · simp only [updateCore, h1.1, h3]
  exact key gs hs _ _ hg hx rfl

/-- **C85.** A parameter without gradient is left alone. -/
theorem C85_no_gradient (hp : Hyper) (p : Param ι) (h : p.grad = none) : updateCore hp p = p := by
  unfold updateCore
  rw [h]

/-- **C85 (violated).** The epsilon is not outside the square root, as documented, but inside: with
a positive learning rate and a gradient that is not zero, the parameter is the documented one only if
`2 * sqrt ms + eps = 1`. -/
theorem C85_violated_epsilon (hp : Hyper) (hlr : 0 < hp.lr) (h0 : 0 ≤ hp.alpha) (h1 : hp.alpha < 1) (he : 0 < hp.eps)
    (gs : List (ι → ℝ)) (g : ι → ℝ) (name : String) (x : ι → ℝ) (i : ι) (hg : g i ≠ 0)
    (hne : 2 * sqrt (meanSquare hp.alpha (gs ++ [g]) i) + hp.eps ≠ 1) :
    (updates hp (gs ++ [g]) (initState name x none)).array i ≠
      documented hp gs g (updates hp gs (initState name x none)).array i := by
  rw [(C85_update hp gs g name x i).1]
  unfold documented
  have hm := meanSquare_nonneg h0 (le_of_lt h1) (gs ++ [g]) i
  generalize meanSquare hp.alpha (gs ++ [g]) i = v at *
  intro h
  have h2 : hp.lr * g i / sqrt (v + hp.eps) = hp.lr * g i / (sqrt v + hp.eps) := by linarith
  have hpos : 0 < sqrt (v + hp.eps) := sqrt_pos.mpr (by linarith)
  have hpos2 : 0 < sqrt v + hp.eps := by have := sqrt_nonneg v; linarith
  have hlg : hp.lr * g i ≠ 0 := mul_ne_zero hlr.ne' hg
  have h3 : sqrt v + hp.eps = sqrt (v + hp.eps) := by
    rw [div_eq_div_iff hpos.ne' hpos2.ne'] at h2
    exact mul_left_cancel₀ hlg h2
  have h4 : (sqrt v + hp.eps) ^ 2 = v + hp.eps := by rw [h3, sq_sqrt (by linarith)]
  have h5 : hp.eps * (2 * sqrt v + hp.eps) = hp.eps * 1 := by
    have := sq_sqrt hm
    nlinarith
  exact hne (mul_left_cancel₀ he.ne' h5)

/-- **C85.** The weight decay hook adds `rate` times the parameter to the gradient of a parameter
that is not called `b`, and to nothing else; the parameter itself is not changed. -/
theorem C85_decay (rate : ℝ) (p : Param ι) (g : ι → ℝ) (hg : p.grad = some g) :
    (weightDecay rate p).name = p.name ∧ (weightDecay rate p).array = p.array ∧ (weightDecay rate p).ms = p.ms ∧
    (p.name = "b" → (weightDecay rate p).grad = some g) ∧
    (p.name ≠ "b" → (weightDecay rate p).grad = some fun i => g i + rate * p.array i) := by
  unfold weightDecay
  by_cases h : p.name = "b"
  · simp [h, hg]
  · simp [h, hg]

/-- **C85.** Without a gradient there is no weight decay. -/
theorem C85_decay_no_gradient (rate : ℝ) (p : Param ι) (h : p.grad = none) : weightDecay rate p = p := by
  unfold weightDecay
  rw [h]; simp

/-- **C85.** The hook and the optimizer together minimise the loss plus `rate / 2` times the squares:
the gradient the optimizer sees is that of the loss plus that of the penalty. -/
theorem C85_decay_update (hp : Hyper) (rate : ℝ) (p : Param ι) (g : ι → ℝ) (hg : p.grad = some g) (hb : p.name ≠ "b") :
    (updateCore hp (weightDecay rate p)).array =
      (updateCore hp { p with grad := some fun i => g i + rate * p.array i }).array := by
  have h := C85_decay rate p g hg
  have : weightDecay rate p = { p with grad := some fun i => g i + rate * p.array i } := by
    unfold weightDecay
    rw [if_neg hb, hg]
  rw [this]

/-! ### Examples -/

/-- Two updates with the gradients 2 and 0: `ms` is `1 * 0 + ...`, the second update moves nothing. -/
example : (updates ⟨1, 0, 0⟩ [fun _ : Unit => 2, fun _ => 0] (initState "W" (fun _ => 5) none)).array () = 4 := by
  simp [updates, updateCore, initState]
  norm_num

/-- The hypothesis of `C85_violated_epsilon` holds for `alpha = 0` and the gradient 2. -/
example : (updates ⟨1, 0, 1⟩ [fun _ : Unit => 2] (initState "W" (fun _ => 5) none)).array () ≠
    documented ⟨1, 0, 1⟩ [] (fun _ => 2) (fun _ => 5) () :=
  C85_violated_epsilon ⟨1, 0, 1⟩ (by norm_num) (by norm_num) (by norm_num) (by norm_num) [] (fun _ => 2) "W" (fun _ => 5) ()
    (by norm_num) (by
      rw [meanSquare_snoc, meanSquare_nil]
      have : (0 : ℝ) ≤ sqrt (0 * 0 + (1 - 0) * 2 ^ 2) := sqrt_nonneg _
      have h4 : sqrt (0 * 0 + (1 - 0) * 2 ^ 2 : ℝ) = 2 := by
        rw [show (0 * 0 + (1 - 0) * 2 ^ 2 : ℝ) = 2 ^ 2 by norm_num, sqrt_sq (by norm_num)]
      simp only [h4]
      norm_num)

example : (weightDecay 2 (⟨"W", fun _ : Unit => 3, some fun _ => 1, fun _ => 0⟩ : Param Unit)).grad.map (· ()) = some 7 := by
  simp [weightDecay]; norm_num

end Verif.Optimizers
