import Mathlib.Algebra.Field.Rat
import Mathlib.Algebra.Order.Ring.Rat
import Mathlib.Tactic.FieldSimp
import Mathlib.Tactic.Linarith
import Mathlib.Tactic.LinearCombination
import Mathlib.Tactic.Ring
import Verif.Model.RewardFilter
set_option autoImplicit false

/-! # C39, C41: action normalisation and reward filters -/

namespace Verif.RewardFilter

/-- Invariant of the averages (a form of Cauchy–Schwarz). -/
theorem after_inv (tau : ℝ) (h0 : 0 ≤ tau) (h1 : tau ≤ 1) (l : List ℝ) : ∀ (s : State) (m : ℝ),
    0 ≤ m → m ≤ 1 → 0 ≤ s.avgSq → s.avg ^ 2 ≤ (1 - m) * s.avgSq →
    0 ≤ (State.after tau s l).avgSq ∧
    (State.after tau s l).avg ^ 2 ≤ (1 - m * (1 - tau) ^ l.length) * (State.after tau s l).avgSq := by
  induction l with
  | nil => intro s m _ _ hs h; simpa [State.after] using ⟨hs, h⟩
  | cons r l ih =>
    intro s m hm hm1 hs h
    have hm' : 0 ≤ m * (1 - tau) := mul_nonneg hm (by linarith)
    have hm1' : m * (1 - tau) ≤ 1 := by nlinarith
    have hs' : 0 ≤ (s.update tau r).avgSq := by
      simp only [State.update]
      have := mul_nonneg hs (by linarith : (0 : ℝ) ≤ 1 - tau)
      have := mul_nonneg h0 (sq_nonneg r)
      linarith
    have h' : (s.update tau r).avg ^ 2 ≤ (1 - m * (1 - tau)) * (s.update tau r).avgSq := by
      simp only [State.update]
      -- 2 a r ≤ (1 - m) r² + E
      have hk : 2 * (s.avg * r) ≤ (1 - m) * r ^ 2 + s.avgSq := by
        have hx : 0 ≤ (1 - m) * r ^ 2 + s.avgSq := by
          have := mul_nonneg (by linarith : (0 : ℝ) ≤ 1 - m) (sq_nonneg r)
          linarith
        have hy : (2 * (s.avg * r)) ^ 2 ≤ ((1 - m) * r ^ 2 + s.avgSq) ^ 2 := by
          have h2 : s.avg ^ 2 * r ^ 2 ≤ (1 - m) * s.avgSq * r ^ 2 := mul_le_mul_of_nonneg_right h (sq_nonneg r)
          nlinarith [sq_nonneg ((1 - m) * r ^ 2 - s.avgSq)]
        exact le_trans (le_abs_self _) (abs_le_of_sq_le_sq hy hx)
      have ht : 0 ≤ (1 - tau) * tau := mul_nonneg (by linarith) h0
      have h3 := mul_le_mul_of_nonneg_left hk ht
      have h4 := mul_le_mul_of_nonneg_left h (sq_nonneg (1 - tau))
      nlinarith
    have := ih (s.update tau r) (m * (1 - tau)) hm' hm1' hs' h'
    simp only [State.after, List.foldl_cons] at this ⊢
    refine ⟨this.1, ?_⟩
    have e : m * (1 - tau) ^ (r :: l).length = m * (1 - tau) * (1 - tau) ^ l.length := by
      rw [List.length_cons, pow_succ]; ring
    rw [e]
    exact this.2

/-- After a non-zero reward the average of squares is positive. -/
theorem after_pos (tau : ℝ) (h0 : 0 < tau) (h1 : tau < 1) (l : List ℝ) : ∀ s : State,
    0 ≤ s.avgSq → (0 < s.avgSq ∨ ∃ r ∈ l, r ≠ 0) → 0 < (State.after tau s l).avgSq := by
  induction l with
  | nil => intro s _ h; simpa [State.after] using h
  | cons r l ih =>
    intro s hs h
    have hp : 0 ≤ s.avgSq * (1 - tau) := mul_nonneg hs (by linarith)
    have hq : 0 ≤ tau * r ^ 2 := mul_nonneg h0.le (sq_nonneg r)
    simp only [State.after, List.foldl_cons]
    apply ih
    · simp only [State.update]; linarith
    · rcases h with h | ⟨x, hx, hx0⟩
      · left
        simp only [State.update]
        have := mul_pos h (by linarith : 0 < 1 - tau)
        linarith
      · rcases List.mem_cons.mp hx with rfl | hx
        · left
          simp only [State.update]
          have := mul_pos h0 (by positivity : 0 < x ^ 2)
          linarith
        · exact .inr ⟨x, hx, hx0⟩

/-- C41 (part).  For `0 < tau < 1` and `eps > 0`: once some reward was not zero, the
filtered reward is always defined (the divisor is positive), for every sequence of
rewards.  Missing: the divisor is not bounded below by `eps` – it is bounded
*above* by the square root of `eps` – and it is zero while all rewards are zero. -/
theorem C41_defined_partial (tau scale eps : ℝ) (h0 : 0 < tau) (h1 : tau < 1) (he : 0 < eps) (rewards : List ℝ) (r : ℝ)
    (hr : ∃ x ∈ rewards ++ [r], x ≠ 0) :
    let s := State.after tau State.init rewards
    0 < (s.update tau r).stdev eps ∧ (s.call tau scale eps r).2 =
      some (scale * (r - (s.update tau r).avg) / (s.update tau r).stdev eps) := by
  intro s
  have hs : s.update tau r = State.after tau State.init (rewards ++ [r]) := by simp [State.after, s]
  have hinv := after_inv tau h0.le h1.le (rewards ++ [r]) State.init 1 (by norm_num) le_rfl
    (by simp [State.init]) (by simp [State.init])
  have hpos := after_pos tau h0 h1 (rewards ++ [r]) State.init (by simp [State.init]) (.inr hr)
  have hvar : 0 < (s.update tau r).avgSq - (s.update tau r).avg ^ 2 := by
    rw [hs]
    have hw : 0 < (1 - tau) ^ (rewards ++ [r]).length := pow_pos (by linarith) _
    nlinarith [hinv.2, mul_pos hw hpos]
  have hst : 0 < (s.update tau r).stdev eps := Real.rpow_pos_of_pos (lt_min hvar he) _
  exact ⟨hst, by simp only [State.call]; rw [if_neg hst.ne']⟩

/-- The exponentially weighted average of a sequence: weight `tau * (1 - tau) ^ k` for the entry `k` places before the last. -/
noncomputable def ema (tau : ℝ) (l : List ℝ) : ℝ :=
  ∑ i ∈ Finset.range l.length, tau * (1 - tau) ^ (l.length - 1 - i) * l[i]?.getD 0

theorem ema_append (tau : ℝ) (l : List ℝ) (r : ℝ) : ema tau (l ++ [r]) = ema tau l * (1 - tau) + tau * r := by
  simp only [ema, List.length_append, List.length_singleton, Finset.sum_range_succ]
  congr 1
  · rw [Finset.sum_mul]
    refine Finset.sum_congr rfl fun i hi => ?_
    have hi := Finset.mem_range.1 hi
    rw [List.getElem?_append_left hi, show l.length + 1 - 1 - i = (l.length - 1 - i) + 1 by omega, pow_succ]
    ring
  · simp

/-- C41, what is averaged: after any rewards the averages of NormalizedRewardFilter are the exponentially weighted averages of the rewards and of their squares. -/
theorem C41_averages_partial (tau : ℝ) (l : List ℝ) :
    State.after tau State.init l = ⟨ema tau l, ema tau (l.map (· ^ 2))⟩ := by
  induction l using List.reverseRecOn with
  | nil => simp [State.after, State.init, ema]
  | append_singleton l r ih =>
    rw [State.after, List.foldl_append]
    simp only [State.after] at ih
    rw [ih]
    simp [State.update, ema_append, List.map_append]

/-- C41, AverageRewardFilter: the value returned for the last of any rewards is that reward minus the exponentially weighted average of all rewards up to and including
it. -/
theorem C41_average_filter_partial (tau : ℝ) (l : List ℝ) (r : ℝ) :
    averageCall (l.foldl (fun avg x => (averageCall avg tau x).1) 0) tau r = (ema tau (l ++ [r]), r - ema tau (l ++ [r])) := by
  have key : ∀ l : List ℝ, l.foldl (fun avg x => (averageCall avg tau x).1) 0 = ema tau l := by
    intro l
    induction l using List.reverseRecOn with
    | nil => simp [ema]
    | append_singleton l r ih => rw [List.foldl_append, ih]; simp [averageCall, ema_append]
  rw [key, ema_append]
  rfl

-- two rewards: the average weighs the last one by `tau`
example : ema (1 / 2) [4, 8] = 5 := by simp [ema, Finset.sum_range_succ]; norm_num

/-- C41: the divisor never exceeds the square root of `eps`. -/
theorem C41_divisor_above_partial (tau eps : ℝ) (h0 : 0 < tau) (h1 : tau < 1) (he : 0 < eps) (rewards : List ℝ) :
    (State.after tau State.init rewards).stdev eps ≤ eps ^ (0.5 : ℝ) := by
  have hinv := after_inv tau h0.le h1.le rewards State.init 1 (by norm_num) le_rfl
    (by simp [State.init]) (by simp [State.init])
  have hvar : 0 ≤ (State.after tau State.init rewards).avgSq - (State.after tau State.init rewards).avg ^ 2 := by
    have hw : 0 < (1 - tau) ^ rewards.length := pow_pos (by linarith) _
    nlinarith [hinv.2, mul_nonneg hw.le hinv.1]
  exact Real.rpow_le_rpow (le_min hvar he.le) (min_le_right _ _) (by norm_num)

/-- C41 is violated: if all rewards so far are zero the filter raises
ZeroDivisionError, whatever `eps`. -/
theorem C41_violated_zero_rewards (tau scale eps : ℝ) (he : 0 < eps) (n : Nat) :
    ((State.after tau State.init (List.replicate n 0)).call tau scale eps 0).2 = none := by
  have key : ∀ n : Nat, State.after tau State.init (List.replicate n 0) = ⟨0, 0⟩ := by
    intro n
    induction n with
    | zero => rfl
    | succ n ih =>
      rw [List.replicate_succ', State.after, List.foldl_append]
      simp only [State.after] at ih
      rw [ih]
      simp [State.update]
  rw [key]
  have : (State.update ⟨0, 0⟩ tau 0).stdev eps = 0 := by
    simp only [State.update, State.stdev]
    rw [min_eq_left (by simpa using he.le)]
    norm_num
  simp only [State.call, this, if_true]

-- the hypotheses of C41_defined_partial are met by the default parameters
example : ∃ x ∈ [(0 : ℝ), 0] ++ [1], x ≠ 0 := ⟨1, by simp, one_ne_zero⟩

end Verif.RewardFilter

namespace Verif.NormalizeAction

section
variable {K : Type} [Field K] [LinearOrder K] [IsStrictOrderedRing K]

/-- C39: -1 is mapped to `low` and 1 to `high`. -/
theorem C39_ends (low high : K) : action low high (-1) = low ∧ action low high 1 = high := by
  constructor
  · simp [action]
  · have : (2 : K) ≠ 0 := two_ne_zero
    simp only [action]
    field_simp
    ring

/-- C39: the map is affine. -/
theorem C39_affine (low high a b t : K) :
    action low high (t * a + (1 - t) * b) = t * action low high a + (1 - t) * action low high b := by
  simp only [action]
  ring

/-- C39: the map is monotone, strictly unless the box is degenerate. -/
theorem C39_monotone (low high : K) (h : low ≤ high) (a b : K) (hab : a ≤ b) : action low high a ≤ action low high b := by
  simp only [action]
  have h2 : 0 ≤ (high - low) / 2 := div_nonneg (sub_nonneg.mpr h) (by norm_num)
  have := mul_le_mul_of_nonneg_right (add_le_add_left hab 1) h2
  linarith

theorem C39_strict (low high : K) (h : low < high) (a b : K) : action low high a = action low high b → a = b := by
  intro he
  simp only [action] at he
  have h2 : (high - low) / 2 ≠ 0 := by
    have : 0 < (high - low) / 2 := div_pos (sub_pos.mpr h) (by norm_num)
    exact this.ne'
  have h3 : (a + 1) * ((high - low) / 2) = (b + 1) * ((high - low) / 2) := by linear_combination he
  have := mul_right_cancel₀ h2 h3
  linear_combination this

/-- C39: actions in [-1, 1] are mapped into the box, in every coordinate. -/
theorem C39_range (low high a : List K) (i : Nat) (l h x : K) (hl : low[i]? = some l) (hh : high[i]? = some h)
    (ha : a[i]? = some x) (hlh : l ≤ h) (h1 : -1 ≤ x) (h2 : x ≤ 1) :
    ∃ y, (actions low high a)[i]? = some y ∧ l ≤ y ∧ y ≤ h := by
  refine ⟨action l h x, ?_, ?_, ?_⟩
  · have : (low.zip high)[i]? = some (l, h) := List.getElem?_zip_eq_some.mpr ⟨hl, hh⟩
    simp [actions, List.getElem?_zipWith, this, ha]
  · have := C39_monotone l h hlh (-1) x h1
    rwa [(C39_ends l h).1] at this
  · have := C39_monotone l h hlh x 1 h2
    rwa [(C39_ends l h).2] at this
end

example : actions [(-2 : ℚ), 0] [2, 10] [1/2, -1/5] = [1, 4] := by decide +kernel

end Verif.NormalizeAction
