import Mathlib.Algebra.Field.Rat
import Mathlib.Algebra.Order.Ring.Rat
import Mathlib.Algebra.Order.Group.Defs
import Mathlib.Tactic.Linarith
import Verif.Model.ActionValue
import Verif.Spec.ActionValue
set_option autoImplicit false

/-! # C64: discrete action values -/

namespace Verif.ActionValue
variable {K : Type} [Field K] [LinearOrder K]

theorem argmaxFrom_spec (l : List K) : ∀ (pre : List K) (best : Nat) (bv : K),
    pre[best]? = some bv → (∀ x ∈ pre, x ≤ bv) → (∀ (j : Nat) x, j < best → pre[j]? = some x → x < bv) →
    ∃ v, (pre ++ l)[argmaxFrom best bv pre.length l]? = some v ∧ (∀ x ∈ pre ++ l, x ≤ v) ∧
      (∀ (j : Nat) x, j < argmaxFrom best bv pre.length l → (pre ++ l)[j]? = some x → x < v) := by
  induction l with
  | nil =>
    intro pre best bv h1 h2 h3
    exact ⟨bv, by simpa [argmaxFrom] using h1, by simpa using h2, by simpa [argmaxFrom] using h3⟩
  | cons x l ih =>
    intro pre best bv h1 h2 h3
    have hlt : best < pre.length := (List.getElem?_eq_some_iff.1 h1).1
    by_cases hx : bv < x
    · have := ih (pre ++ [x]) pre.length x (by simp)
        (by
          intro y hy
          rcases List.mem_append.1 hy with hy | hy
          · exact le_of_lt (lt_of_le_of_lt (h2 y hy) hx)
          · simp at hy; exact le_of_eq hy)
        (by
          intro j y hj hy
          rw [List.getElem?_append_left hj] at hy
          exact lt_of_le_of_lt (h2 y (List.mem_of_getElem? hy)) hx)
      simpa [argmaxFrom, hx] using this
    · have := ih (pre ++ [x]) best bv (by rw [List.getElem?_append_left hlt]; exact h1)
        (by
          intro y hy
          rcases List.mem_append.1 hy with hy | hy
          · exact h2 y hy
          · simp at hy; rw [hy]; exact not_lt.1 hx)
        (by
          intro j y hj hy
          rw [List.getElem?_append_left (by omega)] at hy
          exact h3 j y hj hy)
      simpa [argmaxFrom, hx] using this

/-- **C64**: `greedy_actions` is the first index of a maximal Q value. -/
theorem C64_greedy (q : List K) (hq : q ≠ []) :
    ∃ v, q[greedy q]? = some v ∧ IsMaxOf v q ∧
      ∀ (j : Nat) x, q[j]? = some x → j < greedy q → x < v := by
  cases q with
  | nil => exact absurd rfl hq
  | cons x xs =>
    obtain ⟨v, h1, h2, h3⟩ := argmaxFrom_spec xs [x] 0 x rfl (by simp) (by simp)
    exact ⟨v, h1, ⟨List.mem_of_getElem? h1, h2⟩, fun j y hj hlt => h3 j y hlt hj⟩

/-- **C64**: `max` is the maximal Q value. -/
theorem C64_max (q : List K) (hq : q ≠ []) : IsMaxOf (maxQ q) q := by
  obtain ⟨v, h1, h2, -⟩ := C64_greedy q hq
  simpa [maxQ, evaluate, h1] using h2

/-- **C64**: no action has a positive advantage, and the greedy action has advantage zero. -/
theorem C64_advantage [IsStrictOrderedRing K] (q : List K) (hq : q ≠ []) :
    (∀ (a : Nat), a < q.length → advantage q a ≤ 0) ∧ advantage q (greedy q) = 0 := by
  constructor
  · intro a ha
    have h : evaluate q a ∈ q := by simp [evaluate, ha]
    have := (C64_max q hq).2 _ h
    simp only [advantage]
    linarith
  · simp [advantage, maxQ]

/-- **C64**: an action with advantage zero has the maximal Q value; other actions
have a negative one. -/
theorem C64_advantage_zero_iff [IsStrictOrderedRing K] (q : List K) (hq : q ≠ []) (a : Nat)
    (ha : a < q.length) : advantage q a = 0 ↔ IsMaxOf (evaluate q a) q := by
  have hm := C64_max q hq
  have h : evaluate q a ∈ q := by simp [evaluate, ha]
  constructor
  · intro h0
    have : evaluate q a = maxQ q := by simp only [advantage] at h0; linarith
    rw [this]; exact hm
  · intro h0
    have h1 := hm.2 _ h
    have h2 := h0.2 _ hm.1
    simp only [advantage]; linarith

/-- **C64**, distributional action values: `max` is the largest expectation
among the actions and `max_as_distribution` is the distribution of an action
that attains it. -/
theorem C64_distributional (z : List K) (dist : List (List K)) (hd : dist ≠ []) :
    maxAsDistribution z dist ∈ dist ∧
    (List.zipWith (· * ·) (maxAsDistribution z dist) z).sum = maxQ (distQ z dist) ∧
    ∀ p ∈ dist, (List.zipWith (· * ·) p z).sum ≤ maxQ (distQ z dist) := by
  have hq : distQ z dist ≠ [] := by simpa [distQ] using hd
  obtain ⟨v, h1, h2, -⟩ := C64_greedy _ hq
  have hv : maxQ (distQ z dist) = v := by simp [maxQ, evaluate, h1]
  have h1' : (dist[greedy (distQ z dist)]?).map (fun p => (List.zipWith (· * ·) p z).sum) = some v := by
    simpa [distQ] using h1
  rcases hp : dist[greedy (distQ z dist)]? with _ | p
  · rw [hp] at h1'; simp at h1'
  · rw [hp] at h1'
    refine ⟨?_, ?_, ?_⟩
    · simp only [maxAsDistribution, hp, Option.getD_some]; exact List.mem_of_getElem? hp
    · rw [hv]; simpa [maxAsDistribution, hp] using h1'
    · intro p' hp'
      rw [hv]
      exact h2.2 _ (List.mem_map_of_mem hp')

/-- **C64**, quantile action values: the Q value of an action is the mean of its
quantiles. -/
theorem C64_quantile (n : Nat) (quantiles : List (List K)) (a : Nat) (ha : a < n) :
    evaluate (quantileQ n quantiles) a =
      (evaluateQuantiles quantiles a).sum / (quantiles.length : K) := by
  simp [evaluate, quantileQ, evaluateQuantiles, ha]

-- ties are resolved to the first index; the hypotheses hold
example : greedy ([1, 3, 2, 3] : List ℚ) = 1 := by decide +kernel
example : maxQ ([1, 3, 2, 3] : List ℚ) = 3 := by decide +kernel
example : advantage ([1, 3, 2, 3] : List ℚ) 2 = -1 := by decide +kernel
example : maxAsDistribution ([0, 1] : List ℚ) [[1, 0], [1/2, 1/2]] = [1/2, 1/2] := by decide +kernel

/-- **C64**: the double advantage of an action compares it with the given other action: it is the
difference of their advantages, and the advantage itself if the other action is greedy. -/
theorem C64_double_advantage (q : List K) (a b : Nat) :
    doubleAdvantage q a b = advantage q a - advantage q b ∧
    doubleAdvantage q a (greedy q) = advantage q a := by
  simp only [doubleAdvantage, advantage, maxQ]
  exact ⟨by simp, trivial⟩

example : doubleAdvantage ([1, 3, 2, 3] : List ℚ) 2 0 = 1 := by decide +kernel

end Verif.ActionValue
