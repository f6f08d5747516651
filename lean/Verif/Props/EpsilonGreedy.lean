import Mathlib.Tactic.Linarith
import Mathlib.Tactic.FieldSimp
import Mathlib.Algebra.Field.Rat
import Mathlib.Algebra.Order.Ring.Rat
import Mathlib.Algebra.Order.Field.Basic
import Mathlib.MeasureTheory.Measure.Lebesgue.Basic
import Verif.Model.EpsilonGreedy
set_option autoImplicit false

/-! # C19, C20: epsilon-greedy exploration -/

namespace Verif
open EpsGreedy
variable {A K : Type} [Field K] [LinearOrder K] [IsStrictOrderedRing K]

/-- C19 for `decay_steps > 0`: for every accepted configuration `compute_epsilon`
never raises, starts at `start_epsilon`, is `end_epsilon` from `decay_steps` on,
always lies between the two, and moves monotonically from one to the other; it
is linear up to `decay_steps`.
Missing from the full C19: `decay_steps = 0` at `t = 0`, where it raises
(`C19_violated_zero_decay`). -/
theorem C19_epsilon_partial (start stop : K) (n : Int) (hn : 0 < n) (c : LinearDecay K)
    (hc : LinearDecay.mk? start stop n = .ok c) :
    ∃ eps : Nat → K, (∀ t, c.epsilon t = .ok (eps t)) ∧
      eps 0 = start ∧ (∀ t : Nat, n ≤ t → eps t = stop) ∧
      (∀ t, min start stop ≤ eps t ∧ eps t ≤ max start stop) ∧
      (∀ t, 0 ≤ eps t ∧ eps t ≤ 1) ∧
      (stop ≤ start → ∀ s t : Nat, s ≤ t → eps t ≤ eps s) ∧
      (start ≤ stop → ∀ s t : Nat, s ≤ t → eps s ≤ eps t) ∧
      (∀ t : Nat, t ≤ n → (n : K) * (eps t - start) = (t : K) * (stop - start)) := by
  unfold LinearDecay.mk? at hc
  split at hc; · cases hc
  rename_i h1
  split at hc; · cases hc
  rename_i h2
  split at hc; · cases hc
  rw [not_not] at h1 h2
  cases hc
  obtain ⟨m, rfl⟩ : ∃ m : Nat, n = m := ⟨n.toNat, by omega⟩
  simp only [Int.toNat_natCast]
  have hm : 0 < m := by omega
  have hmK : (0 : K) < m := by exact_mod_cast hm
  -- the fraction of the decay that is over
  let f : Nat → K := fun t => if t > m then 1 else (t : K) / m
  have hf0 : ∀ t, 0 ≤ f t ∧ f t ≤ 1 := by
    intro t
    simp only [f]
    split
    · exact ⟨zero_le_one, le_rfl⟩
    · rename_i h
      have : (t : K) ≤ m := by exact_mod_cast (not_lt.mp h)
      exact ⟨div_nonneg (Nat.cast_nonneg t) hmK.le, (div_le_one hmK).mpr this⟩
  have hfm : ∀ s t : Nat, s ≤ t → f s ≤ f t := by
    intro s t hst
    simp only [f]
    by_cases h : t > m
    · rw [if_pos h]; exact (hf0 s).2
    · rw [if_neg h, if_neg (by omega)]
      have : (s : K) ≤ t := by exact_mod_cast hst
      gcongr
  refine ⟨fun t => start + (stop - start) * f t, ?_, ?_, ?_, ?_, ?_, ?_, ?_, ?_⟩
  · intro t
    unfold LinearDecay.epsilon
    simp only [f]
    by_cases h : t > m
    · rw [if_pos h, if_pos h]; congr 1; ring
    · rw [if_neg h, if_neg h, if_neg (by omega)]
  · simp [f]
  · intro t ht
    simp only [f]
    by_cases h : t > m
    · rw [if_pos h]; ring
    · have : t = m := by omega
      rw [if_neg h, this, div_self hmK.ne']; ring
  · intro t
    have := hf0 t
    rcases le_total start stop with h | h
    · rw [min_eq_left h, max_eq_right h]; constructor <;> nlinarith
    · rw [min_eq_right h, max_eq_left h]; constructor <;> nlinarith
  · intro t
    have := hf0 t
    rcases le_total start stop with h | h <;> constructor <;> nlinarith
  · intro h s t hst
    have := hfm s t hst
    nlinarith
  · intro h s t hst
    have := hfm s t hst
    nlinarith
  · intro t ht
    have ht : t ≤ m := by omega
    simp only [f]
    rw [if_neg (by omega)]
    push_cast
    field_simp
    ring

/-- C19 is false for `decay_steps = 0`, which the constructor accepts: the first
step raises `ZeroDivisionError` (all later ones return `end_epsilon`). -/
theorem C19_violated_zero_decay (start stop : K) (h : 0 ≤ start ∧ start ≤ 1)
    (h' : 0 ≤ stop ∧ stop ≤ 1) :
    ∃ c, LinearDecay.mk? start stop 0 = .ok c ∧ c.epsilon 0 = .error .zeroDivisionError ∧
      ∀ t : Nat, 0 < t → c.epsilon t = .ok stop := by
  refine ⟨⟨start, stop, 0⟩, ?_, ?_, ?_⟩
  · unfold LinearDecay.mk?
    rw [if_neg (not_not.mpr h), if_neg (not_not.mpr h'), if_neg (by simp)]
    rfl
  · simp [LinearDecay.epsilon]
  · intro t ht
    unfold LinearDecay.epsilon
    rw [if_pos ht]

example : ∃ c, LinearDecay.mk? (1 : ℚ) (1/10) 100 = .ok c ∧ c.epsilon 50 = .ok (11/20) ∧
    c.epsilon 100 = .ok (1/10) ∧ c.epsilon 1000 = .ok (1/10) :=
  ⟨⟨1, 1/10, 100⟩, by decide +kernel, by decide +kernel, by decide +kernel, by decide +kernel⟩

/-- C20: exactly one of the two functions is called, exactly once; it is the
random one exactly when the draw is below epsilon; the action is the one that
the called function returned. -/
theorem C20_exactly_one_call (epsilon u : K) (rand greedy : A) :
    let r := select epsilon u rand greedy
    r.2.2.length = 1 ∧ (.random ∈ r.2.2 ↔ u < epsilon) ∧ (.greedy ∈ r.2.2 ↔ epsilon ≤ u) ∧
    (.random ∈ r.2.2 → r.1 = rand) ∧ (.greedy ∈ r.2.2 → r.1 = greedy) ∧
    (r.2.1 = true ↔ .greedy ∈ r.2.2) := by
  intro r
  simp only [r, select]
  by_cases h : u < epsilon
  · rw [if_pos h]; simp [h, not_le.mpr h]
  · rw [if_neg h]; simp [h, not_lt.mp h]

/-- C20, extremes: for every draw in `[0, 1)`, `epsilon = 0` is greedy and
`epsilon = 1` is not. -/
theorem C20_extremes (u : K) (hu : 0 ≤ u ∧ u < 1) (rand greedy : A) :
    select 0 u rand greedy = (greedy, true, [.greedy]) ∧
    select 1 u rand greedy = (rand, false, [.random]) := by
  unfold select
  exact ⟨if_neg (not_lt.mpr hu.1), if_pos hu.2⟩

/-- C20, probability: the draws in `[0, 1)` that lead to the random function
have measure exactly epsilon. -/
theorem C20_probability (epsilon : ℝ) (h : 0 ≤ epsilon ∧ epsilon ≤ 1) (rand greedy : A) :
    MeasureTheory.volume {u : ℝ | u ∈ Set.Ico 0 1 ∧ .random ∈ (select epsilon u rand greedy).2.2}
      = ENNReal.ofReal epsilon := by
  have : {u : ℝ | u ∈ Set.Ico 0 1 ∧ Call.random ∈ (select epsilon u rand greedy).2.2} =
      Set.Ico 0 epsilon := by
    ext u
    simp only [Set.mem_setOf_eq, Set.mem_Ico]
    rw [(C20_exactly_one_call epsilon u rand greedy).2.1]
    constructor
    · rintro ⟨⟨h1, _⟩, h3⟩; exact ⟨h1, h3⟩
    · rintro ⟨h1, h2⟩; exact ⟨⟨h1, lt_of_lt_of_le h2 h.2⟩, h2⟩
  rw [this, Real.volume_Ico, sub_zero]

/-- C20 for `LinearDecayEpsilonGreedy`: whenever `select_action` returns, it has
selected with the epsilon of that time step. -/
theorem C20_linear_decay (c : LinearDecay K) (t : Nat) (u : K) (rand greedy : A)
    (r : A × Bool × List Call) (h : c.selectAction t u rand greedy = .ok r) :
    ∃ eps, c.epsilon t = .ok eps ∧ r.2.2.length = 1 ∧ (.random ∈ r.2.2 ↔ u < eps) := by
  unfold LinearDecay.selectAction at h
  split at h
  · cases h
  · rename_i eps he
    cases h
    have := C20_exactly_one_call eps u rand greedy
    exact ⟨eps, he, this.1, this.2.1⟩

example : (LinearDecay.selectAction (⟨1, 0, 2⟩ : LinearDecay ℚ) 1 (3/4) 'r' 'g')
    = .ok ('g', true, [.greedy]) := by decide +kernel

end Verif
