import Mathlib.Topology.Order.IntermediateValue
import Verif.Model.Distrib
set_option autoImplicit false

/-! # Specification: probability vectors, expectation, entropy, root finding -/

namespace Verif.Distrib

open Real

noncomputable section

variable {n : Nat}

/-- `p` is a probability vector. -/
def IsProb (p : Fin n → ℝ) : Prop := (∀ i, 0 ≤ p i) ∧ ∑ i, p i = 1

/-- The expectation of `x` under `p`. -/
def expect (p x : Fin n → ℝ) : ℝ := ∑ i, p i * x i

/-- Shannon entropy. -/
def shannon (p : Fin n → ℝ) : ℝ := -∑ i, p i * log (p i)

/-- What Brent's method promises: for a continuous function whose values at the ends do not
have the same sign, a root between them. -/
def BrentOk (brent : Brent) : Prop :=
  ∀ f a b, Continuous f → a ≤ b → f a * f b ≤ 0 → ∃ r, brent f a b = some r ∧ a ≤ r ∧ r ≤ b ∧ f r = 0

/-- Such a root finder exists. -/
theorem brent_exists : ∃ brent, BrentOk brent := by
  classical
  refine ⟨fun f a b => if h : ∃ r, a ≤ r ∧ r ≤ b ∧ f r = 0 then some h.choose else none, ?_⟩
  intro f a b hf hab hs
  have : ∃ r, a ≤ r ∧ r ≤ b ∧ f r = 0 := by
    rcases le_total (f a) 0 with h | h
    · have hb : 0 ≤ f b ∨ f a = 0 := by
        rcases h.lt_or_eq with h' | h'
        · left; by_contra hb; exact absurd hs (not_le.2 (mul_pos_of_neg_of_neg h' (not_le.1 hb)))
        · right; exact h'
      rcases hb with hb | hb
      · obtain ⟨r, hr, h0⟩ := intermediate_value_Icc hab hf.continuousOn ⟨h, hb⟩
        exact ⟨r, hr.1, hr.2, h0⟩
      · exact ⟨a, le_refl _, hab, hb⟩
    · have hb : f b ≤ 0 ∨ f a = 0 := by
        rcases h.lt_or_eq with h' | h'
        · left; by_contra hb; exact absurd hs (not_le.2 (mul_pos h' (not_le.1 hb)))
        · right; exact h'.symm
      rcases hb with hb | hb
      · obtain ⟨r, hr, h0⟩ := intermediate_value_Icc' hab hf.continuousOn ⟨hb, h⟩
        exact ⟨r, hr.1, hr.2, h0⟩
      · exact ⟨a, le_refl _, hab, hb⟩
  refine ⟨this.choose, by simp only [this, dite_true], this.choose_spec⟩

end

end Verif.Distrib
