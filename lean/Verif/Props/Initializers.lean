import Mathlib.Tactic.Linarith
import Mathlib.Tactic.Ring
import Mathlib.Tactic.FieldSimp
import Mathlib.Tactic.NormNum
import Mathlib.Algebra.BigOperators.Fin
import Verif.Model.Initializers

/-!
C97: the orthogonal initializer.
-/

set_option autoImplicit false
set_option linter.unusedSectionVars false

namespace Verif.Init

open Matrix

/-- What numpy's reduced QR decomposition of a tall matrix `a` is: orthonormal columns times an upper triangular
matrix. -/
def IsQR (qr : ∀ m n : Nat, Matrix (Fin m) (Fin n) ℝ → Matrix (Fin m) (Fin n) ℝ × Matrix (Fin n) (Fin n) ℝ)
    (m n : Nat) (a : Matrix (Fin m) (Fin n) ℝ) : Prop :=
  (qr m n a).1.transpose * (qr m n a).1 = 1 ∧ a = (qr m n a).1 * (qr m n a).2 ∧
    ∀ i j, j < i → (qr m n a).2 i j = 0

theorem copysign_sq (x y : ℝ) : copysign x y * copysign x y = x ^ 2 := by
  unfold copysign
  split
  · rw [neg_mul_neg, abs_mul_abs_self]; ring
  · rw [abs_mul_abs_self]; ring

theorem scaledColumns_gram {m n : Nat} (scale : ℝ) (q : Matrix (Fin m) (Fin n) ℝ) (r : Matrix (Fin n) (Fin n) ℝ)
    (hq : q.transpose * q = 1) :
    (scaledColumns scale q r).transpose * scaledColumns scale q r = scale ^ 2 • (1 : Matrix (Fin n) (Fin n) ℝ) := by
  ext i j
  have h : (q.transpose * q) i j = (1 : Matrix (Fin n) (Fin n) ℝ) i j := by rw [hq]
  simp only [Matrix.mul_apply, Matrix.transpose_apply] at h
  simp only [Matrix.mul_apply, Matrix.transpose_apply, scaledColumns, Matrix.of_apply, Matrix.smul_apply, smul_eq_mul]
  have e : ∀ k, q k i * copysign scale (r i i) * (q k j * copysign scale (r j j)) =
      (copysign scale (r i i) * copysign scale (r j j)) * (q k i * q k j) := fun k => by ring
  rw [Finset.sum_congr rfl fun k _ => e k, ← Finset.mul_sum, h]
  by_cases hij : i = j
  · subst hij; rw [copysign_sq]
  · rw [Matrix.one_apply_ne hij]; ring

/-- The factorisation the result belongs to: `a = (W / |scale|) R` with the rows of `R` turned to a non-negative
diagonal. -/
theorem scaledColumns_factor {m n : Nat} (scale : ℝ) (q : Matrix (Fin m) (Fin n) ℝ)
    (r : Matrix (Fin n) (Fin n) ℝ) (htri : ∀ i j, j < i → r i j = 0) :
    ∃ r' : Matrix (Fin n) (Fin n) ℝ, (∀ i j, j < i → r' i j = 0) ∧ (∀ i, 0 ≤ r' i i) ∧
      |scale| • (q * r) = scaledColumns scale q r * r' := by
  refine ⟨Matrix.of fun i j => copysign 1 (r i i) * r i j, ?_, ?_, ?_⟩
  · intro i j h; simp [htri i j h]
  · intro i
    simp only [Matrix.of_apply, copysign]
    split
    · simp; linarith
    · rename_i h; simp; exact not_lt.1 h
  · ext i j
    simp only [Matrix.smul_apply, smul_eq_mul, Matrix.mul_apply, scaledColumns, Matrix.of_apply, Finset.mul_sum]
    apply Finset.sum_congr rfl
    intro k _
    have e : copysign scale (r k k) * copysign 1 (r k k) = |scale| := by
      unfold copysign
      split <;> simp
    rw [← e]; ring

/-- **C97.** For every shape, mode, scale and random matrix: an empty array is rejected, and a shape the mode excludes;
otherwise with at most as many columns as rows the columns of the result are orthogonal and of length
`|scale|`, with more columns than rows the rows are. The result is the one of the QR decomposition with a
non-negative diagonal. -/
theorem C97_orthogonal (mode : Mode) (scale : ℝ) (outDim inDim : Nat) (a : Matrix (Fin outDim) (Fin inDim) ℝ)
    (qr : ∀ m n : Nat, Matrix (Fin m) (Fin n) ℝ → Matrix (Fin m) (Fin n) ℝ × Matrix (Fin n) (Fin n) ℝ)
    (htall : inDim ≤ outDim → IsQR qr outDim inDim a)
    (hwide : outDim < inDim → IsQR qr inDim outDim a.transpose) :
    (outDim = 0 ∨ inDim = 0 → orthogonal mode scale outDim inDim a qr = .error .valueError) ∧
    (inDim > outDim → (mode = .embedding ∨ mode = .basis) → orthogonal mode scale outDim inDim a qr = .error .valueError) ∧
    (inDim < outDim → (mode = .projection ∨ mode = .basis) → orthogonal mode scale outDim inDim a qr = .error .valueError) ∧
    (0 < outDim → 0 < inDim → inDim ≤ outDim → (inDim = outDim ∨ mode = .auto ∨ mode = .embedding) →
      ∃ w, orthogonal mode scale outDim inDim a qr = .ok w ∧
        w.transpose * w = scale ^ 2 • (1 : Matrix (Fin inDim) (Fin inDim) ℝ) ∧
        (∃ r : Matrix (Fin inDim) (Fin inDim) ℝ, (∀ i j, j < i → r i j = 0) ∧ (∀ i, 0 ≤ r i i) ∧
          |scale| • a = w * r)) ∧
    (0 < outDim → outDim < inDim → (mode = .auto ∨ mode = .projection) →
      ∃ w, orthogonal mode scale outDim inDim a qr = .ok w ∧
        w * w.transpose = scale ^ 2 • (1 : Matrix (Fin outDim) (Fin outDim) ℝ) ∧
        (∃ l : Matrix (Fin outDim) (Fin outDim) ℝ, (∀ i j, i < j → l i j = 0) ∧ (∀ i, 0 ≤ l i i) ∧
          |scale| • a = l * w)) := by
  refine ⟨?_, ?_, ?_, ?_, ?_⟩
  · intro h; unfold orthogonal; rw [if_pos h]
  · intro h1 h2; unfold orthogonal
    split
    · rfl
    · rw [if_pos (.inl ⟨h1, by rcases h2 with rfl | rfl <;> rfl⟩)]
  · intro h1 h2; unfold orthogonal
    split
    · rfl
    · rw [if_pos (.inr ⟨h1, by rcases h2 with rfl | rfl <;> rfl⟩)]
  · intro ho hi hle hm
    obtain ⟨q1, q2, q3⟩ := htall hle
    refine ⟨scaledColumns scale (qr outDim inDim a).1 (qr outDim inDim a).2, ?_, scaledColumns_gram scale _ _ q1, ?_⟩
    · unfold orthogonal
      rw [if_neg (by omega), if_neg, if_neg (by omega)]
      rintro (⟨h, _⟩ | ⟨h, h'⟩)
      · omega
      · rcases hm with hm | hm
        · omega
        · rcases hm with rfl | rfl <;> simp [Mode.checks] at h'
    · obtain ⟨r', r1, r2, r3⟩ := scaledColumns_factor scale _ _ q3
      refine ⟨r', r1, r2, ?_⟩
      conv_lhs => rw [q2]
      exact r3
  · intro ho hlt hm
    obtain ⟨q1, q2, q3⟩ := hwide hlt
    refine ⟨(scaledColumns scale (qr inDim outDim a.transpose).1 (qr inDim outDim a.transpose).2).transpose, ?_, ?_, ?_⟩
    · unfold orthogonal
      rw [if_neg (by omega), if_neg, if_pos hlt]
      rintro (⟨_, h'⟩ | ⟨h, _⟩)
      · rcases hm with rfl | rfl <;> simp [Mode.checks] at h'
      · omega
    · rw [Matrix.transpose_transpose]
      exact scaledColumns_gram scale _ _ q1
    · obtain ⟨r', r1, r2, r3⟩ := scaledColumns_factor scale _ _ q3
      refine ⟨r'.transpose, fun i j h => r1 j i h, r2, ?_⟩
      rw [← Matrix.transpose_mul, ← r3, ← q2, Matrix.transpose_smul, Matrix.transpose_transpose]

/-- A QR decomposition of the column `(3, 4)`, with a negative diagonal entry. -/
noncomputable def exampleQR (m n : Nat) (_ : Matrix (Fin m) (Fin n) ℝ) :
    Matrix (Fin m) (Fin n) ℝ × Matrix (Fin n) (Fin n) ℝ :=
  (Matrix.of fun i _ => if i.val = 0 then -(3 / 5) else -(4 / 5), Matrix.of fun _ _ => -5)

def exampleColumn : Matrix (Fin 2) (Fin 1) ℝ := Matrix.of fun i _ => if i.val = 0 then 3 else 4

/-- The hypotheses hold for a concrete matrix, in both orientations. -/
theorem exampleQR_isQR : IsQR exampleQR 2 1 exampleColumn := by
  refine ⟨?_, ?_, ?_⟩
  · ext i j; fin_cases i; fin_cases j; simp [Matrix.mul_apply, Fin.sum_univ_two, exampleQR]; norm_num
  · ext i j; fin_cases i <;> fin_cases j <;> simp [Matrix.mul_apply, exampleQR, exampleColumn] <;> norm_num
  · intro i j h; exact absurd h (by omega)

example := C97_orthogonal .embedding 2 2 1 exampleColumn exampleQR (fun _ => exampleQR_isQR) (fun h => absurd h (by decide))
example := C97_orthogonal .projection 2 1 2 exampleColumn.transpose exampleQR (fun h => absurd h (by decide))
  (fun _ => exampleQR_isQR)

/-- With a negative diagonal the column is turned. -/
example : scaledColumns 2 (!![-(3 / 5); -(4 / 5)] : Matrix (Fin 2) (Fin 1) ℝ) !![(-5 : ℝ)] = !![6 / 5; 8 / 5] := by
  ext i j; fin_cases i <;> fin_cases j <;> simp [scaledColumns, copysign] <;> norm_num

end Verif.Init
