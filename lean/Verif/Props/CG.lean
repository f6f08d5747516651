import Mathlib.LinearAlgebra.FiniteDimensional.Basic
import Mathlib.LinearAlgebra.Dimension.Constructions
import Mathlib.Algebra.Field.Rat
import Mathlib.Algebra.Order.Ring.Rat
import Mathlib.Tactic.Ring
import Mathlib.Tactic.Linarith
import Mathlib.Tactic.FieldSimp
import Verif.Spec.TRPO
set_option autoImplicit false
set_option linter.unusedSectionVars false

/-! # C62: conjugate gradient -/

namespace Verif.TRPO
variable {K : Type} [Field K] [LinearOrder K] [IsStrictOrderedRing K] {n : Nat}
variable {A : (Fin n → K) → (Fin n → K)} {b : Fin n → K}

theorem Linear.sub (h : Linear A) (u v : Fin n → K) : A (u - v) = A u - A v := by
  have := h.add u ((-1 : K) • v)
  rw [h.smul] at this
  simpa [sub_eq_add_neg] using this

theorem Linear.zero (h : Linear A) : A 0 = 0 := by
  have := h.smul (0 : K) 0
  simpa using this

theorem SPD.linear (h : SPD A) : Linear A := ⟨h.add, h.smul⟩

theorem dot_self_pos {v : Fin n → K} (h : v ≠ 0) : 0 < v ⬝ᵥ v := by
  obtain ⟨i, hi⟩ := Function.ne_iff.1 h
  unfold dotProduct
  refine Finset.sum_pos' (fun j _ => mul_self_nonneg _) ⟨i, Finset.mem_univ _, ?_⟩
  exact mul_self_pos.2 (by simpa using hi)

theorem dot_self_ne {v : Fin n → K} (h : v ≠ 0) : v ⬝ᵥ v ≠ 0 := (dot_self_pos h).ne'

/-- The direction of the textbook sequence. -/
def cgP (A : (Fin n → K) → (Fin n → K)) (b : Fin n → K) (k : Nat) : Fin n → K := (cgSeq A b k).2

/-- The residual of the textbook sequence. -/
def cgR (A : (Fin n → K) → (Fin n → K)) (b : Fin n → K) (k : Nat) : Fin n → K := b - A (cgX A b k)

/-- The step length of the textbook sequence. -/
def cgA (A : (Fin n → K) → (Fin n → K)) (b : Fin n → K) (k : Nat) : K :=
  (cgR A b k ⬝ᵥ cgR A b k) / (cgP A b k ⬝ᵥ A (cgP A b k))

theorem cgX_succ (k : Nat) : cgX A b (k + 1) = cgX A b k + cgA A b k • cgP A b k := rfl

theorem cgP_succ (k : Nat) : cgP A b (k + 1) =
    cgR A b (k + 1) + ((cgR A b (k + 1) ⬝ᵥ cgR A b (k + 1)) / (cgR A b k ⬝ᵥ cgR A b k)) • cgP A b k := rfl

theorem cgP_zero : cgP A b 0 = cgR A b 0 := rfl

theorem cgR_succ (h : Linear A) (k : Nat) :
    cgR A b (k + 1) = cgR A b k - cgA A b k • A (cgP A b k) := by
  unfold cgR
  rw [cgX_succ, h.add, h.smul]
  abel

theorem cgLoop_spec (h : Linear A) (tol : K) : ∀ (m k : Nat) (x : Fin n → K),
    cgLoop A tol m (cgX A b k) (cgR A b k) (cgP A b k) = some x →
    ∃ j, k ≤ j ∧ j ≤ k + m ∧ x = cgX A b j ∧ (j < k + m → normLt (b - A x) tol) ∧
      ∀ i, k < i → i < j → ¬ normLt (b - A (cgX A b i)) tol
  | 0, k, x, hx => by
    simp only [cgLoop, Option.some.injEq] at hx
    exact ⟨k, le_refl _, by omega, hx.symm, fun h => by omega, fun i h1 h2 => by omega⟩
  | m + 1, k, x, hx => by
    rw [cgLoop] at hx
    by_cases hd : A (cgP A b k) ⬝ᵥ cgP A b k = 0
    · simp [hd] at hx
    rw [if_neg hd] at hx
    have hx1 : cgX A b k + ((cgR A b k ⬝ᵥ cgR A b k) / (A (cgP A b k) ⬝ᵥ cgP A b k)) • cgP A b k =
        cgX A b (k + 1) := by
      rw [cgX_succ, cgA, dotProduct_comm (A (cgP A b k))]
    have hr1 : cgR A b k - ((cgR A b k ⬝ᵥ cgR A b k) / (A (cgP A b k) ⬝ᵥ cgP A b k)) • A (cgP A b k) =
        cgR A b (k + 1) := by
      rw [cgR_succ h, cgA, dotProduct_comm (A (cgP A b k))]
    simp only [hx1, hr1] at hx
    by_cases hn : normLt (cgR A b (k + 1)) tol
    · rw [if_pos hn, Option.some.injEq] at hx
      subst hx
      exact ⟨k + 1, by omega, by omega, rfl, fun _ => hn, fun i h1 h2 => by omega⟩
    rw [if_neg hn] at hx
    by_cases hz : cgR A b k ⬝ᵥ cgR A b k = 0
    · rw [if_pos hz] at hx
      by_cases hm : m = 0
      · rw [if_pos hm, Option.some.injEq] at hx
        subst hx
        exact ⟨k + 1, by omega, by omega, rfl, fun h => by omega, fun i h1 h2 => by omega⟩
      · simp [hm] at hx
    rw [if_neg hz, ← cgP_succ] at hx
    obtain ⟨j, h1, h2, h3, h4, h5⟩ := cgLoop_spec h tol m (k + 1) x hx
    refine ⟨j, by omega, by omega, h3, fun h => h4 (by omega), fun i g1 g2 => ?_⟩
    by_cases hi : i = k + 1
    · subst hi; exact hn
    · exact h5 i (by omega) g2

/-- **C62**: for every linear `A`, the returned vector is that of the textbook conjugate
gradient sequence after some number of steps; if that is fewer than `max_iter`, the
residual norm `|b - A x|` is below `tol`, and it was not below `tol` at any earlier step. -/
theorem C62_sequence (h : Linear A) (tol : K) (maxIter : Nat) (x : Fin n → K)
    (hx : conjugateGradient A b tol maxIter = some x) :
    ∃ k ≤ maxIter, x = cgX A b k ∧ (k < maxIter → normLt (b - A x) tol) ∧
      ∀ i, 0 < i → i < k → ¬ normLt (b - A (cgX A b i)) tol := by
  obtain ⟨j, -, h2, h3, h4, h5⟩ := cgLoop_spec h tol maxIter 0 x hx
  exact ⟨j, by omega, h3, fun g => h4 (by omega), h5⟩

/-! ### Convergence for positive definite operators -/

/-- Mutual orthogonality up to step `k`. -/
structure Orth (A : (Fin n → K) → (Fin n → K)) (b : Fin n → K) (k : Nat) : Prop where
  res : ∀ i j, i ≤ k → j ≤ k → i ≠ j → cgR A b i ⬝ᵥ cgR A b j = 0
  conj : ∀ i j, i ≤ k → j ≤ k → i ≠ j → cgP A b i ⬝ᵥ A (cgP A b j) = 0
  dir : ∀ i, i ≤ k → cgP A b i ⬝ᵥ cgR A b i = cgR A b i ⬝ᵥ cgR A b i
  old : ∀ i j, i < j → j ≤ k → cgP A b i ⬝ᵥ cgR A b j = 0

theorem Orth.dir_ne {k : Nat} (h : Orth A b k) {i : Nat} (hi : i ≤ k) (hr : cgR A b i ≠ 0) :
    cgP A b i ≠ 0 := by
  intro hp
  have := h.dir i hi
  rw [hp, zero_dotProduct] at this
  exact dot_self_ne hr this.symm

theorem orth_zero : Orth A b 0 where
  res := by intro i j h1 h2 h3; omega
  conj := by intro i j h1 h2 h3; omega
  dir := by
    intro i hi
    obtain rfl : i = 0 := by omega
    rw [cgP_zero]
  old := by intro i j h1 h2; omega

theorem orth_succ (hA : SPD A) {k : Nat} (h : Orth A b k) (hr : ∀ i ≤ k, cgR A b i ≠ 0) :
    Orth A b (k + 1) := by
  have hl := hA.linear
  have hpAp : ∀ i ≤ k, 0 < cgP A b i ⬝ᵥ A (cgP A b i) := by
    intro i hi
    rw [dotProduct_comm]
    exact hA.pos _ (h.dir_ne hi (hr i hi))
  have ha : ∀ i ≤ k, cgA A b i * (cgP A b i ⬝ᵥ A (cgP A b i)) = cgR A b i ⬝ᵥ cgR A b i := by
    intro i hi
    exact div_mul_cancel₀ _ (hpAp i hi).ne'
  have ha0 : ∀ i ≤ k, cgA A b i ≠ 0 := by
    intro i hi h0
    have := ha i hi
    rw [h0, zero_mul] at this
    exact dot_self_ne (hr i hi) this.symm
  -- earlier residuals against the current conjugate direction
  have hrAp : ∀ i, i ≤ k → cgR A b i ⬝ᵥ A (cgP A b k) =
      if i = k then cgP A b k ⬝ᵥ A (cgP A b k) else 0 := by
    intro i hi
    cases i with
    | zero =>
      rw [← cgP_zero]
      split
      · rename_i h0; rw [h0]
      · exact h.conj 0 k hi (le_refl _) (by assumption)
    | succ i =>
      have e : cgR A b (i + 1) = cgP A b (i + 1) -
          ((cgR A b (i + 1) ⬝ᵥ cgR A b (i + 1)) / (cgR A b i ⬝ᵥ cgR A b i)) • cgP A b i := by
        rw [cgP_succ]; abel
      have e2 : cgR A b (i + 1) ⬝ᵥ A (cgP A b k) = cgP A b (i + 1) ⬝ᵥ A (cgP A b k) := by
        conv_lhs => rw [e]
        rw [sub_dotProduct, smul_dotProduct, h.conj i k (by omega) (le_refl _) (by omega)]
        simp
      rw [e2]
      split
      · rename_i h0; rw [h0]
      · exact h.conj (i + 1) k hi (le_refl _) (by assumption)
  have hold : ∀ i ≤ k, cgP A b i ⬝ᵥ cgR A b (k + 1) = 0 := by
    intro i hi
    rw [cgR_succ hl, dotProduct_sub, dotProduct_smul, smul_eq_mul]
    by_cases hik : i = k
    · subst hik
      rw [h.dir i hi, ha i hi, sub_self]
    · rw [h.conj i k hi (le_refl _) hik, h.old i k (by omega) (le_refl _)]
      ring
  have hres : ∀ i ≤ k, cgR A b i ⬝ᵥ cgR A b (k + 1) = 0 := by
    intro i hi
    rw [cgR_succ hl, dotProduct_sub, dotProduct_smul, smul_eq_mul, hrAp i hi]
    by_cases hik : i = k
    · subst hik
      rw [if_pos rfl, ha i hi, sub_self]
    · rw [if_neg hik, h.res i k hi (le_refl _) hik]
      ring
  have hconj : ∀ i ≤ k, cgP A b (k + 1) ⬝ᵥ A (cgP A b i) = 0 := by
    intro i hi
    have eA : cgA A b i • A (cgP A b i) = cgR A b i - cgR A b (i + 1) := by
      rw [cgR_succ hl]; abel
    have e1 : cgA A b i * (cgP A b (k + 1) ⬝ᵥ A (cgP A b i)) =
        cgP A b (k + 1) ⬝ᵥ (cgR A b i - cgR A b (i + 1)) := by
      rw [← eA, dotProduct_smul, smul_eq_mul]
    have key : cgA A b i * (cgP A b (k + 1) ⬝ᵥ A (cgP A b i)) = 0 := by
      by_cases hik : i = k
      · subst hik
        have hrr : cgR A b i ⬝ᵥ cgR A b i ≠ 0 := dot_self_ne (hr i hi)
        rw [e1, cgP_succ, add_dotProduct, smul_dotProduct, dotProduct_sub, dotProduct_sub, smul_eq_mul,
          h.dir i hi, hold i hi, dotProduct_comm (cgR A b (i + 1)) (cgR A b i), hres i hi]
        field_simp
        ring
      · rw [cgP_succ, add_dotProduct, smul_dotProduct, h.conj k i (le_refl _) hi (Ne.symm hik), smul_zero,
          add_zero]
        have : cgA A b i * (cgR A b (k + 1) ⬝ᵥ A (cgP A b i)) =
            cgR A b (k + 1) ⬝ᵥ (cgR A b i - cgR A b (i + 1)) := by
          rw [← eA, dotProduct_smul, smul_eq_mul]
        rw [this, dotProduct_sub, dotProduct_comm, hres i hi, dotProduct_comm, hres (i + 1) (by omega), sub_self]
    exact (mul_eq_zero.1 key).resolve_left (ha0 i hi)
  refine ⟨?_, ?_, ?_, ?_⟩
  · intro i j h1 h2 h3
    by_cases hi : i = k + 1
    · subst hi
      rw [dotProduct_comm]; exact hres j (by omega)
    · by_cases hj : j = k + 1
      · subst hj; exact hres i (by omega)
      · exact h.res i j (by omega) (by omega) h3
  · intro i j h1 h2 h3
    by_cases hi : i = k + 1
    · subst hi; exact hconj j (by omega)
    · by_cases hj : j = k + 1
      · subst hj
        rw [← hA.symm, dotProduct_comm]; exact hconj i (by omega)
      · exact h.conj i j (by omega) (by omega) h3
  · intro i h1
    by_cases hi : i = k + 1
    · subst hi
      conv_lhs => rw [cgP_succ]
      rw [add_dotProduct, smul_dotProduct, hold k (le_refl _), smul_zero, add_zero]
    · exact h.dir i (by omega)
  · intro i j h1 h2
    by_cases hj : j = k + 1
    · subst hj; exact hold i (by omega)
    · exact h.old i j h1 (by omega)

theorem orth_all (hA : SPD A) : ∀ k, (∀ i < k, cgR A b i ≠ 0) → Orth A b k
  | 0, _ => orth_zero
  | k + 1, h => orth_succ hA (orth_all hA k fun i hi => h i (by omega)) fun i hi => h i (by omega)

/-- Some residual among the first `n + 1` is zero. -/
theorem residual_vanishes (hA : SPD A) : ∃ k ≤ n, cgR A b k = 0 := by
  by_contra hc
  push Not at hc
  have ho := orth_all (b := b) hA n (fun i hi => hc i (by omega))
  have hli : LinearIndependent K (fun i : Fin (n + 1) => cgR A b i) := by
    rw [Fintype.linearIndependent_iff]
    intro c hsum j
    have h1 : (∑ i : Fin (n + 1), c i • cgR A b i) ⬝ᵥ cgR A b j = 0 := by rw [hsum, zero_dotProduct]
    rw [sum_dotProduct, Finset.sum_eq_single j] at h1
    · rw [smul_dotProduct, smul_eq_mul] at h1
      exact (mul_eq_zero.1 h1).resolve_right (dot_self_ne (hc j (by omega)))
    · intro i _ hij
      rw [smul_dotProduct, ho.res i j (by omega) (by omega) (fun e => hij (Fin.ext e)), smul_zero]
    · intro h; exact absurd (Finset.mem_univ _) h
  have := hli.fintype_card_le_finrank
  simp at this

theorem cgLoop_converges (hA : SPD A) {tol : K} (ht : 0 < tol) {K0 : Nat} (hK : cgR A b K0 = 0) :
    ∀ (m k : Nat), k ≤ K0 → (∀ i ≤ k, cgR A b i ≠ 0) →
    ∃ x, cgLoop A tol m (cgX A b k) (cgR A b k) (cgP A b k) = some x ∧
      (K0 ≤ k + m → normLt (b - A x) tol)
  | 0, k, hk, hne => by
    refine ⟨_, rfl, fun h => ?_⟩
    obtain rfl : k = K0 := by omega
    exact absurd hK (hne _ (le_refl _))
  | m + 1, k, hk, hne => by
    have ho := orth_all (b := b) hA k (fun i hi => hne i (by omega))
    have hp : cgP A b k ≠ 0 := ho.dir_ne (le_refl _) (hne k (le_refl _))
    have hd : A (cgP A b k) ⬝ᵥ cgP A b k ≠ 0 := (hA.pos _ hp).ne'
    have hx1 : cgX A b k + ((cgR A b k ⬝ᵥ cgR A b k) / (A (cgP A b k) ⬝ᵥ cgP A b k)) • cgP A b k =
        cgX A b (k + 1) := by
      rw [cgX_succ, cgA, dotProduct_comm (A (cgP A b k))]
    have hr1 : cgR A b k - ((cgR A b k ⬝ᵥ cgR A b k) / (A (cgP A b k) ⬝ᵥ cgP A b k)) • A (cgP A b k) =
        cgR A b (k + 1) := by
      rw [cgR_succ hA.linear, cgA, dotProduct_comm (A (cgP A b k))]
    rw [cgLoop, if_neg hd]
    simp only [hx1, hr1]
    by_cases hn : normLt (cgR A b (k + 1)) tol
    · rw [if_pos hn]
      exact ⟨_, rfl, fun _ => hn⟩
    have hr0 : cgR A b (k + 1) ≠ 0 := by
      intro h0
      apply hn
      rw [h0]
      exact ⟨ht, by rw [zero_dotProduct]; exact mul_pos ht ht⟩
    rw [if_neg hn, if_neg (dot_self_ne (hne k (le_refl _))), ← cgP_succ]
    have hk1 : k + 1 ≤ K0 := by
      rcases Nat.lt_or_ge k K0 with h | h
      · exact h
      · obtain rfl : k = K0 := by omega
        exact absurd hK (hne _ (le_refl _))
    obtain ⟨x, h1, h2⟩ := cgLoop_converges hA ht hK m (k + 1) hk1 (by
      intro i hi
      by_cases h : i = k + 1
      · subst h; exact hr0
      · exact hne i (by omega))
    exact ⟨x, h1, fun h => h2 (by omega)⟩

/-- **C62**: for every symmetric positive definite `A` and nonzero `b` the result is
finite, and with at least as many iterations as dimensions it solves the system to within
`tol`. -/
theorem C62_solves (hA : SPD A) (hb : b ≠ 0) (tol : K) (ht : 0 < tol) (maxIter : Nat) :
    ∃ x, conjugateGradient A b tol maxIter = some x ∧ (n ≤ maxIter → normLt (b - A x) tol) := by
  obtain ⟨k, hk, h0⟩ := residual_vanishes (b := b) hA
  have hr0 : cgR A b 0 ≠ 0 := by
    show b - A 0 ≠ 0
    rw [hA.linear.zero, sub_zero]; exact hb
  obtain ⟨x, h1, h2⟩ := cgLoop_converges hA ht h0 maxIter 0 (Nat.zero_le _) (by
    intro i hi
    obtain rfl : i = 0 := by omega
    exact hr0)
  exact ⟨x, h1, fun h => h2 (by omega)⟩

theorem normLt_zero {tol : K} (ht : 0 < tol) : normLt (0 : Fin n → K) tol := by
  refine ⟨ht, ?_⟩
  rw [zero_dotProduct]; exact mul_pos ht ht

theorem normLt_mono {v : Fin n → K} {s t : K} (h : normLt v s) (hst : s ≤ t) : normLt v t :=
  ⟨h.1.trans_le hst, h.2.trans_le (mul_le_mul hst hst h.1.le (h.1.le.trans hst))⟩

/-- **C62**: the exact solution after at most `n` iterations, unless an approximation within `tol` came before:
if `tol` is small enough the result is the exact solution. -/
theorem C62_exact (hA : SPD A) (hb : b ≠ 0) : ∃ tol₀ : K, 0 < tol₀ ∧ ∀ (tol : K), 0 < tol → tol ≤ tol₀ → ∀ maxIter, n ≤ maxIter →
    ∃ x, conjugateGradient A b tol maxIter = some x ∧ A x = b ∧ ∃ k ≤ n, x = cgX A b k := by
  classical
  obtain ⟨k, hk, h0, hmin⟩ : ∃ k ≤ n, cgR A b k = 0 ∧ ∀ i < k, cgR A b i ≠ 0 := by
    have hex : ∃ k, cgR A b k = 0 := by
      obtain ⟨k, -, h⟩ := residual_vanishes (b := b) hA
      exact ⟨k, h⟩
    obtain ⟨k, hk, h⟩ := residual_vanishes (b := b) hA
    exact ⟨Nat.find hex, (Nat.find_min' hex h).trans hk, Nat.find_spec hex, fun i hi => Nat.find_min hex hi⟩
  have hpos : 0 < k := by
    rcases Nat.eq_zero_or_pos k with rfl | h
    · exfalso
      apply hb
      have : b - A 0 = 0 := h0
      rwa [hA.linear.zero, sub_zero] at this
    · exact h
  obtain ⟨t, ht, hsmall⟩ : ∃ t : K, 0 < t ∧ ∀ i < k, ¬ normLt (cgR A b i) t := by
    clear hk h0 hpos
    induction k with
    | zero => exact ⟨1, one_pos, by simp⟩
    | succ k ih =>
      obtain ⟨t, ht, h⟩ := ih fun i hi => hmin i (by omega)
      have hd := dot_self_pos (hmin k (by omega))
      refine ⟨min t (min 1 (cgR A b k ⬝ᵥ cgR A b k)), lt_min ht (lt_min one_pos hd), fun i hi hlt => ?_⟩
      have hm0 : 0 < min t (min 1 (cgR A b k ⬝ᵥ cgR A b k)) := lt_min ht (lt_min one_pos hd)
      rcases Nat.lt_succ_iff_lt_or_eq.1 hi with hi | rfl
      · apply h i hi
        exact normLt_mono hlt (min_le_left _ _)
      · have h1 : min t (min 1 (cgR A b i ⬝ᵥ cgR A b i)) ≤ 1 := (min_le_right _ _).trans (min_le_left _ _)
        have h2 : min t (min 1 (cgR A b i ⬝ᵥ cgR A b i)) ≤ cgR A b i ⬝ᵥ cgR A b i := (min_le_right _ _).trans (min_le_right _ _)
        have h3 := hlt.2
        nlinarith
  refine ⟨t, ht, fun tol h1 h2 maxIter hm => ?_⟩
  obtain ⟨x, hx, hn⟩ := C62_solves hA hb tol h1 maxIter
  obtain ⟨j, hj, rfl, hjl, hjn⟩ := C62_sequence hA.linear tol maxIter x hx
  have hlt := hn hm
  have hmono : ∀ i < k, ¬ normLt (cgR A b i) tol := by
    intro i hi hl
    exact hsmall i hi (normLt_mono hl h2)
  have hjk : j = k := by
    rcases lt_trichotomy j k with h | h | h
    · exact absurd hlt (hmono j h)
    · exact h
    · refine absurd ?_ (hjn k hpos h)
      have : b - A (cgX A b k) = 0 := h0
      rw [this]; exact normLt_zero h1
  subst hjk
  exact ⟨_, hx, (sub_eq_zero.1 h0).symm, j, hk, rfl⟩

/-- **C62**: for `b = 0` the result is not a number although `x = 0` solves the system. -/
theorem C62_violated_zero (h : Linear A) (tol : K) (maxIter : Nat) :
    conjugateGradient A 0 tol (maxIter + 1) = none := by
  rw [conjugateGradient, h.zero, sub_zero, cgLoop, h.zero, zero_dotProduct, if_pos rfl]

/-- A positive definite operator on the plane. -/
def exampleA (v : Fin 2 → ℚ) : Fin 2 → ℚ := ![2 * v 0 + v 1, v 0 + 3 * v 1]

theorem exampleA_spd : SPD exampleA where
  add u v := by funext i; fin_cases i <;> simp [exampleA] <;> ring
  smul c u := by funext i; fin_cases i <;> simp [exampleA] <;> ring
  symm u v := by simp [exampleA, dotProduct]; ring
  pos u hu := by
    have h : exampleA u ⬝ᵥ u = (u 0 + u 1) ^ 2 + u 0 ^ 2 + 2 * u 1 ^ 2 := by
      simp [exampleA, dotProduct]; ring
    rw [h]
    obtain ⟨i, hi⟩ := Function.ne_iff.1 hu
    fin_cases i
    · have : 0 < u 0 ^ 2 := by simpa [sq_pos_iff] using hi
      nlinarith [sq_nonneg (u 0 + u 1), sq_nonneg (u 1)]
    · have : 0 < u 1 ^ 2 := by simpa [sq_pos_iff] using hi
      nlinarith [sq_nonneg (u 0 + u 1), sq_nonneg (u 0)]

example : ∃ x, conjugateGradient exampleA ![1, 2] (1 / 100) 2 = some x ∧
    normLt (![1, 2] - exampleA x) (1 / 100) := by
  obtain ⟨x, h1, h2⟩ := C62_solves exampleA_spd (b := ![1, 2]) (by
    intro h; have := congrFun h 0; simp at this) (1 / 100) (by norm_num) 2
  exact ⟨x, h1, h2 (le_refl _)⟩

example : conjugateGradient exampleA ![1, 2] (1 / 100) 2 = some ![1 / 5, 3 / 5] := by
  decide +kernel

end Verif.TRPO
