import Mathlib.Probability.Distributions.Gaussian.Real
import Mathlib.MeasureTheory.Integral.Pi
import Mathlib.MeasureTheory.Integral.Gamma
import Mathlib.MeasureTheory.Measure.Lebesgue.Integral
import Mathlib.Tactic.Ring
import Mathlib.Tactic.FieldSimp
import Mathlib.Tactic.Linarith
import Verif.Model.NoisyLinear

/-!
C99: the noise of factorized noisy layers.
-/

set_option autoImplicit false
set_option linter.unusedSectionVars false

namespace Verif.NoisyLinear
open MeasureTheory ProbabilityTheory Real

variable {n o : Nat}

/-! ## The noise function -/

theorem noiseFn_sq (r : ℝ) : noiseFn r ^ 2 = |r| := by
  unfold noiseFn
  split <;> simp [sq_sqrt (abs_nonneg r)]

theorem noiseFn_neg (r : ℝ) : noiseFn (-r) = -noiseFn r := by
  unfold noiseFn
  rcases lt_trichotomy r 0 with h | h | h
  · rw [if_neg (by linarith), if_pos h, abs_neg, neg_neg]
  · subst h; simp
  · rw [if_pos (by linarith), if_neg (by linarith), abs_neg]

theorem measurable_noiseFn : Measurable noiseFn := by
  unfold noiseFn
  exact Measurable.ite measurableSet_Iio (by fun_prop) (by fun_prop)

theorem abs_noiseFn (r : ℝ) : |noiseFn r| = √|r| := by
  unfold noiseFn
  split
  · rw [abs_neg, abs_of_nonneg (sqrt_nonneg _)]
  · rw [abs_of_nonneg (sqrt_nonneg _)]

theorem abs_noiseFn_le (r : ℝ) : |noiseFn r| ≤ 1 + |r| := by
  rw [abs_noiseFn, sqrt_le_left (by positivity)]
  nlinarith [abs_nonneg r]

/-- The standard normal law. -/
noncomputable abbrev γ : Measure ℝ := gaussianReal 0 1

theorem integrable_noiseFn_pow (k : Nat) : Integrable (fun r => noiseFn r ^ k) γ := by
  have h1 : MemLp (fun r : ℝ => 1 + |r|) k γ := by
    have h : MemLp (id : ℝ → ℝ) ((k : NNReal) : ENNReal) γ := memLp_id_gaussianReal (k : NNReal)
    have h' : MemLp (fun r : ℝ => |r|) (k : ENNReal) γ := by simpa using h.norm
    exact (memLp_const (1 : ℝ)).add h'
  have h2 : Integrable (fun r : ℝ => ‖(1 + |r| : ℝ)‖ ^ k) γ := h1.integrable_norm_pow'
  refine h2.mono' (by exact (measurable_noiseFn.pow_const k).aestronglyMeasurable) (.of_forall fun r => ?_)
  rw [norm_pow]
  refine pow_le_pow_left₀ (norm_nonneg _) ?_ k
  rw [Real.norm_eq_abs, Real.norm_eq_abs, abs_of_nonneg (by positivity : (0:ℝ) ≤ 1 + |r|)]
  exact abs_noiseFn_le r

/-- The moments of the noise function. -/
noncomputable def moment (k : Nat) : ℝ := ∫ r, noiseFn r ^ k ∂γ

theorem moment_zero : moment 0 = 1 := by simp [moment]

theorem moment_one : moment 1 = 0 := by
  have h : (∫ r, noiseFn r ∂γ) = ∫ r, noiseFn (-r) ∂γ := by
    have h2 : γ.map (fun x => -x) = γ := by simp [γ, gaussianReal_map_neg]
    conv_lhs => rw [← h2]
    exact integral_map (by fun_prop) measurable_noiseFn.aestronglyMeasurable
  simp only [noiseFn_neg, integral_neg] at h
  simp only [moment, pow_one]
  linarith

theorem integral_abs_gaussian : ∫ r, |r| ∂γ = √(2 / π) := by
  rw [integral_gaussianReal_eq_integral_smul (by norm_num)]
  have e : (fun x : ℝ => gaussianPDFReal 0 1 x • |x|) =
      fun x => (√(2 * π))⁻¹ * ((fun y => y ^ (1:ℝ) * exp (-(1/2) * y ^ (2:ℝ))) |x|) := by
    funext x
    simp only [gaussianPDFReal, NNReal.coe_one, mul_one, sub_zero, smul_eq_mul, rpow_one, rpow_two, sq_abs]
    rw [show -x ^ 2 / 2 = -(1/2) * x ^ 2 by ring]
    ring
  rw [e, integral_const_mul, integral_comp_abs (f := fun y => y ^ (1:ℝ) * exp (-(1/2) * y ^ (2:ℝ))),
    integral_rpow_mul_exp_neg_mul_rpow (by norm_num) (by norm_num) (by norm_num)]
  have h1 : ((1:ℝ) + 1) / 2 = 1 := by norm_num
  rw [show (-((1:ℝ) + 1) / 2) = -1 by norm_num, h1, Gamma_one, rpow_neg_one]
  rw [sqrt_div (by norm_num), sqrt_mul (by norm_num)]
  have h2 : √(2:ℝ) ≠ 0 := by positivity
  have h3 : √π ≠ 0 := by have := pi_pos; positivity
  field_simp
  rw [sq_sqrt (by norm_num)]

theorem moment_two : moment 2 = √(2 / π) := by
  rw [← integral_abs_gaussian]
  simp only [moment, noiseFn_sq]

/-! ## Monomials of independent draws -/

/-- Independent standard normal draws. -/
noncomputable abbrev draws (N : Nat) : Measure (Fin N → ℝ) := Measure.pi fun _ => γ

theorem monomial_eq {N : Nat} (l : List (Fin N)) (z : Fin N → ℝ) :
    (l.map fun a => noiseFn (z a)).prod = ∏ a, noiseFn (z a) ^ l.count a := by
  rw [Finset.prod_list_map_count]
  refine Finset.prod_subset (Finset.subset_univ _) fun a _ ha => ?_
  rw [List.mem_toFinset] at ha
  rw [List.count_eq_zero_of_not_mem ha, pow_zero]

theorem integrable_monomial {N : Nat} (l : List (Fin N)) :
    Integrable (fun z => (l.map fun a => noiseFn (z a)).prod) (draws N) := by
  simp only [monomial_eq]
  exact Integrable.fintype_prod (f := fun a r => noiseFn r ^ l.count a) fun a => integrable_noiseFn_pow _

theorem integral_monomial {N : Nat} (l : List (Fin N)) :
    ∫ z, (l.map fun a => noiseFn (z a)).prod ∂(draws N) = ∏ a, moment (l.count a) := by
  simp only [monomial_eq]
  exact integral_fintype_prod_eq_prod (fun a r => noiseFn r ^ l.count a)

theorem integral_monomial_zero {N : Nat} (l : List (Fin N)) (a : Fin N) (h : l.count a = 1) :
    ∫ z, (l.map fun a => noiseFn (z a)).prod ∂(draws N) = 0 := by
  rw [integral_monomial]
  exact Finset.prod_eq_zero (Finset.mem_univ a) (by rw [h, moment_one])

theorem integral_monomial_sq {N : Nat} (a : Fin N) :
    ∫ z, ([a, a].map fun a => noiseFn (z a)).prod ∂(draws N) = √(2 / π) := by
  rw [integral_monomial, Finset.prod_eq_single a]
  · simp [moment_two]
  · intro b _ hb
    rw [List.count_eq_zero_of_not_mem (by simpa using hb), moment_zero]
  · simp

theorem integral_monomial_sq_sq {N : Nat} (a b : Fin N) (h : a ≠ b) :
    ∫ z, ([a, a, b, b].map fun a => noiseFn (z a)).prod ∂(draws N) = 2 / π := by
  have hpi := pi_pos
  rw [integral_monomial, Finset.prod_eq_mul a b h]
  · have h1 : [a, a, b, b].count a = 2 := by simp [h.symm]
    have h2 : [a, a, b, b].count b = 2 := by simp [h]
    rw [h1, h2, moment_two, mul_self_sqrt (by positivity)]
  · intro c _ hc
    rw [List.count_eq_zero_of_not_mem (by simp [hc.1, hc.2]), moment_zero]
  · simp
  · simp

/-! ## The noise of an output as a polynomial -/

/-- The coefficients of the noise of output `j` for a row `x`. -/
noncomputable def coeff (p : Params n o) (j : Fin o) (x : Fin n → ℝ) : Option (Fin n) → ℝ
  | some i => p.sigmaW j i * x i
  | none => if p.nobias then 0 else p.sigmab j

/-- The draws of each term. -/
def term (j : Fin o) : Option (Fin n) → List (Fin (n + o))
  | some i => [Fin.natAdd n j, Fin.castAdd o i]
  | none => [Fin.natAdd n j]

/-- The mean network. -/
noncomputable def mean (p : Params n o) (j : Fin o) (x : Fin n → ℝ) : ℝ :=
  ∑ i, p.muW j i * x i + if p.nobias then 0 else p.mub j

/-- A monomial of the draws. -/
noncomputable def mono (z : Fin (n + o) → ℝ) (l : List (Fin (n + o))) : ℝ := (l.map fun a => noiseFn (z a)).prod

theorem mono_append (z : Fin (n + o) → ℝ) (l l' : List (Fin (n + o))) : mono z (l ++ l') = mono z l * mono z l' := by
  simp [mono]

theorem call_eq {m : Nat} (p : Params n o) (z : Fin (n + o) → ℝ) (x : Fin m → Fin n → ℝ) (k : Fin m) (j : Fin o) :
    call p z x k j = mean p j (x k) + ∑ a, coeff p j (x k) a * mono z (term j a) := by
  rw [Fintype.sum_option]
  simp only [call, weight, bias, mean, coeff, term, mono, epsX, epsY, List.map_cons, List.map_nil, List.prod_cons,
    List.prod_nil, mul_one, add_mul, Finset.sum_add_distrib]
  have e : ∀ i, p.sigmaW j i * (noiseFn (z (Fin.natAdd n j)) * noiseFn (z (Fin.castAdd o i))) * x k i =
      p.sigmaW j i * x k i * (noiseFn (z (Fin.natAdd n j)) * noiseFn (z (Fin.castAdd o i))) := fun i => by ring
  simp only [e]
  cases p.nobias <;> simp <;> ring

theorem count_append_of_ne (j j' : Fin o) (h : j ≠ j') (a a' : Option (Fin n)) :
    (term j a ++ term j' a').count (Fin.natAdd n j) = 1 := by
  have h1 : Fin.natAdd n j' ≠ Fin.natAdd n j := fun e => h (Fin.natAdd_injective _ _ e).symm
  have h2 : ∀ i : Fin n, Fin.castAdd o i ≠ Fin.natAdd n j := fun i e => by
    have := congrArg Fin.val e; simp at this; omega
  cases a <;> cases a' <;> simp [term, h1, h2]

theorem integral_term (j : Fin o) (a : Option (Fin n)) : ∫ z, mono z (term j a) ∂(draws (n + o)) = 0 := by
  refine integral_monomial_zero _ (Fin.natAdd n j) ?_
  have h2 : ∀ i : Fin n, Fin.castAdd o i ≠ Fin.natAdd n j := fun i e => by
    have := congrArg Fin.val e; simp at this; omega
  cases a <;> simp [term, h2]

/-- The second moment of a pair of terms of one output. -/
noncomputable def second : Option (Fin n) → ℝ
  | some _ => 2 / π
  | none => √(2 / π)

theorem integral_mono_perm (l l' : List (Fin (n + o))) (h : l.Perm l') :
    ∫ z, mono z l ∂(draws (n + o)) = ∫ z, mono z l' ∂(draws (n + o)) := by
  simp only [mono]
  refine integral_congr_ae (.of_forall fun z => ?_)
  exact (h.map _).prod_eq

theorem integral_term_term (j : Fin o) (a a' : Option (Fin n)) :
    ∫ z, mono z (term j a ++ term j a') ∂(draws (n + o)) = if a = a' then second a else 0 := by
  have h2 : ∀ i : Fin n, Fin.castAdd o i ≠ Fin.natAdd n j := fun i e => by
    have := congrArg Fin.val e; simp at this; omega
  have h3 : ∀ i : Fin n, Fin.natAdd n j ≠ Fin.castAdd o i := fun i e => h2 i e.symm
  split
  · rename_i h
    subst h
    cases a with
    | none => exact integral_monomial_sq _
    | some i =>
      refine Eq.trans ?_ (integral_monomial_sq_sq _ _ (h3 i))
      refine integral_mono_perm _ [Fin.natAdd n j, Fin.natAdd n j, Fin.castAdd o i, Fin.castAdd o i] ?_
      simp only [term, List.cons_append, List.nil_append]
      exact List.Perm.cons _ (List.Perm.swap _ _ _)
  · rename_i h
    cases a with
    | none =>
      cases a' with
      | none => exact absurd rfl h
      | some i =>
        refine integral_monomial_zero _ (Fin.castAdd o i) ?_
        simp [term, h3]
    | some i =>
      refine integral_monomial_zero _ (Fin.castAdd o i) ?_
      cases a' with
      | none => simp [term, h3]
      | some i' =>
        have h4 : Fin.castAdd o i' ≠ Fin.castAdd o i := fun e => h (by
          rw [Fin.castAdd_injective _ _ e])
        simp [term, h3, h4]

theorem integrable_mono (l : List (Fin (n + o))) : Integrable (fun z => mono z l) (draws (n + o)) :=
  integrable_monomial l

theorem integral_noise (c : Option (Fin n) → ℝ) (j : Fin o) :
    ∫ z, ∑ a, c a * mono z (term j a) ∂(draws (n + o)) = 0 := by
  rw [integral_finsetSum _ fun a _ => (integrable_mono _).const_mul _]
  simp [integral_const_mul, integral_term]

theorem integral_noise_noise (c c' : Option (Fin n) → ℝ) (j j' : Fin o) :
    ∫ z, (∑ a, c a * mono z (term j a)) * (∑ a, c' a * mono z (term j' a)) ∂(draws (n + o)) =
      if j = j' then ∑ a, c a * c' a * second a else 0 := by
  have e : ∀ z : Fin (n + o) → ℝ, (∑ a, c a * mono z (term j a)) * (∑ a, c' a * mono z (term j' a)) =
      ∑ a, ∑ a', c a * c' a' * mono z (term j a ++ term j' a') := fun z => by
    rw [Finset.sum_mul_sum]
    refine Finset.sum_congr rfl fun a _ => Finset.sum_congr rfl fun a' _ => ?_
    rw [mono_append]; ring
  simp only [e]
  rw [integral_finsetSum _ fun a _ => integrable_finsetSum _ fun a' _ => (integrable_mono _).const_mul _]
  have e2 : ∀ a, ∫ z, ∑ a', c a * c' a' * mono z (term j a ++ term j' a') ∂(draws (n + o)) =
      ∑ a', c a * c' a' * ∫ z, mono z (term j a ++ term j' a') ∂(draws (n + o)) := fun a => by
    rw [integral_finsetSum _ fun a' _ => (integrable_mono _).const_mul _]
    simp only [integral_const_mul]
  simp only [e2]
  split
  · rename_i h
    subst h
    simp [integral_term_term]
  · rename_i h
    have : ∀ a a' : Option (Fin n), ∫ z, mono z (term j a ++ term j' a') ∂(draws (n + o)) = 0 := fun a a' =>
      integral_monomial_zero _ _ (count_append_of_ne j j' h a a')
    simp [this]

/-! ## C99 -/

/-- The noise function keeps the sign and takes the root of the magnitude. -/
theorem C99_noise_function (r : ℝ) :
    |noiseFn r| = √|r| ∧ (0 < r → 0 < noiseFn r) ∧ (r < 0 → noiseFn r < 0) := by
  refine ⟨abs_noiseFn r, fun h => ?_, fun h => ?_⟩
  · rw [noiseFn, if_neg (by linarith)]
    exact sqrt_pos.mpr (abs_pos.mpr h.ne')
  · rw [noiseFn, if_pos h]
    exact neg_neg_of_pos (sqrt_pos.mpr (abs_pos.mpr h.ne))

/-- On average over the draws a call computes the mean network, whatever the noise scales. -/
theorem C99_mean {m : Nat} (p : Params n o) (x : Fin m → Fin n → ℝ) (k : Fin m) (j : Fin o) :
    ∫ z, call p z x k j ∂(Measure.pi fun _ : Fin (n + o) => gaussianReal 0 1) =
      ∑ i, p.muW j i * x k i + (if p.nobias then 0 else p.mub j) := by
  simp only [call_eq]
  rw [integral_add (integrable_const _)
    (integrable_finsetSum _ fun a _ => (integrable_mono _).const_mul _)]
  rw [integral_noise]
  simp [mean]

/-- The covariance of two outputs of a call.  Different units are uncorrelated; the rows of a batch share their noise,
so that the outputs of a unit for two rows are correlated; for one row it is the variance. -/
theorem C99_covariance {m : Nat} (p : Params n o) (x : Fin m → Fin n → ℝ) (k k' : Fin m) (j j' : Fin o) :
    let law : Measure (Fin (n + o) → ℝ) := Measure.pi fun _ => gaussianReal 0 1
    ∫ z, (call p z x k j - ∫ z', call p z' x k j ∂law) * (call p z x k' j' - ∫ z', call p z' x k' j' ∂law) ∂law =
      if j = j' then
        2 / π * ∑ i, p.sigmaW j i ^ 2 * (x k i * x k' i) + √(2 / π) * (if p.nobias then 0 else p.sigmab j ^ 2)
      else 0 := by
  intro law
  have e : ∀ (z : Fin (n + o) → ℝ) (k : Fin m) (j : Fin o), call p z x k j - ∫ z', call p z' x k j ∂law =
      ∑ a, coeff p j (x k) a * mono z (term j a) := fun z k j => by
    rw [show (∫ z', call p z' x k j ∂law) = mean p j (x k) from C99_mean p x k j, call_eq]
    ring
  simp only [e]
  refine (integral_noise_noise _ _ j j').trans ?_
  by_cases h : j = j'
  · subst h
    rw [if_pos rfl, if_pos rfl, Fintype.sum_option]
    simp only [coeff, second, Finset.mul_sum]
    rw [add_comm]
    congr 1
    · exact Finset.sum_congr rfl fun i _ => by ring
    · cases p.nobias <;> simp <;> ring
  · rw [if_neg h, if_neg h]

/-- With noise scales 0 every call computes the mean network. -/
theorem C99_no_noise {m : Nat} (p : Params n o) (x : Fin m → Fin n → ℝ) (h : ∀ j i, p.sigmaW j i = 0)
    (hb : ∀ j, p.sigmab j = 0) (z : Fin (n + o) → ℝ) (k : Fin m) (j : Fin o) :
    call p z x k j = ∑ i, p.muW j i * x k i + (if p.nobias then 0 else p.mub j) := by
  simp [call, weight, bias, h, hb]

/-- A call uses one noise per input and one per output for all weights and all rows: the noise of a weight is the
product of its input's and its output's, that of a bias is its output's. -/
theorem C99_factorized (p : Params n o) (z : Fin (n + o) → ℝ) :
    ∃ (ex : Fin n → ℝ) (ey : Fin o → ℝ), (∀ i, ex i * |ex i| = z (Fin.castAdd o i)) ∧
      (∀ j, ey j * |ey j| = z (Fin.natAdd n j)) ∧
      ∀ (m : Nat) (x : Fin m → Fin n → ℝ) (k : Fin m) (j : Fin o),
        call p z x k j = ∑ i, (p.muW j i + p.sigmaW j i * (ex i * ey j)) * x k i +
          (if p.nobias then 0 else p.mub j + p.sigmab j * ey j) := by
  have h : ∀ r, noiseFn r * |noiseFn r| = r := fun r => by
    rw [abs_noiseFn, noiseFn]
    split
    · rename_i h
      rw [neg_mul, mul_self_sqrt (abs_nonneg r), abs_of_neg h, neg_neg]
    · rename_i h
      rw [mul_self_sqrt (abs_nonneg r), abs_of_nonneg (not_lt.mp h)]
  refine ⟨epsX z, epsY z, fun i => h _, fun j => h _, fun m x k j => ?_⟩
  simp only [call, weight, bias]
  congr 1
  · exact Finset.sum_congr rfl fun i _ => by ring
  · split
    · rfl
    · ring

/-- The initial scales: the weights' is `sigma_0 / √in_size`, the bias's `sigma_0 / √out_size`. -/
theorem C99_initial_scales (scale : ℝ) (inSize outSize : Nat) :
    initialScales scale inSize outSize = .ok (scale / √inSize, scale / √outSize) := by
  have h : varianceScaling scale [outSize, inSize] = .ok (scale / √inSize) := by simp [varianceScaling]
  have h' : varianceScaling scale [outSize] = .ok (scale / √outSize) := rfl
  show (do
    let w ← varianceScaling scale [outSize, inSize]
    let b ← varianceScaling scale [outSize]
    pure (w, b)) = _
  rw [h, h']
  rfl

/-- A unit of two inputs and a bias, all of noise scale 1: at `(1, 2)` its variance is `10/π + √(2/π)`, and its
covariance with its output at `(2, -1)` is only the bias's. -/
example : let p : Params 2 1 := ⟨false, fun _ _ => 3, fun _ _ => 1, fun _ => 5, fun _ => 1⟩
    let x : Fin 2 → Fin 2 → ℝ := ![![1, 2], ![2, -1]]
    let law : Measure (Fin (2 + 1) → ℝ) := Measure.pi fun _ => gaussianReal 0 1
    (∫ z, call p z x 0 0 ∂law = 14) ∧
    (∫ z, (call p z x 0 0 - ∫ z', call p z' x 0 0 ∂law) * (call p z x 0 0 - ∫ z', call p z' x 0 0 ∂law) ∂law =
      10 / π + √(2 / π)) ∧
    ∫ z, (call p z x 0 0 - ∫ z', call p z' x 0 0 ∂law) * (call p z x 1 0 - ∫ z', call p z' x 1 0 ∂law) ∂law =
      √(2 / π) := by
  intro p x law
  refine ⟨(C99_mean p x 0 0).trans ?_, (C99_covariance p x 0 0 0 0).trans ?_, (C99_covariance p x 0 1 0 0).trans ?_⟩
  · simp [p, x, Fin.sum_univ_two]; norm_num
  · simp [p, x, Fin.sum_univ_two]; ring
  · simp [p, x, Fin.sum_univ_two]

end Verif.NoisyLinear
