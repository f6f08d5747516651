import Mathlib.Analysis.Calculus.Deriv.Mul
import Mathlib.Analysis.Calculus.Deriv.Add
import Mathlib.Algebra.BigOperators.Group.List.Basic
import Mathlib.Tactic.Positivity
import Verif.Model.TRPOStep
import Verif.Props.CG

/-!
C89: the step of TRPO.

`C89_step`: the step is scaled to the KL constraint and ascends the gain.  `C89_natural`: its direction is the natural
gradient.  `C89_gain`, `C89_gain_gradient`: the gain and its gradient.  `C89_violated_zero`: a
vanishing gradient gives NaN.
-/

set_option autoImplicit false
set_option linter.unusedSectionVars false

namespace Verif.TRPO

section
variable {K : Type} [Field K] [LinearOrder K] [IsStrictOrderedRing K] {n : Nat}
variable {A : (Fin n → K) → (Fin n → K)} {b : Fin n → K}

theorem cgLoop_index (hA : SPD A) {tol : K} (ht : 0 < tol) :
    ∀ (m k : Nat), (∀ i ≤ k, cgR A b i ≠ 0) →
    ∃ j, cgLoop A tol m (cgX A b k) (cgR A b k) (cgP A b k) = some (cgX A b j) ∧ k ≤ j ∧ (0 < m → k < j) ∧
      ∀ i < j, cgR A b i ≠ 0
  | 0, k, hne => ⟨k, rfl, le_refl _, fun h => absurd h (by omega), fun i hi => hne i (by omega)⟩
  | m + 1, k, hne => by
    have ho := orth_all (b := b) hA k (fun i hi => hne i (by omega))
    have hp : cgP A b k ≠ 0 := ho.dir_ne (le_refl _) (hne k (le_refl _))
    have hd : A (cgP A b k) ⬝ᵥ cgP A b k ≠ 0 := (hA.pos _ hp).ne'
    have hx1 : cgX A b k + ((cgR A b k ⬝ᵥ cgR A b k) / (A (cgP A b k) ⬝ᵥ cgP A b k)) • cgP A b k =
        cgX A b (k + 1) := by
      rw [cgX_succ, cgA, dotProduct_comm (A (cgP A b k))]
    have hr1 : cgR A b k - ((cgR A b k ⬝ᵥ cgR A b k) / (A (cgP A b k) ⬝ᵥ cgP A b k)) • A (cgP A b k) =
        cgR A b (k + 1) := by
      rw [cgR_succ hA.linear, cgA, dotProduct_comm (A (cgP A b k))]
    rw [cgLoop, if_neg hd]
    simp only [hx1, hr1]
    by_cases hn : normLt (cgR A b (k + 1)) tol
    · rw [if_pos hn]
      exact ⟨k + 1, rfl, by omega, fun _ => by omega, fun i hi => hne i (by omega)⟩
    have hr0 : cgR A b (k + 1) ≠ 0 := by
      intro h0
      apply hn
      rw [h0]
      exact ⟨ht, by rw [zero_dotProduct]; exact mul_pos ht ht⟩
    rw [if_neg hn, if_neg (dot_self_ne (hne k (le_refl _))), ← cgP_succ]
    obtain ⟨j, h1, h2, h3, h4⟩ := cgLoop_index hA ht m (k + 1) (by
      intro i hi
      by_cases h : i = k + 1
      · subst h; exact hr0
      · exact hne i (by omega))
    exact ⟨j, h1, by omega, fun _ => by omega, h4⟩

/-- An iterate is orthogonal to every vector that is orthogonal to the directions before it. -/
theorem cgX_dot (v : Fin n → K) : ∀ k, (∀ i < k, cgP A b i ⬝ᵥ v = 0) → cgX A b k ⬝ᵥ v = 0
  | 0, _ => by
    show (0 : Fin n → K) ⬝ᵥ v = 0
    exact zero_dotProduct v
  | k + 1, h => by
    rw [cgX_succ, add_dotProduct, smul_dotProduct, cgX_dot v k (fun i hi => h i (by omega)), h k (by omega)]
    simp

/-- The result of conjugate gradient makes an acute angle with `b`. -/
theorem cg_ascends (hA : SPD A) (hb : b ≠ 0) {tol : K} (ht : 0 < tol) (m : Nat) :
    ∃ x, conjugateGradient A b tol (m + 1) = some x ∧ x ⬝ᵥ b = x ⬝ᵥ A x ∧ 0 < x ⬝ᵥ A x := by
  have hr0 : cgR A b 0 = b := by
    show b - A 0 = b
    rw [hA.linear.zero, sub_zero]
  obtain ⟨j, h1, -, h3, h4⟩ := cgLoop_index (b := b) hA ht (m + 1) 0 (by
    intro i hi
    obtain rfl : i = 0 := by omega
    rw [hr0]; exact hb)
  have hj := h3 (by omega)
  have ho := orth_all (b := b) hA j h4
  have hx : cgX A b j ⬝ᵥ cgR A b j = 0 := cgX_dot _ j (fun i hi => ho.old i j hi (le_refl _))
  have hdot : cgX A b j ⬝ᵥ b = cgX A b j ⬝ᵥ A (cgX A b j) := by
    have : cgX A b j ⬝ᵥ (b - A (cgX A b j)) = 0 := hx
    rw [dotProduct_sub] at this
    exact sub_eq_zero.1 this
  refine ⟨cgX A b j, h1, hdot, ?_⟩
  rw [dotProduct_comm]
  refine hA.pos _ (fun h0 => ?_)
  have h5 := ho.old 0 j hj (le_refl _)
  have h6 : cgR A b j = b := by
    show b - A (cgX A b j) = b
    rw [h0, hA.linear.zero, sub_zero]
  rw [h6, cgP_zero, hr0] at h5
  exact dot_self_ne hb h5

end

variable {n : Nat}

/-- A linear, symmetric, positive semidefinite operator, such as the Hessian at the old policy of the KL
divergence from it. -/
structure PSD (F : (Fin n → ℝ) → Fin n → ℝ) : Prop where
  add : ∀ u v, F (u + v) = F u + F v
  smul : ∀ (c : ℝ) u, F (c • u) = c • F u
  symm : ∀ u v, F u ⬝ᵥ v = u ⬝ᵥ F v
  nonneg : ∀ u, 0 ≤ u ⬝ᵥ F u

/-- The second-order approximation of the KL divergence after the step `s`. -/
noncomputable def quadraticKl (F : (Fin n → ℝ) → Fin n → ℝ) (s : Fin n → ℝ) : ℝ := 1 / 2 * (s ⬝ᵥ F s)

theorem damped_spd {F : (Fin n → ℝ) → Fin n → ℝ} (hF : PSD F) {damping : ℝ} (hd : 0 < damping) :
    SPD (fisherVectorProduct F damping) where
  add u v := by simp only [fisherVectorProduct, hF.add, smul_add]; abel
  smul c u := by
    simp only [fisherVectorProduct, hF.smul, smul_add]
    rw [smul_comm]
  symm u v := by
    simp only [fisherVectorProduct, add_dotProduct, dotProduct_add, smul_dotProduct, dotProduct_smul, hF.symm]
  pos u hu := by
    simp only [fisherVectorProduct, add_dotProduct, smul_dotProduct, hF.symm, smul_eq_mul]
    have := mul_pos hd (dot_self_pos hu)
    linarith [hF.nonneg u]

/-- **C89.** For a nonzero gradient of the gain the step is a vector of real numbers.  The
damped second-order approximation of the KL divergence after the step is below `max_kl`, and equal to
it up to the relative error `1e-8 / (dId + 1e-8)`; without damping it is below `max_kl` too.
To first order the step increases the gain. -/
theorem C89_step {F : (Fin n → ℝ) → Fin n → ℝ} (hF : PSD F) {damping maxKl : ℝ} (hd : 0 < damping) (hk : 0 < maxKl)
    (maxIter : Nat) (hm : 0 < maxIter) {g : Fin n → ℝ} (hg : g ≠ 0) :
    ∃ s, klStep F damping maxKl maxIter g = some s ∧
      quadraticKl F s < maxKl ∧
      (∃ dId : ℝ, 0 < dId ∧ quadraticKl F s + damping / 2 * (s ⬝ᵥ s) = maxKl * (dId / (dId + 1 / 10 ^ 8))) ∧
      0 < g ⬝ᵥ s := by
  obtain ⟨m, rfl⟩ : ∃ m, maxIter = m + 1 := ⟨maxIter - 1, by omega⟩
  obtain ⟨x, h1, h2, h3⟩ := cg_ascends (damped_spd hF hd) hg (tol := 1 / 10 ^ 10) (by positivity) m
  set d := x ⬝ᵥ fisherVectorProduct F damping x with hdef
  have hpos : 0 < d + 1 / 10 ^ 8 := by positivity
  have hq : 0 < 2 * maxKl / (d + 1 / 10 ^ 8) := by positivity
  set c := Real.sqrt (2 * maxKl / (d + 1 / 10 ^ 8)) with hc
  have hc0 : 0 < c := Real.sqrt_pos.2 hq
  have hcc : c * c = 2 * maxKl / (d + 1 / 10 ^ 8) := Real.mul_self_sqrt hq.le
  have hFc : quadraticKl F (c • x) + damping / 2 * ((c • x) ⬝ᵥ (c • x)) = maxKl * (d / (d + 1 / 10 ^ 8)) := by
    have e : d = x ⬝ᵥ F x + damping * (x ⬝ᵥ x) := by
      rw [hdef]; simp only [fisherVectorProduct, dotProduct_add, dotProduct_smul, smul_eq_mul]
    have e2 : quadraticKl F (c • x) + damping / 2 * ((c • x) ⬝ᵥ (c • x)) = 1 / 2 * (c * c) * d := by
      rw [e]
      simp only [quadraticKl, hF.smul, dotProduct_smul, smul_dotProduct, smul_eq_mul]
      ring
    rw [e2, hcc]
    field_simp
  have hs : klStep F damping maxKl (m + 1) g = some (c • x) := by
    unfold klStep
    rw [h1]
    simp only
    rw [if_neg]
    rintro (h | h)
    · exact hpos.ne' h
    · exact absurd h (not_lt.2 hq.le)
  refine ⟨c • x, hs, ?_, ⟨d, h3, hFc⟩, ?_⟩
  · have hlt : maxKl * (d / (d + 1 / 10 ^ 8)) < maxKl := by
      have : d / (d + 1 / 10 ^ 8) < 1 := by
        rw [div_lt_one hpos]; norm_num
      calc _ < maxKl * 1 := mul_lt_mul_of_pos_left this hk
        _ = maxKl := mul_one _
    have hn : 0 ≤ damping / 2 * ((c • x) ⬝ᵥ (c • x)) := by
      refine mul_nonneg (by linarith) ?_
      exact Finset.sum_nonneg fun i _ => mul_self_nonneg _
    linarith
  · rw [dotProduct_smul, smul_eq_mul, dotProduct_comm, h2]
    exact mul_pos hc0 h3

/-- **C89.** With at least as many iterations as parameters the step points along the
(damped) natural gradient: it is a positive multiple of a solution of `(F + damping) x = g`, to within the
tolerance of conjugate gradient. -/
theorem C89_natural {F : (Fin n → ℝ) → Fin n → ℝ} (hF : PSD F) {damping maxKl : ℝ} (hd : 0 < damping)
    (hk : 0 < maxKl) (maxIter : Nat) (hm : 0 < maxIter) (hn : n ≤ maxIter) {g s : Fin n → ℝ} (hg : g ≠ 0)
    (hs : klStep F damping maxKl maxIter g = some s) :
    ∃ (c : ℝ) (x : Fin n → ℝ), 0 < c ∧ s = c • x ∧
      (g - (F x + damping • x)) ⬝ᵥ (g - (F x + damping • x)) < (1 / 10 ^ 10) ^ 2 := by
  obtain ⟨m, rfl⟩ : ∃ m, maxIter = m + 1 := ⟨maxIter - 1, by omega⟩
  obtain ⟨x, h1, h2, h3⟩ := cg_ascends (damped_spd hF hd) hg (tol := 1 / 10 ^ 10) (by positivity) m
  obtain ⟨x', h1', h4⟩ := C62_solves (damped_spd hF hd) hg (1 / 10 ^ 10) (by positivity) (m + 1)
  obtain rfl : x = x' := Option.some.inj (h1.symm.trans h1')
  have hpos : 0 < x ⬝ᵥ fisherVectorProduct F damping x + 1 / 10 ^ 8 := by positivity
  unfold klStep at hs
  rw [h1] at hs
  simp only at hs
  split at hs
  · cases hs
  · refine ⟨_, x, Real.sqrt_pos.2 (div_pos (by linarith) hpos), (Option.some.inj hs).symm, ?_⟩
    have := (h4 hn).2
    rw [pow_two]
    exact this

/-- **C89**, violated: a vanishing gradient (all advantages equal, standardised, and no entropy bonus) gives NaN
instead of no step. -/
theorem C89_violated_zero {F : (Fin n → ℝ) → Fin n → ℝ} (hF : PSD F) (damping maxKl : ℝ) (maxIter : Nat)
    (hm : 0 < maxIter) : klStep F damping maxKl maxIter 0 = none := by
  obtain ⟨m, rfl⟩ : ∃ m, maxIter = m + 1 := ⟨maxIter - 1, by omega⟩
  unfold klStep
  rw [C62_violated_zero (A := fisherVectorProduct F damping)]
  exact ⟨fun u v => by simp only [fisherVectorProduct, hF.add, smul_add]; abel, fun c u => by
    simp only [fisherVectorProduct, hF.smul, smul_add]; rw [smul_comm]⟩

/-- **C89.** While the policy is the one that acted, the gain is the mean advantage plus the
weighted mean entropy. -/
theorem C89_gain (coef : ℝ) (rows : List GainRow) (h : ∀ r ∈ rows, r.logProb = r.logProbOld) :
    computeGain coef rows = (rows.map GainRow.adv).sum / rows.length + coef * ((rows.map GainRow.entropy).sum / rows.length) := by
  have : rows.map (fun r => Real.exp (r.logProb - r.logProbOld) * r.adv) = rows.map GainRow.adv := by
    refine List.map_congr_left fun r hr => ?_
    rw [h r hr, sub_self, Real.exp_zero, one_mul]
  unfold computeGain mean
  rw [this, List.length_map, List.length_map]

/-- A transition along a curve of parameters: log probability and entropy as functions of the
position `t`, with their slopes at `t₀`. -/
structure Curve where
  logProb : ℝ → ℝ
  dLogProb : ℝ
  logProbOld : ℝ
  entropy : ℝ → ℝ
  dEntropy : ℝ
  adv : ℝ

/-- The slopes are the derivatives. -/
def Curve.Smooth (t₀ : ℝ) (c : Curve) : Prop :=
  HasDerivAt c.logProb c.dLogProb t₀ ∧ HasDerivAt c.entropy c.dEntropy t₀

/-- The transition at position `t`. -/
def Curve.row (t : ℝ) (c : Curve) : GainRow := ⟨c.logProb t, c.logProbOld, c.entropy t, c.adv⟩

theorem hasDerivAt_sum {ι : Type} (t₀ : ℝ) (f : ι → ℝ → ℝ) (f' : ι → ℝ) : ∀ (l : List ι),
    (∀ i ∈ l, HasDerivAt (f i) (f' i) t₀) → HasDerivAt (fun t => (l.map fun i => f i t).sum) (l.map f').sum t₀
  | [], _ => by simpa using hasDerivAt_const t₀ (0 : ℝ)
  | i :: l, h => by
    simp only [List.map_cons, List.sum_cons]
    exact (h i (List.mem_cons_self)).add (hasDerivAt_sum t₀ f f' l fun j hj => h j (List.mem_cons_of_mem _ hj))

/-- **C89.** The gradient of the gain along any curve of parameters: the policy gradient, each transition weighted
by its probability ratio and advantage, plus the weighted mean gradient of the entropy. -/
theorem C89_gain_gradient (coef t₀ : ℝ) (cs : List Curve) (h : ∀ c ∈ cs, c.Smooth t₀) :
    HasDerivAt (fun t => computeGain coef (cs.map (Curve.row t)))
      ((cs.map fun c => Real.exp (c.logProb t₀ - c.logProbOld) * c.adv * c.dLogProb).sum / cs.length +
        coef * ((cs.map Curve.dEntropy).sum / cs.length)) t₀ := by
  have h1 := hasDerivAt_sum t₀ (fun (c : Curve) t => Real.exp (c.logProb t - c.logProbOld) * c.adv)
    (fun c => Real.exp (c.logProb t₀ - c.logProbOld) * c.adv * c.dLogProb) cs (fun c hc => by
      have := (((h c hc).1.sub_const c.logProbOld).exp).mul_const c.adv
      exact this.congr_deriv (by ring))
  have h2 := hasDerivAt_sum t₀ (fun (c : Curve) t => c.entropy t) Curve.dEntropy cs (fun c hc => (h c hc).2)
  have := (h1.div_const (cs.length : ℝ)).add ((h2.div_const (cs.length : ℝ)).const_mul coef)
  have e : (fun t => computeGain coef (cs.map (Curve.row t))) = (fun t =>
      (cs.map fun c => Real.exp (c.logProb t - c.logProbOld) * c.adv).sum / (cs.length : ℝ)) + (fun t =>
      coef * ((cs.map fun c => c.entropy t).sum / (cs.length : ℝ))) := by
    funext t
    simp [computeGain, mean, Curve.row, Function.comp_def, List.map_map]
  rw [e]
  exact this

/-! ### Examples -/

/-- A semidefinite Hessian that is not definite. -/
def exampleF (v : Fin 2 → ℝ) : Fin 2 → ℝ := ![v 0 + v 1, v 0 + v 1]

theorem exampleF_psd : PSD exampleF where
  add u v := by funext i; fin_cases i <;> simp [exampleF] <;> ring
  smul c u := by funext i; fin_cases i <;> simp [exampleF] <;> ring
  symm u v := by simp [exampleF, dotProduct]; ring
  nonneg u := by
    have : u ⬝ᵥ exampleF u = (u 0 + u 1) ^ 2 := by simp [exampleF, dotProduct]; ring
    rw [this]; positivity

example : ∃ s, klStep exampleF (1 / 100) (1 / 100) 10 ![1, -2] = some s ∧ quadraticKl exampleF s < 1 / 100 ∧
    0 < ![1, -2] ⬝ᵥ s := by
  obtain ⟨s, h1, h2, -, h3⟩ := C89_step exampleF_psd (damping := 1 / 100) (maxKl := 1 / 100) (by norm_num) (by norm_num)
    10 (by norm_num) (g := ![1, -2]) (fun h => by have := congrFun h 0; simp at this)
  exact ⟨s, h1, h2, h3⟩

example : Curve.Smooth 0 ⟨fun t => 2 * t, 2, 0, fun t => 1 - t, -1, 3⟩ := by
  constructor
  · simpa using (hasDerivAt_id (0 : ℝ)).const_mul 2
  · simpa using (hasDerivAt_id (0 : ℝ)).const_sub 1

end Verif.TRPO
