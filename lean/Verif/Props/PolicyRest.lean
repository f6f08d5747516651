import Verif.Props.PolicyGradient
import Verif.Model.Distrib
import Mathlib.Analysis.SpecialFunctions.Log.Deriv
import Mathlib.Analysis.SpecialFunctions.ExpDeriv
import Mathlib.Analysis.Calculus.FDeriv.Pi
import Mathlib.Algebra.BigOperators.Field
import Mathlib.Tactic.Linarith
import Mathlib.Tactic.Positivity
import Mathlib.Tactic.FieldSimp
set_option autoImplicit false
set_option linter.unusedSectionVars false

/-! # C168: where REINFORCE, A3C and A2C with a softmax policy come to rest -/

namespace Verif.PolicyGradient

section
variable {Ω O A X : Type} [Fintype Ω] [Fintype A] [Fintype X] [DecidableEq X] [DecidableEq A] [Nonempty A]

/-! ## Specification -/

/-- The softmax policy of a table of logits, one row for every state of the agent; `st` says in which state it is after some observations. -/
noncomputable def softPi (st : List O → X) (θ : X → A → ℝ) (h : List O) (a : A) : ℝ := Real.exp (θ (st h) a) / ∑ b, Real.exp (θ (st h) b)

/-- Its entropy. -/
noncomputable def softEnt (st : List O → X) (θ : X → A → ℝ) (h : List O) : ℝ := -∑ a, softPi st θ h a * Real.log (softPi st θ h a)

section
variable {F : Type} [AddCommGroup F] [Module ℝ F]

/-- The expected sum of `f` over all decisions of a rollout; `f` gets what has been observed and the action values: the expected return after each action if the policy is followed. -/
def decisions (γ : ℝ) (pi : List O → A → ℝ) : World Ω O A → List O → (List O → (A → ℝ) → F) → F
  | .leaf _ _, _, _ => 0
  | .node o p r e next, h, f =>
    f (h ++ [o]) (fun a => ∑ ω, p a ω * (r a ω + if e a ω then 0 else γ * value γ pi (next a ω) (h ++ [o]))) +
    ∑ a, ∑ ω, (pi (h ++ [o]) a * p a ω) • decisions γ pi (next a ω) (h ++ [o]) f

end

/-- The expected number of decisions in the state `x` of the agent, in rollouts of some environments. -/
noncomputable def visits (γ : ℝ) (pi : List O → A → ℝ) (st : List O → X) (ws : List (World Ω O A)) (x : X) : ℝ :=
  (ws.map fun w => decisions γ pi w [] fun h _ => if st h = x then 1 else 0).sum

/-- The average value of the action `a` over the decisions in `x`. -/
noncomputable def average (γ : ℝ) (pi : List O → A → ℝ) (st : List O → X) (ws : List (World Ω O A)) (x : X) (a : A) : ℝ :=
  (ws.map fun w => decisions γ pi w [] fun h Q => if st h = x then Q a else 0).sum / visits γ pi st ws x

/-- No outcome has a negative probability. -/
def World.Nonneg : World Ω O A → Prop
  | .leaf _ _ => True
  | .node _ p _ _ next => ∀ a ω, 0 ≤ p a ω ∧ (next a ω).Nonneg

/-- `P` holds for what has been observed and the action values at every decision that can come up. -/
def Always (γ : ℝ) (pi : List O → A → ℝ) (P : List O → (A → ℝ) → Prop) : World Ω O A → List O → Prop
  | .leaf _ _, _ => True
  | .node o p r e next, h =>
    P (h ++ [o]) (fun a => ∑ ω, p a ω * (r a ω + if e a ω then 0 else γ * value γ pi (next a ω) (h ++ [o]))) ∧
    ∀ a ω, 0 < p a ω → Always γ pi P (next a ω) (h ++ [o])

/-- In every state visited, the policy is the Boltzmann distribution of the average values of the actions with the temperature `beta`; if `beta` is zero, all actions have the same average value. -/
def AtRest (γ beta : ℝ) (st : List O → X) (θ : X → A → ℝ) (ws : List (World Ω O A)) : Prop :=
  ∀ x, 0 < visits γ (softPi st θ) st ws x →
    (0 < beta → ∀ h, st h = x → ∀ a, softPi st θ h a = Real.exp (average γ (softPi st θ) st ws x a / beta) / ∑ b, Real.exp (average γ (softPi st θ) st ws x b / beta)) ∧
    (beta = 0 → ∀ a b, average γ (softPi st θ) st ws x a = average γ (softPi st θ) st ws x b)

/-! ## The softmax policy -/

/-- A row of probabilities. -/
noncomputable def row (θ : X → A → ℝ) (x : X) (a : A) : ℝ := Real.exp (θ x a) / ∑ b, Real.exp (θ x b)

theorem row_pos (θ : X → A → ℝ) (x : X) (a : A) : 0 < row θ x a := by unfold row; positivity

theorem row_sum (θ : X → A → ℝ) (x : X) : ∑ a, row θ x a = 1 := by
  have : 0 < ∑ b, Real.exp (θ x b) := by positivity
  simp only [row, ← Finset.sum_div]
  exact div_self this.ne'

/-- The coordinate of a parameter. -/
noncomputable def coord (x : X) (a : A) : (X → A → ℝ) →L[ℝ] ℝ := (ContinuousLinearMap.proj (R := ℝ) (φ := fun _ : A => ℝ) a).comp (ContinuousLinearMap.proj (R := ℝ) (φ := fun _ : X => A → ℝ) x)

theorem coord_apply (x : X) (a : A) (v : X → A → ℝ) : coord x a v = v x a := rfl

theorem hasFDerivAt_logRow (θ : X → A → ℝ) (x : X) (a : A) :
    HasFDerivAt (fun θ => Real.log (row θ x a)) (coord x a - ∑ b, row θ x b • coord x b) θ := by
  have hZ : 0 < ∑ b, Real.exp (θ x b) := by positivity
  have h1 : ∀ b, HasFDerivAt (fun θ : X → A → ℝ => θ x b) (coord x b) θ := fun b => (coord x b).hasFDerivAt
  have h2 : HasFDerivAt (fun θ : X → A → ℝ => ∑ b, Real.exp (θ x b)) (∑ b, Real.exp (θ x b) • coord x b) θ :=
    HasFDerivAt.fun_sum fun b _ => (h1 b).exp
  have h3 := (h1 a).fun_sub (h2.log hZ.ne')
  have e1 : (fun θ : X → A → ℝ => Real.log (row θ x a)) = fun θ => θ x a - Real.log (∑ b, Real.exp (θ x b)) := by
    funext θ
    have hZ : 0 < ∑ b, Real.exp (θ x b) := by positivity
    rw [row, Real.log_div (Real.exp_pos _).ne' hZ.ne', Real.log_exp]
  rw [e1]
  refine h3.congr_fderiv ?_
  congr 1
  rw [Finset.smul_sum]
  refine Finset.sum_congr rfl fun b _ => ?_
  rw [smul_smul, row, div_eq_inv_mul]

theorem hasFDerivAt_row (θ : X → A → ℝ) (x : X) (a : A) :
    HasFDerivAt (fun θ => row θ x a) (row θ x a • (coord x a - ∑ b, row θ x b • coord x b)) θ := by
  have h := (hasFDerivAt_logRow θ x a).exp
  rw [Real.exp_log (row_pos θ x a)] at h
  refine h.congr_of_eventuallyEq (Filter.Eventually.of_forall fun θ => ?_)
  exact (Real.exp_log (row_pos θ x a)).symm

theorem hasFDerivAt_entropy (θ : X → A → ℝ) (x : X) :
    HasFDerivAt (fun θ => -∑ a, row θ x a * Real.log (row θ x a)) (∑ a, (-Real.log (row θ x a) * row θ x a) • (coord x a - ∑ b, row θ x b • coord x b)) θ := by
  have h : HasFDerivAt (fun θ => ∑ a, row θ x a * Real.log (row θ x a)) _ θ :=
    HasFDerivAt.fun_sum fun a _ => (hasFDerivAt_row θ x a).mul (hasFDerivAt_logRow θ x a)
  refine h.neg.congr_fderiv ?_
  rw [Finset.sum_add_distrib]
  have : ∑ a, row θ x a • (coord x a - ∑ b, row θ x b • coord x b) = 0 := by
    simp only [smul_sub, Finset.sum_sub_distrib, ← Finset.sum_smul, row_sum, one_smul, sub_self]
  rw [this, zero_add, ← Finset.sum_neg_distrib]
  refine Finset.sum_congr rfl fun a _ => ?_
  rw [smul_smul, ← neg_smul, neg_mul]

theorem soft_smooth (st : List O → X) (θ : X → A → ℝ) : Smooth (softPi (A := A) st) (softEnt st) θ where
  diff h a := (hasFDerivAt_row θ (st h) a).differentiableAt
  pos h a := row_pos θ (st h) a
  sum θ h := row_sum θ (st h)
  ent h := (hasFDerivAt_entropy θ (st h)).differentiableAt

/-! ## Decisions -/

section
variable {F G : Type} [AddCommGroup F] [Module ℝ F] [AddCommGroup G] [Module ℝ G]

theorem decisions_map (γ : ℝ) (pi : List O → A → ℝ) (L : F →ₗ[ℝ] G) : ∀ (w : World Ω O A) (h : List O) (f : List O → (A → ℝ) → F),
    decisions γ pi w h (fun h Q => L (f h Q)) = L (decisions γ pi w h f)
  | .leaf _ _, _, _ => (map_zero L).symm
  | .node o p r e next, h, f => by
    simp only [decisions, map_add, map_sum, map_smul]
    congr 1
    refine Finset.sum_congr rfl fun a _ => Finset.sum_congr rfl fun ω _ => ?_
    rw [decisions_map γ pi L (next a ω)]

theorem decisions_add (γ : ℝ) (pi : List O → A → ℝ) : ∀ (w : World Ω O A) (h : List O) (f g : List O → (A → ℝ) → F),
    decisions γ pi w h (fun h Q => f h Q + g h Q) = decisions γ pi w h f + decisions γ pi w h g
  | .leaf _ _, _, _, _ => (add_zero (0 : F)).symm
  | .node o p r e next, h, f, g => by
    simp only [decisions]
    rw [add_add_add_comm, ← Finset.sum_add_distrib]
    congr 1
    refine Finset.sum_congr rfl fun a _ => ?_
    rw [← Finset.sum_add_distrib]
    refine Finset.sum_congr rfl fun ω _ => ?_
    rw [decisions_add γ pi (next a ω), smul_add]

theorem expect_steps (γ : ℝ) (pi : List O → A → ℝ) (hpi : ∀ h, ∑ a, pi h a = 1) (g : List O → F) : ∀ (w : World Ω O A) (h : List O), w.Stochastic →
    expect pi w h (fun q => (q.steps.map fun s => g s.hist).sum) = decisions γ pi w h fun h _ => g h
  | .leaf _ _, _, _ => rfl
  | .node o p r e next, h, hw => by
    simp only [expect, decisions]
    have e1 : ∀ a ω, expect pi (next a ω) (h ++ [o]) (fun q => (((q.cons ⟨h ++ [o], a, r a ω, e a ω⟩).steps).map fun s => g s.hist).sum) =
        g (h ++ [o]) + decisions γ pi (next a ω) (h ++ [o]) fun h _ => g h := fun a ω => by
      simp only [Path.cons, List.map_cons, List.sum_cons]
      rw [expect_add, expect_const pi hpi _ _ _ (hw.2 a ω), expect_steps γ pi hpi g (next a ω) _ (hw.2 a ω)]
    simp only [e1, smul_add, Finset.sum_add_distrib]
    congr 1
    simp only [← Finset.sum_smul, ← Finset.mul_sum, hw.1, mul_one, hpi, one_smul]

end

theorem policyGradient_decisions {E : Type} [NormedAddCommGroup E] [NormedSpace ℝ E] (γ : ℝ) (pi : E → List O → A → ℝ) (θ : E) : ∀ (w : World Ω O A) (h : List O),
    policyGradient γ pi θ w h = decisions γ (pi θ) w h fun h Q => fderiv ℝ (fun θ => ∑ a, pi θ h a * Q a) θ
  | .leaf _ _, _ => rfl
  | .node o p r e next, h => by
    simp only [policyGradient, decisions]
    congr 1
    refine Finset.sum_congr rfl fun a _ => Finset.sum_congr rfl fun ω _ => ?_
    rw [policyGradient_decisions γ pi θ (next a ω)]

theorem decisions_nonneg (γ : ℝ) (pi : List O → A → ℝ) (hpi : ∀ h a, 0 ≤ pi h a) (f : List O → (A → ℝ) → ℝ) (hf : ∀ h Q, 0 ≤ f h Q) : ∀ (w : World Ω O A) (h : List O), w.Nonneg →
    0 ≤ decisions γ pi w h f
  | .leaf _ _, _, _ => le_rfl
  | .node o p r e next, h, hw => by
    simp only [decisions]
    refine add_nonneg (hf _ _) (Finset.sum_nonneg fun a _ => Finset.sum_nonneg fun ω _ => ?_)
    exact mul_nonneg (mul_nonneg (hpi _ _) (hw a ω).1) (decisions_nonneg γ pi hpi f hf (next a ω) _ (hw a ω).2)

theorem decisions_zero (γ : ℝ) (pi : List O → A → ℝ) (hpi : ∀ h a, 0 ≤ pi h a) (st : List O → X) (x : X) (g : (A → ℝ) → ℝ) : ∀ (w : World Ω O A) (h : List O), w.Nonneg →
    decisions γ pi w h (fun h _ => if st h = x then (1 : ℝ) else 0) = 0 → decisions γ pi w h (fun h Q => if st h = x then g Q else 0) = 0
  | .leaf _ _, _, _, _ => rfl
  | .node o p r e next, h, hw, h0 => by
    have hnn : ∀ a ω, 0 ≤ decisions γ pi (next a ω) (h ++ [o]) (fun h _ => if st h = x then (1 : ℝ) else 0) := fun a ω =>
      decisions_nonneg γ pi hpi _ (fun h _ => by split <;> norm_num) (next a ω) _ (hw a ω).2
    have hterm : ∀ a ω, 0 ≤ (pi (h ++ [o]) a * p a ω) • decisions γ pi (next a ω) (h ++ [o]) (fun h _ => if st h = x then (1 : ℝ) else 0) := fun a ω =>
      mul_nonneg (mul_nonneg (hpi _ _) (hw a ω).1) (hnn a ω)
    have hsum : 0 ≤ ∑ a, ∑ ω, (pi (h ++ [o]) a * p a ω) • decisions γ pi (next a ω) (h ++ [o]) (fun h _ => if st h = x then (1 : ℝ) else 0) :=
      Finset.sum_nonneg fun a _ => Finset.sum_nonneg fun ω _ => hterm a ω
    simp only [decisions] at h0 ⊢
    have hne : ¬ st (h ++ [o]) = x := fun hx => by
      rw [if_pos hx] at h0
      linarith
    rw [if_neg hne, zero_add] at h0 ⊢
    refine Finset.sum_eq_zero fun a _ => Finset.sum_eq_zero fun ω _ => ?_
    have h1 := (Finset.sum_eq_zero_iff_of_nonneg fun ω _ => hterm a ω).1 ((Finset.sum_eq_zero_iff_of_nonneg fun a _ => Finset.sum_nonneg fun ω _ => hterm a ω).1 h0 a (Finset.mem_univ a)) ω (Finset.mem_univ ω)
    rcases mul_eq_zero.1 h1 with h2 | h2
    · rw [h2, zero_smul]
    · rw [decisions_zero γ pi hpi st x g (next a ω) _ (hw a ω).2 h2, smul_zero]

/-! ## Rest -/

/-- The derivative in the direction `v`, from what `M` sums up. -/
noncomputable def direction (θ v : X → A → ℝ) : (X → A → ℝ) →ₗ[ℝ] ℝ where
  toFun N := ∑ x, ∑ b, v x b * (row θ x b * (N x b - ∑ a, row θ x a * N x a))
  map_add' N N' := by
    simp only [Pi.add_apply, mul_add, Finset.sum_add_distrib, ← Finset.sum_add_distrib]
    refine Finset.sum_congr rfl fun x _ => ?_
    refine Finset.sum_congr rfl fun b _ => ?_
    rw [Finset.sum_add_distrib]
    ring
  map_smul' c N := by
    simp only [Pi.smul_apply, smul_eq_mul, RingHom.id_apply, Finset.mul_sum]
    refine Finset.sum_congr rfl fun x _ => Finset.sum_congr rfl fun b _ => ?_
    have : ∑ a, row θ x a * (c * N x a) = c * ∑ a, row θ x a * N x a := by
      rw [Finset.mul_sum]; exact Finset.sum_congr rfl fun a _ => by ring
    rw [this]; ring

theorem direction_eq_zero (θ M : X → A → ℝ) : (∀ v, direction θ v M = 0) ↔ ∀ x a b, M x a = M x b := by
  constructor
  · intro h
    have key : ∀ x b, M x b = ∑ a, row θ x a * M x a := fun x b => by
      have h1 := h (Pi.single x (Pi.single b 1))
      have h2 : direction θ (Pi.single x (Pi.single b 1)) M = row θ x b * (M x b - ∑ a, row θ x a * M x a) := by
        show ∑ x', ∑ b', _ = _
        rw [Finset.sum_eq_single x, Finset.sum_eq_single b]
        · simp
        · intro b' _ hb'; simp [Pi.single_eq_of_ne hb']
        · simp
        · intro x' _ hx'; simp [Pi.single_eq_of_ne hx']
        · simp
      rw [h2] at h1
      rcases mul_eq_zero.1 h1 with h3 | h3
      · exact absurd h3 (row_pos θ x b).ne'
      · linarith
    intro x a b
    rw [key x a, key x b]
  · intro h v
    show ∑ x, ∑ b, v x b * (row θ x b * (M x b - ∑ a, row θ x a * M x a)) = 0
    refine Finset.sum_eq_zero fun x _ => Finset.sum_eq_zero fun b _ => ?_
    have : ∑ a, row θ x a * M x a = M x b := by
      rw [Finset.sum_congr rfl fun a _ => by rw [h x a b], ← Finset.sum_mul, row_sum, one_mul]
    rw [this]; ring

/-- One decision. -/
theorem direction_decision (st : List O → X) (θ v : X → A → ℝ) (beta : ℝ) (h : List O) (Q : A → ℝ) :
    fderiv ℝ (fun θ => ∑ a, softPi st θ h a * Q a) θ v + beta * fderiv ℝ (fun θ => softEnt st θ h) θ v =
      direction θ v fun x a => if st h = x then Q a - beta * Real.log (row θ x a) else 0 := by
  have h1 : HasFDerivAt (fun θ => ∑ a, softPi st θ h a * Q a) (∑ a, Q a • (row θ (st h) a • (coord (st h) a - ∑ b, row θ (st h) b • coord (st h) b))) θ :=
    HasFDerivAt.fun_sum fun a _ => (hasFDerivAt_row θ (st h) a).mul_const (Q a)
  have h2 : HasFDerivAt (fun θ => softEnt st θ h) _ θ := hasFDerivAt_entropy θ (st h)
  rw [h1.fderiv, h2.fderiv]
  show _ = ∑ x, ∑ b, v x b * (row θ x b * ((if st h = x then Q b - beta * Real.log (row θ x b) else 0) - ∑ a, row θ x a * (if st h = x then Q a - beta * Real.log (row θ x a) else 0)))
  rw [Finset.sum_eq_single (st h)]
  · simp only [if_true, ContinuousLinearMap.sum_apply, ContinuousLinearMap.smul_apply, ContinuousLinearMap.sub_apply, coord_apply, smul_eq_mul]
    set G : A → ℝ := fun a => Q a - beta * Real.log (row θ (st h) a) with hG
    set m := ∑ b, row θ (st h) b * v (st h) b with hm
    have e1 : (∑ a, Q a * (row θ (st h) a * (v (st h) a - m))) + beta * ∑ a, -Real.log (row θ (st h) a) * row θ (st h) a * (v (st h) a - m) = ∑ a, G a * (row θ (st h) a * (v (st h) a - m)) := by
      rw [Finset.mul_sum, ← Finset.sum_add_distrib]
      refine Finset.sum_congr rfl fun a _ => ?_
      simp only [hG]; ring
    rw [e1]
    have e2 : ∑ a, G a * (row θ (st h) a * (v (st h) a - m)) = (∑ a, G a * row θ (st h) a * v (st h) a) - (∑ a, row θ (st h) a * G a) * m := by
      rw [Finset.sum_mul, ← Finset.sum_sub_distrib]
      exact Finset.sum_congr rfl fun a _ => by ring
    have e3 : ∑ b, v (st h) b * (row θ (st h) b * (G b - ∑ a, row θ (st h) a * G a)) = (∑ a, G a * row θ (st h) a * v (st h) a) - (∑ a, row θ (st h) a * G a) * m := by
      rw [hm, Finset.mul_sum, ← Finset.sum_sub_distrib]
      exact Finset.sum_congr rfl fun a _ => by ring
    rw [e2, e3]
  · intro x _ hx
    simp [Ne.symm hx]
  · simp

/-- What decides about rest: the sums of action values less the logarithms of the probabilities. -/
noncomputable def balance (γ beta : ℝ) (st : List O → X) (θ : X → A → ℝ) (w : World Ω O A) : X → A → ℝ :=
  decisions γ (softPi st θ) w [] fun h Q x a => if st h = x then Q a - beta * Real.log (row θ x a) else 0

theorem gradient_direction (γ beta : ℝ) (st : List O → X) (θ v : X → A → ℝ) (w : World Ω O A) (hw : w.Stochastic) :
    (policyGradient γ (softPi st) θ w [] + beta • entropyGradient (softPi st) (softEnt st) θ w) v = direction θ v (balance γ beta st θ w) := by
  rw [policyGradient_decisions, entropyGradient, expect_steps γ (softPi st θ) (soft_smooth st θ |>.sum θ) (fun h => fderiv ℝ (fun θ => softEnt st θ h) θ) w [] hw, balance, ← decisions_map]
  simp only [← direction_decision]
  have a1 : ∀ f : List O → (A → ℝ) → ((X → A → ℝ) →L[ℝ] ℝ), decisions γ (softPi st θ) w [] f v = decisions γ (softPi st θ) w [] fun h Q => f h Q v := fun f =>
    (decisions_map γ (softPi st θ) (ContinuousLinearMap.apply ℝ ℝ v).toLinearMap w [] f).symm
  rw [decisions_add, ContinuousLinearMap.add_apply, ContinuousLinearMap.smul_apply, a1, a1, smul_eq_mul]
  congr 1
  exact (decisions_map γ (softPi st θ) (LinearMap.lsmul ℝ ℝ beta) w [] fun h _ => fderiv ℝ (fun θ => softEnt st θ h) θ v).symm

theorem balance_apply (γ beta : ℝ) (st : List O → X) (θ : X → A → ℝ) (w : World Ω O A) (x : X) (a : A) :
    balance γ beta st θ w x a = decisions γ (softPi st θ) w [] (fun h Q => if st h = x then Q a else 0) -
      beta * Real.log (row θ x a) * decisions γ (softPi st θ) w [] (fun h _ => if st h = x then 1 else 0) := by
  have h1 := decisions_map γ (softPi st θ) (coord x a).toLinearMap w [] fun h Q x a => if st h = x then Q a - beta * Real.log (row θ x a) else 0
  have h2 := decisions_map γ (softPi st θ) (LinearMap.lsmul ℝ ℝ (-(beta * Real.log (row θ x a)))) w [] fun h (_ : A → ℝ) => if st h = x then (1 : ℝ) else 0
  show (coord x a).toLinearMap (balance γ beta st θ w) = _
  rw [balance, ← h1]
  have h3 := decisions_add γ (softPi st θ) w [] (fun h Q => if st h = x then Q a else 0) fun h _ => -(beta * Real.log (row θ x a)) * if st h = x then (1 : ℝ) else 0
  simp only [LinearMap.lsmul_apply, smul_eq_mul] at h2
  rw [h2] at h3
  rw [sub_eq_add_neg, ← neg_mul, ← h3]
  congr 1
  funext h Q
  show (if st h = x then Q a - beta * Real.log (row θ x a) else 0) = _
  split <;> ring

theorem soft_nonneg (st : List O → X) (θ : X → A → ℝ) (h : List O) (a : A) : 0 ≤ softPi st θ h a := (row_pos θ (st h) a).le

theorem visits_nonneg (γ : ℝ) (st : List O → X) (θ : X → A → ℝ) (ws : List (World Ω O A)) (hn : ∀ w ∈ ws, w.Nonneg) (x : X) : 0 ≤ visits γ (softPi st θ) st ws x :=
  List.sum_nonneg fun y hy => by
    obtain ⟨w, hw, rfl⟩ := List.mem_map.1 hy
    exact decisions_nonneg γ _ (soft_nonneg st θ) _ (fun h _ => by split <;> norm_num) w [] (hn w hw)

/-- What the balances of several environments add up to. -/
theorem balance_sum (γ beta : ℝ) (st : List O → X) (θ : X → A → ℝ) (ws : List (World Ω O A)) (x : X) (a : A) :
    (ws.map (balance γ beta st θ)).sum x a = (ws.map fun w => decisions γ (softPi st θ) w [] fun h Q => if st h = x then Q a else 0).sum -
      beta * Real.log (row θ x a) * visits γ (softPi st θ) st ws x := by
  unfold visits
  induction ws with
  | nil => simp
  | cons w ws ih =>
    simp only [List.map_cons, List.sum_cons, Pi.add_apply, ih, balance_apply]
    ring

theorem sum_decisions_zero (γ : ℝ) (st : List O → X) (θ : X → A → ℝ) (x : X) (g : (A → ℝ) → ℝ) : ∀ ws : List (World Ω O A), (∀ w ∈ ws, w.Nonneg) → visits γ (softPi st θ) st ws x = 0 →
    (ws.map fun w => decisions γ (softPi st θ) w [] fun h Q => if st h = x then g Q else 0).sum = 0
  | [], _, _ => rfl
  | w :: ws, hn, h0 => by
    have h1 := decisions_nonneg γ _ (soft_nonneg st θ) (fun h _ => if st h = x then 1 else 0) (fun h _ => by split <;> norm_num) w [] (hn w List.mem_cons_self)
    have h2 := visits_nonneg γ st θ ws (fun w hw => hn w (List.mem_cons_of_mem _ hw)) x
    have h3 : visits γ (softPi st θ) st (w :: ws) x = decisions γ (softPi st θ) w [] (fun h _ => if st h = x then 1 else 0) + visits γ (softPi st θ) st ws x := rfl
    rw [h3] at h0
    rw [List.map_cons, List.sum_cons, decisions_zero γ _ (soft_nonneg st θ) st x g w [] (hn w List.mem_cons_self) (by linarith),
      sum_decisions_zero γ st θ x g ws (fun w hw => hn w (List.mem_cons_of_mem _ hw)) (by linarith), add_zero]

theorem boltzmann_iff (beta : ℝ) (hb : 0 < beta) (θ q : X → A → ℝ) (x : X) :
    (∀ a b, q x a - beta * Real.log (row θ x a) = q x b - beta * Real.log (row θ x b)) ↔ ∀ a, row θ x a = Real.exp (q x a / beta) / ∑ b, Real.exp (q x b / beta) := by
  have hZ : 0 < ∑ b, Real.exp (q x b / beta) := by positivity
  constructor
  · intro h
    obtain ⟨a₀⟩ := ‹Nonempty A›
    have h1 : ∀ a, Real.exp (q x a / beta) = Real.exp ((q x a₀ - beta * Real.log (row θ x a₀)) / beta) * row θ x a := fun a => by
      have := h a₀ a
      rw [this]
      conv_rhs => rw [← Real.exp_log (row_pos θ x a), ← Real.exp_add, Real.log_exp]
      congr 1
      field_simp
      ring
    intro a
    simp only [h1, ← Finset.mul_sum, row_sum, mul_one]
    rw [mul_div_cancel_left₀ _ (Real.exp_pos _).ne']
  · intro h
    have h1 : ∀ a, q x a - beta * Real.log (row θ x a) = beta * Real.log (∑ b, Real.exp (q x b / beta)) := fun a => by
      rw [h a, Real.log_div (Real.exp_pos _).ne' hZ.ne', Real.log_exp]
      field_simp
      ring
    intro a b
    rw [h1, h1]

/-- The gradients of an environment or several vanish exactly at rest. -/
theorem rest_iff (γ beta : ℝ) (hb : 0 ≤ beta) (st : List O → X) (θ : X → A → ℝ) (ws : List (World Ω O A)) (hw : ∀ w ∈ ws, w.Stochastic) (hn : ∀ w ∈ ws, w.Nonneg) :
    (ws.map fun w => policyGradient γ (softPi st) θ w []).sum + beta • (ws.map fun w => entropyGradient (softPi st) (softEnt st) θ w).sum = 0 ↔ AtRest γ beta st θ ws := by
  have hdir : ∀ v, ((ws.map fun w => policyGradient γ (softPi st) θ w []).sum + beta • (ws.map fun w => entropyGradient (softPi st) (softEnt st) θ w).sum) v =
      direction θ v (ws.map (balance γ beta st θ)).sum := fun v => by
    clear hn
    induction ws with
    | nil => simp
    | cons w ws ih =>
      have h1 := gradient_direction γ beta st θ v w (hw w List.mem_cons_self)
      have h2 := ih fun w hw' => hw w (List.mem_cons_of_mem _ hw')
      simp only [List.map_cons, List.sum_cons, map_add, ← h1, ← h2, smul_add, ContinuousLinearMap.add_apply]
      ring
  have h0 : (ws.map fun w => policyGradient γ (softPi st) θ w []).sum + beta • (ws.map fun w => entropyGradient (softPi st) (softEnt st) θ w).sum = 0 ↔
      ∀ x a b, (ws.map (balance γ beta st θ)).sum x a = (ws.map (balance γ beta st θ)).sum x b := by
    rw [← direction_eq_zero θ, ContinuousLinearMap.ext_iff]
    simp only [hdir, ContinuousLinearMap.zero_apply]
  rw [h0]
  refine forall_congr' fun x => ?_
  simp only [balance_sum]
  rcases (visits_nonneg γ st θ ws hn x).lt_or_eq with hv | hv
  · have hS : ∀ a, (ws.map fun w => decisions γ (softPi st θ) w [] fun h Q => if st h = x then Q a else 0).sum = average γ (softPi st θ) st ws x a * visits γ (softPi st θ) st ws x := fun a => by
      unfold average; exact (div_mul_cancel₀ _ hv.ne').symm
    simp only [hS, ← sub_mul, mul_left_inj' hv.ne', hv, true_imp_iff]
    rcases hb.lt_or_eq with hb' | hb'
    · simp only [hb', true_imp_iff, hb'.ne', false_imp_iff, and_true]
      rw [boltzmann_iff beta hb' θ (average γ (softPi st θ) st ws) x]
      constructor
      · rintro h k rfl a; exact h a
      · intro h a
        obtain ⟨k, hk⟩ : ∃ k, st k = x := by
          by_contra hne
          have : ∀ k, ¬ st k = x := fun k hk => hne ⟨k, hk⟩
          refine hv.ne' ?_
          unfold visits
          simp only [this, if_false]
          have z : ∀ w : World Ω O A, decisions γ (softPi st θ) w [] (fun _ _ => (0 : ℝ)) = 0 := fun w => by
            have := decisions_map γ (softPi st θ) (0 : ℝ →ₗ[ℝ] ℝ) w [] fun _ _ => 0
            simpa using this
          simp [z]
        rw [← h k hk a, softPi, hk]; rfl
    · subst hb'
      simp
  · have hS : ∀ a, (ws.map fun w => decisions γ (softPi st θ) w [] fun h Q => if st h = x then Q a else 0).sum = 0 := fun a =>
      sum_decisions_zero γ st θ x (fun Q => Q a) ws hn hv.symm
    simp [hS, ← hv]

/-! ## Agents -/

/-- C168, REINFORCE: the expected update of a batch of episodes vanishes exactly if the policy is, in every state, the Boltzmann distribution of its own action values with the temperature `beta`;
without entropy bonus, exactly if the actions do not differ. -/
theorem C168_reinforce (c : Reinforce.Cfg ℝ) (hn : 1 ≤ c.batchsize) (hb : 0 ≤ c.beta) (st : List O → X) (θ : X → A → ℝ) (r₀ : ℝ) (w : World Ω O A) (hw : w.Stochastic) (h0 : w.Nonneg)
    (hu : w.Unbroken) (hc : w.Complete) (hst : w.Starts) :
    expectAll (softPi st θ) (List.replicate c.batchsize w) (fun qs => fderiv ℝ (reinforceLoss c (softPi st) (softEnt st) r₀ qs) θ) = 0 ↔ AtRest 1 c.beta st θ [w] := by
  rw [(C103_reinforce c hn (softPi st) (softEnt st) θ (soft_smooth st θ) r₀ w hw hu hc hst).2, ← C103_undiscounted (softPi st) (softEnt st) θ (soft_smooth st θ) w hw hu,
    ← rest_iff 1 c.beta hb st θ [w] (by simpa using hw) (by simpa using h0), ← neg_add', neg_eq_zero]
  simp

/-- C168, A3C: the expected update of a rollout of at most `t_max` steps, that does not go beyond an episode, vanishes exactly if the policy is at rest, with action values that end with the
value function's estimate. -/
theorem C168_a3c (c : A3CCfg) (γ : ℝ) (hk : c.keepLossScaleSame = false) (hnm : c.normalizeGradByTMax = false) (hcoef : c.piLossCoef ≠ 0) (hb : 0 ≤ c.beta) (st : List O → X) (θ : X → A → ℝ)
    (v : List O → ℝ) (r₀ : ℝ) (w : World Ω O A) (hw : w.Stochastic) (h0 : w.Nonneg) (hu : w.Unbroken) (hst : w.Starts) (hm : w.AtMost c.tMax) :
    expect (softPi st θ) w [] (fun q => fderiv ℝ (a3cLoss c γ (softPi st) (softEnt st) v r₀ q) θ) = 0 ↔ AtRest γ c.beta st θ [w] := by
  rw [(C103_a3c c γ hk hnm (softPi st) (softEnt st) θ (soft_smooth st θ) v r₀ w hw hu hst hm).2, ← rest_iff γ c.beta hb st θ [w] (by simpa using hw) (by simpa using h0)]
  simp only [List.map_cons, List.map_nil, List.sum_cons, List.sum_nil, add_zero]
  rw [smul_eq_zero, or_iff_right (neg_ne_zero.2 hcoef)]

/-- C168, A2C: the expected update from rollouts of `n` steps in several environments vanishes exactly if the policy is at rest, with the temperature `entropy_coeff / pi_loss_coef`. -/
theorem C168_a2c (c : A2CCfg) (γ : ℝ) (n : Nat) (hn : 1 ≤ n) (hcoef : 0 < c.piLossCoef) (hb : 0 ≤ c.entropyCoeff) (st : List O → X) (θ : X → A → ℝ) (v : List O → ℝ) (ws : List (World Ω O A))
    (hne : ws ≠ []) (hw : ∀ w ∈ ws, w.Stochastic) (h0 : ∀ w ∈ ws, w.Nonneg) (hx : ∀ w ∈ ws, w.Exactly n) :
    expectAll (softPi st θ) ws (fun qs => fderiv ℝ (a2cLoss c γ n (softPi st) (softEnt st) v qs) θ) = 0 ↔ AtRest γ (c.entropyCoeff / c.piLossCoef) st θ ws := by
  have h1 : (ws.length * n : ℝ)⁻¹ ≠ 0 := by
    have : 0 < ws.length := List.length_pos_of_ne_nil hne
    have : 0 < n := hn
    positivity
  rw [(C103_a2c c γ n hn (softPi st) (softEnt st) θ (soft_smooth st θ) v ws hw hx).2, ← rest_iff γ (c.entropyCoeff / c.piLossCoef) (by positivity) st θ ws hw h0, neg_eq_zero,
    smul_eq_zero, or_iff_right h1]
  have h2 : c.piLossCoef • (ws.map fun w => policyGradient γ (softPi st) θ w []).sum + c.entropyCoeff • (ws.map fun w => entropyGradient (softPi st) (softEnt st) θ w).sum =
      c.piLossCoef • ((ws.map fun w => policyGradient γ (softPi st) θ w []).sum + (c.entropyCoeff / c.piLossCoef) • (ws.map fun w => entropyGradient (softPi st) (softEnt st) θ w).sum) := by
    rw [smul_add, smul_smul, mul_div_cancel₀ _ hcoef.ne']
  rw [h2, smul_eq_zero, or_iff_right hcoef.ne']

/-! ## How good a policy at rest is -/

/-- The expected return at a decision is the average of the action values. -/
theorem value_node (γ : ℝ) (pi : List O → A → ℝ) (hpi : ∀ h, ∑ a, pi h a = 1) (o : O) (p r : A → Ω → ℝ) (e : A → Ω → Bool) (next : A → Ω → World Ω O A) (h : List O)
    (hw : (World.node o p r e next).Stochastic) :
    value γ pi (.node o p r e next) h = ∑ a, pi (h ++ [o]) a * ∑ ω, p a ω * (r a ω + if e a ω then 0 else γ * value γ pi (next a ω) (h ++ [o])) := by
  have h1 : ∀ a ω, expect pi (next a ω) (h ++ [o]) (fun q => ret γ (q.cons ⟨h ++ [o], a, r a ω, e a ω⟩).endValue (q.cons ⟨h ++ [o], a, r a ω, e a ω⟩).steps) =
      r a ω + if e a ω then 0 else γ * value γ pi (next a ω) (h ++ [o]) := fun a ω => by
    have e1 : (fun q : Path O A => ret γ (q.cons ⟨h ++ [o], a, r a ω, e a ω⟩).endValue (q.cons ⟨h ++ [o], a, r a ω, e a ω⟩).steps) =
        fun q => r a ω + (LinearMap.lsmul ℝ ℝ (if e a ω then 0 else γ)) (ret γ q.endValue q.steps) := by
      funext q
      show r a ω + (if e a ω then 0 else γ * ret γ q.endValue q.steps) = r a ω + (if e a ω then 0 else γ) • ret γ q.endValue q.steps
      cases e a ω <;> simp
    rw [e1, expect_add, expect_const pi hpi _ _ _ (hw.2 a ω), expect_map]
    simp only [value, LinearMap.lsmul_apply, smul_eq_mul]
    cases e a ω <;> simp
  conv_lhs => unfold value
  simp only [expect, h1, Finset.mul_sum, smul_eq_mul, mul_assoc]

theorem always_mono (γ : ℝ) (pi : List O → A → ℝ) {P Q : List O → (A → ℝ) → Prop} (hPQ : ∀ h q, P h q → Q h q) : ∀ (w : World Ω O A) (h : List O), Always γ pi P w h → Always γ pi Q w h
  | .leaf _ _, _, _ => trivial
  | .node _ _ _ _ next, _, hP => ⟨hPQ _ _ hP.1, fun a ω hp => always_mono γ pi hPQ (next a ω) _ (hP.2 a ω hp)⟩

theorem always_and (γ : ℝ) (pi : List O → A → ℝ) {P Q : List O → (A → ℝ) → Prop} : ∀ (w : World Ω O A) (h : List O), Always γ pi P w h → Always γ pi Q w h → Always γ pi (fun h q => P h q ∧ Q h q) w h
  | .leaf _ _, _, _, _ => trivial
  | .node _ _ _ _ next, _, hP, hQ => ⟨⟨hP.1, hQ.1⟩, fun a ω hp => always_and γ pi (next a ω) _ (hP.2 a ω hp) (hQ.2 a ω hp)⟩

theorem always_visited (γ : ℝ) (st : List O → X) (θ : X → A → ℝ) (D : X → ℝ) : ∀ (w : World Ω O A) (h : List O), w.Nonneg →
    (∀ x, 0 < decisions γ (softPi st θ) w h (fun h _ => if st h = x then (1 : ℝ) else 0) → 0 < D x) → Always γ (softPi st θ) (fun h _ => 0 < D (st h)) w h
  | .leaf _ _, _, _, _ => trivial
  | .node o p r e next, h, hn, hD => by
    have hnn : ∀ x a ω, 0 ≤ decisions γ (softPi st θ) (next a ω) (h ++ [o]) (fun h _ => if st h = x then (1 : ℝ) else 0) := fun x a ω =>
      decisions_nonneg γ _ (soft_nonneg st θ) _ (fun h _ => by split <;> norm_num) (next a ω) _ (hn a ω).2
    have hterm : ∀ x a ω, 0 ≤ (softPi st θ (h ++ [o]) a * p a ω) • decisions γ (softPi st θ) (next a ω) (h ++ [o]) (fun h _ => if st h = x then (1 : ℝ) else 0) := fun x a ω =>
      mul_nonneg (mul_nonneg (soft_nonneg st θ _ a) (hn a ω).1) (hnn x a ω)
    refine ⟨hD _ ?_, fun a ω hp => always_visited γ st θ D (next a ω) _ (hn a ω).2 fun x hx => hD x ?_⟩
    · simp only [decisions, if_true]
      have := Finset.sum_nonneg fun a (_ : a ∈ Finset.univ) => Finset.sum_nonneg fun ω (_ : ω ∈ Finset.univ) => hterm (st (h ++ [o])) a ω
      linarith
    · simp only [decisions]
      have h1 : 0 < (softPi st θ (h ++ [o]) a * p a ω) • decisions γ (softPi st θ) (next a ω) (h ++ [o]) (fun h _ => if st h = x then (1 : ℝ) else 0) :=
        mul_pos (mul_pos (row_pos θ _ a) hp) hx
      have h2 := Finset.single_le_sum (fun ω _ => hterm x a ω) (Finset.mem_univ ω)
      have h3 := Finset.single_le_sum (f := fun a => ∑ ω, (softPi st θ (h ++ [o]) a * p a ω) • decisions γ (softPi st θ) (next a ω) (h ++ [o]) (fun h _ => if st h = x then (1 : ℝ) else 0))
        (fun a _ => Finset.sum_nonneg fun ω _ => hterm x a ω) (Finset.mem_univ a)
      have h4 : (0 : ℝ) ≤ if st (h ++ [o]) = x then 1 else 0 := by split <;> norm_num
      linarith

theorem decisions_always (γ : ℝ) (pi : List O → A → ℝ) (f g : List O → (A → ℝ) → ℝ) : ∀ (w : World Ω O A) (h : List O), w.Nonneg → Always γ pi (fun h q => f h q = g h q) w h →
    decisions γ pi w h f = decisions γ pi w h g
  | .leaf _ _, _, _, _ => rfl
  | .node o p r e next, h, hn, hP => by
    simp only [decisions]
    congr 1
    · exact hP.1
    · refine Finset.sum_congr rfl fun a _ => Finset.sum_congr rfl fun ω _ => ?_
      rcases (hn a ω).1.lt_or_eq with hp | hp
      · rw [decisions_always γ pi f g (next a ω) _ (hn a ω).2 (hP.2 a ω hp)]
      · rw [← hp, mul_zero, zero_smul, zero_smul]

/-- If action values depend on the agent's state only they are the averages. -/
theorem average_observed (γ : ℝ) (st : List O → X) (θ q : X → A → ℝ) (ws : List (World Ω O A)) (hn : ∀ w ∈ ws, w.Nonneg)
    (hq : ∀ w ∈ ws, Always γ (softPi st θ) (fun h Q => Q = q (st h)) w []) (x : X) (hx : 0 < visits γ (softPi st θ) st ws x) (a : A) : average γ (softPi st θ) st ws x a = q x a := by
  unfold average
  rw [div_eq_iff hx.ne', visits, ← smul_eq_mul, List.smul_sum, List.map_map]
  refine congrArg List.sum (List.map_congr_left fun w hw => ?_)
  rw [decisions_always γ _ _ (fun h _ => (LinearMap.lsmul ℝ ℝ (q x a)) (if st h = x then 1 else 0)) w [] (hn w hw)
    (always_mono γ _ (fun h Q hQ => by by_cases hh : st h = x <;> simp [hQ, hh]) w [] (hq w hw)), decisions_map]
  rfl

theorem entropy_le (p : A → ℝ) (hp : ∀ a, 0 < p a) (h1 : ∑ a, p a = 1) : -∑ a, p a * Real.log (p a) ≤ Real.log (Fintype.card A) := by
  have hc : (0 : ℝ) < Fintype.card A := by exact_mod_cast Fintype.card_pos
  have h2 : ∀ a, -(p a * Real.log (p a)) ≤ (Fintype.card A : ℝ)⁻¹ - p a + p a * Real.log (Fintype.card A) := fun a => by
    have := Real.log_le_sub_one_of_pos (show 0 < (Fintype.card A : ℝ)⁻¹ / p a by have := hp a; positivity)
    rw [Real.log_div (inv_pos.2 hc).ne' (hp a).ne', Real.log_inv] at this
    have h3 := mul_le_mul_of_nonneg_left this (hp a).le
    rw [mul_sub, mul_sub, mul_div_cancel₀ _ (hp a).ne'] at h3
    linarith
  rw [← Finset.sum_neg_distrib]
  refine (Finset.sum_le_sum fun a _ => h2 a).trans ?_
  rw [Finset.sum_add_distrib, Finset.sum_sub_distrib, ← Finset.sum_mul, h1]
  simp [hc.ne']

/-- At rest no action is much better than the policy itself. -/
theorem rest_gap (beta : ℝ) (hb : 0 ≤ beta) (θ q : X → A → ℝ) (x : X)
    (h1 : 0 < beta → ∀ a, row θ x a = Real.exp (q x a / beta) / ∑ b, Real.exp (q x b / beta)) (h0 : beta = 0 → ∀ a b, q x a = q x b) (a : A) :
    q x a ≤ ∑ b, row θ x b * q x b + beta * Real.log (Fintype.card A) := by
  rcases hb.lt_or_eq with hb' | hb'
  · have h2 := (boltzmann_iff beta hb' θ q x).2 (h1 hb')
    have h3 : ∀ b, row θ x b * q x b = row θ x b * (q x a - beta * Real.log (row θ x a)) + beta * (row θ x b * Real.log (row θ x b)) := fun b => by
      rw [h2 a b]; ring
    have h4 := entropy_le (row θ x) (row_pos θ x) (row_sum θ x)
    have h5 : Real.log (row θ x a) ≤ 0 := Real.log_nonpos (row_pos θ x a).le (by
      rw [← row_sum θ x]; exact Finset.single_le_sum (fun b _ => (row_pos θ x b).le) (Finset.mem_univ a))
    simp only [h3, Finset.sum_add_distrib, ← Finset.sum_mul, ← Finset.mul_sum, row_sum, one_mul]
    have h6 := mul_le_mul_of_nonneg_left h4 hb
    have h7 := mul_nonneg hb (neg_nonneg.2 h5)
    linarith
  · have h2 : ∀ b, row θ x b * q x b = row θ x b * q x a := fun b => by rw [h0 hb'.symm a b]
    simp only [h2, ← Finset.sum_mul, row_sum, one_mul, ← hb', zero_mul, add_zero, le_refl]

theorem near_value (γ c : ℝ) (hγ0 : 0 ≤ γ) (hγ1 : γ ≤ 1) (hc : 0 ≤ c) (pi pi' : List O → A → ℝ) (hpi : ∀ h, ∑ a, pi h a = 1) (hpi' : ∀ h, ∑ a, pi' h a = 1)
    (hpi0 : ∀ h a, 0 ≤ pi' h a) : ∀ (n : Nat) (w : World Ω O A) (h : List O), w.AtMost n → w.Stochastic → w.Nonneg →
    Always γ pi (fun h Q => ∀ a, Q a ≤ ∑ b, pi h b * Q b + c) w h → value γ pi' w h ≤ value γ pi w h + n * c
  | n, .leaf d b, h, _, _, _, _ => by
    simp only [value, expect]
    have : 0 ≤ (n : ℝ) * c := by positivity
    linarith
  | 0, .node .., _, hm, _, _, _ => hm.elim
  | n + 1, .node o p r e next, h, hm, hw, hn, hP => by
    rw [value_node γ pi' hpi' o p r e next h hw, value_node γ pi hpi o p r e next h hw]
    have hnc : 0 ≤ (n : ℝ) * c := by positivity
    have h1 : ∀ a, ∑ ω, p a ω * (r a ω + if e a ω then 0 else γ * value γ pi' (next a ω) (h ++ [o])) ≤
        ∑ ω, p a ω * (r a ω + if e a ω then 0 else γ * value γ pi (next a ω) (h ++ [o])) + n * c := fun a => by
      have h2 : ∑ ω, p a ω * (r a ω + if e a ω then 0 else γ * value γ pi (next a ω) (h ++ [o])) + n * c =
          ∑ ω, p a ω * ((r a ω + if e a ω then 0 else γ * value γ pi (next a ω) (h ++ [o])) + n * c) := by
        simp only [mul_add, Finset.sum_add_distrib, ← Finset.sum_mul, hw.1 a, one_mul]
      rw [h2]
      refine Finset.sum_le_sum fun ω _ => ?_
      rcases (hn a ω).1.lt_or_eq with hp | hp
      · refine mul_le_mul_of_nonneg_left ?_ hp.le
        have ih := near_value γ c hγ0 hγ1 hc pi pi' hpi hpi' hpi0 n (next a ω) (h ++ [o]) (hm a ω) (hw.2 a ω) (hn a ω).2 (hP.2 a ω hp)
        cases e a ω
        · have h3 := mul_le_mul_of_nonneg_left ih hγ0
          have h4 := mul_le_mul_of_nonneg_right hγ1 hnc
          simp only [Bool.false_eq_true, if_false]
          linarith
        · simp only [if_true]; linarith
      · rw [← hp, zero_mul, zero_mul]
    have h5 : ∀ a, ∑ ω, p a ω * (r a ω + if e a ω then 0 else γ * value γ pi' (next a ω) (h ++ [o])) ≤
        ∑ b, pi (h ++ [o]) b * ∑ ω, p b ω * (r b ω + if e b ω then 0 else γ * value γ pi (next b ω) (h ++ [o])) + (n + 1 : ℕ) * c := fun a => by
      have := hP.1 a
      have := h1 a
      push_cast
      linarith
    calc _ ≤ ∑ a, pi' (h ++ [o]) a * (∑ b, pi (h ++ [o]) b * ∑ ω, p b ω * (r b ω + if e b ω then 0 else γ * value γ pi (next b ω) (h ++ [o])) + (n + 1 : ℕ) * c) :=
          Finset.sum_le_sum fun a _ => mul_le_mul_of_nonneg_left (h5 a) (hpi0 _ a)
      _ = _ := by rw [← Finset.sum_mul, hpi', one_mul]

/-- C168: if the agent's state tells all that matters, a policy at rest loses at most `n * beta * log |A|` against any policy in rollouts of at most `n` steps. -/
theorem C168_near_optimal (γ beta : ℝ) (hγ0 : 0 ≤ γ) (hγ1 : γ ≤ 1) (hb : 0 ≤ beta) (st : List O → X) (θ : X → A → ℝ) (ws : List (World Ω O A)) (hw : ∀ w ∈ ws, w.Stochastic) (hn : ∀ w ∈ ws, w.Nonneg)
    (q : X → A → ℝ) (hq : ∀ w ∈ ws, Always γ (softPi st θ) (fun h Q => Q = q (st h)) w []) (hr : AtRest γ beta st θ ws) (w : World Ω O A) (hmem : w ∈ ws) (n : Nat) (hm : w.AtMost n)
    (pi' : List O → A → ℝ) (hpi0 : ∀ h a, 0 ≤ pi' h a) (hpi1 : ∀ h, ∑ a, pi' h a = 1) :
    value γ pi' w [] ≤ value γ (softPi st θ) w [] + n * (beta * Real.log (Fintype.card A)) := by
  have hc : 0 ≤ beta * Real.log (Fintype.card A) := mul_nonneg hb (Real.log_natCast_nonneg _)
  have hvis : Always γ (softPi st θ) (fun h _ => 0 < visits γ (softPi st θ) st ws (st h)) w [] := by
    refine always_visited γ st θ (visits γ (softPi st θ) st ws) w [] (hn w hmem) fun x hx => hx.trans_le ?_
    refine List.single_le_sum (fun y hy => ?_) _ (List.mem_map.2 ⟨w, hmem, rfl⟩)
    obtain ⟨w', hw', rfl⟩ := List.mem_map.1 hy
    exact decisions_nonneg γ _ (soft_nonneg st θ) _ (fun h _ => by split <;> norm_num) w' [] (hn w' hw')
  refine near_value γ _ hγ0 hγ1 hc (softPi st θ) pi' (fun h => row_sum θ (st h)) hpi1 hpi0 n w [] hm (hw w hmem) (hn w hmem)
    (always_mono γ _ (fun h Q hQ a => ?_) w [] (always_and γ _ w [] (hq w hmem) hvis))
  obtain ⟨rfl, hv⟩ := hQ
  have hav := average_observed γ st θ q ws hn hq (st h) hv
  have hrx := hr (st h) hv
  simp only [hav] at hrx
  exact rest_gap beta hb θ q (st h) (fun hb' b => hrx.1 hb' h rfl b) hrx.2 a

/-! ## What a policy at rest need not be -/

/-- What one would expect an entropy bonus to do: the expected return plus `beta` times the expected entropies of all decisions. -/
noncomputable def regularized (γ beta : ℝ) (st : List O → X) (θ : X → A → ℝ) (w : World Ω O A) : ℝ :=
  value γ (softPi st θ) w [] + beta * expect (softPi st θ) w [] fun q => (q.steps.map fun s => softEnt st θ s.hist).sum

end

/-- Stop, or go on to a second decision.  Nothing is ever paid. -/
def goOn : World Unit Unit Bool :=
  .node () (fun _ _ => 1) (fun _ _ => 0) (fun _ _ => false) fun a _ =>
    match a with
    | true => .node () (fun _ _ => 1) (fun _ _ => 0) (fun _ _ => false) fun _ _ => .leaf true 0
    | false => .leaf true 0

/-- The agent knows which decision it is. -/
def goOnState (h : List Unit) : Bool := decide (h.length = 2)

theorem soft_bool {O X : Type} (st : List O → X) (θ : X → Bool → ℝ) (h : List O) : softPi st θ h false = 1 - softPi st θ h true := by
  have : 0 < Real.exp (θ (st h) true) + Real.exp (θ (st h) false) := by positivity
  simp only [softPi, Fintype.sum_bool]
  field_simp
  ring

theorem goOn_regularized (beta : ℝ) (θ : Bool → Bool → ℝ) : regularized 1 beta goOnState θ goOn =
    beta * (softEnt goOnState θ [()] + softPi goOnState θ [()] true * softEnt goOnState θ [(), ()]) := by
  simp only [regularized, value, goOn, expect, ret, Path.cons, Path.endValue, Fintype.sum_bool, Finset.univ_unique, Finset.sum_singleton, List.map_cons, List.map_nil, List.sum_cons, List.sum_nil,
    List.nil_append, List.cons_append, soft_bool, smul_eq_mul]
  simp
  ring_nf
  simp

/-- C168, violated: a policy at rest need not maximize the expected return plus the entropy bonus, since an agent does not value the bonus it gets later.  Whatever `beta` is, where going on
allows for more entropy the agent is at rest with even chances, although going on more often is better. -/
theorem C168_violated_bonus (beta : ℝ) (hb : 0 < beta) :
    AtRest 1 beta goOnState (0 : Bool → Bool → ℝ) [goOn] ∧ ∃ θ, regularized 1 beta goOnState (0 : Bool → Bool → ℝ) goOn < regularized 1 beta goOnState θ goOn := by
  refine ⟨fun x hx => ⟨fun _ h hh a => ?_, fun h => absurd h hb.ne'⟩, fun x a => if !x && a then Real.log 2 else 0, ?_⟩
  · have h0 : ∀ a, average 1 (softPi goOnState (0 : Bool → Bool → ℝ)) goOnState [goOn] x a = 0 := fun a => by
      unfold average
      cases a <;> simp [decisions, goOn, value, expect, ret, Path.cons, Path.endValue]
    simp [h0, softPi]
  · have e0 : ∀ h a, softPi goOnState (0 : Bool → Bool → ℝ) h a = 1 / 2 := fun h a => by
      simp [softPi]
    have e1 : softPi goOnState (fun x a => if !x && a then Real.log 2 else 0) [()] true = 2 / 3 := by
      simp [softPi, goOnState, Real.exp_log]; norm_num
    have e2 : ∀ a, softPi goOnState (fun x a => if !x && a then Real.log 2 else 0) [(), ()] a = 1 / 2 := fun a => by
      cases a <;> simp [softPi, goOnState] <;> norm_num
    rw [goOn_regularized, goOn_regularized]
    refine mul_lt_mul_of_pos_left ?_ hb
    simp only [softEnt, Fintype.sum_bool, soft_bool, e0, e1, e2]
    have l1 : Real.log (1 / 2) = -Real.log 2 := by rw [one_div, Real.log_inv]
    have l2 : Real.log (2 / 3) = Real.log 2 - Real.log 3 := Real.log_div (by norm_num) (by norm_num)
    have l3 : Real.log (1 / 3) = -Real.log 3 := by rw [one_div, Real.log_inv]
    have l4 : 3 * Real.log 2 < 2 * Real.log 3 := by
      have h8 : Real.log (2 ^ 3) < Real.log (3 ^ 2) := Real.log_lt_log (by norm_num) (by norm_num)
      rw [Real.log_pow, Real.log_pow] at h8
      exact_mod_cast h8
    rw [show (1 : ℝ) - 2 / 3 = 1 / 3 by norm_num, l2, l3, l1]
    linarith

/-- Two decisions; equal ones are paid. -/
def same : World Unit Unit Bool :=
  .node () (fun _ _ => 1) (fun _ _ => 0) (fun _ _ => false) fun a _ =>
    .node () (fun _ _ => 1) (fun b _ => if a = b then 1 else 0) (fun _ _ => false) fun _ _ => .leaf true 0

theorem same_value (θ : Unit → Bool → ℝ) : value 1 (softPi (fun _ : List Unit => ()) θ) same [] =
    softPi (fun _ : List Unit => ()) θ [] true ^ 2 + softPi (fun _ : List Unit => ()) θ [] false ^ 2 := by
  have h1 : ∀ h a, softPi (fun _ : List Unit => ()) θ h a = softPi (fun _ : List Unit => ()) θ [] a := fun _ _ => rfl
  simp only [value, same, expect, ret, Path.cons, Path.endValue, Fintype.sum_bool, Finset.univ_unique, Finset.sum_singleton, smul_eq_mul, h1]
  simp
  ring

/-- C168, violated: if the agent's state does not tell which decision it is, a policy at rest may be worse than others that use the same state, even without an entropy bonus. -/
theorem C168_violated_hidden :
    AtRest 1 0 (fun _ : List Unit => ()) (0 : Unit → Bool → ℝ) [same] ∧
    value 1 (softPi (fun _ : List Unit => ()) (0 : Unit → Bool → ℝ)) same [] = 1 / 2 ∧
    ∀ ε > 0, ∃ θ, 1 - ε < value 1 (softPi (fun _ : List Unit => ()) θ) same [] := by
  have e0 : ∀ h a, softPi (fun _ : List Unit => ()) (0 : Unit → Bool → ℝ) h a = 1 / 2 := fun h a => by simp [softPi]
  refine ⟨fun x _ => ⟨fun h => absurd h (lt_irrefl _), fun _ a b => ?_⟩, ?_, fun ε hε => ?_⟩
  · unfold average
    cases a <;> cases b <;> simp [decisions, same, value, expect, ret, Path.cons, Path.endValue, e0]
  · rw [same_value, e0, e0]; norm_num
  · set m : ℝ := max 1 (2 / ε) with hm
    have hm1 : 1 ≤ m := le_max_left _ _
    refine ⟨fun _ a => if a then Real.log m else 0, ?_⟩
    have e1 : softPi (fun _ : List Unit => ()) (fun _ a => if a then Real.log m else 0) [] true = m / (m + 1) := by
      simp [softPi, Real.exp_log (by linarith : 0 < m)]
    rw [same_value, soft_bool, e1]
    have h2 : 2 / ε ≤ m := le_max_right _ _
    have h3 : 2 ≤ m * ε := by rwa [div_le_iff₀ hε] at h2
    have h4 : m / (m + 1) = 1 - 1 / (m + 1) := by field_simp; ring
    have h5 : 2 * (1 / (m + 1)) < ε := by
      rw [← mul_div_assoc, mul_one, div_lt_iff₀ (by linarith)]; nlinarith
    rw [h4]
    nlinarith [sq_nonneg (1 / (m + 1))]

/-- C168: the probabilities and the entropy are those of a `SoftmaxDistribution` of the row of logits, with the default `beta` and `min_prob`. -/
theorem C168_distribution {n : Nat} (hn : 0 < n) {O X : Type} (st : List O → X) (θ : X → Fin n → ℝ) (h : List O) :
    ∃ d, Distrib.softmaxDist (θ (st h)) 1 0 = .ok d ∧ d.allProb = softPi st θ h ∧ (∀ a, d.allLogProb a = Real.log (softPi st θ h a)) ∧ d.entropy = softEnt st θ h := by
  have : Nonempty (Fin n) := ⟨⟨0, hn⟩⟩
  have hZ : 0 < ∑ b, Real.exp (θ (st h) b) := by positivity
  have h1 : Distrib.softmaxProb (θ (st h)) 1 0 = softPi st θ h := by
    funext a
    simp [Distrib.softmaxProb, Distrib.softmax, softPi]
  have h2 : ∀ a, Distrib.softmaxLogProb (θ (st h)) 1 0 a = Real.log (softPi st θ h a) := fun a => by
    rw [softPi, Real.log_div (Real.exp_pos _).ne' hZ.ne', Real.log_exp]
    simp [Distrib.softmaxLogProb, Distrib.logSoftmax]
  refine ⟨_, by rw [Distrib.softmaxDist, if_pos (by simp)], h1, h2, ?_⟩
  simp only [Distrib.Categorical.entropy, softEnt, h1, h2]

/-! ## Examples -/

/-- One decision; `true` is paid. -/
def choice : World Unit Unit Bool := .node () (fun _ _ => 1) (fun a _ => if a then 1 else 0) (fun _ _ => false) fun _ _ => .leaf true 0

example : choice.Stochastic ∧ choice.Nonneg ∧ choice.Unbroken ∧ choice.Complete ∧ choice.Starts ∧ choice.AtMost 1 ∧ choice.Exactly 1 := by
  simp [choice, World.Stochastic, World.Nonneg, World.Unbroken, World.Complete, World.Starts, World.AtMost, World.Exactly]

theorem choice_average (θ : Unit → Bool → ℝ) (x : Unit) (a : Bool) : average 1 (softPi (fun _ : List Unit => ()) θ) (fun _ => ()) [choice] x a = if a then 1 else 0 := by
  cases a <;> simp [average, visits, decisions, choice, value, expect, ret, Path.endValue]

/-- At rest, for the temperature 1, `true` has the probability `e / (e + 1)`. -/
theorem choice_rest : AtRest 1 1 (fun _ : List Unit => ()) (fun (_ : Unit) (a : Bool) => if a then 1 else 0) [choice] := fun x _ =>
  ⟨fun _ h _ a => by simp only [choice_average, div_one, softPi], fun h => absurd h (by norm_num)⟩

/-- REINFORCE is at rest there, in the sense of its own loss. -/
example (c : Reinforce.Cfg ℝ) (hn : 1 ≤ c.batchsize) (hb : c.beta = 1) (r₀ : ℝ) :
    expectAll (softPi (fun _ : List Unit => ()) (fun (_ : Unit) (a : Bool) => if a then 1 else 0)) (List.replicate c.batchsize choice)
      (fun qs => fderiv ℝ (reinforceLoss c (softPi (fun _ : List Unit => ())) (softEnt fun _ => ()) r₀ qs) (fun (_ : Unit) (a : Bool) => if a then 1 else 0)) = 0 :=
  (C168_reinforce c hn (by rw [hb]; norm_num) (fun _ => ()) _ r₀ choice (by simp [choice, World.Stochastic]) (by simp [choice, World.Nonneg]) (by simp [choice, World.Unbroken])
    (by simp [choice, World.Complete]) (by simp [choice, World.Starts])).2 (by rw [hb]; exact choice_rest)

/-- Without an entropy bonus it never is: `true` is always better. -/
example (c : Reinforce.Cfg ℝ) (hn : 1 ≤ c.batchsize) (hb : c.beta = 0) (r₀ : ℝ) (θ : Unit → Bool → ℝ) :
    expectAll (softPi (fun _ : List Unit => ()) θ) (List.replicate c.batchsize choice)
      (fun qs => fderiv ℝ (reinforceLoss c (softPi (fun _ : List Unit => ())) (softEnt fun _ => ()) r₀ qs) θ) ≠ 0 := by
  rw [Ne, C168_reinforce c hn (by rw [hb]) (fun _ => ()) _ r₀ choice (by simp [choice, World.Stochastic]) (by simp [choice, World.Nonneg]) (by simp [choice, World.Unbroken])
    (by simp [choice, World.Complete]) (by simp [choice, World.Starts])]
  intro h
  have := (h () (by simp [visits, decisions, choice])).2 hb true false
  simp [choice_average] at this

/-- The agent's state tells everything in `choice`. -/
example (θ : Unit → Bool → ℝ) : Always 1 (softPi (fun _ : List Unit => ()) θ) (fun _ Q => Q = fun a => if a then 1 else 0) choice [] := by
  refine ⟨?_, fun _ _ _ => trivial⟩
  funext a
  cases a <;> simp [value, expect, ret, Path.endValue]

end Verif.PolicyGradient
