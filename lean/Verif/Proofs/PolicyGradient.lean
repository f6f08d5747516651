import Mathlib.Analysis.Calculus.FDeriv.Comp
import Mathlib.Tactic.Ring
import Mathlib.Tactic.FieldSimp
import Mathlib.Tactic.LinearCombination
import Verif.Spec.PolicyGradient
set_option autoImplicit false
set_option linter.unusedSectionVars false

/-! # Proofs for C103: rollouts and the policy gradient -/

namespace Verif.PolicyGradient

section
variable {Ω O A : Type} [Fintype Ω] [Fintype A] {F G : Type} [AddCommGroup F] [Module ℝ F]
  [AddCommGroup G] [Module ℝ G]

theorem expect_map (pi : List O → A → ℝ) (L : F →ₗ[ℝ] G) : ∀ (w : World Ω O A) (h : List O)
    (f : Path O A → F), expect pi w h (fun q => L (f q)) = L (expect pi w h f)
  | .leaf _ _, _, _ => rfl
  | .node o p r e next, h, f => by
    simp only [expect, map_sum, map_smul]
    refine Finset.sum_congr rfl fun a _ => Finset.sum_congr rfl fun ω _ => ?_
    rw [expect_map pi L (next a ω)]

theorem expect_add (pi : List O → A → ℝ) : ∀ (w : World Ω O A) (h : List O)
    (f g : Path O A → F), expect pi w h (fun q => f q + g q) = expect pi w h f + expect pi w h g
  | .leaf _ _, _, _, _ => rfl
  | .node o p r e next, h, f, g => by
    simp only [expect, ← Finset.sum_add_distrib, ← smul_add]
    refine Finset.sum_congr rfl fun a _ => Finset.sum_congr rfl fun ω _ => ?_
    rw [expect_add pi (next a ω)]

theorem expect_const (pi : List O → A → ℝ) (hpi : ∀ h, ∑ a, pi h a = 1) : ∀ (w : World Ω O A)
    (h : List O) (x : F), w.Stochastic → expect pi w h (fun _ => x) = x
  | .leaf _ _, _, _, _ => rfl
  | .node o p r e next, h, x, hw => by
    simp only [expect]
    have : ∀ a ω, expect pi (next a ω) (h ++ [o]) (fun _ : Path O A => x) = x :=
      fun a ω => expect_const pi hpi (next a ω) _ x (hw.2 a ω)
    simp only [this, ← Finset.sum_smul, ← Finset.mul_sum, hw.1, mul_one, hpi, one_smul]

theorem expect_congr (pi : List O → A → ℝ) : ∀ (w : World Ω O A) (h : List O) (f g : Path O A → F),
    (∀ q, f q = g q) → expect pi w h f = expect pi w h g
  | w, h, f, g, hfg => by rw [show f = g from funext hfg]

theorem expect_congr' (pi : List O → A → ℝ) : ∀ (w : World Ω O A) (h : List O) (f g : Path O A → F),
    (∀ q, Occurs w h q → f q = g q) → expect pi w h f = expect pi w h g
  | .leaf _ _, _, _, _, H => H _ rfl
  | .node o p r e next, h, f, g, H => by
    simp only [expect]
    refine Finset.sum_congr rfl fun a _ => Finset.sum_congr rfl fun ω _ => ?_
    rw [expect_congr' pi (next a ω) (h ++ [o]) _ _ fun q hq => H _ ⟨a, ω, q, hq, rfl⟩]

theorem expectAll_congr (pi : List O → A → ℝ) : ∀ (ws : List (World Ω O A)) (f g : List (Path O A) → F),
    (∀ qs, List.Forall₂ (fun w q => Occurs w [] q) ws qs → f qs = g qs) → expectAll pi ws f = expectAll pi ws g
  | [], _, _, H => H _ .nil
  | w :: ws, f, g, H => by
    simp only [expectAll]
    exact expect_congr' pi w [] _ _ fun q hq => expectAll_congr pi ws _ _ fun qs hqs => H _ (.cons hq hqs)

theorem expectAll_const (pi : List O → A → ℝ) (hpi : ∀ h, ∑ a, pi h a = 1) : ∀ (ws : List (World Ω O A))
    (x : F), (∀ w ∈ ws, w.Stochastic) → expectAll pi ws (fun _ => x) = x
  | [], _, _ => rfl
  | w :: ws, x, H => by
    simp only [expectAll]
    rw [expect_congr pi w [] _ (fun _ => x) fun q => expectAll_const pi hpi ws x fun w' h' => H w' (by simp [h'])]
    exact expect_const pi hpi w [] x (H w (by simp))

theorem expectAll_map (pi : List O → A → ℝ) (L : F →ₗ[ℝ] G) : ∀ (ws : List (World Ω O A))
    (f : List (Path O A) → F), expectAll pi ws (fun q => L (f q)) = L (expectAll pi ws f)
  | [], _ => rfl
  | w :: ws, f => by
    simp only [expectAll]
    rw [expect_congr pi w [] _ _ fun q => expectAll_map pi L ws _]
    rw [expect_map]

theorem expectAll_add (pi : List O → A → ℝ) : ∀ (ws : List (World Ω O A))
    (f g : List (Path O A) → F), expectAll pi ws (fun q => f q + g q) = expectAll pi ws f + expectAll pi ws g
  | [], _, _ => rfl
  | w :: ws, f, g => by
    simp only [expectAll]
    rw [expect_congr pi w [] _ _ fun q => expectAll_add pi ws _ _]
    rw [expect_add]

/-- Independent rollouts: the expectation of a sum of functions of the single rollouts. -/
theorem expectAll_sum (pi : List O → A → ℝ) (hpi : ∀ h, ∑ a, pi h a = 1) (f : Path O A → F) :
    ∀ (ws : List (World Ω O A)), (∀ w ∈ ws, w.Stochastic) →
    expectAll pi ws (fun qs => (qs.map f).sum) = (ws.map fun w => expect pi w [] f).sum
  | [], _ => rfl
  | w :: ws, H => by
    have ih := expectAll_sum pi hpi f ws fun w' h' => H w' (by simp [h'])
    simp only [expectAll, List.map_cons, List.sum_cons]
    rw [expect_congr pi w [] _ (fun q => f q + (ws.map fun w => expect pi w [] f).sum) fun q => ?_]
    · rw [expect_add, expect_const pi hpi w [] _ (H w (by simp))]
    · rw [expectAll_add, ih, expectAll_const pi hpi ws _ fun w' h' => H w' (by simp [h'])]

end

section
variable {Ω O A : Type} [Fintype Ω] [Fintype A] {E : Type} [NormedAddCommGroup E] [NormedSpace ℝ E]

/-- The derivative of the log probability. -/
theorem fderiv_log {X : Type} {pi : E → X → A → ℝ} {ent : E → X → ℝ} {θ₀ : E} (hs : Smooth pi ent θ₀) (x : X) (a : A) :
    HasFDerivAt (fun θ => Real.log (pi θ x a)) ((pi θ₀ x a)⁻¹ • fderiv ℝ (fun θ => pi θ x a) θ₀) θ₀ :=
  (hs.diff x a).hasFDerivAt.log (hs.pos x a).ne'

/-- Derivatives of the probabilities cancel. -/
theorem sum_fderiv {X : Type} {pi : E → X → A → ℝ} {ent : E → X → ℝ} {θ₀ : E} (hs : Smooth pi ent θ₀) (x : X) :
    ∑ a, fderiv ℝ (fun θ => pi θ x a) θ₀ = 0 := by
  have h1 : HasFDerivAt (fun θ => ∑ a, pi θ x a) (∑ a, fderiv ℝ (fun θ => pi θ x a) θ₀) θ₀ :=
    HasFDerivAt.fun_sum fun a _ => (hs.diff x a).hasFDerivAt
  have h2 : (fun θ => ∑ a, pi θ x a) = fun _ => (1 : ℝ) := funext fun θ => hs.sum θ x
  rw [h2] at h1
  exact h1.unique (hasFDerivAt_const _ _)

theorem fderiv_mean {X : Type} {pi : E → X → A → ℝ} {ent : E → X → ℝ} {θ₀ : E} (hs : Smooth pi ent θ₀) (x : X)
    (Q : A → ℝ) :
    HasFDerivAt (fun θ => ∑ a, pi θ x a * Q a) (∑ a, Q a • fderiv ℝ (fun θ => pi θ x a) θ₀) θ₀ :=
  HasFDerivAt.fun_sum fun a _ => (hs.diff x a).hasFDerivAt.mul_const (Q a)

/-- One state: the mean of `(Q - baseline) * score` is the gradient of the mean of `Q`. -/
theorem mean_score {X : Type} {pi : E → X → A → ℝ} {ent : E → X → ℝ} {θ₀ : E} (hs : Smooth pi ent θ₀) (x : X)
    (Q : A → ℝ) (b : ℝ) :
    ∑ a, pi θ₀ x a • ((Q a - b) • fderiv ℝ (fun θ => Real.log (pi θ x a)) θ₀) =
      fderiv ℝ (fun θ => ∑ a, pi θ x a * Q a) θ₀ := by
  rw [(fderiv_mean hs x Q).fderiv]
  have : ∀ a, pi θ₀ x a • ((Q a - b) • fderiv ℝ (fun θ => Real.log (pi θ x a)) θ₀) =
      Q a • fderiv ℝ (fun θ => pi θ x a) θ₀ - b • fderiv ℝ (fun θ => pi θ x a) θ₀ := by
    intro a
    rw [(fderiv_log hs x a).fderiv, smul_smul, smul_smul, ← sub_smul]
    congr 1
    have := (hs.pos x a).ne'
    field_simp
  simp only [this, Finset.sum_sub_distrib, ← Finset.smul_sum, sum_fderiv hs x, smul_zero, sub_zero]

/-- The weighted score of a rollout. -/
noncomputable def scoreSum (γ : ℝ) (pi : E → List O → A → ℝ) (θ₀ : E) (b : List O → ℝ) (endValue : ℝ) :
    List (Step O A) → (E →L[ℝ] ℝ)
  | [] => 0
  | s :: l => (ret γ endValue (s :: l) - b s.hist) • fderiv ℝ (fun θ => Real.log (pi θ s.hist s.act)) θ₀ +
      scoreSum γ pi θ₀ b endValue l

theorem expect_score (γ : ℝ) (pi : E → List O → A → ℝ) (ent : E → List O → ℝ) (θ₀ : E) (hs : Smooth pi ent θ₀)
    (b : List O → ℝ) : ∀ (w : World Ω O A) (h : List O), w.Stochastic →
    expect (pi θ₀) w h (fun q => scoreSum γ pi θ₀ b q.endValue q.steps) = policyGradient γ pi θ₀ w h
  | .leaf _ _, _, _ => rfl
  | .node o p r e next, h, hw => by
    have hpi : ∀ x, ∑ a, pi θ₀ x a = 1 := hs.sum θ₀
    set x := h ++ [o] with hx
    let D : A → (E →L[ℝ] ℝ) := fun a => fderiv ℝ (fun θ => Real.log (pi θ x a)) θ₀
    let V : A → Ω → ℝ := fun a ω => r a ω + if e a ω then 0 else γ * value γ (pi θ₀) (next a ω) x
    have hin : ∀ a ω, expect (pi θ₀) (next a ω) x (fun q => scoreSum γ pi θ₀ b
        (q.cons ⟨x, a, r a ω, e a ω⟩).endValue (q.cons ⟨x, a, r a ω, e a ω⟩).steps) =
        (V a ω - b x) • D a + policyGradient γ pi θ₀ (next a ω) x := by
      intro a ω
      have e1 : (fun q : Path O A => scoreSum γ pi θ₀ b (q.cons ⟨x, a, r a ω, e a ω⟩).endValue
          (q.cons ⟨x, a, r a ω, e a ω⟩).steps) = fun q =>
          (((r a ω - b x) + (if e a ω then 0 else γ) * ret γ q.endValue q.steps) • D a) +
            scoreSum γ pi θ₀ b q.endValue q.steps := by
        funext q
        show scoreSum γ pi θ₀ b q.endValue (⟨x, a, r a ω, e a ω⟩ :: q.steps) = _
        simp only [scoreSum, ret]
        congr 2
        split <;> ring
      rw [e1, expect_add, expect_score γ pi ent θ₀ hs b (next a ω) x (hw.2 a ω)]
      congr 1
      have e2 := expect_map (pi θ₀) (LinearMap.toSpanSingleton ℝ (E →L[ℝ] ℝ) (D a)) (next a ω) x
        (fun q => (r a ω - b x) + (if e a ω then 0 else γ) * ret γ q.endValue q.steps)
      simp only [LinearMap.toSpanSingleton_apply] at e2
      rw [e2]
      congr 1
      rw [expect_add, expect_const (pi θ₀) hpi (next a ω) x _ (hw.2 a ω)]
      have e3 := expect_map (pi θ₀) (LinearMap.lsmul ℝ ℝ (if e a ω then 0 else γ)) (next a ω) x
        (fun q => ret γ q.endValue q.steps)
      simp only [LinearMap.lsmul_apply, smul_eq_mul] at e3
      rw [e3]
      show _ + (if e a ω then 0 else γ) * value γ (pi θ₀) (next a ω) x = _
      simp only [V]
      split <;> ring
    simp only [expect, policyGradient, ← hx, hin, smul_add, Finset.sum_add_distrib]
    congr 1
    rw [← mean_score hs x (fun a => ∑ ω, p a ω * V a ω) (b x)]
    refine Finset.sum_congr rfl fun a _ => ?_
    have : (∑ ω, p a ω * V a ω) - b x = ∑ ω, p a ω * (V a ω - b x) := by
      simp only [mul_sub, Finset.sum_sub_distrib, ← Finset.sum_mul, hw.1 a, one_mul]
    rw [this, Finset.sum_smul, Finset.smul_sum]
    refine Finset.sum_congr rfl fun ω _ => ?_
    rw [smul_smul, smul_smul]
    congr 1
    ring

/-- Undiscounted and unbroken: the policy gradient is the gradient of the value. -/
theorem hasFDerivAt_value (pi : E → List O → A → ℝ) (ent : E → List O → ℝ) (θ₀ : E) (hs : Smooth pi ent θ₀) :
    ∀ (w : World Ω O A) (h : List O), w.Stochastic → w.Unbroken →
    HasFDerivAt (fun θ => value 1 (pi θ) w h) (policyGradient 1 pi θ₀ w h) θ₀
  | .leaf d bt, h, _, _ => by
    simp only [value, expect, policyGradient]
    exact hasFDerivAt_const _ _
  | .node o p r e next, h, hw, hu => by
    set x := h ++ [o] with hx
    have hv : ∀ θ, value 1 (pi θ) (.node o p r e next) h =
        ∑ a, ∑ ω, pi θ x a * (p a ω * (r a ω + value 1 (pi θ) (next a ω) x)) := by
      intro θ
      simp only [value, expect, ← hx, smul_eq_mul]
      refine Finset.sum_congr rfl fun a _ => Finset.sum_congr rfl fun ω _ => ?_
      have e1 : (fun q : Path O A => ret 1 (q.cons ⟨x, a, r a ω, e a ω⟩).endValue (q.cons ⟨x, a, r a ω, e a ω⟩).steps) =
          fun q => r a ω + ret 1 q.endValue q.steps := by
        funext q
        show ret 1 q.endValue (⟨x, a, r a ω, e a ω⟩ :: q.steps) = _
        simp [ret, (hu a ω).1]
      rw [e1, expect_add, expect_const (pi θ) (hs.sum θ) (next a ω) x _ (hw.2 a ω)]
      ring
    simp only [hv]
    have hd : HasFDerivAt (fun θ => ∑ a, ∑ ω, pi θ x a * (p a ω * (r a ω + value 1 (pi θ) (next a ω) x)))
        (∑ a, ∑ ω, (pi θ₀ x a • (p a ω • policyGradient 1 pi θ₀ (next a ω) x) +
          (p a ω * (r a ω + value 1 (pi θ₀) (next a ω) x)) • fderiv ℝ (fun θ => pi θ x a) θ₀)) θ₀ := by
      refine HasFDerivAt.fun_sum fun a _ => HasFDerivAt.fun_sum fun ω _ => ?_
      exact (hs.diff x a).hasFDerivAt.mul
        (((hasFDerivAt_value pi ent θ₀ hs (next a ω) x (hw.2 a ω) (hu a ω).2).const_add _).const_mul _)
    convert hd using 1
    simp only [policyGradient, ← hx, (hu _ _).1, one_mul, Finset.sum_add_distrib, Bool.false_eq_true, if_false]
    rw [(fderiv_mean hs x _).fderiv, add_comm]
    congr 1
    · simp only [smul_smul]
    · refine Finset.sum_congr rfl fun a _ => ?_
      rw [Finset.sum_smul]

end

end Verif.PolicyGradient
