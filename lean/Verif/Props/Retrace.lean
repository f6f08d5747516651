import Mathlib.Tactic.Linarith
import Mathlib.Tactic.Ring
import Mathlib.Tactic.FieldSimp
import Mathlib.Algebra.Order.Archimedean.Basic
import Verif.Spec.Retrace
import Verif.Props.Optimality
set_option autoImplicit false
set_option linter.unusedSectionVars false

/-! # C137: the Retrace targets of ACER evaluate the current policy from data of any other policy -/

namespace Verif.MDP
open ACER
variable {S K α β : Type} [Field K] [LinearOrder K] [IsStrictOrderedRing K]

/-! ## Expectations -/

theorem expect_append (l l' : List (K × α)) (f : α → K) : expect (l ++ l') f = expect l f + expect l' f := by simp [expect]

theorem expect_flatMap (l : List (K × α)) (g : K × α → List (K × β)) (f : β → K) :
    expect (l.flatMap g) f = (l.map fun x => expect (g x) f).sum := by
  induction l with
  | nil => simp [expect]
  | cons x l ih => rw [List.flatMap_cons, expect_append, ih]; simp

theorem expect_scaled (l : List (K × α)) (w : K) (g : α → β) (f : β → K) :
    expect (l.map fun y => (w * y.1, g y.2)) f = w * expect l (fun y => f (g y)) := by
  induction l with
  | nil => simp [expect]
  | cons x l ih =>
    simp only [expect, List.map_cons, List.sum_cons] at ih ⊢
    rw [ih]; ring

theorem expect_single (w : K) (x : α) (f : α → K) : expect [(w, x)] f = w * f x := by simp [expect]

/-- The target of the first step. -/
def firstRet (gamma : K) (y : List (ACER.Step K) × K) : K := ((targets gamma y.2 y.1).head?.map (·.qRet)).getD 0

/-- The same without cutting. -/
def firstOpc (gamma : K) (y : List (ACER.Step K) × K) : K := ((targets gamma y.2 y.1).head?.map (·.qOpc)).getD 0

theorem firstRet_cons (gamma R : K) (s : ACER.Step K) (ss : List (ACER.Step K)) : firstRet gamma (s :: ss, R) = s.r + gamma * (loop gamma R ss).1.1 := by
  simp [firstRet, targets, loop]

theorem firstOpc_cons (gamma R : K) (s : ACER.Step K) (ss : List (ACER.Step K)) : firstOpc gamma (s :: ss, R) = s.r + gamma * (loop gamma R ss).1.2 := by
  simp [firstOpc, targets, loop]

section
variable (env : Env S K) (he : env.Valid) (gamma : K) (p : S → Nat → K) (Q : S → Nat → K) (mu c : List (S × Nat) → S → Nat → K)

/-- All segments begin with the step of the given state and action. -/
theorem segments_head (n : Nat) (h : List (S × Nat)) (s : S) (a : Nat) :
    ∀ y ∈ segments env p Q mu c n h s a, ∃ st ss, y.2.1 = st :: ss ∧ st.v = stateValue env p Q s ∧ st.q = Q s a ∧ st.c = c h s a := by
  intro y hy
  rw [segments] at hy
  obtain ⟨x, -, hy⟩ := List.mem_flatMap.1 hy
  cases hd : x.2.done with
  | true =>
    simp only [hd, if_true, List.mem_singleton] at hy
    subst hy
    exact ⟨_, _, rfl, rfl, rfl, rfl⟩
  | false =>
    simp only [hd, Bool.false_eq_true, if_false] at hy
    cases n with
    | zero =>
      simp only [List.mem_singleton] at hy
      subst hy
      exact ⟨_, _, rfl, rfl, rfl, rfl⟩
    | succ n =>
      simp only at hy
      obtain ⟨x', -, hy⟩ := List.mem_flatMap.1 hy
      obtain ⟨z, -, rfl⟩ := List.mem_map.1 hy
      exact ⟨_, _, rfl, rfl, rfl, rfl⟩

/-- The probabilities of the segments. -/
theorem segments_dist (hmu : ∀ h s, IsProbs env (mu h s)) (he : env.Valid) (n : Nat) :
    ∀ h s a, a < env.nA → (∀ y ∈ segments env p Q mu c n h s a, 0 ≤ y.1) ∧ ∀ k : K, expect (segments env p Q mu c n h s a) (fun _ => k) = k := by
  induction n with
  | zero =>
    intro h s a ha
    have hd := he s a ha
    have e : segments env p Q mu c 0 h s a = (env.outcomes s a).map fun x => (x.1, ([⟨x.2.reward, stateValue env p Q s, Q s a, c h s a⟩],
        if x.2.done then 0 else stateValue env p Q x.2.next)) := by
      rw [segments, List.map_eq_flatMap]
      congr 1
      funext x
      cases x.2.done <;> rfl
    rw [e]
    constructor
    · intro y hy
      obtain ⟨x, hx, rfl⟩ := List.mem_map.1 hy
      exact hd.1 x hx
    · intro k
      have := expect_const _ hd k
      simpa [expect, Function.comp_def] using this
  | succ n ih =>
    intro h s a ha
    have hd := he s a ha
    constructor
    · intro y hy
      rw [segments] at hy
      obtain ⟨x, hx, hy⟩ := List.mem_flatMap.1 hy
      cases hdn : x.2.done with
      | true =>
        simp only [hdn, if_true, List.mem_singleton] at hy
        subst hy
        exact hd.1 x hx
      | false =>
        simp only [hdn, Bool.false_eq_true, if_false] at hy
        obtain ⟨x', hx', hy⟩ := List.mem_flatMap.1 hy
        obtain ⟨z, hz, rfl⟩ := List.mem_map.1 hy
        obtain ⟨a', ha', rfl⟩ := List.mem_map.1 hx'
        have ha' := List.mem_range.1 ha'
        exact mul_nonneg (mul_nonneg (hd.1 x hx) ((hmu _ _).1 a' ha')) ((ih _ _ a' ha').1 z hz)
    · intro k
      rw [segments, expect_flatMap]
      refine Eq.trans ?_ (expect_const _ hd k)
      unfold expect
      congr 1
      refine List.map_congr_left (fun x hx => ?_)
      cases hdn : x.2.done with
      | true => simp
      | false =>
        simp only [Bool.false_eq_true, if_false]
        have := expect_flatMap (choices env (mu (h ++ [(s, a)]) x.2.next)) (fun x' =>
          (segments env p Q mu c n (h ++ [(s, a)]) x.2.next x'.2).map fun y =>
            (x.1 * x'.1 * y.1, ((⟨x.2.reward, stateValue env p Q s, Q s a, c h s a⟩ : ACER.Step K) :: y.2.1, y.2.2))) (fun _ => k)
        unfold expect at this
        rw [this]
        have e : ∀ x' ∈ choices env (mu (h ++ [(s, a)]) x.2.next), expect ((segments env p Q mu c n (h ++ [(s, a)]) x.2.next x'.2).map fun y =>
            (x.1 * x'.1 * y.1, ((⟨x.2.reward, stateValue env p Q s, Q s a, c h s a⟩ : ACER.Step K) :: y.2.1, y.2.2))) (fun _ => k) = x.1 * k * x'.1 := by
          intro x' hx'
          obtain ⟨a', ha', rfl⟩ := List.mem_map.1 hx'
          have := expect_scaled (segments env p Q mu c n (h ++ [(s, a)]) x.2.next a') (x.1 * mu (h ++ [(s, a)]) x.2.next a')
            (fun y => ((⟨x.2.reward, stateValue env p Q s, Q s a, c h s a⟩ : ACER.Step K) :: y.1, y.2)) (fun _ => k)
          rw [this, (ih _ _ a' (List.mem_range.1 ha')).2]
          ring
        have e' := List.map_congr_left e
        unfold expect at e'
        rw [e', List.sum_map_mul_left]
        have : (choices env (mu (h ++ [(s, a)]) x.2.next)).map (fun x' => x'.1) = (List.range env.nA).map (mu (h ++ [(s, a)]) x.2.next) := by
          simp [choices, Function.comp_def]
        rw [this, (hmu _ _).2]
        ring

/-- A target of the first step that is carried back with the factors `k`. -/
structure Carried (c k : List (S × Nat) → S → Nat → K) (F : List (ACER.Step K) × K → K) : Prop where
  one : ∀ s R, F ([s], R) = s.r + gamma * R
  more : ∀ (s t : ACER.Step K) ss R (h : List (S × Nat)) (s' : S) a', t.c = c h s' a' → F (s :: t :: ss, R) = s.r + gamma * (k h s' a' * (F (t :: ss, R) - t.q) + t.v)

theorem carried_ret : Carried gamma c c (firstRet gamma) where
  one s R := by rw [firstRet_cons]; rfl
  more s t ss R h s' a' ht := by rw [firstRet_cons, firstRet_cons]; simp only [loop, ht]

theorem carried_opc : Carried gamma c (fun _ _ _ => 1) (firstOpc gamma) where
  one s R := by rw [firstOpc_cons]; rfl
  more s t ss R h s' a' _ := by rw [firstOpc_cons, firstOpc_cons]; simp only [loop, one_mul]

variable {gamma c}

/-- The expected target of the first step of a segment of one step. -/
theorem expected_zero {k : List (S × Nat) → S → Nat → K} {F : List (ACER.Step K) × K → K} (hF : Carried gamma c k F) (h : List (S × Nat)) (s : S) (a : Nat) :
    expect (segments env p Q mu c 0 h s a) F = expect (env.outcomes s a) fun o => o.reward + if o.done then 0 else gamma * stateValue env p Q o.next := by
  rw [segments, expect_flatMap]
  unfold expect
  congr 1
  refine List.map_congr_left (fun x _ => ?_)
  cases hd : x.2.done with
  | true => simp [hd, hF.one]
  | false => simp [hd, hF.one]

/-- The expected target of the first step of a longer segment. -/
theorem expected_succ (he : env.Valid) (hmu : ∀ h s, IsProbs env (mu h s)) {k : List (S × Nat) → S → Nat → K} {F : List (ACER.Step K) × K → K}
    (hF : Carried gamma c k F) (n : Nat) (h : List (S × Nat)) (s : S) (a : Nat) :
    expect (segments env p Q mu c (n + 1) h s a) F = expect (env.outcomes s a) fun o => o.reward + if o.done then 0 else
      gamma * expect (choices env (mu (h ++ [(s, a)]) o.next)) fun a' =>
        k (h ++ [(s, a)]) o.next a' * (expect (segments env p Q mu c n (h ++ [(s, a)]) o.next a') F - Q o.next a') + stateValue env p Q o.next := by
  rw [segments, expect_flatMap]
  conv_rhs => unfold expect
  congr 1
  refine List.map_congr_left (fun x _ => ?_)
  cases hd : x.2.done with
  | true => simp [hd, expect_single, hF.one]
  | false =>
    simp only [hd, Bool.false_eq_true, if_false]
    rw [expect_flatMap]
    have e : ∀ x' ∈ choices env (mu (h ++ [(s, a)]) x.2.next), expect ((segments env p Q mu c n (h ++ [(s, a)]) x.2.next x'.2).map fun y =>
        (x.1 * x'.1 * y.1, ((⟨x.2.reward, stateValue env p Q s, Q s a, c h s a⟩ : ACER.Step K) :: y.2.1, y.2.2))) F =
        x.1 * (x'.1 * (gamma * (k (h ++ [(s, a)]) x.2.next x'.2 * (expect (segments env p Q mu c n (h ++ [(s, a)]) x.2.next x'.2) F - Q x.2.next x'.2) +
          stateValue env p Q x.2.next) + x.2.reward)) := by
      intro x' hx'
      obtain ⟨a', ha', rfl⟩ := List.mem_map.1 hx'
      have h1 := segments_dist env p Q mu c hmu he n (h ++ [(s, a)]) x.2.next a' (List.mem_range.1 ha')
      have h2 := expect_scaled (segments env p Q mu c n (h ++ [(s, a)]) x.2.next a') (x.1 * mu (h ++ [(s, a)]) x.2.next a')
        (fun y => ((⟨x.2.reward, stateValue env p Q s, Q s a, c h s a⟩ : ACER.Step K) :: y.1, y.2)) F
      rw [h2]
      have h3 : expect (segments env p Q mu c n (h ++ [(s, a)]) x.2.next a') (fun y => F ((⟨x.2.reward, stateValue env p Q s, Q s a, c h s a⟩ : ACER.Step K) :: y.1, y.2)) =
          expect (segments env p Q mu c n (h ++ [(s, a)]) x.2.next a') (fun y => (gamma * k (h ++ [(s, a)]) x.2.next a') * F y +
            (x.2.reward + gamma * (stateValue env p Q x.2.next - k (h ++ [(s, a)]) x.2.next a' * Q x.2.next a'))) := by
        refine expect_congr _ _ _ (fun y hy => ?_)
        obtain ⟨st, ss, e1, e2, e3, e4⟩ := segments_head env p Q mu c n _ _ _ y hy
        have : y.2 = (st :: ss, y.2.2) := by rw [← e1]
        rw [this, hF.more _ st ss _ _ _ _ e4, e2, e3]
        ring
      have h4 : ((segments env p Q mu c n (h ++ [(s, a)]) x.2.next a').map Prod.fst).sum = 1 := by
        have := h1.2 1
        simpa [expect] using this
      rw [h3, expect_affine, h4]
      ring
    rw [List.map_congr_left e, List.sum_map_mul_left]
    congr 1
    have h5 := expect_affine (choices env (mu (h ++ [(s, a)]) x.2.next)) (fun a' =>
      k (h ++ [(s, a)]) x.2.next a' * (expect (segments env p Q mu c n (h ++ [(s, a)]) x.2.next a') F - Q x.2.next a') + stateValue env p Q x.2.next) gamma x.2.reward
    have h6 : ((choices env (mu (h ++ [(s, a)]) x.2.next)).map Prod.fst).sum = 1 := by
      have : (choices env (mu (h ++ [(s, a)]) x.2.next)).map Prod.fst = (List.range env.nA).map (mu (h ++ [(s, a)]) x.2.next) := by
        simp [choices, Function.comp_def]
      rw [this, (hmu _ _).2]
    rw [h6, mul_one] at h5
    rw [add_comm] at h5
    exact h5

theorem choices_dist {q : Nat → K} (hq : IsProbs env q) : IsDist (choices env q) := by
  constructor
  · intro x hx
    obtain ⟨a, ha, rfl⟩ := List.mem_map.1 hx
    exact hq.1 a (List.mem_range.1 ha)
  · have : (choices env q).map Prod.fst = (List.range env.nA).map q := by simp [choices, Function.comp_def]
    rw [this, hq.2]

theorem mem_choices {q : Nat → K} {x : K × Nat} (hx : x ∈ choices env q) : x.2 < env.nA ∧ x.1 = q x.2 := by
  obtain ⟨a, ha, rfl⟩ := List.mem_map.1 hx
  exact ⟨List.mem_range.1 ha, rfl⟩

end

/-- C137, fixed point: computed from the values of the current policy, the expected targets of the first step are these values, for segments of any length, with data of
any behaviour policy and any trace coefficients; also the targets without cutting (`use_Q_opc`). -/
theorem C137_fixed_point (env : Env S K) (he : env.Valid) (gamma : K) (p : S → Nat → K) (mu c : List (S × Nat) → S → Nat → K)
    (hmu : ∀ h s, IsProbs env (mu h s)) (Q : S → Nat → K) (hQ : ValuesOf env gamma p Q) (n : Nat) :
    ∀ h s a, a < env.nA → expect (segments env p Q mu c n h s a) (firstRet gamma) = Q s a ∧
      expect (segments env p Q mu c n h s a) (firstOpc gamma) = Q s a := by
  have key : ∀ {k F}, Carried gamma c k F → ∀ n h s a, a < env.nA → expect (segments env p Q mu c n h s a) F = Q s a := by
    intro k F hF n
    induction n with
    | zero => intro h s a ha; rw [expected_zero env p Q mu hF, ← hQ s a ha]
    | succ n ih =>
      intro h s a ha
      rw [expected_succ env p Q mu he hmu hF, hQ s a ha]
      refine expect_congr _ _ _ (fun x _ => ?_)
      cases x.2.done with
      | true => rfl
      | false =>
        simp only [Bool.false_eq_true, if_false]
        congr 2
        rw [expect_congr _ _ (fun _ => stateValue env p Q x.2.next) (fun x' hx' => by
          rw [ih _ _ _ (mem_choices env hx').1, sub_self, mul_zero, zero_add])]
        exact expect_const _ (choices_dist env (hmu _ _)) _
  exact fun h s a ha => ⟨key (carried_ret gamma c) n h s a ha, key (carried_opc gamma c) n h s a ha⟩

/-- The trace coefficients of a discrete policy for actions recorded with their probabilities. -/
def retraceCoef (p : S → Nat → K) (mu : List (S × Nat) → S → Nat → K) (h : List (S × Nat)) (s : S) (a : Nat) : K := traceCoef (p s a / mu h s a)

theorem sum_sub {γ : Type} (l : List γ) (f g : γ → K) : (l.map f).sum - (l.map g).sum = (l.map fun x => f x - g x).sum := by
  induction l with
  | nil => simp
  | cons x l ih => simp only [List.map_cons, List.sum_cons, ← ih]; ring

theorem abs_sum_le {γ : Type} (l : List γ) (f g : γ → K) (h : ∀ x ∈ l, |f x| ≤ g x) : |(l.map f).sum| ≤ (l.map g).sum := by
  induction l with
  | nil => simp
  | cons x l ih =>
    simp only [List.map_cons, List.sum_cons]
    exact (abs_add_le _ _).trans (add_le_add (h x (by simp)) (ih fun y hy => h y (by simp [hy])))

/-- C137, contraction: computed from any values `δ` away from those of the current policy, the expected targets of the first step are at most `gamma * δ` away from
them, for segments of any length and data of any behaviour policy, with ACER's coefficients for discrete policies. -/
theorem C137_contraction (env : Env S K) (he : env.Valid) (gamma : K) (hg0 : 0 ≤ gamma) (hg1 : gamma ≤ 1) (p : S → Nat → K) (hp : ∀ s, IsProbs env (p s))
    (mu : List (S × Nat) → S → Nat → K) (hmu : ∀ h s, IsProbs env (mu h s)) (Qp : S → Nat → K) (hQp : ValuesOf env gamma p Qp) (Q : S → Nat → K) (δ : K) (hδ0 : 0 ≤ δ)
    (hδ : ∀ s a, a < env.nA → |Q s a - Qp s a| ≤ δ) (n : Nat) :
    ∀ h s a, a < env.nA → |expect (segments env p Q mu (retraceCoef p mu) n h s a) (firstRet gamma) - Qp s a| ≤ gamma * δ := by
  have hV : ∀ s, |stateValue env p Q s - stateValue env p Qp s| ≤ δ := fun s =>
    expect_close _ (choices_dist env (hp s)) _ _ _ (fun x hx => hδ s x.2 (mem_choices env hx).1)
  have hF := carried_ret gamma (retraceCoef p mu)
  induction n with
  | zero =>
    intro h s a ha
    rw [expected_zero env p Q mu hF, hQp s a ha]
    refine expect_close _ (he s a ha) _ _ _ (fun x _ => ?_)
    rw [add_sub_add_left_eq_sub]
    cases x.2.done with
    | true => simpa using mul_nonneg hg0 hδ0
    | false =>
      simp only [Bool.false_eq_true, if_false]
      rw [← mul_sub, abs_mul, abs_of_nonneg hg0]
      exact mul_le_mul_of_nonneg_left (hV _) hg0
  | succ n ih =>
    intro h s a ha
    rw [expected_succ env p Q mu he hmu hF, hQp s a ha]
    refine expect_close _ (he s a ha) _ _ _ (fun x _ => ?_)
    rw [add_sub_add_left_eq_sub]
    cases x.2.done with
    | true => simpa using mul_nonneg hg0 hδ0
    | false =>
      simp only [Bool.false_eq_true, if_false]
      rw [← mul_sub, abs_mul, abs_of_nonneg hg0]
      refine mul_le_mul_of_nonneg_left ?_ hg0
      generalize x.2.next = s'
      generalize h ++ [(s, a)] = h'
      rw [expect_add _ (choices_dist env (hmu _ _))]
      -- everything as one sum over the actions
      have e1 : expect (choices env (mu h' s')) (fun a' => retraceCoef p mu h' s' a' *
          (expect (segments env p Q mu (retraceCoef p mu) n h' s' a') (firstRet gamma) - Q s' a')) + stateValue env p Q s' - stateValue env p Qp s' =
          ((List.range env.nA).map fun a' => mu h' s' a' * (retraceCoef p mu h' s' a' *
            (expect (segments env p Q mu (retraceCoef p mu) n h' s' a') (firstRet gamma) - Q s' a')) + p s' a' * (Q s' a' - Qp s' a')).sum := by
        unfold stateValue choices
        simp only [expect, List.map_map, Function.comp_def]
        rw [add_sub_assoc, sum_sub, ← List.sum_map_add]
        congr 1
        refine List.map_congr_left (fun a' _ => ?_)
        ring
      rw [e1, show δ = ((List.range env.nA).map fun a' => p s' a' * δ).sum by rw [List.sum_map_mul_right, (hp s').2, one_mul]]
      refine abs_sum_le _ _ _ (fun a' ha' => ?_)
      have ha' := List.mem_range.1 ha'
      have hm := (hmu h' s').1 a' ha'
      have hpp := (hp s').1 a' ha'
      have hE := ih h' s' a' ha'
      have hE' : |expect (segments env p Q mu (retraceCoef p mu) n h' s' a') (firstRet gamma) - Qp s' a'| ≤ δ := hE.trans (by nlinarith)
      have hw0 : 0 ≤ mu h' s' a' * retraceCoef p mu h' s' a' := mul_nonneg hm (le_min zero_le_one (div_nonneg hpp hm))
      have hw1 : mu h' s' a' * retraceCoef p mu h' s' a' ≤ p s' a' := by
        rcases hm.eq_or_lt with h0 | h0
        · rw [← h0, zero_mul]; exact hpp
        · have : retraceCoef p mu h' s' a' ≤ p s' a' / mu h' s' a' := min_le_right _ _
          rw [le_div_iff₀ h0] at this
          linarith
      have e2 : mu h' s' a' * (retraceCoef p mu h' s' a' * (expect (segments env p Q mu (retraceCoef p mu) n h' s' a') (firstRet gamma) - Q s' a')) +
          p s' a' * (Q s' a' - Qp s' a') =
          mu h' s' a' * retraceCoef p mu h' s' a' * (expect (segments env p Q mu (retraceCoef p mu) n h' s' a') (firstRet gamma) - Qp s' a') +
          (p s' a' - mu h' s' a' * retraceCoef p mu h' s' a') * (Q s' a' - Qp s' a') := by ring
      rw [e2]
      refine (abs_add_le _ _).trans ?_
      rw [abs_mul _ (expect _ _ - _), abs_mul (p s' a' - _), abs_of_nonneg hw0, abs_of_nonneg (sub_nonneg.2 hw1)]
      have e3 := mul_le_mul_of_nonneg_left hE' hw0
      have e4 := mul_le_mul_of_nonneg_left (hδ s' a' ha') (sub_nonneg.2 hw1)
      linarith

/-- C137, uniqueness: for `gamma < 1`, values that meet their own expected Retrace targets, for segments of any one length of data of any behaviour policy, are those of the
current policy. -/
theorem C137_unique [Archimedean K] (env : Env S K) (he : env.Valid) (gamma : K) (hg0 : 0 ≤ gamma) (hg1 : gamma < 1) (p : S → Nat → K) (hp : ∀ s, IsProbs env (p s))
    (mu : List (S × Nat) → S → Nat → K) (hmu : ∀ h s, IsProbs env (mu h s)) (Qp : S → Nat → K) (hQp : ValuesOf env gamma p Qp) (Q : S → Nat → K) (B : K)
    (hB : ∀ s a, a < env.nA → |Q s a - Qp s a| ≤ B) (n : Nat) (h : S → Nat → List (S × Nat))
    (hm : ∀ s a, a < env.nA → Q s a = expect (segments env p Q mu (retraceCoef p mu) n (h s a) s a) (firstRet gamma)) :
    ∀ s a, a < env.nA → Q s a = Qp s a := by
  intro s a ha
  have hB0 : 0 ≤ B := le_trans (abs_nonneg _) (hB s a ha)
  have step : ∀ k : Nat, ∀ s a, a < env.nA → |Q s a - Qp s a| ≤ gamma ^ k * B := by
    intro k
    induction k with
    | zero => simpa using hB
    | succ k ih =>
      intro s a ha
      rw [hm s a ha, pow_succ', mul_assoc]
      exact C137_contraction env he gamma hg0 hg1.le p hp mu hmu Qp hQp Q (gamma ^ k * B) (mul_nonneg (pow_nonneg hg0 _) hB0) ih n _ s a ha
  by_contra hne
  have hpos : 0 < |Q s a - Qp s a| := abs_pos.2 (sub_ne_zero.2 hne)
  obtain ⟨k, hk⟩ := exists_pow_lt_of_lt_one (div_pos hpos (by linarith : (0 : K) < B + 1)) hg1
  rw [lt_div_iff₀ (by linarith)] at hk
  have := step k s a ha
  have h2 : 0 ≤ gamma ^ k := pow_nonneg hg0 _
  nlinarith

/-! ## An instance: the process of C135, a uniform policy, and data of a policy that prefers action 0 -/

/-- The true values. -/
def exQ : Unit → Nat → ℚ := fun _ a => if a = 0 then 1 else 1 / 7

example : ValuesOf exEnv (1 / 2) (fun _ _ => 1 / 2) exQ ∧ IsProbs exEnv (fun _ : Nat => (1 / 2 : ℚ)) ∧ IsProbs exEnv (fun a : Nat => if a = 0 then (3 / 4 : ℚ) else 1 / 4) := by
  refine ⟨?_, ⟨fun a _ => by norm_num, by decide +kernel⟩, ⟨fun a _ => by beta_reduce; split <;> norm_num, by decide +kernel⟩⟩
  rintro ⟨⟩ a ha
  have ha : a < 2 := ha
  have : a = 0 ∨ a = 1 := by omega
  rcases this with rfl | rfl <;> decide +kernel

end Verif.MDP
