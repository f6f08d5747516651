import Mathlib.Tactic.FieldSimp
import Mathlib.Tactic.Positivity
import Verif.Props.DPPOperators
import Verif.Props.GapLearning

/-! Iterated targets of dynamic policy programming (for C146). -/

set_option autoImplicit false
set_option linter.unusedSectionVars false

namespace Verif.MDP
open ActionValue Targets

variable {S : Type}

/-- What fitting the targets means. -/
theorem dpp_backup (env : Env S ℝ) (he : env.Valid) (gamma : ℝ) (L : List ℝ → ℝ) (Q Q' : S → List ℝ)
    (h : Fits env gamma (dpp L) Q Q') (s : S) (a : ℕ) (ha : a < env.nA) :
    evaluate (Q' s) a = evaluate (Q s) a + backup env gamma (fun s => L (Q s)) s a - L (Q s) := by
  obtain ⟨y, h1, h2⟩ := h s a ha
  rw [h2]
  have e : expect (env.outcomes s a) y =
      expect (env.outcomes s a) fun o => (o.reward + if o.done then 0 else gamma * L (Q o.next)) + (evaluate (Q s) a - L (Q s)) := by
    refine expect_congr _ _ _ (fun x hx => ?_)
    obtain ⟨b, hb, hy⟩ := h1 x hx
    have := C44_dpp id gamma _ b hb L Q
    rw [hy] at this
    have hy' := rows_single this
    rw [hy', single_target]
    simp only [id, transition]
    ring
  rw [e, expect_add _ (he s a ha)]
  unfold backup
  ring

theorem expect_lin {α : Type} (l : List (ℝ × α)) (f g : α → ℝ) : expect l (fun x => f x + g x) = expect l f + expect l g := by
  unfold expect
  induction l with
  | nil => simp
  | cons x l ih => simp only [List.map_cons, List.sum_cons, ih]; ring

/-- The discounted expectation of a function of the next state. -/
noncomputable def ahead (env : Env S ℝ) (gamma : ℝ) (D : S → ℝ) (s : S) (a : ℕ) : ℝ :=
  expect (env.outcomes s a) fun o => if o.done then 0 else gamma * D o.next

theorem ahead_add (env : Env S ℝ) (gamma : ℝ) (D D' : S → ℝ) (s : S) (a : ℕ) :
    ahead env gamma (fun s => D s + D' s) s a = ahead env gamma D s a + ahead env gamma D' s a := by
  unfold ahead
  rw [← expect_lin]
  refine expect_congr _ _ _ fun x _ => ?_
  split
  · simp
  · ring

theorem backup_ahead (env : Env S ℝ) (gamma : ℝ) (V W : S → ℝ) (s : S) (a : ℕ) :
    backup env gamma V s a = backup env gamma W s a + ahead env gamma (fun s => V s - W s) s a := by
  unfold ahead backup
  rw [← expect_lin]
  refine expect_congr _ _ _ fun x _ => ?_
  split
  · simp
  · ring

theorem ahead_bound (env : Env S ℝ) (he : env.Valid) (gamma : ℝ) (hg : 0 ≤ gamma) (D : S → ℝ) (δ : ℝ) (hδ : 0 ≤ δ)
    (h : ∀ s, |D s| ≤ δ) (s : S) (a : ℕ) (ha : a < env.nA) : |ahead env gamma D s a| ≤ gamma * δ := by
  have h1 := expect_close _ (he s a ha) (fun o : Outcome S ℝ => if o.done then 0 else gamma * D o.next) (fun _ => 0) (gamma * δ) fun x _ => by
    rw [sub_zero]
    split
    · rw [abs_zero]; exact mul_nonneg hg hδ
    · rw [abs_mul, abs_of_nonneg hg]; exact mul_le_mul_of_nonneg_left (h _) hg
  rw [expect_const _ (he s a ha), sub_zero] at h1
  exact h1

/-- A row that is close to `k` times another one plus a constant: so is its maximum. -/
theorem max_scaled (p q : List ℝ) (hp : p ≠ []) (hl : p.length = q.length) (k : ℕ) (x δ : ℝ)
    (h : ∀ a, a < p.length → |evaluate p a + x - k * evaluate q a| ≤ δ) : |maxQ p + x - k * maxQ q| ≤ δ := by
  have hq : q ≠ [] := fun e => hp (List.length_eq_zero_iff.1 (by rw [hl, e]; rfl))
  obtain ⟨m1, m2⟩ := C64_max p hp
  obtain ⟨n1, n2⟩ := C64_max q hq
  obtain ⟨i, hi, hi'⟩ := List.mem_iff_getElem.1 m1
  obtain ⟨j, hj, hj'⟩ := List.mem_iff_getElem.1 n1
  have e1 : evaluate p i = maxQ p := by simp [evaluate, hi, hi']
  have e2 : evaluate q j = maxQ q := by simp [evaluate, hj, hj']
  have e3 : evaluate q i ≤ maxQ q := n2 _ (by
    have : i < q.length := by omega
    simp [evaluate, this])
  have e4 : evaluate p j ≤ maxQ p := m2 _ (by
    have : j < p.length := by omega
    simp [evaluate, this])
  have h1 := abs_le.1 (h i hi)
  have h2 := abs_le.1 (h j (by omega))
  rw [e1] at h1
  rw [e2] at h2
  have hk : (0 : ℝ) ≤ k := Nat.cast_nonneg k
  have := mul_le_mul_of_nonneg_left e3 hk
  rw [abs_le]
  constructor <;> linarith

section
variable {env : Env S ℝ} (he : env.Valid) {gamma b B c : ℝ} (hg0 : 0 ≤ gamma) (hg1 : gamma < 1)
  {L : List ℝ → ℝ} {Q : ℕ → S → List ℝ} (hlen : ∀ k s, (Q k s).length = env.nA)
  (hL : ∀ k s, |L (Q k s) - maxQ (Q k s)| ≤ c) (h0 : ∀ s, ∀ x ∈ Q 0 s, |x| ≤ b)
  (h : ∀ k, Fits env gamma (dpp L) (Q k) (Q (k + 1)))
  {Qs : S → List ℝ} (hQs : Table env B Qs) (hs : MeetsTargets env gamma dqn Qs)
include he hg0 hg1 hlen hL h0 h hQs hs

/-- The sum of the values of a state over the iterations so far, less what it would be at the optimum. -/
noncomputable def drift (L : List ℝ → ℝ) (Q : ℕ → S → List ℝ) (Qs : S → List ℝ) (k : ℕ) (s : S) : ℝ :=
  ((List.range k).map fun j => L (Q j s)).sum - k * maxQ (Qs s)

theorem drift_succ (k : ℕ) (s : S) : drift L Q Qs (k + 1) s = drift L Q Qs k s + (L (Q k s) - maxQ (Qs s)) := by
  unfold drift
  rw [List.range_succ, List.map_append, List.sum_append]
  push_cast
  simp
  ring

theorem dpp_exact (k : ℕ) : ∀ s a, a < env.nA →
    evaluate (Q k s) a + (drift L Q Qs k s + k * maxQ (Qs s)) =
      evaluate (Q 0 s) a + k * evaluate (Qs s) a + ahead env gamma (drift L Q Qs k) s a := by
  induction k with
  | zero =>
    intro s a ha
    have e : ahead env gamma (drift L Q Qs 0) s a = 0 := by
      unfold ahead
      rw [expect_congr _ _ (fun _ => 0) fun x _ => by simp [drift], expect_const _ (he s a ha)]
    rw [e]
    simp [drift]
  | succ k ih =>
    intro s a ha
    have h1 := ih s a ha
    rw [dpp_backup env he gamma L _ _ (h k) s a ha, backup_ahead env gamma _ (fun s => maxQ (Qs s)),
      ← dqn_backup env gamma B Qs Qs hQs hs s a ha, drift_succ he hg0 hg1 hlen hL h0 h hQs hs k s]
    have e : drift L Q Qs (k + 1) = fun s => drift L Q Qs k s + (L (Q k s) - maxQ (Qs s)) :=
      funext fun s => drift_succ he hg0 hg1 hlen hL h0 h hQs hs k s
    rw [e, ahead_add]
    push_cast
    linarith

theorem drift_bound (hc : 0 ≤ c) (hb : 0 ≤ b) (hB : 0 ≤ B) (k : ℕ) : ∀ s, |drift L Q Qs k s| ≤ (b + B + c) / (1 - gamma) := by
  have hpos : 0 < 1 - gamma := by linarith
  have hD : 0 ≤ (b + B + c) / (1 - gamma) := by positivity
  induction k with
  | zero => intro s; simpa [drift] using hD
  | succ k ih =>
    intro s
    have hne : Q k s ≠ [] := fun e => by
      have := hlen k s
      rw [e] at this
      have := hQs.1
      simp at *; omega
    have h1 := max_scaled (Q k s) (Qs s) hne (by rw [hlen, (hQs.2 s).1]) k (drift L Q Qs k s + k * maxQ (Qs s))
      (b + gamma * ((b + B + c) / (1 - gamma))) fun a ha => by
        have ha : a < env.nA := by rwa [hlen] at ha
        rw [dpp_exact he hg0 hg1 hlen hL h0 h hQs hs k s a ha]
        have h2 := ahead_bound env he gamma hg0 _ _ hD ih s a ha
        have h3 : |evaluate (Q 0 s) a| ≤ b := h0 s _ (by
          have : a < (Q 0 s).length := by rw [hlen]; exact ha
          simp [evaluate, this])
        rw [abs_le] at h2 h3 ⊢
        constructor <;> linarith [h2.1, h2.2, h3.1, h3.2]
    rw [drift_succ he hg0 hg1 hlen hL h0 h hQs hs]
    have h4 := abs_le.1 (hL k s)
    have h5 := abs_le.1 (max_bound env B Qs hQs s)
    have h6 := abs_le.1 h1
    have e : (b + B + c) + gamma * ((b + B + c) / (1 - gamma)) = (b + B + c) / (1 - gamma) := by field_simp; ring
    rw [abs_le]
    constructor <;> linarith [h4.1, h4.2, h5.1, h5.2, h6.1, h6.2]

/-- The values after `k` iterations. -/
theorem dpp_values (hc : 0 ≤ c) (hb : 0 ≤ b) (hB : 0 ≤ B) (k : ℕ) (s : S) (a : ℕ) (ha : a < env.nA) :
    |evaluate (Q k s) a + k * (maxQ (Qs s) - evaluate (Qs s) a)| ≤ b + (1 + gamma) * ((b + B + c) / (1 - gamma)) := by
  have hpos : 0 < 1 - gamma := by linarith
  have hD : 0 ≤ (b + B + c) / (1 - gamma) := by positivity
  have h1 := dpp_exact he hg0 hg1 hlen hL h0 h hQs hs k s a ha
  have hd := drift_bound he hg0 hg1 hlen hL h0 h hQs hs hc hb hB k
  have h2 := abs_le.1 (ahead_bound env he gamma hg0 _ _ hD hd s a ha)
  have h3 : |evaluate (Q 0 s) a| ≤ b := h0 s _ (by
    have : a < (Q 0 s).length := by rw [hlen]; exact ha
    simp [evaluate, this])
  have h3 := abs_le.1 h3
  have h4 := abs_le.1 (hd s)
  rw [abs_le]
  constructor <;> linarith [h2.1, h2.2, h3.1, h3.2, h4.1, h4.2]

end

/-- A choice that loses at most `ε` in each step loses at most `ε / (1 - gamma)` of the return. -/
theorem near_optimal (env : Env S ℝ) (he : env.Valid) (gamma B ε : ℝ) (hg0 : 0 ≤ gamma) (hg1 : gamma < 1) (hε : 0 ≤ ε) (V : S → ℝ)
    (hB : ∀ s, |V s| ≤ B) (g : S → ℕ) (hg : ∀ s, g s < env.nA) (h : ∀ s, V s - ε ≤ backup env gamma V s (g s)) :
    ∀ n l s, V s - ε / (1 - gamma) - gamma ^ n * B ≤ ret env gamma (fun _ s => [(1, g s)]) n l s := by
  have hpos : 0 < 1 - gamma := by linarith
  have hd : 0 ≤ ε / (1 - gamma) := by positivity
  have e : ε + gamma * (ε / (1 - gamma)) = ε / (1 - gamma) := by field_simp; ring
  intro n
  induction n with
  | zero =>
    intro l s
    have := (abs_le.1 (hB s)).2
    simp only [ret, pow_zero, one_mul]; linarith
  | succ n ih =>
    intro l s
    have hdist := he s (g s) (hg s)
    have hc : 0 ≤ gamma ^ (n + 1) * B := mul_nonneg (pow_nonneg hg0 _) (le_trans (abs_nonneg _) (hB s))
    have e1 : ret env gamma (fun _ s => [(1, g s)]) (n + 1) l s = expect (env.outcomes s (g s)) fun o =>
        o.reward + if o.done then 0 else gamma * ret env gamma (fun _ s => [(1, g s)]) n (l ++ [(s, g s)]) o.next := by
      simp [ret, expect]
    rw [e1]
    refine le_trans (b := expect (env.outcomes s (g s)) fun o =>
      (o.reward + if o.done then 0 else gamma * V o.next) + -(gamma * (ε / (1 - gamma)) + gamma ^ (n + 1) * B)) ?_ ?_
    · rw [expect_add _ hdist]
      have := h s
      unfold backup at this
      linarith
    · refine expect_mono _ hdist _ _ ?_
      intro y _
      have hgd := mul_nonneg hg0 hd
      cases y.2.done with
      | true => simp only [if_true]; linarith
      | false =>
        simp only [Bool.false_eq_true, if_false]
        have := mul_le_mul_of_nonneg_left (ih (l ++ [(s, g s)]) y.2.next) hg0
        rw [pow_succ']
        nlinarith [this]

end Verif.MDP
