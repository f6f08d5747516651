import Mathlib.Analysis.SpecialFunctions.Log.Basic
import Mathlib.Algebra.Order.BigOperators.Group.List
import Mathlib.Algebra.BigOperators.Ring.List
import Mathlib.Tactic.Ring
import Mathlib.Tactic.FieldSimp
import Mathlib.Tactic.Linarith
import Mathlib.Tactic.Positivity
import Verif.Model.DPPOperators
import Verif.Props.Targets
set_option autoImplicit false
set_option linter.unusedSectionVars false

/-! # C134: the operators of dynamic policy programming -/

namespace Verif.DPPOperators
open ActionValue

theorem sum_map_le (q : List ℝ) (f g : ℝ → ℝ) (h : ∀ x ∈ q, f x ≤ g x) : (q.map f).sum ≤ (q.map g).sum :=
  List.sum_le_sum h

theorem sum_map_const (q : List ℝ) (c : ℝ) : (q.map fun _ => c).sum = q.length * c := by
  induction q with
  | nil => simp
  | cons a q ih => rw [List.map_cons, List.sum_cons, ih]; push_cast [List.length_cons]; ring

theorem sum_map_lin (q : List ℝ) (f g : ℝ → ℝ) (a b : ℝ) : (q.map fun x => a * f x + b * g x).sum = a * (q.map f).sum + b * (q.map g).sum := by
  induction q with
  | nil => simp
  | cons x q ih => simp only [List.map_cons, List.sum_cons, ih]; ring

/-- The sum of the exponentials. -/
noncomputable def expSum (eta : ℝ) (q : List ℝ) : ℝ := (q.map fun x => Real.exp (eta * x)).sum

theorem soft_eq (eta : ℝ) (q : List ℝ) : soft eta q = (q.map fun x => Real.exp (eta * x) / expSum eta q * x).sum := by
  unfold soft QHeads.softmaxRow
  rw [List.map_map, List.map_map]
  have : ((q.map (Real.exp ∘ fun x => eta * x)).sum) = expSum eta q := rfl
  rw [this]
  congr 1
  rw [List.zipWith_map_left]
  generalize expSum eta q = c
  clear this
  induction q with
  | nil => rfl
  | cons y q ih => simp only [List.zipWith_cons_cons, List.map_cons]; rw [← ih]; rfl

section
variable (eta : ℝ) (he : 0 < eta) (q : List ℝ) (hq : q ≠ []) (m : ℝ) (hm : IsMaxOf m q)
include he hq hm

theorem expSum_bounds : Real.exp (eta * m) ≤ expSum eta q ∧ expSum eta q ≤ q.length * Real.exp (eta * m) := by
  constructor
  · refine List.single_le_sum ?_ _ (List.mem_map.2 ⟨m, hm.1, rfl⟩)
    intro x hx
    obtain ⟨y, -, rfl⟩ := List.mem_map.1 hx
    exact (Real.exp_pos _).le
  · rw [← sum_map_const q]
    exact sum_map_le q _ _ (fun x hx => Real.exp_le_exp.2 (mul_le_mul_of_nonneg_left (hm.2 x hx) he.le))

theorem expSum_pos : 0 < expSum eta q := lt_of_lt_of_le (Real.exp_pos _) (expSum_bounds eta he q hq m hm).1

theorem len_pos : (0 : ℝ) < q.length := by
  have : 0 < q.length := List.length_pos_iff.2 hq
  exact_mod_cast this

theorem log_bounds : eta * m ≤ Real.log (expSum eta q) ∧ Real.log (expSum eta q) ≤ Real.log q.length + eta * m := by
  obtain ⟨h1, h2⟩ := expSum_bounds eta he q hq m hm
  have hp := expSum_pos eta he q hq m hm
  have hn := len_pos eta he q hq m hm
  constructor
  · have := Real.log_le_log (Real.exp_pos _) h1
    rwa [Real.log_exp] at this
  · have := Real.log_le_log hp h2
    rwa [Real.log_mul hn.ne' (Real.exp_pos _).ne', Real.log_exp] at this

theorem probs_sum : (q.map fun x => Real.exp (eta * x) / expSum eta q).sum = 1 := by
  have hp := expSum_pos eta he q hq m hm
  have := sum_map_lin q (fun x => Real.exp (eta * x)) (fun _ => 0) (expSum eta q)⁻¹ 0
  rw [show (q.map fun x => Real.exp (eta * x) / expSum eta q) = q.map fun x => (expSum eta q)⁻¹ * Real.exp (eta * x) + 0 * 0 from
    List.map_congr_left (fun x _ => by rw [div_eq_inv_mul]; ring), this]
  show (expSum eta q)⁻¹ * expSum eta q + _ = 1
  rw [inv_mul_cancel₀ hp.ne']; ring

theorem soft_bounds : soft eta q ≤ m ∧ Real.log (expSum eta q) - Real.log q.length ≤ eta * soft eta q := by
  have hp := expSum_pos eta he q hq m hm
  have hn := len_pos eta he q hq m hm
  have h1 := probs_sum eta he q hq m hm
  rw [soft_eq]
  constructor
  · have : (q.map fun x => Real.exp (eta * x) / expSum eta q * x).sum ≤ (q.map fun x => m * (Real.exp (eta * x) / expSum eta q) + 0 * 0).sum := by
      refine sum_map_le q _ _ (fun x hx => ?_)
      have hpos : 0 ≤ Real.exp (eta * x) / expSum eta q := by positivity
      have := mul_le_mul_of_nonneg_left (hm.2 x hx) hpos
      linarith
    refine this.trans (le_of_eq ?_)
    rw [sum_map_lin q (fun x => Real.exp (eta * x) / expSum eta q) (fun _ => 0) m 0, h1]; ring
  · have key : ∀ x ∈ q, (Real.log (expSum eta q) - Real.log q.length + 1) * (Real.exp (eta * x) / expSum eta q) + (-1) * (1 / (q.length : ℝ)) ≤
        eta * (Real.exp (eta * x) / expSum eta q * x) + 0 * 0 := by
      intro x _
      set p := Real.exp (eta * x) / expSum eta q with hpdef
      have hpos : 0 < p := by positivity
      have hlog : Real.log p = eta * x - Real.log (expSum eta q) := by
        rw [hpdef, Real.log_div (Real.exp_pos _).ne' hp.ne', Real.log_exp]
      have h2 := Real.log_le_sub_one_of_pos (show 0 < 1 / ((q.length : ℝ) * p) by positivity)
      rw [one_div, Real.log_inv, Real.log_mul hn.ne' hpos.ne', hlog] at h2
      have h3 := mul_le_mul_of_nonneg_left h2 hpos.le
      have h4 : p * (((q.length : ℝ) * p)⁻¹ - 1) = 1 / (q.length : ℝ) - p := by field_simp
      rw [h4] at h3
      nlinarith [h3]
    have hs := sum_map_le q _ _ key
    rw [sum_map_lin q (fun x => Real.exp (eta * x) / expSum eta q) (fun _ => 1 / (q.length : ℝ)), h1, sum_map_const,
      sum_map_lin q (fun x => Real.exp (eta * x) / expSum eta q * x) (fun _ => (0 : ℝ))] at hs
    have h5 : (q.length : ℝ) * (1 / (q.length : ℝ)) = 1 := by field_simp
    rw [h5] at hs
    linarith

end

/-- C134: on every nonempty row of `n` action values and for every `eta > 0` the operator of `DPP` is at most the maximum (the operator of `DPPGreedy`) and at most
`log n / eta` below it, and the operator of `DPPL` is at least the maximum and at most `log n / eta` above it. -/
theorem C134_operators (eta : ℝ) (he : 0 < eta) (q : List ℝ) (hq : q ≠ []) :
    IsMaxOf (hard q) q ∧ hard q - Real.log q.length / eta ≤ soft eta q ∧ soft eta q ≤ hard q ∧
    hard q ≤ logSum eta q ∧ logSum eta q ≤ hard q + Real.log q.length / eta := by
  have hm : IsMaxOf (hard q) q := C64_max q hq
  obtain ⟨h1, h2⟩ := log_bounds eta he q hq _ hm
  obtain ⟨h3, h4⟩ := soft_bounds eta he q hq _ hm
  refine ⟨hm, ?_, h3, ?_, ?_⟩
  · rw [sub_le_iff_le_add, ← sub_le_iff_le_add', le_div_iff₀ he]
    linarith
  · unfold logSum
    rw [le_div_iff₀ he]
    have : Real.log (expSum eta q) = Real.log ((q.map fun x => Real.exp (eta * x)).sum) := rfl
    rw [← this]; linarith
  · unfold logSum
    rw [← sub_le_iff_le_add', sub_le_iff_le_add, div_le_iff₀ he]
    have h5 : (Real.log q.length / eta + hard q) * eta = Real.log q.length + hard q * eta := by field_simp
    rw [h5]
    have : Real.log (expSum eta q) = Real.log ((q.map fun x => Real.exp (eta * x)).sum) := rfl
    rw [← this]; linarith

/-- C134: both are close to the maximum for large `eta` ("eta = infinity"). -/
theorem C134_limit (q : List ℝ) (hq : q ≠ []) (eps : ℝ) (heps : 0 < eps) :
    ∃ eta0, 0 < eta0 ∧ ∀ eta, eta0 ≤ eta → |soft eta q - hard q| ≤ eps ∧ |logSum eta q - hard q| ≤ eps := by
  have hl : 0 ≤ Real.log q.length := Real.log_natCast_nonneg _
  refine ⟨(Real.log q.length + 1) / eps, by positivity, fun eta h => ?_⟩
  have he : 0 < eta := lt_of_lt_of_le (by positivity) h
  obtain ⟨-, h1, h2, h3, h4⟩ := C134_operators eta he q hq
  have h5 : Real.log q.length / eta ≤ eps := by
    rw [div_le_iff₀ heps] at h
    rw [div_le_iff₀ he]; linarith
  constructor <;> rw [abs_le] <;> constructor <;> linarith

variable {S F : Type}

/-- C134: the targets that `DPP` and `DPPL` compute for a batch are those of `DPPGreedy` up to `(1 + gamma ^ n) * log |A| / eta`, for entries of any number `n` of
steps. -/
theorem C134_targets (phi : S → F) (gamma : ℝ) (hg : 0 ≤ gamma) (exps : List (List (Transition S Nat ℝ))) (b : ExpBatch F Nat ℝ)
    (hb : batchExperiences phi gamma exps = .ok b) (qt : F → List ℝ) (nA : Nat) (hA : 0 < nA) (hq : ∀ s, (qt s).length = nA) (eta : ℝ) (he : 0 < eta)
    (k : Nat) (e : List (Transition S Nat ℝ)) (hk : exps[k]? = some e) :
    ∃ y ys yl, (Targets.dpp hard qt b)[k]? = some y ∧ (Targets.dpp (soft eta) qt b)[k]? = some ys ∧ (Targets.dpp (logSum eta) qt b)[k]? = some yl ∧
      |ys - y| ≤ (1 + gamma ^ e.length) * (Real.log nA / eta) ∧ |yl - y| ≤ (1 + gamma ^ e.length) * (Real.log nA / eta) := by
  obtain ⟨hne, -⟩ := Targets.batch_row phi gamma exps b hb
  have hee := hne e (List.mem_of_getElem? hk)
  obtain ⟨t₀, h0⟩ : ∃ t, e.head? = some t := by
    cases e with
    | nil => exact absurd rfl hee
    | cons a l => exact ⟨a, rfl⟩
  obtain ⟨t, ht⟩ : ∃ t, e.getLast? = some t := ⟨e.getLast hee, List.getLast?_eq_some_getLast hee⟩
  obtain ⟨y, hy, rfl⟩ := (Targets.C44_dpp phi gamma exps b hb hard qt).2 k e t₀ t hk h0 ht
  obtain ⟨ys, hys, rfl⟩ := (Targets.C44_dpp phi gamma exps b hb (soft eta) qt).2 k e t₀ t hk h0 ht
  obtain ⟨yl, hyl, rfl⟩ := (Targets.C44_dpp phi gamma exps b hb (logSum eta) qt).2 k e t₀ t hk h0 ht
  refine ⟨_, _, _, hy, hys, hyl, ?_⟩
  have hqne : ∀ s, qt s ≠ [] := fun s h => by have := hq s; rw [h] at this; simp at this; omega
  obtain ⟨-, a1, a2, a3, a4⟩ := C134_operators eta he _ (hqne (phi t₀.state))
  obtain ⟨-, b1, b2, b3, b4⟩ := C134_operators eta he _ (hqne (phi t.nextState))
  rw [hq] at a1 a4 b1 b4
  have hl : 0 ≤ Real.log nA / eta := div_nonneg (Real.log_natCast_nonneg _) he.le
  have hgp : 0 ≤ gamma ^ e.length := pow_nonneg hg _
  unfold Targets.nStepTarget
  split
  · constructor <;> rw [abs_le] <;> constructor <;> nlinarith [mul_nonneg hgp hl]
  · have c1 := mul_le_mul_of_nonneg_left b1 hgp
    have c2 := mul_le_mul_of_nonneg_left b2 hgp
    have c3 := mul_le_mul_of_nonneg_left b3 hgp
    have c4 := mul_le_mul_of_nonneg_left b4 hgp
    constructor <;> rw [abs_le] <;> constructor <;> nlinarith [mul_nonneg hgp hl]

/-- Two equal values: the bounds on `DPPL` are reached, and `DPP` gives the value itself. -/
example (x : ℝ) : soft 1 [x, x] = x ∧ logSum 1 [x, x] = x + Real.log 2 := by
  constructor
  · have h := Real.exp_pos x
    simp only [soft, QHeads.softmaxRow, List.map_cons, List.map_nil, List.zipWith_cons_cons, List.zipWith_nil_left, List.sum_cons, List.sum_nil, one_mul]
    field_simp; ring
  · have h := Real.exp_pos x
    simp only [logSum, List.map_cons, List.map_nil, List.sum_cons, List.sum_nil, one_mul, add_zero, div_one]
    rw [← two_mul, Real.log_mul (by norm_num) h.ne', Real.log_exp]; ring

end Verif.DPPOperators
