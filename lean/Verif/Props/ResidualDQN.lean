import Mathlib.Tactic.IntervalCases
import Verif.Model.ResidualDQN
import Verif.Props.TabularDQN

/-!
# C157: ResidualDQN on a table
-/

set_option autoImplicit false
set_option linter.unusedSectionVars false

open Filter Topology

namespace Verif.ResidualDQN
open ActionValue Targets MDP ValueLoss TabularDQN Functions

variable {S : Type}

/-! ## The model on lists of steps -/

/-- The loss of a batch. -/
theorem residual_loss_eq (gamma : ℝ) (clip mean : Bool) (q : S → List ℝ) (vs : List (Visit S)) (hne : vs ≠ []) (w : Option (List ℝ)) (hw : ∀ l, w = some l → l.length = vs.length) :
    residualLoss gamma clip (accName mean) q (vs.map Visit.entry) w = .ok (factor mean vs.length *
      ((vs.zip (weightsOf vs.length w)).map fun p => p.2 * term clip (evaluate (q p.1.state) p.1.action - goal gamma q p.1)).sum) := by
  rw [← loss_eq gamma clip mean q q vs hne w hw]
  unfold residualLoss tableLoss
  have : ∀ b : ExpBatch S ℕ ℝ, (residualDqn q b).map scaleGradForward = dqn q b := fun b => by
    rw [show (scaleGradForward : ℝ → ℝ) = id from rfl, List.map_id]; rfl
  simp only [this]

/-- The slope of the target of a step with respect to the entry. -/
noncomputable def goalSlope [DecidableEq S] (gamma : ℝ) (q : S → List ℝ) (s : S) (a : Nat) (v : Visit S) : ℝ :=
  if v.outcome.done then 0 else if v.outcome.next = s ∧ greedy (q v.outcome.next) = a then gamma else 0

theorem zipWith_twice {α β γ : Type} (f : γ → α → ℝ) (g : β → α → γ) (l : List α) (m : List β) (hl : l.length ≤ m.length) :
    List.zipWith f (List.zipWith g m l) l = (l.zip m).map fun p => f (g p.2 p.1) p.1 := by
  induction l generalizing m with
  | nil => simp
  | cons x l ih =>
    cases m with
    | nil => simp at hl
    | cons y m => simp [ih m (by simpa using hl)]

/-- The gradient for an entry. -/
theorem residual_backward_eq [DecidableEq S] (gamma gradScale : ℝ) (clip mean : Bool) (q : S → List ℝ) (vs : List (Visit S)) (w : Option (List ℝ)) (hw : ∀ l, w = some l → l.length = vs.length)
    (s : S) (a : Nat) :
    residualBackward gamma gradScale clip (accName mean) q (vs.map Visit.entry) w s a = .ok (factor mean vs.length *
      ((vs.zip (weightsOf vs.length w)).map fun p => p.2 * ValueLoss.slope clip (evaluate (q p.1.state) p.1.action - goal gamma q p.1) *
        ((if p.1.state = s ∧ p.1.action = a then 1 else 0) - gradScale * goalSlope gamma q s a p.1)).sum) := by
  have h1 : (vs.map Visit.entry).mapM (fun e => pyGet e 0) = .ok (vs.map fun v => transition v.state v.action v.outcome) := by
    rw [List.mapM_map]
    exact mapM_ok _ _ _ fun v _ => rfl
  have h2 : (vs.map Visit.entry).mapM (fun e => pyGet e (-1)) = .ok (vs.map fun v => transition v.state v.action v.outcome) := by
    rw [List.mapM_map]
    exact mapM_ok _ _ _ fun v _ => rfl
  have hl := weightsOf_length vs w hw
  unfold residualBackward batchExperiences
  rw [h1, h2]
  simp only [residualDqn, bellman, List.map_map, List.zipWith_map_left, List.zipWith_map_right, List.zipWith_self, Function.comp_def, Bind.bind, Except.bind, Pure.pure, Except.pure, List.length_map,
    List.zip_map', id]
  rw [show w.getD (List.replicate vs.length 1) = weightsOf vs.length w from rfl, zipWith_twice _ _ _ _ (by omega), ← List.sum_map_mul_left]
  congr 2
  refine List.map_congr_left fun p _ => ?_
  have hr : expReward gamma p.1.entry = p.1.outcome.reward := by simp [expReward, Visit.entry, transition]
  have hacc : lossBackward clip (accName mean) vs.length p.2 (evaluate (q p.1.state) p.1.action - goal gamma q p.1) =
      factor mean vs.length * (p.2 * ValueLoss.slope clip (evaluate (q p.1.state) p.1.action - goal gamma q p.1)) := by
    generalize evaluate (q p.1.state) p.1.action - goal gamma q p.1 = e
    have : lossBackward clip (accName mean) vs.length p.2 e = if accName mean == "mean" then p.2 * ValueLoss.slope clip e / vs.length else p.2 * ValueLoss.slope clip e := rfl
    rw [this]
    cases mean
    · simp [accName, factor]
    · simp only [accName, factor, if_true, BEq.rfl]; ring
  have hgoal : p.1.outcome.reward + gamma ^ 1 * (1 - if p.1.outcome.done = true then 1 else 0) * maxQ (q p.1.outcome.next) = goal gamma q p.1 := by
    unfold goal
    cases p.1.outcome.done <;> simp
  have hslope : gamma ^ 1 * (1 - if p.1.outcome.done = true then 1 else 0) * (if p.1.outcome.next = s ∧ greedy (q p.1.outcome.next) = a then 1 else 0) = goalSlope gamma q s a p.1 := by
    unfold goalSlope
    cases p.1.outcome.done <;> simp
  have hany : (p.1.entry.any fun x => x.terminal) = p.1.outcome.done := by simp [Visit.entry, transition]
  show residualGradient gradScale (lossBackward clip (accName mean) vs.length p.2 (evaluate (q p.1.state) p.1.action - scaleGradForward
    (expReward gamma p.1.entry + gamma ^ 1 * (1 - if (p.1.entry.any fun x => x.terminal) = true then 1 else 0) * maxQ (q p.1.outcome.next))))
    (if p.1.state = s ∧ p.1.action = a then 1 else 0) (gamma ^ 1 * (1 - if (p.1.entry.any fun x => x.terminal) = true then 1 else 0) *
      (if p.1.outcome.next = s ∧ greedy (q p.1.outcome.next) = a then 1 else 0)) = _
  rw [hr, hany, hgoal, hslope, show scaleGradForward (goal gamma q p.1) = goal gamma q p.1 from rfl, hacc, residualGradient, scaleGradBackward]
  ring

/-! ## Specification -/

/-- The batch was recorded in the process, contains every action of every state, and has positive weights. -/
structure Covers (env : Env S ℝ) (vs : List (Visit S)) (w : Option (List ℝ)) : Prop where
  recorded : ∀ v ∈ vs, v.From env
  every : ∀ s a, a < env.nA → ∃ v ∈ vs, v.state = s ∧ v.action = a
  weights : ∀ l, w = some l → l.length = vs.length ∧ ∀ x ∈ l, 0 < x

/-- The optimality equation, and with it the best possible returns. -/
def Solves (env : Env S ℝ) (gamma B : ℝ) (q : S → List ℝ) : Prop :=
  (∀ s a, a < env.nA → evaluate (q s) a = backup env gamma (fun s => maxQ (q s)) s a) ∧ Optimal env gamma B (fun s => maxQ (q s)) (fun s => greedy (q s))

/-! ## Proofs -/

theorem solves_of_equation {env : Env S ℝ} (he : env.Valid) (gamma B : ℝ) (hg : 0 ≤ gamma) (q : S → List ℝ) (hq : Table env B q)
    (h : ∀ s a, a < env.nA → evaluate (q s) a = backup env gamma (fun s => maxQ (q s)) s a) : Solves env gamma B q :=
  ⟨h, optimal_of_targets env he gamma B hg q hq (fun s a ha => by rw [← h s a ha]; exact evaluate_le env B q hq s a ha)
    fun s => by rw [← h s _ (greedy_lt env B q hq s)]; rfl⟩

theorem slope_eq_zero (clip : Bool) (e : ℝ) : ValueLoss.slope clip e = 0 ↔ e = 0 := by
  obtain ⟨κ, h1, -, h2, -⟩ := slope_factor clip e
  rw [h2]
  constructor
  · intro h
    rcases mul_eq_zero.1 h with h | h
    · linarith
    · exact h
  · rintro rfl; simp

theorem term_nonneg (clip : Bool) (e : ℝ) : 0 ≤ term clip e := by
  cases clip
  · simp only [term, Bool.false_eq_true, if_false]; positivity
  · simp only [term, if_true, huber]
    split
    · rename_i h; nlinarith
    · positivity

theorem term_eq_zero (clip : Bool) (e : ℝ) : term clip e = 0 ↔ e = 0 := by
  cases clip
  · simp [term]
  · simp only [term, if_true, huber]
    split
    · rename_i h
      constructor
      · intro h'; nlinarith
      · rintro rfl; simp at h; linarith
    · simp

theorem sum_pos_zero {α : Type} (l : List α) (f : α → ℝ) (h : ∀ x ∈ l, 0 ≤ f x) : (l.map f).sum = 0 ↔ ∀ x ∈ l, f x = 0 := by
  induction l with
  | nil => simp
  | cons x l ih =>
    have h1 : 0 ≤ (l.map f).sum := List.sum_nonneg fun y hy => by
      obtain ⟨z, hz, rfl⟩ := List.mem_map.1 hy
      exact h z (by simp [hz])
    have h2 := h x (by simp)
    simp only [List.map_cons, List.sum_cons, List.forall_mem_cons]
    rw [← ih fun y hy => h y (by simp [hy])]
    constructor
    · intro h'; constructor <;> linarith
    · rintro ⟨h', h''⟩; linarith

theorem Covers.weight_pos {env : Env S ℝ} {vs : List (Visit S)} {w : Option (List ℝ)} (h : Covers env vs w) (p : Visit S × ℝ) (hp : p ∈ vs.zip (weightsOf vs.length w)) : 0 < p.2 := by
  have := (List.of_mem_zip hp).2
  cases w with
  | none => simp only [weightsOf, Option.getD_none] at this; rw [(List.mem_replicate.1 this).2]; norm_num
  | some l => exact (h.weights l rfl).2 _ this

theorem Covers.in_zip {env : Env S ℝ} {vs : List (Visit S)} {w : Option (List ℝ)} (h : Covers env vs w) (v : Visit S) (hv : v ∈ vs) : ∃ x, (v, x) ∈ vs.zip (weightsOf vs.length w) := by
  obtain ⟨i, hi, rfl⟩ := List.getElem_of_mem hv
  have hl := weightsOf_length vs w fun l hl => (h.weights l hl).1
  exact ⟨(weightsOf vs.length w)[i]'(by omega), List.mem_iff_getElem.2 ⟨i, by simp; omega, by simp⟩⟩

theorem factor_pos (mean : Bool) {n : ℕ} (hn : 0 < n) : 0 < factor mean n := by
  have : (0 : ℝ) < n := by exact_mod_cast hn
  unfold factor
  split <;> positivity

/-! ## The theorems -/

/-- **C157**: in a process without chance, ResidualDQN's loss of a batch that contains every action of every state is never negative, and it is zero exactly for tables that solve the
optimality equation; these hold the best possible returns. -/
theorem C157_zero (env : Env S ℝ) (hd : Deterministic env) (gamma B : ℝ) (hg : 0 ≤ gamma) (q : S → List ℝ) (hq : Table env B q) (vs : List (Visit S)) (hne : vs ≠ []) (w : Option (List ℝ))
    (hc : Covers env vs w) (clip mean : Bool) :
    ∃ L, residualLoss gamma clip (accName mean) q (vs.map Visit.entry) w = .ok L ∧ 0 ≤ L ∧ (L = 0 ↔ Solves env gamma B q) := by
  classical
  have hf := factor_pos mean (List.length_pos_of_ne_nil hne)
  refine ⟨_, residual_loss_eq gamma clip mean q vs hne w fun l hl => (hc.weights l hl).1, ?_, ?_⟩
  · refine mul_nonneg hf.le (List.sum_nonneg fun y hy => ?_)
    obtain ⟨p, hp, rfl⟩ := List.mem_map.1 hy
    exact mul_nonneg (hc.weight_pos p hp).le (term_nonneg clip _)
  · rw [mul_eq_zero, or_iff_right hf.ne', sum_pos_zero _ _ fun p hp => mul_nonneg (hc.weight_pos p hp).le (term_nonneg clip _)]
    constructor
    · intro h
      refine solves_of_equation (deterministic_valid hd) gamma B hg q hq fun s a ha => ?_
      obtain ⟨v, hv, rfl, rfl⟩ := hc.every s a ha
      obtain ⟨x, hx⟩ := hc.in_zip v hv
      have := h _ hx
      rw [mul_eq_zero, or_iff_right (hc.weight_pos _ hx).ne', term_eq_zero, goal_eq hd gamma q v (hc.recorded v hv)] at this
      linarith
    · rintro ⟨h, -⟩ p hp
      have hv := hc.recorded p.1 (List.of_mem_zip hp).1
      rw [goal_eq hd gamma q p.1 hv, h _ _ hv.1, sub_self, (term_eq_zero clip 0).2 rfl, mul_zero]

/-- **C157**: in a process without chance, ResidualDQN comes to rest only at the optimum: the gradients that backpropagation computes for a batch that contains every action of every state all
vanish exactly for tables that solve the optimality equation.  This holds for all values of `grad_scale` of size below `1 / gamma`, the default of 1 among them, and also where several
actions are best. -/
theorem C157_stationary [Finite S] [DecidableEq S] (env : Env S ℝ) (hd : Deterministic env) (gamma B : ℝ) (hg : 0 ≤ gamma) (gradScale : ℝ) (hs : |gradScale| * gamma < 1) (q : S → List ℝ)
    (hq : Table env B q) (vs : List (Visit S)) (hne : vs ≠ []) (w : Option (List ℝ)) (hc : Covers env vs w) (clip mean : Bool) :
    (∀ s a, a < env.nA → residualBackward gamma gradScale clip (accName mean) q (vs.map Visit.entry) w s a = .ok 0) ↔ Solves env gamma B q := by
  have := Fintype.ofFinite S
  have hf := factor_pos mean (List.length_pos_of_ne_nil hne)
  have hw : ∀ l, w = some l → l.length = vs.length := fun l hl => (hc.weights l hl).1
  simp only [residual_backward_eq gamma gradScale clip mean q vs w hw, Except.ok.injEq, mul_eq_zero, or_iff_right hf.ne']
  set e : Visit S → ℝ := fun v => evaluate (q v.state) v.action - goal gamma q v with he
  constructor
  · intro h
    let σ : S → ℕ → ℝ := fun s a => if 0 ≤ ValueLoss.slope clip (evaluate (q s) a - backup env gamma (fun s => maxQ (q s)) s a) then 1 else -1
    have hσ1 : ∀ s a, |σ s a| ≤ 1 := fun s a => by simp only [σ]; split <;> simp
    have hσ : ∀ v ∈ vs, ValueLoss.slope clip (e v) * σ v.state v.action = |ValueLoss.slope clip (e v)| := fun v hv => by
      simp only [σ, he, goal_eq hd gamma q v (hc.recorded v hv)]
      split
      · rename_i h; rw [abs_of_nonneg h, mul_one]
      · rename_i h; rw [abs_of_neg (not_le.1 h), mul_neg_one]
    -- the weighted sum of all gradients
    have hsum : ∑ s, ∑ a ∈ Finset.range env.nA, σ s a * ((vs.zip (weightsOf vs.length w)).map fun p => p.2 * ValueLoss.slope clip (e p.1) *
        ((if p.1.state = s ∧ p.1.action = a then 1 else 0) - gradScale * goalSlope gamma q s a p.1)).sum =
        ((vs.zip (weightsOf vs.length w)).map fun p => p.2 * ValueLoss.slope clip (e p.1) *
          ((∑ s, ∑ a ∈ Finset.range env.nA, σ s a * if p.1.state = s ∧ p.1.action = a then 1 else 0) -
            gradScale * ∑ s, ∑ a ∈ Finset.range env.nA, σ s a * goalSlope gamma q s a p.1)).sum := by
      generalize vs.zip (weightsOf vs.length w) = l
      induction l with
      | nil => simp
      | cons p l ih =>
        simp only [List.map_cons, List.sum_cons, mul_add, Finset.sum_add_distrib, ih]
        congr 1
        simp only [Finset.mul_sum, mul_sub, Finset.sum_sub_distrib]
        congr 1 <;> refine Finset.sum_congr rfl fun s _ => Finset.sum_congr rfl fun a _ => ?_ <;> ring
    have hzero : ∑ s, ∑ a ∈ Finset.range env.nA, σ s a * ((vs.zip (weightsOf vs.length w)).map fun p => p.2 * ValueLoss.slope clip (e p.1) *
        ((if p.1.state = s ∧ p.1.action = a then 1 else 0) - gradScale * goalSlope gamma q s a p.1)).sum = 0 :=
      Finset.sum_eq_zero fun s _ => Finset.sum_eq_zero fun a ha => by rw [h s a (Finset.mem_range.1 ha), mul_zero]
    have pick : ∀ (s₀ : S) (a₀ : ℕ) (c : ℝ), a₀ < env.nA → ∑ s, ∑ a ∈ Finset.range env.nA, σ s a * (if s₀ = s ∧ a₀ = a then c else 0) = σ s₀ a₀ * c := fun s₀ a₀ c ha₀ => by
      rw [Finset.sum_eq_single s₀ (fun s _ hs => Finset.sum_eq_zero fun a _ => by simp [Ne.symm hs]) (by simp),
        Finset.sum_eq_single a₀ (fun a _ ha => by simp [Ne.symm ha]) (fun h => absurd (Finset.mem_range.2 ha₀) h)]
      simp
    have hgoal : ∀ v, |∑ s, ∑ a ∈ Finset.range env.nA, σ s a * goalSlope gamma q s a v| ≤ gamma := fun v => by
      unfold goalSlope
      cases v.outcome.done
      · simp only [Bool.false_eq_true, if_false]
        rw [pick _ _ gamma (greedy_lt env B q hq _), abs_mul, abs_of_nonneg hg]
        exact mul_le_of_le_one_left hg (hσ1 _ _)
      · simpa using hg
    have hge : ∀ p ∈ vs.zip (weightsOf vs.length w), p.2 * |ValueLoss.slope clip (e p.1)| * (1 - |gradScale| * gamma) ≤ p.2 * ValueLoss.slope clip (e p.1) *
          ((∑ s, ∑ a ∈ Finset.range env.nA, σ s a * if p.1.state = s ∧ p.1.action = a then 1 else 0) -
            gradScale * ∑ s, ∑ a ∈ Finset.range env.nA, σ s a * goalSlope gamma q s a p.1) := fun p hp => by
      have hv := (List.of_mem_zip hp).1
      rw [pick _ _ 1 (hc.recorded p.1 hv).1]
      have hb := hgoal p.1
      have hσ' := hσ p.1 hv
      set c := ∑ s, ∑ a ∈ Finset.range env.nA, σ s a * goalSlope gamma q s a p.1
      have h1 : ValueLoss.slope clip (e p.1) * (gradScale * c) ≤ |ValueLoss.slope clip (e p.1)| * (|gradScale| * gamma) := by
        refine (le_abs_self _).trans ?_
        rw [abs_mul, abs_mul]
        gcongr
      have h2 := mul_le_mul_of_nonneg_left h1 (hc.weight_pos p hp).le
      have h3 : p.2 * ValueLoss.slope clip (e p.1) * (σ p.1.state p.1.action * 1 - gradScale * c) =
          p.2 * |ValueLoss.slope clip (e p.1)| - p.2 * (ValueLoss.slope clip (e p.1) * (gradScale * c)) := by rw [← hσ']; ring
      rw [h3]
      linarith
    have hnn : ∀ p ∈ vs.zip (weightsOf vs.length w), 0 ≤ p.2 * |ValueLoss.slope clip (e p.1)| * (1 - |gradScale| * gamma) := fun p hp =>
      mul_nonneg (mul_nonneg (hc.weight_pos p hp).le (abs_nonneg _)) (by linarith)
    have htot := (sum_pos_zero _ _ fun p hp => (hnn p hp).trans (hge p hp)).1 (hsum.symm.trans hzero)
    refine solves_of_equation (deterministic_valid hd) gamma B hg q hq fun s a ha => ?_
    obtain ⟨v, hv, rfl, rfl⟩ := hc.every s a ha
    obtain ⟨x, hx⟩ := hc.in_zip v hv
    have h0 : x * |ValueLoss.slope clip (e v)| * (1 - |gradScale| * gamma) = 0 := le_antisymm ((hge _ hx).trans (htot _ hx).le) (hnn _ hx)
    rcases mul_eq_zero.1 h0 with h0 | h0
    · rcases mul_eq_zero.1 h0 with h0 | h0
      · exact absurd h0 (hc.weight_pos _ hx).ne'
      · have := (slope_eq_zero clip _).1 (abs_eq_zero.1 h0)
        simp only [he, goal_eq hd gamma q v (hc.recorded v hv)] at this
        linarith
    · linarith
  · rintro ⟨h, -⟩ s a -
    refine (List.sum_eq_zero fun y hy => ?_)
    obtain ⟨p, hp, rfl⟩ := List.mem_map.1 hy
    have hv := hc.recorded p.1 (List.of_mem_zip hp).1
    have : e p.1 = 0 := by simp only [he]; rw [goal_eq hd gamma q p.1 hv, h _ _ hv.1, sub_self]
    show p.2 * ValueLoss.slope clip (e p.1) * _ = 0
    rw [this, (slope_eq_zero clip 0).2 rfl]; simp

/-! ### The gradient -/

theorem maxQ_unique {l : List ℝ} {m : ℝ} (h : IsMaxOf m l) : maxQ l = m := by
  have hne : l ≠ [] := fun h' => by rw [h'] at h; simp [IsMaxOf] at h
  have := C64_max l hne
  exact le_antisymm (h.2 _ this.1) (this.2 _ h.1)

/-- How the maximum of a row follows an entry where one action is best. -/
theorem maxQ_deriv (l : List ℝ) (a : ℕ) (ha : a < l.length) (hu : ∀ b, b < l.length → b ≠ greedy l → evaluate l b < maxQ l) :
    HasDerivAt (fun x => maxQ (l.set a x)) (if greedy l = a then 1 else 0) (evaluate l a) := by
  have hne : l ≠ [] := fun h' => by rw [h'] at ha; simp at ha
  have hev : ∀ b (hb : b < l.length), evaluate l b = l[b] := fun b hb => by simp [evaluate, hb]
  by_cases h : greedy l = a
  · rw [if_pos h]
    have hx : ∀ᶠ x in 𝓝 (evaluate l a), ∀ b : Fin l.length, (b : ℕ) ≠ a → evaluate l b < x :=
      eventually_all.2 fun b => by
        by_cases hb : (b : ℕ) = a
        · exact Eventually.of_forall fun x h' => absurd hb h'
        · have := hu b b.2 (by rw [h]; exact hb)
          rw [maxQ, h] at this
          exact (lt_mem_nhds this).mono fun x hx _ => hx
    refine HasDerivAt.congr_of_eventuallyEq (hasDerivAt_id' _) (hx.mono fun x hx => ?_)
    refine maxQ_unique ⟨List.mem_iff_getElem.2 ⟨a, by simpa using ha, by simp⟩, fun y hy => ?_⟩
    obtain ⟨b, hb, rfl⟩ := List.getElem_of_mem hy
    rw [List.length_set] at hb
    rw [List.getElem_set]
    split
    · exact le_rfl
    · rename_i hab
      have := hx ⟨b, hb⟩ (Ne.symm hab)
      rw [hev b hb] at this
      exact this.le
  · rw [if_neg h]
    have hlt := hu a ha (Ne.symm h)
    refine HasDerivAt.congr_of_eventuallyEq (hasDerivAt_const _ (maxQ l)) ((gt_mem_nhds hlt).mono fun x hx => ?_)
    have hm := C64_max l hne
    obtain ⟨v, hv, -⟩ := C64_greedy l hne
    obtain ⟨hg, hgv⟩ := List.getElem?_eq_some_iff.1 hv
    have hgm : l[greedy l] = maxQ l := by rw [maxQ, hev _ hg]
    refine maxQ_unique ⟨List.mem_iff_getElem.2 ⟨greedy l, by simpa using hg, by rw [List.getElem_set_ne (Ne.symm h), hgm]⟩, fun y hy => ?_⟩
    obtain ⟨b, hb, rfl⟩ := List.getElem_of_mem hy
    rw [List.length_set] at hb
    rw [List.getElem_set]
    split
    · exact hx.le
    · exact hm.2 _ (List.getElem_mem hb)

/-- **C157**: what backpropagation computes for an entry of the table is `grad_scale` times the derivative of ResidualDQN's loss, as a function of the entry, plus `1 - grad_scale` times that of
DQN's loss with a copy of the table as target network.  One action must be best in each successor that is not final, otherwise the loss has a kink. -/
theorem C157_gradient [DecidableEq S] (nA : ℕ) (gamma gradScale : ℝ) (clip mean : Bool) (q : S → List ℝ) (hq : ∀ s, (q s).length = nA) (vs : List (Visit S)) (hne : vs ≠ [])
    (w : Option (List ℝ)) (hw : ∀ l, w = some l → l.length = vs.length)
    (hu : ∀ v ∈ vs, v.outcome.done = false → ∀ b, b < nA → b ≠ greedy (q v.outcome.next) → evaluate (q v.outcome.next) b < maxQ (q v.outcome.next)) (s : S) (a : ℕ) (ha : a < nA) :
    ∃ (f g : ℝ → ℝ) (full frozen : ℝ), (∀ x, residualLoss gamma clip (accName mean) (setEntry q s a x) (vs.map Visit.entry) w = .ok (f x)) ∧ HasDerivAt f full (evaluate (q s) a) ∧
      (∀ x, tableLoss gamma clip (accName mean) (setEntry q s a x) q (vs.map Visit.entry) w = .ok (g x)) ∧ HasDerivAt g frozen (evaluate (q s) a) ∧
      residualBackward gamma gradScale clip (accName mean) q (vs.map Visit.entry) w s a = .ok (gradScale * full + (1 - gradScale) * frozen) := by
  have ha' : a < (q s).length := by rw [hq]; exact ha
  have hself : setEntry q s a (evaluate (q s) a) = q := by
    funext s'
    unfold setEntry
    split
    · rename_i h; subst h
      refine List.ext_getElem? fun i => ?_
      rw [List.getElem?_set]
      split
      · rename_i h; subst h; simp [ha', evaluate]
      · rfl
    · rfl
  have hy : ∀ v : Visit S, HasDerivAt (fun x => evaluate (setEntry q s a x v.state) v.action) (if v.state = s ∧ v.action = a then 1 else 0) (evaluate (q s) a) := fun v => by
    simp only [evaluate_setEntry q s a ha']
    split
    · exact hasDerivAt_id' _
    · exact hasDerivAt_const _ _
  have ht : ∀ v ∈ vs, HasDerivAt (fun x => goal gamma (setEntry q s a x) v) (goalSlope gamma q s a v) (evaluate (q s) a) := fun v hv => by
    unfold goal goalSlope
    cases hdone : v.outcome.done
    · simp only [Bool.false_eq_true, if_false]
      refine HasDerivAt.const_add _ ?_
      by_cases hn : v.outcome.next = s
      · have h1 := (maxQ_deriv (q s) a ha' fun b hb hb' => by
          have := hu v hv hdone b (by rwa [hq] at hb)
          rw [hn] at this
          exact this hb').const_mul gamma
        simp only [hn, true_and, setEntry, if_true]
        refine h1.congr_deriv ?_
        split <;> simp
      · simp only [hn, false_and, if_false, setEntry]
        exact hasDerivAt_const _ _
    · simpa using hasDerivAt_const (evaluate (q s) a) v.outcome.reward
  refine ⟨_, _, _, _, fun x => residual_loss_eq gamma clip mean _ vs hne w hw,
    HasDerivAt.const_mul _ (sum_deriv _ _ (fun p => p.2 * (ValueLoss.slope clip (evaluate (q p.1.state) p.1.action - goal gamma q p.1) *
      ((if p.1.state = s ∧ p.1.action = a then 1 else 0) - goalSlope gamma q s a p.1))) _ fun p hp => ?_),
    fun x => loss_eq gamma clip mean _ q vs hne w hw,
    HasDerivAt.const_mul _ (sum_deriv _ _ (fun p => p.2 * (ValueLoss.slope clip (evaluate (q p.1.state) p.1.action - goal gamma q p.1) *
      (if p.1.state = s ∧ p.1.action = a then 1 else 0))) _ fun p hp => ?_), ?_⟩
  · have h1 := (hy p.1).sub (ht p.1 (List.of_mem_zip hp).1)
    have h2 := HasDerivAt.comp (h₂ := term clip) (evaluate (q s) a) ((term_isLoss clip).deriv _) h1
    rw [Pi.sub_apply] at h2
    simp only [hself] at h2
    exact h2.const_mul p.2
  · have h1 := (hy p.1).sub_const (goal gamma q p.1)
    have h2 := HasDerivAt.comp (h₂ := term clip) (evaluate (q s) a) ((term_isLoss clip).deriv _) h1
    rw [show (evaluate (setEntry q s a (evaluate (q s) a) p.1.state) p.1.action - goal gamma q p.1) = evaluate (q p.1.state) p.1.action - goal gamma q p.1 by rw [hself]] at h2
    exact h2.const_mul p.2
  · rw [residual_backward_eq gamma gradScale clip mean q vs w hw]
    congr 1
    rw [← mul_assoc, ← mul_assoc, mul_comm gradScale, mul_comm (1 - gradScale), mul_assoc, mul_assoc, ← mul_add]
    congr 1
    generalize vs.zip (weightsOf vs.length w) = l
    induction l with
    | nil => simp
    | cons p l ih =>
      simp only [List.map_cons, List.sum_cons]
      rw [ih]; ring

/-! ## Chance -/

/-- From the state 0 the only action leads to the state 1 or 2, with equal probabilities; from these it ends the episode with the reward 1 or 0. -/
noncomputable def fork : Env (Fin 3) ℝ where
  nA := 1
  outcomes s _ := if s = 0 then [(1 / 2, ⟨0, 1, false⟩), (1 / 2, ⟨0, 2, false⟩)] else [(1, ⟨if s = 1 then 1 else 0, 0, true⟩)]

/-- Each step of the process once. -/
def forkSteps : List (Visit (Fin 3)) := [⟨0, 0, ⟨0, 1, false⟩⟩, ⟨0, 0, ⟨0, 2, false⟩⟩, ⟨1, 0, ⟨1, 0, true⟩⟩, ⟨2, 0, ⟨0, 0, true⟩⟩]

/-- The table of the true values. -/
noncomputable def forkValues (gamma : ℝ) (s : Fin 3) : List ℝ := [if s = 0 then gamma / 2 else if s = 1 then 1 else 0]

theorem fork_valid : fork.Valid := fun s a _ => by
  by_cases h : s = 0
  · refine ⟨fun x hx => ?_, ?_⟩
    · simp only [fork, h, if_true, List.mem_cons, List.not_mem_nil, or_false] at hx
      rcases hx with rfl | rfl <;> norm_num
    · simp only [fork, h, if_true, List.map_cons, List.map_nil, List.sum_cons, List.sum_nil]; norm_num
  · refine ⟨fun x hx => ?_, ?_⟩
    · simp only [fork, h, if_false, List.mem_singleton] at hx
      rw [hx]; norm_num
    · simp [fork, h]

/-- **C157**: with chance, ResidualDQN does not learn the values.  In the process above the true values solve the optimality equation, and each step occurs in the batch in its proportion; DQN's
gradients (`grad_scale=0`) vanish at the true values.  But for all positive `grad_scale` the gradient for the state 1 is positive: an update moves the value away from the truth.  And tables exist
that are not the truth and have a smaller loss. -/
theorem C157_chance_violated (gamma : ℝ) (hg : 0 < gamma) (hg1 : gamma ≤ 1) (clip mean : Bool) :
    Solves fork gamma 1 (forkValues gamma) ∧
    (∀ s a, a < 1 → residualBackward gamma 0 clip (accName mean) (forkValues gamma) (forkSteps.map Visit.entry) none s a = .ok 0) ∧
    (∀ gradScale, 0 < gradScale → ∃ g, 0 < g ∧ residualBackward gamma gradScale clip (accName mean) (forkValues gamma) (forkSteps.map Visit.entry) none 1 0 = .ok g) ∧
    ∃ q L L', (∀ s, (q s).length = 1) ∧ residualLoss gamma clip (accName mean) q (forkSteps.map Visit.entry) none = .ok L ∧
      residualLoss gamma clip (accName mean) (forkValues gamma) (forkSteps.map Visit.entry) none = .ok L' ∧ L < L' := by
  have hm : ∀ x : ℝ, maxQ [x] = x := fun x => rfl
  have hev : ∀ x : ℝ, evaluate [x] 0 = x := fun x => rfl
  have hgr : ∀ x : ℝ, greedy [x] = 0 := fun x => rfl
  have hsl : ∀ e : ℝ, |e| ≤ 1 → ValueLoss.slope clip e = e := fun e he => by
    obtain ⟨h1, h2⟩ := abs_le.1 he
    cases clip
    · rfl
    · show clip1 e = e
      rw [clip1, min_eq_right h2, max_eq_right h1]
  have hte : ∀ e : ℝ, |e| ≤ 1 → term clip e = e ^ 2 / 2 := fun e he => by
    cases clip
    · rfl
    · exact huber_mid he
  have hf : 0 < factor mean 4 := factor_pos mean (by norm_num)
  have hlen : forkSteps.length = 4 := rfl
  have hz : forkSteps.zip (weightsOf forkSteps.length none) = [(⟨0, 0, ⟨0, 1, false⟩⟩, 1), (⟨0, 0, ⟨0, 2, false⟩⟩, 1), (⟨1, 0, ⟨1, 0, true⟩⟩, 1), (⟨2, 0, ⟨0, 0, true⟩⟩, 1)] := rfl
  have a1 : |gamma / 2 - gamma| ≤ 1 := by rw [abs_le]; constructor <;> linarith
  have a2 : |gamma / 2| ≤ 1 := by rw [abs_le]; constructor <;> linarith
  have a3 : |(0 : ℝ)| ≤ 1 := by simp
  refine ⟨solves_of_equation fork_valid gamma 1 hg.le _ ⟨by simp [fork], fun s => ⟨rfl, fun x hx => ?_⟩⟩ fun s a ha => ?_, fun s a ha => ?_, fun gradScale hs => ?_, ?_⟩
  · simp only [forkValues, List.mem_singleton] at hx
    rw [hx]
    split
    · rw [abs_le]; constructor <;> linarith
    · split <;> simp
  · have : a = 0 := by simpa [fork] using ha
    subst this
    simp only [forkValues, hev, hm, backup, fork]
    fin_cases s <;> simp [expect] <;> ring
  · have : a = 0 := by omega
    subst this
    rw [residual_backward_eq gamma 0 clip mean _ _ none (by simp), hz, hlen]
    congr 1
    simp only [List.map_cons, List.map_nil, List.sum_cons, List.sum_nil, goal, forkValues, hev, hm]
    fin_cases s <;> simp [hsl _ a1, hsl _ a2, hsl _ a3] <;> ring_nf <;> simp
  · refine ⟨factor mean 4 * (gradScale * gamma ^ 2 / 2), by positivity, ?_⟩
    rw [residual_backward_eq gamma gradScale clip mean _ _ none (by simp), hz, hlen]
    congr 1
    simp only [List.map_cons, List.map_nil, List.sum_cons, List.sum_nil, goal, goalSlope, forkValues, hev, hm, hgr]
    simp [hsl _ a1, hsl _ a2, hsl _ a3]
    ring_nf
    try trivial
  · let δ := gamma ^ 2 / 4
    have hδ0 : 0 < δ := by positivity
    have hδ1 : δ ≤ 1 / 4 := by simp only [δ]; nlinarith
    have b1 : |gamma * (1 - δ) / 2 - gamma * (1 - δ)| ≤ 1 := by rw [abs_le]; constructor <;> nlinarith
    have b2 : |gamma * (1 - δ) / 2| ≤ 1 := by rw [abs_le]; constructor <;> nlinarith
    have b3 : |1 - δ - 1| ≤ 1 := by rw [abs_le]; constructor <;> linarith
    have b4 : |-δ| ≤ 1 := by rw [abs_le]; constructor <;> linarith
    refine ⟨fun s => [if s = 0 then gamma * (1 - δ) / 2 else if s = 1 then 1 - δ else 0], factor mean 4 * (gamma ^ 2 * (1 - δ) ^ 2 / 4 + δ ^ 2 / 2), factor mean 4 * (gamma ^ 2 / 4),
      fun s => rfl, ?_, ?_, ?_⟩
    · rw [residual_loss_eq gamma clip mean _ _ (by simp [forkSteps]) none (by simp), hz, hlen]
      congr 2
      simp only [List.map_cons, List.map_nil, List.sum_cons, List.sum_nil, goal, hev, hm]
      simp [hte _ b1, hte _ b2, hte _ b3, hte _ b4, hte _ a3]
      ring
    · rw [residual_loss_eq gamma clip mean _ _ (by simp [forkSteps]) none (by simp), hz, hlen]
      congr 2
      simp only [List.map_cons, List.map_nil, List.sum_cons, List.sum_nil, goal, forkValues, hev, hm]
      simp [hte _ a1, hte _ a2, hte _ a3]
      ring
    · refine mul_lt_mul_of_pos_left ?_ hf
      have : gamma ^ 2 = 4 * δ := by simp only [δ]; ring
      rw [this]
      nlinarith

/-! ## A case -/

/-- All steps of the two rooms. -/
def roomsSteps : List (Visit Bool) := [⟨false, 0, ⟨0, false, false⟩⟩, ⟨false, 1, ⟨0, true, false⟩⟩, ⟨true, 0, ⟨0, true, false⟩⟩, ⟨true, 1, ⟨1, true, true⟩⟩]

theorem rooms_covers : Covers rooms roomsSteps (some [1, 2, 1 / 2, 1]) where
  recorded v hv := by
    simp only [roomsSteps, List.mem_cons, List.not_mem_nil, or_false] at hv
    rcases hv with rfl | rfl | rfl | rfl <;> exact ⟨by simp [rooms], 1, by simp [rooms]⟩
  every s a ha := by
    have ha' : a < 2 := ha
    interval_cases a <;> cases s
    · exact ⟨⟨false, 0, ⟨0, false, false⟩⟩, by simp [roomsSteps], rfl, rfl⟩
    · exact ⟨⟨true, 0, ⟨0, true, false⟩⟩, by simp [roomsSteps], rfl, rfl⟩
    · exact ⟨⟨false, 1, ⟨0, true, false⟩⟩, by simp [roomsSteps], rfl, rfl⟩
    · exact ⟨⟨true, 1, ⟨1, true, true⟩⟩, by simp [roomsSteps], rfl, rfl⟩
  weights l hl := by
    obtain rfl := Option.some.inj hl
    exact ⟨rfl, fun x hx => by
      simp only [List.mem_cons, List.not_mem_nil, or_false] at hx
      rcases hx with rfl | rfl | rfl | rfl <;> norm_num⟩

/-- The hypotheses of `C157_stationary` and `C157_zero` are met: with weights and the defaults `grad_scale=1` and the clipped loss, the table of the true values of the rooms is where ResidualDQN
comes to rest, and its loss is zero. -/
example : let q : Bool → List ℝ := fun s => if s then [9 / 10, 1] else [81 / 100, 9 / 10]
    (∀ s a, a < 2 → residualBackward (9 / 10) 1 true (accName true) q (roomsSteps.map Visit.entry) (some [1, 2, 1 / 2, 1]) s a = .ok 0) ∧
      residualLoss (9 / 10) true (accName true) q (roomsSteps.map Visit.entry) (some [1, 2, 1 / 2, 1]) = .ok 0 := by
  intro q
  have hq : Table rooms 1 q := ⟨by simp [rooms], fun s => by
    cases s
    · refine ⟨rfl, fun x hx => ?_⟩
      simp only [q, Bool.false_eq_true, if_false, List.mem_cons, List.not_mem_nil, or_false] at hx
      rcases hx with rfl | rfl <;> rw [abs_le] <;> constructor <;> norm_num
    · refine ⟨rfl, fun x hx => ?_⟩
      simp only [q, if_true, List.mem_cons, List.not_mem_nil, or_false] at hx
      rcases hx with rfl | rfl <;> rw [abs_le] <;> constructor <;> norm_num⟩
  have m1 : maxQ (q true) = 1 := maxQ_unique ⟨by simp [q], fun x hx => by
    simp only [q, if_true, List.mem_cons, List.not_mem_nil, or_false] at hx
    rcases hx with rfl | rfl <;> norm_num⟩
  have m0 : maxQ (q false) = 9 / 10 := maxQ_unique ⟨by simp [q], fun x hx => by
    simp only [q, Bool.false_eq_true, if_false, List.mem_cons, List.not_mem_nil, or_false] at hx
    rcases hx with rfl | rfl <;> norm_num⟩
  have hsol : Solves rooms (9 / 10) 1 q := solves_of_equation (deterministic_valid rooms_deterministic) _ 1 (by norm_num) q hq fun s a ha => by
    have ha' : a < 2 := ha
    interval_cases a <;> cases s <;> simp [backup, rooms, expect, m0, m1] <;> simp [evaluate, q] <;> norm_num
  refine ⟨(C157_stationary rooms rooms_deterministic (9 / 10) 1 (by norm_num) 1 (by norm_num) q hq roomsSteps (by simp [roomsSteps]) _ rooms_covers true true).2 hsol, ?_⟩
  obtain ⟨L, h1, -, h2⟩ := C157_zero rooms rooms_deterministic (9 / 10) 1 (by norm_num) q hq roomsSteps (by simp [roomsSteps]) _ rooms_covers true true
  rw [h1, h2.2 hsol]

/-- The hypotheses of `C157_gradient` are met where going is the best action in both rooms. -/
example (v : Visit Bool) (_ : v ∈ roomsSteps) (b : ℕ) (hb : b < 2) (h : b ≠ greedy ([0, 1] : List ℝ)) : evaluate ([0, 1] : List ℝ) b < maxQ ([0, 1] : List ℝ) := by
  have h1 : greedy ([0, 1] : List ℝ) = 1 := by simp [greedy, argmaxFrom]
  rw [h1] at h
  have : b = 0 := by omega
  subst this
  rw [maxQ, h1]; simp [evaluate]

end Verif.ResidualDQN
