import Mathlib.Analysis.Calculus.Deriv.Mul
import Mathlib.Analysis.Calculus.Deriv.Add
import Verif.Model.TabularDQN
import Verif.Model.CopyParam
import Verif.Proofs.AsyncIteration
import Verif.Props.GapLearning
import Verif.Props.ValueLoss

/-!
# C152: a table trained with DQN's loss learns the optimal values, whatever is replayed

The network is a table, the optimizer plain gradient descent.  Batches are arbitrary.
-/

set_option autoImplicit false
set_option linter.unusedSectionVars false

open Filter Topology

namespace Verif.TabularDQN
open ActionValue Targets MDP ValueLoss

variable {S : Type}

/-! ## Specification -/

/-- A recorded step: a state, an action and what followed. -/
structure Visit (S : Type) where
  state : S
  action : Nat
  outcome : Outcome S ℝ

/-- The entry of the replay buffer for a step. -/
def Visit.entry (v : Visit S) : List (Transition S Nat ℝ) := [transition v.state v.action v.outcome]

/-- The step can happen in the process. -/
def Visit.From (env : Env S ℝ) (v : Visit S) : Prop := v.action < env.nA ∧ ∃ p, (p, v.outcome) ∈ env.outcomes v.state v.action

/-- The table with the value of the action `a` in the state `s` replaced by `x`. -/
def setEntry [DecidableEq S] (q : S → List ℝ) (s : S) (a : Nat) (x : ℝ) : S → List ℝ := fun s' => if s' = s then (q s).set a x else q s'

/-- `q'` is `q` after one step of gradient descent with the learning rate `lr`: each entry moves against the partial derivative of the loss. -/
def Descends [DecidableEq S] (env : Env S ℝ) (loss : (S → List ℝ) → Py ℝ) (lr : ℝ) (q q' : S → List ℝ) : Prop :=
  ∀ s a, a < env.nA → ∃ f d, (∀ x, loss (setEntry q s a x) = .ok (f x)) ∧ HasDerivAt f d (evaluate (q s) a) ∧
    evaluate (q' s) a = evaluate (q s) a - lr * d

/-- The weights, or ones. -/
def weightsOf (n : Nat) (w : Option (List ℝ)) : List ℝ := w.getD (List.replicate n 1)

/-- The learning rate times the weight that a batch gives to the action `a` in the state `s`. -/
noncomputable def share [DecidableEq S] (lr : ℝ) (mean : Bool) (batch : List (Visit S)) (w : Option (List ℝ)) (s : S) (a : Nat) : ℝ :=
  lr * (factor mean batch.length * ((batch.zip (weightsOf batch.length w)).map fun p => if p.1.state = s ∧ p.1.action = a then p.2 else 0).sum)

/-- Training: the tables `Q k` of the network and `T k` of the target network before the update `k`, which is made with the batch `batch k` and the weights `w k`;
afterwards the target network is moved towards the network by the factor `tau k`: 1 for a copy, 0 for no change, between them for a soft update. -/
structure Trains [DecidableEq S] (env : Env S ℝ) (gamma lr : ℝ) (clipDelta mean : Bool) (Q T : ℕ → S → List ℝ) (batch : ℕ → List (Visit S))
    (w : ℕ → Option (List ℝ)) (tau : ℕ → ℝ) : Prop where
  tables : ∀ k s, (Q k s).length = env.nA ∧ (T k s).length = env.nA
  nonempty : ∀ k, batch k ≠ []
  recorded : ∀ k, ∀ v ∈ batch k, v.From env
  weights : ∀ k l, w k = some l → l.length = (batch k).length ∧ ∀ x ∈ l, 0 ≤ x
  descends : ∀ k, Descends env (fun q => tableLoss gamma clipDelta (accName mean) q (T k) ((batch k).map Visit.entry) (w k)) lr (Q k) (Q (k + 1))
  shares : ∀ k s a, a < env.nA → share lr mean (batch k) (w k) s a ≤ 1
  rate : 0 ≤ lr
  taus : ∀ k, 0 ≤ tau k ∧ tau k ≤ 1
  target : ∀ k s a, a < env.nA → evaluate (T (k + 1) s) a = CopyParam.soft (tau k) (evaluate (T k s) a) (evaluate (Q (k + 1) s) a)

/-! ## The loss and its gradient -/

/-- The target of a step. -/
noncomputable def goal (gamma : ℝ) (qt : S → List ℝ) (v : Visit S) : ℝ := v.outcome.reward + if v.outcome.done then 0 else gamma * maxQ (qt v.outcome.next)

theorem mapM_ok {α β : Type} (l : List α) (f : α → Py β) (g : α → β) (h : ∀ x ∈ l, f x = .ok (g x)) : l.mapM f = .ok (l.map g) := by
  induction l with
  | nil => rfl
  | cons x l ih =>
    rw [List.mapM_cons, h x (by simp), ih fun y hy => h y (by simp [hy])]
    rfl

theorem batch_eq (gamma : ℝ) (vs : List (Visit S)) : ∃ b, batchExperiences id gamma (vs.map Visit.entry) = .ok b ∧ b.state = vs.map Visit.state ∧
    b.action = vs.map Visit.action ∧ ∀ qt : S → List ℝ, dqn qt b = vs.map (goal gamma qt) := by
  have h1 : (vs.map Visit.entry).mapM (fun e => pyGet e 0) = .ok (vs.map fun v => transition v.state v.action v.outcome) := by
    rw [List.mapM_map]
    exact mapM_ok _ _ _ fun v _ => rfl
  have h2 : (vs.map Visit.entry).mapM (fun e => pyGet e (-1)) = .ok (vs.map fun v => transition v.state v.action v.outcome) := by
    rw [List.mapM_map]
    exact mapM_ok _ _ _ fun v _ => rfl
  refine ⟨_, by unfold batchExperiences; rw [h1, h2]; rfl, ?_, ?_, fun qt => ?_⟩
  · simp [transition, Function.comp_def]
  · simp [transition, Function.comp_def]
  · simp only [dqn, bellman, List.map_map, List.zipWith_map_left, List.zipWith_map_right, List.zipWith_self, Function.comp_def]
    refine List.map_congr_left fun v _ => ?_
    cases hd : v.outcome.done <;> simp [goal, Visit.entry, transition, expReward, hd]

theorem weightsOf_length (vs : List (Visit S)) (w : Option (List ℝ)) (hw : ∀ l, w = some l → l.length = vs.length) : (weightsOf vs.length w).length = vs.length := by
  cases w with
  | none => simp [weightsOf]
  | some l => simpa [weightsOf] using hw l rfl

/-- The loss of a batch. -/
theorem loss_eq (gamma : ℝ) (clip mean : Bool) (q qt : S → List ℝ) (vs : List (Visit S)) (hne : vs ≠ []) (w : Option (List ℝ)) (hw : ∀ l, w = some l → l.length = vs.length) :
    tableLoss gamma clip (accName mean) q qt (vs.map Visit.entry) w = .ok (factor mean vs.length *
      ((vs.zip (weightsOf vs.length w)).map fun p => p.2 * term clip (evaluate (q p.1.state) p.1.action - goal gamma qt p.1)).sum) := by
  obtain ⟨b, hb, h1, h2, h3⟩ := batch_eq gamma vs
  have hl := weightsOf_length vs w hw
  let rows : List Row := (vs.zip (weightsOf vs.length w)).map fun p => ⟨evaluate (q p.1.state) p.1.action, goal gamma qt p.1, p.2⟩
  have hlen : rows.length = vs.length := by simp [rows, hl]
  have hy : rows.map Row.y = List.zipWith (fun s a => evaluate (q s) a) b.state b.action := by
    rw [h1, h2]
    simp only [rows, List.map_map, Function.comp_def, List.zipWith_map_left, List.zipWith_map_right, List.zipWith_self]
    conv_rhs => rw [← List.map_fst_zip (l₁ := vs) (l₂ := weightsOf vs.length w) (by omega)]
    rw [List.map_map]; rfl
  have ht : rows.map Row.t = dqn qt b := by
    rw [h3]
    simp only [rows, List.map_map, Function.comp_def]
    conv_rhs => rw [← List.map_fst_zip (l₁ := vs) (l₂ := weightsOf vs.length w) (by omega)]
    rw [List.map_map]; rfl
  have hww : rows.map Row.w = weightsOf vs.length w := by
    simp only [rows, List.map_map, Function.comp_def]
    exact List.map_snd_zip (by omega)
  have hrne : rows ≠ [] := by
    intro h
    rw [h] at hlen
    exact hne (List.length_eq_zero_iff.1 hlen.symm)
  obtain ⟨e1, e2⟩ := C90_errors rows clip mean hrne (term clip) (term_isLoss clip)
  have htot : total (term clip) rows =
      ((vs.zip (weightsOf vs.length w)).map fun p => p.2 * term clip (evaluate (q p.1.state) p.1.action - goal gamma qt p.1)).sum := by
    simp [total, rows, Function.comp_def]
  rw [← htot, ← hlen]
  unfold tableLoss
  rw [hb]
  show (do let (_, loss) ← computeLoss (List.zipWith (fun s a => evaluate (q s) a) b.state b.action) (dqn qt b) w clip (accName mean); .ok loss) = _
  rw [← hy, ← ht]
  cases w with
  | some l =>
    have : rows.map Row.w = l := hww
    rw [← this, e1]; rfl
  | none =>
    rw [e2]
    have h1 : (rows.map fun r => { r with w := 1 }) = rows := by
      conv_rhs => rw [← List.map_id rows]
      refine List.map_congr_left fun r hr => ?_
      have : r.w ∈ rows.map Row.w := List.mem_map_of_mem hr
      rw [hww] at this
      have := (List.mem_replicate.1 this).2
      cases r; simp_all
    rw [h1]; rfl

variable [DecidableEq S]

theorem evaluate_setEntry (q : S → List ℝ) (s : S) (a : Nat) (ha : a < (q s).length) (x : ℝ) (s' : S) (a' : Nat) :
    evaluate (setEntry q s a x s') a' = if s' = s ∧ a' = a then x else evaluate (q s') a' := by
  unfold setEntry evaluate
  by_cases h : s' = s
  · subst h
    by_cases h' : a' = a
    · subst h'; simp [ha]
    · simp [h', List.getElem?_set, Ne.symm h']
  · simp [h]

theorem sum_deriv {α : Type} (l : List α) (f : α → ℝ → ℝ) (d : α → ℝ) (x : ℝ) (h : ∀ p ∈ l, HasDerivAt (f p) (d p) x) :
    HasDerivAt (fun x => (l.map fun p => f p x).sum) (l.map d).sum x := by
  induction l with
  | nil => simpa using hasDerivAt_const x (0 : ℝ)
  | cons p l ih =>
    simp only [List.map_cons, List.sum_cons]
    exact (h p (by simp)).add (ih fun p hp => h p (by simp [hp]))

/-- What gradient descent does to an entry. -/
theorem descends_iff (env : Env S ℝ) (gamma lr : ℝ) (clip mean : Bool) (q qt q' : S → List ℝ) (hq : ∀ s, (q s).length = env.nA) (vs : List (Visit S)) (hne : vs ≠ [])
    (w : Option (List ℝ)) (hw : ∀ l, w = some l → l.length = vs.length) :
    Descends env (fun q => tableLoss gamma clip (accName mean) q qt (vs.map Visit.entry) w) lr q q' ↔
    ∀ s a, a < env.nA → evaluate (q' s) a = evaluate (q s) a - lr * (factor mean vs.length * ((vs.zip (weightsOf vs.length w)).map fun p =>
      if p.1.state = s ∧ p.1.action = a then p.2 * slope clip (evaluate (q s) a - goal gamma qt p.1) else 0).sum) := by
  have key : ∀ s a, a < env.nA → ∃ f, (∀ x, tableLoss gamma clip (accName mean) (setEntry q s a x) qt (vs.map Visit.entry) w = .ok (f x)) ∧
      HasDerivAt f (factor mean vs.length * ((vs.zip (weightsOf vs.length w)).map fun p =>
        if p.1.state = s ∧ p.1.action = a then p.2 * slope clip (evaluate (q s) a - goal gamma qt p.1) else 0).sum) (evaluate (q s) a) := by
    intro s a ha
    refine ⟨_, fun x => loss_eq gamma clip mean _ qt vs hne w hw, ?_⟩
    refine HasDerivAt.const_mul _ (sum_deriv _ _ _ _ fun p _ => ?_)
    have ha' : a < (q s).length := by rw [hq]; exact ha
    simp only [evaluate_setEntry q s a ha']
    by_cases h : p.1.state = s ∧ p.1.action = a
    · simp only [h, and_self, if_true]
      have h1 : HasDerivAt (fun x : ℝ => x - goal gamma qt p.1) 1 (evaluate (q s) a) := (hasDerivAt_id' _).sub_const _
      have h2 := (((term_isLoss clip).deriv (evaluate (q s) a - goal gamma qt p.1)).comp (evaluate (q s) a) h1).const_mul p.2
      simpa using h2
    · simp only [h, if_false]
      exact hasDerivAt_const _ _
  constructor
  · intro h s a ha
    obtain ⟨f, d, h1, h2, h3⟩ := h s a ha
    obtain ⟨g, g1, g2⟩ := key s a ha
    have : f = g := by
      funext x
      have := (h1 x).symm.trans (g1 x)
      exact Except.ok.inj this
    subst this
    rw [h3, h2.unique g2]
  · intro h s a ha
    obtain ⟨g, g1, g2⟩ := key s a ha
    exact ⟨g, _, g1, g2, h s a ha⟩

/-! ## Steps of bounded size -/

/-- The gradient is the error times a factor that is not small for bounded errors. -/
theorem slope_factor (clip : Bool) (e : ℝ) : ∃ κ, 0 < κ ∧ κ ≤ 1 ∧ slope clip e = κ * e ∧ ∀ D, |e| ≤ D → 1 / (1 + D) ≤ κ := by
  have hD : ∀ D, |e| ≤ D → 1 / (1 + D) ≤ 1 := fun D h => by
    have := (abs_nonneg e).trans h
    rw [div_le_one (by linarith)]; linarith
  by_cases h : clip = true ∧ 1 < |e|
  · obtain ⟨rfl, h⟩ := h
    refine ⟨1 / |e|, by positivity, by rw [div_le_one (by linarith)]; exact h.le, ?_, fun D hD => ?_⟩
    · have hs : slope true e = clip1 e := rfl
      rw [hs]
      unfold clip1
      rcases le_or_gt 0 e with h0 | h0
      · rw [abs_of_nonneg h0] at h ⊢
        rw [min_eq_left h.le, max_eq_right (by norm_num)]
        field_simp
      · rw [abs_of_neg h0] at h ⊢
        rw [min_eq_right (by linarith), max_eq_left (by linarith)]
        have : e ≠ 0 := h0.ne
        field_simp
    · exact one_div_le_one_div_of_le (by linarith) (by linarith)
  · refine ⟨1, one_pos, le_rfl, ?_, hD⟩
    rw [one_mul]
    cases clip with
    | false => rfl
    | true =>
      have h' : |e| ≤ 1 := by
        by_contra hc
        exact h ⟨rfl, not_le.1 hc⟩
      obtain ⟨h1, h2⟩ := abs_le.1 h'
      show clip1 e = e
      rw [clip1, min_eq_right h2, max_eq_right h1]

/-- A value that is moved towards others, by weights of at most 1 in total, stays within their bounds. -/
theorem stays {α : Type} (l : List α) (c t : α → ℝ) (x B : ℝ) (hx : |x| ≤ B) (hc : ∀ p ∈ l, 0 ≤ c p) (ht : ∀ p ∈ l, |t p| ≤ B) (h1 : (l.map c).sum ≤ 1) :
    |x - (l.map fun p => c p * (x - t p)).sum| ≤ B := by
  have hsum : ∀ z : ℝ, (l.map fun p => c p * (x - z)).sum = (l.map c).sum * (x - z) := fun z => by
    rw [List.sum_map_mul_right]
  have h2 : (l.map c).sum * (x - B) ≤ (l.map fun p => c p * (x - t p)).sum := by
    rw [← hsum]
    exact List.sum_le_sum fun p hp => mul_le_mul_of_nonneg_left (by linarith [(abs_le.1 (ht p hp)).2]) (hc p hp)
  have h3 : (l.map fun p => c p * (x - t p)).sum ≤ (l.map c).sum * (x - -B) := by
    rw [← hsum]
    exact List.sum_le_sum fun p hp => mul_le_mul_of_nonneg_left (by linarith [(abs_le.1 (ht p hp)).1]) (hc p hp)
  obtain ⟨h4, h5⟩ := abs_le.1 hx
  rw [abs_le]
  constructor <;> nlinarith

theorem factor_nonneg (mean : Bool) (n : Nat) : 0 ≤ factor mean n := by unfold factor; split <;> positivity

theorem weights_nonneg (n : Nat) (w : Option (List ℝ)) (h : ∀ l, w = some l → ∀ x ∈ l, 0 ≤ x) : ∀ x ∈ weightsOf n w, 0 ≤ x := by
  intro x hx
  cases w with
  | none => rw [(List.mem_replicate.1 hx).2]; norm_num
  | some l => exact h l rfl x hx

theorem share_nonneg (lr : ℝ) (hlr : 0 ≤ lr) (mean : Bool) (vs : List (Visit S)) (w : Option (List ℝ)) (h : ∀ l, w = some l → ∀ x ∈ l, 0 ≤ x) (s : S) (a : Nat) :
    0 ≤ share lr mean vs w s a := by
  refine mul_nonneg hlr (mul_nonneg (factor_nonneg _ _) (List.sum_nonneg fun x hx => ?_))
  obtain ⟨p, hp, rfl⟩ := List.mem_map.1 hx
  split
  · exact weights_nonneg _ w h _ (List.of_mem_zip hp).2
  · exact le_rfl

/-- With the mean of the batch, learning rates up to 1 and weights up to 1 are small enough. -/
theorem share_le_one (lr : ℝ) (hlr : 0 ≤ lr) (hlr1 : lr ≤ 1) (vs : List (Visit S)) (w : Option (List ℝ)) (h : ∀ l, w = some l → l.length = vs.length ∧ ∀ x ∈ l, 0 ≤ x ∧ x ≤ 1)
    (s : S) (a : Nat) : share lr true vs w s a ≤ 1 := by
  have hw : ∀ x ∈ weightsOf vs.length w, 0 ≤ x ∧ x ≤ 1 := by
    intro x hx
    cases w with
    | none => rw [(List.mem_replicate.1 hx).2]; norm_num
    | some l => exact (h l rfl).2 x hx
  have h0 : ∀ x ∈ ((vs.zip (weightsOf vs.length w)).map fun p => if p.1.state = s ∧ p.1.action = a then p.2 else 0), 0 ≤ x ∧ x ≤ 1 := by
    intro x hx
    obtain ⟨p, hp, rfl⟩ := List.mem_map.1 hx
    split
    · exact hw _ (List.of_mem_zip hp).2
    · norm_num
  have h1 : ((vs.zip (weightsOf vs.length w)).map fun p => if p.1.state = s ∧ p.1.action = a then p.2 else 0).sum ≤ vs.length := by
    refine (List.sum_le_card_nsmul _ 1 fun x hx => (h0 x hx).2).trans ?_
    simp
  have h2 : 0 ≤ ((vs.zip (weightsOf vs.length w)).map fun p => if p.1.state = s ∧ p.1.action = a then p.2 else 0).sum := List.sum_nonneg fun x hx => (h0 x hx).1
  have h3 : factor true vs.length * ((vs.zip (weightsOf vs.length w)).map fun p => if p.1.state = s ∧ p.1.action = a then p.2 else 0).sum ≤ 1 := by
    simp only [factor, if_true]
    rw [one_div_mul_eq_div]
    exact div_le_one_of_le₀ h1 (Nat.cast_nonneg _)
  have h4 : 0 ≤ factor true vs.length * ((vs.zip (weightsOf vs.length w)).map fun p => if p.1.state = s ∧ p.1.action = a then p.2 else 0).sum :=
    mul_nonneg (factor_nonneg _ _) h2
  unfold share
  nlinarith

/-! ## The theorems -/

/-- **C152**, all processes: no batch takes the values out of their bounds.  If the rewards are at most `R` in absolute value and `R + gamma * B ≤ B`, values that start within
`[-B, B]` stay there, in the network and the target network, for all batches, weights and target updates, clipped loss or not. -/
theorem C152_bounded (env : Env S ℝ) (gamma lr R B : ℝ) (clip mean : Bool) (hg : 0 ≤ gamma) (Q T : ℕ → S → List ℝ) (batch : ℕ → List (Visit S)) (w : ℕ → Option (List ℝ))
    (tau : ℕ → ℝ) (h : Trains env gamma lr clip mean Q T batch w tau) (hR : ∀ s a, a < env.nA → ∀ x ∈ env.outcomes s a, |x.2.reward| ≤ R) (hRB : R + gamma * B ≤ B)
    (hB : 0 ≤ B) (h0 : ∀ s a, a < env.nA → |evaluate (Q 0 s) a| ≤ B ∧ |evaluate (T 0 s) a| ≤ B) (k : ℕ) :
    ∀ s a, a < env.nA → |evaluate (Q k s) a| ≤ B ∧ |evaluate (T k s) a| ≤ B := by
  induction k with
  | zero => exact h0
  | succ k ih =>
    intro s a ha
    have hgoal : ∀ v ∈ batch k, |goal gamma (T k) v| ≤ B := fun v hv => by
      obtain ⟨h1, p, hp⟩ := h.recorded k v hv
      have h2 := hR v.state v.action h1 _ hp
      unfold goal
      split
      · rw [add_zero]; exact h2.trans (by nlinarith)
      · have hm : |maxQ (T k v.outcome.next)| ≤ B := by
          have hn : 0 < env.nA := by omega
          have hne : T k v.outcome.next ≠ [] := fun h' => by
            have := (h.tables k v.outcome.next).2
            rw [h'] at this; simp at this; omega
          obtain ⟨u, hu, -⟩ := C64_greedy (T k v.outcome.next) hne
          have := (List.getElem?_eq_some_iff.1 hu).1
          rw [(h.tables k _).2] at this
          exact (ih _ _ this).2
        refine (abs_add_le _ _).trans ?_
        rw [abs_mul, abs_of_nonneg hg]
        have := mul_le_mul_of_nonneg_left hm hg
        linarith
    have hQ : |evaluate (Q (k + 1) s) a| ≤ B := by
      have hd := (descends_iff env gamma lr clip mean (Q k) (T k) (Q (k + 1)) (fun s => (h.tables k s).1) (batch k) (h.nonempty k) (w k)
        fun l hl => (h.weights k l hl).1).1 (h.descends k) s a ha
      choose κ hκ0 hκ1 hκ _ using fun e => slope_factor clip e
      let c : Visit S × ℝ → ℝ := fun p => if p.1.state = s ∧ p.1.action = a then
        lr * factor mean (batch k).length * p.2 * κ (evaluate (Q k s) a - goal gamma (T k) p.1) else 0
      have hwn := weights_nonneg (batch k).length (w k) fun l hl => (h.weights k l hl).2
      have hlf : 0 ≤ lr * factor mean (batch k).length := mul_nonneg h.rate (factor_nonneg _ _)
      have e : evaluate (Q (k + 1) s) a = evaluate (Q k s) a -
          (((batch k).zip (weightsOf (batch k).length (w k))).map fun p => c p * (evaluate (Q k s) a - goal gamma (T k) p.1)).sum := by
        rw [hd, ← mul_assoc, ← List.sum_map_mul_left]
        congr 3
        funext p
        simp only [c]
        split
        · rw [hκ]; ring
        · simp
      rw [e]
      refine stays _ c _ _ B (ih s a ha).1 (fun p hp => ?_) (fun p hp => hgoal _ (List.of_mem_zip hp).1) ?_
      · simp only [c]
        split
        · exact mul_nonneg (mul_nonneg hlf (hwn _ (List.of_mem_zip hp).2)) (hκ0 _).le
        · exact le_rfl
      · refine le_trans ?_ (h.shares k s a ha)
        unfold share
        rw [← mul_assoc, ← List.sum_map_mul_left]
        refine List.sum_le_sum fun p hp => ?_
        simp only [c]
        split
        · have := mul_nonneg hlf (hwn _ (List.of_mem_zip hp).2)
          nlinarith [hκ1 (evaluate (Q k s) a - goal gamma (T k) p.1)]
        · simp
    refine ⟨hQ, ?_⟩
    rw [h.target k s a ha, CopyParam.soft]
    obtain ⟨t0, t1⟩ := h.taus k
    have h1 := abs_le.1 (ih s a ha).2
    have h2 := abs_le.1 hQ
    rw [abs_le]
    constructor <;> nlinarith

/-- Every action has one outcome. -/
def Deterministic (env : Env S ℝ) : Prop := ∀ s a, a < env.nA → ∃ o, env.outcomes s a = [(1, o)]

theorem deterministic_valid {env : Env S ℝ} (h : Deterministic env) : env.Valid := fun s a ha => by
  obtain ⟨o, ho⟩ := h s a ha
  rw [ho]; simp [IsDist]

theorem goal_eq {env : Env S ℝ} (h : Deterministic env) (gamma : ℝ) (qt : S → List ℝ) (v : Visit S) (hv : v.From env) :
    goal gamma qt v = backup env gamma (fun s => maxQ (qt s)) v.state v.action := by
  obtain ⟨ha, p, hp⟩ := hv
  obtain ⟨o, ho⟩ := h v.state v.action ha
  rw [ho] at hp
  simp only [List.mem_singleton, Prod.mk.injEq] at hp
  unfold backup
  rw [ho, ← hp.2]
  simp [expect, goal]

theorem backup_close {env : Env S ℝ} (h : Deterministic env) (gamma : ℝ) (hg : 0 ≤ gamma) (V V' : S → ℝ) (E : ℝ) (hE : 0 ≤ E) (hV : ∀ s, |V s - V' s| ≤ E) (s : S) (a : Nat) (ha : a < env.nA) :
    |backup env gamma V s a - backup env gamma V' s a| ≤ gamma * E := by
  obtain ⟨o, ho⟩ := h s a ha
  unfold backup
  rw [ho]
  simp only [expect, List.map_cons, List.map_nil, List.sum_cons, List.sum_nil, one_mul, add_zero]
  rw [add_sub_add_left_eq_sub]
  split
  · simp; positivity
  · rw [← mul_sub, abs_mul, abs_of_nonneg hg]
    exact mul_le_mul_of_nonneg_left (hV _) hg

/-- **C152**, deterministic processes with finitely many states: let a table be trained with DQN's loss, clipped or not, on any sequence of batches of recorded steps, with any weights, in which
every action of every state gets at least some weight `η` again and again, and let the target network be renewed again and again.  Then the values converge to those of an optimal table,
and from some update on the greedy actions are optimal. -/
theorem C152_converges [Finite S] (env : Env S ℝ) (hdet : Deterministic env) (hn : 0 < env.nA) (gamma lr : ℝ) (hg : 0 ≤ gamma) (hg1 : gamma < 1) (clip mean : Bool)
    (Q T : ℕ → S → List ℝ) (batch : ℕ → List (Visit S)) (w : ℕ → Option (List ℝ)) (tau : ℕ → ℝ) (h : Trains env gamma lr clip mean Q T batch w tau)
    (hvisit : ∀ s a, a < env.nA → ∃ η > 0, ∃ᶠ k in atTop, η ≤ share lr mean (batch k) (w k) s a) (hsync : ∃ η > 0, ∃ᶠ k in atTop, η ≤ tau k) :
    ∃ B Qs, Table env B Qs ∧ Optimal env gamma B (fun s => maxQ (Qs s)) (fun s => greedy (Qs s)) ∧
      (∀ s a, a < env.nA → evaluate (Qs s) a = backup env gamma (fun s => maxQ (Qs s)) s a) ∧
      ∀ s, (∀ a, a < env.nA → Tendsto (fun k => evaluate (Q k s) a) atTop (𝓝 (evaluate (Qs s) a))) ∧
        ∀ᶠ k in atTop, evaluate (Qs s) (greedy (Q k s)) = maxQ (Qs s) := by
  have he := deterministic_valid hdet
  obtain ⟨R, hR⟩ : ∃ R, ∀ s a, a < env.nA → |expect (env.outcomes s a) Outcome.reward| ≤ R := by
    have := Fintype.ofFinite S
    refine ⟨∑ s, ∑ a ∈ Finset.range env.nA, |expect (env.outcomes s a) Outcome.reward|, fun s a ha => ?_⟩
    refine le_trans ?_ (Finset.single_le_sum (f := fun s => ∑ a ∈ Finset.range env.nA, |expect (env.outcomes s a) Outcome.reward|)
      (fun s _ => Finset.sum_nonneg fun a _ => abs_nonneg _) (Finset.mem_univ s))
    exact Finset.single_le_sum (f := fun a => |expect (env.outcomes s a) Outcome.reward|) (fun a _ => abs_nonneg _) (Finset.mem_range.2 ha)
  obtain ⟨B, Qs, hQs, hs⟩ := optimal_exists env he hn gamma R hg hg1 hR
  have hopt := C135_dqn env he gamma B hg Qs hQs hs
  choose κ hκ0 hκ1 hκ hκD using fun e => slope_factor clip e
  let X : ℕ → S × Fin env.nA → ℝ := fun k i => evaluate (Q k i.1) i.2
  let Y : ℕ → S × Fin env.nA → ℝ := fun k i => evaluate (T k i.1) i.2
  let Xs : S × Fin env.nA → ℝ := fun i => evaluate (Qs i.1) i.2
  let y : ℕ → S × Fin env.nA → ℝ := fun k i => backup env gamma (fun s => maxQ (T k s)) i.1 i.2
  let c : ℕ → S × Fin env.nA → ℝ := fun k i => share lr mean (batch k) (w k) i.1 i.2 * κ (X k i - y k i)
  have hne : ∀ (q : S → List ℝ), (∀ s, (q s).length = env.nA) → ∀ s, q s ≠ [] := fun q hq s h' => by
    have := hq s
    rw [h'] at this; simp at this; omega
  have hmax : ∀ (q : S → List ℝ), (∀ s, (q s).length = env.nA) → ∀ s E, (∀ a, a < env.nA → |evaluate (q s) a - evaluate (Qs s) a| ≤ E) → |maxQ (q s) - maxQ (Qs s)| ≤ E :=
    fun q hq s E hE => max_close (q s) (Qs s) (by rw [hq, (hQs.2 s).1]) E (fun a ha => hE a (by rwa [hq] at ha)) _ _ (C64_max _ (hne q hq s))
      (C64_max _ (hne Qs (fun s => (hQs.2 s).1) s))
  have hm : AsyncIteration.Moves X Y Xs gamma c y tau := by
    refine ⟨hg, hg1, fun k i => ?_, fun k i => ?_, fun k E hE i => ?_, fun k i => ?_, h.taus⟩
    · have hd := (descends_iff env gamma lr clip mean (Q k) (T k) (Q (k + 1)) (fun s => (h.tables k s).1) (batch k) (h.nonempty k) (w k)
        fun l hl => (h.weights k l hl).1).1 (h.descends k) i.1 i.2 i.2.2
      have hsum : (((batch k).zip (weightsOf (batch k).length (w k))).map fun p => if p.1.state = i.1 ∧ p.1.action = (i.2 : ℕ) then
          p.2 * slope clip (evaluate (Q k i.1) i.2 - goal gamma (T k) p.1) else 0).sum =
          (((batch k).zip (weightsOf (batch k).length (w k))).map fun p => if p.1.state = i.1 ∧ p.1.action = (i.2 : ℕ) then p.2 else 0).sum *
            (κ (X k i - y k i) * (X k i - y k i)) := by
        rw [← List.sum_map_mul_right]
        congr 1
        refine List.map_congr_left fun p hp => ?_
        split
        · rename_i hpi
          rw [goal_eq hdet gamma (T k) p.1 (h.recorded k _ (List.of_mem_zip hp).1), hpi.1, hpi.2, hκ]
        · simp
      show evaluate (Q (k + 1) i.1) i.2 = _
      rw [hd, hsum]
      simp only [c, share, X]
      ring
    · have h1 := share_nonneg lr h.rate mean (batch k) (w k) (fun l hl => (h.weights k l hl).2) i.1 i.2
      have h2 := h.shares k i.1 i.2 i.2.2
      exact ⟨mul_nonneg h1 (hκ0 _).le, mul_le_one₀ h2 (hκ0 _).le (hκ1 _)⟩
    · show |backup env gamma (fun s => maxQ (T k s)) i.1 i.2 - evaluate (Qs i.1) i.2| ≤ _
      rw [hopt.2 i.1 i.2 i.2.2]
      have hE0 : 0 ≤ E := (abs_nonneg _).trans (hE i)
      exact backup_close hdet gamma hg _ _ E hE0 (fun s => hmax (T k) (fun s => (h.tables k s).2) s E fun a ha => hE (s, ⟨a, ha⟩)) _ _ i.2.2
    · show evaluate (T (k + 1) i.1) i.2 = _
      rw [h.target k i.1 i.2 i.2.2, CopyParam.soft]
      simp only [Y, X]; ring
  have hconv : ∀ i, Tendsto (fun k => X k i) atTop (𝓝 (Xs i)) := fun i => by
    refine (hm.converges (fun i => ?_) hsync i).1
    obtain ⟨η, hη, hf⟩ := hvisit i.1 i.2 i.2.2
    have := Fintype.ofFinite S
    obtain ⟨E, hE0, hE⟩ : ∃ E, 0 ≤ E ∧ ∀ i, |X 0 i - Xs i| ≤ E ∧ |Y 0 i - Xs i| ≤ E := by
      refine ⟨∑ i, (|X 0 i - Xs i| + |Y 0 i - Xs i|), Finset.sum_nonneg fun i _ => by positivity, fun i => ?_⟩
      have := Finset.single_le_sum (f := fun i => |X 0 i - Xs i| + |Y 0 i - Xs i|) (fun i _ => by positivity) (Finset.mem_univ i)
      have h1 := abs_nonneg (X 0 i - Xs i)
      have h2 := abs_nonneg (Y 0 i - Xs i)
      constructor <;> linarith
    refine ⟨η * (1 / (1 + 2 * E)), by positivity, hf.mono fun k hk => ?_⟩
    have hb := hm.box hE0 (fun i => (hE i).1) (fun i => (hE i).2) k (Nat.zero_le k)
    have hd : |X k i - y k i| ≤ 2 * E := by
      have h1 := abs_le.1 (hb.1 i)
      have h2 := abs_le.1 (hm.value k E hb.2 i)
      have h3 : gamma * E ≤ E := by nlinarith
      rw [abs_le]; constructor <;> linarith
    exact mul_le_mul hk (hκD _ _ hd) (by positivity) (hη.le.trans hk)
  refine ⟨B, Qs, hQs, hopt.1, hopt.2, fun s => ⟨fun a ha => hconv (s, ⟨a, ha⟩), ?_⟩⟩
  refine greedy_becomes_optimal (fun k => ?_) hQs s fun a ha ε hε => ?_
  · have := Fintype.ofFinite S
    refine ⟨∑ s, ((Q k s).map abs).sum, hn, fun s => ⟨(h.tables k s).1, fun x hx => ?_⟩⟩
    refine le_trans (List.single_le_sum (fun y hy => ?_) _ (List.mem_map_of_mem hx)) (Finset.single_le_sum (f := fun s => ((Q k s).map abs).sum) (fun s _ => ?_) (Finset.mem_univ s))
    · obtain ⟨z, -, rfl⟩ := List.mem_map.1 hy; exact abs_nonneg z
    · exact List.sum_nonneg fun y hy => by obtain ⟨z, -, rfl⟩ := List.mem_map.1 hy; exact abs_nonneg z
  · have hclose : ∀ᶠ k in atTop, ∀ a : Fin env.nA, |evaluate (Q k s) a - evaluate (Qs s) a| ≤ ε / 4 := by
      refine eventually_all.2 fun a => ?_
      have := (Metric.tendsto_nhds.1 (hconv (s, a))) (ε / 4) (by linarith)
      exact this.mono fun k hk => by rw [Real.dist_eq] at hk; exact hk.le
    refine hclose.mono fun k hk => ?_
    have h1 := abs_le.1 (hmax (Q k) (fun s => (h.tables k s).1) s _ fun a ha => hk ⟨a, ha⟩)
    have h2 := abs_le.1 (hk ⟨a, ha⟩)
    simp only at h2
    linarith

/-- Every batch has a share in the actions it contains. -/
theorem share_pos (lr : ℝ) (hlr : 0 ≤ lr) (vs : List (Visit S)) (w : Option (List ℝ)) (m : ℝ) (hm : 0 ≤ m) (hm1 : m ≤ 1)
    (h : ∀ l, w = some l → l.length = vs.length ∧ ∀ x ∈ l, m ≤ x) (N : ℕ) (hN : vs.length ≤ N) (v : Visit S) (hv : v ∈ vs) :
    lr * m / N ≤ share lr true vs w v.state v.action := by
  have hl := weightsOf_length vs w fun l hl => (h l hl).1
  have hw : ∀ x ∈ weightsOf vs.length w, m ≤ x := by
    intro x hx
    cases w with
    | none => rw [(List.mem_replicate.1 hx).2]; exact hm1
    | some l => exact (h l rfl).2 x hx
  obtain ⟨j, hj, rfl⟩ := List.getElem_of_mem hv
  have hsum : m ≤ ((vs.zip (weightsOf vs.length w)).map fun p => if p.1.state = vs[j].state ∧ p.1.action = vs[j].action then p.2 else 0).sum := by
    have hz : (vs[j], (weightsOf vs.length w)[j]'(by omega)) ∈ vs.zip (weightsOf vs.length w) := by
      rw [← List.getElem_zip (h := by simp [hl]; omega)]
      exact List.getElem_mem _
    refine le_trans (hw _ (List.of_mem_zip hz).2) (List.single_le_sum (fun x hx => ?_) _ (List.mem_map.2 ⟨_, hz, by simp⟩))
    obtain ⟨p, hp, rfl⟩ := List.mem_map.1 hx
    split
    · exact hm.trans (hw _ (List.of_mem_zip hp).2)
    · exact le_rfl
  have hpos : (0 : ℝ) < vs.length := by exact_mod_cast List.length_pos_of_mem hv
  have hN' : (vs.length : ℝ) ≤ N := by exact_mod_cast hN
  unfold share
  rw [mul_div_assoc]
  refine mul_le_mul_of_nonneg_left ?_ hlr
  simp only [factor, if_true]
  rw [one_div_mul_eq_div]
  exact div_le_div₀ (hm.trans hsum) hsum hpos hN'

/-- **C152** in the terms of the agent's parameters: plain or prioritized replay (weights at least `m` and at most 1), the mean over the batch, a learning rate of at most 1,
minibatches of at most `N` steps.  If every action of every state is replayed infinitely often and the target network copied infinitely often, the values converge and the
greedy actions become optimal. -/
theorem C152_replay [Finite S] (env : Env S ℝ) (hdet : Deterministic env) (hn : 0 < env.nA) (gamma lr : ℝ) (hg : 0 ≤ gamma) (hg1 : gamma < 1) (hlr : 0 < lr)
    (clip : Bool) (Q T : ℕ → S → List ℝ) (batch : ℕ → List (Visit S)) (w : ℕ → Option (List ℝ)) (tau : ℕ → ℝ) (h : Trains env gamma lr clip true Q T batch w tau)
    (m : ℝ) (hm : 0 < m) (hm1 : m ≤ 1) (hw : ∀ k l, w k = some l → ∀ x ∈ l, m ≤ x) (N : ℕ) (hN : ∀ k, (batch k).length ≤ N)
    (hvisit : ∀ s a, a < env.nA → ∃ᶠ k in atTop, ∃ v ∈ batch k, v.state = s ∧ v.action = a) (hsync : ∃ᶠ k in atTop, tau k = 1) :
    ∃ B Qs, Table env B Qs ∧ Optimal env gamma B (fun s => maxQ (Qs s)) (fun s => greedy (Qs s)) ∧
      (∀ s a, a < env.nA → evaluate (Qs s) a = backup env gamma (fun s => maxQ (Qs s)) s a) ∧
      ∀ s, (∀ a, a < env.nA → Tendsto (fun k => evaluate (Q k s) a) atTop (𝓝 (evaluate (Qs s) a))) ∧
        ∀ᶠ k in atTop, evaluate (Qs s) (greedy (Q k s)) = maxQ (Qs s) := by
  refine C152_converges env hdet hn gamma lr hg hg1 clip true Q T batch w tau h (fun s a ha => ?_) ⟨1, one_pos, hsync.mono fun k hk => hk.ge⟩
  have hN0 : (0 : ℝ) < N := by
    have := List.length_pos_iff.2 (h.nonempty 0)
    exact_mod_cast lt_of_lt_of_le this (hN 0)
  refine ⟨lr * m / N, by positivity, (hvisit s a ha).mono fun k hk => ?_⟩
  obtain ⟨v, hv, rfl, rfl⟩ := hk
  exact share_pos lr hlr.le _ _ m hm.le hm1 (fun l hl => ⟨(h.weights k l hl).1, hw k l hl⟩) N (hN k) v hv

/-! ## Training goes on for all batches -/

/-- The table after the update. -/
noncomputable def nextTable (env : Env S ℝ) (gamma lr : ℝ) (clip mean : Bool) (q qt : S → List ℝ) (vs : List (Visit S)) (w : Option (List ℝ)) : S → List ℝ :=
  fun s => (List.range env.nA).map fun a => evaluate (q s) a - lr * (factor mean vs.length * ((vs.zip (weightsOf vs.length w)).map fun p =>
    if p.1.state = s ∧ p.1.action = a then p.2 * slope clip (evaluate (q s) a - goal gamma qt p.1) else 0).sum)

theorem evaluate_map_range (n : Nat) (f : Nat → ℝ) (a : Nat) (ha : a < n) : evaluate ((List.range n).map f) a = f a := by
  simp [evaluate, ha]

/-- **C152**: no sequence of recorded batches stops the training: the updates exist, for all first tables. -/
theorem C152_exists (env : Env S ℝ) (gamma lr : ℝ) (hlr : 0 ≤ lr) (hlr1 : lr ≤ 1) (clip : Bool) (Q₀ T₀ : S → List ℝ) (hQ : ∀ s, (Q₀ s).length = env.nA) (hT : ∀ s, (T₀ s).length = env.nA)
    (batch : ℕ → List (Visit S)) (hne : ∀ k, batch k ≠ []) (hrec : ∀ k, ∀ v ∈ batch k, v.From env) (w : ℕ → Option (List ℝ))
    (hw : ∀ k l, w k = some l → l.length = (batch k).length ∧ ∀ x ∈ l, 0 ≤ x ∧ x ≤ 1) (tau : ℕ → ℝ) (htau : ∀ k, 0 ≤ tau k ∧ tau k ≤ 1) :
    ∃ Q T, Q 0 = Q₀ ∧ T 0 = T₀ ∧ Trains env gamma lr clip true Q T batch w tau := by
  let step : ℕ → (S → List ℝ) × (S → List ℝ) → (S → List ℝ) × (S → List ℝ) := fun k p =>
    let q := nextTable env gamma lr clip true p.1 p.2 (batch k) (w k)
    (q, fun s => (List.range env.nA).map fun a => CopyParam.soft (tau k) (evaluate (p.2 s) a) (evaluate (q s) a))
  let P : ℕ → (S → List ℝ) × (S → List ℝ) := fun k => Nat.rec (Q₀, T₀) step k
  have hP : ∀ k, P (k + 1) = step k (P k) := fun k => rfl
  have hlen : ∀ k s, ((P k).1 s).length = env.nA ∧ ((P k).2 s).length = env.nA := by
    intro k s
    cases k with
    | zero => exact ⟨hQ s, hT s⟩
    | succ k => rw [hP]; simp [step, nextTable]
  refine ⟨fun k => (P k).1, fun k => (P k).2, rfl, rfl, hlen, hne, hrec, fun k l hl => ⟨(hw k l hl).1, fun x hx => ((hw k l hl).2 x hx).1⟩, fun k => ?_,
    fun k s a _ => share_le_one lr hlr hlr1 _ _ (hw k) s a, hlr, htau, fun k s a ha => ?_⟩
  · refine (descends_iff env gamma lr clip true _ _ _ (fun s => (hlen k s).1) (batch k) (hne k) (w k) fun l hl => (hw k l hl).1).2 fun s a ha => ?_
    show evaluate (nextTable env gamma lr clip true (P k).1 (P k).2 (batch k) (w k) s) a = _
    rw [nextTable, evaluate_map_range _ _ _ ha]
  · show evaluate ((List.range env.nA).map _) a = _
    rw [evaluate_map_range _ _ _ ha]

/-! ## A case -/

/-- Two rooms: action 0 waits, action 1 goes to the other room or, from the second room, to the exit, where the reward is 1. -/
def rooms : Env Bool ℝ where
  nA := 2
  outcomes s a := [(1, if a = 1 then ⟨if s then 1 else 0, true, s⟩ else ⟨0, s, false⟩)]

theorem rooms_deterministic : Deterministic rooms := fun _ _ _ => ⟨_, rfl⟩

/-- Replay of single steps, one after another. -/
def roomsVisit (k : ℕ) : Visit Bool := ⟨k % 2 = 1, k / 2 % 2, if k / 2 % 2 = 1 then ⟨if k % 2 = 1 then 1 else 0, true, k % 2 = 1⟩ else ⟨0, k % 2 = 1, false⟩⟩

theorem rooms_from (k : ℕ) : (roomsVisit k).From rooms := by
  refine ⟨Nat.mod_lt _ (by norm_num), 1, ?_⟩
  simp [rooms, roomsVisit]

theorem often (m r : ℕ) (hm : 0 < m) (hr : r < m) : ∃ᶠ k in atTop, k % m = r := by
  rw [frequently_atTop]
  intro a
  refine ⟨m * a + r, ?_, ?_⟩
  · nlinarith
  · rw [Nat.mul_add_mod, Nat.mod_eq_of_lt hr]

/-- The hypotheses of `C152_exists` and `C152_replay` are met: with a learning rate of 1/2, the clipped loss, and a copy of the target network every ten updates, the value of leaving
the second room converges to 1, and in the end the greedy action is to leave. -/
example : ∃ Q T, Q 0 = (fun _ => [7, -3]) ∧ Trains rooms (9 / 10) (1 / 2) true true Q T (fun k => [roomsVisit k]) (fun _ => none) (fun k => if k % 10 = 0 then 1 else 0) ∧
    Tendsto (fun k => evaluate (Q k true) 1) atTop (𝓝 1) ∧ ∀ᶠ k in atTop, greedy (Q k true) = 1 := by
  obtain ⟨Q, T, h0, -, h⟩ := C152_exists rooms (9 / 10) (1 / 2) (by norm_num) (by norm_num) true (fun _ => [7, -3]) (fun _ => [0, 0]) (fun _ => rfl) (fun _ => rfl)
    (fun k => [roomsVisit k]) (fun k => by simp) (fun k v hv => by rw [List.mem_singleton.1 hv]; exact rooms_from k) (fun _ => none) (fun k l h => by simp at h)
    (fun k => if k % 10 = 0 then 1 else 0) (fun k => by split <;> norm_num)
  refine ⟨Q, T, h0, h, ?_⟩
  obtain ⟨B, Qs, h1, h2, h3, h4⟩ := C152_replay rooms rooms_deterministic (by simp [rooms]) (9 / 10) (1 / 2) (by norm_num) (by norm_num) (by norm_num) true Q T _ _ _ h 1 one_pos le_rfl
    (fun k l h => by simp at h) 1 (fun k => by simp) (fun s a ha => by
      have ha' : a < 2 := ha
      refine (often 4 (2 * a + if s then 1 else 0) (by norm_num) (by split <;> omega)).mono fun k hk => ⟨_, List.mem_singleton.2 rfl, ?_, ?_⟩
      · cases s <;> simp [roomsVisit] at hk ⊢ <;> omega
      · cases s <;> simp [roomsVisit] at hk ⊢ <;> omega)
    ((often 10 0 (by norm_num) (by norm_num)).mono fun k hk => by simp [hk])
  have v1 : evaluate (Qs true) 1 = 1 := by
    rw [h3 true 1 (by simp [rooms])]
    simp [backup, rooms, expect]
  have v0 : evaluate (Qs true) 0 = 9 / 10 * maxQ (Qs true) := by
    rw [h3 true 0 (by simp [rooms])]
    simp [backup, rooms, expect]
  have hl : (Qs true).length = 2 := (h1.2 true).1
  refine ⟨by have := (h4 true).1 1 (by simp [rooms]); rwa [v1] at this, (h4 true).2.mono fun k hk => ?_⟩
  have hmx := C64_max (Qs true) (by intro h'; rw [h'] at hl; simp at hl)
  have hge : 1 ≤ maxQ (Qs true) := by
    rw [← v1]
    refine hmx.2 _ ?_
    simp [evaluate, hl]
  have hlt : greedy (Q k true) < 2 := by
    have hq : (Q k true).length = 2 := (h.tables k true).1
    obtain ⟨u, hu, -⟩ := C64_greedy (Q k true) (by intro h'; rw [h'] at hq; simp at hq)
    rw [← hq]; exact (List.getElem?_eq_some_iff.1 hu).1
  rcases (by omega : greedy (Q k true) = 0 ∨ greedy (Q k true) = 1) with h' | h'
  · rw [h', v0] at hk; linarith
  · exact h'

end Verif.TabularDQN
