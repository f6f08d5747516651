import Mathlib.Tactic.NormNum
import Mathlib.Tactic.Linarith
import Mathlib.Tactic.Positivity
import Mathlib.Tactic.FieldSimp
import Mathlib.Algebra.Order.Archimedean.Real.Basic
import Mathlib.Algebra.Order.Floor.Ring
import Verif.Model.CategoricalLoss
import Verif.Props.Categorical
import Verif.Props.Targets
set_option autoImplicit false
set_option linter.unusedSectionVars false

/-! # C106: the update of CategoricalDQN -/

namespace Verif.CategoricalLoss
open ActionValue

/-! ### Specification -/

/-- A probability distribution over `n` atoms. -/
structure IsDist (n : Nat) (p : List ℝ) : Prop where
  length : p.length = n
  nonneg : ∀ x ∈ p, 0 ≤ x
  sum : p.sum = 1

/-- The cross entropy of a prediction `y` relative to a target `t`, with probabilities below `1e-10` raised to it. -/
noncomputable def crossEntropy (t y : List ℝ) : ℝ :=
  (List.zipWith (fun ti yi => ti * -Real.log (min (max yi 1e-10) 1)) t y).sum

/-- The entropy of a distribution. -/
noncomputable def entropy (t : List ℝ) : ℝ := (t.map fun ti => ti * -Real.log ti).sum

/-- The mean of a distribution over the atoms `z`. -/
def meanOf (z p : List ℝ) : ℝ := (List.zipWith (· * ·) p z).sum

/-! ### Loss -/

theorem errors_eq : ∀ (y t : List (List ℝ)), (eltwiseLoss y t).map List.sum = List.zipWith crossEntropy t y
  | [], [] => rfl
  | [], _ :: _ => rfl
  | _ :: _, [] => rfl
  | yr :: y, tr :: t => by
    have ih := errors_eq y t
    unfold eltwiseLoss at ih ⊢
    rw [List.zipWith_cons_cons, List.map_cons, ih, List.zipWith_cons_cons]
    congr 1
    simp only [crossEntropy, clip, neg_mul, mul_neg]

/-- **C106**: the priorities given to the replay buffer are the cross entropies of the transitions, and the loss is their
mean or sum, weighted if there are weights. -/
theorem C106_loss (y t : List (List ℝ)) (hlen : t.length = y.length) (w : List ℝ) (hw : w.length = y.length) :
    let errors := List.zipWith crossEntropy t y
    computeLoss y t none "sum" = .ok (errors, errors.sum) ∧
    computeLoss y t none "mean" = .ok (errors, errors.sum / y.length) ∧
    computeLoss y t (some w) "sum" = .ok (errors, (List.zipWith (· * ·) errors w).sum) ∧
    computeLoss y t (some w) "mean" = .ok (errors, (List.zipWith (· * ·) errors w).sum / y.length) := by
  intro errors
  have h1 : (eltwiseLoss y t).length = y.length := by simp [eltwiseLoss, hlen]
  have h2 : (eltwiseLoss y t).flatten.sum = errors.sum := by
    rw [List.sum_flatten, errors_eq]
  have h3 := errors_eq y t
  have m : ("mean" == "sum") = false := by decide
  have s : ("sum" == "mean") = false := by decide
  refine ⟨?_, ?_, ?_, ?_⟩ <;>
    simp [computeLoss, computeValueLoss, computeWeightedValueLoss, pyAssert, m, s, h1, h2, h3, hw, bind, Except.bind, errors]

/-- **C106**: another accumulator is rejected. -/
theorem C106_accumulator (y t : List (List ℝ)) (w : Option (List ℝ)) (acc : String) (h : acc ≠ "mean") (h' : acc ≠ "sum") :
    computeLoss y t w acc = .error .assertionError := by
  have m : (acc == "mean") = false := by simpa using h
  have s : (acc == "sum") = false := by simpa using h'
  cases w <;> simp [computeLoss, computeValueLoss, computeWeightedValueLoss, pyAssert, m, s, bind, Except.bind]

theorem clip_bounds (y : ℝ) : 1e-10 ≤ min (max y 1e-10) 1 ∧ min (max y 1e-10) 1 ≤ (1 : ℝ) :=
  ⟨le_min (le_max_right _ _) (by norm_num), min_le_right _ _⟩

/-- **C106**: whatever numbers the network gives, every priority is between 0 and `10 * log 10`. -/
theorem C106_bounded (n : Nat) (t y : List ℝ) (ht : IsDist n t) (hy : y.length = n) :
    0 ≤ crossEntropy t y ∧ crossEntropy t y ≤ 10 * Real.log 10 := by
  have key : ∀ (t y : List ℝ), (∀ x ∈ t, 0 ≤ x) → t.length = y.length →
      0 ≤ crossEntropy t y ∧ crossEntropy t y ≤ t.sum * (10 * Real.log 10) := by
    intro t
    induction t with
    | nil => intro y _ _; simp [crossEntropy]
    | cons a t ih =>
      intro y hn hl
      cases y with
      | nil => simp at hl
      | cons b y =>
        obtain ⟨i1, i2⟩ := ih y (fun x hx => hn x (List.mem_cons_of_mem _ hx)) (by simpa using hl)
        have ha := hn a List.mem_cons_self
        obtain ⟨c1, c2⟩ := clip_bounds b
        have hpos : (0 : ℝ) < min (max b 1e-10) 1 := lt_of_lt_of_le (by norm_num) c1
        have l1 : Real.log (min (max b 1e-10) 1) ≤ 0 := Real.log_nonpos hpos.le c2
        have l2 : -(10 * Real.log 10) ≤ Real.log (min (max b 1e-10) 1) := by
          have : Real.log (1e-10 : ℝ) = -(10 * Real.log 10) := by
            rw [show (1e-10 : ℝ) = ((10 : ℝ) ^ 10)⁻¹ by norm_num, Real.log_inv, Real.log_pow]
            norm_num
          rw [← this]
          exact Real.log_le_log (by norm_num) c1
        simp only [crossEntropy, List.zipWith_cons_cons, List.sum_cons] at i1 i2 ⊢
        constructor
        · have := mul_nonneg ha (neg_nonneg.2 l1)
          linarith
        · have := mul_le_mul_of_nonneg_left (show -Real.log (min (max b 1e-10) 1) ≤ 10 * Real.log 10 by linarith) ha
          rw [add_mul]
          linarith
  obtain ⟨h1, h2⟩ := key t y ht.nonneg (by rw [ht.length, hy])
  rw [ht.sum, one_mul] at h2
  exact ⟨h1, h2⟩

theorem gibbs_term (t x : ℝ) (ht : 0 ≤ t) (hx : 0 < x) :
    t * -Real.log t + t - x ≤ t * -Real.log x ∧ (t * -Real.log t + t - x = t * -Real.log x ↔ x = t) := by
  rcases ht.eq_or_lt with rfl | ht
  · simp only [zero_mul, zero_add, zero_sub]
    exact ⟨by linarith, ⟨fun h => by linarith, fun h => by linarith⟩⟩
  · have e : t * -Real.log x = t * -Real.log t - t * Real.log (x / t) := by
      rw [Real.log_div hx.ne' ht.ne']
      ring
    rw [e]
    have h1 := Real.log_le_sub_one_of_pos (div_pos hx ht)
    have h2 : t * (x / t - 1) = x - t := by field_simp
    refine ⟨?_, ?_, ?_⟩
    · have := mul_le_mul_of_nonneg_left h1 ht.le
      linarith
    · intro h
      by_contra hne
      have hne' : x / t ≠ 1 := by rwa [Ne, div_eq_one_iff_eq ht.ne']
      have := mul_lt_mul_of_pos_left (Real.log_lt_sub_one_of_pos (div_pos hx ht) hne') ht
      linarith
    · rintro rfl
      simp [ht.ne']

theorem gibbs : ∀ (t x : List ℝ), t.length = x.length → (∀ a ∈ t, 0 ≤ a) → (∀ a ∈ x, 0 < a) →
    entropy t + t.sum - x.sum ≤ (List.zipWith (fun a b => a * -Real.log b) t x).sum ∧
    (entropy t + t.sum - x.sum = (List.zipWith (fun a b => a * -Real.log b) t x).sum ↔ x = t)
  | [], [], _, _, _ => by simp [entropy]
  | [], _ :: _, h, _, _ => by simp at h
  | _ :: _, [], h, _, _ => by simp at h
  | a :: t, b :: x, h, h1, h2 => by
    obtain ⟨i1, i2⟩ := gibbs t x (by simpa using h) (fun a ha => h1 a (List.mem_cons_of_mem _ ha))
      (fun a ha => h2 a (List.mem_cons_of_mem _ ha))
    obtain ⟨g1, g2⟩ := gibbs_term a b (h1 a List.mem_cons_self) (h2 b List.mem_cons_self)
    simp only [entropy, List.map_cons, List.sum_cons, List.zipWith_cons_cons, List.cons.injEq] at i1 i2 ⊢
    refine ⟨by linarith, ?_⟩
    rw [← g2, ← i2]
    exact ⟨fun h => ⟨by linarith, by linarith⟩, fun h => by linarith [h.1, h.2]⟩

/-- **C106**: among predicted distributions without probabilities below `1e-10` the target itself, and only it, has the
smallest loss, the entropy of the target. -/
theorem C106_optimum (n : Nat) (t y : List ℝ) (ht : IsDist n t) (hy : IsDist n y) (hc : ∀ x ∈ y, 1e-10 ≤ x) :
    entropy t ≤ crossEntropy t y ∧ (crossEntropy t y = entropy t ↔ y = t) := by
  have hle : ∀ x ∈ y, x ≤ 1 := fun x hx => hy.sum ▸ List.single_le_sum hy.nonneg x hx
  have e : crossEntropy t y = (List.zipWith (fun a b => a * -Real.log b) t y).sum := by
    rw [crossEntropy]
    congr 1
    apply List.ext_getElem
    · simp
    · intro i h1 h2
      simp only [List.getElem_zipWith]
      rw [max_eq_left (hc _ (List.getElem_mem _)), min_eq_left (hle _ (List.getElem_mem _))]
  obtain ⟨g1, g2⟩ := gibbs t y (by rw [ht.length, hy.length]) ht.nonneg
    (fun a ha => lt_of_lt_of_le (by norm_num) (hc a ha))
  rw [ht.sum, hy.sum] at g1 g2
  rw [e]
  refine ⟨by linarith, ?_⟩
  rw [← g2]
  exact ⟨fun h => by linarith, fun h => by linarith⟩

/-- **C106**: in general, the clipping lets a prediction go below the target's entropy by at most `1e-10` per atom. -/
theorem C106_near_optimum (n : Nat) (t y : List ℝ) (ht : IsDist n t) (hy : IsDist n y) :
    entropy t - n * 1e-10 ≤ crossEntropy t y ∧ ((∀ x ∈ t, x ≠ 0 → 1e-10 ≤ x) → crossEntropy t t = entropy t) := by
  constructor
  · have e : crossEntropy t y = (List.zipWith (fun a b => a * -Real.log b) t
        (y.map fun x => min (max x 1e-10) 1)).sum := by
      rw [crossEntropy, List.zipWith_map_right]
    obtain ⟨g1, -⟩ := gibbs t (y.map fun x => min (max x 1e-10) 1) (by rw [ht.length, List.length_map, hy.length]) ht.nonneg
      (fun a ha => by
        obtain ⟨x, -, rfl⟩ := List.mem_map.1 ha
        exact lt_of_lt_of_le (by norm_num) (clip_bounds x).1)
    have hs : ∀ l : List ℝ, (∀ x ∈ l, 0 ≤ x) → (l.map fun x => min (max x 1e-10) 1).sum ≤ l.sum + l.length * 1e-10 := by
      intro l
      induction l with
      | nil => simp
      | cons a l ih =>
        intro h
        have i := ih fun x hx => h x (List.mem_cons_of_mem _ hx)
        have ha := h a List.mem_cons_self
        have : min (max a 1e-10) 1 ≤ a + 1e-10 :=
          (min_le_left _ _).trans (max_le (by linarith [show (0 : ℝ) < 1e-10 by norm_num]) (by linarith))
        simp only [List.map_cons, List.sum_cons, List.length_cons, Nat.cast_succ]
        linarith
    have := hs y hy.nonneg
    rw [hy.sum, hy.length] at this
    rw [ht.sum] at g1
    rw [e]
    linarith
  · intro hc
    have hle : ∀ x ∈ t, x ≤ 1 := fun x hx => ht.sum ▸ List.single_le_sum ht.nonneg x hx
    rw [crossEntropy, entropy, List.zipWith_self]
    congr 1
    apply List.map_congr_left
    intro x hx
    rcases eq_or_ne x 0 with rfl | h0
    · simp
    · rw [max_eq_left (hc x hx h0), min_eq_left (hle x hx)]

/-! ### Targets -/

section
variable {S F A : Type}

/-- The distribution whose return is bootstrapped from: of an action that is greedy, for the target network, or with
`double` for the network that is trained. -/
def Bootstraps (z : List ℝ) (model targetModel : List (List ℝ)) (double : Bool) (p : List ℝ) : Prop :=
  ∃ (a : Nat) (q : List ℝ), targetModel[a]? = some p ∧ (if double then model else targetModel)[a]? = some q ∧
    ∀ p' ∈ (if double then model else targetModel), meanOf z p' ≤ meanOf z q

theorem greedy_spec (z : List ℝ) (d : List (List ℝ)) (hd : d ≠ []) :
    ∃ q, d[greedy (distQ z d)]? = some q ∧ ∀ p' ∈ d, meanOf z p' ≤ meanOf z q := by
  have hq : distQ z d ≠ [] := by simpa [distQ] using hd
  obtain ⟨v, h1, h2, -⟩ := C64_greedy _ hq
  rw [distQ, List.getElem?_map] at h1
  obtain ⟨q, h3, h4⟩ := Option.map_eq_some_iff.1 h1
  refine ⟨q, h3, fun p' hp' => ?_⟩
  rw [show meanOf z q = v from h4]
  exact h2.2 _ (List.mem_map_of_mem (f := fun p => (List.zipWith (· * ·) p z).sum) hp')

/-- **C106**: the target of a transition is a probability distribution: the projection (as the paper defines it, C46) of
the n-step return whose remainder is distributed as the target network says for a greedy action; its mean is the mean of
that return, with returns beyond the support moved to its ends.  Any network whose rows are distributions, evenly spaced
atoms. -/
theorem C106_target (phi : S → F) (gamma : ℝ) (exps : List (List (Transition S A ℝ))) (b : ExpBatch F A ℝ)
    (hb : batchExperiences phi gamma exps = .ok b) (vMin dz : ℝ) (n : Nat) (hn : 2 ≤ n) (hd : 0 < dz)
    (model targetModel : F → List (List ℝ)) (double : Bool)
    (hT : ∀ s, targetModel s ≠ [] ∧ ∀ p ∈ targetModel s, IsDist n p)
    (hM : ∀ s, (model s).length = (targetModel s).length) :
    ∃ out, targetValues (Categorical.support vMin dz n) model targetModel double b = .ok out ∧ out.length = exps.length ∧
      ∀ (k : Nat) e t, exps[k]? = some e → e.getLast? = some t →
        ∃ p o, Bootstraps (Categorical.support vMin dz n) (model (phi t.nextState)) (targetModel (phi t.nextState)) double p ∧
          out[k]? = some o ∧ IsDist n o ∧
          o = Categorical.paperRow vMin dz n ((Categorical.support vMin dz n).map (Targets.nStepTarget gamma e)) p ∧
          meanOf (Categorical.support vMin dz n) o =
            (List.zipWith (fun zi pi => pi * Categorical.clipped vMin dz n (Targets.nStepTarget gamma e zi))
              (Categorical.support vMin dz n) p).sum := by
  set z := Categorical.support vMin dz n with hz
  have hzl : z.length = n := by simp [hz, Categorical.support]
  obtain ⟨hne, -, -, -, -, -, hl, hr⟩ := Targets.batch_row phi gamma exps b hb
  have hat := Targets.C44_categorical phi gamma exps b hb z
  let next := b.nextState.map fun s =>
    if double then atAction (targetModel s) (greedy (distQ z (model s))) else maxAsDistribution z (targetModel s)
  have hnext : ∀ s, ∃ p, (if double then atAction (targetModel s) (greedy (distQ z (model s)))
      else maxAsDistribution z (targetModel s)) = p ∧ p ∈ targetModel s ∧ Bootstraps z (model s) (targetModel s) double p := by
    intro s
    obtain ⟨h0, -⟩ := hT s
    cases double with
    | false =>
      obtain ⟨q, h1, h2⟩ := greedy_spec z (targetModel s) h0
      exact ⟨q, by simp [maxAsDistribution, h1], List.mem_of_getElem? h1, _, q, h1, h1, h2⟩
    | true =>
      have h0' : model s ≠ [] := by
        intro h
        have := hM s
        rw [h] at this
        exact h0 (List.length_eq_zero_iff.1 this.symm)
      obtain ⟨q, h1, h2⟩ := greedy_spec z (model s) h0'
      have hlt : greedy (distQ z (model s)) < (targetModel s).length := by
        rw [← hM s]
        exact (List.getElem?_eq_some_iff.1 h1).1
      refine ⟨(targetModel s)[greedy (distQ z (model s))], by simp [atAction, hlt], List.getElem_mem _, _, q,
        List.getElem?_eq_getElem hlt, h1, h2⟩
  have hp : ∀ r ∈ next, r.length = n := by
    intro r hr
    obtain ⟨s, -, rfl⟩ := List.mem_map.1 hr
    obtain ⟨p, h1, h2, -⟩ := hnext s
    rw [h1]
    exact ((hT s).2 p h2).length
  have hy : ∀ r ∈ Targets.categoricalAtoms z b, r.length = n := by
    intro r hr
    rw [hat] at hr
    obtain ⟨e, -, rfl⟩ := List.mem_map.1 hr
    simp [hzl]
  have hlen : next.length = (Targets.categoricalAtoms z b).length := by
    rw [hat]
    simp [next, hl]
  obtain ⟨out, h1, h2, h3⟩ := Categorical.C46_paper vMin dz n hn hd _ next hlen hy hp
  refine ⟨out, h1, by rw [h2, hat, List.length_map], fun k e t he ht => ?_⟩
  have hne' := hne e (List.mem_of_getElem? he)
  obtain ⟨-, -, hns⟩ := hr k e _ t he (List.head?_eq_some_head hne') ht
  obtain ⟨p, g1, g2, g3⟩ := hnext (phi t.nextState)
  have hpk : next[k]? = some p := by
    rw [List.getElem?_map, hns, Option.map_some, g1]
  have hyk : (Targets.categoricalAtoms z b)[k]? = some (z.map (Targets.nStepTarget gamma e)) := by
    rw [hat, List.getElem?_map, he]
    rfl
  obtain ⟨o, o1, o2, o3, o4, o5⟩ := Categorical.C46_row vMin dz n hn hd _ next out hlen hy hp h1 k _ _ hyk hpk
  have hpd := (hT _).2 p g2
  refine ⟨p, o, g3, o1, ⟨o2, o4 hpd.nonneg, by rw [o3, hpd.sum]⟩, ?_, ?_⟩
  · have := h3 k _ _ hyk hpk
    rw [o1, Option.some.injEq] at this
    exact this
  · rw [meanOf, o5, List.zipWith_map_left]

/-- **C106**: the prediction compared with the target of a transition is the distribution that the network which is trained gives, in the state where
the transition begins, to the action taken there. -/
theorem C106_prediction (phi : S → F) (gamma : ℝ) (exps : List (List (Transition S Nat ℝ))) (b : ExpBatch F Nat ℝ)
    (hb : batchExperiences phi gamma exps = .ok b) (model : F → List (List ℝ)) :
    (predictions model b).length = exps.length ∧
    ∀ (k : Nat) e t row, exps[k]? = some e → e.head? = some t → (model (phi t.state))[t.action]? = some row →
      (predictions model b)[k]? = some row := by
  obtain ⟨hne, -, -, -, h1, h2, -, hr⟩ := Targets.batch_row phi gamma exps b hb
  refine ⟨by simp [predictions, h1, h2], fun k e t row he ht hrow => ?_⟩
  obtain ⟨g1, g2, -⟩ := hr k e t _ he ht (List.getLast?_eq_some_getLast (hne e (List.mem_of_getElem? he)))
  simp [predictions, List.getElem?_zipWith, g1, g2, atAction, hrow]

end

/-- A network with two actions and three atoms. -/
example : IsDist 3 [1 / 2, 1 / 4, 1 / 4] ∧ IsDist 3 [0, 1, 0] :=
  ⟨⟨rfl, by intro x; simp only [List.mem_cons, List.not_mem_nil, or_false]; rintro (rfl | rfl | rfl) <;> norm_num, by norm_num⟩,
   ⟨rfl, by intro x; simp only [List.mem_cons, List.not_mem_nil, or_false]; rintro (rfl | rfl | rfl) <;> norm_num, by norm_num⟩⟩

end Verif.CategoricalLoss
