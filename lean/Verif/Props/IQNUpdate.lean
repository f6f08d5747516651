import Mathlib.Analysis.SpecialFunctions.Trigonometric.Basic
import Mathlib.Tactic.NormNum
import Mathlib.Tactic.Linarith
import Mathlib.Tactic.Positivity
import Mathlib.Tactic.FieldSimp
import Verif.Model.IQNUpdate
import Verif.Props.IQN
import Verif.Props.Targets
set_option autoImplicit false
set_option linter.unusedSectionVars false

/-! # C108: networks, targets, loss and actions of IQN and DoubleIQN -/

namespace Verif.IQNUpdate
open ActionValue
variable {S F A : Type}

/-! ### Specification -/

/-- A matrix with `m` rows of `n` numbers. -/
def Shape (m n : Nat) (x : Mat) : Prop := x.length = m ∧ ∀ r ∈ x, r.length = n

/-- A model computes `z`: given one row of thresholds per observation, it gives for every observation and each of its
thresholds the row of action values `z observation threshold`, whatever else is in the batch. -/
def Computes (model : List F → Mat → Py Ten) (z : F → ℝ → List ℝ) : Prop :=
  ∀ (xs : List F) (taus : Mat) (n : Nat), Shape xs.length n taus →
    model xs taus = .ok (List.zipWith (fun x r => r.map (z x)) xs taus)

/-- The mean of an action's values over thresholds. -/
noncomputable def meanAt (z : ℝ → List ℝ) (taus : List ℝ) (a : Nat) : ℝ :=
  (taus.map fun tau => ((z tau)[a]?).getD 0).sum / taus.length

/-- `a` is one of the `nActions` actions whose mean value over the thresholds is largest. -/
def IsGreedy (nActions : Nat) (z : ℝ → List ℝ) (taus : List ℝ) (a : Nat) : Prop :=
  a < nActions ∧ ∀ a' < nActions, meanAt z taus a' ≤ meanAt z taus a

/-! ### Networks -/

theorem rows_flatten {α : Type} (n : Nat) : ∀ (l : List (List α)), (∀ r ∈ l, r.length = n) → rows n l.length l.flatten = l
  | [], _ => rfl
  | r :: l, h => by
    have hr := h r List.mem_cons_self
    rw [List.length_cons, rows, List.flatten_cons, List.take_left' hr, List.drop_left' hr,
      rows_flatten n l fun x hx => h x (List.mem_cons_of_mem _ hx)]

theorem width_eq {m n : Nat} {x : Mat} (h : Shape m n x) (hm : 0 < m) : width x = n := by
  obtain ⟨h1, h2⟩ := h
  cases x with
  | nil => simp at h1; omega
  | cons r x => exact h2 r List.mem_cons_self

/-- **C108**: the embedding of the thresholds: each threshold of each row is embedded on its own, by the linear layer applied
to `cos(i * pi * tau)`, `i = 1..n`. -/
theorem C108_embedding (nBasis : Nat) (linear : Mat → Mat) (lin : List ℝ → List ℝ) (hlin : ∀ m, linear m = m.map lin)
    (m n : Nat) (x : Mat) (hx : Shape m n x) :
    cosineBasisLinear nBasis linear x =
      x.map fun r => r.map fun tau => lin ((List.range nBasis).map fun i : ℕ => Real.cos ((i + 1) * Real.pi * tau)) := by
  have hb : ∀ tau, cosBasis nBasis tau = (List.range nBasis).map fun i : ℕ => Real.cos ((i + 1) * Real.pi * tau) := by
    intro tau
    unfold cosBasis
    rw [List.map_map]
    apply List.map_congr_left
    intro i _
    simp only [Function.comp, Nat.cast_add, Nat.cast_one]
    congr 1
    ring
  unfold cosineBasisLinear
  simp only [hlin]
  rw [List.map_flatten, List.map_map]
  rw [show (fun r : List ℝ => r.map fun tau => lin ((List.range nBasis).map fun i : ℕ => Real.cos ((i + 1) * Real.pi * tau)))
    = fun r : List ℝ => r.map fun tau => lin (cosBasis nBasis tau) from by funext r; simp only [hb]]
  cases x with
  | nil => rfl
  | cons r x =>
    have hw : width (r :: x) = n := hx.2 r List.mem_cons_self
    rw [hw]
    have := rows_flatten n ((r :: x).map fun r => (r.map (cosBasis nBasis)).map lin) (by
      intro y hy
      obtain ⟨z, hz, rfl⟩ := List.mem_map.1 hy
      simpa using hx.2 z hz)
    rw [List.length_map] at this
    rw [show (List.map lin ∘ fun r => List.map (cosBasis nBasis) r) = fun r => (r.map (cosBasis nBasis)).map lin from rfl, this]
    simp only [List.map_map]
    rfl

theorem cos_injOn {x y : ℝ} (hx : 0 ≤ x) (hx1 : x ≤ 1) (hy : 0 ≤ y) (hy1 : y ≤ 1)
    (h : Real.cos (Real.pi * x) = Real.cos (Real.pi * y)) : x = y := by
  have hp := Real.pi_pos
  have := Real.injOn_cos ⟨by positivity, by nlinarith⟩ ⟨by positivity, by nlinarith⟩ h
  exact mul_left_cancel₀ hp.ne' this

/-- **C108**: the basis functions have values between -1 and 1 and tell any two thresholds in `[0, 1]` apart. -/
theorem C108_basis (n : Nat) :
    (∀ x, ∀ v ∈ cosBasis n x, -1 ≤ v ∧ v ≤ 1) ∧
    (0 < n → ∀ x y : ℝ, 0 ≤ x → x ≤ 1 → 0 ≤ y → y ≤ 1 → cosBasis n x = cosBasis n y → x = y) := by
  constructor
  · intro x v hv
    simp only [cosBasis, List.mem_map] at hv
    obtain ⟨_, _, rfl⟩ := hv
    exact ⟨Real.neg_one_le_cos _, Real.cos_le_one _⟩
  · intro hn x y hx hx1 hy hy1 h
    obtain ⟨n, rfl⟩ : ∃ k, n = k + 1 := ⟨n - 1, by omega⟩
    have h0 := congrArg (fun l => l[0]?) h
    simp [cosBasis] at h0
    refine cos_injOn hx hx1 hy hy1 ?_
    rw [mul_comm Real.pi x, mul_comm Real.pi y]
    exact h0

/-- **C108**: an `ImplicitQuantileQFunction` gives for every observation and each of its thresholds
`f(psi(observation) * phi(threshold))`: neither other observations nor other thresholds in the batch matter. -/
theorem C108_network (hidden nActions : Nat) (psi : List F → Mat) (psi1 : F → List ℝ) (hpsi : ∀ xs, psi xs = xs.map psi1)
    (hpl : ∀ x, (psi1 x).length = hidden) (phi : Mat → Ten) (phi1 : ℝ → List ℝ)
    (hphi : ∀ m n x, Shape m n x → phi x = x.map fun r => r.map phi1) (hhl : ∀ tau, (phi1 tau).length = hidden)
    (f : Mat → Mat) (f1 : List ℝ → List ℝ) (hf : ∀ m, f m = m.map f1) (_ : ∀ h, (f1 h).length = nActions) :
    Computes (implicitQuantile psi phi f) fun x tau => f1 (List.zipWith (· * ·) (psi1 x) (phi1 tau)) := by
  intro xs taus n hs
  have hz : List.zipWith (fun p (m : Mat) => m.map fun r => List.zipWith (· * ·) p r) (xs.map psi1) (taus.map fun r => r.map phi1)
      = List.zipWith (fun x (r : List ℝ) => r.map fun tau => List.zipWith (· * ·) (psi1 x) (phi1 tau)) xs taus := by
    rw [List.zipWith_map]
    congr 1
    funext x r
    rw [List.map_map]
    rfl
  have hmap : (List.zipWith (fun x (r : List ℝ) => r.map fun tau => List.zipWith (· * ·) (psi1 x) (phi1 tau)) xs taus).map
      (fun m => m.map f1) =
      List.zipWith (fun x (r : List ℝ) => r.map fun tau => f1 (List.zipWith (· * ·) (psi1 x) (phi1 tau))) xs taus := by
    rw [List.map_zipWith]
    congr 1
    funext x r
    rw [List.map_map]
    rfl
  have hlen : ∀ r ∈ List.zipWith (fun x (r : List ℝ) => r.map fun tau => f1 (List.zipWith (· * ·) (psi1 x) (phi1 tau))) xs taus,
      r.length = n := by
    intro r hr
    obtain ⟨i, hi, rfl⟩ := List.getElem_of_mem hr
    simp only [List.getElem_zipWith, List.length_map]
    exact hs.2 _ (List.getElem_mem _)
  have hw : width taus = n ∨ xs = [] := by
    cases xs with
    | nil => exact Or.inr rfl
    | cons x xs => exact Or.inl (width_eq hs (Nat.succ_pos _))
  have hh : width (xs.map psi1) = hidden ∨ xs = [] := by
    cases xs with
    | nil => exact Or.inr rfl
    | cons x xs => exact Or.inl (hpl x)
  have hfl := rows_flatten n _ hlen
  unfold implicitQuantile evaluatePsi
  simp only [hpsi, hphi _ _ _ hs, hf]
  rw [hz, List.map_flatten, hmap]
  have a1 : ((xs.map psi1).length == xs.length) = true := by simp
  have a2 : (taus.length == (xs.map psi1).length) = true := by simp [hs.1]
  rw [pyAssert, if_pos a1, pyAssert, if_pos a2]
  rcases hw with hw | rfl
  · rcases hh with hh | rfl
    · rw [hw, hh]
      have a3 : ((taus.map fun r => r.map phi1).length == (xs.map psi1).length &&
          (taus.map fun r => r.map phi1).all fun m => m.length == n && m.all fun r => r.length == hidden) = true := by
        simp only [List.length_map, hs.1, BEq.rfl, Bool.true_and, List.all_eq_true, Bool.and_eq_true, beq_iff_eq,
          List.mem_map, forall_exists_index, and_imp, forall_apply_eq_imp_iff₂]
        exact fun r hr => ⟨hs.2 r hr, fun tau _ => hhl tau⟩
      rw [pyAssert, if_pos a3]
      have a4 : ((List.zipWith (fun x (r : List ℝ) => r.map fun tau => f1 (List.zipWith (· * ·) (psi1 x) (phi1 tau)))
          xs taus).flatten.length == (xs.map psi1).length * n) = true := by
        rw [beq_iff_eq, List.length_flatten, List.eq_replicate_of_mem (a := n) (l := List.map List.length _)]
        · simp [hs.1]
        · intro k hk
          obtain ⟨r, hr, rfl⟩ := List.mem_map.1 hk
          exact hlen r hr
      rw [pyAssert, if_pos a4]
      have hl : (List.zipWith (fun x (r : List ℝ) => r.map fun tau => f1 (List.zipWith (· * ·) (psi1 x) (phi1 tau)))
          xs taus).length = (xs.map psi1).length := by simp [hs.1]
      rw [hl] at hfl
      rw [hfl]
    · have : taus = [] := List.length_eq_zero_iff.1 hs.1
      subst this
      simp [pyAssert, rows]
  · have : taus = [] := List.length_eq_zero_iff.1 hs.1
    subst this
    simp [pyAssert, rows]

/-! ### Targets -/

theorem quantileQ_eq (nActions : Nat) (z : ℝ → List ℝ) (taus : List ℝ) :
    quantileQ nActions (taus.map z) = (List.range nActions).map (meanAt z taus) := by
  unfold quantileQ
  apply List.map_congr_left
  intro a _
  rw [meanAt, List.map_map, List.length_map]
  rfl

theorem greedy_isGreedy (nActions : Nat) (hn : 0 < nActions) (z : ℝ → List ℝ) (taus : List ℝ) :
    IsGreedy nActions z taus (greedy (quantileQ nActions (taus.map z))) := by
  have hne : quantileQ nActions (taus.map z) ≠ [] := by
    intro h
    have := congrArg List.length h
    simp [quantileQ] at this
    omega
  obtain ⟨m, h1, h2, -⟩ := C64_greedy _ hne
  rw [quantileQ_eq] at h1 h2 ⊢
  rw [List.getElem?_map] at h1
  obtain ⟨hlt, -⟩ : greedy ((List.range nActions).map (meanAt z taus)) < nActions ∧ True := by
    refine ⟨?_, trivial⟩
    by_contra hc
    rw [List.getElem?_eq_none (by simpa using hc)] at h1
    simp at h1
  rw [List.getElem?_range hlt] at h1
  simp only [Option.map_some, Option.some.injEq] at h1
  refine ⟨hlt, fun a' ha' => ?_⟩
  rw [h1]
  exact h2.2 _ (List.mem_map.2 ⟨a', List.mem_range.2 ha', rfl⟩)

/-- **C108**: the targets of a transition are its n-step targets bootstrapped from samples of the target network's return
distribution, one per threshold `taus_prime`, all of one action: one whose mean over the thresholds `taus_tilde` is largest
for the target network, or for DoubleIQN the trained one. -/
theorem C108_target (phi : S → F) (gamma : ℝ) (exps : List (List (Transition S A ℝ))) (b : ExpBatch F A ℝ)
    (hb : batchExperiences phi gamma exps = .ok b) (nActions : Nat) (hn : 0 < nActions)
    (greedyModel targetModel : List F → Mat → Py Ten) (zg zt : F → ℝ → List ℝ) (hg : Computes greedyModel zg)
    (ht : Computes targetModel zt) (k n' : Nat) (tausTilde tausPrime : Mat) (h1 : Shape exps.length k tausTilde)
    (h2 : Shape exps.length n' tausPrime) :
    ∃ out, targetValues nActions greedyModel targetModel b tausTilde tausPrime = .ok out ∧ Shape exps.length n' out ∧
      ∀ (i : Nat) e t tilde prime, exps[i]? = some e → e.getLast? = some t → tausTilde[i]? = some tilde →
        tausPrime[i]? = some prime →
        ∃ a, IsGreedy nActions (zg (phi t.nextState)) tilde a ∧
          out[i]? = some (prime.map fun tau =>
            Targets.nStepTarget gamma e (((zt (phi t.nextState) tau)[a]?).getD 0)) := by
  obtain ⟨hne, r3, r5, r6, -, -, hl, hr⟩ := Targets.batch_row phi gamma exps b hb
  have e1 := hg b.nextState tausTilde k (by rw [hl]; exact h1)
  have e2 := ht b.nextState tausPrime n' (by rw [hl]; exact h2)
  have hd := h2.2
  refine ⟨_, by unfold targetValues; rw [e1, e2]; rfl, ⟨?_, ?_⟩, ?_⟩
  · simp [r3, r5, r6, hl, h1.1, h2.1]
  · intro r hr'
    obtain ⟨i, hi, rfl⟩ := List.getElem_of_mem hr'
    simp only [List.getElem_zipWith, List.length_map, evaluateQuantiles]
    exact hd _ (List.getElem_mem _)
  · intro i e t tilde prime he hlast hti hpr
    have h₀ : e.head? = some (e.head (hne e (List.mem_of_getElem? he))) := List.head?_eq_some_head _
    obtain ⟨-, -, hns⟩ := hr i e _ t he h₀ hlast
    refine ⟨_, greedy_isGreedy nActions hn (zg (phi t.nextState)) tilde, ?_⟩
    simp only [List.getElem?_zipWith, List.getElem?_map, r3, r5, r6, he, hns, hti, hpr, Option.map_some, evaluateQuantiles,
      List.map_map, Option.some.injEq]
    apply List.map_congr_left
    intro tau _
    simp only [Function.comp, Targets.nStepTarget]
    by_cases hT : ∃ t ∈ e, t.terminal = true
    · rw [if_pos hT, if_pos hT]; ring
    · rw [if_neg hT, if_neg hT]; ring

/-- **C108**: the predictions of a transition are the trained network's values of the action taken, at the thresholds drawn. -/
theorem C108_prediction (phi : S → F) (gamma : ℝ) (exps : List (List (Transition S Nat ℝ))) (b : ExpBatch F Nat ℝ)
    (hb : batchExperiences phi gamma exps = .ok b) (model : List F → Mat → Py Ten) (z : F → ℝ → List ℝ)
    (hz : Computes model z) (n : Nat) (taus : Mat) (h : Shape exps.length n taus) :
    ∃ y, predictions model b taus = .ok y ∧ Shape exps.length n y ∧
      ∀ (i : Nat) e t₀ row, exps[i]? = some e → e.head? = some t₀ → taus[i]? = some row →
        y[i]? = some (row.map fun tau => ((z (phi t₀.state) tau)[t₀.action]?).getD 0) := by
  obtain ⟨hne, -, -, -, hl1, hl2, -, hr⟩ := Targets.batch_row phi gamma exps b hb
  have e1 := hz b.state taus n (by rw [hl1]; exact h)
  have hd := h.2
  refine ⟨_, by unfold predictions; rw [e1]; rfl, ⟨?_, ?_⟩, ?_⟩
  · simp [hl1, hl2, h.1]
  · intro r hr'
    obtain ⟨i, hi, rfl⟩ := List.getElem_of_mem hr'
    simp only [List.getElem_zipWith, List.length_map, evaluateQuantiles]
    exact hd _ (List.getElem_mem _)
  · intro i e t₀ row he h₀ hrow
    have hlast : e.getLast? = some (e.getLast (hne e (List.mem_of_getElem? he))) := List.getLast?_eq_some_getLast _
    obtain ⟨hs, ha, -⟩ := hr i e t₀ _ he h₀ hlast
    simp only [List.getElem?_zipWith, hs, ha, hrow, evaluateQuantiles, List.map_map, Option.some.injEq]
    rfl

/-! ### Loss -/

/-- The mean, over all pairs of a prediction and a target, of the quantile Huber loss at the level `1 - tau` (C65). -/
noncomputable def rowLoss (y taus t : List ℝ) : ℝ :=
  (List.zipWith (fun yi tau => (t.map fun tj => IQN.paperLoss 1 yi tj (1 - tau)).sum) y taus).sum / (y.length * t.length)

theorem row_facts (y taus t : List ℝ) (h : taus.length = y.length) (h01 : ∀ tau ∈ taus, 0 ≤ tau ∧ tau ≤ 1) :
    (IQN.eltwiseRow 1 y taus t).flatten.sum =
      (List.zipWith (fun yi tau => (t.map fun tj => IQN.paperLoss 1 yi tj (1 - tau)).sum) y taus).sum ∧
    (IQN.eltwiseRow 1 y taus t).flatten.length = y.length * t.length ∧
    ((IQN.eltwiseRow 1 y taus t).map IQN.mean).sum =
      (List.zipWith (fun yi tau => (t.map fun tj => IQN.paperLoss 1 yi tj (1 - tau)).sum) y taus).sum / t.length := by
  induction y generalizing taus with
  | nil => simp [IQN.eltwiseRow]
  | cons yi y ih =>
    cases taus with
    | nil => simp at h
    | cons tau taus =>
      obtain ⟨i1, i2, i3⟩ := ih taus (by simpa using h) fun x hx => h01 x (List.mem_cons_of_mem _ hx)
      have ht := h01 tau List.mem_cons_self
      have hr : (t.map fun tj => IQN.eltwise 1 yi tj tau) = t.map fun tj => IQN.paperLoss 1 yi tj (1 - tau) :=
        List.map_congr_left fun tj _ => IQN.C65_reflected_partial 1 yi tj tau zero_le_one ht.1 ht.2
      unfold IQN.eltwiseRow at i1 i2 i3 ⊢
      simp only [List.zipWith_cons_cons, List.flatten_cons, List.sum_append, List.sum_cons, List.length_append,
        List.map_cons, List.length_cons, i1, i2, i3, hr, IQN.mean, List.length_map]
      refine ⟨trivial, by ring, by ring⟩

/-- What `rowLoss` is for every row of a batch. -/
noncomputable def rowLosses (y taus t : Mat) : List ℝ :=
  List.zipWith (fun (yt : List ℝ × List ℝ) tr => rowLoss yt.1 yt.2 tr) (y.zip taus) t

theorem row_eqs (n n' : Nat) (y taus t : List ℝ) (hy : y.length = n) (hta : taus.length = n) (ht : t.length = n')
    (h01 : ∀ tau ∈ taus, 0 ≤ tau ∧ tau ≤ 1) :
    meanRow (IQN.eltwiseRow 1 y taus t) = rowLoss y taus t ∧
    ((IQN.eltwiseRow 1 y taus t).map IQN.mean).sum = n * rowLoss y taus t := by
  obtain ⟨f1, f2, f3⟩ := row_facts y taus t (by omega) h01
  constructor
  · rw [meanRow, rowLoss, f1, f2]
    push_cast
    rfl
  · rw [f3, rowLoss, hy]
    rcases Nat.eq_zero_or_pos n with rfl | hn
    · have : y = [] := List.length_eq_zero_iff.1 hy
      simp [this]
    · have : (n : ℝ) ≠ 0 := by positivity
      by_cases h0 : (t.length : ℝ) = 0
      · simp [h0]
      · field_simp

/-- **C108**: the priorities given to the replay buffer are the mean quantile Huber losses of the transitions, and the loss is
the number of thresholds times their mean or sum, weighted if there are weights. -/
theorem C108_loss (m n n' : Nat) (y taus t : Mat) (hy : Shape m n y) (hta : Shape m n taus) (ht : Shape m n' t)
    (h01 : ∀ r ∈ taus, ∀ tau ∈ r, 0 ≤ tau ∧ tau ≤ 1) (w : List ℝ) (hw : w.length = m) :
    let errors := rowLosses y taus t
    computeLoss true y taus t none = (errors, n * errors.sum) ∧
    computeLoss false y taus t none = (errors, n * (errors.sum / m)) ∧
    computeLoss true y taus t (some w) = (errors, n * (List.zipWith (· * ·) errors w).sum) ∧
    computeLoss false y taus t (some w) = (errors, n * ((List.zipWith (· * ·) errors w).sum / m)) := by
  intro errors
  have key : ∀ (m : Nat) (y taus t : Mat), Shape m n y → Shape m n taus → Shape m n' t →
      (∀ r ∈ taus, ∀ tau ∈ r, 0 ≤ tau ∧ tau ≤ 1) →
      (eltwiseLoss y taus t).map meanRow = rowLosses y taus t ∧
      (eltwiseLoss y taus t).map (fun b => (b.map IQN.mean).sum) = (rowLosses y taus t).map (fun x => (n : ℝ) * x) ∧
      (eltwiseLoss y taus t).length = m := by
    intro m
    induction m with
    | zero =>
      intro y taus t hy _ _ _
      have : y = [] := List.length_eq_zero_iff.1 hy.1
      subst this
      simp [eltwiseLoss, rowLosses]
    | succ m ih =>
      intro y taus t hy hta ht h01
      obtain ⟨yr, y, rfl⟩ := List.exists_cons_of_length_eq_add_one hy.1
      obtain ⟨tar, taus, rfl⟩ := List.exists_cons_of_length_eq_add_one hta.1
      obtain ⟨tr, t, rfl⟩ := List.exists_cons_of_length_eq_add_one ht.1
      have tl : ∀ {k : Nat} {r : List ℝ} {x : Mat}, Shape (m + 1) k (r :: x) → Shape m k x :=
        fun h => ⟨by simpa using h.1, fun r hr => h.2 r (List.mem_cons_of_mem _ hr)⟩
      obtain ⟨i1, i2, i3⟩ := ih y taus t (tl hy) (tl hta) (tl ht) fun r hr => h01 r (List.mem_cons_of_mem _ hr)
      obtain ⟨e1, e2⟩ := row_eqs n n' yr tar tr (hy.2 _ List.mem_cons_self) (hta.2 _ List.mem_cons_self)
        (ht.2 _ List.mem_cons_self) (h01 _ List.mem_cons_self)
      unfold eltwiseLoss rowLosses at i1 i2
      unfold eltwiseLoss at i3
      unfold eltwiseLoss rowLosses
      simp only [List.zip_cons_cons, List.zipWith_cons_cons, List.map_cons, List.length_cons, i1, i2, i3, e1, e2]
      simp
  obtain ⟨k1, k2, k3⟩ := key m y taus t hy hta ht h01
  have s1 : ((rowLosses y taus t).map fun x => (n : ℝ) * x).sum = n * errors.sum := by
    rw [List.sum_map_mul_left, List.map_id']
  have z : ∀ (l : Ten) (es w : List ℝ), l.map (fun b => (b.map IQN.mean).sum) = es.map (fun x => (n : ℝ) * x) →
      (List.zipWith (fun (b : Mat) w => (b.map IQN.mean).sum * w) l w).sum = n * (List.zipWith (· * ·) es w).sum := by
    intro l
    induction l with
    | nil =>
      intro es w h
      have : es = [] := by cases es <;> simp_all
      subst this
      simp
    | cons b l ih =>
      intro es w h
      cases es with
      | nil => simp at h
      | cons e es =>
        cases w with
        | nil => simp
        | cons x w =>
          simp only [List.map_cons, List.cons.injEq] at h
          simp only [List.zipWith_cons_cons, List.sum_cons, ih es w h.2, h.1]
          ring
  have s2 := z _ _ w k2
  refine ⟨?_, ?_, ?_, ?_⟩
  · simp only [computeLoss, IQN.valueLoss, k1, k2, s1, if_true, errors]
  · simp only [computeLoss, IQN.valueLoss, k1, k2, s1, k3, Bool.false_eq_true, if_false, errors, mul_div_assoc]
  · simp only [computeLoss, IQN.weightedValueLoss, k1, s2, if_true, errors]
  · simp only [computeLoss, IQN.weightedValueLoss, k1, s2, k3, Bool.false_eq_true, if_false, errors, mul_div_assoc]

/-! ### Acting -/

/-- **C108**: the greedy action for each observation is one whose mean over the thresholds drawn for it is largest. -/
theorem C108_act (nActions : Nat) (hn : 0 < nActions) (k : Nat) (det test : Bool) (hd : (test && det) = false)
    (model : List F → Mat → Py Ten) (z : F → ℝ → List ℝ) (hz : Computes model z) (obs : List F) (drawn : Mat)
    (hs : Shape obs.length k drawn) :
    ∃ acts, greedyActions nActions k det test model obs drawn = .ok acts ∧ acts.length = obs.length ∧
      ∀ (i : Nat) x r, obs[i]? = some x → drawn[i]? = some r → ∃ a, acts[i]? = some a ∧ IsGreedy nActions (z x) r a := by
  refine ⟨_, by unfold greedyActions actingTaus; rw [hd, if_neg Bool.false_ne_true, hz obs drawn k hs]; rfl, ?_, ?_⟩
  · simp [hs.1]
  · intro i x r hx hr
    refine ⟨_, ?_, greedy_isGreedy nActions hn (z x) r⟩
    simp [List.getElem?_zipWith, hx, hr]

/-- **C108**: with `act_deterministically`, evaluation takes the action with the largest mean over the thresholds
`0, 1/(K-1), ..., 1`, the same whatever random numbers there are. -/
theorem C108_act_deterministic (nActions : Nat) (hn : 0 < nActions) (k : Nat)
    (model : List F → Mat → Py Ten) (z : F → ℝ → List ℝ) (hz : Computes model z) (obs : List F) :
    ∃ acts, (∀ drawn, greedyActions nActions k true true model obs drawn = .ok acts) ∧ acts.length = obs.length ∧
      ∀ (i : Nat) x, obs[i]? = some x →
        ∃ a, acts[i]? = some a ∧ IsGreedy nActions (z x) ((List.range k).map fun j : ℕ => (j : ℝ) / ((k - 1 : Nat) : ℝ)) a := by
  have hs : Shape obs.length k (List.replicate obs.length (linspace k)) :=
    ⟨by simp, fun r hr => by rw [List.eq_of_mem_replicate hr]; simp [linspace]⟩
  refine ⟨_, fun drawn => by
    unfold greedyActions actingTaus; rw [Bool.and_self, if_pos rfl, hz obs _ k hs]; rfl, ?_, ?_⟩
  · simp
  · intro i x hx
    have hi : i < obs.length := (List.getElem?_eq_some_iff.1 hx).1
    refine ⟨_, ?_, greedy_isGreedy nActions hn (z x) (linspace k)⟩
    simp only [List.getElem?_map, List.getElem?_zipWith, hx, List.getElem?_replicate, hi, if_true, Option.map_some]

/-- **C108**: those thresholds are symmetric: that the loss trains quantiles in reversed order (C65) does not change the
action values of a deterministic evaluation. -/
theorem C108_symmetric (k : Nat) (hk : 2 ≤ k) (z : ℝ → List ℝ) (a : Nat) :
    meanAt z (linspace k) a = meanAt (fun tau => z (1 - tau)) (linspace k) a := by
  have hk1 : ((k - 1 : Nat) : ℝ) ≠ 0 := by
    have : 0 < k - 1 := by omega
    positivity
  have hrev : (linspace k).map (fun tau => 1 - tau) = (linspace k).reverse := by
    apply List.ext_getElem
    · simp [linspace]
    · intro i h1 h2
      have hi : i < k := by simpa [linspace] using h1
      simp only [linspace, List.getElem_map, List.getElem_range, List.getElem_reverse, List.length_map, List.length_range]
      rw [Nat.cast_sub (by omega : i ≤ k - 1)]
      field_simp
  have : (linspace k).map (fun tau => ((z (1 - tau))[a]?).getD 0) =
      ((linspace k).map fun tau => ((z tau)[a]?).getD 0).reverse := by
    rw [← List.map_reverse, ← hrev, List.map_map]
    rfl
  rw [meanAt, meanAt, this, List.sum_reverse]

/-! ### The hypotheses are met -/

/-- A network with one hidden unit, one basis function and two actions. -/
noncomputable def exampleModel : List ℝ → Mat → Py Ten :=
  implicitQuantile (fun xs => xs.map fun x => [x]) (cosineBasisLinear 1 fun m => m) fun m => m.map fun h => [h.sum, 1]

theorem exampleModel_computes : Computes exampleModel fun x tau => [x * Real.cos (Real.pi * tau), 1] := by
  have := C108_network 1 2 (fun xs : List ℝ => xs.map fun x => [x]) (fun x => [x]) (fun _ => rfl) (fun _ => rfl)
    (cosineBasisLinear 1 fun m => m) (fun tau => (List.range 1).map fun i : ℕ => Real.cos ((i + 1) * Real.pi * tau))
    (fun m n x hx => C108_embedding 1 (fun m => m) (fun r => r) (fun m => (List.map_id' m).symm) m n x hx) (fun _ => by simp)
    (fun m => m.map fun h => [h.sum, 1]) (fun h => [h.sum, 1]) (fun _ => rfl) (fun _ => rfl)
  simpa [List.range_succ, exampleModel] using this

/-- At observation 3 the first action is worth 3 at the threshold 0, and -3 at 1; the second is worth 1. -/
example : greedyActions 2 1 true true exampleModel [3, -3] [] = .ok [0, 1] := by
  unfold greedyActions actingTaus
  rw [Bool.and_self, if_pos rfl, exampleModel_computes _ _ 1 ⟨by simp, by simp [linspace]⟩]
  simp [linspace, quantileQ, greedy, argmaxFrom, bind, Except.bind, List.range_succ]
  norm_num

/-- One terminal transition with reward 5, one threshold of each kind. -/
example : targetValues 2 exampleModel exampleModel
    (⟨[0], [0], [5], [3], [1], [1], none⟩ : ExpBatch ℝ Nat ℝ) [[0]] [[1]] = .ok [[5]] := by
  unfold targetValues
  rw [exampleModel_computes [3] [[0]] 1 ⟨rfl, by simp⟩, exampleModel_computes [3] [[1]] 1 ⟨rfl, by simp⟩]
  simp [bind, Except.bind, evaluateQuantiles]

end Verif.IQNUpdate
