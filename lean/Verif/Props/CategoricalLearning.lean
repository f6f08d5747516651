import Verif.Proofs.CategoricalLearning
import Verif.Props.GapLearning

/-!
C148: iterating the targets of CategoricalDQN and CategoricalDoubleDQN.

`C148_fit`, `C148_exists`: what fitting the targets means and that it is possible.  `C148_means`, `C148_optimal`: expected values.
`C148_returns`, `C148_limit`: distributions.
-/

set_option autoImplicit false
set_option linter.unusedSectionVars false

open Filter Topology

namespace Verif.CategoricalLoss
open ActionValue
open MDP (Env Outcome expect transition backup Table MeetsTargets Optimal)

variable {S : Type}

/-! ### Specification -/

/-- A distribution over `n` atoms for every state and action. -/
def Dists (env : Env S ℝ) (n : Nat) (P : S → List (List ℝ)) : Prop := 0 < env.nA ∧ ∀ s, (P s).length = env.nA ∧ ∀ p ∈ P s, IsDist n p

/-- The mixture of distributions `y` over what follows an action. -/
noncomputable def mixture (n : Nat) (l : List (ℝ × Outcome S ℝ)) (y : Outcome S ℝ → List ℝ) : List ℝ :=
  (List.range n).map fun i => expect l fun o => (y o).getD i 0

/-- `P'` fits the targets that the agent computes with `P`: for every state and action it gives the mixture of the targets of the batches that consist of one transition. -/
def FitsDist (env : Env S ℝ) (gamma vMin dz : ℝ) (n : Nat) (double : Bool) (P P' : S → List (List ℝ)) : Prop :=
  ∀ s a, a < env.nA → ∃ y : Outcome S ℝ → List ℝ,
    (∀ x ∈ env.outcomes s a, ∃ b, batchExperiences id gamma [[transition s a x.2]] = .ok b ∧
      targetValues (Categorical.support vMin dz n) P P double b = .ok [y x.2]) ∧
    (P' s)[a]? = some (mixture n (env.outcomes s a) y)

/-- Every reward plus discounted atom is beyond the atoms by at most `ε`. -/
def Within (env : Env S ℝ) (gamma vMin vMax ε : ℝ) : Prop := ∀ s a, a < env.nA → ∀ x ∈ env.outcomes s a,
  if x.2.done then vMin - ε ≤ x.2.reward ∧ x.2.reward ≤ vMax + ε
  else vMin - ε ≤ x.2.reward + gamma * vMin ∧ x.2.reward + gamma * vMax ≤ vMax + ε

/-- The expectation of `f` of the discounted sum of the rewards of the first `n` steps: action `a` in state `s`, then the choices `g`. -/
noncomputable def law (env : Env S ℝ) (gamma : ℝ) (g : S → Nat) : Nat → S → Nat → (ℝ → ℝ) → ℝ
  | 0, _, _, f => f 0
  | n + 1, s, a, f => expect (env.outcomes s a) fun o =>
      if o.done then f o.reward else law env gamma g n o.next (g o.next) fun x => f (o.reward + gamma * x)

/-! ### What fitting means -/

theorem crossEntropy_eq (n : Nat) (t v : List ℝ) (ht : t.length = n) (hv : v.length = n) :
    crossEntropy t v = ((List.range n).map fun i => t.getD i 0 * -Real.log (min (max (v.getD i 0) 1e-10) 1)).sum := by
  have e : ∀ l : List ℝ, l.length = n → l = (List.range n).map fun i => l.getD i 0 := fun l hl => by
    apply List.ext_getElem
    · simp [hl]
    · intro i h1 h2
      simp [h1]
  unfold crossEntropy
  conv_lhs => rw [e t ht, e v hv]
  rw [List.zipWith_map, List.zipWith_self]

theorem mixture_isDist (n : Nat) (l : List (ℝ × Outcome S ℝ)) (hl : MDP.IsDist l) (y : Outcome S ℝ → List ℝ) (hy : ∀ x ∈ l, IsDist n (y x.2)) :
    IsDist n (mixture n l y) := by
  refine ⟨by simp [mixture], fun v hv => ?_, ?_⟩
  · obtain ⟨i, hi, rfl⟩ := List.mem_map.1 hv
    refine List.sum_nonneg fun w hw => ?_
    obtain ⟨x, hx, rfl⟩ := List.mem_map.1 hw
    refine mul_nonneg (hl.1 x hx) ?_
    have hi' : i < (y x.2).length := by rw [(hy x hx).length]; exact List.mem_range.1 hi
    simp only [List.getD_eq_getElem?_getD, List.getElem?_eq_getElem hi', Option.getD_some]
    exact (hy x hx).nonneg _ (List.getElem_mem _)
  · unfold mixture
    rw [← expect_sum l (List.range n) fun o i => (y o).getD i 0]
    rw [MDP.expect_congr l _ (fun _ => 1) fun x hx => ?_, MDP.expect_const l hl]
    have h1 := avg_support 0 0 n (y x.2) (hy x hx).length fun _ => 1
    simp only [mul_one] at h1
    rw [← h1]
    exact avg_const n _ _ (by simp [Categorical.support]) (hy x hx) 1

/-- **C148**: fitting as defined is what training aims at: averaged over what follows an action, the loss of a prediction is its loss for the mixture of the
targets, which among predictions without probabilities below `1e-10` is smallest for the mixture and only for it. -/
theorem C148_fit (n : Nat) (l : List (ℝ × Outcome S ℝ)) (hl : MDP.IsDist l) (y : Outcome S ℝ → List ℝ) (hy : ∀ x ∈ l, IsDist n (y x.2))
    (v : List ℝ) (hv : IsDist n v) (hc : ∀ x ∈ v, 1e-10 ≤ x) :
    entropy (mixture n l y) ≤ expect l (fun o => crossEntropy (y o) v) ∧
    (expect l (fun o => crossEntropy (y o) v) = entropy (mixture n l y) ↔ v = mixture n l y) := by
  have hm := mixture_isDist n l hl y hy
  have e : expect l (fun o => crossEntropy (y o) v) = crossEntropy (mixture n l y) v := by
    rw [MDP.expect_congr l _ (fun o => ((List.range n).map fun i => (y o).getD i 0 * -Real.log (min (max (v.getD i 0) 1e-10) 1)).sum)
      fun x hx => crossEntropy_eq n _ _ (hy x hx).length hv.length, expect_sum, crossEntropy_eq n _ _ hm.length hv.length]
    congr 1
    refine List.map_congr_left fun i hi => ?_
    rw [expect_mul_right]
    simp [mixture, List.mem_range.1 hi]
  rw [e]
  exact C106_optimum n _ v hm hv hc

section
variable (env : Env S ℝ) (he : env.Valid) (gamma vMin dz : ℝ) (n : Nat) (hn : 2 ≤ n) (hd : 0 < dz) (double : Bool)
include hn hd

/-- The target of one transition. -/
theorem target_row (P : S → List (List ℝ)) (hP : Dists env n P) (s : S) (a : Nat) (o : Outcome S ℝ) :
    ∃ b y, batchExperiences id gamma [[transition s a o]] = .ok b ∧ targetValues (Categorical.support vMin dz n) P P double b = .ok [y] ∧ IsDist n y ∧
      ∃ (g : Nat) (p : List ℝ), (P o.next)[g]? = some p ∧
        (∀ p' ∈ P o.next, meanOf (Categorical.support vMin dz n) p' ≤ meanOf (Categorical.support vMin dz n) p) ∧
        ∀ f, avg (Categorical.support vMin dz n) y f =
          avg (Categorical.support vMin dz n) p fun x => interp vMin dz n f (o.reward + if o.done then 0 else gamma * x) := by
  obtain ⟨b, hb⟩ : ∃ b, batchExperiences id gamma [[transition s a o]] = .ok b := ⟨_, rfl⟩
  have hne : ∀ s, P s ≠ [] := fun s h => by
    have h1 := (hP.2 s).1
    have h2 := hP.1
    rw [h] at h1
    simp at h1; omega
  obtain ⟨out, h1, h2, h3⟩ := C106_target id gamma _ b hb vMin dz n hn hd P P double (fun s => ⟨hne s, (hP.2 s).2⟩) fun _ => rfl
  obtain ⟨y, rfl⟩ := List.length_eq_one_iff.1 h2
  obtain ⟨p, o', ⟨g, q, g1, g2, g3⟩, ho, hdist, hrow, -⟩ := h3 0 _ (transition s a o) rfl rfl
  simp only [List.getElem?_cons_zero, Option.some.injEq] at ho
  subst ho
  rw [ite_self] at g2 g3
  have hq : q = p := by
    rw [g1] at g2
    exact (Option.some.inj g2).symm
  subst hq
  refine ⟨b, y, hb, h1, hdist, g, q, g1, g3, fun f => ?_⟩
  rw [hrow, avg_project, avg_map]
  congr 1
  funext x
  rw [MDP.single_target]

include he in
/-- **C148**: from all distributions there is a next iteration that fits the targets. -/
theorem C148_exists (P : S → List (List ℝ)) (hP : Dists env n P) : ∃ P', Dists env n P' ∧ FitsDist env gamma vMin dz n double P P' := by
  choose b y h1 h2 h3 _ using fun (t : S × Nat × Outcome S ℝ) => target_row env gamma vMin dz n hn hd double P hP t.1 t.2.1 t.2.2
  refine ⟨fun s => (List.range env.nA).map fun a => mixture n (env.outcomes s a) fun o => y (s, a, o), ⟨hP.1, fun s => ⟨by simp, fun p hp => ?_⟩⟩,
    fun s a ha => ⟨fun o => y (s, a, o), fun x _ => ⟨_, h1 (s, a, x.2), h2 (s, a, x.2)⟩, by simp [ha]⟩⟩
  obtain ⟨a, ha, rfl⟩ := List.mem_map.1 hp
  exact mixture_isDist n _ (he s a (List.mem_range.1 ha)) _ fun x _ => h3 _

/-- The average of any function under a distribution that fits the targets. -/
theorem fit_avg (P P' : S → List (List ℝ)) (hP : Dists env n P) (h : FitsDist env gamma vMin dz n double P P') (s : S) (a : Nat) (ha : a < env.nA) :
    ∃ (p' : List ℝ) (p : Outcome S ℝ → List ℝ), (P' s)[a]? = some p' ∧
      (∀ x ∈ env.outcomes s a, ∃ g : Nat, (P x.2.next)[g]? = some (p x.2) ∧
        ∀ q ∈ P x.2.next, meanOf (Categorical.support vMin dz n) q ≤ meanOf (Categorical.support vMin dz n) (p x.2)) ∧
      ∀ f, avg (Categorical.support vMin dz n) p' f = expect (env.outcomes s a) fun o =>
        avg (Categorical.support vMin dz n) (p o) fun x => interp vMin dz n f (o.reward + if o.done then 0 else gamma * x) := by
  obtain ⟨y, h1, h2⟩ := h s a ha
  choose b y' g1 g2 g3 g p g4 g5 g6 using fun o => target_row env gamma vMin dz n hn hd double P hP s a o
  have hy : ∀ x ∈ env.outcomes s a, y x.2 = y' x.2 := fun x hx => by
    obtain ⟨b', e1, e2⟩ := h1 x hx
    rw [g1 x.2, Except.ok.injEq] at e1
    rw [← e1, g2 x.2, Except.ok.injEq, List.cons.injEq] at e2
    exact e2.1.symm
  refine ⟨_, p, h2, fun x _ => ⟨g x.2, g4 x.2, g5 x.2⟩, fun f => ?_⟩
  unfold mixture
  rw [avg_mixture vMin dz n _ y (fun x hx => by rw [hy x hx]; exact (g3 x.2).length) f]
  exact MDP.expect_congr _ _ _ fun x hx => by rw [hy x hx, g6]

/-! ### Means -/

omit hn in
theorem vMin_le : vMin ≤ vMin + ((n : ℝ) - 1) * dz ∨ n = 0 := by
  rcases Nat.eq_zero_or_pos n with h | h
  · exact .inr h
  · have : (1 : ℝ) ≤ n := by exact_mod_cast h
    exact .inl (by nlinarith)

theorem vMin_le' : vMin ≤ vMin + ((n : ℝ) - 1) * dz := (vMin_le vMin dz n hd).resolve_right (by omega)

/-- The largest absolute value of an atom. -/
def largest (vMin dz : ℝ) (n : Nat) : ℝ := max |vMin| |vMin + ((n : ℝ) - 1) * dz|

theorem atom_le (x : ℝ) (hx : x ∈ Categorical.support vMin dz n) : |x| ≤ largest vMin dz n := by
  obtain ⟨h1, h2⟩ := mem_support vMin dz n hn hd x hx
  exact abs_le_max_abs_abs h1 h2

theorem mean_le (p : List ℝ) (hp : IsDist n p) : |meanOf (Categorical.support vMin dz n) p| ≤ largest vMin dz n := by
  have := avg_close n (Categorical.support vMin dz n) p (by simp [Categorical.support]) hp id (fun _ => 0) (largest vMin dz n)
    fun x hx => by simpa using atom_le vMin dz n hn hd x hx
  rwa [avg_const n _ _ (by simp [Categorical.support]) hp, sub_zero, ← meanOf_eq] at this

theorem mean_table (P : S → List (List ℝ)) (hP : Dists env n P) :
    Table env (largest vMin dz n) fun s => distQ (Categorical.support vMin dz n) (P s) := by
  refine ⟨hP.1, fun s => ⟨by simp [distQ, (hP.2 s).1], fun x hx => ?_⟩⟩
  obtain ⟨p, hp, rfl⟩ := List.mem_map.1 hx
  exact mean_le vMin dz n hn hd p ((hP.2 s).2 p hp)

omit hn hd in
theorem evaluate_distQ (z : List ℝ) (d : List (List ℝ)) (a : Nat) (p : List ℝ) (h : d[a]? = some p) : evaluate (distQ z d) a = meanOf z p := by
  simp [evaluate, distQ, h, meanOf]

omit hn hd in
theorem maxQ_distQ (z : List ℝ) (d : List (List ℝ)) (a : Nat) (p : List ℝ) (h : d[a]? = some p) (hmax : ∀ q ∈ d, meanOf z q ≤ meanOf z p) :
    maxQ (distQ z d) = meanOf z p := by
  have hne : distQ z d ≠ [] := by
    intro h'
    have : d = [] := by simpa [distQ] using h'
    simp [this] at h
  refine MDP.isMax_unique (C64_max _ hne) ⟨List.mem_map.2 ⟨p, List.mem_of_getElem? h, rfl⟩, fun x hx => ?_⟩
  obtain ⟨q, hq, rfl⟩ := List.mem_map.1 hx
  exact hmax q hq

include he

theorem mean_step (hg0 : 0 ≤ gamma) (ε : ℝ) (hε : 0 ≤ ε) (hw : Within env gamma vMin (vMin + ((n : ℝ) - 1) * dz) ε)
    (P P' : S → List (List ℝ)) (hP : Dists env n P) (h : FitsDist env gamma vMin dz n double P P') (s : S) (a : Nat) (ha : a < env.nA) :
    |evaluate (distQ (Categorical.support vMin dz n) (P' s)) a -
      backup env gamma (fun s => maxQ (distQ (Categorical.support vMin dz n) (P s))) s a| ≤ ε := by
  obtain ⟨p', p, h1, h2, h3⟩ := fit_avg env gamma vMin dz n hn hd double P P' hP h s a ha
  rw [evaluate_distQ _ _ _ _ h1, meanOf_eq, h3]
  refine MDP.expect_close _ (he s a ha) _ _ _ fun x hx => ?_
  obtain ⟨g, g1, g2⟩ := h2 x hx
  have hp : IsDist n (p x.2) := (hP.2 _).2 _ (List.mem_of_getElem? g1)
  have hw' := hw s a ha x hx
  simp only [maxQ_distQ _ _ g _ g1 g2]
  have hz : (Categorical.support vMin dz n).length = n := by simp [Categorical.support]
  have e : (x.2.reward + if x.2.done then 0 else gamma * meanOf (Categorical.support vMin dz n) (p x.2)) =
      avg (Categorical.support vMin dz n) (p x.2) fun u => x.2.reward + if x.2.done then 0 else gamma * u := by
    cases x.2.done with
    | true => simp [avg_const n _ _ hz hp]
    | false =>
      have := avg_affine (Categorical.support vMin dz n) (p x.2) id gamma x.2.reward (by rw [hz, hp.length])
      simp only [Bool.false_eq_true, if_false, meanOf_eq]
      rw [hp.sum, mul_one] at this
      rw [add_comm, ← this]
      congr 1
      funext u
      rw [add_comm]; rfl
  rw [e]
  refine avg_close n _ _ hz hp _ _ _ fun u hu => ?_
  rw [interp_id vMin dz n hn hd]
  obtain ⟨u1, u2⟩ := mem_support vMin dz n hn hd u hu
  have u3 := mul_le_mul_of_nonneg_left u1 hg0
  have u4 := mul_le_mul_of_nonneg_left u2 hg0
  refine clipped_close vMin dz n _ ε hε (vMin_le' vMin dz n hn hd) ?_ ?_ <;>
  · cases hdone : x.2.done <;> simp only [hdone, Bool.false_eq_true, if_false, if_true] at hw' ⊢ <;> linarith [hw'.1, hw'.2]

variable (hg0 : 0 ≤ gamma) (hg1 : gamma < 1) (P : ℕ → S → List (List ℝ)) (hP : ∀ k, Dists env n (P k))
  (hfit : ∀ k, FitsDist env gamma vMin dz n double (P k) (P (k + 1)))
include hg0 hg1 hP hfit

theorem mean_iteration (ε : ℝ) (hε : 0 ≤ ε) (hw : Within env gamma vMin (vMin + ((n : ℝ) - 1) * dz) ε) (Qs : S → List ℝ) (B : ℝ)
    (hQs : Table env B Qs) (hs : MeetsTargets env gamma Targets.dqn Qs) (k : ℕ) : ∀ s a, a < env.nA →
    |evaluate (distQ (Categorical.support vMin dz n) (P k s)) a - evaluate (Qs s) a| ≤ gamma ^ k * (largest vMin dz n + B) + ε / (1 - gamma) := by
  have hpos : 0 < 1 - gamma := by linarith
  have hdiv : 0 ≤ ε / (1 - gamma) := div_nonneg hε hpos.le
  induction k with
  | zero =>
    intro s a ha
    have hT := mean_table env vMin dz n hn hd (P 0) (hP 0)
    have h1 : |evaluate (distQ (Categorical.support vMin dz n) (P 0 s)) a| ≤ largest vMin dz n := by
      have hl : a < (distQ (Categorical.support vMin dz n) (P 0 s)).length := by rw [(hT.2 s).1]; exact ha
      simp only [evaluate, List.getElem?_eq_getElem hl, Option.getD_some]
      exact (hT.2 s).2 _ (List.getElem_mem _)
    have h2 : |evaluate (Qs s) a| ≤ B := by
      have hl : a < (Qs s).length := by rw [(hQs.2 s).1]; exact ha
      simp only [evaluate, List.getElem?_eq_getElem hl, Option.getD_some]
      exact (hQs.2 s).2 _ (List.getElem_mem _)
    have := abs_sub (evaluate (distQ (Categorical.support vMin dz n) (P 0 s)) a) (evaluate (Qs s) a)
    rw [pow_zero, one_mul]
    linarith
  | succ k ih =>
    intro s a ha
    have hT := mean_table env vMin dz n hn hd (P k) (hP k)
    have h1 := mean_step env he gamma vMin dz n hn hd double hg0 ε hε hw (P k) (P (k + 1)) (hP k) (hfit k) s a ha
    set δ := gamma ^ k * (largest vMin dz n + B) + ε / (1 - gamma) with hδ
    have hδ0 : 0 ≤ δ := (abs_nonneg _).trans (ih s a ha)
    have h2 : |backup env gamma (fun s => maxQ (distQ (Categorical.support vMin dz n) (P k s))) s a - evaluate (Qs s) a| ≤ gamma * δ := by
      rw [MDP.dqn_backup env gamma B _ _ hQs hs s a ha]
      refine MDP.expect_close _ (he s a ha) _ _ _ (fun x _ => ?_)
      rw [add_sub_add_left_eq_sub]
      cases x.2.done with
      | true => simpa using mul_nonneg hg0 hδ0
      | false =>
        simp only [Bool.false_eq_true, if_false]
        rw [← mul_sub, abs_mul, abs_of_nonneg hg0]
        refine mul_le_mul_of_nonneg_left ?_ hg0
        refine MDP.max_close _ (Qs x.2.next) ?_ _ ?_ _ _ (C64_max _ (MDP.row_ne env _ _ hT _)) (C64_max _ (MDP.row_ne env B _ hQs _))
        · rw [(hT.2 _).1, (hQs.2 _).1]
        · intro a ha
          exact ih _ a (by rwa [(hT.2 _).1] at ha)
    have h3 := abs_sub_le (evaluate (distQ (Categorical.support vMin dz n) (P (k + 1) s)) a)
      (backup env gamma (fun s => maxQ (distQ (Categorical.support vMin dz n) (P k s))) s a) (evaluate (Qs s) a)
    have h4 : ε + gamma * δ = gamma ^ (k + 1) * (largest vMin dz n + B) + ε / (1 - gamma) := by
      rw [hδ, pow_succ]
      field_simp
      ring
    linarith

end

section
variable (env : Env S ℝ) (he : env.Valid) (gamma vMin dz : ℝ) (n : Nat) (hn : 2 ≤ n) (hd : 0 < dz) (double : Bool)
  (hg0 : 0 ≤ gamma) (hg1 : gamma < 1) (P : ℕ → S → List (List ℝ)) (hP : ∀ k, Dists env n (P k))
  (hfit : ∀ k, FitsDist env gamma vMin dz n double (P k) (P (k + 1)))
include he hn hd hg0 hg1 hP hfit

/-- **C148**: if every reward plus discounted atom is beyond the atoms by at most `ε`, the expected action values approach the optimal ones by `gamma` in each
iteration up to `ε / (1 - gamma)`. -/
theorem C148_means (ε : ℝ) (hε : 0 ≤ ε) (hw : Within env gamma vMin (vMin + ((n : ℝ) - 1) * dz) ε) :
    ∃ B Qs, Table env B Qs ∧ Optimal env gamma B (fun s => maxQ (Qs s)) (fun s => greedy (Qs s)) ∧
      (∀ s a, a < env.nA → evaluate (Qs s) a = backup env gamma (fun s => maxQ (Qs s)) s a) ∧
      ∀ k s a, a < env.nA → |evaluate (distQ (Categorical.support vMin dz n) (P k s)) a - evaluate (Qs s) a| ≤
        gamma ^ k * (largest vMin dz n + B) + ε / (1 - gamma) := by
  have hR : ∀ s a, a < env.nA → |expect (env.outcomes s a) Outcome.reward| ≤ 2 * largest vMin dz n + ε := fun s a ha => by
    have := MDP.expect_close _ (he s a ha) Outcome.reward (fun _ => 0) (2 * largest vMin dz n + ε) fun x hx => by
      have h1 := hw s a ha x hx
      have h2 : |vMin| ≤ largest vMin dz n := le_max_left _ _
      have h3 : |vMin + ((n : ℝ) - 1) * dz| ≤ largest vMin dz n := le_max_right _ _
      have h0 : 0 ≤ largest vMin dz n := (abs_nonneg _).trans h2
      rw [abs_le] at h2 h3
      rw [sub_zero, abs_le]
      cases hdone : x.2.done
      · simp only [hdone, Bool.false_eq_true, if_false] at h1
        have h4 : gamma * vMin ≤ largest vMin dz n := by nlinarith [mul_le_mul_of_nonneg_left h2.2 hg0]
        have h5 : -largest vMin dz n ≤ gamma * (vMin + ((n : ℝ) - 1) * dz) := by nlinarith [mul_le_mul_of_nonneg_left h3.1 hg0]
        constructor <;> linarith [h1.1, h1.2]
      · simp only [hdone, if_true] at h1
        constructor <;> linarith [h1.1, h1.2]
    rwa [MDP.expect_const _ (he s a ha), sub_zero] at this
  obtain ⟨B, Qs, hQs, hs⟩ := MDP.optimal_exists env he (hP 0).1 gamma _ hg0 hg1 hR
  obtain ⟨o1, o2⟩ := MDP.C135_dqn env he gamma B hg0 Qs hQs hs
  exact ⟨B, Qs, hQs, o1, o2, mean_iteration env he gamma vMin dz n hn hd double hg0 hg1 P hP hfit ε hε hw Qs B hQs hs⟩

/-- **C148**: if the atoms reach far enough, the expected action values converge to the optimal ones, and in every state the greedy action is optimal from some
iteration on. -/
theorem C148_optimal (hw : Within env gamma vMin (vMin + ((n : ℝ) - 1) * dz) 0) :
    ∃ B Qs, Table env B Qs ∧ Optimal env gamma B (fun s => maxQ (Qs s)) (fun s => greedy (Qs s)) ∧
      ∀ s, (∀ a, a < env.nA → Tendsto (fun k => evaluate (distQ (Categorical.support vMin dz n) (P k s)) a) atTop (𝓝 (evaluate (Qs s) a))) ∧
        ∀ᶠ k in atTop, evaluate (Qs s) (greedy (distQ (Categorical.support vMin dz n) (P k s))) = maxQ (Qs s) := by
  obtain ⟨B, Qs, hQs, o1, -, h⟩ := C148_means env he gamma vMin dz n hn hd double hg0 hg1 P hP hfit 0 le_rfl hw
  have hT : ∀ k, Table env (largest vMin dz n) fun s => distQ (Categorical.support vMin dz n) (P k s) := fun k => mean_table env vMin dz n hn hd (P k) (hP k)
  have hz : Tendsto (fun k : ℕ => gamma ^ k * (largest vMin dz n + B)) atTop (𝓝 0) := by
    have := (tendsto_pow_atTop_nhds_zero_of_lt_one hg0 hg1).mul_const (largest vMin dz n + B)
    rwa [zero_mul] at this
  have htend : ∀ s a, a < env.nA → Tendsto (fun k => evaluate (distQ (Categorical.support vMin dz n) (P k s)) a) atTop (𝓝 (evaluate (Qs s) a)) :=
    fun s a ha => by
      rw [tendsto_iff_dist_tendsto_zero]
      refine squeeze_zero (fun _ => dist_nonneg) (fun k => ?_) hz
      have := h k s a ha
      rwa [zero_div, add_zero] at this
  refine ⟨B, Qs, hQs, o1, fun s => ⟨htend s, MDP.greedy_becomes_optimal (fun k => ⟨_, hT k⟩) hQs s fun a ha ε hε => ?_⟩⟩
  have hmax : ∀ᶠ k in atTop, gamma ^ k * (largest vMin dz n + B) < ε / 2 := hz.eventually (eventually_lt_nhds (by linarith))
  refine hmax.mono fun k hk => ?_
  have h1 := h k s a ha
  rw [zero_div, add_zero] at h1
  have h2 : |maxQ (distQ (Categorical.support vMin dz n) (P k s)) - maxQ (Qs s)| ≤ gamma ^ k * (largest vMin dz n + B) := by
    refine MDP.max_close _ (Qs s) ?_ _ ?_ _ _ (C64_max _ (MDP.row_ne env _ _ (hT k) _)) (C64_max _ (MDP.row_ne env B _ hQs _))
    · rw [((hT k).2 _).1, (hQs.2 _).1]
    · intro a ha
      have := h k s a (by rwa [((hT k).2 _).1] at ha)
      rwa [zero_div, add_zero] at this
  have := (abs_le.1 h1).2
  have := (abs_le.1 h2).1
  linarith

/-! ### Distributions -/

/-- When the optimal action is unique with a margin, only it is bootstrapped from after finitely many iterations. -/
theorem greedy_fixed (hw : Within env gamma vMin (vMin + ((n : ℝ) - 1) * dz) 0) (Qs : S → List ℝ) (B : ℝ)
    (hQs : Table env B Qs) (hs : MeetsTargets env gamma Targets.dqn Qs) (c : ℝ) (hc : 0 < c)
    (hgap : ∀ s a, a < env.nA → a ≠ greedy (Qs s) → evaluate (Qs s) a + c ≤ maxQ (Qs s)) :
    ∃ K, ∀ k, K ≤ k → ∀ (s : S) (g : Nat) p, (P k s)[g]? = some p →
      (∀ q ∈ P k s, meanOf (Categorical.support vMin dz n) q ≤ meanOf (Categorical.support vMin dz n) p) → g = greedy (Qs s) := by
  have hz : Tendsto (fun k : ℕ => gamma ^ k * (largest vMin dz n + B)) atTop (𝓝 0) := by
    have := (tendsto_pow_atTop_nhds_zero_of_lt_one hg0 hg1).mul_const (largest vMin dz n + B)
    rwa [zero_mul] at this
  obtain ⟨K, hK⟩ := eventually_atTop.1 (hz.eventually (eventually_lt_nhds (show 0 < c / 2 by linarith)))
  refine ⟨K, fun k hk s g p hp hmax => ?_⟩
  have hg : g < env.nA := by
    rw [← ((hP k).2 s).1]
    exact (List.getElem?_eq_some_iff.1 hp).1
  by_contra hne
  have h1 := mean_iteration env he gamma vMin dz n hn hd double hg0 hg1 P hP hfit 0 le_rfl hw Qs B hQs hs k s
  have hlt := MDP.greedy_lt env B Qs hQs s
  have h2 := h1 g hg
  have h3 := h1 _ hlt
  have hgap' := hgap s g hg hne
  rw [zero_div, add_zero] at h2 h3
  have hl : greedy (Qs s) < (P k s).length := by rw [((hP k).2 s).1]; exact hlt
  rw [evaluate_distQ _ _ _ _ hp] at h2
  rw [evaluate_distQ _ _ _ _ (List.getElem?_eq_getElem hl)] at h3
  have h4 := hmax _ (List.getElem_mem hl)
  have h5 := hK k hk
  have h6 := (abs_le.1 h2).2
  have h7 := (abs_le.1 h3).1
  have : maxQ (Qs s) = evaluate (Qs s) (greedy (Qs s)) := rfl
  linarith

omit he hg1 hP hfit hn hd in
theorem lip_comp {L : ℝ} {f : ℝ → ℝ} (hf : Lip L f) (r : ℝ) : Lip (L * gamma) fun x => f (r + gamma * x) := fun x y => by
  have := hf (r + gamma * x) (r + gamma * y)
  rwa [add_sub_add_left_eq_sub, ← mul_sub, abs_mul, abs_of_nonneg hg0, ← mul_assoc] at this

/-- **C148**: if moreover the optimal action is unique in every state, by a margin, then the learned distributions become those of the returns of the optimal
policy: after finitely many iterations, after `m` more the average of every function `f` that changes by no more than its argument is at most `gamma ^ m` times
the largest atom plus `dz / (2 (1 - gamma))` away from its expectation for the discounted return of `m` steps. -/
theorem C148_returns (hw : Within env gamma vMin (vMin + ((n : ℝ) - 1) * dz) 0) (Qs : S → List ℝ) (B : ℝ)
    (hQs : Table env B Qs) (hs : MeetsTargets env gamma Targets.dqn Qs) (c : ℝ) (hc : 0 < c)
    (hgap : ∀ s a, a < env.nA → a ≠ greedy (Qs s) → evaluate (Qs s) a + c ≤ maxQ (Qs s)) :
    ∃ K, ∀ k, K ≤ k → ∀ (m : Nat) (s : S) (a : Nat) (p : List ℝ) (f : ℝ → ℝ), (P (k + m) s)[a]? = some p → Lip 1 f →
      |avg (Categorical.support vMin dz n) p f - law env gamma (fun s => greedy (Qs s)) m s a f| ≤
        gamma ^ m * largest vMin dz n + dz / (2 * (1 - gamma)) := by
  obtain ⟨K, hK⟩ := greedy_fixed env he gamma vMin dz n hn hd double hg0 hg1 P hP hfit hw Qs B hQs hs c hc hgap
  have hz : (Categorical.support vMin dz n).length = n := by simp [Categorical.support]
  have hpos : 0 < 1 - gamma := by linarith
  have hdiv : 0 ≤ dz / (2 * (1 - gamma)) := by positivity
  have hM : 0 ≤ largest vMin dz n := (abs_nonneg _).trans (le_max_left _ _)
  refine ⟨K, fun k hk m => ?_⟩
  have key : ∀ (s : S) (a : Nat) (p : List ℝ) (f : ℝ → ℝ) (L : ℝ), 0 ≤ L → (P (k + m) s)[a]? = some p → Lip L f →
      |avg (Categorical.support vMin dz n) p f - law env gamma (fun s => greedy (Qs s)) m s a f| ≤
        L * (gamma ^ m * largest vMin dz n + dz / (2 * (1 - gamma))) := by
    induction m with
    | zero =>
      intro s a p f L hL hp hf
      have hpd : IsDist n p := ((hP _).2 s).2 p (List.mem_of_getElem? hp)
      have h1 := avg_close n _ p hz hpd f (fun _ => f 0) (L * largest vMin dz n) fun x hx => by
        have h2 := hf x 0
        rw [sub_zero] at h2
        exact h2.trans (mul_le_mul_of_nonneg_left (atom_le vMin dz n hn hd x hx) hL)
      rw [avg_const n _ p hz hpd] at h1
      simp only [law, pow_zero, one_mul]
      refine h1.trans (mul_le_mul_of_nonneg_left ?_ hL)
      linarith
    | succ m ih =>
      intro s a p f L hL hp hf
      have ha : a < env.nA := by
        rw [← ((hP _).2 s).1]
        exact (List.getElem?_eq_some_iff.1 hp).1
      obtain ⟨p', q, h1, h2, h3⟩ := fit_avg env gamma vMin dz n hn hd double (P (k + m)) (P (k + m + 1)) (hP _) (hfit _) s a ha
      have : p' = p := by
        rw [show k + (m + 1) = k + m + 1 from rfl] at hp
        rw [hp] at h1
        exact (Option.some.inj h1).symm
      subst this
      rw [h3]
      simp only [law]
      refine MDP.expect_close _ (he s a ha) _ _ _ fun x hx => ?_
      obtain ⟨g, g1, g2⟩ := h2 x hx
      have hpd : IsDist n (q x.2) := ((hP _).2 _).2 _ (List.mem_of_getElem? g1)
      have hw' := hw s a ha x hx
      have e : L * (gamma ^ (m + 1) * largest vMin dz n + dz / (2 * (1 - gamma))) =
          L * (dz / 2) + L * gamma * (gamma ^ m * largest vMin dz n + dz / (2 * (1 - gamma))) := by
        rw [pow_succ]; field_simp; ring
      rw [e]
      have hrest : 0 ≤ L * gamma * (gamma ^ m * largest vMin dz n + dz / (2 * (1 - gamma))) := by positivity
      cases hdone : x.2.done
      · simp only [hdone, Bool.false_eq_true, if_false, sub_zero, add_zero] at hw' ⊢
        have hg := hK (k + m) (by omega) _ g _ g1 g2
        rw [hg] at g1
        have i1 := ih _ _ _ _ (L * gamma) (mul_nonneg hL hg0) g1 (lip_comp gamma hg0 hf x.2.reward)
        have i2 := avg_close n _ _ hz hpd (fun u => interp vMin dz n f (x.2.reward + gamma * u)) (fun u => f (x.2.reward + gamma * u)) (L * (dz / 2))
          fun u hu => by
            obtain ⟨u1, u2⟩ := mem_support vMin dz n hn hd u hu
            have u3 := mul_le_mul_of_nonneg_left u1 hg0
            have u4 := mul_le_mul_of_nonneg_left u2 hg0
            exact interp_close vMin dz n hn hd hL f hf _ (by linarith [hw'.1]) (by linarith [hw'.2])
        exact (abs_sub_le _ _ _).trans (add_le_add i2 i1)
      · simp only [hdone, if_true, sub_zero, add_zero] at hw' ⊢
        rw [avg_const n _ _ hz hpd]
        have := interp_close vMin dz n hn hd hL f hf x.2.reward hw'.1 hw'.2
        linarith
  intro s a p f hp hf
  have := key s a p f 1 zero_le_one hp hf
  rwa [one_mul] at this

/-- **C148**: and in the same case the distributions converge: `m` iterations later, all further iterations change the average of such an `f` by at most
`gamma ^ m` times the range of the atoms. -/
theorem C148_limit (hw : Within env gamma vMin (vMin + ((n : ℝ) - 1) * dz) 0) (Qs : S → List ℝ) (B : ℝ)
    (hQs : Table env B Qs) (hs : MeetsTargets env gamma Targets.dqn Qs) (c : ℝ) (hc : 0 < c)
    (hgap : ∀ s a, a < env.nA → a ≠ greedy (Qs s) → evaluate (Qs s) a + c ≤ maxQ (Qs s)) :
    ∃ K, ∀ k k', K ≤ k → K ≤ k' → ∀ (m : Nat) (s : S) (a : Nat) (p p' : List ℝ) (f : ℝ → ℝ), (P (k + m) s)[a]? = some p → (P (k' + m) s)[a]? = some p' →
      Lip 1 f → |avg (Categorical.support vMin dz n) p f - avg (Categorical.support vMin dz n) p' f| ≤ gamma ^ m * (((n : ℝ) - 1) * dz) := by
  obtain ⟨K, hK⟩ := greedy_fixed env he gamma vMin dz n hn hd double hg0 hg1 P hP hfit hw Qs B hQs hs c hc hgap
  have hz : (Categorical.support vMin dz n).length = n := by simp [Categorical.support]
  have hM : 0 ≤ ((n : ℝ) - 1) * dz := by linarith [vMin_le' vMin dz n hn hd]
  refine ⟨K, fun k k' hk hk' m => ?_⟩
  have key : ∀ (s : S) (a : Nat) (p p' : List ℝ) (f : ℝ → ℝ) (L : ℝ), 0 ≤ L → (P (k + m) s)[a]? = some p → (P (k' + m) s)[a]? = some p' →
      Lip L f → |avg (Categorical.support vMin dz n) p f - avg (Categorical.support vMin dz n) p' f| ≤ L * (gamma ^ m * (((n : ℝ) - 1) * dz)) := by
    induction m with
    | zero =>
      intro s a p p' f L hL hp hp' hf
      have h1 : ∀ q, IsDist n q → |avg (Categorical.support vMin dz n) q f - f (vMin + ((n : ℝ) - 1) * dz / 2)| ≤ L * (((n : ℝ) - 1) * dz / 2) := fun q hq => by
        have := avg_close n _ q hz hq f (fun _ => f (vMin + ((n : ℝ) - 1) * dz / 2)) (L * (((n : ℝ) - 1) * dz / 2)) fun x hx => by
          obtain ⟨u1, u2⟩ := mem_support vMin dz n hn hd x hx
          refine (hf _ _).trans (mul_le_mul_of_nonneg_left ?_ hL)
          rw [abs_le]; constructor <;> linarith
        rwa [avg_const n _ q hz hq] at this
      have h2 := h1 p (((hP _).2 s).2 p (List.mem_of_getElem? hp))
      have h3 := h1 p' (((hP _).2 s).2 p' (List.mem_of_getElem? hp'))
      rw [abs_le] at h2 h3 ⊢
      rw [pow_zero, one_mul]
      constructor <;> linarith [h2.1, h2.2, h3.1, h3.2]
    | succ m ih =>
      intro s a p p' f L hL hp hp' hf
      have ha : a < env.nA := by
        rw [← ((hP _).2 s).1]
        exact (List.getElem?_eq_some_iff.1 hp).1
      obtain ⟨p₁, q, h1, h2, h3⟩ := fit_avg env gamma vMin dz n hn hd double (P (k + m)) (P (k + m + 1)) (hP _) (hfit _) s a ha
      obtain ⟨p₁', q', h1', h2', h3'⟩ := fit_avg env gamma vMin dz n hn hd double (P (k' + m)) (P (k' + m + 1)) (hP _) (hfit _) s a ha
      have e1 : p₁ = p := by
        rw [show k + (m + 1) = k + m + 1 from rfl] at hp
        rw [hp] at h1
        exact (Option.some.inj h1).symm
      have e2 : p₁' = p' := by
        rw [show k' + (m + 1) = k' + m + 1 from rfl] at hp'
        rw [hp'] at h1'
        exact (Option.some.inj h1').symm
      subst e1 e2
      rw [h3, h3']
      refine MDP.expect_close _ (he s a ha) _ _ _ fun x hx => ?_
      obtain ⟨g, g1, g2⟩ := h2 x hx
      obtain ⟨g', g1', g2'⟩ := h2' x hx
      have hg := hK (k + m) (by omega) _ g _ g1 g2
      have hg' := hK (k' + m) (by omega) _ g' _ g1' g2'
      rw [hg] at g1
      rw [hg'] at g1'
      have hpd : IsDist n (q x.2) := ((hP _).2 _).2 _ (List.mem_of_getElem? g1)
      have hpd' : IsDist n (q' x.2) := ((hP _).2 _).2 _ (List.mem_of_getElem? g1')
      cases hdone : x.2.done
      · simp only [Bool.false_eq_true, if_false]
        have hl : Lip L (interp vMin dz n f) := fun x y =>
          (interp_lip vMin dz n hn hd f hf x y).trans (mul_le_mul_of_nonneg_left (clipped_lip vMin dz n x y) hL)
        have := ih _ _ _ _ _ (L * gamma) (mul_nonneg hL hg0) g1 g1' (lip_comp gamma hg0 hl x.2.reward)
        rwa [mul_assoc, ← mul_assoc gamma, ← pow_succ'] at this
      · simp only [if_true]
        rw [avg_const n _ _ hz hpd, avg_const n _ _ hz hpd', sub_self, abs_zero]
        positivity
  intro s a p p' f hp hp' hf
  have := key s a p p' f 1 zero_le_one hp hp' hf
  rwa [one_mul] at this

end

/-! ### A case -/

/-- One state: action 0 wins 1 and ends or else goes on, with equal probabilities; action 1 ends without reward. -/
noncomputable def coin : Env Unit ℝ := ⟨2, fun _ a => if a = 0 then [(1 / 2, ⟨1, (), true⟩), (1 / 2, ⟨0, (), false⟩)] else [(1, ⟨0, (), true⟩)]⟩

theorem coin_valid : coin.Valid := by
  intro s a _
  unfold coin
  by_cases h : a = 0 <;> simp [h, MDP.IsDist] <;> norm_num

theorem coin_within : Within coin (1 / 2) 0 (0 + ((3 : ℕ) - 1 : ℝ) * (1 / 2)) 0 := by
  intro s a _ x hx
  unfold coin at hx
  by_cases h : a = 0
  · simp only [h, if_true, List.mem_cons, List.not_mem_nil, or_false] at hx
    rcases hx with rfl | rfl <;> norm_num
  · simp only [h, if_false, List.mem_cons, List.not_mem_nil, or_false] at hx
    subst hx
    norm_num

theorem coin_max : maxQ [2 / 3, (0 : ℝ)] = 2 / 3 :=
  MDP.isMax_unique (C64_max _ (by simp)) ⟨by simp, fun x hx => by
    simp only [List.mem_cons, List.not_mem_nil, or_false] at hx
    rcases hx with rfl | rfl <;> norm_num⟩

theorem coin_optimal : MeetsTargets coin (1 / 2) Targets.dqn fun _ => [2 / 3, 0] := by
  refine MDP.fits_dqn coin _ _ _ fun s a ha => ?_
  have ha : a < 2 := ha
  unfold backup
  simp only [coin_max, coin]
  obtain rfl | rfl : a = 0 ∨ a = 1 := by omega
  · simp [evaluate, expect]; norm_num
  · simp [evaluate, expect]

/-- The hypotheses of `C148_optimal` and `C148_returns` are met: in this game, from all distributions over the atoms 0, 1/2 and 1, there are such iterations, and the
distributions come as close to those of the returns of action 0 as stated. -/
example (P₀ : Unit → List (List ℝ)) (h₀ : Dists coin 3 P₀) (double : Bool) : ∃ P : ℕ → Unit → List (List ℝ), P 0 = P₀ ∧ (∀ k, Dists coin 3 (P k)) ∧
    (∀ k, FitsDist coin (1 / 2) 0 (1 / 2) 3 double (P k) (P (k + 1))) ∧
    ∃ K, ∀ k, K ≤ k → ∀ (m : Nat) (a : Nat) (p : List ℝ) (f : ℝ → ℝ), (P (k + m) ())[a]? = some p → Lip 1 f →
      |avg [0, 1 / 2, 1] p f - law coin (1 / 2) (fun _ => 0) m () a f| ≤ (1 / 2) ^ m + 1 / 2 := by
  choose! next hn1 hn2 using fun P => C148_exists coin coin_valid (1 / 2) 0 (1 / 2) 3 (by norm_num) (by norm_num) double P
  have hP : ∀ k, Dists coin 3 (next^[k] P₀) := fun k => by
    induction k with
    | zero => exact h₀
    | succ k ih => rw [Function.iterate_succ_apply']; exact hn1 _ ih
  have hfit : ∀ k, FitsDist coin (1 / 2) 0 (1 / 2) 3 double (next^[k] P₀) (next^[k + 1] P₀) := fun k => by
    rw [Function.iterate_succ_apply']; exact hn2 _ (hP k)
  have hg : greedy [2 / 3, (0 : ℝ)] = 0 := by
    obtain ⟨v, h1, h2, -⟩ := C64_greedy [2 / 3, (0 : ℝ)] (by simp)
    by_contra h
    have hlt := (List.getElem?_eq_some_iff.1 h1).1
    simp only [List.length_cons, List.length_nil] at hlt
    have : greedy [2 / 3, (0 : ℝ)] = 1 := by omega
    rw [this] at h1
    simp only [List.getElem?_cons_succ, List.getElem?_cons_zero, Option.some.injEq] at h1
    have := h2.2 (2 / 3) (by simp)
    rw [← h1] at this
    norm_num at this
  obtain ⟨K, hK⟩ := C148_returns coin coin_valid (1 / 2) 0 (1 / 2) 3 (by norm_num) (by norm_num) double (by norm_num) (by norm_num) _ hP hfit coin_within
    (fun _ => [2 / 3, 0]) 1 ⟨by norm_num [coin], fun s => ⟨rfl, fun x hx => by
      simp only [List.mem_cons, List.not_mem_nil, or_false] at hx
      rcases hx with rfl | rfl <;> norm_num [abs_le]⟩⟩ coin_optimal (2 / 3) (by norm_num) fun s a ha hne => by
      have ha : a < 2 := ha
      rw [hg] at hne
      have : a = 1 := by omega
      subst this
      rw [coin_max]
      simp [evaluate]
  refine ⟨fun k => next^[k] P₀, rfl, hP, hfit, K, fun k hk m a p f hp hf => ?_⟩
  have := hK k hk m () a p f hp hf
  rw [hg] at this
  have e1 : Categorical.support (0 : ℝ) (1 / 2) 3 = [0, 1 / 2, 1] := by
    simp [Categorical.support, List.range_succ]
  have e2 : largest 0 (1 / 2) 3 = 1 := by
    unfold largest; norm_num
  rw [e1, e2] at this
  refine this.trans (le_of_eq ?_)
  norm_num

end Verif.CategoricalLoss
