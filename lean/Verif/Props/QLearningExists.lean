import Verif.Props.QLearning
import Verif.Proofs.UniformDraws

/-!
# C155: runs that meet the hypotheses of the convergence theorem exist, for every way of choosing states, actions and learning rates
-/

set_option autoImplicit false
set_option linter.unusedSectionVars false

open Filter Topology MeasureTheory ProbabilityTheory

namespace Verif.QLearning
open ActionValue Targets MDP ValueLoss TabularDQN UniformDraws

variable {S : Type} [DecidableEq S]

/-- What happened before the update `k`: states, actions and numbers of the outcomes. -/
def history {Ω : Type} (v : ℕ → Ω → Visit S) (j : ℕ → Ω → ℕ) (k : ℕ) (ω : Ω) : List (S × ℕ × ℕ) := (List.range k).map fun i => ((v i ω).state, (v i ω).action, j i ω)

section Run
variable (env : Env S ℝ) (rule : List (S × ℕ × ℕ) → ℝ → ℝ → S × ℕ)

def probs (z : S × ℕ) : List ℝ := (env.outcomes z.1 z.2).map Prod.fst

/-- The history, with three random numbers for each step. -/
noncomputable def runHist : ℕ → (ℕ → ℝ) → List (S × ℕ × ℕ)
  | 0, _ => []
  | k + 1, ω =>
    let z := rule (runHist k ω) (ω (3 * k)) (ω (3 * k + 1))
    runHist k ω ++ [(z.1, z.2, draw (probs env z) (ω (3 * k + 2)))]

noncomputable def runChoice (k : ℕ) (ω : ℕ → ℝ) : S × ℕ := rule (runHist env rule k ω) (ω (3 * k)) (ω (3 * k + 1))

noncomputable def runDraw (k : ℕ) (ω : ℕ → ℝ) : ℕ := draw (probs env (runChoice env rule k ω)) (ω (3 * k + 2))

noncomputable def runVisit (k : ℕ) (ω : ℕ → ℝ) : Visit S :=
  let z := runChoice env rule k ω
  ⟨z.1, z.2, (((env.outcomes z.1 z.2)[runDraw env rule k ω]?).map Prod.snd).getD ⟨0, z.1, false⟩⟩

theorem runHist_eq (k : ℕ) (ω : ℕ → ℝ) : runHist env rule k ω = history (runVisit env rule) (runDraw env rule) k ω := by
  induction k with
  | zero => rfl
  | succ k ih =>
    rw [history, List.range_succ, List.map_append, ← history, ← ih]
    rfl

variable [Countable S] (hm : ∀ l z, MeasurableSet {u : ℝ × ℝ | rule l u.1 u.2 = z})
include hm

theorem choice_measurable (k : ℕ) (hh : ∀ l, MeasurableSet[past k] {ω | runHist env rule k ω = l}) (z : S × ℕ) : MeasurableSet[past k] {ω | runChoice env rule k ω = z} := by
  have e : {ω | runChoice env rule k ω = z} = ⋃ l, {ω | runHist env rule k ω = l} ∩ (fun ω : ℕ → ℝ => (ω (3 * k), ω (3 * k + 1))) ⁻¹' {u : ℝ × ℝ | rule l u.1 u.2 = z} := by
    ext ω; simp [runChoice]
  rw [e]
  exact MeasurableSet.iUnion fun l => (hh l).inter (((coord_first (3 * k) (3 * k + 2) (by omega)).prodMk (coord_first (3 * k + 1) (3 * k + 2) (by omega))) (hm l z))

theorem draw_known (k : ℕ) (hh : ∀ l, MeasurableSet[past k] {ω | runHist env rule k ω = l}) (x : ℕ) : MeasurableSet[before (k + 1)] {ω | runDraw env rule k ω = x} := by
  have e : {ω | runDraw env rule k ω = x} = ⋃ z, {ω | runChoice env rule k ω = z} ∩ (fun ω : ℕ → ℝ => ω (3 * k + 2)) ⁻¹' (draw (probs env z) ⁻¹' {x}) := by
    ext ω; simp [runDraw]
  rw [e]
  exact MeasurableSet.iUnion fun z => (past_le_before k _ (choice_measurable env rule hm k hh z)).inter
    (coord_first _ (3 * (k + 1)) (by omega) (draw_measurable _ (measurableSet_singleton x)))

theorem hist_before (k : ℕ) : ∀ l, MeasurableSet[before k] {ω | runHist env rule k ω = l} := by
  induction k with
  | zero => intro l; simp only [runHist]; exact @MeasurableSet.const _ (before 0) _
  | succ k ih =>
    intro l
    have e : {ω | runHist env rule (k + 1) ω = l} = ⋃ y : List (S × ℕ × ℕ) × (S × ℕ) × ℕ, if y.1 ++ [(y.2.1.1, y.2.1.2, y.2.2)] = l then
        {ω | runHist env rule k ω = y.1} ∩ ({ω | runChoice env rule k ω = y.2.1} ∩ {ω | runDraw env rule k ω = y.2.2}) else ∅ := by
      ext ω
      rw [Set.mem_iUnion]
      constructor
      · intro h
        refine ⟨(runHist env rule k ω, runChoice env rule k ω, runDraw env rule k ω), ?_⟩
        split
        · exact ⟨rfl, rfl, rfl⟩
        · rename_i hn; exact hn h
      · rintro ⟨y, hy⟩
        split at hy
        · rename_i h
          obtain ⟨h1, h2, h3⟩ := hy
          have h1 : runHist env rule k ω = y.1 := h1
          have h2 : runChoice env rule k ω = y.2.1 := h2
          have h3 : runDraw env rule k ω = y.2.2 := h3
          rw [← h1, ← h2, ← h3] at h
          exact h
        · exact absurd hy (by simp)
    rw [e]
    refine MeasurableSet.iUnion fun y => ?_
    split
    · have ih' := fun l => before_le_past k _ (ih l)
      exact ((before.mono (Nat.le_succ k)) _ (ih _)).inter ((past_le_before k _ (choice_measurable env rule hm k ih' _)).inter (draw_known env rule hm k ih' _))
    · exact @MeasurableSet.empty _ (before (k + 1))

theorem hist_measurable (k : ℕ) (l : List (S × ℕ × ℕ)) : MeasurableSet[past k] {ω | runHist env rule k ω = l} := before_le_past k _ (hist_before env rule hm k l)

theorem run_law [Finite S] (he : env.Valid) (ha : ∀ l u r, (rule l u r).2 < env.nA) (k x : ℕ) :
    draws[Set.indicator {ω | runDraw env rule k ω = x} (fun _ => (1 : ℝ)) | past k] =ᵐ[draws] fun ω => prob env (runChoice env rule k ω).1 (runChoice env rule k ω).2 x := by
  classical
  have := Fintype.ofFinite S
  have hh := hist_measurable env rule hm
  let Z := runChoice env rule k
  let zz : S × Fin env.nA → S × ℕ := fun y => (y.1, y.2)
  let g : S × ℕ → ℝ → ℝ := fun z => Set.indicator (draw (probs env z) ⁻¹' {x}) fun _ => 1
  let c : S × ℕ → (ℕ → ℝ) → ℝ := fun z => Set.indicator {ω | Z ω = z} fun _ => 1
  have hgm : ∀ z, Measurable (g z) := fun z => measurable_const.indicator (draw_measurable _ (measurableSet_singleton x))
  have hcm : ∀ z, StronglyMeasurable[past k] (c z) := fun z => (@stronglyMeasurable_const _ _ (past k) _ _).indicator (choice_measurable env rule hm k (hh k) z)
  have hsum : ∀ (f : S × ℕ → ℝ) ω, ∑ y, c (zz y) ω * f (zz y) = f (Z ω) := by
    intro f ω
    have hZ : (Z ω).2 < env.nA := ha _ _ _
    rw [Finset.sum_eq_single ((Z ω).1, (⟨(Z ω).2, hZ⟩ : Fin env.nA))]
    · simp [c, zz]
    · intro y _ hy
      have : Z ω ≠ zz y := fun h => hy (Prod.ext (congrArg Prod.fst h).symm (Fin.ext (congrArg Prod.snd h).symm))
      simp [c, this]
    · simp
  have hgi : ∀ z, Integrable (fun ω : ℕ → ℝ => g z (ω (3 * k + 2))) draws := fun z => by
    have e : (fun ω : ℕ → ℝ => g z (ω (3 * k + 2))) = Set.indicator ((fun ω : ℕ → ℝ => ω (3 * k + 2)) ⁻¹' (draw (probs env z) ⁻¹' {x})) fun _ => 1 := rfl
    rw [e]
    exact (integrable_const (1 : ℝ)).indicator ((coord_measurable _).measurable (draw_measurable _ (measurableSet_singleton x)))
  have hci : ∀ z, Integrable (c z * fun ω : ℕ → ℝ => g z (ω (3 * k + 2))) draws := fun z => by
    have e : (c z * fun ω : ℕ → ℝ => g z (ω (3 * k + 2))) = Set.indicator {ω | Z ω = z} fun ω : ℕ → ℝ => g z (ω (3 * k + 2)) := by
      funext ω
      simp only [Pi.mul_apply, c, Set.indicator]
      split <;> simp
    rw [e]
    exact (hgi z).indicator (past.le k _ (choice_measurable env rule hm k (hh k) z))
  have e : Set.indicator {ω | runDraw env rule k ω = x} (fun _ => (1 : ℝ)) = ∑ y, (c (zz y) * fun ω : ℕ → ℝ => g (zz y) (ω (3 * k + 2))) := by
    funext ω
    rw [Finset.sum_apply]
    simp only [Pi.mul_apply]
    rw [hsum (fun z => g z (ω (3 * k + 2)))]
    rfl
  rw [e]
  refine (condExp_finsetSum (fun y _ => hci (zz y)) (past k)).trans ?_
  have h1 : ∀ y, draws[c (zz y) * fun ω : ℕ → ℝ => g (zz y) (ω (3 * k + 2)) | past k] =ᵐ[draws] fun ω => c (zz y) ω * prob env (zz y).1 (zz y).2 x := by
    intro y
    refine (condExp_mul_of_stronglyMeasurable_left (hcm _) (hci _) (hgi _)).trans ?_
    filter_upwards [fresh (3 * k + 2) (g (zz y)) (hgm _)] with ω hω
    rw [Pi.mul_apply, show (draws[fun ω : ℕ → ℝ => g (zz y) (ω (3 * k + 2)) | past k]) ω = _ from hω]
    congr 1
    simp only [g]
    rw [integral_indicator_const _ (draw_measurable _ (measurableSet_singleton x))]
    obtain ⟨hd1, hd2⟩ := he (zz y).1 (zz y).2 y.2.2
    have := draw_prob (probs env (zz y)) (fun p hp => by
      obtain ⟨q, hq, rfl⟩ := List.mem_map.1 hp
      exact hd1 q hq) hd2 x
    have e' : draw (probs env (zz y)) ⁻¹' {x} = {u | draw (probs env (zz y)) u = x} := rfl
    rw [e', this, prob, probs, List.getElem?_map]
    simp
  have h2 : ∀ᵐ ω ∂draws, ∀ y, (draws[c (zz y) * fun ω : ℕ → ℝ => g (zz y) (ω (3 * k + 2)) | past k]) ω = c (zz y) ω * prob env (zz y).1 (zz y).2 x := ae_all_iff.2 h1
  filter_upwards [h2] with ω hω
  rw [Finset.sum_apply, Finset.sum_congr rfl fun y _ => hω y, hsum fun z => prob env z.1 z.2 x]

end Run

/-- **C155**: runs exist for every way of choosing the state and the action of each step, and the learning rate, from the history and fresh randomness: there are random histories in which the
outcomes follow the process, and tables that learn from them. -/
theorem C155_exists [Finite S] (env : Env S ℝ) (he : env.Valid) (gamma : ℝ) (mean : Bool) (rule : List (S × ℕ × ℕ) → ℝ → ℝ → S × ℕ) (hm : ∀ l z, MeasurableSet {u : ℝ × ℝ | rule l u.1 u.2 = z})
    (ha : ∀ l u r, (rule l u r).2 < env.nA) (rate : List (S × ℕ × ℕ) → S × ℕ → ℝ) (hr : ∀ l z, 0 ≤ rate l z ∧ rate l z ≤ 1) (tau : ℕ → ℝ) (htau : ∀ k, 0 ≤ tau k ∧ tau k ≤ 1)
    (Q₀ T₀ : S → List ℝ) (hQ : ∀ s, (Q₀ s).length = env.nA) (hT : ∀ s, (T₀ s).length = env.nA) :
    ∃ (v : ℕ → (ℕ → ℝ) → Visit S) (j : ℕ → (ℕ → ℝ) → ℕ) (Q T : (ℕ → ℝ) → ℕ → S → List ℝ),
      (∀ ω, Q ω 0 = Q₀ ∧ T ω 0 = T₀) ∧ (∀ k ω, ((v k ω).state, (v k ω).action) = rule (history v j k ω) (ω (3 * k)) (ω (3 * k + 1))) ∧
      (∀ k x, MeasurableSet[before (k + 1)] {ω | j k ω = x}) ∧ Samples env draws past v j (fun k ω => rate (history v j k ω) ((v k ω).state, (v k ω).action)) ∧
      ∀ ω, Learns env gamma mean (Q ω) (T ω) (fun k => v k ω) (fun k => rate (history v j k ω) ((v k ω).state, (v k ω).action)) tau := by
  let v := runVisit env rule
  let j := runDraw env rule
  let lr : ℕ → (ℕ → ℝ) → ℝ := fun k ω => rate (history v j k ω) ((v k ω).state, (v k ω).action)
  have hh := hist_measurable env rule hm
  have hz := fun k => choice_measurable env rule hm k (hh k)
  let step : (ℕ → ℝ) → ℕ → (S → List ℝ) × (S → List ℝ) → (S → List ℝ) × (S → List ℝ) := fun ω k p =>
    let q := nextTable env gamma (lr k ω) false mean p.1 p.2 [v k ω] none
    (q, fun s => (List.range env.nA).map fun a => CopyParam.soft (tau k) (evaluate (p.2 s) a) (evaluate (q s) a))
  let P : (ℕ → ℝ) → ℕ → (S → List ℝ) × (S → List ℝ) := fun ω k => Nat.rec (Q₀, T₀) (step ω) k
  have hP : ∀ ω k, P ω (k + 1) = step ω k (P ω k) := fun ω k => rfl
  have hlen : ∀ ω k s, ((P ω k).1 s).length = env.nA ∧ ((P ω k).2 s).length = env.nA := by
    intro ω k s
    cases k with
    | zero => exact ⟨hQ s, hT s⟩
    | succ k => rw [hP]; simp [step, nextTable]
  refine ⟨v, j, fun ω k => (P ω k).1, fun ω k => (P ω k).2, fun ω => ⟨rfl, rfl⟩, fun k ω => ?_, fun k x => draw_known env rule hm k (hh k) x, ?_, fun ω => ?_⟩
  · show rule (runHist env rule k ω) _ _ = _
    rw [runHist_eq]
  · refine ⟨fun k x => ?_, fun k x => ?_, fun k => ?_, fun k ω => ha _ _ _, fun k ω => ?_, fun k x => before_le_past (k + 1) _ (draw_known env rule hm k (hh k) x), fun k x => run_law env rule hm he ha k x⟩
    · have e : {ω | (v k ω).state = x} = ⋃ a, {ω | runChoice env rule k ω = (x, a)} := by
        ext ω
        simp [v, runVisit, Prod.ext_iff]
      rw [e]
      exact MeasurableSet.iUnion fun a => hz k _
    · have e : {ω | (v k ω).action = x} = ⋃ s, {ω | runChoice env rule k ω = (s, x)} := by
        ext ω
        simp [v, runVisit, Prod.ext_iff]
      rw [e]
      exact MeasurableSet.iUnion fun s => hz k _
    · have e : lr k = fun ω => (fun (y : List (S × ℕ × ℕ) × (S × ℕ)) (_ : ℕ → ℝ) => rate y.1 y.2) (runHist env rule k ω, runChoice env rule k ω) ω := by
        funext ω
        simp only [lr]
        rw [← runHist_eq]
        rfl
      show Measurable[past k] (lr k)
      rw [e]
      refine pick_measurable (m := past k) (fun ω => (runHist env rule k ω, runChoice env rule k ω)) (fun y => ?_) (fun y _ => rate y.1 y.2) fun y => @measurable_const _ _ _ (past k) _
      have e' : {ω | (runHist env rule k ω, runChoice env rule k ω) = y} = {ω | runHist env rule k ω = y.1} ∩ {ω | runChoice env rule k ω = y.2} := by
        ext ω; simp [Prod.ext_iff]
      rw [e']
      exact (hh k _).inter (hz k _)
    · have hlt : runDraw env rule k ω < (env.outcomes (runChoice env rule k ω).1 (runChoice env rule k ω).2).length := by
        have := draw_lt (probs env (runChoice env rule k ω)) (ω (3 * k + 2)) (fun h0 => by
          have := (he (runChoice env rule k ω).1 (runChoice env rule k ω).2 (ha _ _ _)).2
          rw [show (env.outcomes (runChoice env rule k ω).1 (runChoice env rule k ω).2).map Prod.fst = [] from h0] at this
          simp at this)
        simpa [probs, runDraw] using this
      refine ⟨((env.outcomes (runChoice env rule k ω).1 (runChoice env rule k ω).2)[runDraw env rule k ω]'hlt).1, ?_⟩
      simp only [v, runVisit, j]
      rw [List.getElem?_eq_getElem hlt]
      simp
  · refine ⟨hlen ω, fun k => ?_, fun k => hr _ _, htau, fun k s a ha' => ?_⟩
    · refine (descends_iff env gamma (lr k ω) false mean _ _ _ (fun s => (hlen ω k s).1) [v k ω] (by simp) none (by simp)).2 fun s a ha' => ?_
      show evaluate (nextTable env gamma (lr k ω) false mean (P ω k).1 (P ω k).2 [v k ω] none s) a = _
      rw [nextTable, evaluate_map_range _ _ _ ha']
    · show evaluate ((List.range env.nA).map _) a = _
      rw [evaluate_map_range _ _ _ ha']

end Verif.QLearning
