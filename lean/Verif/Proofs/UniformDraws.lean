import Mathlib.Probability.Independence.InfinitePi
import Mathlib.Probability.BorelCantelli
import Mathlib.MeasureTheory.Measure.Lebesgue.Basic
import Mathlib.MeasureTheory.Group.Measure
import Mathlib.Tactic.Linarith

/-! # Drawing from finite distributions with independent uniform numbers -/

set_option autoImplicit false
set_option linter.unusedSectionVars false

open MeasureTheory ProbabilityTheory

namespace Verif.UniformDraws

/-- The first position where the sum of the probabilities exceeds `u`, the last one if there is none. -/
noncomputable def draw : List ℝ → ℝ → ℕ
  | [], _ => 0
  | [_], _ => 0
  | p :: q :: ps, u => if u < p then 0 else draw (q :: ps) (u - p) + 1

theorem draw_lt : ∀ (ps : List ℝ) (u : ℝ), ps ≠ [] → draw ps u < ps.length
  | [], _, h => absurd rfl h
  | [_], _, _ => by simp [draw]
  | p :: q :: ps, u, _ => by
    unfold draw
    split
    · simp
    · have := draw_lt (q :: ps) (u - p) (by simp)
      simpa using this

theorem draw_measurable : ∀ ps : List ℝ, Measurable (draw ps)
  | [] => measurable_const
  | [_] => measurable_const
  | p :: q :: ps => by
    have h := (draw_measurable (q :: ps)).comp (measurable_id.sub_const p)
    have e : draw (p :: q :: ps) = fun u => if u < p then 0 else draw (q :: ps) (u - p) + 1 := by funext u; rw [draw]
    rw [e]
    exact Measurable.ite measurableSet_Iio measurable_const ((measurable_from_top (f := fun n : ℕ => n + 1)).comp h)

/-- A uniform number draws each position with its probability. -/
theorem draw_volume : ∀ (ps : List ℝ), ps ≠ [] → (∀ p ∈ ps, 0 ≤ p) → ∀ x, volume {u | (0 ≤ u ∧ u < ps.sum) ∧ draw ps u = x} = ENNReal.ofReal ((ps[x]?).getD 0)
  | [], h, _, _ => absurd rfl h
  | [p], _, _, 0 => by
    have e : {u | (0 ≤ u ∧ u < [p].sum) ∧ draw [p] u = 0} = Set.Ico 0 p := by ext u; simp [draw]
    rw [e]; simp
  | [p], _, _, x + 1 => by simp [draw]
  | p :: q :: ps, _, hp, 0 => by
    have hs : 0 ≤ (q :: ps).sum := List.sum_nonneg fun y hy => hp y (by simp [List.mem_cons.1 hy])
    have e : {u | (0 ≤ u ∧ u < (p :: q :: ps).sum) ∧ draw (p :: q :: ps) u = 0} = Set.Ico 0 p := by
      ext u
      rw [List.sum_cons]
      simp only [draw, Set.mem_ofPred_eq, Set.mem_Ico]
      split
      · constructor
        · rintro ⟨⟨h1, -⟩, -⟩; constructor <;> assumption
        · rintro ⟨h1, h2⟩; exact ⟨⟨h1, by linarith⟩, rfl⟩
      · simp; intro _; linarith
    rw [e]; simp
  | p :: q :: ps, _, hp, x + 1 => by
    have ih := draw_volume (q :: ps) (by simp) (fun y hy => hp y (by simp [List.mem_cons.1 hy])) x
    have hp0 := hp p (by simp)
    have e : {u | (0 ≤ u ∧ u < (p :: q :: ps).sum) ∧ draw (p :: q :: ps) u = x + 1} = (fun u => u + -p) ⁻¹' {u | (0 ≤ u ∧ u < (q :: ps).sum) ∧ draw (q :: ps) u = x} := by
      ext u
      rw [List.sum_cons]
      simp only [draw, Set.mem_ofPred_eq, Set.mem_preimage]
      split
      · simp; intro h; linarith
      · rw [Nat.add_right_cancel_iff, ← sub_eq_add_neg]
        constructor
        · rintro ⟨⟨h1, h2⟩, h3⟩; exact ⟨⟨by linarith, by linarith⟩, h3⟩
        · rintro ⟨⟨h1, h2⟩, h3⟩; exact ⟨⟨by linarith, by linarith⟩, h3⟩
    rw [e, measure_preimage_add_right, ih]
    simp

/-- The uniform distribution on `[0, 1)`. -/
noncomputable def uniform01 : Measure ℝ := volume.restrict (Set.Ico 0 1)

instance : IsProbabilityMeasure uniform01 := ⟨by simp [uniform01]⟩

theorem draw_prob (ps : List ℝ) (hp : ∀ p ∈ ps, 0 ≤ p) (hs : ps.sum = 1) (x : ℕ) : uniform01.real {u | draw ps u = x} = (ps[x]?).getD 0 := by
  have hne : ps ≠ [] := fun h => by rw [h] at hs; simp at hs
  have h := draw_volume ps hne hp x
  rw [hs] at h
  have hnn : 0 ≤ (ps[x]?).getD 0 := by
    cases hx : ps[x]? with
    | none => simp
    | some p => simpa using hp p (List.mem_of_getElem? hx)
  have hm : MeasurableSet {u | draw ps u = x} := draw_measurable ps (measurableSet_singleton x)
  rw [measureReal_def, uniform01, Measure.restrict_apply hm]
  have e : {u | draw ps u = x} ∩ Set.Ico 0 1 = {u | (0 ≤ u ∧ u < 1) ∧ draw ps u = x} := by
    ext u; simp [and_comm]
  rw [e, h, ENNReal.toReal_ofReal hnn]

/-- Independent uniform numbers. -/
noncomputable def draws : Measure (ℕ → ℝ) := Measure.infinitePi fun _ => uniform01

instance : IsProbabilityMeasure draws := by unfold draws; infer_instance

theorem coord_measurable (i : ℕ) : StronglyMeasurable fun ω : ℕ → ℝ => ω i := (measurable_pi_apply i).stronglyMeasurable

/-- What the first `n` numbers tell. -/
noncomputable def first : Filtration ℕ (MeasurableSpace.pi : MeasurableSpace (ℕ → ℝ)) where
  seq n := match n with
    | 0 => ⊥
    | n + 1 => Filtration.natural (fun i (ω : ℕ → ℝ) => ω i) coord_measurable n
  mono' a b h := by
    match a, b, h with
    | 0, b, _ => exact bot_le
    | a + 1, b + 1, h => exact (Filtration.natural _ coord_measurable).mono (by omega)
  le' n := by
    match n with
    | 0 => exact bot_le
    | n + 1 => exact (Filtration.natural _ coord_measurable).le _

theorem coord_first (i n : ℕ) (h : i < n) : Measurable[first n] fun ω : ℕ → ℝ => ω i := by
  match n, h with
  | n + 1, h => exact ((Filtration.stronglyAdapted_natural coord_measurable i).mono ((Filtration.natural _ coord_measurable).mono (by omega : i ≤ n))).measurable

/-- A function of the next number is independent of the numbers before. -/
theorem fresh (n : ℕ) (g : ℝ → ℝ) (hg : Measurable g) : draws[fun ω => g (ω n) | first n] =ᵐ[draws] fun _ => ∫ u, g u ∂uniform01 := by
  have hm : draws.map (fun ω : ℕ → ℝ => ω n) = uniform01 := Measure.infinitePi_map_eval _ _
  have hint : ∫ ω, g (ω n) ∂draws = ∫ u, g u ∂uniform01 := by
    rw [← hm, integral_map (coord_measurable _).measurable.aemeasurable hg.aestronglyMeasurable]
  cases n with
  | zero =>
    refine Filter.EventuallyEq.of_eq ?_
    rw [← hint]
    exact condExp_bot _
  | succ n =>
    have hi : iIndepFun (fun i (ω : ℕ → ℝ) => ω i) draws := iIndepFun_infinitePi (X := fun _ u => u) fun _ => measurable_id
    have h1 := iIndepFun.indep_comap_natural_of_lt coord_measurable hi (Nat.lt_succ_self n)
    have h2 : StronglyMeasurable[MeasurableSpace.comap (fun ω : ℕ → ℝ => ω (n + 1)) inferInstance] fun ω : ℕ → ℝ => g (ω (n + 1)) :=
      (hg.comp (comap_measurable _)).stronglyMeasurable
    have h3 := condExp_indep_eq (μ := draws) (coord_measurable (n + 1)).measurable.comap_le (first.le (n + 1)) h2 h1
    refine h3.trans (Filter.EventuallyEq.of_eq ?_)
    funext _
    exact hint

/-- With three numbers for each step: what is known before the step `k`. -/
noncomputable def before : Filtration ℕ (MeasurableSpace.pi : MeasurableSpace (ℕ → ℝ)) where
  seq k := first (3 * k)
  mono' a b h := first.mono (by omega)
  le' k := first.le _

/-- What is known before the outcome of the step `k`. -/
noncomputable def past : Filtration ℕ (MeasurableSpace.pi : MeasurableSpace (ℕ → ℝ)) where
  seq k := first (3 * k + 2)
  mono' a b h := first.mono (by omega)
  le' k := first.le _

theorem before_le_past (k : ℕ) : before k ≤ past k := first.mono (show 3 * k ≤ 3 * k + 2 by omega)

theorem past_le_before (k : ℕ) : past k ≤ before (k + 1) := first.mono (show 3 * k + 2 ≤ 3 * (k + 1) by omega)

end Verif.UniformDraws
