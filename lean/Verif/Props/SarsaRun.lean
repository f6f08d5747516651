import Verif.Props.SarsaLearning
import Verif.Props.QLearningGreedy

/-!
# C165: the SARSA agent that walks through a process with an epsilon-greedy explorer
-/

set_option autoImplicit false
set_option linter.unusedSectionVars false

open Filter Topology MeasureTheory ProbabilityTheory

namespace Verif.SarsaLearning
open ActionValue Targets MDP ValueLoss TabularDQN TabularSarsa SarsaIteration UniformDraws
open QLearning (Samples prob pick_measurable weight visitOf after Walks Reach Tries ind ind_integrable ind_mono condExp_ind_inter randomAction probs walk_visits evaluate_ext)

variable {S Ω : Type} [DecidableEq S] {mΩ : MeasurableSpace Ω}

section
variable {env : Env S ℝ} {gamma : ℝ} {mean : Bool} {Q T : Ω → ℕ → S → List ℝ} {v : ℕ → Ω → Visit S} {j b : ℕ → Ω → ℕ} {lrs : ℕ → ℝ} {tau eps : ℕ → ℝ} {μ : Measure Ω} {𝒢 ℱ : Filtration ℕ mΩ}

/-- **C165**: an agent that walks through the process, tries every action with at least the probability `p` in each step and learns from each step, almost surely ends with the values of the
behaviour, if each state can be reached from each other one. -/
theorem C165_walk [Finite S] [IsProbabilityMeasure μ] (he : env.Valid) (hn : 0 < env.nA) (hg : 0 ≤ gamma) (hg1 : gamma < 1)
    (h : ∀ ω, LearnsSarsa env gamma mean (Q ω) (T ω) (fun k => v k ω) (fun k => b k ω) lrs tau) (hs : Samples env μ ℱ v j (fun k _ => lrs k)) (hb : NextActions env μ ℱ T v j b eps)
    (heps : ∀ k, 0 ≤ eps k ∧ eps k ≤ 1) (ε : ℝ) (hε : ∀ᶠ k in atTop, eps k = ε) (Q₀ T₀ : S → List ℝ) (h0 : ∀ ω, Q ω 0 = Q₀ ∧ T ω 0 = T₀)
    (hdec : Antitone lrs) (hsum : Tendsto (fun m => ∑ k ∈ Finset.range m, lrs k) atTop atTop) (C : ℝ) (hC : ∀ m, ∑ k ∈ Finset.range m, lrs k ^ 2 ≤ C)
    (htau : Tendsto (fun m => ∑ k ∈ Finset.range m, tau k) atTop atTop)
    (start : S) (hw : ∀ ω, Walks start fun k => v k ω) (p : ℝ) (hp : 0 < p) (ht : Tries env μ 𝒢 ℱ v j p) (hr : ∀ s t, Reach env start s t) :
    ∃ B Qs, Table env B Qs ∧ SarsaFits env gamma ε Qs Qs ∧
      (∀ n h s, |ret env gamma (fun _ => behaviour env ε Qs) n h s - expect (behaviour env ε Qs s) (evaluate (Qs s))| ≤ gamma ^ n * B) ∧
      (∀ π : Policy S ℝ, π.Valid env → Explores env ε π → ∀ n h s, ret env gamma π n h s ≤ expect (behaviour env ε Qs s) (evaluate (Qs s)) + gamma ^ n * B) ∧
      ∀ᵐ ω ∂μ, ∀ s, (∀ a, a < env.nA → Tendsto (fun k => evaluate (Q ω k s) a) atTop (𝓝 (evaluate (Qs s) a))) ∧
          ∀ᶠ k in atTop, evaluate (Qs s) (greedy (Q ω k s)) = maxQ (Qs s) := by
  obtain ⟨B, Qs, h1, h2, h3, h3', h4⟩ := C165_converges he hn hg hg1 h hs hb heps ε hε Q₀ T₀ h0 C (fun m _ => hC m) htau
  obtain ⟨ω₀⟩ : Nonempty Ω := μ.nonempty_of_neZero
  refine ⟨B, Qs, h1, h2, h3, h3', ?_⟩
  filter_upwards [h4, walk_visits hn hs (fun k => ((h ω₀).rates k).1) hdec hsum C hC start hw p hp ht hr] with ω h5 h6
  exact h5 fun s a ha => h6 s ⟨a, ha⟩

end

/-! ## Random numbers -/

theorem fresh_mul (n : ℕ) (f : ℝ → ℝ) (hf : Measurable f) (c' : ℝ) (hb : ∀ u, |f u| ≤ c') (X : (ℕ → ℝ) → ℝ) (hX : Integrable X draws) (c : ℝ) (hc : draws[X | first (n + 1)] =ᵐ[draws] fun _ => c) :
    draws[(fun ω => f (ω n)) * X | first n] =ᵐ[draws] fun _ => (∫ u, f u ∂uniform01) * c := by
  have hm : Measurable[first (n + 1)] fun ω : ℕ → ℝ => f (ω n) := hf.comp (coord_first n (n + 1) (by omega))
  have h1 := condExp_stronglyMeasurable_mul_of_bound (first.le (n + 1)) hm.stronglyMeasurable hX c' (Eventually.of_forall fun ω => hb (ω n))
  have h2 : draws[draws[(fun ω => f (ω n)) * X | first (n + 1)] | first n] =ᵐ[draws] draws[(fun ω => f (ω n)) * X | first n] := condExp_condExp_of_le (first.mono (Nat.le_succ _)) (first.le _)
  have h3 : draws[(fun ω => f (ω n)) * X | first (n + 1)] =ᵐ[draws] fun ω => c * f (ω n) := by
    filter_upwards [h1, hc] with ω g1 g2
    rw [g1, Pi.mul_apply, g2, mul_comm]
  have h4 : draws[fun ω => c * f (ω n) | first n] =ᵐ[draws] fun ω => c * (draws[fun ω => f (ω n) | first n]) ω := condExp_smul c _ _
  filter_upwards [h2, condExp_congr_ae (m := first n) h3, h4, fresh n f hf] with ω g2 g3 g4 g5
  rw [← g2, g3, g4, g5, mul_comm]

theorem below_prob (e : ℝ) (h0 : 0 ≤ e) (h1 : e ≤ 1) : ∫ u, Set.indicator (Set.Iio e) (fun _ => (1 : ℝ)) u ∂uniform01 = e := by
  rw [integral_indicator_const _ measurableSet_Iio, smul_eq_mul, mul_one, uniform01, measureReal_def, Measure.restrict_apply measurableSet_Iio]
  have e' : Set.Iio e ∩ Set.Ico 0 1 = Set.Ico 0 e := by
    ext u
    simp only [Set.mem_inter_iff, Set.mem_Iio, Set.mem_Ico]
    exact ⟨fun h => ⟨h.2.1, h.1⟩, fun h => ⟨h.2, h.1, by linarith [h.2]⟩⟩
  rw [e', Real.volume_Ico, sub_zero, ENNReal.toReal_ofReal h0]

variable (env : Env S ℝ)

theorem randomAction_lt (hn : 0 < env.nA) (r : ℝ) : randomAction env r < env.nA := by
  have := draw_lt (List.replicate env.nA (1 / (env.nA : ℝ))) r (by simp; omega)
  simpa [randomAction] using this

theorem randomAction_measurable : Measurable (randomAction env) := draw_measurable _

theorem randomAction_prob (hn : 0 < env.nA) (a : ℕ) (ha : a < env.nA) : ∫ r, Set.indicator {r | randomAction env r = a} (fun _ => (1 : ℝ)) r ∂uniform01 = 1 / env.nA := by
  have hnr : (0 : ℝ) < env.nA := by exact_mod_cast hn
  have := draw_prob (List.replicate env.nA (1 / (env.nA : ℝ))) (fun p hp => by rw [(List.mem_replicate.1 hp).2]; positivity) (by simp [hnr.ne']) a
  have hR : MeasurableSet {r | randomAction env r = a} := randomAction_measurable env (measurableSet_singleton a)
  rw [integral_indicator_const _ hR, smul_eq_mul, mul_one]
  show uniform01.real {r | draw (List.replicate env.nA (1 / (env.nA : ℝ))) r = a} = _
  rw [this]
  simp [ha]

/-- The explorer's action, for two random numbers. -/
noncomputable def explored (e : ℝ) (g : ℕ) (u r : ℝ) : ℕ := (EpsGreedy.select e u (randomAction env r) g).1

theorem explored_ite (e : ℝ) (g : ℕ) (u r : ℝ) : explored env e g u r = if u < e then randomAction env r else g := by
  simp only [explored, EpsGreedy.select]
  split <;> rfl

theorem explored_measurable (e : ℝ) (g : ℕ) : Measurable fun u : ℝ × ℝ => explored env e g u.1 u.2 := by
  simp only [explored_ite]
  exact Measurable.ite (measurable_fst measurableSet_Iio) ((randomAction_measurable env).comp measurable_snd) measurable_const

/-- The probability of each action of the explorer is that of the behaviour. -/
theorem explored_law (hn : 0 < env.nA) (e : ℝ) (h0 : 0 ≤ e) (h1 : e ≤ 1) (g y : ℕ) (hy : y < env.nA) (n : ℕ) :
    draws[ind {ω : ℕ → ℝ | explored env e g (ω n) (ω (n + 1)) = y} | first n] =ᵐ[draws] fun _ => (if g = y then 1 - e else 0) + e / env.nA := by
  let R : Set ℝ := {r | randomAction env r = y}
  have hR : MeasurableSet R := randomAction_measurable env (measurableSet_singleton y)
  let fA : ℝ → ℝ := Set.indicator (Set.Iio e) fun _ => 1
  have hfA : Measurable fA := measurable_const.indicator measurableSet_Iio
  have hbA : ∀ u, |fA u| ≤ 1 := fun u => by simp only [fA, Set.indicator]; split <;> simp
  let X : (ℕ → ℝ) → ℝ := fun ω => Set.indicator R (fun _ => (1 : ℝ)) (ω (n + 1))
  have hXe : X = ind ((fun ω : ℕ → ℝ => ω (n + 1)) ⁻¹' R) := rfl
  have hXi : Integrable X draws := by rw [hXe]; exact ind_integrable draws ((coord_measurable (n + 1)).measurable hR)
  have hX : draws[X | first (n + 1)] =ᵐ[draws] fun _ => 1 / (env.nA : ℝ) := by
    rw [← randomAction_prob env hn y hy]
    exact fresh (n + 1) (Set.indicator R fun _ => (1 : ℝ)) (measurable_const.indicator hR)
  have h2 := fresh_mul n fA hfA 1 hbA X hXi _ hX
  have hAi : Integrable (fun ω : ℕ → ℝ => fA (ω n)) draws := by
    have e' : (fun ω : ℕ → ℝ => fA (ω n)) = ind ((fun ω : ℕ → ℝ => ω n) ⁻¹' Set.Iio e) := rfl
    rw [e']; exact ind_integrable draws ((coord_measurable n).measurable measurableSet_Iio)
  let d : ℝ := if g = y then 1 else 0
  have hsplit : ind {ω : ℕ → ℝ | explored env e g (ω n) (ω (n + 1)) = y} = (fun ω => fA (ω n)) * X + d • ((fun _ => (1 : ℝ)) - fun ω : ℕ → ℝ => fA (ω n)) := by
    funext ω
    simp only [Set.indicator, Set.mem_ofPred_eq, explored_ite, Pi.add_apply, Pi.mul_apply, Pi.smul_apply, Pi.sub_apply, smul_eq_mul, fA, X, R, d, Set.mem_Iio]
    by_cases hu : ω n < e
    · simp [hu]
    · simp [hu]
  have hi1 : Integrable ((fun ω : ℕ → ℝ => fA (ω n)) * X) draws := hXi.bdd_mul (c := 1) hAi.aestronglyMeasurable (Eventually.of_forall fun ω => hbA _)
  have h3 := condExp_add hi1 (((integrable_const (1:ℝ)).sub hAi).smul d) (first n)
  have h4 : draws[d • ((fun _ => (1 : ℝ)) - fun ω : ℕ → ℝ => fA (ω n)) | first n] =ᵐ[draws] d • draws[(fun _ => (1 : ℝ)) - fun ω : ℕ → ℝ => fA (ω n) | first n] := condExp_smul d _ _
  have h5 := condExp_sub (integrable_const (μ := draws) (1:ℝ)) hAi (first n)
  have h6 : draws[fun _ : ℕ → ℝ => (1:ℝ) | first n] = fun _ => 1 := condExp_const (first.le n) _
  rw [hsplit]
  filter_upwards [h2, h3, h4, h5, fresh n fA hfA] with ω g2 g3 g4 g5 g6
  have hA := below_prob e h0 h1
  rw [g3, Pi.add_apply, g2, g4, Pi.smul_apply, g5, Pi.sub_apply, h6, g6]
  simp only [fA, d, smul_eq_mul, hA]
  split <;> ring

/-- The outcome and then the explorer's action, for three numbers that are not known yet. -/
theorem next_law (hn : 0 < env.nA) (he : env.Valid) (e : ℝ) (h0 : 0 ≤ e) (h1 : e ≤ 1) (s : S) (a : ℕ) (ha : a < env.nA) (x g y : ℕ) (hy : y < env.nA) (n : ℕ) :
    draws[ind {ω : ℕ → ℝ | draw (probs env (s, a)) (ω n) = x ∧ explored env e g (ω (n + 1)) (ω (n + 2)) = y} | first n] =ᵐ[draws]
      fun _ => prob env s a x * ((if g = y then 1 - e else 0) + e / env.nA) := by
  have hD : MeasurableSet {u | draw (probs env (s, a)) u = x} := draw_measurable _ (measurableSet_singleton x)
  let f : ℝ → ℝ := Set.indicator {u | draw (probs env (s, a)) u = x} fun _ => 1
  let E : Set (ℕ → ℝ) := {ω : ℕ → ℝ | explored env e g (ω (n + 1)) (ω (n + 1 + 1)) = y}
  have hE : MeasurableSet E := ((explored_measurable env e g).comp (((coord_measurable (n + 1)).measurable).prodMk ((coord_measurable (n + 1 + 1)).measurable))) (measurableSet_singleton y)
  have e1 : ind {ω : ℕ → ℝ | draw (probs env (s, a)) (ω n) = x ∧ explored env e g (ω (n + 1)) (ω (n + 2)) = y} = (fun ω => f (ω n)) * ind E := by
    funext ω
    simp only [Set.indicator, Set.mem_ofPred_eq, Pi.mul_apply, f, E]
    by_cases h : draw (probs env (s, a)) (ω n) = x <;> simp [h]
  have h2 := fresh_mul n f (measurable_const.indicator hD) 1 (fun u => by simp only [f, Set.indicator]; split <;> simp) (ind E) (ind_integrable draws hE) _ (explored_law env hn e h0 h1 g y hy (n + 1))
  rw [e1]
  have hp : ∫ u, f u ∂uniform01 = prob env s a x := by
    simp only [f]
    rw [integral_indicator_const _ hD, smul_eq_mul, mul_one, draw_prob (probs env (s, a)) (fun p hp => by
      obtain ⟨q, hq, rfl⟩ := List.mem_map.1 hp
      exact (he s a ha).1 q hq) (he s a ha).2 x, prob, probs, List.getElem?_map]
  rw [hp] at h2
  exact h2

/-! ## The run -/

variable (gamma : ℝ) (mean : Bool) (start : S) (eps eps' lrs tau : ℕ → ℝ) (Q₀ T₀ : S → List ℝ)

/-- One update of the tables: with the state, the action, the number of the outcome and the next action. -/
noncomputable def srelearn (p : ℕ × (S → List ℝ) × (S → List ℝ)) (z : S × ℕ × ℕ × ℕ) : ℕ × (S → List ℝ) × (S → List ℝ) :=
  let q := nextTable env gamma (lrs p.1) false mean p.2.1 (fun s => [evaluate (p.2.2 s) z.2.2.2]) [visitOf env (z.1, z.2.1, z.2.2.1)] none
  (p.1 + 1, q, fun s => (List.range env.nA).map fun a => CopyParam.soft (tau p.1) (evaluate (p.2.2 s) a) (evaluate (q s) a))

noncomputable def stables (l : List (S × ℕ × ℕ × ℕ)) : ℕ × (S → List ℝ) × (S → List ℝ) := l.foldl (srelearn env gamma mean lrs tau) (0, Q₀, T₀)

noncomputable def sstate (l : List (S × ℕ × ℕ × ℕ)) : S := (l.getLast?.map fun z => after start (visitOf env (z.1, z.2.1, z.2.2.1)).outcome).getD start

noncomputable def sact (l : List (S × ℕ × ℕ × ℕ)) (u r : ℝ) : ℕ := explored env (eps l.length) (greedy ((stables env gamma mean lrs tau Q₀ T₀ l).2.1 (sstate env start l))) u r

/-- The greedy action of the target network in the state after the outcome `x`. -/
noncomputable def sgreedy (l : List (S × ℕ × ℕ × ℕ)) (a x : ℕ) : ℕ := greedy ((stables env gamma mean lrs tau Q₀ T₀ l).2.2 (nextAt env (sstate env start l) a x))

noncomputable def shist : ℕ → (ℕ → ℝ) → List (S × ℕ × ℕ × ℕ)
  | 0, _ => []
  | k + 1, ω =>
    let l := shist k ω
    let a := sact env gamma mean start eps lrs tau Q₀ T₀ l (ω (5 * k)) (ω (5 * k + 1))
    let x := draw (probs env (sstate env start l, a)) (ω (5 * k + 2))
    l ++ [(sstate env start l, a, x, explored env (eps' l.length) (sgreedy env gamma mean start lrs tau Q₀ T₀ l a x) (ω (5 * k + 3)) (ω (5 * k + 4)))]

noncomputable def runS (k : ℕ) (ω : ℕ → ℝ) : S := sstate env start (shist env gamma mean start eps eps' lrs tau Q₀ T₀ k ω)

noncomputable def runA (k : ℕ) (ω : ℕ → ℝ) : ℕ := sact env gamma mean start eps lrs tau Q₀ T₀ (shist env gamma mean start eps eps' lrs tau Q₀ T₀ k ω) (ω (5 * k)) (ω (5 * k + 1))

noncomputable def runJ (k : ℕ) (ω : ℕ → ℝ) : ℕ := draw (probs env (runS env gamma mean start eps eps' lrs tau Q₀ T₀ k ω, runA env gamma mean start eps eps' lrs tau Q₀ T₀ k ω)) (ω (5 * k + 2))

noncomputable def runB (k : ℕ) (ω : ℕ → ℝ) : ℕ :=
  explored env (eps' k) (sgreedy env gamma mean start lrs tau Q₀ T₀ (shist env gamma mean start eps eps' lrs tau Q₀ T₀ k ω) (runA env gamma mean start eps eps' lrs tau Q₀ T₀ k ω)
    (runJ env gamma mean start eps eps' lrs tau Q₀ T₀ k ω)) (ω (5 * k + 3)) (ω (5 * k + 4))

noncomputable def runV (k : ℕ) (ω : ℕ → ℝ) : Visit S :=
  visitOf env (runS env gamma mean start eps eps' lrs tau Q₀ T₀ k ω, runA env gamma mean start eps eps' lrs tau Q₀ T₀ k ω, runJ env gamma mean start eps eps' lrs tau Q₀ T₀ k ω)

theorem shist_length (k : ℕ) (ω : ℕ → ℝ) : (shist env gamma mean start eps eps' lrs tau Q₀ T₀ k ω).length = k := by
  induction k with
  | zero => rfl
  | succ k ih => simp [shist, ih]

theorem shist_succ (k : ℕ) (ω : ℕ → ℝ) : shist env gamma mean start eps eps' lrs tau Q₀ T₀ (k + 1) ω = shist env gamma mean start eps eps' lrs tau Q₀ T₀ k ω ++
    [(runS env gamma mean start eps eps' lrs tau Q₀ T₀ k ω, runA env gamma mean start eps eps' lrs tau Q₀ T₀ k ω, runJ env gamma mean start eps eps' lrs tau Q₀ T₀ k ω,
      runB env gamma mean start eps eps' lrs tau Q₀ T₀ k ω)] := by
  have h := shist_length env gamma mean start eps eps' lrs tau Q₀ T₀ k ω
  simp only [runB]
  conv_rhs => rw [show eps' k = eps' (shist env gamma mean start eps eps' lrs tau Q₀ T₀ k ω).length by rw [h]]
  rfl

theorem stables_length (hQ : ∀ s, (Q₀ s).length = env.nA) (hT : ∀ s, (T₀ s).length = env.nA) (l : List (S × ℕ × ℕ × ℕ)) (s : S) :
    ((stables env gamma mean lrs tau Q₀ T₀ l).2.1 s).length = env.nA ∧ ((stables env gamma mean lrs tau Q₀ T₀ l).2.2 s).length = env.nA := by
  rcases List.eq_nil_or_concat l with h | ⟨l', y, h⟩
  · rw [h]; exact ⟨hQ s, hT s⟩
  · rw [h, stables, List.concat_eq_append, List.foldl_append]
    simp [srelearn, nextTable]

theorem greedy_lt' (hn : 0 < env.nA) (q : List ℝ) (hq : q.length = env.nA) : greedy q < env.nA := by
  obtain ⟨u, hu, -⟩ := C64_greedy q (by intro h'; rw [h'] at hq; simp at hq; omega)
  have := (List.getElem?_eq_some_iff.1 hu).1
  rwa [hq] at this

theorem explored_lt (hn : 0 < env.nA) (e : ℝ) (g : ℕ) (hg : g < env.nA) (u r : ℝ) : explored env e g u r < env.nA := by
  rw [explored_ite]
  split
  · exact randomAction_lt env hn r
  · exact hg

/-- What is known before the step `k`, with five numbers for each step. -/
noncomputable def before5 : Filtration ℕ (MeasurableSpace.pi : MeasurableSpace (ℕ → ℝ)) where
  seq k := first (5 * k)
  mono' a b h := first.mono (by omega)
  le' k := first.le _

/-- What is known before the outcome of the step `k`. -/
noncomputable def past5 : Filtration ℕ (MeasurableSpace.pi : MeasurableSpace (ℕ → ℝ)) where
  seq k := first (5 * k + 2)
  mono' a b h := first.mono (by omega)
  le' k := first.le _

theorem before5_le_past5 (k : ℕ) : before5 k ≤ past5 k := first.mono (show 5 * k ≤ 5 * k + 2 by omega)

theorem past5_le_before5 (k : ℕ) : past5 k ≤ before5 (k + 1) := first.mono (show 5 * k + 2 ≤ 5 * (k + 1) by omega)

section Known
variable [Finite S]

local notation "H" => shist env gamma mean start eps eps' lrs tau Q₀ T₀
local notation "rS" => runS env gamma mean start eps eps' lrs tau Q₀ T₀
local notation "rA" => runA env gamma mean start eps eps' lrs tau Q₀ T₀
local notation "rJ" => runJ env gamma mean start eps eps' lrs tau Q₀ T₀
local notation "rB" => runB env gamma mean start eps eps' lrs tau Q₀ T₀

theorem act_known (k : ℕ) (hh : ∀ l, MeasurableSet[before5 k] {ω | H k ω = l}) (a : ℕ) : MeasurableSet[past5 k] {ω | rA k ω = a} := by
  have e : {ω | rA k ω = a} = ⋃ l, {ω | H k ω = l} ∩ (fun ω : ℕ → ℝ => (ω (5 * k), ω (5 * k + 1))) ⁻¹' {u : ℝ × ℝ | sact env gamma mean start eps lrs tau Q₀ T₀ l u.1 u.2 = a} := by
    ext ω; simp [runA]
  rw [e]
  exact MeasurableSet.iUnion fun l => (before5_le_past5 k _ (hh l)).inter (((coord_first (5 * k) (5 * k + 2) (by omega)).prodMk (coord_first (5 * k + 1) (5 * k + 2) (by omega)))
    (explored_measurable env _ _ (measurableSet_singleton a)))

theorem state_known (k : ℕ) (hh : ∀ l, MeasurableSet[before5 k] {ω | H k ω = l}) (x : S) : MeasurableSet[before5 k] {ω | rS k ω = x} := by
  have e : {ω | rS k ω = x} = ⋃ l, {ω | sstate env start l = x} ∩ {ω | H k ω = l} := by
    ext ω
    simp only [Set.mem_ofPred_eq, Set.mem_iUnion, Set.mem_inter_iff, runS]
    exact ⟨fun h => ⟨_, h, rfl⟩, fun ⟨l, h1, h2⟩ => by rw [h2]; exact h1⟩
  rw [e]
  exact MeasurableSet.iUnion fun l => (@MeasurableSet.const _ (before5 k) _).inter (hh l)

theorem outcome_known (k : ℕ) (hh : ∀ l, MeasurableSet[before5 k] {ω | H k ω = l}) (x : ℕ) : MeasurableSet[before5 (k + 1)] {ω | rJ k ω = x} := by
  have e : {ω | rJ k ω = x} = ⋃ z : S × ℕ, ({ω | rS k ω = z.1} ∩ {ω | rA k ω = z.2}) ∩ (fun ω : ℕ → ℝ => ω (5 * k + 2)) ⁻¹' (draw (probs env z) ⁻¹' {x}) := by
    ext ω
    simp only [Set.mem_ofPred_eq, Set.mem_iUnion, Set.mem_inter_iff, Set.mem_preimage, Set.mem_singleton_iff, runJ]
    exact ⟨fun h => ⟨(rS k ω, rA k ω), ⟨rfl, rfl⟩, h⟩, fun ⟨z, ⟨h1, h2⟩, h3⟩ => by rw [h1, h2]; exact h3⟩
  rw [e]
  exact MeasurableSet.iUnion fun z => ((before5.mono (Nat.le_succ k) _ (state_known env gamma mean start eps eps' lrs tau Q₀ T₀ k hh _)).inter
    (past5_le_before5 k _ (act_known env gamma mean start eps eps' lrs tau Q₀ T₀ k hh _))).inter (coord_first _ (5 * (k + 1)) (by omega) (draw_measurable _ (measurableSet_singleton x)))

theorem next_known (k : ℕ) (hh : ∀ l, MeasurableSet[before5 k] {ω | H k ω = l}) (y : ℕ) : MeasurableSet[before5 (k + 1)] {ω | rB k ω = y} := by
  have e : {ω | rB k ω = y} = ⋃ z : List (S × ℕ × ℕ × ℕ) × ℕ × ℕ, ({ω | H k ω = z.1} ∩ ({ω | rA k ω = z.2.1} ∩ {ω | rJ k ω = z.2.2})) ∩
      (fun ω : ℕ → ℝ => (ω (5 * k + 3), ω (5 * k + 4))) ⁻¹' {u : ℝ × ℝ | explored env (eps' k) (sgreedy env gamma mean start lrs tau Q₀ T₀ z.1 z.2.1 z.2.2) u.1 u.2 = y} := by
    ext ω
    simp only [Set.mem_ofPred_eq, Set.mem_iUnion, Set.mem_inter_iff, Set.mem_preimage, runB]
    exact ⟨fun h => ⟨(H k ω, rA k ω, rJ k ω), ⟨rfl, rfl, rfl⟩, h⟩, fun ⟨z, ⟨h1, h2, h3⟩, h4⟩ => by rw [h1, h2, h3]; exact h4⟩
  rw [e]
  exact MeasurableSet.iUnion fun z => ((before5.mono (Nat.le_succ k) _ (hh _)).inter ((past5_le_before5 k _ (act_known env gamma mean start eps eps' lrs tau Q₀ T₀ k hh _)).inter
    (outcome_known env gamma mean start eps eps' lrs tau Q₀ T₀ k hh _))).inter
    (((coord_first (5 * k + 3) (5 * (k + 1)) (by omega)).prodMk (coord_first (5 * k + 4) (5 * (k + 1)) (by omega))) (explored_measurable env _ _ (measurableSet_singleton y)))

theorem hist_known (k : ℕ) : ∀ l, MeasurableSet[before5 k] {ω | H k ω = l} := by
  induction k with
  | zero => intro l; simp only [shist]; exact @MeasurableSet.const _ (before5 0) _
  | succ k ih =>
    intro l
    have e : {ω | H (k + 1) ω = l} = ⋃ y : List (S × ℕ × ℕ × ℕ) × S × ℕ × ℕ × ℕ, {ω | y.1 ++ [y.2] = l} ∩ ({ω | H k ω = y.1} ∩ ({ω | rS k ω = y.2.1} ∩
        ({ω | rA k ω = y.2.2.1} ∩ ({ω | rJ k ω = y.2.2.2.1} ∩ {ω | rB k ω = y.2.2.2.2})))) := by
      ext ω
      simp only [Set.mem_ofPred_eq, Set.mem_iUnion, Set.mem_inter_iff, shist_succ]
      constructor
      · intro h; exact ⟨(H k ω, rS k ω, rA k ω, rJ k ω, rB k ω), h, rfl, rfl, rfl, rfl, rfl⟩
      · rintro ⟨y, h1, h2, h3, h4, h5, h6⟩
        rw [h2, h3, h4, h5, h6]; exact h1
    rw [e]
    exact MeasurableSet.iUnion fun y => (@MeasurableSet.const _ (before5 (k + 1)) _).inter ((before5.mono (Nat.le_succ k) _ (ih _)).inter
      ((before5.mono (Nat.le_succ k) _ (state_known env gamma mean start eps eps' lrs tau Q₀ T₀ k ih _)).inter
      ((past5_le_before5 k _ (act_known env gamma mean start eps eps' lrs tau Q₀ T₀ k ih _)).inter
      ((outcome_known env gamma mean start eps eps' lrs tau Q₀ T₀ k ih _).inter (next_known env gamma mean start eps eps' lrs tau Q₀ T₀ k ih _)))))

/-- The law of the outcome together with the next action. -/
theorem joint_law (hn : 0 < env.nA) (he : env.Valid) (hQ : ∀ s, (Q₀ s).length = env.nA) (hT : ∀ s, (T₀ s).length = env.nA) (heps' : ∀ k, 0 ≤ eps' k ∧ eps' k ≤ 1) (k x y : ℕ) (hy : y < env.nA) :
    draws[ind {ω | rJ k ω = x ∧ rB k ω = y} | past5 k] =ᵐ[draws] fun ω => prob env (rS k ω) (rA k ω) x *
      ((if sgreedy env gamma mean start lrs tau Q₀ T₀ (H k ω) (rA k ω) x = y then 1 - eps' k else 0) + eps' k / env.nA) := by
  classical
  have := Fintype.ofFinite S
  have hh := hist_known env gamma mean start eps eps' lrs tau Q₀ T₀
  have hlen := stables_length env gamma mean lrs tau Q₀ T₀ hQ hT
  let G : (ℕ → ℝ) → ℕ := fun ω => sgreedy env gamma mean start lrs tau Q₀ T₀ (H k ω) (rA k ω) x
  have hG : ∀ ω, G ω < env.nA := fun ω => greedy_lt' env hn _ (hlen _ _).2
  have hA : ∀ ω, rA k ω < env.nA := fun ω => explored_lt env hn _ _ (greedy_lt' env hn _ (hlen _ _).1) _ _
  let D : (ℕ → ℝ) → S × Fin env.nA × Fin env.nA := fun ω => (rS k ω, ⟨rA k ω, hA ω⟩, ⟨G ω, hG ω⟩)
  have hD : ∀ d, MeasurableSet[past5 k] {ω | D ω = d} := by
    intro d
    have e : {ω | D ω = d} = ⋃ l, ({ω | (sstate env start l = d.1 ∧ sgreedy env gamma mean start lrs tau Q₀ T₀ l d.2.1 x = d.2.2)} ∩ {ω | H k ω = l}) ∩ {ω | rA k ω = d.2.1} := by
      ext ω
      simp only [Set.mem_ofPred_eq, Set.mem_iUnion, Set.mem_inter_iff, D, Prod.ext_iff, Fin.ext_iff, G]
      constructor
      · rintro ⟨h1, h2, h3⟩
        exact ⟨H k ω, ⟨⟨h1, by rw [← h2]; exact h3⟩, rfl⟩, h2⟩
      · rintro ⟨l, ⟨⟨h1, h2⟩, h3⟩, h4⟩
        exact ⟨by rw [runS, h3]; exact h1, h4, by rw [h3, h4]; exact h2⟩
    rw [e]
    exact MeasurableSet.iUnion fun l => ((@MeasurableSet.const _ (past5 k) _).inter (before5_le_past5 k _ (hh k l))).inter (act_known env gamma mean start eps eps' lrs tau Q₀ T₀ k (hh k) _)
  let N : S × Fin env.nA × Fin env.nA → Set (ℕ → ℝ) := fun d =>
    {ω | draw (probs env (d.1, d.2.1)) (ω (5 * k + 2)) = x ∧ explored env (eps' k) d.2.2 (ω (5 * k + 2 + 1)) (ω (5 * k + 2 + 2)) = y}
  have hN : ∀ d, MeasurableSet (N d) := fun d => ((draw_measurable _).comp (coord_measurable (5 * k + 2)).measurable (measurableSet_singleton x)).inter
    (((explored_measurable env (eps' k) d.2.2).comp (((coord_measurable (5 * k + 2 + 1)).measurable).prodMk ((coord_measurable (5 * k + 2 + 2)).measurable))) (measurableSet_singleton y))
  have hsum : ∀ (f : S × Fin env.nA × Fin env.nA → ℝ) ω, ∑ d, ind {ω | D ω = d} ω * f d = f (D ω) := by
    intro f ω
    rw [Finset.sum_eq_single (D ω)]
    · simp
    · intro d _ hd
      have : ind {ω | D ω = d} ω = 0 := Set.indicator_of_notMem (show ω ∉ {ω | D ω = d} from fun h => hd (Eq.symm h)) _
      rw [this, zero_mul]
    · simp
  have e : ind {ω | rJ k ω = x ∧ rB k ω = y} = ∑ d, ind ({ω | D ω = d} ∩ N d) := by
    funext ω
    rw [Finset.sum_apply, Finset.sum_congr rfl fun d _ => congrFun (QLearning.ind_inter _ _) ω]
    simp only [Pi.mul_apply]
    rw [hsum (fun d => ind (N d) ω)]
    have : ω ∈ {ω | rJ k ω = x ∧ rB k ω = y} ↔ ω ∈ N (D ω) := by
      simp only [Set.mem_ofPred_eq, N, D]
      constructor
      · rintro ⟨h1, h2⟩
        refine ⟨h1, ?_⟩
        rw [← h2, runB, h1]
      · rintro ⟨h1, h2⟩
        have h1 : rJ k ω = x := h1
        refine ⟨h1, ?_⟩
        rw [runB, h1]; exact h2
    by_cases hm : ω ∈ N (D ω)
    · exact (Set.indicator_of_mem (this.2 hm) _).trans (Set.indicator_of_mem hm fun _ => (1 : ℝ)).symm
    · exact (Set.indicator_of_notMem (fun h' => hm (this.1 h')) _).trans (Set.indicator_of_notMem hm fun _ => (1 : ℝ)).symm
  rw [e]
  refine (condExp_finsetSum (fun d _ => ind_integrable draws ((past5.le k _ (hD d)).inter (hN d))) (past5 k)).trans ?_
  have h1 : ∀ᵐ ω ∂draws, ∀ d, (draws[ind ({ω | D ω = d} ∩ N d) | past5 k]) ω = ind {ω | D ω = d} ω *
      (prob env d.1 d.2.1 x * ((if (d.2.2 : ℕ) = y then 1 - eps' k else 0) + eps' k / env.nA)) := ae_all_iff.2 fun d => by
    filter_upwards [condExp_ind_inter draws (past5.le k) (hD d) (hN d), next_law env hn he (eps' k) (heps' k).1 (heps' k).2 d.1 d.2.1 d.2.1.2 x d.2.2 y hy (5 * k + 2)] with ω g1 g2
    rw [g1, Pi.mul_apply]
    congr 1
  filter_upwards [h1] with ω hω
  rw [Finset.sum_apply, Finset.sum_congr rfl fun d _ => hω d, hsum]

/-- The outcome alone. -/
theorem outcome_law (hn : 0 < env.nA) (he : env.Valid) (hQ : ∀ s, (Q₀ s).length = env.nA) (hT : ∀ s, (T₀ s).length = env.nA) (heps' : ∀ k, 0 ≤ eps' k ∧ eps' k ≤ 1) (k x : ℕ) :
    draws[ind {ω | rJ k ω = x} | past5 k] =ᵐ[draws] fun ω => prob env (rS k ω) (rA k ω) x := by
  have hnA : (env.nA : ℝ) ≠ 0 := by positivity
  have hh := hist_known env gamma mean start eps eps' lrs tau Q₀ T₀
  have hlen := stables_length env gamma mean lrs tau Q₀ T₀ hQ hT
  have hB : ∀ ω, rB k ω < env.nA := fun ω => explored_lt env hn _ _ (greedy_lt' env hn _ (hlen _ _).2) _ _
  have e : ind {ω | rJ k ω = x} = ∑ y ∈ Finset.range env.nA, ind {ω | rJ k ω = x ∧ rB k ω = y} := by
    funext ω
    rw [Finset.sum_apply, Finset.sum_eq_single (rB k ω)]
    · simp [Set.indicator]
    · intro y _ hy
      exact Set.indicator_of_notMem (M := ℝ) (s := {ω | rJ k ω = x ∧ rB k ω = y}) (fun h => hy h.2.symm) _
    · intro h; exact absurd (Finset.mem_range.2 (hB ω)) h
  rw [e]
  refine (condExp_finsetSum (f := fun y => ind {ω | rJ k ω = x ∧ rB k ω = y}) (fun y _ => ind_integrable draws ((before5.le _ _ (outcome_known env gamma mean start eps eps' lrs tau Q₀ T₀ k (hh k) x)).inter
    (before5.le _ _ (next_known env gamma mean start eps eps' lrs tau Q₀ T₀ k (hh k) y)))) (past5 k)).trans ?_
  have h1 := (eventually_all_finset (l := ae draws) (Finset.range env.nA)).2 fun y hy => joint_law env gamma mean start eps eps' lrs tau Q₀ T₀ hn he hQ hT heps' k x y (Finset.mem_range.1 hy)
  filter_upwards [h1] with ω hω
  rw [Finset.sum_apply, Finset.sum_congr rfl fun y hy => hω y hy, ← Finset.mul_sum, Finset.sum_add_distrib, Finset.sum_ite_eq, if_pos (Finset.mem_range.2 (show sgreedy env gamma mean start lrs tau Q₀ T₀ (H k ω) (rA k ω) x < env.nA from greedy_lt' env hn _ (hlen _ _).2))]
  simp only [Finset.sum_const, Finset.card_range, nsmul_eq_mul]
  field_simp
  ring

/-- Every action is tried. -/
theorem often (hn : 0 < env.nA) (p : ℝ) (hp : 0 < p) (heps : ∀ k, p ≤ eps k ∧ eps k ≤ 1) (k a : ℕ) (ha : a < env.nA) :
    (fun _ => 1 / (env.nA : ℝ) * p) ≤ᵐ[draws] draws[ind {ω | rA k ω = a} | before5 k] := by
  have hh := hist_known env gamma mean start eps eps' lrs tau Q₀ T₀
  let A : Set (ℕ → ℝ) := {ω | ω (5 * k) < eps k}
  let R : Set (ℕ → ℝ) := {ω | randomAction env (ω (5 * k + 1)) = a}
  have hRm : MeasurableSet {r | randomAction env r = a} := randomAction_measurable env (measurableSet_singleton a)
  have hA : MeasurableSet A := (coord_measurable (5 * k)).measurable measurableSet_Iio
  have hR : MeasurableSet R := (coord_measurable (5 * k + 1)).measurable hRm
  have hsub : A ∩ R ⊆ {ω | rA k ω = a} := by
    rintro ω ⟨h1, h2⟩
    have h1 : ω (5 * k) < eps k := h1
    show runA env gamma mean start eps eps' lrs tau Q₀ T₀ k ω = a
    rw [runA, sact, explored_ite, shist_length, if_pos h1]
    exact h2
  have h1 : draws[ind (A ∩ R) | before5 k] ≤ᵐ[draws] draws[ind {ω | rA k ω = a} | before5 k] :=
    condExp_mono (ind_integrable draws (hA.inter hR)) (ind_integrable draws (past5.le _ _ (act_known env gamma mean start eps eps' lrs tau Q₀ T₀ k (hh k) a))) (Eventually.of_forall fun ω => ind_mono hsub ω)
  have hf : draws[ind R | first (5 * k + 1)] =ᵐ[draws] fun _ => 1 / (env.nA : ℝ) := by
    rw [← randomAction_prob env hn a ha]
    exact fresh (5 * k + 1) (Set.indicator {r | randomAction env r = a} fun _ => (1 : ℝ)) (measurable_const.indicator hRm)
  have h2 := fresh_mul (5 * k) (Set.indicator (Set.Iio (eps k)) fun _ => (1 : ℝ)) (measurable_const.indicator measurableSet_Iio) 1 (fun u => by simp only [Set.indicator]; split <;> simp)
    (ind R) (ind_integrable draws hR) _ hf
  have e : ind (A ∩ R) = (fun ω => Set.indicator (Set.Iio (eps k)) (fun _ => (1 : ℝ)) (ω (5 * k))) * ind R := QLearning.ind_inter A R
  rw [below_prob _ (hp.le.trans (heps k).1) (heps k).2, ← e] at h2
  filter_upwards [h1, h2] with ω g1 g2
  have g2 : (draws[ind (A ∩ R) | before5 k]) ω = eps k * (1 / env.nA) := g2
  rw [g2] at g1
  refine le_trans ?_ g1
  rw [mul_comm]
  exact mul_le_mul_of_nonneg_right (heps k).1 (by positivity)

end Known

/-- **C165**: the SARSA agent with an epsilon-greedy explorer.  For every finite process in which each state can be reached from each other, there are runs in which the agent walks through the process with
the actions of `select_action_epsilon_greedily` for the table that is being learned, and the same function, for the target network, selects the next actions of its targets.  The epsilons for acting stay
above a positive bound, those for the targets become `ε` (with one explorer they are the same numbers, one or more steps apart).  Almost surely the values converge to those of the epsilon-greedy
behaviour, the best among the policies that explore as much. -/
theorem C165_epsilon_greedy [Finite S] (he : env.Valid) (hn : 0 < env.nA) (hg : 0 ≤ gamma) (hg1 : gamma < 1)
    (hr : ∀ s t, Reach env start s t) (p : ℝ) (hp : 0 < p) (heps : ∀ k, p ≤ eps k ∧ eps k ≤ 1) (heps' : ∀ k, 0 ≤ eps' k ∧ eps' k ≤ 1) (ε : ℝ) (hε : ∀ᶠ k in atTop, eps' k = ε)
    (hlr : ∀ k, 0 ≤ lrs k ∧ lrs k ≤ 1) (hdec : Antitone lrs) (hsum : Tendsto (fun m => ∑ k ∈ Finset.range m, lrs k) atTop atTop) (C : ℝ)
    (hC : ∀ m, ∑ k ∈ Finset.range m, lrs k ^ 2 ≤ C) (htau : ∀ k, 0 ≤ tau k ∧ tau k ≤ 1) (htau' : Tendsto (fun m => ∑ k ∈ Finset.range m, tau k) atTop atTop)
    (hQ : ∀ s, (Q₀ s).length = env.nA) (hT : ∀ s, (T₀ s).length = env.nA) :
    ∃ (v : ℕ → (ℕ → ℝ) → Visit S) (j b : ℕ → (ℕ → ℝ) → ℕ) (Q T : (ℕ → ℝ) → ℕ → S → List ℝ),
      (∀ ω, Q ω 0 = Q₀ ∧ T ω 0 = T₀) ∧ (∀ ω, Walks start fun k => v k ω) ∧
      (∀ k ω, (v k ω).action = (EpsGreedy.select (eps k) (ω (5 * k)) (randomAction env (ω (5 * k + 1))) (greedy (Q ω k (v k ω).state))).1) ∧
      (∀ k ω, b k ω = (EpsGreedy.select (eps' k) (ω (5 * k + 3)) (randomAction env (ω (5 * k + 4))) (greedy (T ω k (v k ω).outcome.next))).1) ∧
      Samples env draws past5 v j (fun k _ => lrs k) ∧ NextActions env draws past5 T v j b eps' ∧
      (∀ ω, LearnsSarsa env gamma mean (Q ω) (T ω) (fun k => v k ω) (fun k => b k ω) lrs tau) ∧
      ∃ B Qs, Table env B Qs ∧ SarsaFits env gamma ε Qs Qs ∧
        (∀ n h s, |ret env gamma (fun _ => behaviour env ε Qs) n h s - expect (behaviour env ε Qs s) (evaluate (Qs s))| ≤ gamma ^ n * B) ∧
        (∀ π : Policy S ℝ, π.Valid env → Explores env ε π → ∀ n h s, ret env gamma π n h s ≤ expect (behaviour env ε Qs s) (evaluate (Qs s)) + gamma ^ n * B) ∧
        ∀ᵐ ω ∂draws, ∀ s, (∀ a, a < env.nA → Tendsto (fun k => evaluate (Q ω k s) a) atTop (𝓝 (evaluate (Qs s) a))) ∧
          ∀ᶠ k in atTop, evaluate (Qs s) (greedy (Q ω k s)) = maxQ (Qs s) := by
  let H := shist env gamma mean start eps eps' lrs tau Q₀ T₀
  let rS := runS env gamma mean start eps eps' lrs tau Q₀ T₀
  let rA := runA env gamma mean start eps eps' lrs tau Q₀ T₀
  let j := runJ env gamma mean start eps eps' lrs tau Q₀ T₀
  let b := runB env gamma mean start eps eps' lrs tau Q₀ T₀
  let v := runV env gamma mean start eps eps' lrs tau Q₀ T₀
  let tab := stables env gamma mean lrs tau Q₀ T₀
  let Q : (ℕ → ℝ) → ℕ → S → List ℝ := fun ω k => (tab (H k ω)).2.1
  let T : (ℕ → ℝ) → ℕ → S → List ℝ := fun ω k => (tab (H k ω)).2.2
  have hlen := stables_length env gamma mean lrs tau Q₀ T₀ hQ hT
  have hh := hist_known env gamma mean start eps eps' lrs tau Q₀ T₀
  have hHl := shist_length env gamma mean start eps eps' lrs tau Q₀ T₀
  have hA : ∀ k ω, rA k ω < env.nA := fun k ω => explored_lt env hn _ _ (greedy_lt' env hn _ (hlen _ _).1) _ _
  have hj : ∀ k ω, j k ω < (env.outcomes (rS k ω) (rA k ω)).length := fun k ω => by
    have := draw_lt (probs env (rS k ω, rA k ω)) (ω (5 * k + 2)) (fun h0 => by
      have := (he (rS k ω) (rA k ω) (hA k ω)).2
      rw [show (env.outcomes (rS k ω) (rA k ω)).map Prod.fst = [] from h0] at this
      simp at this)
    simpa [probs, j, runJ] using this
  have hout : ∀ k ω, (env.outcomes (rS k ω) (rA k ω))[j k ω]? = some ((env.outcomes (rS k ω) (rA k ω))[j k ω]'(hj k ω)) := fun k ω => List.getElem?_eq_getElem (hj k ω)
  have hvo : ∀ k ω, (v k ω).outcome = ((env.outcomes (rS k ω) (rA k ω))[j k ω]'(hj k ω)).2 := fun k ω => by
    show (((env.outcomes (rS k ω) (rA k ω))[j k ω]?).map Prod.snd).getD _ = _
    rw [hout]; rfl
  have hnext : ∀ k ω, nextAt env (rS k ω) (rA k ω) (j k ω) = (v k ω).outcome.next := fun k ω => by
    rw [hvo, nextAt, hout]; rfl
  have hstep : ∀ k ω, tab (H (k + 1) ω) = srelearn env gamma mean lrs tau (tab (H k ω)) (rS k ω, rA k ω, j k ω, b k ω) := fun k ω => by
    show stables env gamma mean lrs tau Q₀ T₀ (shist env gamma mean start eps eps' lrs tau Q₀ T₀ (k + 1) ω) = _
    rw [shist_succ, stables, List.foldl_append]; rfl
  have hcount : ∀ k ω, (tab (H k ω)).1 = k := by
    intro k ω
    induction k with
    | zero => rfl
    | succ k ih => rw [hstep]; simp [srelearn, ih]
  have hw : ∀ ω, Walks start fun k => v k ω := fun ω => ⟨rfl, fun k => by
    show sstate env start (shist env gamma mean start eps eps' lrs tau Q₀ T₀ (k + 1) ω) = _
    rw [shist_succ, sstate]
    simp only [List.getLast?_append, List.getLast?_singleton, Option.some_or, Option.map_some, Option.getD_some]
    rfl⟩
  have hact : ∀ k ω, (v k ω).action = (EpsGreedy.select (eps k) (ω (5 * k)) (randomAction env (ω (5 * k + 1))) (greedy (Q ω k (v k ω).state))).1 := fun k ω => by
    show runA env gamma mean start eps eps' lrs tau Q₀ T₀ k ω = _
    rw [runA, sact, hHl]; rfl
  have hbe : ∀ k ω, b k ω = (EpsGreedy.select (eps' k) (ω (5 * k + 3)) (randomAction env (ω (5 * k + 4))) (greedy (T ω k (v k ω).outcome.next))).1 := fun k ω => by
    rw [← hnext]; rfl
  have hs : Samples env draws past5 v j (fun k _ => lrs k) :=
    ⟨fun k x => before5_le_past5 k _ (state_known env gamma mean start eps eps' lrs tau Q₀ T₀ k (hh k) x), fun k x => act_known env gamma mean start eps eps' lrs tau Q₀ T₀ k (hh k) x,
      fun k => @measurable_const _ _ _ (past5 k) _, hA, fun k ω => ⟨((env.outcomes (rS k ω) (rA k ω))[j k ω]'(hj k ω)).1, by
        rw [hvo]; exact hout k ω⟩,
      fun k x => before5_le_past5 (k + 1) _ (outcome_known env gamma mean start eps eps' lrs tau Q₀ T₀ k (hh k) x),
      fun k x => outcome_law env gamma mean start eps eps' lrs tau Q₀ T₀ hn he hQ hT heps' k x⟩
  have hb : NextActions env draws past5 T v j b eps' :=
    ⟨fun k ω => explored_lt env hn _ _ (greedy_lt' env hn _ (hlen _ _).2) _ _,
      fun k y => before5_le_past5 (k + 1) _ (next_known env gamma mean start eps eps' lrs tau Q₀ T₀ k (hh k) y), fun k x y hy => by
        filter_upwards [joint_law env gamma mean start eps eps' lrs tau Q₀ T₀ hn he hQ hT heps' k x y hy] with ω hω
        rw [probOf_behaviour env _ _ _ y hy]
        exact hω⟩
  have hl : ∀ ω, LearnsSarsa env gamma mean (Q ω) (T ω) (fun k => v k ω) (fun k => b k ω) lrs tau := fun ω => by
    refine ⟨fun k s => hlen _ s, fun k => ?_, hlr, htau, fun k s a ha => ?_⟩
    · simp only [loss_reduces]
      refine (descends_iff env gamma (lrs k) false mean _ _ _ (fun s => (hlen _ s).1) [v k ω] (by simp) none (by simp)).2 fun s a ha => ?_
      show evaluate ((tab (H (k + 1) ω)).2.1 s) a = _
      rw [hstep, srelearn, hcount]
      simp only [nextTable]
      rw [evaluate_map_range _ _ _ ha]
      rfl
    · show evaluate ((tab (H (k + 1) ω)).2.2 s) a = CopyParam.soft (tau k) (evaluate ((tab (H k ω)).2.2 s) a) (evaluate ((tab (H (k + 1) ω)).2.1 s) a)
      rw [hstep, srelearn, hcount]
      simp only
      rw [evaluate_map_range _ _ _ ha]
  have ht : Tries env draws before5 past5 v j (1 / env.nA * p) :=
    ⟨before5_le_past5, past5_le_before5, fun k x => state_known env gamma mean start eps eps' lrs tau Q₀ T₀ k (hh k) x,
      fun k x => outcome_known env gamma mean start eps eps' lrs tau Q₀ T₀ k (hh k) x, fun k a ha => often env gamma mean start eps eps' lrs tau Q₀ T₀ hn p hp heps k a ha⟩
  have h0 : ∀ ω, Q ω 0 = Q₀ ∧ T ω 0 = T₀ := fun ω => ⟨rfl, rfl⟩
  have hnA : (0:ℝ) < env.nA := by exact_mod_cast hn
  exact ⟨v, j, b, Q, T, h0, hw, hact, hbe, hs, hb, hl, C165_walk he hn hg hg1 hl hs hb heps' ε hε Q₀ T₀ h0 hdec hsum C hC htau' start hw _ (by positivity) ht hr⟩

/-! ## A case -/

/-- The hypotheses of `C165_epsilon_greedy`, `C165_walk` and `C165_converges` are met: in the two rooms with doors that are stuck half of the time, an agent whose epsilon falls from 1 to 1/10 during the
first ten updates, with arbitrary initial values and learning rates 1, 1/2, 1/3, …, almost surely learns to try the second door.  The value becomes 191/211, not the optimal 10/11: the random actions of the
explorer count. -/
example (q₀ : Bool → List ℝ) (hq : ∀ s, (q₀ s).length = 2) : ∃ (v : ℕ → (ℕ → ℝ) → Visit Bool) (b : ℕ → (ℕ → ℝ) → ℕ) (Q T : (ℕ → ℝ) → ℕ → Bool → List ℝ), (∀ ω, Q ω 0 = q₀) ∧
    (∀ ω, Walks false fun k => v k ω) ∧
    (∀ ω, LearnsSarsa QLearning.stuck (9 / 10) true (Q ω) (T ω) (fun k => v k ω) (fun k => b k ω) (fun k => 1 / (k + 1)) fun _ => 1) ∧
    ∀ᵐ ω ∂draws, Tendsto (fun k => evaluate (Q ω k true) 1) atTop (𝓝 (191 / 211)) ∧ ∀ᶠ k in atTop, greedy (Q ω k true) = 1 := by
  obtain ⟨v, j, b, Q, T, h0, hw, -, -, -, -, hl, B, Qs, h1, h2, -, -, h4⟩ := C165_epsilon_greedy QLearning.stuck (9 / 10) true false (fun k => if k < 10 then 1 else 1 / 10)
    (fun k => if k < 10 then 1 else 1 / 10) (fun k => 1 / ((k : ℝ) + 1)) (fun _ => 1) q₀ q₀ QLearning.stuck_valid (by simp [QLearning.stuck]) (by norm_num) (by norm_num) QLearning.stuck_reach
    (1 / 10) (by norm_num) (fun k => by split <;> norm_num) (fun k => by split <;> norm_num) (1 / 10)
    (eventually_atTop.2 ⟨10, fun k hk => if_neg (by omega)⟩) (fun k => ⟨by positivity, by
      rw [div_le_one (by positivity)]
      have : (0 : ℝ) ≤ k := by positivity
      linarith⟩) (fun a b hab => by
      have : (a : ℝ) ≤ b := by exact_mod_cast hab
      exact one_div_le_one_div_of_le (by positivity) (by linarith)) QLearning.rates_diverge 2 QLearning.rates_square (fun _ => by norm_num) (by simpa using tendsto_natCast_atTop_atTop) hq hq
  refine ⟨v, b, Q, T, fun ω => (h0 ω).1, hw, hl, ?_⟩
  have hlen : ∀ s, (Qs s).length = 2 := fun s => (h1.2 s).1
  have hb := (fits_iff QLearning.stuck (9 / 10) (1 / 10) (by norm_num) (by norm_num) (by simp [QLearning.stuck]) Qs Qs hlen).1 h2
  have hm : IsMaxOf (maxQ (Qs true)) (Qs true) := C64_max (Qs true) (by intro h'; have := hlen true; rw [h'] at this; simp at this)
  have hmx : ∀ a, a < 2 → evaluate (Qs true) a ≤ maxQ (Qs true) := fun a ha => by
    refine hm.2 _ ?_
    simp [evaluate, hlen, ha]
  have hor : maxQ (Qs true) = evaluate (Qs true) 0 ∨ maxQ (Qs true) = evaluate (Qs true) 1 := by
    obtain ⟨i, hi, e⟩ := List.getElem_of_mem hm.1
    have hi2 := hi
    rw [hlen] at hi2
    have : i = 0 ∨ i = 1 := by omega
    rcases this with rfl | rfl
    · left; rw [← e]; simp [evaluate, hlen]
    · right; rw [← e]; simp [evaluate, hlen]
  have v1 : evaluate (Qs true) 1 = 1 / 2 + 1 / 2 * (9 / 10 * soft 2 (1 / 10) (Qs true)) := by
    rw [hb true 1 (by simp [QLearning.stuck])]
    simp [backup, QLearning.stuck, expect]
  have v0 : evaluate (Qs true) 0 = 9 / 10 * soft 2 (1 / 10) (Qs true) := by
    rw [hb true 0 (by simp [QLearning.stuck])]
    simp [backup, QLearning.stuck, expect]
  have hs : soft 2 (1 / 10) (Qs true) = 9 / 10 * maxQ (Qs true) + 1 / 10 * ((evaluate (Qs true) 0 + evaluate (Qs true) 1) / 2) := by
    simp only [soft, Finset.sum_range_succ, Finset.sum_range_zero]; norm_num
  have hgt : evaluate (Qs true) 0 < evaluate (Qs true) 1 := by
    rcases hor with h | h
    · have := hmx 1 (by norm_num)
      rw [h] at this hs
      linarith
    · rw [h] at hs
      linarith
  have hmax : maxQ (Qs true) = evaluate (Qs true) 1 := by
    rcases hor with h | h
    · have := hmx 1 (by norm_num)
      rw [h] at this
      linarith
    · exact h
  have hval : evaluate (Qs true) 1 = 191 / 211 := by rw [hmax] at hs; linarith
  filter_upwards [h4] with ω hω
  refine ⟨hval ▸ (hω true).1 1 (by simp [QLearning.stuck]), ?_⟩
  filter_upwards [(hω true).2] with k hk
  have hlt := greedy_lt' QLearning.stuck (by simp [QLearning.stuck]) (Q ω k true) ((hl ω).tables k true).1
  have hlt : greedy (Q ω k true) < 2 := hlt
  have : greedy (Q ω k true) = 0 ∨ greedy (Q ω k true) = 1 := by omega
  rcases this with h | h
  · rw [h, hmax] at hk; linarith
  · exact h

end Verif.SarsaLearning
