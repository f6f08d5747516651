import Verif.Props.QLearning

/-!
# C156: what a table learns from a replay buffer whose contents stay

The process is the one that the buffer shows: the outcomes of a state and an action have the probabilities with which they occur in the buffer.
-/

set_option autoImplicit false
set_option linter.unusedSectionVars false

open Filter Topology

namespace Verif.FixedReplay
open ActionValue Targets MDP ValueLoss TabularDQN

variable {S : Type} [DecidableEq S]

/-! ## Specification -/

/-- The steps of the buffer with the action `a` in the state `s`. -/
def stepsOf (buf : List (Visit S)) (s : S) (a : ℕ) : List (Visit S) := buf.filter fun v => v.state = s ∧ v.action = a

/-- The process that the buffer shows. -/
noncomputable def shown (nA : ℕ) (buf : List (Visit S)) : Env S ℝ where
  nA := nA
  outcomes s a := (stepsOf buf s a).map fun v => (1 / ((stepsOf buf s a).length : ℝ), v.outcome)

/-! ## Proofs -/

theorem shown_valid (nA : ℕ) (buf : List (Visit S)) (hcov : ∀ s a, a < nA → ∃ v ∈ buf, v.state = s ∧ v.action = a) : (shown nA buf).Valid := by
  intro s a ha
  obtain ⟨v, hv, h1⟩ := hcov s a ha
  have hpos : 0 < (stepsOf buf s a).length := List.length_pos_of_mem (List.mem_filter.2 ⟨hv, by simpa using h1⟩)
  have hpos' : (0 : ℝ) < (stepsOf buf s a).length := by exact_mod_cast hpos
  refine ⟨fun x hx => ?_, ?_⟩
  · obtain ⟨v, -, rfl⟩ := List.mem_map.1 hx
    show 0 ≤ 1 / _
    positivity
  · simp only [shown, List.map_map, Function.comp_def, List.map_const', List.sum_replicate, nsmul_eq_mul]
    field_simp

theorem sum_if {α : Type} (l : List α) (p : α → Prop) [DecidablePred p] (f : α → ℝ) : (l.map fun x => if p x then f x else 0).sum = ((l.filter p).map f).sum := by
  induction l with
  | nil => rfl
  | cons x l ih =>
    by_cases h : p x
    · simp [h, ih]
    · simp [h, ih]

theorem sum_sub {α : Type} (l : List α) (x : ℝ) (f : α → ℝ) : (l.map fun v => x - f v).sum = l.length * x - (l.map f).sum := by
  induction l with
  | nil => simp
  | cons y l ih => simp only [List.map_cons, List.sum_cons, ih, List.length_cons]; push_cast; ring

/-- The sum of the gradients for one entry of the table. -/
theorem gradient_sum (nA : ℕ) (buf batch : List (Visit S)) (hp : batch.Perm buf) (gamma : ℝ) (qt : S → List ℝ) (s : S) (a : ℕ) (hpos : (0 : ℝ) < (stepsOf buf s a).length) (x : ℝ) :
    (batch.map fun v => if v.state = s ∧ v.action = a then x - goal gamma qt v else 0).sum =
      (stepsOf buf s a).length * (x - backup (shown nA buf) gamma (fun s => maxQ (qt s)) s a) := by
  have hb : backup (shown nA buf) gamma (fun s => maxQ (qt s)) s a = 1 / (stepsOf buf s a).length * ((stepsOf buf s a).map (goal gamma qt)).sum := by
    rw [← List.sum_map_mul_left]
    simp only [backup, expect, shown, List.map_map, Function.comp_def]
    rfl
  rw [(hp.map _).sum_eq, sum_if, hb, mul_sub, ← mul_assoc, mul_one_div_cancel hpos.ne', one_mul]
  show ((stepsOf buf s a).map _).sum = _
  exact sum_sub _ _ _

theorem zip_ones {α : Type} (l : List α) : l.zip (weightsOf l.length none) = l.map fun x => (x, (1 : ℝ)) := by
  simp only [weightsOf, Option.getD_none]
  induction l with
  | nil => rfl
  | cons x l ih => simp [List.replicate_succ, ih]

theorem share_shown (lr : ℝ) (mean : Bool) (buf batch : List (Visit S)) (hp : batch.Perm buf) (s : S) (a : ℕ) :
    share lr mean batch none s a = lr * (factor mean buf.length * (stepsOf buf s a).length) := by
  rw [share, zip_ones, List.map_map, hp.length_eq]
  have : (batch.map ((fun p : Visit S × ℝ => if p.1.state = s ∧ p.1.action = a then p.2 else 0) ∘ fun x => (x, 1))).sum = (stepsOf buf s a).length := by
    show (batch.map fun v => if v.state = s ∧ v.action = a then (1 : ℝ) else 0).sum = _
    rw [(hp.map _).sum_eq, sum_if]
    simp [stepsOf]
  rw [this]

/-- The core: as long as the clipped loss is not clipped. -/
theorem converges [Finite S] (nA : ℕ) (hn : 0 < nA) (buf : List (Visit S)) (hcov : ∀ s a, a < nA → ∃ v ∈ buf, v.state = s ∧ v.action = a) (gamma lr : ℝ) (hg : 0 ≤ gamma) (hg1 : gamma < 1)
    (hlr : 0 < lr) (clip mean : Bool) (Q T : ℕ → S → List ℝ) (batch : ℕ → List (Visit S)) (hp : ∀ k, (batch k).Perm buf) (tau : ℕ → ℝ)
    (h : Trains (shown nA buf) gamma lr clip mean Q T batch (fun _ => none) tau) (hsync : ∃ η > 0, ∃ᶠ k in atTop, η ≤ tau k)
    (hslope : ∀ k, ∀ v ∈ batch k, ValueLoss.slope clip (evaluate (Q k v.state) v.action - goal gamma (T k) v) = evaluate (Q k v.state) v.action - goal gamma (T k) v) :
    ∃ B Qs, Table (shown nA buf) B Qs ∧ Optimal (shown nA buf) gamma B (fun s => maxQ (Qs s)) (fun s => greedy (Qs s)) ∧
      (∀ s a, a < nA → evaluate (Qs s) a = backup (shown nA buf) gamma (fun s => maxQ (Qs s)) s a) ∧
      ∀ s, (∀ a, a < nA → Tendsto (fun k => evaluate (Q k s) a) atTop (𝓝 (evaluate (Qs s) a))) ∧
        ∀ᶠ k in atTop, evaluate (Qs s) (greedy (Q k s)) = maxQ (Qs s) := by
  have he := shown_valid nA buf hcov
  set env := shown nA buf with henv
  have hnA : env.nA = nA := rfl
  obtain ⟨R, hR⟩ : ∃ R, ∀ s a, a < env.nA → |expect (env.outcomes s a) Outcome.reward| ≤ R := by
    have := Fintype.ofFinite S
    refine ⟨∑ s, ∑ a ∈ Finset.range env.nA, |expect (env.outcomes s a) Outcome.reward|, fun s a ha => ?_⟩
    refine le_trans ?_ (Finset.single_le_sum (f := fun s => ∑ a ∈ Finset.range env.nA, |expect (env.outcomes s a) Outcome.reward|)
      (fun s _ => Finset.sum_nonneg fun a _ => abs_nonneg _) (Finset.mem_univ s))
    exact Finset.single_le_sum (f := fun a => |expect (env.outcomes s a) Outcome.reward|) (fun a _ => abs_nonneg _) (Finset.mem_range.2 ha)
  obtain ⟨B, Qs, hQs, hs⟩ := optimal_exists env he hn gamma R hg hg1 hR
  have hopt := C135_dqn env he gamma B hg Qs hQs hs
  let X : ℕ → S × Fin env.nA → ℝ := fun k i => evaluate (Q k i.1) i.2
  let Y : ℕ → S × Fin env.nA → ℝ := fun k i => evaluate (T k i.1) i.2
  let Xs : S × Fin env.nA → ℝ := fun i => evaluate (Qs i.1) i.2
  let y : ℕ → S × Fin env.nA → ℝ := fun k i => backup env gamma (fun s => maxQ (T k s)) i.1 i.2
  let c : ℕ → S × Fin env.nA → ℝ := fun k i => share lr mean (batch k) none i.1 i.2
  have hpos : ∀ s a, a < nA → (0 : ℝ) < (stepsOf buf s a).length := fun s a ha => by
    obtain ⟨v, hv, h1⟩ := hcov s a ha
    exact_mod_cast List.length_pos_of_mem (List.mem_filter.2 ⟨hv, by simpa using h1⟩ : v ∈ stepsOf buf s a)
  have hne : ∀ (q : S → List ℝ), (∀ s, (q s).length = env.nA) → ∀ s, q s ≠ [] := fun q hq s h' => by
    have := hq s
    rw [h'] at this; simp at this; omega
  have hmax : ∀ (q : S → List ℝ), (∀ s, (q s).length = env.nA) → ∀ s E, (∀ a, a < env.nA → |evaluate (q s) a - evaluate (Qs s) a| ≤ E) → |maxQ (q s) - maxQ (Qs s)| ≤ E :=
    fun q hq s E hE => max_close (q s) (Qs s) (by rw [hq, (hQs.2 s).1]) E (fun a ha => hE a (by rwa [hq] at ha)) _ _ (C64_max _ (hne q hq s))
      (C64_max _ (hne Qs (fun s => (hQs.2 s).1) s))
  have hm : AsyncIteration.Moves X Y Xs gamma c y tau := by
    refine ⟨hg, hg1, fun k i => ?_, fun k i => ?_, fun k E hE i => ?_, fun k i => ?_, h.taus⟩
    · have hd := (descends_iff env gamma lr clip mean (Q k) (T k) (Q (k + 1)) (fun s => (h.tables k s).1) (batch k) (h.nonempty k) none (by simp)).1 (h.descends k) i.1 i.2 i.2.2
      have hsum : (((batch k).zip (weightsOf (batch k).length none)).map fun p => if p.1.state = i.1 ∧ p.1.action = (i.2 : ℕ) then
          p.2 * ValueLoss.slope clip (evaluate (Q k i.1) i.2 - goal gamma (T k) p.1) else 0).sum = (stepsOf buf i.1 i.2).length * (X k i - y k i) := by
        rw [zip_ones, List.map_map, ← gradient_sum nA buf (batch k) (hp k) gamma (T k) i.1 i.2 (hpos _ _ i.2.2)]
        congr 1
        refine List.map_congr_left fun v hv => ?_
        simp only [Function.comp_apply, one_mul]
        split
        · rename_i hv'
          have := hslope k v hv
          rw [hv'.1, hv'.2] at this
          exact this
        · rfl
      show evaluate (Q (k + 1) i.1) i.2 = _
      rw [hd, hsum]
      simp only [c]
      rw [share_shown lr mean buf (batch k) (hp k), (hp k).length_eq]
      simp only [X]
      ring
    · exact ⟨share_nonneg lr h.rate mean (batch k) none (by simp) i.1 i.2, h.shares k i.1 i.2 i.2.2⟩
    · show |backup env gamma (fun s => maxQ (T k s)) i.1 i.2 - evaluate (Qs i.1) i.2| ≤ _
      rw [hopt.2 i.1 i.2 i.2.2]
      have hE0 : 0 ≤ E := (abs_nonneg _).trans (hE i)
      exact QLearning.backup_near he hg _ _ E hE0 (fun s => hmax (T k) (fun s => (h.tables k s).2) s E fun a ha => hE (s, ⟨a, ha⟩)) _ _ i.2.2
    · show evaluate (T (k + 1) i.1) i.2 = _
      rw [h.target k i.1 i.2 i.2.2, CopyParam.soft]
      simp only [Y, X]; ring
  have hconv : ∀ i, Tendsto (fun k => X k i) atTop (𝓝 (Xs i)) := fun i => by
    refine (hm.converges (fun i => ?_) hsync i).1
    have hf : 0 < factor mean buf.length := by
      have : (0 : ℝ) < buf.length := by
        obtain ⟨v, hv, -⟩ := hcov i.1 i.2 i.2.2
        exact_mod_cast List.length_pos_of_mem hv
      unfold factor
      split <;> positivity
    refine ⟨lr * (factor mean buf.length * (stepsOf buf i.1 i.2).length), mul_pos hlr (mul_pos hf (hpos _ _ i.2.2)), Frequently.of_forall fun k => ?_⟩
    exact (share_shown lr mean buf (batch k) (hp k) i.1 i.2).ge
  refine ⟨B, Qs, hQs, hopt.1, hopt.2, fun s => ⟨fun a ha => hconv (s, ⟨a, ha⟩), ?_⟩⟩
  refine greedy_becomes_optimal (fun k => ?_) hQs s fun a ha ε hε => ?_
  · have := Fintype.ofFinite S
    refine ⟨∑ s, ((Q k s).map abs).sum, hn, fun s => ⟨(h.tables k s).1, fun x hx => ?_⟩⟩
    refine le_trans (List.single_le_sum (fun y hy => ?_) _ (List.mem_map_of_mem hx)) (Finset.single_le_sum (f := fun s => ((Q k s).map abs).sum) (fun s _ => ?_) (Finset.mem_univ s))
    · obtain ⟨z, -, rfl⟩ := List.mem_map.1 hy; exact abs_nonneg z
    · exact List.sum_nonneg fun y hy => by obtain ⟨z, -, rfl⟩ := List.mem_map.1 hy; exact abs_nonneg z
  · have hclose : ∀ᶠ k in atTop, ∀ a : Fin env.nA, |evaluate (Q k s) a - evaluate (Qs s) a| ≤ ε / 4 := by
      refine eventually_all.2 fun a => ?_
      have := (Metric.tendsto_nhds.1 (hconv (s, a))) (ε / 4) (by linarith)
      exact this.mono fun k hk => by rw [Real.dist_eq] at hk; exact hk.le
    refine hclose.mono fun k hk => ?_
    have h1 := abs_le.1 (hmax (Q k) (fun s => (h.tables k s).1) s _ fun a ha => hk ⟨a, ha⟩)
    have h2 := abs_le.1 (hk ⟨a, ha⟩)
    simp only at h2
    linarith

/-! ## The theorems -/

/-- **C156**: with the unclipped loss (`clip_delta=False`), a table that is trained again and again with all steps of a buffer that contains every action of every state converges to the optimal
values of the process that the buffer shows; the greedy actions become optimal in it. -/
theorem C156_unclipped [Finite S] (nA : ℕ) (hn : 0 < nA) (buf : List (Visit S)) (hcov : ∀ s a, a < nA → ∃ v ∈ buf, v.state = s ∧ v.action = a) (gamma lr : ℝ) (hg : 0 ≤ gamma) (hg1 : gamma < 1)
    (hlr : 0 < lr) (mean : Bool) (Q T : ℕ → S → List ℝ) (batch : ℕ → List (Visit S)) (hp : ∀ k, (batch k).Perm buf) (tau : ℕ → ℝ)
    (h : Trains (shown nA buf) gamma lr false mean Q T batch (fun _ => none) tau) (hsync : ∃ η > 0, ∃ᶠ k in atTop, η ≤ tau k) :
    ∃ B Qs, Table (shown nA buf) B Qs ∧ Optimal (shown nA buf) gamma B (fun s => maxQ (Qs s)) (fun s => greedy (Qs s)) ∧
      (∀ s a, a < nA → evaluate (Qs s) a = backup (shown nA buf) gamma (fun s => maxQ (Qs s)) s a) ∧
      ∀ s, (∀ a, a < nA → Tendsto (fun k => evaluate (Q k s) a) atTop (𝓝 (evaluate (Qs s) a))) ∧
        ∀ᶠ k in atTop, evaluate (Qs s) (greedy (Q k s)) = maxQ (Qs s) :=
  converges nA hn buf hcov gamma lr hg hg1 hlr false mean Q T batch hp tau h hsync fun k v _ => by simp [ValueLoss.slope]

/-- **C156**: the clipped loss, the default, learns the same if the values are small: rewards of at most `R`, first values of at most `B`, with `R + gamma * B ≤ B` and `B ≤ 1 / 2`. -/
theorem C156_small [Finite S] (nA : ℕ) (hn : 0 < nA) (buf : List (Visit S)) (hcov : ∀ s a, a < nA → ∃ v ∈ buf, v.state = s ∧ v.action = a) (gamma lr : ℝ) (hg : 0 ≤ gamma) (hg1 : gamma < 1)
    (hlr : 0 < lr) (mean : Bool) (Q T : ℕ → S → List ℝ) (batch : ℕ → List (Visit S)) (hp : ∀ k, (batch k).Perm buf) (tau : ℕ → ℝ)
    (h : Trains (shown nA buf) gamma lr true mean Q T batch (fun _ => none) tau) (hsync : ∃ η > 0, ∃ᶠ k in atTop, η ≤ tau k)
    (R B : ℝ) (hB0 : 0 ≤ B) (hB : B ≤ 1 / 2) (hRB : R + gamma * B ≤ B) (hR : ∀ v ∈ buf, |v.outcome.reward| ≤ R)
    (h0 : ∀ s a, a < nA → |evaluate (Q 0 s) a| ≤ B ∧ |evaluate (T 0 s) a| ≤ B) :
    ∃ B Qs, Table (shown nA buf) B Qs ∧ Optimal (shown nA buf) gamma B (fun s => maxQ (Qs s)) (fun s => greedy (Qs s)) ∧
      (∀ s a, a < nA → evaluate (Qs s) a = backup (shown nA buf) gamma (fun s => maxQ (Qs s)) s a) ∧
      ∀ s, (∀ a, a < nA → Tendsto (fun k => evaluate (Q k s) a) atTop (𝓝 (evaluate (Qs s) a))) ∧
        ∀ᶠ k in atTop, evaluate (Qs s) (greedy (Q k s)) = maxQ (Qs s) := by
  have hbd := C152_bounded (shown nA buf) gamma lr R B true mean hg Q T batch _ tau h (fun s a _ x hx => by
    obtain ⟨v, hv, rfl⟩ := List.mem_map.1 hx
    exact hR v (List.mem_filter.1 hv).1) hRB hB0 h0
  refine converges nA hn buf hcov gamma lr hg hg1 hlr true mean Q T batch hp tau h hsync fun k v hv => ?_
  have ha : v.action < nA := (h.recorded k v hv).1
  have hgoal : |goal gamma (T k) v| ≤ B := QLearning.worth_abs (shown nA buf) hn gamma R B hg hB0 hRB (T k) (fun s => (h.tables k s).2) (fun s a ha => (hbd k s a ha).2) _
    (hR v ((hp k).mem_iff.1 hv))
  have hq := abs_le.1 (hbd k v.state v.action ha).1
  have hg' := abs_le.1 hgoal
  simp only [ValueLoss.slope, if_true, clip1]
  rw [min_eq_right (by linarith), max_eq_right (by linarith)]

/-! ## The clipped loss in general -/

/-- A bet and a sure reward, each three times: the first action brings 0, 0 and 30, the second 1. -/
def wager : List (Visit Unit) :=
  [⟨(), 0, ⟨0, (), true⟩⟩, ⟨(), 0, ⟨0, (), true⟩⟩, ⟨(), 0, ⟨30, (), true⟩⟩, ⟨(), 1, ⟨1, (), true⟩⟩, ⟨(), 1, ⟨1, (), true⟩⟩, ⟨(), 1, ⟨1, (), true⟩⟩]

theorem wager_from (v : Visit Unit) (hv : v ∈ wager) : v.From (shown 2 wager) := by
  refine ⟨?_, 1 / ((stepsOf wager v.state v.action).length : ℝ), List.mem_map.2 ⟨v, List.mem_filter.2 ⟨hv, by simp⟩, rfl⟩⟩
  show v.action < 2
  simp only [wager, List.mem_cons, List.not_mem_nil, or_false] at hv
  rcases hv with rfl | rfl | rfl | rfl | rfl | rfl <;> decide

theorem wager_covers (s : Unit) (a : ℕ) (ha : a < 2) : ∃ v ∈ wager, v.state = s ∧ v.action = a := by
  interval_cases a
  · exact ⟨⟨(), 0, ⟨0, (), true⟩⟩, by simp [wager], rfl, rfl⟩
  · exact ⟨⟨(), 1, ⟨1, (), true⟩⟩, by simp [wager], rfl, rfl⟩

/-- In the process that the buffer shows, the bet is worth 10 and the sure reward 1. -/
theorem wager_worth (gamma : ℝ) (V : Unit → ℝ) : backup (shown 2 wager) gamma V () 0 = 10 ∧ backup (shown 2 wager) gamma V () 1 = 1 := by
  constructor <;> simp [backup, expect, shown, stepsOf, wager] <;> norm_num

theorem tends_geometric (x : ℕ → ℝ) (c l : ℝ) (hc : 0 < c) (hc1 : c ≤ 1) (h : ∀ k, x (k + 1) - l = (1 - c) * (x k - l)) : Tendsto x atTop (𝓝 l) := by
  have h1 : ∀ k, x k = l + (1 - c) ^ k * (x 0 - l) := by
    intro k
    induction k with
    | zero => simp
    | succ k ih => have := h k; rw [ih] at this; rw [pow_succ]; linarith
  have h2 : Tendsto (fun k => l + (1 - c) ^ k * (x 0 - l)) atTop (𝓝 (l + 0 * (x 0 - l))) :=
    ((tendsto_pow_atTop_nhds_zero_of_lt_one (by linarith) (by linarith)).mul_const _).const_add _
  rw [zero_mul, add_zero] at h2
  exact h2.congr fun k => (h1 k).symm

/-- One update with the whole buffer. -/
theorem wager_step (gamma lr : ℝ) (Q T : ℕ → Unit → List ℝ) (batch : ℕ → List (Visit Unit)) (hp : ∀ k, (batch k).Perm wager) (tau : ℕ → ℝ)
    (h : Trains (shown 2 wager) gamma lr true true Q T batch (fun _ => none) tau) (k : ℕ) :
    (evaluate (Q (k + 1) ()) 0 = evaluate (Q k ()) 0 - lr * (1 / 6 * (2 * clip1 (evaluate (Q k ()) 0) + clip1 (evaluate (Q k ()) 0 - 30)))) ∧
      evaluate (Q (k + 1) ()) 1 = evaluate (Q k ()) 1 - lr * (1 / 6 * (3 * clip1 (evaluate (Q k ()) 1 - 1))) := by
  have hd := (descends_iff (shown 2 wager) gamma lr true true (Q k) (T k) (Q (k + 1)) (fun s => (h.tables k s).1) (batch k) (h.nonempty k) none (by simp)).1 (h.descends k) ()
  have hsum : ∀ a, (((batch k).zip (weightsOf (batch k).length none)).map fun p => if p.1.state = () ∧ p.1.action = a then
      p.2 * ValueLoss.slope true (evaluate (Q k ()) a - goal gamma (T k) p.1) else 0).sum =
      (wager.map fun v => if v.state = () ∧ v.action = a then ValueLoss.slope true (evaluate (Q k ()) a - goal gamma (T k) v) else 0).sum := by
    intro a
    rw [zip_ones, List.map_map, ← ((hp k).map _).sum_eq]
    simp [Function.comp_def]
  have hl : (batch k).length = 6 := (hp k).length_eq
  have s0 : (wager.map fun v => if v.state = () ∧ v.action = 0 then ValueLoss.slope true (evaluate (Q k ()) 0 - goal gamma (T k) v) else 0).sum =
      2 * clip1 (evaluate (Q k ()) 0) + clip1 (evaluate (Q k ()) 0 - 30) := by
    simp [wager, goal, ValueLoss.slope]; ring
  have s1 : (wager.map fun v => if v.state = () ∧ v.action = 1 then ValueLoss.slope true (evaluate (Q k ()) 1 - goal gamma (T k) v) else 0).sum =
      3 * clip1 (evaluate (Q k ()) 1 - 1) := by
    simp [wager, goal, ValueLoss.slope]; ring
  have hf : factor true 6 = 1 / 6 := by simp [factor]
  exact ⟨by rw [hd 0 (by simp [shown]), hsum, hl, s0, hf], by rw [hd 1 (by simp [shown]), hsum, hl, s1, hf]⟩

/-- **C156**: the clipped loss, the default of DQN, does not learn expected values.  Trained with all steps of a buffer again and again from values 0, the value of the bet converges to
1/2, that of the sure reward to 1, and from some update on the greedy action is the sure reward, although the bet is worth 10 and the sure reward 1.  Such training exists for all learning rates
in `(0, 1]` and all schedules of the target network. -/
theorem C156_clip_violated (gamma lr : ℝ) (hlr : 0 < lr) (hlr1 : lr ≤ 1) :
    (∀ V, backup (shown 2 wager) gamma V () 0 = 10 ∧ backup (shown 2 wager) gamma V () 1 = 1) ∧
    (∀ tau : ℕ → ℝ, (∀ k, 0 ≤ tau k ∧ tau k ≤ 1) → ∃ Q T, Q 0 = (fun _ => [0, 0]) ∧ Trains (shown 2 wager) gamma lr true true Q T (fun _ => wager) (fun _ => none) tau) ∧
    ∀ Q T batch tau, Q 0 = (fun _ => [0, 0]) → (∀ k, (batch k).Perm wager) → Trains (shown 2 wager) gamma lr true true Q T batch (fun _ => none) tau →
      Tendsto (fun k => evaluate (Q k ()) 0) atTop (𝓝 (1 / 2)) ∧ Tendsto (fun k => evaluate (Q k ()) 1) atTop (𝓝 1) ∧ ∀ᶠ k in atTop, greedy (Q k ()) = 1 := by
  refine ⟨wager_worth gamma, fun tau htau => ?_, fun Q T batch tau h0 hp h => ?_⟩
  · obtain ⟨Q, T, h0, -, h⟩ := C152_exists (shown 2 wager) gamma lr hlr.le hlr1 true (fun _ => [0, 0]) (fun _ => [0, 0]) (fun _ => rfl) (fun _ => rfl) (fun _ => wager)
      (fun _ => by simp [wager]) (fun _ v hv => wager_from v hv) (fun _ => none) (fun k l h => by simp at h) tau htau
    exact ⟨Q, T, h0, h⟩
  have hstep := wager_step gamma lr Q T batch hp tau h
  have mid0 : ∀ {x : ℝ}, 0 ≤ x → x ≤ 1 → 2 * clip1 x + clip1 (x - 30) = 2 * x - 1 := fun {x} h1 h2 => by
    simp only [clip1]
    rw [min_eq_right h2, max_eq_right (by linarith), min_eq_right (by linarith), max_eq_left (by linarith)]; ring
  have mid1 : ∀ {x : ℝ}, 0 ≤ x → x ≤ 1 → 3 * clip1 (x - 1) = 3 * (x - 1) := fun {x} h1 h2 => by
    simp only [clip1]
    rw [min_eq_right (by linarith), max_eq_right (by linarith)]
  have hb : ∀ k, (0 ≤ evaluate (Q k ()) 0 ∧ evaluate (Q k ()) 0 ≤ 1) ∧ 0 ≤ evaluate (Q k ()) 1 ∧ evaluate (Q k ()) 1 ≤ 1 := by
    intro k
    induction k with
    | zero => rw [h0]; simp [evaluate]
    | succ k ih =>
      obtain ⟨⟨a1, a2⟩, a3, a4⟩ := ih
      rw [(hstep k).1, (hstep k).2, mid0 a1 a2, mid1 a3 a4]
      refine ⟨⟨?_, ?_⟩, ?_, ?_⟩ <;> nlinarith
  have e0 : ∀ k, evaluate (Q (k + 1) ()) 0 - 1 / 2 = (1 - lr / 3) * (evaluate (Q k ()) 0 - 1 / 2) := fun k => by
    rw [(hstep k).1, mid0 (hb k).1.1 (hb k).1.2]; ring
  have e1 : ∀ k, evaluate (Q (k + 1) ()) 1 - 1 = (1 - lr / 2) * (evaluate (Q k ()) 1 - 1) := fun k => by
    rw [(hstep k).2, mid1 (hb k).2.1 (hb k).2.2]; ring
  have t0 := tends_geometric (fun k => evaluate (Q k ()) 0) _ _ (by linarith : 0 < lr / 3) (by linarith) e0
  have t1 := tends_geometric (fun k => evaluate (Q k ()) 1) _ _ (by linarith : 0 < lr / 2) (by linarith) e1
  refine ⟨t0, t1, ?_⟩
  filter_upwards [t0.eventually (gt_mem_nhds (by norm_num : (1 / 2 : ℝ) < 3 / 4)), t1.eventually (lt_mem_nhds (by norm_num : (3 / 4 : ℝ) < 1))] with k h1 h2
  have hl : (Q k ()).length = 2 := (h.tables k ()).1
  obtain ⟨u, v, huv⟩ := List.length_eq_two.1 hl
  rw [huv] at h1 h2 ⊢
  have h1' : u < 3 / 4 := h1
  have h2' : 3 / 4 < v := h2
  simp only [greedy, argmaxFrom]
  rw [if_pos (by linarith)]

/-- The hypotheses of `C156_unclipped` are met: with the unclipped loss the same buffer teaches that the bet is worth 10, and the greedy action becomes the bet. -/
example : ∃ Q T, Q 0 = (fun _ => [0, 0]) ∧ Trains (shown 2 wager) (9 / 10) (1 / 2) false true Q T (fun _ => wager) (fun _ => none) (fun _ => 1) ∧
    Tendsto (fun k => evaluate (Q k ()) 0) atTop (𝓝 10) := by
  obtain ⟨Q, T, h0, -, h⟩ := C152_exists (shown 2 wager) (9 / 10) (1 / 2) (by norm_num) (by norm_num) false (fun _ => [0, 0]) (fun _ => [0, 0]) (fun _ => rfl) (fun _ => rfl) (fun _ => wager)
    (fun _ => by simp [wager]) (fun _ v hv => wager_from v hv) (fun _ => none) (fun k l h => by simp at h) (fun _ => 1) (fun _ => by norm_num)
  obtain ⟨B, Qs, h1, h2, h3, h4⟩ := C156_unclipped 2 (by norm_num) wager wager_covers (9 / 10) (1 / 2) (by norm_num) (by norm_num) (by norm_num) true Q T _ (fun _ => List.Perm.refl _) _ h
    ⟨1, one_pos, Frequently.of_forall fun _ => le_rfl⟩
  refine ⟨Q, T, h0, h, ?_⟩
  have := (h4 ()).1 0 (by norm_num)
  rwa [h3 () 0 (by norm_num), (wager_worth (9 / 10) _).1] at this

/-- A small wager: 0 and 1/3 against 1/10. -/
noncomputable def smallWager : List (Visit Unit) := [⟨(), 0, ⟨0, (), true⟩⟩, ⟨(), 0, ⟨1 / 3, (), true⟩⟩, ⟨(), 1, ⟨1 / 10, (), true⟩⟩]

/-- The hypotheses of `C156_small` are met: the clipped loss learns that the small wager is worth 1/6. -/
example : ∃ Q T, Q 0 = (fun _ => [0, 0]) ∧ Trains (shown 2 smallWager) (1 / 4) (1 / 2) true true Q T (fun _ => smallWager) (fun _ => none) (fun _ => 1) ∧
    Tendsto (fun k => evaluate (Q k ()) 0) atTop (𝓝 (1 / 6)) := by
  have hm : ∀ v ∈ smallWager, v.action < 2 ∧ |v.outcome.reward| ≤ 1 / 3 := fun v hv => by
    simp only [smallWager, List.mem_cons, List.not_mem_nil, or_false] at hv
    rcases hv with rfl | rfl | rfl <;> refine ⟨by simp, ?_⟩ <;> rw [abs_le] <;> constructor <;> norm_num
  obtain ⟨Q, T, h0, h0', h⟩ := C152_exists (shown 2 smallWager) (1 / 4) (1 / 2) (by norm_num) (by norm_num) true (fun _ => [0, 0]) (fun _ => [0, 0]) (fun _ => rfl) (fun _ => rfl)
    (fun _ => smallWager) (fun _ => by simp [smallWager])
    (fun _ v hv => ⟨(hm v hv).1, 1 / ((stepsOf smallWager v.state v.action).length : ℝ), List.mem_map.2 ⟨v, List.mem_filter.2 ⟨hv, by simp⟩, rfl⟩⟩)
    (fun _ => none) (fun k l h => by simp at h) (fun _ => 1) (fun _ => by norm_num)
  obtain ⟨B, Qs, h1, h2, h3, h4⟩ := C156_small 2 (by norm_num) smallWager (fun s a ha => by
      interval_cases a
      · exact ⟨⟨(), 0, ⟨0, (), true⟩⟩, by simp [smallWager], rfl, rfl⟩
      · exact ⟨⟨(), 1, ⟨1 / 10, (), true⟩⟩, by simp [smallWager], rfl, rfl⟩) (1 / 4) (1 / 2) (by norm_num) (by norm_num) (by norm_num) true Q T _ (fun _ => List.Perm.refl _) _ h
    ⟨1, one_pos, Frequently.of_forall fun _ => le_rfl⟩ (1 / 3) (1 / 2) (by norm_num) le_rfl (by norm_num) (fun v hv => (hm v hv).2) (fun s a ha => by
      rw [h0, h0']
      interval_cases a <;> simp [evaluate])
  refine ⟨Q, T, h0, h, ?_⟩
  have := (h4 ()).1 0 (by norm_num)
  rw [h3 () 0 (by norm_num)] at this
  have e : backup (shown 2 smallWager) (1 / 4) (fun s => maxQ (Qs s)) () 0 = 1 / 6 := by
    simp [backup, expect, shown, stepsOf, smallWager]; norm_num
  rwa [e] at this

end Verif.FixedReplay
