import Mathlib.Analysis.SpecificLimits.Basic
import Mathlib.Tactic.FieldSimp
import Verif.Proofs.GapLearning

/-!
C145: iterating the targets of AL and PAL.

`C145_al`, `C145_pal`: the best values converge to the optimal ones, the greedy actions become optimal and the gaps
between actions do not shrink.  `C145_alpha_one`: for `alpha = 1` the values need not converge.
-/

set_option autoImplicit false
set_option linter.unusedSectionVars false

open Filter Topology

namespace Verif.MDP
open ActionValue Targets

variable {S : Type}

/-! ### What fitting the targets means -/

theorem al_backup (env : Env S ℝ) (he : env.Valid) (gamma alpha B : ℝ) (Q Q' : S → List ℝ) (hQ : Table env B Q)
    (h : Fits env gamma (al alpha) Q Q') (s : S) (a : Nat) (ha : a < env.nA) :
    evaluate (Q' s) a = backup env gamma (fun s => maxQ (Q s)) s a + alpha * advantage (Q s) a := by
  obtain ⟨y, h1, h2⟩ := h s a ha
  rw [h2]
  unfold backup
  rw [← expect_add _ (he s a ha)]
  refine expect_congr _ _ _ (fun x hx => ?_)
  obtain ⟨b, hb, hy⟩ := h1 x hx
  have := C44_al id gamma alpha _ b hb Q (row_ne env B Q hQ)
  rw [hy] at this
  obtain ⟨v, hv, hy'⟩ := rows_single this
  rw [hy', single_target, isMax_unique hv (C64_max _ (row_ne env B Q hQ _))]
  rfl

theorem pal_backup (env : Env S ℝ) (gamma alpha B : ℝ) (Q Q' : S → List ℝ) (hQ : Table env B Q)
    (h : Fits env gamma (pal alpha) Q Q') (s : S) (a : Nat) (ha : a < env.nA) :
    evaluate (Q' s) a = expect (env.outcomes s a) fun o =>
      (o.reward + if o.done then 0 else gamma * maxQ (Q o.next)) + alpha * max (advantage (Q s) a) (advantage (Q o.next) a) := by
  obtain ⟨y, h1, h2⟩ := h s a ha
  rw [h2]
  refine expect_congr _ _ _ (fun x hx => ?_)
  obtain ⟨b, hb, hy⟩ := h1 x hx
  have := C44_pal_partial id gamma alpha _ b hb Q (row_ne env B Q hQ)
  rw [hy] at this
  obtain ⟨v, hv, hy'⟩ := rows_single this
  rw [hy', single_target, isMax_unique hv (C64_max _ (row_ne env B Q hQ _))]
  rfl

theorem advantage_nonpos (env : Env S ℝ) (B : ℝ) (Q : S → List ℝ) (hQ : Table env B Q) (s : S) (a : Nat) (ha : a < env.nA) :
    advantage (Q s) a ≤ 0 := (C64_advantage (Q s) (row_ne env B Q hQ s)).1 a (by rw [(hQ.2 s).1]; exact ha)

theorem al_between (env : Env S ℝ) (he : env.Valid) (gamma alpha : ℝ) (ha0 : 0 ≤ alpha) (Q : ℕ → S → List ℝ)
    (hQ : ∀ k, ∃ B, Table env B (Q k)) (h : ∀ k, Fits env gamma (al alpha) (Q k) (Q (k + 1))) :
    Between env gamma alpha Q where
  table := hQ
  upper k s a ha := by
    obtain ⟨B, hB⟩ := hQ k
    rw [al_backup env he gamma alpha B _ _ hB (h k) s a ha]
    have := mul_nonpos_of_nonneg_of_nonpos ha0 (advantage_nonpos env B _ hB s a ha)
    linarith
  lower k s a ha := by
    obtain ⟨B, hB⟩ := hQ k
    rw [al_backup env he gamma alpha B _ _ hB (h k) s a ha]

theorem pal_between (env : Env S ℝ) (he : env.Valid) (gamma alpha : ℝ) (ha0 : 0 ≤ alpha) (Q : ℕ → S → List ℝ)
    (hQ : ∀ k, ∃ B, Table env B (Q k)) (h : ∀ k, Fits env gamma (pal alpha) (Q k) (Q (k + 1))) :
    Between env gamma alpha Q where
  table := hQ
  upper k s a ha := by
    obtain ⟨B, hB⟩ := hQ k
    rw [pal_backup env gamma alpha B _ _ hB (h k) s a ha]
    refine expect_mono _ (he s a ha) _ _ fun x _ => ?_
    have := mul_nonpos_of_nonneg_of_nonpos ha0
      (max_le (advantage_nonpos env B _ hB s a ha) (advantage_nonpos env B _ hB x.2.next a ha))
    linarith
  lower k s a ha := by
    obtain ⟨B, hB⟩ := hQ k
    rw [pal_backup env gamma alpha B _ _ hB (h k) s a ha]
    unfold backup
    rw [← expect_add _ (he s a ha)]
    refine expect_mono _ (he s a ha) _ _ fun x _ => ?_
    have := mul_le_mul_of_nonneg_left (le_max_left (advantage (Q k s) a) (advantage (Q k x.2.next) a)) ha0
    linarith

/-! ### The optimal table exists -/

theorem fits_dqn (env : Env S ℝ) (gamma : ℝ) (Q Q' : S → List ℝ)
    (h : ∀ s a, a < env.nA → evaluate (Q' s) a = backup env gamma (fun s => maxQ (Q s)) s a) :
    Fits env gamma dqn Q Q' := by
  intro s a ha
  refine ⟨fun o => o.reward + if o.done then 0 else gamma * maxQ (Q o.next), fun x hx => ⟨_, rfl, ?_⟩, h s a ha⟩
  cases hd : x.2.done <;> simp [dqn, bellman, transition, expReward, hd]

/-- The row of a state. -/
def row (env : Env S ℝ) (q : S → ℕ → ℝ) (s : S) : List ℝ := (List.range env.nA).map (q s)

theorem evaluate_row (env : Env S ℝ) (q : S → ℕ → ℝ) (s : S) (a : ℕ) (ha : a < env.nA) : evaluate (row env q s) a = q s a := by
  simp [evaluate, row, ha]

theorem row_close (env : Env S ℝ) (hn : 0 < env.nA) (q q' : S → ℕ → ℝ) (s : S) (δ : ℝ)
    (h : ∀ a, a < env.nA → |q s a - q' s a| ≤ δ) : |maxQ (row env q s) - maxQ (row env q' s)| ≤ δ := by
  have hne : ∀ q : S → ℕ → ℝ, row env q s ≠ [] := fun q h => by
    have := congrArg List.length h
    simp [row] at this; omega
  refine max_close (row env q s) (row env q' s) (by simp [row]) δ (fun a ha => ?_) _ _ (C64_max _ (hne q)) (C64_max _ (hne q'))
  have ha : a < env.nA := by simpa [row] using ha
  rw [evaluate_row _ _ _ _ ha, evaluate_row _ _ _ _ ha]
  exact h a ha

/-- The values after `k` iterations from zero. -/
noncomputable def valueIter (env : Env S ℝ) (gamma : ℝ) : ℕ → S → ℕ → ℝ
  | 0 => fun _ _ => 0
  | k + 1 => fun s a => backup env gamma (fun s => maxQ (row env (valueIter env gamma k) s)) s a

theorem valueIter_succ (env : Env S ℝ) (gamma : ℝ) (k : ℕ) (s : S) (a : ℕ) :
    valueIter env gamma (k + 1) s a = backup env gamma (fun s => maxQ (row env (valueIter env gamma k) s)) s a := by rw [valueIter]

/-- For bounded expected rewards there is a table that meets the targets of DQN. -/
theorem optimal_exists (env : Env S ℝ) (he : env.Valid) (hn : 0 < env.nA) (gamma R : ℝ) (hg0 : 0 ≤ gamma) (hg1 : gamma < 1)
    (hR : ∀ s a, a < env.nA → |expect (env.outcomes s a) Outcome.reward| ≤ R) :
    ∃ B Qs, Table env B Qs ∧ MeetsTargets env gamma dqn Qs := by
  have hclose : ∀ (k : ℕ) (s : S) (a : ℕ), a < env.nA → |valueIter env gamma k s a - valueIter env gamma (k + 1) s a| ≤ R * gamma ^ k := by
    intro k
    induction k with
    | zero =>
      intro s a ha
      have hm : ∀ s, maxQ (row env (valueIter env gamma 0) s) = 0 := fun s => by
        have hne : row env (valueIter env gamma 0) s ≠ [] := fun h => by
          have := congrArg List.length h
          simp [row] at this; omega
        obtain ⟨a, -, e⟩ := List.mem_map.1 (C64_max _ hne).1
        rw [← e]; rfl
      have : valueIter env gamma (0 + 1) s a = expect (env.outcomes s a) Outcome.reward := by
        rw [valueIter_succ]
        refine expect_congr _ _ _ fun x _ => ?_
        simp only [hm]; simp
      rw [this]
      simpa [valueIter] using hR s a ha
    | succ k ih =>
      intro s a ha
      rw [valueIter_succ, valueIter_succ]
      refine expect_close _ (he s a ha) _ _ _ fun x _ => ?_
      have h1 := row_close env hn (valueIter env gamma k) (valueIter env gamma (k + 1)) x.2.next _ (ih x.2.next)
      have h0 : 0 ≤ R * gamma ^ k := (abs_nonneg _).trans h1
      rw [add_sub_add_left_eq_sub]
      split
      · rw [sub_zero, abs_zero, pow_succ]; nlinarith
      · rw [← mul_sub, abs_mul, abs_of_nonneg hg0, pow_succ, ← mul_assoc, mul_comm gamma]
        exact mul_le_mul_of_nonneg_right h1 hg0
  have hlim : ∀ s a, ∃ l, a < env.nA → Tendsto (fun k => valueIter env gamma k s a) atTop (𝓝 l) := fun s a => by
    by_cases ha : a < env.nA
    · obtain ⟨l, hl⟩ := cauchySeq_tendsto_of_complete
        (cauchySeq_of_le_geometric gamma R hg1 (f := fun k => valueIter env gamma k s a) fun k => by
          rw [Real.dist_eq]; exact hclose k s a ha)
      exact ⟨l, fun _ => hl⟩
    · exact ⟨0, fun h => absurd h ha⟩
  choose q hq using hlim
  have hdist : ∀ (s : S) (a : ℕ) (k : ℕ), a < env.nA → |valueIter env gamma k s a - q s a| ≤ R * gamma ^ k / (1 - gamma) := fun s a k ha => by
    have := dist_le_of_le_geometric_of_tendsto gamma R hg1 (f := fun k => valueIter env gamma k s a)
      (fun k => by rw [Real.dist_eq]; exact hclose k s a ha) (hq s a ha) k
    rwa [Real.dist_eq] at this
  have hmax : ∀ s, Tendsto (fun k => maxQ (row env (valueIter env gamma k) s)) atTop (𝓝 (maxQ (row env q s))) := fun s => by
    have h1 : Tendsto (fun k : ℕ => R * gamma ^ k / (1 - gamma)) atTop (𝓝 (R * 0 / (1 - gamma))) :=
      ((tendsto_pow_atTop_nhds_zero_of_lt_one hg0 hg1).const_mul R).div_const _
    rw [mul_zero, zero_div] at h1
    rw [tendsto_iff_dist_tendsto_zero]
    refine squeeze_zero (fun _ => dist_nonneg) (fun k => ?_) h1
    rw [Real.dist_eq]
    exact row_close env hn _ _ s _ fun a ha => hdist s a k ha
  have hfix : ∀ s a, a < env.nA → q s a = backup env gamma (fun s => maxQ (row env q s)) s a := fun s a ha => by
    have h1 := (tendsto_add_atTop_iff_nat 1).2 (hq s a ha)
    simp only [valueIter_succ] at h1
    exact tendsto_nhds_unique h1 (tendsto_backup env gamma (fun k s => maxQ (row env (valueIter env gamma k) s)) _ hmax s a)
  refine ⟨R / (1 - gamma), row env q, ⟨hn, fun s => ⟨by simp [row], fun x hx => ?_⟩⟩, fits_dqn env gamma _ _ fun s a ha => ?_⟩
  · obtain ⟨a, ha, rfl⟩ := List.mem_map.1 hx
    have := hdist s a 0 (List.mem_range.1 ha)
    simpa [valueIter] using this
  · rw [evaluate_row _ _ _ _ ha, hfix s a ha]

/-! ### Convergence -/

theorem greedy_becomes_optimal {env : Env S ℝ} {Q : ℕ → S → List ℝ} (hQ : ∀ k, ∃ B, Table env B (Q k)) {Qs : S → List ℝ} {B : ℝ}
    (hQs : Table env B Qs) (s : S)
    (hgap : ∀ a, a < env.nA → ∀ ε > 0, ∀ᶠ k in atTop, maxQ (Qs s) - evaluate (Qs s) a - ε < maxQ (Q k s) - evaluate (Q k s) a) :
    ∀ᶠ k in atTop, evaluate (Qs s) (greedy (Q k s)) = maxQ (Qs s) := by
  have h1 : ∀ a ∈ Finset.range env.nA, ∀ᶠ k in atTop, evaluate (Qs s) a < maxQ (Qs s) → evaluate (Q k s) a < maxQ (Q k s) := by
    intro a ha
    by_cases hlt : evaluate (Qs s) a < maxQ (Qs s)
    · refine (hgap a (Finset.mem_range.1 ha) _ (sub_pos.2 hlt)).mono fun k hk _ => ?_
      linarith
    · exact Eventually.of_forall fun k h => absurd h hlt
  rw [← Filter.eventually_all_finset] at h1
  refine h1.mono fun k hk => ?_
  obtain ⟨Bk, hk'⟩ := hQ k
  have hlt := greedy_lt env Bk _ hk' s
  refine le_antisymm (evaluate_le env B _ hQs s _ hlt) (not_lt.1 fun h => ?_)
  exact lt_irrefl _ (hk _ (Finset.mem_range.2 hlt) h)

section
variable (env : Env S ℝ) (he : env.Valid) (hn : 0 < env.nA) (gamma alpha R : ℝ) (hg0 : 0 ≤ gamma) (hg1 : gamma < 1) (ha0 : 0 ≤ alpha)
  (ha1 : alpha < 1) (hR : ∀ s a, a < env.nA → |expect (env.outcomes s a) Outcome.reward| ≤ R)
  (Q : ℕ → S → List ℝ) (hQ : ∀ k, ∃ B, Table env B (Q k))
include he hn hg0 hg1 ha0 ha1 hR hQ

/-- **C145**, advantage learning: let each table fit the targets computed with the one before (the target network), starting anywhere, with `0 ≤ alpha < 1` and
`gamma < 1` in a process with bounded expected rewards.  There is an optimal table `Qs`.  In every state the best values converge to the optimal ones, the gaps
between the best and any other value converge to the optimal gap divided by `1 - alpha`, and from some iteration on the greedy action is an optimal one. -/
theorem C145_al (h : ∀ k, Fits env gamma (al alpha) (Q k) (Q (k + 1))) :
    ∃ B Qs, Table env B Qs ∧ Optimal env gamma B (fun s => maxQ (Qs s)) (fun s => greedy (Qs s)) ∧
      (∀ s a, a < env.nA → evaluate (Qs s) a = backup env gamma (fun s => maxQ (Qs s)) s a) ∧
      ∀ s, Tendsto (fun k => maxQ (Q k s)) atTop (𝓝 (maxQ (Qs s))) ∧
        (∀ a, a < env.nA → Tendsto (fun k => maxQ (Q k s) - evaluate (Q k s) a) atTop (𝓝 ((maxQ (Qs s) - evaluate (Qs s) a) / (1 - alpha)))) ∧
        ∀ᶠ k in atTop, evaluate (Qs s) (greedy (Q k s)) = maxQ (Qs s) := by
  obtain ⟨B, Qs, hQs, hs⟩ := optimal_exists env he hn gamma R hg0 hg1 hR
  have hbet := al_between env he gamma alpha ha0 Q hQ h
  have hV := fun s => between_tendsto he hg0 hg1 ha0 ha1 hbet hQs hs s
  have hopt := C135_dqn env he gamma B hg0 Qs hQs hs
  have hpos : 0 < 1 - alpha := by linarith
  have hgap : ∀ s a, a < env.nA → Tendsto (fun k => maxQ (Q k s) - evaluate (Q k s) a) atTop
      (𝓝 ((maxQ (Qs s) - evaluate (Qs s) a) / (1 - alpha))) := fun s a ha => by
    have h1 := (tendsto_backup env gamma (fun k s => maxQ (Q k s)) _ hV s a).sub ((hV s).const_mul alpha)
    have h2 := tendsto_linear (y := fun k => evaluate (Q k s) a) ha0 ha1 h1 fun k => by
      obtain ⟨Bk, hk⟩ := hQ k
      rw [al_backup env he gamma alpha Bk _ _ hk (h k) s a ha]
      unfold advantage; ring
    have h3 := (hV s).sub h2
    rw [← hopt.2 s a ha] at h3
    convert h3 using 2
    field_simp
    ring
  refine ⟨B, Qs, hQs, hopt.1, hopt.2, fun s => ⟨hV s, hgap s, greedy_becomes_optimal hQ hQs s fun a ha ε hε => ?_⟩⟩
  refine (hgap s a ha).eventually (eventually_gt_nhds ?_)
  have h4 : 0 ≤ maxQ (Qs s) - evaluate (Qs s) a := sub_nonneg.2 (evaluate_le env B _ hQs s a ha)
  rw [lt_div_iff₀ hpos]
  nlinarith

/-- **C145**, persistent advantage learning: the same, with gaps that in the limit are at least the optimal ones. -/
theorem C145_pal (h : ∀ k, Fits env gamma (pal alpha) (Q k) (Q (k + 1))) :
    ∃ B Qs, Table env B Qs ∧ Optimal env gamma B (fun s => maxQ (Qs s)) (fun s => greedy (Qs s)) ∧
      (∀ s a, a < env.nA → evaluate (Qs s) a = backup env gamma (fun s => maxQ (Qs s)) s a) ∧
      ∀ s, Tendsto (fun k => maxQ (Q k s)) atTop (𝓝 (maxQ (Qs s))) ∧
        (∀ a, a < env.nA → ∀ ε > 0, ∀ᶠ k in atTop,
          maxQ (Qs s) - evaluate (Qs s) a - ε < maxQ (Q k s) - evaluate (Q k s) a) ∧
        ∀ᶠ k in atTop, evaluate (Qs s) (greedy (Q k s)) = maxQ (Qs s) := by
  obtain ⟨B, Qs, hQs, hs⟩ := optimal_exists env he hn gamma R hg0 hg1 hR
  have hbet := pal_between env he gamma alpha ha0 Q hQ h
  have hV := fun s => between_tendsto he hg0 hg1 ha0 ha1 hbet hQs hs s
  have hopt := C135_dqn env he gamma B hg0 Qs hQs hs
  have hgap : ∀ s a, a < env.nA → ∀ ε > 0, ∀ᶠ k in atTop,
      maxQ (Qs s) - evaluate (Qs s) a - ε < maxQ (Q k s) - evaluate (Q k s) a := fun s a ha ε hε => by
    have h1 := tendsto_backup env gamma (fun k s => maxQ (Q k s)) _ hV s a
    rw [← hopt.2 s a ha] at h1
    have h2 := ((tendsto_add_atTop_iff_nat 1).2 (hV s)).sub h1
    have h3 := h2.eventually (eventually_gt_nhds (show maxQ (Qs s) - evaluate (Qs s) a - ε < _ by linarith))
    obtain ⟨N, hN⟩ := eventually_atTop.1 h3
    refine eventually_atTop.2 ⟨N + 1, fun k hk => ?_⟩
    obtain ⟨j, rfl⟩ : ∃ j, k = j + 1 := ⟨k - 1, by omega⟩
    have h4 := hN j (by omega)
    have h5 := hbet.upper j s a ha
    linarith
  exact ⟨B, Qs, hQs, hopt.1, hopt.2, fun s => ⟨hV s, hgap s, greedy_becomes_optimal hQ hQs s (hgap s)⟩⟩

/-- **C145**, double persistent advantage learning, with the online network as its own target network. -/
theorem C145_double_pal (h : ∀ k, Fits env gamma (fun q => doublePal alpha q q) (Q k) (Q (k + 1))) :
    ∃ B Qs, Table env B Qs ∧ Optimal env gamma B (fun s => maxQ (Qs s)) (fun s => greedy (Qs s)) ∧
      (∀ s a, a < env.nA → evaluate (Qs s) a = backup env gamma (fun s => maxQ (Qs s)) s a) ∧
      ∀ s, Tendsto (fun k => maxQ (Q k s)) atTop (𝓝 (maxQ (Qs s))) ∧
        (∀ a, a < env.nA → ∀ ε > 0, ∀ᶠ k in atTop,
          maxQ (Qs s) - evaluate (Qs s) a - ε < maxQ (Q k s) - evaluate (Q k s) a) ∧
        ∀ᶠ k in atTop, evaluate (Qs s) (greedy (Q k s)) = maxQ (Qs s) := by
  rw [doublePal_self] at h
  exact C145_pal env he hn gamma alpha R hg0 hg1 ha0 ha1 hR Q hQ h

end

/-! ### `alpha = 1` -/

/-- One state, two actions that end the episode with rewards 0 and -1. -/
def stopEnv : Env Unit ℝ where
  nA := 2
  outcomes _ a := [(1, ⟨if a = 0 then 0 else -1, (), true⟩)]

theorem stopEnv_valid : stopEnv.Valid := fun s a _ => ⟨by simp [stopEnv], by simp [stopEnv]⟩

/-- The iterates from the zero table for weight `alpha`: the value of the second action. -/
noncomputable def stopTable (alpha : ℝ) (k : ℕ) (_ : Unit) : List ℝ := [0, -((List.range k).map fun i => alpha ^ i).sum]

theorem stop_nonneg {alpha : ℝ} (ha : 0 ≤ alpha) (k : ℕ) : 0 ≤ ((List.range k).map fun i => alpha ^ i).sum :=
  List.sum_nonneg fun x hx => by obtain ⟨i, -, rfl⟩ := List.mem_map.1 hx; positivity

theorem stop_max {alpha : ℝ} (ha : 0 ≤ alpha) (k : ℕ) : maxQ (stopTable alpha k ()) = 0 := by
  have hm := C64_max (stopTable alpha k ()) (by simp [stopTable])
  refine le_antisymm ?_ (hm.2 0 (by simp [stopTable]))
  have h1 := hm.1
  simp only [stopTable, List.mem_cons, List.not_mem_nil, or_false] at h1
  have := stop_nonneg ha k
  rcases h1 with h1 | h1
  · exact h1.le
  · simp only [stopTable]; rw [h1]; linarith

theorem stop_table {alpha : ℝ} (ha : 0 ≤ alpha) (k : ℕ) : ∃ B, Table stopEnv B (stopTable alpha k) := by
  refine ⟨((List.range k).map fun i => alpha ^ i).sum, by simp [stopEnv], fun s => ⟨rfl, fun x hx => ?_⟩⟩
  have := stop_nonneg ha k
  simp only [stopTable, List.mem_cons, List.not_mem_nil, or_false] at hx
  rcases hx with rfl | rfl
  · simpa using this
  · rw [abs_neg, abs_of_nonneg this]

theorem geom_step (alpha : ℝ) (k : ℕ) : ((List.range (k + 1)).map fun i => alpha ^ i).sum = 1 + alpha * ((List.range k).map fun i => alpha ^ i).sum := by
  rw [List.range_succ_eq_map, List.map_cons, List.sum_cons, List.map_map, ← List.sum_map_mul_left, pow_zero]
  congr 3
  funext i
  simp [pow_succ']

theorem stop_fits {alpha : ℝ} (ha : 0 ≤ alpha) (gamma : ℝ) (k : ℕ) : Fits stopEnv gamma (al alpha) (stopTable alpha k) (stopTable alpha (k + 1)) := by
  intro s a h
  have h2 : a < 2 := h
  have hm := stop_max ha k
  refine ⟨fun o => o.reward + alpha * advantage (stopTable alpha k ()) a, fun x hx => ⟨_, rfl, ?_⟩, ?_⟩
  · simp only [stopEnv, List.mem_singleton] at hx
    subst hx
    simp [al, bellman, transition, expReward]
  · have e : evaluate (stopTable alpha (k + 1) s) a = (if a = 0 then 0 else -1) + alpha * advantage (stopTable alpha k ()) a := by
      unfold advantage
      rw [hm]
      have : a = 0 ∨ a = 1 := by omega
      rcases this with rfl | rfl
      · simp [stopTable, evaluate]
      · simp only [stopTable, evaluate]
        rw [show ([0, -((List.range (k + 1)).map fun i => alpha ^ i).sum] : List ℝ)[1]? = some _ from rfl,
          show ([0, -((List.range k).map fun i => alpha ^ i).sum] : List ℝ)[1]? = some _ from rfl, geom_step]
        simp; ring
    rw [e]
    simp [expect, stopEnv]

/-- **C145**: the bound `alpha < 1` that the documentation names is needed.  For `alpha = 1` there is a process with bounded rewards and two actions in which the
values of the iterates decrease without bound. -/
theorem C145_alpha_one : ∃ Q : ℕ → Unit → List ℝ, stopEnv.Valid ∧ (∀ s a, a < stopEnv.nA → |expect (stopEnv.outcomes s a) Outcome.reward| ≤ 1) ∧
    (∀ k, ∃ B, Table stopEnv B (Q k)) ∧ (∀ k, Fits stopEnv 0 (al 1) (Q k) (Q (k + 1))) ∧
    ∀ k, evaluate (Q k ()) 1 = -(k : ℝ) := by
  refine ⟨stopTable 1, stopEnv_valid, fun s a _ => ?_, stop_table zero_le_one, stop_fits zero_le_one 0, fun k => ?_⟩
  · simp only [expect, stopEnv, List.map_cons, List.map_nil, List.sum_cons, List.sum_nil]
    split <;> simp
  · show -((List.range k).map fun i => (1 : ℝ) ^ i).sum = _
    simp

/-- The hypotheses of `C145_al` hold of the same process for `alpha = 9 / 10`. -/
example : ∃ B Qs, Table stopEnv B Qs ∧ ∀ᶠ k in atTop, evaluate (Qs ()) (greedy (stopTable (9 / 10) k ())) = maxQ (Qs ()) := by
  obtain ⟨B, Qs, h1, -, -, h2⟩ := C145_al stopEnv stopEnv_valid (by simp [stopEnv]) (1 / 2) (9 / 10) 1 (by norm_num) (by norm_num)
    (by norm_num) (by norm_num) (fun s a _ => by
      simp only [expect, stopEnv, List.map_cons, List.map_nil, List.sum_cons, List.sum_nil]
      split <;> simp) (stopTable (9 / 10)) (stop_table (by norm_num)) (stop_fits (by norm_num) _)
  exact ⟨B, Qs, h1, (h2 ()).2.2⟩

end Verif.MDP
