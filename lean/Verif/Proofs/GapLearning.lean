import Mathlib.Analysis.SpecificLimits.Basic
import Mathlib.Topology.Algebra.Order.LiminfLimsup
import Mathlib.Topology.Order.MonotoneConvergence
import Verif.Props.Optimality

/-! Iterated targets that lie between those of DQN and those of advantage learning (for C145). -/

set_option autoImplicit false
set_option linter.unusedSectionVars false

open Filter Topology

namespace Verif.MDP
open ActionValue Targets

/-- A linear recursion with converging input. -/
theorem tendsto_linear {α w : ℝ} (h0 : 0 ≤ α) (h1 : α < 1) {u y : ℕ → ℝ} (hu : Tendsto u atTop (𝓝 w))
    (hy : ∀ k, y (k + 1) = u k + α * y k) : Tendsto y atTop (𝓝 (w / (1 - α))) := by
  have hpos : 0 < 1 - α := by linarith
  set z := w / (1 - α) with hz
  have hw : w = z * (1 - α) := by rw [hz]; field_simp
  rw [Metric.tendsto_atTop]
  intro ε hε
  obtain ⟨N, hN⟩ := Metric.tendsto_atTop.1 hu (ε / 2 * (1 - α)) (by positivity)
  have hstep : ∀ j, |y (N + j) - z| ≤ α ^ j * |y N - z| + ε / 2 * (1 - α ^ j) := by
    intro j
    induction j with
    | zero => simp
    | succ j ih =>
      have h2 := hN (N + j) (by omega)
      rw [Real.dist_eq] at h2
      have e : y (N + (j + 1)) - z = (u (N + j) - w) + α * (y (N + j) - z) := by
        rw [← Nat.add_assoc, hy, hw]; ring
      rw [e]
      calc |u (N + j) - w + α * (y (N + j) - z)| ≤ |u (N + j) - w| + α * |y (N + j) - z| := by
            refine (abs_add_le _ _).trans ?_
            rw [abs_mul, abs_of_nonneg h0]
        _ ≤ ε / 2 * (1 - α) + α * (α ^ j * |y N - z| + ε / 2 * (1 - α ^ j)) := by
            have := mul_le_mul_of_nonneg_left ih h0
            linarith
        _ = _ := by ring
  have hpow : Tendsto (fun j : ℕ => α ^ j * |y N - z|) atTop (𝓝 (0 * |y N - z|)) :=
    (tendsto_pow_atTop_nhds_zero_of_lt_one h0 h1).mul_const _
  rw [zero_mul] at hpow
  obtain ⟨J, hJ⟩ := Metric.tendsto_atTop.1 hpow (ε / 2) (by positivity)
  refine ⟨N + J, fun k hk => ?_⟩
  obtain ⟨j, rfl⟩ : ∃ j, k = N + j := ⟨k - N, by omega⟩
  have h3 := hJ j (by omega)
  rw [Real.dist_eq, sub_zero, abs_of_nonneg (by positivity)] at h3
  rw [Real.dist_eq]
  have h4 := hstep j
  have h5 : 0 ≤ ε / 2 * α ^ j := by positivity
  nlinarith

variable {S : Type}

theorem tendsto_expect {α : Type} (l : List (ℝ × α)) (f : ℕ → α → ℝ) (g : α → ℝ)
    (h : ∀ x ∈ l, Tendsto (fun k => f k x.2) atTop (𝓝 (g x.2))) :
    Tendsto (fun k => expect l (f k)) atTop (𝓝 (expect l g)) := by
  unfold expect
  induction l with
  | nil => simp
  | cons x l ih =>
    simp only [List.map_cons, List.sum_cons]
    exact ((h x (by simp)).const_mul x.1).add (ih fun y hy => h y (List.mem_cons_of_mem _ hy))

theorem tendsto_backup (env : Env S ℝ) (gamma : ℝ) (V : ℕ → S → ℝ) (L : S → ℝ)
    (h : ∀ s, Tendsto (fun k => V k s) atTop (𝓝 (L s))) (s : S) (a : ℕ) :
    Tendsto (fun k => backup env gamma (V k) s a) atTop (𝓝 (backup env gamma L s a)) := by
  refine tendsto_expect _ (fun k (o : Outcome S ℝ) => o.reward + if o.done then 0 else gamma * V k o.next) _ fun x _ => ?_
  beta_reduce
  split
  · exact tendsto_const_nhds
  · exact ((h x.2.next).const_mul gamma).const_add _

theorem backup_le (env : Env S ℝ) (he : env.Valid) (gamma : ℝ) (hg : 0 ≤ gamma) (V W : S → ℝ) (δ : ℝ) (hδ : 0 ≤ δ)
    (h : ∀ s, V s ≤ W s + δ) (s : S) (a : ℕ) (ha : a < env.nA) :
    backup env gamma V s a ≤ backup env gamma W s a + gamma * δ := by
  unfold backup
  rw [← expect_add _ (he s a ha)]
  refine expect_mono _ (he s a ha) _ _ fun x _ => ?_
  have := mul_le_mul_of_nonneg_left (h x.2.next) hg
  split
  · have := mul_nonneg hg hδ; linarith
  · linarith

/-- A sequence of tables between the targets of DQN and those of advantage learning. -/
structure Between (env : Env S ℝ) (gamma alpha : ℝ) (Q : ℕ → S → List ℝ) : Prop where
  table : ∀ k, ∃ B, Table env B (Q k)
  upper : ∀ k s a, a < env.nA → evaluate (Q (k + 1) s) a ≤ backup env gamma (fun s => maxQ (Q k s)) s a
  lower : ∀ k s a, a < env.nA →
    backup env gamma (fun s => maxQ (Q k s)) s a + alpha * advantage (Q k s) a ≤ evaluate (Q (k + 1) s) a

section
variable {env : Env S ℝ} (he : env.Valid) {gamma alpha : ℝ} (hg0 : 0 ≤ gamma) (hg1 : gamma < 1) (ha0 : 0 ≤ alpha)
  (ha1 : alpha < 1) {Q : ℕ → S → List ℝ} (hQ : Between env gamma alpha Q) {Qs : S → List ℝ} {B : ℝ}
  (hQs : Table env B Qs) (hs : MeetsTargets env gamma dqn Qs)
include he hg0 hQ hQs hs

theorem between_upper {δ : ℝ} (hδ : 0 ≤ δ) (h0 : ∀ s, maxQ (Q 0 s) ≤ maxQ (Qs s) + δ) (k : ℕ) :
    ∀ s, maxQ (Q k s) ≤ maxQ (Qs s) + gamma ^ k * δ := by
  induction k with
  | zero => simpa using h0
  | succ k ih =>
    intro s
    obtain ⟨Bk, hk⟩ := hQ.table (k + 1)
    have hlt := greedy_lt env Bk _ hk s
    have h1 := hQ.upper k s _ hlt
    have h2 := backup_le env he gamma hg0 _ _ _ (mul_nonneg (pow_nonneg hg0 k) hδ) ih s _ hlt
    rw [← dqn_backup env gamma B Qs Qs hQs hs s _ hlt] at h2
    have h3 := evaluate_le env B Qs hQs s _ hlt
    have h4 : maxQ (Q (k + 1) s) = evaluate (Q (k + 1) s) (greedy (Q (k + 1) s)) := rfl
    rw [h4, pow_succ', mul_assoc]
    linarith

/-- The best value after the next iteration is at least what the best action of this one promises. -/
theorem between_step (k : ℕ) (s : S) :
    backup env gamma (fun s => maxQ (Q k s)) s (greedy (Q k s)) ≤ maxQ (Q (k + 1) s) := by
  obtain ⟨Bk, hk⟩ := hQ.table k
  obtain ⟨Bk1, hk1⟩ := hQ.table (k + 1)
  have hlt := greedy_lt env Bk _ hk s
  have h1 := hQ.lower k s _ hlt
  rw [(C64_advantage (Q k s) (row_ne env Bk _ hk s)).2, mul_zero, add_zero] at h1
  exact h1.trans (evaluate_le env Bk1 _ hk1 s _ hlt)

theorem between_increase {M : ℝ} (hM : 0 ≤ M) (h0 : ∀ s, maxQ (Q 0 s) ≤ maxQ (Q 1 s) + M) (k : ℕ) :
    ∀ s, maxQ (Q k s) ≤ maxQ (Q (k + 1) s) + gamma ^ k * M := by
  induction k with
  | zero => simpa using h0
  | succ k ih =>
    intro s
    obtain ⟨Bk, hk⟩ := hQ.table (k + 1)
    have hlt := greedy_lt env Bk _ hk s
    have h1 := hQ.upper k s _ hlt
    have h2 := backup_le env he gamma hg0 _ _ _ (mul_nonneg (pow_nonneg hg0 k) hM) ih s _ hlt
    have h3 := between_step he hg0 hQ hQs hs (k + 1) s
    have h4 : maxQ (Q (k + 1) s) = evaluate (Q (k + 1) s) (greedy (Q (k + 1) s)) := rfl
    rw [h4, pow_succ', mul_assoc]
    linarith

include hg1 ha0 ha1

/-- The best values converge to the optimal ones. -/
theorem between_tendsto (s : S) : Tendsto (fun k => maxQ (Q k s)) atTop (𝓝 (maxQ (Qs s))) := by
  obtain ⟨B0, hB0⟩ := hQ.table 0
  have hb0 := max_bound env B0 _ hB0
  have hbs := max_bound env B _ hQs
  have hB0n : 0 ≤ B0 := (abs_nonneg _).trans (hb0 s)
  have hBn : 0 ≤ B := (abs_nonneg _).trans (hbs s)
  have hpos : 0 < 1 - gamma := by linarith
  -- bounds
  have hup := between_upper he hg0 hQ hQs hs (δ := B0 + B) (by linarith) (fun s => by
    have := (abs_le.1 (hb0 s)).2; have := (abs_le.1 (hbs s)).1; linarith)
  set M := 2 * (B0 + B) with hM
  have hMn : 0 ≤ M := by linarith
  have hinc := between_increase he hg0 hQ hQs hs (M := M) hMn (fun s => by
    have hlt := greedy_lt env B0 _ hB0 s
    have h1 := between_step he hg0 hQ hQs hs 0 s
    have h2 := backup_le env he gamma hg0 (fun s => maxQ (Qs s)) (fun s => maxQ (Q 0 s)) (B0 + B) (by linarith)
      (fun s => by have := (abs_le.1 (hb0 s)).1; have := (abs_le.1 (hbs s)).2; linarith) s _ hlt
    rw [← dqn_backup env gamma B Qs Qs hQs hs s _ hlt] at h2
    have h3 : |evaluate (Qs s) (greedy (Q 0 s))| ≤ B := by
      have hl : greedy (Q 0 s) < (Qs s).length := by rw [(hQs.2 s).1]; exact hlt
      have : evaluate (Qs s) (greedy (Q 0 s)) = (Qs s)[greedy (Q 0 s)] := by simp [evaluate, hl]
      rw [this]
      exact (hQs.2 s).2 _ (List.getElem_mem _)
    have h4 := (abs_le.1 h3).1
    have h5 := (abs_le.1 (hb0 s)).2
    have h6 : gamma * (B0 + B) ≤ B0 + B := by nlinarith
    linarith)
  -- pointwise limit
  have hmono : ∀ s, Monotone fun k => maxQ (Q k s) - gamma ^ k * (M / (1 - gamma)) := fun s => by
    refine monotone_nat_of_le_succ fun k => ?_
    have h1 := hinc k s
    have h2 : gamma ^ k * (M / (1 - gamma)) - gamma ^ (k + 1) * (M / (1 - gamma)) = gamma ^ k * M := by
      rw [pow_succ]; field_simp
    linarith
  have hbdd : ∀ s, BddAbove (Set.range fun k => maxQ (Q k s) - gamma ^ k * (M / (1 - gamma))) := fun s => by
    refine ⟨maxQ (Qs s) + (B0 + B), ?_⟩
    rintro _ ⟨k, rfl⟩
    have h1 := hup k s
    have h2 : gamma ^ k * (B0 + B) ≤ 1 * (B0 + B) :=
      mul_le_mul_of_nonneg_right (pow_le_one₀ hg0 hg1.le) (by linarith)
    have h3 : 0 ≤ gamma ^ k * (M / (1 - gamma)) := by positivity
    simp only
    linarith
  have hpow : Tendsto (fun k : ℕ => gamma ^ k * (M / (1 - gamma))) atTop (𝓝 0) := by
    have := (tendsto_pow_atTop_nhds_zero_of_lt_one hg0 hg1).mul_const (M / (1 - gamma))
    rwa [zero_mul] at this
  have hlim : ∀ s, ∃ L, Tendsto (fun k => maxQ (Q k s)) atTop (𝓝 L) := fun s => by
    have h1 := tendsto_atTop_ciSup (hmono s) (hbdd s)
    exact ⟨_, by simpa using h1.add hpow⟩
  choose L hL using hlim
  -- the limit is at most the optimum
  have hLe : ∀ s, L s ≤ maxQ (Qs s) := fun s => by
    have h1 : Tendsto (fun k : ℕ => maxQ (Qs s) + gamma ^ k * (B0 + B)) atTop (𝓝 (maxQ (Qs s) + 0 * (B0 + B))) :=
      ((tendsto_pow_atTop_nhds_zero_of_lt_one hg0 hg1).mul_const _).const_add _
    rw [zero_mul, add_zero] at h1
    exact le_of_tendsto_of_tendsto' (hL s) h1 fun k => hup k s
  -- and satisfies the optimality inequality
  have hbk : ∀ s a, a < env.nA → backup env gamma L s a ≤ L s := fun s a ha => by
    have hu := (tendsto_backup env gamma (fun k s => maxQ (Q k s)) L hL s a).sub ((hL s).const_mul alpha)
    let y : ℕ → ℝ := fun k => Nat.rec (evaluate (Q 0 s) a)
      (fun k y => (backup env gamma (fun s => maxQ (Q k s)) s a - alpha * maxQ (Q k s)) + alpha * y) k
    have hy : Tendsto y atTop (𝓝 ((backup env gamma L s a - alpha * L s) / (1 - alpha))) :=
      tendsto_linear ha0 ha1 hu fun k => rfl
    have hle : ∀ k, y k ≤ evaluate (Q k s) a := by
      intro k
      induction k with
      | zero => exact le_rfl
      | succ k ih =>
        have h1 := hQ.lower k s a ha
        have h2 := mul_le_mul_of_nonneg_left ih ha0
        unfold advantage at h1
        show (backup env gamma (fun s => maxQ (Q k s)) s a - alpha * maxQ (Q k s)) + alpha * y k ≤ _
        linarith
    have hle2 : ∀ k, y k ≤ maxQ (Q k s) := fun k => by
      obtain ⟨Bk, hk⟩ := hQ.table k
      exact (hle k).trans (evaluate_le env Bk _ hk s a ha)
    have h3 := le_of_tendsto_of_tendsto' hy (hL s) hle2
    rw [div_le_iff₀ (by linarith)] at h3
    linarith
  -- so it is the optimum
  have hlow : ∀ s, maxQ (Q 0 s) - M / (1 - gamma) ≤ L s := fun s => by
    have h1 : Tendsto (fun k => maxQ (Q k s) - gamma ^ k * (M / (1 - gamma))) atTop (𝓝 (L s - 0)) := (hL s).sub hpow
    rw [sub_zero] at h1
    have := (hmono s).ge_of_tendsto h1 0
    simpa using this
  have hC : ∀ n : ℕ, ∀ s, maxQ (Qs s) ≤ L s + gamma ^ n * (B + B0 + M / (1 - gamma)) := by
    have hCn : 0 ≤ B + B0 + M / (1 - gamma) := by positivity
    intro n
    induction n with
    | zero =>
      intro s
      have h1 := hlow s
      have := (abs_le.1 (hb0 s)).1
      have := (abs_le.1 (hbs s)).2
      simp; linarith
    | succ n ih =>
      intro s
      have hlt := greedy_lt env B _ hQs s
      have h1 := backup_le env he gamma hg0 _ _ _ (mul_nonneg (pow_nonneg hg0 n) hCn) ih s _ hlt
      rw [← dqn_backup env gamma B Qs Qs hQs hs s _ hlt] at h1
      have h2 := hbk s _ hlt
      have h4 : maxQ (Qs s) = evaluate (Qs s) (greedy (Qs s)) := rfl
      rw [pow_succ', mul_assoc, h4]
      linarith
  have hge : maxQ (Qs s) ≤ L s := by
    have h1 : Tendsto (fun n : ℕ => L s + gamma ^ n * (B + B0 + M / (1 - gamma))) atTop
        (𝓝 (L s + 0 * (B + B0 + M / (1 - gamma)))) :=
      ((tendsto_pow_atTop_nhds_zero_of_lt_one hg0 hg1).mul_const _).const_add _
    rw [zero_mul, add_zero] at h1
    exact ge_of_tendsto' h1 fun n => hC n s
  rw [le_antisymm hge (hLe s)]
  exact hL s

end

end Verif.MDP
