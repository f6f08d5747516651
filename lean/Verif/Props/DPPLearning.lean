import Verif.Proofs.DPPLearning

/-!
C146: iterating the targets of DPP, DPPL and DPPGreedy.

After `k` iterations the value of an action is minus `k` times what it loses against the optimal action, up to a constant; so the greedy policy loses at most
a constant divided by `k`, and the softmax policy almost never chooses an action that is not optimal.
-/

set_option autoImplicit false
set_option linter.unusedSectionVars false

namespace Verif.MDP
open ActionValue Targets DPPOperators

variable {S : Type}

/-- After each number `k` of iterations the tables `Q k` are, up to `M`, minus `k` times the loss of the actions under the optimal table `Qs`;
the greedy action of `Q k` is optimal up to `2 * M / k`, and following it loses at most `2 * M / (k * (1 - gamma))` of the best possible return. -/
structure Learns (env : Env S ℝ) (gamma B : ℝ) (Q : ℕ → S → List ℝ) (Qs : S → List ℝ) (M : ℝ) : Prop where
  optimal : Optimal env gamma B (fun s => maxQ (Qs s)) (fun s => greedy (Qs s))
  values : ∀ s a, a < env.nA → evaluate (Qs s) a = backup env gamma (fun s => maxQ (Qs s)) s a
  close : ∀ k s a, a < env.nA → |evaluate (Q k s) a + k * (maxQ (Qs s) - evaluate (Qs s) a)| ≤ M
  greedy : ∀ (k : ℕ) s, 0 < k → maxQ (Qs s) - 2 * M / k ≤ evaluate (Qs s) (greedy (Q k s))
  gain : ∀ (k : ℕ), 0 < k → ∀ n l s,
    maxQ (Qs s) - 2 * M / k / (1 - gamma) - gamma ^ n * B ≤ ret env gamma (fun _ s => [(1, ActionValue.greedy (Q k s))]) n l s

section
variable (env : Env S ℝ) (he : env.Valid) (hn : 0 < env.nA) (gamma R b : ℝ) (hg0 : 0 ≤ gamma) (hg1 : gamma < 1)
  (hR : ∀ s a, a < env.nA → |expect (env.outcomes s a) Outcome.reward| ≤ R)
  (Q : ℕ → S → List ℝ) (hlen : ∀ k s, (Q k s).length = env.nA) (hb : 0 ≤ b) (h0 : ∀ s, ∀ x ∈ Q 0 s, |x| ≤ b)
include he hn hg0 hg1 hR hlen hb h0

/-- **C146**, any operator that stays within `c` of the maximum. -/
theorem C146_operator (L : List ℝ → ℝ) (c : ℝ) (hc : 0 ≤ c) (hL : ∀ q : List ℝ, q.length = env.nA → |L q - maxQ q| ≤ c)
    (h : ∀ k, Fits env gamma (dpp L) (Q k) (Q (k + 1))) :
    ∃ B Qs, Table env B Qs ∧ 0 ≤ B ∧ Learns env gamma B Q Qs (b + (1 + gamma) * ((b + B + c) / (1 - gamma))) := by
  obtain ⟨B, Qs, hQs, hs⟩ := optimal_exists env he hn gamma R hg0 hg1 hR
  by_cases hS : Nonempty S
  swap
  · have hS : IsEmpty S := not_nonempty_iff.1 hS
    exact ⟨0, Qs, ⟨hn, fun s => isEmptyElim s⟩, le_rfl,
      ⟨fun _ _ _ _ s => isEmptyElim s, fun _ _ s => isEmptyElim s⟩, fun s => isEmptyElim s, fun _ s => isEmptyElim s, fun _ s => isEmptyElim s,
      fun _ _ _ _ s => isEmptyElim s⟩
  obtain ⟨s0⟩ := hS
  have hB : 0 ≤ B := (abs_nonneg _).trans (max_bound env B Qs hQs s0)
  have hopt := C135_dqn env he gamma B hg0 Qs hQs hs
  have hpos : 0 < 1 - gamma := by linarith
  have hclose := dpp_values he hg0 hg1 hlen (fun k s => hL _ (hlen k s)) h0 h hQs hs hc hb hB
  set M := b + (1 + gamma) * ((b + B + c) / (1 - gamma)) with hM
  have hM0 : 0 ≤ M := by positivity
  have hlt : ∀ k s, ActionValue.greedy (Q k s) < env.nA := fun k s => by
    have hne : Q k s ≠ [] := fun e => by
      have := hlen k s
      rw [e] at this
      simp at this; omega
    obtain ⟨v, h1, -⟩ := C64_greedy (Q k s) hne
    have := (List.getElem?_eq_some_iff.1 h1).1
    rwa [hlen] at this
  have hgreedy : ∀ (k : ℕ) s, 0 < k → maxQ (Qs s) - 2 * M / k ≤ evaluate (Qs s) (ActionValue.greedy (Q k s)) := fun k s hk => by
    have hk' : (0 : ℝ) < k := by exact_mod_cast hk
    have hne : Q k s ≠ [] := fun e => by
      have := hlen k s
      rw [e] at this
      simp at this; omega
    have h1 := abs_le.1 (hclose k s _ (hlt k s))
    have h2 := abs_le.1 (hclose k s _ (greedy_lt env B Qs hQs s))
    have h3 : evaluate (Qs s) (ActionValue.greedy (Qs s)) = maxQ (Qs s) := rfl
    have h4 : evaluate (Q k s) (ActionValue.greedy (Qs s)) ≤ evaluate (Q k s) (ActionValue.greedy (Q k s)) := by
      have := (C64_advantage (Q k s) hne).1 (ActionValue.greedy (Qs s)) (by rw [hlen]; exact greedy_lt env B Qs hQs s)
      unfold advantage at this
      have e : evaluate (Q k s) (ActionValue.greedy (Q k s)) = maxQ (Q k s) := rfl
      rw [e]; linarith
    rw [h3] at h2
    rw [sub_le_comm, le_div_iff₀ hk']
    nlinarith [h1.2, h2.1]
  refine ⟨B, Qs, hQs, hB, hopt.1, hopt.2, hclose, hgreedy, fun k hk => ?_⟩
  have hk' : (0 : ℝ) < k := by exact_mod_cast hk
  refine near_optimal env he gamma B (2 * M / k) hg0 hg1 (by positivity) (fun s => maxQ (Qs s)) (max_bound env B Qs hQs) _ (hlt k) fun s => ?_
  rw [← hopt.2 s _ (hlt k s)]
  exact hgreedy k s hk

/-- **C146**, DPP: let each table fit the targets computed with the one before (the target network), starting with values of at most `b`, in a process with bounded
expected rewards. -/
theorem C146_dpp (eta : ℝ) (heta : 0 < eta) (h : ∀ k, Fits env gamma (dpp (soft eta)) (Q k) (Q (k + 1))) :
    ∃ B Qs, Table env B Qs ∧ 0 ≤ B ∧ Learns env gamma B Q Qs (b + (1 + gamma) * ((b + B + Real.log env.nA / eta) / (1 - gamma))) := by
  have hlog : 0 ≤ Real.log env.nA / eta := div_nonneg (Real.log_natCast_nonneg _) heta.le
  refine C146_operator env he hn gamma R b hg0 hg1 hR Q hlen hb h0 _ _ hlog (fun q hq => ?_) h
  obtain ⟨-, h1, h2, -, -⟩ := C134_operators eta heta q (fun e => by rw [e] at hq; simp at hq; omega)
  rw [hq] at h1
  unfold hard at h1 h2
  rw [abs_le]; constructor <;> linarith

/-- **C146**, DPPL. -/
theorem C146_dppl (eta : ℝ) (heta : 0 < eta) (h : ∀ k, Fits env gamma (dpp (logSum eta)) (Q k) (Q (k + 1))) :
    ∃ B Qs, Table env B Qs ∧ 0 ≤ B ∧ Learns env gamma B Q Qs (b + (1 + gamma) * ((b + B + Real.log env.nA / eta) / (1 - gamma))) := by
  have hlog : 0 ≤ Real.log env.nA / eta := div_nonneg (Real.log_natCast_nonneg _) heta.le
  refine C146_operator env he hn gamma R b hg0 hg1 hR Q hlen hb h0 _ _ hlog (fun q hq => ?_) h
  obtain ⟨-, -, -, h1, h2⟩ := C134_operators eta heta q (fun e => by rw [e] at hq; simp at hq; omega)
  rw [hq] at h2
  unfold hard at h1 h2
  rw [abs_le]; constructor <;> linarith

/-- **C146**, DPPGreedy, whose targets need no positive constant. -/
theorem C146_greedy (h : ∀ k, Fits env gamma (dpp hard) (Q k) (Q (k + 1))) :
    ∃ B Qs, Table env B Qs ∧ 0 ≤ B ∧ Learns env gamma B Q Qs (b + (1 + gamma) * ((b + B) / (1 - gamma))) := by
  have := C146_operator env he hn gamma R b hg0 hg1 hR Q hlen hb h0 hard 0 le_rfl (fun q _ => by simp [hard]) h
  simpa using this

end

/-- **C146**, consequence: from some iteration on, which depends only on the gap, an action that loses at least `Δ` against the optimal action is not greedy. -/
theorem C146_eventually_optimal (env : Env S ℝ) (gamma B M Δ : ℝ) (Q : ℕ → S → List ℝ) (Qs : S → List ℝ)
    (h : Learns env gamma B Q Qs M) (hΔ : 0 < Δ) (s : S) (hgap : ∀ a, a < env.nA → evaluate (Qs s) a = maxQ (Qs s) ∨ evaluate (Qs s) a ≤ maxQ (Qs s) - Δ)
    (k : ℕ) (hk : 2 * M / Δ < k) (hk0 : 0 < k) (hlt : greedy (Q k s) < env.nA) : evaluate (Qs s) (greedy (Q k s)) = maxQ (Qs s) := by
  have hk' : (0 : ℝ) < k := by exact_mod_cast hk0
  have h1 := h.greedy k s hk0
  rcases hgap _ hlt with h2 | h2
  · exact h2
  · exfalso
    rw [div_lt_iff₀ hΔ] at hk
    have h3 : Δ ≤ 2 * M / k := by linarith
    rw [le_div_iff₀ hk'] at h3
    linarith

/-- **C146**, consequence: the softmax policy of the table (with the same `eta`, any positive number) chooses an action that loses `Δ` against the optimal action with
a probability of at most `exp (-eta * (k * Δ - 2 * M))`. -/
theorem C146_softmax (env : Env S ℝ) (gamma B M eta : ℝ) (heta : 0 < eta) (Q : ℕ → S → List ℝ) (Qs : S → List ℝ) (hQs : Table env B Qs)
    (hlen : ∀ k s, (Q k s).length = env.nA) (h : Learns env gamma B Q Qs M) (k : ℕ) (s : S) (a : ℕ) (ha : a < env.nA) :
    evaluate (QHeads.softmaxRow ((Q k s).map (eta * ·))) a ≤ Real.exp (-eta * (k * (maxQ (Qs s) - evaluate (Qs s) a) - 2 * M)) := by
  have hg := greedy_lt env B Qs hQs s
  have h1 := (abs_le.1 (h.close k s a ha)).2
  have h2 := (abs_le.1 (h.close k s _ hg)).1
  rw [show evaluate (Qs s) (greedy (Qs s)) = maxQ (Qs s) from rfl, sub_self, mul_zero, add_zero] at h2
  have hla : a < (Q k s).length := by rw [hlen]; exact ha
  have hlg : greedy (Qs s) < (Q k s).length := by rw [hlen]; exact hg
  have ea : evaluate (Q k s) a = (Q k s)[a] := by simp [evaluate, hla]
  have eg : evaluate (Q k s) (greedy (Qs s)) = (Q k s)[greedy (Qs s)] := by simp [evaluate, hlg]
  have e : evaluate (QHeads.softmaxRow ((Q k s).map (eta * ·))) a = Real.exp (eta * evaluate (Q k s) a) / expSum eta (Q k s) := by
    rw [ea]
    simp [evaluate, QHeads.softmaxRow, hla, expSum, Function.comp_def]
  have hsum : Real.exp (eta * evaluate (Q k s) (greedy (Qs s))) ≤ expSum eta (Q k s) := by
    refine List.single_le_sum ?_ _ (List.mem_map.2 ⟨_, ?_, rfl⟩)
    · intro x hx
      obtain ⟨y, -, rfl⟩ := List.mem_map.1 hx
      exact (Real.exp_pos _).le
    · rw [eg]; exact List.getElem_mem hlg
  rw [e, div_le_iff₀ (lt_of_lt_of_le (Real.exp_pos _) hsum)]
  refine le_trans ?_ (mul_le_mul_of_nonneg_left hsum (Real.exp_pos _).le)
  rw [← Real.exp_add, Real.exp_le_exp]
  nlinarith [mul_le_mul_of_nonneg_left (sub_nonneg.2 (show evaluate (Q k s) a - evaluate (Q k s) (greedy (Qs s)) ≤
    2 * M - k * (maxQ (Qs s) - evaluate (Qs s) a) by linarith)) heta.le]

/-! ### A case -/

/-- The iterates of `DPPGreedy` in `stopEnv` from the zero table: the second action loses 1. -/
noncomputable def stopDpp (k : ℕ) (_ : Unit) : List ℝ := [0, -(k : ℝ)]

theorem stopDpp_max (k : ℕ) : maxQ (stopDpp k ()) = 0 := by
  have hm := C64_max (stopDpp k ()) (by simp [stopDpp])
  have hk : (0 : ℝ) ≤ k := Nat.cast_nonneg k
  refine le_antisymm ?_ (hm.2 0 (by simp [stopDpp]))
  have h1 := hm.1
  simp only [stopDpp, List.mem_cons, List.not_mem_nil, or_false] at h1
  rcases h1 with h1 | h1
  · exact h1.le
  · simp only [stopDpp]; rw [h1]; linarith

/-- The hypotheses of `C146_greedy` are met; the values of the second action do decrease without bound, as claimed. -/
example : ∃ B Qs, Table stopEnv B Qs ∧ 0 ≤ B ∧ Learns stopEnv (1 / 2) B stopDpp Qs (0 + (1 + 1 / 2) * ((0 + B) / (1 - 1 / 2))) := by
  refine C146_greedy stopEnv stopEnv_valid (by simp [stopEnv]) (1 / 2) 1 0 (by norm_num) (by norm_num) (fun s a _ => ?_) stopDpp (fun k s => rfl) le_rfl
    (fun s x hx => ?_) fun k s a ha => ?_
  · simp only [expect, stopEnv, List.map_cons, List.map_nil, List.sum_cons, List.sum_nil]
    split <;> simp
  · simp only [stopDpp, List.mem_cons, List.not_mem_nil, or_false] at hx
    rcases hx with rfl | rfl <;> simp
  · have h2 : a < 2 := ha
    have hm := stopDpp_max k
    refine ⟨fun o => evaluate (stopDpp k ()) a + o.reward - hard (stopDpp k ()), fun x hx => ⟨_, rfl, ?_⟩, ?_⟩
    · simp only [stopEnv, List.mem_singleton] at hx
      subst hx
      simp [dpp, bellman, transition, expReward]
    · simp only [hard, hm]
      have : a = 0 ∨ a = 1 := by omega
      rcases this with rfl | rfl
      · simp [stopDpp, evaluate, expect, stopEnv]
      · simp [stopDpp, evaluate, expect, stopEnv]; ring

end Verif.MDP
