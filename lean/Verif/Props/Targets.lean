import Mathlib.Tactic.NormNum
import Mathlib.Tactic.Ring
import Verif.Model.Targets
import Verif.Spec.Targets
import Verif.Props.ActionValue
import Verif.Props.BatchExperiences
set_option autoImplicit false

/-! # C44, C45: bootstrap targets -/

namespace Verif.Targets
open ActionValue
variable {S F A K : Type} [Field K] [LinearOrder K]

/-- The rows of a batch (from C16). -/
theorem batch_row (phi : S → F) (gamma : K) (exps : List (List (Transition S A K)))
    (b : ExpBatch F A K) (hb : batchExperiences phi gamma exps = .ok b) :
    (∀ e ∈ exps, e ≠ []) ∧
    b.reward = exps.map (fun e => discounted gamma (e.map (fun t => t.reward))) ∧
    b.terminal = exps.map (fun e => if ∃ t ∈ e, t.terminal = true then 1 else 0) ∧
    b.discount = exps.map (fun e => gamma ^ e.length) ∧
    b.state.length = exps.length ∧ b.action.length = exps.length ∧ b.nextState.length = exps.length ∧
    (∀ (k : Nat) e t₀ t, exps[k]? = some e → e.head? = some t₀ → e.getLast? = some t →
      b.state[k]? = some (phi t₀.state) ∧ b.action[k]? = some t₀.action ∧
      b.nextState[k]? = some (phi t.nextState)) := by
  have hne : ∀ e ∈ exps, e ≠ [] := by
    intro e he h
    subst h
    rw [C16_empty_entry phi gamma exps he] at hb
    simp at hb
  obtain ⟨b', h0, h1, h2, h3, h4, h5, h6, -, -⟩ := C16_batch_rows phi gamma exps hne
  rw [hb] at h0
  simp only [Except.ok.injEq] at h0
  subst h0
  refine ⟨hne, h3, h5, h6, by simpa using congrArg List.length h1,
    by simpa using congrArg List.length h2, by simpa using congrArg List.length h4, ?_⟩
  intro k e t₀ t he h₀ ht
  have g1 := congrArg (fun l => l[k]?) h1
  have g2 := congrArg (fun l => l[k]?) h2
  have g4 := congrArg (fun l => l[k]?) h4
  simp only [List.getElem?_map, he, Option.map_some, h₀, ht] at g1 g2 g4
  refine ⟨?_, ?_, ?_⟩
  · rcases hs : b.state[k]? with _ | x
    · rw [hs] at g1; simp at g1
    · rw [hs] at g1; simpa using g1
  · rcases hs : b.action[k]? with _ | x
    · rw [hs] at g2; simp at g2
    · rw [hs] at g2; simpa using g2
  · rcases hs : b.nextState[k]? with _ | x
    · rw [hs] at g4; simp at g4
    · rw [hs] at g4; simpa using g4

/-- The common expression, row by row. -/
theorem bellman_row (phi : S → F) (gamma : K) (exps : List (List (Transition S A K)))
    (b : ExpBatch F A K) (hb : batchExperiences phi gamma exps = .ok b) (nextQ : List K)
    (hn : nextQ.length = exps.length) :
    (bellman b b.discount nextQ).length = exps.length ∧
    ∀ (k : Nat) e v, exps[k]? = some e → nextQ[k]? = some v →
      (bellman b b.discount nextQ)[k]? = some (nStepTarget gamma e v) := by
  obtain ⟨-, h3, h5, h6, -⟩ := batch_row phi gamma exps b hb
  constructor
  · simp [bellman, h3, h5, h6, hn]
  · intro k e v he hv
    simp only [bellman, List.getElem?_zipWith, h3, h5, h6, List.getElem?_map, he, hv, Option.map_some,
      Option.some.injEq, nStepTarget]
    by_cases hT : ∃ t ∈ e, t.terminal = true
    · rw [if_pos hT, if_pos hT]; ring
    · rw [if_neg hT, if_neg hT]; ring

/-- Targets that are the common expression with next-state values `nextQ`. -/
theorem rows_of_next (phi : S → F) (gamma : K) (exps : List (List (Transition S A K)))
    (b : ExpBatch F A K) (hb : batchExperiences phi gamma exps = .ok b) (nextQ : List K)
    (hn : nextQ.length = exps.length)
    (P : List (Transition S A K) → Transition S A K → Transition S A K → K → Prop)
    (hP : ∀ (k : Nat) e t₀ t v, exps[k]? = some e → e.head? = some t₀ → e.getLast? = some t →
      nextQ[k]? = some v → P e t₀ t (nStepTarget gamma e v)) :
    Rows exps (bellman b b.discount nextQ) P := by
  obtain ⟨h1, h2⟩ := bellman_row phi gamma exps b hb nextQ hn
  refine ⟨h1, ?_⟩
  intro k e t₀ t he h₀ ht
  have hk : k < nextQ.length := by rw [hn]; exact (List.getElem?_eq_some_iff.1 he).1
  have hv : nextQ[k]? = some nextQ[k] := by simp [hk]
  exact ⟨_, h2 k e _ he hv, hP k e t₀ t _ he h₀ ht hv⟩

/-- **C44**, DQN: each target is the n-step target with the largest target-network
value of the entry's last next state. -/
theorem C44_dqn (phi : S → F) (gamma : K) (exps : List (List (Transition S A K)))
    (b : ExpBatch F A K) (hb : batchExperiences phi gamma exps = .ok b)
    (qt : F → List K) (hq : ∀ s, qt s ≠ []) :
    Rows exps (dqn qt b) (fun e _ t y =>
      ∃ v, IsMaxOf v (qt (phi t.nextState)) ∧ y = nStepTarget gamma e v) := by
  obtain ⟨-, -, -, -, -, -, hl, hr⟩ := batch_row phi gamma exps b hb
  refine rows_of_next phi gamma exps b hb _ (by simp [hl]) _ ?_
  intro k e t₀ t v he h₀ ht hv
  rw [List.getElem?_map, (hr k e t₀ t he h₀ ht).2.2] at hv
  simp only [Option.map_some, Option.some.injEq] at hv
  exact ⟨v, hv ▸ C64_max _ (hq _), rfl⟩

/-- **C44**, residual DQN: as DQN with the model in place of the target network. -/
theorem C44_residual_dqn (phi : S → F) (gamma : K) (exps : List (List (Transition S A K)))
    (b : ExpBatch F A K) (hb : batchExperiences phi gamma exps = .ok b)
    (q : F → List K) (hq : ∀ s, q s ≠ []) :
    Rows exps (residualDqn q b) (fun e _ t y =>
      ∃ v, IsMaxOf v (q (phi t.nextState)) ∧ y = nStepTarget gamma e v) :=
  C44_dqn phi gamma exps b hb q hq

/-- **C44**, Double DQN: the next-state value is the target network's value of an
action that is greedy for the model. -/
theorem C44_double_dqn (phi : S → F) (gamma : K) (exps : List (List (Transition S A K)))
    (b : ExpBatch F A K) (hb : batchExperiences phi gamma exps = .ok b)
    (q qt : F → List K) (hq : ∀ s, q s ≠ []) (hqt : ∀ s, (qt s).length = (q s).length) :
    Rows exps (doubleDqn q qt b) (fun e _ t y =>
      ∃ (a : Nat) (m v : K), (q (phi t.nextState))[a]? = some m ∧ IsMaxOf m (q (phi t.nextState)) ∧
        (qt (phi t.nextState))[a]? = some v ∧ y = nStepTarget gamma e v) := by
  obtain ⟨-, -, -, -, -, -, hl, hr⟩ := batch_row phi gamma exps b hb
  refine rows_of_next phi gamma exps b hb _ (by simp [hl]) _ ?_
  intro k e t₀ t v he h₀ ht hv
  rw [List.getElem?_map, (hr k e t₀ t he h₀ ht).2.2] at hv
  simp only [Option.map_some, Option.some.injEq] at hv
  obtain ⟨m, h1, h2, -⟩ := C64_greedy _ (hq (phi t.nextState))
  have hlt : greedy (q (phi t.nextState)) < (qt (phi t.nextState)).length := by
    rw [hqt]; exact (List.getElem?_eq_some_iff.1 h1).1
  refine ⟨greedy (q (phi t.nextState)), m, v, h1, h2, ?_, rfl⟩
  simp only [evaluate] at hv
  rw [← hv]; simp [hlt]

/-- **C44**, SARSA: the next-state value is the target network's value of the
action that the explorer selected for that entry. -/
theorem C44_sarsa (phi : S → F) (gamma : K) (exps : List (List (Transition S A K)))
    (b : ExpBatch F A K) (hb : batchExperiences phi gamma exps = .ok b)
    (qt : F → List K) (acts : List Nat) (hacts : acts.length = exps.length) :
    (sarsa qt acts b).length = exps.length ∧
    ∀ (k : Nat) e t a v, exps[k]? = some e → e.getLast? = some t → acts[k]? = some a →
      (qt (phi t.nextState))[a]? = some v → (sarsa qt acts b)[k]? = some (nStepTarget gamma e v) := by
  obtain ⟨hne, -, -, -, -, -, hl, hr⟩ := batch_row phi gamma exps b hb
  obtain ⟨h1, h2⟩ := bellman_row phi gamma exps b hb
    (List.zipWith (fun s a => evaluate (qt s) a) b.nextState acts) (by simp [hl, hacts])
  refine ⟨h1, ?_⟩
  intro k e t a v he ht ha hv
  have h₀ : e.head? = some (e.head (hne e (List.mem_of_getElem? he))) := List.head?_eq_some_head _
  refine h2 k e v he ?_
  rw [List.getElem?_zipWith, (hr k e _ t he h₀ ht).2.2, ha]
  simp [evaluate, hv]

/-- **C44**, TD3: the next-state value is the minimum of the two target
Q-functions at the entry's smoothed target action. -/
theorem C44_td3 {U : Type} (phi : S → F) (gamma : K) (exps : List (List (Transition S A K)))
    (b : ExpBatch F A K) (hb : batchExperiences phi gamma exps = .ok b)
    (q1 q2 : F → U → K) (acts : List U) (hacts : acts.length = exps.length) :
    (td3 q1 q2 acts b).length = exps.length ∧
    ∀ (k : Nat) e t u, exps[k]? = some e → e.getLast? = some t → acts[k]? = some u →
      (td3 q1 q2 acts b)[k]? = some
        (nStepTarget gamma e (min (q1 (phi t.nextState) u) (q2 (phi t.nextState) u))) := by
  obtain ⟨hne, -, -, -, -, -, hl, hr⟩ := batch_row phi gamma exps b hb
  obtain ⟨h1, h2⟩ := bellman_row phi gamma exps b hb
    (List.zipWith (fun s a => min (q1 s a) (q2 s a)) b.nextState acts) (by simp [hl, hacts])
  refine ⟨h1, ?_⟩
  intro k e t u he ht hu
  have h₀ : e.head? = some (e.head (hne e (List.mem_of_getElem? he))) := List.head?_eq_some_head _
  refine h2 k e _ he ?_
  rw [List.getElem?_zipWith, (hr k e _ t he h₀ ht).2.2, hu]

/-- **C44**, soft actor-critic: the next-state value is the minimum of the two
target Q-functions minus temperature times log probability of the sampled action. -/
theorem C44_sac {U : Type} (phi : S → F) (gamma : K) (exps : List (List (Transition S A K)))
    (b : ExpBatch F A K) (hb : batchExperiences phi gamma exps = .ok b) (temperature : K)
    (q1 q2 : F → U → K) (acts : List (U × K)) (hacts : acts.length = exps.length) :
    (sac temperature q1 q2 acts b).length = exps.length ∧
    ∀ (k : Nat) e t u lp, exps[k]? = some e → e.getLast? = some t → acts[k]? = some (u, lp) →
      (sac temperature q1 q2 acts b)[k]? = some (nStepTarget gamma e
        (min (q1 (phi t.nextState) u) (q2 (phi t.nextState) u) - temperature * lp)) := by
  obtain ⟨hne, -, -, -, -, -, hl, hr⟩ := batch_row phi gamma exps b hb
  obtain ⟨h1, h2⟩ := bellman_row phi gamma exps b hb
    (List.zipWith (fun s a => min (q1 s a.1) (q2 s a.1) - temperature * a.2) b.nextState acts)
    (by simp [hl, hacts])
  refine ⟨h1, ?_⟩
  intro k e t u lp he ht hu
  have h₀ : e.head? = some (e.head (hne e (List.mem_of_getElem? he))) := List.head?_eq_some_head _
  refine h2 k e _ he ?_
  rw [List.getElem?_zipWith, (hr k e _ t he h₀ ht).2.2, hu]

/-- **C44**, IQN: the target quantiles are n-step targets with the target
network's quantiles of an action that is greedy for it. -/
theorem C44_iqn {T : Type} (phi : S → F) (gamma : K) (exps : List (List (Transition S A K)))
    (b : ExpBatch F A K) (hb : batchExperiences phi gamma exps = .ok b)
    (greedyQ : F → List K) (hq : ∀ s, greedyQ s ≠ []) (z : F → T → List K)
    (hz : ∀ s tau, (z s tau).length = (greedyQ s).length) (taus : List T)
    (htaus : taus.length = exps.length) :
    (iqn greedyQ z taus b).length = exps.length ∧
    ∀ (k : Nat) e t tau, exps[k]? = some e → e.getLast? = some t → taus[k]? = some tau →
      ∃ (a : Nat) (m v : K), (greedyQ (phi t.nextState))[a]? = some m ∧ IsMaxOf m (greedyQ (phi t.nextState)) ∧
        (z (phi t.nextState) tau)[a]? = some v ∧
        (iqn greedyQ z taus b)[k]? = some (nStepTarget gamma e v) := by
  obtain ⟨hne, -, -, -, -, -, hl, hr⟩ := batch_row phi gamma exps b hb
  obtain ⟨h1, h2⟩ := bellman_row phi gamma exps b hb
    (List.zipWith (fun s tau => evaluate (z s tau) (greedy (greedyQ s))) b.nextState taus)
    (by simp [hl, htaus])
  refine ⟨h1, ?_⟩
  intro k e t tau he ht hu
  have h₀ : e.head? = some (e.head (hne e (List.mem_of_getElem? he))) := List.head?_eq_some_head _
  obtain ⟨m, g1, g2, -⟩ := C64_greedy _ (hq (phi t.nextState))
  have hlt : greedy (greedyQ (phi t.nextState)) < (z (phi t.nextState) tau).length := by
    rw [hz]; exact (List.getElem?_eq_some_iff.1 g1).1
  refine ⟨greedy (greedyQ (phi t.nextState)), m, (z (phi t.nextState) tau)[greedy (greedyQ (phi t.nextState))],
    g1, g2, by simp [hlt], h2 k e _ he ?_⟩
  rw [List.getElem?_zipWith, (hr k e _ t he h₀ ht).2.2, hu]
  simp [evaluate, hlt]

/-- **C44**, advantage learning: the n-step target plus `alpha` times the
advantage of the action taken, in the entry's *first* state. -/
theorem C44_al (phi : S → F) (gamma alpha : K) (exps : List (List (Transition S Nat K)))
    (b : ExpBatch F Nat K) (hb : batchExperiences phi gamma exps = .ok b)
    (qt : F → List K) (hq : ∀ s, qt s ≠ []) :
    Rows exps (al alpha qt b) (fun e t₀ t y =>
      ∃ v, IsMaxOf v (qt (phi t.nextState)) ∧
        y = nStepTarget gamma e v + alpha * advantage (qt (phi t₀.state)) t₀.action) := by
  obtain ⟨-, -, -, -, hl1, hl2, hl, hr⟩ := batch_row phi gamma exps b hb
  obtain ⟨h1, h2⟩ := C44_dqn phi gamma exps b hb qt hq
  simp only [dqn] at h1 h2
  refine ⟨by simp [al, h1, hl1, hl2], ?_⟩
  intro k e t₀ t he h₀ ht
  obtain ⟨y, hy, v, hv, rfl⟩ := h2 k e t₀ t he h₀ ht
  refine ⟨_, ?_, v, hv, rfl⟩
  obtain ⟨r1, r2, -⟩ := hr k e t₀ t he h₀ ht
  simp only [al, List.getElem?_zipWith, hy, r1, r2]

/-- **C44**, dynamic policy programming with any operator `L`:
`Q'(s,a) + (n-step target with value L Q'(s')) - L Q'(s)`. -/
theorem C44_dpp (phi : S → F) (gamma : K) (exps : List (List (Transition S Nat K)))
    (b : ExpBatch F Nat K) (hb : batchExperiences phi gamma exps = .ok b)
    (L : List K → K) (qt : F → List K) :
    Rows exps (dpp L qt b) (fun e t₀ t y =>
      y = evaluate (qt (phi t₀.state)) t₀.action + nStepTarget gamma e (L (qt (phi t.nextState)))
        - L (qt (phi t₀.state))) := by
  obtain ⟨-, -, -, -, hl1, hl2, hl, hr⟩ := batch_row phi gamma exps b hb
  obtain ⟨h1, h2⟩ := bellman_row phi gamma exps b hb (b.nextState.map (fun s => L (qt s)))
    (by simp [hl])
  refine ⟨by simp [dpp, h1, hl1, hl2], ?_⟩
  intro k e t₀ t he h₀ ht
  obtain ⟨r1, r2, r3⟩ := hr k e t₀ t he h₀ ht
  have h3 := h2 k e (L (qt (phi t.nextState))) he (by rw [List.getElem?_map, r3]; rfl)
  refine ⟨_, ?_, rfl⟩
  simp only [dpp, List.getElem?_zipWith, h3, r1, r2, List.getElem?_map, Option.map_some]

/-- **C44**, persistent advantage learning, what holds: the target is the
n-step target plus `alpha` times the larger of the advantages of the action in
the first state and in the last next state.  This is what the property asks of
entries without terminal transition; missing is the mask on the second advantage
for the others, see `C44_violated_pal`. -/
theorem C44_pal_partial (phi : S → F) (gamma alpha : K) (exps : List (List (Transition S Nat K)))
    (b : ExpBatch F Nat K) (hb : batchExperiences phi gamma exps = .ok b)
    (qt : F → List K) (hq : ∀ s, qt s ≠ []) :
    Rows exps (pal alpha qt b) (fun e t₀ t y =>
      ∃ v, IsMaxOf v (qt (phi t.nextState)) ∧
        y = nStepTarget gamma e v + alpha * max (advantage (qt (phi t₀.state)) t₀.action)
          (advantage (qt (phi t.nextState)) t₀.action)) := by
  obtain ⟨-, -, -, -, hl1, hl2, hl, hr⟩ := batch_row phi gamma exps b hb
  obtain ⟨h1, h2⟩ := C44_dqn phi gamma exps b hb qt hq
  simp only [dqn] at h1 h2
  refine ⟨by simp [pal, h1, hl1, hl2, hl], ?_⟩
  intro k e t₀ t he h₀ ht
  obtain ⟨y, hy, v, hv, rfl⟩ := h2 k e t₀ t he h₀ ht
  refine ⟨_, ?_, v, hv, rfl⟩
  obtain ⟨r1, r2, r3⟩ := hr k e t₀ t he h₀ ht
  simp only [pal, List.getElem?_zipWith, hy, r1, r2, r3]

/-- **C44**, double persistent advantage learning, what holds: the target is the n-step target that bootstraps with the target network's value of the online network's
greedy action, plus `alpha` times the larger of the two advantages of the action under the target network. -/
theorem C44_double_pal_partial (phi : S → F) (gamma alpha : K) (exps : List (List (Transition S Nat K)))
    (b : ExpBatch F Nat K) (hb : batchExperiences phi gamma exps = .ok b)
    (q qt : F → List K) (hq : ∀ s, q s ≠ []) (hqt : ∀ s, (qt s).length = (q s).length) :
    Rows exps (doublePal alpha q qt b) (fun e t₀ t y =>
      ∃ (a : Nat) (m v : K), (q (phi t.nextState))[a]? = some m ∧ IsMaxOf m (q (phi t.nextState)) ∧
        (qt (phi t.nextState))[a]? = some v ∧
        y = nStepTarget gamma e v + alpha * max (advantage (qt (phi t₀.state)) t₀.action)
          (advantage (qt (phi t.nextState)) t₀.action)) := by
  obtain ⟨-, -, -, -, hl1, hl2, hl, hr⟩ := batch_row phi gamma exps b hb
  obtain ⟨h1, h2⟩ := C44_double_dqn phi gamma exps b hb q qt hq hqt
  simp only [doubleDqn] at h1 h2
  refine ⟨by simp [doublePal, h1, hl1, hl2, hl], ?_⟩
  intro k e t₀ t he h₀ ht
  obtain ⟨y, hy, a, m, v, ha, hm, hv, rfl⟩ := h2 k e t₀ t he h₀ ht
  obtain ⟨r1, r2, r3⟩ := hr k e t₀ t he h₀ ht
  refine ⟨_, ?_, a, m, v, ha, hm, hv, rfl⟩
  simp only [doublePal, List.getElem?_zipWith, hy, r1, r2, r3]

/-- **C44 does not hold for persistent advantage learning**: the target of an
entry whose transition is terminal changes with the target network's values of
the terminal next state, although the two networks agree in the state the
action was taken in. -/
theorem C44_violated_pal : ∃ (exps : List (List (Transition Nat Nat ℚ))) (b : ExpBatch Nat Nat ℚ)
    (qt qt' : Nat → List ℚ), batchExperiences id (9/10) exps = .ok b ∧
    (∀ e ∈ exps, ∀ t ∈ e, t.terminal = true) ∧
    (∀ e ∈ exps, ∀ t ∈ e, qt t.state = qt' t.state) ∧ (∀ s, (qt s).length = 2 ∧ (qt' s).length = 2) ∧
    pal (9/10) qt b ≠ pal (9/10) qt' b ∧
    doublePal (9/10) qt qt b ≠ doublePal (9/10) qt' qt' b := by
  refine ⟨[[⟨0, 0, 1, 1, none, true⟩]], ⟨[0], [0], [1], [1], [1], [9/10], none⟩,
    fun s => if s = 0 then [0, 1] else [0, 0], fun s => if s = 0 then [0, 1] else [0, 2],
    ?_, by decide, by decide, ?_, by decide +kernel, by decide +kernel⟩
  · have : expReward (9/10 : ℚ) ([⟨0, 0, 1, 1, none, true⟩] : List (Transition Nat Nat ℚ)) = 1 := by
      decide +kernel
    have h2 : ((9/10 : ℚ)) ^ 1 = 9/10 := by norm_num
    simp [batchExperiences, pyGet, pyIndex, bind, Except.bind, pure, Except.pure, this, h2]
  · intro s; constructor <;> dsimp only <;> split <;> rfl

/-- **C44**, DDPG: the target of a terminal entry is the discounted sum of its
rewards; that of a one-step entry is the one-step target with the target
Q-function's value at the target policy's action. -/
theorem C44_ddpg {U : Type} (phi : S → F) (gamma : K) (exps : List (List (Transition S A K)))
    (b : ExpBatch F A K) (hb : batchExperiences phi gamma exps = .ok b)
    (qt : F → U → K) (acts : List U) (hacts : acts.length = exps.length) :
    (ddpg gamma qt acts b).length = exps.length ∧
    ∀ (k : Nat) e t u, exps[k]? = some e → e.getLast? = some t → acts[k]? = some u →
      ((∃ t ∈ e, t.terminal = true) →
        (ddpg gamma qt acts b)[k]? = some (discounted gamma (e.map (·.reward)))) ∧
      ((∀ t ∈ e, t.terminal = false) → (ddpg gamma qt acts b)[k]? =
        some (discounted gamma (e.map (·.reward)) + gamma * qt (phi t.nextState) u)) := by
  obtain ⟨hne, h3, h5, -, -, -, hl, hr⟩ := batch_row phi gamma exps b hb
  constructor
  · simp [ddpg, bellman, h3, h5, hl, hacts]
  · intro k e t u he ht hu
    have h₀ : e.head? = some (e.head (hne e (List.mem_of_getElem? he))) := List.head?_eq_some_head _
    have r3 := (hr k e _ t he h₀ ht).2.2
    have hrow : (ddpg gamma qt acts b)[k]? = some (discounted gamma (e.map (·.reward)) +
        gamma * (1 - if ∃ t ∈ e, t.terminal = true then 1 else 0) * qt (phi t.nextState) u) := by
      simp only [ddpg, bellman, List.getElem?_zipWith, List.getElem?_map, h3, h5, he, r3, hu,
        Option.map_some]
    constructor
    · intro hT
      rw [hrow, if_pos hT]; simp
    · intro hT
      rw [hrow, if_neg (by
        rintro ⟨t, h1, h2⟩
        rw [hT t h1] at h2
        exact absurd h2 (by decide))]
      simp

/-- **C45**, what holds: with one-step entries (`num_steps = 1`) DDPG's critic
target is the n-step target. -/
theorem C45_one_step_partial {U : Type} (phi : S → F) (gamma : K)
    (exps : List (List (Transition S A K)))
    (b : ExpBatch F A K) (hb : batchExperiences phi gamma exps = .ok b)
    (qt : F → U → K) (acts : List U) (hacts : acts.length = exps.length)
    (hone : ∀ e ∈ exps, e.length = 1) :
    ∀ (k : Nat) e t u, exps[k]? = some e → e.getLast? = some t → acts[k]? = some u →
      (ddpg gamma qt acts b)[k]? = some (nStepTarget gamma e (qt (phi t.nextState) u)) := by
  intro k e t u he ht hu
  obtain ⟨-, h⟩ := C44_ddpg phi gamma exps b hb qt acts hacts
  obtain ⟨h1, h2⟩ := h k e t u he ht hu
  by_cases hT : ∃ t ∈ e, t.terminal = true
  · rw [h1 hT, nStepTarget, if_pos hT, add_zero]
  · rw [h2 (by
      intro t' ht'
      cases hx : t'.terminal with
      | false => rfl
      | true => exact absurd ⟨t', ht', hx⟩ hT), nStepTarget, if_neg hT,
      hone e (List.mem_of_getElem? he), pow_one]

/-- **C45 does not hold**: for every entry of two non-terminal transitions, and
every `gamma` other than 0 and 1, DDPG's target differs from the n-step target
as soon as the bootstrap value is not zero. -/
theorem C45_violated_two_steps {U : Type} (phi : S → F) (gamma : K) (h0 : gamma ≠ 0)
    (h1 : gamma ≠ 1) (t₁ t₂ : Transition S A K) (hn1 : t₁.terminal = false)
    (hn2 : t₂.terminal = false) (qt : F → U → K) (u : U) (hq : qt (phi t₂.nextState) u ≠ 0) :
    ∃ b y, batchExperiences phi gamma [[t₁, t₂]] = .ok b ∧ ddpg gamma qt [u] b = [y] ∧
      y ≠ nStepTarget gamma [t₁, t₂] (qt (phi t₂.nextState) u) := by
  obtain ⟨b, hb, -⟩ := C16_batch_rows phi gamma [[t₁, t₂]] (by simp)
  obtain ⟨hl, h⟩ := C44_ddpg phi gamma [[t₁, t₂]] b hb qt [u] rfl
  have hy := (h 0 [t₁, t₂] t₂ u rfl rfl rfl).2 (by simp [hn1, hn2])
  refine ⟨b, discounted gamma ([t₁, t₂].map (·.reward)) + gamma * qt (phi t₂.nextState) u, hb, ?_, ?_⟩
  · apply List.ext_getElem?
    intro i
    cases i with
    | zero => simpa using hy
    | succ i => rw [List.getElem?_eq_none (by rw [hl]; simp), List.getElem?_eq_none (by simp)]
  · rw [nStepTarget, if_neg (by simp [hn1, hn2])]
    intro heq
    have h2 : gamma * qt (phi t₂.nextState) u = gamma ^ 2 * qt (phi t₂.nextState) u := by
      simpa using heq
    have h3 : gamma * qt (phi t₂.nextState) u * (gamma - 1) = 0 := by
      rw [mul_sub, mul_one]
      rw [pow_two] at h2
      have : gamma * qt (phi t₂.nextState) u * gamma = gamma * gamma * qt (phi t₂.nextState) u := by ring
      rw [this, ← h2, sub_self]
    rcases mul_eq_zero.1 h3 with h4 | h4
    · rcases mul_eq_zero.1 h4 with h5 | h5
      · exact h0 h5
      · exact hq h5
    · exact h1 (sub_eq_zero.1 h4)

/-- **C44**, categorical DQN: the shifted atoms of an entry are the n-step targets
of the support's atoms; so for a terminal entry all of them equal the discounted
sum of the rewards, whatever the network says. -/
theorem C44_categorical (phi : S → F) (gamma : K) (exps : List (List (Transition S A K)))
    (b : ExpBatch F A K) (hb : batchExperiences phi gamma exps = .ok b) (z : List K) :
    categoricalAtoms z b = exps.map (fun e => z.map (fun zi => nStepTarget gamma e zi)) := by
  obtain ⟨-, h3, h5, h6, -⟩ := batch_row phi gamma exps b hb
  apply List.ext_getElem?
  intro k
  simp only [categoricalAtoms, List.getElem?_zipWith, List.getElem?_map, h3, h5, h6]
  rcases exps[k]? with _ | e
  · rfl
  · simp only [Option.map_some, Option.some.injEq]
    apply List.map_congr_left
    intro zi _
    simp only [nStepTarget]
    by_cases hT : ∃ t ∈ e, t.terminal = true
    · rw [if_pos hT, if_pos hT]; ring
    · rw [if_neg hT, if_neg hT]; ring

/-! ## Non-vacuity -/

/-- A three-step non-terminal entry and a one-step terminal entry. -/
def exExps : List (List (Transition Nat Nat ℚ)) :=
  [[⟨0, 0, 1, 1, none, false⟩, ⟨1, 1, 1, 2, none, false⟩, ⟨2, 0, 1, 3, none, false⟩],
   [⟨5, 1, 7, 6, none, true⟩]]

example : ((batchExperiences id (1/2) exExps).map (dqn (fun s : Nat => [(s : ℚ), 10 * s]))) =
    .ok [1 + 1/2 + 1/4 + 1/8 * 30, 7] := by decide +kernel
example : nStepTarget (1/2 : ℚ) [⟨0, 0, 1, 1, none, false⟩, ⟨1, 1, 1, 2, none, false⟩,
    (⟨2, 0, 1, 3, none, false⟩ : Transition Nat Nat ℚ)] 30 = 1 + 1/2 + 1/4 + 1/8 * 30 := by
  decide +kernel
example : ((batchExperiences id (1/2) exExps).map
    (ddpg (1/2) (fun (s : Nat) (u : ℚ) => (s : ℚ) * u) [10, 10])) =
    .ok [1 + 1/2 + 1/4 + 1/2 * 30, 7] := by decide +kernel

end Verif.Targets
