import Verif.Model.OpenBatchesRun
import Verif.Props.OpenBatches
import Verif.Props.TrainCalls
import Verif.Props.TrainBatchCalls
set_option autoImplicit false
set_option linter.unusedSectionVars false

/-! # C180: training runs of DDPG, TD3 and SoftActorCritic with prioritized replay -/

namespace Verif.OpenBatches
open TrainPrioritized
variable {O A R S X : Type}

/-- The number of decisions among the calls. -/
def decisions (l : List (TrainCalls.Call O A R)) : Nat := l.countP fun | .act .. => true | .stop .. => false

/-- The updates that are due in `m` decisions, if `j` decisions have been made and the step counter is `t`: when decision `j + 1` is made, `j` steps are stored. -/
def dueActs (c : Sched) (cap : Option Nat) : Nat → Nat → Nat → Nat
  | _, _, 0 => 0
  | j, t, m + 1 => (if c.startSize ≤ held cap j ∧ c.interval ∣ t + 1 then 1 else 0) + dueActs c cap (j + 1) (t + 1) m

theorem due_ops (c : Sched) (cap : Option Nat) (us : Nat → Nat → List ℝ) (l : List (TrainCalls.Call O A R)) : ∀ (t : Nat) (prev : Option (O × A)) (k : Nat),
    due c cap k (agentOps us t prev l) = dueActs c cap (k + prev.toList.length) t (decisions l) := by
  induction l with
  | nil => intro t prev k; cases prev <;> rfl
  | cons x l ih =>
    intro t prev k
    cases x with
    | act o r a =>
      have hd : decisions (TrainCalls.Call.act o r a :: l) = decisions l + 1 := by simp [decisions]
      rw [hd]
      cases prev with
      | none => simp only [agentOps, due, ih, dueActs, Option.toList, List.length_nil, List.length_singleton, Nat.add_zero]; congr
      | some p => simp only [agentOps, due, ih, dueActs, Option.toList, List.length_singleton]; congr
    | stop o r d =>
      have hd : decisions (TrainCalls.Call.stop o r d :: l) = decisions l := by simp [decisions]
      rw [hd]
      cases prev with
      | none => simp only [agentOps, ih]
      | some p => simp only [agentOps, due, ih, Option.toList, List.length_nil, List.length_singleton, Nat.add_zero]

theorem dueActs_add (c : Sched) (cap : Option Nat) (m m' : Nat) : ∀ j t, dueActs c cap j t (m + m') = dueActs c cap j t m + dueActs c cap (j + m) (t + m) m' := by
  induction m with
  | zero => intro j t; simp [dueActs]
  | succ m ih =>
    intro j t
    rw [show m + 1 + m' = (m + m') + 1 by omega, dueActs, ih, dueActs, show j + 1 + m = j + (m + 1) by omega, show t + 1 + m = t + (m + 1) by omega, Nat.add_assoc]

theorem dueActs_none (c : Sched) (cap : Option Nat) (m : Nat) : ∀ j t, j + m ≤ c.startSize → dueActs c cap j t m = 0 := by
  induction m with
  | zero => intro j t _; rfl
  | succ m ih =>
    intro j t h
    have hh : held cap j ≤ j := by cases cap <;> simp [held]
    rw [dueActs, if_neg (by omega), ih _ _ (by omega)]

theorem dueActs_interval (c : Sched) (cap : Option Nat) (hcap : ∀ x, cap = some x → c.startSize ≤ x) (hi : 0 < c.interval) (j t : Nat) (hj : c.startSize ≤ j) :
    1 ≤ dueActs c cap j t c.interval := by
  have key : ∀ m j t, c.startSize ≤ j → (∃ i, i < m ∧ c.interval ∣ t + 1 + i) → 1 ≤ dueActs c cap j t m := by
    intro m
    induction m with
    | zero => rintro j t _ ⟨i, h, -⟩; omega
    | succ m ih =>
      rintro j t hj ⟨i, hi, hdvd⟩
      rw [dueActs]
      have hh : c.startSize ≤ held cap j := by
        cases cap with
        | none => exact hj
        | some x => exact le_min hj (hcap x rfl)
      cases i with
      | zero => rw [if_pos ⟨hh, hdvd⟩]; omega
      | succ i =>
        have := ih (j + 1) (t + 1) (by omega) ⟨i, by omega, by rwa [show t + 1 + 1 + i = t + 1 + (i + 1) by omega]⟩
        omega
  refine key _ j t hj ?_
  refine ⟨c.interval - 1 - t % c.interval, by have := Nat.mod_lt t hi; omega, ?_⟩
  have := Nat.mod_lt t hi
  have h2 := Nat.mod_add_div t c.interval
  exact ⟨t / c.interval + 1, by rw [Nat.mul_add, Nat.mul_one]; omega⟩

theorem ops_variates (n : Nat) (us : Nat → Nat → List ℝ) (hus : ∀ t, Variates n (us t)) (l : List (TrainCalls.Call O A R)) : ∀ (t : Nat) (prev : Option (O × A)),
    AllVariates n (agentOps us t prev l) := by
  induction l with
  | nil => intro t prev t' us' h; cases prev <;> simp [agentOps] at h
  | cons x l ih =>
    intro t prev t' us' h
    cases x <;> cases prev <;> simp only [agentOps, List.mem_cons] at h
    · rcases h with h | h
      · cases h; exact hus _
      · exact ih _ _ _ _ h
    · rcases h with h | h | h
      · cases h
      · cases h; exact hus _
      · exact ih _ _ _ _ h
    · exact ih _ _ _ _ h
    · rcases h with h | h
      · cases h
      · exact ih _ _ _ _ h

/-- **C180** (violated): whatever calls DDPG, TD3 or SoftActorCritic get, with a `PrioritizedReplayBuffer` nothing is drawn in the first `replay_start_size` decisions,
and `2 * update_interval` decisions later an `AssertionError` has been raised. -/
theorem C180_violated_calls {cap : Option Nat} {p : PWE} {c : Sched} (hs : Sensible cap p c) (hcap : ∀ x, cap = some x → c.startSize ≤ x) (hn : 0 < c.nTimes)
    (us : Nat → Nat → List ℝ) (hus : ∀ t, Variates c.batchsize (us t)) (offset : Nat) (l : List (TrainCalls.Call O A R)) :
    (decisions l ≤ c.startSize → ∃ m, run c (.ok (Mem.init cap p)) (agentOps us offset none l) = .ok m ∧ m.log = []) ∧
    (c.startSize + 2 * c.interval ≤ decisions l → run c (.ok (Mem.init cap p)) (agentOps us offset none l) = .error .assertionError) := by
  obtain ⟨h0, -, h2⟩ := C180_violated_unreported hs (agentOps us offset none l) (ops_variates _ us hus _ _ _)
  rw [due_ops] at h0 h2
  simp only [Option.toList, List.length_nil, Nat.add_zero] at h0 h2
  refine ⟨fun h => ?_, fun h => h2 ?_⟩
  · obtain ⟨m, a, -, b⟩ := h0 (by rw [dueActs_none _ _ _ _ _ (by omega), Nat.zero_mul])
    exact ⟨m, a, b⟩
  · obtain ⟨k, hk⟩ : ∃ k, decisions l = c.startSize + (c.interval + (c.interval + k)) := ⟨decisions l - (c.startSize + 2 * c.interval), by omega⟩
    rw [hk, dueActs_add, dueActs_add, dueActs_add]
    have h1 := dueActs_interval c cap hcap hs.interval (0 + c.startSize) (offset + c.startSize) (by omega)
    have h3 := dueActs_interval c cap hcap hs.interval (0 + c.startSize + c.interval) (offset + c.startSize + c.interval) (by omega)
    refine le_trans ?_ (Nat.mul_le_mul_left _ hn)
    omega

section Runs
variable [Zero R] [LinearOrder S]

/-- One if an action has been chosen and not yet been executed. -/
def chosenNow : Train.Phase O A R → Nat
  | .chosen .. => 1
  | _ => 0

theorem path_decisions {steps offset : Nat} {maxLen : Option Nat} {p q : Train.Phase O A R} {es : List (Train.Ev O A R S)}
    (hp : Train.Path steps offset maxLen p es q) : decisions (TrainCalls.calls es) + chosenNow p = es.countP Train.Ev.isStep + chosenNow q := by
  induction hp with
  | nil p => rfl
  | cons hn hp ih => cases hn <;> simp [TrainCalls.calls, decisions, List.countP_cons, Train.Ev.isStep, chosenNow] at ih ⊢ <;> omega

theorem run_decisions (tc : Train.Cfg S) (w : Train.World O A R S X) (pre post : List (Train.Ev O A R S)) (hrun : (Train.run tc w).1 = pre ++ post) :
    pre.countP Train.Ev.isStep ≤ decisions (TrainCalls.calls pre) ∧ decisions (TrainCalls.calls pre) ≤ pre.countP Train.Ev.isStep + 1 := by
  obtain ⟨q', hp, -⟩ := Train.C21_protocol tc w
  rw [hrun, List.filter_append] at hp
  obtain ⟨q, hp, -⟩ := TrainDQN.path_prefix hp
  have h := path_decisions hp
  have hc : (pre.filter Train.Ev.isProtocol).countP Train.Ev.isStep = pre.countP Train.Ev.isStep := by
    rw [List.countP_filter]
    refine List.countP_congr fun e _ => ?_
    cases e <;> simp [Train.Ev.isStep, Train.Ev.isProtocol]
  rw [TrainCalls.calls_filter, hc] at h
  have : chosenNow q ≤ 1 := by cases q <;> simp [chosenNow]
  simp only [chosenNow] at h this
  omega

/-- **C180** (violated): no training run of DDPG, TD3 or SoftActorCritic with a `PrioritizedReplayBuffer` gets far: in every run of `train_agent`, whatever the environment does,
nothing is drawn while fewer than `replay_start_size` steps have been made, and when `replay_start_size + 2 * update_interval` steps have been made an
`AssertionError` has been raised. -/
theorem C180_violated_run (tc : Train.Cfg S) (w : Train.World O A R S X) {cap : Option Nat} {p : PWE} {c : Sched} (hs : Sensible cap p c)
    (hcap : ∀ x, cap = some x → c.startSize ≤ x) (hn : 0 < c.nTimes) (us : Nat → Nat → List ℝ) (hus : ∀ t, Variates c.batchsize (us t))
    (pre post : List (Train.Ev O A R S)) (hrun : (Train.run tc w).1 = pre ++ post) :
    (pre.countP Train.Ev.isStep < c.startSize →
      ∃ m, run c (.ok (Mem.init cap p)) (agentOps us tc.stepOffset none (TrainCalls.calls pre)) = .ok m ∧ m.log = []) ∧
    (c.startSize + 2 * c.interval ≤ pre.countP Train.Ev.isStep →
      run c (.ok (Mem.init cap p)) (agentOps us tc.stepOffset none (TrainCalls.calls pre)) = .error .assertionError) := by
  obtain ⟨h1, h2⟩ := run_decisions tc w pre post hrun
  obtain ⟨h3, h4⟩ := C180_violated_calls hs hcap hn us hus tc.stepOffset (TrainCalls.calls pre)
  exact ⟨fun h => h3 (by omega), fun h => h4 (by omega)⟩

/-- **C180** (violated): so `train_agent` with such an agent cannot come to its normal end, unless an evaluation was successful or only few steps were asked for. -/
theorem C180_violated_finish (tc : Train.Cfg S) (w : Train.World O A R S X) {cap : Option Nat} {p : PWE} {c : Sched} (hs : Sensible cap p c)
    (hcap : ∀ x, cap = some x → c.startSize ≤ x) (hn : 0 < c.nTimes) (us : Nat → Nat → List ℝ) (hus : ∀ t, Variates c.batchsize (us t))
    (hlong : c.startSize + 2 * c.interval ≤ tc.steps - tc.stepOffset) (hok : (Train.run tc w).2 = .ok ()) (hfail : ¬ Train.Succeeded tc (Train.run tc w).1) :
    run c (.ok (Mem.init cap p)) (agentOps us tc.stepOffset none (TrainCalls.calls (Train.run tc w).1)) = .error .assertionError := by
  refine (C180_violated_run tc w hs hcap hn us hus (Train.run tc w).1 [] (by simp)).2 ?_
  rcases (Train.C21_step_count tc w).2 hok with h | h
  · omega
  · exact absurd h hfail

end Runs

/-! ## What is stored in a run -/

/-- The entries added by the operations, as environment steps. -/
def addedSteps (ops : List (Op (Transition O A R))) : List (List (DQN.EnvStep O A R)) := (entriesOf ops).map (·.map TrainCalls.stepOf)

theorem added_turns {θ : Type} (us : Nat → Nat → List ℝ) (tail : List (TrainCalls.Call O A R)) (rest : List (DQN.Turn θ O A R)) : ∀ (x : DQN.Turn θ O A R) (t : Nat),
    addedSteps (agentOps us t (some (x.obs, x.action)) (rest.map TrainCalls.turnCall ++ tail)) = (DQN.innerSteps (x :: rest)).map ([·]) ++
      addedSteps (agentOps us (t + rest.length) (some (((x :: rest).getLast (by simp)).obs, ((x :: rest).getLast (by simp)).action)) tail) := by
  induction rest with
  | nil => intro x t; rfl
  | cons y rest ih =>
    intro x t
    have h1 : addedSteps (agentOps us t (some (x.obs, x.action)) ((y :: rest).map TrainCalls.turnCall ++ tail)) =
        [⟨x.obs, x.action, y.reward, y.obs, false⟩] :: addedSteps (agentOps us (t + 1) (some (y.obs, y.action)) (rest.map TrainCalls.turnCall ++ tail)) := rfl
    have h2 : DQN.innerSteps (x :: y :: rest) = ⟨x.obs, x.action, y.reward, y.obs, false⟩ :: DQN.innerSteps (y :: rest) := rfl
    rw [h1, ih, h2, List.map_cons, List.cons_append, List.length_cons, show t + 1 + rest.length = t + (rest.length + 1) by omega]
    simp only [List.getLast_cons (List.cons_ne_nil y rest)]

theorem added_history {θ : Type} (us : Nat → Nat → List ℝ) (cur : List (DQN.Turn θ O A R)) (eps : List (DQN.Episode θ O A R)) : ∀ t,
    addedSteps (agentOps us t none (TrainCalls.history eps cur)) = ((eps.map DQN.Episode.steps).flatten ++ DQN.innerSteps cur).map ([·]) := by
  induction eps with
  | nil =>
    intro t
    cases cur with
    | nil => rfl
    | cons x cur =>
      have h := added_turns us ([] : List (TrainCalls.Call O A R)) cur x (t + 1)
      rw [List.append_nil] at h
      refine Eq.trans (b := addedSteps (agentOps us (t + 1) (some (x.obs, x.action)) (cur.map TrainCalls.turnCall))) rfl (h.trans ?_)
      simp [agentOps, addedSteps, entriesOf]
  | cons e eps ih =>
    intro t
    have h := added_turns us (TrainCalls.Call.stop e.finalObs e.finalReward e.done :: TrainCalls.history eps cur) e.rest e.first (t + 1)
    have h1 : addedSteps (agentOps us t none (TrainCalls.history (e :: eps) cur)) = addedSteps (agentOps us (t + 1) (some (e.first.obs, e.first.action))
        (e.rest.map TrainCalls.turnCall ++ TrainCalls.Call.stop e.finalObs e.finalReward e.done :: TrainCalls.history eps cur)) := by
      have : TrainCalls.history (e :: eps) cur = TrainCalls.turnCall e.first ::
          (e.rest.map TrainCalls.turnCall ++ TrainCalls.Call.stop e.finalObs e.finalReward e.done :: TrainCalls.history eps cur) := by
        simp [TrainCalls.history, TrainCalls.episodeCalls, DQN.Episode.turns]
      rw [this]; rfl
    rw [h1, h]
    have h2 : ∀ (t : Nat) (p : O × A), addedSteps (agentOps us t (some p) (TrainCalls.Call.stop e.finalObs e.finalReward e.done :: TrainCalls.history eps cur)) =
        [⟨p.1, p.2, e.finalReward, e.finalObs, e.done⟩] :: addedSteps (agentOps us t none (TrainCalls.history eps cur)) := fun _ _ => rfl
    rw [h2, ih, List.map_cons, List.flatten_cons, DQN.steps_eq]
    simp [DQN.Episode.turns]

/-- **C180**: at every moment of every run of `train_agent` the entries that these agents have added to the buffer are the environment's steps that the agent has been
told of, one by one, in order. -/
theorem C180_run_entries [Zero R] [LinearOrder S] (tc : Train.Cfg S) (w : Train.World O A R S X) (us : Nat → Nat → List ℝ) (pre post : List (Train.Ev O A R S))
    (hrun : (Train.run tc w).1 = pre ++ post) :
    addedSteps (agentOps us tc.stepOffset none (TrainCalls.calls pre)) = ((TrainDQN.known pre).1.flatten ++ (TrainDQN.known pre).2).map ([·]) := by
  obtain ⟨eps, cur, h1, h2, -⟩ := TrainCalls.C123_calls tc w (fun _ => ()) pre post hrun
  rw [h1, added_history, ← h2]

/-! ## Vectorised training -/

theorem observe_append {T : Type} (us : Nat → Nat → List ℝ) (l l' : List T) : ∀ t, observeOps us t (l ++ l') = observeOps us t l ++ observeOps us (t + l.length) l' := by
  induction l with
  | nil => intro t; rfl
  | cons x l ih => intro t; simp only [List.cons_append, observeOps, ih, List.length_cons, show t + 1 + l.length = t + (l.length + 1) by omega]

theorem due_observe {T : Type} (c : Sched) (cap : Option Nat) (us : Nat → Nat → List ℝ) (l : List T) : ∀ t k,
    due c cap k (observeOps us t l) = dueActs c cap (k + 1) t l.length := by
  induction l with
  | nil => intro t k; rfl
  | cons x l ih => intro t k; simp only [observeOps, due, ih, dueActs, List.length_cons]

theorem observe_variates {T : Type} (n : Nat) (us : Nat → Nat → List ℝ) (hus : ∀ t, Variates n (us t)) (l : List T) : ∀ t, AllVariates n (observeOps us t l) := by
  induction l with
  | nil => intro t t' us' h; simp [observeOps] at h
  | cons x l ih =>
    intro t t' us' h
    simp only [observeOps, List.mem_cons] at h
    rcases h with h | h | h
    · cases h
    · cases h; exact hus _
    · exact ih _ _ _ h

/-- The transition of a round. -/
def roundTransition {θ : Type} (e : DQN.EnvRound θ O A R) : Transition O A R := ⟨e.obs, e.action, e.reward, e.nextObs, none, e.done⟩

theorem batch_ops {θ : Type} (us : Nat → Nat → List ℝ) (rounds : List (List (DQN.EnvRound θ O A R))) (pend : Option (List O × List A)) : ∀ t last,
    batchAgentOps us t last (TrainBatchCalls.history rounds pend) = observeOps us t (rounds.flatten.map roundTransition) := by
  induction rounds with
  | nil => intro t last; cases pend <;> rfl
  | cons r rounds ih =>
    intro t last
    have : TrainBatchCalls.history (r :: rounds) pend = .act (r.map (·.obs)) (r.map (·.action)) ::
      .observe (r.map (·.nextObs)) (r.map (·.reward)) (r.map (·.done)) (r.map (·.reset)) :: TrainBatchCalls.history rounds pend := rfl
    rw [this, batchAgentOps, batchAgentOps, ih, List.flatten_cons, List.map_append, observe_append, List.length_map, List.length_map]
    congr 2
    simp only [List.zip_map', List.map_map]
    rfl

/-- **C180**: and in a run of `train_agent_batch` the steps of the rounds. -/
theorem C180_batch_run_entries [Zero S] [LinearOrder S] (tc : TrainBatch.Cfg S) (hc : 0 < tc.numEnvs) (w : TrainBatch.World O A R S X) (us : Nat → Nat → List ℝ)
    (pre post : List (TrainBatch.Ev O A R S)) (hrun : (TrainBatch.run tc w).1 = pre ++ post) (hz : ∀ e ∈ pre, TrainBatchDQN.Sized tc.numEnvs e) :
    ∃ (rs : List (List (DQN.EnvRound Unit O A R))) (pend : Option (List O × List A)), TrainBatchCalls.calls pre = TrainBatchCalls.history rs pend ∧
      (∀ r ∈ rs, r.length = tc.numEnvs) ∧ (∀ i, i < tc.numEnvs → TrainBatchCalls.episodes (TrainBatchCalls.column i rs) = (TrainBatchDQN.record i pre).told) ∧
      addedSteps (batchAgentOps us tc.stepOffset ([], []) (TrainBatchCalls.calls pre)) = rs.flatten.map fun e => [TrainBatchCalls.step e] := by
  obtain ⟨rs, pend, h1, h2, h3⟩ := TrainBatchCalls.C124_calls tc hc w pre post hrun hz
  refine ⟨rs, pend, h1, h2, h3, ?_⟩
  rw [h1, batch_ops]
  generalize rs.flatten = l
  have : ∀ t, addedSteps (observeOps us t (l.map roundTransition)) = l.map fun e => [TrainBatchCalls.step e] := by
    induction l with
    | nil => intro t; rfl
    | cons x l ih => intro t; exact congrArg (List.cons _) (ih (t + 1))
  exact this _

/-- The number of times `batch_observe_and_train` has been called. -/
def rounds (l : List (TrainBatchCalls.Call O A R)) : Nat := l.countP fun | .act .. => false | .observe .. => true

theorem rounds_history {θ : Type} (rs : List (List (DQN.EnvRound θ O A R))) (pend : Option (List O × List A)) : rounds (TrainBatchCalls.history rs pend) = rs.length := by
  induction rs with
  | nil => cases pend <;> rfl
  | cons r rs ih =>
    have : TrainBatchCalls.history (r :: rs) pend = .act (r.map (·.obs)) (r.map (·.action)) ::
      .observe (r.map (·.nextObs)) (r.map (·.reward)) (r.map (·.done)) (r.map (·.reset)) :: TrainBatchCalls.history rs pend := rfl
    rw [this]
    simp only [rounds, List.countP_cons] at ih ⊢
    simp [ih]

section BatchRuns
variable [Zero S] [LinearOrder S]

/-- **C180** (violated): the same in every run of `train_agent_batch`: with `k` rounds and `num_envs` environments, nothing is drawn while `k * num_envs < replay_start_size`,
and an `AssertionError` has been raised when `k * num_envs` has reached `replay_start_size + 2 * update_interval`.  (The environments answer with `num_envs` results.) -/
theorem C180_violated_batch_run (tc : TrainBatch.Cfg S) (hc : 0 < tc.numEnvs) (w : TrainBatch.World O A R S X) {cap : Option Nat} {p : PWE} {c : Sched}
    (hs : Sensible cap p c) (hcap : ∀ x, cap = some x → c.startSize ≤ x) (hn : 0 < c.nTimes) (us : Nat → Nat → List ℝ) (hus : ∀ t, Variates c.batchsize (us t))
    (pre post : List (TrainBatch.Ev O A R S)) (hrun : (TrainBatch.run tc w).1 = pre ++ post) (hz : ∀ e ∈ pre, TrainBatchDQN.Sized tc.numEnvs e) :
    (rounds (TrainBatchCalls.calls pre) * tc.numEnvs < c.startSize →
      ∃ m, run c (.ok (Mem.init cap p)) (batchAgentOps us tc.stepOffset ([], []) (TrainBatchCalls.calls pre)) = .ok m ∧ m.log = []) ∧
    (c.startSize + 2 * c.interval ≤ rounds (TrainBatchCalls.calls pre) * tc.numEnvs →
      run c (.ok (Mem.init cap p)) (batchAgentOps us tc.stepOffset ([], []) (TrainBatchCalls.calls pre)) = .error .assertionError) := by
  obtain ⟨rs, pend, h1, h2, -⟩ := TrainBatchCalls.C124_calls tc hc w pre post hrun hz
  have hl : (rs.flatten.map roundTransition).length = rs.length * tc.numEnvs := by
    rw [List.length_map, List.length_flatten, List.map_congr_left h2]
    simp
  rw [h1, rounds_history, batch_ops, ← hl]
  generalize rs.flatten.map roundTransition = l
  obtain ⟨h0, -, h2⟩ := C180_violated_unreported hs (observeOps us tc.stepOffset l) (observe_variates _ us hus _ _)
  rw [due_observe] at h0 h2
  refine ⟨fun h => ?_, fun h => h2 ?_⟩
  · obtain ⟨m, a, -, b⟩ := h0 (by rw [dueActs_none _ _ _ _ _ (by omega), Nat.zero_mul])
    exact ⟨m, a, b⟩
  · obtain ⟨k, hk⟩ : ∃ k, l.length = c.startSize + (c.interval + (c.interval + k)) := ⟨l.length - (c.startSize + 2 * c.interval), by omega⟩
    rw [hk, dueActs_add, dueActs_add, dueActs_add]
    have h1 := dueActs_interval c cap hcap hs.interval (0 + 1 + c.startSize) (tc.stepOffset + c.startSize) (by omega)
    have h3 := dueActs_interval c cap hcap hs.interval (0 + 1 + c.startSize + c.interval) (tc.stepOffset + c.startSize + c.interval) (by omega)
    refine le_trans ?_ (Nat.mul_le_mul_left _ hn)
    omega

end BatchRuns

/-- Three decisions: the third raises. -/
example : run ⟨1, 1, 1, 1⟩ (.ok (Mem.init none ⟨0.6, 0.4, 0.6 / 200000, 0.01, .batch, some 0, some 1⟩))
    (agentOps (fun _ _ => [0]) 0 none [TrainCalls.Call.act 'a' (0 : ℤ) true, .act 'b' 1 false, .act 'c' 1 true]) = .error .assertionError :=
  (C180_violated_calls sensible_small (by simp) (by norm_num) _ (fun _ => variates_zero) 0 _).2 (by simp [decisions])

/-- A run of three steps in two episodes. -/
example : run ⟨1, 1, 1, 1⟩ (.ok (Mem.init none ⟨0.6, 0.4, 0.6 / 200000, 0.01, .batch, some 0, some 1⟩))
    (agentOps (fun _ _ => [0]) 5 none (TrainCalls.calls (Train.run TrainDQN.exTrain TrainDQN.exWorld).1)) = .error .assertionError :=
  (C180_violated_run TrainDQN.exTrain TrainDQN.exWorld sensible_small (by simp) (by norm_num) (fun _ _ => [0]) (fun _ => variates_zero) _ [] (by simp)).2 (by decide +kernel)

/-- A run of three rounds with two environments. -/
example :
    run ⟨1, 1, 1, 1⟩ (.ok (Mem.init none ⟨0.6, 0.4, 0.6 / 200000, 0.01, .batch, some 0, some 1⟩))
      (batchAgentOps (fun _ _ => [0]) TrainBatchDQN.exTrain.stepOffset ([], []) (TrainBatchCalls.calls (TrainBatch.run TrainBatchDQN.exTrain TrainBatch.exWorld).1)) =
        .error .assertionError := by
  have h : (TrainBatch.run TrainBatchDQN.exTrain TrainBatch.exWorld).1.all (fun e => match e with
      | .reset _ o => o.length == 2 | .act _ a => a.length == 2 | .step _ o => o.length == 2 | _ => true) = true := by decide +kernel
  have hz : ∀ e ∈ (TrainBatch.run TrainBatchDQN.exTrain TrainBatch.exWorld).1, TrainBatchDQN.Sized 2 e := by
    intro e he
    have := List.all_eq_true.1 h e he
    cases e <;> simpa [TrainBatchDQN.Sized] using this
  exact (C180_violated_batch_run TrainBatchDQN.exTrain (by decide) TrainBatch.exWorld sensible_small (by simp) (by norm_num) (fun _ _ => [0]) (fun _ => variates_zero) _ [] (by simp) hz).2
    (by decide +kernel)

end Verif.OpenBatches
