import Verif.Model.EvalCalls
import Verif.Props.ActorCritic
import Verif.Props.BatchRunEval
import Verif.Props.DQN
import Verif.Props.RunEval
set_option autoImplicit false
set_option linter.unusedSectionVars false

/-!
# C110: evaluation leaves training alone, and training evaluation
-/

namespace Verif.EvalCalls
open RunEval (Episode stepEvents Budget)
open Train (StepOut)

variable {T Q C B P O Y H : Type}

/-! ## Specification -/

/-- The training calls of a history. -/
def trainCalls : List (Call C O) → List C
  | [] => []
  | .train x :: l => x :: trainCalls l
  | .eval _ :: l => trainCalls l

/-- What the training calls returned. -/
def trainRes : List (Res B Y) → List B
  | [] => []
  | .train b :: l => b :: trainRes l
  | .eval _ :: l => trainRes l

/-- An agent that is only trained. -/
def onlyTrain (train : T → C → Py (T × B)) : T → List C → Py (T × List B)
  | t, [] => .ok (t, [])
  | t, x :: xs => do
    let r ← train t x
    let r' ← onlyTrain train r.1 xs
    pure (r'.1, r.2 :: r'.2)

/-- The recurrent state after the observations `obs`. -/
def after (net : H → O → H × Y) (h : H) (obs : List O) : H := obs.foldl (fun h o => (net h o).1) h

/-- What the network says about the observations of one episode, one after the other. -/
def outputs (net : H → O → H × Y) (zero : H) (obs : List O) : List Y :=
  (List.range obs.length).flatMap fun i => obs[i]?.toList.map fun o => (net (after net zero (obs.take i)) o).2

/-- What an agent with parameters `p` says about the observations of one episode. -/
def Agent.expected (c : Agent T Q C B P O Y H) (p : P) (obs : List O) : List Y :=
  if c.recurrent then outputs (c.net p) c.zero obs else obs.map fun o => (c.net p c.zero o).2

/-- The observations on which the agent acts in an episode. -/
def acted {A K : Type} : O → List (A × StepOut O K) → List O
  | _, [] => []
  | o, (_, out) :: l => o :: acted out.obs l

/-- No evaluation episode is running: the test recurrent states are initial, for `n`
environments. -/
def Fresh (n : Nat) (c : Agent T Q C B P O Y H) (s : St T Q H) : Prop :=
  s.test = none ∨ s.test = some (List.replicate n c.zero)

/-! ## Lemmas -/

theorem run_append (c : Agent T Q C B P O Y H) (l l' : List (Call C O)) : ∀ (s s1 s2 : St T Q H) (r r' : List (Res B Y)),
    c.run s l = .ok (s1, r) → c.run s1 l' = .ok (s2, r') → c.run s (l ++ l') = .ok (s2, r ++ r') := by
  induction l with
  | nil =>
    intro s s1 s2 r r' h h'
    cases h
    simpa using h'
  | cons x l ih =>
    intro s s1 s2 r r' h h'
    simp only [Agent.run] at h
    obtain ⟨a, h1, h2⟩ := DQN.except_bind_ok.1 h
    obtain ⟨b, h3, h4⟩ := DQN.except_bind_ok.1 h2
    cases h4
    simp only [List.cons_append, Agent.run, bind, Except.bind, h1, ih _ _ _ _ _ h3 h', pure, Except.pure]

theorem call_eval_train {c : Agent T Q C B P O Y H} {s s' : St T Q H} {x : ECall O} {ys : List Y}
    (h : c.evalCall s x = .ok (s', ys)) : s'.train = s.train := by
  cases x with
  | act o =>
    obtain ⟨a, h1, h2⟩ := DQN.except_bind_ok.1 h
    cases h2; rfl
  | batchAct o =>
    obtain ⟨a, h1, h2⟩ := DQN.except_bind_ok.1 h
    cases h2; rfl
  | batchObserve d r =>
    simp only [Agent.evalCall] at h
    split at h <;> cases h <;> rfl
  | stopEpisode =>
    simp only [Agent.evalCall] at h
    cases h
    split <;> rfl

/-- C110: for DQN and its subclasses, PPO and TRPO, whatever evaluation calls are made and
wherever they are put between the training calls, the training state and everything that the
training methods return are those of an agent that is never evaluated. -/
theorem C110_training_alone (c : Agent T Q C B P O Y H) (l : List (Call C O)) : ∀ (s s' : St T Q H)
    (r : List (Res B Y)), c.run s l = .ok (s', r) →
    onlyTrain c.train s.train (trainCalls l) = .ok (s'.train, trainRes r) := by
  induction l with
  | nil => intro s s' r h; cases h; rfl
  | cons x l ih =>
    intro s s' r h
    simp only [Agent.run] at h
    obtain ⟨a, h1, h2⟩ := DQN.except_bind_ok.1 h
    obtain ⟨b, h3, h4⟩ := DQN.except_bind_ok.1 h2
    cases h4
    have := ih _ _ _ h3
    cases x with
    | train x =>
      obtain ⟨d, h5, h6⟩ := DQN.except_bind_ok.1 h1
      cases h6
      simp only [trainCalls, onlyTrain, h5, bind, Except.bind, this, pure, Except.pure, trainRes]
    | eval x =>
      obtain ⟨d, h5, h6⟩ := DQN.except_bind_ok.1 h1
      cases h6
      simp only [call_eval_train h5] at this
      exact this

/-- C110, the other direction: a training call that ends the episode (`stop_episode_and_train` of PPO and TRPO) also forgets the recurrent
state of evaluation, so that all later
calls return what they return in an agent with the same training state that was never evaluated. -/
theorem C110_cleared (c : Agent T Q C B P O Y H) (s s' : St T Q H) (x : C) (r : Res B Y) (hx : c.clears x = true)
    (h : c.call s (.train x) = .ok (s', r)) (l : List (Call C O)) :
    c.run s' l = c.run ⟨s'.train, s'.stats, none⟩ l := by
  obtain ⟨d, h5, h6⟩ := DQN.except_bind_ok.1 h
  cases h6
  simp [hx]

theorem after_snoc (net : H → O → H × Y) (h : H) (obs : List O) (o : O) :
    after net h (obs ++ [o]) = (net (after net h obs) o).1 := by
  simp [after]

/-- `outputs` from a later state. -/
def outputsFrom (net : H → O → H × Y) : H → List O → List Y
  | _, [] => []
  | h, o :: l => (net h o).2 :: outputsFrom net (net h o).1 l

theorem outputs_eq (net : H → O → H × Y) (obs : List O) : ∀ (h : H), outputs net h obs = outputsFrom net h obs := by
  induction obs with
  | nil => intro h; rfl
  | cons o l ih =>
    intro h
    rw [outputsFrom, ← ih, outputs, List.length_cons, List.range_succ_eq_map, List.flatMap_cons, List.flatMap_map]
    simp [after, outputs]

theorem act_ok {c : Agent T Q C B P O Y H} (s : St T Q H) (o : O) :
    c.recurrent = false → ∃ q, c.call s (.eval (.act o)) =
      .ok (⟨s.train, q, s.test⟩, .eval [(c.net (c.params s.train) c.zero o).2]) := by
  intro hc
  refine ⟨c.actStats (c.net (c.params s.train) c.zero o).2 s.stats, ?_⟩
  simp [Agent.call, Agent.evalCall, Agent.evaluate, hc, bind, Except.bind, pure, Except.pure]

theorem act_ok_rec {c : Agent T Q C B P O Y H} (s : St T Q H) (o : O) (h : H) (hs : s.test.getD [c.zero] = [h]) :
    c.recurrent = true → ∃ q, c.call s (.eval (.act o)) =
      .ok (⟨s.train, q, some [(c.net (c.params s.train) h o).1]⟩, .eval [(c.net (c.params s.train) h o).2]) := by
  intro hc
  refine ⟨c.actStats (c.net (c.params s.train) h o).2 s.stats, ?_⟩
  simp [Agent.call, Agent.evalCall, Agent.evaluate, forward, hc, hs, bind, Except.bind, pure, Except.pure]

theorem steps_run {A K : Type} (c : Agent T Q C B P O Y H) (hc : c.recurrent = false)
    (steps : List (A × StepOut O K)) : ∀ (s : St T Q H) (o : O), ∃ q,
    c.run s (((stepEvents o steps).filterMap ofSingle).map .eval) =
      .ok (⟨s.train, q, s.test⟩, (acted o steps).map fun o => .eval [(c.net (c.params s.train) c.zero o).2]) := by
  induction steps with
  | nil => intro s o; exact ⟨_, rfl⟩
  | cons x l ih =>
    intro s o
    obtain ⟨q, h1⟩ := act_ok (c := c) s o hc
    obtain ⟨q', h2⟩ := ih ⟨s.train, q, s.test⟩ x.2.obs
    refine ⟨q', ?_⟩
    simp only [stepEvents, List.filterMap_cons, ofSingle, List.map_cons, Agent.run, h1, bind, Except.bind, h2,
      pure, Except.pure, acted]

theorem steps_run_rec {A K : Type} (c : Agent T Q C B P O Y H) (hc : c.recurrent = true)
    (steps : List (A × StepOut O K)) : ∀ (s : St T Q H) (o : O) (h : H), s.test.getD [c.zero] = [h] → ∃ q t,
    c.run s (((stepEvents o steps).filterMap ofSingle).map .eval) =
      .ok (⟨s.train, q, t⟩, (outputsFrom (c.net (c.params s.train)) h (acted o steps)).map fun y => .eval [y]) := by
  induction steps with
  | nil => intro s o h _; exact ⟨_, _, rfl⟩
  | cons x l ih =>
    intro s o h hs
    obtain ⟨q, h1⟩ := act_ok_rec (c := c) s o h hs hc
    obtain ⟨q', t, h2⟩ := ih ⟨s.train, q, some [(c.net (c.params s.train) h o).1]⟩ x.2.obs _ rfl
    refine ⟨q', t, ?_⟩
    simp only [stepEvents, List.filterMap_cons, ofSingle, List.map_cons, Agent.run, h1, bind, Except.bind, h2,
      pure, Except.pure, acted, outputsFrom]

/-- What an agent returns in an evaluation episode: one output for each `act`, nothing for
`stop_episode`. -/
def Agent.answers {A K : Type} (c : Agent T Q C B P O Y H) (p : P) (e : Episode O A K) : List (Res B Y) :=
  ((c.expected p (acted e.first e.steps)).map fun y => .eval [y]) ++ [.eval []]

theorem episode_run {A K : Type} (c : Agent T Q C B P O Y H) (e : Episode O A K) (s : St T Q H) (hs : Fresh 1 c s) :
    ∃ q, c.run s ((e.events.filterMap ofSingle).map .eval) =
      .ok (⟨s.train, q, if c.recurrent then none else s.test⟩, c.answers (c.params s.train) e) := by
  have hs' : s.test.getD [c.zero] = [c.zero] := by rcases hs with h | h <;> simp [h]
  cases hc : c.recurrent with
  | false =>
    obtain ⟨q, h1⟩ := steps_run c hc e.steps s e.first
    refine ⟨q, ?_⟩
    rw [Episode.events, List.cons_append, List.filterMap_cons]
    simp only [ofSingle, List.filterMap_append, List.map_append]
    refine (run_append c _ _ _ _ ⟨s.train, q, s.test⟩ _ [.eval []] h1 ?_).trans ?_
    · simp [Agent.run, Agent.call, Agent.evalCall, hc, ofSingle, bind, Except.bind, pure, Except.pure]
    · simp [Agent.answers, Agent.expected, hc, Function.comp_def]
  | true =>
    obtain ⟨q, t, h1⟩ := steps_run_rec c hc e.steps s e.first c.zero hs'
    refine ⟨q, ?_⟩
    rw [Episode.events, List.cons_append, List.filterMap_cons]
    simp only [ofSingle, List.filterMap_append, List.map_append]
    refine (run_append c _ _ _ _ ⟨s.train, q, none⟩ _ [.eval []] h1 ?_).trans ?_
    · simp [Agent.run, Agent.call, Agent.evalCall, hc, ofSingle, bind, Except.bind, pure, Except.pure]
    · simp [Agent.answers, Agent.expected, hc, outputs_eq]

theorem episodes_run {A K : Type} (c : Agent T Q C B P O Y H) (eps : List (Episode O A K)) : ∀ (s : St T Q H),
    Fresh 1 c s → ∃ q t, c.run s (((eps.flatMap Episode.events).filterMap ofSingle).map .eval) =
      .ok (⟨s.train, q, t⟩, eps.flatMap (c.answers (c.params s.train))) ∧
      (t = s.test ∨ t = none) ∧ (c.recurrent = true → eps ≠ [] → t = none) := by
  induction eps with
  | nil => intro s _; exact ⟨_, _, rfl, .inl rfl, by simp⟩
  | cons e l ih =>
    intro s hs
    obtain ⟨q, h1⟩ := episode_run c e s hs
    have hs2 : Fresh 1 c (⟨s.train, q, if c.recurrent then none else s.test⟩ : St T Q H) := by
      cases c.recurrent with
      | false => exact hs
      | true => exact .inl rfl
    obtain ⟨q', t, h2, h3, h4⟩ := ih _ hs2
    refine ⟨q', t, ?_, ?_, ?_⟩
    · rw [List.flatMap_cons, List.filterMap_append, List.map_append, List.flatMap_cons]
      exact run_append c _ _ _ _ _ _ _ h1 h2
    · cases hc : c.recurrent with
      | false => simpa [hc] using h3
      | true => right; simpa [hc] using h3
    · intro hc _
      rw [hc] at h3
      simpa using h3

/-- C110: when `run_evaluation_episodes` returns, the agent with separate recurrent states has
answered in every episode what the network (with the parameters it has) says about the
observations of that episode alone, from the initial recurrent state; its training state is
untouched, and no evaluation episode is running any more. -/
theorem C110_single {A K X : Type} [AddMonoid K] (c : Agent T Q C B P O Y H) (b : Budget)
    (hb : b.spent 0 0 = false) (maxLen : Option Nat) (w : Nat → RunEval.Iter O A K X) (fuel : Nat) (scores : List K)
    (h : (RunEval.run b maxLen w fuel).2 = .ok (some scores)) (s : St T Q H) (hs : Fresh 1 c s) :
    ∃ (eps : List (Episode O A K)) (s' : St T Q H),
      (RunEval.run b maxLen w fuel).1 = eps.flatMap Episode.events ∧
      c.run s (((RunEval.run b maxLen w fuel).1.filterMap ofSingle).map .eval) =
        .ok (s', eps.flatMap (c.answers (c.params s.train))) ∧
      s'.train = s.train ∧ Fresh 1 c s' ∧ (c.recurrent = true → s'.test = none) := by
  have key : ∀ eps : List (Episode O A K), (RunEval.run b maxLen w fuel).1 = eps.flatMap Episode.events → eps ≠ [] →
      ∃ (eps : List (Episode O A K)) (s' : St T Q H),
      (RunEval.run b maxLen w fuel).1 = eps.flatMap Episode.events ∧
      c.run s (((RunEval.run b maxLen w fuel).1.filterMap ofSingle).map .eval) =
        .ok (s', eps.flatMap (c.answers (c.params s.train))) ∧
      s'.train = s.train ∧ Fresh 1 c s' ∧ (c.recurrent = true → s'.test = none) := by
    intro eps he hne
    obtain ⟨q, t, h1, h2, h3⟩ := episodes_run c eps s hs
    refine ⟨eps, ⟨s.train, q, t⟩, he, ?_, rfl, ?_, ?_⟩
    · rw [he]; exact h1
    · rcases h2 with h2 | h2
      · rcases hs with hs | hs
        · exact .inl (h2.trans hs)
        · exact .inr (h2.trans hs)
      · exact .inl h2
    · intro hc; exact h3 hc hne
  cases b with
  | episodes k =>
    have hk : 0 < k := by simp [RunEval.Budget.spent] at hb; omega
    obtain ⟨eps, h1, _, h2, _⟩ := RunEval.C28_episodes k hk maxLen w fuel scores h
    exact key eps h2 (by rintro rfl; simp at h1; omega)
  | steps n =>
    have hk : 0 < n := by simp [RunEval.Budget.spent] at hb; omega
    obtain ⟨eps, last, _, _, h1, h2, _⟩ := RunEval.C28_steps n hk maxLen w fuel scores h
    exact key _ h2 (by intro h0; rw [h0] at h1; simp at h1; omega)

/-! ## Batches -/

open BatchRunEval (callsAt numSteps)
open BatchEpisodes (len Ends)

/-- The observations of the current episode of environment `e` before step `i` (it has
`len maxLen o e i` steps so far, see C29). -/
def history {K : Type} (maxLen : Option Nat) (o : Nat → Nat → StepOut O K) (ob : Nat → Nat → O) (e i : Nat) : List O :=
  (List.range' (i - len maxLen o e i) (len maxLen o e i)).map fun j => ob j e

theorem len_le {K : Type} (maxLen : Option Nat) (o : Nat → Nat → StepOut O K) (e : Nat) : ∀ i, len maxLen o e i ≤ i := by
  intro i
  induction i with
  | zero => simp [len]
  | succ i ih => rw [len]; split <;> omega

theorem history_succ {K : Type} (maxLen : Option Nat) (o : Nat → Nat → StepOut O K) (ob : Nat → Nat → O) (e i : Nat) :
    history maxLen o ob e (i + 1) =
      if len maxLen o e (i + 1) = 0 then [] else history maxLen o ob e i ++ [ob i e] := by
  have hl := len_le maxLen o e i
  by_cases h : Ends maxLen (len maxLen o e i + 1) (o i e)
  · have : len maxLen o e (i + 1) = 0 := by rw [len, if_pos h]
    simp [history, this]
  · have : len maxLen o e (i + 1) = len maxLen o e i + 1 := by rw [len, if_neg h]
    rw [this, if_neg (by omega), history, history, this, show i + 1 - (len maxLen o e i + 1) = i - len maxLen o e i by omega,
      List.range'_concat, List.map_append]
    simp only [List.map_cons, List.map_nil, Nat.one_mul]
    rw [show i - len maxLen o e i + len maxLen o e i = i by omega]

/-- What an agent with parameters `p` says in environment `e` at step `i`. -/
def Agent.answer {K : Type} (c : Agent T Q C B P O Y H) (p : P) (maxLen : Option Nat) (o : Nat → Nat → StepOut O K)
    (ob : Nat → Nat → O) (e i : Nat) : Y :=
  (c.net p (if c.recurrent then after (c.net p) c.zero (history maxLen o ob e i) else c.zero) (ob i e)).2

/-- Before step `i` the rows of the test recurrent states are those of the current episodes. -/
def Rows {K : Type} (N : Nat) (c : Agent T Q C B P O Y H) (maxLen : Option Nat) (o : Nat → Nat → StepOut O K)
    (ob : Nat → Nat → O) (i : Nat) (s : St T Q H) : Prop :=
  s.test.getD (List.replicate N c.zero) =
    (List.range N).map fun e => after (c.net (c.params s.train)) c.zero (history maxLen o ob e i)

theorem zipWith_map_range {α β γ : Type} (f : α → β → γ) (g : Nat → α) (h : Nat → β) (N : Nat) :
    List.zipWith f ((List.range N).map g) ((List.range N).map h) = (List.range N).map fun e => f (g e) (h e) := by
  apply List.ext_getElem
  · simp
  · intro i h1 h2; simp

theorem iteration_run {A K : Type} (N : Nat) (c : Agent T Q C B P O Y H) (hc : c.recurrent = true)
    (maxLen : Option Nat) (o : Nat → Nat → StepOut O K)
    (a : Nat → List A) (ob : Nat → Nat → O) (n i : Nat) (s : St T Q H) (hs : Rows N c maxLen o ob i s) :
    ∃ rows, c.run s (((callsAt N maxLen o a (fun i => (List.range N).map (ob i)) n i).filterMap ofBatch).map .eval) =
      .ok (⟨s.train, s.stats, some rows⟩,
        [.eval ((List.range N).map fun e => c.answer (c.params s.train) maxLen o ob e i), .eval []]) ∧
      (i + 1 = n → rows = List.replicate N c.zero) ∧
      (i + 1 ≠ n → rows = (List.range N).map fun e =>
        after (c.net (c.params s.train)) c.zero (history maxLen o ob e (i + 1))) := by
  have h1 : ((callsAt N maxLen o a (fun i => (List.range N).map (ob i)) n i).filterMap ofBatch).map
      (Call.eval (C := C)) = [.eval (.batchAct ((List.range N).map (ob i))),
        .eval (.batchObserve ((List.range N).map fun e => (o i e).done)
          ((List.range N).map fun e => decide (i + 1 = n) ||
            decide (maxLen = some (len maxLen o e i + 1)) || (o i e).needsReset))] := by
    unfold callsAt
    by_cases h : i + 1 = n
    · simp only [if_pos h]; rfl
    · simp only [if_neg h]; rfl
  rw [h1]
  unfold Rows at hs
  refine ⟨(mask c.zero ((List.range N).map fun e => (o i e).done || (decide (i + 1 = n) ||
            decide (maxLen = some (len maxLen o e i + 1)) || (o i e).needsReset))
      (some ((List.range N).map fun e => (c.net (c.params s.train) (after (c.net (c.params s.train)) c.zero
        (history maxLen o ob e i)) (ob i e)).1))).getD [], ?_, ?_, ?_⟩
  · simp only [Agent.run, Agent.call, Agent.evalCall, Agent.evaluate, hc, if_true, forward, bind, Except.bind, pure,
      Except.pure, List.length_map, List.length_range, hs, zipWith_map_range, List.map_map, Function.comp_def]
    simp only [mask, Option.map_some, Option.getD_some, Agent.answer, hc, if_true]
  · intro h
    apply List.ext_getElem
    · simp [mask]
    · intro j h2 h3
      have hj : j < N := by simpa using h3
      simp [mask, h, hj]
  · intro h
    apply List.ext_getElem
    · simp [mask]
    · intro j h2 h3
      have hj : j < N := by simpa using h3
      simp only [mask, Option.map_some, Option.getD_some, List.getElem_mapIdx, List.getElem_map, List.getElem_range,
        history_succ, List.getElem?_map, List.getElem?_range hj, decide_eq_false h, Bool.false_or]
      have hE : ((o i j).done || (decide (maxLen = some (len maxLen o j i + 1)) || (o i j).needsReset)) = true ↔
          Ends maxLen (len maxLen o j i + 1) (o i j) := by
        simp only [Bool.or_eq_true, decide_eq_true_eq, Ends]
        tauto
      by_cases hx : Ends maxLen (len maxLen o j i + 1) (o i j)
      · rw [if_pos (by rw [hE.2 hx]), len, if_pos hx]
        rfl
      · rw [if_neg (by rw [Option.some_inj]; exact fun h => hx (hE.1 h)), len, if_neg hx, if_neg (by omega), after_snoc]

theorem iteration_run_plain {A K : Type} (N : Nat) (c : Agent T Q C B P O Y H) (hc : c.recurrent = false)
    (maxLen : Option Nat) (o : Nat → Nat → StepOut O K)
    (a : Nat → List A) (ob : Nat → Nat → O) (n i : Nat) (s : St T Q H) :
    c.run s (((callsAt N maxLen o a (fun i => (List.range N).map (ob i)) n i).filterMap ofBatch).map .eval) =
      .ok (s, [.eval ((List.range N).map fun e => c.answer (c.params s.train) maxLen o ob e i), .eval []]) := by
  have h1 : ((callsAt N maxLen o a (fun i => (List.range N).map (ob i)) n i).filterMap ofBatch).map
      (Call.eval (C := C)) = [.eval (.batchAct ((List.range N).map (ob i))),
        .eval (.batchObserve ((List.range N).map fun e => (o i e).done)
          ((List.range N).map fun e => decide (i + 1 = n) ||
            decide (maxLen = some (len maxLen o e i + 1)) || (o i e).needsReset))] := by
    unfold callsAt
    by_cases h : i + 1 = n
    · simp only [if_pos h]; rfl
    · simp only [if_neg h]; rfl
  rw [h1]
  simp [Agent.run, Agent.call, Agent.evalCall, Agent.evaluate, hc, bind, Except.bind, pure, Except.pure, Agent.answer,
    Function.comp_def]

theorem iterations_run {A K : Type} (N : Nat) (c : Agent T Q C B P O Y H) (hc : c.recurrent = true)
    (maxLen : Option Nat) (o : Nat → Nat → StepOut O K)
    (a : Nat → List A) (ob : Nat → Nat → O) (n : Nat) : ∀ (k i : Nat) (s : St T Q H), i + k = n → 0 < k →
    Rows N c maxLen o ob i s →
    c.run s ((((List.range' i k).flatMap (callsAt N maxLen o a (fun i => (List.range N).map (ob i)) n)).filterMap
      ofBatch).map .eval) =
      .ok (⟨s.train, s.stats, some (List.replicate N c.zero)⟩, (List.range' i k).flatMap fun i =>
        [.eval ((List.range N).map fun e => c.answer (c.params s.train) maxLen o ob e i), .eval []]) := by
  intro k
  induction k with
  | zero => intro i s _ h; omega
  | succ k ih =>
    intro i s hn _ hs
    obtain ⟨rows, h1, h2, h3⟩ := iteration_run N c hc maxLen o a ob n i s hs
    rw [List.range'_succ, List.flatMap_cons, List.filterMap_append, List.map_append, List.flatMap_cons]
    rcases Nat.eq_zero_or_pos k with rfl | hk
    · rw [h2 (by omega)] at h1
      simpa using h1
    · refine run_append c _ _ _ _ _ _ _ h1 ?_
      rw [h3 (by omega)]
      exact ih (i + 1) _ (by omega) hk rfl

theorem iterations_run_plain {A K : Type} (N : Nat) (c : Agent T Q C B P O Y H) (hc : c.recurrent = false)
    (maxLen : Option Nat) (o : Nat → Nat → StepOut O K)
    (a : Nat → List A) (ob : Nat → Nat → O) (n : Nat) (l : List Nat) : ∀ (s : St T Q H),
    c.run s (((l.flatMap (callsAt N maxLen o a (fun i => (List.range N).map (ob i)) n)).filterMap
      ofBatch).map .eval) =
      .ok (s, l.flatMap fun i =>
        [.eval ((List.range N).map fun e => c.answer (c.params s.train) maxLen o ob e i), .eval []]) := by
  induction l with
  | nil => intro s; rfl
  | cons i l ih =>
    intro s
    rw [List.flatMap_cons, List.filterMap_append, List.map_append, List.flatMap_cons]
    exact run_append c _ _ _ _ _ _ _ (iteration_run_plain N c hc maxLen o a ob n i s) (ih s)

/-- C110: when `batch_run_evaluation_episodes` returns on `N` environments, the agent has
answered at every step, for every environment, what the network says about the observations of
the current episode of that environment alone, from the initial recurrent state; its training
state and its reported averages are untouched and no evaluation episode is running any more. -/
theorem C110_batch {A K X : Type} [AddMonoid K] (N : Nat) (c : Agent T Q C B P O Y H) (b : Budget) (maxLen : Option Nat)
    (o : Nat → Nat → StepOut O K) (w : Nat → BatchRunEval.Iter O A K X) (a : Nat → List A) (ob : Nat → Nat → O)
    (hw : ∀ i, w i = ⟨.ok (a i), .ok ((List.range N).map (o i)), .ok (), .ok ((List.range N).map (ob (i + 1)))⟩)
    (fuel : Nat) (scores : List K)
    (h : (BatchRunEval.run N b maxLen (.ok ((List.range N).map (ob 0))) w fuel).2 = .ok (some scores))
    (s : St T Q H) (hs : Fresh N c s) :
    let tr := (BatchRunEval.run N b maxLen (.ok ((List.range N).map (ob 0))) w fuel).1
    ∃ s' : St T Q H, c.run s ((tr.filterMap ofBatch).map .eval) =
      .ok (s', (List.range (numSteps tr)).flatMap fun i =>
        [.eval ((List.range N).map fun e => c.answer (c.params s.train) maxLen o ob e i), .eval []]) ∧
      s'.train = s.train ∧ s'.stats = s.stats ∧ Fresh N c s' := by
  intro tr
  have htr := BatchRunEval.C29_calls (maxLen := maxLen) (o := o) b w a (fun i => (List.range N).map (ob i)) hw fuel scores h
  simp only at htr
  change tr = _ at htr
  have hcalls : ((tr.filterMap ofBatch).map (Call.eval (C := C))) =
      ((((List.range (numSteps tr)).flatMap (callsAt N maxLen o a (fun i => (List.range N).map (ob i)) (numSteps tr))).filterMap
        ofBatch).map .eval) := by
    conv_lhs => rw [htr]
    rw [List.filterMap_cons]
    rfl
  rw [hcalls]
  cases hc : c.recurrent with
  | false => exact ⟨s, iterations_run_plain N c hc maxLen o a ob _ _ s, rfl, rfl, hs⟩
  | true =>
    rcases Nat.eq_zero_or_pos (numSteps tr) with h0 | hpos
    · refine ⟨s, ?_, rfl, rfl, hs⟩
      rw [h0]; rfl
    · refine ⟨⟨s.train, s.stats, some (List.replicate N c.zero)⟩, ?_, rfl, rfl, .inr rfl⟩
      rw [show List.range (numSteps tr) = List.range' 0 (numSteps tr) from List.range_eq_range']
      apply iterations_run N c hc maxLen o a ob _ _ _ _ (by omega) hpos
      unfold Rows
      have : s.test.getD (List.replicate N c.zero) = List.replicate N c.zero := by rcases hs with h | h <;> simp [h]
      rw [this]
      apply List.ext_getElem
      · simp
      · intro j h2 h3
        simp [history, len, after]

/-- A recurrent network that adds up what it sees. -/
private def sumAgent : Agent Nat Nat Nat Nat Unit Nat Nat Nat :=
  { recurrent := true, params := fun _ => (), net := fun _ h o => (h + o, h + o), zero := 0
    train := fun t x => .ok (t + x, t), clears := fun _ => false, trainStats := fun _ _ q => q
    actStats := fun y q => q + y }

/-- An evaluation of two episodes in the middle of training. -/
example : ∃ s', sumAgent.run ⟨0, 0, none⟩ [.train 5, .eval (.act 1), .eval (.act 2), .eval .stopEpisode,
    .eval (.act 7), .eval .stopEpisode, .train 6] = .ok (s', [.train 0, .eval [1], .eval [3], .eval [], .eval [7],
      .eval [], .train 5]) ∧ s'.train = 11 ∧ s'.test = none := ⟨_, rfl, rfl, rfl⟩

/-- Two environments; the first one's episode ends after the first step. -/
example : ∃ s', sumAgent.run ⟨0, 0, none⟩ [.eval (.batchAct [1, 10]), .eval (.batchObserve [true, false] [false, false]),
    .eval (.batchAct [2, 20]), .eval (.batchObserve [false, false] [true, true])] =
    .ok (s', [.eval [1, 10], .eval [], .eval [2, 30], .eval []]) ∧ s'.test = some [0, 0] := ⟨_, rfl, rfl⟩

/-! ## DDPG, TD3, SoftActorCritic -/

section ActorCritic
open ActorCritic (Args Buf Ev)
variable {M A R : Type}

/-- A replay buffer that keeps `n`-step transitions, as the agents use it. -/
def nstepBuf (push : M → List (Transition O A R) → M) (length : M → Nat) :
    Buf (NStep M Nat (Transition O A R)) O A R :=
  ⟨fun b e tr => b.append push (fun tr => tr.terminal) e tr, fun b e => b.stop push e, fun b => length b.memory⟩

/-- A call of a training or of an evaluation method. -/
inductive ACall (O A R : Type) where
  | train (c : ActorCritic.Call O A R)
  | eval (c : ECall O)

/-- A history of calls. -/
def acRun {Bf : Type} (c : Args) (b : Buf Bf O A R) : ActorCritic.St Bf O A → List (ACall O A R) →
    Py (ActorCritic.St Bf O A × List (Ev O A R))
  | s, [] => pure (s, [])
  | s, .train x :: l => do
    let r ← c.call b s x
    let r' ← acRun c b r.1 l
    pure (r'.1, r.2 ++ r'.2)
  | s, .eval x :: l => acRun c b (acEval b s x) l

/-- The training calls alone. -/
def onlyTraining : List (ACall O A R) → List (ACall O A R)
  | [] => []
  | .train x :: l => .train x :: onlyTraining l
  | .eval _ :: l => onlyTraining l

/-- `stop_episode_and_train`. -/
def endsEpisode : ActorCritic.Call O A R → Bool
  | .stop _ _ _ => true
  | _ => false

/-- Every `stop_episode()` of an evaluation is called before training or after a
`stop_episode_and_train()` (`between` tells whether this is so at the beginning). -/
def AtBoundaries : Bool → List (ACall O A R) → Prop
  | _, [] => True
  | _, .train x :: l => AtBoundaries (endsEpisode x) l
  | between, .eval .stopEpisode :: l => between = true ∧ AtBoundaries between l
  | between, .eval _ :: l => AtBoundaries between l

/-- No transition waits in the window of environment 0 and there is no last state. -/
def Between (s : ActorCritic.St (NStep M Nat (Transition O A R)) O A) : Prop :=
  s.lastState = none ∧ s.lastAction = none ∧ s.buf.last 0 = []

theorem stop_last (push : M → List (Transition O A R) → M) (b : NStep M Nat (Transition O A R)) (e : Nat) :
    (b.stop push e).last e = [] := by simp [NStep.stop]

theorem stop_empty (push : M → List (Transition O A R) → M) (b : NStep M Nat (Transition O A R)) (e : Nat)
    (h : b.last e = []) : b.stop push e = b := by
  have : Function.update b.last e [] = b.last := by
    rw [← h]; exact Function.update_eq_self e b.last
  cases b
  simp_all [NStep.stop, NStep.flush]

theorem acStop_between (push : M → List (Transition O A R) → M) (length : M → Nat)
    (s : ActorCritic.St (NStep M Nat (Transition O A R)) O A) (h : Between s) : acStop (nstepBuf push length) s = s := by
  obtain ⟨h1, h2, h3⟩ := h
  have := stop_empty push s.buf 0 h3
  cases s
  simp only at h1 h2 this
  subst h1 h2
  simp [acStop, nstepBuf, this]

theorem stop_between (push : M → List (Transition O A R) → M) (length : M → Nat)
    (s s' : ActorCritic.St (NStep M Nat (Transition O A R)) O A) (o : O) (r : R) (d : Bool) (ev : List (Ev O A R))
    (h : (nstepBuf push length).stopEpisodeAndTrain s o r d = .ok (s', ev)) : Between s' := by
  unfold ActorCritic.Buf.stopEpisodeAndTrain at h
  split at h
  · simp only [ActorCritic.Buf.push, ActorCritic.Buf.halt, Except.ok.injEq, Prod.mk.injEq] at h
    obtain ⟨rfl, _⟩ := h
    exact ⟨rfl, rfl, stop_last push _ 0⟩
  · cases h

/-- C110: for DDPG, TD3 and SoftActorCritic with a replay buffer of `n`-step transitions,
evaluations between training episodes (where `train_agent` makes them), and any number of
calls of `act`, `batch_act` and `batch_observe` wherever they are, change nothing: the final
state and everything done are those of the training calls alone. -/
theorem C110_actor_critic (c : Args) (push : M → List (Transition O A R) → M) (length : M → Nat)
    (l : List (ACall O A R)) : ∀ (between : Bool) (s : ActorCritic.St (NStep M Nat (Transition O A R)) O A),
    (between = true → Between s) → AtBoundaries between l →
    acRun c (nstepBuf push length) s l = acRun c (nstepBuf push length) s (onlyTraining l) := by
  induction l with
  | nil => intros; rfl
  | cons x l ih =>
    intro between s hs hl
    cases x with
    | train x =>
      simp only [acRun, onlyTraining]
      cases h : c.call (nstepBuf push length) s x with
      | error e => rfl
      | ok r =>
        have : acRun c (nstepBuf push length) r.1 l = acRun c (nstepBuf push length) r.1 (onlyTraining l) := by
          refine ih (endsEpisode x) r.1 ?_ hl
          intro hx
          cases x with
          | stop o r' d => exact stop_between push length s r.1 o r' d r.2 h
          | act | batchAct | batchObserve => cases hx
        simp only [bind, Except.bind, this]
    | eval x =>
      simp only [acRun, onlyTraining]
      cases x with
      | stopEpisode =>
        obtain ⟨h1, h2⟩ := hl
        rw [acEval, acStop_between push length s (hs h1)]
        exact ih between s hs h2
      | act o => exact ih between s hs hl
      | batchAct o => exact ih between s hs hl
      | batchObserve d r => exact ih between s hs hl

/-- An agent that has just been made satisfies the hypothesis. -/
theorem C110_actor_critic_init (m : M) (n : Nat) :
    Between (ActorCritic.init (⟨n, m, fun _ => []⟩ : NStep M Nat (Transition O A R)) : ActorCritic.St _ O A) :=
  ⟨rfl, rfl, rfl⟩

/-- C110: `stop_episode()` discards the transition that has begun: whatever the state, the next training step records nothing, and training cannot end an
episode that has not begun. -/
theorem C110_stop_discards {Bf : Type} (c : Args) (b : Buf Bf O A R) (s : ActorCritic.St Bf O A) :
    (∀ o r f s' ev, c.call b (acEval b s .stopEpisode) (.act o r f) = .ok (s', ev) → ActorCritic.bufCalls ev = []) ∧
    ∀ o r d, c.call b (acEval b s .stopEpisode) (.stop o r d) = .error .assertionError := by
  refine ⟨fun o r f s' ev h => ?_, fun o r d => rfl⟩
  simp only [ActorCritic.Args.call, ActorCritic.Args.actAndTrain] at h
  obtain ⟨e1, h1, h⟩ := DQN.except_bind_ok.1 h
  obtain ⟨⟨s2, e2⟩, h2, h⟩ := DQN.except_bind_ok.1 h
  obtain ⟨⟨s3, e3⟩, h3, h⟩ := DQN.except_bind_ok.1 h
  simp only [pure, Except.pure, Except.ok.injEq, Prod.mk.injEq] at h
  obtain ⟨rfl, rfl⟩ := h
  simp only [acEval, acStop, ActorCritic.Buf.actAppend, Except.ok.injEq, Prod.mk.injEq] at h2
  obtain ⟨rfl, rfl⟩ := h2
  rw [← List.singleton_append]
  simp only [ActorCritic.bufCalls_append, ActorCritic.syncIf_buf c _ e1 h1, (ActorCritic.updateIf_buf c b _ s3 e3 h3).2]
  cases s3.lastAction <;> rfl

/-- TD3 that never updates. -/
private def td3 : Args := ⟨.td3, 1000, 1, 1, 1, 1, 1, false, false⟩

/-- C110, violated otherwise: in batch training an evaluation on a plain environment (which
calls `stop_episode()` in the middle of training episodes) ends the episode of environment 0 in
the replay buffer.  With 2-step transitions, two steps of one training episode are stored as
the 2-step transition `[x, y]` without the evaluation; with it, `x` is stored alone. -/
theorem C110_violated_plain_eval_env (o1 o2 o3 : O) (a1 a2 : A) (r1 r2 : R) :
    let b : Buf (NStep (List (List (Transition O A R))) Nat (Transition O A R)) O A R :=
      nstepBuf (fun m w => m ++ [w]) List.length
    let s := ActorCritic.init (⟨2, [], fun _ => []⟩ : NStep (List (List (Transition O A R))) Nat (Transition O A R))
    let x : Transition O A R := ⟨o1, a1, r1, o2, none, false⟩
    let y : Transition O A R := ⟨o2, a2, r2, o3, none, false⟩
    let first : List (ACall O A R) := [.train (.batchAct [o1] [fun _ => a1]),
      .train (.batchObserve ⟨[o2], [r1], [false], [false]⟩)]
    let second : List (ACall O A R) := [.train (.batchAct [o2] [fun _ => a2]),
      .train (.batchObserve ⟨[o3], [r2], [false], [false]⟩)]
    (∃ s' ev, acRun td3 b s (first ++ second) = .ok (s', ev) ∧ s'.buf.memory = [[x, y]]) ∧
    (∃ s' ev, acRun td3 b s (first ++ [.eval (.act o1), .eval .stopEpisode] ++ second) = .ok (s', ev) ∧
      s'.buf.memory = [[x]] ∧ s'.buf.last 0 = [y]) :=
  ⟨⟨_, _, rfl, rfl⟩, ⟨_, _, rfl, rfl, rfl⟩⟩

/-- The same evaluation between two episodes of `train_agent`. -/
example (o1 o2 o3 : O) (a1 : A) (r : R) : AtBoundaries true ([.eval (.act o1), .eval .stopEpisode,
    .train (.act o1 r fun _ => a1), .train (.stop o2 r true), .eval (.act o3), .eval (.act o1), .eval .stopEpisode,
    .train (.act o1 r fun _ => a1)] : List (ACall O A R)) := by
  simp [AtBoundaries, endsEpisode]

end ActorCritic

/-! ## Agents with one stateful recurrent model -/

section Stateful
variable {S : Type}

/-- A training call, or a whole evaluation. -/
inductive SItem (C O : Type) where
  | train (x : C)
  | evaluation (calls : List (ECall O))

/-- A history. -/
def rnnRun (next : H → O → H) (zero : H) (train : Rnn H S → C → Py (Rnn H S × B)) : Rnn H S → List (SItem C O) →
    Py (Rnn H S × List B)
  | s, [] => pure (s, [])
  | s, .train x :: l => do
    let r ← train s x
    let r' ← rnnRun next zero train r.1 l
    pure (r'.1, r.2 :: r'.2)
  | s, .evaluation calls :: l => rnnRun next zero train (calls.foldl (rnnEval next zero) s) l

/-- The training calls. -/
def rnnTraining : List (SItem C O) → List (SItem C O)
  | [] => []
  | .train x :: l => .train x :: rnnTraining l
  | .evaluation _ :: l => rnnTraining l

/-- Evaluations end with `stop_episode()` and are made before training or after
`stop_episode_and_train()`. -/
def EvalsBetween (isStop : C → Bool) : Bool → List (SItem C O) → Prop
  | _, [] => True
  | _, .train x :: l => EvalsBetween isStop (isStop x) l
  | between, .evaluation calls :: l =>
    between = true ∧ calls.getLast? = some .stopEpisode ∧ EvalsBetween isStop between l

theorem rnn_rest (next : H → O → H) (zero : H) (calls : List (ECall O)) : ∀ s : Rnn H S,
    (calls.foldl (rnnEval next zero) s).rest = s.rest := by
  induction calls with
  | nil => intro s; rfl
  | cons x l ih =>
    intro s
    rw [List.foldl_cons, ih]
    cases x <;> rfl

theorem rnn_evaluation (next : H → O → H) (zero : H) (calls : List (ECall O)) (s : Rnn H S)
    (h : calls.getLast? = some .stopEpisode) : calls.foldl (rnnEval next zero) s = ⟨zero, s.rest⟩ := by
  obtain ⟨l, rfl⟩ : ∃ l, calls = l ++ [.stopEpisode] := by
    rw [List.getLast?_eq_some_iff] at h
    exact h
  rw [List.foldl_append]
  simp only [List.foldl_cons, List.foldl_nil, rnnEval, rnn_rest]

/-- C110: in an evaluation of these agents an action is chosen from all observations since the last `stop_episode()`, in order, and from nothing before. -/
theorem C110_stateful_memory (next : H → O → H) (zero : H) (before : List (ECall O)) (obss : List O) (s : Rnn H S) :
    ((before ++ ECall.stopEpisode :: obss.map ECall.act).foldl (rnnEval next zero) s).hidden = obss.foldl next zero := by
  have key : ∀ (obss : List O) (s : Rnn H S), ((obss.map ECall.act).foldl (rnnEval next zero) s).hidden = obss.foldl next s.hidden := by
    intro obss
    induction obss with
    | nil => intro s; rfl
    | cons o obss ih => intro s; exact ih _
  rw [List.foldl_append, List.foldl_cons, key]
  rfl

/-- C110: for A3C, ACER, NSQ, PCL and REINFORCE, whose evaluation uses the recurrent state of the
model that is trained, evaluations between training episodes change nothing, because
`stop_episode_and_train` leaves the initial state and so does an evaluation. -/
theorem C110_stateful (next : H → O → H) (zero : H) (train : Rnn H S → C → Py (Rnn H S × B)) (isStop : C → Bool)
    (hstop : ∀ s x s' b, isStop x = true → train s x = .ok (s', b) → s'.hidden = zero)
    (l : List (SItem C O)) : ∀ (between : Bool) (s : Rnn H S), (between = true → s.hidden = zero) →
    EvalsBetween isStop between l →
    rnnRun next zero train s l = rnnRun next zero train s (rnnTraining l) := by
  induction l with
  | nil => intros; rfl
  | cons x l ih =>
    intro between s hs hl
    cases x with
    | train x =>
      simp only [rnnRun, rnnTraining]
      cases h : train s x with
      | error e => rfl
      | ok r =>
        have := ih (isStop x) r.1 (fun hx => hstop s x r.1 r.2 hx h) hl
        simp only [bind, Except.bind, this]
    | evaluation calls =>
      obtain ⟨h1, h2, h3⟩ := hl
      simp only [rnnRun, rnnTraining]
      rw [rnn_evaluation next zero calls s h2]
      have : (⟨zero, s.rest⟩ : Rnn H S) = s := by rw [← hs h1]
      rw [this]
      exact ih between s hs h3

/-- C110, violated otherwise: an evaluation in the middle of a training episode makes these
agents forget what they have seen in it. -/
theorem C110_violated_stateful_middle :
    let next : Nat → Nat → Nat := fun h o => h + o
    let train : Rnn Nat Unit → Nat → Py (Rnn Nat Unit × Nat) := fun s o => .ok (⟨s.hidden + o, ()⟩, s.hidden + o)
    (rnnRun next 0 train ⟨0, ()⟩ [.train 1, .train 2]).map (·.2) = .ok [1, 3] ∧
    (rnnRun next 0 train ⟨0, ()⟩ [.train 1, .evaluation [.act 9, .stopEpisode], .train 2]).map (·.2) = .ok [1, 2] :=
  ⟨rfl, rfl⟩

end Stateful

/-! ## The environment -/

section Environment
open VectorEnv (Env Serial Op)
variable {S A I : Type}

/-- The calls on the environment in a run of `batch_run_evaluation_episodes`. -/
def envOps {K : Type} : BatchRunEval.Ev O A K → Option (Op A)
  | .reset m _ => some (.reset m)
  | .step a _ => some (.step a)
  | _ => none

theorem reset_unfinished (dyn : Env S O A I) (v : Serial S O) (ends : List Bool) (i : Nat)
    (h1 : v.last.length = v.envs.length) (h2 : ends.length = v.envs.length) (hi : ends[i]? = some false) :
    (v.reset dyn (some (ends.map not))).1.last[i]? = v.last[i]? := by
  obtain ⟨hlt, he⟩ := List.getElem?_eq_some_iff.1 hi
  have h3 : i < v.last.length := by omega
  have h4 : i < v.envs.length := by omega
  simp [Serial.reset, VectorEnv.resetAll, VectorEnv.maskOf, List.getElem?_zip_eq_some, List.getElem?_eq_getElem,
    hlt, h3, h4, he, VectorEnv.resetOne]

/-- C110: in batch training with an evaluation environment of its own, the observation on which
the agent acts next in an unfinished episode is the one it has just observed. -/
theorem C110_env_separate (dyn : Env S O A I) (v : Serial S O) (actions : List A) (evaluation : List (Op A)) (ends : List Bool)
    (h1 : actions.length = v.envs.length) (h2 : ends.length = v.envs.length) (i : Nat) (hi : ends[i]? = some false)
    (evalEnv : S) :
    (envPass dyn v actions evaluation (sharedEnv (some evalEnv)) ends).2[i]? =
      (envPass dyn v actions evaluation (sharedEnv (some evalEnv)) ends).1[i]? := by
  simp only [envPass, sharedEnv, Option.isNone_some, Bool.false_eq_true, if_false]
  apply reset_unfinished _ _ _ _ _ _ hi
  · simp [Serial.step, VectorEnv.stepAll, h1]
  · simp [Serial.step, VectorEnv.stepAll, h1, h2]

/-- An environment whose observation is the number of steps since the last reset. -/
private def counter : Env Nat Nat Unit Unit := ⟨fun _ => (0, 0), fun n _ => (n + 1, n + 1, ())⟩

/-- C110, violated by the default: without `eval_env`, `train_agent_batch_with_evaluation`
evaluates on the training environments in the middle of their episodes.  Here an episode of one
environment is at its third step; the evaluation of one step (its calls are those of
`batch_run_evaluation_episodes`) resets it, and although the agent has observed 3 and has not been
told of an end, it acts next on the observation 1 that the evaluation left behind. -/
theorem C110_violated_shared_env :
    let evaluation := ((BatchRunEval.run (X := Unit) (A := Unit) 1 (.steps 1) none (.ok [0])
      (fun i => ⟨.ok [()], .ok [⟨1, (0 : Nat), false, false⟩], .ok (), .ok [i]⟩) 2).1).filterMap envOps
    evaluation = [.reset none, .step [()]] ∧
    envPass counter ⟨[2], [some 2]⟩ [()] evaluation (sharedEnv (none : Option Nat)) [false] = ([some 3], [some 1]) ∧
    envPass counter ⟨[2], [some 2]⟩ [()] evaluation (sharedEnv (some 0)) [false] = ([some 3], [some 3]) :=
  ⟨rfl, rfl, rfl⟩

end Environment

end Verif.EvalCalls
