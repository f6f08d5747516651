import Verif.Props.Resume
import Verif.Props.TrainCalls
set_option autoImplicit false
set_option linter.unusedSectionVars false

/-! # C141: continuing a training run of DDPG, TD3, SoftActorCritic, PPO, TRPO and REINFORCE -/

namespace Verif.TrainCalls
variable {O A R S X : Type}

theorem calls_erase (l : List (Train.Ev O A R S)) : calls (l.map Train.Ev.erase) = calls l := by
  induction l with
  | nil => rfl
  | cons e l ih =>
    have : ∀ x : Train.Ev O A R S, calls (x :: l) = calls [x] ++ calls l := fun x => calls_append [x] l
    rw [List.map_cons, show calls (e.erase :: l.map Train.Ev.erase) = calls [e.erase] ++ calls (l.map Train.Ev.erase) from calls_append [_] _, ih, this]
    cases e <;> rfl

/-- The number of decisions. -/
def acts (l : List (Call O A R)) : Nat := l.countP fun | .act .. => true | .stop .. => false

theorem acts_calls (l : List (Train.Ev O A R S)) : acts (calls l) = l.countP Train.Ev.isAct := by
  induction l with
  | nil => rfl
  | cons e l ih =>
    rw [show calls (e :: l) = calls [e] ++ calls l from calls_append [e] l, acts, List.countP_append, ← acts, ← acts, ih, List.countP_cons]
    cases e <;> simp [calls, acts, Train.Ev.isAct, Nat.add_comm]

theorem acCalls_append (cands : Nat → Bool → A) : ∀ (l l' : List (Call O A R)) (k : Nat),
    acCalls cands k (l ++ l') = acCalls cands k l ++ acCalls cands (k + acts l) l'
  | [], l', k => by simp [acCalls, acts]
  | .act o r a :: l, l', k => by
    have : acts (.act o r a :: l) = acts l + 1 := by simp [acts]
    rw [List.cons_append, acCalls, acCalls, acCalls_append cands l l', this, show k + 1 + acts l = k + (acts l + 1) by omega]
    rfl
  | .stop o r d :: l, l', k => by
    have : acts (.stop o r d :: l) = acts l := by simp [acts]
    rw [List.cons_append, acCalls, acCalls, acCalls_append cands l l', this]
    rfl

theorem acCalls_shift (cands : Nat → Bool → A) (k : Nat) : ∀ (l : List (Call O A R)) (j : Nat), acCalls (fun i => cands (k + i)) j l = acCalls cands (k + j) l
  | [], j => rfl
  | .act o r a :: l, j => by rw [acCalls, acCalls, acCalls_shift cands k l]; rfl
  | .stop o r d :: l, j => by rw [acCalls, acCalls, acCalls_shift cands k l]

/-- What training methods for a single environment leave alone, and where the windows of the buffer are. -/
structure Rest (n : Nat) (s : ActorCritic.St (ReplayBuffer Nat (Transition O A R)) O A) : Prop where
  obs : s.batchLastObs = []
  action : s.batchLastAction = []
  steps : s.buf.numSteps = n
  last : ∀ j, j ≠ 0 → s.buf.last j = []

theorem push_rest (n : Nat) (s : ActorCritic.St (ReplayBuffer Nat (Transition O A R)) O A) (tr : Transition O A R) (h : Rest n s) :
    Rest n (replayBuf.push s 0 tr).1 ∧ (replayBuf.push s 0 tr).1.t = s.t := by
  refine ⟨⟨h.obs, h.action, ?_, ?_⟩, rfl⟩
  · show (NStep.append RAQ.append (·.terminal) s.buf 0 tr).numSteps = n
    unfold NStep.append
    simp only
    split
    · exact h.steps
    · split <;> exact h.steps
  · intro j hj
    show (NStep.append RAQ.append (·.terminal) s.buf 0 tr).last j = []
    unfold NStep.append
    simp only
    split
    · exact (Function.update_of_ne hj _ _).trans (h.last j hj)
    · split <;> exact (Function.update_of_ne hj _ _).trans (h.last j hj)

/-- `act_and_train`. -/
theorem act_rest (c : ActorCritic.Args) (hc : ActorCritic.Good c) (n : Nat) (s s' : ActorCritic.St (ReplayBuffer Nat (Transition O A R)) O A) (o : O) (r : R) (f : Bool → A)
    (ev : List (ActorCritic.Ev O A R)) (h : c.call replayBuf s (.act o r f) = .ok (s', ev)) (hs : Rest n s) : Rest n s' ∧ s'.t = s.t + 1 := by
  simp only [ActorCritic.Args.call, ActorCritic.Args.actAndTrain] at h
  obtain ⟨e1, -, h⟩ := DQN.except_bind_ok.1 h
  obtain ⟨⟨s2, e2⟩, h2, h⟩ := DQN.except_bind_ok.1 h
  obtain ⟨⟨s3, e3⟩, h3, h⟩ := DQN.except_bind_ok.1 h
  simp only [pure, Except.pure, Except.ok.injEq, Prod.mk.injEq] at h
  obtain ⟨rfl, -⟩ := h
  have hr : Rest n { s with t := s.t + 1 } := ⟨hs.obs, hs.action, hs.steps, hs.last⟩
  have h2' : Rest n s2 ∧ s2.t = s.t + 1 := by
    unfold ActorCritic.Buf.actAppend at h2
    split at h2
    · injection h2 with h2; injection h2 with h2 _; subst h2; exact ⟨hr, rfl⟩
    · cases h2
    · injection h2 with h2; injection h2 with h2 _; subst h2; exact push_rest n _ _ hr
  obtain ⟨s4, e4, g1, g2, -⟩ := ActorCritic.updateIfNecessary_ok c hc replayBuf { s2 with lastState := some o, lastAction := some (f (c.burning s)) }
  simp only at h3
  rw [g1] at h3
  injection h3 with h3
  injection h3 with h3 _
  subst h3
  obtain ⟨t1, t2, -, -, t5, t6⟩ := g2
  exact ⟨⟨t5.trans h2'.1.obs, t6.trans h2'.1.action, by rw [t2]; exact h2'.1.steps, by rw [t2]; exact h2'.1.last⟩, t1.trans h2'.2⟩

/-- `stop_episode_and_train`. -/
theorem stop_rest (c : ActorCritic.Args) (n : Nat) (s s' : ActorCritic.St (ReplayBuffer Nat (Transition O A R)) O A) (o : O) (r : R) (d : Bool)
    (ev : List (ActorCritic.Ev O A R)) (h : c.call replayBuf s (.stop o r d) = .ok (s', ev)) (hs : Rest n s) :
    Rest n s' ∧ s'.t = s.t ∧ s'.lastState = none ∧ s'.lastAction = none ∧ s'.buf.last 0 = [] := by
  simp only [ActorCritic.Args.call, ActorCritic.Buf.stopEpisodeAndTrain] at h
  split at h
  · rename_i o' a' _ _
    injection h with h
    injection h with h _
    subst h
    obtain ⟨p1, p2⟩ := push_rest n s ⟨o', a', r, o, some a', d⟩ hs
    refine ⟨⟨p1.obs, p1.action, p1.steps, fun j hj => ?_⟩, p2, rfl, rfl, ?_⟩
    · exact (Function.update_of_ne hj _ _).trans (p1.last j hj)
    · show (NStep.stop RAQ.append (replayBuf.push s 0 ⟨o', a', r, o, some a', d⟩).1.buf 0).last 0 = []
      simp [NStep.stop]
  · cases h

theorem run_split_ok (c : ActorCritic.Args) {B : Type} (b : ActorCritic.Buf B O A R) : ∀ (l l' : List (ActorCritic.Call O A R)) (s s' : ActorCritic.St B O A)
    (ev : List (ActorCritic.Ev O A R)), c.run b s (l ++ l') = .ok (s', ev) →
    ∃ s1 e1 e2, c.run b s l = .ok (s1, e1) ∧ c.run b s1 l' = .ok (s', e2) ∧ ev = e1 ++ e2
  | [], l', s, s', ev, h => ⟨s, [], ev, rfl, h, rfl⟩
  | x :: l, l', s, s', ev, h => by
    rw [List.cons_append] at h
    unfold ActorCritic.Args.run at h
    obtain ⟨⟨s1, e1⟩, h1, h⟩ := DQN.except_bind_ok.1 h
    obtain ⟨⟨s2, e2⟩, h2, h⟩ := DQN.except_bind_ok.1 h
    simp only [pure, Except.pure, Except.ok.injEq, Prod.mk.injEq] at h
    obtain ⟨rfl, rfl⟩ := h
    obtain ⟨s3, e3, e4, g1, g2, g3⟩ := run_split_ok c b l l' s1 s2 e2 h2
    subst g3
    refine ⟨s3, e1 ++ e3, e4, ?_, g2, by simp⟩
    simp only [ActorCritic.Args.run, h1, g1, bind, Except.bind, pure, Except.pure]

theorem run_rest (c : ActorCritic.Args) (hc : ActorCritic.Good c) (n : Nat) (cands : Nat → Bool → A) : ∀ (l : List (Call O A R)) (k : Nat)
    (s s' : ActorCritic.St (ReplayBuffer Nat (Transition O A R)) O A) (ev : List (ActorCritic.Ev O A R)),
    c.run replayBuf s (acCalls cands k l) = .ok (s', ev) → Rest n s → Rest n s' ∧ s'.t = s.t + acts l
  | [], k, s, s', ev, h, hs => by
    injection h with h; injection h with h _; subst h; exact ⟨hs, rfl⟩
  | .act o r a :: l, k, s, s', ev, h, hs => by
    rw [acCalls] at h
    unfold ActorCritic.Args.run at h
    obtain ⟨⟨s1, e1⟩, h1, h⟩ := DQN.except_bind_ok.1 h
    obtain ⟨⟨s2, e2⟩, h2, h⟩ := DQN.except_bind_ok.1 h
    simp only [pure, Except.pure, Except.ok.injEq, Prod.mk.injEq] at h
    obtain ⟨rfl, -⟩ := h
    obtain ⟨g1, g2⟩ := act_rest c hc n s s1 o r _ e1 h1 hs
    obtain ⟨g3, g4⟩ := run_rest c hc n cands l _ s1 s2 e2 h2 g1
    refine ⟨g3, ?_⟩
    rw [g4, g2]
    simp [acts]
    omega
  | .stop o r d :: l, k, s, s', ev, h, hs => by
    rw [acCalls] at h
    unfold ActorCritic.Args.run at h
    obtain ⟨⟨s1, e1⟩, h1, h⟩ := DQN.except_bind_ok.1 h
    obtain ⟨⟨s2, e2⟩, h2, h⟩ := DQN.except_bind_ok.1 h
    simp only [pure, Except.pure, Except.ok.injEq, Prod.mk.injEq] at h
    obtain ⟨rfl, -⟩ := h
    obtain ⟨g1, g2, -⟩ := stop_rest c n s s1 o r d e1 h1 hs
    obtain ⟨g3, g4⟩ := run_rest c hc n cands l _ s1 s2 e2 h2 g1
    refine ⟨g3, ?_⟩
    rw [g4, g2]
    simp [acts]

variable [Zero R] [LinearOrder S]

/-- What the calls of a run and of its continuation have to do with each other. -/
theorem calls_split (c : Train.Cfg S) (w : Train.World O A R S X) (pre post : List (Train.Ev O A R S)) (o : O) (hrun : (Train.run c w).1 = pre ++ .reset o :: post)
    (hpre : ∃ e ∈ pre, e.isStep = true) (hpost : ∃ e ∈ post, e.isAct = true) :
    let k := pre.countP Train.Ev.isStep
    calls (Train.run c w).1 = calls pre ++ calls (Train.run (c.resumed k) (w.resumed o k)).1 ∧ acts (calls pre) = k ∧
      ∃ l o1 r1 d1, calls pre = l ++ [.stop o1 r1 d1] := by
  intro k
  obtain ⟨o0, k', pre', ck, post', h1, hb, hlt, h2, h3, h4, h5⟩ := Train.run_split c w pre post o hrun hpre hpost
  have hk : k = k' := by
    show pre.countP Train.Ev.isStep = k'
    rw [h1, List.countP_append, List.countP_cons, hb.steps]
    split <;> simp [Train.Ev.isStep]
  have hq : ∀ (b : Bool) (t : Nat) (o : O) (l : List (Train.Ev O A R S)), calls (.reset o :: (if b then [Train.Ev.setT t] else []) ++ l) = calls l := by
    intro b t o l
    cases b <;> rfl
  refine ⟨?_, ?_, ?_⟩
  · rw [hrun, calls_append, hk, ← calls_erase (Train.run _ _).1, h4, calls_erase, hq, h2]
    congr 1
    rcases h3 with rfl | rfl <;> rfl
  · rw [acts_calls, hk, h1, List.countP_append, hb.acts]
    split <;> simp [Train.Ev.isAct]
  · obtain ⟨pre1, o1, r1, d1, E, hp', hE⟩ := hb.stop
    refine ⟨calls pre1, o1, r1, d1, ?_⟩
    rw [h1, hq, hp', calls_append]
    congr 1
    show Call.stop o1 r1 d1 :: calls E = _
    congr 1
    unfold calls
    rw [List.filterMap_eq_nil_iff]
    intro e he
    have := hE e he
    cases e <;> simp [Train.Ev.isProtocol] at this ⊢

/-- C141: DDPG, TD3 and SoftActorCritic can be continued exactly.  Take a training run and any reset inside it after which the run goes on, after `k` steps.  Let `s` be
the agent there.  A new agent that loads its snapshot, with a replay buffer that loads the saved memory, trained with `step_offset` advanced by `k` in an
environment that answers from there on as it did in the first run (with the same candidate actions), makes exactly the calls, updates and synchronisations that the
first agent made from there on, and ends in the same state with the same replay buffer. -/
theorem C141_actor_critic (c : Train.Cfg S) (w : Train.World O A R S X) (d : ActorCritic.Args) (hd : ActorCritic.Good d) (cap cap' : Option Nat) (n : Nat) (hn : 0 < n)
    (cands : Nat → Bool → A) (pre post : List (Train.Ev O A R S)) (o : O) (hrun : (Train.run c w).1 = pre ++ .reset o :: post)
    (hpre : ∃ e ∈ pre, e.isStep = true) (hpost : ∃ e ∈ post, e.isAct = true) :
    let k := pre.countP Train.Ev.isStep
    ∃ s ev s' ev', driveAC d cap n c.stepOffset cands pre = .ok (s, ev) ∧
      driveAC d cap n c.stepOffset cands (Train.run c w).1 = .ok (s', ev ++ ev') ∧
      d.run replayBuf { Resume.actorCritic s.qT s.polT ((ReplayBuffer.init cap' n).load s.buf.save) with t := (c.resumed k).stepOffset }
        (acCalls (fun j => cands (k + j)) 0 (calls (Train.run (c.resumed k) (w.resumed o k)).1)) = .ok (s', ev') := by
  intro k
  obtain ⟨e1, e2, l, o1, r1, d1, e3⟩ := calls_split c w pre post o hrun hpre hpost
  obtain ⟨s', evall, hall, -⟩ := C123_actor_critic c w d hd cap n hn cands (Train.run c w).1 [] (by simp)
  have hall' := hall
  unfold driveAC at hall'
  rw [e1, acCalls_append, Nat.zero_add, e2] at hall'
  obtain ⟨s, ev, ev', g1, g2, rfl⟩ := run_split_ok d replayBuf _ _ _ _ _ hall'
  refine ⟨s, ev, s', ev', g1, hall, ?_⟩
  rw [acCalls_shift]
  have hr0 : Rest n { (ActorCritic.init (ReplayBuffer.init cap n) : ActorCritic.St (ReplayBuffer Nat (Transition O A R)) O A) with t := c.stepOffset } :=
    ⟨rfl, rfl, rfl, fun _ _ => rfl⟩
  have hs : s = { Resume.actorCritic s.qT s.polT ((ReplayBuffer.init cap' n).load s.buf.save) with t := (c.resumed k).stepOffset } := by
    have ht := (run_rest d hd n cands (calls pre) 0 _ s ev g1 hr0).2
    have g1' := g1
    rw [e3, acCalls_append] at g1'
    obtain ⟨s1, f1, f2, q1, q2, -⟩ := run_split_ok d replayBuf _ _ _ _ _ g1'
    have hr1 := (run_rest d hd n cands l 0 _ s1 f1 q1 hr0).1
    simp only [acCalls, ActorCritic.Args.run] at q2
    obtain ⟨⟨s2, f3⟩, q3, q2⟩ := DQN.except_bind_ok.1 q2
    simp only [pure, Except.pure, bind, Except.bind, Except.ok.injEq, Prod.mk.injEq] at q2
    obtain ⟨rfl, -⟩ := q2
    obtain ⟨u1, u2, u3, u4, u5⟩ := stop_rest d n s1 s2 o1 r1 d1 f3 q3 hr1
    have hbuf : s2.buf = (ReplayBuffer.init cap' n).load s2.buf.save := by
      have hlast : s2.buf.last = fun _ => [] := by
        funext j
        by_cases hj : j = 0
        · rw [hj]; exact u5
        · exact u1.last j hj
      have hst := u1.steps
      rcases hb : s2.buf with ⟨nn, mm, ll⟩
      rw [hb] at hlast hst
      simp only at hlast hst
      subst hlast hst
      rfl
    rw [e2] at ht
    have ho := u1.obs
    have ha := u1.action
    rcases hs2 : s2 with ⟨t, q, p, b, ls, la, bo, ba⟩
    rw [hs2] at ht hbuf u3 u4 ho ha
    simp only at ht hbuf u3 u4 ho ha
    subst ht u3 u4 ho ha
    simp only [Resume.actorCritic, ActorCritic.init, Train.Cfg.resumed]
    rw [← hbuf]
  rw [← hs]
  exact g2

/-- A run of TD3 with a reset inside, at which the theorem applies, and what the agent has stored and done there. -/
example : ∃ pre post, (Train.run TrainDQN.exTrain TrainDQN.exWorld).1 = pre ++ .reset 50 :: post ∧ pre.countP Train.Ev.isStep = 2 ∧
    (∃ e ∈ pre, e.isStep = true) ∧ (∃ e ∈ post, e.isAct = true) ∧
    (driveAC ActorCritic.exTd3 none 2 5 (fun k _ => 10 + k) pre).toOption.map (fun x => (x.1.t, (stored x.1.buf).map (·.map (·.action)))) =
      some (7, [[10, 11], [11]]) := by
  refine ⟨(Train.run TrainDQN.exTrain TrainDQN.exWorld).1.take 7, (Train.run TrainDQN.exTrain TrainDQN.exWorld).1.drop 8, ?_, ?_, ?_, ?_, ?_⟩ <;>
    decide +kernel

/-! ## What the agents know in both runs -/

omit [Zero R] [LinearOrder S] in
theorem stop_inj {l l' : List (Call O A R)} {o o' : O} {r r' : R} {d d' : Bool} : ∀ (ts ts' : List (DQN.Turn Unit O A R)),
    ts.map turnCall ++ .stop o r d :: l = ts'.map turnCall ++ .stop o' r' d' :: l' → ts = ts' ∧ o = o' ∧ r = r' ∧ d = d' ∧ l = l'
  | [], [], h => by simpa [and_assoc] using h
  | [], t :: ts, h => by simp [turnCall] at h
  | t :: ts, [], h => by simp [turnCall] at h
  | ⟨o1, r1, _, a1⟩ :: ts, ⟨o2, r2, _, a2⟩ :: ts', h => by
    simp only [List.map_cons, List.cons_append, turnCall, List.cons.injEq, Call.act.injEq] at h
    obtain ⟨⟨rfl, rfl, rfl⟩, h⟩ := h
    obtain ⟨rfl, h'⟩ := stop_inj ts ts' h
    exact ⟨rfl, h'⟩

theorem history_cons {θ : Type} (e : DQN.Episode θ O A R) (eps : List (DQN.Episode θ O A R)) (cur : List (DQN.Turn θ O A R)) :
    history (e :: eps) cur = e.turns.map turnCall ++ .stop e.finalObs e.finalReward e.done :: history eps cur := by simp [history, episodeCalls]

theorem no_stop {ts : List (DQN.Turn Unit O A R)} {o : O} {r : R} {d : Bool} : Call.stop o r d ∉ ts.map turnCall := by simp [turnCall]

theorem history_inj : ∀ (eps eps' : List (DQN.Episode Unit O A R)) (cur cur' : List (DQN.Turn Unit O A R)), history eps cur = history eps' cur' → eps = eps' ∧ cur = cur'
  | [], [], cur, cur', h => by
    refine ⟨rfl, ?_⟩
    have h' : cur.map turnCall = cur'.map turnCall := by simpa [history] using h
    refine List.map_injective_iff.2 ?_ h'
    rintro ⟨o1, r1, _, a1⟩ ⟨o2, r2, _, a2⟩ h
    simp only [turnCall, Call.act.injEq] at h
    obtain ⟨rfl, rfl, rfl⟩ := h
    rfl
  | [], e :: eps, cur, cur', h => by
    rw [history_cons] at h
    have : Call.stop e.finalObs e.finalReward e.done ∈ cur.map turnCall := by
      have h' : history [] cur = cur.map turnCall := by simp [history]
      rw [← h', h]
      simp
    exact absurd this no_stop
  | e :: eps, [], cur, cur', h => by
    rw [history_cons] at h
    have : Call.stop e.finalObs e.finalReward e.done ∈ cur'.map turnCall := by
      have h' : history [] cur' = cur'.map turnCall := by simp [history]
      rw [← h', ← h]
      simp
    exact absurd this no_stop
  | e :: eps, e' :: eps', cur, cur', h => by
    rw [history_cons, history_cons] at h
    obtain ⟨h1, h2, h3, h4, h5⟩ := stop_inj _ _ h
    obtain ⟨rfl, rfl⟩ := history_inj eps eps' cur cur' h5
    refine ⟨?_, rfl⟩
    obtain ⟨f, rs, a, b, d⟩ := e
    obtain ⟨f', rs', a', b', d'⟩ := e'
    simp only [DQN.Episode.turns, List.cons.injEq] at h1 h2 h3 h4
    obtain ⟨rfl, rfl⟩ := h1
    subst h2 h3 h4
    rfl

theorem acts_history {θ : Type} : ∀ (eps : List (DQN.Episode θ O A R)) (cur : List (DQN.Turn θ O A R)),
    acts (history eps cur) = (eps.map DQN.Episode.steps).flatten.length + cur.length
  | [], cur => by
    simp only [history, acts, List.flatMap_nil, List.nil_append, List.map_nil, List.flatten_nil, List.length_nil, Nat.zero_add, List.countP_map]
    rw [List.countP_eq_length.2]
    intro t _
    rfl
  | e :: eps, cur => by
    have hsum : ∀ (l l' : List (Call O A R)) (o : O) (r : R) (d : Bool), acts (l ++ .stop o r d :: l') = acts l + acts l' := by
      intro l l' o r d
      simp [acts]
    rw [history_cons, hsum, acts_history eps cur]
    have : ∀ ts : List (DQN.Turn θ O A R), acts (ts.map (turnCall (R := R))) = ts.length := by
      intro ts
      rw [acts, List.countP_map, List.countP_eq_length.2]
      intro t _
      rfl
    rw [this, List.map_cons, List.flatten_cons, List.length_append, steps_length]
    omega

/-- What the agent of a run knows is what it knew at the reset, followed by what the agent of the continued run knows. -/
theorem known_resumed (c : Train.Cfg S) (w : Train.World O A R S X) (pre post : List (Train.Ev O A R S)) (o : O) (hrun : (Train.run c w).1 = pre ++ .reset o :: post)
    (hpre : ∃ e ∈ pre, e.isStep = true) (hpost : ∃ e ∈ post, e.isAct = true) :
    let k := pre.countP Train.Ev.isStep
    let whole := TrainDQN.known (Train.run c w).1
    let first := TrainDQN.known pre
    let rest := TrainDQN.known (Train.run (c.resumed k) (w.resumed o k)).1
    whole.1 = first.1 ++ rest.1 ∧ whole.2 = rest.2 ∧ first.2 = [] ∧ first.1.flatten.length = k := by
  intro k whole first rest
  obtain ⟨e1, e2, l, o1, r1, d1, e3⟩ := calls_split c w pre post o hrun hpre hpost
  obtain ⟨E, C, h1, h2, -⟩ := C123_calls c w (fun _ => ()) (Train.run c w).1 [] (by simp)
  obtain ⟨E1, C1, f1, f2, -⟩ := C123_calls c w (fun _ => ()) pre _ hrun
  obtain ⟨E2, C2, g1, g2, -⟩ := C123_calls (c.resumed k) (w.resumed o k) (fun _ => ()) (Train.run (c.resumed k) (w.resumed o k)).1 [] (by simp)
  have hC1 : C1 = [] := by
    rcases List.eq_nil_or_concat C1 with h | ⟨ts, t, h⟩
    · exact h
    · exfalso
      rw [h] at f1
      rw [f1] at e3
      have := congrArg List.getLast? e3
      simp [history, turnCall] at this
  subst hC1
  have hall : history E C = history (E1 ++ E2) C2 := by
    rw [← h1, e1, f1, g1]
    simp [history]
  obtain ⟨rfl, rfl⟩ := history_inj _ _ _ _ hall
  have i1 : whole = _ := h2.symm
  have i2 : first = _ := f2.symm
  have i3 : rest = _ := g2.symm
  rw [i1, i2, i3]
  refine ⟨by simp, rfl, rfl, ?_⟩
  have : acts (calls pre) = k := e2
  rw [← this, f1, acts_history]
  simp

/-! ## PPO and TRPO -/

theorem flush_none (s : PPOData.St O A R) (h : s.batch = none) :
    (PPOData.flush s).batch = none ∧ (PPOData.flush s).lastEpisode = [] ∧ (PPOData.flush s).last = s.last := by
  unfold PPOData.flush PPOData.flushBatch
  split_ifs with he
  · simp only [h]
    exact ⟨trivial, List.isEmpty_iff.1 he, trivial⟩
  · simp only [h]
    exact ⟨trivial, trivial, trivial⟩

theorem ready_none (interval : Nat) (s : PPOData.St O A R) (h : s.batch = none) :
    (PPOData.updateIfReady interval s).1.batch = none ∧ (s.lastEpisode = [] → (PPOData.updateIfReady interval s).1.lastEpisode = []) ∧
      (PPOData.updateIfReady interval s).1.last = s.last := by
  unfold PPOData.updateIfReady
  split
  · obtain ⟨h1, h2, h3⟩ := flush_none s h
    exact ⟨h1, fun _ => h2, h3⟩
  · exact ⟨h, fun h => h, rfl⟩

theorem ppo_act (interval : Nat) (s s' : PPOData.St O A R) (o : O) (r : R) (a : A) (ds : List (PPOData.Dataset O A R))
    (h : PPOData.step interval s (.act o r a) = .ok (s', ds)) (hs : s.batch = none) : s'.batch = none := by
  simp only [PPOData.step, Except.ok.injEq, Prod.mk.injEq] at h
  obtain ⟨rfl, -⟩ := h
  have : (PPOData.record s o r).batch = none := by
    unfold PPOData.record
    split <;> exact hs
  exact (ready_none interval _ this).1

theorem ppo_stop (interval : Nat) (s s' : PPOData.St O A R) (o : O) (r : R) (d : Bool) (ds : List (PPOData.Dataset O A R))
    (h : PPOData.step interval s (.stop o r d) = .ok (s', ds)) (hs : s.batch = none) : s'.batch = none ∧ s'.lastEpisode = [] ∧ s'.last = none := by
  simp only [PPOData.step] at h
  split at h
  · cases h
  · injection h with h
    obtain ⟨h1, h2, h3⟩ := flush_none { s with lastEpisode := s.lastEpisode ++ [⟨_, _, r, o, d⟩], last := none } hs
    obtain ⟨g1, g2, g3⟩ := ready_none interval _ h1
    rw [h] at g1 g2 g3
    exact ⟨g1, g2 h2, g3.trans h3⟩

theorem ppo_split (interval : Nat) : ∀ (l l' : List (PPOData.Call O A R)) (s s' : PPOData.St O A R) (ds : List (PPOData.Dataset O A R)),
    PPOData.run interval s (l ++ l') = .ok (s', ds) →
    ∃ s1 d1 d2, PPOData.run interval s l = .ok (s1, d1) ∧ PPOData.run interval s1 l' = .ok (s', d2) ∧ ds = d1 ++ d2
  | [], l', s, s', ds, h => ⟨s, [], ds, rfl, h, rfl⟩
  | x :: l, l', s, s', ds, h => by
    rw [List.cons_append] at h
    unfold PPOData.run at h
    obtain ⟨⟨s1, e1⟩, h1, h⟩ := DQN.except_bind_ok.1 h
    obtain ⟨⟨s2, e2⟩, h2, h⟩ := DQN.except_bind_ok.1 h
    simp only [pure, Except.pure, Except.ok.injEq, Prod.mk.injEq] at h
    obtain ⟨rfl, rfl⟩ := h
    obtain ⟨s3, e3, e4, g1, g2, g3⟩ := ppo_split interval l l' s1 s2 e2 h2
    subst g3
    refine ⟨s3, e1 ++ e3, e4, ?_, g2, by simp⟩
    simp only [PPOData.run, h1, g1, bind, Except.bind, pure, Except.pure]

theorem ppo_batch (interval : Nat) : ∀ (l : List (Call O A R)) (s s' : PPOData.St O A R) (ds : List (PPOData.Dataset O A R)),
    PPOData.run interval s (ppoCalls l) = .ok (s', ds) → s.batch = none → s'.batch = none
  | [], s, s', ds, h, hs => by
    injection h with h; injection h with h _; subst h; exact hs
  | .act o r a :: l, s, s', ds, h, hs => by
    change PPOData.run interval s (.act o r a :: ppoCalls l) = _ at h
    unfold PPOData.run at h
    obtain ⟨⟨s1, e1⟩, h1, h⟩ := DQN.except_bind_ok.1 h
    obtain ⟨⟨s2, e2⟩, h2, h⟩ := DQN.except_bind_ok.1 h
    simp only [pure, Except.pure, Except.ok.injEq, Prod.mk.injEq] at h
    obtain ⟨rfl, -⟩ := h
    exact ppo_batch interval l s1 s2 e2 h2 (ppo_act interval s s1 o r a e1 h1 hs)
  | .stop o r d :: l, s, s', ds, h, hs => by
    change PPOData.run interval s (.stop o r d :: ppoCalls l) = _ at h
    unfold PPOData.run at h
    obtain ⟨⟨s1, e1⟩, h1, h⟩ := DQN.except_bind_ok.1 h
    obtain ⟨⟨s2, e2⟩, h2, h⟩ := DQN.except_bind_ok.1 h
    simp only [pure, Except.pure, Except.ok.injEq, Prod.mk.injEq] at h
    obtain ⟨rfl, -⟩ := h
    exact ppo_batch interval l s1 s2 e2 h2 (ppo_stop interval s s1 o r d e1 h1 hs).1

theorem group_length {α β : Type} (f : α → β) (g : List (List (List α))) :
    ((g.map List.flatten).map (·.map f)).flatten.length = g.flatten.flatten.length := by
  induction g with
  | nil => rfl
  | cons x g ih =>
    simp only [List.map_cons, List.flatten_cons, List.length_append, List.length_map, List.flatten_append, ih]

theorem snd_length (ds : List (PPOData.Dataset O A R)) (d : PPOData.Dataset O A R) :
    ((ds.flatten ++ d).map Prod.snd).flatten.length = (ds.map PPOData.Dataset.size).sum + PPOData.Dataset.size d := by
  have h : ∀ d : PPOData.Dataset O A R, (d.map Prod.snd).flatten.length = PPOData.Dataset.size d := by
    intro d
    rw [List.length_flatten, List.map_map]
    rfl
  induction ds with
  | nil => rw [List.flatten_nil, List.nil_append, h]; simp
  | cons x ds ih =>
    rw [List.flatten_cons, List.append_assoc, List.map_append, List.flatten_append, List.length_append, ih, h, List.map_cons, List.sum_cons, Nat.add_assoc]

/-- C141: PPO and TRPO cannot be continued exactly, unless the number of steps is a multiple of the update interval.  Take a training run and any reset inside it
after which the run goes on, after `k` steps.  The snapshot does not hold the transitions collected since the last update.  If the agent has been told of `m` steps
after the reset, it has made `⌊(k + m) / interval⌋` updates at the end of the run, but only `⌊k / interval⌋` until the reset, and a new agent (`Resume.ppo`) that is
trained from there on with `step_offset` advanced by `k`, in an environment that answers as it did in the first run, makes `⌊m / interval⌋`.  The `k % interval`
transitions that the first agent's memory holds at the reset are in no update dataset of either.  If `k` is a multiple of the interval, nothing is lost: the new agent
makes exactly the updates that the first agent makes from there on. -/
theorem C141_ppo_not_continued (c : Train.Cfg S) (w : Train.World O A R S X) (interval : Nat) (hi : 1 ≤ interval) (pre post : List (Train.Ev O A R S)) (o : O)
    (hrun : (Train.run c w).1 = pre ++ .reset o :: post) (hpre : ∃ e ∈ pre, e.isStep = true) (hpost : ∃ e ∈ post, e.isAct = true) :
    let k := pre.countP Train.Ev.isStep
    let resumed := (Train.run (c.resumed k) (w.resumed o k)).1
    let m := (TrainDQN.known resumed).1.flatten.length + (TrainDQN.known resumed).2.length
    ∃ s ds sAll dsAll sNew dsNew, drivePPO interval pre = .ok (s, ds) ∧ drivePPO interval (Train.run c w).1 = .ok (sAll, dsAll) ∧
      PPOData.run interval Resume.ppo (ppoCalls (calls resumed)) = .ok (sNew, dsNew) ∧
      ds.length = k / interval ∧ dsAll.length = (k + m) / interval ∧ dsNew.length = m / interval ∧
      PPOData.Dataset.size s.memory = k % interval ∧
      (k % interval = 0 → sAll = sNew ∧ dsAll = ds ++ dsNew) := by
  intro k resumed m
  obtain ⟨k1, k2, k3, k4⟩ := known_resumed c w pre post o hrun hpre hpost
  change _ = k at k4
  obtain ⟨e1, -, l, o1, r1, d1, e3⟩ := calls_split c w pre post o hrun hpre hpost
  obtain ⟨s, ds, h1, h2, h3⟩ := C123_ppo_updates c w interval hi pre _ hrun
  obtain ⟨sA, dsA, g1, -, g3⟩ := C123_ppo_updates c w interval hi (Train.run c w).1 [] (by simp)
  obtain ⟨sN, dsN, f1, -, f3⟩ := C123_ppo_updates (c.resumed k) (w.resumed o k) interval hi resumed [] (by simp [resumed])
  rw [k3, k4, List.length_nil, Nat.add_zero] at h3
  have g3' : dsA.length = (k + m) / interval := by
    rw [g3, k1, k2, List.flatten_append, List.length_append, k4, Nat.add_assoc]
  -- the state at the reset
  have h1' := h1
  unfold drivePPO at h1'
  rw [e3, show ppoCalls (l ++ [.stop o1 r1 d1]) = ppoCalls l ++ [.stop o1 r1 d1] from List.map_append] at h1'
  obtain ⟨s1, q1, q2, t1, t2, t3⟩ := ppo_split interval _ _ _ _ _ h1'
  have t2' : PPOData.step interval s1 (.stop o1 r1 d1) = .ok (s, q2) := by
    unfold PPOData.run at t2
    obtain ⟨⟨s2, f4⟩, q3, t2⟩ := DQN.except_bind_ok.1 t2
    simp only [PPOData.run, pure, Except.pure, bind, Except.bind, Except.ok.injEq, Prod.mk.injEq, List.append_nil] at t2
    obtain ⟨rfl, rfl⟩ := t2
    exact q3
  obtain ⟨b1, b2, b3⟩ := ppo_stop interval s1 s o1 r1 d1 q2 t2' (ppo_batch interval l _ s1 q1 t1 rfl)
  -- the size of its memory
  obtain ⟨s', ds', u1, groups, open_, recording, u2, u3, u4⟩ := C123_ppo c w interval pre _ hrun
  rw [h1] at u1
  injection u1 with u1
  injection u1 with u1 u1'
  subst u1 u1'
  have hopen : open_.flatten = [] ∧ recording = [] := by
    rw [k3] at u4
    exact List.append_eq_nil_iff.1 (List.map_eq_nil_iff.1 u4)
  have hsize : (ds.map PPOData.Dataset.size).sum + PPOData.Dataset.size s.memory = k := by
    rw [← snd_length, u2, List.flatten_append, hopen.1, List.append_nil, ← k4, ← u3, group_length]
  have hds : (ds.map PPOData.Dataset.size).sum = ds.length * interval := by
    rw [List.sum_eq_card_nsmul _ interval (by simpa using h2)]
    simp
  have hmem : PPOData.Dataset.size s.memory = k % interval := by
    have := Nat.div_add_mod k interval
    rw [hds, h3, Nat.mul_comm] at hsize
    change interval * (k / interval) + _ = k at hsize
    omega
  refine ⟨s, ds, sA, dsA, sN, dsN, h1, g1, f1, h3, g3', f3, hmem, fun hk => ?_⟩
  have hm0 : s.memory = [] := by
    rw [hk] at hmem
    obtain ⟨rec', groups', open', -, -, -, v4⟩ := PPOData.C50_exactly_once interval none _ s ds h1
    rw [tags interval _ s ds h1] at v4
    rcases hm : s.memory with _ | ⟨x, xs⟩
    · rfl
    · exfalso
      have := v4 x.2 (by rw [hm]; simp)
      rw [hm] at hmem
      simp only [PPOData.Dataset.size, List.map_cons, List.sum_cons] at hmem
      have h0 : x.2.length = 0 := by omega
      exact this (List.length_eq_zero_iff.1 h0)
  have hs : s = Resume.ppo := by
    rcases s with ⟨a1, a2, a3, a4⟩
    simp only at hm0 b1 b2 b3
    subst hm0 b1 b2 b3
    rfl
  have g1' := g1
  unfold drivePPO at g1'
  rw [e1, show ppoCalls (calls pre ++ calls (Train.run (c.resumed k) (w.resumed o k)).1) = ppoCalls (calls pre) ++ ppoCalls (calls resumed) from List.map_append] at g1'
  obtain ⟨s3, d3, d4, z1, z2, z3⟩ := ppo_split interval _ _ _ _ _ g1'
  have z1' : drivePPO interval pre = .ok (s3, d3) := z1
  rw [h1] at z1'
  injection z1' with z1'
  injection z1' with z1' z1''
  subst z1' z1''
  rw [hs] at z2
  have f1' : PPOData.run interval Resume.ppo (ppoCalls (calls resumed)) = .ok (sN, dsN) := f1
  rw [f1'] at z2
  injection z2 with z2
  injection z2 with z2 z2'
  subst z2 z2'
  exact ⟨rfl, z3⟩

/-- With `update_interval=3` the run of three steps makes an update, but stopped at the reset inside it and continued it makes none. -/
example : let run := (Train.run TrainDQN.exTrain TrainDQN.exWorld).1
    (drivePPO 3 run).toOption.map (·.2.length) = some 1 ∧ (drivePPO 3 (run.take 7)).toOption.map (·.2.length) = some 0 ∧
    (PPOData.run 3 Resume.ppo (ppoCalls (calls (Train.run (TrainDQN.exTrain.resumed 2) (TrainDQN.exWorld.resumed 50 2)).1))).toOption.map (·.2.length) = some 0 := by
  decide +kernel

/-! ## REINFORCE -/

section
variable {K : Type} [Field K]

theorem losses_append (beta : K) (logp ent : Nat → K) : ∀ (l l' : List (List (DQN.EnvStep O A K))) (k : Nat),
    losses beta logp ent k (l ++ l') = losses beta logp ent k l ++ losses beta logp ent (k + l.flatten.length) l'
  | [], l', k => by simp [losses]
  | ep :: l, l', k => by
    rw [List.cons_append, losses, losses, losses_append beta logp ent l l', List.append_assoc, List.flatten_cons, List.length_append, Nat.add_assoc]

theorem episodeLoss_shift (beta : K) (logp ent : Nat → K) (k : Nat) : ∀ (ep : List (DQN.EnvStep O A K)) (j : Nat),
    episodeLoss beta (fun i => logp (k + i)) (fun i => ent (k + i)) j ep = episodeLoss beta logp ent (k + j) ep
  | [], j => rfl
  | x :: xs, j => by rw [episodeLoss, episodeLoss, episodeLoss_shift beta logp ent k xs]; rfl

theorem losses_shift (beta : K) (logp ent : Nat → K) (k : Nat) : ∀ (l : List (List (DQN.EnvStep O A K))) (j : Nat),
    losses beta (fun i => logp (k + i)) (fun i => ent (k + i)) j l = losses beta logp ent (k + j) l
  | [], j => rfl
  | ep :: l, j => by rw [losses, losses, losses_shift beta logp ent k l, episodeLoss_shift, Nat.add_assoc]

theorem means_append (n : Nat) (hn : 1 ≤ n) (l l' : List K) (h : l.length % n = 0) : means n (l ++ l') = means n l ++ means n l' := by
  obtain ⟨q, hq⟩ := Nat.dvd_of_mod_eq_zero h
  have e1 : (l ++ l').length / n = l.length / n + l'.length / n := by
    rw [List.length_append, hq, Nat.mul_add_div (by omega), Nat.mul_div_cancel_left _ (by omega)]
  have e2 : l.length / n = q := by rw [hq, Nat.mul_div_cancel_left _ (by omega)]
  unfold means
  rw [e1, List.range_add, List.map_append, List.map_map, e2]
  congr 1
  · apply List.map_congr_left
    intro j hj
    have hj' : j < q := List.mem_range.1 hj
    have h1 : (j + 1) * n ≤ q * n := Nat.mul_le_mul_right n hj'
    have h2 : (j + 1) * n = j * n + n := by ring
    have h3 : n * q = q * n := Nat.mul_comm _ _
    rw [List.drop_append_of_le_length (by omega), List.take_append_of_le_length (by rw [List.length_drop]; omega)]
  · apply List.map_congr_left
    intro j hj
    have h1 : (q + j) * n = l.length + j * n := by rw [hq]; ring
    simp only [Function.comp]
    rw [h1, List.drop_append, List.drop_eq_nil_of_le (by omega), List.nil_append, Nat.add_sub_cancel_left]

/-- C141: REINFORCE cannot be continued exactly, unless the number of complete episodes is a multiple of the batch size.  Take a training run and any reset inside it
after which the run goes on, after `k` steps.  Let `L` be the losses of the episodes that ended in a terminal state before it, `L'` those after it.  The first agent
has made the updates with the means of each `batchsize` of `L` until the reset and of each `batchsize` of `L` followed by `L'` until the end of the run; a new agent
(`Resume.reinforce`) that is trained from there on makes the updates with the means of each `batchsize` of `L'`: it forgets the last `length L % batchsize` episodes
before the reset.  If there are none, it makes exactly the updates that the first agent makes from there on. -/
theorem C141_reinforce_not_continued (c : Train.Cfg S) (w : Train.World O A K S X) (d : Reinforce.Cfg K) (hd : 1 ≤ d.batchsize) (logp ent : Nat → K)
    (pre post : List (Train.Ev O A K S)) (o : O) (hrun : (Train.run c w).1 = pre ++ .reset o :: post) (hpre : ∃ e ∈ pre, e.isStep = true)
    (hpost : ∃ e ∈ post, e.isAct = true) :
    let k := pre.countP Train.Ev.isStep
    let resumed := (Train.run (c.resumed k) (w.resumed o k)).1
    let L := losses d.beta logp ent 0 (TrainDQN.known pre).1
    let L' := losses d.beta logp ent k (TrainDQN.known resumed).1
    ∃ s sAll sNew, driveReinforce d logp ent pre = .ok (s, means d.batchsize L) ∧
      driveReinforce d logp ent (Train.run c w).1 = .ok (sAll, means d.batchsize (L ++ L')) ∧
      Reinforce.run d Resume.reinforce (reinforceCalls (fun i => logp (k + i)) (fun i => ent (k + i)) 0 (calls resumed)) = .ok (sNew, means d.batchsize L') ∧
      (means d.batchsize L).length = L.length / d.batchsize ∧ (means d.batchsize (L ++ L')).length = (L.length + L'.length) / d.batchsize ∧
      (means d.batchsize L').length = L'.length / d.batchsize ∧
      (L.length % d.batchsize = 0 → means d.batchsize (L ++ L') = means d.batchsize L ++ means d.batchsize L') := by
  intro k resumed L L'
  obtain ⟨k1, k2, k3, k4⟩ := known_resumed c w pre post o hrun hpre hpost
  obtain ⟨s, h1⟩ := C123_reinforce c w d hd logp ent pre _ hrun
  obtain ⟨sA, g1⟩ := C123_reinforce c w d hd logp ent (Train.run c w).1 [] (by simp)
  obtain ⟨sN, f1⟩ := C123_reinforce (c.resumed k) (w.resumed o k) d hd (fun i => logp (k + i)) (fun i => ent (k + i)) resumed [] (by simp [resumed])
  rw [k1, losses_append, k4, Nat.zero_add] at g1
  rw [losses_shift, Nat.add_zero] at f1
  refine ⟨s, sA, sN, h1, g1, f1, by simp [means], by simp [means], by simp [means], means_append d.batchsize hd L L'⟩

/-- Every step ends an episode. -/
def exShort : Train.World Nat Nat Rat Int String where
  reset := .ok 0
  iter i :=
    { act := .ok (10 + i), step := .ok ⟨i + 1, 100 + i, true, false⟩, hook := fun _ => .ok (), stop := .ok (), evaluate := .ok 0
      reset := .ok 50, checkpoint := .ok () }
  saveExcept := .ok ()
  saveFinish := .ok ()

def exTwo : Train.Cfg Int := ⟨2, 0, none, none, false, none, 0, true⟩

/-- With `batchsize=2` the run of two episodes makes an update, but stopped at the reset between them and continued it makes none. -/
example : ∃ pre post, (Train.run exTwo exShort).1 = pre ++ .reset 50 :: post ∧ pre.countP Train.Ev.isStep = 1 ∧ (∃ e ∈ pre, e.isStep = true) ∧
    (∃ e ∈ post, e.isAct = true) ∧
    (driveReinforce ⟨0, 2, false⟩ (fun _ => -1) (fun _ => 0) (Train.run exTwo exShort).1).toOption.map (·.2) = some [(201 / 2 : Rat)] ∧
    (driveReinforce ⟨0, 2, false⟩ (fun _ => -1) (fun _ => 0) pre).toOption.map (·.2) = some [] ∧
    (Reinforce.run ⟨0, 2, false⟩ Resume.reinforce (reinforceCalls (fun _ => -1) (fun _ => 0) 0
      (calls (Train.run (exTwo.resumed 1) (exShort.resumed 50 1)).1))).toOption.map (·.2) = some [] := by
  refine ⟨(Train.run exTwo exShort).1.take 5, (Train.run exTwo exShort).1.drop 6, ?_, ?_, ?_, ?_, ?_, ?_, ?_⟩ <;> decide +kernel

end

end Verif.TrainCalls
