import Verif.Model.TrainSyncCalls
import Verif.Props.TrainAsyncCalls
import Verif.Props.PGT
set_option autoImplicit false
set_option linter.unusedSectionVars false

/-! # C166: what a run of `train_agent` tells PGT, A3C, NSQ, ACER and PCL -/

namespace Verif.TrainSyncCalls
open DQN (EnvStep Turn Episode innerSteps)
open TrainDQN (known entriesOf)
open TrainCalls (Call calls history episodeCalls turnCall replayBuf stored C123_calls)
open TrainAsyncCalls (nstepCalls onlineCalls NUpdates nEpisodes nSteps callsBefore OnlineRight oEpisodes)
variable {O A R S X Y K D B : Type} [LinearOrder S]

/-! ## PGT -/

section Pgt
variable [Field K] [Zero R]

theorem pgtCalls_turns (q : Nat → K) : ∀ (ts : List (Turn K O A R)) (k : Nat) (l : List (Call O A R)),
    ts.map (·.params) = (List.range' k ts.length).map q →
    pgtCalls q k (ts.map turnCall ++ l) = ts.map PGT.turnCall ++ pgtCalls q (k + ts.length) l
  | [], k, l, _ => by simp
  | t :: ts, k, l, h => by
    simp only [List.map_cons, List.length_cons, List.range'_succ, List.cons.injEq] at h
    have ih := pgtCalls_turns q ts (k + 1) l h.2
    simp only [List.map_cons, List.cons_append, List.length_cons]
    show pgtCalls q k (.act t.obs t.reward t.action :: (ts.map turnCall ++ l)) = _
    rw [pgtCalls, ih, ← h.1, show k + 1 + ts.length = k + (ts.length + 1) by omega]
    rfl

theorem pgtCalls_history (q : Nat → K) : ∀ (eps : List (Episode K O A R)) (cur : List (Turn K O A R)) (k : Nat),
    (eps.flatMap Episode.turns ++ cur).map (·.params) = (List.range' k (eps.flatMap Episode.turns ++ cur).length).map q →
    pgtCalls q k (history eps cur) = eps.flatMap (fun e => (PGT.Phase.episode e).calls) ++ cur.map PGT.turnCall
  | [], cur, k, h => by
    have := pgtCalls_turns q cur k [] (by simpa using h)
    simpa [history, pgtCalls] using this
  | e :: eps, cur, k, h => by
    have h' : e.turns.map (·.params) = (List.range' k e.turns.length).map q ∧
        (eps.flatMap Episode.turns ++ cur).map (·.params) = (List.range' (k + e.turns.length) (eps.flatMap Episode.turns ++ cur).length).map q := by
      rw [List.flatMap_cons, List.append_assoc, List.map_append (l₁ := e.turns), List.length_append, ← List.range'_append_1, List.map_append (l₁ := List.range' k _)] at h
      exact List.append_inj h (by simp)
    have ih := pgtCalls_history q eps cur (k + e.turns.length) h'.2
    have e1 : history (e :: eps) cur = e.turns.map turnCall ++ (.stop e.finalObs e.finalReward e.done :: history eps cur) := by
      simp [history, episodeCalls]
    rw [e1, pgtCalls_turns q e.turns k _ h'.1, pgtCalls, ih]
    simp [PGT.Phase.calls]

theorem pgt_buf (c : PGT.Args K) (b : ActorCritic.Buf B O A R) : ∀ (l : List (PGT.Call O A R K)) (s s' : PGT.St B O A K)
    (ev : List (ActorCritic.Ev O A R)), c.run b s l = .ok (s', ev) → s'.buf = ActorCritic.bufferAfter b s.buf ev := by
  intro l
  induction l with
  | nil => intro s s' ev h; injection h with h; injection h with a1 a2; subst a1 a2; rfl
  | cons x l ih =>
    intro s s' ev h
    unfold PGT.Args.run at h
    obtain ⟨⟨s1, e1⟩, h1, h⟩ := DQN.except_bind_ok.1 h
    obtain ⟨⟨s2, e2⟩, h2, h⟩ := DQN.except_bind_ok.1 h
    simp only [pure, Except.pure, Except.ok.injEq, Prod.mk.injEq] at h
    obtain ⟨rfl, rfl⟩ := h
    rw [ActorCritic.bufferAfter_append, ← PGT.call_buf c b x s s1 e1 h1, ih s1 s2 e2 h2]

/-- **C166**: at every moment of every run of `train_agent` with PGT, from any `step_offset` and whatever Q-values it logs, no call of the agent raises by
itself, it returns the actions of the run, and its replay buffer holds exactly the entries that belong to the environment's steps it has been told of, in order, or
the newest ones of these if it is full. -/
theorem C166_pgt (c : Train.Cfg S) (w : Train.World O A R S X) (d : PGT.Args K) (hd : PGT.Good d) (cap : Option Nat) (n : Nat)
    (hn : 0 < n) (q : Nat → K) (pre post : List (Train.Ev O A R S)) (hrun : (Train.run c w).1 = pre ++ post) :
    ∃ s ev, drivePGT d cap n c.stepOffset q pre = .ok (s, ev) ∧ ActorCritic.returned ev = TrainCalls.chosen pre ∧
      stored s.buf = BoundedList.newest cap (entriesOf n (known pre)) := by
  obtain ⟨eps, cur, h1, h2, -, -, h5⟩ := C123_calls c w q pre post hrun
  rw [List.range_eq_range'] at h5
  have h6 := pgtCalls_history q eps cur 0 h5
  have h : ∀ (eps : List (Episode K O A R)) (s : PGT.St (ReplayBuffer Nat (Transition O A R)) O A K), PGT.At s none →
      ∃ s' ev, d.run replayBuf s (eps.flatMap fun e => (PGT.Phase.episode e).calls) = .ok (s', ev) ∧ PGT.At s' none ∧
        ActorCritic.returned ev = (eps.flatMap Episode.turns).map (·.action) ∧
        ActorCritic.bufCalls ev = eps.flatMap (fun e => e.steps.map (.append 0) ++ [.stop 0]) := by
    intro eps
    induction eps with
    | nil => intro s h; exact ⟨s, [], rfl, h, rfl, rfl⟩
    | cons p ps ih =>
      intro s h
      obtain ⟨s1, e1, h1, h2, h3, h4⟩ := PGT.run_phase d hd replayBuf (.episode p) s h
      obtain ⟨s2, e2, g1, g2, g3, g4⟩ := ih s1 h2
      refine ⟨s2, _, PGT.run_append d replayBuf _ _ _ _ _ _ _ h1 g1, g2, ?_, ?_⟩
      · rw [ActorCritic.returned_append, h3, g3, List.flatMap_cons, List.map_append]; rfl
      · rw [ActorCritic.bufCalls_append, h4, g4]; rfl
  obtain ⟨s1, e1, a1, i1, l1, k1⟩ := h eps { PGT.init (ReplayBuffer.init cap n) with t := c.stepOffset } ⟨rfl, rfl⟩
  obtain ⟨s2, e2, a2, -, l2, k2⟩ := PGT.run_turns d hd replayBuf cur s1 none i1
  have hr := PGT.run_append d replayBuf _ _ _ s1 s2 e1 e2 a1 a2
  rw [← h6, ← h1] at hr
  have k3 : PGT.stepsAfter none cur = innerSteps cur := by
    cases cur with
    | nil => rfl
    | cons t ts => rw [PGT.stepsAfter_none]
  refine ⟨s2, e1 ++ e2, hr, ?_, ?_⟩
  · rw [ActorCritic.returned_append, l1, l2, TrainCalls.chosen_calls pre eps cur h1, List.map_flatMap]
  have hbuf := pgt_buf d replayBuf _ _ _ _ hr
  have hcalls : ActorCritic.bufCalls (e1 ++ e2) = eps.flatMap (fun e => e.steps.map (.append 0) ++ [.stop 0]) ++ (innerSteps cur).map (.append 0) := by
    rw [ActorCritic.bufCalls_append, k1, k2, k3]
  unfold stored
  rw [hbuf, TrainCalls.bufferAfter_run]
  show List.map _ ((ReplayBuffer.init cap n).run _ _).memory.iter = _
  rw [TrainCalls.entries_eq TrainCalls.stepOf cap n hn, TrainCalls.acOps_calls, hcalls, TrainCalls.tell_history, h2]
  rw [TrainCalls.acOps_calls, hcalls]
  intro b hb
  rcases List.mem_append.1 hb with hb | hb
  · obtain ⟨e, -, hb⟩ := List.mem_flatMap.1 hb
    rcases List.mem_append.1 hb with hb | hb
    · obtain ⟨x, -, rfl⟩ := List.mem_map.1 hb; rfl
    · rw [List.mem_singleton.1 hb]; rfl
  · obtain ⟨x, -, rfl⟩ := List.mem_map.1 hb; rfl

end Pgt

/-! ## A3C and NSQ -/

section NStep
variable [CommRing K]

/-- **C166**: A3C and NSQ, trained with `train_agent` from step 0, never raise by themselves.  Their updates are those of the finished episodes of
the environment, one after the other: each episode is cut into rollouts of `t_max` steps, and every step has its n-step return as target.  In the
unfinished episode the full rollouts have been used, whose following state is known. -/
theorem C166_nstep (c : Train.Cfg S) (h0 : c.stepOffset = 0) (w : Train.World O A K S X) (gamma : K) (tMax : Nat) (htm : 1 ≤ tMax)
    (boot : Nat → K) (x : Nat → Y) (pre post : List (Train.Ev O A K S)) (hrun : (Train.run c w).1 = pre ++ post) :
    ∃ st uss tail, driveNStep gamma tMax c.stepOffset boot x pre = .ok (st, uss.flatten ++ tail) ∧
      List.Forall₂ (NUpdates gamma tMax) (nEpisodes boot x 0 (known pre).1) uss ∧
      ∀ (s : EnvStep O A K) (v : K), ∃ us u,
        NStepAgent.Rollouts tMax v (nSteps boot x (callsBefore (known pre).1) ((known pre).2 ++ [s])) (us ++ [u]) ∧
        tail = us.map fun u => (NStepAgent.returnsOf gamma u.2 u.1).reverse := by
  obtain ⟨eps, cur, h1, h2, -, -, -⟩ := C123_calls c w (fun _ => ()) pre post hrun
  rw [← h2]
  unfold driveNStep
  rw [h1, h0]
  exact TrainAsyncCalls.nstep_history gamma tMax htm boot x eps cur

theorem loop_missing (gamma : K) (s : NStepAgent.St Y K) (h0 : s.tStart = 0) (off : Nat) (hp : s.past off = none) :
    ∀ (n : Nat) (v : K), off < n → NStepAgent.loop gamma s n v = .error .keyError
  | 0, _, h => by omega
  | n + 1, v, h => by
    simp only [NStepAgent.loop, h0, Nat.cast_zero, zero_add, NStepAgent.look, bind, Except.bind]
    cases hr : s.pastRewards n with
    | none => simp
    | some r =>
      simp only
      cases hx : s.past n with
      | none => simp
      | some y =>
        have : off ≠ n := by rintro rfl; rw [hp] at hx; cases hx
        simp only [loop_missing gamma s h0 off hp n _ (by omega)]

/-- The book of an agent that has not updated since `t` was set to `off + 1`. -/
structure Stale (off : Nat) (s : NStepAgent.St Y K) : Prop where
  start : s.tStart = 0
  t : off < s.t
  past : ∀ i : Int, i ≤ off → s.past i = none

theorem stale_run (gamma : K) (tMax off : Nat) : ∀ (l : List (NStepAgent.Call Y K)) (s : NStepAgent.St Y K), Stale off s →
    NStepAgent.run gamma tMax s l = .error .keyError ∨
      ∃ st, NStepAgent.run gamma tMax s l = .ok (st, []) ∧ ∀ r d b, NStepAgent.Call.stop r d b ∉ l
  | [], s, _ => .inr ⟨s, rfl, by simp⟩
  | c :: l, s, hs => by
    have upd : ∀ (rew : Int → Option K) (boot : Option K), NStepAgent.update gamma { s with pastRewards := rew } boot = .error .keyError := by
      intro rew boot
      have h1 : decide (s.tStart < s.t) = true := by have := hs.t; simp [hs.start]; omega
      simp only [NStepAgent.update, pyAssert, h1, if_true, bind, Except.bind]
      have := loop_missing gamma { s with pastRewards := rew } hs.start off (hs.past off le_rfl) (s.t - s.tStart) (boot.getD 0) (by rw [hs.start]; exact hs.t)
      simp only [this]
    cases c with
    | actEval =>
      rcases stale_run gamma tMax off l s hs with h | ⟨st, h, hn⟩
      · left; simp [NStepAgent.run, NStepAgent.step, bind, Except.bind, pure, Except.pure, h]
      · right; exact ⟨st, by simp [NStepAgent.run, NStepAgent.step, bind, Except.bind, pure, Except.pure, h], by simpa using hn⟩
    | stopEval =>
      rcases stale_run gamma tMax off l s hs with h | ⟨st, h, hn⟩
      · left; simp [NStepAgent.run, NStepAgent.step, bind, Except.bind, pure, Except.pure, h]
      · right; exact ⟨st, by simp [NStepAgent.run, NStepAgent.step, bind, Except.bind, pure, Except.pure, h], by simpa using hn⟩
    | stop r d b =>
      left
      simp only [NStepAgent.run, NStepAgent.step, bind, Except.bind, upd]
    | act r b y =>
      by_cases ht : s.t - s.tStart = tMax
      · left
        simp only [NStepAgent.run, NStepAgent.step, NStepAgent.maybeUpdate, bind, Except.bind, ht, if_true, upd]
      · have hs' : Stale off { s with pastRewards := NStepAgent.put s.pastRewards (s.t - 1) r, past := NStepAgent.put s.past s.t y, t := s.t + 1 } := by
          refine ⟨hs.start, by have := hs.t; simp; omega, ?_⟩
          intro i hi
          have := hs.t
          simp only [NStepAgent.put]
          rw [if_neg (by omega)]
          exact hs.past i hi
        rcases stale_run gamma tMax off l _ hs' with h | ⟨st, h, hn⟩
        · left; simp only [NStepAgent.run, NStepAgent.step, NStepAgent.maybeUpdate, bind, Except.bind, ht, if_false, pure, Except.pure, h]
        · right
          exact ⟨st, by simp only [NStepAgent.run, NStepAgent.step, NStepAgent.maybeUpdate, bind, Except.bind, ht, if_false, pure, Except.pure, h]; rfl, by simpa using hn⟩

/-- **C166, violated**: with a positive `step_offset`, as for a run that is continued, A3C and NSQ never make an update: the first one, at the latest at the end of the
first episode, raises a KeyError, because `train_agent` sets `t` but not `t_start`. -/
theorem C166_violated_offset_nstep (c : Train.Cfg S) (h0 : 0 < c.stepOffset) (gamma : K) (tMax : Nat)
    (boot : Nat → K) (x : Nat → Y) (pre : List (Train.Ev O A K S)) :
    driveNStep gamma tMax c.stepOffset boot x pre = .error .keyError ∨
      ∃ st, driveNStep gamma tMax c.stepOffset boot x pre = .ok (st, []) ∧ ∀ o r d, Call.stop o r d ∉ calls pre := by
  rcases stale_run gamma tMax (c.stepOffset - 1) (nstepCalls boot x 0 (calls pre)) { NStepAgent.St.init with t := c.stepOffset }
    ⟨rfl, by simp; omega, fun _ _ => rfl⟩ with h | ⟨st, h, hn⟩
  · exact .inl h
  · refine .inr ⟨st, h, ?_⟩
    have key : ∀ (l : List (Call O A K)) (k : Nat), (∀ r d b, NStepAgent.Call.stop r d b ∉ nstepCalls boot x k l) → ∀ o r d, Call.stop o r d ∉ l := by
      intro l
      induction l with
      | nil => intro k _ o r d; simp
      | cons a l ih =>
        intro k hk o r d hm
        cases a with
        | act o' r' a' =>
          refine ih (k + 1) (fun r d b hb => hk r d b (List.mem_cons_of_mem _ hb)) o r d ?_
          simpa using hm
        | stop o' r' d' => exact hk r' d' (boot k) (List.mem_cons_self ..)
    exact key _ 0 hn

end NStep

/-! ## ACER and PCL -/

section Online
variable [Zero R]

/-- **C166**: ACER (with or without a replay buffer) and PCL (with one), trained with `train_agent` from step 0, never raise by themselves.  Whenever the last call has ended
an episode, all they have done is what C98 says about the finished episodes of the environment.  Inside an episode, what they have done is the beginning, up to the last returned
action, of what C98 says of the finished episodes and the current one, however its pending step may end it. -/
theorem C166_online (cfg : Train.Cfg S) (h0 : cfg.stepOffset = 0) (w : Train.World O A R S X) (c : OnlineReplay.Args) (b : OnlineReplay.Buf B O A D R)
    (hon : c.disableOnline = false) (htm : ∀ n, c.tMax = some n → 1 ≤ n) (buf : Option B)
    (hkind : c.kind = .acer ∨ (c.kind = .pcl ∧ buf.isSome ∧ 1 ≤ c.batchsize)) (dist : Nat → D) (pre post : List (Train.Ev O A R S))
    (hrun : (Train.run cfg w).1 = pre ++ post) :
    ∃ st es, driveOnline c b buf cfg.stepOffset dist pre = .ok (st, es) ∧
      ((∀ o r a, (calls pre).getLast? ≠ some (.act o r a)) → OnlineRight c b buf (oEpisodes dist 0 (known pre).1) es) ∧
      ∀ o r a, (calls pre).getLast? = some (.act o r a) → ∀ (r' : R) (o' : O) (d : Bool), ∃ tail, OnlineReplay.returned tail = [] ∧
        OnlineRight c b buf (oEpisodes dist 0 ((known pre).1 ++ [(known pre).2 ++ [⟨o, a, r', o', d⟩]])) (es ++ tail) := by
  obtain ⟨eps, cur, h1, h2, -, -, -⟩ := C123_calls cfg w (fun _ => ()) pre post hrun
  rw [← h2]
  unfold driveOnline
  rw [h1, h0]
  exact TrainAsyncCalls.online_history c b hon htm buf hkind dist eps cur

/-- ACER or PCL when it has not updated since `t` was set to a positive number. -/
structure StaleOnline (s : OnlineReplay.St B O A D R) : Prop where
  start : s.tStart = 0
  t : 0 < s.t
  key : ∀ e ∈ s.past, e.1 ≠ 0
  short : s.past.length < s.t

/-- What the first update raises. -/
def firstError (c : OnlineReplay.Args) : PyErr := if c.kind = .acer then .keyError else .assertionError

theorem stale_update (c : OnlineReplay.Args) (hon : c.disableOnline = false) (s : OnlineReplay.St B O A D R) (hs : StaleOnline s) (boot : Option O) :
    OnlineReplay.updateOnPolicy c s boot = .error (firstError c) := by
  have h0 := hs.t
  have h1 : s.tStart < s.t := by rw [hs.start]; exact hs.t
  simp only [OnlineReplay.updateOnPolicy, h1, if_true, hon, OnlineReplay.rollout, firstError, bind, Except.bind]
  have h2 : ¬ s.past.length = s.t - s.tStart := by have := hs.short; rw [hs.start]; omega
  cases hk : c.kind with
  | pcl => simp [h2]
  | acer =>
    obtain ⟨n, hn⟩ : ∃ n, s.t = n + 1 := ⟨s.t - 1, by omega⟩
    have hf : (s.past.find? fun e => e.1 == (0 : Int)) = none := by
      rw [List.find?_eq_none]
      intro e he
      simpa using hs.key e he
    have hc : OnlineReplay.collect s.past 0 s.t = .error .keyError := by
      rw [hn]
      simp only [OnlineReplay.collect, OnlineReplay.look, bind, Except.bind, hf]
    simp [hs.start, hc]

theorem put_short {V : Type} (d : OnlineReplay.Dict V) (k : Int) (v : V) : (OnlineReplay.put d k v).length ≤ d.length + 1 := by
  unfold OnlineReplay.put
  split <;> simp

theorem put_keys {V : Type} (d : OnlineReplay.Dict V) (k : Int) (v : V) (hk : k ≠ 0) (h : ∀ e ∈ d, e.1 ≠ 0) : ∀ e ∈ OnlineReplay.put d k v, e.1 ≠ 0 := by
  unfold OnlineReplay.put
  split
  · intro e he
    obtain ⟨a, ha, rfl⟩ := List.mem_map.1 he
    split
    · exact hk
    · exact h a ha
  · intro e he
    rcases List.mem_append.1 he with he | he
    · exact h e he
    · rw [List.mem_singleton.1 he]; exact hk

/-- No update and no replay. -/
def Idle (es : List (OnlineReplay.Ev O A D R)) : Prop := (∀ l, OnlineReplay.Ev.update l ∉ es) ∧ OnlineReplay.Ev.replay ∉ es

theorem idle_append (l l' : List (OnlineReplay.Ev O A D R)) (h : Idle l) (h' : Idle l') : Idle (l ++ l') :=
  ⟨fun x hx => (List.mem_append.1 hx).elim (h.1 x) (h'.1 x), fun hx => (List.mem_append.1 hx).elim h.2 h'.2⟩

theorem stale_act (c : OnlineReplay.Args) (hon : c.disableOnline = false) (b : OnlineReplay.Buf B O A D R) (s : OnlineReplay.St B O A D R)
    (hs : StaleOnline s) (hb : c.kind = .acer ∨ s.buf.isSome) (x : OnlineReplay.Step O A D) (r : R) :
    OnlineReplay.call c b s (.act x r) = .error (firstError c) ∨
      ∃ st es, OnlineReplay.call c b s (.act x r) = .ok (st, es) ∧ StaleOnline st ∧ (c.kind = .acer ∨ st.buf.isSome) ∧ st.last.isSome ∧ Idle es := by
  have hr : ∃ rw, OnlineReplay.recordReward c s r = { s with pastRewards := rw } := by
    unfold OnlineReplay.recordReward
    split
    · exact ⟨_, rfl⟩
    · exact ⟨s.pastRewards, rfl⟩
  obtain ⟨rw', hr⟩ := hr
  by_cases ht : some (s.t - s.tStart) = c.tMax
  · left
    simp only [OnlineReplay.call, OnlineReplay.actAndTrain, hr, OnlineReplay.maybeUpdate, ht, if_true, bind, Except.bind]
    have hu := stale_update c hon (⟨s.t, s.tStart, s.past, rw', s.last, s.pending, s.buf⟩ : OnlineReplay.St B O A D R) ⟨hs.start, hs.t, hs.key, hs.short⟩ (some x.obs)
    simp only [hu]
  · right
    simp only [OnlineReplay.call, OnlineReplay.actAndTrain, hr, OnlineReplay.maybeUpdate, ht, if_false, bind, Except.bind, pure, Except.pure]
    have st' : ∀ (bf : Option B) (la : Option (OnlineReplay.Step O A D)), StaleOnline
        (⟨s.t + 1, s.tStart, OnlineReplay.put s.past s.t x, rw', la, s.pending, bf⟩ : OnlineReplay.St B O A D R) := by
      intro bf la
      refine ⟨hs.start, Nat.succ_pos _, put_keys _ _ _ (by have := hs.t; simp; omega) hs.key, ?_⟩
      have h1 := put_short s.past s.t x
      have h2 := hs.short
      show (OnlineReplay.put s.past s.t x).length < s.t + 1
      omega
    have rcd : ∃ bf es, OnlineReplay.recordLast c b (⟨s.t + 1, s.tStart, OnlineReplay.put s.past s.t x, rw', s.last, s.pending, s.buf⟩ : OnlineReplay.St B O A D R) x.obs r x.action =
        .ok (⟨s.t + 1, s.tStart, OnlineReplay.put s.past s.t x, rw', s.last, s.pending, bf⟩, es) ∧ (c.kind = .acer ∨ bf.isSome) ∧ Idle es := by
      unfold OnlineReplay.recordLast
      cases hl : s.last with
      | none => exact ⟨s.buf, [], rfl, hb, by simp [Idle]⟩
      | some l =>
        simp only [OnlineReplay.appendTo]
        cases hbf : s.buf with
        | some y => exact ⟨_, _, rfl, .inr rfl, by simp [Idle]⟩
        | none =>
          rcases hb with hb | hb
          · exact ⟨none, [], by simp [hb], .inl hb, by simp [Idle]⟩
          · rw [hbf] at hb; cases hb
    obtain ⟨bf, es, e1, e2, e3⟩ := rcd
    simp only [e1]
    exact ⟨_, _, rfl, st' bf (some x), e2, rfl, idle_append _ _ (idle_append _ _ (by simp [Idle]) e3) (by simp [Idle])⟩

theorem stale_acts (c : OnlineReplay.Args) (hon : c.disableOnline = false) (b : OnlineReplay.Buf B O A D R) (dist : Nat → D) : ∀ (ts : List (Turn Unit O A R)) (k : Nat)
    (s : OnlineReplay.St B O A D R), StaleOnline s → (c.kind = .acer ∨ s.buf.isSome) →
    OnlineReplay.run c b s (onlineCalls dist k (ts.map turnCall)) = .error (firstError c) ∨
      ∃ st es, OnlineReplay.run c b s (onlineCalls dist k (ts.map turnCall)) = .ok (st, es) ∧ StaleOnline st ∧ (ts ≠ [] → st.last.isSome) ∧ Idle es
  | [], k, s, hs, _ => .inr ⟨s, [], rfl, hs, by simp, by simp [Idle]⟩
  | t :: ts, k, s, hs, hb => by
    simp only [List.map_cons, turnCall, onlineCalls, OnlineReplay.run, bind, Except.bind]
    rcases stale_act c hon b s hs hb ⟨t.obs, dist k, t.action⟩ t.reward with h | ⟨st, es, h, h1, h2, h3, h4⟩
    · left; simp only [h]
    · rcases stale_acts c hon b dist ts (k + 1) st h1 h2 with g | ⟨st', es', g, g1, g2, g3⟩
      · left; simp only [h]; erw [g]
      · right
        refine ⟨st', es ++ es', by simp only [h]; erw [g]; rfl, g1, fun _ => ?_, idle_append _ _ h4 g3⟩
        cases ts with
        | nil => cases g; exact h3
        | cons u us => exact g2 (by simp)

theorem run_error (c : OnlineReplay.Args) (b : OnlineReplay.Buf B O A D R) (err : PyErr) : ∀ (l l' : List (OnlineReplay.Call O A D R)) (s : OnlineReplay.St B O A D R),
    OnlineReplay.run c b s l = .error err → OnlineReplay.run c b s (l ++ l') = .error err
  | [], l', s, h => by cases h
  | x :: l, l', s, h => by
    simp only [List.cons_append, OnlineReplay.run, bind, Except.bind] at h ⊢
    cases hs : OnlineReplay.call c b s x with
    | error e => rw [hs] at h; exact h
    | ok a =>
      rw [hs] at h
      simp only at h ⊢
      cases hr : OnlineReplay.run c b a.1 l with
      | error e =>
        rw [hr] at h
        cases h
        rw [run_error c b _ l l' a.1 hr]
      | ok a' => rw [hr] at h; cases h

/-- **C166, violated**: with a positive `step_offset`, as for a run that is continued, ACER and PCL never make an update and never replay: the first update, at the latest at the
end of the first episode, raises (a KeyError in ACER, an AssertionError in PCL), because `train_agent` sets `t` but not `t_start`. -/
theorem C166_violated_offset_online (cfg : Train.Cfg S) (h0 : 0 < cfg.stepOffset) (w : Train.World O A R S X) (c : OnlineReplay.Args) (b : OnlineReplay.Buf B O A D R)
    (hon : c.disableOnline = false) (buf : Option B) (hkind : c.kind = .acer ∨ buf.isSome) (dist : Nat → D) (pre post : List (Train.Ev O A R S))
    (hrun : (Train.run cfg w).1 = pre ++ post) :
    driveOnline c b buf cfg.stepOffset dist pre = .error (if c.kind = .acer then .keyError else .assertionError) ∨
      ∃ st es, driveOnline c b buf cfg.stepOffset dist pre = .ok (st, es) ∧ (∀ l, OnlineReplay.Ev.update l ∉ es) ∧ OnlineReplay.Ev.replay ∉ es ∧
        ∀ o r d, Call.stop o r d ∉ calls pre := by
  obtain ⟨eps, cur, h1, -, -, -, -⟩ := C123_calls cfg w (fun _ => ()) pre post hrun
  have hs : StaleOnline ({ OnlineReplay.St.init buf with t := cfg.stepOffset } : OnlineReplay.St B O A D R) :=
    ⟨rfl, h0, by simp [OnlineReplay.St.init], h0⟩
  unfold driveOnline
  rw [h1]
  cases eps with
  | nil =>
    rcases stale_acts c hon b dist cur 0 _ hs hkind with h | ⟨st, es, h, -, -, h4⟩
    · exact .inl h
    · refine .inr ⟨st, es, h, h4.1, h4.2, ?_⟩
      intro o r d hm
      simp [history, turnCall] at hm
  | cons e eps =>
    left
    have hc : history (e :: eps) cur = e.turns.map turnCall ++ ([.stop e.finalObs e.finalReward e.done] ++ history eps cur) := by
      simp [history, episodeCalls]
    rw [hc, TrainAsyncCalls.onlineCalls_append, TrainAsyncCalls.onlineCalls_append, ← List.append_assoc]
    apply run_error
    rcases stale_acts c hon b dist e.turns 0 _ hs hkind with h | ⟨st, es, h, h1, h2, -⟩
    · exact run_error c b _ _ _ _ h
    · have hl := h2 (by simp [Episode.turns])
      obtain ⟨x, hx⟩ := Option.isSome_iff_exists.1 hl
      have hstop : OnlineReplay.run c b st (onlineCalls dist (0 + (e.turns.map turnCall).length) [.stop e.finalObs e.finalReward e.done]) = .error (firstError c) := by
        simp only [onlineCalls, OnlineReplay.run, OnlineReplay.call, OnlineReplay.stopEpisodeAndTrain, hx, bind, Except.bind]
        have hu := fun (rw : OnlineReplay.Dict R) (bt : Option O) => stale_update c hon
          (⟨st.t, st.tStart, st.past, rw, some x, st.pending, st.buf⟩ : OnlineReplay.St B O A D R) ⟨h1.start, h1.t, h1.key, h1.short⟩ bt
        simp only [hu]
      have run2 : ∀ (l l' : List (OnlineReplay.Call O A D R)) (s s' : OnlineReplay.St B O A D R) (es : List (OnlineReplay.Ev O A D R)) (err : PyErr),
          OnlineReplay.run c b s l = .ok (s', es) → OnlineReplay.run c b s' l' = .error err → OnlineReplay.run c b s (l ++ l') = .error err := by
        intro l
        induction l with
        | nil => intro l' s s' es err h h'; cases h; exact h'
        | cons y l ih =>
          intro l' s s' es err h h'
          simp only [List.cons_append, OnlineReplay.run, bind, Except.bind] at h ⊢
          cases hy : OnlineReplay.call c b s y with
          | error e => rw [hy] at h; cases h
          | ok a =>
            rw [hy] at h
            simp only at h ⊢
            cases hr : OnlineReplay.run c b a.1 l with
            | error e => rw [hr] at h; cases h
            | ok a' =>
              rw [hr] at h
              cases h
              rw [ih l' a.1 a'.1 a'.2 err hr h']
      exact run2 _ _ _ _ _ _ h hstop

end Online

/-! ## Concrete runs -/

/-- The run of the examples from step 0 and from step 5: an episode of two steps with a terminal state, and one of a single step that the end of training cuts off. -/
def exFrom (offset : Nat) : Train.Cfg Int := ⟨offset + 3, offset, none, none, false, none, 0, true⟩

set_option synthInstance.maxSize 4096 in
set_option synthInstance.maxHeartbeats 200000 in
/-- PGT from step 5, with two-step entries. -/
example : (drivePGT PGT.exArgs none 2 5 (fun k => (k : ℚ)) (Train.run (exFrom 5) TrainDQN.exWorld).1).toOption.map
    (fun x => (x.1.t, ActorCritic.returned x.2, (stored x.1.buf).map (·.map fun x => (x.state, x.action, x.reward, x.nextState, x.terminal)))) =
      some (8, [10, 11, 12], [[(0, 10, 100, 1, false), (1, 11, 101, 2, true)], [(1, 11, 101, 2, true)], [(50, 12, 102, 3, false)]]) := by decide +kernel

example := C166_pgt (exFrom 5) TrainDQN.exWorld PGT.exArgs ⟨by decide, by decide⟩ none 2 (by decide) (fun k => (k : ℚ)) (Train.run (exFrom 5) TrainDQN.exWorld).1 [] (by simp)

/-- A3C with `t_max` 1 from step 0: three updates, the second at a terminal state, the last with the value of the state after the cut. -/
example : ((driveNStep (1 / 2 : ℚ) 1 0 (fun k => 1000 * (k + 1 : ℚ)) (fun k => k) (Train.run (exFrom 0) TrainCalls.exWorldQ).1).toOption.map Prod.snd) =
    some [[(0, 1001)], [(1, 2)], [(3, 2503)]] := by decide +kernel

example := C166_nstep (exFrom 0) rfl TrainCalls.exWorldQ (1 / 2 : ℚ) 1 (by decide) (fun k => (k : ℚ)) (fun k => k) (Train.run (exFrom 0) TrainCalls.exWorldQ).1 [] (by simp)

/-- From step 5, with `t_max` 1 or 6 or 100. -/
example : (∀ m ∈ [1, 6, 100], (driveNStep (1 / 2 : ℚ) m 5 (fun k => 1000 * (k + 1 : ℚ)) (fun k => k) (Train.run (exFrom 5) TrainCalls.exWorldQ).1).toOption.map Prod.snd = none) ∧
    0 < (exFrom 5).stepOffset := by decide +kernel

def exBuf : OnlineReplay.Buf Nat Nat Nat Nat ℚ := ⟨fun x _ _ => x + 1, id, id, id⟩

set_option synthInstance.maxSize 1024 in
/-- PCL with `t_max` 2 and `batchsize` 1 from step 0: an update for each of the two episodes. -/
example : ((driveOnline ⟨.pcl, some 2, 1, 1, 2, false⟩ exBuf (some 0) 0 (fun k => k) (Train.run (exFrom 0) TrainCalls.exWorldQ).1).toOption.map
    fun r => (OnlineReplay.updatesOf r.2).map fun u => u.map fun q => (q.steps.map fun s => (s.1.obs, s.1.dist, s.1.action, s.2), q.boot)) =
    some [[([(0, 0, 10, 1), (1, 1, 11, 2)], none)], [([(50, 3, 12, 3)], some 3)]] := by
  decide +kernel

example := C166_online (exFrom 0) rfl TrainCalls.exWorldQ ⟨.pcl, some 2, 1, 1, 2, false⟩ exBuf rfl (by simp) (some 0) (.inr ⟨rfl, rfl, by decide⟩) (fun k => k)
  (Train.run (exFrom 0) TrainCalls.exWorldQ).1 [] (by simp)

set_option synthInstance.maxSize 1024 in
/-- From step 5 both ACER and PCL raise. -/
example : (∀ k ∈ [OnlineReplay.Kind.acer, .pcl], ((driveOnline ⟨k, some 2, 1, 1, 2, false⟩ exBuf (some 0) 5 (fun k => k) (Train.run (exFrom 5) TrainCalls.exWorldQ).1).toOption.map
    fun r => r.1.t) = none) := by
  decide +kernel

example := C166_violated_offset_online (exFrom 5) (by decide) TrainCalls.exWorldQ ⟨.pcl, some 2, 1, 1, 2, false⟩ exBuf rfl (some 0) (.inr rfl) (fun k => k)
  (Train.run (exFrom 5) TrainCalls.exWorldQ).1 [] (by simp)

end Verif.TrainSyncCalls
