import Verif.Model.TrainAsyncCalls
import Verif.Spec.TrainAsyncCalls
import Verif.Props.TrainAgentAsync
import Verif.Props.TrainCalls
import Verif.Props.NStep
import Verif.Props.OnlineReplay
set_option autoImplicit false
set_option linter.unusedSectionVars false

/-! # C125: what an asynchronous training run tells A3C, NSQ, ACER and PCL -/

namespace Verif.TrainAsyncCalls
open DQN (EnvStep Turn Episode innerSteps)
open TrainCalls (Call history episodeCalls turnCall)
open TrainAsync (Ev Cfg Inp Phase Next MustEnd eventsOf)

section Calls
variable {O A R S : Type} [Zero R]

theorem calls_append (l l' : List (Ev O A R)) : calls (l ++ l') = calls l ++ calls l' := by
  simp [calls, List.filterMap_append]

/-- How the calls of the agent relate to the record of the environment. -/
def Inv (p : Phase O A R) (w : Record O A R) (eps : List (Episode Unit O A R)) (cur : List (Turn Unit O A R)) : Prop :=
  match p with
  | .fresh => w = {} ∧ eps = [] ∧ cur = []
  | .ready o r _ => w.obs = some o ∧ r = 0 ∧ w.current = [] ∧ cur = [] ∧ eps.map Episode.steps = w.finished
  | .chosen a _ => ∃ l x, cur = l ++ [x] ∧ x.action = a ∧ w.obs = some x.obs ∧ w.current = innerSteps cur ∧ eps.map Episode.steps = w.finished
  | .stepped out _ => ∃ l x, cur = l ++ [x] ∧ w.obs = some out.obs ∧
      w.current = innerSteps cur ++ [⟨x.obs, x.action, out.r, out.obs, out.done⟩] ∧ eps.map Episode.steps = w.finished
  | .counted out _ _ _ => ∃ l x, cur = l ++ [x] ∧ w.obs = some out.obs ∧
      w.current = innerSteps cur ++ [⟨x.obs, x.action, out.r, out.obs, out.done⟩] ∧ eps.map Episode.steps = w.finished
  | .stopped _ _ => cur = [] ∧ w.current ≠ [] ∧ eps.map Episode.steps = w.finished ++ [w.current]
  | .saved => True
  | .over => True

/-- What holds all the time. -/
structure Good (w : Record O A R) (eps : List (Episode Unit O A R)) (cur : List (Turn Unit O A R)) : Prop where
  told : w.told = (eps.map Episode.steps, innerSteps cur)
  near : ∃ rest, rest.length ≤ 1 ∧ w.told.1.flatten ++ w.told.2 ++ rest = w.finished.flatten ++ w.current
  first : ∀ e ∈ eps, e.first.reward = 0
  cur0 : ∀ t ∈ cur.head?, t.reward = 0

theorem record_snoc (l : List (Ev O A R)) (e : Ev O A R) : record (l ++ [e]) = (record l).watch e := by
  simp [record]

theorem inner_one (x : Turn Unit O A R) : innerSteps [x] = [] := rfl

theorem steps_calls (c : Cfg S) (early : Bool) {ph : Phase O A R} {l : List (Ev O A R)} (h : Steps (Next c early) .fresh l ph) :
    ∃ eps cur, Inv ph (record l) eps cur ∧ Good (record l) eps cur ∧ history eps cur = calls l := by
  refine Steps.invariant (I := fun l ph => ∃ eps cur, Inv ph (record l) eps cur ∧ Good (record l) eps cur ∧ history eps cur = calls l)
    h ⟨[], [], ⟨rfl, rfl, rfl⟩, ⟨rfl, ⟨[], by simp, rfl⟩, by simp, by simp⟩, rfl⟩ ?_
  clear h
  rintro l q e r ⟨eps, cur, hi, hg, hh⟩ hn
  obtain ⟨rest, hr1, hr2⟩ := hg.near
  rw [record_snoc, calls_append]
  -- a call that neither the watcher nor the agent cares about
  have skip : ∀ e' : Ev O A R, (record l).watch e' = record l → calls [e'] = [] → ∀ r', Inv r' (record l) eps cur →
      ∃ eps cur, Inv r' ((record l).watch e') eps cur ∧ Good ((record l).watch e') eps cur ∧ history eps cur = calls l ++ calls [e'] := by
    intro e' h1 h2 r' h3
    rw [h1, h2, List.append_nil]
    exact ⟨eps, cur, h3, hg, hh⟩
  have act : ∀ (o : O) (rw a) (len : Nat), (record l).obs = some o → eps.map Episode.steps = (record l).finished →
      (∀ t ∈ (cur ++ [(⟨o, rw, (), a⟩ : Turn Unit O A R)]).head?, t.reward = 0) →
      (record l).current = innerSteps (cur ++ [(⟨o, rw, (), a⟩ : Turn Unit O A R)]) →
      ∃ eps cur, Inv (.chosen a len) ((record l).watch (.act o rw a)) eps cur ∧ Good ((record l).watch (.act o rw a)) eps cur ∧
        history eps cur = calls l ++ calls [.act o rw a] := by
    intro o rw a len h1 h2 h3 h4
    refine ⟨eps, cur ++ [(⟨o, rw, (), a⟩ : Turn Unit O A R)], ⟨cur, (⟨o, rw, (), a⟩ : Turn Unit O A R), rfl, rfl, h1, h4, h2⟩, ⟨?_, ⟨[], by simp, by simp [Record.watch]⟩, hg.first, h3⟩, ?_⟩
    · show ((record l).finished, (record l).current) = _
      rw [h2, h4]
    · rw [← hh]
      simp [history, calls, turnCall]
  cases hn with
  | first o =>
    obtain ⟨h0, rfl, rfl⟩ := hi
    refine ⟨[], [], ⟨rfl, rfl, rfl, rfl, ?_⟩, ⟨by rw [h0]; rfl, ⟨[], by simp, by rw [h0]; rfl⟩, by simp, by simp⟩, ?_⟩
    · rw [h0]; rfl
    · rw [← hh]; rfl
  | act o rw len a =>
    obtain ⟨h1, rfl, h3, rfl, h5⟩ := hi
    exact act o 0 a len h1 h5 (by simp) h3
  | step a len out =>
    obtain ⟨k, x, rfl, rfl, h3, h4, h5⟩ := hi
    have hw : (record l).watch (.step x.action out) =
        { record l with current := (record l).current ++ [⟨x.obs, x.action, out.r, out.obs, out.done⟩], obs := some out.obs } := by
      simp [Record.watch, h3]
    rw [hw]
    refine ⟨eps, k ++ [x], ⟨k, x, rfl, rfl, by rw [h4], h5⟩, ⟨hg.told, ⟨[⟨x.obs, x.action, out.r, out.obs, out.done⟩], by simp, ?_⟩, hg.first, hg.cur0⟩, ?_⟩
    · show (record l).told.1.flatten ++ (record l).told.2 ++ _ = _
      rw [hg.told, h4, h5, List.append_assoc]
    · rw [← hh]; simp [calls]
  | count out len n => exact skip _ rfl rfl _ hi
  | hook out len n i h => exact skip _ rfl rfl _ hi
  | go out len n a hm =>
    obtain ⟨k, x, rfl, h2, h3, h4⟩ := hi
    have hd : out.done = false := by
      cases hd : out.done with
      | false => rfl
      | true => exact absurd (Or.inl hd) hm
    refine act out.obs out.r a len h2 h4 ?_ ?_
    · intro t ht
      apply hg.cur0 t
      cases k <;> simpa using ht
    · rw [TrainCalls.innerSteps_snoc, h3, hd]
  | stop out len n hm =>
    obtain ⟨k, x, rfl, h2, h3, h4⟩ := hi
    obtain ⟨e, e1, e2, e3, e4, e5⟩ := TrainCalls.episode_of k x out.obs out.r out.done
    refine ⟨eps ++ [e], [], ⟨rfl, ?_, ?_⟩, ⟨?_, ⟨[], by simp, by simp [Record.watch]⟩, ?_, by simp⟩, ?_⟩
    · show (record l).current ≠ []
      rw [h3]; simp
    · show _ = (record l).finished ++ [(record l).current]
      rw [h3, List.map_append, h4, ← e5]; rfl
    · show ((record l).finished ++ [(record l).current], []) = _
      rw [h3, List.map_append, h4, ← e5]; rfl
    · intro e' he'
      rcases List.mem_append.1 he' with he' | he'
      · exact hg.first e' he'
      · rw [List.mem_singleton.1 he']
        apply hg.cur0
        rw [← e1]; rfl
    · rw [← hh]
      simp [history, calls, episodeCalls, e1, e2, e3, e4]
  | evaluate n k h => exact skip _ rfl rfl _ hi
  | again n o h =>
    obtain ⟨rfl, h2, h3⟩ := hi
    have hw : (record l).watch (.reset o : Ev O A R) =
        { record l with finished := (record l).finished ++ [(record l).current], current := [], obs := some o } := by
      simp [Record.watch, h2]
    rw [hw]
    refine ⟨eps, [], ⟨rfl, rfl, rfl, rfl, h3⟩, ⟨hg.told, ⟨rest, hr1, by simpa using hr2⟩, hg.first, by simp⟩, ?_⟩
    rw [← hh]; simp [calls]
  | finish h => exact skip _ rfl rfl _ trivial
  | successful n h h' => exact skip _ rfl rfl _ trivial
  | successful' h => exact skip _ rfl rfl _ trivial
  | except p t => exact skip _ rfl rfl _ trivial

variable [LinearOrder S] {P : Nat}

/-- **C125.** In every asynchronous run, under every schedule and wherever it is looked at, the calls a process has made
to its agent are whole episodes followed by the decisions of an unfinished one.  The steps that the agent can
read off them, each with the observation before, the action chosen there, the reward, the observation after and whether it is
terminal, are the steps recorded at the environment of the process up to the last call.  The first
call of an episode carries reward 0. -/
theorem C125_calls (c : Cfg S) (sched : List (Fin P × Inp O A R S)) (p : Fin P) :
    ∃ (eps : List (Episode Unit O A R)) (cur : List (Turn Unit O A R)),
      history eps cur = calls (eventsOf p (TrainAsync.run c P sched).1) ∧
      (eps.map Episode.steps, innerSteps cur) = (record (eventsOf p (TrainAsync.run c P sched).1)).told ∧
      (∀ e ∈ eps, e.first.reward = 0) ∧ ∀ t ∈ cur.head?, t.reward = 0 := by
  obtain ⟨ph, h⟩ := TrainAsync.C25_protocol c sched p
  obtain ⟨eps, cur, -, hg, hh⟩ := steps_calls c _ h
  exact ⟨eps, cur, hh, hg.told.symm, hg.first, hg.cur0⟩

/-- **C125.** At every moment the agent has been told of all the steps of its environment except at most the latest one. -/
theorem C125_nothing_missed (c : Cfg S) (sched : List (Fin P × Inp O A R S)) (p : Fin P) :
    ∃ rest, rest.length ≤ 1 ∧ (record (eventsOf p (TrainAsync.run c P sched).1)).told.1.flatten ++
        (record (eventsOf p (TrainAsync.run c P sched).1)).told.2 ++ rest =
      (record (eventsOf p (TrainAsync.run c P sched).1)).finished.flatten ++ (record (eventsOf p (TrainAsync.run c P sched).1)).current := by
  obtain ⟨ph, h⟩ := TrainAsync.C25_protocol c sched p
  obtain ⟨eps, cur, -, hg, -⟩ := steps_calls c _ h
  exact hg.near

end Calls

/-! ## Episodes by recursion -/

section Agents
variable {O A K X D B R S : Type}

/-- The steps of an episode, by recursion over its decisions. -/
def go (o : O) (r : R) (d : Bool) : Turn Unit O A R → List (Turn Unit O A R) → List (EnvStep O A R)
  | t, [] => [⟨t.obs, t.action, r, o, d⟩]
  | t, u :: us => ⟨t.obs, t.action, u.reward, u.obs, false⟩ :: go o r d u us

theorem zip_go (o : O) (r : R) (d : Bool) : ∀ (t : Turn Unit O A R) (ts : List (Turn Unit O A R)),
    List.zipWith (fun t (n : O × R × Bool) => (⟨t.obs, t.action, n.2.1, n.1, n.2.2⟩ : EnvStep O A R)) (t :: ts)
      (ts.map (fun t => (t.obs, t.reward, false)) ++ [(o, r, d)]) = go o r d t ts
  | t, [] => rfl
  | t, u :: us => by
    have := zip_go o r d u us
    simp only [List.map_cons, List.cons_append, List.zipWith_cons_cons, go] at this ⊢
    rw [← this]

theorem steps_go (e : Episode Unit O A R) : e.steps = go e.finalObs e.finalReward e.done e.first e.rest := zip_go _ _ _ _ _

theorem inner_go (o : O) (r : R) (d : Bool) : ∀ (t : Turn Unit O A R) (ts : List (Turn Unit O A R)),
    ∃ x, (t :: ts).getLast? = some x ∧ go o r d t ts = innerSteps (t :: ts) ++ [⟨x.obs, x.action, r, o, d⟩]
  | t, [] => ⟨t, rfl, rfl⟩
  | t, u :: us => by
    obtain ⟨x, h1, h2⟩ := inner_go o r d u us
    refine ⟨x, by simpa using h1, ?_⟩
    simp only [go, h2, innerSteps, List.tail_cons, List.zipWith_cons_cons, List.cons_append]

theorem go_length (o : O) (r : R) (d : Bool) : ∀ (t : Turn Unit O A R) (ts : List (Turn Unit O A R)), (go o r d t ts).length = ts.length + 1
  | t, [] => rfl
  | t, u :: us => by simp [go, go_length o r d u us]

theorem go_last (o : O) (r : R) (d : Bool) (t : Turn Unit O A R) (ts : List (Turn Unit O A R)) :
    ∃ s, (go o r d t ts).getLast? = some s ∧ s.terminal = d ∧ s.nextState = o := by
  obtain ⟨x, -, h2⟩ := inner_go o r d t ts
  exact ⟨_, by rw [h2, List.getLast?_concat], rfl, rfl⟩

/-! ## A3C and NSQ -/

theorem nstepCalls_append (boot : Nat → K) (x : Nat → X) : ∀ (l l' : List (Call O A K)) (k : Nat),
    nstepCalls boot x k (l ++ l') = nstepCalls boot x k l ++ nstepCalls boot x (k + l.length) l'
  | [], l', k => rfl
  | .act o r a :: l, l', k => by
    simp only [List.cons_append, nstepCalls, nstepCalls_append boot x l l' (k + 1), List.length_cons]
    rw [Nat.add_right_comm]; rfl
  | .stop o r d :: l, l', k => by
    simp only [List.cons_append, nstepCalls, nstepCalls_append boot x l l' (k + 1), List.length_cons]
    rw [Nat.add_right_comm]; rfl

theorem nSteps_snoc (boot : Nat → K) (x : Nat → X) : ∀ (l : List (EnvStep O A K)) (s : EnvStep O A K) (k : Nat),
    nSteps boot x k (l ++ [s]) = nSteps boot x k l ++ [⟨boot (k + l.length), x (k + l.length), s.reward⟩]
  | [], s, k => rfl
  | a :: l, s, k => by
    simp only [List.cons_append, nSteps, nSteps_snoc boot x l s (k + 1), List.length_cons]
    rw [Nat.add_right_comm]; rfl

theorem nstep_turns (boot : Nat → K) (x : Nat → X) (E : NStepAgent.Episode X K) (o : O) (r : K) (d : Bool) :
    ∀ (t : Turn Unit O A K) (ts : List (Turn Unit O A K)) (k : Nat),
    nstepCalls boot x k ((t :: ts).map turnCall) ++ [.stop r E.done E.boot] =
      NStepAgent.callsFrom E t.reward (nSteps boot x k (go o r d t ts))
  | t, [], k => rfl
  | t, u :: us, k => by
    have := nstep_turns boot x E o r d u us (k + 1)
    show NStepAgent.Call.act t.reward (boot k) (x k) :: (nstepCalls boot x (k + 1) ((u :: us).map turnCall) ++ [.stop r E.done E.boot]) = _
    rw [this]
    rfl

theorem nstep_episode (boot : Nat → K) (x : Nat → X) (e : Episode Unit O A K) (k : Nat) :
    nstepCalls boot x k (episodeCalls e) = (nEpisode boot x k e.steps).calls e.first.reward := by
  obtain ⟨s, h1, h2, h3⟩ := go_last e.finalObs e.finalReward e.done e.first e.rest
  rw [← steps_go] at h1
  have hd : (nEpisode boot x k e.steps).done = e.done := by simp [nEpisode, h1, h2]
  have hb : (nEpisode boot x k e.steps).boot = boot (k + e.turns.length) := by
    show boot (k + e.steps.length) = _
    rw [steps_go, go_length]; rfl
  have := nstep_turns boot x (nEpisode boot x k e.steps) e.finalObs e.finalReward e.done e.first e.rest k
  rw [← steps_go, hd, hb] at this
  rw [episodeCalls, nstepCalls_append]
  refine Eq.trans ?_ this
  simp [nstepCalls, Episode.turns]

/-- If a run goes through, so does a beginning of it. -/
theorem nstep_split [CommSemiring K] (gamma : K) (tMax : Nat) : ∀ (l l' : List (NStepAgent.Call X K)) (s : NStepAgent.St X K) (q),
    NStepAgent.run gamma tMax s (l ++ l') = .ok q →
    ∃ q1 q2, NStepAgent.run gamma tMax s l = .ok q1 ∧ NStepAgent.run gamma tMax q1.1 l' = .ok q2 ∧ q = (q2.1, q1.2 ++ q2.2)
  | [], l', s, q, h => ⟨(s, []), q, rfl, h, rfl⟩
  | c :: l, l', s, q, h => by
    simp only [List.cons_append, NStepAgent.run, bind, Except.bind] at h ⊢
    cases hs : NStepAgent.step gamma tMax s c with
    | error e => rw [hs] at h; cases h
    | ok a =>
      rw [hs] at h
      cases hr : NStepAgent.run gamma tMax a.1 (l ++ l') with
      | error e => simp only [hr] at h; cases h
      | ok a' =>
        simp only [hr] at h
        obtain ⟨q1, q2, h1, h2, h3⟩ := nstep_split gamma tMax l l' a.1 a' hr
        refine ⟨(q1.1, a.2 ++ q1.2), q2, by simp only [h1]; rfl, h2, ?_⟩
        cases h
        rw [h3, List.append_assoc]

theorem nstep_episodes [CommRing K] (gamma : K) (tMax : Nat) (htm : 1 ≤ tMax) (boot : Nat → K) (x : Nat → X) :
    ∀ (eps : List (Episode Unit O A K)) (k : Nat) (s : NStepAgent.St X K), NStepAgent.Clean s →
    ∃ uss s', NStepAgent.Clean s' ∧ List.Forall₂ (NUpdates gamma tMax) (nEpisodes boot x k (eps.map Episode.steps)) uss ∧
      NStepAgent.run gamma tMax s (nstepCalls boot x k (eps.flatMap episodeCalls)) = .ok (s', uss.flatten) ∧
      (eps.flatMap episodeCalls).length = callsBefore (eps.map Episode.steps)
  | [], k, s, hs => ⟨[], s, hs, .nil, rfl, rfl⟩
  | e :: eps, k, s, hs => by
    have hlen : (episodeCalls e).length = e.steps.length + 1 := by
      rw [steps_go, go_length]; simp [episodeCalls, Episode.turns]
    obtain ⟨us, s1, h1, h2, h3⟩ := NStepAgent.C47_episode gamma tMax htm s hs (nEpisode boot x k e.steps)
      (by rw [steps_go]; unfold nEpisode; cases e.rest <;> simp [go, nSteps]) e.first.reward
    obtain ⟨uss, s', g1, g2, g3, g4⟩ := nstep_episodes gamma tMax htm boot x eps (k + e.steps.length + 1) s1 h2
    refine ⟨_ :: uss, s', g1, .cons ⟨us, h1, rfl⟩ g2, ?_, ?_⟩
    · rw [List.flatMap_cons, nstepCalls_append, nstep_episode, hlen, List.flatten_cons]
      exact NStepAgent.run_append gamma tMax _ _ s s1 s' _ _ h3 g3
    · rw [List.flatMap_cons, List.length_append, hlen, g4]
      simp [callsBefore]

section NStep
variable [CommRing K] [LinearOrder S] {P : Nat}

/-- What A3C and NSQ do with the calls of whole episodes and of an unfinished one. -/
theorem nstep_history (gamma : K) (tMax : Nat) (htm : 1 ≤ tMax) (boot : Nat → K) (x : Nat → X) (eps : List (Episode Unit O A K)) (cur : List (Turn Unit O A K)) :
    ∃ st uss tail, NStepAgent.run gamma tMax NStepAgent.St.init (nstepCalls boot x 0 (history eps cur)) = .ok (st, uss.flatten ++ tail) ∧
      List.Forall₂ (NUpdates gamma tMax) (nEpisodes boot x 0 (eps.map Episode.steps)) uss ∧
      ∀ (s : EnvStep O A K) (v : K), ∃ us u,
        NStepAgent.Rollouts tMax v (nSteps boot x (callsBefore (eps.map Episode.steps)) (innerSteps cur ++ [s])) (us ++ [u]) ∧
        tail = us.map fun u => (NStepAgent.returnsOf gamma u.2 u.1).reverse := by
  obtain ⟨uss, s1, g1, g2, g3, g4⟩ := nstep_episodes gamma tMax htm boot x eps 0 NStepAgent.St.init rfl
  rw [history, nstepCalls_append, Nat.zero_add, g4]
  cases cur with
  | nil =>
    refine ⟨s1, uss, [], ?_, g2, ?_⟩
    · simpa [nstepCalls] using g3
    · intro s v
      exact ⟨[], ([_], v), .last [_] (by simp) (by simpa using htm), rfl⟩
  | cons t ts =>
    have key : ∀ (s : EnvStep O A K) (v : K), ∃ (s2 : NStepAgent.St X K) (tail : List (List (X × K))) (us : List (List (NStepAgent.Step X K) × K)) (u : List (NStepAgent.Step X K) × K),
        NStepAgent.run gamma tMax s1 (nstepCalls boot x (callsBefore (eps.map Episode.steps)) ((t :: ts).map turnCall)) = .ok (s2, tail) ∧
        NStepAgent.Rollouts tMax v (nSteps boot x (callsBefore (eps.map Episode.steps)) (innerSteps (t :: ts) ++ [s])) (us ++ [u]) ∧
        tail = us.map fun u => (NStepAgent.returnsOf gamma u.2 u.1).reverse := by
      intro s v
      obtain ⟨y, -, hy⟩ := inner_go s.nextState s.reward s.terminal t ts
      have hst : nSteps boot x (callsBefore (eps.map Episode.steps)) (go s.nextState s.reward s.terminal t ts) =
          nSteps boot x (callsBefore (eps.map Episode.steps)) (innerSteps (t :: ts) ++ [s]) := by
        rw [hy, nSteps_snoc, nSteps_snoc]
      obtain ⟨us, s3, k1, -, k3⟩ := NStepAgent.C47_episode gamma tMax htm s1 g1
        ⟨nSteps boot x (callsBefore (eps.map Episode.steps)) (go s.nextState s.reward s.terminal t ts), false, v⟩
        (by rw [hst, nSteps_snoc]; simp) t.reward
      rw [NStepAgent.Episode.calls, ← nstep_turns boot x _ s.nextState s.reward s.terminal t ts] at k3
      obtain ⟨q1, q2, m1, m2, m3⟩ := nstep_split gamma tMax _ _ s1 _ k3
      have hone : ∃ z, q2.2 = [z] := by
        simp only [NStepAgent.run, NStepAgent.step, bind, Except.bind, pure, Except.pure] at m2
        split at m2
        · cases m2
        · rename_i a ha
          split at ha
          · cases ha
          · cases ha; cases m2; exact ⟨_, rfl⟩
      obtain ⟨z, hz⟩ := hone
      have m4 : us.map (fun u => (NStepAgent.returnsOf gamma u.2 u.1).reverse) = q1.2 ++ [z] := by
        have := congrArg Prod.snd m3
        rw [hz] at this
        exact this
      have hne : us ≠ [] := by rintro rfl; simp at m4
      refine ⟨q1.1, q1.2, us.dropLast, us.getLast hne, m1, ?_, ?_⟩
      · rw [List.dropLast_append_getLast, ← hst]; exact k1
      · rw [← List.dropLast_append_getLast hne, List.map_append] at m4
        exact (List.append_inj_left' m4 rfl).symm
    obtain ⟨s2, tail, -, -, r1, -, -⟩ := key ⟨t.obs, t.action, 0, t.obs, false⟩ 0
    refine ⟨s2, uss, tail, NStepAgent.run_append gamma tMax _ _ _ s1 s2 _ _ g3 r1, g2, ?_⟩
    intro s v
    obtain ⟨s2', tail', us, u, r1', r2, r3⟩ := key s v
    rw [r1] at r1'
    cases r1'
    exact ⟨us, u, r2, r3⟩

/-- **C125.** A3C and NSQ, in a process of an asynchronous run, never fail.  Their updates are those of the finished
episodes of the environment, one after the other: each episode is cut into rollouts of `t_max` steps, and every step has
its n-step return as target.  In the unfinished episode the full rollouts have been used, whose following state is known:
however its pending step may end, they are all its rollouts but the last. -/
theorem C125_nstep (c : Cfg S) (sched : List (Fin P × Inp O A K S)) (p : Fin P) (gamma : K) (tMax : Nat) (htm : 1 ≤ tMax)
    (boot : Nat → K) (x : Nat → X) (evs : List (Ev O A K)) (hev : evs = eventsOf p (TrainAsync.run c P sched).1) :
    ∃ st uss tail, driveNStep gamma tMax boot x evs = .ok (st, uss.flatten ++ tail) ∧
      List.Forall₂ (NUpdates gamma tMax) (nEpisodes boot x 0 (record evs).told.1) uss ∧
      ∀ (s : EnvStep O A K) (v : K), ∃ us u,
        NStepAgent.Rollouts tMax v (nSteps boot x (callsBefore (record evs).told.1) ((record evs).told.2 ++ [s])) (us ++ [u]) ∧
        tail = us.map fun u => (NStepAgent.returnsOf gamma u.2 u.1).reverse := by
  obtain ⟨eps, cur, h1, h2, -, -⟩ := C125_calls c sched p
  subst hev
  rw [← h2]
  unfold driveNStep
  rw [← h1]
  exact nstep_history gamma tMax htm boot x eps cur

end NStep

/-! ## ACER and PCL -/

theorem onlineCalls_append (dist : Nat → D) : ∀ (l l' : List (Call O A R)) (k : Nat),
    onlineCalls dist k (l ++ l') = onlineCalls dist k l ++ onlineCalls dist (k + l.length) l'
  | [], l', k => rfl
  | .act o r a :: l, l', k => by
    simp only [List.cons_append, onlineCalls, onlineCalls_append dist l l' (k + 1), List.length_cons]
    rw [Nat.add_right_comm]; rfl
  | .stop o r d :: l, l', k => by
    simp only [List.cons_append, onlineCalls, onlineCalls_append dist l l' (k + 1), List.length_cons]
    rw [Nat.add_right_comm]; rfl

theorem online_turns (dist : Nat → D) (E : OnlineReplay.Episode O A D R) (r : R) (d : Bool) :
    ∀ (t : Turn Unit O A R) (ts : List (Turn Unit O A R)) (k : Nat),
    onlineCalls dist k ((t :: ts).map turnCall) ++ [.stop E.final r E.done] =
      OnlineReplay.callsFrom E t.reward (oSteps dist k (go E.final r d t ts))
  | t, [], k => rfl
  | t, u :: us, k => by
    have := online_turns dist E r d u us (k + 1)
    show OnlineReplay.Call.act ⟨t.obs, dist k, t.action⟩ t.reward :: (onlineCalls dist (k + 1) ((u :: us).map turnCall) ++ [.stop E.final r E.done]) = _
    rw [this]
    rfl

theorem episodeCalls_length (e : Episode Unit O A R) : (episodeCalls e).length = e.steps.length + 1 := by
  rw [steps_go, go_length]; simp [episodeCalls, Episode.turns]

theorem online_episodes (dist : Nat → D) : ∀ (eps : List (Episode Unit O A R)) (k : Nat),
    ∃ l : List (OnlineReplay.Episode O A D R × R), l.map Prod.fst = oEpisodes dist k (eps.map Episode.steps) ∧ (∀ e ∈ l, e.1.steps ≠ []) ∧
      onlineCalls dist k (eps.flatMap episodeCalls) = l.flatMap fun e => e.1.calls e.2
  | [], k => ⟨[], rfl, by simp, rfl⟩
  | e :: eps, k => by
    obtain ⟨l, h1, h2, h3⟩ := online_episodes dist eps (k + e.steps.length + 1)
    obtain ⟨s, g1, g2, g3⟩ := go_last e.finalObs e.finalReward e.done e.first e.rest
    rw [← steps_go] at g1
    obtain ⟨s0, ss, hs⟩ : ∃ s0 ss, e.steps = s0 :: ss := by
      cases h : e.steps with
      | nil => rw [h] at g1; simp at g1
      | cons a b => exact ⟨a, b, rfl⟩
    have hE : oEpisode dist k s0 ss = ⟨oSteps dist k e.steps, e.finalObs, e.done⟩ := by
      unfold oEpisode
      rw [← hs, g1, Option.map_some, Option.map_some, Option.getD_some, Option.getD_some, g2, g3]
    refine ⟨(oEpisode dist k s0 ss, e.first.reward) :: l, ?_, ?_, ?_⟩
    · rw [List.map_cons, h1, List.map_cons]
      conv_rhs => rw [hs]
      rw [oEpisodes, ← hs]
    · intro x hx
      rcases List.mem_cons.1 hx with rfl | hx
      · simp [oEpisode, oSteps]
      · exact h2 x hx
    · rw [List.flatMap_cons, onlineCalls_append, episodeCalls_length, ← Nat.add_assoc, h3, List.flatMap_cons, hE]
      congr 1
      have := online_turns dist ⟨oSteps dist k e.steps, e.finalObs, e.done⟩ e.finalReward e.done e.first e.rest k
      rw [← steps_go] at this
      refine Eq.trans ?_ this
      rw [episodeCalls, onlineCalls_append]
      rfl

theorem online_split (c : OnlineReplay.Args) (b : OnlineReplay.Buf B O A D R) : ∀ (l l' : List (OnlineReplay.Call O A D R)) (s : OnlineReplay.St B O A D R) (q),
    OnlineReplay.run c b s (l ++ l') = .ok q →
    ∃ q1 q2, OnlineReplay.run c b s l = .ok q1 ∧ OnlineReplay.run c b q1.1 l' = .ok q2 ∧ q = (q2.1, q1.2 ++ q2.2)
  | [], l', s, q, h => ⟨(s, []), q, rfl, h, rfl⟩
  | x :: l, l', s, q, h => by
    simp only [List.cons_append, OnlineReplay.run, bind, Except.bind] at h ⊢
    cases hs : OnlineReplay.call c b s x with
    | error e => rw [hs] at h; cases h
    | ok a =>
      rw [hs] at h
      cases hr : OnlineReplay.run c b a.1 (l ++ l') with
      | error e => simp only [hr] at h; cases h
      | ok a' =>
        simp only [hr] at h
        obtain ⟨q1, q2, h1, h2, h3⟩ := online_split c b l l' a.1 a' hr
        refine ⟨(q1.1, a.2 ++ q1.2), q2, by simp only [h1]; rfl, h2, ?_⟩
        cases h
        rw [h3, List.append_assoc]

theorem returned_update (c : OnlineReplay.Args) (s : OnlineReplay.St B O A D R) (boot : Option O) (q)
    (h : OnlineReplay.updateOnPolicy c s boot = .ok q) : OnlineReplay.returned q.2 = [] := by
  unfold OnlineReplay.updateOnPolicy at h
  split at h
  · split at h
    · cases h; rfl
    · cases hr : OnlineReplay.rollout c s boot with
      | error e => rw [hr] at h; cases h
      | ok r =>
        rw [hr] at h
        cases h
        show OnlineReplay.returned (OnlineReplay.learn c s r).2 = []
        unfold OnlineReplay.learn OnlineReplay.join
        split
        · rfl
        · split <;> rfl
  · cases h

theorem returned_replays (c : OnlineReplay.Args) (b : OnlineReplay.Buf B O A D R) (s : OnlineReplay.St B O A D R) :
    OnlineReplay.returned (OnlineReplay.replays c b s) = [] := by
  unfold OnlineReplay.replays
  split
  · split
    · unfold OnlineReplay.returned
      rw [List.filterMap_eq_nil_iff]
      intro a ha
      rw [List.eq_of_mem_replicate ha]
    · rfl
  · rfl

theorem stop_events (c : OnlineReplay.Args) (b : OnlineReplay.Buf B O A D R) (s : OnlineReplay.St B O A D R) (o : O) (r : R) (d : Bool) (q)
    (h : OnlineReplay.run c b s [.stop o r d] = .ok q) :
    OnlineReplay.returned q.2 = [] := by
  simp only [OnlineReplay.run, OnlineReplay.call, OnlineReplay.stopEpisodeAndTrain, bind, Except.bind, pure, Except.pure] at h
  split at h
  · cases h
  · rename_i v hv
    cases h
    split at hv
    · cases hv
    · split at hv
      · cases hv
      · rename_i u hu
        split at hv
        · cases hv
        · rename_i a ha
          cases hv
          have h1 := returned_update _ _ _ _ hu
          have h2 : OnlineReplay.returned a.2 = [] := by
            unfold OnlineReplay.appendTo at ha
            split at ha
            · cases ha; rfl
            · split at ha
              · cases ha; rfl
              · cases ha
          have h3 : OnlineReplay.returned (OnlineReplay.stopBuf b a.1).2 = [] := by
            unfold OnlineReplay.stopBuf
            split <;> rfl
          simp only [OnlineReplay.returned_append, h1, h2, h3, returned_replays, List.append_nil]

section Online
variable [Zero R] [LinearOrder S] {P : Nat}

theorem online_right (c : OnlineReplay.Args) (b : OnlineReplay.Buf B O A D R) (hon : c.disableOnline = false)
    (htm : ∀ n, c.tMax = some n → 1 ≤ n) (buf : Option B)
    (hkind : c.kind = .acer ∨ (c.kind = .pcl ∧ buf.isSome ∧ 1 ≤ c.batchsize)) (dist : Nat → D) (eps : List (Episode Unit O A R)) :
    ∃ s' es, OnlineReplay.run c b (OnlineReplay.St.init buf) (onlineCalls dist 0 (eps.flatMap episodeCalls)) = .ok (s', es) ∧
      OnlineRight c b buf (oEpisodes dist 0 (eps.map Episode.steps)) es := by
  obtain ⟨l, h1, h2, h3⟩ := online_episodes dist eps 0
  obtain ⟨s', es, rss, rest, g1, g2, g3, g4, g5, g6⟩ := OnlineReplay.C98_history_partial c b hon htm buf hkind l h2
  refine ⟨s', es, by rw [h3]; exact g1, rss, rest, ?_, g3, ?_, ?_, g6⟩
  · rw [← h1, List.forall₂_map_left_iff]
    exact g2
  · rw [g4, ← h1, List.flatMap_map]
  · rw [g5, ← h1, List.flatMap_map]

/-- What ACER and PCL do with the calls of whole episodes and of an unfinished one. -/
theorem online_history (c : OnlineReplay.Args) (b : OnlineReplay.Buf B O A D R)
    (hon : c.disableOnline = false) (htm : ∀ n, c.tMax = some n → 1 ≤ n) (buf : Option B)
    (hkind : c.kind = .acer ∨ (c.kind = .pcl ∧ buf.isSome ∧ 1 ≤ c.batchsize)) (dist : Nat → D) (eps : List (Episode Unit O A R)) (cur : List (Turn Unit O A R)) :
    ∃ st es, OnlineReplay.run c b (OnlineReplay.St.init buf) (onlineCalls dist 0 (history eps cur)) = .ok (st, es) ∧
      ((∀ o r a, (history eps cur).getLast? ≠ some (.act o r a)) → OnlineRight c b buf (oEpisodes dist 0 (eps.map Episode.steps)) es) ∧
      ∀ o r a, (history eps cur).getLast? = some (.act o r a) → ∀ (r' : R) (o' : O) (d : Bool), ∃ tail, OnlineReplay.returned tail = [] ∧
        OnlineRight c b buf (oEpisodes dist 0 (eps.map Episode.steps ++ [innerSteps cur ++ [⟨o, a, r', o', d⟩]])) (es ++ tail) := by
  cases cur with
  | nil =>
    obtain ⟨st, es, g1, g2⟩ := online_right c b hon htm buf hkind dist eps
    refine ⟨st, es, by simpa [history] using g1, fun _ => g2, ?_⟩
    intro o r a hl
    exfalso
    rw [history, List.map_nil, List.append_nil] at hl
    rcases List.eq_nil_or_concat eps with rfl | ⟨eps', e, rfl⟩
    · simp at hl
    · rw [List.concat_eq_append, List.flatMap_append, List.flatMap_singleton, episodeCalls, ← List.append_assoc, List.getLast?_concat] at hl
      cases hl
  | cons t ts =>
    have key : ∀ (r' : R) (o' : O) (d : Bool), ∃ st es tail x, (t :: ts).getLast? = some x ∧
        OnlineReplay.run c b (OnlineReplay.St.init buf) (onlineCalls dist 0 (history eps (t :: ts))) = .ok (st, es) ∧ OnlineReplay.returned tail = [] ∧
        OnlineRight c b buf (oEpisodes dist 0 (eps.map Episode.steps ++ [innerSteps (t :: ts) ++ [⟨x.obs, x.action, r', o', d⟩]])) (es ++ tail) := by
      intro r' o' d
      obtain ⟨x, hx, hg⟩ := inner_go o' r' d t ts
      obtain ⟨st, es, g1, g2⟩ := online_right c b hon htm buf hkind dist (eps ++ [⟨t, ts, o', r', d⟩])
      rw [List.map_append, List.map_cons, List.map_nil, steps_go, hg] at g2
      have hc : (eps ++ [(⟨t, ts, o', r', d⟩ : Episode Unit O A R)]).flatMap episodeCalls = history eps (t :: ts) ++ [.stop o' r' d] := by
        simp [history, episodeCalls, Episode.turns]
      rw [hc, onlineCalls_append] at g1
      obtain ⟨q1, q2, m1, m2, m3⟩ := online_split c b _ _ _ _ g1
      refine ⟨q1.1, q1.2, q2.2, x, hx, m1, stop_events c b _ _ _ _ _ m2, ?_⟩
      have e : es = q1.2 ++ q2.2 := congrArg Prod.snd m3
      rw [← e]
      exact g2
    obtain ⟨st, es, -, x, hx, m1, -, -⟩ := key t.reward t.obs false
    have hl : (history eps (t :: ts)).getLast? = some (.act x.obs x.reward x.action) := by
      rw [history, List.getLast?_append, List.getLast?_map, hx]
      rfl
    refine ⟨st, es, m1, fun h => absurd hl (h _ _ _), ?_⟩
    intro o r a hl' r' o' d
    rw [hl] at hl'
    cases hl'
    obtain ⟨st', es', tail, x', hx', m1', m2, m3⟩ := key r' o' d
    rw [m1] at m1'
    cases m1'
    rw [hx] at hx'
    cases hx'
    exact ⟨tail, m2, m3⟩

/-- **C125.** ACER (with or without a replay buffer) and PCL (with one), in a process of an asynchronous run, never fail.  Whenever the last call
has ended an episode, all they have done is what C98 says about the finished episodes of the environment.  Inside an episode, what they have done is the beginning,
up to the last returned action, of what C98 says of the finished episodes and the current one, however its pending step may end it. -/
theorem C125_online (cfg : Cfg S) (sched : List (Fin P × Inp O A R S)) (p : Fin P) (c : OnlineReplay.Args) (b : OnlineReplay.Buf B O A D R)
    (hon : c.disableOnline = false) (htm : ∀ n, c.tMax = some n → 1 ≤ n) (buf : Option B)
    (hkind : c.kind = .acer ∨ (c.kind = .pcl ∧ buf.isSome ∧ 1 ≤ c.batchsize)) (dist : Nat → D) (evs : List (Ev O A R))
    (hev : evs = eventsOf p (TrainAsync.run cfg P sched).1) :
    ∃ st es, driveOnline c b buf dist evs = .ok (st, es) ∧
      ((∀ o r a, (calls evs).getLast? ≠ some (.act o r a)) → OnlineRight c b buf (oEpisodes dist 0 (record evs).told.1) es) ∧
      ∀ o r a, (calls evs).getLast? = some (.act o r a) → ∀ (r' : R) (o' : O) (d : Bool), ∃ tail, OnlineReplay.returned tail = [] ∧
        OnlineRight c b buf (oEpisodes dist 0 ((record evs).told.1 ++ [(record evs).told.2 ++ [⟨o, a, r', o', d⟩]])) (es ++ tail) := by
  obtain ⟨eps, cur, h1, h2, -, -⟩ := C125_calls cfg sched p
  subst hev
  rw [← h2]
  unfold driveOnline
  rw [← h1]
  exact online_history c b hon htm buf hkind dist eps cur

end Online

end Agents

/-! ## A concrete run -/

/-- Two processes in turn; the first one's environment ends its first episode at its second step. -/
def exSched : List (Fin 2 × Inp Nat Nat ℚ Int) :=
  (List.range 26).flatMap fun i =>
    [(0, ⟨false, 100 + i, 200 + i, ⟨300 + i, i, i % 9 == 7, false⟩, none⟩), (1, ⟨false, 0, 0, ⟨0, 1, false, false⟩, none⟩)]

def exEvents : List (Ev Nat Nat ℚ) := eventsOf 0 (TrainAsync.run ⟨20, 0, none, false, none, 0⟩ 2 exSched).1

set_option synthInstance.maxSize 1024 in
/-- One finished episode, and an unfinished one whose last step the agent has not been told of. -/
example : (record exEvents).told.1.map (·.map fun s => (s.state, s.action, s.reward, s.nextState, s.terminal)) =
      [[(100, 201, 2, 302, false), (302, 206, 7, 307, true)]] ∧
    (record exEvents).told.2.map (fun s => (s.state, s.action, s.reward, s.nextState, s.terminal)) = [(115, 216, 17, 317, false)] ∧
    (record exEvents).current.length = 2 := by
  decide +kernel

/-- A3C with `t_max` 1: three updates, the second at a terminal state. -/
example : ((driveNStep (1 / 2 : ℚ) 1 (fun k => 1000 * (k + 1 : ℚ)) (fun k => k) exEvents).toOption.map Prod.snd) =
    some [[(0, 1002)], [(1, 7)], [(3, 2517)]] := by
  decide +kernel

example := C125_nstep (⟨20, 0, none, false, none, 0⟩ : Cfg Int) exSched 0 (1 / 2 : ℚ) 1 (by decide) (fun k => (k : ℚ)) (fun k => k) exEvents rfl

set_option synthInstance.maxSize 1024 in
/-- ACER with `t_max` 1 and a buffer that counts: the same three rollouts. -/
example : ((driveOnline ⟨.acer, some 1, 0, 1, 2, false⟩ (⟨fun x _ _ => x + 1, id, id, id⟩ : OnlineReplay.Buf Nat Nat Nat Nat ℚ) (some 0) (fun k => k) exEvents).toOption.map
    fun r => (OnlineReplay.updatesOf r.2).map fun u => u.map fun q => (q.steps.map fun s => (s.1.obs, s.1.dist, s.1.action, s.2), q.boot)) =
    some [[([(100, 0, 201, 2)], some 302)], [([(302, 1, 206, 7)], none)], [([(115, 3, 216, 17)], some 317)]] := by
  decide +kernel

example := C125_online (⟨20, 0, none, false, none, 0⟩ : Cfg Int) exSched 0 ⟨.acer, some 1, 0, 1, 2, false⟩
  (⟨fun x _ _ => x + 1, id, id, id⟩ : OnlineReplay.Buf Nat Nat Nat Nat ℚ) rfl (by simp) (some 0) (.inl rfl) (fun k => k) exEvents rfl

end Verif.TrainAsyncCalls
