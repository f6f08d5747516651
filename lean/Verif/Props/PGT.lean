import Mathlib.Tactic.Linarith
import Mathlib.Algebra.Order.Ring.Rat
import Verif.Spec.PGT
import Verif.Props.ActorCritic
import Verif.Props.Targets
set_option autoImplicit false
set_option linter.unusedSectionVars false

/-! # C105: the agent PGT -/

namespace Verif.PGT
open ActorCritic
open DQN (except_bind_ok)
variable {B O A R K : Type} [Field K]

/-- The intervals are positive. -/
structure Good (c : Args K) : Prop where
  interval : 0 < c.updateInterval
  target : 0 < c.targetUpdateInterval

/-- The events of the updates of one training decision. -/
def rounds (c : Args K) (n t : Nat) : List (Ev O A R) :=
  if c.replayStartSize ≤ n ∧ t % c.updateInterval = 0 then
    (List.replicate c.nTimesUpdate [.qUpdate, .policyUpdate]).flatten else []

theorem loop_events (c : Args K) : ∀ k, (c.updater.loop k).flatMap updateEvents =
    ((List.replicate k [.qUpdate, .policyUpdate]).flatten : List (Ev O A R))
  | 0 => rfl
  | k + 1 => by
    rw [UpdaterCfg.loop, List.flatMap_append, loop_events c k, List.replicate_succ, List.flatten_cons]
    rfl

theorem updater_ok (c : Args K) (hc : Good c) (n t : Nat) :
    ∃ es, c.updater.updateIfNecessary n 0 t = .ok es ∧ es.flatMap updateEvents = (rounds c n t : List (Ev O A R)) := by
  rcases updater_cases c.updater rfl n t with ⟨hn, h⟩ | ⟨hz, -⟩ | ⟨h1, h2, h⟩
  · exact ⟨_, h, (if_neg hn).symm⟩
  · have : c.updateInterval = 0 := hz
    have := hc.interval
    omega
  · exact ⟨_, h, (loop_events c _).trans (if_pos (show _ ∧ _ from ⟨h1, h2⟩)).symm⟩

/-- The events of `sync` at time `t`. -/
def syncs (c : Args K) (t : Nat) : List (Ev O A R) := if t % c.targetUpdateInterval = 0 then [.sync t] else []

/-- The attributes and the buffer agree with the last decision `last` of the current episode. -/
def At (s : St B O A K) (last : Option (O × A)) : Prop :=
  s.lastState = last.map (·.1) ∧ s.lastAction = last.map (·.2)

/-- The transition recorded at a decision. -/
def recorded (last : Option (O × A)) (obs : O) (r : R) (a : A) : List (Transition O A R) :=
  last.toList.map fun p => ⟨p.1, p.2, r, obs, some a, false⟩

theorem act_eq (c : Args K) (hc : Good c) (b : Buf B O A R) (s : St B O A K) (last : Option (O × A)) (hs : At s last)
    (obs : O) (r : R) (q : K) (a : A) :
    c.call b s (.actAndTrain obs r q a) = .ok
      (⟨s.t + 1, (recorded last obs r a).foldl (fun x tr => b.append x 0 tr) s.buf, some obs, some a,
        s.averageQ * c.averageQDecay + (1 - c.averageQDecay) * q⟩,
       syncs c (s.t + 1) ++ (recorded last obs r a).map (.append 0) ++
        rounds c (b.len ((recorded last obs r a).foldl (fun x tr => b.append x 0 tr) s.buf)) (s.t + 1) ++ [.ret a]) := by
  obtain ⟨h1, h2⟩ := hs
  obtain ⟨t, buf, ls, la, avg⟩ := s
  simp only at h1 h2
  subst h1 h2
  have ht : ¬c.targetUpdateInterval = 0 := by have := hc.target; omega
  cases last with
  | none =>
    obtain ⟨es, he, hr⟩ := updater_ok (O := O) (A := A) (R := R) c hc (b.len buf) (t + 1)
    simp only [Args.call, Args.actAndTrain, Args.syncIfDue, Args.act, if_neg ht, syncs, record, recorded, Option.map_none,
      Option.toList_none, List.map_nil, List.foldl_nil, List.append_nil, ← hr]
    push_cast at he
    split <;> rename_i h <;> simp [h, bind, Except.bind, he, pure, Except.pure]
  | some p =>
    obtain ⟨es, he, hr⟩ := updater_ok (O := O) (A := A) (R := R) c hc
      (b.len (b.append buf 0 ⟨p.1, p.2, r, obs, some a, false⟩)) (t + 1)
    simp only [Args.call, Args.actAndTrain, Args.syncIfDue, Args.act, if_neg ht, syncs, record, recorded, Option.map_some,
      Option.toList_some, List.map_cons, List.map_nil, List.foldl_cons, List.foldl_nil, ← hr]
    push_cast at he
    split <;> rename_i h <;> simp [h, bind, Except.bind, he, pure, Except.pure]

@[simp] theorem bufCalls_rounds (c : Args K) (n t : Nat) : bufCalls (rounds c n t : List (Ev O A R)) = [] := by
  unfold rounds
  split
  · induction c.nTimesUpdate with
    | zero => rfl
    | succ k ih => rw [List.replicate_succ, List.flatten_cons, bufCalls_append, ih]; rfl
  · rfl

@[simp] theorem returned_rounds (c : Args K) (n t : Nat) : returned (rounds c n t : List (Ev O A R)) = [] := by
  unfold rounds
  split
  · induction c.nTimesUpdate with
    | zero => rfl
    | succ k ih => rw [List.replicate_succ, List.flatten_cons, returned_append, ih]; rfl
  · rfl

@[simp] theorem bufCalls_syncs (c : Args K) (t : Nat) : bufCalls (syncs c t : List (Ev O A R)) = [] := by
  unfold syncs; split <;> rfl

@[simp] theorem returned_syncs (c : Args K) (t : Nat) : returned (syncs c t : List (Ev O A R)) = [] := by
  unfold syncs; split <;> rfl

theorem run_append (c : Args K) (b : Buf B O A R) : ∀ (l₁ l₂ : List (Call O A R K)) (s s₁ s₂ : St B O A K) (e₁ e₂),
    c.run b s l₁ = .ok (s₁, e₁) → c.run b s₁ l₂ = .ok (s₂, e₂) → c.run b s (l₁ ++ l₂) = .ok (s₂, e₁ ++ e₂)
  | [], l₂, s, s₁, s₂, e₁, e₂, h1, h2 => by
    simp only [Args.run, pure, Except.pure, Except.ok.injEq, Prod.mk.injEq] at h1
    obtain ⟨rfl, rfl⟩ := h1
    simpa using h2
  | x :: l, l₂, s, s₁, s₂, e₁, e₂, h1, h2 => by
    simp only [Args.run] at h1
    obtain ⟨⟨s3, e3⟩, g1, h1⟩ := except_bind_ok.1 h1
    obtain ⟨⟨s4, e4⟩, g2, h1⟩ := except_bind_ok.1 h1
    simp only [pure, Except.pure, Except.ok.injEq, Prod.mk.injEq] at h1
    obtain ⟨rfl, rfl⟩ := h1
    have := run_append c b l l₂ _ _ _ _ _ g2 h2
    simp [Args.run, g1, this, bind, Except.bind, pure, Except.pure]

theorem run_one (c : Args K) (b : Buf B O A R) (s s' : St B O A K) (x : Call O A R K) (ev)
    (h : c.call b s x = .ok (s', ev)) : c.run b s [x] = .ok (s', ev) := by
  simp [Args.run, h, bind, Except.bind, pure, Except.pure]

/-- The steps recorded while the decisions `ts` are made, after the decision `last`. -/
def stepsAfter (last : Option (O × A)) (ts : List (DQN.Turn K O A R)) : List (DQN.EnvStep O A R) :=
  match ts with
  | [] => []
  | t :: ts => (last.toList.map fun p => ⟨p.1, p.2, t.reward, t.obs, false⟩) ++ stepsAfter (some (t.obs, t.action)) ts

/-- The last decision. -/
def lastOf (last : Option (O × A)) (ts : List (DQN.Turn K O A R)) : Option (O × A) :=
  match ts with
  | [] => last
  | t :: ts => lastOf (some (t.obs, t.action)) ts

theorem run_turns (c : Args K) (hc : Good c) (b : Buf B O A R) : ∀ (ts : List (DQN.Turn K O A R)) (s : St B O A K)
    (last : Option (O × A)), At s last →
    ∃ s' ev, c.run b s (ts.map turnCall) = .ok (s', ev) ∧ At s' (lastOf last ts) ∧
      returned ev = ts.map (·.action) ∧ bufCalls ev = (stepsAfter last ts).map (.append 0)
  | [], s, last, h => ⟨s, [], rfl, h, rfl, rfl⟩
  | t :: ts, s, last, h => by
    have h1 := act_eq c hc b s last h t.obs t.reward t.params t.action
    obtain ⟨s', ev, h2, h3, h4, h5⟩ := run_turns c hc b ts _ (some (t.obs, t.action)) (show At
      (⟨s.t + 1, (recorded last t.obs t.reward t.action).foldl (fun x tr => b.append x 0 tr) s.buf, some t.obs,
        some t.action, s.averageQ * c.averageQDecay + (1 - c.averageQDecay) * t.params⟩ : St B O A K) _ from ⟨rfl, rfl⟩)
    refine ⟨s', _, run_append c b [turnCall t] _ _ _ _ _ _ (run_one c b _ _ _ _ h1) h2, h3, ?_, ?_⟩
    · have hr : returned ((recorded last t.obs t.reward t.action).map (Ev.append 0)) = [] := by cases last <;> rfl
      simp only [returned_append, returned_syncs, returned_rounds, h4, hr, List.nil_append]
      rfl
    · have hr : bufCalls ((recorded last t.obs t.reward t.action).map (Ev.append 0)) =
          (last.toList.map fun p => (⟨p.1, p.2, t.reward, t.obs, false⟩ : DQN.EnvStep O A R)).map (.append 0) := by
        cases last <;> rfl
      simp only [bufCalls_append, bufCalls_syncs, bufCalls_rounds, h5, hr, List.nil_append, stepsAfter, List.map_append]
      show _ ++ [] ++ [] ++ _ = _
      simp only [List.append_nil]

theorem stepsAfter_none (t : DQN.Turn K O A R) (ts : List (DQN.Turn K O A R)) :
    stepsAfter none (t :: ts) = DQN.innerSteps (t :: ts) := by
  have : ∀ (ts : List (DQN.Turn K O A R)) (t : DQN.Turn K O A R),
      stepsAfter (some (t.obs, t.action)) ts = DQN.innerSteps (t :: ts) := by
    intro ts
    induction ts with
    | nil => intro t; rfl
    | cons u ts ih => intro t; simp only [stepsAfter, ih]; rfl
  exact this ts t

theorem steps_split (e : DQN.Episode K O A R) : ∃ o a, lastOf none e.turns = some (o, a) ∧
    e.steps = DQN.innerSteps e.turns ++ [⟨o, a, e.finalReward, e.finalObs, e.done⟩] := by
  obtain ⟨first, rest, fo, fr, d⟩ := e
  have : ∀ (ts : List (DQN.Turn K O A R)) (t : DQN.Turn K O A R),
      ∃ o a, lastOf (some (t.obs, t.action)) ts = some (o, a) ∧
      List.zipWith (fun (t : DQN.Turn K O A R) (n : O × R × Bool) => (⟨t.obs, t.action, n.2.1, n.1, n.2.2⟩ : DQN.EnvStep O A R))
        (t :: ts) (ts.map (fun t => (t.obs, t.reward, false)) ++ [(fo, fr, d)]) =
      DQN.innerSteps (t :: ts) ++ [⟨o, a, fr, fo, d⟩] := by
    intro ts
    induction ts with
    | nil => intro t; exact ⟨_, _, rfl, rfl⟩
    | cons u ts ih =>
      intro t
      obtain ⟨o, a, h1, h2⟩ := ih u
      refine ⟨o, a, h1, ?_⟩
      rw [List.map_cons, List.cons_append, List.zipWith_cons_cons, h2]
      rfl
  exact this rest first

theorem run_phase (c : Args K) (hc : Good c) (b : Buf B O A R) (p : Phase O A R K) (s : St B O A K) (hs : At s none) :
    ∃ s' ev, c.run b s p.calls = .ok (s', ev) ∧ At s' none ∧ returned ev = p.actions ∧ bufCalls ev = p.told := by
  cases p with
  | episode e =>
    obtain ⟨s1, e1, h1, h2, h3, h4⟩ := run_turns c hc b e.turns s none hs
    obtain ⟨o, a, h5, h6⟩ := steps_split e
    rw [h5] at h2
    obtain ⟨t, buf, ls, la, avg⟩ := s1
    obtain ⟨rfl, rfl⟩ := h2
    refine ⟨_, _, run_append c b _ _ _ _ _ _ _ h1 (run_one c b _ _ _ _ rfl), ⟨rfl, rfl⟩, ?_, ?_⟩
    · rw [returned_append, h3]
      exact List.append_nil _
    · rw [bufCalls_append, h4, Phase.told, h6]
      rw [show e.turns = e.first :: e.rest from rfl, stepsAfter_none]
      rw [List.map_append, List.append_assoc]
      rfl
  | evaluation runs =>
    have hq : ∀ (qs : List K) (s : St B O A K), At s none →
        ∃ s', c.run b s (qs.map .act) = .ok (s', []) ∧ At s' none := by
      intro qs
      induction qs with
      | nil => intro s h; exact ⟨s, rfl, h⟩
      | cons q qs ih =>
        intro s h
        obtain ⟨s', h1, h2⟩ := ih (c.act s q) h
        exact ⟨s', run_append c b [.act q] _ _ _ _ [] [] (run_one c b _ _ _ _ rfl) h1, h2⟩
    induction runs generalizing s with
    | nil => exact ⟨s, [], rfl, hs, rfl, rfl⟩
    | cons qs runs ih =>
      obtain ⟨s1, h1, -⟩ := hq qs s hs
      obtain ⟨s2, e2, h2, h3, h4, h5⟩ := ih (stopEpisode b s1).1 ⟨rfl, rfl⟩
      refine ⟨s2, _, run_append c b _ _ _ _ _ _ _
        (run_append c b _ _ _ _ _ _ _ h1 (run_one c b _ _ .stop _ rfl)) h2, h3, ?_, ?_⟩
      · rw [returned_append, h4]; rfl
      · rw [bufCalls_append, h5]; rfl

/-- **C105**: PGT records in the replay buffer exactly the environment's steps, with the actions it
returned, in order and ended by the ends of the episodes; evaluations between episodes add nothing
but (empty) ends of episodes. -/
theorem C105_recorded (c : Args K) (hc : Good c) (b : Buf B O A R) (b0 : B) (ps : List (Phase O A R K))
    (cur : List (DQN.Turn K O A R)) :
    ∃ s' ev, c.run b (init b0) (ps.flatMap Phase.calls ++ cur.map turnCall) = .ok (s', ev) ∧
      returned ev = ps.flatMap Phase.actions ++ cur.map (·.action) ∧
      bufCalls ev = ps.flatMap Phase.told ++ (DQN.innerSteps cur).map (.append 0) := by
  have h : ∀ (ps : List (Phase O A R K)) (s : St B O A K), At s none →
      ∃ s' ev, c.run b s (ps.flatMap Phase.calls) = .ok (s', ev) ∧ At s' none ∧
        returned ev = ps.flatMap Phase.actions ∧ bufCalls ev = ps.flatMap Phase.told := by
    intro ps
    induction ps with
    | nil => intro s h; exact ⟨s, [], rfl, h, rfl, rfl⟩
    | cons p ps ih =>
      intro s h
      obtain ⟨s1, e1, h1, h2, h3, h4⟩ := run_phase c hc b p s h
      obtain ⟨s2, e2, g1, g2, g3, g4⟩ := ih s1 h2
      refine ⟨s2, _, run_append c b _ _ _ _ _ _ _ h1 g1, g2, ?_, ?_⟩
      · rw [returned_append, h3, g3]; rfl
      · rw [bufCalls_append, h4, g4]; rfl
  obtain ⟨s1, e1, h1, h2, h3, h4⟩ := h ps (init b0) ⟨rfl, rfl⟩
  obtain ⟨s2, e2, g1, -, g3, g4⟩ := run_turns c hc b cur s1 none h2
  refine ⟨s2, _, run_append c b _ _ _ _ _ _ _ h1 g1, ?_, ?_⟩
  · rw [returned_append, h3, g3]
  · rw [bufCalls_append, h4, g4]
    cases cur with
    | nil => rfl
    | cons t ts => rw [stepsAfter_none]

/-! ### Schedule -/

theorem learns_rounds (c : Args K) (n t : Nat) : learns (rounds c n t : List (Ev O A R)) =
    (List.replicate (if c.replayStartSize ≤ n ∧ t % c.updateInterval = 0 then c.nTimesUpdate else 0) [.q, .policy]).flatten := by
  unfold rounds
  split
  · induction c.nTimesUpdate with
    | zero => rfl
    | succ k ih => rw [List.replicate_succ, List.flatten_cons, learns_append, ih, List.replicate_succ, List.flatten_cons]; rfl
  · rfl

theorem syncTimes_rounds (c : Args K) (n t : Nat) : syncTimes (rounds c n t : List (Ev O A R)) = [] := by
  unfold rounds
  split
  · induction c.nTimesUpdate with
    | zero => rfl
    | succ k ih => rw [List.replicate_succ, List.flatten_cons, syncTimes_append, ih]; rfl
  · rfl

theorem count_replicate (k : Nat) : ((List.replicate k [Learn.q, Learn.policy]).flatten).count .q = k := by
  induction k with
  | zero => rfl
  | succ k ih => rw [List.replicate_succ, List.flatten_cons, List.count_append, ih]; simp [Nat.add_comm]

theorem filter_replicate (k : Nat) : ((List.replicate k [Learn.q, Learn.policy]).flatten).filter (· ≠ .sync) =
    (List.replicate k [Learn.q, Learn.policy]).flatten := by
  apply List.filter_eq_self.2
  intro x hx
  obtain ⟨l, hl, hx⟩ := List.mem_flatten.1 hx
  rw [List.eq_of_mem_replicate hl] at hx
  simp only [List.mem_cons, List.not_mem_nil, or_false] at hx
  rcases hx with rfl | rfl <;> simp

/-- What a call adds. -/
structure Adds (c : Args K) (s s' : St B O A K) (x : Call O A R K) (ev : List (Ev O A R)) : Prop where
  t : s'.t = s.t + decisions [x]
  at' : ∃ last, At s' last
  learn : (learns ev).filter (· ≠ .sync) = (List.replicate ((learns ev).count .q) [.q, .policy]).flatten
  sync : syncTimes ev = (List.range' (s.t + 1) (decisions [x])).filter fun t => t % c.targetUpdateInterval == 0
  avg : s'.averageQ = (qValues [x]).foldl (fun m q => c.averageQDecay * m + (1 - c.averageQDecay) * q) s.averageQ

theorem learns_recorded (l : List (Transition O A R)) : learns (l.map (Ev.append 0)) = [] := by
  induction l with
  | nil => rfl
  | cons a l ih => exact ih

theorem syncTimes_recorded (l : List (Transition O A R)) : syncTimes (l.map (Ev.append 0)) = [] := by
  induction l with
  | nil => rfl
  | cons a l ih => exact ih

theorem call_adds (c : Args K) (hc : Good c) (b : Buf B O A R) (s : St B O A K) (hs : ∃ last, At s last)
    (x : Call O A R K) (s' : St B O A K) (ev : List (Ev O A R)) (h : c.call b s x = .ok (s', ev)) : Adds c s s' x ev := by
  obtain ⟨last, hs⟩ := hs
  cases x with
  | actAndTrain o r q a =>
    rw [act_eq c hc b s last hs] at h
    simp only [Except.ok.injEq, Prod.mk.injEq] at h
    obtain ⟨rfl, rfl⟩ := h
    have hsy : ∀ t, learns (syncs c t : List (Ev O A R)) = if t % c.targetUpdateInterval = 0 then [.sync] else [] := by
      intro t; unfold syncs; split <;> rfl
    refine ⟨rfl, ⟨some (o, a), rfl, rfl⟩, ?_, ?_, ?_⟩
    · rw [learns_append, learns_append, learns_append, learns_recorded, learns_rounds, hsy]
      have hre : learns [(Ev.ret a : Ev O A R)] = [] := rfl
      simp only [hre, List.append_nil, List.filter_append, List.count_append, count_replicate, filter_replicate]
      split <;> simp
    · rw [syncTimes_append, syncTimes_append, syncTimes_append, syncTimes_recorded, syncTimes_rounds]
      show syncTimes (syncs c (s.t + 1)) ++ [] ++ [] ++ [] = List.filter _ (List.range' (s.t + 1) 1)
      simp only [List.append_nil, syncs, List.range'_one, List.filter_cons, List.filter_nil, beq_iff_eq]
      split <;> rfl
    · show s.averageQ * c.averageQDecay + _ = c.averageQDecay * s.averageQ + _
      rw [mul_comm]
  | stopAndTrain o r d =>
    obtain ⟨t, buf, ls, la, avg⟩ := s
    obtain ⟨rfl, rfl⟩ := hs
    cases last with
    | none => cases h
    | some p =>
      simp only [Args.call, stopEpisodeAndTrain, Option.map_some, stopEpisode, Except.ok.injEq, Prod.mk.injEq] at h
      obtain ⟨rfl, rfl⟩ := h
      exact ⟨rfl, ⟨none, rfl, rfl⟩, rfl, rfl, rfl⟩
  | act q =>
    simp only [Args.call, Except.ok.injEq, Prod.mk.injEq] at h
    obtain ⟨rfl, rfl⟩ := h
    refine ⟨rfl, ⟨last, hs⟩, rfl, rfl, ?_⟩
    show s.averageQ * c.averageQDecay + _ = c.averageQDecay * s.averageQ + _
    rw [mul_comm]
  | stop =>
    simp only [Args.call, stopEpisode, Except.ok.injEq, Prod.mk.injEq] at h
    obtain ⟨rfl, rfl⟩ := h
    exact ⟨rfl, ⟨none, rfl, rfl⟩, rfl, rfl, rfl⟩

/-- **C105**: whatever methods are called, the critic and the actor are updated alternately, and the
target networks are synchronised exactly at the multiples of `target_update_interval`, counting
training decisions; evaluation does neither. `average_q` is the moving average of the Q-values of
all actions chosen, those of evaluation included. -/
theorem C105_schedule (c : Args K) (hc : Good c) (b : Buf B O A R) (b0 : B) (l : List (Call O A R K))
    (s' : St B O A K) (ev : List (Ev O A R)) (h : c.run b (init b0) l = .ok (s', ev)) :
    (learns ev).filter (· ≠ .sync) = (List.replicate ((learns ev).count .q) [.q, .policy]).flatten ∧
    syncTimes ev = (List.range' 1 (decisions l)).filter (fun t => t % c.targetUpdateInterval == 0) ∧
    s'.averageQ = (qValues l).foldl (fun m q => c.averageQDecay * m + (1 - c.averageQDecay) * q) 0 := by
  have key : ∀ (l : List (Call O A R K)) (s s' : St B O A K) (ev : List (Ev O A R)), (∃ last, At s last) →
      c.run b s l = .ok (s', ev) →
      (learns ev).filter (· ≠ .sync) = (List.replicate ((learns ev).count .q) [.q, .policy]).flatten ∧
      syncTimes ev = (List.range' (s.t + 1) (decisions l)).filter (fun t => t % c.targetUpdateInterval == 0) ∧
      s'.averageQ = (qValues l).foldl (fun m q => c.averageQDecay * m + (1 - c.averageQDecay) * q) s.averageQ := by
    intro l
    induction l with
    | nil =>
      intro s s' ev _ h
      simp only [Args.run, pure, Except.pure, Except.ok.injEq, Prod.mk.injEq] at h
      obtain ⟨rfl, rfl⟩ := h
      exact ⟨rfl, rfl, rfl⟩
    | cons x l ih =>
      intro s s' ev hs h
      simp only [Args.run] at h
      obtain ⟨⟨s1, e1⟩, g1, h⟩ := except_bind_ok.1 h
      obtain ⟨⟨s2, e2⟩, g2, h⟩ := except_bind_ok.1 h
      simp only [pure, Except.pure, Except.ok.injEq, Prod.mk.injEq] at h
      obtain ⟨rfl, rfl⟩ := h
      have a := call_adds c hc b s hs x s1 e1 g1
      obtain ⟨i1, i2, i3⟩ := ih s1 _ _ a.at' g2
      have hd : decisions (x :: l) = decisions [x] + decisions l := by
        rw [decisions, ← List.singleton_append, List.countP_append]; rfl
      have hq : qValues (x :: l) = qValues [x] ++ qValues l := by
        rw [qValues, ← List.singleton_append, List.filterMap_append]; rfl
      refine ⟨?_, ?_, ?_⟩
      · rw [learns_append, List.filter_append, List.count_append, List.replicate_add, List.flatten_append, a.learn, i1]
      · rw [syncTimes_append, a.sync, i2, a.t, hd, ← List.filter_append,
          show s.t + decisions [x] + 1 = s.t + 1 + 1 * decisions [x] by omega, List.range'_append]
      · rw [i3, a.avg, hq, List.foldl_append]
  exact key l (init b0) s' ev ⟨none, rfl, rfl⟩ h

/-- **C105**: a training decision that makes `t` the number of decisions causes `n_times_update` updates if the
replay buffer, with the transition just recorded, has reached `replay_start_size` and `t` is a
multiple of `update_interval`, and none otherwise. -/
theorem C105_updates (c : Args K) (hc : Good c) (b : Buf B O A R) (b0 : B) (l : List (Call O A R K))
    (s s' : St B O A K) (ev ev' : List (Ev O A R)) (h : c.run b (init b0) l = .ok (s, ev)) (o : O) (r : R) (q : K) (a : A)
    (h' : c.call b s (.actAndTrain o r q a) = .ok (s', ev')) :
    (learns ev').count .q =
      if c.replayStartSize ≤ b.len s'.buf ∧ (decisions l + 1) % c.updateInterval = 0 then c.nTimesUpdate else 0 := by
  have key : ∀ (l : List (Call O A R K)) (s s' : St B O A K) (ev : List (Ev O A R)), (∃ last, At s last) →
      c.run b s l = .ok (s', ev) → (∃ last, At s' last) ∧ s'.t = s.t + decisions l := by
    intro l
    induction l with
    | nil =>
      intro s s' ev hs h
      simp only [Args.run, pure, Except.pure, Except.ok.injEq, Prod.mk.injEq] at h
      obtain ⟨rfl, rfl⟩ := h
      exact ⟨hs, rfl⟩
    | cons x l ih =>
      intro s s' ev hs h
      simp only [Args.run] at h
      obtain ⟨⟨s1, e1⟩, g1, h⟩ := except_bind_ok.1 h
      obtain ⟨⟨s2, e2⟩, g2, h⟩ := except_bind_ok.1 h
      simp only [pure, Except.pure, Except.ok.injEq, Prod.mk.injEq] at h
      obtain ⟨rfl, rfl⟩ := h
      have a := call_adds c hc b s hs x s1 e1 g1
      obtain ⟨i1, i2⟩ := ih s1 _ _ a.at' g2
      have hd : decisions (x :: l) = decisions [x] + decisions l := by
        rw [decisions, ← List.singleton_append, List.countP_append]; rfl
      exact ⟨i1, by rw [i2, a.t, hd]; omega⟩
  obtain ⟨⟨last, hs⟩, ht⟩ := key l _ _ _ ⟨none, rfl, rfl⟩ h
  rw [act_eq c hc b s last hs] at h'
  simp only [Except.ok.injEq, Prod.mk.injEq] at h'
  obtain ⟨rfl, rfl⟩ := h'
  have hsy : ∀ t, (learns (syncs c t : List (Ev O A R))).count .q = 0 := by
    intro t; unfold syncs; split <;> rfl
  have ht' : s.t + 1 = decisions l + 1 := by rw [ht]; show 0 + _ + 1 = _; omega
  rw [learns_append, learns_append, learns_append, learns_recorded, learns_rounds, List.count_append, List.count_append,
    List.count_append, hsy, count_replicate, ht']
  show 0 + 0 + _ + 0 = _
  rw [Nat.zero_add, Nat.add_zero]

/-! ### Targets of the critic -/

/-- **C105**: the critic is trained towards the n-step target whose next-state value is the target
Q-function's at the action sampled from the target policy. -/
theorem C105_target {S F U : Type} [LinearOrder K] (phi : S → F) (gamma : K) (exps : List (List (Transition S A K)))
    (b : ExpBatch F A K) (hb : batchExperiences phi gamma exps = .ok b) (qt : F → U → K) (acts : List U)
    (hacts : acts.length = exps.length) :
    (target qt acts b).length = exps.length ∧
    ∀ (k : Nat) e t u, exps[k]? = some e → e.getLast? = some t → acts[k]? = some u →
      (target qt acts b)[k]? = some (Targets.nStepTarget gamma e (qt (phi t.nextState) u)) := by
  obtain ⟨hne, -, -, -, -, -, hl, hr⟩ := Targets.batch_row phi gamma exps b hb
  obtain ⟨h1, h2⟩ := Targets.bellman_row phi gamma exps b hb (List.zipWith qt b.nextState acts) (by simp [hl, hacts])
  refine ⟨h1, ?_⟩
  intro k e t u he ht hu
  have h₀ : e.head? = some (e.head (hne e (List.mem_of_getElem? he))) := List.head?_eq_some_head _
  refine h2 k e _ he ?_
  rw [List.getElem?_zipWith, (hr k e _ t he h₀ ht).2.2, hu]

theorem updateEvents_quiet (es : List UpdEvent) : bufCalls (es.flatMap updateEvents : List (Ev O A R)) = [] := by
  induction es with
  | nil => rfl
  | cons e es ih => rw [List.flatMap_cons, bufCalls_append, ih]; cases e <;> rfl

theorem call_buf (c : Args K) (b : Buf B O A R) (x : Call O A R K) (s s' : St B O A K) (ev : List (Ev O A R)) (h : c.call b s x = .ok (s', ev)) :
    s'.buf = bufferAfter b s.buf ev := by
  cases x with
  | actAndTrain o r q a =>
    simp only [Args.call, Args.actAndTrain] at h
    obtain ⟨e1, h1, h⟩ := except_bind_ok.1 h
    obtain ⟨⟨s2, e2⟩, h2, h⟩ := except_bind_ok.1 h
    obtain ⟨es, -, h⟩ := except_bind_ok.1 h
    simp only [pure, Except.pure, Except.ok.injEq, Prod.mk.injEq] at h
    obtain ⟨rfl, rfl⟩ := h
    have hs : bufCalls e1 = [] := by
      unfold Args.syncIfDue at h1
      repeat' split at h1
      all_goals first | (injection h1 with h1; subst h1; rfl) | cases h1
    rw [bufferAfter_append, bufferAfter_append, bufferAfter_append, bufferAfter_quiet b _ e1 hs, bufferAfter_quiet b _ _ (updateEvents_quiet es),
      bufferAfter_quiet b _ (List.map _ _) (by rfl)]
    unfold record at h2
    split at h2
    · injection h2 with h2; injection h2 with a1 a2; subst a1 a2; rfl
    · cases h2
    · injection h2 with h2; injection h2 with a1 a2; subst a1 a2; rfl
  | stopAndTrain o r d =>
    simp only [Args.call, stopEpisodeAndTrain] at h
    split at h
    · injection h with h; injection h with a1 a2; subst a1 a2; rfl
    · cases h
  | act q => injection h with h; injection h with a1 a2; subst a1 a2; rfl
  | stop => injection h with h; injection h with a1 a2; subst a1 a2; rfl

/-- **C105**: whatever methods are called, the contents of the replay buffer are what the reported `append` and `stop_current_episode` calls, in this
order, make of the buffer given to the constructor. -/
theorem C105_buffer (c : Args K) (b : Buf B O A R) (b0 : B) (l : List (Call O A R K)) (s' : St B O A K) (ev : List (Ev O A R))
    (h : c.run b (init b0) l = .ok (s', ev)) : s'.buf = bufferAfter b b0 ev := by
  have key : ∀ (l : List (Call O A R K)) (s s' : St B O A K) (ev : List (Ev O A R)), c.run b s l = .ok (s', ev) → s'.buf = bufferAfter b s.buf ev := by
    intro l
    induction l with
    | nil => intro s s' ev h; injection h with h; injection h with a1 a2; subst a1 a2; rfl
    | cons x l ih =>
      intro s s' ev h
      unfold Args.run at h
      obtain ⟨⟨s1, e1⟩, h1, h⟩ := except_bind_ok.1 h
      obtain ⟨⟨s2, e2⟩, h2, h⟩ := except_bind_ok.1 h
      simp only [pure, Except.pure, Except.ok.injEq, Prod.mk.injEq] at h
      obtain ⟨rfl, rfl⟩ := h
      rw [bufferAfter_append, ← call_buf c b x s s1 e1 h1, ih s1 s2 e2 h2]
  exact key l (init b0) s' ev h

/-! ### Examples -/

/-- Updates every second decision, two each; targets every third. -/
def exArgs : Args Rat := ⟨1, 1, 2, 2, 3, 1 / 2⟩
def exBuf : Buf Nat Nat Nat Int := ⟨fun n _ _ => n + 1, fun n _ => n, id⟩
def exPhases : List (Phase Nat Nat Int Rat) :=
  [.episode { first := ⟨0, 0, 1, 5⟩, rest := [⟨1, 1, 2, 6⟩, ⟨2, 2, 3, 7⟩], finalObs := 3, finalReward := 4, done := true },
   .evaluation [[4, 5], [6]], .episode { first := ⟨10, 0, 1, 8⟩, rest := [], finalObs := 11, finalReward := 1, done := false }]

example : Good exArgs := ⟨by decide, by decide⟩
example : ∃ s ev, exArgs.run exBuf (init 0) (exPhases.flatMap Phase.calls) = .ok (s, ev) ∧ returned ev = [5, 6, 7, 8] ∧
    (bufCalls ev).length = 8 ∧ syncTimes ev = [3] ∧ learns ev = [.q, .policy, .q, .policy, .sync, .q, .policy, .q, .policy] :=
  ⟨_, _, rfl, by decide, by decide, by decide, by decide⟩

end Verif.PGT
