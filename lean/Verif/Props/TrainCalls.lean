import Verif.Model.TrainCalls
import Verif.Spec.TrainCalls
import Verif.Props.TrainDQN
import Verif.Props.ActorCritic
import Verif.Props.PPOBook
import Verif.Props.Reinforce
set_option autoImplicit false
set_option linter.unusedSectionVars false

/-! # C123: what a training run tells DDPG, TD3, SAC, PPO, TRPO and REINFORCE -/

namespace Verif.TrainCalls
open DQN (EnvStep Turn Episode innerSteps)
open TrainDQN (Record record known entriesOf tellStep)
open Train (Phase Path Next)
variable {θ O A R S X : Type}

/-! ## Whole episodes -/

theorem calls_append (l l' : List (Train.Ev O A R S)) : calls (l ++ l') = calls l ++ calls l' := by
  simp [calls, List.filterMap_append]

theorem calls_filter (l : List (Train.Ev O A R S)) : calls (l.filter Train.Ev.isProtocol) = calls l := by
  unfold calls
  induction l with
  | nil => rfl
  | cons e l ih => cases e <;> first | exact ih | exact congrArg (List.cons _) ih

theorem innerSteps_snoc (l : List (Turn θ O A R)) (x y : Turn θ O A R) :
    innerSteps (l ++ [x] ++ [y]) = innerSteps (l ++ [x]) ++ [⟨x.obs, x.action, y.reward, y.obs, false⟩] := by
  induction l with
  | nil => rfl
  | cons a l ih =>
    cases l with
    | nil => rfl
    | cons b l =>
      simp only [innerSteps, List.cons_append, List.tail_cons, List.zipWith_cons_cons] at ih ⊢
      rw [ih]

/-- The episode whose decisions were `l`. -/
theorem episode_of (l : List (Turn θ O A R)) (x : Turn θ O A R) (o : O) (r : R) (d : Bool) :
    ∃ e : Episode θ O A R, e.turns = l ++ [x] ∧ e.finalObs = o ∧ e.finalReward = r ∧ e.done = d ∧
      e.steps = innerSteps (l ++ [x]) ++ [⟨x.obs, x.action, r, o, d⟩] := by
  cases l with
  | nil => exact ⟨⟨x, [], o, r, d⟩, rfl, rfl, rfl, rfl, rfl⟩
  | cons a l =>
    refine ⟨⟨a, l ++ [x], o, r, d⟩, rfl, rfl, rfl, rfl, ?_⟩
    rw [DQN.steps_eq]
    simp [Episode.turns]

section Zero
variable [Zero R]

/-- How the calls of the agent relate to the record of the environment. -/
def Inv (p : Phase O A R) (w : Record O A R) (eps : List (Episode θ O A R)) (cur : List (Turn θ O A R)) : Prop :=
  match p with
  | .fresh => w = {} ∧ eps = [] ∧ cur = []
  | .ready o r len _ => w.obs = some o ∧ eps.map Episode.steps = w.finished ∧
      ((len = 0 ∧ w.current = [] ∧ cur = [] ∧ r = 0) ∨
       (len ≠ 0 ∧ ∃ l x, cur = l ++ [x] ∧ w.current = innerSteps cur ++ [⟨x.obs, x.action, r, o, false⟩]))
  | .chosen a _ _ => ∃ l x, cur = l ++ [x] ∧ x.action = a ∧ w.obs = some x.obs ∧ w.current = innerSteps cur ∧ eps.map Episode.steps = w.finished
  | .ended out _ => ∃ l x, cur = l ++ [x] ∧ w.current = innerSteps cur ++ [⟨x.obs, x.action, out.r, out.obs, out.done⟩] ∧
      eps.map Episode.steps = w.finished
  | .stopped _ => cur = [] ∧ w.current ≠ [] ∧ eps.map Episode.steps = w.finished ++ [w.current]

/-- The decisions of a history. -/
def decisions (eps : List (Episode θ O A R)) (cur : List (Turn θ O A R)) : List (Turn θ O A R) := eps.flatMap Episode.turns ++ cur

/-- Things that hold of the decisions whatever happens. -/
structure Good (ps : Nat → θ) (eps : List (Episode θ O A R)) (cur : List (Turn θ O A R)) : Prop where
  params : (decisions eps cur).map (·.params) = (List.range (decisions eps cur).length).map ps
  first : ∀ e ∈ eps, e.first.reward = 0
  cur0 : ∀ t ∈ cur.head?, t.reward = 0

theorem path_calls (ps : Nat → θ) {steps offset : Nat} {maxLen : Option Nat} {p q : Phase O A R} {es : List (Train.Ev O A R S)}
    (hp : Path steps offset maxLen p es q) : ∀ (w : Record O A R) (eps : List (Episode θ O A R)) (cur : List (Turn θ O A R)),
      Inv p w eps cur → Good ps eps cur →
      ∃ eps' cur', Inv q (es.foldl Record.watch w) eps' cur' ∧ Good ps eps' cur' ∧ history eps' cur' = history eps cur ++ calls es := by
  induction hp with
  | nil p => intro w eps cur h g; exact ⟨eps, cur, h, g, by simp [calls]⟩
  | @cons p q r e es hn hp ih =>
    intro w eps cur h g
    cases hn with
    | first o =>
      obtain ⟨rfl, rfl, rfl⟩ := h
      obtain ⟨eps', cur', h1, h2, h3⟩ := ih (Record.watch {} (.reset o)) [] [] ⟨rfl, rfl, .inl ⟨rfl, rfl, rfl, rfl⟩⟩ g
      exact ⟨eps', cur', h1, h2, h3⟩
    | again t o hlt =>
      obtain ⟨rfl, hne, he⟩ := h
      obtain ⟨eps', cur', h1, h2, h3⟩ := ih (w.watch (.reset o : Train.Ev O A R S)) eps [] ⟨rfl, by simp [Record.watch, hne, he], .inl ⟨rfl, rfl, rfl, rfl⟩⟩ g
      exact ⟨eps', cur', h1, h2, h3⟩
    | stepOn a len t out hne =>
      obtain ⟨l, x, rfl, rfl, ho, hc, he⟩ := h
      have hd : out.done = false := by
        cases hd : out.done with
        | false => rfl
        | true => exact absurd (Or.inl hd) hne
      obtain ⟨eps', cur', h1, h2, h3⟩ := ih (w.watch (.step x.action out : Train.Ev O A R S)) eps (l ++ [x])
        ⟨by simp [Record.watch, ho], by simp [Record.watch, ho, he], .inr ⟨by omega, l, x, rfl, by simp [Record.watch, ho, hc, hd]⟩⟩ g
      exact ⟨eps', cur', h1, h2, h3⟩
    | stepEnd a len t out hend =>
      obtain ⟨l, x, rfl, rfl, ho, hc, he⟩ := h
      obtain ⟨eps', cur', h1, h2, h3⟩ := ih (w.watch (.step x.action out : Train.Ev O A R S)) eps (l ++ [x])
        ⟨l, x, rfl, by simp [Record.watch, ho, hc], by simp [Record.watch, ho, he]⟩ g
      exact ⟨eps', cur', h1, h2, h3⟩
    | act o r len t a hlt =>
      obtain ⟨ho, he, hcase⟩ := h
      let x : Turn θ O A R := ⟨o, r, ps (decisions eps cur).length, a⟩
      have g' : Good ps eps (cur ++ [x]) := by
        refine ⟨?_, g.first, ?_⟩
        · have e1 : decisions eps (cur ++ [x]) = decisions eps cur ++ [x] := by simp [decisions]
          rw [e1, List.map_append, g.params, List.length_append, List.length_singleton, List.range_succ, List.map_append]
          rfl
        · rcases hcase with ⟨-, -, rfl, rfl⟩ | ⟨-, l, y, rfl, -⟩
          · intro t ht; simp at ht; subst ht; rfl
          · intro t ht
            apply g.cur0 t
            cases l <;> simpa using ht
      have hI : Inv (.chosen a len t) (w.watch (.act o r a : Train.Ev O A R S)) eps (cur ++ [x]) := by
        refine ⟨cur, x, rfl, rfl, ho, ?_, he⟩
        rcases hcase with ⟨-, hc, rfl, -⟩ | ⟨-, l, y, rfl, hc⟩
        · exact hc
        · rw [innerSteps_snoc]; exact hc
      obtain ⟨eps', cur', h1, h2, h3⟩ := ih _ eps (cur ++ [x]) hI g'
      refine ⟨eps', cur', h1, h2, ?_⟩
      rw [h3]
      simp [history, calls, turnCall, x]
    | stop out t =>
      obtain ⟨l, x, rfl, hc, he⟩ := h
      obtain ⟨e, e1, e2, e3, e4, e5⟩ := episode_of l x out.obs out.r out.done
      have g' : Good ps (eps ++ [e]) [] := by
        refine ⟨?_, ?_, by simp⟩
        · have e6 : decisions (eps ++ [e]) [] = decisions eps (l ++ [x]) := by simp [decisions, e1]
          rw [e6]; exact g.params
        · intro e' he'
          rcases List.mem_append.1 he' with he' | he'
          · exact g.first e' he'
          · rw [List.mem_singleton.1 he']
            apply g.cur0
            rw [← e1]; rfl
      have hI : Inv (.stopped t) (w.watch (.stop out.obs out.r out.done : Train.Ev O A R S)) (eps ++ [e]) [] :=
        ⟨rfl, by simp [Record.watch, hc], by simp [Record.watch, he, e5, hc]⟩
      obtain ⟨eps', cur', h1, h2, h3⟩ := ih _ (eps ++ [e]) [] hI g'
      refine ⟨eps', cur', h1, h2, ?_⟩
      rw [h3]
      simp [history, calls, episodeCalls, e1, e2, e3, e4]

variable [LinearOrder S]

theorem known_steps {steps offset : Nat} {maxLen : Option Nat} {q : Phase O A R} {pre : List (Train.Ev O A R S)}
    (hp : Path steps offset maxLen .fresh (pre.filter Train.Ev.isProtocol) q) (eps : List (Episode θ O A R)) (cur : List (Turn θ O A R))
    (hI : Inv q (record pre) eps cur) : (eps.map Episode.steps, innerSteps cur) = known pre := by
  unfold known
  rcases TrainDQN.path_last hp with ⟨h0, rfl⟩ | ⟨p', e, h1, hn⟩
  · rw [h0]
    obtain ⟨hw, rfl, rfl⟩ := hI
    simp [hw, innerSteps]
  · rw [h1]
    cases hn with
    | first o =>
      obtain ⟨-, he, ⟨-, hcur, rfl, -⟩ | ⟨hl, -⟩⟩ := hI
      · simp [hcur, he, innerSteps]
      · exact absurd rfl hl
    | again t o hlt =>
      obtain ⟨-, he, ⟨-, hcur, rfl, -⟩ | ⟨hl, -⟩⟩ := hI
      · simp [hcur, he, innerSteps]
      · exact absurd rfl hl
    | stepOn a len t out hne =>
      obtain ⟨-, he, ⟨hl, -⟩ | ⟨-, l, x, rfl, hcur⟩⟩ := hI
      · omega
      · simp [hcur, he]
    | stepEnd a len t out hend =>
      obtain ⟨l, x, rfl, hcur, he⟩ := hI
      simp [hcur, he]
    | act o r len t a hlt =>
      obtain ⟨l, x, rfl, -, -, hcur, he⟩ := hI
      simp [hcur, he]
    | stop out t =>
      obtain ⟨rfl, -, he⟩ := hI
      simp [he, innerSteps]

/-- **C123**: at every moment of every run of `train_agent`, also one that an exception ends, the calls that the agent has got are a sequence of whole
episodes followed by the decisions of an unfinished one.  Read from the arguments of these calls, the steps of the episodes are the environment's
steps that the agent has been told of, in order, and the reward given with the first observation of an episode is 0.
(`params` numbers the decisions.) -/
theorem C123_calls (c : Train.Cfg S) (w : Train.World O A R S X) (ps : Nat → θ) (pre post : List (Train.Ev O A R S))
    (hrun : (Train.run c w).1 = pre ++ post) :
    ∃ (eps : List (Episode θ O A R)) (cur : List (Turn θ O A R)), calls pre = history eps cur ∧
      (eps.map Episode.steps, innerSteps cur) = known pre ∧ (∀ e ∈ eps, e.first.reward = 0) ∧ (∀ t ∈ cur.head?, t.reward = 0) ∧
      (eps.flatMap Episode.turns ++ cur).map (·.params) = (List.range (eps.flatMap Episode.turns ++ cur).length).map ps := by
  obtain ⟨q', hp, -⟩ := Train.C21_protocol c w
  rw [hrun, List.filter_append] at hp
  obtain ⟨q, hp, -⟩ := TrainDQN.path_prefix hp
  obtain ⟨eps, cur, h1, h2, h3⟩ := path_calls ps hp {} [] [] ⟨rfl, rfl, rfl⟩ ⟨rfl, by simp, by simp⟩
  rw [TrainDQN.record_filter] at h1
  refine ⟨eps, cur, ?_, known_steps hp eps cur h1, h2.first, h2.cur0, h2.params⟩
  rw [h3, calls_filter]
  rfl

end Zero

/-! ## Replay buffers -/

/-- The calls of a replay buffer, with projected transitions. -/
def opCall {T : Type} (f : T → EnvStep O A R) : NStep.Op Nat T → DQN.BufCall O A R
  | .append e x => .append e (f x)
  | .stop e => .stop e

theorem episodes_map {T : Type} (f : T → EnvStep O A R) (j : Nat) (ops : List (NStep.Op Nat T)) :
    let s := Episodes.of (fun x => (f x).terminal) j ops
    (s.1.map (·.map f), s.2.map f) = (ops.map (opCall f)).foldl (tellStep j) ([], []) := by
  have key : ∀ (l : List (NStep.Op Nat T)) (s : List (List T) × List T),
      ((l.foldl (Episodes.step (fun x => (f x).terminal) j) s).1.map (·.map f), (l.foldl (Episodes.step (fun x => (f x).terminal) j) s).2.map f) =
        (l.map (opCall f)).foldl (tellStep j) (s.1.map (·.map f), s.2.map f) := by
    intro l
    induction l with
    | nil => intro s; rfl
    | cons e l ih =>
      intro s
      refine (ih (Episodes.step (fun x => (f x).terminal) j s e)).trans ?_
      show _ = (l.map (opCall f)).foldl (tellStep j) (tellStep j _ (opCall f e))
      congr 1
      cases e with
      | append i x =>
        simp only [Episodes.step, tellStep, opCall]
        by_cases hi : i = j
        · by_cases ht : (f x).terminal = true <;> simp [hi, ht]
        · simp [hi]
      | stop i =>
        simp only [Episodes.step, tellStep, opCall]
        by_cases hi : i = j <;> by_cases hs : s.2 = [] <;> simp [hi, hs]
  simpa [Episodes.of] using key ops ([], [])

theorem entries_eq {T : Type} (f : T → EnvStep O A R) (cap : Option Nat) (n : Nat) (hn : 0 < n) (ops : List (NStep.Op Nat T))
    (h : ∀ b ∈ ops.map (opCall f), DQN.BufCall.env b = 0) :
    ((ReplayBuffer.init cap n).run (fun x => (f x).terminal) ops).memory.iter.map (·.map f) =
      BoundedList.newest cap (entriesOf n ((ops.map (opCall f)).foldl (tellStep 0) ([], []))) := by
  have h1 := C11_newest_entries (fun x => (f x).terminal) cap n hn ops
  unfold ReplayBuffer.entries at h1
  rw [h1, TrainDQN.newest_map]
  congr 1
  have h2 := C09_one_slice_per_transition (fun x => (f x).terminal) (fun _ => 0) n hn ops
    (fun e x hx => (h (.append e (f x)) (List.mem_map.2 ⟨_, hx, rfl⟩)).symm) 0
  rw [List.filter_eq_self.2 (by simp)] at h2
  unfold ReplayBuffer.entries at h2
  rw [h2]
  have h3 := episodes_map f 0 ops
  simp only at h3
  rw [← h3]
  unfold entriesOf
  simp only [List.map_append, (TrainDQN.slices_map f n _).2, List.map_flatMap, List.flatMap_map, (TrainDQN.slices_map f n _).1]

theorem tell_inner (ts : List (Turn θ O A R)) (s : List (List (EnvStep O A R)) × List (EnvStep O A R)) :
    ((innerSteps ts).map (DQN.BufCall.append 0)).foldl (tellStep 0) s = (s.1, s.2 ++ innerSteps ts) := by
  have key : ∀ (l : List (EnvStep O A R)), (∀ x ∈ l, x.terminal = false) → ∀ s : List (List (EnvStep O A R)) × List (EnvStep O A R),
      (l.map (DQN.BufCall.append 0)).foldl (tellStep 0) s = (s.1, s.2 ++ l) := by
    intro l
    induction l with
    | nil => intro _ s; simp
    | cons x l ih =>
      intro h s
      rw [List.map_cons, List.foldl_cons, ih (fun y hy => h y (List.mem_cons_of_mem _ hy))]
      simp [tellStep, h x (by simp)]
  apply key
  intro x hx
  unfold innerSteps at hx
  obtain ⟨i, hi, rfl⟩ := List.mem_iff_getElem.1 hx
  simp

theorem tell_episode (e : Episode θ O A R) (s : List (List (EnvStep O A R))) :
    (e.steps.map (DQN.BufCall.append 0) ++ [DQN.BufCall.stop 0]).foldl (tellStep 0) (s, []) = (s ++ [e.steps], []) := by
  rw [DQN.steps_eq, List.map_append, List.foldl_append, List.foldl_append, tell_inner]
  cases hd : e.done <;> simp [tellStep, hd]

theorem tell_history (eps : List (Episode θ O A R)) (cur : List (Turn θ O A R)) :
    (eps.flatMap (fun e : Episode θ O A R => e.steps.map (DQN.BufCall.append 0) ++ [DQN.BufCall.stop 0]) ++ (innerSteps cur).map (DQN.BufCall.append 0)).foldl (tellStep 0) ([], []) =
      (eps.map Episode.steps, innerSteps cur) := by
  have key : ∀ (eps : List (Episode θ O A R)) (s : List (List (EnvStep O A R))),
      (eps.flatMap (fun e : Episode θ O A R => e.steps.map (DQN.BufCall.append 0) ++ [DQN.BufCall.stop 0])).foldl (tellStep 0) (s, []) = (s ++ eps.map Episode.steps, []) := by
    intro eps
    induction eps with
    | nil => intro s; simp
    | cons e eps ih => intro s; rw [List.flatMap_cons, List.foldl_append, tell_episode, ih]; simp
  rw [List.foldl_append, key, tell_inner]
  simp

/-! ## DDPG, TD3, SoftActorCritic -/

/-- The buffer calls with the transitions as they are. -/
def acOps (l : List (ActorCritic.Ev O A R)) : List (NStep.Op Nat (Transition O A R)) :=
  l.filterMap fun
    | .append i tr => some (.append i tr)
    | .stopEpisode i => some (.stop i)
    | _ => none

theorem acOps_calls (l : List (ActorCritic.Ev O A R)) : (acOps l).map (opCall stepOf) = ActorCritic.bufCalls l := by
  induction l with
  | nil => rfl
  | cons e l ih => cases e <;> first | exact ih | exact congrArg (List.cons _) ih

theorem bufferAfter_run (b : ReplayBuffer Nat (Transition O A R)) (l : List (ActorCritic.Ev O A R)) :
    ActorCritic.bufferAfter replayBuf b l = b.run (fun x => (stepOf x).terminal) (acOps l) := by
  induction l generalizing b with
  | nil => rfl
  | cons e l ih => cases e <;> exact ih _

theorem acCalls_turns (cands : Nat → Bool → A) : ∀ (ts : List (Turn (Bool → A) O A R)) (k : Nat) (l : List (Call O A R)),
    ts.map (·.params) = (List.range' k ts.length).map cands →
    acCalls cands k (ts.map turnCall ++ l) = ts.map ActorCritic.turnCall ++ acCalls cands (k + ts.length) l
  | [], k, l, _ => by simp
  | t :: ts, k, l, h => by
    simp only [List.map_cons, List.length_cons, List.range'_succ, List.cons.injEq] at h
    have ih := acCalls_turns cands ts (k + 1) l h.2
    simp only [List.map_cons, List.cons_append, List.length_cons]
    show acCalls cands k (.act t.obs t.reward t.action :: (ts.map turnCall ++ l)) = _
    rw [acCalls, ih, ← h.1, show k + 1 + ts.length = k + (ts.length + 1) by omega]
    rfl

theorem acCalls_history (cands : Nat → Bool → A) : ∀ (eps : List (Episode (Bool → A) O A R)) (cur : List (Turn (Bool → A) O A R)) (k : Nat),
    (eps.flatMap Episode.turns ++ cur).map (·.params) = (List.range' k (eps.flatMap Episode.turns ++ cur).length).map cands →
    acCalls cands k (history eps cur) = eps.flatMap ActorCritic.episodeCalls ++ cur.map ActorCritic.turnCall
  | [], cur, k, h => by
    have := acCalls_turns cands cur k [] (by simpa using h)
    simpa [history, acCalls] using this
  | e :: eps, cur, k, h => by
    have h' : e.turns.map (·.params) = (List.range' k e.turns.length).map cands ∧
        (eps.flatMap Episode.turns ++ cur).map (·.params) = (List.range' (k + e.turns.length) (eps.flatMap Episode.turns ++ cur).length).map cands := by
      rw [List.flatMap_cons, List.append_assoc, List.map_append (l₁ := e.turns), List.length_append, ← List.range'_append_1, List.map_append (l₁ := List.range' k _)] at h
      exact List.append_inj h (by simp)
    have ih := acCalls_history cands eps cur (k + e.turns.length) h'.2
    have e1 : history (e :: eps) cur = e.turns.map turnCall ++ (.stop e.finalObs e.finalReward e.done :: history eps cur) := by
      simp [history, episodeCalls]
    rw [e1, acCalls_turns cands e.turns k _ h'.1, acCalls, ih]
    simp [ActorCritic.episodeCalls]

theorem run_buf (c : ActorCritic.Args) {B : Type} (b : ActorCritic.Buf B O A R) : ∀ (l : List (ActorCritic.Call O A R)) (s s' : ActorCritic.St B O A)
    (ev : List (ActorCritic.Ev O A R)), c.run b s l = .ok (s', ev) → s'.buf = ActorCritic.bufferAfter b s.buf ev := by
  intro l
  induction l with
  | nil => intro s s' ev h; injection h with h; injection h with a1 a2; subst a1 a2; rfl
  | cons x l ih =>
    intro s s' ev h
    unfold ActorCritic.Args.run at h
    obtain ⟨⟨s1, e1⟩, h1, h⟩ := DQN.except_bind_ok.1 h
    obtain ⟨⟨s2, e2⟩, h2, h⟩ := DQN.except_bind_ok.1 h
    simp only [pure, Except.pure, Except.ok.injEq, Prod.mk.injEq] at h
    obtain ⟨rfl, rfl⟩ := h
    rw [ActorCritic.bufferAfter_append, ← ActorCritic.call_buf c b x s s1 e1 h1, ih s1 s2 e2 h2]

variable [Zero R] [LinearOrder S]

theorem chosen_calls (evs : List (Train.Ev O A R S)) (eps : List (Episode θ O A R)) (cur : List (Turn θ O A R)) (h : calls evs = history eps cur) :
    chosen evs = eps.flatMap (fun e => e.turns.map (·.action)) ++ cur.map (·.action) := by
  have e1 : chosen evs = (calls evs).filterMap fun | .act _ _ a => some a | _ => none := by
    unfold chosen calls
    rw [List.filterMap_filterMap]
    congr 1
    funext e
    cases e <;> rfl
  have e2 : ∀ ts : List (Turn θ O A R), (ts.map turnCall).filterMap (fun x : Call O A R => match x with | .act _ _ a => some a | _ => none) = ts.map (·.action) := by
    intro ts
    induction ts with
    | nil => rfl
    | cons t ts ih => exact congrArg (List.cons _) ih
  rw [e1, h, history, List.filterMap_append, e2, List.filterMap_flatMap]
  congr 1
  congr 1
  funext e
  rw [episodeCalls, List.filterMap_append, e2]
  simp

/-- **C123**: at every moment of every run of `train_agent` with DDPG, TD3 or SoftActorCritic, whatever actions burn-in function and policy offer, no call
of the agent raises by itself; and if the actions of the run are those the agent returned, its replay buffer holds exactly the entries that belong to
the environment's steps the agent has been told of, in order, or the newest ones of these if it is full. -/
theorem C123_actor_critic (c : Train.Cfg S) (w : Train.World O A R S X) (d : ActorCritic.Args) (hd : ActorCritic.Good d) (cap : Option Nat) (n : Nat)
    (hn : 0 < n) (cands : Nat → Bool → A) (pre post : List (Train.Ev O A R S)) (hrun : (Train.run c w).1 = pre ++ post) :
    ∃ s ev, driveAC d cap n c.stepOffset cands pre = .ok (s, ev) ∧
      (ActorCritic.returned ev = chosen pre → stored s.buf = BoundedList.newest cap (entriesOf n (known pre))) := by
  obtain ⟨eps, cur, h1, h2, -, -, h5⟩ := C123_calls c w cands pre post hrun
  rw [List.range_eq_range'] at h5
  have h6 := acCalls_history cands eps cur 0 h5
  obtain ⟨s1, e1, a1, i1, l1, k1⟩ := ActorCritic.run_history d hd (replayBuf (O := O) (A := A) (R := R)) eps
    { ActorCritic.init (ReplayBuffer.init cap n) with t := c.stepOffset } rfl
  obtain ⟨s2, e2, a2, k2⟩ := ActorCritic.run_partial d hd replayBuf cur s1 i1
  have hr := ActorCritic.run_append d replayBuf _ _ _ s1 s2 e1 e2 a1 a2
  rw [← h6, ← h1] at hr
  refine ⟨s2, e1 ++ e2, hr, fun hret => ?_⟩
  have hbuf := run_buf d replayBuf _ _ _ _ hr
  rw [ActorCritic.returned_append, chosen_calls pre eps cur h1] at hret
  obtain ⟨g1, g2⟩ := List.append_inj hret l1
  have hcalls : ActorCritic.bufCalls (e1 ++ e2) = eps.flatMap (fun e => e.steps.map (.append 0) ++ [.stop 0]) ++ (innerSteps cur).map (.append 0) := by
    rw [ActorCritic.bufCalls_append, k1 g1, k2 g2]
  unfold stored
  rw [hbuf, bufferAfter_run]
  show List.map _ ((ReplayBuffer.init cap n).run _ _).memory.iter = _
  rw [entries_eq stepOf cap n hn, acOps_calls, hcalls, tell_history, h2]
  rw [acOps_calls, hcalls]
  intro b hb
  rcases List.mem_append.1 hb with hb | hb
  · obtain ⟨e, -, hb⟩ := List.mem_flatMap.1 hb
    rcases List.mem_append.1 hb with hb | hb
    · obtain ⟨x, -, rfl⟩ := List.mem_map.1 hb; rfl
    · rw [List.mem_singleton.1 hb]; rfl
  · obtain ⟨x, -, rfl⟩ := List.mem_map.1 hb; rfl

/-! ## PPO and TRPO -/

/-- The inverse of `ppoStep`. -/
def toTr (x : EnvStep O A R) : PPOData.Tr O A R := ⟨x.state, x.action, x.reward, x.nextState, x.terminal⟩

theorem ppoStep_toTr (l : List (EnvStep O A R)) : (l.map toTr).map ppoStep = l := by
  rw [List.map_map]
  exact List.map_id l

theorem view_turns (l : List (Turn θ O A R)) (x : Turn θ O A R) (v : PPOData.View O A R) (hv : v.current = []) (hl : v.last = none) :
    (ppoCalls ((l ++ [x]).map turnCall)).foldl (PPOData.View.see none) v = ⟨v.ended, (innerSteps (l ++ [x])).map toTr, some (x.obs, x.action)⟩ := by
  induction l using List.reverseRecOn generalizing x with
  | nil => simp [ppoCalls, turnCall, PPOData.View.see, PPOData.View.outcome, hl, hv, innerSteps]
  | append_singleton l y ih =>
    have e1 : ppoCalls ((l ++ [y] ++ [x]).map turnCall) = ppoCalls ((l ++ [y]).map turnCall) ++ [.act x.obs x.reward x.action] := by
      simp [ppoCalls, turnCall]
    rw [e1, List.foldl_append, ih y, innerSteps_snoc]
    simp [PPOData.View.see, PPOData.View.outcome, toTr]

theorem view_episode (e : Episode θ O A R) (v : PPOData.View O A R) (hv : v.current = []) (hl : v.last = none) :
    (ppoCalls (episodeCalls e)).foldl (PPOData.View.see none) v = ⟨v.ended ++ [e.steps.map toTr], [], none⟩ := by
  obtain ⟨l, x, hx⟩ : ∃ l x, e.turns = l ++ [x] := by
    rcases List.eq_nil_or_concat e.turns with h | ⟨l, x, h⟩
    · cases h
    · exact ⟨l, x, by simpa using h⟩
  have e1 : ppoCalls (episodeCalls e) = ppoCalls ((l ++ [x]).map turnCall) ++ [.stop e.finalObs e.finalReward e.done] := by
    simp [ppoCalls, episodeCalls, hx]
  rw [e1, List.foldl_append, view_turns l x v hv hl, DQN.steps_eq]
  simp [PPOData.View.see, PPOData.View.outcome, PPOData.View.close, toTr, hx]

theorem view_history (eps : List (Episode θ O A R)) (cur : List (Turn θ O A R)) :
    (PPOData.view none (ppoCalls (history eps cur))).ended = eps.map (fun e => e.steps.map toTr) ∧
    (PPOData.view none (ppoCalls (history eps cur))).current = (innerSteps cur).map toTr := by
  have key : ∀ (eps : List (Episode θ O A R)) (ended : List (List (PPOData.Tr O A R))),
      (ppoCalls (eps.flatMap episodeCalls)).foldl (PPOData.View.see none) ⟨ended, [], none⟩ = ⟨ended ++ eps.map (fun e => e.steps.map toTr), [], none⟩ := by
    intro eps
    induction eps with
    | nil => intro ended; simp [ppoCalls]
    | cons e eps ih =>
      intro ended
      have e1 : ppoCalls ((e :: eps).flatMap episodeCalls) = ppoCalls (episodeCalls e) ++ ppoCalls (eps.flatMap episodeCalls) := by
        simp [ppoCalls]
      rw [e1, List.foldl_append, view_episode e _ rfl rfl, ih]
      simp
  have e1 : ppoCalls (history eps cur) = ppoCalls (eps.flatMap episodeCalls) ++ ppoCalls (cur.map turnCall) := by simp [ppoCalls, history]
  unfold PPOData.view
  rw [e1, List.foldl_append, PPOData.View.init, key]
  rcases List.eq_nil_or_concat cur with rfl | ⟨l, x, h⟩
  · simp [ppoCalls, innerSteps]
  · have h : cur = l ++ [x] := by simpa using h
    subst h
    rw [view_turns l x _ rfl rfl]
    simp

theorem view_other (i : Nat) (l : List (Call O A R)) : PPOData.view (some i) (ppoCalls l) = PPOData.View.init := by
  unfold PPOData.view
  induction l with
  | nil => rfl
  | cons x l ih => cases x <;> exact ih

theorem legal_turns (n : Nat) (ts : List (Turn θ O A R)) (b : Bool) (l : List (PPOData.Call O A R)) (h : PPOData.Legal n (b || !ts.isEmpty) false l) :
    PPOData.Legal n b false (ppoCalls (ts.map turnCall) ++ l) := by
  induction ts generalizing b with
  | nil => simpa [ppoCalls] using h
  | cons t ts ih => exact .act _ _ _ _ _ _ (ih true (by simpa using h))

theorem legal_history (n : Nat) (eps : List (Episode θ O A R)) (cur : List (Turn θ O A R)) : PPOData.Legal n false false (ppoCalls (history eps cur)) := by
  induction eps with
  | nil =>
    have := legal_turns n cur false [] (.nil _ _)
    simpa [history] using this
  | cons e eps ih =>
    have e1 : ppoCalls (history (e :: eps) cur) = ppoCalls (e.turns.map turnCall) ++ (.stop e.finalObs e.finalReward e.done :: ppoCalls (history eps cur)) := by
      simp [ppoCalls, history, episodeCalls]
    rw [e1]
    exact legal_turns n e.turns false _ (.stop _ _ _ _ _ ih)

theorem ppoCalls_rows (l : List (Call O A R)) (rows) : PPOData.Call.batchObserve rows ∉ ppoCalls l := by
  intro h
  obtain ⟨x, -, hx⟩ := List.mem_map.1 h
  cases x <;> cases hx

theorem tags (interval : Nat) (l : List (Call O A R)) (s : PPOData.St O A R) (ds : List (PPOData.Dataset O A R))
    (hr : PPOData.run interval PPOData.St.init (ppoCalls l) = .ok (s, ds)) :
    PPOData.fragments none (ds ++ [s.memory]) = (ds.flatten ++ s.memory).map Prod.snd := by
  unfold PPOData.fragments
  rw [List.flatten_append, List.filter_eq_self.2]
  · simp
  · intro x hx
    rcases hx' : x.1 with _ | i
    · simp
    · exfalso
      obtain ⟨rec', groups', open', f1, f2, f3, f4⟩ := PPOData.C50_exactly_once interval (some i) _ s ds hr
      rw [view_other] at f2 f3
      have hg : groups' = [] := by simpa [PPOData.View.init] using f2
      have ho : open'.flatten = [] := (List.append_eq_nil_iff.1 f3).1
      have hmem : x.2 ∈ PPOData.fragments (some i) (ds ++ [s.memory]) := by
        unfold PPOData.fragments
        refine List.mem_map.2 ⟨x, List.mem_filter.2 ⟨?_, by simp [hx']⟩, rfl⟩
        simpa using hx
      have hne := f4 _ hmem
      rw [f1, hg] at hmem
      simp only [List.flatten_nil, List.nil_append] at hmem
      exact hne (List.flatten_eq_nil_iff.1 ho _ hmem)

/-- **C123**: at every moment of every run of `train_agent` with PPO (or TRPO) no call of the agent raises by itself.  The fragments in the datasets of the
updates made so far, then those waiting in memory, then the transitions being recorded, are exactly the environment's steps that the agent has been told
of: each fragment is part of one episode, and in order they make up the finished episodes and the current one. -/
theorem C123_ppo (c : Train.Cfg S) (w : Train.World O A R S X) (interval : Nat) (pre post : List (Train.Ev O A R S))
    (hrun : (Train.run c w).1 = pre ++ post) :
    ∃ s ds, drivePPO interval pre = .ok (s, ds) ∧
      ∃ (groups : List (List (List (PPOData.Tr O A R)))) (open_ : List (List (PPOData.Tr O A R))) (recording : List (PPOData.Tr O A R)),
      (ds.flatten ++ s.memory).map Prod.snd = groups.flatten ++ open_ ∧
      (groups.map List.flatten).map (·.map ppoStep) = (known pre).1 ∧ (open_.flatten ++ recording).map ppoStep = (known pre).2 := by
  obtain ⟨eps, cur, h1, h2, -⟩ := C123_calls c w (fun _ => ()) pre post hrun
  obtain ⟨s, ds, hr⟩ := PPOData.C50_no_error interval 0 _ (legal_history 0 eps cur)
  refine ⟨s, ds, by rw [drivePPO, h1, hr], ?_⟩
  obtain ⟨rec, groups, open_, g1, g2, g3, -⟩ := PPOData.C50_exactly_once interval none _ s ds hr
  obtain ⟨v1, v2⟩ := view_history eps cur
  refine ⟨groups, open_, rec, ?_, ?_, ?_⟩
  · rw [← g1, tags interval _ s ds hr]
  · rw [g2, v1, ← h2]
    simp only [List.map_map]
    congr 1
    funext e
    exact ppoStep_toTr _
  · rw [g3, v2, ← h2]
    exact ppoStep_toTr _

/-- **C123**: and every dataset has exactly `update_interval` transitions, and after `t` steps that the agent has been told of there have been
`t / update_interval` updates. -/
theorem C123_ppo_updates (c : Train.Cfg S) (w : Train.World O A R S X) (interval : Nat) (hi : 1 ≤ interval) (pre post : List (Train.Ev O A R S))
    (hrun : (Train.run c w).1 = pre ++ post) :
    ∃ s ds, drivePPO interval pre = .ok (s, ds) ∧ (∀ d ∈ ds, PPOData.Dataset.size d = interval) ∧
      ds.length = ((known pre).1.flatten.length + (known pre).2.length) / interval := by
  obtain ⟨eps, cur, h1, h2, -⟩ := C123_calls c w (fun _ => ()) pre post hrun
  obtain ⟨s, ds, hr⟩ := PPOData.C50_no_error interval 0 _ (legal_history 0 eps cur)
  refine ⟨s, ds, by rw [drivePPO, h1, hr], ?_⟩
  have hsize : ∀ d ∈ ds, PPOData.Dataset.size d = interval := by
    intro d hd
    have := PPOData.C50_dataset_size interval 1 hi (le_refl _) _ s ds hr (fun rows h => absurd h (ppoCalls_rows _ _)) d hd
    omega
  refine ⟨hsize, ?_⟩
  have hsum : ∀ l : List (PPOData.Dataset O A R), (∀ d ∈ l, PPOData.Dataset.size d = interval) → (l.map PPOData.Dataset.size).sum = l.length * interval := by
    intro l
    induction l with
    | nil => intro _; simp
    | cons d l ih =>
      intro h
      rw [List.map_cons, List.sum_cons, h d (by simp), ih (fun x hx => h x (List.mem_cons_of_mem _ hx)), List.length_cons, Nat.succ_mul, Nat.add_comm]
  have hlt := PPOData.C50_as_soon_as interval 0 hi _ s ds hr
  rw [hsum ds hsize] at hlt
  obtain ⟨v1, v2⟩ := view_history eps cur
  have hexp : PPOData.experienced 0 (ppoCalls (history eps cur)) = (known pre).1.flatten.length + (known pre).2.length := by
    rw [← h2]
    simp only [PPOData.experienced, PPOData.View.count, v1, v2, List.range_zero, List.map_nil, List.sum_nil, Nat.add_zero, List.length_map, List.map_map,
      List.length_flatten]
    congr 2
    apply List.map_congr_left
    intro e _
    simp
  rw [hexp] at hlt
  obtain ⟨rec, hcov⟩ := PPOData.C50_exactly_once interval none _ s ds hr
  have hcount := PPOData.covers_count hcov
  have hle : ds.length * interval ≤ (known pre).1.flatten.length + (known pre).2.length := by
    rw [← hexp, ← hsum ds hsize]
    simp only [PPOData.experienced, List.range_zero, List.map_nil, List.sum_nil, Nat.add_zero, hcount]
    refine le_trans ?_ (Nat.le_add_right _ _)
    rw [tags interval _ s ds hr, List.map_map, List.map_append, List.sum_append, List.map_flatten, List.sum_flatten, List.map_map]
    have : ds.map PPOData.Dataset.size = ds.map (List.sum ∘ List.map (List.length ∘ Prod.snd)) := by
      apply List.map_congr_left
      intro d _
      rfl
    rw [← this]
    exact Nat.le_add_right _ _
  have e1 : ds.length ≤ ((known pre).1.flatten.length + (known pre).2.length) / interval := (Nat.le_div_iff_mul_le hi).2 hle
  have e2 : ((known pre).1.flatten.length + (known pre).2.length) / interval < ds.length + 1 := by
    rw [Nat.div_lt_iff_lt_mul hi, Nat.succ_mul]
    exact hlt
  omega

/-! ## REINFORCE -/

section Reinforce
variable {K : Type} [Field K]

/-- The decisions as REINFORCE sees them. -/
def actsFrom (logp ent : Nat → K) : Nat → List (Turn θ O A K) → List (Reinforce.Act K)
  | _, [] => []
  | k, t :: ts => ⟨t.reward, logp k, ent k⟩ :: actsFrom logp ent (k + 1) ts

/-- The complete episodes as REINFORCE sees them. -/
def epsFrom (logp ent : Nat → K) : Nat → List (Episode θ O A K) → List (Reinforce.Episode K)
  | _, [] => []
  | k, e :: eps => (if e.done then [⟨actsFrom logp ent k e.turns, e.finalReward⟩] else []) ++ epsFrom logp ent (k + e.turns.length) eps

theorem see_turns (logp ent : Nat → K) : ∀ (ts : List (Turn θ O A K)) (k : Nat) (l : List (Call O A K)) (v : Reinforce.View K),
    (reinforceCalls logp ent k (ts.map turnCall ++ l)).foldl Reinforce.View.see v =
      (reinforceCalls logp ent (k + ts.length) l).foldl Reinforce.View.see { v with current := v.current ++ actsFrom logp ent k ts }
  | [], k, l, v => by simp [actsFrom]
  | t :: ts, k, l, v => by
    have ih := see_turns logp ent ts (k + 1) l { v with current := v.current ++ [⟨t.reward, logp k, ent k⟩] }
    simp only [List.map_cons, List.cons_append, List.length_cons]
    show (reinforceCalls logp ent k (.act t.obs t.reward t.action :: (ts.map turnCall ++ l))).foldl Reinforce.View.see v = _
    rw [reinforceCalls, List.foldl_cons, Reinforce.View.see, ih, show k + 1 + ts.length = k + (ts.length + 1) by omega]
    simp [actsFrom]

theorem see_history (logp ent : Nat → K) : ∀ (eps : List (Episode θ O A K)) (cur : List (Turn θ O A K)) (k : Nat) (done : List (Reinforce.Episode K)),
    ((reinforceCalls logp ent k (history eps cur)).foldl Reinforce.View.see ⟨done, []⟩).episodes = done ++ epsFrom logp ent k eps
  | [], cur, k, done => by
    have := see_turns logp ent cur k [] ⟨done, []⟩
    simp only [List.append_nil] at this
    simp [history, this, reinforceCalls, epsFrom]
  | e :: eps, cur, k, done => by
    have e1 : history (e :: eps) cur = e.turns.map turnCall ++ (.stop e.finalObs e.finalReward e.done :: history eps cur) := by
      simp [history, episodeCalls]
    rw [e1, see_turns, reinforceCalls, List.foldl_cons]
    cases hd : e.done
    · simp only [Reinforce.View.see]
      rw [see_history logp ent eps cur]
      simp [epsFrom, hd]
    · simp only [Reinforce.View.see]
      rw [see_history logp ent eps cur]
      simp [epsFrom, hd]

theorem steps_cons (f t : Turn θ O A R) (rest : List (Turn θ O A R)) (o : O) (r : R) (d : Bool) :
    (⟨f, t :: rest, o, r, d⟩ : Episode θ O A R).steps = ⟨f.obs, f.action, t.reward, t.obs, false⟩ :: (⟨t, rest, o, r, d⟩ : Episode θ O A R).steps := rfl

theorem steps_rewards (rest : List (Turn θ O A R)) : ∀ (f : Turn θ O A R) (o : O) (r : R) (d : Bool),
    (⟨f, rest, o, r, d⟩ : Episode θ O A R).steps.map (·.reward) = rest.map (·.reward) ++ [r] := by
  induction rest with
  | nil => intros; rfl
  | cons t rest ih => intro f o r d; rw [steps_cons, List.map_cons, ih]; rfl

theorem actsFrom_rewards (logp ent : Nat → K) : ∀ (ts : List (Turn θ O A K)) (k : Nat), (actsFrom logp ent k ts).map (·.reward) = ts.map (·.reward)
  | [], _ => rfl
  | t :: ts, k => by simp [actsFrom, actsFrom_rewards logp ent ts]

theorem loss_eq (beta : K) (logp ent : Nat → K) (rest : List (Turn θ O A K)) : ∀ (f : Turn θ O A K) (o : O) (r : K) (d : Bool) (k : Nat),
    Reinforce.actsLoss beta r (actsFrom logp ent k (f :: rest)) = episodeLoss beta logp ent k (⟨f, rest, o, r, d⟩ : Episode θ O A K).steps := by
  induction rest with
  | nil =>
    intro f o r d k
    simp [actsFrom, Reinforce.actsLoss, episodeLoss, Episode.steps, Episode.turns]
  | cons t rest ih =>
    intro f o r d k
    rw [actsFrom, Reinforce.actsLoss, ih t o r d (k + 1), actsFrom_rewards, steps_cons, episodeLoss]
    congr 3
    have e1 := congrArg List.sum (steps_rewards rest t o r d)
    simp only [List.map_cons, List.sum_cons, e1, List.sum_append, List.sum_nil, add_zero, add_assoc]

theorem steps_length (e : Episode θ O A R) : e.steps.length = e.turns.length := by
  obtain ⟨f, rest, o, r, d⟩ := e
  have := congrArg List.length (steps_rewards rest f o r d)
  simpa [Episode.turns] using this

theorem losses_eq (beta : K) (logp ent : Nat → K) : ∀ (eps : List (Episode θ O A K)) (k : Nat),
    (epsFrom logp ent k eps).map (fun ep => Reinforce.actsLoss beta ep.final ep.acts) = losses beta logp ent k (eps.map Episode.steps)
  | [], _ => rfl
  | e :: eps, k => by
    have hl : e.steps.getLast?.map (·.terminal) = some e.done := by rw [DQN.steps_eq]; simp
    rw [epsFrom, List.map_append, losses_eq beta logp ent eps, List.map_cons, losses, hl, steps_length]
    congr 1
    cases hd : e.done
    · simp
    · obtain ⟨f, rest, o, r, d⟩ := e
      have := loss_eq beta logp ent rest f o r d k
      simpa [Episode.turns] using this

/-- **C123**: at every moment of every run of `train_agent` with REINFORCE no call of the agent raises by itself, and it has made one update for each
`batchsize` episodes of the environment that ended in a terminal state, in order, with the mean of these episodes' losses; episodes that were cut off
are not used. -/
theorem C123_reinforce (c : Train.Cfg S) (w : Train.World O A K S X) (d : Reinforce.Cfg K) (hd : 1 ≤ d.batchsize) (logp ent : Nat → K)
    (pre post : List (Train.Ev O A K S)) (hrun : (Train.run c w).1 = pre ++ post) :
    ∃ s, driveReinforce d logp ent pre = .ok (s, means d.batchsize (losses d.beta logp ent 0 (known pre).1)) := by
  obtain ⟨eps, cur, h1, h2, -⟩ := C123_calls c w (fun _ => ()) pre post hrun
  have hv : (Reinforce.view (reinforceCalls logp ent 0 (calls pre))).episodes = epsFrom logp ent 0 eps := by
    rw [h1]
    exact (see_history logp ent eps cur 0 []).trans (by simp)
  have hl : Reinforce.Legal (reinforceCalls logp ent 0 (calls pre)) := by
    unfold Reinforce.Legal
    rw [hv]
    have : ∀ (eps : List (Episode Unit O A K)) (k : Nat), ∀ ep ∈ epsFrom logp ent k eps, ep.acts ≠ [] := by
      intro eps
      induction eps with
      | nil => intro k ep h; simp [epsFrom] at h
      | cons e eps ih =>
        intro k ep h
        rw [epsFrom] at h
        rcases List.mem_append.1 h with h | h
        · split at h
          · rw [List.mem_singleton.1 h]; simp [Episode.turns, actsFrom]
          · simp at h
        · exact ih _ ep h
    exact this eps 0
  obtain ⟨s, hs⟩ := Reinforce.C54_updates d hd _ hl
  refine ⟨s, ?_⟩
  rw [driveReinforce, hs, hv]
  congr 2
  rw [← h2]
  show _ = means _ (losses d.beta logp ent 0 (eps.map Episode.steps))
  rw [← losses_eq]
  unfold means Reinforce.batchLoss
  simp only [List.length_map, List.map_drop, List.map_take]

end Reinforce

/-! ## Non-vacuity -/

/-- The run of `Props/TrainDQN.lean`: an episode of two steps with a terminal state, and one of a single step that the end of training cuts off. -/
example : (calls (Train.run TrainDQN.exTrain TrainDQN.exWorld).1).length = 5 ∧ chosen (Train.run TrainDQN.exTrain TrainDQN.exWorld).1 = [10, 11, 12] := by
  decide +kernel

/-- The agents' own actions: 10, 11, 12, from the policy after the first update. -/
def exCands (k : Nat) (burn : Bool) : Nat := if burn then 10 + k else if k < 2 then 99 else 10 + k

set_option synthInstance.maxSize 512 in
/-- SoftActorCritic, in the example with a replay start of two entries and two-step entries. -/
example : (driveAC ActorCritic.exSac none 2 5 exCands (Train.run TrainDQN.exTrain TrainDQN.exWorld).1).toOption.map
    (fun x => (ActorCritic.returned x.2, (stored x.1.buf).map (·.map fun x => (x.state, x.action, x.reward, x.nextState, x.terminal)))) =
      some (chosen (Train.run TrainDQN.exTrain TrainDQN.exWorld).1,
        [[(0, 10, 100, 1, false), (1, 11, 101, 2, true)], [(1, 11, 101, 2, true)], [(50, 12, 102, 3, false)]]) := by decide +kernel

/-- PPO with `update_interval=2`: one update. -/
example : ∃ s ds, drivePPO 2 (Train.run TrainDQN.exTrain TrainDQN.exWorld).1 = .ok (s, ds) ∧ ds.map (·.map fun e => e.2.map (·.action)) = [[[10, 11]]] ∧
    s.memory.map (fun e => e.2.map (·.action)) = [[12]] := by
  refine ⟨_, _, rfl, ?_, ?_⟩ <;> decide +kernel

def exWorldQ : Train.World Nat Nat ℚ Int String where
  reset := .ok 0
  iter i :=
    { act := .ok (10 + i), step := .ok ⟨i + 1, i + 1, i == 1, false⟩, hook := fun _ => .ok (), stop := .ok (), evaluate := .ok 0
      reset := .ok 50, checkpoint := .ok () }
  saveExcept := .ok ()
  saveFinish := .ok ()

/-- REINFORCE with rewards 1 and 2: the first decision is weighted with 3, the second with 2; the episode that was cut off does not count. -/
example : (driveReinforce ⟨0, 1, false⟩ (fun k => (k : ℚ) + 5) (fun _ => 0) (Train.run TrainDQN.exTrain exWorldQ).1).toOption.map (·.2) =
    some [-3 * 5 - 2 * 6] := by decide +kernel

end Verif.TrainCalls
