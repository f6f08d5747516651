import Verif.Spec.StepLimits
import Verif.Props.TrainDQN
import Verif.Props.FixedReplay
set_option autoImplicit false
set_option linter.unusedSectionVars false

/-! # C169: step limits in a training run -/

namespace Verif.StepLimits
open DQN (EnvStep)
open TrainDQN (Record record known drive stored buffer entriesOf)
open Train (Phase Path Next StepOut)
open Wrappers (Gym timeLimit stepLimited doneOut limitOut)
variable {θ O A K S E H X T : Type}

/-! ## What a record shows of the environment inside a wrapper -/

theorem envOps_append (l l' : List (Train.Ev O A K S)) : envOps (l ++ l') = envOps l ++ envOps l' := by
  induction l with
  | nil => rfl
  | cons e l ih => cases e <;> simp [envOps, ih]

theorem envOuts_append (l l' : List (Train.Ev O A K S)) : envOuts (l ++ l') = envOuts l ++ envOuts l' := by
  induction l with
  | nil => rfl
  | cons e l ih => cases e <;> simp [envOuts, ih]

theorem env_length (l : List (Train.Ev O A K S)) : (envOuts l).length = (envOps l).length := by
  induction l with
  | nil => rfl
  | cons e l ih => cases e <;> simp [envOps, envOuts, ih]

theorem run_length (call : T → Wrappers.Op A → T × Wrappers.Out O K) (ops : List (Wrappers.Op A)) : ∀ t, (Wrappers.run call t ops).2.length = ops.length := by
  induction ops with
  | nil => intro t; rfl
  | cons op ops ih => intro t; simp [Wrappers.run, ih]

theorem run_append (call : T → Wrappers.Op A → T × Wrappers.Out O K) (ops ops' : List (Wrappers.Op A)) :
    ∀ t, (Wrappers.run call t (ops ++ ops')).2 = (Wrappers.run call t ops).2 ++ (Wrappers.run call (Wrappers.run call t ops).1 ops').2 := by
  induction ops with
  | nil => intro t; rfl
  | cons op ops ih => intro t; simp [Wrappers.run, ih]

/-- A part of a run used the same environment. -/
theorem Served.prefix {call : T → Wrappers.Op A → T × Wrappers.Out O K} {t : T} {pre post : List (Train.Ev O A K S)}
    (h : Served call t (pre ++ post)) : Served call t pre := by
  unfold Served at *
  rw [envOps_append, envOuts_append, run_append] at h
  exact (List.append_inj h (by rw [run_length, env_length])).1

theorem asIf_filter (g : Gym E O A K) (es : List (Train.Ev O A K S)) :
    ∀ s, ((asIf g s es).filter Train.Ev.isProtocol).getLast?.map (fun e => (Train.Ev.isStep e, Train.Ev.isStop e)) =
      (es.filter Train.Ev.isProtocol).getLast?.map (fun e => (Train.Ev.isStep e, Train.Ev.isStop e)) := by
  have key : ∀ s, ((asIf g s es).filter Train.Ev.isProtocol).map (fun e => (Train.Ev.isStep e, Train.Ev.isStop e)) =
      (es.filter Train.Ev.isProtocol).map (fun e => (Train.Ev.isStep e, Train.Ev.isStop e)) := by
    induction es with
    | nil => intro s; rfl
    | cons e es ih => intro s; cases e <;> first | exact congrArg (List.cons _) (ih _) | exact ih _
  intro s
  rw [← List.getLast?_map, ← List.getLast?_map, key]

/-- `known` depends on the record and the kind of the last call. -/
theorem known_congr (es es' : List (Train.Ev O A K S)) (f : List (EnvStep O A K) → List (EnvStep O A K)) (hd : ∀ l, f l.dropLast = (f l).dropLast)
    (hk : (es.filter Train.Ev.isProtocol).getLast?.map (fun e => (Train.Ev.isStep e, Train.Ev.isStop e)) =
      (es'.filter Train.Ev.isProtocol).getLast?.map (fun e => (Train.Ev.isStep e, Train.Ev.isStop e)))
    (hf : (record es').finished = (record es).finished.map f) (hc : (record es').current = f (record es).current) (h0 : f [] = []) :
    known es' = ((known es).1.map f, f (known es).2) := by
  unfold known
  rw [hf, hc]
  rcases h1 : (es.filter Train.Ev.isProtocol).getLast? with _ | e <;> rcases h2 : (es'.filter Train.Ev.isProtocol).getLast? with _ | e' <;> rw [h1, h2] at hk
  · simp at hk
  · simp at hk
  · simp only [Option.map_some, Option.some.injEq, Prod.mk.injEq] at hk
    cases e <;> cases e' <;> simp_all [Train.Ev.isStep, Train.Ev.isStop]

theorem cut_concat (n : Nat) (l : List (EnvStep O A K)) (x : EnvStep O A K) :
    cut n (l ++ [x]) = cut n l ++ [{ x with terminal := x.terminal || decide (n ≤ l.length + 1) }] := by
  simp [cut, List.mapIdx_concat]

theorem cut_dropLast (n : Nat) (l : List (EnvStep O A K)) : cut n l.dropLast = (cut n l).dropLast := by
  rcases List.eq_nil_or_concat l with rfl | ⟨l, x, rfl⟩
  · rfl
  · rw [List.concat_eq_append, cut_concat]; simp

/-- The record shows the environment inside `ContinuingTimeLimit`. -/
theorem record_timeLimit (g : Gym E O A K) (n : Nat) (es : List (Train.Ev O A K S)) : ∀ (c : Option Nat) (s : E) (w : Record O A K),
    Served (timeLimit g n) (c, s) es → es.foldl Record.watch w = (asIf g s es).foldl Record.watch w := by
  induction es with
  | nil => intros; rfl
  | cons e es ih =>
    intro c s w h
    cases e with
    | reset o =>
      simp only [Served, envOps, envOuts, Wrappers.run, timeLimit, List.cons.injEq, Wrappers.Out.obs.injEq] at h
      obtain ⟨rfl, h⟩ := h
      exact ih _ _ _ h
    | step a out =>
      cases c with
      | none => simp [Served, envOps, envOuts, Wrappers.run, timeLimit] at h
      | some c =>
        simp only [Served, envOps, envOuts, Wrappers.run, timeLimit, List.cons.injEq, Wrappers.Out.step.injEq] at h
        obtain ⟨rfl, h⟩ := h
        simp only [List.foldl_cons, asIf]
        rw [ih _ _ _ h]
        congr 1
        unfold limitOut
        split <;> rfl
    | _ => exact ih _ _ _ h

/-- The environment itself: nothing is changed. -/
theorem asIf_served (g : Gym E O A K) (es : List (Train.Ev O A K S)) : ∀ s, Served g.call s es → asIf g s es = es := by
  induction es with
  | nil => intros; rfl
  | cons e es ih =>
    intro s h
    cases e with
    | reset o =>
      simp only [Served, envOps, envOuts, Wrappers.run, Gym.call, List.cons.injEq, Wrappers.Out.obs.injEq] at h
      obtain ⟨rfl, h⟩ := h
      simp only [asIf, ih _ h]
    | step a out =>
      simp only [Served, envOps, envOuts, Wrappers.run, Gym.call, List.cons.injEq, Wrappers.Out.step.injEq] at h
      obtain ⟨rfl, h⟩ := h
      simp only [asIf, ih _ h]
    | _ => simp only [asIf, ih _ h]

/-- The record of a run in an environment limited by `make_timestep_limited`. -/
theorem record_stepLimited (g : Gym E O A K) (n : Nat) (es : List (Train.Ev O A K S)) : ∀ (c : Nat) (s : E) (w w' : Record O A K),
    Served (stepLimited g n) (c, s) es → w.finished = w'.finished.map (cut n) → w.current = cut n w'.current → w.obs = w'.obs →
    (w'.obs ≠ none → c = w'.current.length + 1) →
    (es.foldl Record.watch w).finished = ((asIf g s es).foldl Record.watch w').finished.map (cut n) ∧
      (es.foldl Record.watch w).current = cut n ((asIf g s es).foldl Record.watch w').current := by
  induction es with
  | nil => intro c s w w' _ h1 h2 _ _; exact ⟨h1, h2⟩
  | cons e es ih =>
    intro c s w w' h h1 h2 h3 h4
    cases e with
    | reset o =>
      simp only [Served, envOps, envOuts, Wrappers.run, stepLimited, List.cons.injEq, Wrappers.Out.obs.injEq] at h
      obtain ⟨rfl, h⟩ := h
      refine ih _ _ _ _ h ?_ rfl rfl (fun _ => rfl)
      simp only [Record.watch, h1, h2]
      have : (cut n w'.current).isEmpty = w'.current.isEmpty := by cases w'.current <;> simp [cut]
      rw [this]
      split <;> simp
    | step a out =>
      simp only [Served, envOps, envOuts, Wrappers.run, stepLimited, List.cons.injEq, Wrappers.Out.step.injEq] at h
      obtain ⟨rfl, h⟩ := h
      rcases ho : w'.obs with _ | o
      · refine ih _ _ _ _ h ?_ ?_ ?_ ?_ <;> simp [Record.watch, h1, h2, h3, ho]
      · have hc := h4 (by simp [ho])
        refine ih _ _ _ _ h ?_ ?_ ?_ ?_
        · simp [Record.watch, h1, h3, ho]
        · simp only [Record.watch, h3, ho, h2, cut_concat, hc, doneOut]
          split <;> rename_i hle <;> simp [hle]
        · simp only [Record.watch, h3, ho, doneOut]
          split <;> rfl
        · simp [Record.watch, ho, hc]
    | _ => exact ih _ _ _ _ h h1 h2 h3 h4

/-! ## How long episodes are -/

/-- How a run is limited to `n` steps per episode: by the argument `max_episode_len`, by
`ContinuingTimeLimit` or by `make_timestep_limited`. -/
def Limited (n : Nat) (c : Train.Cfg S) (g : Gym E O A K) (s : E) (evs : List (Train.Ev O A K S)) : Prop :=
  (c.maxEpisodeLen = some n ∧ Served g.call s evs) ∨ Served (timeLimit g n) (none, s) evs ∨ Served (stepLimited g n) (1, s) evs

/-- What is needed of an environment: a step that is at least the `n`-th since the last reset ends the episode. -/
inductive Stops (n : Nat) (maxLen : Option Nat) : Nat → List (Train.Ev O A K S) → Prop where
  | nil (c : Nat) : Stops n maxLen c []
  | reset (c : Nat) (o : O) (es) : Stops n maxLen 0 es → Stops n maxLen c (.reset o :: es)
  | step (c : Nat) (a : A) (out) (es) : (n = c + 1 → out.done = true ∨ out.needsReset = true ∨ maxLen = some n) → Stops n maxLen (c + 1) es → Stops n maxLen c (.step a out :: es)
  | skip (c : Nat) (e) (es) : e.isStep = false → (∀ o, e ≠ .reset o) → Stops n maxLen c es → Stops n maxLen c (e :: es)

theorem stops_of_plain (n : Nat) (es : List (Train.Ev O A K S)) : ∀ c, Stops n (some n) c es := by
  induction es with
  | nil => exact .nil
  | cons e es ih =>
    intro c
    cases e with
    | reset o => exact .reset _ _ _ (ih _)
    | step a out => exact .step _ _ _ _ (fun _ => .inr (.inr rfl)) (ih _)
    | _ => exact .skip _ _ _ rfl (by simp) (ih _)

theorem stops_of_timeLimit (g : Gym E O A K) (n : Nat) (ml : Option Nat) (es : List (Train.Ev O A K S)) : ∀ (m : Option Nat) (s : E) (c : Nat), (∀ x, m = some x → x = c) →
    Served (timeLimit g n) (m, s) es → Stops n ml c es := by
  induction es with
  | nil => intros; exact .nil _
  | cons e es ih =>
    intro m s c hm h
    cases e with
    | reset o =>
      simp only [Served, envOps, envOuts, Wrappers.run, timeLimit, List.cons.injEq] at h
      exact .reset _ _ _ (ih _ _ _ (by rintro x ⟨⟩; rfl) h.2)
    | step a out =>
      cases m with
      | none => simp [Served, envOps, envOuts, Wrappers.run, timeLimit] at h
      | some x =>
        obtain rfl := hm x rfl
        simp only [Served, envOps, envOuts, Wrappers.run, timeLimit, List.cons.injEq, Wrappers.Out.step.injEq] at h
        obtain ⟨rfl, h⟩ := h
        refine .step _ _ _ _ (fun hn => .inr (.inl ?_)) (ih _ _ _ (by rintro y ⟨⟩; rfl) h)
        simp [limitOut, hn]
    | _ => exact .skip _ _ _ rfl (by simp) (ih _ _ _ hm h)

theorem stops_of_stepLimited (g : Gym E O A K) (n : Nat) (ml : Option Nat) (es : List (Train.Ev O A K S)) : ∀ (s : E) (c : Nat),
    Served (stepLimited g n) (c + 1, s) es → Stops n ml c es := by
  induction es with
  | nil => intros; exact .nil _
  | cons e es ih =>
    intro s c h
    cases e with
    | reset o =>
      simp only [Served, envOps, envOuts, Wrappers.run, stepLimited, List.cons.injEq] at h
      exact .reset _ _ _ (ih _ _ h.2)
    | step a out =>
      simp only [Served, envOps, envOuts, Wrappers.run, stepLimited, List.cons.injEq, Wrappers.Out.step.injEq] at h
      obtain ⟨rfl, h⟩ := h
      refine .step _ _ _ _ (fun hn => .inl ?_) (ih _ _ h)
      simp [doneOut, hn]
    | _ => exact .skip _ _ _ rfl (by simp) (ih _ _ h)

theorem stops_filter {n : Nat} {ml : Option Nat} {c : Nat} {es : List (Train.Ev O A K S)} (h : Stops n ml c es) : Stops n ml c (es.filter Train.Ev.isProtocol) := by
  induction h with
  | nil c => exact .nil c
  | reset c o es _ ih => exact .reset _ _ _ ih
  | step c a out es h _ ih => exact .step _ _ _ _ h ih
  | skip c e es h1 h2 _ ih =>
    rw [List.filter_cons]
    split
    · exact .skip _ _ _ h1 h2 ih
    · exact ih

theorem Limited.stops {n : Nat} {c : Train.Cfg S} {g : Gym E O A K} {s : E} {evs : List (Train.Ev O A K S)} (h : Limited n c g s evs) :
    Stops n c.maxEpisodeLen 0 evs := by
  rcases h with ⟨h, -⟩ | h | h
  · rw [h]; exact stops_of_plain n evs 0
  · exact stops_of_timeLimit g n _ evs none s 0 (by simp) h
  · exact stops_of_stepLimited g n _ evs s 0 h

/-- The invariant: the length of the current episode. -/
def Len (n : Nat) (p : Phase O A K) (c : Nat) (w : Record O A K) : Prop :=
  (∀ ep ∈ w.finished, ep.length ≤ n) ∧
  match p with
  | .fresh => w = {} ∧ c = 0
  | .ready _ _ len _ => w.obs ≠ none ∧ w.current.length = len ∧ c = len ∧ len < n
  | .chosen _ len _ => w.obs ≠ none ∧ w.current.length = len ∧ c = len ∧ len < n
  | .ended .. => w.current.length ≤ n
  | .stopped _ => w.current.length ≤ n

theorem path_len [Zero K] {n : Nat} (hn : 0 < n) {steps offset : Nat} {ml : Option Nat} {p q : Phase O A K} {es : List (Train.Ev O A K S)} (h : Path steps offset ml p es q) :
    ∀ (c : Nat) (w : Record O A K), Stops n ml c es → Len n p c w → (∀ ep ∈ (es.foldl Record.watch w).finished, ep.length ≤ n) ∧ (es.foldl Record.watch w).current.length ≤ n := by
  induction h with
  | nil p =>
    intro c w _ hl
    obtain ⟨h1, h2⟩ := hl
    refine ⟨h1, ?_⟩
    cases p with
    | fresh => simp [h2.1]
    | ready => exact h2.2.1 ▸ h2.2.2.2.le
    | chosen => exact h2.2.1 ▸ h2.2.2.2.le
    | ended => exact h2
    | stopped => exact h2
  | @cons p q r e es hnx hp ih =>
    intro c w hs ⟨h1, h2⟩
    cases hnx with
    | first o =>
      obtain ⟨rfl, rfl⟩ := h2
      cases hs with
      | reset _ _ _ hs => exact ih _ _ hs ⟨by simp [Record.watch], by simp [Record.watch], rfl, rfl, hn⟩
      | skip _ _ _ _ h => exact absurd rfl (h o)
    | act o r len t a hlt =>
      cases hs with
      | skip _ _ _ _ _ hs => exact ih _ _ hs ⟨h1, h2⟩
    | stepOn a len t out hne =>
      obtain ⟨ho, hl, rfl, hlt⟩ := h2
      cases hs with
      | step _ _ _ _ hst hs =>
        obtain ⟨o, ho⟩ := Option.ne_none_iff_exists'.1 ho
        refine ih _ _ hs ⟨by simpa [Record.watch, ho] using h1, by simp [Record.watch, ho], by simp [Record.watch, ho, hl], rfl, ?_⟩
        refine lt_of_le_of_ne hlt fun hEq => hne ?_
        unfold Train.Ends
        rcases hst hEq.symm with h | h | h
        · exact .inl h
        · exact .inr (.inl h)
        · exact .inr (.inr (.inl (by rw [h, ← hEq])))
      | skip _ _ _ h => simp [Train.Ev.isStep] at h
    | stepEnd a len t out he =>
      obtain ⟨ho, hl, rfl, hlt⟩ := h2
      cases hs with
      | step _ _ _ _ hst hs =>
        obtain ⟨o, ho⟩ := Option.ne_none_iff_exists'.1 ho
        exact ih _ _ hs ⟨by simpa [Record.watch, ho] using h1, by simp only [Record.watch, ho, List.length_append, List.length_singleton, hl]; omega⟩
      | skip _ _ _ h => simp [Train.Ev.isStep] at h
    | stop out t =>
      cases hs with
      | skip _ _ _ _ _ hs => exact ih _ _ hs ⟨h1, h2⟩
    | again t o hlt =>
      cases hs with
      | reset _ _ _ hs =>
        refine ih _ _ hs ⟨?_, by simp [Record.watch], rfl, rfl, hn⟩
        intro ep hep
        simp only [Record.watch] at hep
        split at hep
        · exact h1 ep hep
        · rcases List.mem_append.1 hep with hep | hep
          · exact h1 ep hep
          · rw [List.mem_singleton.1 hep]; exact h2
      | skip _ _ _ _ h => exact absurd rfl (h o)

/-- **C169**: with either limit no episode is longer than `n` steps. -/
theorem C169_length [Zero K] [LinearOrder S] (n : Nat) (hn : 0 < n) (c : Train.Cfg S) (w : Train.World O A K S X) (g : Gym E O A K) (s : E)
    (h : Limited n c g s (Train.run c w).1) : ∀ ep ∈ episodes (Train.run c w).1, ep.length ≤ n := by
  obtain ⟨q, hp, -⟩ := Train.C21_protocol c w
  obtain ⟨h1, h2⟩ := path_len hn hp 0 {} (stops_filter h.stops) ⟨by simp, rfl, rfl⟩
  rw [TrainDQN.record_filter] at h1 h2
  intro ep hep
  rcases List.mem_append.1 hep with hep | hep
  · exact h1 ep hep
  · rw [List.mem_singleton.1 hep]; exact h2

/-- **C169**: with `max_episode_len` or `ContinuingTimeLimit`, at every moment of the run the replay buffer holds
what happened in the environment itself, with the environment's own terminal flags. -/
theorem C169_own_history [Zero K] [LinearOrder S] (n : Nat) (c : Train.Cfg S) (hT : c.agentHasT = true) (w : Train.World O A K S X) (g : Gym E O A K) (s : E)
    (h : (c.maxEpisodeLen = some n ∧ Served g.call s (Train.run c w).1) ∨ Served (timeLimit g n) (none, s) (Train.run c w).1)
    (d : DQN.Cfg θ O H) (hd : 0 < d.targetInterval) (cap : Option Nat) (k : Nat) (hk : 0 < k) (ps : Nat → θ) (p0 : θ)
    (pre post : List (Train.Ev O A K S)) (hrun : (Train.run c w).1 = pre ++ post) :
    ∃ s' ev, drive d ps 0 (DQN.init p0) pre = .ok (s', ev) ∧ stored (buffer cap k ev) = BoundedList.newest cap (entriesOf k (known (asIf g s pre))) := by
  obtain ⟨s', ev, h1, h2⟩ := TrainDQN.C121_buffer c hT w d hd cap k hk ps p0 pre post hrun
  refine ⟨s', ev, h1, ?_⟩
  rw [h2]
  rw [hrun] at h
  rcases h with ⟨-, h⟩ | h
  · rw [asIf_served g pre s h.prefix]
  · have hr : record pre = record (asIf g s pre) := record_timeLimit g n pre none s {} h.prefix
    rw [known_congr (asIf g s pre) pre id (fun _ => rfl) (asIf_filter g pre s) (by rw [hr]; simp) (by rw [hr]; rfl) rfl]
    simp

/-- **C169**: `make_timestep_limited` adds terminal flags of its own: those of the `n`-th steps. -/
theorem C169_limited [Zero K] [LinearOrder S] (n : Nat) (c : Train.Cfg S) (hT : c.agentHasT = true) (w : Train.World O A K S X) (g : Gym E O A K) (s : E)
    (h : Served (stepLimited g n) (1, s) (Train.run c w).1)
    (d : DQN.Cfg θ O H) (hd : 0 < d.targetInterval) (cap : Option Nat) (k : Nat) (hk : 0 < k) (ps : Nat → θ) (p0 : θ)
    (pre post : List (Train.Ev O A K S)) (hrun : (Train.run c w).1 = pre ++ post) :
    ∃ s' ev, drive d ps 0 (DQN.init p0) pre = .ok (s', ev) ∧
      stored (buffer cap k ev) = BoundedList.newest cap (entriesOf k ((known (asIf g s pre)).1.map (cut n), cut n (known (asIf g s pre)).2)) := by
  obtain ⟨s', ev, h1, h2⟩ := TrainDQN.C121_buffer c hT w d hd cap k hk ps p0 pre post hrun
  refine ⟨s', ev, h1, ?_⟩
  rw [hrun] at h
  obtain ⟨h3, h4⟩ := record_stepLimited g n pre 1 s {} {} h.prefix rfl rfl rfl (by simp)
  rw [h2, known_congr (asIf g s pre) pre (cut n) (cut_dropLast n) (asIf_filter g pre s) h3 h4 rfl]

/-! ## Episodes of an environment that never ends an episode -/

/-- A step ends the episode only if it is at least the `n`-th since the last reset. -/
inductive Only (n : Nat) : Nat → List (Train.Ev O A K S) → Prop where
  | nil (c : Nat) : Only n c []
  | reset (c : Nat) (o : O) (es) : Only n 0 es → Only n c (.reset o :: es)
  | step (c : Nat) (a : A) (out) (es) : (out.done = true ∨ out.needsReset = true → n ≤ c + 1) → Only n (c + 1) es → Only n c (.step a out :: es)
  | skip (c : Nat) (e) (es) : e.isStep = false → (∀ o, e ≠ .reset o) → Only n c es → Only n c (e :: es)

theorem only_filter {n c : Nat} {es : List (Train.Ev O A K S)} (h : Only n c es) : Only n c (es.filter Train.Ev.isProtocol) := by
  induction h with
  | nil c => exact .nil c
  | reset c o es _ ih => exact .reset _ _ _ ih
  | step c a out es h _ ih => exact .step _ _ _ _ h ih
  | skip c e es h1 h2 _ ih =>
    rw [List.filter_cons]
    split
    · exact .skip _ _ _ h1 h2 ih
    · exact ih

/-- The environment never ends an episode. -/
def Endless (g : Gym E O A K) : Prop := ∀ s a, (g.step s a).2.done = false ∧ (g.step s a).2.needsReset = false

theorem only_of_timeLimit (g : Gym E O A K) (hg : Endless g) (n : Nat) (es : List (Train.Ev O A K S)) : ∀ (m : Option Nat) (s : E) (c : Nat), (∀ x, m = some x → x = c) →
    Served (timeLimit g n) (m, s) es → Only n c es := by
  induction es with
  | nil => intros; exact .nil _
  | cons e es ih =>
    intro m s c hm h
    cases e with
    | reset o =>
      simp only [Served, envOps, envOuts, Wrappers.run, timeLimit, List.cons.injEq] at h
      exact .reset _ _ _ (ih _ _ _ (by rintro x ⟨⟩; rfl) h.2)
    | step a out =>
      cases m with
      | none => simp [Served, envOps, envOuts, Wrappers.run, timeLimit] at h
      | some x =>
        obtain rfl := hm x rfl
        simp only [Served, envOps, envOuts, Wrappers.run, timeLimit, List.cons.injEq, Wrappers.Out.step.injEq] at h
        obtain ⟨rfl, h⟩ := h
        refine .step _ _ _ _ (fun hd => ?_) (ih _ _ _ (by rintro y ⟨⟩; rfl) h)
        by_contra hc
        simp [limitOut, hc, hg s a] at hd
    | _ => exact .skip _ _ _ rfl (by simp) (ih _ _ _ hm h)

theorem only_of_stepLimited (g : Gym E O A K) (hg : Endless g) (n : Nat) (es : List (Train.Ev O A K S)) : ∀ (s : E) (c : Nat),
    Served (stepLimited g n) (c + 1, s) es → Only n c es := by
  induction es with
  | nil => intros; exact .nil _
  | cons e es ih =>
    intro s c h
    cases e with
    | reset o =>
      simp only [Served, envOps, envOuts, Wrappers.run, stepLimited, List.cons.injEq] at h
      exact .reset _ _ _ (ih _ _ h.2)
    | step a out =>
      simp only [Served, envOps, envOuts, Wrappers.run, stepLimited, List.cons.injEq, Wrappers.Out.step.injEq] at h
      obtain ⟨rfl, h⟩ := h
      refine .step _ _ _ _ (fun hd => ?_) (ih _ _ h)
      by_contra hc
      simp [doneOut, hc, hg s a] at hd
    | _ => exact .skip _ _ _ rfl (by simp) (ih _ _ h)

theorem only_of_plain (g : Gym E O A K) (hg : Endless g) (n : Nat) (es : List (Train.Ev O A K S)) : ∀ (s : E) (c : Nat), Served g.call s es → Only n c es := by
  induction es with
  | nil => intros; exact .nil _
  | cons e es ih =>
    intro s c h
    cases e with
    | reset o =>
      simp only [Served, envOps, envOuts, Wrappers.run, Gym.call, List.cons.injEq] at h
      exact .reset _ _ _ (ih _ _ h.2)
    | step a out =>
      simp only [Served, envOps, envOuts, Wrappers.run, Gym.call, List.cons.injEq, Wrappers.Out.step.injEq] at h
      obtain ⟨rfl, h⟩ := h
      refine .step _ _ _ _ (fun hd => ?_) (ih _ _ h)
      simp [hg s a] at hd
    | _ => exact .skip _ _ _ rfl (by simp) (ih _ _ h)

/-- The invariant: finished episodes have `n` steps. -/
def Full (n steps : Nat) (p : Phase O A K) (c : Nat) (w : Record O A K) : Prop :=
  (∀ ep ∈ w.finished, ep.length = n) ∧
  match p with
  | .fresh => w = {} ∧ c = 0
  | .ready _ _ len _ => w.obs ≠ none ∧ w.current.length = len ∧ c = len ∧ len < n
  | .chosen _ len _ => w.obs ≠ none ∧ w.current.length = len ∧ c = len ∧ len < n
  | .ended _ t => w.current.length = n ∨ t = steps
  | .stopped t => w.current.length = n ∨ t = steps

theorem path_full [Zero K] {n : Nat} (hn : 0 < n) {steps offset : Nat} {ml : Option Nat} (hml : ∀ x, ml = some x → x = n) {p q : Phase O A K} {es : List (Train.Ev O A K S)}
    (h : Path steps offset ml p es q) :
    ∀ (c : Nat) (w : Record O A K), Stops n ml c es → Only n c es → Full n steps p c w → ∀ ep ∈ (es.foldl Record.watch w).finished, ep.length = n := by
  induction h with
  | nil p => intro c w _ _ hl; exact hl.1
  | @cons p q r e es hnx hp ih =>
    intro c w hs ho' ⟨h1, h2⟩
    cases hnx with
    | first o =>
      obtain ⟨rfl, rfl⟩ := h2
      cases hs with
      | reset _ _ _ hs =>
        cases ho' with
        | reset _ _ _ ho' => exact ih _ _ hs ho' ⟨by simp [Record.watch], by simp [Record.watch], rfl, rfl, hn⟩
        | skip _ _ _ _ h => exact absurd rfl (h o)
      | skip _ _ _ _ h => exact absurd rfl (h o)
    | act o r len t a hlt =>
      cases hs with
      | skip _ _ _ _ _ hs => cases ho' with | skip _ _ _ _ _ ho' => exact ih _ _ hs ho' ⟨h1, h2⟩
    | stepOn a len t out hne =>
      obtain ⟨ho, hl, rfl, hlt⟩ := h2
      cases hs with
      | step _ _ _ _ hst hs =>
        cases ho' with
        | step _ _ _ _ hon ho' =>
          obtain ⟨o, ho⟩ := Option.ne_none_iff_exists'.1 ho
          refine ih _ _ hs ho' ⟨by simpa [Record.watch, ho] using h1, by simp [Record.watch, ho], by simp [Record.watch, ho, hl], rfl, ?_⟩
          refine lt_of_le_of_ne hlt fun hEq => hne ?_
          unfold Train.Ends
          rcases hst hEq.symm with h | h | h
          · exact .inl h
          · exact .inr (.inl h)
          · exact .inr (.inr (.inl (by rw [h, ← hEq])))
        | skip _ _ _ h => simp [Train.Ev.isStep] at h
      | skip _ _ _ h => simp [Train.Ev.isStep] at h
    | stepEnd a len t out he =>
      obtain ⟨ho, hl, rfl, hlt⟩ := h2
      cases hs with
      | step _ _ _ _ hst hs =>
        cases ho' with
        | step _ _ _ _ hon ho' =>
          obtain ⟨o, ho⟩ := Option.ne_none_iff_exists'.1 ho
          refine ih _ _ hs ho' ⟨by simpa [Record.watch, ho] using h1, ?_⟩
          simp only [Record.watch, ho, List.length_append, List.length_singleton, hl]
          rcases he with he | he | he | he
          · have := hon (.inl he); left; omega
          · have := hon (.inr he); left; omega
          · left; exact hml _ he
          · right; exact he
        | skip _ _ _ h => simp [Train.Ev.isStep] at h
      | skip _ _ _ h => simp [Train.Ev.isStep] at h
    | stop out t =>
      cases hs with
      | skip _ _ _ _ _ hs => cases ho' with | skip _ _ _ _ _ ho' => exact ih _ _ hs ho' ⟨h1, h2⟩
    | again t o hlt =>
      cases hs with
      | reset _ _ _ hs =>
        cases ho' with
        | reset _ _ _ ho' =>
          refine ih _ _ hs ho' ⟨?_, by simp [Record.watch], rfl, rfl, hn⟩
          intro ep hep
          simp only [Record.watch] at hep
          split at hep
          · exact h1 ep hep
          · rcases List.mem_append.1 hep with hep | hep
            · exact h1 ep hep
            · rw [List.mem_singleton.1 hep]
              exact h2.resolve_right hlt.ne
        | skip _ _ _ _ h => exact absurd rfl (h o)
      | skip _ _ _ _ h => exact absurd rfl (h o)

theorem Limited.only {n : Nat} {c : Train.Cfg S} {g : Gym E O A K} (hg : Endless g) {s : E} {evs : List (Train.Ev O A K S)} (h : Limited n c g s evs) : Only n 0 evs := by
  rcases h with ⟨-, h⟩ | h | h
  · exact only_of_plain g hg n evs s 0 h
  · exact only_of_timeLimit g hg n evs none s 0 (by simp) h
  · exact only_of_stepLimited g hg n evs s 0 h

/-- **C169**: in an environment that never ends an episode by itself, every episode that was followed by
another has exactly `n` steps. -/
theorem C169_full [Zero K] [LinearOrder S] (n : Nat) (hn : 0 < n) (c : Train.Cfg S) (hml : ∀ x, c.maxEpisodeLen = some x → x = n) (w : Train.World O A K S X) (g : Gym E O A K)
    (hg : Endless g) (s : E) (h : Limited n c g s (Train.run c w).1) : ∀ ep ∈ (record (Train.run c w).1).finished, ep.length = n := by
  obtain ⟨q, hp, -⟩ := Train.C21_protocol c w
  have := path_full hn hml hp 0 {} (stops_filter h.stops) (only_filter (h.only hg)) ⟨by simp, rfl, rfl⟩
  rwa [TrainDQN.record_filter] at this

/-! ## What is learned with `make_timestep_limited` -/

/-- One state, one action, reward 1, and no end. -/
def treadmill : Gym Unit Unit Unit ℝ := ⟨fun _ => ((), ()), fun _ _ => ((), ⟨(), 1, false, false⟩)⟩

/-- The same as a Markov decision process. -/
def treadmillEnv : MDP.Env Unit ℝ := ⟨1, fun _ _ => [(1, ⟨1, (), false⟩)]⟩

/-- The steps in the entries of a buffer, as `DQN` on a table sees them. -/
def visits (entries : List (List (EnvStep Unit Unit ℝ))) : List (TabularDQN.Visit Unit) :=
  entries.flatten.map fun x => ⟨x.state, 0, ⟨x.reward, x.nextState, x.terminal⟩⟩

theorem treadmill_steps (es : List (Train.Ev Unit Unit ℝ S)) : ∀ w : Record Unit Unit ℝ,
    (∀ ep ∈ w.current :: w.finished, ∀ x ∈ ep, x = ⟨(), (), 1, (), false⟩) →
    ∀ ep ∈ ((asIf treadmill () es).foldl Record.watch w).current :: ((asIf treadmill () es).foldl Record.watch w).finished, ∀ x ∈ ep, x = ⟨(), (), 1, (), false⟩ := by
  induction es with
  | nil => intro w h; exact h
  | cons e es ih =>
    intro w h
    cases e with
    | reset o =>
      refine ih _ ?_
      simp only [Record.watch]
      intro ep hep x hx
      rcases List.mem_cons.1 hep with rfl | hep
      · simp at hx
      · split at hep
        · exact h ep (List.mem_cons_of_mem _ hep) x hx
        · rcases List.mem_append.1 hep with hep | hep
          · exact h ep (List.mem_cons_of_mem _ hep) x hx
          · rw [List.mem_singleton.1 hep] at hx; exact h _ List.mem_cons_self x hx
    | step a out =>
      refine ih _ ?_
      rcases ho : w.obs with _ | o
      · simpa [Record.watch, ho] using h
      · simp only [Record.watch, ho]
        intro ep hep x hx
        rcases List.mem_cons.1 hep with rfl | hep
        · rcases List.mem_append.1 hx with hx | hx
          · exact h _ List.mem_cons_self x hx
          · rw [List.mem_singleton.1 hx]; rfl
        · exact h ep (List.mem_cons_of_mem _ hep) x hx
    | _ => exact ih _ h

/-- The visits of an episode of `n` steps. -/
theorem cut_visits (n : Nat) (ep : List (EnvStep Unit Unit ℝ)) (h : ∀ x ∈ ep, x = ⟨(), (), 1, (), false⟩) (hl : ep.length ≤ n) (f : EnvStep Unit Unit ℝ → ℝ) :
    ((cut n ep).map f).sum = if ep.length = n ∧ 0 < n then (n - 1 : ℝ) * f ⟨(), (), 1, (), false⟩ + f ⟨(), (), 1, (), true⟩ else ep.length * f ⟨(), (), 1, (), false⟩ := by
  induction ep using List.reverseRecOn with
  | nil =>
    have : ¬ (0 = n ∧ 0 < n) := by omega
    simp [cut, this]
  | append_singleton l x ih =>
    have hx := h x (by simp)
    subst hx
    simp only [List.length_append, List.length_singleton] at hl ⊢
    have h2 : ¬ (l.length = n ∧ 0 < n) := by omega
    have ih := ih (fun x hx => h x (by simp [hx])) (by omega)
    rw [if_neg h2] at ih
    rw [cut_concat, List.map_append, List.sum_append, ih]
    by_cases h3 : l.length + 1 = n
    · have h4 : (n : ℝ) = l.length + 1 := by rw [← h3]; push_cast; rfl
      rw [if_pos ⟨h3, by omega⟩, h4]
      simp [h3.ge]
    · have h4 : ¬ n ≤ l.length + 1 := by omega
      rw [if_neg (fun h => h3 h.1)]
      simp [h4]
      ring

theorem slices_one (l : List T) : (Episodes.slices 1 l).flatten = l := by
  induction l with
  | nil => rfl
  | cons x l ih =>
    have ih : (List.map (fun i => List.take 1 (List.drop i l)) (List.range l.length)).flatten = l := ih
    simpa [Episodes.slices, Episodes.slice, List.range_succ_eq_map, List.map_map, Function.comp_def] using ih

/-- Sums over all steps of a run on the treadmill of `m * n` steps. -/
theorem run_sum [LinearOrder S] (n m : Nat) (hn : 0 < n) (c : Train.Cfg S) (hT : c.agentHasT = true) (hml : c.maxEpisodeLen = none)
    (hsteps : c.steps - c.stepOffset = m * n) (w : Train.World Unit Unit ℝ S X) (hok : (Train.run c w).2 = .ok ()) (hs : ¬ Train.Succeeded c (Train.run c w).1)
    (h : Served (stepLimited treadmill n) (1, ()) (Train.run c w).1) (f : EnvStep Unit Unit ℝ → ℝ) :
    ((episodes (Train.run c w).1).flatten.map f).sum = m * ((n - 1 : ℝ) * f ⟨(), (), 1, (), false⟩ + f ⟨(), (), 1, (), true⟩) := by
  have hg : Endless treadmill := fun _ _ => ⟨rfl, rfl⟩
  have hL : Limited n c treadmill () (Train.run c w).1 := .inr (.inr h)
  have hfull := C169_full n hn c (by simp [hml]) w treadmill hg () hL
  have hlen := C169_length n hn c w treadmill () hL
  have hsum := TrainDQN.run_steps c hT w (Train.run c w).1 [] (by simp)
  rw [((Train.C21_step_count c w).2 hok).resolve_right hs, hsteps] at hsum
  obtain ⟨h1, h2⟩ := record_stepLimited treadmill n (Train.run c w).1 1 () {} {} h rfl rfl rfl (by simp)
  have hraw := treadmill_steps (Train.run c w).1 {} (by simp)
  have e1 : (record (Train.run c w).1).finished = _ := h1
  have e2 : (record (Train.run c w).1).current = _ := h2
  simp only [episodes, TrainDQN.Record.steps] at hlen hsum ⊢
  rw [e1] at hfull hlen hsum
  rw [e2] at hlen hsum
  rw [e1, e2]
  generalize List.foldl Record.watch {} (asIf treadmill () (Train.run c w).1) = R at *
  have cl : ∀ ep : List (EnvStep Unit Unit ℝ), (cut n ep).length = ep.length := fun ep => by simp [cut]
  have hF : ∀ F : List (List (EnvStep Unit Unit ℝ)), (∀ ep ∈ F, ep ∈ R.finished) →
      (F.map (cut n)).flatten.length = F.length * n ∧
      ((F.map (cut n)).flatten.map f).sum = F.length * ((n - 1 : ℝ) * f ⟨(), (), 1, (), false⟩ + f ⟨(), (), 1, (), true⟩) := by
    intro F hF
    induction F with
    | nil => simp
    | cons ep F ih =>
      obtain ⟨i1, i2⟩ := ih fun e he => hF e (List.mem_cons_of_mem _ he)
      have hep := hF ep List.mem_cons_self
      have hle : ep.length = n := by rw [← cl]; exact hfull _ (List.mem_map_of_mem hep)
      refine ⟨?_, ?_⟩
      · rw [List.map_cons, List.flatten_cons, List.length_append, i1, cl, hle, List.length_cons]; ring
      · rw [List.map_cons, List.flatten_cons, List.map_append, List.sum_append, i2, cut_visits n ep (hraw ep (List.mem_cons_of_mem _ hep)) hle.le f, if_pos ⟨hle, hn⟩, List.length_cons]
        push_cast
        ring
  obtain ⟨i1, i2⟩ := hF R.finished fun _ h => h
  have hc : R.current.length ≤ n := by rw [← cl]; exact hlen _ (by simp)
  rw [i1, cl] at hsum
  rw [List.flatten_append, List.map_append, List.sum_append, i2, List.flatten_singleton, cut_visits n _ (hraw _ List.mem_cons_self) hc f]
  rcases Nat.lt_or_ge R.current.length n with hlt | hge
  · have h0 : R.current.length = 0 := by
      have : (R.finished.length * n + R.current.length) % n = (m * n) % n := by rw [hsum]
      rwa [Nat.mul_mod_left, Nat.mul_add_mod_self_right, Nat.mod_eq_of_lt hlt] at this
    have h3 : R.finished.length = m := Nat.eq_of_mul_eq_mul_right hn (by omega)
    rw [if_neg (by omega), h0, h3]
    simp
  · have h0 : R.current.length = n := le_antisymm hc hge
    have h3 : R.finished.length + 1 = m := Nat.eq_of_mul_eq_mul_right hn (by rw [Nat.add_mul]; omega)
    rw [if_pos ⟨h0, hn⟩, ← h3]
    push_cast
    ring

/-- **C169, violated with `make_timestep_limited`**: on the treadmill the buffer shows an environment whose
values are those of a game that ends with probability `1 / n` in each step, and `DQN` on a table, trained
with the whole buffer, learns `1 / (1 - γ (1 - 1 / n))`, not the value `1 / (1 - γ)`. -/
theorem C169_violated_limited [LinearOrder S] (n m : Nat) (hn : 0 < n) (hm : 0 < m) (c : Train.Cfg S) (hT : c.agentHasT = true) (hml : c.maxEpisodeLen = none)
    (hsteps : c.steps - c.stepOffset = m * n) (w : Train.World Unit Unit ℝ S X) (hok : (Train.run c w).2 = .ok ()) (hs : ¬ Train.Succeeded c (Train.run c w).1)
    (h : Served (stepLimited treadmill n) (1, ()) (Train.run c w).1) (d : DQN.Cfg θ Unit H) (hd : 0 < d.targetInterval) (ps : Nat → θ) (p0 : θ) :
    ∃ s' ev, drive d ps 0 (DQN.init p0) (Train.run c w).1 = .ok (s', ev) ∧
      ∀ gamma : ℝ, 0 ≤ gamma → gamma < 1 →
        (∀ V : Unit → ℝ, V () = MDP.backup treadmillEnv gamma V () 0 ↔ V () = 1 / (1 - gamma)) ∧
        ∀ (lr : ℝ) (_ : 0 < lr) (mean : Bool) (Q T : ℕ → Unit → List ℝ) (batch : ℕ → List (TabularDQN.Visit Unit))
          (_ : ∀ k, (batch k).Perm (visits (stored (buffer none 1 ev)))) (tau : ℕ → ℝ)
          (_ : TabularDQN.Trains (FixedReplay.shown 1 (visits (stored (buffer none 1 ev)))) gamma lr false mean Q T batch (fun _ => none) tau)
          (_ : ∃ η > 0, ∃ᶠ k in Filter.atTop, η ≤ tau k),
          Filter.Tendsto (fun k => ActionValue.evaluate (Q k ()) 0) Filter.atTop (nhds (1 / (1 - gamma * (1 - 1 / n)))) := by
  obtain ⟨s', ev, h1, h2⟩ := TrainDQN.C121_finished c hT w hok d hd none 1 one_pos ps p0
  refine ⟨s', ev, h1, fun gamma hg hg1 => ⟨fun V => ?_, ?_⟩⟩
  · simp only [MDP.backup, MDP.expect, treadmillEnv, List.map_cons, List.map_nil, List.sum_cons, List.sum_nil]
    rw [eq_div_iff (by linarith)]
    simp
    constructor <;> intro h <;> linarith
  · intro lr hlr mean Q T batch hp tau htr hsync
    have hb : (stored (buffer none 1 ev)).flatten = (episodes (Train.run c w).1).flatten := by
      rw [h2]
      have : ∀ l : List (List (EnvStep Unit Unit ℝ)), (l.flatMap (Episodes.slices 1)).flatten = l.flatten := by
        intro l
        induction l with
        | nil => rfl
        | cons a l ih => rw [List.flatMap_cons, List.flatten_append, ih, slices_one, List.flatten_cons]
      exact this _
    have hsum := run_sum n m hn c hT hml hsteps w hok hs h
    rw [← hb] at hsum
    have hnn : (n : ℝ) ≠ 0 := by exact_mod_cast hn.ne'
    have hmm : (m : ℝ) ≠ 0 := by exact_mod_cast hm.ne'
    have hN : ((stored (buffer none 1 ev)).flatten.length : ℝ) = m * n := by
      have := hsum fun _ => 1
      simp only [List.map_const', List.sum_replicate, nsmul_eq_mul, mul_one] at this
      rw [this]; ring
    have hst : ∀ s (_ : ℕ), FixedReplay.stepsOf (visits (stored (buffer none 1 ev))) s 0 = visits (stored (buffer none 1 ev)) := by
      intro s a
      refine List.filter_eq_self.2 fun v hv => ?_
      simp only [visits, List.mem_map] at hv
      obtain ⟨x, -, rfl⟩ := hv
      simp
    have hback : ∀ V : Unit → ℝ, MDP.backup (FixedReplay.shown 1 (visits (stored (buffer none 1 ev)))) gamma V () 0 = 1 + gamma * (1 - 1 / n) * V () := by
      intro V
      have := hsum fun x => 1 / (m * n : ℝ) * (x.reward + if x.terminal then 0 else gamma * V x.nextState)
      simp only [MDP.backup, MDP.expect, FixedReplay.shown, (hst () 0)]
      rw [List.map_map]
      simp only [visits, List.length_map, hN, List.map_map, Function.comp_def]
      rw [this]
      simp
      field_simp
      ring
    have hne : visits (stored (buffer none 1 ev)) ≠ [] := by
      intro h0
      have : (visits (stored (buffer none 1 ev))).length = 0 := by rw [h0]; rfl
      rw [visits, List.length_map] at this
      rw [this] at hN
      exact mul_ne_zero hmm hnn (by simpa using hN.symm)
    obtain ⟨v, hv⟩ := List.exists_mem_of_ne_nil _ hne
    have hv0 : v.action = 0 := by
      simp only [visits, List.mem_map] at hv
      obtain ⟨x, -, rfl⟩ := hv
      rfl
    obtain ⟨B, Qs, q1, -, q3, q4⟩ := FixedReplay.C156_unclipped 1 one_pos _ (fun s a ha => ⟨v, hv, rfl, by omega⟩) gamma lr hg hg1 hlr mean Q T batch hp tau htr hsync
    have h5 := q3 () 0 one_pos
    have h6 : ActionValue.maxQ (Qs ()) = ActionValue.evaluate (Qs ()) 0 := by
      obtain ⟨x, hx⟩ := List.length_eq_one_iff.1 (q1.2 ()).1
      rw [hx]; rfl
    rw [hback, h6] at h5
    have hpos : 0 < 1 - gamma * (1 - 1 / n) := by
      have h1n : (1 : ℝ) / n ≤ 1 := by rw [div_le_one (by positivity)]; exact_mod_cast hn
      have h0n : (0 : ℝ) < 1 / n := by positivity
      nlinarith
    have h7 : ActionValue.evaluate (Qs ()) 0 = 1 / (1 - gamma * (1 - 1 / n)) := by
      rw [eq_div_iff hpos.ne']; linarith
    rw [← h7]
    exact (q4 ()).1 0 one_pos

/-! ## The hypotheses can be met -/

/-- Two episodes of two steps each on the treadmill. -/
def exWorld : Train.World Unit Unit ℝ Int String where
  reset := .ok ()
  iter i :=
    { act := .ok (), step := .ok ⟨(), 1, i % 2 == 1, false⟩, hook := fun _ => .ok (), stop := .ok (), evaluate := .ok 0
      reset := .ok (), checkpoint := .ok () }
  saveExcept := .ok ()
  saveFinish := .ok ()

/-- Four steps. -/
def exTrain : Train.Cfg Int := ⟨4, 0, none, none, false, none, 0, true⟩

example : (Train.run exTrain exWorld).2 = .ok () ∧ ¬ Train.Succeeded exTrain (Train.run exTrain exWorld).1 ∧
    Served (stepLimited treadmill 2) (1, ()) (Train.run exTrain exWorld).1 ∧ Limited 2 exTrain treadmill () (Train.run exTrain exWorld).1 := by
  have h : Served (stepLimited treadmill 2) (1, ()) (Train.run exTrain exWorld).1 := rfl
  refine ⟨rfl, ?_, h, .inr (.inr h)⟩
  rintro ⟨_, _, _, _, -, h, -⟩
  cases h

/-- The same with `ContinuingTimeLimit`. -/
def exWorld' : Train.World Unit Unit ℝ Int String where
  reset := .ok ()
  iter i :=
    { act := .ok (), step := .ok ⟨(), 1, false, i % 2 == 1⟩, hook := fun _ => .ok (), stop := .ok (), evaluate := .ok 0
      reset := .ok (), checkpoint := .ok () }
  saveExcept := .ok ()
  saveFinish := .ok ()

example : (Train.run exTrain exWorld').2 = .ok () ∧ Served (timeLimit treadmill 2) (none, ()) (Train.run exTrain exWorld').1 := ⟨rfl, rfl⟩

/-! ## No terminal flags of their own -/

theorem endless_steps (g : Gym E O A K) (hg : Endless g) (es : List (Train.Ev O A K S)) : ∀ (s : E) (w : Record O A K),
    (∀ ep ∈ w.current :: w.finished, ∀ x ∈ ep, x.terminal = false) →
    ∀ ep ∈ ((asIf g s es).foldl Record.watch w).current :: ((asIf g s es).foldl Record.watch w).finished, ∀ x ∈ ep, x.terminal = false := by
  induction es with
  | nil => intro s w h; exact h
  | cons e es ih =>
    intro s w h
    cases e with
    | reset o =>
      refine ih _ _ ?_
      simp only [Record.watch]
      intro ep hep x hx
      rcases List.mem_cons.1 hep with rfl | hep
      · simp at hx
      · split at hep
        · exact h ep (List.mem_cons_of_mem _ hep) x hx
        · rcases List.mem_append.1 hep with hep | hep
          · exact h ep (List.mem_cons_of_mem _ hep) x hx
          · rw [List.mem_singleton.1 hep] at hx; exact h _ List.mem_cons_self x hx
    | step a out =>
      refine ih _ _ ?_
      rcases ho : w.obs with _ | o
      · simpa [Record.watch, ho] using h
      · simp only [Record.watch, ho]
        intro ep hep x hx
        rcases List.mem_cons.1 hep with rfl | hep
        · rcases List.mem_append.1 hx with hx | hx
          · exact h _ List.mem_cons_self x hx
          · rw [List.mem_singleton.1 hx]; exact (hg s a).1
        · exact h ep (List.mem_cons_of_mem _ hep) x hx
    | _ => exact ih _ _ h

theorem mem_newest (cap : Option Nat) (l : List T) (x : T) (h : x ∈ BoundedList.newest cap l) : x ∈ l := by
  unfold BoundedList.newest at h
  split at h
  · exact h
  · exact List.mem_of_mem_drop h

theorem mem_entries (k : Nat) (p : List (List (EnvStep O A K)) × List (EnvStep O A K)) (e : List (EnvStep O A K)) (he : e ∈ entriesOf k p) (x : EnvStep O A K) (hx : x ∈ e) :
    ∃ ep ∈ p.2 :: p.1, x ∈ ep := by
  rcases List.mem_append.1 he with he | he
  · obtain ⟨ep, hep, he⟩ := List.mem_flatMap.1 he
    obtain ⟨i, -, rfl⟩ := List.mem_map.1 he
    exact ⟨ep, List.mem_cons_of_mem _ hep, List.mem_of_mem_drop (List.mem_of_mem_take hx)⟩
  · obtain ⟨i, -, rfl⟩ := List.mem_map.1 he
    exact ⟨p.2, List.mem_cons_self, List.mem_of_mem_drop (List.mem_of_mem_take hx)⟩

/-- **C169**: with `max_episode_len` or `ContinuingTimeLimit`, in an environment that never ends an episode the
targets of all updates bootstrap: the buffer never holds a terminal transition. -/
theorem C169_never_terminal [Zero K] [LinearOrder S] (n : Nat) (c : Train.Cfg S) (hT : c.agentHasT = true) (w : Train.World O A K S X) (g : Gym E O A K) (hg : Endless g) (s : E)
    (h : (c.maxEpisodeLen = some n ∧ Served g.call s (Train.run c w).1) ∨ Served (timeLimit g n) (none, s) (Train.run c w).1)
    (d : DQN.Cfg θ O H) (hd : 0 < d.targetInterval) (cap : Option Nat) (k : Nat) (hk : 0 < k) (ps : Nat → θ) (p0 : θ)
    (pre post : List (Train.Ev O A K S)) (hrun : (Train.run c w).1 = pre ++ post) :
    ∃ s' ev, drive d ps 0 (DQN.init p0) pre = .ok (s', ev) ∧ ∀ e ∈ stored (buffer cap k ev), ∀ x ∈ e, x.terminal = false := by
  obtain ⟨s', ev, h1, h2⟩ := C169_own_history n c hT w g s h d hd cap k hk ps p0 pre post hrun
  refine ⟨s', ev, h1, fun e he x hx => ?_⟩
  rw [h2] at he
  obtain ⟨ep, hep, hx⟩ := mem_entries k _ e (mem_newest _ _ _ he) x hx
  have hr := endless_steps g hg pre s {} (by simp)
  have : ∃ ep' ∈ (record (asIf g s pre)).current :: (record (asIf g s pre)).finished, x ∈ ep' := by
    unfold known at hep
    split at hep
    · rcases List.mem_cons.1 hep with rfl | hep
      · simp at hx
      · rcases List.mem_append.1 hep with hep | hep
        · exact ⟨ep, List.mem_cons_of_mem _ hep, hx⟩
        · rw [List.mem_singleton.1 hep] at hx; exact ⟨_, List.mem_cons_self, hx⟩
    · rcases List.mem_cons.1 hep with rfl | hep
      · exact ⟨_, List.mem_cons_self, List.mem_of_mem_dropLast hx⟩
      · exact ⟨ep, List.mem_cons_of_mem _ hep, hx⟩
    · rcases List.mem_cons.1 hep with rfl | hep
      · exact ⟨_, List.mem_cons_self, hx⟩
      · exact ⟨ep, List.mem_cons_of_mem _ hep, hx⟩
  obtain ⟨ep', hep', hx'⟩ := this
  exact hr ep' hep' x hx'

end Verif.StepLimits
