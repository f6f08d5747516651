import Verif.Props.AtariStack
import Verif.Proofs.AtariTraining
set_option autoImplicit false
set_option linter.unusedSectionVars false

/-!
# C177: training runs on Atari games
-/

namespace Verif.AtariTraining
open Train (StepOut)
open Wrappers (Gym Op Out ends Buffer Life)
open AtariStack (Options State observed Raw Legal LegalBut Played)
open AtariPipeline (Frame)
open StepLimits (envOps)
variable {S A P V X θ H : Type}
variable (o : Options A) (draw : S → S × Nat) (rand : S → S × ℝ) (count : S → Nat) (warp : (P → Nat) → Frame) (g : Gym S (P → Nat) A ℝ)

/-- A new environment: nothing has happened yet. -/
def New (w : State S A P) : Prop := w.log = [] ∧ w.1.1 = Life.init

/-- What the game has gone through when the environment, new in state `w`, has been used as in `evs`. -/
noncomputable def history (w : State S A P) (evs : List (Train.Ev (List Frame) A ℝ V)) : List (Raw (P → Nat) A ℝ) :=
  (Wrappers.run (observed o draw rand count warp g) w (envOps evs)).1.log

theorem legal_of_tidy (w : State S A P) (hw : New w) (evs : List (Train.Ev (List Frame) A ℝ V))
    (hs : StepLimits.Served (observed o draw rand count warp g) w evs) (ht : Tidy false evs) :
    LegalBut o.maxFrames o.a₀ (history o draw rand count warp g w evs) ∧
      (o.episodeLife = false → Legal o.maxFrames (history o draw rand count warp g w evs)) ∧
      (o.maxFrames = 0 → (∀ s, ends (g.step s o.a₀).2 = false) → Legal o.maxFrames (history o draw rand count warp g w evs)) := by
  have hp := proper_of_tidy evs w false hs ht
  exact ⟨AtariStack.C176_legal_but o draw rand count warp g w hw.1 hw.2 _ hp, fun ho => AtariStack.C176_legal o draw rand count warp g ho w hw.1 _ hp,
    fun hm hg => AtariStack.C176_legal_life o draw rand count warp g hm hg w hw.1 hw.2 _ hp⟩

/-- C177, `train_agent`: at every moment of a run, however it ends, the game has only been stepped between a reset and its end, with at most
`max_frames` frames; with `episode_life` the exception is a game that ended in a no-op frame. -/
theorem C177_train [LinearOrder V] (c : Train.Cfg V) (w : Train.World (List Frame) A ℝ V X) (s : State S A P) (hw : New s)
    (h : StepLimits.Served (observed o draw rand count warp g) s (Train.run c w).1)
    (pre post : List (Train.Ev (List Frame) A ℝ V)) (hrun : (Train.run c w).1 = pre ++ post) :
    LegalBut o.maxFrames o.a₀ (history o draw rand count warp g s pre) ∧
      (o.episodeLife = false → Legal o.maxFrames (history o draw rand count warp g s pre)) ∧
      (o.maxFrames = 0 → (∀ s, ends (g.step s o.a₀).2 = false) → Legal o.maxFrames (history o draw rand count warp g s pre)) := by
  have ht := tidy_train c w
  rw [hrun] at ht h
  exact legal_of_tidy o draw rand count warp g s hw pre h.prefix (tidy_prefix _ _ _ ht)

/-- C177, `train_agent_batch`: the same for each environment, whatever the others do. -/
theorem C177_batch [Zero V] [LinearOrder V] (c : TrainBatch.Cfg V) (i : Nat) (hi : i < c.numEnvs) (w : TrainBatch.World (List Frame) A ℝ V X)
    (hsz : ∀ e ∈ (TrainBatch.run c w).1, TrainBatchDQN.Sized c.numEnvs e) (s : State S A P) (hw : New s)
    (h : BatchLimits.Served i (observed o draw rand count warp g) s (TrainBatch.run c w).1)
    (pre post : List (TrainBatch.Ev (List Frame) A ℝ V)) (hrun : (TrainBatch.run c w).1 = pre ++ post) :
    LegalBut o.maxFrames o.a₀ (history o draw rand count warp g s (pre.filterMap (BatchLimits.ofEnv i))) ∧
      (o.episodeLife = false → Legal o.maxFrames (history o draw rand count warp g s (pre.filterMap (BatchLimits.ofEnv i)))) ∧
      (o.maxFrames = 0 → (∀ s, ends (g.step s o.a₀).2 = false) →
        Legal o.maxFrames (history o draw rand count warp g s (pre.filterMap (BatchLimits.ofEnv i)))) := by
  have ht := tidy_batch c hi w hsz
  unfold BatchLimits.Served at h
  rw [hrun, List.filterMap_append] at ht h
  exact legal_of_tidy o draw rand count warp g s hw _ h.prefix (tidy_prefix _ _ _ ht)

/-- C177, `train_agent_async`: the same for the environment of each process, under every schedule. -/
theorem C177_async [LinearOrder V] {N : Nat} (c : TrainAsync.Cfg V) (sched : List (Fin N × TrainAsync.Inp (List Frame) A ℝ V)) (p : Fin N)
    (s : State S A P) (hw : New s)
    (h : AsyncLimits.Served (observed o draw rand count warp g) s (TrainAsync.eventsOf p (TrainAsync.run c N sched).1)) :
    LegalBut o.maxFrames o.a₀ (history o draw rand count warp g s ((TrainAsync.eventsOf p (TrainAsync.run c N sched).1).filterMap AsyncLimits.ofEnv)) ∧
      (o.episodeLife = false →
        Legal o.maxFrames (history o draw rand count warp g s ((TrainAsync.eventsOf p (TrainAsync.run c N sched).1).filterMap AsyncLimits.ofEnv))) ∧
      (o.maxFrames = 0 → (∀ s, ends (g.step s o.a₀).2 = false) →
        Legal o.maxFrames (history o draw rand count warp g s ((TrainAsync.eventsOf p (TrainAsync.run c N sched).1).filterMap AsyncLimits.ofEnv))) :=
  legal_of_tidy o draw rand count warp g s hw _ h (tidy_async c sched p)

/-! ## What is learned from -/

theorem grows (w : State S A P) (op : Op A) : ∃ l, (observed o draw rand count warp g w op).1.log = w.log ++ l := by
  obtain ⟨h1, -⟩ := AtariStack.observed_log o draw rand count warp g w op
  rw [h1]
  cases op with
  | reset => obtain ⟨c, h, -⟩ := (AtariStack.writes_inner o draw count g).reset w.1; exact ⟨c, h⟩
  | step a => obtain ⟨fs, h, -⟩ := (AtariStack.writes_inner o draw count g).step w.1 a; exact ⟨_, h⟩

theorem run_grows (ops : List (Op A)) : ∀ w : State S A P, ∃ l, (Wrappers.run (observed o draw rand count warp g) w ops).1.log = w.log ++ l := by
  induction ops with
  | nil => intro w; exact ⟨[], by simp [Wrappers.run]⟩
  | cons op ops ih =>
    intro w
    obtain ⟨l, h⟩ := grows o draw rand count warp g w op
    obtain ⟨l', h'⟩ := ih (observed o draw rand count warp g w op).1
    exact ⟨l ++ l', by rw [Wrappers.run, h', h, List.append_assoc]⟩

theorem run_state {T O K : Type} (call : T → Op A → T × Out O K) (ops ops' : List (Op A)) :
    ∀ t, (Wrappers.run call t (ops ++ ops')).1 = (Wrappers.run call (Wrappers.run call t ops).1 ops').1 := by
  induction ops with
  | nil => intro t; rfl
  | cons op ops ih => intro t; exact ih _

/-- The frames `fs`, played one after the other with the agent's action in the game, are what a transition with this action, reward and
terminal flag is about. -/
def About (o : Options A) (log : List (Raw (P → Nat) A ℝ)) (a : A) (r : ℝ) (terminal : Bool) (fs : List (StepOut (P → Nat) ℝ)) : Prop :=
  (∃ before after, log = before ++ fs.map (.frame a) ++ after) ∧ Played a fs ∧
    r = (if o.obs.clipRewards then AtariPipeline.clipReward (fs.map (·.r)).sum else (fs.map (·.r)).sum) ∧
    ∀ f, fs.getLast? = some f → (f.done = true → terminal = true) ∧ (o.episodeLife = false → terminal = f.done)

theorem about_step (w : State S A P) (evs l l' : List (Train.Ev (List Frame) A ℝ V)) (a : A) (out : StepOut (List Frame) ℝ)
    (hs : StepLimits.Served (observed o draw rand count warp g) w evs) (he : evs = l ++ .step a out :: l') :
    ∃ fs, About o (history o draw rand count warp g w evs) a out.r out.done fs := by
  subst he
  unfold StepLimits.Served at hs
  rw [StepLimits.envOps_append, StepLimits.envOuts_append, StepLimits.run_append] at hs
  have h2 := (List.append_inj hs (by rw [StepLimits.run_length, StepLimits.env_length])).2
  simp only [envOps, StepLimits.envOuts, Wrappers.run, List.cons.injEq] at h2
  obtain ⟨fs, f1, f2, f3⟩ := AtariStack.C176_step o draw rand count warp g (Wrappers.run (observed o draw rand count warp g) w (envOps l)).1 a
  obtain ⟨r1, -, r2⟩ := f3 out h2.1
  obtain ⟨c, hc⟩ := run_grows o draw rand count warp g (envOps l')
    (observed o draw rand count warp g (Wrappers.run (observed o draw rand count warp g) w (envOps l)).1 (.step a)).1
  refine ⟨fs, ⟨(Wrappers.run (observed o draw rand count warp g) w (envOps l)).1.log, c, ?_⟩, f2, r1, r2⟩
  unfold history
  rw [StepLimits.envOps_append, run_state]
  rw [← f1, ← hc]
  rfl

/-- C177, what a DQN learns from: at every moment of a training run each transition in the replay buffer is about one to four consecutive frames
of the game, all played with the transition's action; the reward is the sum of theirs, or its sign, and the transition is terminal if the last
one ended the game, without `episode_life` only then. -/
theorem C177_buffer [LinearOrder V] (c : Train.Cfg V) (hT : c.agentHasT = true) (w : Train.World (List Frame) A ℝ V X) (s : State S A P)
    (h : StepLimits.Served (observed o draw rand count warp g) s (Train.run c w).1)
    (d : DQN.Cfg θ (List Frame) H) (hd : 0 < d.targetInterval) (cap : Option Nat) (k : Nat) (hk : 0 < k) (ps : Nat → θ) (p0 : θ)
    (pre post : List (Train.Ev (List Frame) A ℝ V)) (hrun : (Train.run c w).1 = pre ++ post) :
    ∃ s' ev, TrainDQN.drive d ps 0 (DQN.init p0) pre = .ok (s', ev) ∧
      ∀ e ∈ TrainDQN.stored (TrainDQN.buffer cap k ev), ∀ x ∈ e,
        ∃ fs, About o (history o draw rand count warp g s pre) x.action x.reward x.terminal fs := by
  obtain ⟨s', ev, h1, h2⟩ := TrainDQN.C121_buffer c hT w d hd cap k hk ps p0 pre post hrun
  refine ⟨s', ev, h1, fun e he x hx => ?_⟩
  rw [h2] at he
  obtain ⟨l, l', nr, hl⟩ := known_from k pre e (StepLimits.mem_newest _ _ _ he) x hx
  rw [hrun] at h
  exact about_step o draw rand count warp g s pre l l' _ _ h.prefix hl

/-! ## The replay buffer of a vectorised training run -/

/-- Every step in a record was seen by the environment. -/
def AllSteps {O B K : Type} (Q : DQN.EnvStep O B K → Prop) (r : TrainBatchDQN.Record O B K) : Prop :=
  (∀ ep ∈ r.finished ++ [r.current], ∀ x ∈ ep, Q x) ∧ ∀ ep ∈ r.told.1 ++ [r.told.2], ∀ x ∈ ep, Q x

theorem watch_steps {O B K V : Type} (i : Nat) (Q : DQN.EnvStep O B K → Prop) (es : List (TrainBatch.Ev O B K V))
    (hQ : ∀ a out obs, Train.Ev.step a out ∈ es.filterMap (BatchLimits.ofEnv i) → Q ⟨obs, a, out.r, out.obs, out.done⟩) :
    ∀ r, AllSteps Q r → AllSteps Q (es.foldl (TrainBatchDQN.Record.watch i) r) := by
  induction es with
  | nil => intro r h; exact h
  | cons e es ih =>
    intro r h
    rw [List.foldl_cons]
    refine ih (fun a out obs hm => hQ a out obs ?_) _ ?_
    · rw [List.filterMap_cons]
      split
      · exact hm
      · exact List.mem_cons_of_mem _ hm
    obtain ⟨h1, h2⟩ := h
    have hf : ∀ ep ∈ r.finished, ∀ x ∈ ep, Q x := fun ep he => h1 ep (by simp [he])
    have hcur : ∀ x ∈ r.current, Q x := h1 r.current (by simp)
    cases e with
    | reset mask obss =>
      simp only [TrainBatchDQN.Record.watch]
      split
      · exact ⟨h1, h2⟩
      · refine ⟨fun ep he x hx => ?_, h2⟩
        simp only at he
        split at he
        · rcases List.mem_append.1 he with he | he
          · exact hf ep he x hx
          · simp only [List.mem_singleton] at he
            subst he; cases hx
        · simp only [List.mem_append, List.mem_singleton] at he
          rcases he with (he | rfl) | rfl
          · exact hf ep he x hx
          · exact hcur x hx
          · cases hx
    | step actions outs =>
      simp only [TrainBatchDQN.Record.watch]
      split
      · rename_i ob a out e1 e2 e3
        refine ⟨fun ep he x hx => ?_, h2⟩
        simp only [List.mem_append, List.mem_singleton] at he
        rcases he with he | rfl
        · exact hf ep he x hx
        · rcases List.mem_append.1 hx with hx | hx
          · exact hcur x hx
          · simp only [List.mem_singleton] at hx
            subst hx
            exact hQ a out ob (by rw [List.filterMap_cons]; simp [BatchLimits.ofEnv, e2, e3])
      · exact ⟨h1, h2⟩
    | observe obss rs dones resets =>
      simp only [TrainBatchDQN.Record.watch]
      refine ⟨h1, fun ep he x hx => ?_⟩
      simp only at he
      split at he
      · simp only [List.mem_append, List.mem_singleton] at he
        rcases he with (he | rfl) | rfl
        · exact hf ep he x hx
        · exact hcur x hx
        · cases hx
      · simp only [List.mem_append, List.mem_singleton] at he
        rcases he with he | rfl
        · exact hf ep he x hx
        · exact hcur x hx
    | _ => exact ⟨h1, h2⟩

/-- C177, what a DQN learns from in a vectorised run: at every moment each entry of the replay buffer is about the game of one environment, and each
transition in it is about frames of this game as in `C177_buffer`. -/
theorem C177_buffer_batch [Zero V] [LinearOrder V] (c : TrainBatch.Cfg V) (hc : 0 < c.numEnvs) (w : TrainBatch.World (List Frame) A ℝ V X)
    (s : Nat → State S A P) (h : ∀ i, i < c.numEnvs → BatchLimits.Served i (observed o draw rand count warp g) (s i) (TrainBatch.run c w).1)
    (d : DQN.Cfg θ (List Frame) H) (hd : 0 < d.targetInterval) (cap : Option Nat) (k : Nat) (hk : 0 < k) (ps : Nat → Nat → θ) (p0 : θ)
    (pre post : List (TrainBatch.Ev (List Frame) A ℝ V)) (hrun : (TrainBatch.run c w).1 = pre ++ post)
    (hs : ∀ e ∈ pre, TrainBatchDQN.Sized c.numEnvs e) :
    ∃ j s' ev, TrainBatchDQN.drive d ps (DQN.init p0) pre = .ok (j, s', ev) ∧
      ∀ e ∈ TrainDQN.stored (TrainDQN.buffer cap k ev), ∃ i, i < c.numEnvs ∧ ∀ x ∈ e,
        ∃ fs, About o (history o draw rand count warp g (s i) (pre.filterMap (BatchLimits.ofEnv i))) x.action x.reward x.terminal fs := by
  obtain ⟨j, s', ev, h1, ent, h2, h3, h4⟩ := TrainBatchDQN.C122_buffer c hc w d hd cap k hk ps p0 pre post hrun hs
  refine ⟨j, s', ev, h1, fun e he => ?_⟩
  rw [h2] at he
  obtain ⟨p, hp, rfl⟩ := List.mem_map.1 (StepLimits.mem_newest _ _ _ he)
  have hi := h3 p hp
  refine ⟨p.1, hi, fun x hx => ?_⟩
  have hm : p.2 ∈ TrainDQN.entriesOf k (TrainBatchDQN.record p.1 pre).told := by
    rw [← h4 p.1 hi]
    exact List.mem_map_of_mem (List.mem_filter.2 ⟨hp, by simp⟩)
  obtain ⟨ep, hep, hx'⟩ := StepLimits.mem_entries k _ _ hm x hx
  have hse := h p.1 hi
  unfold BatchLimits.Served at hse
  rw [hrun, List.filterMap_append] at hse
  refine (watch_steps p.1 (fun x => ∃ fs, About o (history o draw rand count warp g (s p.1) (pre.filterMap (BatchLimits.ofEnv p.1)))
    x.action x.reward x.terminal fs) pre ?_ {} ⟨by simp, by simp⟩).2 ep (by simp only [List.mem_cons, List.mem_append, List.not_mem_nil, or_false] at hep ⊢; exact hep.symm) x hx'
  intro a out obs hm
  obtain ⟨l, l', hl⟩ := List.append_of_mem hm
  exact about_step o draw rand count warp g (s p.1) _ l l' a out hse.prefix hl

/-! ## The hypotheses can be met -/

/-- The answer of a reset. -/
def obsOf : Out (List Frame) ℝ → List Frame
  | .obs x => x
  | _ => []

/-- The answer of a step. -/
def outOf : Out (List Frame) ℝ → StepOut (List Frame) ℝ
  | .step out => out
  | _ => ⟨[], 0, true, false⟩

/-- An environment used for two steps with the actions `a` and `b`; `call` answers. -/
def exWorld {T : Type} (call : T → Op A → T × Out (List Frame) ℝ) (s : T) (a b : A) : Train.World (List Frame) A ℝ Int String :=
  let r0 := call s .reset
  let r1 := call r0.1 (.step a)
  let r2 := call r1.1 .reset
  let r3 := call (if ends (outOf r1.2) then r2.1 else r1.1) (.step b)
  { reset := .ok (obsOf r0.2)
    iter := fun i => { act := .ok (if i = 0 then a else b), step := .ok (outOf (if i = 0 then r1.2 else r3.2)), hook := fun _ => .ok (), stop := .ok ()
                       evaluate := .ok 0, reset := .ok (obsOf r2.2), checkpoint := .ok () }
    saveExcept := .ok ()
    saveFinish := .ok () }

/-- Two steps. -/
def exTrain : Train.Cfg Int := ⟨2, 0, none, none, false, none, 0, true⟩

/-- The hypotheses of `C177_train` and `C177_buffer` are met by a run of two steps on every game, with a reset between them if the first one ends the
episode. -/
example (s : State S A P) (a b : A) :
    StepLimits.Served (observed o draw rand count warp g) s (Train.run exTrain (exWorld (observed o draw rand count warp g) s a b)).1 ∧
      (Train.run exTrain (exWorld (observed o draw rand count warp g) s a b)).2 = .ok () := by
  obtain ⟨f1, f2, -⟩ := AtariStack.observed_frames o draw rand count warp g s .reset (.inl rfl)
  obtain ⟨x0, e0⟩ := f2 rfl
  generalize hr0 : observed o draw rand count warp g s .reset = r0 at *
  obtain ⟨f3, -, f4⟩ := AtariStack.observed_frames o draw rand count warp g r0.1 (.step a) (.inr f1)
  obtain ⟨x1, e1⟩ := f4 a rfl
  generalize hr1 : observed o draw rand count warp g r0.1 (.step a) = r1 at *
  obtain ⟨f5, f6, -⟩ := AtariStack.observed_frames o draw rand count warp g r1.1 .reset (.inl rfl)
  obtain ⟨x2, e2⟩ := f6 rfl
  generalize hr2 : observed o draw rand count warp g r1.1 .reset = r2 at *
  obtain ⟨-, -, f7⟩ := AtariStack.observed_frames o draw rand count warp g (if ends x1 then r2.1 else r1.1) (.step b) (.inr (by split <;> assumption))
  obtain ⟨x3, e3⟩ := f7 b rfl
  have hw : exWorld (observed o draw rand count warp g) s a b =
      { reset := .ok x0
        iter := fun i => { act := .ok (if i = 0 then a else b), step := .ok (if i = 0 then x1 else x3), hook := fun _ => .ok (), stop := .ok ()
                           evaluate := .ok 0, reset := .ok x2, checkpoint := .ok () }
        saveExcept := .ok ()
        saveFinish := .ok () } := by
    simp only [exWorld, hr0, hr1, hr2, e0, e1, e2, e3, obsOf, outOf]
    congr 1
    funext i
    by_cases hi : i = 0 <;> simp [hi]
  rw [hw]
  generalize hW : ({ reset := .ok x0
                     iter := fun i => { act := .ok (if i = 0 then a else b), step := .ok (if i = 0 then x1 else x3), hook := fun _ => .ok (), stop := .ok ()
                                        evaluate := .ok 0, reset := .ok x2, checkpoint := .ok () }
                     saveExcept := .ok ()
                     saveFinish := .ok () } : Train.World (List Frame) A ℝ Int String) = W
  have key : (Train.run exTrain W).2 = .ok () ∧
      envOps (Train.run exTrain W).1 = (if ends x1 then [.reset, .step a, .reset, .step b] else [.reset, .step a, .step b]) ∧
      StepLimits.envOuts (Train.run exTrain W).1 = (if ends x1 then [.obs x0, .step x1, .obs x2, .step x3] else [.obs x0, .step x1, .step x3]) := by
    subst hW
    obtain ⟨ob, r, d, n⟩ := x1
    obtain ⟨ob', r', d', n'⟩ := x3
    cases d <;> cases n <;> cases d' <;> cases n' <;> refine ⟨?_, ?_, ?_⟩ <;> rfl
  obtain ⟨h1, h2, h3⟩ := key
  refine ⟨?_, h1⟩
  unfold StepLimits.Served
  rw [h2, h3]
  cases hx : ends x1 with
  | true =>
    rw [hx] at e3
    simp only [if_true] at e3 ⊢
    simp [Wrappers.run, hr0, hr1, hr2, e0, e1, e2, e3]
  | false =>
    rw [hx] at e3
    simp only [Bool.false_eq_true, if_false] at e3 ⊢
    simp [Wrappers.run, hr0, hr1, e0, e1, e3]

end Verif.AtariTraining
