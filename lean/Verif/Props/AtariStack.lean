import Verif.Proofs.AtariFrames
import Verif.Proofs.AtariLives
set_option autoImplicit false
set_option linter.unusedSectionVars false

/-!
# C176: what an Atari game goes through, and what is scored, under `make_atari` and `wrap_deepmind`
-/

namespace Verif.AtariStack
open Train (StepOut)
open Wrappers (Gym Op Out ends Buffer Life run)
open AtariPipeline (Frame Config wrapDeepmind)
variable {S A P : Type}

/-- The state of an Atari environment, with the game's own state and the observer's notes. -/
abbrev State (S A P : Type) := (Life × (Buffer P × (Nat × (S × List (Raw (P → Nat) A ℝ))))) × List Frame

/-- The observer's notes. -/
def State.log (w : State S A P) : List (Raw (P → Nat) A ℝ) := w.1.2.2.2.2

/-- `wrap_deepmind(make_atari(...))` around a game with an observer. -/
noncomputable def observed (o : Options A) (draw : S → S × Nat) (rand : S → S × ℝ) (count : S → Nat) (warp : (P → Nat) → Frame)
    (g : Gym S (P → Nat) A ℝ) : State S A P → Op A → State S A P × Out (List Frame) ℝ :=
  atari o (fun w => let d := draw w.1; ((d.1, w.2), d.2)) (fun w => let d := rand w.1; ((d.1, w.2), d.2)) (fun w => count w.1) warp (logged g)

variable (o : Options A) (draw : S → S × Nat) (rand : S → S × ℝ) (count : S → Nat) (warp : (P → Nat) → Frame) (g : Gym S (P → Nat) A ℝ)

theorem observed_log (w : State S A P) (op : Op A) :
    (observed o draw rand count warp g w op).1.log =
      (((inner o (fun w => let d := draw w.1; ((d.1, w.2), d.2)) (fun w => count w.1) (logged g)).call w.1 op).1).2.2.2.2 ∧
    ∀ out', (observed o draw rand count warp g w op).2 = .step out' →
      ∃ out, ((inner o (fun w => let d := draw w.1; ((d.1, w.2), d.2)) (fun w => count w.1) (logged g)).call w.1 op).2 = .step out ∧
        out'.r = shown o.obs out.r ∧ ends out' = ends out ∧ out'.done = out.done := by
  have h := wrap_spec o.obs
    (fun w : Life × (Buffer P × (Nat × (S × List (Raw (P → Nat) A ℝ)))) =>
      let d := (fun w : S × List (Raw (P → Nat) A ℝ) => let d := rand w.1; ((d.1, w.2), d.2)) w.2.2.2; ((w.1, (w.2.1, (w.2.2.1, d.1))), d.2)) warp
    (inner o (fun w => let d := draw w.1; ((d.1, w.2), d.2)) (fun w => count w.1) (logged g)).call w op
  refine ⟨?_, h.2⟩
  unfold State.log observed atari
  rcases h.1 with e | e <;> rw [e]

/-- C176, steps: every step of the agent, in whatever state, plays between one and four frames of the game, all with the agent's action and none
after one that ended the game; the reward is the sum of theirs, or its sign; and if they are fewer than four the agent is told that the episode
is over.  If the last of them was the end of the game, the agent is told `done`, and without `episode_life` only then. -/
theorem C176_step (w : State S A P) (a : A) :
    ∃ fs : List (StepOut (P → Nat) ℝ), (observed o draw rand count warp g w (.step a)).1.log = w.log ++ fs.map (.frame a) ∧ Played a fs ∧
      ∀ out, (observed o draw rand count warp g w (.step a)).2 = .step out →
        out.r = (if o.obs.clipRewards then AtariPipeline.clipReward (fs.map (·.r)).sum else (fs.map (·.r)).sum) ∧
        (fs.length < 4 → ends out = true) ∧
        ∀ f, fs.getLast? = some f → (f.done = true → out.done = true) ∧ (o.episodeLife = false → out.done = f.done) := by
  obtain ⟨h1, h2⟩ := observed_log o draw rand count warp g w (.step a)
  obtain ⟨fs, f1, f2, f3, f4, f5, f6, f7⟩ := (writes_inner o draw count g).step w.1 a
  refine ⟨fs, h1.trans f1, ⟨f2, f3, f4⟩, fun out ho => ?_⟩
  obtain ⟨out', e1, e2, e3, e4⟩ := h2 out ho
  have e1' : out' = ((inner o (fun w => let d := draw w.1; ((d.1, w.2), d.2)) (fun w => count w.1) (logged g)).step w.1 a).2 := by
    have : ∀ (g : Gym (Life × (Buffer P × (Nat × (S × List (Raw (P → Nat) A ℝ))))) (P → Nat) A ℝ), (g.call w.1 (.step a)).2 = .step (g.step w.1 a).2 :=
      fun _ => rfl
    rw [this] at e1; cases e1; rfl
  rw [e2, e3, e4, e1', ← f5]
  exact ⟨rfl, f7, fun f hf => ⟨(f6 f hf).1, fun hl => (f6 f hf).2 (by rw [hl]; rfl)⟩⟩

/-- The same from a state in which an environment has been in use. -/
theorem legal_run (ho : o.episodeLife = false) (w : State S A P) (hw : Legal o.maxFrames w.log) (ops : List (Op A))
    (hp : Proper (observed o draw rand count warp g) w false ops) :
    Legal o.maxFrames (run (observed o draw rand count warp g) w ops).1.log :=
  safe_proper (safe_inner o ho draw count g) o.obs _ (fun t => ⟨fun h => h, fun h => h⟩) warp ops w false hw (fun h => by cases h) hp

/-- C176, the rules: without `episode_life`, when the agent resets at the start and after every end of an episode, the game is never stepped
before it has been reset or after it is over, and no game has more than `max_frames` frames, no-ops and fire actions included. -/
theorem C176_legal (ho : o.episodeLife = false) (w : State S A P) (hw : w.log = []) (ops : List (Op A))
    (hp : Proper (observed o draw rand count warp g) w false ops) :
    Legal o.maxFrames (run (observed o draw rand count warp g) w ops).1.log := by
  refine safe_proper (safe_inner o ho draw count g) o.obs _ (fun t => ⟨fun h => h, fun h => h⟩) warp ops w false ?_ (fun h => by cases h) hp
  show Legal _ w.log
  rw [hw]; exact legal_nil _

theorem safe_last {T : Type} {I L D : T → Prop} {g : Gym T (P → Nat) A ℝ} (h : Safe g I L D) (c : Config) (draw : T → T × ℝ)
    (hd : ∀ t, (I t → I (draw t).1) ∧ (L t → L (draw t).1) ∧ (D t → D (draw t).1)) (warp : (P → Nat) → Frame) (ops : List (Op A)) (a : A)
    (w : T × List Frame) (playing : Bool) (hi : I w.1) (hl : playing = true → L w.1)
    (hp : Proper (wrapDeepmind c draw warp g.call) w playing (ops ++ [.step a])) (out : StepOut (List Frame) ℝ)
    (ho : (run (wrapDeepmind c draw warp g.call) w (ops ++ [.step a])).2.getLast? = some (.step out)) (he : ends out = true) :
    D (run (wrapDeepmind c draw warp g.call) w (ops ++ [.step a])).1.1 := by
  induction ops generalizing w playing with
  | nil =>
    obtain ⟨w1, w2⟩ := wrap_spec c draw warp g.call w (.step a)
    obtain ⟨s1, s2, s3⟩ := h.step w.1 a hi (hl hp.1)
    have ho' : (wrapDeepmind c draw warp g.call w (.step a)).2 = .step out := by simpa [run] using ho
    obtain ⟨out', e1, -, e2, -⟩ := w2 out ho'
    have e1' : (g.step w.1 a).2 = out' := by
      have : (g.call w.1 (.step a)).2 = .step (g.step w.1 a).2 := rfl
      rw [this] at e1; cases e1; rfl
    have hD := s3 (by rw [e1', ← e2]; exact he)
    show D (wrapDeepmind c draw warp g.call w (.step a)).1.1
    rcases w1 with e | e <;> rw [e]
    · exact hD
    · exact (hd _).2.2 hD
  | cons op ops ih =>
    obtain ⟨w1, w2⟩ := wrap_spec c draw warp g.call w op
    have ho' : (run (wrapDeepmind c draw warp g.call) (wrapDeepmind c draw warp g.call w op).1 (ops ++ [.step a])).2.getLast? = some (.step out) := by
      simp only [List.cons_append, run] at ho
      rw [List.getLast?_cons_of_ne_nil] at ho
      · exact ho
      · intro hn
        cases ops <;> simp [run] at hn
    cases op with
    | reset =>
      obtain ⟨r1, r2⟩ := h.reset w.1 hi
      refine ih _ true ?_ (fun _ => ?_) hp ho'
      · rcases w1 with e | e <;> rw [e]
        · exact r1
        · exact (hd _).1 r1
      · rcases w1 with e | e <;> rw [e]
        · exact r2
        · exact (hd _).2.1 r2
    | step b =>
      obtain ⟨p1, p2⟩ := hp
      obtain ⟨s1, s2, -⟩ := h.step w.1 b hi (hl p1)
      refine ih _ _ ?_ (fun hq => ?_) p2 ho'
      · rcases w1 with e | e <;> rw [e]
        · exact s1
        · exact (hd _).1 s1
      · cases hb : (wrapDeepmind c draw warp g.call w (.step b)).2 with
        | obs o => rw [hb] at hq; cases hq
        | error => rw [hb] at hq; cases hq
        | step o' =>
          obtain ⟨o'', e1, -, e2, -⟩ := w2 o' hb
          rw [hb] at hq
          have e1' : (g.step w.1 b).2 = o'' := by
            have : (g.call w.1 (.step b)).2 = .step (g.step w.1 b).2 := rfl
            rw [this] at e1; cases e1; rfl
          have : ends (g.step w.1 b).2 = false := by rw [e1', ← e2]; simpa using hq
          rcases w1 with e | e <;> rw [e]
          · exact s2 this
          · exact (hd _).2.1 (s2 this)

/-- C176, ends: without `episode_life` an episode of such an agent ends only when the game is over or has had `max_frames` frames. -/
theorem C176_ends (ho : o.episodeLife = false) (w : State S A P) (hw : w.log = []) (ops : List (Op A)) (a : A)
    (hp : Proper (observed o draw rand count warp g) w false (ops ++ [.step a])) (out : StepOut (List Frame) ℝ)
    (hl : (run (observed o draw rand count warp g) w (ops ++ [.step a])).2.getLast? = some (.step out)) (he : ends out = true) :
    Finished o.maxFrames (run (observed o draw rand count warp g) w (ops ++ [.step a])).1.log := by
  refine safe_last (safe_inner o ho draw count g) o.obs _ (fun t => ⟨fun h => h, fun h => h, fun h => h⟩) warp ops a w false ?_ (fun h => by cases h) hp out
    hl he
  show Legal _ w.log
  rw [hw]; exact legal_nil _

theorem push_len {F : Type} (q : List F) (x : F) : (FrameStack.push 4 q x).length = min (q.length + 1) 4 := by
  simp [FrameStack.push]; omega

theorem observed_frames (w : State S A P) (op : Op A) (h : op = .reset ∨ w.2.length = 4) :
    (observed o draw rand count warp g w op).1.2.length = 4 ∧
      (op = .reset → ∃ x, (observed o draw rand count warp g w op).2 = .obs x) ∧
      ∀ a, op = .step a → ∃ out, (observed o draw rand count warp g w op).2 = .step out := by
  have hp := (preprocess_spec o.obs
    (fun w : Life × (Buffer P × (Nat × (S × List (Raw (P → Nat) A ℝ)))) =>
      let d := (fun w : S × List (Raw (P → Nat) A ℝ) => let d := rand w.1; ((d.1, w.2), d.2)) w.2.2.2; ((w.1, (w.2.1, (w.2.2.1, d.1))), d.2)) warp
    (inner o (fun w => let d := draw w.1; ((d.1, w.2), d.2)) (fun w => count w.1) (logged g)).call w.1 op).2
  unfold observed atari wrapDeepmind AtariPipeline.frameStack
  cases op with
  | reset =>
    have hr : ∀ (g : Gym (Life × (Buffer P × (Nat × (S × List (Raw (P → Nat) A ℝ))))) (P → Nat) A ℝ), (g.call w.1 .reset).2 = .obs (g.reset w.1).2 :=
      fun _ => rfl
    rw [hr] at hp
    obtain ⟨x, hx⟩ := hp
    simp only
    rw [hx]
    have hl : ∀ x : Frame, (FrameStack.pushN 4 x 4 w.2).length = 4 := by
      intro x
      simp only [FrameStack.pushN, push_len]; omega
    simp only [hl, if_true]
    exact ⟨trivial, fun _ => ⟨_, rfl⟩, fun a h => by cases h⟩
  | step a =>
    have hr : ∀ (g : Gym (Life × (Buffer P × (Nat × (S × List (Raw (P → Nat) A ℝ))))) (P → Nat) A ℝ), (g.call w.1 (.step a)).2 = .step (g.step w.1 a).2 :=
      fun _ => rfl
    rw [hr] at hp
    obtain ⟨x, hx⟩ := hp
    have h4 : w.2.length = 4 := by rcases h with h | h; cases h; exact h
    simp only
    rw [hx]
    have hl : ∀ x : Frame, (FrameStack.push 4 w.2 x).length = 4 := by
      intro x; rw [push_len, h4]; rfl
    simp only [hl, if_true]
    refine ⟨trivial, ?_, ?_⟩
    · intro h; cases h
    · intro b _; exact ⟨_, rfl⟩

/-- The frames of several steps. -/
theorem steps_frames (hc : o.obs.clipRewards = false) (as : List A) (w : State S A P) (hw : w.2.length = 4) :
    ∃ (fs : List (A × StepOut (P → Nat) ℝ)) (outs : List (StepOut (List Frame) ℝ)),
      (run (observed o draw rand count warp g) w (as.map .step)).1.log = w.log ++ fs.map (fun f => .frame f.1 f.2) ∧
      (run (observed o draw rand count warp g) w (as.map .step)).2 = outs.map .step ∧
      (outs.map (·.r)).sum = (fs.map (·.2.r)).sum ∧ (∀ f ∈ fs, f.1 ∈ as) ∧ as.length ≤ fs.length ∧ fs.length ≤ 4 * as.length := by
  induction as generalizing w with
  | nil => exact ⟨[], [], by simp [run], by simp [run], by simp, by simp, by simp, by simp⟩
  | cons a as ih =>
    obtain ⟨f1, -, f3⟩ := observed_frames o draw rand count warp g w (.step a) (.inr hw)
    obtain ⟨out, hout⟩ := f3 a rfl
    obtain ⟨cs, c1, c2, c3⟩ := C176_step o draw rand count warp g w a
    obtain ⟨r1, -, -⟩ := c3 out hout
    rw [hc] at r1
    obtain ⟨fs, outs, i1, i2, i3, i4, i5, i6⟩ := ih (observed o draw rand count warp g w (.step a)).1 f1
    refine ⟨cs.map (fun c => (a, c)) ++ fs, out :: outs, ?_, ?_, ?_, ?_, ?_, ?_⟩
    · rw [List.map_cons, run]; simp only; rw [i1, c1]; simp
    · rw [List.map_cons, run]; simp only; rw [i2, hout]; rfl
    · rw [List.map_cons, List.sum_cons, i3, r1]; simp [Function.comp_def]
    · intro f hf
      rcases List.mem_append.1 hf with hf | hf
      · obtain ⟨c, -, rfl⟩ := List.mem_map.1 hf; simp
      · exact List.mem_cons_of_mem _ (i4 f hf)
    · have := c2.1; simp only [List.length_cons, List.length_append, List.length_map]; omega
    · have := c2.2.1; simp only [List.length_cons, List.length_append, List.length_map]; omega

theorem split_at_reset {X : Type} {old c older : List (Raw X A ℝ)} {fs : List (A × StepOut X ℝ)}
    (h : old ++ c = older ++ .reset :: fs.map fun f => .frame f.1 f.2) (hc : c.head? = some .reset) :
    ∃ pre, older = old ++ pre ∧ c = pre ++ .reset :: fs.map fun f => .frame f.1 f.2 := by
  rcases List.append_eq_append_iff.1 h with ⟨d, h1, h2⟩ | ⟨d, h1, h2⟩
  · exact ⟨d, h1, h2⟩
  · cases d with
    | nil => exact ⟨[], by simpa using h1.symm, by simpa using h2.symm⟩
    | cons x d =>
      exfalso
      simp only [List.cons_append, List.cons.injEq] at h2
      have hm : (Raw.reset : Raw X A ℝ) ∈ d ++ c := by
        refine List.mem_append_right _ ?_
        cases c with
        | nil => cases hc
        | cons y c => cases hc; exact List.mem_cons_self
      rw [← h2.2] at hm
      obtain ⟨f, -, hf⟩ := List.mem_map.1 hm
      cases hf

/-- C176, scores: without `episode_life` and `clip_rewards` the rewards that the agent gets in an episode add up to those of the game, from the
moment at which the agent took over to the present: the frames before that are no-ops and fire actions of the reset, in the same game or in games
that ended in the reset (`pre`). -/
theorem C176_score (ho : o.episodeLife = false) (hc : o.obs.clipRewards = false) (w : State S A P) (hw : Legal o.maxFrames w.log) (as : List A) :
    ∃ (pre : List (Raw (P → Nat) A ℝ)) (warm fs : List (A × StepOut (P → Nat) ℝ)) (first : List Frame) (outs : List (StepOut (List Frame) ℝ)),
      (run (observed o draw rand count warp g) w (.reset :: as.map .step)).1.log =
        w.log ++ pre ++ .reset :: (warm ++ fs).map (fun f => .frame f.1 f.2) ∧
      (∀ a out, .frame a out ∈ pre → a = o.a₀ ∨ a = o.a₁ ∨ a = o.a₂) ∧
      (∀ f ∈ warm, (f.1 = o.a₀ ∨ f.1 = o.a₁ ∨ f.1 = o.a₂) ∧ ends f.2 = false) ∧ (∀ f ∈ fs, f.1 ∈ as) ∧
      as.length ≤ fs.length ∧ fs.length ≤ 4 * as.length ∧
      (run (observed o draw rand count warp g) w (.reset :: as.map .step)).2 = .obs first :: outs.map .step ∧
      (outs.map (·.r)).sum = (fs.map (·.2.r)).sum := by
  obtain ⟨h1, -⟩ := observed_log o draw rand count warp g w .reset
  obtain ⟨c, c1, c2, c3⟩ := (writes_inner o draw count g).reset w.1
  obtain ⟨-, warm, hr, -⟩ := (safe_inner o ho draw count g).reset w.1 hw
  obtain ⟨⟨older, hold⟩, hne, -⟩ := hr
  have hlog : (observed o draw rand count warp g w .reset).1.log = w.log ++ c := h1.trans c1
  have hlog2 : (observed o draw rand count warp g w .reset).1.log = older ++ .reset :: warm.map fun f => .frame f.1 f.2 := h1.trans hold
  obtain ⟨pre, -, hpre⟩ := split_at_reset (hlog.symm.trans hlog2) (c3 (by rw [ho]; rfl))
  obtain ⟨f1, f2, -⟩ := observed_frames o draw rand count warp g w .reset (.inl rfl)
  obtain ⟨first, hfirst⟩ := f2 rfl
  obtain ⟨fs, outs, i1, i2, i3, i4, i5, i6⟩ := steps_frames o draw rand count warp g hc as (observed o draw rand count warp g w .reset).1 f1
  refine ⟨pre, warm, fs, first, outs, ?_, ?_, fun f hf => ⟨?_, hne f hf⟩, i4, i5, i6, ?_, i3⟩
  · rw [run]; simp only; rw [i1, hlog, hpre]; simp
  · intro a out ha
    exact c2 a out (by rw [hpre]; exact List.mem_append_left _ ha)
  · refine c2 f.1 f.2 ?_
    rw [hpre]
    exact List.mem_append_right _ (List.mem_cons_of_mem _ (List.mem_map.2 ⟨f, hf, rfl⟩))
  · rw [run]; simp only; rw [i2, hfirst]

/-- The same for an environment that has been in use. -/
theorem ended_run (ho : o.episodeLife = false) (w : State S A P) (hw : Legal o.maxFrames w.log) (ops : List (Op A)) (a : A)
    (hp : Proper (observed o draw rand count warp g) w false (ops ++ [.step a])) (out : StepOut (List Frame) ℝ)
    (hl : (run (observed o draw rand count warp g) w (ops ++ [.step a])).2.getLast? = some (.step out)) (he : ends out = true) :
    Finished o.maxFrames (run (observed o draw rand count warp g) w (ops ++ [.step a])).1.log :=
  safe_last (safe_inner o ho draw count g) o.obs _ (fun t => ⟨fun h => h, fun h => h, fun h => h⟩) warp ops a w false hw (fun h => by cases h) hp out
    hl he

/-! ## With `episode_life` -/

/-- `some` for frames: whether the game ended in it. -/
def Raw.over {X K : Type} : Raw X A K → Option Bool
  | .reset => none
  | .frame _ out => some (ends out)

theorem not_legal {X K : Type} {m : Nat} {log : List (Raw X A K)} {x y : List (Option Bool)} {b : Bool}
    (h : log.map Raw.over = x ++ some true :: some b :: y) : ¬ Legal m log := by
  intro hl
  obtain ⟨l1, r1, rfl, e1, e2⟩ := List.map_eq_append_iff.1 h
  obtain ⟨f, r2, rfl, e3, e4⟩ := List.map_eq_cons_iff.1 e2
  obtain ⟨f', r3, rfl, e5, -⟩ := List.map_eq_cons_iff.1 e4
  cases f with
  | reset => cases e3
  | frame a out =>
    cases f' with
    | reset => cases e5
    | frame a' out' =>
      obtain ⟨fs, ⟨older, ho⟩, hn, -⟩ := hl (l1 ++ [.frame a out]) r3 a' out' (by simp)
      rcases List.eq_nil_or_concat fs with rfl | ⟨fs', q, rfl⟩
      · have := congrArg List.getLast? ho
        simp at this
      · have := congrArg List.getLast? ho
        rw [List.concat_eq_append] at this hn
        rw [List.map_append, ← List.cons_append, ← List.append_assoc, List.map_cons, List.map_nil, List.getLast?_concat, List.getLast?_concat] at this
        simp only [Option.some.injEq, Raw.frame.injEq] at this
        have h2 := hn q (by simp)
        rw [← this.2] at h2
        simp only [Raw.over, Option.some.injEq] at e3
        rw [e3] at h2; cases h2

/-- A game that loses a life in its fifth frame and is over in its seventh. -/
def brief : Gym Nat (Unit → Nat) Nat Int where
  reset _ := (0, fun _ => 0)
  step s _ := (s + 1, ⟨fun _ => s + 1, 1, decide (7 ≤ s + 1), false⟩)

/-- Its lives. -/
def briefLives (s : Nat) : Nat := if s < 5 then 2 else if s < 7 then 1 else 0

/-- The options of training. -/
def training : Options Nat := ⟨108000, true, false, 0, 1, 2, ⟨true, false, false⟩⟩

/-- The training environment around it, inside the wrappers that only change observations and rewards. -/
def briefEnv : Gym (Life × (Buffer Unit × (Nat × (Nat × List (Raw (Unit → Nat) Nat Int))))) (Unit → Nat) Nat Int :=
  inner training (fun w => (w, 1)) (fun w => briefLives w.1) (logged brief)

/-- Its first state. -/
def briefStart : Life × (Buffer Unit × (Nat × (Nat × List (Raw (Unit → Nat) Nat Int)))) :=
  (Life.init, (⟨fun _ => 0, fun _ => 0⟩, (0, (0, []))))

/-- C176 is violated with `episode_life`: the agent, which resets at the start and after every end that it is told of, steps a game that is over,
because the game can end in the no-op with which `reset` continues it after the loss of a life. -/
theorem C176_violated_life :
    Proper briefEnv.call briefStart false [.reset, .step 3, .reset, .step 3] ∧
      ¬ Legal 108000 (run briefEnv.call briefStart [.reset, .step 3, .reset, .step 3]).1.2.2.2.2 := by
  refine ⟨⟨rfl, rfl, trivial⟩, ?_⟩
  refine not_legal (x := [none, some false, some false, some false, some false, some false, some false]) (b := true) (y := []) ?_
  decide

/-- The same game without `episode_life`: four calls that meet the hypothesis of `C176_legal`, and the frames of the two games. -/
example : Proper (inner { training with episodeLife := false } (fun w => (w, 1)) (fun w => briefLives w.1) (logged brief)).call briefStart false
      [.reset, .step 3, .step 3, .reset] ∧
    ((run (inner { training with episodeLife := false } (fun w => (w, 1)) (fun w => briefLives w.1) (logged brief)).call briefStart
      [.reset, .step 3, .step 3, .reset]).1.2.2.2.2.map Raw.over) =
      [none, some false, some false, some false, some false, some false, some false, some true, none, some false] := by
  refine ⟨⟨rfl, rfl, trivial⟩, by decide⟩

/-- With a limit of three frames the second agent step is never made: the first one ends after two frames. -/
example : ((run (inner { training with episodeLife := false, maxFrames := 3 } (fun w => (w, 1)) (fun w => briefLives w.1) (logged brief)).call briefStart
      [.reset, .step 3]).2.map fun | .step out => some (out.r, ends out) | _ => none) = [none, some (2, true)] := by decide

/-- The hypothesis of `C176_legal` and `C176_ends` is met by short episodes of every game. -/
example (w : State S A P) (a b : A) : Proper (observed o draw rand count warp g) w false [.reset, .step a, .reset, .step b] := ⟨rfl, rfl, trivial⟩

/-- C176 with whatever options: when the caller resets at the start and after every end that they are told of, a frame is played in a game that is
over only if that game ended, or reached the limit, in a no-op frame (`C176_violated_life` is such a case). -/
theorem C176_legal_but (w : State S A P) (hw : w.log = []) (hl : w.1.1 = Life.init) (ops : List (Op A))
    (hp : Proper (observed o draw rand count warp g) w false ops) :
    LegalBut o.maxFrames o.a₀ (run (observed o draw rand count warp g) w ops).1.log := by
  refine (safe_proper (safe_stack o _ _ (logged g) (but_limit o.maxFrames o.a₀ g) (calm_limit o.maxFrames o.a₀ g) (fun t => ⟨fun h => h, fun h => h⟩))
    o.obs _ (fun t => ⟨fun h => h, fun h => h⟩) warp ops w false ?_ (fun h => by cases h) hp).1
  refine ⟨?_, fun _ h => by rw [hl] at h; cases h⟩
  show LegalBut _ _ w.log
  rw [hw]; exact legalBut_nil _ _

/-- C176 with `episode_life`: without a limit, in a game in which doing nothing does not end the game, every frame belongs to a game that has
been started and is not over. -/
theorem C176_legal_life (hm : o.maxFrames = 0) (hg : ∀ s, ends (g.step s o.a₀).2 = false) (w : State S A P) (hw : w.log = [])
    (hl : w.1.1 = Life.init) (ops : List (Op A)) (hp : Proper (observed o draw rand count warp g) w false ops) :
    Legal o.maxFrames (run (observed o draw rand count warp g) w ops).1.log := by
  refine (safe_proper (safe_stack o _ _ (logged g) (safe_limit o.maxFrames g) (calm_unlimited hm hg) (fun t => ⟨fun h => h, fun h => h⟩))
    o.obs _ (fun t => ⟨fun h => h, fun h => h⟩) warp ops w false ?_ (fun h => by cases h) hp).1
  refine ⟨?_, fun _ h => by rw [hl] at h; cases h⟩
  show Legal _ w.log
  rw [hw]; exact legal_nil _

/-- A game that ends after ten jumps and in which nothing happens without them meets the hypothesis of `C176_legal_life`. -/
example : ∀ s, ends ((⟨fun _ => (0, fun _ => 0), fun s a => (s + a, ⟨fun _ => s, 1, decide (0 < a ∧ 10 ≤ s + a), false⟩)⟩ :
    Gym Nat (Unit → Nat) Nat ℝ).step s 0).2 = false := by
  intro s; simp [ends]

end Verif.AtariStack
