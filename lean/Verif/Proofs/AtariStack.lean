import Verif.Model.AtariStack
import Verif.Spec.AtariStack
set_option autoImplicit false
set_option linter.unusedSectionVars false

/-! Helper lemmas about the stack of Atari wrappers. -/

namespace Verif.AtariStack
open Train (StepOut)
open Wrappers (Gym Op Out ends limitOut noopLoop Buffer maxAndSkip fireReset Life lifeReset lifeOut stepReset skipLoop)
open AtariPipeline (Frame Config wrapDeepmind)
variable {S O A K P T : Type}

theorem legal_nil (m : Nat) : Legal m ([] : List (Raw O A K)) := by
  intro b c a o h; simp at h

theorem legal_reset {m : Nat} {log : List (Raw O A K)} (h : Legal m log) : Legal m (log ++ [.reset]) := by
  intro b c a o e
  rcases List.eq_nil_or_concat c with rfl | ⟨c', x, rfl⟩
  · have := congrArg List.getLast? e
    simp at this
  · rw [List.concat_eq_append, ← List.cons_append, ← List.append_assoc] at e
    exact h b c' a o (List.append_inj' e rfl).1

theorem legal_frame {m : Nat} {log : List (Raw O A K)} (h : Legal m log) {fs} (hr : Running m log fs) (a : A) (out : StepOut O K) :
    Legal m (log ++ [.frame a out]) := by
  intro b c a' o e
  rcases List.eq_nil_or_concat c with rfl | ⟨c', x, rfl⟩
  · exact ⟨fs, (List.append_inj' e rfl).1 ▸ hr⟩
  · rw [List.concat_eq_append, ← List.cons_append, ← List.append_assoc] at e
    exact h b c' a' o (List.append_inj' e rfl).1

/-- An environment that keeps `I` as long as it is only stepped while `L` holds; `D` holds when an episode has ended. -/
structure Safe (g : Gym T O A K) (I L D : T → Prop) : Prop where
  reset : ∀ t, I t → I (g.reset t).1 ∧ L (g.reset t).1
  step : ∀ t a, I t → L t → I (g.step t a).1 ∧ (ends (g.step t a).2 = false → L (g.step t a).1) ∧
    (ends (g.step t a).2 = true → D (g.step t a).1)

variable {I L D : T → Prop}

theorem ends_limit (m e : Nat) (out : StepOut O K) : ends (if m = 0 then out else limitOut m e out) = (ends out || decide (m ≠ 0 ∧ m ≤ e)) := by
  unfold limitOut
  by_cases h : m = 0
  · simp [h]
  · by_cases h2 : m ≤ e
    · simp [h, h2, ends]
    · simp [h, h2]

theorem safe_limit (m : Nat) (g : Gym S O A K) :
    Safe (limit m (logged g)) (fun w => Legal m w.2.2) (fun w => ∃ fs, Running m w.2.2 fs ∧ w.1 = fs.length) (fun w => Finished m w.2.2) := by
  refine ⟨fun t h => ⟨legal_reset h, [], ⟨⟨t.2.2, rfl⟩, by simp, fun h => Nat.pos_of_ne_zero h⟩, rfl⟩, fun t a h hl => ?_⟩
  obtain ⟨fs, hr, he⟩ := hl
  have heq : (limit m (logged g)).step t a = ((t.1 + 1, ((g.step t.2.1 a).1, t.2.2 ++ [.frame a (g.step t.2.1 a).2])),
      if m = 0 then (g.step t.2.1 a).2 else limitOut m (t.1 + 1) (g.step t.2.1 a).2) := rfl
  rw [heq]
  simp only [ends_limit]
  obtain ⟨⟨older, ho⟩, h2, h3⟩ := hr
  have hlog : t.2.2 ++ [.frame a (g.step t.2.1 a).2] =
      older ++ .reset :: (fs ++ [(a, (g.step t.2.1 a).2)]).map fun f => Raw.frame f.1 f.2 := by rw [ho]; simp
  refine ⟨legal_frame h ⟨⟨older, ho⟩, h2, h3⟩ _ _, fun hn => ?_, fun hn => ?_⟩
  · simp only [Bool.or_eq_false_iff, decide_eq_false_iff_not] at hn
    refine ⟨fs ++ [(a, (g.step t.2.1 a).2)], ⟨⟨older, hlog⟩, ?_, fun hm => ?_⟩, by simp [he]⟩
    · intro f hf
      rcases List.mem_append.1 hf with hf | hf
      · exact h2 f hf
      · obtain rfl := List.mem_singleton.1 hf; exact hn.1
    · have := hn.2; simp only [List.length_append, List.length_singleton]; omega
  · refine ⟨older, fs, (a, (g.step t.2.1 a).2), hlog, ?_⟩
    simp only [Bool.or_eq_true, decide_eq_true_eq] at hn
    rcases hn with hn | ⟨hm, hn⟩
    · exact .inl hn
    · refine .inr ⟨hm, ?_⟩
      have := h3 hm
      simp only [List.length_append, List.length_singleton]; omega

theorem safe_stepReset {g : Gym T O A K} (h : Safe g I L D) (a : A) (t : T) (hi : I t) (hl : L t) :
    I (stepReset g a t).1 ∧ L (stepReset g a t).1 := by
  obtain ⟨s1, s2, -⟩ := h.step t a hi hl
  unfold stepReset
  simp only
  split
  · exact h.reset _ s1
  · rename_i hn; exact ⟨s1, s2 (by simpa using hn)⟩

theorem safe_noopLoop {g : Gym T O A K} (h : Safe g I L D) (a : A) (n : Nat) (t : T) (o : Option O) (tr) (hi : I t) (hl : L t) :
    I (noopLoop g a n t o tr).1 ∧ L (noopLoop g a n t o tr).1 := by
  induction n generalizing t o tr with
  | zero => exact ⟨hi, hl⟩
  | succ n ih =>
    obtain ⟨s1, s2⟩ := safe_stepReset h a t hi hl
    exact ih _ _ _ s1 s2

theorem safe_noop {g : Gym T O A K} (h : Safe g I L D) (draw : T → T × Nat) (hd : ∀ t, (I t → I (draw t).1) ∧ (L t → L (draw t).1)) (a : A) :
    Safe (noop draw a g) I L D := by
  refine ⟨fun t hi => ?_, h.step⟩
  obtain ⟨r1, r2⟩ := h.reset t hi
  exact safe_noopLoop h a _ _ _ _ ((hd _).1 r1) ((hd _).2 r2)

theorem safe_skipLoop [Add K] {g : Gym T (P → Nat) A K} (h : Safe g I L D) (skip : Nat) (a : A) (fuel i : Nat) (k : K) (last) (w : Buffer P × T)
    (hi : I w.2) (hl : L w.2) :
    I (skipLoop g skip a (fuel + 1) i k last w).1.2 ∧ ∃ out, (skipLoop g skip a (fuel + 1) i k last w).2.2 = some out ∧
      (ends out = false → L (skipLoop g skip a (fuel + 1) i k last w).1.2) ∧
      (ends out = true → D (skipLoop g skip a (fuel + 1) i k last w).1.2) := by
  induction fuel generalizing i k last w with
  | zero =>
    obtain ⟨s1, s2, s3⟩ := h.step w.2 a hi hl
    simp only [skipLoop]
    split
    · exact ⟨s1, _, rfl, s2, s3⟩
    · exact ⟨s1, _, rfl, s2, s3⟩
  | succ fuel ih =>
    obtain ⟨s1, s2, s3⟩ := h.step w.2 a hi hl
    rw [skipLoop]
    split
    · exact ⟨s1, _, rfl, s2, s3⟩
    · rename_i hn
      exact ih _ _ _ _ s1 (s2 (by simpa using hn))

theorem safe_skipped [Add K] [Zero K] {g : Gym T (P → Nat) A K} (h : Safe g I L D) (skip : Nat) :
    Safe (skipped (skip + 1) g) (fun w => I w.2) (fun w => L w.2) (fun w => D w.2) := by
  refine ⟨fun t hi => h.reset t.2 hi, fun t a hi hl => ?_⟩
  obtain ⟨s1, out, s2, s3, s4⟩ := safe_skipLoop h (skip + 1) a skip 0 0 none t hi hl
  simp only [skipped, maxAndSkip]
  rw [s2]
  exact ⟨s1, s3, s4⟩

theorem safe_lives {g : Gym T O A K} (h : Safe g I L D) (count : T → Nat) (a : A) :
    Safe (lives false count a g) (fun w => I w.2) (fun w => L w.2) (fun w => D w.2) :=
  ⟨fun t hi => h.reset t.2 hi, fun t b hi hl => h.step t.2 b hi hl⟩

theorem safe_fire {g : Gym T O A K} (h : Safe g I L D) (b : Bool) (a₁ a₂ : A) : Safe (fire b a₁ a₂ g) I L D := by
  refine ⟨fun t hi => ?_, h.step⟩
  cases b with
  | false => exact h.reset t hi
  | true =>
    obtain ⟨r1, r2⟩ := h.reset t hi
    obtain ⟨s1, s2⟩ := safe_stepReset h a₁ _ r1 r2
    exact safe_stepReset h a₂ _ s1 s2

theorem safe_inner [Add K] [Zero K] (o : Options A) (ho : o.episodeLife = false) (draw : S → S × Nat) (count : S → Nat) (g : Gym S (P → Nat) A K) :
    Safe (inner o (fun w => let d := draw w.1; ((d.1, w.2), d.2)) (fun w => count w.1) (logged g)) (fun w => Legal o.maxFrames w.2.2.2.2)
      (fun w => ∃ fs, Running o.maxFrames w.2.2.2.2 fs ∧ w.2.2.1 = fs.length) (fun w => Finished o.maxFrames w.2.2.2.2) := by
  unfold inner makeAtari
  rw [ho]
  refine safe_fire (safe_lives (safe_skipped (safe_noop (safe_limit o.maxFrames g) _ ?_ _) 3) _ _) _ _ _
  intro t
  exact ⟨fun h => h, fun h => h⟩

/-! ## The outer wrappers -/

/-- The rewards that the agent gets. -/
noncomputable def shown (c : Config) (r : ℝ) : ℝ := if c.clipRewards then AtariPipeline.clipReward r else r

theorem preprocess_spec {X : Type} (c : Config) (draw : T → T × ℝ) (warp : X → Frame) (call : T → Op A → T × Out X ℝ) (t : T) (op : Op A) :
    ((AtariPipeline.preprocess c draw warp call t op).1 = (call t op).1 ∨
      (AtariPipeline.preprocess c draw warp call t op).1 = (draw (call t op).1).1) ∧
    match (call t op).2 with
    | .obs _ => ∃ o, (AtariPipeline.preprocess c draw warp call t op).2 = .obs o
    | .step out => ∃ o, (AtariPipeline.preprocess c draw warp call t op).2 = .step ⟨o, shown c out.r, out.done, out.needsReset⟩
    | .error => (AtariPipeline.preprocess c draw warp call t op).2 = .error := by
  obtain ⟨c1, c2, c3⟩ := c
  unfold AtariPipeline.preprocess shown
  cases hc : (call t op).2 <;> cases c1 <;> cases c2 <;> cases c3 <;>
    simp [AtariPipeline.observationWrapper, AtariPipeline.rewardWrapper, AtariPipeline.flickerFrame, hc]

theorem wrap_spec {X : Type} (c : Config) (draw : T → T × ℝ) (warp : X → Frame) (call : T → Op A → T × Out X ℝ) (w : T × List Frame) (op : Op A) :
    ((wrapDeepmind c draw warp call w op).1.1 = (call w.1 op).1 ∨ (wrapDeepmind c draw warp call w op).1.1 = (draw (call w.1 op).1).1) ∧
    ∀ out', (wrapDeepmind c draw warp call w op).2 = .step out' →
      ∃ out, (call w.1 op).2 = .step out ∧ out'.r = shown c out.r ∧ ends out' = ends out ∧ out'.done = out.done := by
  have h := preprocess_spec c draw warp call w.1 op
  unfold wrapDeepmind AtariPipeline.frameStack
  simp only
  cases hc : (call w.1 op).2 with
  | obs o =>
    rw [hc] at h
    obtain ⟨h1, o', h2⟩ := h
    rw [h2]
    refine ⟨h1, fun out' h => ?_⟩
    simp only at h
    split at h <;> cases h
  | step out =>
    rw [hc] at h
    obtain ⟨h1, o', h2⟩ := h
    rw [h2]
    refine ⟨h1, fun out' h => ⟨out, rfl, ?_⟩⟩
    simp only at h
    split at h
    · cases h; exact ⟨rfl, rfl, rfl⟩
    · cases h
  | error =>
    rw [hc] at h
    obtain ⟨h1, h2⟩ := h
    rw [h2]
    exact ⟨h1, fun out' h => by cases h⟩

theorem safe_proper {g : Gym T (P → Nat) A ℝ} (h : Safe g I L D) (c : Config) (draw : T → T × ℝ)
    (hd : ∀ t, (I t → I (draw t).1) ∧ (L t → L (draw t).1)) (warp : (P → Nat) → Frame) (ops : List (Op A)) (w : T × List Frame) (playing : Bool)
    (hi : I w.1) (hl : playing = true → L w.1) (hp : Proper (wrapDeepmind c draw warp g.call) w playing ops) :
    I (Wrappers.run (wrapDeepmind c draw warp g.call) w ops).1.1 := by
  induction ops generalizing w playing with
  | nil => exact hi
  | cons op ops ih =>
    obtain ⟨w1, w2⟩ := wrap_spec c draw warp g.call w op
    cases op with
    | reset =>
      obtain ⟨r1, r2⟩ := h.reset w.1 hi
      refine ih _ true ?_ (fun _ => ?_) hp
      · rcases w1 with e | e <;> rw [e]
        · exact r1
        · exact (hd _).1 r1
      · rcases w1 with e | e <;> rw [e]
        · exact r2
        · exact (hd _).2 r2
    | step a =>
      obtain ⟨p1, p2⟩ := hp
      obtain ⟨s1, s2, -⟩ := h.step w.1 a hi (hl p1)
      refine ih _ _ ?_ (fun hq => ?_) p2
      · rcases w1 with e | e <;> rw [e]
        · exact s1
        · exact (hd _).1 s1
      · cases ho : (wrapDeepmind c draw warp g.call w (.step a)).2 with
        | obs o => rw [ho] at hq; cases hq
        | error => rw [ho] at hq; cases hq
        | step out' =>
          obtain ⟨out, e1, -, e2, -⟩ := w2 out' ho
          rw [ho] at hq
          have e1' : (g.step w.1 a).2 = out := by
            have : (g.call w.1 (.step a)).2 = .step (g.step w.1 a).2 := rfl
            rw [this] at e1; cases e1; rfl
          have : ends (g.step w.1 a).2 = false := by rw [e1', ← e2]; simpa using hq
          rcases w1 with e | e <;> rw [e]
          · exact s2 this
          · exact (hd _).2 (s2 this)

/-- These are the wrappers of Model/Wrappers.lean (no counterpart in the code). -/
theorem limit_call (m e : Nat) (hm : m ≠ 0) (g : Gym S O A K) (s : S) (op : Op A) :
    Wrappers.timeLimit g m (some e, s) op = (((some ((limit m g).call (e, s) op).1.1), ((limit m g).call (e, s) op).1.2), ((limit m g).call (e, s) op).2) := by
  cases op <;> simp [Wrappers.timeLimit, Gym.call, limit, hm]

/-- The same for EpisodicLifeEnv (no counterpart in the code). -/
theorem lives_call (count : S → Nat) (a₀ : A) (g : Gym S O A K) (w : Life × S) (op : Op A) :
    Wrappers.episodicLife g count a₀ w op = (lives true count a₀ g).call w op := by
  cases op <;> rfl

end Verif.AtariStack
