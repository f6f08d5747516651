import Mathlib.Data.Int.Order.Basic
import Mathlib.Tactic.Ring
import Verif.Proofs.TrainAgentBatch
set_option autoImplicit false

/-! # C23, C24: `train_agent_batch` -/

namespace Verif.TrainBatch
open Train (StepOut Suffix)
variable {O A K S X : Type} [Zero S] [LinearOrder S]

/-- C23: every execution, also one cut short by an exception, follows the
protocol: the agent gets each environment's observation, reward, done flag and
reset flag, exactly the environments whose episode ended (done, needs_reset or
maximal length) are reset, and `<t>_finish` is the last call of exactly the
normal executions. -/
theorem C23_protocol (c : Cfg S) (hn : 0 < c.numEnvs) (w : World O A K S X) :
    ∃ q : Phase O A K S, Steps (Next c) .fresh (run c w).1 q ∧
      (match (run c w).2 with
        | .ok _ => ∃ t, q = .finished t
        | .error _ => ∀ t, q ≠ .finished t) := by
  obtain ⟨q, h1, h2⟩ := run_hoare c hn w
  refine ⟨q, h1, ?_⟩
  cases hr : (run c w).2 <;> rw [hr] at h2 <;> exact h2

/-- Vector steps. -/
def Ev.isStep : Ev O A K S → Bool
  | .step .. => true
  | _ => false

/-- Hooks and checkpoints. -/
def Ev.isDue : Ev O A K S → Bool
  | .hook .. => true
  | .save _ .checkpoint => true
  | _ => false

/-- Uses of the agent and the environments. -/
def Ev.isUse : Ev O A K S → Bool
  | .reset .. | .act .. | .step .. | .observe .. => true
  | _ => false

/-- Some evaluation made training stop. -/
def Succeeded (c : Cfg S) (evs : List (Ev O A K S)) : Prop :=
  ∃ t k x m s, .evaluate t k (some x) m ∈ evs ∧ c.successfulScore = some s ∧ s ≤ m

/-- Counting: the number of steps in every phase. -/
def TimeInv (c : Cfg S) (l : List (Ev O A K S)) (q : Phase O A K S) : Prop :=
  let m := l.countP Ev.isStep
  match q with
  | .fresh => m = 0
  | .ready _ _ t _ | .chosen _ _ t _ => t = c.stepOffset + c.numEnvs * m ∧ (m = 0 ∨ t < c.steps)
  | .stepped _ _ t _ => 0 < m ∧ t + c.numEnvs = c.stepOffset + c.numEnvs * m ∧ (m = 1 ∨ t < c.steps)
  | .counting _ _ _ t _ => 0 < m ∧ t = c.stepOffset + c.numEnvs * m ∧ (m = 1 ∨ t < c.steps + c.numEnvs)
  | .judged s _ _ t _ => 0 < m ∧ t = c.stepOffset + c.numEnvs * m ∧ (m = 1 ∨ t < c.steps + c.numEnvs) ∧
      (s = true → Succeeded c l)
  | .finished t => 0 < m ∧ t = c.stepOffset + c.numEnvs * m ∧ (m = 1 ∨ t < c.steps + c.numEnvs) ∧
      (c.steps ≤ t ∨ Succeeded c l)
  | .failed _ => True

theorem Succeeded.append {c : Cfg S} {l l' : List (Ev O A K S)} (h : Succeeded c l) :
    Succeeded c (l ++ l') := by
  obtain ⟨t, k, x, m, s, h1, h2⟩ := h
  exact ⟨t, k, x, m, s, by simp [h1], h2⟩

omit [Zero S] [LinearOrder S] in
theorem due_mem {n h : Nat} {f : Option Nat} {t : Nat} {e : Ev O A K S} (he : e ∈ due n h f t) :
    e.isStep = false ∧ e.isDue = true := by
  unfold due at he
  rw [List.mem_flatMap] at he
  obtain ⟨j, _, he⟩ := he
  rcases List.mem_append.mp he with he | he
  · split at he
    · simp at he
    · split at he
      · rw [List.mem_singleton.mp he]; exact ⟨rfl, rfl⟩
      · simp at he
  · obtain ⟨i, _, rfl⟩ := List.mem_map.mp he
    exact ⟨rfl, rfl⟩

omit [Zero S] [LinearOrder S] in
theorem due_add (a b h : Nat) (f : Option Nat) (t : Nat) :
    due (O := O) (A := A) (K := K) (S := S) (a + b) h f t = due a h f t ++ due b h f (t + a) := by
  induction a generalizing t with
  | zero => simp [due]
  | succ a ih =>
    rw [show a + 1 + b = (a + b) + 1 by omega, due_succ, due_succ, ih, List.append_assoc,
      show t + 1 + a = t + (a + 1) by omega]

/-- The hooks and checkpoints made so far and still to make are those due. -/
def DueInv (c : Cfg S) (l : List (Ev O A K S)) (q : Phase O A K S) : Prop :=
  let m := l.countP Ev.isStep
  match q with
  | .fresh => l.filter Ev.isDue = []
  | .ready .. | .chosen .. =>
    l.filter Ev.isDue = due (c.numEnvs * m) c.numHooks c.checkpointFreq c.stepOffset
  | .stepped .. =>
    l.filter Ev.isDue = due (c.numEnvs * (m - 1)) c.numHooks c.checkpointFreq c.stepOffset
  | .counting todo .. => (∀ e ∈ todo, e.isStep = false ∧ e.isDue = true) ∧
    l.filter Ev.isDue ++ todo = due (c.numEnvs * m) c.numHooks c.checkpointFreq c.stepOffset
  | .judged .. | .finished _ =>
    l.filter Ev.isDue = due (c.numEnvs * m) c.numHooks c.checkpointFreq c.stepOffset
  | .failed _ => True

theorem judged_inv {c : Cfg S} {b : Bool} {ends : List Bool} {lens : List Nat} {t k : Nat}
    {e : Ev O A K S} {r : Phase O A K S} (h : Next c (.judged b ends lens t k) e r) :
    (b = false ∧ t < c.steps ∧ ∃ obss, e = .reset (some (ends.map not)) obss ∧
      r = .ready obss ((ends.zip lens).map fun x => if x.1 then 0 else x.2) t k) ∨
    ((b = true ∨ c.steps ≤ t) ∧ e = .save t .finish ∧ r = .finished t) ∨
    (e = .save t .except ∧ r = .failed t) := by
  cases h with
  | reset _ _ _ _ obss h => exact .inl ⟨rfl, h, obss, rfl, rfl⟩
  | finish _ _ _ _ _ h => exact .inr (.inl ⟨h, rfl, rfl⟩)
  | fail _ hp => exact .inr (.inr ⟨rfl, rfl⟩)

theorem inv_step {c : Cfg S} {l : List (Ev O A K S)} {q r : Phase O A K S} {e : Ev O A K S}
    (hi : TimeInv c l q ∧ DueInv c l q) (h : Next c q e r) :
    TimeInv c (l ++ [e]) r ∧ DueInv c (l ++ [e]) r := by
  obtain ⟨h1, h2⟩ := hi
  cases h with
  | first obss =>
    simp only [TimeInv, DueInv, List.countP_append, List.countP_singleton, Ev.isStep, List.filter_append,
      Bool.false_eq_true, if_false, Nat.add_zero] at h1 h2 ⊢
    rw [h1, h2]
    exact ⟨⟨by simp, .inl rfl⟩, by simp [Ev.isDue, due]⟩
  | setT =>
    simp only [TimeInv, DueInv, List.countP_append, List.countP_singleton, Ev.isStep, List.filter_append,
      Bool.false_eq_true, if_false, Nat.add_zero] at h1 h2 ⊢
    exact ⟨h1, by rw [← h2]; simp [Ev.isDue]⟩
  | act =>
    simp only [TimeInv, DueInv, List.countP_append, List.countP_singleton, Ev.isStep, List.filter_append,
      Bool.false_eq_true, if_false, Nat.add_zero] at h1 h2 ⊢
    exact ⟨h1, by rw [← h2]; simp [Ev.isDue]⟩
  | step a lens t k outs =>
    simp only [TimeInv, DueInv, List.countP_append, List.countP_singleton, Ev.isStep, Ev.isDue, List.filter_append,
      if_true] at h1 h2 ⊢
    refine ⟨⟨by omega, ?_, ?_⟩, ?_⟩
    · rw [h1.1, Nat.mul_succ]; omega
    · rcases h1.2 with h | h
      · left; omega
      · exact .inr h
    · simpa [Ev.isDue] using h2
  | observe outs lens t k resets ends hr he =>
    simp only [TimeInv, DueInv, List.countP_append, List.countP_singleton, Ev.isStep, Ev.isDue, List.filter_append,
      Bool.false_eq_true, if_false, Nat.add_zero] at h1 h2 ⊢
    refine ⟨⟨h1.1, h1.2.1, ?_⟩, fun e he => due_mem he, ?_⟩
    · rcases h1.2.2 with h | h
      · exact .inl h
      · right; omega
    · rw [h2]
      obtain ⟨m, hm⟩ : ∃ m, l.countP Ev.isStep = m + 1 := ⟨_, (Nat.succ_pred_eq_of_pos h1.1).symm⟩
      rw [hm] at h1 ⊢
      have : t = c.stepOffset + c.numEnvs * m := by
        have := h1.2.1; rw [Nat.mul_succ] at this; omega
      rw [Nat.mul_succ, due_add, this]
      simp [Ev.isDue]
  | count e todo ends lens t k =>
    obtain ⟨h3, h4⟩ := h2
    have h5 := h3 e (by simp)
    simp only [TimeInv, DueInv, List.countP_append, List.countP_singleton, h5.1, List.filter_append,
      Bool.false_eq_true, if_false, Nat.add_zero] at h1 ⊢
    refine ⟨h1, fun e' he' => h3 e' (by simp [he']), ?_⟩
    rw [← h4]
    simp [h5.2]
  | evaluate ends lens t k score m hev =>
    simp only [TimeInv, DueInv, List.countP_append, List.countP_singleton, Ev.isStep, List.filter_append,
      Bool.false_eq_true, if_false, Nat.add_zero] at h1 h2 ⊢
    refine ⟨⟨h1.1, h1.2.1, h1.2.2, ?_⟩, ?_⟩
    · intro hs
      unfold success at hs
      split at hs
      · rename_i x s hs'
        simp only [Bool.and_eq_true, decide_eq_true_eq] at hs
        exact ⟨t, k, x, m, s, by simp, by assumption, hs.2⟩
      · cases hs
    · rw [← h2.2]; simp [Ev.isDue]
  | noEvaluator hev hn =>
    rcases judged_inv hn with ⟨_, hlt, obss, rfl, rfl⟩ | ⟨hb, rfl, rfl⟩ | ⟨rfl, rfl⟩
    · simp only [TimeInv, DueInv, List.countP_append, List.countP_singleton, Ev.isStep, List.filter_append,
        Bool.false_eq_true, if_false, Nat.add_zero] at h1 h2 ⊢
      exact ⟨⟨h1.2.1, .inr hlt⟩, by rw [← h2.2]; simp [Ev.isDue]⟩
    · simp only [TimeInv, DueInv, List.countP_append, List.countP_singleton, Ev.isStep, List.filter_append,
        Bool.false_eq_true, if_false, Nat.add_zero, false_or] at h1 h2 hb ⊢
      exact ⟨⟨h1.1, h1.2.1, h1.2.2, .inl hb⟩, by rw [← h2.2]; simp [Ev.isDue]⟩
    · exact ⟨trivial, trivial⟩
  | reset ends lens t k obss hlt =>
    simp only [TimeInv, DueInv, List.countP_append, List.countP_singleton, Ev.isStep, List.filter_append,
      Bool.false_eq_true, if_false, Nat.add_zero] at h1 h2 ⊢
    exact ⟨⟨h1.2.1, .inr hlt⟩, by rw [← h2]; simp [Ev.isDue]⟩
  | finish s ends lens t k hs =>
    simp only [TimeInv, DueInv, List.countP_append, List.countP_singleton, Ev.isStep, List.filter_append,
      Bool.false_eq_true, if_false, Nat.add_zero] at h1 h2 ⊢
    refine ⟨⟨h1.1, h1.2.1, h1.2.2.1, ?_⟩, by rw [← h2]; simp [Ev.isDue]⟩
    rcases hs with hs | hs
    · exact .inr (h1.2.2.2 hs).append
    · exact .inl hs
  | fail p hp => exact ⟨trivial, trivial⟩
  | closeEnv => exact ⟨trivial, trivial⟩
  | closeEvalEnv => exact ⟨trivial, trivial⟩

theorem run_inv (c : Cfg S) {q : Phase O A K S} {l : List (Ev O A K S)} (h : Steps (Next c) .fresh l q) :
    TimeInv c l q ∧ DueInv c l q :=
  h.invariant (I := fun l q => TimeInv c l q ∧ DueInv c l q) ⟨rfl, rfl⟩ (fun _ _ _ _ => inv_step)

/-- C23: in a normal execution the step counter, starting at `step_offset`,
grows by `num_envs` per vector step; training ends at the first value (after at
least one vector step) that reaches `steps`, so it overshoots by less than
`num_envs`, unless an evaluation succeeded before. -/
theorem C23_step_count (c : Cfg S) (hn : 0 < c.numEnvs) (w : World O A K S X)
    (hok : (run c w).2 = .ok ()) :
    let m := (run c w).1.countP Ev.isStep
    (run c w).1.getLast? = some (.save (c.stepOffset + c.numEnvs * m) .finish) ∧ 0 < m ∧
      (m = 1 ∨ c.stepOffset + c.numEnvs * (m - 1) < c.steps) ∧
      (c.steps ≤ c.stepOffset + c.numEnvs * m ∨ Succeeded c (run c w).1) := by
  obtain ⟨q, h1, h2⟩ := C23_protocol c hn w
  rw [hok] at h2
  obtain ⟨t, rfl⟩ := h2
  obtain ⟨⟨h3, h4, h5, h6⟩, _⟩ := run_inv c h1
  intro m
  refine ⟨?_, h3, ?_, ?_⟩
  · -- only the `_finish` snapshot leads to `finished`
    have hne : (run c w).1 ≠ [] := by
      intro h; rw [h] at h3; simp at h3
    obtain ⟨l, e, hl⟩ : ∃ l e, (run c w).1 = l ++ [e] :=
      ⟨_, _, (List.dropLast_append_getLast hne).symm⟩
    rw [hl] at h1
    obtain ⟨q, hq1, hq2⟩ := h1.split
    have : e = .save t .finish := by
      cases hq2 with
      | cons hq3 hq4 =>
        cases hq4
        cases hq3 with
        | finish => rfl
        | noEvaluator _ hn =>
          rcases judged_inv hn with ⟨_, _, obss, _, h⟩ | ⟨_, h, h'⟩ | ⟨_, h⟩
          · cases h
          · cases h'; exact h
          · cases h
    have hlast : (run c w).1.getLast? = some e := by rw [hl, List.getLast?_append]; rfl
    rw [hlast, this, h4]
  · rcases h5 with h | h
    · exact .inl h
    · right
      rw [h4] at h
      obtain ⟨k, hk⟩ : ∃ k, m = k + 1 := ⟨_, (Nat.succ_pred_eq_of_pos h3).symm⟩
      have hk' : (run c w).1.countP Ev.isStep = k + 1 := hk
      rw [hk', Nat.mul_succ] at h
      rw [hk, Nat.add_sub_cancel]
      omega
  · rcases h6 with h | h
    · left; rw [h4] at h; exact h
    · exact .inr h

/-- C23: in a normal execution the checkpoints and hook calls are exactly those
due at the steps `step_offset + 1, ..., step_offset + num_envs * m`, in
order. -/
theorem C23_hooks_checkpoints (c : Cfg S) (hn : 0 < c.numEnvs) (w : World O A K S X)
    (hok : (run c w).2 = .ok ()) :
    (run c w).1.filter Ev.isDue =
      due (c.numEnvs * (run c w).1.countP Ev.isStep) c.numHooks c.checkpointFreq c.stepOffset := by
  obtain ⟨q, h1, h2⟩ := C23_protocol c hn w
  rw [hok] at h2
  obtain ⟨t, rfl⟩ := h2
  exact (run_inv c h1).2

/-! ## C24 -/

theorem after_failed {c : Cfg S} {t : Nat} {l : List (Ev O A K S)} {q : Phase O A K S}
    (h : Steps (Next c) (.failed t) l q) : l.filter Ev.isUse = [] := by
  generalize hp : (Phase.failed t : Phase O A K S) = p at h
  induction h with
  | nil => rfl
  | cons hn hs ih =>
    subst hp
    cases hn with
    | closeEnv => exact ih rfl
    | closeEvalEnv => exact ih rfl
    | fail _ hp => exact absurd rfl (hp.2.2 t)

theorem after_finished {c : Cfg S} {t : Nat} {l : List (Ev O A K S)} {q : Phase O A K S}
    (h : Steps (Next c) (.finished t) l q) : l = [] := by
  cases h with
  | nil => rfl
  | cons hn hs =>
    cases hn with
    | fail _ hp => exact absurd rfl (hp.2.1 t)

/-- C24, except for the score `0.0`: when an evaluation takes place, its score is
not `0.0` and the best score reaches `successful_score`, then the agent and the
environments are not used any more, so training stops. -/
theorem C24_success_stops_partial (c : Cfg S) (hn : 0 < c.numEnvs) (w : World O A K S X)
    (pre post : List (Ev O A K S)) (t k : Nat) (x m s : S)
    (h : (run c w).1 = pre ++ .evaluate t k (some x) m :: post) (hx : x ≠ 0)
    (hs : c.successfulScore = some s) (hm : s ≤ m) : post.filter Ev.isUse = [] := by
  obtain ⟨q, h1, _⟩ := C23_protocol c hn w
  rw [h] at h1
  obtain ⟨q1, hq1, h2⟩ := h1.split
  cases h2 with
  | cons hn hs' =>
    cases hn with
    | evaluate ends lens t k _ _ hev =>
      cases hs' with
      | nil => rfl
      | cons hn hs' =>
        rw [hs] at hn
        have hsucc : success (some s) (some x) m = true := by simp [success, hx, hm]
        rcases judged_inv hn with ⟨h, _⟩ | ⟨_, rfl, rfl⟩ | ⟨rfl, rfl⟩
        · rw [hsucc] at h; cases h
        · rw [after_finished hs']; rfl
        · simpa [Ev.isUse] using after_failed hs'
    | count =>
      exfalso
      have hinv := run_inv c hq1
      have := (hinv.2.1 _ (List.mem_cons_self ..)).2
      cases this
    | noEvaluator _ hn => rcases judged_inv hn with ⟨_, _, _, h, _⟩ | ⟨_, h, _⟩ | ⟨h, _⟩ <;> cases h

/-! ## Concrete executions -/

/-- Two environments; the first one ends every second step, the second one
asks for a reset at the third; evaluation scores are `0`. -/
def exIter (i : Nat) : Iter Nat Nat Int Int String where
  act := .ok [i, i]
  step := .ok [⟨10 + i, 1, decide (i % 2 = 1), false⟩, ⟨20 + i, 2, false, decide (i = 2)⟩]
  observe := .ok ()
  checkpoint := fun _ => .ok ()
  hook := fun _ _ => .ok ()
  evaluate := .ok (some 0, 0)
  reset := .ok [7, 8]

def exWorld : World Nat Nat Int Int String :=
  ⟨.ok [0, 0], exIter, .ok (), .ok (), .ok (), .ok ()⟩

def exCfg : Cfg Int := ⟨2, 5, 0, some 2, some 3, true, some 0, 1, false⟩

/-- C24 is false when the score is `0.0`: an evaluation whose score `0.0`
reaches `successful_score = 0.0` does not stop training; the agent goes on
acting until `steps`. -/
theorem C24_violated_zero_score :
    ∃ (pre post : List (Ev Nat Nat Int Int)) (t k : Nat),
      (run exCfg exWorld).1 = pre ++ .evaluate t k (some 0) 0 :: post ∧
      exCfg.successfulScore = some 0 ∧ (run exCfg exWorld).2 = .ok () ∧
      (post.filter Ev.isStep).length = 2 :=
  ⟨(run exCfg exWorld).1.take 6, (run exCfg exWorld).1.drop 7, 2, 0, by decide +kernel, rfl, rfl, by decide +kernel⟩

example : (run exCfg exWorld) = ([.reset none [0, 0],
    .act [0, 0] [0, 0], .step [0, 0] [⟨10, 1, false, false⟩, ⟨20, 2, false, false⟩],
      .observe [10, 20] [1, 2] [false, false] [false, false], .hook 0 1, .hook 0 2,
      .evaluate 2 0 (some 0) 0, .reset (some [true, true]) [7, 8],
    .act [7, 8] [1, 1], .step [1, 1] [⟨11, 1, true, false⟩, ⟨21, 2, false, false⟩],
      .observe [11, 21] [1, 2] [true, false] [true, true], .save 3 .checkpoint, .hook 0 3, .hook 0 4,
      .evaluate 4 2 (some 0) 0, .reset (some [false, false]) [7, 8],
    .act [7, 8] [2, 2], .step [2, 2] [⟨12, 1, false, false⟩, ⟨22, 2, false, true⟩],
      .observe [12, 22] [1, 2] [false, false] [false, true], .hook 0 5, .save 6 .checkpoint, .hook 0 6,
      .evaluate 6 3 (some 0) 0, .save 6 .finish], .ok ()) := by decide +kernel

-- a successful evaluation with a non-zero score stops training
example : let w : World Nat Nat Int Int String :=
      { exWorld with iter := fun i => { exIter i with evaluate := .ok (some 1, 1) } }
    (run exCfg w).2 = .ok () ∧ (run exCfg w).1.countP Ev.isStep = 1 ∧
    (run exCfg w).1.getLast? = some (.save 2 .finish) := by
  refine ⟨rfl, ?_, ?_⟩ <;> decide +kernel

-- a crash in a hook: the snapshot carries the exact step, and both environments are closed
example : let w : World Nat Nat Int Int String :=
      { exWorld with iter := fun i => { exIter i with hook := fun _ t => if t = 3 then .error "boom" else .ok () } }
    (run exCfg w).2 = .error "boom" ∧
    (run exCfg w).1.drop 12 = [.save 3 .except, .closeEnv, .closeEvalEnv] := by
  refine ⟨rfl, ?_⟩; decide +kernel

end Verif.TrainBatch
