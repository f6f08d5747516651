import Mathlib.Tactic.Linarith
import Mathlib.Tactic.NormNum
import Mathlib.Algebra.BigOperators.Group.List.Basic
import Verif.Model.Monitor
set_option autoImplicit false
set_option linter.unusedSectionVars false

/-!
# C112: what the monitor records
-/

namespace Verif.Monitor

/-! ## Specification -/

/-- The episodes as the caller saw them: a new one starts with each reset that returned, and the
rewards of the steps that returned belong to the last one. -/
def episodes : List (Op × Res) → List (List ℝ) := go []
where
  go (acc : List (List ℝ)) : List (Op × Res) → List (List ℝ)
  | [] => acc
  | (.reset _, .ok) :: l => go (acc ++ [[]]) l
  | (.step (some (r, _)), .ok) :: l => go (acc.dropLast ++ [acc.getLastD [] ++ [r]]) l
  | _ :: l => go acc l

/-- After a reset that raised, the caller makes no step before a reset has returned. -/
def Retries : Bool → List (Op × Res) → Prop
  | _, [] => True
  | _, (.reset _, .ok) :: l => Retries false l
  | _, (.reset _, .envError) :: l => Retries true l
  | failed, (.step _, .ok) :: l => failed = false ∧ Retries failed l
  | failed, _ :: l => Retries failed l

/-- The episodes with at least one step. -/
def played (log : List (Op × Res)) : List (List ℝ) := (episodes log).filter (fun e => !e.isEmpty)

/-- No call of `close`. -/
def Open (ops : List Op) : Prop := ∀ op ∈ ops, op ≠ .close

/-! ## The invariant -/

theorem saveComplete_closed (s : Rec) : (saveComplete s).closed = s.closed := by
  unfold saveComplete gymSaveComplete
  split
  · rfl
  · split <;> rfl

/-- The state `s` describes the episodes `acc`; `failed`: the last attempt to reset failed. -/
structure Inv (s : Rec) (acc : List (List ℝ)) (failed : Bool) : Prop where
  closed : s.closed = false
  /-- nothing has been reset -/
  start : s.steps = none → acc = [] ∧ s.lengths = [] ∧ s.rewards = [] ∧ s.saveCompleted = true
  cur : ∀ n, s.steps = some n → ∃ past e, acc = past ++ [e] ∧ n = e.length ∧ s.rew = e.sum ∧
    (s.saveCompleted = true →
      s.lengths = ((past ++ [e]).filter (fun e => !e.isEmpty)).map List.length ∧
      s.rewards = ((past ++ [e]).filter (fun e => !e.isEmpty)).map List.sum) ∧
    (s.saveCompleted = false → 0 < n ∧ s.lengths = (past.filter (fun e => !e.isEmpty)).map List.length ∧
      s.rewards = (past.filter (fun e => !e.isEmpty)).map List.sum) ∧
    -- an unfinished episode is open for more steps
    (s.done = some false → failed = false → 0 < n → s.saveCompleted = false) ∧
    (s.done = some true → s.saveCompleted = true) ∧ s.done ≠ none
  types : s.types = List.replicate acc.length s.type
  total : s.totalSteps = (acc.map List.length).sum

/-- In the invariant, saving writes down all episodes. -/
theorem Inv.saved {s : Rec} {acc : List (List ℝ)} {failed : Bool} (h : Inv s acc failed) :
    (saveComplete s).lengths = (acc.filter (fun e => !e.isEmpty)).map List.length ∧
    (saveComplete s).rewards = (acc.filter (fun e => !e.isEmpty)).map List.sum := by
  cases hs : s.steps with
  | none =>
    obtain ⟨a, b, c, d⟩ := h.start hs
    subst a
    simp [saveComplete, d, b, c]
  | some n =>
    obtain ⟨past, e, rfl, hn, hr, h1, h2, _⟩ := h.cur n hs
    cases hc : s.saveCompleted with
    | true =>
      obtain ⟨a, b⟩ := h1 hc
      simp only [saveComplete, hc, if_true]
      exact ⟨a, b⟩
    | false =>
      obtain ⟨h0, a, b⟩ := h2 hc
      have hne : (e.isEmpty) = false := by
        cases e with
        | nil => simp at hn; omega
        | cons _ _ => rfl
      simp [saveComplete, hc, gymSaveComplete, hs, a, b, List.filter_append, hne, hn, hr]

theorem Inv.saveComplete {s : Rec} {acc : List (List ℝ)} {failed : Bool} (h : Inv s acc failed) (d : Bool)
    (hs : s.steps ≠ none) (f : Bool) (hf : f = true ∨ d = true ∨ ∃ n, s.steps = some n ∧ n = 0) :
    Inv { saveComplete s with done := some d } acc f := by
  obtain ⟨hl, hr⟩ := h.saved
  have e1 : (Monitor.saveComplete s).steps = s.steps := by
    unfold Monitor.saveComplete gymSaveComplete; split <;> [rfl; (split <;> rfl)]
  have e2 : (Monitor.saveComplete s).rew = s.rew := by
    unfold Monitor.saveComplete gymSaveComplete; split <;> [rfl; (split <;> rfl)]
  have e3 : (Monitor.saveComplete s).types = s.types := by
    unfold Monitor.saveComplete gymSaveComplete; split <;> [rfl; (split <;> rfl)]
  have e4 : (Monitor.saveComplete s).type = s.type := by
    unfold Monitor.saveComplete gymSaveComplete; split <;> [rfl; (split <;> rfl)]
  have e5 : (Monitor.saveComplete s).totalSteps = s.totalSteps := by
    unfold Monitor.saveComplete gymSaveComplete; split <;> [rfl; (split <;> rfl)]
  have e6 : (Monitor.saveComplete s).saveCompleted = true := by
    unfold Monitor.saveComplete; split <;> [assumption; rfl]
  refine ⟨by simp [saveComplete_closed, h.closed], ?_, ?_, by simp [e3, e4, h.types], by simp [e5, h.total]⟩
  · intro hn
    exact absurd (e1 ▸ hn) hs
  · intro n hn
    simp only [e1] at hn
    obtain ⟨past, e, rfl, a1, a2, _⟩ := h.cur n hn
    refine ⟨past, e, rfl, a1, by simpa [e2] using a2, ?_, ?_, ?_, ?_, by simp⟩
    · intro _; exact ⟨hl, hr⟩
    · intro hc; simp [e6] at hc
    · rintro hd hff h0
      rcases hf with hf | hf | ⟨m, hm, hm0⟩
      · rw [hf] at hff; cases hff
      · subst hf; simp at hd
      · rw [hm] at hn; cases hn; omega
    · intro _; exact e6

theorem exec_inv (s : Rec) (acc : List (List ℝ)) (failed : Bool) (h : Inv s acc failed) (op : Op) (hop : op ≠ .close)
    (l : List (Op × Res)) (hr : Retries failed ((op, (exec s op).2) :: l)) :
    ∃ acc' failed', Inv (exec s op).1 acc' failed' ∧ Retries failed' l ∧
      episodes.go acc ((op, (exec s op).2) :: l) = episodes.go acc' l := by
  cases op with
  | close => exact absurd rfl hop
  | reset returns =>
    have hc := h.closed
    unfold exec beforeReset at hr ⊢
    simp only [hc, Bool.false_eq_true, if_false] at hr ⊢
    -- a state after `before_reset`
    have key : ∀ s' : Rec, Inv s' acc true → s'.saveCompleted = true →
        (s'.lengths = (acc.filter (fun e => !e.isEmpty)).map List.length ∧
         s'.rewards = (acc.filter (fun e => !e.isEmpty)).map List.sum) → s'.done = some false →
        Inv (afterReset s') (acc ++ [[]]) false := by
      intro s' i hsc hl hd
      refine ⟨i.closed, by simp [afterReset], ?_, ?_, ?_⟩
      · intro n hn
        simp only [afterReset, Option.some.injEq] at hn
        subst hn
        refine ⟨acc, [], rfl, rfl, rfl, ?_, ?_, ?_, ?_, ?_⟩
        · intro _
          simp only [afterReset, List.filter_append]
          simpa using hl
        · intro h; simp [afterReset, hsc] at h
        · intro _ _ h; omega
        · intro h; simp [afterReset, hd] at h
        · simp [afterReset, hd]
      · simp [afterReset, i.types, List.replicate_add]
      · simp [afterReset, i.total]
    have fin : ∀ s' : Rec, Inv s' acc true → s'.saveCompleted = true →
        (s'.lengths = (acc.filter (fun e => !e.isEmpty)).map List.length ∧
         s'.rewards = (acc.filter (fun e => !e.isEmpty)).map List.sum) → s'.done = some false →
        Retries failed ((.reset returns, (if returns then (afterReset s', Res.ok) else (s', Res.envError)).2) :: l) →
        ∃ acc' failed', Inv (if returns then (afterReset s', Res.ok) else (s', Res.envError)).1 acc' failed' ∧
          Retries failed' l ∧
          episodes.go acc ((.reset returns, (if returns then (afterReset s', Res.ok) else (s', Res.envError)).2) :: l) =
            episodes.go acc' l := by
      intro s' i hsc hl hd hr
      cases returns with
      | true => exact ⟨acc ++ [[]], false, key s' i hsc hl hd, hr, rfl⟩
      | false => exact ⟨acc, true, i, hr, rfl⟩
    by_cases hd : s.done = some false
    · simp only [hd, if_true] at hr ⊢
      cases hs : s.steps with
      | none =>
        simp only [hs] at hr ⊢
        exact ⟨acc, failed, h, hr, rfl⟩
      | some n =>
        simp only [hs] at hr ⊢
        by_cases hn : n > 0
        · simp only [hn, if_true] at hr ⊢
          have i := h.saveComplete false (by simp [hs]) true (Or.inl rfl)
          refine fin _ i ?_ h.saved rfl hr
          unfold Monitor.saveComplete; split <;> [assumption; rfl]
        · simp only [hn, if_false] at hr ⊢
          have e : ({ s with done := some false } : Rec) = s := by rw [← hd]
          rw [e] at hr ⊢
          obtain ⟨past, e, a1, a2, a3, a4, a5, a6, a7, a8⟩ := h.cur n hs
          have hsc : s.saveCompleted = true := by
            cases hsc : s.saveCompleted with
            | true => rfl
            | false => exact absurd (a5 hsc).1 hn
          refine fin s ⟨h.closed, h.start, ?_, h.types, h.total⟩ hsc ?_ hd hr
          · intro m hm
            rw [hs] at hm; cases hm
            exact ⟨past, e, a1, a2, a3, a4, a5, fun _ h => by simp at h, a7, a8⟩
          · rw [a1]; exact a4 hsc
    · simp only [hd, if_false] at hr ⊢
      cases hs : s.steps with
      | none =>
        obtain ⟨a, b, c, d⟩ := h.start hs
        simp only [hs] at hr
        refine fin _ ⟨rfl, fun _ => ⟨a, b, c, d⟩, ?_, h.types, h.total⟩ d ⟨by simp [a, b], by simp [a, c]⟩ rfl hr
        intro n hn; simp at hn
      | some n =>
        obtain ⟨past, e, a1, a2, a3, a4, a5, a6, a7, a8⟩ := h.cur n hs
        have hdt : s.done = some true := by
          cases hd' : s.done with
          | none => exact absurd hd' a8
          | some b => cases b with
            | true => rfl
            | false => exact absurd hd' hd
        have hsc := a7 hdt
        simp only [hs] at hr
        refine fin _ ⟨rfl, fun h => by simp at h, ?_, h.types, h.total⟩ hsc (by rw [a1]; exact a4 hsc) rfl hr
        intro m hm
        simp only [Option.some.injEq] at hm; subst hm
        exact ⟨past, e, a1, a2, a3, a4, a5, fun _ h => by simp at h, by simp, by simp⟩
  | step outcome =>
    have hc := h.closed
    unfold exec beforeStep at hr ⊢
    simp only [hc, Bool.false_eq_true, if_false] at hr ⊢
    by_cases hd : s.done = some true
    · simp only [hd, if_true] at hr ⊢
      refine ⟨acc, failed, h, ?_, ?_⟩
      · cases outcome with
        | none => exact hr
        | some o => exact hr
      · cases outcome with
        | none => rfl
        | some o => rfl
    · simp only [hd, if_false] at hr ⊢
      cases hs : s.steps with
      | none =>
        simp only [hs, if_true] at hr ⊢
        cases outcome with
        | none => exact ⟨acc, failed, h, hr, rfl⟩
        | some o => exact ⟨acc, failed, h, hr, rfl⟩
      | some n =>
        simp only [hs, reduceCtorEq, if_false] at hr ⊢
        cases outcome with
        | none => exact ⟨acc, failed, h, hr, rfl⟩
        | some o =>
          obtain ⟨r, d⟩ := o
          simp only at hr ⊢
          obtain ⟨hf, hr⟩ := hr
          subst hf
          obtain ⟨past, e, a1, a2, a3, a4, a5, a6, a7, a8⟩ := h.cur n hs
          have hdf : s.done = some false := by
            cases hd' : s.done with
            | none => exact absurd hd' a8
            | some b => cases b with
              | true => exact absurd hd' hd
              | false => rfl
          have hacc : acc.dropLast ++ [acc.getLastD [] ++ [r]] = past ++ [e ++ [r]] := by
            rw [a1]
            simp
          have hpast : s.lengths = (past.filter (fun e => !e.isEmpty)).map List.length ∧
              s.rewards = (past.filter (fun e => !e.isEmpty)).map List.sum := by
            rcases Nat.eq_zero_or_pos n with h0 | h0
            · cases hsc : s.saveCompleted with
              | true =>
                have := a4 hsc
                have he : e = [] := List.eq_nil_of_length_eq_zero (by omega)
                subst he
                simpa [List.filter_append] using this
              | false => exact (a5 hsc).2
            · exact (a5 (a6 hdf rfl h0)).2
          have i : Inv { s with saveCompleted := false, steps := some (n + 1), totalSteps := s.totalSteps + 1
                                rew := s.rew + r, done := some false } (past ++ [e ++ [r]]) false := by
            refine ⟨h.closed, fun h => by simp at h, ?_, ?_, ?_⟩
            · intro m hm
              simp only [Option.some.injEq] at hm
              subst hm
              refine ⟨past, e ++ [r], rfl, by simp [a2], by simp [a3], by simp, fun _ => ⟨by omega, hpast⟩, by simp, by simp, by simp⟩
            · simp [h.types, a1]
            · simp [h.total, a1]; omega
          refine ⟨past ++ [e ++ [r]], false, ?_, hr, ?_⟩
          · unfold afterStep
            simp only [hs, Option.map_some]
            cases d with
            | false => simpa using i
            | true =>
              simp only [if_true]
              have := i.saveComplete true (by simp) false (Or.inr (Or.inl rfl))
              simpa [Monitor.saveComplete, gymSaveComplete] using this
          · rw [show episodes.go acc ((Op.step (some (r, d)), Res.ok) :: l) =
              episodes.go (acc.dropLast ++ [acc.getLastD [] ++ [r]]) l from rfl, hacc]

theorem run_inv (ops : List Op) : ∀ (s : Rec) (acc : List (List ℝ)) (failed : Bool), Inv s acc failed → Open ops →
    Retries failed (run s ops).2 → ∃ failed', Inv (run s ops).1 (episodes.go acc (run s ops).2) failed' := by
  induction ops with
  | nil => intro s acc failed h _ _; exact ⟨failed, h⟩
  | cons op ops ih =>
    intro s acc failed h ho hr
    obtain ⟨acc', f', a1, a2, a3⟩ := exec_inv s acc failed h op (ho op (by simp)) _ hr
    simp only [run]
    rw [a3]
    exact ih _ acc' f' a1 (fun o h => ho o (by simp [h])) a2

theorem init_inv : Inv .init [] false :=
  ⟨rfl, fun _ => ⟨rfl, rfl, rfl, rfl⟩, fun _ h => by simp [Rec.init] at h, rfl, rfl⟩

theorem run_append (ops ops' : List Op) : ∀ s, (run s (ops ++ ops')).1 = (run (run s ops).1 ops').1 := by
  induction ops with
  | nil => intro s; rfl
  | cons op ops ih => intro s; simp only [List.cons_append, run, ih]

/-- C112: closing the monitor writes the lengths and total rewards of all episodes that had a step,
each once and in order: those that ended, those cut by a reset (as after
`ContinuingTimeLimit`), and the one that was running. -/
theorem C112_file (ops : List Op) (ho : Open ops) (hr : Retries false (run .init ops).2) :
    ∃ types, (run .init (ops ++ [.close])).1.file =
      some ((played (run .init ops).2).map List.length, (played (run .init ops).2).map List.sum, types) := by
  obtain ⟨f, h⟩ := run_inv ops _ _ _ init_inv ho hr
  rw [run_append]
  simp only [run, exec, h.closed, Bool.false_eq_true, if_false, close, saveComplete_closed]
  obtain ⟨a, b⟩ := h.saved
  exact ⟨_, by rw [a, b]; rfl⟩

/-- C112: nothing is written to the file afterwards. -/
theorem C112_final (ops ops' : List Op) : (run .init (ops ++ .close :: ops')).1.file = (run .init (ops ++ [.close])).1.file := by
  have hcl : ∀ s : Rec, s.closed = true → ∀ l, (run s l).1 = s := by
    intro s hs l
    induction l with
    | nil => rfl
    | cons op l ih => cases op <;> simp [run, exec, hs, ih]
  rw [show ops ++ .close :: ops' = (ops ++ [.close]) ++ ops' by simp, run_append (ops ++ [Op.close]) ops']
  rw [hcl]
  rw [run_append]
  simp only [run, exec]
  split
  · assumption
  · rfl

/-- C112: at every moment the lists of the recorder hold all episodes that had a step except possibly the
last one; after a `done` and after a reset they hold all of them. -/
theorem C112_running (ops : List Op) (ho : Open ops) (hr : Retries false (run .init ops).2) :
    let s := (run .init ops).1
    (s.lengths = (played (run .init ops).2).map List.length ∧ s.rewards = (played (run .init ops).2).map List.sum) ∨
    (s.done = some false ∧ ∃ n, s.steps = some n ∧ 0 < n ∧
      s.lengths = ((played (run .init ops).2).dropLast).map List.length ∧
      s.rewards = ((played (run .init ops).2).dropLast).map List.sum) := by
  intro s
  obtain ⟨f, h⟩ := run_inv ops _ _ _ init_inv ho hr
  cases hs : s.steps with
  | none =>
    left
    obtain ⟨a, b, c, _⟩ := h.start hs
    have : played (run .init ops).2 = [] := by unfold played episodes; rw [a]; rfl
    rw [this]; exact ⟨b, c⟩
  | some n =>
    obtain ⟨past, e, a1, a2, a3, a4, a5, a6, a7, a8⟩ := h.cur n hs
    have hp : played (run .init ops).2 = (past ++ [e]).filter (fun e => !e.isEmpty) := by
      unfold played episodes; rw [a1]
    cases hsc : s.saveCompleted with
    | true => left; rw [hp]; exact a4 hsc
    | false =>
      right
      obtain ⟨b0, b1, b2⟩ := a5 hsc
      refine ⟨?_, n, rfl, b0, ?_⟩
      · cases hd : s.done with
        | none => exact absurd hd a8
        | some b => cases b with
          | false => rfl
          | true => rw [a7 hd] at hsc; cases hsc
      · have hne : e.isEmpty = false := by
          cases e with
          | nil => simp at a2; omega
          | cons _ _ => rfl
        rw [hp, List.filter_append]
        simp only [List.filter_cons, hne, Bool.not_false, if_true, List.filter_nil, List.dropLast_concat]
        exact ⟨b1, b2⟩

/-- C112: the recorder counts every step. -/
theorem C112_total_steps (ops : List Op) (ho : Open ops) (hr : Retries false (run .init ops).2) :
    (run .init ops).1.totalSteps = ((played (run .init ops).2).map List.length).sum := by
  obtain ⟨f, h⟩ := run_inv ops _ _ _ init_inv ho hr
  rw [h.total]
  unfold played episodes
  generalize episodes.go [] (run Rec.init ops).2 = l
  induction l with
  | nil => rfl
  | cons e l ih => cases e <;> simp [ih]

/-- C112: once a reset has returned, the monitor never refuses a reset (gym's own monitor refuses one in a
running episode), until it is closed. -/
theorem C112_reset_allowed (s : Rec) (hc : s.closed = false) (hs : s.steps ≠ none) (returns : Bool) :
    (exec s (.reset returns)).2 = if returns then .ok else .envError := by
  unfold exec beforeReset
  simp only [hc, Bool.false_eq_true, if_false]
  split
  · rename_i e he
    split at he
    · cases hs' : s.steps with
      | none => exact absurd hs' hs
      | some n => simp [hs'] at he
    · cases he
  · split <;> rfl

/-- C112: a step is refused exactly before the first reset and when the episode has ended. -/
theorem C112_step_refused (s : Rec) (hc : s.closed = false) (o : Option (ℝ × Bool)) :
    (∃ e, (exec s (.step o)).2 = .refused e) ↔ s.done = some true ∨ s.steps = none := by
  unfold exec beforeStep
  simp only [hc, Bool.false_eq_true, if_false]
  by_cases hd : s.done = some true
  · simp [hd]
  · by_cases hs : s.steps = none
    · simp [hd, hs]
    · simp only [hd, hs, if_false, or_self, iff_false, not_exists]
      intro e
      cases o with
      | none => simp
      | some o => obtain ⟨_, _⟩ := o; simp

/-- A run with an episode that ends, an empty one, one that is cut by a reset (the first attempt at
which fails) and one that is running when the monitor is closed. -/
noncomputable def exampleOps : List Op :=
  [.reset true, .step (some (1, false)), .step (some (2, true)), .reset true, .reset true, .step (some (5, false)),
   .step none, .reset false, .reset true, .step (some (7, false))]

example : Open exampleOps ∧ Retries false (run .init exampleOps).2 ∧
    played (run .init exampleOps).2 = [[1, 2], [5], [7]] := by
  refine ⟨?_, ?_, ?_⟩
  · intro op h
    simp only [exampleOps, List.mem_cons, List.not_mem_nil, or_false] at h
    rcases h with rfl | rfl | rfl | rfl | rfl | rfl | rfl | rfl | rfl | rfl <;> simp
  · simp [exampleOps, run, exec, beforeReset, beforeStep, afterReset, afterStep, saveComplete, gymSaveComplete, Rec.init, Retries]
  · simp [exampleOps, run, exec, beforeReset, beforeStep, afterReset, afterStep, saveComplete, gymSaveComplete, Rec.init, played, episodes, episodes.go]

/-! ## What goes wrong -/

/-- C112, violated: the types belong to all resets, also to those that no step follows, so that after two
resets in a row the file's list of types is longer than its list of lengths, and entries no longer
correspond. -/
theorem C112_violated_types : (run .init [.reset true, .reset true, .step (some (1, true)), .close]).1.file =
    some ([1], [1], ['t', 't']) := by
  simp [run, exec, beforeReset, beforeStep, afterReset, afterStep, saveComplete, gymSaveComplete, Rec.init, close]

/-- What holds: there is one type per reset that returned. -/
theorem C112_types (ops : List Op) (ho : Open ops) (hr : Retries false (run .init ops).2) :
    (run .init ops).1.types.length = (episodes (run .init ops).2).length := by
  obtain ⟨f, h⟩ := run_inv ops _ _ _ init_inv ho hr
  rw [h.types, List.length_replicate]; rfl

/-- C112, violated: if the environment's first reset raises, the monitor is stuck: every later reset raises
`TypeError` and every step asks for a reset, until it is closed. -/
theorem C112_violated_first_reset (ops : List Op) (ho : Open ops) :
    ∀ x ∈ (run .init (.reset false :: ops)).2.tail, x.2 = .refused .typeError ∨ x.2 = .refused .runtimeError := by
  have h0 : (run .init (.reset false :: ops)).2.tail = (run { Rec.init with done := some false } ops).2 := by
    simp [run, exec, beforeReset, Rec.init]
  rw [h0]
  clear h0
  induction ops with
  | nil => simp [run]
  | cons op ops ih =>
    have ih := ih (fun o h => ho o (by simp [h]))
    cases op with
    | close => exact absurd rfl (ho .close (by simp))
    | reset b =>
      have e : exec { Rec.init with done := some false } (.reset b) = ({ Rec.init with done := some false }, .refused .typeError) := by
        simp [exec, beforeReset, Rec.init]
      simp only [run, e, List.mem_cons]
      rintro x (rfl | hx)
      · left; rfl
      · exact ih x hx
    | step o =>
      have e : exec { Rec.init with done := some false } (.step o) = ({ Rec.init with done := some false }, .refused .runtimeError) := by
        simp [exec, beforeStep, Rec.init]
      simp only [run, e, List.mem_cons]
      rintro x (rfl | hx)
      · right; rfl
      · exact ih x hx

/-- C112, violated: after a reset that raised, the monitor lets steps through, and the finished episode is
recorded a second time, with the new steps added: one episode of one step (reward 5) and one step
after the failed reset (reward 7) make a record of lengths 1 and 2 and rewards 5 and 12. -/
theorem C112_violated_step_after_failed_reset :
    let r := run .init [.reset true, .step (some (5, true)), .reset false, .step (some (7, true)), .close]
    r.1.file = some ([1, 2], [5, 12], ['t']) ∧ r.1.totalSteps = 2 := by
  simp [run, exec, beforeReset, beforeStep, afterReset, afterStep, saveComplete, gymSaveComplete, Rec.init, close]
  norm_num

end Verif.Monitor
