import Mathlib.Algebra.BigOperators.Group.List.Basic
import Mathlib.Algebra.Group.Int.Defs
import Mathlib.Data.Int.Order.Basic
import Verif.Model.Wrappers
set_option autoImplicit false

/-! # C35–C38, C40: environment wrappers -/

namespace Verif.Wrappers
open Train (StepOut)
variable {S O A K : Type}

theorem run_append {T : Type} (call : T → Op A → T × Out O K) (a b : List (Op A)) : ∀ t,
    (run call t (a ++ b)).1 = (run call (run call t a).1 b).1 := by
  induction a with
  | nil => intro t; rfl
  | cons x a ih => intro t; exact ih _

/-! ## C35: ContinuingTimeLimit -/

/-- The number of steps since the last reset; `none` before the first. -/
def sinceReset : List (Op A) → Option Nat
  | ops => ops.foldl (fun n op => match op with | .reset => some 0 | .step _ => n.map (· + 1)) none

/-- The calls that reach the wrapped environment: steps before the first reset do not. -/
def effective : List (Op A) → List (Op A)
  | [] => []
  | .step _ :: ops => effective ops
  | .reset :: ops => .reset :: ops

theorem timeLimit_run (g : Gym S O A K) (m : Nat) (ops : List (Op A)) : ∀ (e : Nat) (s : S),
    (run (timeLimit g m) (some e, s) ops).1 =
      (ops.foldl (fun n op => match op with | .reset => some 0 | .step _ => n.map (· + 1)) (some e),
        (run g.call s ops).1) := by
  induction ops with
  | nil => intro e s; rfl
  | cons op ops ih =>
    intro e s
    cases op with
    | reset => simp only [run, timeLimit, Gym.call, List.foldl_cons]; exact ih _ _
    | step a => simp only [run, timeLimit, Gym.call, List.foldl_cons, Option.map_some]; exact ih _ _

theorem timeLimit_state (g : Gym S O A K) (m : Nat) (ops : List (Op A)) : ∀ (s : S),
    (run (timeLimit g m) (none, s) ops).1 = (sinceReset ops, (run g.call s (effective ops)).1) := by
  induction ops with
  | nil => intro s; rfl
  | cons op ops ih =>
    intro s
    cases op with
    | reset =>
      simp only [run, timeLimit, effective, Gym.call]
      exact timeLimit_run g m ops 0 (g.reset s).1
    | step a =>
      simp only [run, timeLimit, effective]
      rw [ih s]
      simp [sinceReset]

/-- C35.  After every history: a step before the first reset is an error that does
not touch the environment; any other step returns what the environment returns,
except that `needs_reset` is also set if it is at least the `max_episode_steps`-th
since the last reset; a reset is passed on. -/
theorem C35_time_limit (g : Gym S O A K) (m : Nat) (s : S) (pre : List (Op A)) (a : A) :
    let w := (run (timeLimit g m) (none, s) pre).1
    let s' := (run g.call s (effective pre)).1
    w.2 = s' ∧
    (timeLimit g m w .reset).2 = .obs (g.reset s').2 ∧
    (timeLimit g m w (.step a)).2 =
      match sinceReset pre with
      | none => .error
      | some e => .step ⟨(g.step s' a).2.obs, (g.step s' a).2.r, (g.step s' a).2.done,
          (g.step s' a).2.needsReset || decide (m ≤ e + 1)⟩ := by
  intro w s'
  have hw : w = (sinceReset pre, s') := timeLimit_state g m pre s
  refine ⟨by rw [hw], by rw [hw]; rfl, ?_⟩
  rw [hw]
  cases h : sinceReset pre with
  | none => simp [timeLimit]
  | some e =>
    simp only [timeLimit, limitOut]
    split
    · rename_i hm; simp [hm]
    · rename_i hm; simp [hm]

/-- A game that goes on for ever. -/
def exGym : Gym Nat Nat Nat Int := ⟨fun _ => (0, 0), fun s _ => (s + 1, ⟨s + 1, 1, false, false⟩)⟩

-- limit 2: the second step since the reset needs a reset, and so does the third
example : (run (timeLimit exGym 2) (none, 7) [.step 0, .reset, .step 0, .step 0, .step 0, .reset, .step 0]).2 =
    [.error, .obs 0, .step ⟨1, 1, false, false⟩, .step ⟨2, 1, false, true⟩, .step ⟨3, 1, false, true⟩,
      .obs 0, .step ⟨1, 1, false, false⟩] := by decide +kernel
example : sinceReset [Op.step 0, .reset, .step 0, .step 0] = some 2 := by decide

/-! ## C40: environment modifiers -/

/-- The number of steps since the last reset, or since the beginning. -/
def steps : List (Op A) → Nat
  | ops => ops.foldl (fun n op => match op with | .reset => 0 | .step _ => n + 1) 0

theorem stepLimited_run (g : Gym S O A K) (L : Nat) (ops : List (Op A)) : ∀ (n : Nat) (s : S),
    (run (stepLimited g L) (n + 1, s) ops).1 =
      (ops.foldl (fun n op => match op with | .reset => 0 | .step _ => n + 1) n + 1, (run g.call s ops).1) := by
  induction ops with
  | nil => intro n s; rfl
  | cons op ops ih =>
    intro n s
    cases op with
    | reset => simp only [run, stepLimited, Gym.call, List.foldl_cons]; exact ih _ _
    | step a => simp only [run, stepLimited, Gym.call, List.foldl_cons]; exact ih _ _

/-- C40 (make_timestep_limited).  After every history a step returns what the
environment returns, except that `done` is also set if it is at least the `L`-th
step of the episode; so every episode reports done at its `L`-th step at the
latest. -/
theorem C40_timestep_limit (g : Gym S O A K) (L : Nat) (s : S) (pre : List (Op A)) (a : A) :
    let w := (run (stepLimited g L) (1, s) pre).1
    let s' := (run g.call s pre).1
    w.2 = s' ∧
    (stepLimited g L w .reset).2 = .obs (g.reset s').2 ∧
    (stepLimited g L w (.step a)).2 =
      .step ⟨(g.step s' a).2.obs, (g.step s' a).2.r, (g.step s' a).2.done || decide (L ≤ steps pre + 1),
        (g.step s' a).2.needsReset⟩ := by
  intro w s'
  have hw : w = (steps pre + 1, s') := stepLimited_run g L pre 0 s
  refine ⟨by rw [hw], by rw [hw]; rfl, ?_⟩
  rw [hw]
  simp only [stepLimited, doneOut]
  split
  · rename_i hm; simp [hm]
  · rename_i hm; simp [hm]

example : (run (stepLimited exGym 2) (1, 7) [.reset, .step 0, .step 0, .reset, .step 0]).2 =
    [.obs 0, .step ⟨1, 1, false, false⟩, .step ⟨2, 1, true, false⟩, .obs 0, .step ⟨1, 1, false, false⟩] := by
  decide +kernel

/-- The outputs of repeating an action up to `n` times, stopping at the first that
satisfies `stop`, and the state afterwards. -/
def repeated (g : Gym S O A K) (stop : StepOut O K → Bool) (a : A) : Nat → S → S × List (StepOut O K)
  | 0, s => (s, [])
  | n + 1, s =>
    let r := g.step s a
    if stop r.2 then (r.1, [r.2])
    else ((repeated g stop a n r.1).1, r.2 :: (repeated g stop a n r.1).2)

theorem repeated_ne_nil (g : Gym S O A K) (stop : StepOut O K → Bool) (a : A) (n : Nat) (s : S) :
    (repeated g stop a (n + 1) s).2 ≠ [] := by
  simp only [repeated]; split <;> simp

/-- `repeated` is what it says: at most `n` outputs, all but the last not stopping,
and fewer than `n` only if the last stops. -/
theorem repeated_spec (g : Gym S O A K) (stop : StepOut O K → Bool) (a : A) (n : Nat) : ∀ s,
    (repeated g stop a n s).2.length ≤ n ∧
    (∀ i out, (repeated g stop a n s).2[i]? = some out → i + 1 < (repeated g stop a n s).2.length → stop out = false) ∧
    ((repeated g stop a n s).2.length < n → ∃ out, (repeated g stop a n s).2.getLast? = some out ∧ stop out = true) := by
  induction n with
  | zero => intro s; simp [repeated]
  | succ n ih =>
    intro s
    simp only [repeated]
    split
    · rename_i h
      refine ⟨by simp, ?_, ?_⟩
      · intro i out _ h2; simp at h2
      · intro _; exact ⟨_, rfl, h⟩
    · rename_i h
      obtain ⟨h1, h2, h3⟩ := ih (g.step s a).1
      refine ⟨by simp [h1], ?_, ?_⟩
      · intro i out hi hl
        cases i with
        | zero =>
          simp only [List.getElem?_cons_zero, Option.some.injEq] at hi
          subst hi
          simpa using h
        | succ i => exact h2 i out (by simpa using hi) (by simpa using hl)
      · intro hl
        obtain ⟨out, h4, h5⟩ := h3 (by simpa using hl)
        refine ⟨out, ?_, h5⟩
        rw [List.getLast?_cons, h4]
        rfl

theorem repeatLoop_eq [AddMonoid K] (g : Gym S O A K) (a : A) (n : Nat) : ∀ (total : K) (last : Option (StepOut O K)) (s : S),
    repeatLoop g a n total last s = ((repeated g (·.done) a n s).1,
      total + ((repeated g (·.done) a n s).2.map (·.r)).sum, (repeated g (·.done) a n s).2.getLast?.or last) := by
  induction n with
  | zero => intro total last s; simp [repeatLoop, repeated]
  | succ n ih =>
    intro total last s
    simp only [repeatLoop, repeated]
    split
    · simp
    · rw [ih]
      simp only [Prod.mk.injEq, List.map_cons, List.sum_cons, add_assoc, true_and]
      rw [List.getLast?_cons]
      cases (repeated g (fun x => x.done) a n (g.step s a).1).2.getLast? <;> simp

/-- C40 (make_action_repeated).  For `n ≥ 1` the action is applied until done, at
most `n` times, the reward is the sum, everything else is from the last step. -/
theorem C40_action_repeat [AddMonoid K] (g : Gym S O A K) (n : Nat) (hn : 0 < n) (s : S) (a : A) :
    ∃ out, (repeated g (·.done) a n s).2.getLast? = some out ∧
      actionRepeated g n s a = ((repeated g (·.done) a n s).1,
        some ⟨out.obs, ((repeated g (·.done) a n s).2.map (·.r)).sum, out.done, out.needsReset⟩) := by
  obtain ⟨m, rfl⟩ : ∃ m, n = m + 1 := ⟨n - 1, by omega⟩
  have hne := repeated_ne_nil g (·.done) a m s
  refine ⟨(repeated g (·.done) a (m + 1) s).2.getLast hne, List.getLast?_eq_some_getLast hne, ?_⟩
  unfold actionRepeated
  rw [repeatLoop_eq, List.getLast?_eq_some_getLast hne]
  simp

/-- C40: with `n = 0` the step fails (the variables are unbound). -/
theorem C40_action_repeat_zero [AddMonoid K] (g : Gym S O A K) (s : S) (a : A) :
    actionRepeated g 0 s a = (s, none) := rfl

/-! ### Filters -/

/-- What a call returns, with the reward replaced. -/
def Out.mapReward (f : K → K) : Out O K → Out O K
  | .step out => .step ⟨out.obs, f out.r, out.done, out.needsReset⟩
  | o => o

/-- The call with its action replaced. -/
def Op.mapAction (f : A → A) : Op A → Op A
  | .step a => .step (f a)
  | .reset => .reset

/-- C40: after `make_reward_filtered(env, f)` a history of calls takes the environment through the same states and returns the same, except that each reward `r` is
`f(r)`. -/
theorem C40_reward_filter (g : Gym S O A K) (f : K → K) (ops : List (Op A)) : ∀ s : S,
    run (Gym.mk g.reset (rewardFiltered g f)).call s ops = ((run g.call s ops).1, (run g.call s ops).2.map (Out.mapReward f)) := by
  induction ops with
  | nil => intro s; rfl
  | cons op ops ih => intro s; cases op <;> simp [run, Gym.call, rewardFiltered, Out.mapReward, ih]

/-- C40: after `make_action_filtered(env, f)` a history of calls does and returns what the history with `f(a)` for each action `a` does. -/
theorem C40_action_filter (g : Gym S O A K) (f : A → A) (ops : List (Op A)) : ∀ s : S,
    run (Gym.mk g.reset (actionFiltered g f)).call s ops = run g.call s (ops.map (Op.mapAction f)) := by
  induction ops with
  | nil => intro s; rfl
  | cons op ops ih => intro s; cases op <;> simp [run, Gym.call, actionFiltered, Op.mapAction, ih]

/-- A game that is over at its third step. -/
def exGame : Gym Nat Nat Nat Int := ⟨fun _ => (0, 0), fun s _ => (s + 1, ⟨s + 1, 10, decide (s + 1 = 3), false⟩)⟩

example : actionRepeated exGame 2 0 5 = (2, some ⟨2, 20, false, false⟩) ∧
    actionRepeated exGame 5 0 5 = (3, some ⟨3, 30, true, false⟩) := by decide +kernel

example : (run (Gym.mk exGame.reset (rewardFiltered exGame (· / 3))).call 0 [.reset, .step 1, .step 1, .step 1]).2 =
    [.obs 0, .step ⟨1, 3, false, false⟩, .step ⟨2, 3, false, false⟩, .step ⟨3, 3, true, false⟩] := by decide +kernel

/-! ## C36: EpisodicLifeEnv -/

theorem episodicLife_lives (g : Gym S O A K) (lives : S → Nat) (noop : A) (pre : List (Op A)) : ∀ w : Life × S,
    pre ≠ [] → (run (episodicLife g lives noop) w pre).1.1.lives = lives (run (episodicLife g lives noop) w pre).1.2 := by
  induction pre with
  | nil => intro w h; exact absurd rfl h
  | cons op pre ih =>
    intro w _
    cases pre with
    | nil => cases op <;> rfl
    | cons op' pre => exact ih _ (by simp)

/-- C36.  After every history (that is not empty), a step is one step of the game
with the same action; observation, reward and `needs_reset` are the game's, and
`done` is reported exactly if the game is done or a life was lost and some are
left. -/
theorem C36_step (g : Gym S O A K) (lives : S → Nat) (noop : A) (s : S) (pre : List (Op A)) (hpre : pre ≠ []) (a : A) :
    let s' := (run (episodicLife g lives noop) (Life.init, s) pre).1.2
    let r := episodicLife g lives noop (run (episodicLife g lives noop) (Life.init, s) pre).1 (.step a)
    r.1.2 = (g.step s' a).1 ∧
    r.2 = .step ⟨(g.step s' a).2.obs, (g.step s' a).2.r,
      (g.step s' a).2.done || decide (lives (g.step s' a).1 < lives s' ∧ 0 < lives (g.step s' a).1),
      (g.step s' a).2.needsReset⟩ := by
  intro s' r
  refine ⟨rfl, ?_⟩
  have hl := episodicLife_lives g lives noop pre (Life.init, s) hpre
  simp only [r, episodicLife, hl, lifeOut]
  split
  · rename_i h
    have h' : lives (g.step s' a).1 < lives s' ∧ 0 < lives (g.step s' a).1 := h
    simp only [h', and_self, decide_true, Bool.or_true]
    rfl
  · rename_i h
    have h' : ¬ (lives (g.step s' a).1 < lives s' ∧ 0 < lives (g.step s' a).1) := h
    simp only [h', decide_false, Bool.or_false]
    rfl

theorem episodicLife_resets (g : Gym S O A K) (lives : S → Nat) (noop : A) (j : Nat) : ∀ w : Life × S,
    (run (episodicLife g lives noop) w (List.replicate j .reset)).1.1.needsRealReset = w.1.needsRealReset := by
  induction j with
  | zero => intro w; rfl
  | succ j ih => intro w; rw [List.replicate_succ]; exact ih _

/-- C36 (part).  After every history whose last step is `step a`, a reset resets
the game exactly if that step ended it (`done` or `needs_reset` of the game); in
particular it does not after a mere loss of a life.  Missing: a game over in the
no-op step of a reset is not noticed. -/
theorem C36_reset_partial (g : Gym S O A K) (lives : S → Nat) (noop : A) (s : S) (pre : List (Op A)) (a : A) (j : Nat) :
    let before := (run (episodicLife g lives noop) (Life.init, s) pre).1.2
    let w := (run (episodicLife g lives noop) (Life.init, s) (pre ++ .step a :: List.replicate j .reset)).1
    let r := episodicLife g lives noop w .reset
    if (g.step before a).2.done || (g.step before a).2.needsReset then
      r.1.2 = (g.reset w.2).1 ∧ r.2 = .obs (g.reset w.2).2
    else r.1.2 = (g.step w.2 noop).1 ∧ r.2 = .obs (g.step w.2 noop).2.obs := by
  intro before w r
  have hw : w.1.needsRealReset = ends (g.step before a).2 := by
    simp only [w, run_append]
    exact episodicLife_resets g lives noop j _
  have hr : r.1.2 = (lifeReset g noop w.1.needsRealReset w.2).1 ∧
      r.2 = .obs (lifeReset g noop w.1.needsRealReset w.2).2 := ⟨rfl, rfl⟩
  rw [hr.1, hr.2, hw]
  unfold ends lifeReset
  split
  · exact ⟨rfl, rfl⟩
  · exact ⟨rfl, rfl⟩

/-- C36: before the first step every reset resets the game. -/
theorem C36_first_reset (g : Gym S O A K) (lives : S → Nat) (noop : A) (s : S) (j : Nat) :
    let w := (run (episodicLife g lives noop) (Life.init, s) (List.replicate j .reset)).1
    let r := episodicLife g lives noop w .reset
    r.1.2 = (g.reset w.2).1 ∧ r.2 = .obs (g.reset w.2).2 := by
  intro w r
  have hw : w.1.needsRealReset = true := episodicLife_resets g lives noop j _
  have hr : r.1.2 = (lifeReset g noop w.1.needsRealReset w.2).1 ∧
      r.2 = .obs (lifeReset g noop w.1.needsRealReset w.2).2 := ⟨rfl, rfl⟩
  rw [hr.1, hr.2, hw]
  exact ⟨rfl, rfl⟩

/-- Two lives; one is lost with every step, the game is over when none is left; it
stays over. The state is the number of lives. -/
def exLives : Gym Nat Nat Nat Int := ⟨fun _ => (2, 2), fun s _ => (s - 1, ⟨s - 1, 0, decide (s - 1 = 0), false⟩)⟩

-- a life loss is reported as done; the following reset steps on
example : (run (episodicLife exLives id 0) (Life.init, 0) [.reset, .step 1]).2 = [.obs 2, .step ⟨1, 0, true, false⟩] := by
  decide +kernel

/-- C36 is violated: the second life is lost in the no-op step of the reset, the
game is over, but the next reset does not reset the game. -/
theorem C36_violated_game_over_in_reset :
    let w := (run (episodicLife exLives id 0) (Life.init, 0) [.reset, .step 1, .reset]).1
    (exLives.step 1 0).2.done = true ∧ w.2 = (exLives.step 1 0).1 ∧
    (episodicLife exLives id 0 w .reset).2 = .obs 0 ∧ (exLives.reset w.2).2 = 2 := by decide +kernel

/-! ## C37: MaxAndSkipEnv -/

/-- The two newest frames of the buffer after the loop. -/
theorem skipLoop_eq {P : Type} [AddMonoid K] (g : Gym S (P → Nat) A K) (skip : Nat) (a : A) (fuel : Nat) :
    ∀ (i : Nat) (total : K) (last : Option (StepOut (P → Nat) K)) (w : Buffer P × S),
    (skipLoop g skip a fuel i total last w).1.2 = (repeated g ends a fuel w.2).1 ∧
    (skipLoop g skip a fuel i total last w).2.1 = total + ((repeated g ends a fuel w.2).2.map (·.r)).sum ∧
    (skipLoop g skip a fuel i total last w).2.2 = (repeated g ends a fuel w.2).2.getLast?.or last ∧
    (∀ j out, (repeated g ends a fuel w.2).2[j]? = some out → i + j + 2 = skip →
      (skipLoop g skip a fuel i total last w).1.1.b0 = out.obs) ∧
    (∀ j out, (repeated g ends a fuel w.2).2[j]? = some out → i + j + 1 = skip →
      (skipLoop g skip a fuel i total last w).1.1.b1 = out.obs) ∧
    ((∀ j out, (repeated g ends a fuel w.2).2[j]? = some out → i + j + 2 ≠ skip) →
      (skipLoop g skip a fuel i total last w).1.1.b0 = w.1.b0) ∧
    ((∀ j out, (repeated g ends a fuel w.2).2[j]? = some out → i + j + 1 ≠ skip) →
      (skipLoop g skip a fuel i total last w).1.1.b1 = w.1.b1) := by
  induction fuel with
  | zero =>
    intro i total last w
    simp [skipLoop, repeated]
  | succ fuel ih =>
    intro i total last w
    have hput0 : (w.1.put skip i (g.step w.2 a).2.obs).b0 = if i + 2 = skip then (g.step w.2 a).2.obs else w.1.b0 := by
      unfold Buffer.put; split <;> split <;> simp_all
    have hput1 : (w.1.put skip i (g.step w.2 a).2.obs).b1 = if i + 1 = skip then (g.step w.2 a).2.obs else w.1.b1 := by
      unfold Buffer.put; split <;> split <;> simp_all
    simp only [skipLoop, repeated]
    by_cases he : ends (g.step w.2 a).2 = true
    · simp only [he, if_true]
      refine ⟨trivial, by simp, by simp, ?_, ?_, ?_, ?_⟩
      · intro j out hj hs
        cases j with
        | zero =>
          simp only [List.getElem?_cons_zero, Option.some.injEq] at hj
          subst hj
          rw [hput0, if_pos (by omega)]
        | succ j => simp at hj
      · intro j out hj hs
        cases j with
        | zero =>
          simp only [List.getElem?_cons_zero, Option.some.injEq] at hj
          subst hj
          rw [hput1, if_pos (by omega)]
        | succ j => simp at hj
      · intro h
        have := h 0 _ rfl
        rw [hput0, if_neg (by omega)]
      · intro h
        have := h 0 _ rfl
        rw [hput1, if_neg (by omega)]
    · simp only [he, Bool.false_eq_true, if_false]
      obtain ⟨h1, h2, h3, h4, h5, h6, h7⟩ := ih (i + 1) (total + (g.step w.2 a).2.r) (some (g.step w.2 a).2)
        (w.1.put skip i (g.step w.2 a).2.obs, (g.step w.2 a).1)
      refine ⟨h1, ?_, ?_, ?_, ?_, ?_, ?_⟩
      · rw [h2]; simp [add_assoc]
      · rw [h3, List.getLast?_cons]
        cases (repeated g ends a fuel (g.step w.2 a).1).2.getLast? <;> simp
      · intro j out hj hs
        cases j with
        | zero =>
          simp only [List.getElem?_cons_zero, Option.some.injEq] at hj
          subst hj
          rw [h6 (by intro j' _ _; omega), hput0, if_pos (by omega)]
        | succ j => exact h4 j out (by simpa using hj) (by omega)
      · intro j out hj hs
        cases j with
        | zero =>
          simp only [List.getElem?_cons_zero, Option.some.injEq] at hj
          subst hj
          rw [h7 (by intro j' _ _; omega), hput1, if_pos (by omega)]
        | succ j => exact h5 j out (by simpa using hj) (by omega)
      · intro h
        have h0 := h 0 _ rfl
        rw [h6 (by intro j out hj; have := h (j + 1) out (by simpa using hj); omega), hput0, if_neg (by omega)]
      · intro h
        have h0 := h 0 _ rfl
        rw [h7 (by intro j out hj; have := h (j + 1) out (by simpa using hj); omega), hput1, if_neg (by omega)]

/-- C37: for `skip ≥ 1` a step repeats the action until `done` or `needs_reset`, at
most `skip` times; the reward is the sum of the frame rewards; `done` and
`needs_reset` are the last frame's. -/
theorem C37_frames {P : Type} [AddMonoid K] (g : Gym S (P → Nat) A K) (skip : Nat) (hs : 0 < skip) (w : Buffer P × S) (a : A) :
    ∃ out last, (maxAndSkip g skip w a).2 = some out ∧ (repeated g ends a skip w.2).2.getLast? = some last ∧
      out.r = ((repeated g ends a skip w.2).2.map (·.r)).sum ∧ out.done = last.done ∧ out.needsReset = last.needsReset ∧
      (maxAndSkip g skip w a).1.2 = (repeated g ends a skip w.2).1 := by
  obtain ⟨m, rfl⟩ : ∃ m, skip = m + 1 := ⟨skip - 1, by omega⟩
  have hne := repeated_ne_nil g ends a m w.2
  have hlast := List.getLast?_eq_some_getLast hne
  obtain ⟨h1, h2, h3, _⟩ := skipLoop_eq g (m + 1) a (m + 1) 0 0 none w
  rw [hlast, Option.some_or] at h3
  refine ⟨{ (repeated g ends a (m + 1) w.2).2.getLast hne with
      obs := (skipLoop g (m + 1) a (m + 1) 0 0 none w).1.1.max, r := (skipLoop g (m + 1) a (m + 1) 0 0 none w).2.1 },
    _, ?_, hlast, ?_, rfl, rfl, h1⟩
  · simp only [maxAndSkip, h3, Option.map_some]
  · show (skipLoop g (m + 1) a (m + 1) 0 0 none w).2.1 = _
    rw [h2, zero_add]

/-- C37 (part): if the step is not cut short, the observation is the elementwise
maximum of the last two frames.  Missing: when `done` or `needs_reset` cuts the
step short the observation is made from frames of earlier steps. -/
theorem C37_max_partial {P : Type} [AddMonoid K] (g : Gym S (P → Nat) A K) (skip : Nat) (hs : 2 ≤ skip) (w : Buffer P × S)
    (a : A) (hfull : (repeated g ends a skip w.2).2.length = skip) :
    ∃ out x y, (maxAndSkip g skip w a).2 = some out ∧ (repeated g ends a skip w.2).2[skip - 2]? = some x ∧
      (repeated g ends a skip w.2).2[skip - 1]? = some y ∧ ∀ p, out.obs p = Nat.max (x.obs p) (y.obs p) := by
  have hx := List.getElem?_eq_getElem (l := (repeated g ends a skip w.2).2) (i := skip - 2) (by omega)
  have hy := List.getElem?_eq_getElem (l := (repeated g ends a skip w.2).2) (i := skip - 1) (by omega)
  obtain ⟨_, _, h3, h4, h5, _, _⟩ := skipLoop_eq g skip a skip 0 0 none w
  have hne : (repeated g ends a skip w.2).2 ≠ [] := by
    intro h; rw [h] at hfull; simp at hfull; omega
  rw [List.getLast?_eq_some_getLast hne, Option.some_or] at h3
  refine ⟨{ (repeated g ends a skip w.2).2.getLast hne with
      obs := (skipLoop g skip a skip 0 0 none w).1.1.max, r := (skipLoop g skip a skip 0 0 none w).2.1 },
    _, _, ?_, hx, hy, ?_⟩
  · simp only [maxAndSkip, h3, Option.map_some]
  · intro p
    show Buffer.max _ p = _
    simp only [Buffer.max]
    rw [h4 _ _ hx (by omega), h5 _ _ hy (by omega)]

/-- C37: with `skip = 1` the observation is the frame. -/
theorem C37_skip_one {P : Type} [AddMonoid K] (g : Gym S (P → Nat) A K) (w : Buffer P × S) (a : A)
    (hb : w.1.b0 = fun _ => 0) :
    ∃ out, (maxAndSkip g 1 w a).2 = some out ∧ out.obs = (g.step w.2 a).2.obs ∧
      (maxAndSkip g 1 w a).1.1.b0 = fun _ => 0 := by
  have hmax : ∀ f : P → Nat, (fun p => Nat.max ((fun _ => 0 : P → Nat) p) (f p)) = f := by
    intro f; funext p; exact Nat.max_eq_right (Nat.zero_le _)
  simp only [maxAndSkip, skipLoop, Buffer.put]
  split <;> simp [hb] <;> exact hmax _

/-- Two pixels that show the frame number, and a game whose third frame ends it. -/
def exFrames : Gym Nat (Bool → Nat) Nat Int :=
  ⟨fun _ => (0, fun _ => 0), fun s _ => (s + 1, ⟨fun p => if p then s + 1 else 100 - s, 1, decide (s + 1 = 3), false⟩)⟩

-- an uninterrupted step (frames 1 and 2)
example : ((maxAndSkip exFrames 2 (⟨fun _ => 0, fun _ => 0⟩, 0) 7).2.map fun o => (o.obs true, o.obs false, o.r, o.done)) =
    some (2, 100, 2, false) := by decide +kernel

/-- C37 is violated: the next step is cut short after its only frame, number 3,
whose pixels are 3 and 98; the observation returned mixes in frame 2 of the previous step.  With
`skip = 4` a step cut short after two frames shows neither of them. -/
theorem C37_violated_stale_frames :
    let w := (maxAndSkip exFrames 2 (⟨fun _ => 0, fun _ => 0⟩, 0) 7).1
    ((repeated exFrames ends 7 2 w.2).2.map fun o => (o.obs true, o.obs false)) = [(3, 98)] ∧
    ((maxAndSkip exFrames 2 w 7).2.map fun o => (o.obs true, o.obs false, o.done)) = some (3, 99, true) ∧
    ((maxAndSkip exFrames 4 (⟨fun _ => 0, fun _ => 0⟩, 1) 7).2.map fun o => (o.obs true, o.obs false)) = some (0, 0) := by
  decide +kernel

/-! ## C38: NoopResetEnv and FireResetEnv -/

/-- The observation of a call. -/
def Base.obs : Base O A → O
  | .reset o => o
  | .step _ o _ => o

/-- The calls leave the game running: the last one is a reset or did not end it. -/
def Running (tr : List (Base O A)) : Prop := ∀ a o, tr.getLast? ≠ some (.step a o true)

/-- The last observation the game has shown. -/
def current (tr : List (Base O A)) : Option O := tr.getLast?.map Base.obs

theorem stepReset_spec (g : Gym S O A K) (a : A) (s : S) (tr : List (Base O A)) :
    Running (tr ++ (stepReset g a s).2.2.2) ∧
    current (tr ++ (stepReset g a s).2.2.2) = some ((stepReset g a s).2.2.1.getD (stepReset g a s).2.1) := by
  unfold stepReset
  simp only
  split <;> simp [Running, current, Base.obs]

theorem noopLoop_spec (g : Gym S O A K) (noop : A) (n : Nat) : ∀ (s : S) (obs : Option O) (tr : List (Base O A)),
    Running tr → (0 < n ∨ current tr = obs) →
    Running (noopLoop g noop n s obs tr).2.2 ∧
    current (noopLoop g noop n s obs tr).2.2 = (noopLoop g noop n s obs tr).2.1 := by
  induction n with
  | zero =>
    intro s obs tr h1 h2
    rcases h2 with h2 | h2
    · omega
    · exact ⟨h1, h2⟩
  | succ n ih =>
    intro s obs tr _ _
    obtain ⟨h1, h2⟩ := stepReset_spec g noop s tr
    simp only [noopLoop]
    exact ih _ _ _ h1 (.inr h2)

/-- C38 (NoopResetEnv).  For every number of no-ops `≥ 1` the observation returned
is the last one the game has shown, and the game is running. -/
theorem C38_noop (g : Gym S O A K) (noop : A) (noops : Nat) (h : 0 < noops) (s : S) :
    ∃ obs, (noopReset g noop noops s).2.1 = some obs ∧ current (noopReset g noop noops s).2.2 = some obs ∧
      Running (noopReset g noop noops s).2.2 := by
  obtain ⟨h1, h2⟩ := noopLoop_spec g noop noops (g.reset s).1 none [.reset (g.reset s).2] (by simp [Running]) (.inl h)
  have hne : ∃ o, (noopReset g noop noops s).2.1 = some o := by
    have key : ∀ (n : Nat) (s : S) (obs : Option O) (tr : List (Base O A)), (∃ o, obs = some o) →
        ∃ o, (noopLoop g noop n s obs tr).2.1 = some o := by
      intro n
      induction n with
      | zero => intro s obs tr h; exact h
      | succ n ih => intro s obs tr _; exact ih _ _ _ ⟨_, rfl⟩
    obtain ⟨m, rfl⟩ : ∃ m, noops = m + 1 := ⟨noops - 1, by omega⟩
    exact key m _ _ _ ⟨_, rfl⟩
  obtain ⟨o, ho⟩ := hne
  exact ⟨o, ho, by rw [← ho]; exact h2, h1⟩

/-- C38 (part, FireResetEnv).  The game is running after `reset`, and the
observation returned is the last one shown unless the second action ended the
game.  Missing: in that case the observation is that of the finished game. -/
theorem C38_fire_partial (g : Gym S O A K) (one two : A) (s : S) :
    Running (fireReset g one two s).2.2 ∧
    (ends (g.step (stepReset g one (g.reset s).1).1 two).2 = false →
      current (fireReset g one two s).2.2 = some (fireReset g one two s).2.1) := by
  have h := stepReset_spec g two (stepReset g one (g.reset s).1).1
    (.reset (g.reset s).2 :: (stepReset g one (g.reset s).1).2.2.2)
  have htr : (fireReset g one two s).2.2 = (.reset (g.reset s).2 :: (stepReset g one (g.reset s).1).2.2.2) ++
      (stepReset g two (stepReset g one (g.reset s).1).1).2.2.2 := rfl
  rw [htr]
  refine ⟨h.1, fun he => ?_⟩
  rw [h.2]
  have h2 : (fireReset g one two s).2.1 = (stepReset g two (stepReset g one (g.reset s).1).1).2.1 := rfl
  rw [h2]
  unfold stepReset at he ⊢
  simp only [he] at he ⊢
  simp

/-- A game that is over after two steps; the reset shows 0. -/
def exShort : Gym Nat Nat Nat Int := ⟨fun _ => (0, 0), fun s _ => (s + 1, ⟨s + 1, 0, decide (s + 1 = 2), false⟩)⟩

/-- C38 is violated (FireResetEnv): the second action ends the game, the game is
reset and shows 0, but the observation returned is that of the finished game. -/
theorem C38_violated_fire :
    (fireReset exShort 1 2 7).2.2 = [.reset 0, .step 1 1 false, .step 2 2 true, .reset 0] ∧
    (fireReset exShort 1 2 7).2.1 = 2 ∧ current (fireReset exShort 1 2 7).2.2 = some 0 ∧
    (fireReset exShort 1 2 7).1 = 0 := by decide +kernel

-- three no-ops in the same game
example : (noopReset exShort 0 3 7).2 =
    (some 1, [.reset 0, .step 0 1 false, .step 0 2 true, .reset 0, .step 0 1 false]) := by decide +kernel
example : (noopReset exShort 0 2 7).2 = (some 0, [.reset 0, .step 0 1 false, .step 0 2 true, .reset 0]) := by decide +kernel

end Verif.Wrappers
