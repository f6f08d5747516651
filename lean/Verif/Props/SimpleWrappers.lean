import Verif.Model.SimpleWrappers
import Verif.Spec.SimpleWrappers
import Mathlib.Tactic
set_option autoImplicit false
set_option linter.unusedSectionVars false

/-! # C130: wrappers that render, scale, cast, clip, seed and delegate change only what they say -/

namespace Verif.SimpleWrappers
open Spec
open Verif.Train (StepOut)
open Verif.AtariPipeline (Rng)
variable {S O O' A W V : Type}

theorem run_append (f : Env S O A W V) (s : S) (a b : List (Call A W)) :
    run f s (a ++ b) = ((run f (run f s a).1 b).1, (run f s a).2 ++ (run f (run f s a).1 b).2) := by
  induction a generalizing s with
  | nil => simp [run]
  | cons c cs ih => simp [run, ih]

/-- With an environment that does not raise, `Render` makes exactly these calls: every call of the user once and in
their order, and one `render` with the given arguments after each `reset` and each `step`; and the environment ends in
the state these calls lead to. -/
theorem C130_render_calls (kw : W) (f : Env S O A W V) (hf : ∀ s c, ∃ r, (f s c).2 = .ok r)
    (l : List (Call A W)) (s : S) (h : List (Call A W)) :
    (run (render kw (logged f)) (l, s) h).1
      = (l ++ h.flatMap (rendered kw), (run f s (h.flatMap (rendered kw))).1) := by
  induction h generalizing l s with
  | nil => simp [run]
  | cons c cs ih =>
    have key : (render kw (logged f) (l, s) c).1 = (l ++ rendered kw c, (run f s (rendered kw c)).1) := by
      cases c with
      | reset =>
        obtain ⟨r, hr⟩ := hf s .reset
        obtain ⟨r', hr'⟩ := hf (f s .reset).1 (.render kw)
        simp [render, andThen, logged, rendered, run, hr, hr']
      | step a =>
        obtain ⟨r, hr⟩ := hf s (.step a)
        obtain ⟨r', hr'⟩ := hf (f s (.step a)).1 (.render kw)
        simp [render, andThen, logged, rendered, run, hr, hr']
      | _ => simp [render, logged, rendered, run]
    simp [run, key, ih, run_append]

/-- If rendering does not change the environment and does not raise, nothing else is different: for every history the
same results, exceptions and state as without `Render`. -/
theorem C130_render_transparent (kw : W) (f : Env S O A W V) (hf : ∀ s, ∃ r, f s (.render kw) = (s, .ok r))
    (s : S) (h : List (Call A W)) : run (render kw f) s h = run f s h := by
  induction h generalizing s with
  | nil => rfl
  | cons c cs ih =>
    have key : render kw f s c = f s c := by
      cases c with
      | reset =>
        rcases hc : f s .reset with ⟨s', r⟩
        obtain ⟨v, hv⟩ := hf s'
        cases r <;> simp [render, andThen, hc, hv]
      | step a =>
        rcases hc : f s (.step a) with ⟨s', r⟩
        obtain ⟨v, hv⟩ := hf s'
        cases r <;> simp [render, andThen, hc, hv]
      | _ => rfl
    simp [run, key, ih]

/-- When a call raises nothing is rendered; when rendering raises, the environment has made its step all the same and
its result is lost. -/
theorem C130_render_raises (kw : W) (f : Env S O A W V) (l : List (Call A W)) (s : S) (a : A) :
    (∀ e, (f s (.step a)).2 = .error e →
      render kw (logged f) (l, s) (.step a) = ((l ++ [.step a], (f s (.step a)).1), .error e)) ∧
    (∀ r e, (f s (.step a)).2 = .ok r → (f (f s (.step a)).1 (.render kw)).2 = .error e →
      render kw (logged f) (l, s) (.step a)
        = ((l ++ [.step a, .render kw], (f (f s (.step a)).1 (.render kw)).1), .error e)) := by
  constructor
  · intro e he
    simp [render, andThen, logged, he]
  · intro r e hr he
    simp [render, andThen, logged, hr, he]

/-- `make_rendered`: one `render` after each `step` — none after `reset` — and one with `close=True` before `close`. -/
theorem C130_make_rendered_calls (args closing : W) (f : Env S O A W V) (hf : ∀ s c, ∃ r, (f s c).2 = .ok r)
    (l : List (Call A W)) (s : S) (h : List (Call A W)) :
    (run (makeRendered args closing (logged f)) (l, s) h).1
      = (l ++ h.flatMap (modified args closing), (run f s (h.flatMap (modified args closing))).1) := by
  induction h generalizing l s with
  | nil => simp [run]
  | cons c cs ih =>
    have key : (makeRendered args closing (logged f) (l, s) c).1
        = (l ++ modified args closing c, (run f s (modified args closing c)).1) := by
      cases c with
      | close =>
        obtain ⟨r, hr⟩ := hf s (.render closing)
        obtain ⟨r', hr'⟩ := hf (f s (.render closing)).1 .close
        simp [makeRendered, logged, modified, run, hr, hr']
      | step a =>
        obtain ⟨r, hr⟩ := hf s (.step a)
        obtain ⟨r', hr'⟩ := hf (f s (.step a)).1 (.render args)
        simp [makeRendered, andThen, logged, modified, run, hr, hr']
      | _ => simp [makeRendered, logged, modified, run]
    simp [run, key, ih, run_append]

theorem C130_make_rendered_transparent (args closing : W) (f : Env S O A W V)
    (h1 : ∀ s, ∃ r, f s (.render args) = (s, .ok r)) (h2 : ∀ s, ∃ r, f s (.render closing) = (s, .ok r))
    (h3 : ∀ s r, (f s .close).2 = .ok r → r = .none)
    (s : S) (h : List (Call A W)) : run (makeRendered args closing f) s h = run f s h := by
  induction h generalizing s with
  | nil => rfl
  | cons c cs ih =>
    have key : makeRendered args closing f s c = f s c := by
      cases c with
      | close =>
        rcases hc : f s .close with ⟨s', r⟩
        obtain ⟨v, hv⟩ := h2 s
        cases r with
        | error e => simp [makeRendered, hc, hv]
        | ok r =>
          have := h3 s r (by rw [hc])
          simp [makeRendered, hc, hv, this]
      | step a =>
        rcases hc : f s (.step a) with ⟨s', r⟩
        obtain ⟨v, hv⟩ := h1 s'
        cases r <;> simp [makeRendered, andThen, hc, hv]
      | _ => rfl
    simp [run, key, ih]

/-- An environment whose `render` does not accept `close=True` is never closed: for every history. -/
theorem C130_close_violated (args closing : W) (f : Env S O A W V)
    (hf : ∀ s, ∃ e, (f s (.render closing)).2 = .error e) (s : S) (h : List (Call A W)) :
    Call.close ∉ (run (makeRendered args closing (logged f)) ([], s) h).1.1 := by
  suffices H : ∀ (l : List (Call A W)) (s : S), Call.close ∉ l →
      Call.close ∉ (run (makeRendered args closing (logged f)) (l, s) h).1.1 from H [] s (by simp)
  clear s
  induction h with
  | nil => intro l s hl; simpa [run] using hl
  | cons c cs ih =>
    intro l s hl
    have key : Call.close ∉ (makeRendered args closing (logged f) (l, s) c).1.1 := by
      cases c with
      | close =>
        obtain ⟨e, he⟩ := hf s
        simp [makeRendered, logged, he, hl]
      | step a =>
        rcases h1 : (f s (.step a)).2 with e | r
        · simp [makeRendered, andThen, logged, h1, hl]
        · rcases h2 : (f (f s (.step a)).1 (.render args)).2 with e | r'
          · simp [makeRendered, andThen, logged, h1, h2, hl]
          · simp [makeRendered, andThen, logged, h1, h2, hl]
      | _ => simp [makeRendered, logged, hl]
    simp only [run]
    exact ih _ _ key

theorem latest_cons {X : Type} (start : Option X) (x : Option X) (xs : List X) :
    latest start (x.toList ++ xs) = latest (latest start x.toList) xs := by
  cases x with
  | none => simp [latest]
  | some x =>
    cases h : xs.getLast? with
    | none => simp [latest, List.getLast?_eq_none_iff.mp h]
    | some y =>
      have hx : (x :: xs).getLast? = some y := by simp [List.getLast?_cons, h]
      simp [latest, h, hx]

/-- `ScaleReward`: for every history each reward is multiplied by the factor and nothing else is different; the
environment goes through the same states, and `original_reward` is the latest reward it gave. -/
theorem C130_scale_reward (scale : ℝ) (f : Env S O A W V) (hf : StepsOnly f) (o : Option ℝ) (s : S)
    (h : List (Call A W)) :
    run (scaleReward scale f) (o, s) h
      = ((latest o ((run f s h).2.filterMap reward?), (run f s h).1),
          (run f s h).2.map (withReward fun r => scale * r)) := by
  induction h generalizing o s with
  | nil => simp [run, latest]
  | cons c cs ih =>
    have key : scaleReward scale f (o, s) c
        = ((latest o (reward? (f s c).2).toList, (f s c).1), withReward (fun r => scale * r) (f s c).2) := by
      have hstep := hf s c
      rcases hc : f s c with ⟨s', r⟩
      rw [hc] at hstep
      rcases r with e | r
      · cases c <;> simp [scaleReward, hc, latest, reward?, withReward]
      · cases r with
        | step out =>
          obtain ⟨a, rfl⟩ := hstep out rfl
          simp [scaleReward, hc, latest, reward?, withReward]
        | _ => cases c <;> simp [scaleReward, hc, latest, reward?, withReward]
    simp only [run, key, ih, List.map_cons]
    congr 2
    rw [← latest_cons]
    congr 1
    cases hr : reward? (f s c).2 <;> simp [List.filterMap_cons, hr]

theorem scale_stepsOnly (scale : ℝ) (f : Env S O A W V) (hf : StepsOnly f) : StepsOnly (scaleReward scale f) := by
  intro w c out h
  cases c with
  | step a => exact ⟨a, rfl⟩
  | _ => exact hf w.2 _ out (by simpa [scaleReward] using h)

/-- Two `ScaleReward`s are one with the product of the factors. -/
theorem C130_scale_twice (a b : ℝ) (f : Env S O A W V) (hf : StepsOnly f) (o o' o'' : Option ℝ) (s : S)
    (h : List (Call A W)) :
    (run (scaleReward a (scaleReward b f)) (o, o', s) h).2 = (run (scaleReward (a * b) f) (o'', s) h).2 := by
  rw [C130_scale_reward a _ (scale_stepsOnly b f hf), C130_scale_reward b f hf, C130_scale_reward (a * b) f hf]
  simp only [List.map_map]
  apply List.map_congr_left
  intro r _
  rcases r with e | r
  · rfl
  · cases r <;> simp [withReward, mul_assoc]

/-- `CastObservation`: for every history each observation is converted and nothing else is different;
`original_observation` is the latest observation the environment gave. -/
theorem C130_cast_observation (cast : O → O') (f : Env S O A W V) (o : Option O) (s : S) (h : List (Call A W)) :
    run (castObservation cast f) (o, s) h
      = ((latest o ((run f s h).2.filterMap obs?), (run f s h).1), (run f s h).2.map (withObs cast)) := by
  induction h generalizing o s with
  | nil => simp [run, latest]
  | cons c cs ih =>
    have key : castObservation cast f (o, s) c
        = ((latest o (obs? (f s c).2).toList, (f s c).1), withObs cast (f s c).2) := by
      rcases hc : f s c with ⟨s', r⟩
      rcases r with e | r
      · simp [castObservation, hc, latest, obs?, withObs]
      · cases r <;> simp [castObservation, hc, latest, obs?, withObs]
    simp only [run, key, ih, List.map_cons]
    congr 2
    rw [← latest_cons]
    congr 1
    cases hr : obs? (f s c).2 <;> simp [List.filterMap_cons, hr]

/-- `make_reward_clipped`: for every history the rewards are clipped and nothing else is different. -/
theorem C130_reward_clipped (low high : ℝ) (f : Env S O A W V) (hf : StepsOnly f) (s : S) (h : List (Call A W)) :
    run (rewardClipped low high f) s h = ((run f s h).1, (run f s h).2.map (withReward (clip low high))) := by
  induction h generalizing s with
  | nil => rfl
  | cons c cs ih =>
    have key : rewardClipped low high f s c = ((f s c).1, withReward (clip low high) (f s c).2) := by
      have hstep := hf s c
      rcases hc : f s c with ⟨s', r⟩
      rw [hc] at hstep
      rcases r with e | r
      · cases c <;> simp [rewardClipped, hc, withReward]
      · cases r with
        | step out =>
          obtain ⟨a, rfl⟩ := hstep out rfl
          simp [rewardClipped, hc, withReward]
        | _ => cases c <;> simp [rewardClipped, hc, withReward]
    simp [run, key, ih]

/-- A clipped reward is the number of the interval that is nearest to the reward. -/
theorem C130_clip_nearest (low high x : ℝ) (h : low ≤ high) :
    low ≤ clip low high x ∧ clip low high x ≤ high ∧ ∀ y, low ≤ y → y ≤ high → |x - clip low high x| ≤ |x - y| := by
  refine ⟨le_min (le_max_right _ _) h, min_le_right _ _, fun y h1 h2 => ?_⟩
  unfold clip
  rcases le_total x low with hx | hx
  · rw [max_eq_right hx, min_eq_left h, abs_of_nonpos (by linarith), abs_of_nonpos (by linarith)]; linarith
  · rw [max_eq_left hx]
    rcases le_total x high with hy | hy
    · rw [min_eq_left hy]; simp
    · rw [min_eq_right hy, abs_of_nonneg (by linarith), abs_of_nonneg (by linarith)]; linarith

/-- With the bounds the wrong way round every reward becomes `high`. -/
theorem C130_clip_swapped (low high x : ℝ) (h : high ≤ low) : clip low high x = high :=
  min_eq_right (h.trans (le_max_right _ _))

/-- `RandomizeAction.seed` starts both the environment's and its own random numbers afresh: if the environment's seed
fixes its state, everything after `seed(z)` — replaced actions, observations, rewards — is the same whatever happened
before. -/
theorem C130_seed_reproducible {R : Type} (g : Rng R) (fraction : ℝ) (n z : Nat) (f : Env S O Nat W V)
    (hf : ∀ s s', (f s (.seed z)).1 = (f s' (.seed z)).1) (hok : ∀ s, ∃ r, (f s (.seed z)).2 = .ok r)
    (w w' : R × S) (h : List (Call Nat W)) :
    run (randomizeAction g fraction n f) w (.seed z :: h) = run (randomizeAction g fraction n f) w' (.seed z :: h) := by
  have key : ∀ w : R × S, randomizeAction g fraction n f w (.seed z) = ((g.seed z, (f w.2 (.seed z)).1), .ok .none) := by
    intro w
    obtain ⟨r, hr⟩ := hok w.2
    simp only [randomizeAction]
    rcases hc : f w.2 (.seed z) with ⟨s', r'⟩
    rw [hc] at hr
    subst hr
    rfl
  simp only [run, key]
  rw [hf w.2 w'.2]

/-- But the seeds that the environment's `seed` returns are dropped: `None` comes back. -/
theorem C130_seed_returns_none {R : Type} (g : Rng R) (fraction : ℝ) (n z : Nat) (f : Env S O Nat W V)
    (w : R × S) (r : Ret O V) (h : (f w.2 (.seed z)).2 = .ok r) :
    (randomizeAction g fraction n f w (.seed z)).2 = .ok .none := by
  simp only [randomizeAction]
  rcases hc : f w.2 (.seed z) with ⟨s', r'⟩
  rw [hc] at h
  subst h
  rfl

/-! ## VectorEnvWrapper -/

/-- A vector environment under wrappers with these attributes, the outermost first. -/
def stacked (base : String → Option V) : List (String → Option V) → Obj V
  | [] => .plain base
  | own :: rest => .wrapper own (stacked base rest)

/-- A public attribute is found through any number of wrappers: the outermost one that has it wins. -/
theorem C130_public_attribute (base : String → Option V) (layers : List (String → Option V)) (name : String)
    (h : name.startsWith "_" = false) :
    getattr (stacked base layers) name = match (layers ++ [base]).findSome? (fun own => own name) with
      | some v => .ok v
      | none => .error .attributeError := by
  induction layers with
  | nil => cases hb : base name <;> simp [stacked, getattr, hb]
  | cons own rest ih =>
    cases ho : own name with
    | some v => simp [stacked, getattr, ho]
    | none => simp [stacked, getattr, ho, h, ih]

/-- A private attribute is never looked up in the wrapped environment. -/
theorem C130_private_attribute (own : String → Option V) (env : Obj V) (name : String)
    (h : name.startsWith "_" = true) :
    getattr (.wrapper own env) name = match own name with
      | some v => .ok v
      | none => .error .attributeError := by
  cases ho : own name <;> simp [getattr, ho, h]

/-- The spaces are copied when the wrapper is made: the wrapper has those of the environment at that moment, for every
number of wrappers and whatever attributes the wrapped environment has later (`env'`). -/
theorem C130_spaces (cls : String → Option V) (env env' : Obj V) (own : String → Option V)
    (h : wrap cls env = .ok (.wrapper own env)) :
    getattr (.wrapper own env') "action_space" = getattr env "action_space" ∧
    getattr (.wrapper own env') "observation_space" = getattr env "observation_space" := by
  unfold wrap at h
  rcases ha : getattr env "action_space" with e | a <;> rcases ho : getattr env "observation_space" with e' | o <;>
    simp only [ha, ho] at h
  · cases h
  · cases h
  · cases h
  · injection h with h
    injection h with h1 h2
    subst h1
    simp [getattr]

/-! ## Concrete cases -/

/-- A counter that gives the number of steps so far as observation and reward; `render 1` (closing) is refused. -/
noncomputable def demo : Env Nat Nat Nat Nat Nat := fun s c => match c with
  | .reset => (0, .ok (.obs 0))
  | .step a => (s + a, .ok (.step ⟨s + a, s + a, decide (3 ≤ s + a), false⟩))
  | .render w => (s, if w = 1 then .error .typeError else .ok (.value w))
  | .close => (s, .ok .none)
  | .seed z => (z, .ok (.value z))

example (s : Nat) : ∃ r, demo s (.render 0) = (s, .ok r) := ⟨.value 0, rfl⟩
example (s : Nat) : ∃ e, (demo s (.render 1)).2 = .error e := ⟨.typeError, rfl⟩
example : StepsOnly demo := by
  intro s c out h
  cases c with
  | step a => exact ⟨a, rfl⟩
  | render w => by_cases hw : w = 1 <;> simp [demo, hw] at h
  | _ => simp [demo] at h
example (s s' : Nat) : (demo s (.seed 7)).1 = (demo s' (.seed 7)).1 := rfl

/-- Two steps after a reset: what the environment gets. -/
example : (run (render 0 (logged demo)) ([], 5) [.reset, .step 1, .step 2]).1
    = ([.reset, .render 0, .step 1, .render 0, .step 2, .render 0], 3) := by
  simp [run, render, andThen, logged, demo]

example : getattr (stacked (fun n => if n = "num_envs" then some 4 else none) [fun n => if n = "k" then some 2 else none])
    "num_envs" = .ok 4 := by
  rw [C130_public_attribute _ _ _ (by decide +kernel)]
  simp

end Verif.SimpleWrappers
