import Mathlib.Tactic.Linarith
import Mathlib.Tactic.Positivity
import Mathlib.Tactic.FieldSimp
import Mathlib.Tactic.NormNum
import Mathlib.Data.Rat.Defs
import Mathlib.Algebra.Order.Ring.Rat
import Verif.Model.DecayHooks
import Verif.Spec.DecayHooks
import Verif.Props.NumericFns
import Verif.Props.TrainAgent
import Verif.Props.TrainAgentBatch
import Verif.Props.TrainAgentAsync
set_option autoImplicit false
set_option linter.unusedSectionVars false

/-! # C164: learning rate and clipping parameter through a whole training run -/

namespace Verif.DecayHooks
variable {O A R S K V X : Type} [Field K] [LinearOrder K] [IsStrictOrderedRing K] [Zero R] [LinearOrder S]

/-- What the hook sets at step `n ≥ 1` is the point of the line. -/
theorem fire_eq (h : Hook K) (setter : K → V) (hT : 2 ≤ h.totalSteps) (n : Nat) (hn : 1 ≤ n) :
    h.fire setter n = setter (ramp h.totalSteps h.start h.stop n) := by
  obtain ⟨-, h2, h3⟩ := Numeric.C70_values h.totalSteps h.start h.stop hT
  unfold Hook.fire ramp
  split
  · rw [h2 n (by assumption)]
  · rw [h3 n hn (by omega)]

theorem ramp_bounds (T : Nat) (start stop : K) (hT : 2 ≤ T) (hs : stop < start) (n : Nat) (hn : 1 ≤ n) :
    stop ≤ ramp T start stop n ∧ ramp T start stop n ≤ start ∧ (n < T → stop < ramp T start stop n) := by
  have hT' : (0 : K) < (T : K) - 1 := by
    have : (1 : K) < T := by exact_mod_cast (by omega : 1 < T)
    exact sub_pos.2 this
  unfold ramp
  split
  · exact ⟨le_refl _, hs.le, by omega⟩
  · have hn' : (1 : K) ≤ n := by exact_mod_cast hn
    have hnT : (n : K) < T := by exact_mod_cast (by omega : n < T)
    have hf0 : 0 ≤ ((n : K) - 1) / ((T : K) - 1) := div_nonneg (by linarith) hT'.le
    have hf1 : ((n : K) - 1) / ((T : K) - 1) < 1 := (div_lt_one hT').2 (by linarith)
    have hd : 0 < start - stop := sub_pos.2 hs
    have h1 := mul_lt_mul_of_pos_left hf1 hd
    have h2 := mul_nonneg hd.le hf0
    refine ⟨by linarith, by linarith, fun _ => by linarith⟩

theorem ramp_anti (T : Nat) (start stop : K) (hT : 2 ≤ T) (hs : stop < start) (n m : Nat) (hn : 1 ≤ n) (hm : n ≤ m) :
    ramp T start stop m ≤ ramp T start stop n := by
  rcases Nat.lt_or_ge m T with h | h
  · have hT' : (0 : K) < (T : K) - 1 := by
      have : (1 : K) < T := by exact_mod_cast (by omega : 1 < T)
      exact sub_pos.2 this
    have hnm : (n : K) ≤ m := by exact_mod_cast hm
    unfold ramp
    rw [if_neg (by omega), if_neg (by omega)]
    have : ((n : K) - 1) / ((T : K) - 1) ≤ ((m : K) - 1) / ((T : K) - 1) :=
      div_le_div_of_nonneg_right (by linarith) hT'.le
    have hd : 0 < start - stop := sub_pos.2 hs
    have h1 := mul_le_mul_of_nonneg_left this hd.le
    linarith
  · have : ramp T start stop m = stop := by unfold ramp; rw [if_pos h]
    rw [this]
    exact (ramp_bounds T start stop hT hs n hn).1

/-! ## `train_agent` -/

section Sync
variable (h : Hook K) (setter : K → V)

/-- The value is as expected at every marked event of the list, and actions are chosen before step `N`. -/
def good (N : Nat) (val : Nat → V) : V → Nat → List (Train.Ev O A R S) → Prop
  | _, _, [] => True
  | v, t, e :: es => (learnsTrain e = true → v = val t) ∧ (∀ o r a, e = .act o r a → t < N) ∧
      good N val (onTrain h setter v e) (if e.isStep then t + 1 else t) es

theorem good_append (N : Nat) (val : Nat → V) (v : V) (t : Nat) (l1 l2 : List (Train.Ev O A R S)) :
    good h setter N val v t (l1 ++ l2) ↔ good h setter N val v t l1 ∧
      good h setter N val (l1.foldl (onTrain h setter) v) (t + l1.countP Train.Ev.isStep) l2 := by
  induction l1 generalizing v t with
  | nil => simp [good]
  | cons e l ih =>
    simp only [List.cons_append, good, ih, List.foldl_cons, List.countP_cons, and_assoc]
    have : (if e.isStep = true then t + 1 else t) + List.countP Train.Ev.isStep l =
        t + (List.countP Train.Ev.isStep l + if e.isStep = true then 1 else 0) := by split <;> omega
    rw [this]

theorem good_quiet (N : Nat) (val : Nat → V) (v : V) (t : Nat) (l : List (Train.Ev O A R S))
    (hl : ∀ e ∈ l, learnsTrain e = false) : good h setter N val v t l := by
  induction l generalizing v t with
  | nil => trivial
  | cons e l ih =>
    refine ⟨fun he => ?_, fun o r a he => ?_, ih _ _ fun e' he' => hl e' (by simp [he'])⟩
    · rw [hl e (by simp)] at he; cases he
    · have := hl e (by simp); rw [he] at this; cases this

theorem hooks_quiet (t i n : Nat) : ∀ e ∈ Train.hooksFrom (O := O) (A := A) (K := R) (S := S) t i n, ∃ j, e = .hook j t := by
  induction n generalizing i with
  | zero => simp [Train.hooksFrom]
  | succ n ih =>
    intro e he
    rcases List.mem_cons.1 he with rfl | he
    · exact ⟨_, rfl⟩
    · exact ih _ e he

theorem hooks_after (t i n : Nat) (v : V) (hi : h.index < i) :
    (Train.hooksFrom (O := O) (A := A) (K := R) (S := S) t i n).foldl (onTrain h setter) v = v := by
  induction n generalizing i with
  | zero => rfl
  | succ n ih =>
    simp only [Train.hooksFrom, List.foldl_cons, onTrain]
    rw [if_neg (by omega), ih (i + 1) (by omega)]

theorem hooks_fire (t i n : Nat) (v : V) (hi : i ≤ h.index) (hn : h.index < i + n) :
    (Train.hooksFrom (O := O) (A := A) (K := R) (S := S) t i n).foldl (onTrain h setter) v = h.fire setter t := by
  induction n generalizing i v with
  | zero => omega
  | succ n ih =>
    simp only [Train.hooksFrom, List.foldl_cons, onTrain]
    by_cases he : i = h.index
    · rw [if_pos he, hooks_after h setter t (i + 1) n _ (by omega)]
    · rw [if_neg he, ih (i + 1) v (by omega) (by omega)]

theorem hooks_steps (t i n : Nat) :
    (Train.hooksFrom (O := O) (A := A) (K := R) (S := S) t i n).countP Train.Ev.isStep = 0 := by
  induction n generalizing i with
  | zero => rfl
  | succ n ih => simp [Train.hooksFrom, Train.Ev.isStep, ih]

theorem ckpt_cases (c : Train.Cfg S) (t : Nat) :
    Train.ckpt (O := O) (A := A) (K := R) c t = [] ∨ Train.ckpt (O := O) (A := A) (K := R) c t = [.save t .checkpoint] := by
  unfold Train.ckpt; split
  · exact .inl rfl
  · split <;> simp

theorem evalOk_cases {c : Train.Cfg S} {t k : Nat} {E : List (Train.Ev O A R S)} {b : Bool} (hE : Train.EvalOk c t k E b) :
    E = [] ∨ ∃ m, E = [.evaluate t k m] := by
  rcases hE with ⟨_, h, _⟩ | ⟨_, m, h, _⟩
  · exact .inl h
  · exact .inr ⟨m, h⟩

variable (c : Train.Cfg S) (hi : h.index < c.numHooks) (val : Nat → V)
include hi

theorem iter_good {l : Train.Loc O R} {t t1 : Nat} {e1 : List (Train.Ev O A R S)} {r : Except X (Option (Train.Loc O R))}
    (hr : Train.IterRes c l t e1 t1 r) (hlt : t < c.steps) (hv : val (t + 1) = h.fire setter (t + 1)) :
    good h setter c.steps val (val t) t e1 ∧ (∀ x, r = .ok x → e1.foldl (onTrain h setter) (val t) = val (t + 1) ∧
      e1.countP Train.Ev.isStep = 1 ∧ t1 = t + 1) := by
  have hq : ∀ v s, good h setter c.steps val v s (Train.hooksFrom (O := O) (A := A) (K := R) (S := S) (t + 1) 0 c.numHooks) := fun v s =>
    good_quiet h setter c.steps val v s _ fun e he => by obtain ⟨j, rfl⟩ := hooks_quiet _ _ _ e he; rfl
  have hf : ∀ v, (Train.hooksFrom (O := O) (A := A) (K := R) (S := S) (t + 1) 0 c.numHooks).foldl (onTrain h setter) v = val (t + 1) := fun v => by
    rw [hv]; exact hooks_fire h setter (t + 1) 0 c.numHooks v (by omega) (by omega)
  have hs := hooks_steps (O := O) (A := A) (R := R) (S := S) (t + 1) 0 c.numHooks
  cases hr with
  | go a out hE =>
    rcases ckpt_cases (O := O) (A := A) (R := R) c (t + 1) with hc | hc <;> rw [hc] <;>
      simp [good_append, good, hq, hf, hs, hlt, learnsTrain, onTrain, Train.Ev.isStep, List.foldl_append, List.countP_cons]
  | again a out E o hE hev ht =>
    rcases ckpt_cases (O := O) (A := A) (R := R) c (t + 1) with hc | hc <;> rcases evalOk_cases hev with rfl | ⟨m, rfl⟩ <;> rw [hc] <;>
      simp [good_append, good, hq, hf, hs, hlt, learnsTrain, onTrain, Train.Ev.isStep, List.foldl_append, List.countP_cons]
  | brk a out E b hE hev ht =>
    rcases evalOk_cases hev with rfl | ⟨m, rfl⟩ <;>
      simp [good_append, good, hq, hf, hs, hlt, learnsTrain, onTrain, Train.Ev.isStep, List.foldl_append, List.countP_cons]
  | crashAct => simp [good]
  | crashStep => simp [good, hlt]
  | crashHook e a out P hP =>
    refine ⟨?_, by simp⟩
    rw [good_append]
    refine ⟨by simp [good, learnsTrain, onTrain, hlt], good_quiet _ _ _ _ _ _ _ fun e he => ?_⟩
    obtain ⟨j, rfl⟩ := hooks_quiet _ _ _ e (hP.subset he); rfl
  | crashEval => simp [good_append, good, hq, hf, hs, hlt, learnsTrain, onTrain, Train.Ev.isStep, List.foldl_append, List.countP_cons]
  | crashReset e a out E hE hev ht =>
    rcases evalOk_cases hev with rfl | ⟨m, rfl⟩ <;>
      simp [good_append, good, hq, hf, hs, hlt, learnsTrain, onTrain, Train.Ev.isStep, List.foldl_append, List.countP_cons]
  | crashCkpt e a out E o hE hev ht =>
    rcases evalOk_cases hev with rfl | ⟨m, rfl⟩ <;>
      simp [good_append, good, hq, hf, hs, hlt, learnsTrain, onTrain, Train.Ev.isStep, List.foldl_append, List.countP_cons]

theorem loop_good {l : Train.Loc O R} {t t2 : Nat} {evs : List (Train.Ev O A R S)} {r : Except X Unit}
    (hr : Train.LoopRes c l t evs t2 r) (hv : ∀ n, t < n → val n = h.fire setter n) :
    good h setter c.steps val (val t) t evs ∧ (r = .ok () → evs.foldl (onTrain h setter) (val t) = val (t + evs.countP Train.Ev.isStep)) := by
  induction hr with
  | exit l t hh => exact ⟨trivial, fun _ => rfl⟩
  | @more l l' t t1 t2 e1 e2 r hh hit hl ih =>
    obtain ⟨h1, h2⟩ := iter_good h setter c hi val hit hh (hv _ (by omega))
    obtain ⟨h3, h4, h5⟩ := h2 _ rfl
    subst h5
    obtain ⟨h6, h7⟩ := ih fun n hn => hv n (by omega)
    refine ⟨?_, fun hr => ?_⟩
    · rw [good_append, h3, h4]; exact ⟨h1, h6⟩
    · rw [List.foldl_append, h3, h7 hr, List.countP_append, h4]; congr 1; omega
  | brk hh hit =>
    obtain ⟨h1, h2⟩ := iter_good h setter c hi val hit hh (hv _ (by omega))
    obtain ⟨h3, h4, h5⟩ := h2 _ rfl
    exact ⟨h1, fun _ => by rw [h3, h4]⟩
  | crash hh hit =>
    exact ⟨(iter_good h setter c hi val hit hh (hv _ (by omega))).1, by simp⟩

theorem run_good (v0 : V) (w : Train.World O A R S X) (val : Nat → V) (h0 : val c.stepOffset = v0)
    (hv : ∀ n, c.stepOffset < n → val n = h.fire setter n) :
    good h setter c.steps val v0 c.stepOffset (Train.run c w).1 ∧
    ((Train.run c w).2 = .ok () → (Train.run c w).1.foldl (onTrain h setter) v0 =
      val (c.stepOffset + (Train.run c w).1.countP Train.Ev.isStep)) := by
  subst h0
  rcases Train.run_cases c w with ⟨e, he⟩ | ⟨o, T, evs, t, r, hT, hl, hc⟩
  · rw [he]; simp [good]
  obtain ⟨h1, h2⟩ := loop_good h setter c hi val hl hv
  have hpre : ∀ tail, good h setter c.steps val (val c.stepOffset) c.stepOffset (.reset o :: T ++ evs ++ tail) ↔
      good h setter c.steps val (val c.stepOffset) c.stepOffset (evs ++ tail) := by
    intro tail; rcases hT with rfl | rfl <;> simp [good, learnsTrain, onTrain, Train.Ev.isStep]
  have hA : ∀ s, good h setter c.steps val (val c.stepOffset) c.stepOffset (evs ++ [.save t s]) := fun s => by
    rw [good_append]; exact ⟨h1, by simp [good, learnsTrain]⟩
  have hB : good h setter c.steps val (val c.stepOffset) c.stepOffset (.reset o :: T ++ evs) := by
    have := hpre []; simp only [List.append_nil] at this; exact this.2 h1
  rcases hc with ⟨e, hr, he | ⟨e', _, he⟩⟩ | ⟨hr, he | ⟨e', _, he⟩⟩ <;> rw [he]
  · exact ⟨(hpre _).2 (hA _), by simp⟩
  · exact ⟨hB, by simp⟩
  · refine ⟨(hpre _).2 (hA _), fun _ => ?_⟩
    have := h2 hr
    rcases hT with rfl | rfl <;> simp [List.foldl_append, onTrain, this, Train.Ev.isStep]
  · exact ⟨hB, by simp⟩

omit hi in
theorem good_at (N : Nat) (v : V) (t : Nat) (pre post : List (Train.Ev O A R S)) (e : Train.Ev O A R S)
    (hg : good h setter N val v t (pre ++ e :: post)) (he : learnsTrain e = true) :
    pre.foldl (onTrain h setter) v = val (t + pre.countP Train.Ev.isStep) ∧
      (∀ o r a, e = .act o r a → t + pre.countP Train.Ev.isStep < N) := by
  rw [good_append] at hg
  exact ⟨hg.2.1 he, hg.2.2.1⟩

end Sync

/-- C164: in `train_agent`, whenever the agent acts or is told of the end of an episode (which is when it learns), the attribute is on the straight
line: it has the value of the step number reached, and before the first step the value `v0` it was created with. -/
theorem C164_train (h : Hook K) (setter : K → V) (v0 : V) (c : Train.Cfg S) (w : Train.World O A R S X) (hT : 2 ≤ h.totalSteps)
    (hi : h.index < c.numHooks) (pre post : List (Train.Ev O A R S)) (e : Train.Ev O A R S) (he : learnsTrain e = true)
    (hrun : (Train.run c w).1 = pre ++ e :: post) :
    pre.foldl (onTrain h setter) v0 =
      if pre.countP Train.Ev.isStep = 0 then v0
      else setter (ramp h.totalSteps h.start h.stop (c.stepOffset + pre.countP Train.Ev.isStep)) := by
  have hg := (run_good h setter c hi v0 w (fun n => if n = c.stepOffset then v0 else h.fire setter n) (by simp)
    (fun n hn => if_neg (by omega))).1
  rw [hrun] at hg
  rw [(good_at h setter _ _ _ _ pre post e hg he).1]
  by_cases h0 : pre.countP Train.Ev.isStep = 0
  · simp [h0]
  · simp only [h0, if_false]
    rw [if_neg (by omega), fire_eq h setter hT _ (by omega)]

/-- C164: when `train_agent` returns normally after at least one step, the attribute has the value of the last step; a complete run over the hook's
number of steps ends with the stop value. -/
theorem C164_train_end (h : Hook K) (setter : K → V) (v0 : V) (c : Train.Cfg S) (w : Train.World O A R S X) (hT : 2 ≤ h.totalSteps)
    (hi : h.index < c.numHooks) (hok : (Train.run c w).2 = .ok ()) (h1 : 0 < (Train.run c w).1.countP Train.Ev.isStep) :
    (Train.run c w).1.foldl (onTrain h setter) v0 =
      setter (ramp h.totalSteps h.start h.stop (c.stepOffset + (Train.run c w).1.countP Train.Ev.isStep)) ∧
    (h.totalSteps ≤ c.steps → ¬ Train.Succeeded c (Train.run c w).1 →
      (Train.run c w).1.foldl (onTrain h setter) v0 = setter h.stop) := by
  have hg := (run_good h setter c hi v0 w (fun n => if n = c.stepOffset then v0 else h.fire setter n) (by simp)
    (fun n hn => if_neg (by omega))).2 hok
  have key : (Train.run c w).1.foldl (onTrain h setter) v0 =
      setter (ramp h.totalSteps h.start h.stop (c.stepOffset + (Train.run c w).1.countP Train.Ev.isStep)) := by
    rw [hg, if_neg (by omega), fire_eq h setter hT _ (by omega)]
  refine ⟨key, fun hs hns => ?_⟩
  rcases (Train.C21_step_count c w).2 hok with hh | hh
  · rw [key]
    unfold ramp
    rw [if_pos (by omega)]
  · exact absurd hh hns

/-- C164: with a hook over the run's own number of steps and a decreasing line, every action of `train_agent` is chosen, and every update in
`act_and_train` made, with a value strictly above the stop value and at most the start value; so a learning rate decayed to zero is positive then. -/
theorem C164_train_positive (h : Hook K) (c : Train.Cfg S) (w : Train.World O A R S X) (hT : 2 ≤ h.totalSteps) (hs : h.stop < h.start)
    (hi : h.index < c.numHooks) (hsteps : h.totalSteps = c.steps) (pre post : List (Train.Ev O A R S)) (o : O) (r : R) (a : A)
    (hrun : (Train.run c w).1 = pre ++ .act o r a :: post) :
    h.stop < pre.foldl (onTrain h lrSetter) h.start ∧ pre.foldl (onTrain h lrSetter) h.start ≤ h.start := by
  rw [C164_train h lrSetter h.start c w hT hi pre post _ rfl hrun]
  split
  · exact ⟨hs, le_refl _⟩
  · rename_i h0
    have hb := ramp_bounds h.totalSteps h.start h.stop hT hs (c.stepOffset + pre.countP Train.Ev.isStep) (by omega)
    refine ⟨hb.2.2 ?_, hb.2.1⟩
    have hg := (run_good h lrSetter c hi h.start w (fun n => if n = c.stepOffset then h.start else h.fire lrSetter n) (by simp)
      (fun n hn => if_neg (by omega))).1
    rw [hrun] at hg
    rw [hsteps]
    exact (good_at h lrSetter _ _ _ _ pre post _ hg rfl).2 o r a rfl

/-- C164: the call of `stop_episode_and_train` at the last step of the run, and what it learns from the last episode, has the stop value: with a
learning rate decayed to zero the last update changes nothing. -/
theorem C164_train_last (h : Hook K) (setter : K → V) (v0 : V) (c : Train.Cfg S) (w : Train.World O A R S X) (hT : 2 ≤ h.totalSteps)
    (hi : h.index < c.numHooks) (pre post : List (Train.Ev O A R S)) (o : O) (r : R) (d : Bool)
    (hrun : (Train.run c w).1 = pre ++ .stop o r d :: post) (h1 : 0 < pre.countP Train.Ev.isStep)
    (hend : h.totalSteps ≤ c.stepOffset + pre.countP Train.Ev.isStep) :
    pre.foldl (onTrain h setter) v0 = setter h.stop := by
  rw [C164_train h setter v0 c w hT hi pre post _ rfl hrun, if_neg (by omega)]
  unfold ramp
  rw [if_pos hend]

/-- C164: from one such point of `train_agent` to any later one the value does not increase (for a decreasing line and an attribute created with
the start value). -/
theorem C164_train_decreasing (h : Hook K) (c : Train.Cfg S) (w : Train.World O A R S X) (hT : 2 ≤ h.totalSteps) (hs : h.stop < h.start)
    (hi : h.index < c.numHooks) (pre mid post : List (Train.Ev O A R S)) (e e' : Train.Ev O A R S) (he : learnsTrain e = true)
    (he' : learnsTrain e' = true) (hrun : (Train.run c w).1 = pre ++ e :: mid ++ e' :: post) :
    (pre ++ e :: mid).foldl (onTrain h lrSetter) h.start ≤ pre.foldl (onTrain h lrSetter) h.start := by
  rw [C164_train h lrSetter h.start c w hT hi (pre ++ e :: mid) post e' he' hrun,
    C164_train h lrSetter h.start c w hT hi pre (mid ++ e' :: post) e he (by rw [hrun]; simp)]
  have hle : pre.countP Train.Ev.isStep ≤ (pre ++ e :: mid).countP Train.Ev.isStep := by
    rw [List.countP_append]; omega
  by_cases h0 : (pre ++ e :: mid).countP Train.Ev.isStep = 0
  · rw [if_pos h0, if_pos (by omega)]
  · rw [if_neg h0]
    split
    · exact (ramp_bounds _ _ _ hT hs _ (by omega)).2.1
    · exact ramp_anti _ _ _ hT hs _ _ (by omega) (by omega)

/-- C164: the clipping parameter that `clip_eps_setter` sets is always positive, and at most the start value when that is at least `1e-8`. -/
theorem C164_clip_positive (h : Hook K) (hT : 2 ≤ h.totalSteps) (hs : h.stop < h.start) (n : Nat) (hn : 1 ≤ n)
    (h8 : (1 : K) / 100000000 ≤ h.start) :
    0 < h.fire clipSetter n ∧ h.fire clipSetter n ≤ h.start := by
  rw [fire_eq h clipSetter hT n hn]
  unfold clipSetter
  have : (0 : K) < 1 / 100000000 := by positivity
  exact ⟨lt_of_lt_of_le this (le_max_right _ _), max_le (ramp_bounds _ _ _ hT hs n hn).2.1 h8⟩

/-! ## `train_agent_batch` -/

section BatchAll
variable [Zero S]

section Batch
variable (h : Hook K) (setter : K → V) (c : TrainBatch.Cfg S)

theorem batch_skip (l : List Nat) (t : Nat) (v : V) (hl : h.index ∉ l) :
    (l.map fun i => (TrainBatch.Ev.hook i t : TrainBatch.Ev O A R S)).foldl (onBatch h setter) v = v := by
  induction l generalizing v with
  | nil => rfl
  | cons i l ih =>
    simp only [List.map_cons, List.foldl_cons, onBatch]
    rw [if_neg (fun hh => hl (by simp [hh])), ih _ fun hh => hl (by simp [hh])]

theorem batch_hooks (n t : Nat) (v : V) (hi : h.index < n) :
    ((List.range n).map fun i => (TrainBatch.Ev.hook i t : TrainBatch.Ev O A R S)).foldl (onBatch h setter) v = h.fire setter t := by
  induction n generalizing v with
  | zero => omega
  | succ n ih =>
    rw [List.range_succ, List.map_append, List.foldl_append]
    by_cases he : n = h.index
    · simp [onBatch, he]
    · rw [ih v (by omega)]; simp [onBatch, he]

theorem due_fire (n t : Nat) (freq : Option Nat) (m : Nat) (v : V) (hi : h.index < m) (hn : 0 < n) :
    (TrainBatch.due (O := O) (A := A) (K := R) (S := S) n m freq t).foldl (onBatch h setter) v = h.fire setter (t + n) := by
  obtain ⟨n, rfl⟩ : ∃ k, n = k + 1 := ⟨n - 1, by omega⟩
  unfold TrainBatch.due
  rw [List.range_succ, List.flatMap_append, List.foldl_append]
  simp only [List.flatMap_cons, List.flatMap_nil, List.append_nil, List.foldl_append]
  rw [batch_hooks h setter m _ _ hi]
  rfl

/-- The value in the phases of the run. -/
def BatchInv (v0 : V) (l : List (TrainBatch.Ev O A R S)) (q : TrainBatch.Phase O A R S) : Prop :=
  let v := l.foldl (onBatch h setter) v0
  let val := fun k => if k = 0 then v0 else h.fire setter (c.stepOffset + c.numEnvs * k)
  let m := l.countP observes
  match q with
  | .fresh => v = v0 ∧ m = 0
  | .ready _ _ t _ | .chosen _ _ t _ | .stepped _ _ t _ => v = val m ∧ t = c.stepOffset + c.numEnvs * m ∧ (m = 0 ∨ t < c.steps)
  | .counting todo _ _ t _ => todo.foldl (onBatch h setter) v = val m ∧ t = c.stepOffset + c.numEnvs * m ∧ 0 < m ∧ ∀ e ∈ todo, learnsBatch e = false
  | .judged _ _ _ t _ | .finished t => v = val m ∧ t = c.stepOffset + c.numEnvs * m ∧ 0 < m
  | .failed _ => True

theorem due_quiet (n m : Nat) (freq : Option Nat) (t : Nat) :
    ∀ e ∈ TrainBatch.due (O := O) (A := A) (K := R) (S := S) n m freq t, learnsBatch e = false := by
  intro e he
  simp only [TrainBatch.due, List.mem_flatMap, List.mem_append, List.mem_map] at he
  obtain ⟨j, _, he | ⟨i, _, rfl⟩⟩ := he
  · split at he
    · simp at he
    · split at he
      · simp only [List.mem_singleton] at he; subst he; rfl
      · simp at he
  · rfl

theorem batch_inv (v0 : V) (hi : h.index < c.numHooks) (hn : 0 < c.numEnvs) (l : List (TrainBatch.Ev O A R S))
    (q : TrainBatch.Phase O A R S) (hs : Steps (TrainBatch.Next c) .fresh l q) : BatchInv h setter c v0 l q := by
  refine hs.invariant (I := fun l q => BatchInv h setter c v0 l q) ⟨rfl, rfl⟩ ?_
  intro l q e r hI hstep
  induction hstep with
  | first => simp_all [BatchInv, onBatch, observes]
  | setT => simp_all [BatchInv, onBatch, observes]
  | act =>
    simpa only [BatchInv, List.foldl_append, List.foldl_cons, List.foldl_nil, onBatch, List.countP_append, observes,
      List.countP_singleton, Bool.false_eq_true, if_false, Nat.add_zero] using hI
  | step =>
    simpa only [BatchInv, List.foldl_append, List.foldl_cons, List.foldl_nil, onBatch, List.countP_append, observes,
      List.countP_singleton, Bool.false_eq_true, if_false, Nat.add_zero] using hI
  | observe outs lens t k resets ends hr he =>
    simp only [BatchInv] at hI
    simp only [BatchInv, List.foldl_append, List.foldl_cons, List.foldl_nil, onBatch, List.countP_append, observes,
      List.countP_singleton, if_true]
    refine ⟨?_, ?_, by omega, due_quiet _ _ _ _⟩
    · rw [due_fire h setter _ _ _ _ _ hi hn, if_neg (by omega), hI.2.1]; congr 1; ring
    · rw [hI.2.1]; ring
  | count e todo ends lens t k =>
    simp only [BatchInv] at hI
    have : observes e = false := by
      have := hI.2.2.2 e (by simp)
      cases e <;> first | rfl | cases this
    simp only [BatchInv, List.foldl_append, List.foldl_cons, List.foldl_nil, List.countP_append, List.countP_singleton, this,
      Bool.false_eq_true, if_false, Nat.add_zero]
    exact ⟨hI.1, hI.2.1, hI.2.2.1, fun e he => hI.2.2.2 e (by simp [he])⟩
  | evaluate => simp_all [BatchInv, onBatch, observes]
  | noEvaluator hev hn ih => exact ih ⟨hI.1, hI.2.1, hI.2.2.1⟩
  | reset => simp_all [BatchInv, onBatch, observes]
  | finish => simp_all [BatchInv, onBatch, observes]
  | fail => trivial
  | closeEnv => trivial
  | closeEvalEnv => trivial

theorem learns_phase {q r : TrainBatch.Phase O A R S} {e : TrainBatch.Ev O A R S} (hs : TrainBatch.Next c q e r) (he : learnsBatch e = true)
    (hq : ∀ todo ends lens t k, q = .counting todo ends lens t k → ∀ e ∈ todo, learnsBatch e = false) :
    (∃ o l t k, q = .ready o l t k) ∨ ∃ o l t k, q = .stepped o l t k := by
  induction hs with
  | act => exact .inl ⟨_, _, _, _, rfl⟩
  | observe => exact .inr ⟨_, _, _, _, rfl⟩
  | count e todo => rw [hq _ _ _ _ _ rfl e (by simp)] at he; cases he
  | noEvaluator hev hn ih =>
    rcases ih he (by intro _ _ _ _ _ h; cases h) with ⟨_, _, _, _, h⟩ | ⟨_, _, _, _, h⟩ <;> cases h
  | _ => cases he

end Batch

/-- C164: in `train_agent_batch`, whenever the agent acts or learns (`batch_act_and_train`, `batch_observe_and_train`), the attribute has the value
of the number of steps that were complete before this iteration, and in the first iteration the value `v0` it was created with. -/
theorem C164_batch (h : Hook K) (setter : K → V) (v0 : V) (c : TrainBatch.Cfg S) (hn : 0 < c.numEnvs) (w : TrainBatch.World O A R S X)
    (hT : 2 ≤ h.totalSteps) (hi : h.index < c.numHooks) (pre post : List (TrainBatch.Ev O A R S)) (e : TrainBatch.Ev O A R S)
    (he : learnsBatch e = true) (hrun : (TrainBatch.run c w).1 = pre ++ e :: post) :
    (pre.foldl (onBatch h setter) v0 =
      if pre.countP observes = 0 then v0
      else setter (ramp h.totalSteps h.start h.stop (c.stepOffset + c.numEnvs * pre.countP observes))) ∧
    (pre.countP observes = 0 ∨ c.stepOffset + c.numEnvs * pre.countP observes < c.steps) := by
  obtain ⟨q, h1, -⟩ := TrainBatch.C23_protocol c hn w
  rw [hrun] at h1
  obtain ⟨q1, h2, h3⟩ := h1.split
  have hI := batch_inv h setter c v0 hi hn _ _ h2
  cases h3 with
  | cons hs _ =>
    have key : pre.foldl (onBatch h setter) v0 =
        (if pre.countP observes = 0 then v0 else h.fire setter (c.stepOffset + c.numEnvs * pre.countP observes)) ∧
        (pre.countP observes = 0 ∨ c.stepOffset + c.numEnvs * pre.countP observes < c.steps) := by
      rcases learns_phase c hs he (by rintro _ _ _ _ _ rfl; exact hI.2.2.2) with ⟨_, _, _, _, rfl⟩ | ⟨_, _, _, _, rfl⟩
      · exact ⟨hI.1, by rw [← hI.2.1]; exact hI.2.2⟩
      · exact ⟨hI.1, by rw [← hI.2.1]; exact hI.2.2⟩
    refine ⟨?_, key.2⟩
    rw [key.1]
    split
    · rfl
    · rename_i h0
      have := Nat.mul_pos hn (Nat.pos_of_ne_zero h0)
      rw [fire_eq h setter hT _ (by omega)]

/-- C164: when `train_agent_batch` returns normally the attribute has the value of the last step. -/
theorem C164_batch_end (h : Hook K) (setter : K → V) (v0 : V) (c : TrainBatch.Cfg S) (hn : 0 < c.numEnvs) (w : TrainBatch.World O A R S X)
    (hT : 2 ≤ h.totalSteps) (hi : h.index < c.numHooks) (hok : (TrainBatch.run c w).2 = .ok ()) :
    (TrainBatch.run c w).1.foldl (onBatch h setter) v0 =
      setter (ramp h.totalSteps h.start h.stop (c.stepOffset + c.numEnvs * (TrainBatch.run c w).1.countP observes)) := by
  obtain ⟨q, h1, h2⟩ := TrainBatch.C23_protocol c hn w
  rw [hok] at h2
  obtain ⟨t, rfl⟩ := h2
  have hI := batch_inv h setter c v0 hi hn _ _ h1
  simp only [BatchInv] at hI
  have := Nat.mul_pos hn hI.2.2
  rw [hI.1, if_neg (by omega), fire_eq h setter hT _ (by omega)]

end BatchAll

/-! ## `train_agent_async` -/

section Async
variable {P : Nat} (h : Hook K) (setter : K → V)

/-- The value for the last global number. -/
def valAsync (v0 : V) : Option Nat → V
  | none => v0
  | some n => h.fire setter n

theorem lastNumber_snoc (l : List (TrainAsync.Ev O A R)) (e : TrainAsync.Ev O A R) :
    lastNumber (l ++ [e]) = match e with | .count n => some n | _ => lastNumber l := by
  cases e <;> simp [lastNumber]

/-- The value in the phases of a process. -/
def AsyncInv (N : Nat) (v0 : V) (l : List (TrainAsync.Ev O A R)) (q : TrainAsync.Phase O A R) : Prop :=
  let v := l.foldl (onAsync h setter) v0
  match q with
  | .fresh => v = v0 ∧ lastNumber l = none
  | .chosen .. | .stepped .. | .saved => v = valAsync h setter v0 (lastNumber l)
  | .ready .. => v = valAsync h setter v0 (lastNumber l) ∧ ∀ n, lastNumber l = some n → n < N
  | .counted _ _ n i => lastNumber l = some n ∧ (h.index < i → v = h.fire setter n)
  | .stopped n _ => lastNumber l = some n ∧ v = h.fire setter n
  | .over => True

theorem async_inv (v0 : V) (c : TrainAsync.Cfg S) (early : Bool) (hi : h.index < c.numHooks) (l : List (TrainAsync.Ev O A R))
    (q : TrainAsync.Phase O A R) (hs : Steps (TrainAsync.Next c early) .fresh l q) : AsyncInv h setter c.steps v0 l q := by
  refine hs.invariant (I := fun l q => AsyncInv h setter c.steps v0 l q) ⟨rfl, rfl⟩ ?_
  intro l q e r hI hstep
  cases hstep with
  | first => simp_all [AsyncInv, onAsync, lastNumber_snoc, valAsync]
  | act => simp_all [AsyncInv, onAsync, lastNumber_snoc, valAsync]
  | step => simp_all [AsyncInv, onAsync, lastNumber_snoc, valAsync]
  | count => simp_all [AsyncInv, onAsync, lastNumber_snoc, valAsync]
  | hook out len n i hlt =>
    simp only [AsyncInv] at hI
    simp only [AsyncInv, List.foldl_append, List.foldl_cons, List.foldl_nil, onAsync, lastNumber_snoc]
    refine ⟨hI.1, fun hh => ?_⟩
    split
    · rfl
    · exact hI.2 (by omega)
  | go => simp_all [AsyncInv, onAsync, lastNumber_snoc, valAsync]
  | stop => simp_all [AsyncInv, onAsync, lastNumber_snoc, valAsync]
  | evaluate => simp_all [AsyncInv, onAsync, lastNumber_snoc, valAsync]
  | again => simp_all [AsyncInv, onAsync, lastNumber_snoc, valAsync]
  | finish => simp_all [AsyncInv, onAsync, lastNumber_snoc, valAsync]
  | successful => trivial
  | successful' => trivial
  | except => trivial

theorem numbers_sorted (c : TrainAsync.Cfg S) (sched : List (Fin P × TrainAsync.Inp O A R S)) (p : Fin P) :
    ((TrainAsync.eventsOf p (TrainAsync.run c P sched).1).filterMap TrainAsync.Ev.countNo).Pairwise (· < ·) ∧
    ∀ n ∈ (TrainAsync.eventsOf p (TrainAsync.run c P sched).1).filterMap TrainAsync.Ev.countNo, 1 ≤ n := by
  have hsub : ((TrainAsync.eventsOf p (TrainAsync.run c P sched).1).filterMap TrainAsync.Ev.countNo).Sublist
      ((List.range (TrainAsync.run c P sched).2.g.counter).map (· + 1)) := by
    rw [← TrainAsync.C25_unique_numbers c sched]
    have h1 : (TrainAsync.eventsOf p (TrainAsync.run c P sched).1).Sublist ((TrainAsync.run c P sched).1.map Prod.snd) :=
      (List.filter_sublist).map _
    have h2 := h1.filterMap TrainAsync.Ev.countNo
    rw [List.filterMap_map] at h2
    exact h2
  refine ⟨List.Pairwise.sublist hsub ?_, fun n hn => ?_⟩
  · rw [List.pairwise_map]
    exact List.pairwise_lt_range.imp (by intro a b hab; omega)
  · have := hsub.subset hn
    simp only [List.mem_map] at this
    obtain ⟨k, _, rfl⟩ := this
    omega

theorem lastNumber_mem {l : List (TrainAsync.Ev O A R)} {n : Nat} (hl : lastNumber l = some n) :
    n ∈ l.filterMap TrainAsync.Ev.countNo := List.mem_of_getLast? hl

theorem last_le (l l' : List (TrainAsync.Ev O A R)) (n : Nat) (hn : lastNumber l = some n)
    (hs : ((l ++ l').filterMap TrainAsync.Ev.countNo).Pairwise (· < ·)) : ∃ m, lastNumber (l ++ l') = some m ∧ n ≤ m := by
  rw [List.filterMap_append, List.pairwise_append] at hs
  have h1 := lastNumber_mem hn
  have h0 : lastNumber (l ++ l') = ((l'.filterMap TrainAsync.Ev.countNo).getLast?).or (lastNumber l) := by
    show ((l ++ l').filterMap TrainAsync.Ev.countNo).getLast? = _
    rw [List.filterMap_append, List.getLast?_append]; rfl
  rw [h0, hn]
  cases hl' : (l'.filterMap TrainAsync.Ev.countNo).getLast? with
  | none => exact ⟨n, rfl, Nat.le_refl n⟩
  | some m => exact ⟨m, rfl, Nat.le_of_lt (hs.2.2 n h1 m (List.mem_of_getLast? hl'))⟩

theorem learns_async (v0 : V) (c : TrainAsync.Cfg S) (hi : h.index < c.numHooks) (sched : List (Fin P × TrainAsync.Inp O A R S))
    (p : Fin P) (pre post : List (TrainAsync.Ev O A R)) (e : TrainAsync.Ev O A R) (he : learnsAsync e = true)
    (hrun : TrainAsync.eventsOf p (TrainAsync.run c P sched).1 = pre ++ e :: post) :
    pre.foldl (onAsync h setter) v0 = valAsync h setter v0 (lastNumber pre) ∧
      (∀ o r a, e = .act o r a → ∀ n, lastNumber pre = some n → n < c.steps) := by
  obtain ⟨q, h1⟩ := TrainAsync.C25_protocol c sched p
  rw [hrun] at h1
  obtain ⟨q1, h2, h3⟩ := h1.split
  have hI := async_inv h setter v0 c _ hi _ _ h2
  cases h3 with
  | cons hs _ =>
    cases hs with
    | act => exact ⟨hI.1, fun _ _ _ _ => hI.2⟩
    | go out len n a hm =>
      obtain ⟨h4, h5⟩ := hI
      refine ⟨by rw [h4, h5 hi]; rfl, fun _ _ _ _ k hk => ?_⟩
      rw [h4] at hk
      cases hk
      by_contra hcon
      exact hm (.inr (.inr (.inr (by omega))))
    | stop out len n hm =>
      obtain ⟨h4, h5⟩ := hI
      exact ⟨by rw [h4, h5 hi]; rfl, by intro _ _ _ hh; cases hh⟩
    | _ => cases he

end Async

/-- C164: in `train_agent_async`, under every schedule and in every process, whenever the agent acts or is told of the end of an episode, its
attribute has the value of the global number of the last step of this process (of `v0` before its first step), no matter how many steps the other
processes have made since. -/
theorem C164_async {P : Nat} (h : Hook K) (setter : K → V) (v0 : V) (c : TrainAsync.Cfg S) (sched : List (Fin P × TrainAsync.Inp O A R S))
    (hT : 2 ≤ h.totalSteps) (hi : h.index < c.numHooks) (p : Fin P) (pre post : List (TrainAsync.Ev O A R)) (e : TrainAsync.Ev O A R)
    (he : learnsAsync e = true) (hrun : TrainAsync.eventsOf p (TrainAsync.run c P sched).1 = pre ++ e :: post) :
    pre.foldl (onAsync h setter) v0 = (lastNumber pre).elim v0 fun n => setter (ramp h.totalSteps h.start h.stop n) := by
  rw [(learns_async h setter v0 c hi sched p pre post e he hrun).1]
  cases hl : lastNumber pre with
  | none => rfl
  | some n =>
    refine fire_eq h setter hT n ?_
    refine (numbers_sorted c sched p).2 n ?_
    rw [hrun, List.filterMap_append]
    exact List.mem_append_left _ (lastNumber_mem hl)

/-- C164: in `train_agent_async` with a hook over the run's own number of steps and a decreasing line, every action is chosen with a value strictly
above the stop value and at most the start value. -/
theorem C164_async_positive {P : Nat} (h : Hook K) (c : TrainAsync.Cfg S) (sched : List (Fin P × TrainAsync.Inp O A R S))
    (hT : 2 ≤ h.totalSteps) (hs : h.stop < h.start) (hi : h.index < c.numHooks) (hsteps : h.totalSteps = c.steps) (p : Fin P)
    (pre post : List (TrainAsync.Ev O A R)) (o : O) (r : R) (a : A)
    (hrun : TrainAsync.eventsOf p (TrainAsync.run c P sched).1 = pre ++ .act o r a :: post) :
    h.stop < pre.foldl (onAsync h lrSetter) h.start ∧ pre.foldl (onAsync h lrSetter) h.start ≤ h.start := by
  rw [C164_async h lrSetter h.start c sched hT hi p pre post _ rfl hrun]
  have h2 := (learns_async h lrSetter h.start c hi sched p pre post _ rfl hrun).2 o r a rfl
  cases hl : lastNumber pre with
  | none => exact ⟨hs, le_refl _⟩
  | some n =>
    have hn : 1 ≤ n := by
      refine (numbers_sorted c sched p).2 n ?_
      rw [hrun, List.filterMap_append]
      exact List.mem_append_left _ (lastNumber_mem hl)
    have hb := ramp_bounds h.totalSteps h.start h.stop hT hs n hn
    exact ⟨hb.2.2 (by rw [hsteps]; exact h2 n hl), hb.2.1⟩

/-- C164: within a process of `train_agent_async` the value does not increase. -/
theorem C164_async_decreasing {P : Nat} (h : Hook K) (c : TrainAsync.Cfg S) (sched : List (Fin P × TrainAsync.Inp O A R S))
    (hT : 2 ≤ h.totalSteps) (hs : h.stop < h.start) (hi : h.index < c.numHooks) (p : Fin P) (pre mid post : List (TrainAsync.Ev O A R))
    (e e' : TrainAsync.Ev O A R) (he : learnsAsync e = true) (he' : learnsAsync e' = true)
    (hrun : TrainAsync.eventsOf p (TrainAsync.run c P sched).1 = pre ++ e :: mid ++ e' :: post) :
    (pre ++ e :: mid).foldl (onAsync h lrSetter) h.start ≤ pre.foldl (onAsync h lrSetter) h.start := by
  rw [C164_async h lrSetter h.start c sched hT hi p (pre ++ e :: mid) post e' he' hrun,
    C164_async h lrSetter h.start c sched hT hi p pre (mid ++ e' :: post) e he (by rw [hrun]; simp)]
  obtain ⟨s1, s2⟩ := numbers_sorted c sched p
  rw [hrun, List.filterMap_append] at s1 s2
  have s3 := (List.pairwise_append.1 s1).1
  cases hl : lastNumber pre with
  | none =>
    cases hl' : lastNumber (pre ++ e :: mid) with
    | none => exact le_refl _
    | some m => exact (ramp_bounds _ _ _ hT hs m (s2 m (List.mem_append_left _ (lastNumber_mem hl')))).2.1
  | some n =>
    obtain ⟨m, hm, hle⟩ := last_le pre (e :: mid) n hl s3
    rw [hm]
    refine ramp_anti _ _ _ hT hs n m (s2 n ?_) hle
    rw [List.filterMap_append]
    exact List.mem_append_left _ (List.mem_append_left _ (lastNumber_mem hl))

/-! ## Concrete cases -/

-- the run of C21's example (steps 3 to 7, hook 0), a line from 1 at step 1 to 0 at step 7: the values at the actions are 1 (the value the
-- attribute was created with; the line would be at 5/6), 4/6, 3/6, 2/6, 1/6; at the end 0
def exHook : Hook ℚ := ⟨7, 1, 0, 0⟩

example : exHook.index < Train.exCfg.numHooks ∧ 2 ≤ exHook.totalSteps ∧ exHook.stop < exHook.start ∧ exHook.totalSteps = Train.exCfg.steps := by
  decide +kernel

example : let evs := (Train.run Train.exCfg Train.exWorld).1
    (evs[2]? = some (.act 0 0 0) ∧ (evs.take 2).foldl (onTrain exHook lrSetter) 1 = 1) ∧
    (evs[5]? = some (.act 10 0 1) ∧ (evs.take 5).foldl (onTrain exHook lrSetter) 1 = 4 / 6) ∧
    (evs[8]? = some (.stop 11 1 false) ∧ (evs.take 8).foldl (onTrain exHook lrSetter) 1 = 3 / 6) ∧
    evs.foldl (onTrain exHook lrSetter) 1 = 0 := by
  refine ⟨⟨rfl, ?_⟩, ⟨rfl, ?_⟩, ⟨rfl, ?_⟩, ?_⟩
  · rfl
  · show exHook.fire lrSetter 3 = _
    rw [fire_eq _ _ (by decide) _ (by decide)]; norm_num [exHook, lrSetter, ramp]
  · show exHook.fire lrSetter 4 = _
    rw [fire_eq _ _ (by decide) _ (by decide)]; norm_num [exHook, lrSetter, ramp]
  · show exHook.fire lrSetter 7 = _
    rw [fire_eq _ _ (by decide) _ (by decide)]; norm_num [exHook, lrSetter, ramp]

-- the clipping parameter ends at 1e-8 instead of 0
example : (Train.run Train.exCfg Train.exWorld).1.foldl (onTrain exHook clipSetter) (1 : ℚ) = 1 / 100000000 := by
  show exHook.fire clipSetter 7 = _
  rw [fire_eq _ _ (by decide) _ (by decide)]; norm_num [exHook, clipSetter, ramp]

-- two environments, 5 steps: the three iterations act and learn with the values of steps 0, 2 and 4; the last step is number 6
def exHookB : Hook ℚ := ⟨5, 1, 0, 0⟩

example : let evs := (TrainBatch.run TrainBatch.exCfg TrainBatch.exWorld).1
    (evs[3]? = some (.observe [10, 20] [1, 2] [false, false] [false, false]) ∧ (evs.take 3).foldl (onBatch exHookB lrSetter) 1 = 1) ∧
    (evs[8]? = some (.act [7, 8] [1, 1]) ∧ (evs.take 8).foldl (onBatch exHookB lrSetter) 1 = 3 / 4) ∧
    evs.foldl (onBatch exHookB lrSetter) 1 = 0 := by
  refine ⟨⟨rfl, ?_⟩, ⟨rfl, ?_⟩, ?_⟩
  · rfl
  · show exHookB.fire lrSetter 2 = _
    rw [fire_eq _ _ (by decide) _ (by decide)]; norm_num [exHookB, lrSetter, ramp]
  · show exHookB.fire lrSetter 6 = _
    rw [fire_eq _ _ (by decide) _ (by decide)]; norm_num [exHookB, lrSetter, ramp]

-- two processes, 3 steps: process 0 makes steps 1 and 3, process 1 steps 2 and 4
def exHookA : Hook ℚ := ⟨3, 1, 0, 0⟩

example : exHookA.index < TrainAsync.exCfg.numHooks ∧ exHookA.totalSteps = TrainAsync.exCfg.steps := by decide

example : let evs := TrainAsync.eventsOf 0 (TrainAsync.run TrainAsync.exCfg 2 (TrainAsync.exRounds none 40)).1
    (evs[5]? = some (.stop 3 4 true) ∧ lastNumber (evs.take 5) = some 1 ∧ (evs.take 5).foldl (onAsync exHookA lrSetter) 1 = 1) ∧
    (evs[12]? = some (.stop 3 4 true) ∧ lastNumber (evs.take 12) = some 3 ∧ (evs.take 12).foldl (onAsync exHookA lrSetter) 1 = 0) := by
  refine ⟨⟨rfl, rfl, ?_⟩, ⟨rfl, rfl, ?_⟩⟩
  · show exHookA.fire lrSetter 1 = _
    rw [fire_eq _ _ (by decide) _ (by decide)]; norm_num [exHookA, lrSetter, ramp]
  · show exHookA.fire lrSetter 3 = _
    rw [fire_eq _ _ (by decide) _ (by decide)]; norm_num [exHookA, lrSetter, ramp]

end Verif.DecayHooks
