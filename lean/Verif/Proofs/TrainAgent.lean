import Mathlib.Data.List.Basic
import Verif.Spec.TrainProtocol
set_option autoImplicit false

namespace Verif.Train
variable {O A K S X : Type} [Zero K] [LinearOrder S]

/-- All hook calls of step `t`. -/
def hooksFrom (t : Nat) : Nat → Nat → List (Ev O A K S)
  | _, 0 => []
  | i, n + 1 => .hook i t :: hooksFrom t (i + 1) n

omit [LinearOrder S] [Zero K] in
theorem forN_hooks (f : Nat → Except X Unit) (t : Nat) (n i s : Nat) :
    ∃ l r, Eff.forN (fun i => Eff.call (fun _ => (Ev.hook i t : Ev O A K S)) (f i)) i n s = (l, s, r) ∧
      l <+: hooksFrom t i n ∧ (r = .ok () → l = hooksFrom t i n) := by
  induction n generalizing i with
  | zero => exact ⟨[], .ok (), rfl, List.prefix_rfl, fun _ => rfl⟩
  | succ n ih =>
    cases hf : f i with
    | error e =>
      refine ⟨[], .error e, ?_, List.nil_prefix, by simp⟩
      simp [Eff.forN, Eff.bind, Eff.call, hf]
    | ok u =>
      obtain ⟨l, r, h1, h2, h3⟩ := ih (i + 1)
      refine ⟨.hook i t :: l, r, ?_, ?_, ?_⟩
      · simp [Eff.forN, Eff.bind, Eff.call, hf, h1]
      · simpa [hooksFrom] using h2
      · intro hr; simp [hooksFrom, h3 hr]

/-- The evaluation events of an episode end. -/
def EvalOk (c : Cfg S) (t k : Nat) (E : List (Ev O A K S)) (success : Bool) : Prop :=
  (c.hasEvaluator = false ∧ E = [] ∧ success = false) ∨
  (c.hasEvaluator = true ∧ ∃ m, E = [.evaluate t k m] ∧
    (success = true ↔ ∃ s, c.successfulScore = some s ∧ s ≤ m))

/-- The checkpoint events of step `t`. -/
def ckpt (c : Cfg S) (t : Nat) : List (Ev O A K S) :=
  match c.checkpointFreq with
  | none => []
  | some f => if f ≠ 0 ∧ f ∣ t then [.save t .checkpoint] else []

/-- The possible executions of one iteration started at step `t`. -/
inductive IterRes (c : Cfg S) (l : Loc O K) (t : Nat) :
    List (Ev O A K S) → Nat → Except X (Option (Loc O K)) → Prop where
  | go (a : A) (out : StepOut O K)
      (h : ¬ Ends c.steps c.maxEpisodeLen out (l.episodeLen + 1) (t + 1)) :
      IterRes c l t ([.act l.obs l.r a, .step a out] ++ hooksFrom (t + 1) 0 c.numHooks ++ ckpt c (t + 1))
        (t + 1) (.ok (some ⟨out.obs, out.r, l.episodeIdx, l.episodeLen + 1⟩))
  | again (a : A) (out : StepOut O K) (E : List (Ev O A K S)) (o : O)
      (h : Ends c.steps c.maxEpisodeLen out (l.episodeLen + 1) (t + 1))
      (hE : EvalOk c (t + 1) (l.episodeIdx + 1) E false) (ht : t + 1 ≠ c.steps) :
      IterRes c l t ([.act l.obs l.r a, .step a out] ++ hooksFrom (t + 1) 0 c.numHooks ++
          ([.stop out.obs out.r out.done] ++ E ++ [.reset o]) ++ ckpt c (t + 1))
        (t + 1) (.ok (some ⟨o, 0, l.episodeIdx + 1, 0⟩))
  | brk (a : A) (out : StepOut O K) (E : List (Ev O A K S)) (success : Bool)
      (h : Ends c.steps c.maxEpisodeLen out (l.episodeLen + 1) (t + 1))
      (hE : EvalOk c (t + 1) (l.episodeIdx + 1) E success) (ht : success = true ∨ t + 1 = c.steps) :
      IterRes c l t ([.act l.obs l.r a, .step a out] ++ hooksFrom (t + 1) 0 c.numHooks ++
          ([.stop out.obs out.r out.done] ++ E))
        (t + 1) (.ok none)
  | crashAct (e : X) : IterRes c l t [] t (.error e)
  | crashStep (e : X) (a : A) : IterRes c l t [.act l.obs l.r a] t (.error e)
  | crashHook (e : X) (a : A) (out : StepOut O K) (P : List (Ev O A K S))
      (hP : P <+: hooksFrom (t + 1) 0 c.numHooks) :
      IterRes c l t ([.act l.obs l.r a, .step a out] ++ P) (t + 1) (.error e)
  | crashEval (e : X) (a : A) (out : StepOut O K)
      (h : Ends c.steps c.maxEpisodeLen out (l.episodeLen + 1) (t + 1)) :
      IterRes c l t ([.act l.obs l.r a, .step a out] ++ hooksFrom (t + 1) 0 c.numHooks ++
          [.stop out.obs out.r out.done]) (t + 1) (.error e)
  | crashReset (e : X) (a : A) (out : StepOut O K) (E : List (Ev O A K S))
      (h : Ends c.steps c.maxEpisodeLen out (l.episodeLen + 1) (t + 1))
      (hE : EvalOk c (t + 1) (l.episodeIdx + 1) E false) (ht : t + 1 ≠ c.steps) :
      IterRes c l t ([.act l.obs l.r a, .step a out] ++ hooksFrom (t + 1) 0 c.numHooks ++
          ([.stop out.obs out.r out.done] ++ E)) (t + 1) (.error e)
  | crashCkpt (e : X) (a : A) (out : StepOut O K) (E : List (Ev O A K S)) (o : O)
      (h : Ends c.steps c.maxEpisodeLen out (l.episodeLen + 1) (t + 1))
      (hE : EvalOk c (t + 1) (l.episodeIdx + 1) E false) (ht : t + 1 ≠ c.steps) :
      IterRes c l t ([.act l.obs l.r a, .step a out] ++ hooksFrom (t + 1) 0 c.numHooks ++
          ([.stop out.obs out.r out.done] ++ E ++ [.reset o])) (t + 1) (.error e)

omit [Zero K] in
theorem evalStep_spec (c : Cfg S) (w : Iter O A K S X) (t k s : Nat) :
    (∃ e, evalStep c w t k s = ([], s, .error e)) ∨
    ∃ E b, evalStep c w t k s = (E, s, .ok b) ∧ EvalOk c t (k + 1) E b := by
  unfold evalStep
  by_cases hh : c.hasEvaluator
  · rw [if_pos hh]
    cases hw : w.evaluate with
    | error e => exact .inl ⟨e, rfl⟩
    | ok m =>
      right
      cases hs : c.successfulScore with
      | none => exact ⟨[.evaluate t (k + 1) m], false, rfl, .inr ⟨hh, m, rfl, by simp [hs]⟩⟩
      | some x =>
        exact ⟨[.evaluate t (k + 1) m], decide (m ≥ x), rfl, .inr ⟨hh, m, rfl, by simp [hs]⟩⟩
  · rw [if_neg hh]
    right
    exact ⟨[], false, rfl, .inl ⟨by simpa using hh, rfl, rfl⟩⟩

omit [Zero K] [LinearOrder S] in
theorem checkpointStep_spec (c : Cfg S) (w : Iter O A K S X) (t s : Nat) :
    (∃ e, checkpointStep c w t s = ([], s, .error e)) ∨
    checkpointStep c w t s = (ckpt c t, s, .ok ()) := by
  unfold checkpointStep ckpt
  cases hf : c.checkpointFreq with
  | none => right; rfl
  | some f =>
    cases f with
    | zero => right; simp; rfl
    | succ f =>
      simp only
      by_cases hd : t % (f + 1) = 0
      · rw [if_pos hd, if_pos ⟨by omega, Nat.dvd_of_mod_eq_zero hd⟩]
        cases hw : w.checkpoint with
        | error e => exact .inl ⟨e, rfl⟩
        | ok u => right; rfl
      · rw [if_neg hd, if_neg (fun h => hd (Nat.mod_eq_zero_of_dvd h.2))]
        right; rfl

theorem bind_eq {S' E X α β : Type} (m : Eff S' E X α) (f : α → Eff S' E X β) (s : S') :
    (m >>= f) s = Eff.bind m f s := rfl

theorem bind_ok {S' E X α β : Type} {m : Eff S' E X α} {f : α → Eff S' E X β} {s s' : S'}
    {l : List E} {a : α} (h : m s = (l, s', .ok a)) :
    (m >>= f) s = (l ++ (f a s').1, (f a s').2.1, (f a s').2.2) := by
  rw [bind_eq, Eff.bind, h]

theorem bind_error {S' E X α β : Type} {m : Eff S' E X α} {f : α → Eff S' E X β} {s s' : S'}
    {l : List E} {e : X} (h : m s = (l, s', .error e)) :
    (m >>= f) s = (l, s', .error e) := by
  rw [bind_eq, Eff.bind, h]

theorem iter_res (c : Cfg S) (w : Iter O A K S X) (l : Loc O K) (t : Nat) :
    IterRes c l t (iter c w l t).1 (iter c w l t).2.1 (iter c w l t).2.2 := by
  unfold iter
  cases hact : w.act with
  | error e => rw [bind_error (s' := t) (l := []) (e := e) rfl]; exact .crashAct e
  | ok a =>
  rw [bind_ok (s' := t) (l := [.act l.obs l.r a]) (a := a) rfl]
  cases hstep : w.step with
  | error e => rw [bind_error (s' := t) (l := []) (e := e) rfl]; exact .crashStep e a
  | ok out =>
  rw [bind_ok (s' := t) (l := [.step a out]) (a := out) rfl]
  rw [bind_ok (s' := t) (l := []) (a := t) rfl]
  rw [bind_ok (s' := t + 1) (l := []) (a := ()) rfl]
  obtain ⟨H, r, h1, h2, h3⟩ := forN_hooks (O := O) (A := A) (K := K) (S := S) w.hook (t + 1) c.numHooks 0 (t + 1)
  cases r with
  | error e => rw [bind_error h1]; exact .crashHook e a out H h2
  | ok u =>
  rw [bind_ok h1]
  have hH := h3 rfl
  subst hH
  have hEnds : (out.done || (some (l.episodeLen + 1) == c.maxEpisodeLen || out.needsReset) ||
      t + 1 == c.steps) = true ↔ Ends c.steps c.maxEpisodeLen out (l.episodeLen + 1) (t + 1) := by
    simp only [Ends, Bool.or_eq_true, beq_iff_eq]
    constructor
    · rintro ((h | h | h) | h)
      · exact .inl h
      · exact .inr (.inr (.inl h.symm))
      · exact .inr (.inl h)
      · exact .inr (.inr (.inr h))
    · rintro (h | h | h | h)
      · exact .inl (.inl h)
      · exact .inl (.inr (.inr h))
      · exact .inl (.inr (.inl h.symm))
      · exact .inr h
  by_cases hend : (out.done || (some (l.episodeLen + 1) == c.maxEpisodeLen || out.needsReset) ||
      t + 1 == c.steps) = true
  · simp only [hend, if_true]
    have hE := hEnds.mp hend
    cases hstop : w.stop with
    | error e =>
      rw [bind_error (s' := t + 1) (l := []) (e := e) rfl]
      have := IterRes.crashHook (X := X) (c := c) (l := l) (t := t) e a out _ List.prefix_rfl
      simpa using this
    | ok u =>
    rw [bind_ok (s' := t + 1) (l := [.stop out.obs out.r out.done]) (a := u) rfl]
    rcases evalStep_spec c w (t + 1) l.episodeIdx (t + 1) with ⟨e, he⟩ | ⟨E, b, he, hb⟩
    · rw [bind_error he]
      have := IterRes.crashEval (X := X) (c := c) (l := l) (t := t) e a out hE
      simpa using this
    rw [bind_ok he]
    by_cases hbr : b = true ∨ t + 1 = c.steps
    · have hpure : (if b = true then (pure none : M O A K S X (Option (Loc O K)))
          else if (t + 1 == c.steps) = true then pure none
          else (do
            let o ← Eff.call (fun o => .reset o) w.reset
            checkpointStep c w (t + 1)
            pure (some ⟨o, 0, l.episodeIdx + 1, 0⟩))) = pure none := by
        rcases hbr with h | h
        · rw [if_pos h]
        · by_cases hb2 : b = true
          · rw [if_pos hb2]
          · rw [if_neg hb2, if_pos (by simpa using h)]
      rw [hpure]
      have := IterRes.brk (X := X) (c := c) (l := l) (t := t) a out E b hE hb hbr
      simpa [pure, Eff.pure] using this
    · have hb1 : b = false := by simpa using fun h => hbr (.inl h)
      have ht : t + 1 ≠ c.steps := fun h => hbr (.inr h)
      subst hb1
      rw [if_neg (by simp), if_neg (by simpa using ht)]
      cases hreset : w.reset with
      | error e =>
        rw [bind_error (s' := t + 1) (l := []) (e := e) rfl]
        have := IterRes.crashReset (X := X) (c := c) (l := l) (t := t) e a out E hE hb ht
        simpa using this
      | ok o =>
      rw [bind_ok (s' := t + 1) (l := [.reset o]) (a := o) rfl]
      rcases checkpointStep_spec c w (t + 1) (t + 1) with ⟨e, hc⟩ | hc
      · rw [bind_error hc]
        have := IterRes.crashCkpt (X := X) (c := c) (l := l) (t := t) e a out E o hE hb ht
        simpa using this
      · rw [bind_ok hc]
        have := IterRes.again (X := X) (c := c) (l := l) (t := t) a out E o hE hb ht
        simpa [pure, Eff.pure] using this
  · simp only [hend]
    have hE : ¬ _ := fun h => hend (hEnds.mpr h)
    simp only [Bool.false_eq_true, if_false]
    rcases checkpointStep_spec c w (t + 1) (t + 1) with ⟨e, hc⟩ | hc
    · rw [bind_error hc]
      have := IterRes.crashHook (X := X) (c := c) (l := l) (t := t) e a out _ List.prefix_rfl
      simpa using this
    · rw [bind_ok hc]
      have := IterRes.go (X := X) (c := c) (l := l) (t := t) a out hE
      simpa [pure, Eff.pure] using this

/-- The possible executions of the loop. -/
inductive LoopRes (c : Cfg S) : Loc O K → Nat → List (Ev O A K S) → Nat → Except X Unit → Prop where
  | exit (l : Loc O K) (t : Nat) (h : c.steps ≤ t) : LoopRes c l t [] t (.ok ())
  | more {l l' : Loc O K} {t t1 t2 : Nat} {e1 e2 : List (Ev O A K S)} {r : Except X Unit}
      (h : t < c.steps)
      (hi : IterRes c l t e1 t1 (.ok (some l') : Except X _)) (hl : LoopRes c l' t1 e2 t2 r) :
      LoopRes c l t (e1 ++ e2) t2 r
  | brk {l : Loc O K} {t t1 : Nat} {e1 : List (Ev O A K S)} (h : t < c.steps)
      (hi : IterRes c l t e1 t1 (.ok none : Except X _)) : LoopRes c l t e1 t1 (.ok ())
  | crash {l : Loc O K} {t t1 : Nat} {e1 : List (Ev O A K S)} {e : X} (h : t < c.steps)
      (hi : IterRes c l t e1 t1 (.error e)) : LoopRes c l t e1 t1 (.error e)

theorem IterRes.t_of_some {c : Cfg S} {l l' : Loc O K} {t t1 : Nat} {e1 : List (Ev O A K S)}
    (h : IterRes c l t e1 t1 (.ok (some l') : Except X _)) : t1 = t + 1 := by
  generalize hr : (Except.ok (some l') : Except X (Option (Loc O K))) = r at h
  cases h <;> first | rfl | cases hr

theorem loop_res (c : Cfg S) (w : Nat → Iter O A K S X) (fuel i : Nat) (l : Loc O K) (t : Nat)
    (hf : fuel = c.steps - t) :
    LoopRes c l t (loop c w fuel i l t).1 (loop c w fuel i l t).2.1 (loop c w fuel i l t).2.2 := by
  induction fuel generalizing i l t with
  | zero => exact .exit l t (by omega)
  | succ fuel ih =>
    unfold loop
    rw [bind_ok (s' := t) (l := []) (a := t) rfl]
    have ht : t < c.steps := by omega
    simp only [ht, if_true]
    have hi := iter_res c (w i) l t
    rcases hres : iter c (w i) l t with ⟨e1, t1, r⟩
    rw [hres] at hi
    cases r with
    | error e => rw [bind_error hres]; exact .crash ht hi
    | ok o =>
      rw [bind_ok hres]
      cases o with
      | none => simpa [pure, Eff.pure] using LoopRes.brk ht hi
      | some l' =>
        have h1 := hi.t_of_some
        have hm := LoopRes.more (e1 := e1) (t1 := t1) ht hi
          (ih (i + 1) l' t1 (by simp only at h1; omega))
        simpa using hm

/-- The possible executions of `train_agent`. -/
theorem run_cases (c : Cfg S) (w : World O A K S X) :
    (∃ e, run c w = ([], .error e)) ∨
    ∃ o T evs t r, (T = [] ∨ T = [.setT c.stepOffset]) ∧
      LoopRes c ⟨o, 0, 0, 0⟩ c.stepOffset evs t r ∧
      ((∃ e, r = .error e ∧
          ((run c w = (.reset o :: T ++ evs ++ [.save t .except], .error e)) ∨
           ∃ e', w.saveExcept = .error e' ∧ run c w = (.reset o :: T ++ evs, .error e'))) ∨
       (r = .ok () ∧
          ((run c w = (.reset o :: T ++ evs ++ [.save t .finish], .ok ())) ∨
           ∃ e', w.saveFinish = .error e' ∧ run c w = (.reset o :: T ++ evs, .error e')))) := by
  unfold run trainAgent
  cases hreset : w.reset with
  | error e => left; exact ⟨e, rfl⟩
  | ok o =>
    right
    have hl := loop_res c w.iter (c.steps - c.stepOffset) 0 ⟨o, 0, 0, 0⟩ c.stepOffset rfl
    rcases hloop : loop c w.iter (c.steps - c.stepOffset) 0 ⟨o, 0, 0, 0⟩ c.stepOffset with ⟨evs, t, r⟩
    rw [hloop] at hl
    refine ⟨o, if c.agentHasT then [.setT c.stepOffset] else [], evs, t, r, ?_, hl, ?_⟩
    · split <;> simp
    rw [bind_ok (s' := 0) (l := [.reset o]) (a := o) rfl]
    rw [bind_ok (s' := c.stepOffset) (l := []) (a := ()) rfl]
    rw [bind_ok (s' := c.stepOffset) (l := if c.agentHasT then [.setT c.stepOffset] else []) (a := ())
      (by split <;> rfl)]
    cases r with
    | error e =>
      left
      refine ⟨e, rfl, ?_⟩
      cases hs : w.saveExcept with
      | ok u =>
        left
        rw [bind_error (s' := t) (l := evs ++ [.save t .except]) (e := e)]
        · simp
        · simp [Eff.onError, hloop, bind_eq, Eff.bind, Eff.get, Eff.call]
      | error e' =>
        right
        refine ⟨e', rfl, ?_⟩
        rw [bind_error (s' := t) (l := evs) (e := e')]
        · simp
        · simp [Eff.onError, hloop, bind_eq, Eff.bind, Eff.get, Eff.call]
    | ok u =>
      right
      refine ⟨rfl, ?_⟩
      rw [bind_ok (s' := t) (l := evs) (a := ()) (by simp [Eff.onError, hloop])]
      rw [bind_ok (s' := t) (l := []) (a := t) rfl]
      cases hs : w.saveFinish with
      | ok u => left; simp [Eff.call]
      | error e' => right; exact ⟨e', rfl, by simp [Eff.call]⟩

end Verif.Train
