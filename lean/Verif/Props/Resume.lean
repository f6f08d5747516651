import Mathlib.Tactic.Ring
import Mathlib.Tactic.NormNum
import Verif.Model.Resume
import Verif.Proofs.Resume
import Verif.Props.TrainDQN
import Verif.Props.TrainAgentAsync
import Verif.Props.AsyncEvaluator
import Verif.Props.TrainPrioritized
set_option autoImplicit false
set_option linter.unusedSectionVars false

/-! # C133: continuing a training run from a snapshot with `step_offset` -/

/-! ## `train_agent` -/

namespace Verif.Train
variable {O A K S X : Type} [Zero K] [LinearOrder S]

/-- The arguments of the continuation after `k` steps. -/
def Cfg.resumed (c : Cfg S) (k : Nat) : Cfg S := { c with stepOffset := c.stepOffset + k }

/-- The world as the continuation meets it: its first reset gives `o`, and then everything goes on as after `k` steps. -/
def World.resumed (w : World O A K S X) (o : O) (k : Nat) : World O A K S X := ⟨.ok o, fun j => w.iter (k + j), w.saveExcept, w.saveFinish⟩

/-- What happens after the loop. -/
def ending (w : World O A K S X) (t : Nat) : Except X Unit → List (Ev O A K S) × Except X Unit
  | .ok _ => match w.saveFinish with
    | .ok _ => ([.save t .finish], .ok ())
    | .error e => ([], .error e)
  | .error e => match w.saveExcept with
    | .ok _ => ([.save t .except], .error e)
    | .error e' => ([], .error e')

theorem run_form (c : Cfg S) (w : World O A K S X) (o : O) (hreset : w.reset = .ok o) :
    let L := loop c w.iter (c.steps - c.stepOffset) 0 ⟨o, 0, 0, 0⟩ c.stepOffset
    run c w = (.reset o :: (if c.agentHasT then [.setT c.stepOffset] else []) ++ (L.1 ++ (ending w L.2.1 L.2.2).1), (ending w L.2.1 L.2.2).2) := by
  intro L
  unfold run trainAgent
  rcases hloop : loop c w.iter (c.steps - c.stepOffset) 0 ⟨o, 0, 0, 0⟩ c.stepOffset with ⟨evs, t, r⟩
  have hL : L = (evs, t, r) := hloop
  rw [hL, hreset]
  rw [bind_ok (s' := 0) (l := [.reset o]) (a := o) rfl]
  rw [bind_ok (s' := c.stepOffset) (l := []) (a := ()) rfl]
  rw [bind_ok (s' := c.stepOffset) (l := if c.agentHasT then [.setT c.stepOffset] else []) (a := ()) (by split <;> rfl)]
  cases r with
  | error e =>
    cases hs : w.saveExcept with
    | ok u =>
      rw [bind_error (s' := t) (l := evs ++ [.save t .except]) (e := e)]
      · simp [ending, hs]
      · simp [Eff.onError, hloop, bind_eq, Eff.bind, Eff.get, Eff.call]
    | error e' =>
      rw [bind_error (s' := t) (l := evs) (e := e')]
      · simp [ending, hs]
      · simp [Eff.onError, hloop, bind_eq, Eff.bind, Eff.get, Eff.call]
  | ok u =>
    rw [bind_ok (s' := t) (l := evs) (a := ()) (by simp [Eff.onError, hloop])]
    rw [bind_ok (s' := t) (l := []) (a := t) rfl]
    cases hs : w.saveFinish with
    | ok u => simp [Eff.call, ending, hs]
    | error e' => simp [Eff.call, ending, hs]

theorem ending_quiet (w : World O A K S X) (t : Nat) (r : Except X Unit) : ∀ e ∈ (ending w t r).1, e.isReset = false ∧ e.isAct = false := by
  intro e he
  cases r with
  | ok u =>
    simp only [ending] at he
    split at he
    · rw [List.mem_singleton] at he; subst he; exact ⟨rfl, rfl⟩
    · cases he
  | error x =>
    simp only [ending] at he
    split at he
    · rw [List.mem_singleton] at he; subst he; exact ⟨rfl, rfl⟩
    · cases he

theorem split_before {α : Type} (p : α → Bool) {evs tail pre post : List α} {a : α} (hX : ∀ x ∈ tail, p x = false) (ha : p a = true)
    (h : evs ++ tail = pre ++ a :: post) : ∃ post', evs = pre ++ a :: post' ∧ post = post' ++ tail := by
  rcases List.append_eq_append_iff.1 h with ⟨as, h1, h2⟩ | ⟨bs, h1, h2⟩
  · rw [hX a (by rw [h2]; simp)] at ha
    cases ha
  · cases bs with
    | nil => rw [List.nil_append] at h2; rw [hX a (by rw [← h2]; simp)] at ha; cases ha
    | cons b bs =>
      simp only [List.cons_append, List.cons.injEq] at h2
      obtain ⟨rfl, h2⟩ := h2
      exact ⟨bs, h1, h2⟩

/-- The whole of the decomposition. -/
theorem run_split (c : Cfg S) (w : World O A K S X) (pre post : List (Ev O A K S)) (o : O) (hrun : (run c w).1 = pre ++ .reset o :: post)
    (hpre : ∃ e ∈ pre, e.isStep = true) (hpost : ∃ e ∈ post, e.isAct = true) :
    ∃ o0 k pre' ck post', pre = .reset o0 :: (if c.agentHasT then [.setT c.stepOffset] else []) ++ pre' ∧ Before pre' k ∧ c.stepOffset + k < c.steps ∧
      post = ck ++ post' ∧ (ck = [] ∨ ck = [.save (c.stepOffset + k) .checkpoint]) ∧
      (run (c.resumed k) (w.resumed o k)).1.map Ev.erase =
        (Ev.reset o :: (if c.agentHasT then [Ev.setT (c.stepOffset + k)] else []) ++ post').map Ev.erase ∧
      (run (c.resumed k) (w.resumed o k)).2 = (run c w).2 := by
  cases hreset : w.reset with
  | error e =>
    have : (run c w).1 = [] := by
      unfold run trainAgent
      rw [hreset]; rfl
    rw [this] at hrun
    cases pre <;> cases hrun
  | ok o0 =>
    have hform := run_form c w o0 hreset
    simp only at hform
    rcases hL : loop c w.iter (c.steps - c.stepOffset) 0 ⟨o0, 0, 0, 0⟩ c.stepOffset with ⟨evs, t, r⟩
    rw [hL] at hform
    simp only at hform
    rw [hform] at hrun
    simp only [List.cons_append] at hrun
    cases pre with
    | nil => obtain ⟨e, he, -⟩ := hpre; cases he
    | cons x pre1 =>
      simp only [List.cons_append, List.cons.injEq] at hrun
      obtain ⟨rfl, hrun⟩ := hrun
      obtain ⟨pre', h1, h2⟩ := split_after Ev.isReset (X1 := if c.agentHasT then [Ev.setT c.stepOffset] else [])
        (by split <;> intro x hx <;> simp at hx; subst hx; rfl) rfl hrun
      obtain ⟨post1, h3, h4⟩ := split_before Ev.isReset (fun e he => (ending_quiet w t r e he).1) rfl h2
      have hact : ∃ e ∈ post1, e.isAct = true := by
        obtain ⟨e, he, ha⟩ := hpost
        rw [h4] at he
        rcases List.mem_append.1 he with he | he
        · exact ⟨e, he, ha⟩
        · rw [(ending_quiet w t r e he).2] at ha; cases ha
      obtain ⟨k, idx, hb, g1, g2, g3⟩ := loop_split c w.iter _ 0 ⟨o0, 0, 0, 0⟩ c.stepOffset rfl pre' o post1 (by rw [hL]; exact h3) hact
      have hform' := run_form (c.resumed k) (w.resumed o k) o rfl
      simp only at hform'
      obtain ⟨s1, s2, s3⟩ := loop_sim c (c.resumed k) rfl w.iter (w.resumed o k).iter k (fun j => rfl) (c.steps - (c.stepOffset + k)) 0
        ⟨o, 0, idx, 0⟩ ⟨o, 0, 0, 0⟩ ⟨rfl, rfl, rfl⟩ (c.stepOffset + k)
      rw [Nat.zero_add] at g2 g3
      rw [Nat.add_zero] at s1 s2 s3
      rw [hL] at g3
      have e1 : (c.resumed k).steps - (c.resumed k).stepOffset = c.steps - (c.stepOffset + k) := rfl
      have e2 : (c.resumed k).stepOffset = c.stepOffset + k := rfl
      have e3 : (c.resumed k).agentHasT = c.agentHasT := rfl
      have e4 : ∀ t r, ending (w.resumed o k) t r = ending w t r := fun t r => rfl
      rw [e1, e2, e3] at hform'
      have g3' : (loop (c.resumed k) (w.resumed o k).iter (c.steps - (c.stepOffset + k)) 0 ⟨o, 0, 0, 0⟩ (c.stepOffset + k)).2 = (t, r) := by
        rcases hA : loop c w.iter (c.steps - (c.stepOffset + k)) k ⟨o, 0, idx, 0⟩ (c.stepOffset + k) with ⟨a1, a2, a3⟩
        rcases hB : loop (c.resumed k) (w.resumed o k).iter (c.steps - (c.stepOffset + k)) 0 ⟨o, 0, 0, 0⟩ (c.stepOffset + k) with ⟨b1, b2, b3⟩
        rw [hA, hB] at s2 s3
        rw [hA] at g3
        simp only at s2 s3 g3 ⊢
        rw [g3, ← s2]
        rcases s3 with ⟨e, rfl, rfl⟩ | ⟨a, b, rfl, rfl, -⟩ <;> rfl
      refine ⟨o0, k, pre', ckpt c (c.stepOffset + k), (loop c w.iter (c.steps - (c.stepOffset + k)) k ⟨o, 0, idx, 0⟩ (c.stepOffset + k)).1 ++ (ending w t r).1,
        by rw [h1]; rfl, hb, g1, ?_, ?_, ?_, ?_⟩
      · rw [h4, g2, List.append_assoc]
      · unfold ckpt
        split
        · exact .inl rfl
        · split
          · exact .inr rfl
          · exact .inl rfl
      · rw [hform', g3', e4]
        simp only [List.map_cons, List.map_append, List.cons_append, ← s1]
      · rw [hform', g3', e4, hform]

/-- C133: take a run of `train_agent` and any reset of the environment inside it after which the run goes on (so an episode ended there), after `k` steps.  A
run started with `step_offset` advanced by `k`, in an environment that answers from there on as it did in the first run, makes exactly the calls that the first
run made after that reset (apart from a checkpoint, which belongs to the step before), with the same observations, actions, rewards, step numbers and results,
and ends in the same way; only the number of episodes given to the evaluator starts anew. -/
theorem C133_train_agent (c : Cfg S) (w : World O A K S X) (pre post : List (Ev O A K S)) (o : O) (hrun : (run c w).1 = pre ++ .reset o :: post)
    (hpre : ∃ e ∈ pre, e.isStep = true) (hpost : ∃ e ∈ post, e.isAct = true) :
    ∃ ck post', post = ck ++ post' ∧ (ck = [] ∨ ck = [.save (c.stepOffset + pre.countP Ev.isStep) .checkpoint]) ∧
      (run (c.resumed (pre.countP Ev.isStep)) (w.resumed o (pre.countP Ev.isStep))).1.map Ev.erase =
        (Ev.reset o :: (if c.agentHasT then [Ev.setT (c.stepOffset + pre.countP Ev.isStep)] else []) ++ post').map Ev.erase ∧
      (run (c.resumed (pre.countP Ev.isStep)) (w.resumed o (pre.countP Ev.isStep))).2 = (run c w).2 := by
  obtain ⟨o0, k, pre', ck, post', h1, hb, -, h2, h3, h4, h5⟩ := run_split c w pre post o hrun hpre hpost
  have hk : pre.countP Ev.isStep = k := by
    rw [h1, List.countP_append, List.countP_cons, hb.steps]
    split <;> simp [Ev.isStep]
  rw [hk]
  exact ⟨ck, post', h2, h3, h4, h5⟩

/-- The second episode of a run, and the run continued after it (with the third episode). -/
example : (run (exCfg.resumed 3) (exWorld.resumed 100 3)).1 = [.reset 100, .setT 5,
    .act 100 0 3, .step 3 ⟨13, 3, false, false⟩, .hook 0 6, .save 6 .checkpoint,
    .act 13 3 4, .step 4 ⟨14, 4, false, false⟩, .hook 0 7, .stop 14 4 false, .evaluate 7 1 4, .save 7 .finish] ∧
    ∃ pre post, (run exCfg exWorld).1 = pre ++ .reset 100 :: post ∧ pre.countP Ev.isStep = 3 ∧ (∃ e ∈ pre, e.isStep = true) ∧ ∃ e ∈ post, e.isAct = true := by
  refine ⟨by decide +kernel, (run exCfg exWorld).1.take 17, (run exCfg exWorld).1.drop 18, ?_, ?_, ?_, ?_⟩ <;> decide +kernel

end Verif.Train

/-! ## DQN -/

namespace Verif.TrainDQN
variable {θ O A R S H X : Type}

theorem drive_append (c : DQN.Cfg θ O H) (ps : Nat → θ) : ∀ (es es' : List (Train.Ev O A R S)) (k : Nat) (s s1 s2 : DQN.St θ O A H) (e1 e : List (DQN.Ev θ O A R H)),
    drive c ps k s es = .ok (s1, e1) → drive c ps k s (es ++ es') = .ok (s2, e) →
    ∃ e2, drive c ps (k + es.countP Train.Ev.isAct) s1 es' = .ok (s2, e2) ∧ e = e1 ++ e2
  | [], es', k, s, s1, s2, e1, e, h1, h2 => by
    simp only [drive, pure, Except.pure, Except.ok.injEq, Prod.mk.injEq] at h1
    obtain ⟨rfl, rfl⟩ := h1
    exact ⟨e, h2, rfl⟩
  | x :: es, es', k, s, s1, s2, e1, e, h1, h2 => by
    cases x with
    | act o r a =>
      rw [List.cons_append] at h2
      simp only [drive, bind, Except.bind] at h1 h2
      cases hc : c.call s (.act o r (ps k) a) with
      | error x => rw [hc] at h1; cases h1
      | ok y =>
        rw [hc] at h1 h2
        simp only at h1 h2
        cases hd : drive c ps (k + 1) y.1 es with
        | error x => rw [hd] at h1; cases h1
        | ok z =>
          rw [hd] at h1
          simp only [pure, Except.pure, Except.ok.injEq, Prod.mk.injEq] at h1
          obtain ⟨rfl, rfl⟩ := h1
          cases hd' : drive c ps (k + 1) y.1 (es ++ es') with
          | error x => rw [hd'] at h2; cases h2
          | ok z' =>
            rw [hd'] at h2
            simp only [pure, Except.pure, Except.ok.injEq, Prod.mk.injEq] at h2
            obtain ⟨rfl, rfl⟩ := h2
            obtain ⟨e2, g1, g2⟩ := drive_append c ps es es' (k + 1) y.1 z.1 z'.1 z.2 z'.2 hd hd'
            refine ⟨e2, ?_, by rw [g2, List.append_assoc]⟩
            rw [List.countP_cons, show (Train.Ev.act o r a : Train.Ev O A R S).isAct = true from rfl, if_pos rfl]
            rw [show k + (es.countP Train.Ev.isAct + 1) = k + 1 + es.countP Train.Ev.isAct by omega]
            exact g1
    | stop o r d =>
      rw [List.cons_append] at h2
      simp only [drive, bind, Except.bind] at h1 h2
      cases hc : c.call s (.stop o r d) with
      | error x => rw [hc] at h1; cases h1
      | ok y =>
        rw [hc] at h1 h2
        simp only at h1 h2
        cases hd : drive c ps k y.1 es with
        | error x => rw [hd] at h1; cases h1
        | ok z =>
          rw [hd] at h1
          simp only [pure, Except.pure, Except.ok.injEq, Prod.mk.injEq] at h1
          obtain ⟨rfl, rfl⟩ := h1
          cases hd' : drive c ps k y.1 (es ++ es') with
          | error x => rw [hd'] at h2; cases h2
          | ok z' =>
            rw [hd'] at h2
            simp only [pure, Except.pure, Except.ok.injEq, Prod.mk.injEq] at h2
            obtain ⟨rfl, rfl⟩ := h2
            obtain ⟨e2, g1, g2⟩ := drive_append c ps es es' k y.1 z.1 z'.1 z.2 z'.2 hd hd'
            exact ⟨e2, g1, by rw [g2, List.append_assoc]⟩
    | setT t => exact drive_append c ps es es' k _ s1 s2 e1 e h1 h2
    | reset o => exact drive_append c ps es es' k s s1 s2 e1 e h1 h2
    | step a out => exact drive_append c ps es es' k s s1 s2 e1 e h1 h2
    | hook i t => exact drive_append c ps es es' k s s1 s2 e1 e h1 h2
    | evaluate t n m => exact drive_append c ps es es' k s s1 s2 e1 e h1 h2
    | save t x => exact drive_append c ps es es' k s s1 s2 e1 e h1 h2

theorem drive_shift (c : DQN.Cfg θ O H) (ps : Nat → θ) (k : Nat) : ∀ (es : List (Train.Ev O A R S)) (j : Nat) (s : DQN.St θ O A H),
    drive c (fun j => ps (k + j)) j s es = drive c ps (k + j) s es
  | [], j, s => rfl
  | .act o r a :: es, j, s => by simp only [drive, drive_shift c ps k es]; rfl
  | .stop o r d :: es, j, s => by simp only [drive, drive_shift c ps k es]
  | .setT t :: es, j, s => drive_shift c ps k es j _
  | .reset o :: es, j, s => drive_shift c ps k es j s
  | .step a out :: es, j, s => drive_shift c ps k es j s
  | .hook i t :: es, j, s => drive_shift c ps k es j s
  | .evaluate t n m :: es, j, s => drive_shift c ps k es j s
  | .save t x :: es, j, s => drive_shift c ps k es j s

theorem drive_erase (c : DQN.Cfg θ O H) (ps : Nat → θ) : ∀ (es : List (Train.Ev O A R S)) (j : Nat) (s : DQN.St θ O A H),
    drive c ps j s (es.map Train.Ev.erase) = drive c ps j s es
  | [], j, s => rfl
  | .act o r a :: es, j, s => by simp only [List.map_cons, Train.Ev.erase, drive, drive_erase c ps es]
  | .stop o r d :: es, j, s => by simp only [List.map_cons, Train.Ev.erase, drive, drive_erase c ps es]
  | .setT t :: es, j, s => drive_erase c ps es j _
  | .reset o :: es, j, s => drive_erase c ps es j s
  | .step a out :: es, j, s => drive_erase c ps es j s
  | .hook i t :: es, j, s => drive_erase c ps es j s
  | .evaluate t n m :: es, j, s => drive_erase c ps es j s
  | .save t x :: es, j, s => drive_erase c ps es j s

/-- What never changes without the batch methods. -/
def Clean (c : DQN.Cfg θ O H) (s : DQN.St θ O A H) : Prop :=
  (c.recurrent = false → s.prevRec = none ∧ s.trainRec = none) ∧ s.batchLastObs = [] ∧ s.batchLastAction = []

theorem act_clean (c : DQN.Cfg θ O H) (s s' : DQN.St θ O A H) (o : O) (r : R) (p : θ) (a : A) (e : List (DQN.Ev θ O A R H)) (h : c.actAndTrain s o r p a = .ok (s', e))
    (hs : Clean c s) : Clean c s' ∧ s'.t = s.t + 1 := by
  unfold DQN.Cfg.actAndTrain at h
  simp only [bind, Except.bind] at h
  obtain ⟨h1, h2, h3⟩ := hs
  cases ha : (c.actAppend s o r : Py (DQN.St θ O A H × List (DQN.Ev θ O A R H))) with
  | error x => rw [ha] at h; cases h
  | ok y =>
    rw [ha] at h
    simp only at h
    have hy : Clean c y.1 ∧ y.1.t = s.t := by
      unfold DQN.Cfg.actAppend at ha
      split at ha
      · injection ha with ha; subst ha; exact ⟨⟨h1, h2, h3⟩, rfl⟩
      · cases ha
      · injection ha with ha; subst ha
        refine ⟨⟨fun hr => ?_, h2, h3⟩, rfl⟩
        exact ⟨by simp [hr, (h1 hr).1], (h1 hr).2⟩
    cases hb : (c.syncIfDue y.1 : Py (DQN.St θ O A H × List (DQN.Ev θ O A R H))) with
    | error x => rw [hb] at h; cases h
    | ok z =>
      rw [hb] at h
      simp only [pure, Except.pure, Except.ok.injEq, Prod.mk.injEq] at h
      have hz : Clean c z.1 ∧ z.1.t = s.t := by
        unfold DQN.Cfg.syncIfDue at hb
        split at hb
        · cases hb
        · split at hb
          · injection hb with hb; subst hb; exact hy
          · injection hb with hb; subst hb; exact hy
      obtain ⟨⟨g1, g2, g3⟩, g4⟩ := hz
      obtain ⟨rfl, -⟩ := h
      unfold DQN.Cfg.evaluate
      split
      · rename_i hr
        exact ⟨⟨fun h => by (rw [h] at hr; cases hr), g2, g3⟩, by simp [g4]⟩
      · exact ⟨⟨g1, g2, g3⟩, by simp [g4]⟩

theorem stop_clean (c : DQN.Cfg θ O H) (s s' : DQN.St θ O A H) (o : O) (r : R) (d : Bool) (e : List (DQN.Ev θ O A R H)) (h : c.stopEpisodeAndTrain s o r d = .ok (s', e))
    (hs : Clean c s) : s' = { Resume.dqn s'.model s'.target with t := s.t } := by
  obtain ⟨h1, h2, h3⟩ := hs
  unfold DQN.Cfg.stopEpisodeAndTrain at h
  split at h
  · injection h with h
    injection h with h _
    subst h
    unfold Resume.dqn DQN.init
    simp only [h2, h3]
    cases hr : c.recurrent with
    | true => simp
    | false => simp [h1 hr]
  · cases h

/-- What a drive without `setT` does to the book. -/
theorem drive_clean (c : DQN.Cfg θ O H) (ps : Nat → θ) : ∀ (es : List (Train.Ev O A R S)) (k : Nat) (s s' : DQN.St θ O A H) (e : List (DQN.Ev θ O A R H)),
    drive c ps k s es = .ok (s', e) → (∀ x ∈ es, ∀ t, x ≠ .setT t) → Clean c s → Clean c s' ∧ s'.t = s.t + es.countP Train.Ev.isAct
  | [], k, s, s', e, h, _, hs => by
    simp only [drive, pure, Except.pure, Except.ok.injEq, Prod.mk.injEq] at h
    obtain ⟨rfl, -⟩ := h
    exact ⟨hs, rfl⟩
  | x :: es, k, s, s', e, h, hn, hs => by
    have hn' : ∀ x ∈ es, ∀ t, x ≠ .setT t := fun x hx => hn x (List.mem_cons_of_mem _ hx)
    cases x with
    | act o r a =>
      simp only [drive, bind, Except.bind] at h
      cases hc : (c.call s (.act o r (ps k) a) : Py (DQN.St θ O A H × List (DQN.Ev θ O A R H))) with
      | error x => rw [hc] at h; cases h
      | ok y =>
        rw [hc] at h
        simp only at h
        cases hd : drive c ps (k + 1) y.1 es with
        | error x => rw [hd] at h; cases h
        | ok z =>
          rw [hd] at h
          simp only [pure, Except.pure, Except.ok.injEq, Prod.mk.injEq] at h
          obtain ⟨rfl, rfl⟩ := h
          obtain ⟨g1, g2⟩ := act_clean c s y.1 o r (ps k) a y.2 hc hs
          obtain ⟨g3, g4⟩ := drive_clean c ps es (k + 1) y.1 z.1 z.2 hd hn' g1
          refine ⟨g3, ?_⟩
          rw [g4, g2, List.countP_cons, show (Train.Ev.act o r a : Train.Ev O A R S).isAct = true from rfl, if_pos rfl]
          omega
    | stop o r d =>
      simp only [drive, bind, Except.bind] at h
      cases hc : (c.call s (.stop o r d) : Py (DQN.St θ O A H × List (DQN.Ev θ O A R H))) with
      | error x => rw [hc] at h; cases h
      | ok y =>
        rw [hc] at h
        simp only at h
        cases hd : drive c ps k y.1 es with
        | error x => rw [hd] at h; cases h
        | ok z =>
          rw [hd] at h
          simp only [pure, Except.pure, Except.ok.injEq, Prod.mk.injEq] at h
          obtain ⟨rfl, rfl⟩ := h
          have g1 := stop_clean c s y.1 o r d y.2 hc hs
          have g2 : Clean c y.1 ∧ y.1.t = s.t := by rw [g1]; exact ⟨⟨fun _ => ⟨rfl, rfl⟩, rfl, rfl⟩, rfl⟩
          obtain ⟨g3, g4⟩ := drive_clean c ps es k y.1 z.1 z.2 hd hn' g2.1
          exact ⟨g3, by rw [g4, g2.2]; rfl⟩
    | setT t => exact absurd rfl (hn _ List.mem_cons_self t)
    | reset o => exact drive_clean c ps es k s s' e h hn' hs
    | step a out => exact drive_clean c ps es k s s' e h hn' hs
    | hook i t => exact drive_clean c ps es k s s' e h hn' hs
    | evaluate t n m => exact drive_clean c ps es k s s' e h hn' hs
    | save t x => exact drive_clean c ps es k s s' e h hn' hs

/-- Events that do not concern the agent. -/
theorem drive_quiet (c : DQN.Cfg θ O H) (ps : Nat → θ) : ∀ (es : List (Train.Ev O A R S)) (k : Nat) (s : DQN.St θ O A H),
    (∀ x ∈ es, x.isProtocol = false ∧ ∀ t, x ≠ .setT t) → drive c ps k s es = .ok (s, [])
  | [], k, s, _ => rfl
  | x :: es, k, s, h => by
    have h' : ∀ x ∈ es, x.isProtocol = false ∧ ∀ t, x ≠ .setT t := fun x hx => h x (List.mem_cons_of_mem _ hx)
    obtain ⟨h1, h2⟩ := h x List.mem_cons_self
    cases x with
    | act o r a => cases h1
    | stop o r d => cases h1
    | setT t => exact absurd rfl (h2 t)
    | reset o => exact drive_quiet c ps es k s h'
    | step a out => exact drive_quiet c ps es k s h'
    | hook i t => exact drive_quiet c ps es k s h'
    | evaluate t n m => exact drive_quiet c ps es k s h'
    | save t x => exact drive_quiet c ps es k s h'

/-- The splitting of a successful drive. -/
theorem drive_split (c : DQN.Cfg θ O H) (ps : Nat → θ) : ∀ (es es' : List (Train.Ev O A R S)) (k : Nat) (s s2 : DQN.St θ O A H) (e : List (DQN.Ev θ O A R H)),
    drive c ps k s (es ++ es') = .ok (s2, e) → ∃ s1 e1, drive c ps k s es = .ok (s1, e1)
  | [], es', k, s, s2, e, h => ⟨s, [], rfl⟩
  | x :: es, es', k, s, s2, e, h => by
    cases x with
    | act o r a =>
      rw [List.cons_append] at h
      simp only [drive, bind, Except.bind] at h ⊢
      cases hc : (c.call s (.act o r (ps k) a) : Py (DQN.St θ O A H × List (DQN.Ev θ O A R H))) with
      | error x => rw [hc] at h; cases h
      | ok y =>
        rw [hc] at h
        simp only at h ⊢
        cases hd' : drive c ps (k + 1) y.1 (es ++ es') with
        | error x => rw [hd'] at h; cases h
        | ok z' =>
          obtain ⟨s1, e1, g⟩ := drive_split c ps es es' (k + 1) y.1 z'.1 z'.2 hd'
          rw [g]
          exact ⟨_, _, rfl⟩
    | stop o r d =>
      rw [List.cons_append] at h
      simp only [drive, bind, Except.bind] at h ⊢
      cases hc : (c.call s (.stop o r d) : Py (DQN.St θ O A H × List (DQN.Ev θ O A R H))) with
      | error x => rw [hc] at h; cases h
      | ok y =>
        rw [hc] at h
        simp only at h ⊢
        cases hd' : drive c ps k y.1 (es ++ es') with
        | error x => rw [hd'] at h; cases h
        | ok z' =>
          obtain ⟨s1, e1, g⟩ := drive_split c ps es es' k y.1 z'.1 z'.2 hd'
          rw [g]
          exact ⟨_, _, rfl⟩
    | setT t => exact drive_split c ps es es' k _ s2 e h
    | reset o => exact drive_split c ps es es' k s s2 e h
    | step a out => exact drive_split c ps es es' k s s2 e h
    | hook i t => exact drive_split c ps es es' k s s2 e h
    | evaluate t n m => exact drive_split c ps es es' k s s2 e h
    | save t x => exact drive_split c ps es es' k s s2 e h

/-- The windows of the buffer are empty at the end of an episode. -/
theorem windows_empty (l : List (DQN.Ev θ O A R H)) (h0 : ∀ b ∈ DQN.bufCalls l, b.env = 0) (h : (told 0 l).2 = []) (j : Nat) :
    (Episodes.of (·.terminal) j (bufOps l)).2 = [] := by
  have : (told j l).2 = [] := by
    by_cases hj : j = 0
    · rw [hj]; exact h
    · rw [told_eq]
      have key : ∀ (bs : List (DQN.BufCall O A R)), (∀ b ∈ bs, b.env = 0) → bs.foldl (tellStep j) ([], []) = ([], []) := by
        intro bs
        induction bs with
        | nil => intro _; rfl
        | cons b bs ih =>
          intro hb
          have hb0 := hb b List.mem_cons_self
          have : tellStep j ([], []) b = (([], []) : List (List (DQN.EnvStep O A R)) × List (DQN.EnvStep O A R)) := by
            cases b with
            | append e x =>
              have : e = 0 := hb0
              simp only [tellStep]; rw [if_neg (by omega)]
            | stop e => simp [tellStep]
          rw [List.foldl_cons, this]
          exact ih (fun b hbm => hb b (List.mem_cons_of_mem _ hbm))
      rw [key _ h0]
  unfold told at this
  simpa using this

variable [Zero R] [LinearOrder S]

/-- C133: DQN can be continued exactly.  Take a training run of DQN and any reset inside it after which the run goes on.  Let `s` be the agent and `ev` what it
has done so far.  A new agent that loads the two networks of `s`, with a replay buffer that loads the saved memory, trained with `step_offset` advanced by the
number of steps so far in an environment that answers from there on as it did in the first run (and with the same results of the gradient steps), does exactly
what the first agent did from there on, and ends in the same state, with the same replay buffer. -/
theorem C133_dqn (c : Train.Cfg S) (hT : c.agentHasT = true) (w : Train.World O A R S X) (d : DQN.Cfg θ O H) (hd : 0 < d.targetInterval) (ps : Nat → θ) (p0 : θ)
    (cap cap' : Option Nat) (n : Nat) (hn : 0 < n) (pre post : List (Train.Ev O A R S)) (o : O) (hrun : (Train.run c w).1 = pre ++ .reset o :: post)
    (hpre : ∃ e ∈ pre, e.isStep = true) (hpost : ∃ e ∈ post, e.isAct = true) :
    let k := pre.countP Train.Ev.isStep
    ∃ s ev s' ev', drive d ps 0 (DQN.init p0) pre = .ok (s, ev) ∧
      drive d ps 0 (DQN.init p0) (Train.run c w).1 = .ok (s', ev ++ ev') ∧
      drive d (fun j => ps (k + j)) 0 (Resume.dqn s.model s.target) (Train.run (c.resumed k) (w.resumed o k)).1 = .ok (s', ev') ∧
      buffer cap n (ev ++ ev') = ((ReplayBuffer.init cap' n).load (buffer cap n ev).save).run (·.terminal) (bufOps ev') := by
  intro k
  obtain ⟨o0, k', pre', ck, post', h1, hb, hlt, h2, h3, h4, h5⟩ := Train.run_split c w pre post o hrun hpre hpost
  have hk : k = k' := by
    show pre.countP Train.Ev.isStep = k'
    rw [h1, List.countP_append, List.countP_cons, hb.steps]
    split <;> simp [Train.Ev.isStep]
  rw [hT, if_pos rfl] at h1 h4
  obtain ⟨s, ev, q, q', d1, d2, d3, -⟩ := run_drive c hT w d hd ps p0 pre _ hrun
  obtain ⟨s', evall, -, -, d4, -⟩ := run_drive c hT w d hd ps p0 (Train.run c w).1 [] (by simp)
  have d5 := d4
  rw [hrun] at d5
  obtain ⟨ev', d6, rfl⟩ := drive_append d ps pre _ 0 _ s s' ev evall d1 d5
  have hacts : pre.countP Train.Ev.isAct = k' := by
    rw [h1, List.countP_append, hb.acts]; simp [Train.Ev.isAct]
  rw [hacts, Nat.zero_add] at d6
  -- the state at the end of the episode
  obtain ⟨pre1, o1, r1, dn, E, hp', hE⟩ := hb.stop
  have hs : s = { Resume.dqn s.model s.target with t := c.stepOffset + k' } := by
    have hd1 := d1
    rw [h1] at hd1
    have hd2 : drive d ps 0 ({ (DQN.init p0 : DQN.St θ O A H) with t := c.stepOffset }) pre' = .ok (s, ev) := hd1
    have hcl : Clean d ({ (DQN.init p0 : DQN.St θ O A H) with t := c.stepOffset }) := ⟨fun _ => ⟨rfl, rfl⟩, rfl, rfl⟩
    have ht := (drive_clean d ps pre' 0 _ s ev hd2 hb.noSet hcl).2
    rw [hb.acts] at ht
    rw [hp'] at hd2
    obtain ⟨s1, e1, g1⟩ := drive_split d ps pre1 _ 0 _ s ev hd2
    obtain ⟨e2, g2, -⟩ := drive_append d ps pre1 _ 0 _ s1 s e1 ev g1 hd2
    have hc1 := (drive_clean d ps pre1 0 _ s1 e1 g1 (fun x hx => hb.noSet x (by rw [hp']; simp [hx])) hcl).1
    simp only [drive, bind, Except.bind] at g2
    cases hc : (d.call s1 (.stop o1 r1 dn) : Py (DQN.St θ O A H × List (DQN.Ev θ O A R H))) with
    | error x => rw [hc] at g2; cases g2
    | ok y =>
      rw [hc] at g2
      simp only at g2
      rw [drive_quiet d ps E _ y.1 (fun x hx => ⟨hE x hx, hb.noSet x (by rw [hp']; simp [hx])⟩)] at g2
      simp only [pure, Except.pure, Except.ok.injEq, Prod.mk.injEq] at g2
      obtain ⟨rfl, -⟩ := g2
      have := stop_clean d s1 y.1 o1 r1 dn y.2 hc hc1
      have ht' : s1.t = y.1.t := by rw [this]
      rw [ht', ht] at this
      exact this
  refine ⟨s, ev, s', ev', d1, d4, ?_, ?_⟩
  · rw [hk, ← drive_erase, h4, drive_erase, drive_shift]
    have : drive d ps (k' + 0) (Resume.dqn s.model s.target) (.reset o :: [.setT (c.stepOffset + k')] ++ post') =
        drive d ps k' { Resume.dqn s.model s.target with t := c.stepOffset + k' } post' := rfl
    rw [this, ← hs, ← d6, h2]
    rcases h3 with rfl | rfl <;> rfl
  · have hop : bufOps (ev ++ ev') = bufOps ev ++ bufOps ev' := by simp [bufOps]
    have hlast : (told 0 ev).2 = [] := by
      rw [d2]
      unfold known
      have : (pre.filter Train.Ev.isProtocol).getLast? = some (.stop o1 r1 dn) := by
        have hE' : E.filter Train.Ev.isProtocol = [] := List.filter_eq_nil_iff.2 (fun e he => by simp [hE e he])
        rw [h1, hp']
        simp only [List.filter_append, List.filter_cons, hE', Train.Ev.isProtocol, if_true]
        rw [← List.append_assoc, List.getLast?_append]
        rfl
      rw [this]
    have hw : buffer cap n ev = (ReplayBuffer.init cap' n).load (buffer cap n ev).save := by
      obtain ⟨ent, g1, -⟩ := NStep.run_spec (RAQ (List (DQN.Rec O A R H))) (·.terminal) n hn (bufOps ev)
      have g := g1 RAQ.append (RAQ.init cap [])
      have gb : buffer cap n ev = _ := g
      rw [gb]
      simp only [windows_empty ev d3 hlast, List.drop_nil]
      rfl
    rw [← hw]
    unfold buffer ReplayBuffer.run NStep.run
    rw [hop, List.foldl_append]

/-- A run of DQN with a reset inside, at which the theorem applies, and the state of the agent there. -/
example : ∃ pre post, (Train.run exTrain exWorld).1 = pre ++ .reset 50 :: post ∧ pre.countP Train.Ev.isStep = 2 ∧ (∃ e ∈ pre, e.isStep = true) ∧
    (∃ e ∈ post, e.isAct = true) ∧
    ∃ s ev, drive DQN.exCfg (fun k => k) 0 (DQN.init 7) pre = .ok (s, ev) ∧ s.t = 7 ∧ s.model = 1 ∧ s.target = 0 := by
  refine ⟨(Train.run exTrain exWorld).1.take 7, (Train.run exTrain exWorld).1.drop 8, ?_, ?_, ?_, ?_, _, _, rfl, ?_, ?_, ?_⟩ <;> decide +kernel

end Verif.TrainDQN

/-! ## The agents that cannot be continued in this way -/

namespace Verif.NStepAgent
variable {X K : Type} [Semiring K]

/-- The state of an agent whose `t` was set to `T` while `t_start` stayed 0. -/
def Late (T : Nat) (s : St X K) : Prop := s.tStart = 0 ∧ T ≤ s.t ∧ ∀ i : Int, i < T → s.past i = none

theorem loop_missing (gamma : K) (s : St X K) (m : Nat) (h : s.past (s.tStart + m) = none) : ∀ n R, m < n → loop gamma s n R = .error .keyError
  | 0, _, hm => by omega
  | n + 1, R, hm => by
    unfold loop
    cases hr : look s.pastRewards (s.tStart + n) with
    | error e =>
      unfold look at hr
      split at hr
      · cases hr
      · injection hr with hr; subst hr; rfl
    | ok r =>
      simp only [bind, Except.bind]
      cases hx : look s.past (s.tStart + n) with
      | error e =>
        unfold look at hx
        split at hx
        · cases hx
        · injection hx with hx; subst hx; rfl
      | ok x =>
        simp only
        by_cases hmn : m = n
        · subst hmn
          unfold look at hx
          rw [h] at hx
          cases hx
        · rw [loop_missing gamma s m h n _ (by omega)]

theorem update_late (gamma : K) (T : Nat) (hT : 0 < T) (s : St X K) (hs : Late T s) (boot : Option K) : update gamma s boot = .error .keyError := by
  obtain ⟨h1, h2, h3⟩ := hs
  unfold update
  have : s.tStart < s.t := by omega
  simp only [pyAssert, this, decide_true, if_true]
  rw [loop_missing gamma s (T - 1) (h3 _ (by omega)) _ _ (by omega)]
  rfl

theorem late_run (gamma : K) (tMax T : Nat) (hT : 0 < T) : ∀ (cs : List (Call X K)) (s : St X K), Late T s →
    run gamma tMax s cs = .error .keyError ∨
    ((∀ r d b, Call.stop r d b ∉ cs) ∧ ∃ s', run gamma tMax s cs = .ok (s', []))
  | [], s, _ => .inr ⟨by simp, s, rfl⟩
  | c :: cs, s, hs => by
    cases c with
    | act reward boot x =>
      have hs1 : Late T { s with pastRewards := put s.pastRewards (s.t - 1) reward } := hs
      by_cases hu : s.t - s.tStart = tMax
      · left
        simp only [run, step, maybeUpdate, hu, if_true, bind, Except.bind]
        rw [update_late gamma T hT _ hs1]
      · have hs2 : Late T ({ s with pastRewards := put s.pastRewards (s.t - 1) reward, past := put s.past s.t x, t := s.t + 1 } : St X K) := by
          obtain ⟨h1, h2, h3⟩ := hs
          refine ⟨h1, by show T ≤ s.t + 1; omega, fun i hi => ?_⟩
          show put s.past s.t x i = none
          unfold put
          rw [if_neg (by omega)]
          exact h3 i hi
        have hst : step gamma tMax s (.act reward boot x) =
            .ok ({ s with pastRewards := put s.pastRewards (s.t - 1) reward, past := put s.past s.t x, t := s.t + 1 }, []) := by
          simp only [step, maybeUpdate, hu, if_false, bind, Except.bind, pure, Except.pure]
        rcases late_run gamma tMax T hT cs _ hs2 with h | ⟨h, s', h'⟩
        · left; simp only [run, hst, bind, Except.bind, h]
        · right
          refine ⟨by intro r d b; simp [h r d b], s', ?_⟩
          simp only [run, hst, bind, Except.bind, h', pure, Except.pure, List.nil_append]
    | stop reward done boot =>
      left
      have hs1 : Late T { s with pastRewards := put s.pastRewards (s.t - 1) reward } := hs
      simp only [run, step, bind, Except.bind]
      rw [update_late gamma T hT _ hs1]
    | actEval =>
      rcases late_run gamma tMax T hT cs s hs with h | ⟨h, s', h'⟩
      · left; simp only [run, step, pure, Except.pure, bind, Except.bind, h]
      · right
        refine ⟨by intro r d b; simp [h r d b], s', ?_⟩
        simp only [run, step, pure, Except.pure, bind, Except.bind, h', List.nil_append]
    | stopEval =>
      rcases late_run gamma tMax T hT cs s hs with h | ⟨h, s', h'⟩
      · left; simp only [run, step, pure, Except.pure, bind, Except.bind, h]
      · right
        refine ⟨by intro r d b; simp [h r d b], s', ?_⟩
        simp only [run, step, pure, Except.pure, bind, Except.bind, h', List.nil_append]

/-- C133 fails for `A3C` and `NSQ`: a new agent whose `t` was set to `T > 0` (by `train_agent` with `step_offset=T`) never makes an update.  Every sequence of calls in
which an episode ends raises a KeyError, and one that raises nothing has made no update. -/
theorem C133_nstep_violated (gamma : K) (tMax T : Nat) (hT : 0 < T) (cs : List (Call X K)) :
    ((∃ r d b, Call.stop r d b ∈ cs) → run gamma tMax (Resume.nstep T) cs = .error .keyError) ∧
    ∀ s' ups, run gamma tMax (Resume.nstep T) cs = .ok (s', ups) → ups = [] := by
  have h := late_run gamma tMax T hT cs (Resume.nstep T) ⟨rfl, Nat.le_refl _, fun _ _ => rfl⟩
  constructor
  · rintro ⟨r, d, b, hc⟩
    rcases h with h | ⟨h, -⟩
    · exact h
    · exact absurd hc (h r d b)
  · intro s' ups h'
    rcases h with h | ⟨-, s'', h⟩
    · rw [h] at h'; cases h'
    · rw [h] at h'; injection h' with h'; injection h' with _ h'; exact h'.symm

/-- Without an offset the same calls are an episode with one update. -/
example : ∃ s', run (X := Nat) (K := Int) 1 5 St.init [.act 0 0 10, .act 2 0 11, .stop 3 true 0] = .ok (s', [[(11, 3), (10, 5)]]) := ⟨_, rfl⟩

/-- With an offset they fail. -/
example : run (X := Nat) (K := Int) 1 5 (Resume.nstep 100) [.act 0 0 10, .act 2 0 11, .stop 3 true 0] = .error .keyError :=
  (C133_nstep_violated 1 5 100 (by omega) _).1 ⟨3, true, 0, by simp⟩

end Verif.NStepAgent

namespace Verif.OnlineReplay
variable {B O A D R : Type}

/-- The state of an agent whose `t` was set to `T` while `t_start` stayed 0. -/
def Late (T : Nat) (s : St B O A D R) : Prop := s.tStart = 0 ∧ T ≤ s.t ∧ (∀ e ∈ s.past, (T : Int) ≤ e.1) ∧ s.past.length ≤ s.t - T

/-- The agent's learning. -/
def Ev.isLearn : Ev O A D R → Bool
  | .update _ => true
  | .replay => true
  | _ => false

theorem collect_missing {V : Type} (d : Dict V) (k : Int) (h : ∀ e ∈ d, k < e.1) (n : Nat) : collect d k (n + 1) = .error .keyError := by
  unfold collect look
  have : d.find? (fun e => e.1 == k) = none := by
    rw [List.find?_eq_none]
    intro e he hk
    have := h e he
    simp at hk
    omega
  rw [this]
  rfl

theorem rollout_late (c : Args) (T : Nat) (hT : 0 < T) (s : St B O A D R) (hs : Late T s) (boot : Option O) : ∃ e, rollout c s boot = .error e := by
  obtain ⟨h1, h2, h3, h4⟩ := hs
  unfold rollout
  split
  · exact ⟨_, rfl⟩
  · refine ⟨.keyError, ?_⟩
    obtain ⟨m, hm⟩ : ∃ m, s.t - s.tStart = m + 1 := ⟨s.t - s.tStart - 1, by omega⟩
    rw [hm, collect_missing s.past _ (fun e he => by have := h3 e he; omega)]
    rfl

theorem updateOnPolicy_late (c : Args) (hc : c.disableOnline = false) (T : Nat) (hT : 0 < T) (s : St B O A D R) (hs : Late T s) (boot : Option O) :
    ∃ e, updateOnPolicy c s boot = .error e := by
  obtain ⟨e, he⟩ := rollout_late c T hT s hs boot
  have : s.tStart < s.t := by have := hs.1; have := hs.2.1; omega
  refine ⟨e, ?_⟩
  simp only [updateOnPolicy, this, if_true, hc, Bool.false_eq_true, if_false, he, bind, Except.bind]

theorem put_length {V : Type} (d : Dict V) (k : Int) (v : V) : (put d k v).length ≤ d.length + 1 := by
  unfold put; split <;> simp

theorem put_keys {V : Type} (d : Dict V) (k : Int) (v : V) (T : Int) (hk : T ≤ k) (h : ∀ e ∈ d, T ≤ e.1) : ∀ e ∈ put d k v, T ≤ e.1 := by
  intro e he
  unfold put at he
  split at he
  · obtain ⟨e', h1, h2⟩ := List.mem_map.1 he
    split at h2
    · subst h2; exact hk
    · subst h2; exact h e' h1
  · rcases List.mem_append.1 he with he | he
    · exact h e he
    · rw [List.mem_singleton] at he; subst he; exact hk

theorem recordLast_late (c : Args) (b : Buf B O A D R) (T : Nat) (s : St B O A D R) (hs : Late T s) (o : O) (r : R) (a : A) :
    (∃ e, recordLast c b s o r a = .error e) ∨ ∃ s' ev, recordLast c b s o r a = .ok (s', ev) ∧ Late T s' ∧ ∀ e ∈ ev, e.isLearn = false := by
  unfold recordLast
  split
  · exact .inr ⟨_, _, rfl, hs, by simp⟩
  · unfold appendTo
    split
    · refine .inr ⟨_, _, rfl, hs, ?_⟩
      intro e he; rw [List.mem_singleton] at he; subst he; rfl
    · split
      · exact .inr ⟨_, _, rfl, hs, by simp⟩
      · exact .inl ⟨_, rfl⟩

theorem act_late (c : Args) (hc : c.disableOnline = false) (b : Buf B O A D R) (T : Nat) (hT : 0 < T) (s : St B O A D R) (hs : Late T s) (x : Step O A D) (r : R) :
    (∃ e, actAndTrain c b s x r = .error e) ∨ ∃ s' ev, actAndTrain c b s x r = .ok (s', ev) ∧ Late T s' ∧ ∀ e ∈ ev, e.isLearn = false := by
  have hs1 : Late T (recordReward c s r) := by
    unfold recordReward; split <;> exact hs
  unfold actAndTrain maybeUpdate
  split
  · left
    obtain ⟨e, he⟩ := updateOnPolicy_late c hc T hT _ hs1 (some x.obs)
    exact ⟨e, by simp only [he, bind, Except.bind]⟩
  · simp only [pure, Except.pure, bind, Except.bind]
    generalize recordReward c s r = s1 at hs1
    have hs2 : Late T ({ s1 with past := put s1.past s1.t x, t := s1.t + 1 } : St B O A D R) := by
      obtain ⟨h1, h2, h3, h4⟩ := hs1
      refine ⟨h1, by show T ≤ s1.t + 1; omega, put_keys _ _ _ _ (by omega) h3, ?_⟩
      show (put s1.past s1.t x).length ≤ s1.t + 1 - T
      have := put_length s1.past s1.t x
      omega
    generalize ({ s1 with past := put s1.past s1.t x, t := s1.t + 1 } : St B O A D R) = s2 at hs2
    rcases recordLast_late c b T s2 hs2 x.obs r x.action with ⟨e, he⟩ | ⟨s3, ev, h1, h2, h3⟩
    · left; exact ⟨e, by rw [he]⟩
    · right
      rw [h1]
      refine ⟨_, _, rfl, h2, ?_⟩
      intro e he
      rcases List.mem_append.1 he with he | he
      · exact h3 e he
      · rw [List.mem_singleton] at he; subst he; rfl

theorem stop_late (c : Args) (hc : c.disableOnline = false) (b : Buf B O A D R) (T : Nat) (hT : 0 < T) (s : St B O A D R) (hs : Late T s) (o : O) (r : R) (d : Bool) :
    ∃ e, stopEpisodeAndTrain c b s o r d = .error e := by
  unfold stopEpisodeAndTrain
  split
  · exact ⟨_, rfl⟩
  · obtain ⟨e, he⟩ := updateOnPolicy_late c hc T hT ({ s with pastRewards := put s.pastRewards ((s.t : Int) - 1) r } : St B O A D R) hs (if d then none else some o)
    exact ⟨e, by simp only [he, bind, Except.bind]⟩

theorem late_run (c : Args) (hc : c.disableOnline = false) (b : Buf B O A D R) (T : Nat) (hT : 0 < T) : ∀ (cs : List (Call O A D R)) (s : St B O A D R), Late T s →
    (∃ e, run c b s cs = .error e) ∨ ((∀ o r d, Call.stop o r d ∉ cs) ∧ ∃ s' ev, run c b s cs = .ok (s', ev) ∧ ∀ e ∈ ev, e.isLearn = false)
  | [], s, _ => .inr ⟨by simp, s, [], rfl, by simp⟩
  | x :: cs, s, hs => by
    cases x with
    | stop o r d =>
      left
      obtain ⟨e, he⟩ := stop_late c hc b T hT s hs o r d
      exact ⟨e, by simp only [run, call, he, bind, Except.bind]⟩
    | act x r =>
      rcases act_late c hc b T hT s hs x r with ⟨e, he⟩ | ⟨s1, ev, h1, h2, h3⟩
      · left; exact ⟨e, by simp only [run, call, he, bind, Except.bind]⟩
      · rcases late_run c hc b T hT cs s1 h2 with ⟨e, he⟩ | ⟨g1, s', ev', g2, g3⟩
        · left; exact ⟨e, by simp only [run, call, h1, he, bind, Except.bind]⟩
        · right
          refine ⟨by intro o r d; simp [g1 o r d], s', ev ++ ev', by simp only [run, call, h1, g2, bind, Except.bind, pure, Except.pure], ?_⟩
          intro e he
          rcases List.mem_append.1 he with he | he
          · exact h3 e he
          · exact g3 e he

/-- C133 fails for `ACER` and `PCL` with on-policy updates: a new agent whose `t` was set to `T > 0` never learns.  Every sequence of calls in which an episode ends
raises an exception, and one that raises nothing has made no update, neither on-policy nor from the replay buffer. -/
theorem C133_online_violated (c : Args) (hc : c.disableOnline = false) (b : Buf B O A D R) (buf : Option B) (T : Nat) (hT : 0 < T) (cs : List (Call O A D R)) :
    ((∃ o r d, Call.stop o r d ∈ cs) → ∃ e, run c b (Resume.onlineReplay T buf) cs = .error e) ∧
    ∀ s' ev, run c b (Resume.onlineReplay T buf) cs = .ok (s', ev) → ∀ e ∈ ev, e.isLearn = false := by
  have h := late_run c hc b T hT cs (Resume.onlineReplay T buf) ⟨rfl, Nat.le_refl _, by simp [Resume.onlineReplay, St.init], by simp [Resume.onlineReplay, St.init]⟩
  constructor
  · rintro ⟨o, r, d, hm⟩
    rcases h with h | ⟨h, -⟩
    · exact h
    · exact absurd hm (h o r d)
  · intro s' ev h'
    rcases h with ⟨e, h⟩ | ⟨-, s'', ev'', h, h2⟩
    · rw [h] at h'; cases h'
    · rw [h] at h'; injection h' with h'; injection h' with _ h'; subst h'; exact h2

/-- A buffer that counts. -/
def resumeBuf : Buf Nat Nat Nat Nat Int := ⟨fun n _ _ => n + 1, id, id, id⟩

/-- One episode of ACER and of PCL, without and with an offset. -/
example : (∃ s' ev, run ⟨.acer, some 5, 1, 0, 10, false⟩ resumeBuf (St.init (some 0)) [.act ⟨1, 2, 3⟩ 0, .stop 4 1 true] = .ok (s', ev) ∧ ∃ e ∈ ev, e.isLearn = true) ∧
    run ⟨.acer, some 5, 1, 0, 10, false⟩ resumeBuf (Resume.onlineReplay 7 (some 0)) [.act ⟨1, 2, 3⟩ 0, .stop 4 1 true] = .error .keyError ∧
    (∃ s' ev, run ⟨.pcl, some 5, 1, 0, 10, false⟩ resumeBuf (St.init (some 0)) [.act ⟨1, 2, 3⟩ 0, .stop 4 1 true] = .ok (s', ev) ∧ ∃ e ∈ ev, e.isLearn = true) ∧
    run ⟨.pcl, some 5, 1, 0, 10, false⟩ resumeBuf (Resume.onlineReplay 7 (some 0)) [.act ⟨1, 2, 3⟩ 0, .stop 4 1 true] = .error .assertionError :=
  ⟨⟨_, _, rfl, _, List.mem_cons_of_mem _ List.mem_cons_self, rfl⟩, rfl, ⟨_, _, rfl, _, List.mem_cons_of_mem _ List.mem_cons_self, rfl⟩, rfl⟩

end Verif.OnlineReplay

namespace Verif.A2C
variable {K : Type} [Ring K]

/-- C133 fails for `A2C`: a new agent whose `t` was set to `T > 0` (by `train_agent_batch` with `step_offset=T`) has no storage, and its first training call raises
an AttributeError, whatever it is. -/
theorem C133_a2c_violated (gamma : K) (tau : Option K) (n T : Nat) (hT : 0 < T) (c : Call K) (cs : List (Call K)) :
    run gamma tau n (Resume.a2c T) (c :: cs) = .error .attributeError := by
  have h0 : T ≠ 0 := by omega
  cases c with
  | act v nx => simp only [run, step, actStore, Resume.a2c, St.init, h0, if_false, bind, Except.bind]
  | observe r d rs nx => simp only [run, step, getStore, Resume.a2c, St.init, bind, Except.bind]

/-- Without an offset the first call succeeds. -/
example : ∃ s', run (K := Int) 1 none 2 St.init [.act 5 6, .observe 1 false false 7] = .ok (s', []) := ⟨_, rfl⟩

end Verif.A2C

/-! ## ACER's average network -/

namespace Verif.Resume
variable {K Op : Type} [Field K]

theorem updates_apart (alpha : K) (l : List (K × Op)) : ∀ a b : AcerNets K Op, a.shared = b.shared → a.model = b.model → a.optimizer = b.optimizer →
    (a.updates alpha l).shared = (b.updates alpha l).shared ∧ (a.updates alpha l).model = (b.updates alpha l).model ∧
    (a.updates alpha l).optimizer = (b.updates alpha l).optimizer ∧
    (a.updates alpha l).average - (b.updates alpha l).average = alpha ^ l.length * (a.average - b.average) := by
  induction l with
  | nil => intro a b h1 h2 h3; exact ⟨h1, h2, h3, by simp [AcerNets.updates]⟩
  | cons u l ih =>
    intro a b h1 h2 h3
    obtain ⟨g1, g2, g3, g4⟩ := ih (a.update alpha u.1 u.2) (b.update alpha u.1 u.2) rfl rfl rfl
    refine ⟨g1, g2, g3, g4.trans ?_⟩
    simp only [AcerNets.update, CopyParam.soft, List.length_cons]
    ring

/-- C133 fails for the average network of `ACER`, which is not in the snapshot.  A first agent makes the updates `l`; a second one, whose network was initialised with
`q`, loads its snapshot.  If both then make the same updates `l'`, their networks and optimizers agree, but the average networks differ by
`alpha ^ |l'| * (average of the first - q)`: the second one's average starts from its random initial network. -/
theorem C133_acer_average_violated (alpha p q : K) (o o' : Op) (l l' : List (K × Op)) :
    let first := (AcerNets.init p o).updates alpha l
    let second := (AcerNets.init q o').load first.saved
    first.shared = first.model →
    (first.updates alpha l').shared = (second.updates alpha l').shared ∧ (first.updates alpha l').model = (second.updates alpha l').model ∧
    (first.updates alpha l').optimizer = (second.updates alpha l').optimizer ∧
    (first.updates alpha l').average - (second.updates alpha l').average = alpha ^ l'.length * (first.average - q) := by
  intro first second h
  exact updates_apart alpha l' first second h rfl rfl

/-- The hypothesis of the theorem always holds. -/
theorem shared_model (alpha p : K) (o : Op) (l : List (K × Op)) : ((AcerNets.init p o).updates alpha l).shared = ((AcerNets.init p o).updates alpha l).model := by
  have key : ∀ (l : List (K × Op)) (a : AcerNets K Op), a.shared = a.model → (a.updates alpha l).shared = (a.updates alpha l).model := by
    intro l
    induction l with
    | nil => intro a h; exact h
    | cons u l ih => intro a _; exact ih (a.update alpha u.1 u.2) rfl
  exact key l _ rfl

/-- A case: the average is 3 after one update and would be 3/2 after a second one towards 0, but is 7 in the agent that was continued. -/
example : let first := (AcerNets.init (K := Rat) 2 ()).updates (1 / 2) [(4, ())]
    first.average = 3 ∧ (first.updates (1 / 2) [(0, ())]).average = 3 / 2 ∧ (((AcerNets.init 14 ()).load first.saved).updates (1 / 2) [(0, ())]).average = 7 := by
  norm_num [AcerNets.init, AcerNets.updates, AcerNets.update, AcerNets.load, AcerNets.saved, CopyParam.soft]

end Verif.Resume

/-! ## The exponent of prioritized replay -/

namespace Verif.TrainPrioritized
variable {T : Type}

theorem weights_ratios (p : PWE) (n : Nat) (probs : List ℝ) (minProb : ℝ) (ws : List ℝ) (p' : PWE) (h : p.weights n probs minProb = .ok (ws, p')) (b : ℝ) :
    ∃ qs : List ℝ, ws = qs.map (· ^ (-p.beta)) ∧ p' = { p with beta := min 1 (p.beta + p.betaAdd) } ∧
      PWE.weights { p with beta := b } n probs minProb = .ok (qs.map (· ^ (-b)), { p with beta := min 1 (b + p.betaAdd) }) := by
  unfold PWE.weights at h ⊢
  cases hn : p.norm with
  | no =>
    rw [hn] at h
    injection h with h; injection h with h1 h2
    exact ⟨probs.map (fun q => n * q), by rw [← h1, List.map_map]; rfl, h2.symm, by simp only [hn, List.map_map]; rfl⟩
  | memory =>
    rw [hn] at h
    injection h with h; injection h with h1 h2
    exact ⟨probs.map (fun q => q / minProb), by rw [← h1, List.map_map]; rfl, h2.symm, by simp only [hn, List.map_map]; rfl⟩
  | batch =>
    rw [hn] at h
    simp only at h ⊢
    cases hm : probs.min? with
    | none => rw [hm] at h; cases h
    | some m =>
      rw [hm] at h
      injection h with h; injection h with h1 h2
      exact ⟨probs.map (fun q => q / m), by rw [← h1, List.map_map]; rfl, h2.symm, by simp only [hn, hm, List.map_map]; rfl⟩

/-- C133 fails for `PrioritizedReplayBuffer`: `save` leaves out the exponent of the weights.  Where a buffer samples a batch, a new buffer that loaded it samples the
same batch and ends with the same memory if the errors are the same, but the weights are powers with the exponent `beta0` of the constructor instead of the
annealed one, and the annealing starts from `beta0`. -/
theorem C133_prioritized_violated (n : Nat) (us errs : List ℝ) (m m' : Mem T) (beta0 : ℝ) (h : round n us errs m = .ok m') :
    ∃ (entries : List (List T)) (qs : List ℝ), m'.log = m.log ++ [(entries, qs.map (· ^ (-m.pwe.beta)), errs)] ∧
      round n us errs (Resume.prioritized { m.pwe with beta := beta0 } m.buf) =
        .ok ⟨m'.buf, { m.pwe with beta := min 1 (beta0 + m.pwe.betaAdd) }, [(entries, qs.map (· ^ (-beta0)), errs)]⟩ := by
  unfold round at h ⊢
  by_cases hl : m.buf.data.length < n
  · simp only [hl, if_true, bind, Except.bind, throw, throwThe, MonadExceptOf.throw] at h
    cases h
  · have hl' : ¬ (Resume.prioritized { m.pwe with beta := beta0 } m.buf).buf.data.length < n := hl
    simp only [hl, hl', if_false, pure, Except.pure, bind, Except.bind] at h ⊢
    rw [show (Resume.prioritized { m.pwe with beta := beta0 } m.buf).buf = m.buf from rfl,
      show (Resume.prioritized { m.pwe with beta := beta0 } m.buf).pwe = { m.pwe with beta := beta0 } from rfl]
    cases hsamp : m.buf.sample 0 ⟨[], us⟩ with
    | error e => rw [hsamp] at h; cases h
    | ok r =>
      obtain ⟨entries, probs, minProb, b⟩ := r
      rw [hsamp] at h
      simp only at h ⊢
      cases hw : m.pwe.weights b.data.length probs minProb with
      | error e => rw [hw] at h; cases h
      | ok y =>
        obtain ⟨ws, p'⟩ := y
        obtain ⟨qs, w1, w2, w3⟩ := weights_ratios _ _ _ _ _ _ hw beta0
        rw [hw] at h
        rw [w3]
        simp only at h ⊢
        have hp : PWE.priorityFromErrors { m.pwe with beta := min 1 (beta0 + m.pwe.betaAdd) } errs = p'.priorityFromErrors errs := by rw [w2]; rfl
        rw [hp]
        cases hset : b.setLast (p'.priorityFromErrors errs) with
        | error e => rw [hset] at h; cases h
        | ok b' =>
          rw [hset] at h
          injection h with h
          subst h
          exact ⟨entries, qs, by rw [w1], rfl⟩

end Verif.TrainPrioritized

/-! ## `train_agent_async` -/

namespace Verif.TrainAsync
variable {O A K S : Type} [Zero K] [LinearOrder S] {P : Nat}

/-- C133 fails for `train_agent_async`: its `step_offset`, "time step from which training starts", has no effect on training.  Under every schedule the calls are those
of a run without offset, so the steps are numbered from 1 again (see `C25_unique_numbers`), -/
theorem C133_async_violated (c : Cfg S) (T : Nat) (sched : List (Fin P × Inp O A K S)) : run { c with stepOffset := T } P sched = run c P sched := by
  have hs : ∀ (s : State P O A K) p i, s.slice { c with stepOffset := T } p i = s.slice c p i := fun _ _ _ => rfl
  have key : ∀ (l : List (Fin P × Inp O A K S)) (s : State P O A K), s.exec { c with stepOffset := T } l = s.exec c l := by
    intro l
    induction l with
    | nil => intro s; rfl
    | cons x l ih => intro s; simp only [State.exec, hs, ih]
  exact key sched _

end Verif.TrainAsync

namespace Verif.AsyncEvaluator
variable {K : Type} [LinearOrder K] {P : Nat}

/-- and none of the first `step_offset` steps is evaluated, since the evaluator does use the offset. -/
theorem C133_async_evaluation_violated (c : Cfg) (hc : 0 < c.evalInterval) (rnd : K → K) (hmono : ∀ x y, x ≤ y → rnd x ≤ rnd y) (hidem : ∀ x, rnd (rnd x) = rnd x)
    (lo : K) (hlo : rnd lo = lo) (old : List (Line K)) (sched : List (Fin P × Inp K)) : ∀ t ∈ claims (run c rnd lo old P sched).1, c.stepOffset < t := by
  intro t ht
  obtain ⟨k, hk, rfl⟩ := List.mem_iff_getElem.1 ht
  have := (C27_claims c rnd hmono hidem lo hlo old sched).1 k hk
  have h1 : c.stepOffset < c.evalInterval * (c.stepOffset / c.evalInterval + 1) := by
    have := Nat.div_add_mod c.stepOffset c.evalInterval
    have := Nat.mod_lt c.stepOffset hc
    rw [Nat.mul_add, Nat.mul_one]
    omega
  have h2 : c.evalInterval * (c.stepOffset / c.evalInterval + 1) ≤ c.evalInterval * (c.stepOffset / c.evalInterval + (k + 1)) :=
    Nat.mul_le_mul_left _ (by omega)
  omega

end Verif.AsyncEvaluator
