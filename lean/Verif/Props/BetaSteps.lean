import Mathlib.Tactic.FieldSimp
import Verif.Model.BetaSteps
import Verif.Spec.BetaSteps
import Verif.Props.TrainPrioritized
set_option autoImplicit false
set_option linter.unusedSectionVars false

/-! # C163: how far beta is annealed in a training run -/

namespace Verif.BetaSteps
open TrainPrioritized (Sensible Inputs Sched isUpdate)
open TrainDQN (drive)
open Train (Phase Path Next)
variable {θ O A R S H X : Type}

/-! ## The buffer -/

theorem batches_snoc {cap : Option Nat} {p : PWE} {u : Sched} (hs : Sensible cap p u) (us errs : Nat → Nat → List ℝ)
    (hin : ∀ k j, Inputs u.batchsize (us k j) (errs k j)) (n : Nat) (l : List (DQN.Ev θ O A R H)) (e : DQN.Ev θ O A R H) :
    ∃ m m', (TrainPrioritized.buffer cap n p u us errs l).rb.memory = .ok m ∧
      (TrainPrioritized.buffer cap n p u us errs (l ++ [e])).rb.memory = .ok m' ∧
      (isUpdate e = false → m'.log.length = m.log.length) ∧
      (∀ t q, e = .update t q → m'.log.length = m.log.length +
        if u.interval ∣ t ∧ u.startSize ≤ (TrainDQN.buffer cap n l).entries.length then u.nTimes else 0) := by
  obtain ⟨-, -, -, -, m, items, mx, h1, h2, h3⟩ := TrainPrioritized.buffer_rel hs us errs hin n l
  obtain ⟨-, -, -, -, m', items', mx', g1, g2, g3⟩ := TrainPrioritized.buffer_rel hs us errs hin n (l ++ [e])
  have hb : TrainPrioritized.buffer cap n p u us errs (l ++ [e]) = TrainPrioritized.step u us errs (TrainPrioritized.buffer cap n p u us errs l) e := by
    unfold TrainPrioritized.buffer
    rw [List.foldl_append, List.foldl_cons, List.foldl_nil]
  have key : ∀ op : NStep.Op Nat (DQN.Rec O A R H), (TrainPrioritized.step u us errs (TrainPrioritized.buffer cap n p u us errs l) e).rb =
      (TrainPrioritized.buffer cap n p u us errs l).rb.step TrainPrioritized.push (·.terminal) op → m'.log.length = m.log.length := by
    intro op hop
    have g1' := g1
    rw [hb, hop, NStep.step_eq] at g1'
    simp only [h1] at g1'
    rw [TrainPrioritized.push_log _ _ _ g1']
  refine ⟨m, m', h1, g1, ?_, ?_⟩
  · intro hu
    cases e with
    | append i tr => exact key (.append i tr) rfl
    | stopEpisode i => exact key (.stop i) rfl
    | sync t q =>
      rw [hb] at g1
      have g1 : (TrainPrioritized.buffer cap n p u us errs l).rb.memory = .ok m' := g1
      rw [h1] at g1
      cases g1; rfl
    | update t q => cases hu
  · rintro t q rfl
    have hlen : (TrainDQN.buffer cap n l).entries.length = items.length := by
      unfold ReplayBuffer.entries
      rw [← h3, List.length_map]
    obtain ⟨m'', items'', mx'', lg, k1, -, -, k4, -, k6, k7⟩ :=
      TrainPrioritized.C132_update hs (us (TrainPrioritized.buffer cap n p u us errs l).calls) (errs (TrainPrioritized.buffer cap n p u us errs l).calls) (hin _) t m items mx h2
    have : m' = m'' := by
      rw [hb] at g1
      simp only [TrainPrioritized.step, h1] at g1
      have g1 : TrainPrioritized.update u (us (TrainPrioritized.buffer cap n p u us errs l).calls) (errs (TrainPrioritized.buffer cap n p u us errs l).calls) t m = .ok m' := g1
      rw [k1] at g1
      cases g1; rfl
    subst this
    by_cases hd : u.interval ∣ t ∧ u.startSize ≤ (TrainDQN.buffer cap n l).entries.length
    · rw [if_pos hd, k4, List.length_append]
      have := congrArg List.length (k7 (by omega) hd.1)
      simp only [List.length_map, List.length_range] at this
      rw [this]
    · rw [if_neg hd, k6 (by
        by_contra hcon
        rw [not_or, not_not] at hcon
        exact hd ⟨hcon.2, by omega⟩)]
      rfl

theorem batches_quiet {cap : Option Nat} {p : PWE} {u : Sched} (hs : Sensible cap p u) (us errs : Nat → Nat → List ℝ)
    (hin : ∀ k j, Inputs u.batchsize (us k j) (errs k j)) (n : Nat) (l e : List (DQN.Ev θ O A R H)) (he : DQN.updates e = []) :
    ∃ m m', (TrainPrioritized.buffer cap n p u us errs l).rb.memory = .ok m ∧
      (TrainPrioritized.buffer cap n p u us errs (l ++ e)).rb.memory = .ok m' ∧ m'.log.length = m.log.length := by
  induction e using List.reverseRecOn with
  | nil =>
    obtain ⟨-, -, -, -, m, items, mx, h1, h2, h3⟩ := TrainPrioritized.buffer_rel hs us errs hin n l
    exact ⟨m, m, h1, by rw [List.append_nil]; exact h1, rfl⟩
  | append_singleton e x ih =>
    rw [DQN.updates_append] at he
    obtain ⟨he1, he2⟩ := List.append_eq_nil_iff.1 he
    obtain ⟨m, m1, h1, h2, h3⟩ := ih he1
    obtain ⟨m2, m', g1, g2, g3, -⟩ := batches_snoc hs us errs hin n (l ++ e) x
    rw [h2] at g1
    cases g1
    refine ⟨m, m', h1, by rw [← List.append_assoc]; exact g2, ?_⟩
    rw [g3, h3]
    cases x with
    | update t q => simp [DQN.updates] at he2
    | _ => rfl

/-! ## The run -/

variable [Zero R] [LinearOrder S]

theorem drive_append (c : DQN.Cfg θ O H) (ps : Nat → θ) (es es' : List (Train.Ev O A R S)) : ∀ (k : Nat) (s s1 s2 : DQN.St θ O A H)
    (e1 e2 : List (DQN.Ev θ O A R H)), drive c ps k s es = .ok (s1, e1) → drive c ps (k + es.countP isDecision) s1 es' = .ok (s2, e2) →
    drive c ps k s (es ++ es') = .ok (s2, e1 ++ e2) := by
  induction es with
  | nil => intro k s s1 s2 e1 e2 h1 h2; cases h1; simpa using h2
  | cons e es ih =>
    intro k s s1 s2 e1 e2 h1 h2
    rw [List.countP_cons] at h2
    cases e with
    | act o r a =>
      cases hc : c.call s (.act o r (ps k) a) with
      | error x => simp only [drive, hc, bind, Except.bind] at h1; cases h1
      | ok y =>
        obtain ⟨s', f1⟩ := y
        cases hd : drive c ps (k + 1) s' es with
        | error x => simp only [drive, hc, hd, bind, Except.bind] at h1; cases h1
        | ok y =>
          obtain ⟨s'', f2⟩ := y
          simp only [drive, hc, hd, bind, Except.bind, pure, Except.pure] at h1
          cases h1
          rw [List.append_assoc]
          refine TrainDQN.drive_act c ps k s s' _ o r a _ f1 _ hc (ih _ _ _ _ _ _ hd ?_)
          simpa [isDecision, Nat.add_assoc, Nat.add_comm 1] using h2
    | stop o r d =>
      cases hc : c.call s (.stop o r d) with
      | error x => simp only [drive, hc, bind, Except.bind] at h1; cases h1
      | ok y =>
        obtain ⟨s', f1⟩ := y
        cases hd : drive c ps k s' es with
        | error x => simp only [drive, hc, hd, bind, Except.bind] at h1; cases h1
        | ok y =>
          obtain ⟨s'', f2⟩ := y
          simp only [drive, hc, hd, bind, Except.bind, pure, Except.pure] at h1
          cases h1
          rw [List.append_assoc]
          exact TrainDQN.drive_stop c ps k s s' _ o r d _ f1 _ hc (ih _ _ _ _ _ _ hd (by simpa [isDecision] using h2))
    | setT t => exact ih k _ _ _ _ _ h1 (by simpa [isDecision] using h2)
    | reset o => exact ih k _ _ _ _ _ h1 (by simpa [isDecision] using h2)
    | step a out => exact ih k _ _ _ _ _ h1 (by simpa [isDecision] using h2)
    | hook i t => exact ih k _ _ _ _ _ h1 (by simpa [isDecision] using h2)
    | evaluate => exact ih k _ _ _ _ _ h1 (by simpa [isDecision] using h2)
    | save => exact ih k _ _ _ _ _ h1 (by simpa [isDecision] using h2)

/-- A decision whose step has not been made yet. -/
def pendingStep : Phase O A R → Nat
  | .chosen .. => 1
  | _ => 0

theorem path_acts {steps offset : Nat} {maxLen : Option Nat} {p q : Phase O A R} {es : List (Train.Ev O A R S)}
    (h : Path steps offset maxLen p es q) : es.countP isDecision + pendingStep p = es.countP Train.Ev.isStep + pendingStep q := by
  induction h with
  | nil p => simp
  | cons hn hp ih =>
    rw [List.countP_cons, List.countP_cons]
    cases hn <;> simp [pendingStep, Train.Ev.isStep, isDecision] at ih ⊢ <;> omega

theorem countP_filter_act (es : List (Train.Ev O A R S)) : (es.filter Train.Ev.isProtocol).countP isDecision = es.countP isDecision := by
  rw [List.countP_filter]
  congr 1
  funext e
  cases e <;> rfl

theorem act_steps (c : Train.Cfg S) (hT : c.agentHasT = true) (w : Train.World O A R S X) (d : DQN.Cfg θ O H) (hd : 0 < d.targetInterval)
    (ps : Nat → θ) (p0 : θ) (pre post : List (Train.Ev O A R S)) (o : O) (r : R) (a : A)
    (hrun : (Train.run c w).1 = pre ++ .act o r a :: post) : pre.countP isDecision = pre.countP Train.Ev.isStep := by
  obtain ⟨s, ev, q, q', h1, h2, h3, hp, hp', hI⟩ := TrainDQN.run_drive c hT w d hd ps p0 pre _ hrun
  have := path_acts hp
  rw [countP_filter_act, TrainDQN.countP_filter_protocol] at this
  rw [List.filter_cons_of_pos (by rfl)] at hp'
  cases hp' with
  | cons hn' hp' =>
  cases hn' with
  | act _ _ len t _ hlt => simpa [pendingStep] using this

theorem entries_bounds {n : Nat} (hn : 0 < n) (w : TrainDQN.Record O A R) :
    (TrainDQN.entriesOf n (w.finished, w.current)).length ≤ w.steps ∧
    w.steps ≤ (TrainDQN.entriesOf n (w.finished, w.current)).length + (n - 1) := by
  have h1 : (TrainDQN.entriesOf n (w.finished, w.current)).length = w.finished.flatten.length + (w.current.length + 1 - n) := by
    simp [TrainDQN.entriesOf, List.length_flatMap, TrainDQN.slices_length, List.length_flatten, Episodes.fullSlices]
  rw [h1]
  unfold TrainDQN.Record.steps
  omega

theorem due_succ (start interval offset k : Nat) :
    due start interval offset (k + 1) = due start interval offset k + if interval ∣ offset + k ∧ start ≤ k then 1 else 0 := by
  unfold due
  rw [Finset.range_add_one, Finset.filter_insert]
  split
  · rw [Finset.card_insert_of_notMem (by simp)]
  · rfl

/-- C163: at every moment of every run of `train_agent` with a DQN and a prioritized replay buffer, the number of batches made so far lies between
`n_times_update` times the number of decisions at a multiple of `update_interval` that came after at least `replay_start_size + num_steps - 1` steps
and the same with `replay_start_size` steps.  With `num_steps = 1` the two numbers are the same. -/
theorem C163_batches (c : Train.Cfg S) (hT : c.agentHasT = true) (w : Train.World O A R S X) (d : DQN.Cfg θ O H) (hd : 0 < d.targetInterval)
    (cap : Option Nat) (p : PWE) (u : Sched) (hs : Sensible cap p u) (hcap : ∀ k, cap = some k → u.startSize ≤ k) (us errs : Nat → Nat → List ℝ)
    (hin : ∀ k j, Inputs u.batchsize (us k j) (errs k j)) (n : Nat) (hn : 0 < n) (ps : Nat → θ) (p0 : θ)
    (pre post : List (Train.Ev O A R S)) (hrun : (Train.run c w).1 = pre ++ post) :
    ∃ s ev m, drive d ps 0 (DQN.init p0) pre = .ok (s, ev) ∧ (TrainPrioritized.buffer cap n p u us errs ev).rb.memory = .ok m ∧
      u.nTimes * due (u.startSize + (n - 1)) u.interval c.stepOffset (pre.countP isDecision) ≤ m.log.length ∧
      m.log.length ≤ u.nTimes * due u.startSize u.interval c.stepOffset (pre.countP isDecision) ∧
      m.pwe = TrainPrioritized.annealed p m.log.length := by
  suffices h : ∃ s ev m, drive d ps 0 (DQN.init p0) pre = .ok (s, ev) ∧ (TrainPrioritized.buffer cap n p u us errs ev).rb.memory = .ok m ∧
      u.nTimes * due (u.startSize + (n - 1)) u.interval c.stepOffset (pre.countP isDecision) ≤ m.log.length ∧
      m.log.length ≤ u.nTimes * due u.startSize u.interval c.stepOffset (pre.countP isDecision) by
    obtain ⟨s, ev, m, h1, h2, h3, h4⟩ := h
    obtain ⟨-, -, -, -, m', items, mx, g1, g2, -⟩ := TrainPrioritized.buffer_rel hs us errs hin n ev
    rw [h2] at g1
    cases g1
    exact ⟨s, ev, m, h1, h2, h3, h4, g2.pwe⟩
  induction pre using List.reverseRecOn generalizing post with
  | nil => exact ⟨_, [], TrainPrioritized.Mem.init cap p, rfl, rfl, by simp [due], by simp [TrainPrioritized.Mem.init]⟩
  | append_singleton pre e ih =>
    have hrun' : (Train.run c w).1 = pre ++ e :: post := by rw [hrun]; simp
    obtain ⟨s, ev, m, h1, h2, h3, h4⟩ := ih (e :: post) hrun'
    have quiet : ∀ s' e', drive d ps (pre.countP isDecision) s [e] = .ok (s', e') → DQN.updates e' = [] → isDecision e = false →
        ∃ s ev m, drive d ps 0 (DQN.init p0) (pre ++ [e]) = .ok (s, ev) ∧ (TrainPrioritized.buffer cap n p u us errs ev).rb.memory = .ok m ∧
          u.nTimes * due (u.startSize + (n - 1)) u.interval c.stepOffset ((pre ++ [e]).countP isDecision) ≤ m.log.length ∧
          m.log.length ≤ u.nTimes * due u.startSize u.interval c.stepOffset ((pre ++ [e]).countP isDecision) := by
      intro s' e' hdr hu ha
      obtain ⟨m1, m', g1, g2, g3⟩ := batches_quiet hs us errs hin n ev e' hu
      rw [h2] at g1
      cases g1
      refine ⟨s', ev ++ e', m', drive_append d ps pre [e] 0 _ s s' ev e' h1 (by simpa using hdr), g2, ?_, ?_⟩ <;>
        (rw [List.countP_append, List.countP_singleton, ha, g3]; simpa)
    cases e with
    | act o r a =>
      obtain ⟨s1, ev1, s', e', f1, f2, f3, -, f5⟩ := TrainDQN.C121_update c hT w d hd cap n hn ps p0 (ps (pre.countP isDecision)) pre post o r a hrun'
      rw [h1] at f1
      cases f1
      have hacts := act_steps c hT w d hd ps p0 pre post o r a hrun'
      have hsteps := TrainDQN.run_steps c hT w pre _ hrun'
      obtain ⟨m1, m2, g1, g2, g3⟩ := batches_quiet hs us errs hin n ev e' f3
      rw [h2] at g1
      cases g1
      obtain ⟨m3, m', k1, k2, -, k4⟩ := batches_snoc hs us errs hin n (ev ++ e') (.update (c.stepOffset + pre.countP Train.Ev.isStep) (ps (pre.countP isDecision)))
      rw [g2] at k1
      cases k1
      have k4 := k4 _ _ rfl
      have hlen := congrArg List.length f5
      rw [show (TrainDQN.stored (TrainDQN.buffer cap n (ev ++ e'))).length = (TrainDQN.buffer cap n (ev ++ e')).entries.length by
        simp [TrainDQN.stored]] at hlen
      obtain ⟨b1, b2⟩ := entries_bounds hn (TrainDQN.record pre)
      rw [hsteps, ← hacts] at b1 b2
      rw [← hacts] at k4
      have hle : (TrainDQN.buffer cap n (ev ++ e')).entries.length ≤ pre.countP isDecision := by
        rw [hlen]
        cases cap with
        | none => exact b1
        | some k => simp only [BoundedList.newest, List.length_drop]; omega
      have hge : u.startSize + (n - 1) ≤ pre.countP isDecision → u.startSize ≤ (TrainDQN.buffer cap n (ev ++ e')).entries.length := by
        intro h
        rw [hlen]
        cases cap with
        | none => simp only [BoundedList.newest]; omega
        | some k => have := hcap k rfl; simp only [BoundedList.newest, List.length_drop]; omega
      refine ⟨s', ev ++ (e' ++ [.update (c.stepOffset + pre.countP Train.Ev.isStep) (ps (pre.countP isDecision))]), m',
        drive_append d ps pre _ 0 _ s s' ev _ h1 ?_, by rw [← List.append_assoc]; exact k2, ?_, ?_⟩
      · have := TrainDQN.drive_act d ps (0 + pre.countP isDecision) s s' s' o r a ([] : List (Train.Ev O A R S)) _ [] (by rw [Nat.zero_add]; exact f2) rfl
        simpa using this
      · rw [List.countP_append, List.countP_singleton, show isDecision (Train.Ev.act o r a : Train.Ev O A R S) = true from rfl, if_pos rfl, due_succ, k4, g3, Nat.mul_add]
        refine Nat.add_le_add h3 ?_
        split
        · rename_i hh
          rw [if_pos ⟨hh.1, hge hh.2⟩, Nat.mul_one]
        · simp
      · rw [List.countP_append, List.countP_singleton, show isDecision (Train.Ev.act o r a : Train.Ev O A R S) = true from rfl, if_pos rfl, due_succ, k4, g3, Nat.mul_add]
        refine Nat.add_le_add h4 ?_
        split
        · rename_i hh
          rw [if_pos ⟨hh.1, hh.2.trans hle⟩, Nat.mul_one]
        · simp
    | stop o r dn =>
      obtain ⟨s2, ev2, -, -, f1, -⟩ := TrainDQN.run_drive c hT w d hd ps p0 (pre ++ [.stop o r dn]) post hrun
      cases hc : d.call s (.stop o r dn : DQN.Call θ O A R) with
      | error x =>
        exfalso
        have : ∀ (es : List (Train.Ev O A R S)) k s0 s1 e1, drive d ps k s0 es = .ok (s1, e1) → d.call s1 (.stop o r dn : DQN.Call θ O A R) = .error x →
            ∃ y, drive d ps k s0 (es ++ [.stop o r dn]) = .error y := by
          intro es
          induction es with
          | nil => intro k s0 s1 e1 q1 q2; cases q1; exact ⟨x, by simp only [List.nil_append, drive, q2, bind, Except.bind]⟩
          | cons e es ih2 =>
            intro k s0 s1 e1 q1 q2
            cases e with
            | act o' r' a' =>
              cases hc : d.call s0 (.act o' r' (ps k) a') with
              | error x => simp only [drive, hc, bind, Except.bind] at q1; cases q1
              | ok y =>
                obtain ⟨s', w1⟩ := y
                cases hd : drive d ps (k + 1) s' es with
                | error x => simp only [drive, hc, hd, bind, Except.bind] at q1; cases q1
                | ok y =>
                  obtain ⟨s'', w2⟩ := y
                  simp only [drive, hc, hd, bind, Except.bind, pure, Except.pure] at q1
                  cases q1
                  obtain ⟨y, hy⟩ := ih2 _ _ _ _ hd q2
                  exact ⟨y, by simp only [List.cons_append, drive, hc, bind, Except.bind, hy]⟩
            | stop o' r' d' =>
              cases hc : d.call s0 (.stop o' r' d' : DQN.Call θ O A R) with
              | error x => simp only [drive, hc, bind, Except.bind] at q1; cases q1
              | ok y =>
                obtain ⟨s', w1⟩ := y
                cases hd : drive d ps k s' es with
                | error x => simp only [drive, hc, hd, bind, Except.bind] at q1; cases q1
                | ok y =>
                  obtain ⟨s'', w2⟩ := y
                  simp only [drive, hc, hd, bind, Except.bind, pure, Except.pure] at q1
                  cases q1
                  obtain ⟨y, hy⟩ := ih2 _ _ _ _ hd q2
                  exact ⟨y, by simp only [List.cons_append, drive, hc, bind, Except.bind, hy]⟩
            | setT t => exact ih2 k _ _ _ q1 q2
            | reset o => exact ih2 k _ _ _ q1 q2
            | step a out => exact ih2 k _ _ _ q1 q2
            | hook i t => exact ih2 k _ _ _ q1 q2
            | evaluate => exact ih2 k _ _ _ q1 q2
            | save => exact ih2 k _ _ _ q1 q2
        obtain ⟨y, hy⟩ := this pre 0 _ s ev h1 hc
        rw [hy] at f1; cases f1
      | ok y =>
        obtain ⟨s', e'⟩ := y
        refine quiet s' e' ?_ ?_ rfl
        · have := TrainDQN.drive_stop d ps (pre.countP isDecision) s s' s' o r dn ([] : List (Train.Ev O A R S)) e' [] hc rfl
          simpa using this
        · simp only [DQN.Cfg.call, DQN.Cfg.stopEpisodeAndTrain] at hc
          split at hc
          · cases hc; rfl
          · cases hc
    | setT t => exact quiet _ [] rfl rfl rfl
    | reset o => exact quiet _ [] rfl rfl rfl
    | step a out => exact quiet _ [] rfl rfl rfl
    | hook i t => exact quiet _ [] rfl rfl rfl
    | evaluate => exact quiet _ [] rfl rfl rfl
    | save => exact quiet _ [] rfl rfl rfl

/-! ## Counting -/

theorem due_closed {I : Nat} (hI : 0 < I) (start offset k : Nat) :
    due start I offset (start + k) + (offset + start + I - 1) / I = (offset + (start + k) + I - 1) / I := by
  induction k with
  | zero =>
    have : due start I offset (start + 0) = 0 := by
      unfold due
      rw [Finset.card_eq_zero, Finset.filter_eq_empty_iff]
      intro j hj
      rw [Finset.mem_range] at hj
      rintro ⟨-, h⟩
      omega
    rw [this]; simp [Nat.add_assoc]
  | succ k ih =>
    rw [← Nat.add_assoc start, due_succ]
    have h1 : offset + (start + k + 1) + I - 1 = (offset + (start + k) + I - 1) + 1 := by omega
    have h2 : offset + (start + k) + I - 1 + 1 = offset + (start + k) + I := by omega
    rw [h1, Nat.succ_div, ← ih, h2]
    have : (I ∣ offset + (start + k) ∧ start ≤ start + k) ↔ I ∣ offset + (start + k) + I := by rw [Nat.dvd_add_self_right]; simp
    simp only [this]
    omega

theorem due_early {I start offset k : Nat} (h : k ≤ start) : due start I offset k = 0 := by
  unfold due
  rw [Finset.card_eq_zero, Finset.filter_eq_empty_iff]
  intro j hj
  rw [Finset.mem_range] at hj
  rintro ⟨-, h⟩
  omega

/-- C163: how many updates are due among the first `acts` decisions: the multiples of `update_interval` from `replay_start_size` (inclusive) to
`acts` (exclusive), both counted from `step_offset`. -/
theorem C163_count {I : Nat} (hI : 0 < I) (start offset acts : Nat) (h : start ≤ acts) :
    due start I offset acts = (offset + acts + I - 1) / I - (offset + start + I - 1) / I := by
  obtain ⟨k, rfl⟩ := Nat.exists_eq_add_of_le h
  have := due_closed hI start offset k
  omega

theorem due_upper {I : Nat} (hI : 0 < I) (start acts : Nat) (h : start ≤ acts) : due start I 0 acts * I ≤ acts - start + (I - 1) := by
  obtain ⟨k, rfl⟩ := Nat.exists_eq_add_of_le h
  have h1 := due_closed hI start 0 k
  have h2 := Nat.div_mul_le_self (0 + (start + k) + I - 1) I
  have h3 := Nat.lt_div_mul_add (a := 0 + start + I - 1) hI
  have h4 : due start I 0 (start + k) * I + (0 + start + I - 1) / I * I = (0 + (start + k) + I - 1) / I * I := by
    rw [← h1]; ring
  omega

theorem due_lower {I : Nat} (hI : 0 < I) (start acts : Nat) : acts ≤ due start I 0 acts * I + (I - 1) + start := by
  by_cases h : start ≤ acts
  · obtain ⟨k, rfl⟩ := Nat.exists_eq_add_of_le h
    have h1 := due_closed hI start 0 k
    have h2 := Nat.div_mul_le_self (0 + start + I - 1) I
    have h3 := Nat.lt_div_mul_add (a := 0 + (start + k) + I - 1) hI
    have h4 : due start I 0 (start + k) * I + (0 + start + I - 1) / I * I = (0 + (start + k) + I - 1) / I * I := by
      rw [← h1]; ring
    omega
  · omega

theorem acts_bounds (c : Train.Cfg S) (hT : c.agentHasT = true) (w : Train.World O A R S X) (pre post : List (Train.Ev O A R S))
    (hrun : (Train.run c w).1 = pre ++ post) :
    pre.countP Train.Ev.isStep ≤ pre.countP isDecision ∧ pre.countP isDecision ≤ c.steps - c.stepOffset := by
  have hpath : ∀ pre post, (Train.run c w).1 = pre ++ post → ∃ q q', Path c.steps c.stepOffset c.maxEpisodeLen .fresh (pre.filter Train.Ev.isProtocol) q ∧
      Path c.steps c.stepOffset c.maxEpisodeLen q (post.filter Train.Ev.isProtocol) q' := by
    intro pre post h
    obtain ⟨s, ev, q, q', -, -, -, hp, hp', -⟩ := TrainDQN.run_drive c hT w (⟨1, false, fun p _ => p, fun _ h _ => h, 0⟩ : DQN.Cfg Nat O Nat) one_pos (fun _ => 0) 0 pre post h
    exact ⟨q, q', hp, hp'⟩
  constructor
  · obtain ⟨q, q', hp, -⟩ := hpath pre post hrun
    have := path_acts hp
    rw [countP_filter_act, TrainDQN.countP_filter_protocol] at this
    simp only [pendingStep] at this
    omega
  · induction pre using List.reverseRecOn generalizing post with
    | nil => simp
    | append_singleton pre e ih =>
      have hrun' : (Train.run c w).1 = pre ++ e :: post := by rw [hrun]; simp
      have := ih _ hrun'
      rw [List.countP_append, List.countP_singleton]
      cases e with
      | act o r a =>
        obtain ⟨q, q', hp, hp'⟩ := hpath pre _ hrun'
        have h1 := path_acts hp
        have h2 := TrainDQN.path_time hp
        rw [countP_filter_act, TrainDQN.countP_filter_protocol] at h1
        rw [TrainDQN.countP_filter_protocol] at h2
        rw [List.filter_cons_of_pos (by rfl)] at hp'
        cases hp' with
        | cons hn' hp' =>
        cases hn' with
        | act _ _ len t _ hlt =>
          simp only [pendingStep, TrainDQN.time] at h1 h2
          simp only [isDecision, if_true]
          omega
      | _ => simpa [isDecision] using this

/-! ## The scripts -/

/-- C163: beta at every moment of a run with one-step returns: `beta0` plus one increment for each batch that was due, at most 1. -/
theorem C163_beta (c : Train.Cfg S) (hT : c.agentHasT = true) (w : Train.World O A R S X) (d : DQN.Cfg θ O H) (hd : 0 < d.targetInterval)
    (cap : Option Nat) (p : PWE) (u : Sched) (hs : Sensible cap p u) (hcap : ∀ k, cap = some k → u.startSize ≤ k) (us errs : Nat → Nat → List ℝ)
    (hin : ∀ k j, Inputs u.batchsize (us k j) (errs k j)) (ps : Nat → θ) (p0 : θ)
    (pre post : List (Train.Ev O A R S)) (hrun : (Train.run c w).1 = pre ++ post) :
    ∃ s ev m, drive d ps 0 (DQN.init p0) pre = .ok (s, ev) ∧ (TrainPrioritized.buffer cap 1 p u us errs ev).rb.memory = .ok m ∧
      m.log.length = u.nTimes * due u.startSize u.interval c.stepOffset (pre.countP isDecision) ∧
      m.pwe.beta = min 1 (p.beta + (u.nTimes * due u.startSize u.interval c.stepOffset (pre.countP isDecision) : Nat) * p.betaAdd) := by
  obtain ⟨s, ev, m, h1, h2, h3, h4, h5⟩ := C163_batches c hT w d hd cap p u hs hcap us errs hin 1 one_pos ps p0 pre post hrun
  have h6 : m.log.length = u.nTimes * due u.startSize u.interval c.stepOffset (pre.countP isDecision) := le_antisymm h4 (by simpa using h3)
  exact ⟨s, ev, m, h1, h2, h6, by rw [h5, h6]; rfl⟩

theorem mk_fields {alpha beta0 steps eps : ℝ} {norm : Normalize} {mn mx : Option ℝ} {p : PWE}
    (h : PWE.mk? alpha beta0 (some steps) eps norm mn mx = .ok p) :
    p.beta = beta0 ∧ p.betaAdd = (1 - beta0) / steps ∧ steps ≠ 0 ∧ 0 ≤ beta0 ∧ beta0 ≤ 1 := by
  unfold PWE.mk? at h
  split at h
  · cases h
  · split at h
    · cases h
    · rename_i hb
      rw [not_not] at hb
      simp only at h
      split at h
      · cases h
      · rename_i hz
        cases h
        exact ⟨rfl, rfl, hz, hb⟩

/-- C163, the gym scripts: a training run from step 0 that ends normally, without having been cut short by success, ends with `beta = 1`, and beta is below 1 as long
as the last two update intervals have not begun. -/
theorem C163_gym (c : Train.Cfg S) (hT : c.agentHasT = true) (h0 : c.stepOffset = 0) (w : Train.World O A R S X) (d : DQN.Cfg θ O H) (hd : 0 < d.targetInterval)
    (cap : Option Nat) (u : Sched) (h1 : u.nTimes = 1) (alpha beta0 eps : ℝ) (norm : Normalize) (mn mx : Option ℝ) (p : PWE)
    (hp : PWE.mk? alpha beta0 (some (gym c.steps u.startSize u.interval)) eps norm mn mx = .ok p)
    (hs : Sensible cap p u) (hcap : ∀ k, cap = some k → u.startSize ≤ k) (us errs : Nat → Nat → List ℝ)
    (hin : ∀ k j, Inputs u.batchsize (us k j) (errs k j)) (ps : Nat → θ) (p0 : θ) :
    ((Train.run c w).2 = .ok () → ¬ Train.Succeeded c (Train.run c w).1 →
      ∃ s ev m, drive d ps 0 (DQN.init p0) (Train.run c w).1 = .ok (s, ev) ∧ (TrainPrioritized.buffer cap 1 p u us errs ev).rb.memory = .ok m ∧
        m.pwe.beta = 1) ∧
    ∀ pre post, (Train.run c w).1 = pre ++ post → pre.countP isDecision + 2 * u.interval ≤ c.steps + 1 → beta0 < 1 →
      ∃ s ev m, drive d ps 0 (DQN.init p0) pre = .ok (s, ev) ∧ (TrainPrioritized.buffer cap 1 p u us errs ev).rb.memory = .ok m ∧
        m.pwe.beta < 1 := by
  obtain ⟨e1, e2, e3, e4, e5⟩ := mk_fields hp
  have hg : 0 < gym c.steps u.startSize u.interval := Nat.pos_of_ne_zero (by exact_mod_cast e3)
  have hgr : (0 : ℝ) < gym c.steps u.startSize u.interval := by exact_mod_cast hg
  have hI := hs.interval
  have hg1 : gym c.steps u.startSize u.interval * u.interval ≤ c.steps - u.startSize := Nat.div_mul_le_self _ _
  have hg2 : c.steps - u.startSize < gym c.steps u.startSize u.interval * u.interval + u.interval := Nat.lt_div_mul_add hI
  have hst : u.startSize ≤ c.steps := by
    by_contra h
    rw [show c.steps - u.startSize = 0 by omega] at hg1
    have := Nat.mul_pos hg hI
    omega
  constructor
  · intro hok hsucc
    obtain ⟨s, ev, m, f1, f2, f3, f4⟩ := C163_beta c hT w d hd cap p u hs hcap us errs hin ps p0 (Train.run c w).1 [] (by simp)
    refine ⟨s, ev, m, f1, f2, ?_⟩
    have hsteps : (Train.run c w).1.countP Train.Ev.isStep = c.steps := by
      rcases (Train.C21_step_count c w).2 hok with h | h
      · rw [h, h0]; rfl
      · exact absurd h hsucc
    obtain ⟨b1, b2⟩ := acts_bounds c hT w (Train.run c w).1 [] (by simp)
    have hacts : (Train.run c w).1.countP isDecision = c.steps := by omega
    have hlow := due_lower hI u.startSize c.steps
    have hle : gym c.steps u.startSize u.interval ≤ due u.startSize u.interval 0 c.steps := by
      by_contra hcon
      have : (due u.startSize u.interval 0 c.steps + 1) * u.interval ≤ gym c.steps u.startSize u.interval * u.interval := Nat.mul_le_mul_right _ (by omega)
      rw [Nat.add_mul, Nat.one_mul] at this
      omega
    rw [f4, hacts, h0, h1, Nat.one_mul, e1, e2, min_eq_left]
    have hle' : (gym c.steps u.startSize u.interval : ℝ) ≤ due u.startSize u.interval 0 c.steps := by exact_mod_cast hle
    have : (gym c.steps u.startSize u.interval : ℝ) * ((1 - beta0) / gym c.steps u.startSize u.interval) = 1 - beta0 := by field_simp
    have := mul_le_mul_of_nonneg_right hle' (div_nonneg (sub_nonneg.2 e5) hgr.le)
    linarith
  · intro pre post hrun hearly hb
    obtain ⟨s, ev, m, f1, f2, f3, f4⟩ := C163_beta c hT w d hd cap p u hs hcap us errs hin ps p0 pre post hrun
    refine ⟨s, ev, m, f1, f2, ?_⟩
    have hlt : due u.startSize u.interval 0 (pre.countP isDecision) < gym c.steps u.startSize u.interval := by
      by_cases hsz : u.startSize ≤ pre.countP isDecision
      · have := due_upper hI u.startSize _ hsz
        by_contra hcon
        have : gym c.steps u.startSize u.interval * u.interval ≤ due u.startSize u.interval 0 (pre.countP isDecision) * u.interval := Nat.mul_le_mul_right _ (by omega)
        omega
      · rw [due_early (by omega)]; exact hg
    have hlt' : (due u.startSize u.interval 0 (pre.countP isDecision) : ℝ) < gym c.steps u.startSize u.interval := by exact_mod_cast hlt
    rw [f4, h0, h1, Nat.one_mul, e1, e2]
    refine min_lt_of_right_lt ?_
    have : (gym c.steps u.startSize u.interval : ℝ) * ((1 - beta0) / gym c.steps u.startSize u.interval) = 1 - beta0 := by field_simp
    have := mul_lt_mul_of_pos_right hlt' (div_pos (sub_pos.2 hb) hgr)
    linarith

/-- C163, the Atari scripts: at the normal end of a run from step 0, not cut short by success, `1 - beta` is at most the share `(replay_start_size + num_steps + update_interval - 2) / steps` of
what it was at the start. -/
theorem C163_atari (c : Train.Cfg S) (hT : c.agentHasT = true) (h0 : c.stepOffset = 0) (w : Train.World O A R S X)
    (hok : (Train.run c w).2 = .ok ()) (hsucc : ¬ Train.Succeeded c (Train.run c w).1) (d : DQN.Cfg θ O H) (hd : 0 < d.targetInterval)
    (cap : Option Nat) (u : Sched) (h1 : u.nTimes = 1) (alpha beta0 eps : ℝ) (norm : Normalize) (mn mx : Option ℝ) (p : PWE)
    (hp : PWE.mk? alpha beta0 (some (atari c.steps u.interval)) eps norm mn mx = .ok p)
    (hs : Sensible cap p u) (hcap : ∀ k, cap = some k → u.startSize ≤ k) (us errs : Nat → Nat → List ℝ)
    (hin : ∀ k j, Inputs u.batchsize (us k j) (errs k j)) (n : Nat) (hn : 0 < n) (ps : Nat → θ) (p0 : θ) :
    ∃ s ev m, drive d ps 0 (DQN.init p0) (Train.run c w).1 = .ok (s, ev) ∧ (TrainPrioritized.buffer cap n p u us errs ev).rb.memory = .ok m ∧
      1 - m.pwe.beta ≤ (1 - beta0) * ((u.startSize + (n - 1) + (u.interval - 1) : Nat) / (c.steps : ℝ)) := by
  obtain ⟨e1, e2, e3, e4, e5⟩ := mk_fields hp
  obtain ⟨s, ev, m, f1, f2, f3, f4, f5⟩ := C163_batches c hT w d hd cap p u hs hcap us errs hin n hn ps p0 (Train.run c w).1 [] (by simp)
  refine ⟨s, ev, m, f1, f2, ?_⟩
  have hI := hs.interval
  have hIr : (0 : ℝ) < u.interval := by exact_mod_cast hI
  have hTs : (0 : ℝ) < c.steps := by
    rcases Nat.eq_zero_or_pos c.steps with h | h
    · exact absurd (by simp [atari, h]) e3
    · exact_mod_cast h
  have hsteps : (Train.run c w).1.countP Train.Ev.isStep = c.steps := by
    rcases (Train.C21_step_count c w).2 hok with h | h
    · rw [h, h0]; rfl
    · exact absurd h hsucc
  obtain ⟨b1, b2⟩ := acts_bounds c hT w (Train.run c w).1 [] (by simp)
  have hacts : (Train.run c w).1.countP isDecision = c.steps := by omega
  rw [hacts, h0, h1, Nat.one_mul] at f3
  have hlow := due_lower hI (u.startSize + (n - 1)) c.steps
  have hk : c.steps ≤ m.log.length * u.interval + (u.startSize + (n - 1) + (u.interval - 1)) := by
    have := Nat.mul_le_mul_right u.interval f3
    omega
  have hk' : (c.steps : ℝ) ≤ m.log.length * u.interval + (u.startSize + (n - 1) + (u.interval - 1) : Nat) := by exact_mod_cast hk
  rw [f5]
  show 1 - min 1 (p.beta + m.log.length * p.betaAdd) ≤ _
  rw [e1, e2]
  have hx : (0 : ℝ) ≤ (1 - beta0) * ((u.startSize + (n - 1) + (u.interval - 1) : Nat) / (c.steps : ℝ)) :=
    mul_nonneg (sub_nonneg.2 e5) (div_nonneg (Nat.cast_nonneg _) hTs.le)
  rcases le_total 1 (beta0 + m.log.length * ((1 - beta0) / atari c.steps u.interval)) with h | h
  · rw [min_eq_left h]; linarith
  · rw [min_eq_right h]
    have h2 : (m.log.length : ℝ) * ((1 - beta0) / atari c.steps u.interval) = (1 - beta0) * (m.log.length * u.interval / c.steps) := by
      unfold atari; field_simp
    rw [h2]
    have h3 : (1 : ℝ) ≤ m.log.length * u.interval / c.steps + (u.startSize + (n - 1) + (u.interval - 1) : Nat) / (c.steps : ℝ) := by
      rw [← add_div, le_div_iff₀ hTs]; linarith
    nlinarith [mul_le_mul_of_nonneg_left h3 (sub_nonneg.2 e5)]

/-- C163, the Atari scripts do not quite do what their comment says ("Anneal beta from beta0 to 1 throughout training"): no training is done for the first `replay_start_size` steps, so
throughout the run, the end included, `1 - beta` stays at or above the share `(replay_start_size - update_interval + 1) / steps` of what it was at the start; beta never
becomes 1. -/
theorem C163_violated_atari (c : Train.Cfg S) (hT : c.agentHasT = true) (h0 : c.stepOffset = 0) (w : Train.World O A R S X)
    (d : DQN.Cfg θ O H) (hd : 0 < d.targetInterval)
    (cap : Option Nat) (u : Sched) (h1 : u.nTimes = 1) (alpha beta0 eps : ℝ) (norm : Normalize) (mn mx : Option ℝ) (p : PWE)
    (hp : PWE.mk? alpha beta0 (some (atari c.steps u.interval)) eps norm mn mx = .ok p)
    (hs : Sensible cap p u) (hcap : ∀ k, cap = some k → u.startSize ≤ k) (hst : u.startSize ≤ c.steps) (hIs : u.interval ≤ u.startSize) (us errs : Nat → Nat → List ℝ)
    (hin : ∀ k j, Inputs u.batchsize (us k j) (errs k j)) (n : Nat) (hn : 0 < n) (ps : Nat → θ) (p0 : θ)
    (pre post : List (Train.Ev O A R S)) (hrun : (Train.run c w).1 = pre ++ post) :
    ∃ s ev m, drive d ps 0 (DQN.init p0) pre = .ok (s, ev) ∧ (TrainPrioritized.buffer cap n p u us errs ev).rb.memory = .ok m ∧
      (1 - beta0) * ((u.startSize - u.interval + 1 : Nat) / (c.steps : ℝ)) ≤ 1 - m.pwe.beta ∧ (beta0 < 1 → m.pwe.beta < 1) := by
  obtain ⟨e1, e2, e3, e4, e5⟩ := mk_fields hp
  obtain ⟨s, ev, m, f1, f2, f3, f4, f5⟩ := C163_batches c hT w d hd cap p u hs hcap us errs hin n hn ps p0 pre post hrun
  have hI := hs.interval
  have hIr : (0 : ℝ) < u.interval := by exact_mod_cast hI
  have hTs : (0 : ℝ) < c.steps := by exact_mod_cast (by omega : 0 < c.steps)
  obtain ⟨b1, b2⟩ := acts_bounds c hT w pre post hrun
  rw [h0, h1, Nat.one_mul] at f4
  have hk : m.log.length * u.interval + (u.startSize - u.interval + 1) ≤ c.steps := by
    have := Nat.mul_le_mul_right u.interval f4
    by_cases hsz : u.startSize ≤ pre.countP isDecision
    · have := due_upper hI u.startSize _ hsz
      omega
    · rw [due_early (by omega)] at this
      omega
  have hk' : (m.log.length : ℝ) * u.interval + (u.startSize - u.interval + 1 : Nat) ≤ c.steps := by exact_mod_cast hk
  have main : (1 - beta0) * ((u.startSize - u.interval + 1 : Nat) / (c.steps : ℝ)) ≤ 1 - m.pwe.beta := by
    rw [f5]
    show _ ≤ 1 - min 1 (p.beta + m.log.length * p.betaAdd)
    rw [e1, e2]
    have h2 : (m.log.length : ℝ) * ((1 - beta0) / atari c.steps u.interval) = (1 - beta0) * (m.log.length * u.interval / c.steps) := by
      unfold atari; field_simp
    have h3 : (m.log.length : ℝ) * u.interval / c.steps + (u.startSize - u.interval + 1 : Nat) / (c.steps : ℝ) ≤ 1 := by
      rw [← add_div, div_le_one hTs]; exact hk'
    have h4 := mul_le_mul_of_nonneg_left h3 (sub_nonneg.2 e5)
    have h5 := min_le_right 1 (beta0 + m.log.length * ((1 - beta0) / atari c.steps u.interval))
    rw [h2] at h5 ⊢
    linarith
  refine ⟨s, ev, m, f1, f2, main, fun hb => ?_⟩
  have : 0 < (1 - beta0) * ((u.startSize - u.interval + 1 : Nat) / (c.steps : ℝ)) := mul_pos (sub_pos.2 hb) (div_pos (by positivity) hTs)
  linarith

/-! ## Non-vacuity -/

/-- The default command line of `train_dqn_gym.py --prioritized-replay`: 99000 `betasteps`. -/
example : gym 100000 1000 1 = 99000 ∧ PWE.mk? 0.6 0.4 (some (gym 100000 1000 1)) 0.01 .batch (some 0) (some 1) = .ok ⟨0.6, 0.4, (1 - 0.4) / (gym 100000 1000 1 : Nat), 0.01, .batch, some 0, some 1⟩ ∧
    Sensible (some (5 * 10 ^ 5)) ⟨0.6, 0.4, (1 - 0.4) / (gym 100000 1000 1 : Nat), 0.01, .batch, some 0, some 1⟩ ⟨32, 1, 1000, 1⟩ := by
  have hg : gym 100000 1000 1 = 99000 := by decide +kernel
  refine ⟨hg, ?_, by simp, by norm_num, by rw [hg]; norm_num, ?_, by norm_num, by norm_num⟩
  · unfold PWE.mk?
    rw [hg]
    norm_num
  · intro e he
    have : 0 ≤ min 1 (max 0 e) := le_min zero_le_one (le_max_left 0 e)
    show 0 < min 1 (max 0 e) + 0.01
    linarith

/-- The default command line of `train_rainbow.py`: 12 500 000 `betasteps`. -/
example : atari 50000000 4 = 12500000 ∧ PWE.mk? 0.5 0.4 (some (atari 50000000 4)) 0.01 .memory (some 0) (some 1) = .ok ⟨0.5, 0.4, (1 - 0.4) / 12500000, 0.01, .memory, some 0, some 1⟩ ∧
    Sensible (some (10 ^ 6)) ⟨0.5, 0.4, (1 - 0.4) / 12500000, 0.01, .memory, some 0, some 1⟩ ⟨32, 1, 20000, 4⟩ := by
  have hg : atari 50000000 4 = 12500000 := by unfold atari; norm_num
  refine ⟨hg, ?_, by simp, by norm_num, by norm_num, ?_, by norm_num, by norm_num⟩
  · unfold PWE.mk?
    rw [hg]
    norm_num
  · intro e he
    have : 0 ≤ min 1 (max 0 e) := le_min zero_le_one (le_max_left 0 e)
    show 0 < min 1 (max 0 e) + 0.01
    linarith

/-- Updates at the multiples of 4 from step 10 on: 12, 16 and 20 of the first 21 decisions. -/
example : due 10 4 0 21 = 3 ∧ due 10 4 0 20 = 2 ∧ due 10 4 2 21 = 3 := by decide +kernel

end Verif.BetaSteps
