import Verif.Model.TrainDQN
import Verif.Spec.TrainDQN
import Verif.Props.TrainAgent
import Verif.Props.DQN
import Verif.Props.ReplayBuffer
set_option autoImplicit false
set_option linter.unusedSectionVars false

/-! # C121: what a training run puts into the replay buffer -/

namespace Verif.TrainDQN
open DQN (EnvStep Turn Idle Mid)
open Train (Phase Path Next)
variable {θ O A R S H X : Type}

/-! ## The buffer's episodes -/

/-- The episodes of environment `j` the buffer was told about, as environment steps. -/
def told (j : Nat) (l : List (DQN.Ev θ O A R H)) : List (List (EnvStep O A R)) × List (EnvStep O A R) :=
  let s := Episodes.of (·.terminal) j (bufOps l)
  (s.1.map (·.map stepOf), s.2.map stepOf)

/-- The same, computed from the calls alone. -/
def tellStep (j : Nat) (s : List (List (EnvStep O A R)) × List (EnvStep O A R)) :
    DQN.BufCall O A R → List (List (EnvStep O A R)) × List (EnvStep O A R)
  | .append e x => if e = j then (if x.terminal then (s.1 ++ [s.2 ++ [x]], []) else (s.1, s.2 ++ [x])) else s
  | .stop e => if e = j ∧ s.2 ≠ [] then (s.1 ++ [s.2], []) else s

theorem told_eq (j : Nat) (l : List (DQN.Ev θ O A R H)) : told j l = (DQN.bufCalls l).foldl (tellStep j) ([], []) := by
  unfold told Episodes.of
  have key : ∀ (l : List (DQN.Ev θ O A R H)) (s : List (List (DQN.Rec O A R H)) × List (DQN.Rec O A R H)),
      (((bufOps l).foldl (Episodes.step (·.terminal) j) s).1.map (·.map stepOf), ((bufOps l).foldl (Episodes.step (·.terminal) j) s).2.map stepOf) =
        (DQN.bufCalls l).foldl (tellStep j) (s.1.map (·.map stepOf), s.2.map stepOf) := by
    intro l
    induction l with
    | nil => intro s; rfl
    | cons e l ih =>
      intro s
      cases e with
      | append i tr =>
        refine (ih (Episodes.step (·.terminal) j s _)).trans ?_
        show (DQN.bufCalls l).foldl (tellStep j) _ = (DQN.bufCalls l).foldl (tellStep j) (tellStep j _ _)
        congr 1
        simp only [Episodes.step, tellStep]
        by_cases hi : i = j
        · by_cases ht : tr.terminal = true <;> simp [hi, ht, stepOf]
        · simp [hi]
      | stopEpisode i =>
        refine (ih (Episodes.step (·.terminal) j s _)).trans ?_
        show (DQN.bufCalls l).foldl (tellStep j) _ = (DQN.bufCalls l).foldl (tellStep j) (tellStep j _ _)
        congr 1
        simp only [Episodes.step, tellStep]
        by_cases hi : i = j <;> by_cases hs : s.2 = [] <;> simp [hi, hs]
      | sync t p => exact ih s
      | update t p => exact ih s
  simpa using key l ([], [])

theorem told_append (j : Nat) (l l' : List (DQN.Ev θ O A R H)) : told j (l ++ l') = (DQN.bufCalls l').foldl (tellStep j) (told j l) := by
  rw [told_eq, DQN.bufCalls_append, List.foldl_append, ← told_eq]

theorem slices_map {T U : Type} (f : T → U) (n : Nat) (l : List T) :
    (Episodes.slices n l).map (·.map f) = Episodes.slices n (l.map f) ∧
    (Episodes.fullSlices n l).map (·.map f) = Episodes.fullSlices n (l.map f) := by
  constructor <;> simp [Episodes.slices, Episodes.fullSlices, Episodes.slice, List.map_take, List.map_drop]

theorem newest_map {T U : Type} (f : T → U) (cap : Option Nat) (l : List T) :
    (BoundedList.newest cap l).map f = BoundedList.newest cap (l.map f) := by
  cases cap <;> simp [BoundedList.newest, List.map_drop]

theorem bufOps_env0 (l : List (DQN.Ev θ O A R H)) (h : ∀ b ∈ DQN.bufCalls l, b.env = 0) :
    ∀ e x, NStep.Op.append e x ∈ bufOps l → e = 0 := by
  intro e x hx
  simp only [bufOps, List.mem_filterMap] at hx
  obtain ⟨ev, hev, hx⟩ := hx
  cases ev with
  | append i tr =>
    injection hx with hx
    injection hx with h1 h2
    subst h1
    exact h (.append i (stepOf tr)) (by
      simp only [DQN.bufCalls, List.mem_filterMap]
      exact ⟨_, hev, rfl⟩)
  | stopEpisode i => injection hx with hx; cases hx
  | sync t p => cases hx
  | update t p => cases hx

/-- The entries of the buffer, as environment steps. -/
def stored (b : ReplayBuffer Nat (DQN.Rec O A R H)) : List (List (EnvStep O A R)) := b.entries.map (·.map stepOf)

theorem stored_eq (cap : Option Nat) (n : Nat) (hn : 0 < n) (l : List (DQN.Ev θ O A R H)) (h : ∀ b ∈ DQN.bufCalls l, b.env = 0) :
    stored (buffer cap n l) = BoundedList.newest cap (entriesOf n (told 0 l)) := by
  unfold stored buffer
  rw [C11_newest_entries _ _ _ hn, newest_map]
  congr 1
  have := C09_one_slice_per_transition (·.terminal) (fun _ => 0) n hn (bufOps l) (fun e x hx => (bufOps_env0 l h e x hx).symm) 0
  rw [List.filter_eq_self.2 (by simp)] at this
  rw [this]
  unfold entriesOf told
  simp only [List.map_append, (slices_map stepOf n _).2, List.map_flatMap, List.flatMap_map, (slices_map stepOf n _).1]

/-! ## The invariant -/

variable [Zero R] [LinearOrder S]

/-- How the agent and its buffer relate to the record of the environment. -/
def Inv (c : DQN.Cfg θ O H) (offset : Nat) (p : Phase O A R) (w : Record O A R) (s : DQN.St θ O A H)
    (k : List (List (EnvStep O A R)) × List (EnvStep O A R)) : Prop :=
  match p with
  | .fresh => w = {} ∧ s.t = offset ∧ Idle c s ∧ k = ([], [])
  | .ready o r len t => w.obs = some o ∧ s.t = t ∧
      ((len = 0 ∧ w.current = [] ∧ Idle c s ∧ k = (w.finished, [])) ∨
       (len ≠ 0 ∧ ∃ prior h, ∃ t0 : Turn θ O A R, Mid c s h t0 ∧ w.current = prior ++ [⟨t0.obs, t0.action, r, o, false⟩] ∧ k = (w.finished, prior)))
  | .chosen a _ t => s.t = t + 1 ∧ ∃ h, ∃ t0 : Turn θ O A R, Mid c s h t0 ∧ t0.action = a ∧ w.obs = some t0.obs ∧ k = (w.finished, w.current)
  | .ended out t => s.t = t ∧ ∃ prior h, ∃ t0 : Turn θ O A R, Mid c s h t0 ∧
      w.current = prior ++ [⟨t0.obs, t0.action, out.r, out.obs, out.done⟩] ∧ k = (w.finished, prior)
  | .stopped t => s.t = t ∧ Idle c s ∧ w.current ≠ [] ∧ k = (w.finished ++ [w.current], [])

theorem drive_act (c : DQN.Cfg θ O H) (ps : Nat → θ) (k : Nat) (s s' s'' : DQN.St θ O A H) (o : O) (r : R) (a : A) (es : List (Train.Ev O A R S))
    (e1 e2 : List (DQN.Ev θ O A R H)) (h1 : c.call s (.act o r (ps k) a) = .ok (s', e1)) (h2 : drive c ps (k + 1) s' es = .ok (s'', e2)) :
    drive c ps k s (.act o r a :: es) = .ok (s'', e1 ++ e2) := by
  simp only [drive, h1, bind, Except.bind, h2, pure, Except.pure]

theorem drive_stop (c : DQN.Cfg θ O H) (ps : Nat → θ) (k : Nat) (s s' s'' : DQN.St θ O A H) (o : O) (r : R) (d : Bool) (es : List (Train.Ev O A R S))
    (e1 e2 : List (DQN.Ev θ O A R H)) (h1 : c.call s (.stop o r d) = .ok (s', e1)) (h2 : drive c ps k s' es = .ok (s'', e2)) :
    drive c ps k s (.stop o r d :: es) = .ok (s'', e1 ++ e2) := by
  simp only [drive, h1, bind, Except.bind, h2, pure, Except.pure]

theorem path_drive (c : DQN.Cfg θ O H) (hc : 0 < c.targetInterval) (ps : Nat → θ) {steps offset : Nat} {maxLen : Option Nat}
    {p q : Phase O A R} {es : List (Train.Ev O A R S)} (hp : Path steps offset maxLen p es q) :
    ∀ (j : Nat) (s : DQN.St θ O A H) (w : Record O A R) k, Inv c offset p w s k →
      ∃ s' ev, drive c ps j s es = .ok (s', ev) ∧ Inv c offset q (es.foldl Record.watch w) s' ((DQN.bufCalls ev).foldl (tellStep 0) k) ∧
        ∀ b ∈ DQN.bufCalls ev, b.env = 0 := by
  induction hp with
  | nil p => intro j s w k h; exact ⟨s, [], rfl, h, by simp [DQN.bufCalls]⟩
  | @cons p q r e es hn hp ih =>
    intro j s w k h
    cases hn with
    | first o =>
      obtain ⟨rfl, ht, hi, rfl⟩ := h
      exact ih j s _ _ ⟨rfl, ht, .inl ⟨rfl, rfl, hi, rfl⟩⟩
    | again t o hlt =>
      obtain ⟨ht, hi, hne, rfl⟩ := h
      refine ih j s _ _ ⟨rfl, ht, .inl ⟨rfl, rfl, hi, ?_⟩⟩
      simp [Record.watch, hne]
    | stepOn a len t out hne =>
      obtain ⟨ht, hh, t0, hm, rfl, ho, rfl⟩ := h
      have hd : out.done = false := by
        cases hd : out.done with
        | false => rfl
        | true => exact absurd (Or.inl hd) hne
      refine ih j s _ _ ⟨by simp [Record.watch, ho], ht, .inr ⟨by omega, w.current, hh, t0, hm, ?_, ?_⟩⟩ <;> simp [Record.watch, ho, hd]
    | stepEnd a len t out he =>
      obtain ⟨ht, hh, t0, hm, rfl, ho, rfl⟩ := h
      refine ih j s _ _ ⟨ht, w.current, hh, t0, hm, ?_, ?_⟩ <;> simp [Record.watch, ho]
    | act o r len t a hlt =>
      obtain ⟨ho, ht, ⟨rfl, hcur, hi, rfl⟩ | ⟨hl, prior, hh, t0, hm, hcur, rfl⟩⟩ := h
      · obtain ⟨s1, e1, h1, hm, hb, -⟩ := DQN.act_idle (R := R) c hc s hi ⟨o, r, ps j, a⟩
        have htime := (DQN.call_piece c _ s s1 e1 h1).time
        obtain ⟨s2, e2, h2, h3, h4⟩ := ih (j + 1) s1 w (w.finished, []) ⟨by rw [htime, ht]; rfl, _, _, hm, rfl, ho, by rw [hcur]⟩
        refine ⟨s2, e1 ++ e2, drive_act c ps j s s1 s2 o r a es e1 e2 h1 h2, ?_, ?_⟩
        · rw [DQN.bufCalls_append, hb]; exact h3
        · rw [DQN.bufCalls_append, hb]; exact h4
      · obtain ⟨s1, e1, h1, hm', hb, -⟩ := DQN.act_mid c hc s hh t0 hm ⟨o, r, ps j, a⟩
        have htime := (DQN.call_piece c _ s s1 e1 h1).time
        obtain ⟨s2, e2, h2, h3, h4⟩ := ih (j + 1) s1 w (w.finished, w.current) ⟨by rw [htime, ht]; rfl, _, _, hm', rfl, ho, rfl⟩
        refine ⟨s2, e1 ++ e2, drive_act c ps j s s1 s2 o r a es e1 e2 h1 h2, ?_, ?_⟩
        · rw [DQN.bufCalls_append, hb, List.foldl_append]
          simp only [List.foldl_cons, List.foldl_nil, tellStep, if_true, Bool.false_eq_true, if_false]
          rw [← hcur]
          exact h3
        · rw [DQN.bufCalls_append, hb]
          intro b hb'
          rcases List.mem_append.1 hb' with hb' | hb'
          · rw [List.mem_singleton.1 hb']; rfl
          · exact h4 b hb'
    | stop out t =>
      obtain ⟨ht, prior, hh, t0, hm, hcur, rfl⟩ := h
      obtain ⟨s1, e1, h1, hi, hb, -⟩ := DQN.stop_mid c s hh t0 hm out.obs out.r out.done
      have htime := (DQN.call_piece c _ s s1 e1 h1).time
      obtain ⟨s2, e2, h2, h3, h4⟩ := ih j s1 w (w.finished ++ [w.current], []) ⟨by rw [htime, ht]; rfl, hi, by simp [hcur], rfl⟩
      refine ⟨s2, e1 ++ e2, drive_stop c ps j s s1 s2 _ _ _ es e1 e2 h1 h2, ?_, ?_⟩
      · rw [DQN.bufCalls_append, hb, List.foldl_append]
        cases hd : out.done <;> simp only [List.foldl_cons, List.foldl_nil, tellStep, if_true, Bool.false_eq_true, if_false] <;>
          simp only [hd] at hcur <;> simp [← hcur] <;> simp only [hcur] at h3 ⊢ <;> simpa [Record.watch] using h3
      · rw [DQN.bufCalls_append, hb]
        intro b hb'
        rcases List.mem_append.1 hb' with hb' | hb'
        · simp only [List.mem_cons, List.not_mem_nil, or_false] at hb'
          rcases hb' with rfl | rfl <;> rfl
        · exact h4 b hb'

/-- Setting the agent's time. -/
def isSetT : Train.Ev O A R S → Bool
  | .setT _ => true
  | _ => false

theorem drive_filter (c : DQN.Cfg θ O H) (ps : Nat → θ) : ∀ (es : List (Train.Ev O A R S)) (j : Nat) (s : DQN.St θ O A H), es.filter isSetT = [] →
    drive c ps j s (es.filter Train.Ev.isProtocol) = drive c ps j s es
  | [], _, _, _ => rfl
  | e :: es, j, s, h => by
    cases e with
    | setT t => simp [isSetT] at h
    | act o r a =>
      have h : es.filter isSetT = [] := h
      simp only [List.filter_cons, Train.Ev.isProtocol, if_true, drive, drive_filter c ps es _ _ h]
    | stop o r d =>
      have h : es.filter isSetT = [] := h
      simp only [List.filter_cons, Train.Ev.isProtocol, if_true, drive, drive_filter c ps es _ _ h]
    | reset o => exact drive_filter c ps es j s h
    | step a out => exact drive_filter c ps es j s h
    | hook i t => exact drive_filter c ps es j s h
    | evaluate t k m => exact drive_filter c ps es j s h
    | save t x => exact drive_filter c ps es j s h

theorem record_filter (es : List (Train.Ev O A R S)) : ∀ w : Record O A R, (es.filter Train.Ev.isProtocol).foldl Record.watch w = es.foldl Record.watch w := by
  induction es with
  | nil => intro w; rfl
  | cons e es ih => intro w; cases e <;> exact ih _

theorem path_prefix {steps offset : Nat} {maxLen : Option Nat} {p q : Phase O A R} {es es' : List (Train.Ev O A R S)}
    (h : Path steps offset maxLen p (es ++ es') q) : ∃ m, Path steps offset maxLen p es m ∧ Path steps offset maxLen m es' q := by
  induction es generalizing p with
  | nil => exact ⟨p, .nil _, h⟩
  | cons e es ih =>
    cases h with
    | cons hn hp =>
      obtain ⟨m, a, b⟩ := ih hp
      exact ⟨m, .cons hn a, b⟩

theorem path_last {steps offset : Nat} {maxLen : Option Nat} {p q : Phase O A R} {es : List (Train.Ev O A R S)}
    (h : Path steps offset maxLen p es q) : (es = [] ∧ q = p) ∨ ∃ p' e, es.getLast? = some e ∧ Next steps offset maxLen p' e q := by
  induction h with
  | nil p => exact .inl ⟨rfl, rfl⟩
  | @cons p q r e es hn hp ih =>
    right
    rcases ih with ⟨rfl, rfl⟩ | ⟨p', e', h1, h2⟩
    · exact ⟨p, e, rfl, hn⟩
    · refine ⟨p', e', ?_, h2⟩
      rw [List.getLast?_cons, h1]; rfl

/-- The buffer knows what the agent has been told. -/
theorem known_eq (c : DQN.Cfg θ O H) {steps offset : Nat} {maxLen : Option Nat} {q : Phase O A R} {pre : List (Train.Ev O A R S)}
    (hp : Path steps offset maxLen .fresh (pre.filter Train.Ev.isProtocol) q) (s : DQN.St θ O A H) (k)
    (hI : Inv c offset q (record pre) s k) : k = known pre := by
  unfold known
  rcases path_last hp with ⟨h0, rfl⟩ | ⟨p', e, h1, hn⟩
  · rw [h0]
    obtain ⟨hw, -, -, rfl⟩ := hI
    simp [hw]
  · rw [h1]
    cases hn with
    | first o =>
      obtain ⟨-, -, ⟨-, hcur, -, rfl⟩ | ⟨hl, -⟩⟩ := hI
      · simp [hcur]
      · exact absurd rfl hl
    | again t o hlt =>
      obtain ⟨-, -, ⟨-, hcur, -, rfl⟩ | ⟨hl, -⟩⟩ := hI
      · simp [hcur]
      · exact absurd rfl hl
    | stepOn a len t out hne =>
      obtain ⟨-, -, ⟨hl, -⟩ | ⟨-, prior, h, t0, -, hcur, rfl⟩⟩ := hI
      · omega
      · simp [hcur]
    | stepEnd a len t out he =>
      obtain ⟨-, prior, h, t0, -, hcur, rfl⟩ := hI
      simp [hcur]
    | act o r len t a hlt =>
      obtain ⟨-, h, t0, -, -, -, rfl⟩ := hI
      rfl
    | stop out t =>
      obtain ⟨-, -, -, rfl⟩ := hI
      rfl

/-! ## Whole runs -/

theorem loop_noSetT {c : Train.Cfg S} {l : Train.Loc O R} {t t1 : Nat} {evs : List (Train.Ev O A R S)} {r : Except X Unit}
    (h : Train.LoopRes c l t evs t1 r) : evs.filter isSetT = [] := by
  have key : ∀ {l : Train.Loc O R} {t t1 : Nat} {evs : List (Train.Ev O A R S)} {r : Except X (Option (Train.Loc O R))},
      Train.IterRes c l t evs t1 r → evs.filter isSetT = [] := by
    intro l t t1 evs r h
    have fh : ∀ n, (Train.hooksFrom (O := O) (A := A) (K := R) (S := S) (t + 1) 0 n).filter isSetT = [] :=
      fun n => Train.filter_hooks (by intros; rfl) _ _ _
    have fc : (Train.ckpt (O := O) (A := A) (K := R) c (t + 1)).filter isSetT = [] := Train.filter_ckpt (by intros; rfl) c _
    cases h with
    | go a out h => simp [fh, fc, isSetT]
    | again a out E o h hE hne => simp [fh, fc, isSetT, Train.filter_evalOk (p := isSetT) (by intros; rfl) hE]
    | brk a out E b h hE hb => simp [fh, isSetT, Train.filter_evalOk (p := isSetT) (by intros; rfl) hE]
    | crashAct e => rfl
    | crashStep e a => rfl
    | crashHook e a out P hP => simp [isSetT, Train.filter_hooks_prefix (p := isSetT) (by intros; rfl) hP]
    | crashEval e a out h => simp [fh, isSetT]
    | crashReset e a out E h hE hne => simp [fh, isSetT, Train.filter_evalOk (p := isSetT) (by intros; rfl) hE]
    | crashCkpt e a out E o h hE hne => simp [fh, isSetT, Train.filter_evalOk (p := isSetT) (by intros; rfl) hE]
  induction h with
  | exit => rfl
  | more h hi hl ih => rw [List.filter_append, key hi, ih]; rfl
  | brk h hi => exact key hi
  | crash h hi => exact key hi

/-- The agent's time is set once, after the first reset. -/
theorem run_setT (c : Train.Cfg S) (hT : c.agentHasT = true) (w : Train.World O A R S X) :
    (Train.run c w).1 = [] ∨ ∃ o rest, (Train.run c w).1 = .reset o :: .setT c.stepOffset :: rest ∧ rest.filter isSetT = [] := by
  have h1 : (Train.run c w).1 = [] ∨ ∃ o rest, (Train.run c w).1 = .reset o :: .setT c.stepOffset :: rest := by
    unfold Train.run Train.trainAgent
    cases hr : w.reset with
    | error e => left; rfl
    | ok o => right; refine ⟨o, ?_⟩; rw [if_pos hT]; exact ⟨_, rfl⟩
  rcases h1 with h1 | ⟨o, rest, h1⟩
  · exact .inl h1
  right
  refine ⟨o, rest, h1, ?_⟩
  rcases Train.run_cases c w with ⟨e, he⟩ | ⟨o', T, evs, t, r, hT', hl, hc⟩
  · rw [he] at h1; cases h1
  have hev := loop_noSetT hl
  have hc' : ∃ tail, tail.filter isSetT = [] ∧ (Train.run c w).1 = .reset o' :: T ++ evs ++ tail := by
    rcases hc with ⟨e, -, he | ⟨e', -, he⟩⟩ | ⟨-, he | ⟨e', -, he⟩⟩ <;> rw [he]
    · exact ⟨[.save t .except], rfl, rfl⟩
    · exact ⟨[], rfl, by simp⟩
    · exact ⟨[.save t .finish], rfl, rfl⟩
    · exact ⟨[], rfl, by simp⟩
  obtain ⟨tail, ht, he⟩ := hc'
  rw [h1] at he
  rcases hT' with rfl | rfl
  · have := congrArg (List.filter isSetT) he
    simp [isSetT, hev, ht] at this
  · simp only [List.cons_append, List.nil_append, List.cons.injEq, true_and] at he
    rw [he.2, List.filter_append, hev, ht]
    rfl

/-- The agent at any moment of a run. -/
theorem run_drive (c : Train.Cfg S) (hT : c.agentHasT = true) (w : Train.World O A R S X) (d : DQN.Cfg θ O H) (hd : 0 < d.targetInterval)
    (ps : Nat → θ) (p0 : θ) (pre post : List (Train.Ev O A R S)) (hrun : (Train.run c w).1 = pre ++ post) :
    ∃ s ev q q', drive d ps 0 (DQN.init p0) pre = .ok (s, ev) ∧ told 0 ev = known pre ∧ (∀ b ∈ DQN.bufCalls ev, b.env = 0) ∧
      Path c.steps c.stepOffset c.maxEpisodeLen .fresh (pre.filter Train.Ev.isProtocol) q ∧
      Path c.steps c.stepOffset c.maxEpisodeLen q (post.filter Train.Ev.isProtocol) q' ∧
      (2 ≤ pre.length → Inv d c.stepOffset q (record pre) s (told 0 ev)) := by
  obtain ⟨q, q', hp, hp'⟩ : ∃ q q', Path c.steps c.stepOffset c.maxEpisodeLen .fresh (pre.filter Train.Ev.isProtocol) q ∧
      Path c.steps c.stepOffset c.maxEpisodeLen q (post.filter Train.Ev.isProtocol) q' := by
    obtain ⟨q', hp, -⟩ := Train.C21_protocol c w
    rw [hrun, List.filter_append] at hp
    obtain ⟨q, hp, hp'⟩ := path_prefix hp
    exact ⟨q, q', hp, hp'⟩
  rcases run_setT c hT w with h0 | ⟨o, rest, h1, h2⟩
  · rw [h0] at hrun
    obtain ⟨rfl, rfl⟩ := List.append_eq_nil_iff.1 hrun.symm
    exact ⟨_, [], q, q', rfl, rfl, by simp [DQN.bufCalls], hp, hp', by simp⟩
  rw [h1] at hrun
  cases pre with
  | nil => exact ⟨_, [], q, q', rfl, rfl, by simp [DQN.bufCalls], hp, hp', by simp⟩
  | cons e1 pre =>
    simp only [List.cons_append, List.cons.injEq] at hrun
    obtain ⟨rfl, hrun⟩ := hrun
    cases pre with
    | nil => exact ⟨_, [], q, q', rfl, rfl, by simp [DQN.bufCalls], hp, hp', by simp⟩
    | cons e2 pre =>
      simp only [List.cons_append, List.cons.injEq] at hrun
      obtain ⟨rfl, hrun⟩ := hrun
      have hn : pre.filter isSetT = [] := by
        rw [hrun, List.filter_append, List.append_eq_nil_iff] at h2
        exact h2.1
      obtain ⟨s, ev, a1, a2, a3⟩ := path_drive d hd ps hp 0 { DQN.init p0 with t := c.stepOffset } {} ([], [])
        ⟨rfl, rfl, ⟨rfl, fun _ => rfl⟩, rfl⟩
      rw [← told_eq, record_filter] at a2
      refine ⟨s, ev, q, q', ?_, known_eq d hp s _ a2, a3, hp, hp', fun _ => a2⟩
      rw [← a1]
      show drive d ps 0 _ pre = drive d ps 0 _ (pre.filter Train.Ev.isProtocol)
      rw [drive_filter d ps pre _ _ hn]

/-- C121: at every moment of every run of `train_agent` with a DQN, also one that an exception ends, no call of the agent raises by itself and its
replay buffer holds exactly the entries that belong to the environment's steps the agent has been told of, in order, or the newest ones of these if it
is full. -/
theorem C121_buffer (c : Train.Cfg S) (hT : c.agentHasT = true) (w : Train.World O A R S X) (d : DQN.Cfg θ O H) (hd : 0 < d.targetInterval)
    (cap : Option Nat) (n : Nat) (hn : 0 < n) (ps : Nat → θ) (p0 : θ) (pre post : List (Train.Ev O A R S)) (hrun : (Train.run c w).1 = pre ++ post) :
    ∃ s ev, drive d ps 0 (DQN.init p0) pre = .ok (s, ev) ∧
      stored (buffer cap n ev) = BoundedList.newest cap (entriesOf n (known pre)) := by
  obtain ⟨s, ev, q, q', h1, h2, h3, -, -, -⟩ := run_drive c hT w d hd ps p0 pre post hrun
  exact ⟨s, ev, h1, by rw [stored_eq cap n hn ev h3, h2]⟩

theorem next_ready {steps offset : Nat} {maxLen : Option Nat} {p : Phase O A R} {e : Train.Ev O A R S} {o : O} {r : R} {t : Nat}
    (h : Next steps offset maxLen p e (.ready o r 0 t)) : ∃ o', e = .reset o' := by
  generalize hq : Phase.ready o r 0 t = q at h
  cases h <;> first | exact ⟨_, rfl⟩ | (injection hq with _ _ h _; omega) | cases hq

theorem next_stopped {steps offset : Nat} {maxLen : Option Nat} {p : Phase O A R} {e : Train.Ev O A R S} {t : Nat}
    (h : Next steps offset maxLen p e (.stopped t)) : ∃ o r d, e = .stop o r d := by
  cases h; exact ⟨_, _, _, rfl⟩

/-- C121: a run that ends normally leaves in the buffer one entry for each step of each episode of the environment, the last one included, or the newest
ones of these (nothing if there is nothing to do). -/
theorem C121_finished (c : Train.Cfg S) (hT : c.agentHasT = true) (w : Train.World O A R S X) (hok : (Train.run c w).2 = .ok ()) (d : DQN.Cfg θ O H)
    (hd : 0 < d.targetInterval) (cap : Option Nat) (n : Nat) (hn : 0 < n) (ps : Nat → θ) (p0 : θ) :
    ∃ s ev, drive d ps 0 (DQN.init p0) (Train.run c w).1 = .ok (s, ev) ∧
      stored (buffer cap n ev) = BoundedList.newest cap
        (((record (Train.run c w).1).finished ++ [(record (Train.run c w).1).current]).flatMap (Episodes.slices n)) := by
  obtain ⟨s, ev, h1, h2⟩ := C121_buffer c hT w d hd cap n hn ps p0 (Train.run c w).1 [] (by simp)
  refine ⟨s, ev, h1, ?_⟩
  rw [h2]
  congr 1
  obtain ⟨q, hp, hq⟩ := Train.C21_protocol c w
  unfold known
  rcases hq hok with ⟨-, o, rfl⟩ | ⟨t, rfl, -⟩
  · rcases path_last hp with ⟨h0, h⟩ | ⟨p', e, h1, hn'⟩
    · cases h
    · rw [h1]
      obtain ⟨o', rfl⟩ := next_ready hn'
      have hcur : (record (Train.run c w).1).current = [] := by
        obtain ⟨l, hl⟩ := List.getLast?_eq_some_iff.1 h1
        unfold record
        rw [← record_filter, hl, List.foldl_append]
        rfl
      have e1 : Episodes.fullSlices n ([] : List (EnvStep O A R)) = [] := by
        simp [Episodes.fullSlices]; omega
      have e2 : Episodes.slices n ([] : List (EnvStep O A R)) = [] := by simp [Episodes.slices]
      simp [entriesOf, hcur, e1, e2]
  · rcases path_last hp with ⟨h0, h⟩ | ⟨p', e, h1, hn'⟩
    · cases h
    · rw [h1]
      have e1 : Episodes.fullSlices n ([] : List (EnvStep O A R)) = [] := by
        simp [Episodes.fullSlices]; omega
      obtain ⟨_, _, _, rfl⟩ := next_stopped hn'
      simp [entriesOf, e1]

/-! ## Counting -/

/-- The number of steps in a record. -/
def Record.steps (w : Record O A R) : Nat := w.finished.flatten.length + w.current.length

theorem watch_steps (w : Record O A R) (ho : w.obs ≠ none) (e : Train.Ev O A R S) :
    (w.watch e).obs ≠ none ∧ (w.watch e).steps = w.steps + (if e.isStep then 1 else 0) := by
  obtain ⟨fin, cur, obs⟩ := w
  cases obs with
  | none => exact absurd rfl ho
  | some o =>
    cases e with
    | reset o' =>
      cases cur <;> simp [Record.watch, Record.steps, Train.Ev.isStep]
    | step a out => simp [Record.watch, Record.steps, Train.Ev.isStep]; omega
    | _ => simp [Record.watch, Train.Ev.isStep]

theorem foldl_steps (es : List (Train.Ev O A R S)) : ∀ (w : Record O A R), w.obs ≠ none → (es.foldl Record.watch w).steps = w.steps + es.countP Train.Ev.isStep := by
  induction es with
  | nil => intro w _; rfl
  | cons e es ih =>
    intro w ho
    obtain ⟨h1, h2⟩ := watch_steps w ho e
    rw [List.foldl_cons, ih _ h1, h2, List.countP_cons]
    omega

theorem run_steps (c : Train.Cfg S) (hT : c.agentHasT = true) (w : Train.World O A R S X) (pre post : List (Train.Ev O A R S))
    (hrun : (Train.run c w).1 = pre ++ post) : (record pre).steps = pre.countP Train.Ev.isStep := by
  cases pre with
  | nil => rfl
  | cons e pre =>
    rcases run_setT c hT w with h | ⟨o, rest, h, -⟩
    · rw [h] at hrun; cases hrun
    · rw [h] at hrun
      simp only [List.cons_append, List.cons.injEq] at hrun
      obtain ⟨rfl, -⟩ := hrun
      show (pre.foldl Record.watch (Record.watch {} (.reset o))).steps = _
      rw [foldl_steps _ _ (by simp [Record.watch]), List.countP_cons]
      simp [Record.watch, Record.steps, Train.Ev.isStep]

theorem slices_length {T : Type} (n : Nat) (l : List T) : (Episodes.slices n l).length = l.length := by simp [Episodes.slices]

/-- C121: after a normal run that no success cut short, a buffer of unlimited capacity has one entry for each of the `steps - step_offset` steps. -/
theorem C121_count (c : Train.Cfg S) (hT : c.agentHasT = true) (w : Train.World O A R S X) (hok : (Train.run c w).2 = .ok ())
    (hs : ¬ Train.Succeeded c (Train.run c w).1) (d : DQN.Cfg θ O H) (hd : 0 < d.targetInterval) (n : Nat) (hn : 0 < n) (ps : Nat → θ) (p0 : θ) :
    ∃ s ev, drive d ps 0 (DQN.init p0) (Train.run c w).1 = .ok (s, ev) ∧
      (buffer none n ev).len = c.steps - c.stepOffset := by
  obtain ⟨s, ev, h1, h2⟩ := C121_finished c hT w hok d hd none n hn ps p0
  refine ⟨s, ev, h1, ?_⟩
  have e1 : (buffer none n ev).len = (stored (buffer none n ev)).length := by
    unfold ReplayBuffer.len stored ReplayBuffer.entries
    rw [RAQ.len_eq, List.length_map]
  have e2 := run_steps c hT w (Train.run c w).1 [] (by simp)
  rw [e1, h2]
  simp only [BoundedList.newest, List.length_flatMap, slices_length]
  rcases (Train.C21_step_count c w).2 hok with h | h
  · rw [← h, ← e2]
    simp [Record.steps, List.length_flatten]
  · exact absurd h hs

/-! ## Updates -/

theorem act_shape (d : DQN.Cfg θ O H) (s s' : DQN.St θ O A H) (o : O) (r : R) (p : θ) (a : A) (ev : List (DQN.Ev θ O A R H))
    (h : d.call s (.act o r p a) = .ok (s', ev)) : ∃ e, ev = e ++ [.update s.t p] ∧ DQN.updates e = [] ∧
      DQN.syncs e = if s.t % d.targetInterval = 0 then [(s.t, s.model)] else [] := by
  simp only [DQN.Cfg.call, DQN.Cfg.actAndTrain] at h
  obtain ⟨⟨s1, e1⟩, h1, h⟩ := DQN.except_bind_ok.1 h
  obtain ⟨⟨s2, e2⟩, h2, h⟩ := DQN.except_bind_ok.1 h
  simp only [pure, Except.pure, Except.ok.injEq, Prod.mk.injEq] at h
  obtain ⟨-, rfl⟩ := h
  have a1 : s1.t = s.t ∧ s1.model = s.model ∧ DQN.updates e1 = [] ∧ DQN.syncs e1 = [] := by
    unfold DQN.Cfg.actAppend at h1
    split at h1
    · injection h1 with h1; injection h1 with h1 h1'; subst h1 h1'; exact ⟨rfl, rfl, rfl, rfl⟩
    · cases h1
    · injection h1 with h1; injection h1 with h1 h1'; subst h1 h1'; exact ⟨rfl, rfl, rfl, rfl⟩
  obtain ⟨a1, a2, a3, a4⟩ := a1
  have a5 : s2.t = s1.t ∧ DQN.updates e2 = [] ∧ DQN.syncs e2 = if s1.t % d.targetInterval = 0 then [(s1.t, s1.model)] else [] := by
    unfold DQN.Cfg.syncIfDue at h2
    split at h2
    · cases h2
    · split at h2 <;> (injection h2 with h2; injection h2 with h2 h2'; subst h2 h2') <;> simp_all [DQN.updates, DQN.syncs]
  obtain ⟨a5, a6, a7⟩ := a5
  refine ⟨e1 ++ e2, by rw [a5, a1], by rw [DQN.updates_append, a3, a6]; rfl, ?_⟩
  rw [DQN.syncs_append, a4, a7, a1, a2]
  rfl

/-- The step number a phase is at. -/
def time (offset : Nat) : Phase O A R → Nat
  | .fresh => offset
  | .ready _ _ _ t => t
  | .chosen _ _ t => t
  | .ended _ t => t
  | .stopped t => t

theorem path_time {steps offset : Nat} {maxLen : Option Nat} {p q : Phase O A R} {es : List (Train.Ev O A R S)}
    (h : Path steps offset maxLen p es q) : time offset q = time offset p + es.countP Train.Ev.isStep := by
  induction h with
  | nil p => rfl
  | cons hn hp ih =>
    rw [ih, List.countP_cons]
    cases hn <;> simp [time, Train.Ev.isStep] <;> omega

theorem countP_filter_protocol (es : List (Train.Ev O A R S)) : (es.filter Train.Ev.isProtocol).countP Train.Ev.isStep = es.countP Train.Ev.isStep := by
  rw [List.countP_filter]
  congr 1
  funext e
  cases e <;> rfl

/-- C121: whenever the agent is asked for an action, it first stores what happened, then copies the parameters into the target network if the number of
steps so far (counted from `step_offset`) is a multiple of `target_update_interval`, and then updates, with that step number, from a buffer that holds
exactly the entries of everything that has happened in the environment so far: the update neither misses a step nor sees one twice. -/
theorem C121_update (c : Train.Cfg S) (hT : c.agentHasT = true) (w : Train.World O A R S X) (d : DQN.Cfg θ O H) (hd : 0 < d.targetInterval)
    (cap : Option Nat) (n : Nat) (hn : 0 < n) (ps : Nat → θ) (p0 p : θ) (pre post : List (Train.Ev O A R S)) (o : O) (r : R) (a : A)
    (hrun : (Train.run c w).1 = pre ++ .act o r a :: post) :
    ∃ s ev s' e, drive d ps 0 (DQN.init p0) pre = .ok (s, ev) ∧
      d.call s (.act o r p a) = .ok (s', e ++ [.update (c.stepOffset + pre.countP Train.Ev.isStep) p]) ∧ DQN.updates e = [] ∧
      DQN.syncs e = (if (c.stepOffset + pre.countP Train.Ev.isStep) % d.targetInterval = 0 then [(c.stepOffset + pre.countP Train.Ev.isStep, s.model)] else []) ∧
      stored (buffer cap n (ev ++ e)) = BoundedList.newest cap (entriesOf n ((record pre).finished, (record pre).current)) := by
  obtain ⟨s, ev, q, q', h1, h2, h3, hp, hp', hI⟩ := run_drive c hT w d hd ps p0 pre _ hrun
  have hlen : 2 ≤ pre.length := by
    rcases run_setT c hT w with h | ⟨o', rest, h, -⟩
    · rw [h] at hrun; exact absurd hrun.symm (by simp)
    · rw [h] at hrun
      cases pre with
      | nil => cases hrun
      | cons x pre =>
        cases pre with
        | nil => simp at hrun
        | cons y pre => simp
  have hI := hI hlen
  have htime := path_time hp
  rw [countP_filter_protocol] at htime
  rw [List.filter_cons_of_pos (by rfl)] at hp'
  cases hp' with
  | cons hn' hp' =>
  cases hn' with
  | act _ _ len t _ hlt =>
  simp only [time] at htime
  obtain ⟨ho, ht, hcase⟩ := hI
  have hcall : ∃ s' e', d.call s (.act o r p a) = .ok (s', e') ∧ told 0 (ev ++ e') = ((record pre).finished, (record pre).current) ∧
      ∀ b ∈ DQN.bufCalls (ev ++ e'), b.env = 0 := by
    rcases hcase with ⟨rfl, hcur, hi, hk⟩ | ⟨hl, prior, hh, t0, hm, hcur, hk⟩
    · obtain ⟨s1, e1, h1, -, hb, -⟩ := DQN.act_idle (R := R) d hd s hi ⟨o, r, p, a⟩
      refine ⟨s1, e1, h1, ?_, ?_⟩
      · rw [told_append, hb, hk, hcur]; rfl
      · rw [DQN.bufCalls_append, hb, List.append_nil]; exact h3
    · obtain ⟨s1, e1, h1, -, hb, -⟩ := DQN.act_mid d hd s hh t0 hm ⟨o, r, p, a⟩
      refine ⟨s1, e1, h1, ?_, ?_⟩
      · rw [told_append, hb, hk, hcur]; rfl
      · rw [DQN.bufCalls_append, hb]
        intro b hb'
        rcases List.mem_append.1 hb' with hb' | hb'
        · exact h3 b hb'
        · rw [List.mem_singleton.1 hb']; rfl
  obtain ⟨s', e', g1, g2, g3⟩ := hcall
  obtain ⟨e, rfl, f2, f3⟩ := act_shape d s s' o r p a e' g1
  rw [ht, htime] at g1 f3
  refine ⟨s, ev, s', e, h1, g1, f2, f3, ?_⟩
  have hb : DQN.bufCalls (ev ++ e) = DQN.bufCalls (ev ++ (e ++ [.update s.t p])) := by
    simp only [DQN.bufCalls_append]
    simp [DQN.bufCalls]
  rw [stored_eq cap n hn _ (by rw [hb]; exact g3), ← g2, told_eq, told_eq, hb]

/-! ## Non-vacuity -/

/-- Observations count upwards; the first episode ends after two steps with `done`, after that steps answer `needs_reset`
only when asked to. -/
def exWorld : Train.World Nat Nat Int Int String where
  reset := .ok 0
  iter i :=
    { act := .ok (10 + i), step := .ok ⟨i + 1, 100 + i, i == 1, false⟩, hook := fun _ => .ok (), stop := .ok (), evaluate := .ok 0
      reset := .ok 50, checkpoint := .ok () }
  saveExcept := .ok ()
  saveFinish := .ok ()

def exTrain : Train.Cfg Int := ⟨5 + 3, 5, none, none, false, none, 0, true⟩

/-- Three steps, from step 5 to step 8: an episode of two steps and one of a single step that the end of training cuts off.  With
`num_steps=2` the buffer holds three entries; capacity 2 keeps the newest. -/
example : ∃ s ev, drive DQN.exCfg (fun k => k) 0 (DQN.init 7) (Train.run exTrain exWorld).1 = .ok (s, ev) ∧
    (stored (buffer none 2 ev)).map (·.map fun x => (x.state, x.action, x.reward, x.nextState, x.terminal)) =
      [[(0, 10, 100, 1, false), (1, 11, 101, 2, true)], [(1, 11, 101, 2, true)], [(50, 12, 102, 3, false)]] ∧
    (stored (buffer (some 2) 2 ev)).map (·.map fun x => x.action) = [[11], [12]] ∧
    DQN.updates ev = [(5, 0), (6, 1), (7, 2)] ∧ DQN.syncs ev = [(6, 0)] ∧ s.t = 8 := by
  refine ⟨_, _, rfl, ?_, ?_, ?_, ?_, ?_⟩ <;> decide +kernel

/-- The hypotheses of the theorems. -/
example : (Train.run exTrain exWorld).2 = .ok () ∧ ¬ Train.Succeeded exTrain (Train.run exTrain exWorld).1 ∧ 0 < DQN.exCfg.targetInterval := by
  refine ⟨rfl, ?_, by decide⟩
  rintro ⟨_, _, _, _, -, h, -⟩
  cases h

end Verif.TrainDQN
