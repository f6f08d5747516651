import Verif.Spec.AsyncLimits
import Verif.Props.StepLimits
import Verif.Props.TrainAsyncCalls
set_option autoImplicit false
set_option linter.unusedSectionVars false
set_option linter.unusedSimpArgs false

/-! # C174: step limits in an asynchronous training run -/

namespace Verif.AsyncLimits
open DQN (EnvStep)
open TrainAsync (Ev Cfg Inp Phase Next MustEnd eventsOf)
open TrainAsyncCalls (Record record driveNStep driveOnline nEpisodes nEpisode oEpisodes oEpisode NUpdates OnlineRight)
open StepLimits (Endless Stops cut cut_concat envOps envOuts)
open Wrappers (Gym timeLimit stepLimited limitOut doneOut)
variable {O A K S E X D B : Type}

theorem fm_reset (o : O) (es : List (Ev O A K)) : (.reset o :: es : List (Ev O A K)).filterMap ofEnv = .reset o :: es.filterMap ofEnv := rfl

theorem fm_step (a : A) (out : Train.StepOut O K) (es : List (Ev O A K)) :
    (.step a out :: es : List (Ev O A K)).filterMap ofEnv = .step a out :: es.filterMap ofEnv := rfl

theorem record_timeLimit (g : Gym E O A K) (n : Nat) (es : List (Ev O A K)) : ∀ (c : Option Nat) (s : E) (w : Record O A K),
    Served (timeLimit g n) (c, s) es → es.foldl Record.watch w = (asIf g s es).foldl Record.watch w := by
  induction es with
  | nil => intros; rfl
  | cons e es ih =>
    intro c s w h
    cases e with
    | reset o =>
      simp only [Served, StepLimits.Served, fm_reset, fm_step, envOps, envOuts, Wrappers.run, timeLimit, List.cons.injEq, Wrappers.Out.obs.injEq] at h
      obtain ⟨rfl, h⟩ := h
      exact ih _ _ _ h
    | step a out =>
      cases c with
      | none => simp [Served, StepLimits.Served, fm_step, envOps, envOuts, Wrappers.run, timeLimit] at h
      | some c =>
        simp only [Served, StepLimits.Served, fm_reset, fm_step, envOps, envOuts, Wrappers.run, timeLimit, List.cons.injEq, Wrappers.Out.step.injEq] at h
        obtain ⟨rfl, h⟩ := h
        simp only [List.foldl_cons, asIf]
        rw [ih _ _ _ h]
        congr 1
        unfold limitOut
        split <;> rfl
    | _ => exact ih _ _ _ h

theorem asIf_served (g : Gym E O A K) (es : List (Ev O A K)) : ∀ s, Served g.call s es → asIf g s es = es := by
  induction es with
  | nil => intros; rfl
  | cons e es ih =>
    intro s h
    cases e with
    | reset o =>
      simp only [Served, StepLimits.Served, fm_reset, fm_step, envOps, envOuts, Wrappers.run, Gym.call, List.cons.injEq, Wrappers.Out.obs.injEq] at h
      obtain ⟨rfl, h⟩ := h
      simp only [asIf, ih _ h]
    | step a out =>
      simp only [Served, StepLimits.Served, fm_reset, fm_step, envOps, envOuts, Wrappers.run, Gym.call, List.cons.injEq, Wrappers.Out.step.injEq] at h
      obtain ⟨rfl, h⟩ := h
      simp only [asIf, ih _ h]
    | _ => simp only [asIf, ih _ h]

/-- `w` is what is seen of `w'` through `make_timestep_limited`. -/
structure Cuts (n : Nat) (w w' : Record O A K) : Prop where
  finished : w.finished = w'.finished.map (cut n)
  current : w.current = cut n w'.current
  told : w.told = (w'.told.1.map (cut n), cut n w'.told.2)

theorem record_stepLimited (g : Gym E O A K) (n : Nat) (es : List (Ev O A K)) : ∀ (c : Nat) (s : E) (w w' : Record O A K),
    Served (stepLimited g n) (c, s) es → Cuts n w w' → w.obs = w'.obs → (w'.obs ≠ none → c = w'.current.length + 1) →
    Cuts n (es.foldl Record.watch w) ((asIf g s es).foldl Record.watch w') := by
  induction es with
  | nil => intro c s w w' _ h _ _; exact h
  | cons e es ih =>
    intro c s w w' h ⟨h1, h2, h5⟩ h3 h4
    cases e with
    | reset o =>
      simp only [Served, StepLimits.Served, fm_reset, fm_step, envOps, envOuts, Wrappers.run, stepLimited, List.cons.injEq, Wrappers.Out.obs.injEq] at h
      obtain ⟨rfl, h⟩ := h
      refine ih _ _ _ _ h ⟨?_, rfl, h5⟩ rfl (fun _ => rfl)
      simp only [Record.watch, h1, h2]
      have : (cut n w'.current).isEmpty = w'.current.isEmpty := by cases w'.current <;> simp [cut]
      rw [this]
      split <;> simp
    | step a out =>
      simp only [Served, StepLimits.Served, fm_reset, fm_step, envOps, envOuts, Wrappers.run, stepLimited, List.cons.injEq, Wrappers.Out.step.injEq] at h
      obtain ⟨rfl, h⟩ := h
      rcases ho : w'.obs with _ | o
      · refine ih _ _ _ _ h ⟨?_, ?_, ?_⟩ ?_ ?_ <;> simp [Record.watch, h1, h2, h3, h5, ho]
      · have hc := h4 (by simp [ho])
        refine ih _ _ _ _ h ⟨?_, ?_, ?_⟩ ?_ ?_
        · simp [Record.watch, h1, h3, ho]
        · simp only [Record.watch, h3, ho, h2, cut_concat, hc, doneOut]
          split <;> rename_i hle <;> simp [hle]
        · simp [Record.watch, h5, h3, ho]
        · simp only [Record.watch, h3, ho, doneOut]
          split <;> rfl
        · simp [Record.watch, ho, hc]
    | act o r a => exact ih _ _ _ _ h ⟨h1, h2, by simp [Record.watch, h1, h2]⟩ h3 h4
    | stop o r d => exact ih _ _ _ _ h ⟨h1, h2, by simp [Record.watch, h1, h2, cut]⟩ h3 h4
    | _ => exact ih _ _ _ _ h ⟨h1, h2, h5⟩ h3 h4

theorem Limited.stops {n : Nat} {c : Cfg S} {g : Gym E O A K} {s : E} {evs : List (Ev O A K)} (h : Limited n c g s evs) :
    Stops n c.maxEpisodeLen 0 (evs.filterMap ofEnv) := by
  rcases h with ⟨h, -⟩ | h | h
  · rw [h]; exact StepLimits.stops_of_plain n _ 0
  · exact StepLimits.stops_of_timeLimit g n _ _ none s 0 (by simp) h
  · exact StepLimits.stops_of_stepLimited g n _ _ s 0 h

/-- The invariant: the length of the current episode. -/
def Len (n : Nat) (ml : Option Nat) (p : Phase O A K) (c : Nat) (w : Record O A K) : Prop :=
  (∀ ep ∈ w.finished, ep.length ≤ n) ∧
  match p with
  | .fresh => w = {} ∧ c = 0
  | .ready _ _ len => w.obs ≠ none ∧ w.current.length = len ∧ c = len ∧ len < n
  | .chosen _ len => w.obs ≠ none ∧ w.current.length = len ∧ c = len ∧ len < n
  | .stepped out len => w.obs ≠ none ∧ w.current.length = len ∧ c = len ∧ len ≤ n ∧ (len = n → out.done = true ∨ out.needsReset = true ∨ ml = some n)
  | .counted out len _ _ => w.obs ≠ none ∧ w.current.length = len ∧ c = len ∧ len ≤ n ∧ (len = n → out.done = true ∨ out.needsReset = true ∨ ml = some n)
  | _ => w.current.length ≤ n

theorem Len.length {n : Nat} {ml : Option Nat} {p : Phase O A K} {c : Nat} {w : Record O A K} (h : Len n ml p c w) : w.current.length ≤ n := by
  obtain ⟨-, h⟩ := h
  cases p with
  | fresh => simp [h.1]
  | ready => exact h.2.1 ▸ h.2.2.2.le
  | chosen => exact h.2.1 ▸ h.2.2.2.le
  | stepped => exact h.2.1 ▸ h.2.2.2.1
  | counted => exact h.2.1 ▸ h.2.2.2.1
  | _ => exact h

theorem steps_len [Zero K] {n : Nat} (hn : 0 < n) {c : Cfg S} {early : Bool} {p q : Phase O A K} {es : List (Ev O A K)} (h : Steps (Next c early) p es q) :
    ∀ (m : Nat) (w : Record O A K), Stops n c.maxEpisodeLen m (es.filterMap ofEnv) → Len n c.maxEpisodeLen p m w →
      (∀ ep ∈ (es.foldl Record.watch w).finished, ep.length ≤ n) ∧ (es.foldl Record.watch w).current.length ≤ n := by
  induction h with
  | nil p => intro m w _ hl; exact ⟨hl.1, hl.length⟩
  | @cons p q r e es hnx _ ih =>
    intro m w hs hl
    have hlen := hl.length
    obtain ⟨h1, h2⟩ := hl
    cases hnx with
    | first o =>
      obtain ⟨rfl, rfl⟩ := h2
      simp only [fm_reset, fm_step] at hs
      cases hs with
      | reset _ _ _ hs => exact ih _ _ hs ⟨by simp [Record.watch], by simp [Record.watch], rfl, rfl, hn⟩
      | skip _ _ _ _ h => exact absurd rfl (h o)
    | act o r len a => exact ih m _ hs ⟨h1, h2⟩
    | step a len out =>
      obtain ⟨ho, hl, rfl, hlt⟩ := h2
      simp only [fm_reset, fm_step] at hs
      cases hs with
      | step _ _ _ _ hst hs =>
        obtain ⟨o, ho⟩ := Option.ne_none_iff_exists'.1 ho
        exact ih _ _ hs ⟨by simpa [Record.watch, ho] using h1, by simp [Record.watch, ho], by simp [Record.watch, ho, hl], rfl, hlt, fun he => hst he.symm⟩
      | skip _ _ _ h => simp [Train.Ev.isStep] at h
    | count out len k => exact ih m _ hs ⟨h1, h2⟩
    | hook out len k i _ => exact ih m _ hs ⟨h1, h2⟩
    | go out len k a hne =>
      obtain ⟨ho, hl, rfl, hle, hst⟩ := h2
      refine ih _ _ hs ⟨h1, ho, hl, rfl, lt_of_le_of_ne hle fun he => hne ?_⟩
      rcases hst he with h | h | h
      · exact .inl h
      · exact .inr (.inl h)
      · exact .inr (.inr (.inl (by rw [h, he])))
    | stop out len k _ => exact ih m _ hs ⟨h1, hlen⟩
    | evaluate k j _ => exact ih m _ hs ⟨h1, h2⟩
    | again k o _ =>
      simp only [fm_reset, fm_step] at hs
      cases hs with
      | reset _ _ _ hs =>
        refine ih _ _ hs ⟨?_, by simp [Record.watch], rfl, rfl, hn⟩
        intro ep hep
        simp only [Record.watch] at hep
        split at hep
        · exact h1 ep hep
        · rcases List.mem_append.1 hep with hep | hep
          · exact h1 ep hep
          · rw [List.mem_singleton.1 hep]; exact h2
      | skip _ _ _ _ h => exact absurd rfl (h o)
    | finish _ => exact ih m _ hs ⟨h1, hlen⟩
    | successful k _ _ => exact ih m _ hs ⟨h1, hlen⟩
    | successful' _ => exact ih m _ hs ⟨h1, hlen⟩
    | except p t => exact ih m _ hs ⟨h1, hlen⟩

/-- The record with a limit that the agent sees as a reset. -/
theorem record_own (n : Nat) (c : Cfg S) (g : Gym E O A K) (s : E) (evs : List (Ev O A K))
    (h : (c.maxEpisodeLen = some n ∧ Served g.call s evs) ∨ Served (timeLimit g n) (none, s) evs) : record evs = record (asIf g s evs) := by
  rcases h with ⟨-, h⟩ | h
  · rw [asIf_served g evs s h]
  · exact record_timeLimit g n evs none s {} h

theorem told_endless (g : Gym E O A K) (hg : Endless g) (es : List (Ev O A K)) : ∀ (s : E) (w : Record O A K),
    (∀ ep ∈ w.current :: w.finished ++ w.told.2 :: w.told.1, ∀ x ∈ ep, x.terminal = false) →
    ∀ ep ∈ ((asIf g s es).foldl Record.watch w).current :: ((asIf g s es).foldl Record.watch w).finished ++
      ((asIf g s es).foldl Record.watch w).told.2 :: ((asIf g s es).foldl Record.watch w).told.1, ∀ x ∈ ep, x.terminal = false := by
  induction es with
  | nil => intro s w h; exact h
  | cons e es ih =>
    intro s w h
    have hc : ∀ x ∈ w.current, x.terminal = false := h _ (by simp)
    have hf : ∀ ep ∈ w.finished, ∀ x ∈ ep, x.terminal = false := fun ep hep => h ep (by simp [hep])
    have ht : ∀ ep ∈ w.told.2 :: w.told.1, ∀ x ∈ ep, x.terminal = false := fun ep hep => h ep (List.mem_append_right _ hep)
    have hff : ∀ ep ∈ w.finished ++ [w.current], ∀ x ∈ ep, x.terminal = false := by
      intro ep hep
      rcases List.mem_append.1 hep with hep | hep
      · exact hf ep hep
      · rw [List.mem_singleton.1 hep]; exact hc
    cases e with
    | reset o =>
      refine ih _ _ fun ep hep => ?_
      rcases List.mem_append.1 hep with hep | hep
      · rcases List.mem_cons.1 hep with rfl | hep
        · simp [Record.watch]
        · simp only [Record.watch] at hep
          split at hep
          · exact hf ep hep
          · exact hff ep hep
      · exact ht ep hep
    | step a out =>
      refine ih _ _ fun ep hep => ?_
      rcases ho : w.obs with _ | o
      · simp only [Record.watch, ho] at hep; exact h ep hep
      · simp only [Record.watch, ho] at hep
        rcases List.mem_append.1 hep with hep | hep
        · rcases List.mem_cons.1 hep with rfl | hep
          · intro x hx
            rcases List.mem_append.1 hx with hx | hx
            · exact hc x hx
            · rw [List.mem_singleton.1 hx]; exact (hg s a).1
          · exact hf ep hep
        · exact ht ep hep
    | act o r a =>
      refine ih _ _ fun ep hep => ?_
      rcases List.mem_append.1 hep with hep | hep
      · exact h ep (List.mem_append_left _ hep)
      · rcases List.mem_cons.1 hep with rfl | hep
        · exact hc
        · exact hf ep hep
    | stop o r d =>
      refine ih _ _ fun ep hep => ?_
      rcases List.mem_append.1 hep with hep | hep
      · exact h ep (List.mem_append_left _ hep)
      · rcases List.mem_cons.1 hep with rfl | hep
        · simp [Record.watch]
        · exact hff ep hep
    | _ => exact ih _ _ h

theorem told_endless' (g : Gym E O A K) (hg : Endless g) (s : E) (evs : List (Ev O A K)) (ep : List (EnvStep O A K))
    (hep : ep ∈ (record (asIf g s evs)).told.1) (x : EnvStep O A K) (hx : x ∈ ep) : x.terminal = false :=
  told_endless g hg evs s {} (by simp) ep (List.mem_append_right _ (List.mem_cons_of_mem _ hep)) x hx

section Length
variable [Zero K] [LinearOrder S] {P : Nat}

/-- **C174**: with either limit no episode of the process is longer than `n` steps, whatever the other processes do. -/
theorem C174_length (n : Nat) (hn : 0 < n) (c : Cfg S) (sched : List (Fin P × Inp O A K S)) (p : Fin P) (g : Gym E O A K) (s : E)
    (h : Limited n c g s (eventsOf p (TrainAsync.run c P sched).1)) : ∀ ep ∈ episodes (eventsOf p (TrainAsync.run c P sched).1), ep.length ≤ n := by
  obtain ⟨ph, hp⟩ := TrainAsync.C25_protocol c sched p
  obtain ⟨h1, h2⟩ := steps_len hn hp 0 {} h.stops ⟨by simp, rfl, rfl⟩
  intro ep hep
  rcases List.mem_append.1 hep with hep | hep
  · exact h1 ep hep
  · rw [List.mem_singleton.1 hep]; exact h2

end Length

section NStep
variable [Field K] [LinearOrder S] {P : Nat}

/-- **C174**: A3C and NSQ: with `max_episode_len` or `ContinuingTimeLimit` the process learns from what happened in the environment inside, with its
own ends; if it never ends an episode, the last rollout of every episode bootstraps from the network's value in the call that ended the episode. -/
theorem C174_nstep (n : Nat) (c : Cfg S) (sched : List (Fin P × Inp O A K S)) (p : Fin P) (g : Gym E O A K) (s : E) (evs : List (Ev O A K))
    (hev : evs = eventsOf p (TrainAsync.run c P sched).1)
    (h : (c.maxEpisodeLen = some n ∧ Served g.call s evs) ∨ Served (timeLimit g n) (none, s) evs)
    (gamma : K) (tMax : Nat) (htm : 1 ≤ tMax) (boot : Nat → K) (x : Nat → X) :
    ∃ st uss tail, driveNStep gamma tMax boot x evs = .ok (st, uss.flatten ++ tail) ∧
      List.Forall₂ (NUpdates gamma tMax) (nEpisodes boot x 0 (record (asIf g s evs)).told.1) uss ∧
      (Endless g → List.Forall₂ (fun (e : NStepAgent.Episode X K) ups => ∃ us, NStepAgent.Rollouts tMax e.boot e.steps us ∧
          ups = us.map fun u => (NStepAgent.returnsOf gamma u.2 u.1).reverse)
        (nEpisodes boot x 0 (record (asIf g s evs)).told.1) uss) := by
  obtain ⟨st, uss, tail, h1, h2, -⟩ := TrainAsyncCalls.C125_nstep c sched p gamma tMax htm boot x evs hev
  rw [record_own n c g s evs h] at h2
  refine ⟨st, uss, tail, h1, h2, fun hg => ?_⟩
  have hf : ∀ (eps : List (List (EnvStep O A K))) k, (∀ ep ∈ eps, ∀ x ∈ ep, x.terminal = false) → ∀ e ∈ nEpisodes boot x k eps, e.done = false := by
    intro eps
    induction eps with
    | nil => intro k _ e he; simp [nEpisodes] at he
    | cons ep eps ih =>
      intro k hall e he
      rcases List.mem_cons.1 he with rfl | he
      · simp only [nEpisode]
        rcases hl : ep.getLast? with _ | y
        · rfl
        · simpa using hall ep List.mem_cons_self y (List.mem_of_getLast? hl)
      · exact ih _ (fun e he => hall e (List.mem_cons_of_mem _ he)) e he
  have hd := hf (record (asIf g s evs)).told.1 0 fun ep hep x hx => told_endless' g hg s evs ep hep x hx
  refine List.Forall₂.imp ?_ ((List.forall₂_iff_zip.2 ⟨List.Forall₂.length_eq h2, fun {a b} hab => ?_⟩ :
    List.Forall₂ (fun e ups => e.done = false ∧ NUpdates gamma tMax e ups) _ _))
  · rintro e ups ⟨hed, us, hr, hu⟩
    refine ⟨us, ?_, hu⟩
    simpa [NStepAgent.Episode.endValue, hed] using hr
  · exact ⟨hd _ (List.of_mem_zip hab).1, (List.forall₂_iff_zip.1 h2).2 hab⟩

/-- **C174**: with `make_timestep_limited` A3C and NSQ learn ends that did not happen: an episode of `n` steps has no value after its end, even if the
environment inside would have gone on. -/
theorem C174_violated_nstep_limited (n : Nat) (c : Cfg S) (sched : List (Fin P × Inp O A K S)) (p : Fin P) (g : Gym E O A K) (s : E)
    (evs : List (Ev O A K)) (hev : evs = eventsOf p (TrainAsync.run c P sched).1) (h : Served (stepLimited g n) (1, s) evs)
    (gamma : K) (tMax : Nat) (htm : 1 ≤ tMax) (boot : Nat → K) (x : Nat → X) :
    ∃ st uss tail, driveNStep gamma tMax boot x evs = .ok (st, uss.flatten ++ tail) ∧
      List.Forall₂ (NUpdates gamma tMax) (nEpisodes boot x 0 ((record (asIf g s evs)).told.1.map (cut n))) uss ∧
      ∀ ep ∈ (record (asIf g s evs)).told.1, ep ≠ [] → n ≤ ep.length → ∀ k, (nEpisode boot x k (cut n ep)).endValue = 0 := by
  obtain ⟨st, uss, tail, h1, h2, -⟩ := TrainAsyncCalls.C125_nstep c sched p gamma tMax htm boot x evs hev
  have := (record_stepLimited g n evs 1 s {} {} h ⟨rfl, rfl, rfl⟩ rfl (by simp)).told
  rw [show (record evs).told = _ from this] at h2
  refine ⟨st, uss, tail, h1, h2, fun ep _ hne hle k => ?_⟩
  rcases List.eq_nil_or_concat ep with rfl | ⟨l, y, rfl⟩
  · exact absurd rfl hne
  · rw [List.concat_eq_append] at *
    rw [cut_concat]
    simp only [List.length_append, List.length_singleton] at hle
    simp [nEpisode, NStepAgent.Episode.endValue, hle]

end NStep

section Online
variable [Zero K] [LinearOrder S] {P : Nat}

/-- **C174**: ACER and PCL: with `max_episode_len` or `ContinuingTimeLimit`, when no episode is under way, the process has learned from and recorded what
happened in the environment inside, with its own ends: none if it never ends an episode. -/
theorem C174_online (n : Nat) (cfg : Cfg S) (sched : List (Fin P × Inp O A K S)) (p : Fin P) (g : Gym E O A K) (s : E) (evs : List (Ev O A K))
    (hev : evs = eventsOf p (TrainAsync.run cfg P sched).1)
    (h : (cfg.maxEpisodeLen = some n ∧ Served g.call s evs) ∨ Served (timeLimit g n) (none, s) evs)
    (c : OnlineReplay.Args) (b : OnlineReplay.Buf B O A D K) (hon : c.disableOnline = false) (htm : ∀ n, c.tMax = some n → 1 ≤ n) (buf : Option B)
    (hkind : c.kind = .acer ∨ (c.kind = .pcl ∧ buf.isSome ∧ 1 ≤ c.batchsize)) (dist : Nat → D) :
    ∃ st es, driveOnline c b buf dist evs = .ok (st, es) ∧
      ((∀ o r a, (TrainAsyncCalls.calls evs).getLast? ≠ some (.act o r a)) →
        OnlineRight c b buf (oEpisodes dist 0 (record (asIf g s evs)).told.1) es) ∧
      (Endless g → ∀ e ∈ oEpisodes dist 0 (record (asIf g s evs)).told.1, e.done = false) := by
  obtain ⟨st, es, h1, h2, -⟩ := TrainAsyncCalls.C125_online cfg sched p c b hon htm buf hkind dist evs hev
  rw [record_own n cfg g s evs h] at h2
  refine ⟨st, es, h1, h2, fun hg => ?_⟩
  have hf : ∀ (eps : List (List (EnvStep O A K))) k, (∀ ep ∈ eps, ∀ x ∈ ep, x.terminal = false) → ∀ e ∈ oEpisodes dist k eps, e.done = false := by
    intro eps
    induction eps with
    | nil => intro k _ e he; simp [oEpisodes] at he
    | cons ep eps ih =>
      intro k hall e he
      cases ep with
      | nil => exact ih _ (fun e he => hall e (List.mem_cons_of_mem _ he)) e he
      | cons y l =>
        rcases List.mem_cons.1 he with rfl | he
        · simp only [oEpisode]
          rcases hl : (y :: l).getLast? with _ | z
          · rfl
          · simpa using hall (y :: l) List.mem_cons_self z (List.mem_of_getLast? hl)
        · exact ih _ (fun e he => hall e (List.mem_cons_of_mem _ he)) e he
  exact hf _ 0 fun ep hep x hx => told_endless' g hg s evs ep hep x hx

/-- **C174**: with `make_timestep_limited` ACER and PCL learn and record ends that did not happen. -/
theorem C174_violated_online_limited (n : Nat) (cfg : Cfg S) (sched : List (Fin P × Inp O A K S)) (p : Fin P) (g : Gym E O A K) (s : E)
    (evs : List (Ev O A K)) (hev : evs = eventsOf p (TrainAsync.run cfg P sched).1) (h : Served (stepLimited g n) (1, s) evs)
    (c : OnlineReplay.Args) (b : OnlineReplay.Buf B O A D K) (hon : c.disableOnline = false) (htm : ∀ n, c.tMax = some n → 1 ≤ n) (buf : Option B)
    (hkind : c.kind = .acer ∨ (c.kind = .pcl ∧ buf.isSome ∧ 1 ≤ c.batchsize)) (dist : Nat → D) :
    ∃ st es, driveOnline c b buf dist evs = .ok (st, es) ∧
      ((∀ o r a, (TrainAsyncCalls.calls evs).getLast? ≠ some (.act o r a)) →
        OnlineRight c b buf (oEpisodes dist 0 ((record (asIf g s evs)).told.1.map (cut n))) es) ∧
      ∀ ep ∈ (record (asIf g s evs)).told.1, n ≤ ep.length → ∀ k y l, cut n ep = y :: l → (oEpisode dist k y l).done = true := by
  obtain ⟨st, es, h1, h2, -⟩ := TrainAsyncCalls.C125_online cfg sched p c b hon htm buf hkind dist evs hev
  have := (record_stepLimited g n evs 1 s {} {} h ⟨rfl, rfl, rfl⟩ rfl (by simp)).told
  rw [show (record evs).told = _ from this] at h2
  refine ⟨st, es, h1, h2, fun ep _ hle k y l hc => ?_⟩
  rw [oEpisode, ← hc]
  rcases List.eq_nil_or_concat ep with rfl | ⟨l', z, rfl⟩
  · simp [cut] at hc
  · rw [List.concat_eq_append] at *
    rw [cut_concat]
    simp only [List.length_append, List.length_singleton] at hle
    simp [hle]

end Online

/-- An environment that always pays 1 and never ends an episode. -/
def mill : Gym Unit Unit Unit ℚ := ⟨fun _ => ((), ()), fun _ _ => ((), ⟨(), 1, false, false⟩)⟩

/-- Two processes take turns; `done k` and `reset k` are what the environment says in the `k`-th turn of a process. -/
def exSched (done reset : Nat → Bool) (l : Nat) : List (Fin 2 × Inp Unit Unit ℚ Int) :=
  (List.range l).flatMap fun k => [(0, ⟨false, (), (), ⟨(), 1, done k, reset k⟩, none⟩), (1, ⟨false, (), (), ⟨(), 1, done k, reset k⟩, none⟩)]

/-- The calls of the first process. -/
def exRun (ml : Option Nat) (done reset : Nat → Bool) : List (Ev Unit Unit ℚ) :=
  eventsOf 0 (TrainAsync.run ⟨20, 0, ml, false, none, 0⟩ 2 (exSched done reset 34)).1

/-- The hypotheses are met, with a limit of two steps set by `max_episode_len`, by `ContinuingTimeLimit` and by `make_timestep_limited`. -/
example : Served mill.call () (exRun (some 2) (fun _ => false) fun _ => false) ∧ Endless mill ∧
    Served (timeLimit mill 2) (none, ()) (exRun none (fun _ => false) fun k => k % 15 == 7) ∧
    Served (stepLimited mill 2) (1, ()) (exRun none (fun k => k % 15 == 7) fun _ => false) := by
  refine ⟨?_, fun _ _ => ⟨rfl, rfl⟩, ?_, ?_⟩ <;> (unfold Served StepLimits.Served; decide +kernel)

example : (episodes (exRun (some 2) (fun _ => false) fun _ => false)).map List.length = [2, 2, 1] ∧
    (episodes (exRun none (fun _ => false) fun k => k % 15 == 7)).map List.length = [2, 2, 1] ∧
    (episodes (exRun none (fun k => k % 15 == 7) fun _ => false)).map List.length = [2, 2, 1] := by
  refine ⟨?_, ?_, ?_⟩ <;> decide +kernel

/-- With a discount of 1/2 every state has value 2, and a network that knows it has the targets 2 and 2 with `max_episode_len` and `ContinuingTimeLimit`,
but 1 and 3/2 with `make_timestep_limited`. -/
example : (driveNStep (1 / 2 : ℚ) 5 (fun _ => 2) (fun _ => ()) (exRun (some 2) (fun _ => false) fun _ => false)).toOption.map (·.2) =
      some [[((), 2), ((), 2)], [((), 2), ((), 2)]] ∧
    (driveNStep (1 / 2 : ℚ) 5 (fun _ => 2) (fun _ => ()) (exRun none (fun _ => false) fun k => k % 15 == 7)).toOption.map (·.2) =
      some [[((), 2), ((), 2)], [((), 2), ((), 2)]] ∧
    (driveNStep (1 / 2 : ℚ) 5 (fun _ => 2) (fun _ => ()) (exRun none (fun k => k % 15 == 7) fun _ => false)).toOption.map (·.2) =
      some [[((), 1), ((), 3 / 2)], [((), 1), ((), 3 / 2)]] := by
  refine ⟨?_, ?_, ?_⟩ <;> decide +kernel

end Verif.AsyncLimits
