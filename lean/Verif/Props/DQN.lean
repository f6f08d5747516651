import Verif.Spec.DQN
set_option autoImplicit false

/-! # C42, C43: what DQN records and when it synchronises its target network -/

namespace Verif.DQN
variable {θ O A R H : Type}

theorem except_bind_ok {α β : Type} {m : Py α} {f : α → Py β} {y : β} :
    (m >>= f) = .ok y ↔ ∃ x, m = .ok x ∧ f x = .ok y := by
  cases m with
  | error e => simp [bind, Except.bind]
  | ok x => simp [bind, Except.bind]

theorem run_append (c : Cfg θ O H) : ∀ (l₁ l₂ : List (Call θ O A R)) (s s₁ s₂ : St θ O A H) (e₁ e₂),
    c.run s l₁ = .ok (s₁, e₁) → c.run s₁ l₂ = .ok (s₂, e₂) → c.run s (l₁ ++ l₂) = .ok (s₂, e₁ ++ e₂) := by
  intro l₁
  induction l₁ with
  | nil =>
    intro l₂ s s₁ s₂ e₁ e₂ h1 h2
    simp only [Cfg.run, pure, Except.pure, Except.ok.injEq, Prod.mk.injEq] at h1
    obtain ⟨rfl, rfl⟩ := h1
    simpa using h2
  | cons x l₁ ih =>
    intro l₂ s s₁ s₂ e₁ e₂ h1 h2
    simp only [Cfg.run, List.cons_append] at h1 ⊢
    obtain ⟨⟨s', e'⟩, hx, h1⟩ := except_bind_ok.1 h1
    obtain ⟨⟨s'', e''⟩, hy, h1⟩ := except_bind_ok.1 h1
    simp only [pure, Except.pure, Except.ok.injEq, Prod.mk.injEq] at h1
    obtain ⟨rfl, rfl⟩ := h1
    rw [hx]
    simp only [bind, Except.bind]
    rw [ih l₂ s' s'' s₂ e'' e₂ hy h2]
    simp [pure, Except.pure]

@[simp] theorem bufCalls_append (l₁ l₂ : List (Ev θ O A R H)) :
    bufCalls (l₁ ++ l₂) = bufCalls l₁ ++ bufCalls l₂ := by simp [bufCalls]
@[simp] theorem recStates_append (l₁ l₂ : List (Ev θ O A R H)) :
    recStates (l₁ ++ l₂) = recStates l₁ ++ recStates l₂ := by simp [recStates]
@[simp] theorem syncs_append (l₁ l₂ : List (Ev θ O A R H)) :
    syncs (l₁ ++ l₂) = syncs l₁ ++ syncs l₂ := by simp [syncs]
@[simp] theorem updates_append (l₁ l₂ : List (Ev θ O A R H)) :
    updates (l₁ ++ l₂) = updates l₁ ++ updates l₂ := by simp [updates]

theorem syncIfDue_ok (c : Cfg θ O H) (hc : 0 < c.targetInterval) (s : St θ O A H) :
    ∃ tg ev, c.syncIfDue (R := R) s = .ok ({ s with target := tg }, ev) ∧ bufCalls ev = [] ∧
      recStates ev = [] ∧ updates ev = [] ∧
      syncs ev = (if s.t % c.targetInterval = 0 then [(s.t, s.model)] else []) ∧
      tg = (syncs ev).foldl (fun d p => c.sync p.2 d) s.target := by
  unfold Cfg.syncIfDue
  rw [if_neg (by omega)]
  by_cases h : s.t % c.targetInterval = 0
  · exact ⟨c.sync s.model s.target, [.sync s.t s.model],
      by rw [if_pos h], rfl, rfl, rfl, by simp [h, syncs], rfl⟩
  · exact ⟨s.target, [], by rw [if_neg h], rfl, rfl, rfl, by simp [h, syncs], rfl⟩

/-- The agent in the middle of an episode: `t` was its last decision, taken in
the recurrent state `h`. -/
structure Mid (c : Cfg θ O H) (s : St θ O A H) (h : Option H) (t : Turn θ O A R) : Prop where
  obs : s.lastState = some t.obs
  action : s.lastAction = some t.action
  prev : c.recurrent = true → recAt s.prevRec 0 = h
  cur : c.recurrent = true → s.trainRec = some [c.net t.params (h.getD c.zero) t.obs]

/-- The agent between episodes. -/
structure Idle (c : Cfg θ O H) (s : St θ O A H) : Prop where
  obs : s.lastState = none
  cur : c.recurrent = true → s.trainRec = none

theorem act_idle (c : Cfg θ O H) (hc : 0 < c.targetInterval) (s : St θ O A H) (hs : Idle c s)
    (t : Turn θ O A R) : ∃ s' ev, c.call s t.call = .ok (s', ev) ∧ Mid c s' none t ∧
      bufCalls ev = [] ∧ recStates ev = [] := by
  obtain ⟨tg, ev, h1, h2, h3, -, -, -⟩ := syncIfDue_ok (R := R) c hc s
  simp only [Turn.call, Cfg.call, Cfg.actAndTrain, Cfg.actAppend, hs.obs, bind, Except.bind, h1,
    pure, Except.pure]
  refine ⟨_, _, rfl, ?_, by simp only [bufCalls_append, h2]; rfl,
    by simp only [recStates_append, h3]; rfl⟩
  by_cases hr : c.recurrent = true
  · constructor <;> simp [Cfg.evaluate, hr, recAt, hs.cur hr, Cfg.forward]
  · constructor <;> simp [Cfg.evaluate, hr]

theorem act_mid (c : Cfg θ O H) (hc : 0 < c.targetInterval) (s : St θ O A H) (h : Option H)
    (t0 : Turn θ O A R) (hs : Mid c s h t0) (t : Turn θ O A R) :
    ∃ s' ev, c.call s t.call = .ok (s', ev) ∧
      Mid c s' (some (c.net t0.params (h.getD c.zero) t0.obs)) t ∧
      bufCalls ev = [.append 0 ⟨t0.obs, t0.action, t.reward, t.obs, false⟩] ∧
      (c.recurrent = true →
        recStates ev = [(h, some (c.net t0.params (h.getD c.zero) t0.obs))]) := by
  obtain ⟨tt, m, tg0, ls, la, pr, tr, bo, ba⟩ := s
  obtain ⟨ho, ha, hp, hcur⟩ := hs
  simp only at ho ha hp hcur
  subst ho ha
  obtain ⟨tg, ev, h1, h2, h3, -, -, -⟩ :=
    syncIfDue_ok (R := R) c hc (St.mk tt m tg0 (some t0.obs) (some t0.action)
      (if c.recurrent then none else pr) tr bo ba)
  simp only [Turn.call, Cfg.call, Cfg.actAndTrain, Cfg.actAppend, bind,
    Except.bind, h1, pure, Except.pure]
  refine ⟨_, _, rfl, ?_, by simp only [bufCalls_append, h2]; rfl, ?_⟩
  · by_cases hr : c.recurrent = true
    · constructor <;> simp [Cfg.evaluate, hr, recAt, hcur hr, Cfg.forward]
    · constructor <;> simp [Cfg.evaluate, hr]
  · intro hr
    simp only [recStates_append, h3]
    simp [recStates, Cfg.recOf, hr, hp hr, hcur hr]
    simp [recAt]

theorem stop_mid (c : Cfg θ O H) (s : St θ O A H) (h : Option H)
    (t0 : Turn θ O A R) (hs : Mid c s h t0) (o : O) (r : R) (d : Bool) :
    ∃ s' ev, c.call s (.stop o r d) = .ok (s', ev) ∧ Idle c s' ∧
      bufCalls ev = [.append 0 ⟨t0.obs, t0.action, r, o, d⟩, .stop 0] ∧
      (c.recurrent = true →
        recStates ev = [(h, some (c.net t0.params (h.getD c.zero) t0.obs))]) := by
  simp only [Cfg.call, Cfg.stopEpisodeAndTrain, hs.obs, hs.action]
  refine ⟨_, _, rfl, ⟨rfl, fun hr => by simp [hr]⟩, by simp [bufCalls], ?_⟩
  intro hr
  simp [recStates, Cfg.recOf, hr, hs.prev hr, hs.cur hr]
  simp [recAt]

theorem run_one (c : Cfg θ O H) (s s' : St θ O A H) (x : Call θ O A R) (ev)
    (h : c.call s x = .ok (s', ev)) : c.run s [x] = .ok (s', ev) := by
  simp [Cfg.run, h, bind, Except.bind, pure, Except.pure]

theorem hiddenPairs_cons (c : Cfg θ O H) (h : Option H) (t : Turn θ O A R) (ts : List (Turn θ O A R)) :
    hiddenPairs c h (t :: ts) = (h, some (c.net t.params (h.getD c.zero) t.obs)) ::
      hiddenPairs c (some (c.net t.params (h.getD c.zero) t.obs)) ts := rfl

/-- Running over further decisions of an episode. -/
theorem run_turns (c : Cfg θ O H) (hc : 0 < c.targetInterval) : ∀ (ts : List (Turn θ O A R))
    (s : St θ O A H) (h : Option H) (t0 : Turn θ O A R), Mid c s h t0 →
    ∃ s' ev h' t', c.run s (ts.map Turn.call) = .ok (s', ev) ∧ Mid c s' h' t' ∧
      t' = (t0 :: ts).getLast (by simp) ∧
      bufCalls ev = (innerSteps (t0 :: ts)).map (.append 0) ∧
      hiddenPairs c h (t0 :: ts) = hiddenPairs c h (t0 :: ts).dropLast ++
        [(h', some (c.net t'.params (h'.getD c.zero) t'.obs))] ∧
      (c.recurrent = true → recStates ev = hiddenPairs c h (t0 :: ts).dropLast) := by
  intro ts
  induction ts with
  | nil =>
    intro s h t0 hs
    exact ⟨s, [], h, t0, rfl, hs, rfl, rfl, rfl, fun _ => rfl⟩
  | cons t ts ih =>
    intro s h t0 hs
    obtain ⟨s₁, e₁, hr1, hm1, hb1, hh1⟩ := act_mid c hc s h t0 hs t
    obtain ⟨s₂, e₂, h', t', hr2, hm2, ht2, hb2, hp2, hh2⟩ := ih s₁ _ t hm1
    refine ⟨s₂, e₁ ++ e₂, h', t', ?_, hm2, ?_, ?_, ?_, ?_⟩
    · exact run_append c [t.call] (ts.map Turn.call) s s₁ s₂ e₁ e₂ (run_one c _ _ _ _ hr1) hr2
    · rw [ht2]; simp
    · rw [bufCalls_append, hb1, hb2]; simp [innerSteps]
    · rw [List.dropLast_cons_cons, hiddenPairs_cons c h t0, hiddenPairs_cons c h t0, hp2]; simp
    · intro hr
      rw [recStates_append, hh1 hr, hh2 hr, List.dropLast_cons_cons]
      conv_rhs => rw [hiddenPairs]
      simp

theorem steps_eq (e : Episode θ O A R) :
    e.steps = innerSteps e.turns ++
      [⟨(e.turns.getLast (by simp [Episode.turns])).obs, (e.turns.getLast (by simp [Episode.turns])).action,
        e.finalReward, e.finalObs, e.done⟩] := by
  obtain ⟨f, rest, fo, fr, d⟩ := e
  simp only [Episode.steps, innerSteps, Episode.turns]
  induction rest generalizing f with
  | nil => rfl
  | cons t rest ih =>
    have := ih t
    simp only [List.map_cons, List.cons_append, List.zipWith_cons_cons, List.tail_cons] at this ⊢
    rw [this]
    simp

/-- A complete episode. -/
theorem run_episode (c : Cfg θ O H) (hc : 0 < c.targetInterval) (e : Episode θ O A R)
    (s : St θ O A H) (hs : Idle c s) :
    ∃ s' ev, c.run s e.calls = .ok (s', ev) ∧ Idle c s' ∧
      bufCalls ev = e.steps.map (.append 0) ++ [.stop 0] ∧
      (c.recurrent = true → recStates ev = hiddenPairs c none e.turns) := by
  obtain ⟨s₁, e₁, hr1, hm1, hb1, hh1⟩ := act_idle c hc s hs e.first
  obtain ⟨s₂, e₂, h', t', hr2, hm2, ht2, hb2, hp2, hh2⟩ := run_turns c hc e.rest s₁ none e.first hm1
  obtain ⟨s₃, e₃, hr3, hi3, hb3, hh3⟩ := stop_mid c s₂ h' t' hm2 e.finalObs e.finalReward e.done
  refine ⟨s₃, (e₁ ++ e₂) ++ e₃, ?_, hi3, ?_, ?_⟩
  · have h12 := run_append c [e.first.call] _ s s₁ s₂ e₁ e₂ (run_one c _ _ _ _ hr1) hr2
    have := run_append c _ _ s s₂ s₃ _ e₃ h12 (run_one c _ _ _ _ hr3)
    simpa [Episode.calls, Episode.turns] using this
  · rw [bufCalls_append, bufCalls_append, hb1, hb2, hb3, steps_eq, ht2]
    simp [Episode.turns]
  · intro hr
    rw [recStates_append, recStates_append, hh1, hh2 hr, hh3 hr, Episode.turns, hp2]
    simp

/-- An unfinished episode. -/
theorem run_partial (c : Cfg θ O H) (hc : 0 < c.targetInterval) (ts : List (Turn θ O A R))
    (s : St θ O A H) (hs : Idle c s) :
    ∃ s' ev, c.run s (ts.map Turn.call) = .ok (s', ev) ∧
      bufCalls ev = (innerSteps ts).map (.append 0) ∧
      (c.recurrent = true → recStates ev = hiddenPairs c none ts.dropLast) := by
  cases ts with
  | nil => exact ⟨s, [], rfl, rfl, fun _ => rfl⟩
  | cons t ts =>
    obtain ⟨s₁, e₁, hr1, hm1, hb1, hh1⟩ := act_idle c hc s hs t
    obtain ⟨s₂, e₂, h', t', hr2, hm2, ht2, hb2, hp2, hh2⟩ := run_turns c hc ts s₁ none t hm1
    refine ⟨s₂, e₁ ++ e₂, run_append c [t.call] _ s s₁ s₂ e₁ e₂ (run_one c _ _ _ _ hr1) hr2, ?_, ?_⟩
    · rw [bufCalls_append, hb1, hb2]; rfl
    · intro hr; rw [recStates_append, hh1, hh2 hr]; rfl

theorem run_history (c : Cfg θ O H) (hc : 0 < c.targetInterval) (eps : List (Episode θ O A R)) :
    ∀ (s : St θ O A H), Idle c s →
    ∃ s' ev, c.run s (eps.flatMap Episode.calls) = .ok (s', ev) ∧ Idle c s' ∧
      bufCalls ev = eps.flatMap (fun e => e.steps.map (.append 0) ++ [.stop 0]) ∧
      (c.recurrent = true → recStates ev = eps.flatMap (fun e => hiddenPairs c none e.turns)) := by
  induction eps with
  | nil => intro s hs; exact ⟨s, [], rfl, hs, rfl, fun _ => rfl⟩
  | cons e eps ih =>
    intro s hs
    obtain ⟨s₁, e₁, hr1, hi1, hb1, hh1⟩ := run_episode c hc e s hs
    obtain ⟨s₂, e₂, hr2, hi2, hb2, hh2⟩ := ih s₁ hi1
    refine ⟨s₂, e₁ ++ e₂, ?_, hi2, ?_, ?_⟩
    · rw [List.flatMap_cons]; exact run_append c _ _ s s₁ s₂ e₁ e₂ hr1 hr2
    · rw [bufCalls_append, hb1, hb2, List.flatMap_cons]
    · intro hr; rw [recStates_append, hh1 hr, hh2 hr, List.flatMap_cons]

theorem single_all (c : Cfg θ O H) (hc : 0 < c.targetInterval) (p0 : θ)
    (eps : List (Episode θ O A R)) (cur : List (Turn θ O A R)) :
    ∃ s' ev, c.run (init p0) (eps.flatMap Episode.calls ++ cur.map Turn.call) = .ok (s', ev) ∧
      bufCalls ev = eps.flatMap (fun e => e.steps.map (.append 0) ++ [.stop 0]) ++
        (innerSteps cur).map (.append 0) ∧
      (c.recurrent = true → recStates ev = eps.flatMap (fun e => hiddenPairs c none e.turns) ++
        hiddenPairs c none cur.dropLast) := by
  obtain ⟨s₁, e₁, hr1, hi1, hb1, hh1⟩ := run_history c hc eps (init p0) ⟨rfl, fun _ => rfl⟩
  obtain ⟨s₂, e₂, hr2, hb2, hh2⟩ := run_partial c hc cur s₁ hi1
  refine ⟨s₂, e₁ ++ e₂, run_append c _ _ _ s₁ s₂ e₁ e₂ hr1 hr2, ?_, ?_⟩
  · rw [bufCalls_append, hb1, hb2]
  · intro hr; rw [recStates_append, hh1 hr, hh2 hr]

/-- **C42**, single interface.  For every history of complete episodes followed
by an unfinished one, no call raises and the replay buffer receives, in order,
exactly one `append` per environment step, with the right observation, action,
reward, next observation and terminal flag, and a `stop_current_episode`
exactly after the last step of each episode. -/
theorem C42_single (c : Cfg θ O H) (hc : 0 < c.targetInterval) (p0 : θ)
    (eps : List (Episode θ O A R)) (cur : List (Turn θ O A R)) :
    ∃ s' ev, c.run (init p0) (eps.flatMap Episode.calls ++ cur.map Turn.call) = .ok (s', ev) ∧
      bufCalls ev = eps.flatMap (fun e => e.steps.map (.append 0) ++ [.stop 0]) ++
        (innerSteps cur).map (.append 0) := by
  obtain ⟨s', ev, h1, h2, -⟩ := single_all c hc p0 eps cur
  exact ⟨s', ev, h1, h2⟩

/-- **C42**, recurrent models, single interface.  The recurrent states stored
with the `k`-th transition of an episode are the states of the network before
and after it read the observation of that step, having read exactly the earlier
observations of the same episode. -/
theorem C42_single_recurrent (c : Cfg θ O H) (hc : 0 < c.targetInterval)
    (hr : c.recurrent = true) (p0 : θ)
    (eps : List (Episode θ O A R)) (cur : List (Turn θ O A R)) :
    ∃ s' ev, c.run (init p0) (eps.flatMap Episode.calls ++ cur.map Turn.call) = .ok (s', ev) ∧
      recStates ev = eps.flatMap (fun e => hiddenPairs c none e.turns) ++
        hiddenPairs c none cur.dropLast := by
  obtain ⟨s', ev, h1, -, h2⟩ := single_all c hc p0 eps cur
  exact ⟨s', ev, h1, h2 hr⟩

/-! ## The batch interface -/

/-- The arguments of `batch_observe_and_train` in a round. -/
abbrev obsOf (r : List (EnvRound θ O A R)) : Obs θ O R :=
  { obs := r.map (·.nextObs), reward := r.map (·.reward), done := r.map (·.done),
    reset := r.map (·.reset), params := r.map (·.params) }

theorem observeRecord_ok (c : Cfg θ O H) (r : List (EnvRound θ O A R)) (i : Nat)
    (e : EnvRound θ O A R) (he : r[i]? = some e) (s : St θ O A H)
    (ho : s.batchLastObs[i]? = some (some e.obs)) (ha : s.batchLastAction[i]? = some (some e.action)) :
    ∃ bo ba ev, c.observeRecord (obsOf r) i s =
        .ok ({ s with batchLastObs := bo, batchLastAction := ba }, ev) ∧
      bufCalls ev = e.sends i ∧ recStates ev = [(c.recOf s.prevRec i, c.recOf s.trainRec i)] ∧
      syncs ev = [] ∧ updates ev = [] ∧
      (∀ j, i < j → bo[j]? = s.batchLastObs[j]?) ∧ (∀ j, i < j → ba[j]? = s.batchLastAction[j]?) := by
  simp only [Cfg.observeRecord, Cfg.observeAppend, idx, ho, ha, List.getElem?_map, he, Option.map_some,
    bind, Except.bind, pure, Except.pure]
  by_cases hd : (e.reset || e.done) = true
  · rw [if_pos hd]
    refine ⟨_, _, _, rfl, ?_, rfl, rfl, rfl, ?_, ?_⟩
    · simp only [EnvRound.sends]
      rw [Bool.or_comm] at hd
      rw [if_pos hd]
      rfl
    · intro j hj; exact List.getElem?_set_ne (by omega)
    · intro j hj; exact List.getElem?_set_ne (by omega)
  · rw [if_neg hd]
    refine ⟨s.batchLastObs, s.batchLastAction, _, rfl, ?_, rfl, rfl, rfl, fun _ _ => rfl, fun _ _ => rfl⟩
    simp only [EnvRound.sends]
    rw [Bool.or_comm] at hd
    rw [if_neg hd]
    rfl

theorem observeLoop_ok (c : Cfg θ O H) (hc : 0 < c.targetInterval) (r : List (EnvRound θ O A R)) :
    ∀ (suf pre : List (EnvRound θ O A R)) (s : St θ O A H), r = pre ++ suf →
    (∀ (j : Nat) e, suf[j]? = some e → s.batchLastObs[pre.length + j]? = some (some e.obs)) →
    (∀ (j : Nat) e, suf[j]? = some e → s.batchLastAction[pre.length + j]? = some (some e.action)) →
    ∃ s' ev, c.observeLoop (obsOf r) pre.length suf.length s = .ok (s', ev) ∧
      bufCalls ev = (suf.zipIdx pre.length).flatMap (fun p => p.1.sends p.2) ∧
      recStates ev = (suf.zipIdx pre.length).map
        (fun p => (c.recOf s.prevRec p.2, c.recOf s.trainRec p.2)) ∧
      s'.prevRec = s.prevRec ∧ s'.trainRec = s.trainRec ∧
      s'.model = (suf.getLast?.map (·.params)).getD s.model := by
  intro suf
  induction suf with
  | nil => intro pre s _ _ _; exact ⟨s, [], rfl, rfl, rfl, rfl, rfl, rfl⟩
  | cons e suf ih =>
    intro pre s hr ho ha
    have he : r[pre.length]? = some e := by simp [hr]
    obtain ⟨tg, e1, h1, h2, h3, -, -, -⟩ := syncIfDue_ok (R := R) c hc { s with t := s.t + 1 }
    obtain ⟨bo, ba, e2, k1, k2, k3, -, -, k4, k5⟩ := observeRecord_ok c r pre.length e he
      { s with t := s.t + 1, target := tg } (by simpa using ho 0 e rfl) (by simpa using ha 0 e rfl)
    obtain ⟨s', ev, hl, hb, hrec, hp, ht, hm⟩ := ih (pre ++ [e])
      { s with t := s.t + 1, target := tg, batchLastObs := bo, batchLastAction := ba, model := e.params }
      (by simp [hr])
      (by
        intro j e' hj
        have := ho (j + 1) e' (by simpa using hj)
        rw [List.length_append, List.length_singleton, k4 _ (by omega)]
        simpa [Nat.add_assoc, Nat.add_comm 1 j] using this)
      (by
        intro j e' hj
        have := ha (j + 1) e' (by simpa using hj)
        rw [List.length_append, List.length_singleton, k5 _ (by omega)]
        simpa [Nat.add_assoc, Nat.add_comm 1 j] using this)
    refine ⟨s', (e1 ++ e2 ++ [.update (s.t + 1) e.params]) ++ ev, ?_, ?_, ?_, hp, ht, ?_⟩
    · simp only [List.length_cons, Cfg.observeLoop, Cfg.observeStep, h1, bind, Except.bind, k1, pure,
        Except.pure]
      have hi : idx (obsOf r).params pre.length = .ok e.params := by
        simp [idx, he]
      rw [hi]
      rw [List.length_append, List.length_singleton] at hl
      simp only [hl]
    · simp only [bufCalls_append, h2, k2, hb, List.zipIdx_cons, List.flatMap_cons, List.length_append,
        List.length_singleton]
      simp [bufCalls]
    · simp only [recStates_append, h3, k3, hrec, List.zipIdx_cons, List.map_cons, List.length_append,
        List.length_singleton]
      rfl
    · rw [hm]
      cases suf with
      | nil => simp
      | cons a l => simp [List.getLast?_cons]

theorem run_round (c : Cfg θ O H) (hc : 0 < c.targetInterval) (r : List (EnvRound θ O A R))
    (s : St θ O A H) :
    ∃ s' ev, c.run s (roundCalls r) = .ok (s', ev) ∧
      bufCalls ev = r.zipIdx.flatMap (fun p => p.1.sends p.2) ∧
      s'.model = (r.getLast?.map (·.params)).getD s.model ∧
      (c.recurrent = true → recStates ev = r.zipIdx.map (fun p => (recAt s.trainRec p.2,
          recAt (some (c.forward s.model s.trainRec (r.map (·.obs)))) p.2)) ∧
        s'.trainRec = some ((c.forward s.model s.trainRec (r.map (·.obs))).mapIdx (fun i h =>
          if (r[i]?).any (fun e => e.done || e.reset) then c.zero else h))) := by
  obtain ⟨s', ev, hl, hb, hrec, hp, ht, hm⟩ := observeLoop_ok c hc r r []
    (c.batchActAndTrain s (r.map (·.obs)) (r.map (·.action))) rfl
    (by intro j e hj; simp [Cfg.batchActAndTrain, hj])
    (by intro j e hj; simp [Cfg.batchActAndTrain, hj])
  have hmod : (c.batchActAndTrain s (r.map (·.obs)) (r.map (·.action))).model = s.model := by
    simp only [Cfg.batchActAndTrain, Cfg.evaluate]; split <;> rfl
  rw [hmod] at hm
  simp only [List.length_nil] at hl hb hrec
  by_cases hr : c.recurrent = true
  · refine ⟨{ s' with prevRec := none, trainRec := c.resetEnded (obsOf r).done (obsOf r).reset s'.trainRec },
      ev, ?_, hb, hm, fun _ => ⟨?_, ?_⟩⟩
    · simp [roundCalls, Cfg.run, Cfg.call, Cfg.batchObserveAndTrain, hl, bind, Except.bind, pure,
        Except.pure, hr]
    · rw [hrec]
      simp [Cfg.recOf, hr, Cfg.batchActAndTrain, Cfg.evaluate]
    · rw [ht]
      simp only [Cfg.resetEnded, Cfg.batchActAndTrain, Cfg.evaluate, hr, if_true, Option.map_some]
      congr 1
      apply List.ext_getElem?
      intro i
      simp only [List.getElem?_mapIdx]
      congr 1
      funext h
      rcases hi : r[i]? with _ | e
      · rw [List.getElem?_eq_none (l := List.zip _ _)]
        · rfl
        · have := List.getElem?_eq_none_iff.1 hi
          simp; omega
      · have : (List.zip (r.map (·.done)) (r.map (·.reset)))[i]? = some (e.done, e.reset) := by
          rw [List.getElem?_zip_eq_some]; simp [hi]
        rw [this]; rfl
  · refine ⟨s', ev, ?_, hb, hm, fun h => absurd h hr⟩
    simp [roundCalls, Cfg.run, Cfg.call, Cfg.batchObserveAndTrain, hl, bind, Except.bind, pure,
        Except.pure, hr]

/-- **C42**, batch interface.  In every history of rounds with any number of
environments no call raises, and the replay buffer receives, round by round and
environment by environment, exactly one `append` for each environment step with
the right contents, followed by `stop_current_episode` of that environment
exactly when its episode ended (`done` or `reset`). -/
theorem C42_batch (c : Cfg θ O H) (hc : 0 < c.targetInterval) (rounds : List (List (EnvRound θ O A R))) :
    ∀ s : St θ O A H, ∃ s' ev, c.run s (rounds.flatMap roundCalls) = .ok (s', ev) ∧
      bufCalls ev = rounds.flatMap (fun r => r.zipIdx.flatMap (fun p => p.1.sends p.2)) := by
  induction rounds with
  | nil => intro s; exact ⟨s, [], rfl, rfl⟩
  | cons r rounds ih =>
    intro s
    obtain ⟨s₁, e₁, h1, hb1, -, -⟩ := run_round c hc r s
    obtain ⟨s₂, e₂, h2, hb2⟩ := ih s₁
    exact ⟨s₂, e₁ ++ e₂, run_append c _ _ s s₁ s₂ e₁ e₂ h1 h2, by
      rw [bufCalls_append, hb1, hb2, List.flatMap_cons]⟩

theorem filter_sends (r : List (EnvRound θ O A R)) (i : Nat) : ∀ k,
    ((r.zipIdx k).flatMap (fun p => p.1.sends p.2)).filter (fun b => b.env == i) =
      if k ≤ i then ((r[i - k]?).map (fun e => e.sends i)).getD [] else [] := by
  induction r with
  | nil => intro k; simp
  | cons e r ih =>
    intro k
    rw [List.zipIdx_cons, List.flatMap_cons, List.filter_append, ih (k + 1)]
    have hs : (e.sends k).filter (fun b => b.env == i) = if k = i then e.sends k else [] := by
      simp only [EnvRound.sends]
      by_cases hk : k = i
      · subst hk; split <;> simp [BufCall.env]
      · split <;> simp [BufCall.env, hk]
    rw [hs]
    by_cases hk : k = i
    · subst hk; simp; omega
    · by_cases hlt : k ≤ i
      · have h1 : i - k = (i - (k + 1)) + 1 := by omega
        rw [if_neg hk, if_pos hlt, if_pos (by omega), h1]
        simp
      · rw [if_neg hk, if_neg hlt, if_neg (by omega)]
        rfl

/-- **C42**, batch interface, seen by one environment: the calls with its
`env_id` are exactly its own steps in order, closed exactly at its episode ends,
whatever the other environments do. -/
theorem C42_batch_env (c : Cfg θ O H) (hc : 0 < c.targetInterval)
    (rounds : List (List (EnvRound θ O A R))) (i : Nat) (s : St θ O A H) :
    ∃ s' ev, c.run s (rounds.flatMap roundCalls) = .ok (s', ev) ∧
      (bufCalls ev).filter (fun b => b.env == i) =
        (rounds.filterMap (fun r => r[i]?)).flatMap (fun e => e.sends i) := by
  obtain ⟨s', ev, h1, h2⟩ := C42_batch c hc rounds s
  refine ⟨s', ev, h1, ?_⟩
  rw [h2]
  clear h1 h2
  induction rounds with
  | nil => rfl
  | cons r rounds ih =>
    rw [List.flatMap_cons, List.filter_append, ih, filter_sends]
    rcases hi : r[i]? with _ | e <;> simp [hi]

/-- The recurrent states of the environments, `none` being the initial one. -/
def Hid (c : Cfg θ O H) (n : Nat) (s : Option (List H)) (hs : List H) : Prop :=
  hs.length = n ∧ (s = some hs ∨ (s = none ∧ hs = List.replicate n c.zero))

theorem zipWith_replicate {α β γ : Type} (f : α → β → γ) (x : α) : ∀ (os : List β),
    List.zipWith f (List.replicate os.length x) os = os.map (f x) := by
  intro os
  induction os with
  | nil => rfl
  | cons o os ih => simp [List.replicate_succ, ih]

/-- **C42**, recurrent models, batch interface with `n` environments.  The
recurrent states stored with each transition (an absent one standing for the
initial state) are those of the network before and after reading that step's
observation, each environment's state being reset exactly at its episode ends. -/
theorem C42_batch_recurrent (c : Cfg θ O H) (hc : 0 < c.targetInterval) (hr : c.recurrent = true)
    (n : Nat) (p0 : θ) (rounds : List (List (EnvRound θ O A R))) (hn : ∀ r ∈ rounds, r.length = n) :
    ∃ s' ev, c.run (init p0) (rounds.flatMap roundCalls) = .ok (s', ev) ∧
      (recStates ev).map (fun p => (p.1.getD c.zero, p.2.getD c.zero)) =
        batchHiddenPairs c p0 (List.replicate n c.zero) rounds := by
  suffices H : ∀ (s : St θ O A H) hs, Hid c n s.trainRec hs →
      ∃ s' ev, c.run s (rounds.flatMap roundCalls) = .ok (s', ev) ∧
      (recStates ev).map (fun p => (p.1.getD c.zero, p.2.getD c.zero)) =
        batchHiddenPairs c s.model hs rounds from
    H (init p0) _ ⟨by simp, Or.inr ⟨rfl, rfl⟩⟩
  induction rounds with
  | nil => intro s hs _; exact ⟨s, [], rfl, rfl⟩
  | cons r rounds ih =>
    intro s hs hh
    obtain ⟨s₁, e₁, h1, -, hm1, hrec⟩ := run_round c hc r s
    obtain ⟨hrec, htr⟩ := hrec hr
    have hlen : hs.length = r.length := by rw [hh.1, hn r (by simp)]
    -- the forward pass
    have hf : c.forward s.model s.trainRec (r.map (·.obs)) =
        List.zipWith (fun h (e : EnvRound θ O A R) => c.net s.model h e.obs) hs r := by
      have hz : List.zipWith (c.net s.model) hs (r.map (·.obs)) =
          List.zipWith (fun h (e : EnvRound θ O A R) => c.net s.model h e.obs) hs r := by
        rw [List.zipWith_map_right]
      rcases hh.2 with h | ⟨h, h'⟩
      · rw [h]; simpa [Cfg.forward] using hz
      · have hn' : n = (r.map (·.obs)).length := by rw [List.length_map, ← hlen, hh.1]
        rw [← hz, h, h', hn', zipWith_replicate]; rfl
    have hget : ∀ (i : Nat) h, hs[i]? = some h → (recAt s.trainRec i).getD c.zero = h := by
      intro i h hi
      rcases hh.2 with h' | ⟨h', h''⟩
      · rw [h']; simp [recAt, hi]
      · rw [h'] ; rw [h''] at hi
        rw [List.getElem?_replicate] at hi
        split at hi <;> simp_all [recAt]
    obtain ⟨s₂, e₂, h2, hb2⟩ := ih (fun r hr => hn r (by simp [hr])) s₁
      (List.zipWith (fun h (e : EnvRound θ O A R) =>
        if e.done || e.reset then c.zero else c.net s.model h e.obs) hs r) ⟨by
          rw [List.length_zipWith, hlen, Nat.min_self, hn r (by simp)], Or.inl (by
          rw [htr, hf]
          congr 1
          apply List.ext_getElem?
          intro i
          simp only [List.getElem?_mapIdx, List.getElem?_zipWith]
          rcases hi : r[i]? with _ | e
          · rcases hs[i]? with _ | h <;> simp
          · rcases hs[i]? with _ | h <;> simp)⟩
    refine ⟨s₂, e₁ ++ e₂, run_append c _ _ s s₁ s₂ e₁ e₂ h1 h2, ?_⟩
    rw [recStates_append, List.map_append, hb2, hrec, batchHiddenPairs, hm1]
    congr 1
    rw [hf]
    apply List.ext_getElem?
    intro i
    simp only [List.map_map, List.getElem?_map, List.getElem?_zipIdx, List.getElem?_zipWith]
    rcases hi : r[i]? with _ | e
    · rcases hs[i]? with _ | h <;> simp
    · have hlt : i < hs.length := by
        rw [hlen]; exact (List.getElem?_eq_some_iff.1 hi).1
      have hh' : hs[i]? = some hs[i] := by simp [hlt]
      simp only [hh', Option.map_some, Function.comp, Nat.zero_add, hget i _ hh']
      simp [recAt, List.getElem?_zipWith, hh', hi]

/-! ## C43 -/

/-- One call: the target parameters, the time and the synchronisations. -/
theorem syncIfDue_inv (c : Cfg θ O H) (s s' : St θ O A H) (ev : List (Ev θ O A R H))
    (h : c.syncIfDue s = .ok (s', ev)) : 0 < c.targetInterval ∧
    s'.t = s.t ∧ s'.model = s.model ∧ s'.target = (syncs ev).foldl (fun d p => c.sync p.2 d) s.target ∧
    ev = (if s.t % c.targetInterval = 0 then [.sync s.t s.model] else []) := by
  unfold Cfg.syncIfDue at h
  split at h
  · simp at h
  · split at h
    · rename_i h0 h1
      simp only [Except.ok.injEq, Prod.mk.injEq] at h
      obtain ⟨rfl, rfl⟩ := h
      exact ⟨by omega, rfl, rfl, rfl, by rw [if_pos h1]⟩
    · rename_i h0 h1
      simp only [Except.ok.injEq, Prod.mk.injEq] at h
      obtain ⟨rfl, rfl⟩ := h
      exact ⟨by omega, rfl, rfl, rfl, by rw [if_neg h1]⟩

/-- Events of a piece of code that starts at time `a` and ends at time `b` and
runs through the time steps `ts`: synchronisations exactly at the multiples of
`k` among `ts`, with the current parameters. -/
structure Piece (c : Cfg θ O H) (s s' : St θ O A H) (ev : List (Ev θ O A R H)) (ts : List Nat) : Prop where
  time : s'.t = s.t + ts.length
  target : s'.target = (syncs ev).foldl (fun d p => c.sync p.2 d) s.target
  syncTimes : (syncs ev).map (·.1) = ts.filter (fun t => t % c.targetInterval == 0)
  updTimes : (updates ev).map (·.1) = ts
  model : s'.model = ((updates ev).getLast?.map (·.2)).getD s.model
  src : ∀ pre t p post, ev = pre ++ .sync t p :: post →
    p = ((updates pre).getLast?.map (·.2)).getD s.model

theorem Piece.trans {c : Cfg θ O H} {s s₁ s₂ : St θ O A H} {e₁ e₂ : List (Ev θ O A R H)}
    {t₁ t₂ : List Nat} (h₁ : Piece c s s₁ e₁ t₁) (h₂ : Piece c s₁ s₂ e₂ t₂) :
    Piece c s s₂ (e₁ ++ e₂) (t₁ ++ t₂) where
  time := by rw [h₂.time, h₁.time]; simp; omega
  target := by rw [syncs_append, List.foldl_append, ← h₁.target, h₂.target]
  syncTimes := by simp [h₁.syncTimes, h₂.syncTimes]
  updTimes := by simp [h₁.updTimes, h₂.updTimes]
  model := by
    rw [updates_append, List.getLast?_append, h₂.model, h₁.model]
    cases (updates e₂).getLast? <;> simp
  src := by
    intro pre t p post h
    rcases List.append_eq_append_iff.1 h with ⟨l, h1, h2⟩ | ⟨l, h1, h2⟩
    · rw [h₂.src l t p post h2, h1, updates_append, List.getLast?_append, h₁.model]
      cases (updates l).getLast? <;> simp
    · cases l with
      | nil =>
        have := h₂.src [] t p post (by simpa using h2.symm)
        rw [this, h₁.model, h1]; simp [updates]
      | cons x l =>
        simp only [List.cons_append, List.cons.injEq] at h2
        obtain ⟨rfl, -⟩ := h2
        exact h₁.src pre t p l h1

/-- Code without synchronisation and update. -/
theorem Piece.quiet {c : Cfg θ O H} {s s' : St θ O A H} {ev : List (Ev θ O A R H)}
    (ht : s'.t = s.t) (hm : s'.model = s.model) (hg : s'.target = s.target)
    (hs : syncs ev = []) (hu : updates ev = []) : Piece c s s' ev [] where
  time := by simp [ht]
  target := by rw [hs, hg]; rfl
  syncTimes := by simp [hs]
  updTimes := by simp [hu]
  model := by simp [hu, hm]
  src := by
    intro pre t p post h
    rw [h] at hs
    simp [syncs] at hs

theorem Piece.step {c : Cfg θ O H} {s s' : St θ O A H} {q₁ q₂ : List (Ev θ O A R H)} {τ : Nat} {p : θ}
    (ht : s'.t = s.t + 1) (hm : s'.model = p)
    (hg : s'.target = if τ % c.targetInterval = 0 then c.sync s.model s.target else s.target)
    (hs₁ : syncs q₁ = []) (hu₁ : updates q₁ = []) (hs₂ : syncs q₂ = []) (hu₂ : updates q₂ = []) :
    Piece c s s' (q₁ ++ (if τ % c.targetInterval = 0 then [.sync τ s.model] else []) ++ q₂ ++
      [.update τ p]) [τ] := by
  have hS : syncs (q₁ ++ (if τ % c.targetInterval = 0 then [.sync τ s.model] else []) ++ q₂ ++
      [.update τ p]) = if τ % c.targetInterval = 0 then [(τ, s.model)] else [] := by
    simp only [syncs_append, hs₁, hs₂]
    split <;> rfl
  have hU : updates (q₁ ++ (if τ % c.targetInterval = 0 then [.sync τ s.model] else []) ++ q₂ ++
      [.update τ p]) = [(τ, p)] := by
    simp only [updates_append, hu₁, hu₂]
    split <;> rfl
  refine ⟨by simp [ht], ?_, ?_, by rw [hU]; rfl, by rw [hU, hm]; rfl, ?_⟩
  · rw [hS, hg]; split <;> rfl
  · rw [hS]
    by_cases h : τ % c.targetInterval = 0 <;> simp [h]
  · intro pre t p' post h
    have h1 : (t, p') ∈ syncs (pre ++ .sync t p' :: post) := by simp [syncs]
    rw [← h, hS] at h1
    split at h1
    · simp only [List.mem_singleton, Prod.mk.injEq] at h1
      obtain ⟨-, rfl⟩ := h1
      have hl := congrArg List.getLast? h
      simp only [List.getLast?_append, List.getLast?_singleton, Option.some_or, List.getLast?_cons] at hl
      rcases List.eq_nil_or_concat post with rfl | ⟨l, x, rfl⟩
      · simp at hl
      · simp at hl
        subst hl
        rw [h] at hU
        have hlen := congrArg List.length hU
        simp only [updates_append, List.length_append] at hlen
        have h2 : updates (H := H) (O := O) (A := A) (R := R) (Ev.sync t s.model :: (l ++ [.update τ p])) =
            updates l ++ [(τ, p)] := by
          simp [updates]
        rw [List.concat_eq_append] at hlen
        rw [h2] at hlen
        have : updates pre = [] := by
          apply List.length_eq_zero_iff.1
          simp at hlen; omega
        simp [this]
    · simp at h1

theorem actAppend_inv (c : Cfg θ O H) (s s' : St θ O A H) (o : O) (r : R) (ev : List (Ev θ O A R H))
    (h : c.actAppend s o r = .ok (s', ev)) : s'.t = s.t ∧ s'.model = s.model ∧ s'.target = s.target ∧
      syncs ev = [] ∧ updates ev = [] := by
  unfold Cfg.actAppend at h
  split at h
  · simp only [Except.ok.injEq, Prod.mk.injEq] at h
    obtain ⟨rfl, rfl⟩ := h
    exact ⟨rfl, rfl, rfl, rfl, rfl⟩
  · simp at h
  · simp only [Except.ok.injEq, Prod.mk.injEq] at h
    obtain ⟨rfl, rfl⟩ := h
    exact ⟨rfl, rfl, rfl, rfl, rfl⟩

theorem evaluate_fields (c : Cfg θ O H) (s : St θ O A H) (os : List O) :
    (c.evaluate s os).t = s.t ∧ (c.evaluate s os).model = s.model ∧
      (c.evaluate s os).target = s.target := by
  unfold Cfg.evaluate; split <;> exact ⟨rfl, rfl, rfl⟩

theorem target_if (c : Cfg θ O H) (s : St θ O A H) (ev : List (Ev θ O A R H)) (m g : θ) (τ : Nat)
    (h : ev = (if τ % c.targetInterval = 0 then [.sync τ m] else [])) :
    (syncs ev).foldl (fun d p => c.sync p.2 d) g =
      if τ % c.targetInterval = 0 then c.sync m g else g := by
  subst h; split <;> rfl

theorem act_piece (c : Cfg θ O H) (s s' : St θ O A H) (o : O) (r : R) (p : θ) (a : A)
    (ev : List (Ev θ O A R H)) (h : c.actAndTrain s o r p a = .ok (s', ev)) :
    Piece c s s' ev [s.t] := by
  unfold Cfg.actAndTrain at h
  obtain ⟨⟨s₁, e₁⟩, h1, h⟩ := except_bind_ok.1 h
  obtain ⟨⟨s₂, e₂⟩, h2, h⟩ := except_bind_ok.1 h
  simp only [pure, Except.pure, Except.ok.injEq, Prod.mk.injEq] at h
  obtain ⟨rfl, rfl⟩ := h
  obtain ⟨a1, a2, a3, a4, a5⟩ := actAppend_inv c s s₁ o r e₁ h1
  obtain ⟨b0, b1, b2, b3, b4⟩ := syncIfDue_inv c s₁ s₂ e₂ h2
  obtain ⟨c1, c2, c3⟩ := evaluate_fields c { s₂ with model := p } [o]
  rw [target_if c s e₂ s₁.model s₁.target s₁.t b4] at b3
  rw [b4, a1, a2]
  rw [a1, a2, a3] at b3
  have := Piece.step (c := c) (s := s) (s' := { c.evaluate { s₂ with model := p } [o] with
    t := (c.evaluate { s₂ with model := p } [o]).t + 1, lastState := some o, lastAction := some a })
    (q₁ := e₁) (q₂ := []) (τ := s.t) (p := p) 
    (show (c.evaluate _ _).t + 1 = _ by rw [c1]; show s₂.t + 1 = _; rw [b1, a1])
    (show (c.evaluate _ _).model = _ by rw [c2])
    (show (c.evaluate _ _).target = _ by rw [c3]; exact b3) a4 a5 rfl rfl
  simpa [b1, a1] using this

theorem stop_piece (c : Cfg θ O H) (s s' : St θ O A H) (o : O) (r : R) (d : Bool)
    (ev : List (Ev θ O A R H)) (h : c.stopEpisodeAndTrain s o r d = .ok (s', ev)) :
    Piece c s s' ev [] := by
  unfold Cfg.stopEpisodeAndTrain at h
  split at h
  · simp only [Except.ok.injEq, Prod.mk.injEq] at h
    obtain ⟨rfl, rfl⟩ := h
    exact Piece.quiet rfl rfl rfl rfl rfl
  · simp at h

theorem observeRecord_inv (c : Cfg θ O H) (inp : Obs θ O R) (i : Nat) (s s' : St θ O A H)
    (ev : List (Ev θ O A R H)) (h : c.observeRecord inp i s = .ok (s', ev)) :
    s'.t = s.t ∧ s'.model = s.model ∧ s'.target = s.target ∧ syncs ev = [] ∧ updates ev = [] := by
  unfold Cfg.observeRecord at h
  obtain ⟨lo, -, h⟩ := except_bind_ok.1 h
  cases lo with
  | none =>
    simp only [pure, Except.pure, Except.ok.injEq, Prod.mk.injEq] at h
    obtain ⟨rfl, rfl⟩ := h
    exact ⟨rfl, rfl, rfl, rfl, rfl⟩
  | some o =>
    simp only [Cfg.observeAppend] at h
    obtain ⟨a, -, h⟩ := except_bind_ok.1 h
    obtain ⟨_, -, h⟩ := except_bind_ok.1 h
    obtain ⟨_, -, h⟩ := except_bind_ok.1 h
    obtain ⟨_, -, h⟩ := except_bind_ok.1 h
    obtain ⟨_, -, h⟩ := except_bind_ok.1 h
    cases a with
    | none => simp at h
    | some a =>
      simp only at h
      split at h <;>
      · simp only [pure, Except.pure, Except.ok.injEq, Prod.mk.injEq] at h
        obtain ⟨rfl, rfl⟩ := h
        exact ⟨rfl, rfl, rfl, rfl, rfl⟩

theorem observeStep_piece (c : Cfg θ O H) (inp : Obs θ O R) (i : Nat) (s s' : St θ O A H)
    (ev : List (Ev θ O A R H)) (h : c.observeStep inp i s = .ok (s', ev)) :
    Piece c s s' ev [s.t + 1] := by
  unfold Cfg.observeStep at h
  obtain ⟨⟨s₁, e₁⟩, h1, h⟩ := except_bind_ok.1 h
  obtain ⟨⟨s₂, e₂⟩, h2, h⟩ := except_bind_ok.1 h
  obtain ⟨p, -, h⟩ := except_bind_ok.1 h
  simp only [pure, Except.pure, Except.ok.injEq, Prod.mk.injEq] at h
  obtain ⟨rfl, rfl⟩ := h
  obtain ⟨b0, b1, b2, b3, b4⟩ := syncIfDue_inv c _ s₁ e₁ h1
  obtain ⟨a1, a2, a3, a4, a5⟩ := observeRecord_inv c inp i s₁ s₂ e₂ h2
  rw [target_if c s e₁ _ _ _ b4] at b3
  simp only at b1 b2 b3 b4
  rw [b4]
  have := Piece.step (c := c) (s := s) (s' := { s₂ with model := p })
    (q₁ := []) (q₂ := e₂) (τ := s.t + 1) (p := p) (by simp [b1, a1]) rfl
    (by simp only [a3, b3]) rfl rfl a4 a5
  simpa [b1, a1] using this

theorem observeLoop_piece (c : Cfg θ O H) (inp : Obs θ O R) : ∀ (k i : Nat) (s s' : St θ O A H)
    (ev : List (Ev θ O A R H)), c.observeLoop inp i k s = .ok (s', ev) →
    Piece c s s' ev (List.range' (s.t + 1) k) := by
  intro k
  induction k with
  | zero =>
    intro i s s' ev h
    simp only [Cfg.observeLoop, pure, Except.pure, Except.ok.injEq, Prod.mk.injEq] at h
    obtain ⟨rfl, rfl⟩ := h
    exact Piece.quiet rfl rfl rfl rfl rfl
  | succ k ih =>
    intro i s s' ev h
    simp only [Cfg.observeLoop] at h
    obtain ⟨⟨s₁, e₁⟩, h1, h⟩ := except_bind_ok.1 h
    obtain ⟨⟨s₂, e₂⟩, h2, h⟩ := except_bind_ok.1 h
    simp only [pure, Except.pure, Except.ok.injEq, Prod.mk.injEq] at h
    obtain ⟨rfl, rfl⟩ := h
    have p1 := observeStep_piece c inp i s s₁ e₁ h1
    have p2 := ih (i + 1) s₁ s₂ e₂ h2
    have := p1.trans p2
    rw [p1.time] at this
    simpa [List.range'_succ] using this

/-- The time steps that a call goes through when it starts at time `t`. -/
def Call.times (t : Nat) : Call θ O A R → List Nat
  | .act .. => [t]
  | .stop .. => []
  | .batchAct .. => []
  | .batchObserve inp => List.range' (t + 1) inp.obs.length

theorem call_piece (c : Cfg θ O H) (x : Call θ O A R) (s s' : St θ O A H)
    (ev : List (Ev θ O A R H)) (h : c.call s x = .ok (s', ev)) : Piece c s s' ev (x.times s.t) := by
  cases x with
  | act o r p a => exact act_piece c s s' o r p a ev h
  | stop o r d => exact stop_piece c s s' o r d ev h
  | batchAct os as =>
    simp only [Cfg.call, Except.ok.injEq, Prod.mk.injEq] at h
    obtain ⟨rfl, rfl⟩ := h
    obtain ⟨h1, h2, h3⟩ := evaluate_fields c s os
    exact Piece.quiet h1 h2 h3 rfl rfl
  | batchObserve inp =>
    simp only [Cfg.call, Cfg.batchObserveAndTrain] at h
    obtain ⟨⟨s₁, e₁⟩, h1, h⟩ := except_bind_ok.1 h
    have p1 := observeLoop_piece c inp _ _ s s₁ e₁ h1
    split at h <;>
    · simp only [pure, Except.pure, Except.ok.injEq, Prod.mk.injEq] at h
      obtain ⟨rfl, rfl⟩ := h
      exact ⟨p1.1, p1.2, p1.3, p1.4, p1.5, p1.6⟩

theorem run_piece (c : Cfg θ O H) : ∀ (l : List (Call θ O A R)) (s s' : St θ O A H)
    (ev : List (Ev θ O A R H)), c.run s l = .ok (s', ev) → ∃ ts, Piece c s s' ev ts ∧
    ((∀ x ∈ l, x.single = true) → ts = List.range' s.t (acts l)) ∧
    ((∀ x ∈ l, x.single = false) → ts = List.range' (s.t + 1) (batchSteps l)) := by
  intro l
  induction l with
  | nil =>
    intro s s' ev h
    simp only [Cfg.run, pure, Except.pure, Except.ok.injEq, Prod.mk.injEq] at h
    obtain ⟨rfl, rfl⟩ := h
    exact ⟨[], Piece.quiet rfl rfl rfl rfl rfl, fun _ => rfl, fun _ => rfl⟩
  | cons x l ih =>
    intro s s' ev h
    simp only [Cfg.run] at h
    obtain ⟨⟨s₁, e₁⟩, h1, h⟩ := except_bind_ok.1 h
    obtain ⟨⟨s₂, e₂⟩, h2, h⟩ := except_bind_ok.1 h
    simp only [pure, Except.pure, Except.ok.injEq, Prod.mk.injEq] at h
    obtain ⟨rfl, rfl⟩ := h
    have p1 := call_piece c x s s₁ e₁ h1
    obtain ⟨ts, p2, q1, q2⟩ := ih s₁ s₂ e₂ h2
    refine ⟨_, p1.trans p2, ?_, ?_⟩
    · intro hx
      rw [q1 (fun y hy => hx y (by simp [hy])), p1.time]
      have := hx x (by simp)
      cases x with
      | act o r p a =>
        have e : acts (Call.act o r p a :: l) = acts l + 1 := by simp [acts]; omega
        rw [e, List.range'_succ]; rfl
      | stop o r d =>
        have e : acts (Call.stop (θ := θ) (A := A) o r d :: l) = acts l := by simp [acts]
        rw [e]; rfl
      | batchAct os as => simp [Call.single] at this
      | batchObserve inp => simp [Call.single] at this
    · intro hx
      rw [q2 (fun y hy => hx y (by simp [hy])), p1.time]
      have := hx x (by simp)
      cases x with
      | act o r p a => simp [Call.single] at this
      | stop o r d => simp [Call.single] at this
      | batchAct os as =>
        have e : batchSteps (Call.batchAct (θ := θ) (R := R) os as :: l) = batchSteps l := by
          simp [batchSteps]
        rw [e]; rfl
      | batchObserve inp =>
        have e : batchSteps (Call.batchObserve (A := A) inp :: l) = inp.obs.length + batchSteps l := by
          simp [batchSteps]
        rw [e]
        simp only [Call.times, List.length_range']
        rw [show s.t + inp.obs.length + 1 = s.t + 1 + inp.obs.length by omega, List.range'_append_1]

/-- **C43**, single interface: with `N` calls of `act_and_train` in the history
the target network is synchronised exactly once at each time step `t < N` that
is a multiple of `target_update_interval`, and never else. -/
theorem C43_single_times (c : Cfg θ O H) (p0 : θ) (l : List (Call θ O A R))
    (hl : ∀ x ∈ l, x.single = true) (s' : St θ O A H) (ev) (h : c.run (init p0) l = .ok (s', ev)) :
    (syncs ev).map (·.1) = (List.range (acts l)).filter (fun t => t % c.targetInterval == 0) := by
  obtain ⟨ts, p, q, -⟩ := run_piece c l _ _ _ h
  rw [p.syncTimes, q hl, List.range_eq_range']; rfl

/-- **C43**, batch interface: with `N` environment steps in total the target
network is synchronised exactly once at each `t` in `1..N` that is a multiple of
`target_update_interval`, and never else. -/
theorem C43_batch_times (c : Cfg θ O H) (p0 : θ) (l : List (Call θ O A R))
    (hl : ∀ x ∈ l, x.single = false) (s' : St θ O A H) (ev) (h : c.run (init p0) l = .ok (s', ev)) :
    (syncs ev).map (·.1) = (List.range' 1 (batchSteps l)).filter (fun t => t % c.targetInterval == 0) := by
  obtain ⟨ts, p, -, q⟩ := run_piece c l _ _ _ h
  rw [p.syncTimes, q hl]; rfl

/-- **C43**: nothing but the synchronisations changes the target parameters, so
with the hard method they are always those of the last synchronisation (of the
constructor before the first one). -/
theorem C43_hard (c : Cfg θ O H) (hard : ∀ src dst, c.sync src dst = src) (p0 : θ)
    (l : List (Call θ O A R)) (s' : St θ O A H) (ev) (h : c.run (init p0) l = .ok (s', ev)) :
    s'.target = ((syncs ev).getLast?.map (·.2)).getD p0 := by
  obtain ⟨ts, p, -, -⟩ := run_piece c l _ _ _ h
  rw [p.target]
  rcases List.eq_nil_or_concat (syncs ev) with h | ⟨l, x, h⟩
  · rw [h]; rfl
  · rw [h]; simp [hard]

/-- **C43**, any method: the target parameters are the result of the
synchronisations in order. -/
theorem C43_target (c : Cfg θ O H) (p0 : θ)
    (l : List (Call θ O A R)) (s' : St θ O A H) (ev) (h : c.run (init p0) l = .ok (s', ev)) :
    s'.target = (syncs ev).foldl (fun dst x => c.sync x.2 dst) p0 := by
  obtain ⟨ts, p, -, -⟩ := run_piece c l _ _ _ h
  exact p.target

/-- **C43**: each synchronisation reads the parameters that the model has at that
moment, i.e. after the last update before it. -/
theorem C43_source (c : Cfg θ O H) (p0 : θ) (l : List (Call θ O A R)) (s' : St θ O A H) (ev)
    (h : c.run (init p0) l = .ok (s', ev)) (pre t p post) (he : ev = pre ++ .sync t p :: post) :
    p = ((updates pre).getLast?.map (·.2)).getD p0 := by
  obtain ⟨ts, q, -, -⟩ := run_piece c l _ _ _ h
  exact q.src pre t p post he

/-! ## Non-vacuity -/

/-- A recurrent agent with numbers as parameters and lists as recurrent state. -/
def exCfg : Cfg Nat Nat (List Nat) :=
  { targetInterval := 2, recurrent := true, sync := fun src _ => src,
    net := fun p h o => (p + o) :: h, zero := [] }

/-- Two decisions, then termination. -/
def exEp : Episode Nat Nat Nat Int :=
  { first := ⟨10, 0, 1, 5⟩, rest := [⟨11, -1, 2, 6⟩], finalObs := 12, finalReward := 7, done := true }

example : (bufCalls (((exCfg.run (init 0) exEp.calls).toOption.map (·.2)).getD [])).length = 3 := by
  decide
example : exEp.steps.map (fun s => (s.state, s.action, s.reward, s.nextState, s.terminal)) =
    [(10, 5, -1, 11, false), (11, 6, 7, 12, true)] := by decide
example : hiddenPairs exCfg none exEp.turns = [(none, some [11]), (some [11], some [13, 11])] := by
  decide
example : (syncs (((exCfg.run (init 0) (exEp.calls ++ exEp.calls)).toOption.map (·.2)).getD [])) =
    [(0, 0), (2, 2)] := by decide
example : ∀ x ∈ exEp.calls, x.single = true := by decide

/-- Two environments, the second one is reset. -/
def exRound : List (EnvRound Nat Nat Nat Int) :=
  [⟨1, 2, 3, 4, false, false, 7⟩, ⟨5, 6, 7, 8, false, true, 9⟩]

example : (bufCalls (((exCfg.run (init 0) (roundCalls exRound ++ roundCalls exRound)).toOption.map
    (·.2)).getD [])).length = 6 := by decide
example : batchHiddenPairs exCfg 0 [[], []] [exRound, exRound] =
    [([], [1]), ([], [5]), ([1], [10, 1]), ([], [14])] := by decide
example : (syncs (((exCfg.run (init 0) (roundCalls exRound ++ roundCalls exRound)).toOption.map
    (·.2)).getD [])) = [(2, 7), (4, 7)] := by decide
example : ∀ x ∈ roundCalls exRound, x.single = false := by decide

theorem idx_some {α : Type} {l : List α} {i : Nat} {x : α} (h : l[i]? = some x) : idx l i = .ok x := by
  unfold idx; rw [h]

theorem idx_short {α : Type} {l : List α} {i : Nat} (h : l.length ≤ i) : idx l i = .error .indexError := by
  unfold idx; rw [List.getElem?_eq_none h]

theorem observeLoop_short (c : Cfg θ O H) (hc : 0 < c.targetInterval) (inp : Obs θ O R) (k : Nat) (ho : inp.obs.length = k)
    (hd : inp.done.length = k) (hr : inp.reset.length = k) (hp : inp.params.length = k) : ∀ (n i : Nat) (s : St θ O A H), i + n = k →
    s.batchLastObs.length = k → s.batchLastAction.length = k →
    (∀ j, i ≤ j → ∀ o, s.batchLastObs[j]? = some (some o) → ∃ a, s.batchLastAction[j]? = some (some a)) →
    (∃ j o, i ≤ j ∧ j < k ∧ inp.reward.length ≤ j ∧ s.batchLastObs[j]? = some (some o)) →
    c.observeLoop inp i n s = .error .indexError := by
  intro n
  induction n with
  | zero =>
    rintro i s hk - - - ⟨j, o, h1, h2, -⟩
    omega
  | succ n ih =>
    intro i s hk h1 h2 h3 ⟨j, o, j1, j2, j3, j4⟩
    obtain ⟨tg, e1, hs, -⟩ := syncIfDue_ok (R := R) c hc { s with t := s.t + 1 }
    have hlo : s.batchLastObs[i]? = some s.batchLastObs[i] := List.getElem?_eq_getElem (by omega)
    have hpi : idx inp.params i = .ok inp.params[i] := idx_some (List.getElem?_eq_getElem (by omega))
    unfold Cfg.observeLoop
    by_cases hij : i = j ∨ inp.reward.length ≤ i ∧ s.batchLastObs[i] ≠ none
    · have : ∃ o, s.batchLastObs[i]? = some (some o) ∧ inp.reward.length ≤ i := by
        rcases hij with rfl | ⟨ha, hb⟩
        · exact ⟨o, j4, j3⟩
        · obtain ⟨o, ho⟩ := Option.ne_none_iff_exists'.1 hb
          exact ⟨o, by rw [hlo, ho], ha⟩
      obtain ⟨o, ho, hri⟩ := this
      obtain ⟨a, ha⟩ := h3 i (Nat.le_refl i) o ho
      have hl : idx s.batchLastObs i = .ok (some o) := idx_some ho
      have hl' : idx s.batchLastAction i = .ok (some a) := idx_some ha
      simp only [Cfg.observeStep, hs, Cfg.observeRecord, hl, Cfg.observeAppend, hl', idx_short hri, bind, Except.bind]
    · rw [not_or] at hij
      obtain ⟨hij, hnr⟩ := hij
      cases hx : s.batchLastObs[i] with
      | none =>
        have hl : idx s.batchLastObs i = .ok none := idx_some (by rw [hlo, hx])
        simp only [Cfg.observeStep, hs, Cfg.observeRecord, hl, hpi, bind, Except.bind, pure, Except.pure]
        rw [ih (i + 1) { s with t := s.t + 1, model := inp.params[i], target := tg } (by omega) h1 h2 (fun j hj => h3 j (by omega)) ⟨j, o, by omega, j2, j3, j4⟩]
      | some o' =>
        have hri : i < inp.reward.length := by
          by_contra hcon
          exact hnr ⟨by omega, by rw [hx]; simp⟩
        have hlo' : s.batchLastObs[i]? = some (some o') := by rw [hlo, hx]
        obtain ⟨a, ha⟩ := h3 i (Nat.le_refl i) o' hlo'
        have hl : idx s.batchLastObs i = .ok (some o') := idx_some hlo'
        have hl' : idx s.batchLastAction i = .ok (some a) := idx_some ha
        have hrw : idx inp.reward i = .ok inp.reward[i] := idx_some (List.getElem?_eq_getElem hri)
        have hob : idx inp.obs i = .ok inp.obs[i] := idx_some (List.getElem?_eq_getElem (by omega))
        have hdn : idx inp.done i = .ok inp.done[i] := idx_some (List.getElem?_eq_getElem (by omega))
        have hrs : idx inp.reset i = .ok inp.reset[i] := idx_some (List.getElem?_eq_getElem (by omega))
        by_cases hend : (inp.reset[i] || inp.done[i]) = true
        · simp only [Cfg.observeStep, hs, Cfg.observeRecord, hl, Cfg.observeAppend, hl', hrw, hob, hdn, hrs, hend, if_true, hpi, bind, Except.bind, pure, Except.pure]
          rw [ih (i + 1) { s with t := s.t + 1, model := inp.params[i], target := tg, batchLastObs := s.batchLastObs.set i none, batchLastAction := s.batchLastAction.set i none } (by omega) (by simpa using h1) (by simpa using h2) ?_ ⟨j, o, by omega, j2, j3, ?_⟩]
          · intro j' hj' o'' hh
            simp only [List.getElem?_set_ne (show i ≠ j' by omega)] at hh ⊢
            exact h3 j' (by omega) o'' hh
          · simp only [List.getElem?_set_ne hij]; exact j4
        · simp only [Cfg.observeStep, hs, Cfg.observeRecord, hl, Cfg.observeAppend, hl', hrw, hob, hdn, hrs, hend, if_false, hpi, bind, Except.bind, pure, Except.pure, Bool.false_eq_true]
          rw [ih (i + 1) { s with t := s.t + 1, model := inp.params[i], target := tg } (by omega) h1 h2 (fun j hj => h3 j (by omega)) ⟨j, o, by omega, j2, j3, j4⟩]

/-- C42: too few rewards for the environments that have acted are not passed over in silence: `batch_observe_and_train` raises `IndexError`. -/
theorem C42_batch_short (c : Cfg θ O H) (hc : 0 < c.targetInterval) (inp : Obs θ O R) (s : St θ O A H)
    (hd : inp.done.length = inp.obs.length) (hr : inp.reset.length = inp.obs.length) (hp : inp.params.length = inp.obs.length)
    (h1 : s.batchLastObs.length = inp.obs.length) (h2 : s.batchLastAction.length = inp.obs.length)
    (h3 : ∀ (i : Nat) (o : O), s.batchLastObs[i]? = some (some o) → ∃ a, s.batchLastAction[i]? = some (some a))
    (i : Nat) (o : O) (hi : inp.reward.length ≤ i) (ho : s.batchLastObs[i]? = some (some o)) :
    c.batchObserveAndTrain s inp = .error .indexError := by
  have hlt : i < inp.obs.length := by
    rw [← h1]
    by_contra hcon
    rw [List.getElem?_eq_none (by omega)] at ho
    cases ho
  unfold Cfg.batchObserveAndTrain
  rw [observeLoop_short c hc inp inp.obs.length rfl hd hr hp inp.obs.length 0 s (by omega) h1 h2 (fun j _ => h3 j) ⟨i, o, by omega, hlt, hi, ho⟩]
  rfl

end Verif.DQN
