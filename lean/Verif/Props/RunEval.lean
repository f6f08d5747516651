import Mathlib.Data.Int.Order.Basic
import Mathlib.Algebra.Group.Int.Defs
import Verif.Proofs.Eff
import Verif.Spec.EvalEpisodes
set_option autoImplicit false

/-! # C28: evaluation episodes -/

namespace Verif.RunEval
open Train (StepOut)
variable {O A K X : Type}

theorem stepEvents_append (obs : O) (l : List (A × StepOut O K)) (a : A) (out : StepOut O K) :
    stepEvents obs (l ++ [(a, out)]) =
      stepEvents obs l ++ [.act ((l.getLast?.map (·.2.obs)).getD obs) a, .step a out] := by
  induction l generalizing obs with
  | nil => rfl
  | cons x l ih =>
    obtain ⟨a', out'⟩ := x
    simp only [List.cons_append, stepEvents, ih]
    cases l with
    | nil => rfl
    | cons y l =>
      rw [List.getLast?_cons_cons, List.getLast?_eq_some_getLast (List.cons_ne_nil y l)]
      rfl

theorem endsAt_append_lt (maxLen : Option Nat) (l : List (A × StepOut O K)) (x : A × StepOut O K) (i : Nat)
    (h : i < l.length) : EndsAt maxLen (l ++ [x]) i ↔ EndsAt maxLen l i := by
  unfold EndsAt; rw [List.getElem?_append_left h]

theorem not_endsAt_ge (maxLen : Option Nat) (l : List (A × StepOut O K)) (i : Nat) (h : l.length ≤ i) :
    ¬ EndsAt maxLen l i := by
  rintro ⟨x, hx, _⟩
  rw [List.getElem?_eq_none h] at hx; cases hx

theorem endsAt_last (maxLen : Option Nat) (l : List (A × StepOut O K)) (x : A × StepOut O K) :
    EndsAt maxLen (l ++ [x]) l.length ↔ ends maxLen (l.length + 1) x.2 = true := by
  unfold EndsAt ends
  rw [List.getElem?_append_right (Nat.le_refl _)]
  simp only [Nat.sub_self, List.getElem?_cons_zero, Option.some.injEq, exists_eq_left', Bool.or_eq_true, beq_iff_eq]
  constructor
  · rintro (h | h | h)
    · exact .inl h
    · exact .inr (.inr h)
    · exact .inr (.inl h.symm)
  · rintro (h | h | h)
    · exact .inl h
    · exact .inr (.inr h.symm)
    · exact .inr (.inl h)

variable [AddMonoid K]

/-- The calls of an episode that is not stopped yet. -/
def openEvents : Option (Episode O A K) → List (Ev O A K)
  | none => []
  | some e => .reset e.first :: stepEvents e.first e.steps

/-- The loop's state: the complete episodes so far and the current one. -/
structure LInv (maxLen : Option Nat) (l : Loc O K) (tr : List (Ev O A K)) (eps : List (Episode O A K))
    (cur : Option (Episode O A K)) : Prop where
  complete : ∀ e ∈ eps, Complete maxLen e
  scores : l.scores = eps.map Episode.ret
  timestep : l.timestep = (eps.map (·.steps.length)).sum + ((cur.map (·.steps.length)).getD 0)
  reset : l.reset = cur.isNone
  events : tr = eps.flatMap Episode.events ++ openEvents cur
  cur : ∀ e, cur = some e → Unfinished maxLen e ∧ l.testR = e.ret ∧ l.episodeLen = e.steps.length ∧
    l.obs = e.steps.getLast?.map (·.2.obs)

theorem stopIf_ok {b : Bool} {w : Iter O A K X} {ev : List (Ev O A K)} {u : Unit}
    (h : stopIf b w () = (ev, (), .ok u)) : ev = if b then [.stop] else [] := by
  cases b with
  | true => exact (Eff.call_ok h).2.1
  | false => exact (Eff.pure_ok h).1

/-- One iteration that does not raise. -/
theorem iter_ok {b : Budget} {maxLen : Option Nat} {w : Iter O A K X} {l : Loc O K}
    {ev : List (Ev O A K)} {r : Loc O K × Bool} (hr : iter b maxLen w l () = (ev, (), .ok r)) :
    ∃ obs testR len pre a out,
      ((pre = [] ∧ l.reset = false ∧ l.obs = some obs ∧ testR = l.testR ∧ len = l.episodeLen) ∨
        (pre = [.reset obs] ∧ (l.reset = true ∨ l.obs = none) ∧ testR = 0 ∧ len = 0)) ∧
      r.1 = ⟨some out.obs, testR + out.r, len + 1, l.timestep + 1,
        (if ends maxLen (len + 1) out then l.scores ++ [testR + out.r] else l.scores),
        ends maxLen (len + 1) out⟩ ∧
      r.2 = b.spent r.1.scores.length (l.timestep + 1) ∧
      ev = pre ++ [.act obs a, .step a out] ++ (if r.1.reset || r.2 then [.stop] else []) := by
  unfold iter at hr
  obtain ⟨ev1, ⟨⟩, ⟨obs, testR, len⟩, ev2, h1, h2, rfl⟩ := Eff.bind_ok hr
  obtain ⟨ev3, ⟨⟩, a, ev4, h3, h4, rfl⟩ := Eff.bind_ok h2
  obtain ⟨ev5, ⟨⟩, out, ev6, h5, h6, rfl⟩ := Eff.bind_ok h4
  obtain ⟨_, rfl, _⟩ := Eff.call_ok h3
  obtain ⟨_, rfl, _⟩ := Eff.call_ok h5
  have hlast : ∃ ev7 ev8, ev6 = ev7 ++ ev8 ∧
      r = ((⟨some out.obs, testR + out.r, len + 1, l.timestep + 1,
        (if ends maxLen (len + 1) out then l.scores ++ [testR + out.r] else l.scores),
        ends maxLen (len + 1) out⟩ : Loc O K), b.spent (if ends maxLen (len + 1) out then l.scores ++ [testR + out.r] else l.scores).length (l.timestep + 1)) ∧ ev8 = [] ∧
      ev7 = (if r.1.reset || r.2 then [.stop] else []) := by
    obtain ⟨ev7, ⟨⟩, _, ev8, h7, h8, rfl⟩ := Eff.bind_ok h6
    obtain ⟨rfl, _, rfl⟩ := Eff.pure_ok h8
    refine ⟨_, _, rfl, rfl, rfl, ?_⟩
    exact stopIf_ok h7
  obtain ⟨ev7, ev8, rfl, hl, rfl, hev⟩ := hlast
  refine ⟨obs, testR, len, ev1, a, out, ?_, by rw [hl], by rw [hl], by rw [hev]; simp⟩
  clear hl hev hr h2 h4 h6
  unfold start at h1
  cases hx : (if l.reset then none else l.obs) with
  | some o =>
    rw [hx] at h1
    obtain ⟨rfl, _, h⟩ := Eff.pure_ok h1
    simp only [Prod.mk.injEq] at h
    obtain ⟨rfl, rfl, rfl⟩ := h
    cases hrs : l.reset with
    | true => rw [hrs] at hx; cases hx
    | false => rw [hrs] at hx; exact .inl ⟨rfl, rfl, hx, rfl, rfl⟩
  | none =>
    rw [hx] at h1
    obtain ⟨ev9, ⟨⟩, o, ev10, h7, h8, rfl⟩ := Eff.bind_ok h1
    obtain ⟨_, rfl, _⟩ := Eff.call_ok h7
    obtain ⟨rfl, _, h⟩ := Eff.pure_ok h8
    simp only [Prod.mk.injEq] at h
    obtain ⟨rfl, rfl, rfl⟩ := h
    refine .inr ⟨rfl, ?_, rfl, rfl⟩
    cases hrs : l.reset with
    | true => exact .inl rfl
    | false => rw [hrs] at hx; exact .inr hx

/-- One iteration: the current episode (or a new one) gets one more step; it
may end. -/
theorem iter_inv {b : Budget} {maxLen : Option Nat} {w : Iter O A K X} {l : Loc O K}
    {tr ev : List (Ev O A K)} {eps : List (Episode O A K)} {cur : Option (Episode O A K)}
    {r : Loc O K × Bool}
    (h : LInv maxLen l tr eps cur) (hr : iter b maxLen w l () = (ev, (), .ok r)) :
    r.1.timestep = l.timestep + 1 ∧
    r.2 = b.spent r.1.scores.length r.1.timestep ∧
    ((∃ e, LInv maxLen r.1 (tr ++ ev) (eps ++ [e]) none) ∨
      (∃ e ev', ev = ev' ++ (if r.2 then [.stop] else []) ∧ LInv maxLen r.1 (tr ++ ev') eps (some e))) := by
  obtain ⟨obs, testR, len, pre, a, out, hpre, h1, h2, h3⟩ := iter_ok hr
  refine ⟨by rw [h1], by rw [h2, h1], ?_⟩
  -- the episode before this step
  have hcur : ∃ first steps, testR = (steps.map (·.2.r)).sum ∧ len = steps.length ∧
      (∀ i, ¬ EndsAt maxLen steps i) ∧
      (steps.getLast?.map (·.2.obs)).getD first = obs ∧
      tr ++ pre = eps.flatMap Episode.events ++ (.reset first :: stepEvents first steps) ∧
      l.timestep = (eps.map (·.steps.length)).sum + steps.length := by
    cases hc : cur with
    | none =>
      have hres := h.reset
      rw [hc] at hres
      rcases hpre with ⟨_, h', _⟩ | ⟨rfl, _, rfl, rfl⟩
      · rw [h'] at hres; cases hres
      · refine ⟨obs, [], rfl, rfl, fun i => not_endsAt_ge _ _ _ (Nat.zero_le _), rfl, ?_, ?_⟩
        · rw [h.events, hc]; simp [stepEvents, openEvents]
        · rw [h.timestep, hc]; rfl
    | some e =>
      have hres := h.reset
      rw [hc] at hres
      obtain ⟨⟨hne, hun⟩, i1, i2, i3⟩ := h.cur e hc
      have hlast := List.getLast?_eq_some_getLast hne
      rw [hlast] at i3
      rcases hpre with ⟨rfl, _, h', rfl, rfl⟩ | ⟨_, h' | h', _⟩
      · refine ⟨e.first, e.steps, i1, i2, hun, ?_, ?_, ?_⟩
        · rw [i3] at h'
          rw [hlast]
          simpa using h'
        · rw [List.append_nil, h.events, hc]; rfl
        · rw [h.timestep, hc]; rfl
      · rw [h'] at hres; cases hres
      · rw [h'] at i3; cases i3
  obtain ⟨first, steps, rfl, rfl, hun, hobs, htr, hts⟩ := hcur
  have hret : (Episode.mk first (steps ++ [(a, out)])).ret = (steps.map (·.2.r)).sum + out.r := by
    simp [Episode.ret]
  have hev : tr ++ (pre ++ [.act obs a, .step a out]) =
      eps.flatMap Episode.events ++ (.reset first :: stepEvents first (steps ++ [(a, out)])) := by
    rw [← List.append_assoc, htr, stepEvents_append, hobs]
    simp
  cases hends : ends maxLen (steps.length + 1) out with
  | true =>
    left
    refine ⟨⟨first, steps ++ [(a, out)]⟩, ?_, ?_, ?_, ?_, ?_, by simp⟩
    · intro e he
      rcases List.mem_append.mp he with he | he
      · exact h.complete e he
      · rw [List.mem_singleton.mp he]
        refine ⟨by simp, fun i => ?_⟩
        simp only [List.length_append, List.length_singleton]
        rcases Nat.lt_trichotomy i steps.length with hi | hi | hi
        · rw [endsAt_append_lt _ _ _ _ hi]
          exact ⟨fun h' => absurd h' (hun i), fun h' => by omega⟩
        · subst hi
          rw [endsAt_last, hends]
          simp
        · exact ⟨fun h' => absurd h' (not_endsAt_ge _ _ _ (by simp; omega)), fun h' => by omega⟩
    · rw [h1]; simp [hends, h.scores, hret]
    · rw [h1]; simp only [hts, List.map_append, List.sum_append, List.map_cons, List.map_nil,
        List.sum_cons, List.sum_nil, List.length_append, List.length_singleton, Option.map_none,
        Option.map_some, Option.getD_none, Option.getD_some, List.length_cons, List.length_nil]; omega
    · rw [h1]; simp [hends]
    · rw [h3, h1]
      simp only [hends, Bool.true_or, if_true, List.flatMap_append, List.flatMap_cons, List.flatMap_nil,
        List.append_nil]
      rw [← List.append_assoc, hev]
      simp [Episode.events, openEvents]
  | false =>
    right
    refine ⟨⟨first, steps ++ [(a, out)]⟩, pre ++ [.act obs a, .step a out], ?_, h.complete, ?_, ?_, ?_, ?_, ?_⟩
    · rw [h3, h1]; simp [hends]
    · rw [h1]; simp [hends, h.scores]
    · rw [h1]; simp only [hts, List.map_append, List.sum_append, List.map_cons, List.map_nil,
        List.sum_cons, List.sum_nil, List.length_append, List.length_singleton, Option.map_none,
        Option.map_some, Option.getD_none, Option.getD_some, List.length_cons, List.length_nil]; omega
    · rw [h1]; simp [hends]
    · exact hev
    · intro e he
      cases he
      refine ⟨⟨by simp, fun i => ?_⟩, by rw [h1, hret], by rw [h1]; simp, by rw [h1]; simp⟩
      rcases Nat.lt_trichotomy i steps.length with hi | hi | hi
      · rw [endsAt_append_lt _ _ _ _ hi]; exact hun i
      · subst hi; rw [endsAt_last, hends]; simp
      · exact not_endsAt_ge _ _ _ (by simp; omega)

/-- How the loop ends: with the complete episodes `eps` and possibly an
unfinished one, stopped. -/
theorem loop_inv {b : Budget} {maxLen : Option Nat} {w : Nat → Iter O A K X} (fuel : Nat) :
    ∀ (i : Nat) (l : Loc O K) (tr : List (Ev O A K)) (eps : List (Episode O A K))
      (cur : Option (Episode O A K)) (ev : List (Ev O A K)) (scores : List K),
    LInv maxLen l tr eps cur →
    b.spent l.scores.length l.timestep = false →
    loop b maxLen w fuel i l () = (ev, (), .ok (some scores)) →
    ∃ (l' : Loc O K) (eps' : List (Episode O A K)) (cur' : Option (Episode O A K)) (ev' : List (Ev O A K)),
      LInv maxLen l' (tr ++ ev') eps' cur' ∧
      ev = ev' ++ (if cur'.isSome then [.stop] else []) ∧
      (∀ n, b = .episodes n → l'.scores.length = n ∧ cur' = none) ∧
      (∀ n, b = .steps n → l'.timestep = n) ∧
      scores = if l'.scores.length = 0 then l'.scores ++ [l'.testR] else l'.scores := by
  induction fuel with
  | zero =>
    intro i l tr eps cur ev scores _ _ hr
    simp only [loop] at hr
    obtain ⟨_, _, h⟩ := Eff.pure_ok hr
    cases h
  | succ fuel ih =>
    intro i l tr eps cur ev scores h hb hr
    simp only [loop] at hr
    obtain ⟨ev1, ⟨⟩, r, ev2, h1, h2, rfl⟩ := Eff.bind_ok hr
    obtain ⟨i1, i2, i3⟩ := iter_inv h h1
    -- at most one more score
    have hlen : r.1.scores.length ≤ l.scores.length + 1 := by
      obtain ⟨_, _, _, _, _, _, _, j1, _⟩ := iter_ok h1
      rw [j1]; simp only; split <;> simp
    cases ht : r.2 with
    | true =>
      rw [ht] at h2 i2 i3
      simp only [if_true] at h2 i3
      obtain ⟨rfl, _, h3⟩ := Eff.pure_ok h2
      cases h3
      cases b with
      | episodes n =>
        have h4 := of_decide_eq_true i2.symm
        have h4' := of_decide_eq_false hb
        rcases i3 with ⟨e, he⟩ | ⟨e, ev', rfl, he⟩
        · refine ⟨r.1, _, none, ev1, he, by simp, ?_, by simp, rfl⟩
          intro m hm; cases hm; exact ⟨by omega, rfl⟩
        · have h5 := he.scores
          rw [← h.scores] at h5
          rw [h5] at h4
          omega
      | steps n =>
        have h4 := of_decide_eq_true i2.symm
        have h4' := of_decide_eq_false hb
        have h5 : ∀ m, Budget.steps n = .steps m → r.1.timestep = m := by
          intro m hm; cases hm; omega
        rcases i3 with ⟨e, he⟩ | ⟨e, ev', rfl, he⟩
        · exact ⟨r.1, _, none, ev1, he, by simp, by simp, h5, rfl⟩
        · exact ⟨r.1, _, some e, ev', he, by simp, by simp, h5, rfl⟩
    | false =>
      rw [ht] at h2 i2 i3
      simp only [Bool.false_eq_true, if_false, List.append_nil] at h2 i3
      have hnext : ∃ eps cur, LInv maxLen r.1 (tr ++ ev1) eps cur := by
        rcases i3 with ⟨e, he⟩ | ⟨e, ev', rfl, he⟩
        · exact ⟨_, _, he⟩
        · exact ⟨_, _, he⟩
      obtain ⟨eps1, cur1, hn⟩ := hnext
      obtain ⟨l', eps', cur', ev', j1, j2, j3, j4, j5⟩ := ih _ _ _ _ _ _ _ hn i2.symm h2
      refine ⟨l', eps', cur', ev1 ++ ev', ?_, ?_, j3, j4, j5⟩
      · rw [← List.append_assoc]; exact j1
      · rw [j2, List.append_assoc]

theorem init_inv (maxLen : Option Nat) : LInv maxLen (Loc.init : Loc O K) ([] : List (Ev O A K)) [] none :=
  ⟨by simp, rfl, rfl, rfl, rfl, by simp⟩

/-- C28: with `n_episodes = k ≥ 1`, whatever the environment and the agent do, a
run that returns has played exactly `k` complete episodes, one after another,
each followed by one `stop_episode`, and returns their returns in order. -/
theorem C28_episodes (k : Nat) (hk : 0 < k) (maxLen : Option Nat) (w : Nat → Iter O A K X) (fuel : Nat)
    (scores : List K) (h : (run (.episodes k) maxLen w fuel).2 = .ok (some scores)) :
    ∃ eps : List (Episode O A K), eps.length = k ∧ (∀ e ∈ eps, Complete maxLen e) ∧
      (run (.episodes k) maxLen w fuel).1 = eps.flatMap Episode.events ∧
      scores = eps.map Episode.ret := by
  have hr : loop (.episodes k) maxLen w fuel 0 Loc.init () = ((run (.episodes k) maxLen w fuel).1, (), .ok (some scores)) := by
    rw [← h]; rfl
  have := loop_inv (b := .episodes k) fuel 0 Loc.init [] [] none _ _ (init_inv maxLen)
    (decide_eq_false (by simp [Loc.init]; omega)) hr
  obtain ⟨l', eps, cur, ev', h1, h2, h3, _, h4⟩ := this
  obtain ⟨h3', rfl⟩ := h3 k rfl
  have hlen : eps.length = k := by rw [← h3', h1.scores, List.length_map]
  refine ⟨eps, hlen, h1.complete, ?_, ?_⟩
  · rw [h2]
    have := h1.events
    simpa [openEvents] using this
  · rw [h4, if_neg (by omega), h1.scores]

/-- C28: with `n_steps = s ≥ 1`, a run that returns has taken exactly `s` steps in
consecutive episodes, of which only the last may be unfinished; every episode
is followed by one `stop_episode`; it returns the returns of the complete
episodes or, if there is none, that of the single unfinished one. -/
theorem C28_steps (s : Nat) (hs : 0 < s) (maxLen : Option Nat) (w : Nat → Iter O A K X) (fuel : Nat)
    (scores : List K) (h : (run (.steps s) maxLen w fuel).2 = .ok (some scores)) :
    ∃ (eps : List (Episode O A K)) (last : Option (Episode O A K)),
      (∀ e ∈ eps, Complete maxLen e) ∧ (∀ e, last = some e → Unfinished maxLen e) ∧
      ((eps ++ last.toList).map (·.steps.length)).sum = s ∧
      (run (.steps s) maxLen w fuel).1 = (eps ++ last.toList).flatMap Episode.events ∧
      scores = (if eps = [] then last.toList else eps).map Episode.ret := by
  have hr : loop (.steps s) maxLen w fuel 0 Loc.init () = ((run (.steps s) maxLen w fuel).1, (), .ok (some scores)) := by
    rw [← h]; rfl
  have := loop_inv (b := .steps s) fuel 0 Loc.init [] [] none _ _ (init_inv maxLen)
    (decide_eq_false (by simp [Loc.init]; omega)) hr
  obtain ⟨l', eps, cur, ev', h1, h2, _, h3, h4⟩ := this
  have h3 := h3 s rfl
  have hev := h1.events
  rw [List.nil_append] at hev
  refine ⟨eps, cur, h1.complete, fun e he => (h1.cur e he).1, ?_, ?_, ?_⟩
  · rw [← h3, h1.timestep]
    cases cur with
    | none => simp
    | some e => simp [List.map_append, List.sum_append]
  · rw [h2, hev]
    cases cur with
    | none => simp [openEvents]
    | some e => simp [openEvents, Episode.events]
  · rw [h4, h1.scores]
    cases eps with
    | nil =>
      cases hc : cur with
      | none =>
        have := h1.timestep
        rw [hc] at this
        simp at this
        omega
      | some e =>
        rw [(h1.cur e hc).2.1]
        simp
    | cons e eps => simp

/-! ## Termination -/

/-- The outside world never raises in this iteration. -/
def Iter.Ok (w : Iter O A K X) : Prop :=
  (∃ o, w.reset = .ok o) ∧ (∃ a, w.act = .ok a) ∧ (∃ o, w.step = .ok o) ∧ w.stop = .ok ()

theorem iter_returns (b : Budget) (maxLen : Option Nat) (w : Iter O A K X) (hw : w.Ok) (l : Loc O K) :
    ∃ ev r, iter b maxLen w l () = (ev, (), .ok r) := by
  obtain ⟨⟨o, h1⟩, ⟨a, h2⟩, ⟨out, h3⟩, h4⟩ := hw
  have hst : ∃ ev x, start w l () = (ev, (), .ok x) := by
    unfold start
    cases (if l.reset then none else l.obs) with
    | some o => exact ⟨_, _, rfl⟩
    | none => simp only [h1]; exact ⟨_, _, rfl⟩
  obtain ⟨ev, ⟨obs, testR, len⟩, hst⟩ := hst
  have hstop : ∀ b, ∃ ev, stopIf b w () = (ev, (), .ok ()) := by
    intro b
    cases b
    · exact ⟨_, rfl⟩
    · exact ⟨_, by unfold stopIf; rw [h4]; rfl⟩
  unfold iter
  simp only [bind, Eff.bind, hst, h2, h3, Eff.call]
  generalize (ends maxLen (len + 1) out || _) = b'
  obtain ⟨ev', he⟩ := hstop b'
  simp only [he]
  exact ⟨_, _, rfl⟩

/-- C28: with `n_steps = s ≥ 1` the run returns after `s` iterations unless a call
raises. -/
theorem C28_steps_returns (s : Nat) (hs : 0 < s) (maxLen : Option Nat) (w : Nat → Iter O A K X)
    (hw : ∀ i, (w i).Ok) : ∃ scores, (run (.steps s) maxLen w s).2 = .ok (some scores) := by
  have : ∀ (fuel i : Nat) (l : Loc O K), l.timestep < s → s ≤ l.timestep + fuel →
      ∃ ev scores, loop (.steps s) maxLen w fuel i l () = (ev, (), .ok (some scores)) := by
    intro fuel
    induction fuel with
    | zero => intro i l h1 h2; omega
    | succ fuel ih =>
      intro i l h1 h2
      obtain ⟨ev, r, hr⟩ := iter_returns (.steps s) maxLen (w i) (hw i) l
      obtain ⟨_, _, _, _, _, _, _, j1, j2, _⟩ := iter_ok hr
      have hts : r.1.timestep = l.timestep + 1 := by rw [j1]
      simp only [loop, bind, Eff.bind, hr]
      cases ht : r.2 with
      | true => exact ⟨_, _, rfl⟩
      | false =>
        rw [ht] at j2
        have := of_decide_eq_false j2.symm
        obtain ⟨ev', sc, h⟩ := ih (i + 1) r.1 (by omega) (by omega)
        simp only [Bool.false_eq_true, if_false, h]
        exact ⟨_, _, rfl⟩
  obtain ⟨ev, scores, h⟩ := this s 0 Loc.init hs (by simp [Loc.init])
  exact ⟨scores, by unfold run; rw [h]⟩

/-- C28: with `n_episodes = k ≥ 1` and `max_episode_len = m ≥ 1` the run returns
after at most `k * m` iterations unless a call raises. -/
theorem C28_episodes_returns (k m : Nat) (hk : 0 < k) (hm : 0 < m) (w : Nat → Iter O A K X)
    (hw : ∀ i, (w i).Ok) : ∃ scores, (run (.episodes k) (some m) w (k * m)).2 = .ok (some scores) := by
  -- the number of steps that may still be needed
  have : ∀ (fuel i : Nat) (l : Loc O K), l.scores.length < k → (l.reset = false → l.episodeLen < m ∧ l.obs ≠ none) →
      (k - l.scores.length) * m - (if l.reset then 0 else l.episodeLen) ≤ fuel →
      ∃ ev scores, loop (.episodes k) (some m) w fuel i l () = (ev, (), .ok (some scores)) := by
    intro fuel
    induction fuel with
    | zero =>
      intro i l h1 h2 h3
      have h4 : m ≤ (k - l.scores.length) * m := Nat.le_mul_of_pos_left m (by omega)
      exfalso
      cases hr : l.reset with
      | true => simp [hr] at h3; omega
      | false => have := h2 hr; simp [hr] at h3; omega
    | succ fuel ih =>
      intro i l h1 h2 h3
      obtain ⟨ev, r, hr⟩ := iter_returns (.episodes k) (some m) (w i) (hw i) l
      obtain ⟨obs, testR, len, pre, a, out, hpre, j1, j2, _⟩ := iter_ok hr
      have hlen : len < m ∧ len = (if l.reset then 0 else l.episodeLen) := by
        rcases hpre with ⟨_, h, _, _, rfl⟩ | ⟨_, h | h, _, rfl⟩
        · simp [h, (h2 h).1]
        · simp [h, hm]
        · cases hrs : l.reset with
          | true => simp [hm]
          | false => exact absurd h (h2 hrs).2
      rw [← hlen.2] at h3
      simp only [loop, bind, Eff.bind, hr]
      cases ht : r.2 with
      | true => exact ⟨_, _, rfl⟩
      | false =>
        rw [ht] at j2
        have hk' := of_decide_eq_false j2.symm
        have hgoal : ∃ ev scores, loop (.episodes k) (some m) w fuel (i + 1) r.1 () = (ev, (), .ok (some scores)) := by
          have hmul : (k - l.scores.length) * m = (k - (l.scores.length + 1)) * m + m := by
            rw [← Nat.succ_mul]; congr 1; omega
          cases he : ends (some m) (len + 1) out with
          | true =>
            have hr1 : r.1.reset = true := by rw [j1]; exact he
            have hr2 : r.1.scores.length = l.scores.length + 1 := by rw [j1]; simp [he]
            refine ih (i + 1) r.1 (by omega) (by simp [hr1]) ?_
            rw [hr1, hr2]
            simp only [if_true]
            omega
          | false =>
            have hr1 : r.1.reset = false := by rw [j1]; exact he
            have hr2 : r.1.scores.length = l.scores.length := by rw [j1]; simp [he]
            have hr3 : r.1.episodeLen = len + 1 := by rw [j1]
            have hr4 : r.1.obs ≠ none := by rw [j1]; simp
            have hne : len + 1 ≠ m := by
              intro h
              simp [ends, h] at he
            refine ih (i + 1) r.1 (by omega) (fun _ => ⟨by omega, hr4⟩) ?_
            rw [hr1, hr2, hr3]
            simp only [Bool.false_eq_true, if_false]
            omega
        obtain ⟨ev', sc, h⟩ := hgoal
        simp only [Bool.false_eq_true, if_false, h]
        exact ⟨_, _, rfl⟩
  obtain ⟨ev, scores, h⟩ := this (k * m) 0 Loc.init (by simpa [Loc.init] using hk) (by simp [Loc.init]) (by simp [Loc.init])
  exact ⟨scores, by unfold run; rw [h]⟩

/-! ## Concrete runs -/

/-- An environment whose episodes have two steps with rewards 1 and 10. -/
def exWorld (i : Nat) : Iter Nat Nat Int Unit :=
  ⟨.ok 0, .ok i, .ok ⟨i + 1, if i % 2 = 0 then 1 else 10, i % 2 = 1, false⟩, .ok ()⟩

example : (run (.episodes 2) none exWorld 10).2 = .ok (some [11, 11]) := by decide +kernel
example : (run (.steps 3) none exWorld 10).2 = .ok (some [11]) ∧
    (run (.steps 1) none exWorld 10).2 = .ok (some [1]) ∧
    (run (.steps 3) none exWorld 10).1 =
      [.reset 0, .act 0 0, .step 0 ⟨1, 1, false, false⟩, .act 1 1, .step 1 ⟨2, 10, true, false⟩, .stop,
       .reset 0, .act 0 2, .step 2 ⟨3, 1, false, false⟩, .stop] := by decide +kernel
example : ∀ i, (exWorld i).Ok := fun _ => ⟨⟨_, rfl⟩, ⟨_, rfl⟩, ⟨_, rfl⟩, rfl⟩

end Verif.RunEval
