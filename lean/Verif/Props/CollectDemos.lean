import Mathlib.Data.Int.Order.Basic
import Verif.Proofs.Eff
import Verif.Model.CollectDemos
import Verif.Props.RunEval
set_option autoImplicit false

/-! # C30: collecting demonstrations

Episodes, their steps and when they are complete are specified in
`Verif.Spec.EvalEpisodes`. -/

namespace Verif.CollectDemos
open Train (StepOut)
open RunEval (Budget Episode EndsAt Complete Unfinished endsAt_append_lt not_endsAt_ge)
variable {O A K X : Type}

/-! ## Specification -/

/-- The transitions of an episode: observation, action, and what the step
returned. -/
def transitions : O → List (A × StepOut O K) → List (O × A × StepOut O K)
  | _, [] => []
  | obs, (a, out) :: l => (obs, a, out) :: transitions out.obs l

/-- The calls for one transition: the agent acts on the observation, the action
is executed, the transition is written. -/
def callsOf (x : O × A × StepOut O K) : List (Ev O A K) :=
  [.act x.1 x.2.1, .step x.2.1 x.2.2, .write x.1 x.2.1 x.2.2]

def Episode.calls (e : Episode O A K) : List (Ev O A K) :=
  .reset e.first :: (transitions e.first e.steps).flatMap callsOf ++ [.stop]

/-- The file: all tuples written, in order. -/
def written (tr : List (Ev O A K)) : List (O × A × StepOut O K) :=
  tr.filterMap fun | .write obs a out => some (obs, a, out) | _ => none

/-! ## Proofs -/

theorem transitions_append (obs : O) (l : List (A × StepOut O K)) (a : A) (out : StepOut O K) :
    transitions obs (l ++ [(a, out)]) =
      transitions obs l ++ [((l.getLast?.map (·.2.obs)).getD obs, a, out)] := by
  induction l generalizing obs with
  | nil => rfl
  | cons x l ih =>
    obtain ⟨a', out'⟩ := x
    simp only [List.cons_append, transitions, ih]
    cases l with
    | nil => rfl
    | cons y l =>
      rw [List.getLast?_cons_cons, List.getLast?_eq_some_getLast (List.cons_ne_nil y l)]
      rfl

/-- The length at which the code ends an episode: the check precedes the
increment of `episode_len`. -/
def late (maxLen : Option Nat) : Option Nat := maxLen.map (· + 1)

theorem endsAt_last (maxLen : Option Nat) (l : List (A × StepOut O K)) (x : A × StepOut O K) :
    EndsAt (late maxLen) (l ++ [x]) l.length ↔ ends maxLen l.length x.2 = true := by
  unfold EndsAt ends late
  rw [List.getElem?_append_right (Nat.le_refl _)]
  simp only [Nat.sub_self, List.getElem?_cons_zero, Option.some.injEq, exists_eq_left', Bool.or_eq_true, beq_iff_eq]
  have h0 : Option.map (fun x => x + 1) maxLen = some (l.length + 1) ↔ some l.length = maxLen := by
    cases maxLen with
    | none => simp
    | some m => simp; omega
  rw [h0]
  constructor
  · rintro (h | h | h)
    · exact .inl h
    · exact .inr (.inr h)
    · exact .inr (.inl h)
  · rintro (h | h | h)
    · exact .inl h
    · exact .inr (.inr h)
    · exact .inr (.inl h)

/-- The calls of an episode that is not stopped yet. -/
def openEvents : Option (Episode O A K) → List (Ev O A K)
  | none => []
  | some e => .reset e.first :: (transitions e.first e.steps).flatMap callsOf

/-- The loop's state: the complete episodes so far and the current one. -/
structure LInv (maxLen : Option Nat) (l : Loc O) (tr : List (Ev O A K)) (eps : List (Episode O A K))
    (cur : Option (Episode O A K)) : Prop where
  complete : ∀ e ∈ eps, Complete (late maxLen) e
  num : l.episodeNum = eps.length
  timestep : l.timestep = (eps.map (·.steps.length)).sum + ((cur.map (·.steps.length)).getD 0)
  reset : l.reset = cur.isNone
  events : tr = eps.flatMap Episode.calls ++ openEvents cur
  cur : ∀ e, cur = some e → Unfinished (late maxLen) e ∧ l.episodeLen = e.steps.length ∧
    l.obs = e.steps.getLast?.map (·.2.obs)

theorem stopIf_ok {b : Bool} {w : Iter O A K X} {ev : List (Ev O A K)} {u : Unit}
    (h : stopIf b w () = (ev, (), .ok u)) : ev = if b then [.stop] else [] := by
  cases b with
  | true => exact (Eff.call_ok h).2.1
  | false => exact (Eff.pure_ok h).1

/-- One iteration that does not raise. -/
theorem iter_ok {b : Budget} {maxLen : Option Nat} {w : Iter O A K X} {l : Loc O}
    {ev : List (Ev O A K)} {r : Loc O × Bool} (hr : iter b maxLen w l () = (ev, (), .ok r)) :
    ∃ obs len pre a out,
      ((pre = [] ∧ l.reset = false ∧ l.obs = some obs ∧ len = l.episodeLen) ∨
        (pre = [.reset obs] ∧ (l.reset = true ∨ l.obs = none) ∧ len = 0)) ∧
      r.1 = ⟨some out.obs, len + 1, l.timestep + 1,
        (if ends maxLen len out then l.episodeNum + 1 else l.episodeNum), ends maxLen len out⟩ ∧
      r.2 = b.spent r.1.episodeNum (l.timestep + 1) ∧
      ev = pre ++ callsOf (obs, a, out) ++ (if r.1.reset || r.2 then [.stop] else []) := by
  unfold iter at hr
  obtain ⟨ev1, ⟨⟩, ⟨obs, len⟩, ev2, h1, h2, rfl⟩ := Eff.bind_ok hr
  obtain ⟨ev3, ⟨⟩, a, ev4, h3, h4, rfl⟩ := Eff.bind_ok h2
  obtain ⟨ev5, ⟨⟩, out, ev6, h5, h6, rfl⟩ := Eff.bind_ok h4
  obtain ⟨evw, ⟨⟩, _, evx, hw, h6', rfl⟩ := Eff.bind_ok h6
  obtain ⟨_, rfl, _⟩ := Eff.call_ok h3
  obtain ⟨_, rfl, _⟩ := Eff.call_ok h5
  obtain ⟨_, rfl, _⟩ := Eff.call_ok hw
  obtain ⟨ev7, ⟨⟩, _, ev8, h7, h8, rfl⟩ := Eff.bind_ok h6'
  obtain ⟨rfl, _, rfl⟩ := Eff.pure_ok h8
  have hev := stopIf_ok h7
  refine ⟨obs, len, ev1, a, out, ?_, rfl, rfl, by rw [hev]; simp [callsOf]⟩
  clear hev hr h2 h4 h6 h6' h7
  unfold start at h1
  cases hx : (if l.reset then none else l.obs) with
  | some o =>
    rw [hx] at h1
    obtain ⟨rfl, _, h⟩ := Eff.pure_ok h1
    simp only [Prod.mk.injEq] at h
    obtain ⟨rfl, rfl⟩ := h
    cases hrs : l.reset with
    | true => rw [hrs] at hx; cases hx
    | false => rw [hrs] at hx; exact .inl ⟨rfl, rfl, hx, rfl⟩
  | none =>
    rw [hx] at h1
    obtain ⟨ev9, ⟨⟩, o, ev10, h7, h8, rfl⟩ := Eff.bind_ok h1
    obtain ⟨_, rfl, _⟩ := Eff.call_ok h7
    obtain ⟨rfl, _, h⟩ := Eff.pure_ok h8
    simp only [Prod.mk.injEq] at h
    obtain ⟨rfl, rfl⟩ := h
    refine .inr ⟨rfl, ?_, rfl⟩
    cases hrs : l.reset with
    | true => exact .inl rfl
    | false => rw [hrs] at hx; exact .inr hx

/-- One iteration: the current episode (or a new one) gets one more step; it
may end. -/
theorem iter_inv {b : Budget} {maxLen : Option Nat} {w : Iter O A K X} {l : Loc O}
    {tr ev : List (Ev O A K)} {eps : List (Episode O A K)} {cur : Option (Episode O A K)}
    {r : Loc O × Bool}
    (h : LInv maxLen l tr eps cur) (hr : iter b maxLen w l () = (ev, (), .ok r)) :
    r.1.timestep = l.timestep + 1 ∧
    r.2 = b.spent r.1.episodeNum r.1.timestep ∧
    ((∃ e, LInv maxLen r.1 (tr ++ ev) (eps ++ [e]) none) ∨
      (∃ e ev', ev = ev' ++ (if r.2 then [.stop] else []) ∧ LInv maxLen r.1 (tr ++ ev') eps (some e))) := by
  obtain ⟨obs, len, pre, a, out, hpre, h1, h2, h3⟩ := iter_ok hr
  refine ⟨by rw [h1], by rw [h2, h1], ?_⟩
  -- the episode before this step
  have hcur : ∃ first steps, len = steps.length ∧
      (∀ i, ¬ EndsAt (late maxLen) steps i) ∧
      (steps.getLast?.map (·.2.obs)).getD first = obs ∧
      tr ++ pre = eps.flatMap Episode.calls ++ (.reset first :: (transitions first steps).flatMap callsOf) ∧
      l.timestep = (eps.map (·.steps.length)).sum + steps.length := by
    cases hc : cur with
    | none =>
      have hres := h.reset
      rw [hc] at hres
      rcases hpre with ⟨_, h', _⟩ | ⟨rfl, _, rfl⟩
      · rw [h'] at hres; cases hres
      · refine ⟨obs, [], rfl, fun i => not_endsAt_ge _ _ _ (Nat.zero_le _), rfl, ?_, ?_⟩
        · rw [h.events, hc]; simp [transitions, openEvents]
        · rw [h.timestep, hc]; rfl
    | some e =>
      have hres := h.reset
      rw [hc] at hres
      obtain ⟨⟨hne, hun⟩, i2, i3⟩ := h.cur e hc
      have hlast := List.getLast?_eq_some_getLast hne
      rw [hlast] at i3
      rcases hpre with ⟨rfl, _, h', rfl⟩ | ⟨_, h' | h', _⟩
      · refine ⟨e.first, e.steps, i2, hun, ?_, ?_, ?_⟩
        · rw [i3] at h'
          rw [hlast]
          simpa using h'
        · rw [List.append_nil, h.events, hc]; rfl
        · rw [h.timestep, hc]; rfl
      · rw [h'] at hres; cases hres
      · rw [h'] at i3; cases i3
  obtain ⟨first, steps, rfl, hun, hobs, htr, hts⟩ := hcur
  have hev : tr ++ (pre ++ callsOf (obs, a, out)) =
      eps.flatMap Episode.calls ++ (.reset first :: (transitions first (steps ++ [(a, out)])).flatMap callsOf) := by
    rw [← List.append_assoc, htr, transitions_append, hobs]
    simp
  cases hends : ends maxLen steps.length out with
  | true =>
    left
    refine ⟨⟨first, steps ++ [(a, out)]⟩, ?_, ?_, ?_, ?_, ?_, by simp⟩
    · intro e he
      rcases List.mem_append.mp he with he | he
      · exact h.complete e he
      · rw [List.mem_singleton.mp he]
        refine ⟨by simp, fun i => ?_⟩
        simp only [List.length_append, List.length_singleton]
        rcases Nat.lt_trichotomy i steps.length with hi | hi | hi
        · rw [endsAt_append_lt _ _ _ _ hi]
          exact ⟨fun h' => absurd h' (hun i), fun h' => by omega⟩
        · subst hi
          rw [endsAt_last, hends]
          simp
        · exact ⟨fun h' => absurd h' (not_endsAt_ge _ _ _ (by simp; omega)), fun h' => by omega⟩
    · rw [h1]; simp [hends, h.num]
    · rw [h1]; simp only [hts, List.map_append, List.sum_append, List.map_cons, List.map_nil,
        List.sum_cons, List.sum_nil, List.length_append, Option.map_none,
        Option.getD_none, List.length_cons, List.length_nil]; omega
    · rw [h1]; simp [hends]
    · rw [h3, h1]
      simp only [hends, Bool.true_or, if_true, List.flatMap_append, List.flatMap_cons, List.flatMap_nil,
        List.append_nil]
      rw [← List.append_assoc, hev]
      simp [Episode.calls, openEvents]
  | false =>
    right
    refine ⟨⟨first, steps ++ [(a, out)]⟩, pre ++ callsOf (obs, a, out), ?_, h.complete, ?_, ?_, ?_, ?_, ?_⟩
    · rw [h3, h1]; simp [hends]
    · rw [h1]; simp [hends, h.num]
    · rw [h1]; simp only [hts, List.length_append,
        Option.map_some, Option.getD_some, List.length_cons, List.length_nil]; omega
    · rw [h1]; simp [hends]
    · exact hev
    · intro e he
      cases he
      refine ⟨⟨by simp, fun i => ?_⟩, by rw [h1]; simp, by rw [h1]; simp⟩
      rcases Nat.lt_trichotomy i steps.length with hi | hi | hi
      · rw [endsAt_append_lt _ _ _ _ hi]; exact hun i
      · subst hi; rw [endsAt_last, hends]; simp
      · exact not_endsAt_ge _ _ _ (by simp; omega)

/-- How the loop ends. -/
theorem loop_inv {b : Budget} {maxLen : Option Nat} {w : Nat → Iter O A K X} (fuel : Nat) :
    ∀ (i : Nat) (l : Loc O) (tr : List (Ev O A K)) (eps : List (Episode O A K))
      (cur : Option (Episode O A K)) (ev : List (Ev O A K)),
    LInv maxLen l tr eps cur →
    b.spent l.episodeNum l.timestep = false →
    loop b maxLen w fuel i l () = (ev, (), .ok true) →
    ∃ (l' : Loc O) (eps' : List (Episode O A K)) (cur' : Option (Episode O A K)) (ev' : List (Ev O A K)),
      LInv maxLen l' (tr ++ ev') eps' cur' ∧
      ev = ev' ++ (if cur'.isSome then [.stop] else []) ∧
      (∀ n, b = .episodes n → l'.episodeNum = n ∧ cur' = none) ∧
      (∀ n, b = .steps n → l'.timestep = n) := by
  induction fuel with
  | zero =>
    intro i l tr eps cur ev _ _ hr
    simp only [loop] at hr
    obtain ⟨_, _, h⟩ := Eff.pure_ok hr
    cases h
  | succ fuel ih =>
    intro i l tr eps cur ev h hb hr
    simp only [loop] at hr
    obtain ⟨ev1, ⟨⟩, r, ev2, h1, h2, rfl⟩ := Eff.bind_ok hr
    obtain ⟨i1, i2, i3⟩ := iter_inv h h1
    have hlen : r.1.episodeNum ≤ l.episodeNum + 1 := by
      obtain ⟨_, _, _, _, _, _, j1, _⟩ := iter_ok h1
      rw [j1]; simp only; split <;> omega
    cases ht : r.2 with
    | true =>
      rw [ht] at h2 i2 i3
      simp only [if_true] at h2 i3
      obtain ⟨rfl, _, h3⟩ := Eff.pure_ok h2
      cases b with
      | episodes n =>
        have h4 := of_decide_eq_true i2.symm
        have h4' := of_decide_eq_false hb
        rcases i3 with ⟨e, he⟩ | ⟨e, ev', rfl, he⟩
        · refine ⟨r.1, _, none, ev1, he, by simp, ?_, by simp⟩
          intro m hm; cases hm; exact ⟨by omega, rfl⟩
        · have h5 := he.num
          rw [← h.num] at h5
          omega
      | steps n =>
        have h4 := of_decide_eq_true i2.symm
        have h4' := of_decide_eq_false hb
        have h5 : ∀ m, Budget.steps n = .steps m → r.1.timestep = m := by
          intro m hm; cases hm; omega
        rcases i3 with ⟨e, he⟩ | ⟨e, ev', rfl, he⟩
        · exact ⟨r.1, _, none, ev1, he, by simp, by simp, h5⟩
        · exact ⟨r.1, _, some e, ev', he, by simp, by simp, h5⟩
    | false =>
      rw [ht] at h2 i2 i3
      simp only [Bool.false_eq_true, if_false, List.append_nil] at h2 i3
      have hnext : ∃ eps cur, LInv maxLen r.1 (tr ++ ev1) eps cur := by
        rcases i3 with ⟨e, he⟩ | ⟨e, ev', rfl, he⟩
        · exact ⟨_, _, he⟩
        · exact ⟨_, _, he⟩
      obtain ⟨eps1, cur1, hn⟩ := hnext
      obtain ⟨l', eps', cur', ev', j1, j2, j3, j4⟩ := ih _ _ _ _ _ _ hn i2.symm h2
      refine ⟨l', eps', cur', ev1 ++ ev', ?_, ?_, j3, j4⟩
      · rw [← List.append_assoc]; exact j1
      · rw [j2, List.append_assoc]

theorem init_inv (maxLen : Option Nat) : LInv maxLen (Loc.init : Loc O) ([] : List (Ev O A K)) [] none :=
  ⟨by simp, rfl, rfl, rfl, rfl, by simp⟩

theorem written_append (a b : List (Ev O A K)) : written (a ++ b) = written a ++ written b := by
  simp [written]

theorem written_calls (l : List (O × A × StepOut O K)) : written (l.flatMap callsOf) = l := by
  induction l with
  | nil => rfl
  | cons x l ih => rw [List.flatMap_cons, written_append, ih]; rfl

theorem written_episode (e : Episode O A K) : written (Episode.calls e) = transitions e.first e.steps := by
  unfold Episode.calls
  rw [written_append]
  have : written (Ev.reset e.first :: (transitions e.first e.steps).flatMap callsOf) = transitions e.first e.steps := by
    rw [← List.singleton_append, written_append, written_calls]; rfl
  rw [this]
  simp [written]

theorem written_episodes (eps : List (Episode O A K)) :
    written (eps.flatMap Episode.calls) = eps.flatMap fun e => transitions e.first e.steps := by
  induction eps with
  | nil => rfl
  | cons e eps ih => rw [List.flatMap_cons, written_append, written_episode, ih, List.flatMap_cons]

theorem transitions_length (obs : O) (l : List (A × StepOut O K)) : (transitions obs l).length = l.length := by
  induction l generalizing obs with
  | nil => rfl
  | cons x l ih => simp [transitions, ih]

/-! ## The properties -/

/-- C30 (part): with `episodes = k ≥ 1` a run that returns has played exactly `k`
episodes, and the file has exactly their transitions in order.  Missing: with
`max_episode_len = m` episodes are cut after `m + 1` steps (`late`), not `m`. -/
theorem C30_episodes_partial (k : Nat) (hk : 0 < k) (maxLen : Option Nat) (w : Nat → Iter O A K X) (fuel : Nat)
    (h : (run (.episodes k) maxLen w fuel).2 = .ok true) :
    ∃ eps : List (Episode O A K), eps.length = k ∧ (∀ e ∈ eps, Complete (late maxLen) e) ∧
      (run (.episodes k) maxLen w fuel).1 = eps.flatMap Episode.calls ∧
      written (run (.episodes k) maxLen w fuel).1 = eps.flatMap fun e => transitions e.first e.steps := by
  have hr : loop (.episodes k) maxLen w fuel 0 Loc.init () = ((run (.episodes k) maxLen w fuel).1, (), .ok true) := by
    rw [← h]; rfl
  obtain ⟨l', eps, cur, ev', h1, h2, h3, _⟩ := loop_inv (b := .episodes k) fuel 0 Loc.init [] [] none _ (init_inv maxLen)
    (decide_eq_false (by simp [Loc.init]; omega)) hr
  obtain ⟨h3', rfl⟩ := h3 k rfl
  have hev : (run (.episodes k) maxLen w fuel).1 = eps.flatMap Episode.calls := by
    rw [h2]
    have := h1.events
    simpa [openEvents] using this
  exact ⟨eps, by rw [← h3', h1.num], h1.complete, hev, by rw [hev, written_episodes]⟩

/-- C30 (part): with `steps = s ≥ 1` a run that returns has recorded exactly `s`
transitions, those of consecutive episodes of which only the last may be
unfinished.  Missing as above. -/
theorem C30_steps_partial (s : Nat) (hs : 0 < s) (maxLen : Option Nat) (w : Nat → Iter O A K X) (fuel : Nat)
    (h : (run (.steps s) maxLen w fuel).2 = .ok true) :
    ∃ (eps : List (Episode O A K)) (last : Option (Episode O A K)),
      (∀ e ∈ eps, Complete (late maxLen) e) ∧ (∀ e, last = some e → Unfinished (late maxLen) e) ∧
      (run (.steps s) maxLen w fuel).1 = (eps ++ last.toList).flatMap Episode.calls ∧
      written (run (.steps s) maxLen w fuel).1 =
        ((eps ++ last.toList).flatMap fun e => transitions e.first e.steps) ∧
      (written (run (.steps s) maxLen w fuel).1).length = s := by
  have hr : loop (.steps s) maxLen w fuel 0 Loc.init () = ((run (.steps s) maxLen w fuel).1, (), .ok true) := by
    rw [← h]; rfl
  obtain ⟨l', eps, cur, ev', h1, h2, _, h3⟩ := loop_inv (b := .steps s) fuel 0 Loc.init [] [] none _ (init_inv maxLen)
    (decide_eq_false (by simp [Loc.init]; omega)) hr
  have h3 := h3 s rfl
  have hev' := h1.events
  rw [List.nil_append] at hev'
  have hev : (run (.steps s) maxLen w fuel).1 = (eps ++ cur.toList).flatMap Episode.calls := by
    rw [h2, hev']
    cases cur with
    | none => simp [openEvents]
    | some e => simp [openEvents, Episode.calls]
  refine ⟨eps, cur, h1.complete, fun e he => (h1.cur e he).1, hev, by rw [hev, written_episodes], ?_⟩
  rw [hev, written_episodes, List.length_flatMap]
  simp only [transitions_length]
  rw [← h3, h1.timestep]
  cases cur with
  | none => simp
  | some e => simp [List.map_append, List.sum_append]

/-! ## Concrete runs -/

/-- An environment that never ends an episode. -/
def exWorld (i : Nat) : Iter Nat Nat Int Unit :=
  ⟨.ok 0, .ok 7, .ok ⟨i + 1, 1, false, false⟩, .ok (), .ok ()⟩

/-- C30 is violated: with `max_episode_len = 2` an episode of three steps is
played and recorded before it is stopped. -/
theorem C30_violated_max_episode_len :
    (run (.episodes 1) (some 2) exWorld 10).2 = .ok true ∧
    written (run (.episodes 1) (some 2) exWorld 10).1 =
      [(0, 7, ⟨1, 1, false, false⟩), (1, 7, ⟨2, 1, false, false⟩), (2, 7, ⟨3, 1, false, false⟩)] ∧
    (run (.episodes 1) (some 2) exWorld 10).1.countP (fun e => match e with | .stop => true | _ => false) = 1 ∧
    (run (.episodes 1) (some 2) exWorld 10).1.countP (fun e => match e with | .reset _ => true | _ => false) = 1 := by
  decide +kernel

-- five steps with the same limit: one episode of three steps, one unfinished of two
example : (run (.steps 5) (some 2) exWorld 10).2 = .ok true ∧
    (written (run (.steps 5) (some 2) exWorld 10).1).map (·.1) = [0, 1, 2, 0, 4] := by decide +kernel

end Verif.CollectDemos
