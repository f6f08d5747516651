import Mathlib.Algebra.Field.Rat
import Mathlib.Algebra.Order.Ring.Rat
import Mathlib.Tactic.Ring
import Verif.Model.NStep
import Verif.Spec.NStep
set_option autoImplicit false
set_option linter.unusedSectionVars false

/-! # C47: returns of A3C and NSQ -/

namespace Verif.NStepAgent
variable {X K : Type} [CommRing K]

/-- The book holds the pending steps `c`, the reward of the last not yet. -/
structure Pending (s : St X K) (c : List (Step X K)) : Prop where
  len : s.t = s.tStart + c.length
  xs : ∀ (i : Nat) a, c[i]? = some a → s.past (s.tStart + i) = some a.x
  rs : ∀ (i : Nat) a, c[i]? = some a → i + 1 < c.length → s.pastRewards (s.tStart + i) = some a.reward

theorem discounted_snoc (gamma : K) (l : List K) (r : K) :
    discounted gamma (l ++ [r]) = discounted gamma l + gamma ^ l.length * r := by
  induction l with
  | nil => simp [discounted]
  | cons a l ih => simp only [List.cons_append, discounted, ih, List.length_cons, pow_succ]; ring

theorem returnsOf_snoc (gamma boot : K) (c : List (Step X K)) (a : Step X K) :
    returnsOf gamma boot (c ++ [a]) =
      returnsOf gamma (boot * gamma + a.reward) c ++ [(a.x, boot * gamma + a.reward)] := by
  induction c with
  | nil => simp [returnsOf, discounted]; ring
  | cons b c ih =>
    simp only [List.cons_append, returnsOf, ih, List.map_cons, List.map_append, List.map_nil,
      discounted, discounted_snoc, List.length_cons, List.length_append, List.length_nil,
      List.length_map]
    congr 2
    ring

/-- The loop computes the returns. -/
theorem loop_spec (gamma : K) (s : St X K) : ∀ (n : Nat) (c : List (Step X K)) (boot : K),
    c.length = n →
    (∀ (i : Nat) a, c[i]? = some a → s.past (s.tStart + i) = some a.x) →
    (∀ (i : Nat) a, c[i]? = some a → s.pastRewards (s.tStart + i) = some a.reward) →
    loop gamma s n boot = .ok (returnsOf gamma boot c).reverse
  | 0, c, boot, hn, hx, hr => by
    have : c = [] := List.length_eq_zero_iff.1 hn
    subst this
    rfl
  | n + 1, c, boot, hn, hx, hr => by
    obtain ⟨c', a, rfl⟩ : ∃ c' a, c = c' ++ [a] := by
      refine ⟨c.dropLast, c.getLast (by intro h; simp [h] at hn), ?_⟩
      exact (List.dropLast_concat_getLast _).symm
    have hn' : c'.length = n := by simpa using hn
    have ha : (c' ++ [a])[n]? = some a := by rw [← hn']; simp
    have ih := loop_spec gamma s n c' (boot * gamma + a.reward) hn'
      (by
        intro i b hb
        apply hx i b
        rw [List.getElem?_append_left (List.getElem?_eq_some_iff.1 hb).1]; exact hb)
      (by
        intro i b hb
        apply hr i b
        rw [List.getElem?_append_left (List.getElem?_eq_some_iff.1 hb).1]; exact hb)
    rw [returnsOf_snoc, List.reverse_append]
    simp only [loop, look, hr n a ha, hx n a ha, bind, Except.bind, ih, pure, Except.pure,
      List.reverse_cons, List.reverse_nil, List.nil_append, List.cons_append]

theorem update_spec (gamma : K) (s : St X K) (c : List (Step X K)) (a : Step X K) (rd : K)
    (boot : Option K) (h : Pending s (c ++ [a])) (ha : a.reward = rd) :
    update gamma { s with pastRewards := put s.pastRewards (s.t - 1) rd } boot =
      .ok (⟨s.t, s.t, fun _ => none, fun _ => none⟩,
        (returnsOf gamma (boot.getD 0) (c ++ [a])).reverse) := by
  subst ha
  have hlen := h.len
  rw [List.length_append, List.length_singleton] at hlen
  have hlt : s.tStart < s.t := by omega
  have hl := loop_spec gamma { s with pastRewards := put s.pastRewards (s.t - 1) a.reward }
    (s.t - s.tStart) (c ++ [a]) (boot.getD 0) (by simp; omega) h.xs (by
      intro i b hb
      have hi := (List.getElem?_eq_some_iff.1 hb).1
      rw [List.length_append, List.length_singleton] at hi
      dsimp only [put]
      by_cases hic : i = c.length
      · subst hic
        rw [if_pos (by omega)]
        have : b = a := by simpa using hb.symm
        rw [this]
      · rw [if_neg (by omega)]
        exact h.rs i b hb (by simp; omega))
  simp only [update, pyAssert, hlt, decide_true, if_true, hl, bind, Except.bind, pure, Except.pure]

/-- The calls of the rest of an episode, from a book with the pending steps `c`
(whose last reward is the one carried by the next call). -/
theorem run_rest (gamma : K) (tMax : Nat) (htm : 1 ≤ tMax) (e : Episode X K) :
    ∀ (steps : List (Step X K)) (s : St X K) (c : List (Step X K)) (a : Step X K),
      Pending s (c ++ [a]) → (c ++ [a]).length ≤ tMax →
      ∃ us, Rollouts tMax e.endValue (c ++ [a] ++ steps) us ∧
        run gamma tMax s (callsFrom e a.reward steps) =
          .ok (⟨s.t + steps.length, s.t + steps.length, fun _ => none, fun _ => none⟩,
            us.map (fun u => (returnsOf gamma u.2 u.1).reverse))
  | [], s, c, a, h, hlen => by
    refine ⟨[(c ++ [a], e.endValue)], ?_, ?_⟩
    · rw [List.append_nil]
      exact .last _ (by simp) hlen
    · have hu := update_spec gamma s c a a.reward (if e.done then none else some e.boot) h rfl
      have he : (if e.done then none else some e.boot : Option K).getD 0 = e.endValue := by
        unfold Episode.endValue; split <;> rfl
      rw [he] at hu
      simp only [callsFrom, run, step, hu, bind, Except.bind, pure, Except.pure, List.length_nil,
        Nat.add_zero, List.map_cons, List.map_nil, List.append_nil]
  | b :: steps, s, c, a, h, hlen => by
    have hl := h.len
    rw [List.length_append, List.length_singleton] at hl hlen
    by_cases hfull : s.t - s.tStart = tMax
    · -- update, then a new rollout with `b`
      have hu := update_spec gamma s c a a.reward (some b.boot) h rfl
      obtain ⟨us, hus, hrun⟩ := run_rest gamma tMax htm e steps
        ⟨s.t + 1, s.t, put (fun _ => none) s.t b.x, fun _ => none⟩ [] b
        ⟨rfl, by
          intro i d hd
          rw [List.nil_append] at hd
          have hi : i = 0 := by have := (List.getElem?_eq_some_iff.1 hd).1; simpa using this
          subst hi
          have : b = d := by simpa using hd
          subst this
          simp [put], by intro i d _ hi; simp at hi⟩ (by simpa using htm)
      refine ⟨(c ++ [a], b.boot) :: us, .more _ _ _ _ (by simp; omega) hus, ?_⟩
      have hc : s.t + (b :: steps).length = s.t + 1 + steps.length := by simp; omega
      dsimp only at hrun
      simp only [callsFrom, run, step, maybeUpdate, hfull, if_true, hu, bind, Except.bind, pure,
        Except.pure, hrun, hc, List.map_cons, Option.getD_some, List.singleton_append]
    · obtain ⟨us, hus, hrun⟩ := run_rest gamma tMax htm e steps
        ⟨s.t + 1, s.tStart, put s.past s.t b.x, put s.pastRewards (s.t - 1) a.reward⟩ (c ++ [a]) b
        ⟨by simp; omega, by
          intro i d hd
          have hi := (List.getElem?_eq_some_iff.1 hd).1
          simp only [List.length_append, List.length_singleton] at hi
          dsimp only [put]
          by_cases hic : i = c.length + 1
          · subst hic
            rw [if_pos (by push_cast; omega)]
            have : b = d := by simpa using hd
            rw [this]
          · rw [if_neg (by omega)]
            apply h.xs i d
            rw [List.getElem?_append_left (by simp; omega)] at hd
            exact hd, by
          intro i d hd hi
          simp only [List.length_append, List.length_singleton] at hi
          rw [List.getElem?_append_left (by simp; omega)] at hd
          dsimp only [put]
          by_cases hic : i = c.length
          · subst hic
            rw [if_pos (by omega)]
            have : a = d := by simpa using hd
            rw [this]
          · rw [if_neg (by omega)]
            exact h.rs i d hd (by simp; omega)⟩ (by simp; omega)
      refine ⟨us, by simpa using hus, ?_⟩
      have hc : s.t + (b :: steps).length = s.t + 1 + steps.length := by simp; omega
      dsimp only at hrun
      simp only [callsFrom, run, step, maybeUpdate, hfull, if_false, bind, Except.bind, pure,
        Except.pure, hrun, hc, List.nil_append]

/-- An agent between episodes: no pending step. -/
def Clean (s : St X K) : Prop := s.t = s.tStart

/-- **C47**: for every episode of at least one step, from any book without pending
steps, A3C and NSQ cut the episode into consecutive rollouts of `t_max` steps (the
last possibly shorter) and make one update per rollout, in which each step has as
target its n-step discounted return; afterwards nothing is pending. -/
theorem C47_episode (gamma : K) (tMax : Nat) (htm : 1 ≤ tMax) (s : St X K) (hs : Clean s)
    (e : Episode X K) (hne : e.steps ≠ []) (reward₀ : K) :
    ∃ us s', Rollouts tMax e.endValue e.steps us ∧ Clean s' ∧
      run gamma tMax s (e.calls reward₀) =
        .ok (s', us.map (fun u => (returnsOf gamma u.2 u.1).reverse)) := by
  obtain ⟨steps, d, bt⟩ := e
  obtain ⟨b, steps, rfl⟩ : ∃ b l, steps = b :: l := by
    cases steps with
    | nil => exact absurd rfl hne
    | cons b l => exact ⟨b, l, rfl⟩
  have hs' : s.t = s.tStart := hs
  obtain ⟨us, hus, hrun⟩ := run_rest gamma tMax htm ⟨b :: steps, d, bt⟩ steps
    ⟨s.t + 1, s.tStart, put s.past s.t b.x, put s.pastRewards (s.t - 1) reward₀⟩ [] b
    ⟨by simp [hs'], by
      intro i d hd
      rw [List.nil_append] at hd
      have hi : i = 0 := by have := (List.getElem?_eq_some_iff.1 hd).1; simpa using this
      subst hi
      have : b = d := by simpa using hd
      subst this
      simp [put, hs'], by intro i d _ hi; simp at hi⟩ (by simpa using htm)
  have hnf : s.t - s.tStart ≠ tMax := by omega
  refine ⟨us, ⟨s.t + 1 + steps.length, s.t + 1 + steps.length, fun _ => none, fun _ => none⟩,
    by simpa using hus, rfl, ?_⟩
  dsimp only at hrun
  simp only [Episode.calls, callsFrom, run, step, maybeUpdate, hnf, if_false, bind, Except.bind,
    pure, Except.pure, hrun, List.nil_append]

/-- Running calls in two parts. -/
theorem run_append (gamma : K) (tMax : Nat) : ∀ (cs₁ cs₂ : List (Call X K)) (s s₁ s₂ : St X K)
    (u₁ u₂ : List (List (X × K))), run gamma tMax s cs₁ = .ok (s₁, u₁) →
    run gamma tMax s₁ cs₂ = .ok (s₂, u₂) → run gamma tMax s (cs₁ ++ cs₂) = .ok (s₂, u₁ ++ u₂)
  | [], cs₂, s, s₁, s₂, u₁, u₂, h1, h2 => by
    simp only [run, Except.ok.injEq, Prod.mk.injEq] at h1
    obtain ⟨rfl, rfl⟩ := h1
    simpa using h2
  | c :: cs, cs₂, s, s₁, s₂, u₁, u₂, h1, h2 => by
    simp only [run, bind, Except.bind] at h1
    rw [List.cons_append]
    simp only [run, bind, Except.bind]
    cases hst : step gamma tMax s c with
    | error x => rw [hst] at h1; simp at h1
    | ok r =>
      rw [hst] at h1
      simp only at h1
      cases hr : run gamma tMax r.1 cs with
      | error x => rw [hr] at h1; simp at h1
      | ok r' =>
        rw [hr] at h1
        simp only [pure, Except.pure, Except.ok.injEq, Prod.mk.injEq] at h1
        obtain ⟨h3, rfl⟩ := h1
        have := run_append gamma tMax cs cs₂ r.1 s₁ s₂ r'.2 u₂ (by rw [hr, ← h3]) h2
        simp only [this, pure, Except.pure, List.append_assoc]

/-- **C47**, every history: over any sequence of episodes of a new agent, with any
number of evaluation calls (`act`, `stop_episode`) between episodes, the updates
are those of the episodes one after the other. -/
theorem C47_history (gamma : K) (tMax : Nat) (htm : 1 ≤ tMax) :
    ∀ (eps : List (Episode X K × K × List Bool)), (∀ e ∈ eps, e.1.steps ≠ []) →
    ∀ (s : St X K), Clean s →
    ∃ (uss : List (List (List (Step X K) × K))) (s' : St X K), Clean s' ∧ uss.length = eps.length ∧
      (∀ (k : Nat) e us, eps[k]? = some e → uss[k]? = some us →
        Rollouts tMax e.1.endValue e.1.steps us) ∧
      run gamma tMax s (eps.flatMap (fun e => e.1.calls e.2.1 ++
          e.2.2.map (fun b => if b then Call.actEval else Call.stopEval))) =
        .ok (s', uss.flatten.map (fun u => (returnsOf gamma u.2 u.1).reverse)) := by
  have hev : ∀ (l : List Bool) (s : St X K), run gamma tMax s
      (l.map (fun b => if b then Call.actEval else Call.stopEval)) = .ok (s, []) := by
    intro l
    induction l with
    | nil => intro s; rfl
    | cons b l ih =>
      intro s
      cases b <;> simp [run, step, bind, Except.bind, pure, Except.pure, ih]
  intro eps
  induction eps with
  | nil => intro _ s hs; exact ⟨[], s, hs, rfl, by simp, rfl⟩
  | cons e eps ih =>
    intro hne s hs
    obtain ⟨us, s₁, h1, h2, h3⟩ := C47_episode gamma tMax htm s hs e.1 (hne e (by simp)) e.2.1
    obtain ⟨uss, s₂, g1, g2, g3, g4⟩ := ih (fun e he => hne e (by simp [he])) s₁ h2
    refine ⟨us :: uss, s₂, g1, by simp [g2], ?_, ?_⟩
    · intro k e' us' hk hu
      cases k with
      | zero =>
        simp only [List.getElem?_cons_zero, Option.some.injEq] at hk hu
        subst hk hu
        exact h1
      | succ k => exact g3 k e' us' (by simpa using hk) (by simpa using hu)
    · rw [List.flatMap_cons, List.flatten_cons, List.map_append]
      refine run_append _ _ _ _ _ s₁ _ _ _ ?_ g4
      have := run_append gamma tMax _ _ s s₁ s₁ _ _ h3 (hev e.2.2 s₁)
      simpa using this

/-- **C47**: in a cut into rollouts every step is in exactly one rollout, in order,
each rollout has between 1 and `t_max` steps, and all but the last have `t_max`. -/
theorem C47_partition (tMax : Nat) (htm : 1 ≤ tMax) (v : K) (steps : List (Step X K))
    (us : List (List (Step X K) × K)) (h : Rollouts tMax v steps us) :
    (us.map Prod.fst).flatten = steps ∧ (∀ u ∈ us, 1 ≤ u.1.length ∧ u.1.length ≤ tMax) ∧
    (∀ u ∈ us.dropLast, u.1.length = tMax) ∧ us.getLast?.map Prod.snd = some v := by
  induction h with
  | last c h1 h2 => simp [h1, h2]
  | more c s rest us hc hr ih =>
    obtain ⟨i1, i2, i3, i4⟩ := ih
    cases us with
    | nil => simp at i4
    | cons u us =>
      refine ⟨?_, ?_, ?_, ?_⟩
      · rw [List.map_cons, List.flatten_cons, i1]
      · intro w hw
        rcases List.mem_cons.1 hw with rfl | hw
        · simp only; omega
        · exact i2 w hw
      · intro w hw
        rw [List.dropLast_cons_cons] at hw
        rcases List.mem_cons.1 hw with rfl | hw
        · exact hc
        · exact i3 w hw
      · rw [List.getLast?_cons_cons]; exact i4

/-- **C47**: `stop_episode_and_train` without a pending step is refused. -/
theorem C47_nothing_pending (gamma : K) (tMax : Nat) (s : St X K) (hs : Clean s) (r : K)
    (d : Bool) (boot : K) : step gamma tMax s (.stop r d boot) = .error .assertionError := by
  have : ¬ s.tStart < s.t := by rw [show s.t = s.tStart from hs]; omega
  simp [step, update, pyAssert, this, bind, Except.bind]

/-! ## Non-vacuity -/

/-- Three steps with `t_max = 2`, ended by a time limit. -/
def exEpisode : Episode Nat ℚ :=
  ⟨[⟨7, 0, 1⟩, ⟨8, 1, 2⟩, ⟨9, 2, 4⟩], false, 10⟩

example : Clean (St.init : St Nat ℚ) := rfl
example : ((run (1/2) 2 (St.init : St Nat ℚ) (exEpisode.calls 100)).map Prod.snd) =
    .ok [[(1, 2 + 9/2), (0, 1 + 1 + 9/4)], [(2, 4 + 5)]] := by decide +kernel
example : Rollouts 2 (10 : ℚ) exEpisode.steps
    [([⟨7, 0, 1⟩, ⟨8, 1, 2⟩], 9), ([⟨9, 2, 4⟩], 10)] :=
  .more [⟨7, 0, 1⟩, ⟨8, 1, 2⟩] ⟨9, 2, 4⟩ [] _ rfl (.last _ (by decide) (by decide))

end Verif.NStepAgent
