import Mathlib.Algebra.Field.Rat
import Mathlib.Algebra.Order.Ring.Rat
import Mathlib.Tactic.Ring
import Verif.Model.A2C
import Verif.Spec.A2C
set_option autoImplicit false
set_option linter.unusedSectionVars false

/-! # C48: returns of A2C -/

namespace Verif.A2C
variable {K : Type} [CommRing K]

/-! ## The recursive form of the specification -/

theorem ret_cons (gamma boot : K) (s : Step K) (l : List (Step K)) :
    ret gamma boot (s :: l) =
      s.reward + gamma * (if l = [] then boot else ret gamma boot l) * (if s.ended then 0 else 1) := by
  by_cases he : s.ended = true
  · simp [ret, untilEnd, he, discounted]
  · simp only [Bool.not_eq_true] at he
    cases l with
    | nil => simp [ret, untilEnd, he, discounted]
    | cons b l =>
      simp only [ret, untilEnd, he, Bool.false_eq_true, if_false, List.map_cons, discounted,
        List.any_cons, Bool.false_or, reduceCtorEq, mul_one]
      by_cases hb : (b.ended || l.any (·.ended)) = true
      · simp only [hb, if_true]; ring
      · simp only [hb, Bool.false_eq_true, if_false, List.length_cons, pow_succ]; ring

theorem gae_cons (gamma tau boot : K) (s : Step K) (l : List (Step K)) :
    gae gamma tau boot (s :: l) =
      (s.reward + gamma * valueOf boot l * (if s.ended then 0 else 1) - s.value) +
        gamma * tau * (if s.ended then 0 else 1) * gae gamma tau boot l := by
  by_cases he : s.ended = true
  · simp [gae, untilEnd, he, deltas, discounted]
  · simp only [Bool.not_eq_true] at he
    have hv : valueOf boot (untilEnd l) = valueOf boot l := by
      cases l with
      | nil => rfl
      | cons b l => simp only [untilEnd]; split <;> rfl
    simp [gae, untilEnd, he, deltas, discounted, hv]

/-! ## The loops -/

/-- The storage holds the steps `c`. -/
structure Holds (st : Store K) (n : Nat) (c : List (Step K)) : Prop where
  lr : st.rewards.length = n
  lm : st.masks.length = n
  lv : st.values.length = n + 1
  lt : st.returns.length = n + 1
  r : ∀ (i : Nat) s, c[i]? = some s → st.rewards[i]? = some s.reward
  m : ∀ (i : Nat) s, c[i]? = some s → st.masks[i]? = some (if s.ended then 0 else 1)
  v : ∀ (i : Nat) s, c[i]? = some s → st.values[i]? = some s.value

theorem targets_get (gamma : K) (tau : Option K) (boot : K) : ∀ (c : List (Step K)) (i : Nat),
    i < c.length → (targets gamma tau boot c)[i]? = some (target gamma tau boot (c.drop i))
  | [], i, h => by simp at h
  | s :: c, 0, h => by simp [targets]
  | s :: c, i + 1, h => by
    rw [targets, List.getElem?_cons_succ, targets_get gamma tau boot c i (by simpa using h)]; rfl

theorem targets_length (gamma : K) (tau : Option K) (boot : K) : ∀ (c : List (Step K)),
    (targets gamma tau boot c).length = c.length
  | [] => rfl
  | s :: c => by simp [targets, targets_length gamma tau boot c]

theorem getD_of {α : Type} (l : List α) (i : Nat) (d x : α) (h : l[i]? = some x) : l.getD i d = x := by
  simp [List.getD, h]

theorem retLoop_spec (gamma : K) (st : Store K) (n : Nat) (c : List (Step K)) (boot : K)
    (hc : c.length = n) (h : Holds st n c) : ∀ (i : Nat) (l : List K), i ≤ n →
    l.length = n + 1 →
    l[i]? = some (if c.drop i = [] then boot else ret gamma boot (c.drop i)) →
    (∀ k, i ≤ k → k < n → l[k]? = some (ret gamma boot (c.drop k))) →
    (retLoop gamma st i l).take n = targets gamma none boot c
  | 0, l, hi, hl, h0, hk => by
    apply List.ext_getElem?
    intro k
    rw [retLoop]
    by_cases hkn : k < n
    · rw [List.getElem?_take_of_lt hkn, hk k (Nat.zero_le _) hkn, targets_get _ _ _ _ _ (by omega)]
      rfl
    · rw [List.getElem?_eq_none (by simp; omega), List.getElem?_eq_none (by
        rw [targets_length]; omega)]
  | i + 1, l, hi, hl, h0, hk => by
    have hic : i < c.length := by omega
    have hci : c[i]? = some c[i] := by simp [hic]
    have hd : c.drop i = c[i] :: c.drop (i + 1) := (List.drop_eq_getElem_cons hic)
    have hx : st.rewards.getD i 0 + gamma * l.getD (i + 1) 0 * st.masks.getD i 0 =
        ret gamma boot (c.drop i) := by
      rw [getD_of _ _ _ _ (h.r i _ hci), getD_of _ _ _ _ (h.m i _ hci), getD_of _ _ _ _ h0, hd,
        ret_cons]
    rw [retLoop, hx]
    refine retLoop_spec gamma st n c boot hc h i _ (by omega) (by simpa using hl) ?_ ?_
    · rw [List.getElem?_set_self (by omega), if_neg (by simp; omega)]
    · intro k hk1 hk2
      by_cases hki : k = i
      · subst hki
        rw [List.getElem?_set_self (by omega)]
      · rw [List.getElem?_set_ne (by omega)]
        exact hk k (by omega) hk2

theorem gaeLoop_spec (gamma tau : K) (st : Store K) (n : Nat) (c : List (Step K)) (boot : K)
    (hc : c.length = n) (h : Holds st n c) (hb : st.values[n]? = some boot) :
    ∀ (i : Nat) (g : K) (l : List K), i ≤ n → l.length = n + 1 →
    g = gae gamma tau boot (c.drop i) →
    (∀ k, i ≤ k → k < n → l[k]? = some (target gamma (some tau) boot (c.drop k))) →
    (gaeLoop gamma tau st i g l).take n = targets gamma (some tau) boot c
  | 0, g, l, hi, hl, h0, hk => by
    apply List.ext_getElem?
    intro k
    rw [gaeLoop]
    by_cases hkn : k < n
    · rw [List.getElem?_take_of_lt hkn, hk k (Nat.zero_le _) hkn, targets_get _ _ _ _ _ (by omega)]
    · rw [List.getElem?_eq_none (by simp; omega), List.getElem?_eq_none (by
        rw [targets_length]; omega)]
  | i + 1, g, l, hi, hl, h0, hk => by
    have hic : i < c.length := by omega
    have hci : c[i]? = some c[i] := by simp [hic]
    have hd : c.drop i = c[i] :: c.drop (i + 1) := (List.drop_eq_getElem_cons hic)
    have hv : st.values.getD (i + 1) 0 = valueOf boot (c.drop (i + 1)) := by
      by_cases hin : i + 1 < n
      · have hci' : c[i + 1]? = some c[i + 1] := by simp [show i + 1 < c.length by omega]
        rw [getD_of _ _ _ _ (h.v (i + 1) _ hci'), List.drop_eq_getElem_cons (by omega)]
        rfl
      · have : i + 1 = n := by omega
        rw [this, getD_of _ _ _ _ hb, List.drop_eq_nil_of_le (by omega)]
        rfl
    rw [gaeLoop]
    have hg : st.rewards.getD i 0 + gamma * st.values.getD (i + 1) 0 * st.masks.getD i 0 -
        st.values.getD i 0 + gamma * tau * st.masks.getD i 0 * g = gae gamma tau boot (c.drop i) := by
      rw [hv, getD_of _ _ _ _ (h.r i _ hci), getD_of _ _ _ _ (h.m i _ hci),
        getD_of _ _ _ _ (h.v i _ hci), hd, gae_cons, h0]
    rw [hg]
    refine gaeLoop_spec gamma tau st n c boot hc h hb i _ _ (by omega) (by simpa using hl) rfl ?_
    intro k hk1 hk2
    by_cases hki : k = i
    · subst hki
      rw [List.getElem?_set_self (by omega), getD_of _ _ _ _ (h.v k _ hci), target, hd]
      rfl
    · rw [List.getElem?_set_ne (by omega)]
      exact hk k (by omega) hk2

theorem loops_length (gamma tau : K) (st : Store K) : ∀ (i : Nat) (g : K) (l : List K),
    (gaeLoop gamma tau st i g l).length = l.length ∧ (retLoop gamma st i l).length = l.length
  | 0, g, l => ⟨rfl, rfl⟩
  | i + 1, g, l => by
    constructor
    · rw [gaeLoop]
      rw [(loops_length gamma tau st i _ _).1, List.length_set]
    · rw [retLoop, (loops_length gamma tau st i 0 _).2, List.length_set]

/-- `_compute_returns` on a full storage. -/
theorem computeReturns_spec (gamma : K) (tau : Option K) (n : Nat) (st : Store K)
    (c : List (Step K)) (boot : K) (hc : c.length = n) (h : Holds st n c) :
    (computeReturns gamma tau n boot st).returns.take n = targets gamma tau boot c ∧
    Holds (computeReturns gamma tau n boot st) n [] := by
  cases tau with
  | none =>
    refine ⟨retLoop_spec gamma st n c boot hc h n _ le_rfl (by simp [h.lt]) ?_ ?_, ?_⟩
    · rw [List.getElem?_set_self (by rw [h.lt]; omega), if_pos (List.drop_eq_nil_of_le (by omega))]
    · intro k h1 h2; omega
    · exact ⟨h.lr, h.lm, h.lv, by
        simp only [computeReturns]
        rw [(loops_length gamma 0 st n 0 _).2, List.length_set, h.lt], by simp, by simp, by simp⟩
  | some tau =>
    have h' : Holds { st with values := st.values.set n boot } n c :=
      ⟨h.lr, h.lm, by simp [h.lv], h.lt, h.r, h.m, by
        intro i s hs
        have := (List.getElem?_eq_some_iff.1 hs).1
        dsimp only
        rw [List.getElem?_set_ne (by omega)]
        exact h.v i s hs⟩
    refine ⟨gaeLoop_spec gamma tau _ n c boot hc h' ?_ n 0 _ le_rfl h.lt ?_ ?_, ?_⟩
    · dsimp only
      rw [List.getElem?_set_self (by rw [h.lv]; omega)]
    · rw [List.drop_eq_nil_of_le (by omega)]; rfl
    · intro k h1 h2; omega
    · exact ⟨h.lr, h.lm, by simp [computeReturns, h.lv], by
        simp only [computeReturns]
        rw [(loops_length gamma tau _ n 0 _).1, h.lt], by simp, by simp, by simp⟩

/-! ## The machine -/

/-- The agent has the steps `c` of the current rollout in its storage. -/
structure Inv (n : Nat) (s : St K) (c : List (Step K)) : Prop where
  len : s.t = s.tStart + c.length
  store : (s.t = 0 ∧ s.store = none) ∨ (0 < s.t ∧ ∃ st, s.store = some st ∧ Holds st n c)

theorem holds_flush (n : Nat) : Holds (flush n : Store K) n [] :=
  ⟨by simp [flush], by simp [flush], by simp [flush], by simp [flush], by simp, by simp, by simp⟩

theorem run_append (gamma : K) (tau : Option K) (n : Nat) : ∀ (cs₁ cs₂ : List (Call K))
    (s s₁ s₂ : St K) (u₁ u₂ : List (List K)), run gamma tau n s cs₁ = .ok (s₁, u₁) →
    run gamma tau n s₁ cs₂ = .ok (s₂, u₂) → run gamma tau n s (cs₁ ++ cs₂) = .ok (s₂, u₁ ++ u₂)
  | [], cs₂, s, s₁, s₂, u₁, u₂, h1, h2 => by
    simp only [run, Except.ok.injEq, Prod.mk.injEq] at h1
    obtain ⟨rfl, rfl⟩ := h1
    simpa using h2
  | c :: cs, cs₂, s, s₁, s₂, u₁, u₂, h1, h2 => by
    simp only [run, bind, Except.bind] at h1
    rw [List.cons_append]
    simp only [run, bind, Except.bind]
    cases hst : step gamma tau n s c with
    | error x => rw [hst] at h1; simp at h1
    | ok r =>
      rw [hst] at h1
      simp only at h1
      cases hr : run gamma tau n r.1 cs with
      | error x => rw [hr] at h1; simp at h1
      | ok r' =>
        rw [hr] at h1
        simp only [pure, Except.pure, Except.ok.injEq, Prod.mk.injEq] at h1
        obtain ⟨h3, rfl⟩ := h1
        have := run_append gamma tau n cs cs₂ r.1 s₁ s₂ r'.2 u₂ (by rw [hr, ← h3]) h2
        simp only [this, pure, Except.pure, List.append_assoc]

theorem pySet_ok {α : Type} (l : List α) (i : Int) (k : Nat) (x : α) (hi : i = k) (hk : k < l.length) :
    pySet l i x = .ok (l.set k x) := by
  subst hi
  simp [pySet, pyIndex, hk]

/-- One step, with `c` already stored and not full. -/
theorem run_step (gamma : K) (tau : Option K) (n : Nat) (s : St K) (c : List (Step K)) (a : Step K)
    (h : Inv n s c) (hc : c.length < n) :
    ∃ s', run gamma tau n s a.calls = .ok (s',
        if c.length + 1 = n then [targets gamma tau a.next (c ++ [a])] else []) ∧
      Inv n s' (if c.length + 1 = n then [] else c ++ [a]) := by
  obtain ⟨st, hst, hH⟩ : ∃ st, actStore n s = .ok st ∧ Holds st n c := by
    rcases h.store with ⟨h0, _⟩ | ⟨h0, st, h1, h2⟩
    · refine ⟨flush n, by simp [actStore, h0], ?_⟩
      have : c = [] := by
        have := h.len
        cases c with
        | nil => rfl
        | cons b c => simp at this; omega
      rw [this]; exact holds_flush n
    · exact ⟨st, by simp [actStore, show s.t ≠ 0 by omega, h1], h2⟩
  have hlen := h.len
  have hn1 : s.t - s.tStart ≠ n := by omega
  have e1 : step gamma tau n s (.act a.value a.next) =
      .ok (⟨s.t + 1, s.tStart, some ⟨st.rewards, st.values.set c.length a.value, st.returns, st.masks⟩⟩, []) := by
    simp only [step, hst, bind, Except.bind, maybeUpdate, hn1, if_false, afterStore, Option.getD_some]
    rw [pySet_ok _ _ c.length _ (by omega) (by rw [hH.lv]; omega)]
    rfl
  have hS : Holds ⟨st.rewards.set c.length a.reward, st.values.set c.length a.value, st.returns,
      st.masks.set c.length (if a.done || a.reset then 0 else 1)⟩ n (c ++ [a]) := by
    refine ⟨by simp [hH.lr], by simp [hH.lm], by simp [hH.lv], hH.lt, ?_, ?_, ?_⟩
    all_goals
      intro i b hb
      have hi := (List.getElem?_eq_some_iff.1 hb).1
      rw [List.length_append, List.length_singleton] at hi
      dsimp only
      by_cases hic : i = c.length
      · subst hic
        have : a = b := by simpa using hb
        subst this
        rw [List.getElem?_set_self (by first | rw [hH.lr]; omega | rw [hH.lm]; omega | rw [hH.lv]; omega)]
        try rfl
      · rw [List.getElem?_set_ne (by omega)]
        rw [List.getElem?_append_left (by omega)] at hb
        first | exact hH.r i b hb | exact hH.m i b hb | exact hH.v i b hb
  have e2 : step gamma tau n ⟨s.t + 1, s.tStart, some ⟨st.rewards, st.values.set c.length a.value, st.returns, st.masks⟩⟩
      (.observe a.reward a.done a.reset a.next) = .ok (maybeUpdate gamma tau n a.next
        ⟨s.t + 1, s.tStart, some ⟨st.rewards, st.values.set c.length a.value, st.returns, st.masks⟩⟩
        ⟨st.rewards.set c.length a.reward, st.values.set c.length a.value, st.returns,
          st.masks.set c.length (if a.done || a.reset then 0 else 1)⟩) := by
    simp only [step, getStore, bind, Except.bind]
    rw [pySet_ok _ _ c.length _ (by push_cast; omega) (by rw [hH.lm]; omega)]
    dsimp only
    rw [pySet_ok _ _ c.length _ (by push_cast; omega) (by rw [hH.lr]; omega)]
    rfl
  have e3 : run gamma tau n s a.calls = .ok (maybeUpdate gamma tau n a.next
        ⟨s.t + 1, s.tStart, some ⟨st.rewards, st.values.set c.length a.value, st.returns, st.masks⟩⟩
        ⟨st.rewards.set c.length a.reward, st.values.set c.length a.value, st.returns,
          st.masks.set c.length (if a.done || a.reset then 0 else 1)⟩) := by
    simp only [Step.calls, run, e1, e2, bind, Except.bind, pure, Except.pure, List.nil_append,
      List.append_nil]
  rw [e3]
  by_cases hf : c.length + 1 = n
  · obtain ⟨g1, g2⟩ := computeReturns_spec gamma tau n _ (c ++ [a]) a.next (by simp [hf]) hS
    refine ⟨(maybeUpdate gamma tau n a.next
        ⟨s.t + 1, s.tStart, some ⟨st.rewards, st.values.set c.length a.value, st.returns, st.masks⟩⟩
        ⟨st.rewards.set c.length a.reward, st.values.set c.length a.value, st.returns,
          st.masks.set c.length (if a.done || a.reset then 0 else 1)⟩).1, ?_, ?_⟩
    · simp only [maybeUpdate, show s.t + 1 - s.tStart = n by omega, if_true, hf, update, g1]
    · simp only [maybeUpdate, show s.t + 1 - s.tStart = n by omega, if_true, hf, update]
      exact ⟨rfl, .inr ⟨by simp, _, rfl, g2⟩⟩
  · refine ⟨⟨s.t + 1, s.tStart, some ⟨st.rewards.set c.length a.reward,
        st.values.set c.length a.value, st.returns,
        st.masks.set c.length (if a.done || a.reset then 0 else 1)⟩⟩, ?_, ?_⟩
    · simp only [maybeUpdate, show s.t + 1 - s.tStart ≠ n by omega, if_false, hf]
    · simp only [hf, if_false]
      exact ⟨by simp; omega, .inr ⟨by simp, _, rfl, hS⟩⟩

/-- Several steps that do not fill the storage. -/
theorem run_part (gamma : K) (tau : Option K) (n : Nat) : ∀ (l : List (Step K)) (s : St K)
    (c : List (Step K)), Inv n s c → c.length + l.length < n →
    ∃ s', run gamma tau n s (l.flatMap Step.calls) = .ok (s', []) ∧ Inv n s' (c ++ l)
  | [], s, c, h, _ => ⟨s, rfl, by simpa using h⟩
  | a :: l, s, c, h, hlt => by
    simp only [List.length_cons] at hlt
    obtain ⟨s₁, h1, h2⟩ := run_step gamma tau n s c a h (by omega)
    rw [if_neg (by omega)] at h1 h2
    obtain ⟨s₂, h3, h4⟩ := run_part gamma tau n l s₁ (c ++ [a]) h2 (by simp; omega)
    refine ⟨s₂, ?_, by simpa using h4⟩
    rw [List.flatMap_cons]
    exact run_append gamma tau n _ _ s s₁ s₂ _ _ h1 h3

/-- **C48**, one rollout: exactly `update_steps` steps from an empty storage make
one update whose return targets are those of the specification. -/
theorem C48_rollout (gamma : K) (tau : Option K) (n : Nat) (s : St K) (h : Inv n s [])
    (c : List (Step K)) (hn : 1 ≤ n) (hc : c.length = n) :
    ∃ s', run gamma tau n s (c.flatMap Step.calls) =
        .ok (s', [targets gamma tau (endValue c) c]) ∧ Inv n s' [] := by
  obtain ⟨c', a, rfl⟩ : ∃ c' a, c = c' ++ [a] :=
    ⟨c.dropLast, c.getLast (by intro h; simp [h] at hc; omega), (List.dropLast_concat_getLast _).symm⟩
  rw [List.length_append, List.length_singleton] at hc
  obtain ⟨s₁, h1, h2⟩ := run_part gamma tau n c' s [] h (by simp; omega)
  obtain ⟨s₂, h3, h4⟩ := run_step gamma tau n s₁ c' a (by simpa using h2) (by omega)
  rw [if_pos hc] at h3 h4
  refine ⟨s₂, ?_, h4⟩
  have := run_append gamma tau n _ _ s s₁ s₂ _ _ h1 h3
  simpa [endValue] using this

/-- **C48**, every history: for every sequence of steps of a new agent, cut into
rollouts of `update_steps` steps and a shorter rest, there is exactly one update
per rollout, in order, and its targets are the returns (with or without GAE) of
that rollout, cut at episode ends. -/
theorem C48_history (gamma : K) (tau : Option K) (n : Nat) (hn : 1 ≤ n)
    (cs : List (List (Step K))) (hcs : ∀ c ∈ cs, c.length = n) (rest : List (Step K))
    (hrest : rest.length < n) :
    ∃ s', run gamma tau n St.init ((cs.flatten ++ rest).flatMap Step.calls) =
      .ok (s', cs.map (fun c => targets gamma tau (endValue c) c)) := by
  have key : ∀ (cs : List (List (Step K))), (∀ c ∈ cs, c.length = n) → ∀ s, Inv n s [] →
      ∃ s', run gamma tau n s ((cs.flatten ++ rest).flatMap Step.calls) =
        .ok (s', cs.map (fun c => targets gamma tau (endValue c) c)) := by
    intro cs
    induction cs with
    | nil =>
      intro _ s hs
      obtain ⟨s', h1, -⟩ := run_part gamma tau n rest s [] hs (by simpa using hrest)
      exact ⟨s', by simpa using h1⟩
    | cons c cs ih =>
      intro hcs s hs
      obtain ⟨s₁, h1, h2⟩ := C48_rollout gamma tau n s hs c hn (hcs c (by simp))
      obtain ⟨s₂, h3⟩ := ih (fun c hc => hcs c (by simp [hc])) s₁ h2
      refine ⟨s₂, ?_⟩
      have := run_append gamma tau n _ _ s s₁ s₂ _ _ h1 h3
      rw [List.flatten_cons, List.append_assoc, List.flatMap_append, this]
      rfl
  exact key cs hcs St.init ⟨rfl, .inl ⟨rfl, rfl⟩⟩

/-- **C48**: nothing after an episode end matters: the targets of the steps up to an
episode end do not depend on the later steps nor on the bootstrap value. -/
theorem C48_no_leak (gamma : K) (tau : Option K) (pre : List (Step K)) (s : Step K)
    (he : s.ended = true) (l l' : List (Step K)) (boot boot' : K) :
    target gamma tau boot (pre ++ s :: l) = target gamma tau boot' (pre ++ s :: l') := by
  have hu : ∀ (m : List (Step K)), untilEnd (pre ++ s :: m) = untilEnd (pre ++ [s]) := by
    intro m
    induction pre with
    | nil => simp [untilEnd, he]
    | cons a pre ih => simp only [List.cons_append, untilEnd, ih]
  have ha : ∀ (m : List (Step K)), (pre ++ s :: m).any (·.ended) = true := by
    intro m; simp [he]
  have hd : ∀ (p : List (Step K)) (b b' : K),
      deltas gamma b (untilEnd (p ++ [s])) = deltas gamma b' (untilEnd (p ++ [s])) := by
    intro p b b'
    induction p with
    | nil => simp [untilEnd, he, deltas]
    | cons a p ih =>
      simp only [List.cons_append, untilEnd]
      split
      · rename_i ha; simp [deltas, ha]
      · rw [deltas, deltas, ih]
        congr 3
        have : ∃ x xs, untilEnd (p ++ [s]) = x :: xs := by
          cases p with
          | nil => exact ⟨s, [], by simp [untilEnd, he]⟩
          | cons y p => simp only [List.cons_append, untilEnd]; split <;> exact ⟨_, _, rfl⟩
        obtain ⟨x, xs, hx⟩ := this
        rw [hx]; rfl
  cases tau with
  | none => simp only [target, ret, hu l, hu l', ha l, ha l', if_true]
  | some tau =>
    simp only [target, gae, hu l, hu l', hd pre boot boot']
    congr 1
    cases pre <;> rfl

/-! ## Non-vacuity -/

/-- Three steps; the second ends an episode, the third ends by a reset. -/
def exSteps : List (Step ℚ) := [⟨10, 1, false, false, 20⟩, ⟨20, 2, true, false, 99⟩]

example : ((run (1/2) none 2 (St.init : St ℚ) ((exSteps ++ exSteps ++ [(⟨1, 1, false, true, 5⟩ : Step ℚ)]).flatMap
    Step.calls)).map Prod.snd) = .ok [[1 + 1, 2], [1 + 1, 2]] := by decide +kernel
example : ((run (1/2) (some (1/2)) 2 (St.init : St ℚ) (exSteps.flatMap Step.calls)).map Prod.snd) =
    .ok [[(1 + 10 - 10) + 1/4 * (2 - 20) + 10, 2]] := by decide +kernel
example : targets (1/2 : ℚ) none 99 exSteps = [2, 2] := by decide +kernel

end Verif.A2C
