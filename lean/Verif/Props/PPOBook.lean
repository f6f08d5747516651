import Mathlib.Algebra.BigOperators.Group.List.Basic
import Mathlib.Algebra.Order.BigOperators.Group.List
import Mathlib.Algebra.Order.Group.Nat
import Verif.Model.PPOData
import Verif.Spec.PPOData
set_option autoImplicit false
set_option linter.unusedSectionVars false

/-! # C50: PPO and TRPO use every transition in exactly one update -/

namespace Verif.PPOData
variable {O A R : Type}

/-- The pending transitions of environment `tag`. -/
def pending (tag : Option Nat) (s : St O A R) : List (Tr O A R) :=
  match tag with
  | none => s.lastEpisode
  | some i => match s.batch with
    | none => []
    | some slots => (slots[i]?.map (·.episode)).getD []

/-- The pending action of environment `tag`. -/
def lastOf (tag : Option Nat) (s : St O A R) : Option (O × A) :=
  match tag with
  | none => s.last
  | some i => match s.batch with
    | none => none
    | some slots => slots[i]?.bind (·.last)

/-- The fragments of `tag` in one dataset. -/
def frags (tag : Option Nat) (d : Dataset O A R) : List (List (Tr O A R)) :=
  (d.filter (fun e => e.1 = tag)).map Prod.snd

theorem frags_append (tag : Option Nat) (d₁ d₂ : Dataset O A R) :
    frags tag (d₁ ++ d₂) = frags tag d₁ ++ frags tag d₂ := by
  simp [frags]

/-- The relation kept between the data and the experience of `tag`: all fragments
handed out (`out`) or in memory, then the pending transitions. -/
structure Inv (tag : Option Nat) (out : List (Dataset O A R)) (s : St O A R) (v : View O A R) : Prop where
  cov : Covers (frags tag (out.flatten ++ s.memory)) (pending tag s) v
  last : lastOf tag s = v.last

theorem isEmpty_false {α : Type} {l : List α} (h : l ≠ []) : l.isEmpty = false := by
  cases l with
  | nil => exact absurd rfl h
  | cons a l => rfl

/-! ## Fragments and covers -/

theorem covers_flush {fr : List (List (Tr O A R))} {cur : List (Tr O A R)} {v : View O A R}
    (h : Covers fr cur v) (hc : cur ≠ []) : Covers (fr ++ [cur]) [] v := by
  obtain ⟨g, o, h1, h2, h3, h4⟩ := h
  refine ⟨g, o ++ [cur], by simp [h1], h2, by simpa using h3, ?_⟩
  intro f hf
  rcases List.mem_append.1 hf with hf | hf
  · exact h4 f hf
  · simp at hf; subst hf; exact hc

theorem covers_snoc {fr : List (List (Tr O A R))} {cur : List (Tr O A R)} {v : View O A R}
    (h : Covers fr cur v) (t : Tr O A R) (l : Option (O × A)) :
    Covers fr (cur ++ [t]) { v with current := v.current ++ [t], last := l } := by
  obtain ⟨g, o, h1, h2, h3, h4⟩ := h
  exact ⟨g, o, h1, h2, by simp [← h3], h4⟩

theorem covers_last {fr : List (List (Tr O A R))} {cur : List (Tr O A R)} {v : View O A R}
    (h : Covers fr cur v) (l : Option (O × A)) : Covers fr cur { v with last := l } := h

theorem covers_close {fr : List (List (Tr O A R))} {cur : List (Tr O A R)} {v : View O A R}
    (h : Covers fr cur v) (hc : cur ≠ []) : Covers (fr ++ [cur]) [] v.close := by
  obtain ⟨g, o, h1, h2, h3, h4⟩ := covers_flush h hc
  refine ⟨g ++ [o], [], by simp [h1], by simp [View.close, h2, ← h3], by simp [View.close], h4⟩

theorem covers_close_nil {fr : List (List (Tr O A R))} {v : View O A R}
    (h : Covers fr [] v) : Covers fr [] v.close := by
  obtain ⟨g, o, h1, h2, h3, h4⟩ := h
  exact ⟨g ++ [o], [], by simp [h1], by simp [View.close, h2, ← h3], by simp [View.close], h4⟩

/-! ## Flushing -/

theorem flushSlots_frags (tag : Option Nat) : ∀ (slots : List (Slot O A R)) (i : Nat),
    (∀ k, tag = some (i + k) → frags tag (flushSlots i slots).1 =
      match slots[k]? with
      | none => []
      | some sl => if sl.episode = [] then [] else [sl.episode]) ∧
    ((∀ k, tag ≠ some (i + k)) → frags tag (flushSlots i slots).1 = [])
  | [], i => by simp [flushSlots, frags]
  | sl :: slots, i => by
    obtain ⟨h1, h2⟩ := flushSlots_frags tag slots (i + 1)
    constructor
    · intro k hk
      cases k with
      | zero =>
        have hr : frags tag (flushSlots (i + 1) slots).1 = [] := h2 (by
          intro k' hk'; have := Option.some.inj (hk.symm.trans hk'); omega)
        simp only [flushSlots, List.getElem?_cons_zero]
        by_cases he : sl.episode = []
        · simp [he, hr]
        · have : sl.episode.isEmpty = false := isEmpty_false he
          simp only [this, Bool.false_eq_true, if_false, he]
          have hh : frags tag ((some i, sl.episode) :: (flushSlots (i + 1) slots).1) =
              [sl.episode] ++ frags tag (flushSlots (i + 1) slots).1 := by
            simp [frags, hk]
          rw [hh, hr]; rfl
      | succ k =>
        have hr := h1 k (by rw [hk]; congr 1; omega)
        simp only [flushSlots, List.getElem?_cons_succ]
        by_cases he : sl.episode = []
        · simp [he, hr]
        · have : sl.episode.isEmpty = false := isEmpty_false he
          simp only [this, Bool.false_eq_true, if_false]
          have hh : frags tag ((some i, sl.episode) :: (flushSlots (i + 1) slots).1) =
              frags tag (flushSlots (i + 1) slots).1 := by
            simp [frags, hk]
          rw [hh, hr]
    · intro hk
      have hr : frags tag (flushSlots (i + 1) slots).1 = [] := h2 (by
        intro k' hk'; exact hk (k' + 1) (by rw [hk']; congr 1; omega))
      simp only [flushSlots]
      by_cases he : sl.episode = []
      · simp [he, hr]
      · have : sl.episode.isEmpty = false := isEmpty_false he
        simp only [this, Bool.false_eq_true, if_false]
        have hh : frags tag ((some i, sl.episode) :: (flushSlots (i + 1) slots).1) =
            frags tag (flushSlots (i + 1) slots).1 := by
          have h0 : decide ((some i : Option Nat) = tag) = false :=
            decide_eq_false (fun h => hk 0 h.symm)
          simp [frags, h0]
        rw [hh, hr]

theorem flushSlots_get : ∀ (slots : List (Slot O A R)) (i k : Nat),
    (flushSlots i slots).2[k]? = slots[k]?.map (fun sl => ⟨[], sl.last⟩)
  | [], i, k => by simp [flushSlots]
  | sl :: slots, i, k => by
    have ih := flushSlots_get slots (i + 1)
    have h0 : (flushSlots i (sl :: slots)).2 = ⟨[], sl.last⟩ :: (flushSlots (i + 1) slots).2 := by
      simp only [flushSlots]
      by_cases he : sl.episode = []
      · obtain ⟨e, l⟩ := sl
        simp only at he
        subst he; rfl
      · have : sl.episode.isEmpty = false := isEmpty_false he
        simp only [this, Bool.false_eq_true, if_false]
    rw [h0]
    cases k with
    | zero => rfl
    | succ k => simpa using ih k

theorem flush_inv {tag : Option Nat} {out : List (Dataset O A R)} {s : St O A R} {v : View O A R}
    (h : Inv tag out s v) : Inv tag out (flush s) v ∧ pending tag (flush s) = [] := by
  -- the single part first
  have hstep : ∀ (fr fr' : List (List (Tr O A R))) (cur : List (Tr O A R)),
      Covers fr cur v → (fr' = if cur = [] then [] else [cur]) → Covers (fr ++ fr') [] v := by
    intro fr fr' cur hc hf
    by_cases he : cur = []
    · subst he; simp only [if_true] at hf; subst hf; simpa using hc
    · rw [if_neg he] at hf; subst hf; exact covers_flush hc he
  obtain ⟨mem, le, la, ba⟩ := s
  cases tag with
  | none =>
    have hb : ∀ (m : Dataset O A R) (l : List (Tr O A R)),
        frags none (flushBatch ⟨m, l, la, ba⟩).memory = frags none m ∧
        (flushBatch ⟨m, l, la, ba⟩).lastEpisode = l ∧ (flushBatch ⟨m, l, la, ba⟩).last = la := by
      intro m l
      cases ba with
      | none => exact ⟨rfl, rfl, rfl⟩
      | some slots =>
        refine ⟨?_, rfl, rfl⟩
        simp only [flushBatch, frags_append]
        rw [(flushSlots_frags none slots 0).2 (by simp)]
        simp
    have hc : Covers (frags none (out.flatten ++ mem)) le v := h.cov
    have hl : la = v.last := h.last
    by_cases he : le = []
    · subst he
      obtain ⟨b1, b2, b3⟩ := hb mem []
      refine ⟨⟨?_, ?_⟩, b2⟩
      · show Covers (frags none (out.flatten ++ (flushBatch ⟨mem, [], la, ba⟩).memory))
          (flushBatch ⟨mem, [], la, ba⟩).lastEpisode v
        rw [frags_append, b1, b2, ← frags_append]; exact hc
      · show (flushBatch ⟨mem, [], la, ba⟩).last = v.last
        rw [b3]; exact hl
    · have hie : le.isEmpty = false := isEmpty_false he
      obtain ⟨b1, b2, b3⟩ := hb (mem ++ [(none, le)]) []
      have hf : flush (⟨mem, le, la, ba⟩ : St O A R) = flushBatch ⟨mem ++ [(none, le)], [], la, ba⟩ := by
        simp [flush, hie]
      refine ⟨⟨?_, ?_⟩, ?_⟩
      · show Covers (frags none (out.flatten ++ (flush ⟨mem, le, la, ba⟩).memory))
          (flush ⟨mem, le, la, ba⟩).lastEpisode v
        rw [hf, frags_append, b1, b2, ← frags_append, ← List.append_assoc, frags_append]
        exact hstep _ _ le hc (by simp [frags, he])
      · show (flush ⟨mem, le, la, ba⟩).last = v.last
        rw [hf, b3]; exact hl
      · show (flush ⟨mem, le, la, ba⟩).lastEpisode = []
        rw [hf]; exact b2
  | some i =>
    have hm : ∃ m, frags (some i) m = frags (some i) mem ∧
        flush (⟨mem, le, la, ba⟩ : St O A R) = flushBatch ⟨m, [], la, ba⟩ := by
      by_cases he : le = []
      · subst he; exact ⟨mem, rfl, rfl⟩
      · have hie : le.isEmpty = false := isEmpty_false he
        exact ⟨mem ++ [(none, le)], by simp [frags], by simp [flush, hie]⟩
    obtain ⟨m, hm1, hm2⟩ := hm
    have hc : Covers (frags (some i) (out.flatten ++ mem)) (pending (some i) ⟨mem, le, la, ba⟩) v := h.cov
    have hl := h.last
    rw [hm2]
    cases ba with
    | none =>
      refine ⟨⟨?_, hl⟩, rfl⟩
      show Covers (frags (some i) (out.flatten ++ m)) [] v
      rw [frags_append, hm1, ← frags_append]; exact hc
    | some slots =>
      have hp : pending (some i) (flushBatch (⟨m, [], la, some slots⟩ : St O A R)) = [] := by
        simp only [flushBatch, pending, flushSlots_get]
        cases slots[i]? <;> rfl
      refine ⟨⟨?_, ?_⟩, hp⟩
      · rw [hp]
        show Covers (frags (some i) (out.flatten ++ (m ++ (flushSlots 0 slots).1))) [] v
        rw [← List.append_assoc, frags_append, frags_append, hm1, ← frags_append]
        refine hstep _ _ _ hc ?_
        rw [(flushSlots_frags (some i) slots 0).1 i (by simp)]
        show _ = if (slots[i]?.map (·.episode)).getD [] = [] then [] else _
        simp only [pending]
        rcases hk : slots[i]? with _ | sl <;> simp
      · rw [← hl]
        simp only [flushBatch, lastOf, flushSlots_get]
        cases slots[i]? <;> rfl

theorem update_inv {tag : Option Nat} {out : List (Dataset O A R)} {s : St O A R} {v : View O A R}
    (interval : Nat) (h : Inv tag out s v) :
    Inv tag (out ++ (updateIfReady interval s).2) (updateIfReady interval s).1 v := by
  simp only [updateIfReady]
  split
  · obtain ⟨⟨h1, h2⟩, h3⟩ := flush_inv h
    refine ⟨?_, h2⟩
    rw [h3] at h1
    have hp : pending tag { flush s with memory := [] } = pending tag (flush s) := by
      cases tag <;> rfl
    show Covers _ (pending tag { flush s with memory := [] }) v
    rw [hp, h3]
    simpa using h1
  · simpa using h

/-! ## The calls -/

theorem observeRow_spec (i : Nat) (sl : Slot O A R) (obs : O) (reward : R) (done reset : Bool)
    (d : Dataset O A R) (sl' : Slot O A R)
    (h : observeRow i sl (obs, reward, done, reset) = .ok (d, sl')) :
    sl'.last = none ∧
    ((done || reset) = true → ∃ ep, ep ≠ [] ∧ d = [(some i, ep)] ∧ sl'.episode = [] ∧
      ep = (match sl.last with
        | none => sl.episode
        | some (o, a) => sl.episode ++ [⟨o, a, reward, obs, done⟩])) ∧
    ((done || reset) = false → d = [] ∧ sl'.episode = (match sl.last with
        | none => sl.episode
        | some (o, a) => sl.episode ++ [⟨o, a, reward, obs, done⟩])) := by
  have key : ∀ ep : List (Tr O A R),
      (if (done || reset) = true then
        (if ep.isEmpty = true then (Except.error PyErr.assertionError : Py (Dataset O A R × Slot O A R))
          else .ok ([(some i, ep)], ⟨[], none⟩))
        else .ok ([], ⟨ep, none⟩)) = .ok (d, sl') →
      sl'.last = none ∧
      ((done || reset) = true → ∃ ep', ep' ≠ [] ∧ d = [(some i, ep')] ∧ sl'.episode = [] ∧ ep' = ep) ∧
      ((done || reset) = false → d = [] ∧ sl'.episode = ep) := by
    intro ep h
    cases hdr : (done || reset) with
    | true =>
      rw [hdr] at h
      simp only [if_true] at h
      cases he : ep.isEmpty with
      | true => rw [he] at h; simp at h
      | false =>
        rw [he] at h
        simp only [Bool.false_eq_true, if_false, Except.ok.injEq, Prod.mk.injEq] at h
        obtain ⟨rfl, rfl⟩ := h
        refine ⟨rfl, fun _ => ⟨ep, ?_, rfl, rfl, rfl⟩, by simp⟩
        intro h0; rw [h0] at he; simp at he
    | false =>
      rw [hdr] at h
      simp only [Bool.false_eq_true, if_false, Except.ok.injEq, Prod.mk.injEq] at h
      obtain ⟨rfl, rfl⟩ := h
      exact ⟨rfl, by simp, fun _ => ⟨rfl, rfl⟩⟩
  obtain ⟨ep0, la⟩ := sl
  rcases la with _ | ⟨o, a⟩
  · exact key _ h
  · exact key _ h

theorem observeRows_spec : ∀ (sls : List (Slot O A R)) (rows : List (O × R × Bool × Bool)) (i : Nat)
    (d : Dataset O A R) (sls' : List (Slot O A R)), observeRows i sls rows = .ok (d, sls') →
    (∀ tag : Option Nat, (∀ k, tag ≠ some (i + k)) → frags tag d = []) ∧
    ∀ k, match sls[k]?, rows[k]? with
      | some sl, some row => ∃ dk sl', observeRow (i + k) sl row = .ok (dk, sl') ∧
          frags (some (i + k)) d = dk.map Prod.snd ∧ sls'[k]? = some sl'
      | _, _ => frags (some (i + k)) d = [] ∧ sls'[k]? = sls[k]?
  | [], rows, i, d, sls', h => by
    simp only [observeRows, Except.ok.injEq, Prod.mk.injEq] at h
    obtain ⟨rfl, rfl⟩ := h
    simp [frags]
  | sl :: sls, [], i, d, sls', h => by
    simp only [observeRows, Except.ok.injEq, Prod.mk.injEq] at h
    obtain ⟨rfl, rfl⟩ := h
    refine ⟨by simp [frags], ?_⟩
    intro k
    cases hk : (sl :: sls)[k]? <;> simp [frags]
  | sl :: sls, row :: rows, i, d, sls', h => by
    simp only [observeRows, bind, Except.bind] at h
    cases h1 : observeRow i sl row with
    | error e => rw [h1] at h; cases h
    | ok r =>
      rw [h1] at h
      simp only at h
      cases h2 : observeRows (i + 1) sls rows with
      | error e => rw [h2] at h; cases h
      | ok r' =>
        rw [h2] at h
        simp only [pure, Except.pure, Except.ok.injEq, Prod.mk.injEq] at h
        obtain ⟨rfl, rfl⟩ := h
        obtain ⟨g1, g2⟩ := observeRows_spec sls rows (i + 1) r'.1 r'.2 (by rw [h2])
        -- the entries of row `i` are tagged `i`
        have htag : ∀ e ∈ r.1, e.1 = some i := by
          obtain ⟨obs, reward, done, reset⟩ := row
          obtain ⟨-, q2, q3⟩ := observeRow_spec i sl obs reward done reset r.1 r.2 (by rw [h1])
          intro e he
          cases hdr : (done || reset) with
          | true =>
            obtain ⟨ep, -, hd, -⟩ := q2 hdr
            rw [hd] at he
            simp at he; rw [he]
          | false =>
            rw [(q3 hdr).1] at he; simp at he
        have hsame : frags (some i) r.1 = r.1.map Prod.snd := by
          rw [frags, List.filter_eq_self.2]
          intro e he; simp [htag e he]
        have hother : ∀ tag : Option Nat, tag ≠ some i → frags tag r.1 = [] := by
          intro tag ht
          rw [frags, List.filter_eq_nil_iff.2]
          · rfl
          · intro e he; simp only [decide_eq_true_eq]; rw [htag e he]; exact fun h => ht h.symm
        constructor
        · intro tag ht
          rw [frags_append, hother tag (by simpa using ht 0), g1 tag (by
            intro k hk; exact ht (k + 1) (by rw [hk]; congr 1; omega))]
          rfl
        · intro k
          cases k with
          | zero =>
            simp only [List.getElem?_cons_zero]
            refine ⟨r.1, r.2, by simpa using h1, ?_, rfl⟩
            rw [Nat.add_zero, frags_append, hsame, g1 (some i) (by intro k hk; simp at hk; omega)]
            simp
          | succ k =>
            have hk := g2 k
            rw [show i + 1 + k = i + (k + 1) by omega] at hk
            simp only [List.getElem?_cons_succ]
            rw [frags_append, hother (some (i + (k + 1))) (by simp)]
            simpa using hk

theorem step_inv (interval : Nat) {tag : Option Nat} {out : List (Dataset O A R)} {s s' : St O A R}
    {v : View O A R} {o : List (Dataset O A R)} (c : Call O A R) (h : Inv tag out s v)
    (hs : step interval s c = .ok (s', o)) : Inv tag (out ++ o) s' (v.see tag c) := by
  cases c with
  | act obs reward action =>
    simp only [step, Except.ok.injEq, Prod.mk.injEq] at hs
    obtain ⟨rfl, rfl⟩ := hs
    cases tag with
    | none =>
      have h1 : Inv none out (record s obs reward) { v.outcome obs reward false with last := s.last } := by
        have hl : s.last = v.last := h.last
        obtain ⟨mem, le, la, ba⟩ := s
        obtain ⟨en, cu, vl⟩ := v
        simp only at hl
        subst hl
        cases la with
        | none => exact ⟨h.cov, rfl⟩
        | some p => exact ⟨covers_snoc h.cov _ _, rfl⟩
      have h2 := update_inv interval h1
      exact ⟨h2.cov, rfl⟩
    | some i =>
      have h1 : Inv (some i) out (record s obs reward) v := by
        obtain ⟨mem, le, la, ba⟩ := s
        cases la with
        | none => exact h
        | some p => exact ⟨h.cov, h.last⟩
      have h2 := update_inv interval h1
      exact ⟨h2.cov, h2.last⟩
  | stop state reward done =>
    simp only [step] at hs
    cases hla : s.last with
    | none => rw [hla] at hs; cases hs
    | some p =>
      rw [hla] at hs
      simp only [Except.ok.injEq] at hs
      cases tag with
      | none =>
        have hl : s.last = v.last := h.last
        have h1 : Inv none out ⟨s.memory, s.lastEpisode ++ [⟨p.1, p.2, reward, state, done⟩], none, s.batch⟩ (v.outcome state reward done) := by
          simp only [View.outcome, ← hl, hla]
          exact ⟨covers_snoc h.cov _ _, rfl⟩
        -- flushing at the end of the episode closes it
        have h2 : Inv none out (flush ⟨s.memory, s.lastEpisode ++ [⟨p.1, p.2, reward, state, done⟩], none, s.batch⟩)
            (v.outcome state reward done).close := by
          obtain ⟨⟨f1, f2⟩, f3⟩ := flush_inv h1
          refine ⟨?_, ?_⟩
          · rw [f3] at f1 ⊢
            obtain ⟨g, op, q1, q2, q3, q4⟩ := f1
            exact ⟨g ++ [op], [], by simp [q1], by simp [View.close, q2, ← q3], by simp [View.close], q4⟩
          · rw [f2]
            simp [View.outcome, ← hl, hla, View.close]
        have h3 := update_inv interval h2
        rw [hs] at h3
        exact h3
      | some i =>
        have h1 : Inv (some i) out ⟨s.memory, s.lastEpisode ++ [⟨p.1, p.2, reward, state, done⟩], none, s.batch⟩ v :=
          ⟨h.cov, h.last⟩
        have h3 := update_inv interval (flush_inv h1).1
        rw [hs] at h3
        exact h3
  | batchAct rows =>
    simp only [step, bind, Except.bind] at hs
    cases hsl : actSlots s rows with
    | error e => rw [hsl] at hs; cases hs
    | ok slots =>
      rw [hsl] at hs
      simp only [pure, Except.pure, Except.ok.injEq, Prod.mk.injEq] at hs
      obtain ⟨rfl, rfl⟩ := hs
      rw [List.append_nil]
      cases tag with
      | none => exact ⟨h.cov, h.last⟩
      | some i =>
        have hget : (slots[i]?.map (·.episode)).getD [] = pending (some i) s ∧
            slots[i]?.bind (·.last) = (match rows[i]? with
              | none => lastOf (some i) s
              | some r => some r) := by
          simp only [actSlots] at hsl
          cases hb : s.batch with
          | none =>
            rw [hb] at hsl
            simp only [Except.ok.injEq] at hsl
            subst hsl
            simp only [pending, lastOf, hb, List.getElem?_map]
            cases rows[i]? <;> simp
          | some sls =>
            rw [hb] at hsl
            simp only [pyAssert] at hsl
            split at hsl
            · rename_i hlen
              simp only [beq_iff_eq] at hlen
              simp only [Except.ok.injEq] at hsl
              subst hsl
              simp only [pending, lastOf, hb, List.getElem?_zipWith]
              cases hk : sls[i]? with
              | none =>
                have : rows[i]? = none := by
                  rw [List.getElem?_eq_none_iff] at hk ⊢; omega
                simp [this]
              | some sl =>
                have : ∃ r, rows[i]? = some r := by
                  have := (List.getElem?_eq_some_iff.1 hk).1
                  exact ⟨rows[i], by simp [show i < rows.length by omega]⟩
                obtain ⟨r, hr⟩ := this
                simp [hr]
            · cases hsl
        refine ⟨?_, ?_⟩
        · show Covers (frags (some i) (out.flatten ++ s.memory)) ((slots[i]?.map (·.episode)).getD []) _
          rw [hget.1]
          simp only [View.see]
          cases rows[i]? with
          | none => exact h.cov
          | some r => exact covers_last h.cov _
        · show slots[i]?.bind (·.last) = _
          rw [hget.2]
          simp only [View.see]
          cases rows[i]? with
          | none => exact h.last
          | some r => rfl
  | batchObserve rows =>
    simp only [step] at hs
    cases hb : s.batch with
    | none => rw [hb] at hs; cases hs
    | some slots =>
      rw [hb] at hs
      simp only [bind, Except.bind] at hs
      cases hr : observeRows 0 slots rows with
      | error e => rw [hr] at hs; cases hs
      | ok r =>
        rw [hr] at hs
        simp only [pure, Except.pure, Except.ok.injEq] at hs
        obtain ⟨g1, g2⟩ := observeRows_spec slots rows 0 r.1 r.2 (by rw [hr])
        suffices hI : Inv tag out ⟨s.memory ++ r.1, s.lastEpisode, s.last, some r.2⟩
            (v.see tag (.batchObserve rows)) by
          have h3 := update_inv interval hI
          rw [hs] at h3
          exact h3
        cases tag with
        | none =>
          refine ⟨?_, h.last⟩
          show Covers (frags none (out.flatten ++ (s.memory ++ r.1))) s.lastEpisode v
          rw [← List.append_assoc, frags_append, g1 none (by simp), List.append_nil]
          exact h.cov
        | some i =>
          have hc := h.cov
          have hl := h.last
          simp only [pending, lastOf, hb] at hc hl
          have hk := g2 i
          rw [Nat.zero_add] at hk
          cases hsl : slots[i]? with
          | none =>
            rw [hsl] at hk hc hl
            simp only at hk
            simp only [Option.map_none, Option.getD_none, Option.bind_none] at hc hl
            have hz : frags (some i) r.1 = [] ∧ r.2[i]? = none := hk
            have hC : Covers (frags (some i) (out.flatten ++ (s.memory ++ r.1))) [] v := by
              rw [← List.append_assoc, frags_append, hz.1, List.append_nil]; exact hc
            have hp : pending (some i) (⟨s.memory ++ r.1, s.lastEpisode, s.last, some r.2⟩ : St O A R) = [] := by
              simp [pending, hz.2]
            have hL : lastOf (some i) (⟨s.memory ++ r.1, s.lastEpisode, s.last, some r.2⟩ : St O A R) = none := by
              simp [lastOf, hz.2]
            obtain ⟨en, cu, vl⟩ := v
            simp only at hl
            subst hl
            refine ⟨?_, ?_⟩
            · rw [hp]
              simp only [View.see]
              rcases rows[i]? with _ | ⟨obs, reward, done, reset⟩
              · exact hC
              · simp only [View.outcome]
                split
                · exact covers_close_nil hC
                · exact hC
            · rw [hL]
              simp only [View.see]
              rcases rows[i]? with _ | ⟨obs, reward, done, reset⟩
              · rfl
              · simp only [View.outcome]
                split <;> rfl
          | some sl =>
            rw [hsl] at hk hc hl
            simp only [Option.map_some, Option.getD_some, Option.bind_some] at hc hl
            rcases hrow : rows[i]? with _ | ⟨obs, reward, done, reset⟩
            · rw [hrow] at hk
              have hz : frags (some i) r.1 = [] ∧ r.2[i]? = some sl := hk
              refine ⟨?_, ?_⟩
              · show Covers (frags (some i) (out.flatten ++ (s.memory ++ r.1)))
                  ((r.2[i]?.map (·.episode)).getD []) _
                rw [← List.append_assoc, frags_append, hz.1, List.append_nil, hz.2]
                simp only [View.see, hrow]
                exact hc
              · show r.2[i]?.bind (·.last) = _
                rw [hz.2]
                simp only [View.see, hrow]
                exact hl
            · rw [hrow] at hk
              obtain ⟨dk, sl', k1, k2, k3⟩ := hk
              obtain ⟨q1, q2, q3⟩ := observeRow_spec i sl obs reward done reset dk sl' k1
              -- the experience before the end of the episode is looked at
              have hw : ∃ w : View O A R, w = { v.outcome obs reward done with last := none } ∧
                  Covers (frags (some i) (out.flatten ++ s.memory)) (match sl.last with
                    | none => sl.episode
                    | some (o, a) => sl.episode ++ [⟨o, a, reward, obs, done⟩]) w := by
                obtain ⟨en, cu, vl⟩ := v
                simp only at hl
                subst hl
                refine ⟨_, rfl, ?_⟩
                obtain ⟨ep, la⟩ := sl
                rcases la with _ | ⟨o, a⟩
                · exact covers_last hc _
                · exact covers_snoc hc _ _
              obtain ⟨w, hw1, hw2⟩ := hw
              refine ⟨?_, ?_⟩
              · show Covers (frags (some i) (out.flatten ++ (s.memory ++ r.1)))
                  ((r.2[i]?.map (·.episode)).getD []) _
                rw [← List.append_assoc, frags_append, k2, k3]
                simp only [View.see, hrow, ← hw1, Option.map_some, Option.getD_some]
                cases hdr : (done || reset) with
                | true =>
                  obtain ⟨ep, e1, e2, e3, e4⟩ := q2 hdr
                  rw [← e4] at hw2
                  rw [e2, e3]
                  simp only [if_true]
                  exact covers_close hw2 e1
                | false =>
                  obtain ⟨e1, e2⟩ := q3 hdr
                  rw [e1, e2]
                  simpa using hw2
              · show r.2[i]?.bind (·.last) = _
                rw [k3]
                simp only [View.see, hrow, Option.bind_some, q1]
                split <;> rfl

theorem run_inv (interval : Nat) (tag : Option Nat) : ∀ (cs : List (Call O A R)) (s s' : St O A R)
    (v : View O A R) (out o : List (Dataset O A R)), Inv tag out s v →
    run interval s cs = .ok (s', o) → Inv tag (out ++ o) s' (cs.foldl (View.see tag) v)
  | [], s, s', v, out, o, h, hr => by
    simp only [run, Except.ok.injEq, Prod.mk.injEq] at hr
    obtain ⟨rfl, rfl⟩ := hr
    simpa using h
  | c :: cs, s, s', v, out, o, h, hr => by
    simp only [run, bind, Except.bind] at hr
    cases h1 : step interval s c with
    | error e => rw [h1] at hr; cases hr
    | ok r =>
      rw [h1] at hr
      simp only at hr
      cases h2 : run interval r.1 cs with
      | error e => rw [h2] at hr; cases hr
      | ok r' =>
        rw [h2] at hr
        simp only [pure, Except.pure, Except.ok.injEq, Prod.mk.injEq] at hr
        obtain ⟨rfl, rfl⟩ := hr
        have := run_inv interval tag cs r.1 r'.1 (v.see tag c) (out ++ r.2) r'.2
          (step_inv interval c h (by rw [h1])) (by rw [h2])
        rw [← List.append_assoc]
        exact this

theorem run_init (interval : Nat) (tag : Option Nat) (cs : List (Call O A R)) (s : St O A R)
    (ds : List (Dataset O A R)) (hr : run interval St.init cs = .ok (s, ds)) :
    Inv tag ds s (view tag cs) := by
  have h0 : Inv tag [] (St.init : St O A R) View.init := by
    cases tag <;> exact ⟨⟨[], [], rfl, rfl, rfl, by simp [frags, St.init]⟩, rfl⟩
  have := run_inv interval tag cs St.init s View.init [] ds h0 hr
  rw [List.nil_append] at this
  exact this

/-- **C50**: for every history of calls of the single and the batch interface that
raises nothing, and every environment: the fragments in the datasets of the updates
made, then those waiting in memory, then the transitions of the episode being
recorded, are exactly what the environment experienced: every episode in order,
every transition once, and no fragment spanning two episodes. -/
theorem C50_exactly_once (interval : Nat) (tag : Option Nat) (cs : List (Call O A R)) (s : St O A R)
    (ds : List (Dataset O A R)) (hr : run interval St.init cs = .ok (s, ds)) :
    ∃ cur : List (Tr O A R), Covers (fragments tag (ds ++ [s.memory])) cur (view tag cs) := by
  refine ⟨pending tag s, ?_⟩
  have := (run_init interval tag cs s ds hr).cov
  have e : fragments tag (ds ++ [s.memory]) = frags tag (ds.flatten ++ s.memory) := by
    simp [fragments, frags]
  rw [e]; exact this

/-! ## Sizes -/

def slotsSize (slots : List (Slot O A R)) : Nat := (slots.map (fun sl => sl.episode.length)).sum

theorem flushSlots_size : ∀ (slots : List (Slot O A R)) (i : Nat),
    Dataset.size (flushSlots i slots).1 = slotsSize slots ∧ slotsSize (flushSlots i slots).2 = 0
  | [], i => ⟨rfl, rfl⟩
  | sl :: slots, i => by
    obtain ⟨h1, h2⟩ := flushSlots_size slots (i + 1)
    simp only [flushSlots]
    by_cases he : sl.episode = []
    · simp only [he, List.isEmpty_nil, if_true]
      simp only [slotsSize, List.map_cons, List.sum_cons, he, List.length_nil, Nat.zero_add]
      exact ⟨h1, h2⟩
    · simp only [isEmpty_false he, Bool.false_eq_true, if_false]
      simp only [Dataset.size, slotsSize, List.map_cons, List.sum_cons, List.length_nil, Nat.zero_add]
      exact ⟨by rw [← Dataset.size, h1]; rfl, h2⟩

theorem size_append (a b : Dataset O A R) : Dataset.size (a ++ b) = Dataset.size a + Dataset.size b := by
  simp [Dataset.size]

/-- What is left after a flush is all in memory. -/
theorem flush_size (s : St O A R) : Dataset.size (flush s).memory = datasetSize s ∧
    (flush s).lastEpisode = [] ∧ batchSize (flush s) = 0 := by
  have key : ∀ m : Dataset O A R, Dataset.size (flushBatch ⟨m, [], s.last, s.batch⟩).memory =
      Dataset.size m + batchSize s ∧ (flushBatch ⟨m, [], s.last, s.batch⟩).lastEpisode = [] ∧
      batchSize (flushBatch ⟨m, [], s.last, s.batch⟩) = 0 := by
    intro m
    obtain ⟨mem, le, la, ba⟩ := s
    cases ba with
    | none => exact ⟨by simp [flushBatch, batchSize], rfl, rfl⟩
    | some slots =>
      obtain ⟨h1, h2⟩ := flushSlots_size slots 0
      refine ⟨?_, rfl, h2⟩
      simp only [flushBatch, size_append, h1]
      rfl
  obtain ⟨mem, le, la, ba⟩ := s
  by_cases he : le = []
  · subst he
    obtain ⟨k1, k2, k3⟩ := key mem
    refine ⟨?_, k2, k3⟩
    show Dataset.size (flushBatch ⟨mem, [], la, ba⟩).memory = _
    rw [k1]; simp [datasetSize, Dataset.size]
  · obtain ⟨k1, k2, k3⟩ := key (mem ++ [(none, le)])
    have hf : flush (⟨mem, le, la, ba⟩ : St O A R) = flushBatch ⟨mem ++ [(none, le)], [], la, ba⟩ := by
      simp [flush, isEmpty_false he]
    rw [hf]
    refine ⟨?_, k2, k3⟩
    rw [k1, size_append]
    simp [datasetSize, Dataset.size]

theorem flush_datasetSize (s : St O A R) : datasetSize (flush s) = datasetSize s := by
  obtain ⟨h1, h2, h3⟩ := flush_size s
  rw [datasetSize, h2, h3, ← Dataset.size, h1]; simp

theorem update_size (interval : Nat) (hi : 1 ≤ interval) (s : St O A R) :
    datasetSize (updateIfReady interval s).1 < interval ∧
    (∀ d ∈ (updateIfReady interval s).2, interval ≤ d.size ∧ d.size = datasetSize s) := by
  obtain ⟨h1, h2, h3⟩ := flush_size s
  simp only [updateIfReady]
  split
  · rename_i hle
    refine ⟨?_, ?_⟩
    · show 0 + (flush s).lastEpisode.length + batchSize (flush s) < interval
      rw [h2, h3]; exact hi
    · intro d hd
      simp only [List.mem_singleton] at hd
      subst hd
      exact ⟨by omega, h1⟩
  · rename_i hle
    exact ⟨by show datasetSize s < interval; omega, by simp⟩

theorem observeRows_size : ∀ (sls : List (Slot O A R)) (rows : List (O × R × Bool × Bool)) (i : Nat)
    (d : Dataset O A R) (sls' : List (Slot O A R)), observeRows i sls rows = .ok (d, sls') →
    d.size + slotsSize sls' ≤ slotsSize sls + rows.length
  | [], rows, i, d, sls', h => by
    simp only [observeRows, Except.ok.injEq, Prod.mk.injEq] at h
    obtain ⟨rfl, rfl⟩ := h
    simp [Dataset.size, slotsSize]
  | sl :: sls, [], i, d, sls', h => by
    simp only [observeRows, Except.ok.injEq, Prod.mk.injEq] at h
    obtain ⟨rfl, rfl⟩ := h
    simp [Dataset.size]
  | sl :: sls, row :: rows, i, d, sls', h => by
    simp only [observeRows, bind, Except.bind] at h
    cases h1 : observeRow i sl row with
    | error e => rw [h1] at h; cases h
    | ok r =>
      rw [h1] at h
      simp only at h
      cases h2 : observeRows (i + 1) sls rows with
      | error e => rw [h2] at h; cases h
      | ok r' =>
        rw [h2] at h
        simp only [pure, Except.pure, Except.ok.injEq, Prod.mk.injEq] at h
        obtain ⟨rfl, rfl⟩ := h
        have ih := observeRows_size sls rows (i + 1) r'.1 r'.2 (by rw [h2])
        obtain ⟨obs, reward, done, reset⟩ := row
        obtain ⟨-, q2, q3⟩ := observeRow_spec i sl obs reward done reset r.1 r.2 (by rw [h1])
        have hep : (match sl.last with
            | none => sl.episode
            | some (o, a) => sl.episode ++ [(⟨o, a, reward, obs, done⟩ : Tr O A R)]).length ≤
            sl.episode.length + 1 := by
          obtain ⟨e, la⟩ := sl
          rcases la with _ | ⟨o, a⟩ <;> simp
        have hr : Dataset.size r.1 + r.2.episode.length ≤ sl.episode.length + 1 := by
          cases hdr : (done || reset) with
          | true =>
            obtain ⟨ep, -, e2, e3, e4⟩ := q2 hdr
            rw [e2, e3]
            rw [← e4] at hep
            simpa [Dataset.size] using hep
          | false =>
            obtain ⟨e1, e2⟩ := q3 hdr
            rw [e1, e2]
            simpa [Dataset.size] using hep
        rw [size_append]
        have c1 : slotsSize (r.2 :: r'.2) = r.2.episode.length + slotsSize r'.2 := rfl
        have c2 : slotsSize (sl :: sls) = sl.episode.length + slotsSize sls := rfl
        rw [c1, c2, List.length_cons]
        omega

/-- The width of a call: the number of environments whose outcome it can bring. -/
def Call.width : Call O A R → Nat
  | .batchObserve rows => rows.length
  | _ => 1

theorem step_size (interval : Nat) (hi : 1 ≤ interval) (s s' : St O A R) (o : List (Dataset O A R))
    (c : Call O A R) (h0 : datasetSize s < interval) (hs : step interval s c = .ok (s', o)) :
    datasetSize s' < interval ∧ ∀ d ∈ o, interval ≤ d.size ∧ d.size < interval + c.width := by
  have key : ∀ t : St O A R, datasetSize t ≤ datasetSize s + c.width →
      datasetSize (updateIfReady interval t).1 < interval ∧
      ∀ d ∈ (updateIfReady interval t).2, interval ≤ d.size ∧ d.size < interval + c.width := by
    intro t ht
    obtain ⟨u1, u2⟩ := update_size interval hi t
    exact ⟨u1, fun d hd => ⟨(u2 d hd).1, by rw [(u2 d hd).2]; omega⟩⟩
  cases c with
  | act obs reward action =>
    simp only [step, Except.ok.injEq, Prod.mk.injEq] at hs
    obtain ⟨rfl, rfl⟩ := hs
    exact key (record s obs reward) (by
      obtain ⟨mem, le, la, ba⟩ := s
      rcases la with _ | ⟨o, a⟩
      · simp [record]
      · have hb : ∀ l, batchSize (⟨mem, l, some (o, a), ba⟩ : St O A R) =
            batchSize (⟨mem, le, some (o, a), ba⟩ : St O A R) := fun _ => rfl
        simp only [record, datasetSize, Call.width, List.length_append, List.length_singleton, hb]
        omega)
  | stop state reward done =>
    simp only [step] at hs
    cases hla : s.last with
    | none => rw [hla] at hs; cases hs
    | some p =>
      rw [hla] at hs
      simp only [Except.ok.injEq] at hs
      have := key (flush ⟨s.memory, s.lastEpisode ++ [⟨p.1, p.2, reward, state, done⟩], none, s.batch⟩) (by
        rw [flush_datasetSize]
        have hb : batchSize (⟨s.memory, s.lastEpisode ++ [⟨p.1, p.2, reward, state, done⟩], none,
          s.batch⟩ : St O A R) = batchSize s := rfl
        simp only [datasetSize, Call.width, List.length_append, List.length_singleton, hb]
        omega)
      rw [hs] at this
      exact this
  | batchAct rows =>
    simp only [step, bind, Except.bind] at hs
    cases hsl : actSlots s rows with
    | error e => rw [hsl] at hs; cases hs
    | ok slots =>
      rw [hsl] at hs
      simp only [pure, Except.pure, Except.ok.injEq, Prod.mk.injEq] at hs
      obtain ⟨rfl, rfl⟩ := hs
      refine ⟨?_, by simp⟩
      have : slotsSize slots = batchSize s := by
        simp only [actSlots] at hsl
        cases hb : s.batch with
        | none =>
          rw [hb] at hsl
          simp only [Except.ok.injEq] at hsl
          subst hsl
          simp [slotsSize, batchSize, hb, Function.comp_def]
        | some sls =>
          rw [hb] at hsl
          simp only [pyAssert] at hsl
          split at hsl
          · rename_i hlen
            simp only [beq_iff_eq] at hlen
            simp only [Except.ok.injEq] at hsl
            subst hsl
            simp only [slotsSize, batchSize, hb]
            congr 1
            apply List.ext_getElem
            · simp [hlen]
            · intro k h1 h2
              simp
          · cases hsl
      show (s.memory.map (fun e => e.2.length)).sum + s.lastEpisode.length + slotsSize slots < interval
      rw [this]; exact h0
  | batchObserve rows =>
    simp only [step] at hs
    cases hb : s.batch with
    | none => rw [hb] at hs; cases hs
    | some slots =>
      rw [hb] at hs
      simp only [bind, Except.bind] at hs
      cases hr : observeRows 0 slots rows with
      | error e => rw [hr] at hs; cases hs
      | ok r =>
        rw [hr] at hs
        simp only [pure, Except.pure, Except.ok.injEq] at hs
        have hsz := observeRows_size slots rows 0 r.1 r.2 (by rw [hr])
        have := key ⟨s.memory ++ r.1, s.lastEpisode, s.last, some r.2⟩ (by
          have hm : Dataset.size (s.memory ++ r.1) = Dataset.size s.memory + Dataset.size r.1 :=
            size_append _ _
          have hbs : batchSize s = slotsSize slots := by simp [batchSize, hb, slotsSize]
          show Dataset.size (s.memory ++ r.1) + s.lastEpisode.length + slotsSize r.2 ≤
            Dataset.size s.memory + s.lastEpisode.length + batchSize s + rows.length
          rw [hm, hbs]; omega)
        rw [hs] at this
        exact this

theorem run_size (interval w : Nat) (hi : 1 ≤ interval) : ∀ (cs : List (Call O A R)) (s s' : St O A R)
    (o : List (Dataset O A R)), datasetSize s < interval → (∀ c ∈ cs, c.width ≤ w) →
    run interval s cs = .ok (s', o) →
    datasetSize s' < interval ∧ ∀ d ∈ o, interval ≤ d.size ∧ d.size < interval + w
  | [], s, s', o, h, _, hr => by
    simp only [run, Except.ok.injEq, Prod.mk.injEq] at hr
    obtain ⟨rfl, rfl⟩ := hr
    exact ⟨h, by simp⟩
  | c :: cs, s, s', o, h, hw, hr => by
    simp only [run, bind, Except.bind] at hr
    cases h1 : step interval s c with
    | error e => rw [h1] at hr; cases hr
    | ok r =>
      rw [h1] at hr
      simp only at hr
      cases h2 : run interval r.1 cs with
      | error e => rw [h2] at hr; cases hr
      | ok r' =>
        rw [h2] at hr
        simp only [pure, Except.pure, Except.ok.injEq, Prod.mk.injEq] at hr
        obtain ⟨rfl, rfl⟩ := hr
        obtain ⟨a1, a2⟩ := step_size interval hi s r.1 r.2 c h (by rw [h1])
        obtain ⟨b1, b2⟩ := run_size interval w hi cs r.1 r'.1 r'.2 a1
          (fun c hc => hw c (List.mem_cons_of_mem _ hc)) (by rw [h2])
        refine ⟨b1, ?_⟩
        intro d hd
        rcases List.mem_append.1 hd with hd | hd
        · have := a2 d hd
          have := hw c (List.mem_cons_self ..)
          omega
        · exact b2 d hd

/-- **C50**: every update's dataset has at least `update_interval` transitions, and
at most as many more as one call can bring in excess of one: exactly
`update_interval` in the single interface (`w = 1`), fewer than `update_interval`
plus the number of environments in the batch interface. -/
theorem C50_dataset_size (interval w : Nat) (hi : 1 ≤ interval) (hw : 1 ≤ w) (cs : List (Call O A R))
    (s : St O A R) (ds : List (Dataset O A R)) (hr : run interval St.init cs = .ok (s, ds))
    (hrows : ∀ rows, Call.batchObserve rows ∈ cs → rows.length ≤ w) :
    ∀ d ∈ ds, interval ≤ d.size ∧ d.size < interval + w := by
  refine (run_size interval w hi cs St.init s ds (by
    show 0 < interval; omega) ?_ hr).2
  intro c hc
  cases c with
  | batchObserve rows => exact hrows rows hc
  | _ => exact hw

/-! ## How much is waiting -/

theorem covers_count {fr : List (List (Tr O A R))} {cur : List (Tr O A R)} {v : View O A R}
    (h : Covers fr cur v) : v.count = (fr.map List.length).sum + cur.length := by
  obtain ⟨g, o, h1, h2, h3, -⟩ := h
  have e1 : ((g.map List.flatten).map List.length).sum = (g.flatten.map List.length).sum := by
    clear h1 h2
    induction g with
    | nil => rfl
    | cons a g ih =>
      rw [List.map_cons, List.map_cons, List.sum_cons, ih, List.flatten_cons, List.map_append,
        List.sum_append, List.length_flatten]
  rw [View.count, ← h2, ← h3, h1, e1]
  simp [Nat.add_assoc]

/-- The transitions of a dataset that come from `none` and the first `n` environments
are no more than all of them. -/
theorem frags_sum_le (n : Nat) : ∀ d : Dataset O A R,
    ((frags none d).map List.length).sum +
      ((List.range n).map (fun i => ((frags (some i) d).map List.length).sum)).sum ≤ d.size
  | [] => by simp [frags, Dataset.size]
  | (t, e) :: d => by
    have ih := frags_sum_le n d
    have hs : Dataset.size ((t, e) :: d) = e.length + Dataset.size d := rfl
    have hf : ∀ tag : Option Nat, ((frags tag ((t, e) :: d)).map List.length).sum =
        (if t = tag then e.length else 0) + ((frags tag d).map List.length).sum := by
      intro tag
      by_cases h : t = tag <;> simp [frags, h]
    simp only [hf]
    have hsum : ∀ (f g : Nat → Nat) (l : List Nat), (l.map (fun i => f i + g i)).sum =
        (l.map f).sum + (l.map g).sum := by
      intro f g l
      induction l with
      | nil => rfl
      | cons a l ih => simp [ih]; omega
    rw [hsum (fun i => if t = some i then e.length else 0)]
    have hone : (if t = none then e.length else 0) +
        ((List.range n).map (fun i => if t = some i then e.length else 0)).sum ≤ e.length := by
      cases t with
      | none =>
        have : ((List.range n).map (fun i => if (none : Option Nat) = some i then e.length else 0)).sum = 0 := by
          simp
        rw [this]; simp
      | some k =>
        have : ∀ m, ((List.range m).map (fun i => if some k = some i then e.length else 0)).sum =
            if k < m then e.length else 0 := by
          intro m
          induction m with
          | zero => simp
          | succ m ih =>
            rw [List.range_succ, List.map_append, List.sum_append, ih]
            by_cases h1 : k < m
            · have : k ≠ m := by omega
              simp [h1, this, show k < m + 1 by omega]
            · by_cases h2 : k = m
              · subst h2; simp
              · simp [h1, h2, show ¬ k < m + 1 by omega]
        rw [this, if_neg (by simp)]
        split <;> omega
    rw [hs]
    omega

theorem pending_sum_le (n : Nat) (s : St O A R) :
    (pending none s).length + ((List.range n).map (fun i => (pending (some i) s).length)).sum ≤
      s.lastEpisode.length + batchSize s := by
  refine Nat.add_le_add (le_refl _) ?_
  simp only [pending, batchSize]
  cases s.batch with
  | none => simp
  | some slots =>
    simp only
    clear s
    induction n generalizing slots with
    | zero => simp
    | succ n ih =>
      rw [List.range_succ_eq_map]
      cases slots with
      | nil =>
        have := ih []
        simp [Function.comp_def]
      | cons sl slots =>
        have := ih slots
        simpa [Function.comp_def] using this

/-- **C50**: an update happens as soon as `update_interval` transitions are
collected: after any history of calls, the transitions experienced exceed those in
the updates made so far by less than `update_interval`. -/
theorem C50_as_soon_as (interval n : Nat) (hi : 1 ≤ interval) (cs : List (Call O A R)) (s : St O A R)
    (ds : List (Dataset O A R)) (hr : run interval St.init cs = .ok (s, ds)) :
    experienced n cs < (ds.map Dataset.size).sum + interval := by
  have hlt : datasetSize s < interval := by
    obtain ⟨w, hw⟩ : ∃ w, ∀ c ∈ cs, c.width ≤ w := ⟨(cs.map Call.width).sum, fun c hc =>
      List.single_le_sum (by simp) _ (List.mem_map_of_mem hc)⟩
    exact (run_size interval w hi cs St.init s ds (by show 0 < interval; omega) hw hr).1
  have hc : ∀ tag, (view tag cs).count = ((frags tag (ds.flatten ++ s.memory)).map List.length).sum +
      (pending tag s).length := fun tag => covers_count (run_init interval tag cs s ds hr).cov
  have hsum : ∀ (f g : Nat → Nat) (l : List Nat), (l.map (fun i => f i + g i)).sum =
      (l.map f).sum + (l.map g).sum := by
    intro f g l
    induction l with
    | nil => rfl
    | cons a l ih => simp [ih]; omega
  have h1 := frags_sum_le n (ds.flatten ++ s.memory)
  have h2 := pending_sum_le n s
  have h3 : Dataset.size (ds.flatten ++ s.memory) = (ds.map Dataset.size).sum + Dataset.size s.memory := by
    rw [size_append]
    congr 1
    clear hr hlt hc h1
    induction ds with
    | nil => rfl
    | cons d ds ih => rw [List.flatten_cons, size_append, ih, List.map_cons, List.sum_cons]
  have h4 : datasetSize s = Dataset.size s.memory + s.lastEpisode.length + batchSize s := rfl
  simp only [experienced, hc, hsum]
  omega

/-! ## No call raises -/

/-- What the agent's data look like between legal calls. -/
structure Ready (n : Nat) (a b : Bool) (s : St O A R) : Prop where
  single : a = true → s.last ≠ none
  batch : match s.batch with
    | none => b = false
    | some slots => slots.length = n ∧ (b = true → ∀ sl ∈ slots, sl.last ≠ none)

theorem flushSlots_last (slots : List (Slot O A R)) (i : Nat) :
    (flushSlots i slots).2.length = slots.length ∧
    ((∀ sl ∈ slots, sl.last ≠ none) → ∀ sl ∈ (flushSlots i slots).2, sl.last ≠ none) := by
  have hg := flushSlots_get slots i
  refine ⟨?_, ?_⟩
  · apply Nat.le_antisymm
    · apply List.getElem?_eq_none_iff.1; rw [hg]; simp
    · apply List.getElem?_eq_none_iff.1
      have := hg (flushSlots i slots).2.length
      rw [List.getElem?_eq_none (le_refl _)] at this
      simpa using this.symm
  · intro h sl hsl
    obtain ⟨k, hk⟩ := List.mem_iff_getElem?.1 hsl
    rw [hg] at hk
    cases hs : slots[k]? with
    | none => rw [hs] at hk; cases hk
    | some sl0 =>
      rw [hs] at hk
      simp only [Option.map_some, Option.some.injEq] at hk
      subst hk
      exact h sl0 (List.mem_of_getElem? hs)

theorem flush_ready {n : Nat} {a b : Bool} {s : St O A R} (h : Ready n a b s) : Ready n a b (flush s) := by
  have key : ∀ m l, Ready n a b (⟨m, l, s.last, s.batch⟩ : St O A R) →
      Ready n a b (flushBatch ⟨m, l, s.last, s.batch⟩) := by
    obtain ⟨mem, le, la, ba⟩ := s
    intro m l hm
    cases ba with
    | none => exact hm
    | some slots =>
      obtain ⟨f1, f2⟩ := flushSlots_last slots 0
      have hb := hm.batch
      simp only at hb
      exact ⟨hm.single, by
        show (flushSlots 0 slots).2.length = n ∧ _
        exact ⟨by rw [f1]; exact hb.1, fun hbt => f2 (hb.2 hbt)⟩⟩
  obtain ⟨mem, le, la, ba⟩ := s
  by_cases he : le = []
  · subst he; exact key mem [] ⟨h.single, h.batch⟩
  · have hf : flush (⟨mem, le, la, ba⟩ : St O A R) = flushBatch ⟨mem ++ [(none, le)], [], la, ba⟩ := by
      simp [flush, isEmpty_false he]
    rw [hf]
    exact key _ [] ⟨h.single, h.batch⟩

theorem update_ready {n : Nat} {a b : Bool} {s : St O A R} (interval : Nat) (h : Ready n a b s) :
    Ready n a b (updateIfReady interval s).1 := by
  simp only [updateIfReady]
  split
  · have := flush_ready h
    exact ⟨this.single, this.batch⟩
  · exact h

theorem observeRows_ok : ∀ (sls : List (Slot O A R)) (rows : List (O × R × Bool × Bool)) (i : Nat),
    sls.length = rows.length → (∀ sl ∈ sls, sl.last ≠ none) →
    ∃ r, observeRows i sls rows = .ok r ∧ r.2.length = sls.length
  | [], rows, i, _, _ => ⟨_, rfl, rfl⟩
  | sl :: sls, [], i, h, _ => by simp at h
  | sl :: sls, row :: rows, i, h, hl => by
    obtain ⟨r', h1, h2⟩ := observeRows_ok sls rows (i + 1) (by simpa using h)
      (fun sl hsl => hl sl (List.mem_cons_of_mem _ hsl))
    have hrow : ∃ r, observeRow i sl row = .ok r := by
      have hlast := hl sl (List.mem_cons_self ..)
      obtain ⟨ep, la⟩ := sl
      rcases la with _ | ⟨o, a⟩
      · exact absurd rfl hlast
      · simp only [observeRow]
        have : (ep ++ [(⟨o, a, row.2.1, row.1, row.2.2.1⟩ : Tr O A R)]).isEmpty = false :=
          isEmpty_false (by simp)
        rw [this]
        split
        · exact ⟨_, rfl⟩
        · exact ⟨_, rfl⟩
    obtain ⟨r, h3⟩ := hrow
    refine ⟨(r.1 ++ r'.1, r.2 :: r'.2), ?_, by simp [h2]⟩
    simp only [observeRows, h3, h1, bind, Except.bind, pure, Except.pure]

theorem legal_run (interval n : Nat) {a b : Bool} {cs : List (Call O A R)} (hl : Legal n a b cs) :
    ∀ s : St O A R, Ready n a b s → ∃ r, run interval s cs = .ok r := by
  have cons : ∀ (s s' : St O A R) (o : List (Dataset O A R)) (c : Call O A R) (cs : List (Call O A R)),
      step interval s c = .ok (s', o) → (∃ r, run interval s' cs = .ok r) →
      ∃ r, run interval s (c :: cs) = .ok r := by
    rintro s s' o c cs h1 ⟨r, h2⟩
    exact ⟨(r.1, o ++ r.2), by simp only [run, h1, h2, bind, Except.bind, pure, Except.pure]⟩
  induction hl with
  | nil a b => exact fun s _ => ⟨_, rfl⟩
  | act a b obs reward action cs _ ih =>
    intro s h
    refine cons s _ _ _ cs rfl (ih _ ?_)
    have h1 : Ready n false b (record s obs reward) := by
      obtain ⟨mem, le, la, ba⟩ := s
      cases la with
      | none => exact ⟨by simp, h.batch⟩
      | some p => exact ⟨by simp, h.batch⟩
    have h2 := update_ready interval h1
    exact ⟨fun _ => by simp, h2.batch⟩
  | stop b state reward done cs _ ih =>
    intro s h
    have hla := h.single rfl
    cases hl : s.last with
    | none => exact absurd hl hla
    | some p =>
      refine cons s (updateIfReady interval (flush ⟨s.memory, s.lastEpisode ++
        [⟨p.1, p.2, reward, state, done⟩], none, s.batch⟩)).1 (updateIfReady interval (flush ⟨s.memory,
        s.lastEpisode ++ [⟨p.1, p.2, reward, state, done⟩], none, s.batch⟩)).2 _ cs ?_ (ih _ ?_)
      · simp only [step, hl]
      · exact update_ready interval (flush_ready ⟨by simp, h.batch⟩)
  | batchAct a b rows cs hn _ ih =>
    intro s h
    have hb := h.batch
    cases hs : s.batch with
    | none =>
      refine cons s ⟨s.memory, s.lastEpisode, s.last, some (rows.map (fun r => ⟨[], some r⟩))⟩ [] _ cs ?_
        (ih _ ⟨h.single, ?_⟩)
      · simp only [step, actSlots, hs, bind, Except.bind, pure, Except.pure]
      · exact ⟨by simp [hn], fun _ sl hsl => by
          simp only [List.mem_map] at hsl
          obtain ⟨r, -, rfl⟩ := hsl
          simp⟩
    | some slots =>
      rw [hs] at hb
      refine cons s ⟨s.memory, s.lastEpisode, s.last, some (List.zipWith (fun sl r =>
        { sl with last := some r }) slots rows)⟩ [] _ cs ?_ (ih _ ⟨h.single, ?_⟩)
      · have : (slots.length == rows.length) = true := by simp [hb.1, hn]
        simp only [step, actSlots, hs, pyAssert, this, if_true, bind, Except.bind, pure, Except.pure]
      · refine ⟨by simp [hb.1, hn], fun _ sl hsl => ?_⟩
        obtain ⟨k, hk⟩ := List.mem_iff_getElem?.1 hsl
        rw [List.getElem?_zipWith] at hk
        split at hk
        · simp only [Option.some.injEq] at hk
          subst hk; simp
        · cases hk
  | batchObserve a rows cs hn _ ih =>
    intro s h
    have hb := h.batch
    cases hs : s.batch with
    | none => rw [hs] at hb; cases hb
    | some slots =>
      rw [hs] at hb
      obtain ⟨r, h1, h2⟩ := observeRows_ok slots rows 0 (by rw [hb.1, hn]) (hb.2 rfl)
      refine cons s (updateIfReady interval ⟨s.memory ++ r.1, s.lastEpisode, s.last, some r.2⟩).1
        (updateIfReady interval ⟨s.memory ++ r.1, s.lastEpisode, s.last, some r.2⟩).2 _ cs ?_ (ih _ ?_)
      · simp only [step, hs, h1, bind, Except.bind, pure, Except.pure]
      · exact update_ready interval ⟨h.single, by
          show r.2.length = n ∧ _
          exact ⟨by rw [h2]; exact hb.1, by simp⟩⟩

/-- **C50**: no history made the way training loops make it raises, so the other
theorems apply to it. -/
theorem C50_no_error (interval n : Nat) (cs : List (Call O A R)) (hl : Legal n false false cs) :
    ∃ s ds, run interval St.init cs = .ok (s, ds) := by
  obtain ⟨r, hr⟩ := legal_run interval n hl St.init ⟨by simp, rfl⟩
  exact ⟨r.1, r.2, hr⟩

/-! ## Examples -/

/-- Two environments, an update after three transitions; the second environment's
episode ends after its second step. -/
def exampleCalls : List (Call Nat Nat Int) :=
  [.batchAct [(0, 5), (10, 6)], .batchObserve [(1, 1, false, false), (11, 2, false, false)],
   .batchAct [(1, 7), (11, 8)], .batchObserve [(2, 3, false, false), (12, 4, true, false)],
   .batchAct [(2, 9), (20, 4)], .batchObserve [(3, 5, false, false), (21, 6, false, false)]]

example : Legal 2 false false exampleCalls := by
  repeat' first | exact .nil _ _ | refine .batchAct _ _ _ _ rfl ?_ | refine .batchObserve _ _ _ rfl ?_

/-- The update is made with four transitions; two wait. -/
example : (run 3 St.init exampleCalls).toOption.map (fun r => r.2) =
    some [[(some 1, [⟨10, 6, 2, 11, false⟩, ⟨11, 8, 4, 12, true⟩]),
      (some 0, [⟨0, 5, 1, 1, false⟩, ⟨1, 7, 3, 2, false⟩])]] := by decide

example : experienced 2 exampleCalls = 6 := by decide

/-- The single interface: an update after exactly two transitions, in the middle of
an episode. -/
example : (run 2 St.init [.act 0 0 5, .act 1 1 6, .act 2 2 7, .stop 3 3 true,
      (.act 4 0 8 : Call Nat Nat Int)]).toOption.map (fun r => (r.2, r.1.memory)) =
    some ([[(none, [⟨0, 5, 1, 1, false⟩, ⟨1, 6, 2, 2, false⟩])]], [(none, [⟨2, 7, 3, 3, true⟩])]) := rfl

end Verif.PPOData
