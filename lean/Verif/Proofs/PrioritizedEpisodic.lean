import Verif.Spec.PrioritizedEpisodic
import Verif.Proofs.PrioritizedBuffer
import Verif.Proofs.EpisodicBuffer
set_option autoImplicit false

/-! Helper lemmas for the prioritized episodic buffer. -/

namespace Verif.PEpi
variable {E T K : Type} [DecidableEq E] [Field K] [LinearOrder K] [IsStrictOrderedRing K]
open EpisodeList EpiBuf

/-- Invariant relating the buffer to the finished and unfinished episodes. -/
structure Rep (cap : Option Nat) (wait : Bool) (prio : Option (List T → K)) (b : PEpi E T K)
    (s : List (List T) × (E → List T)) : Prop where
  hist : ∃ items mx, PBuf.HInv none wait b.episodic items mx
  data : b.episodic.data = keep cap s.1
  left : b.capacityLeft = cap.map (fun c => (c : Int) - total (keep cap s.1))
  mem : b.memory.iter = BoundedList.newest cap s.1.flatten
  memMax : b.memory.maxlen = cap
  cur : b.cur = s.2
  prio : b.defaultPriority = prio

theorem extend_iter {α : Type} (q : RAQ α) (xs : List α) :
    (q.extend xs).iter = BoundedList.newest q.maxlen (q.iter ++ xs) ∧
    (q.extend xs).maxlen = q.maxlen := by
  unfold RAQ.extend
  have h := RAQ.applyMaxlen_iter { q with back := q.back ++ xs }
  refine ⟨?_, h.2⟩
  rw [h.1]; simp [RAQ.iter]

theorem evict_rep (c : Nat) (wait : Bool) (eps : List (List T)) (b : PEpi E T K)
    (hh : ∃ items mx, PBuf.HInv none wait b.episodic items mx) (hd : b.episodic.data = eps)
    (hl : b.capacityLeft = some ((c : Int) - total eps)) :
    ∃ b', b.evict = .ok b' ∧ (∃ items mx, PBuf.HInv none wait b'.episodic items mx) ∧
      b'.episodic.data = evictList c eps ∧
      b'.capacityLeft = some ((c : Int) - total (evictList c eps)) ∧
      b'.memory = b.memory ∧ b'.cur = b.cur ∧ b'.defaultPriority = b.defaultPriority := by
  induction eps generalizing b with
  | nil =>
    refine ⟨b, ?_, hh, hd, hl, rfl, rfl, rfl⟩
    rw [evict.eq_def]
    simp only [hl]
    rw [if_neg]
    simp [total]
  | cons ep eps ih =>
    rw [evict.eq_def]
    simp only [hl]
    by_cases hneg : (c : Int) - total (ep :: eps) < 0
    · rw [if_pos hneg]
      obtain ⟨items, mx, hi⟩ := hh
      have hitems := hi.inv.data
      rw [hd] at hitems
      cases items with
      | nil => simp at hitems
      | cons x items =>
        simp only [List.map_cons, List.cons.injEq] at hitems
        obtain ⟨hx, hitems⟩ := hitems
        obtain ⟨q, e1, e2, e3, e4, e5, e6, e7⟩ := PBuf.popleft_inv _ _ hi.inv
        rw [e1]
        simp only
        rw [← hx]
        obtain ⟨b', g1, g2, g3, g4, g5, g6, g7⟩ := ih
          { b with episodic := q, capacityLeft := some ((c : Int) - total (ep :: eps) + ep.length) }
          ⟨items, mx, e2, fun y hy => hi.pos y (by simp [hy]), hi.mpos, by rw [e4, hi.mx],
            by rw [e6, hi.flag], by simp, by rw [e5, hi.wait], by rw [e3, hi.cap]⟩
          (by rw [hitems]; exact e2.data)
          (by simp only [Option.some.injEq]; rw [total_cons]; omega)
        refine ⟨b', g1, g2, ?_, ?_, g5, g6, g7⟩
        · rw [g3, evictList, if_neg (by omega)]
        · rw [g4, evictList, if_neg (by omega)]
    · rw [if_neg hneg]
      refine ⟨b, rfl, hh, ?_, ?_, rfl, rfl, rfl⟩
      · rw [hd, evictList, if_pos (by omega)]
      · rw [hl, evictList, if_pos (by omega)]

theorem stop_rep (cap : Option Nat) (wait : Bool) (prio : Option (List T → K))
    (hprio : ∀ f, prio = some f → ∀ ep, 0 < f ep) (b : PEpi E T K)
    (done : List (List T)) (cur : E → List T) (h : Rep cap wait prio b (done, cur)) (e : E)
    (he : cur e ≠ []) :
    ∃ b', b.stop e = .ok b' ∧
      Rep cap wait prio b' (done ++ [cur e], Function.update cur e []) := by
  obtain ⟨⟨items, mx, hi⟩, hdata, hleft, hmem, hmax, hcur, hpr⟩ := h
  simp only at hdata hleft hmem hcur
  unfold stop
  rw [hcur, if_pos he]
  obtain ⟨q, a1, a2⟩ := hi.append (by simp) (cur e) (b.defaultPriority.map (fun f => f (cur e)))
    (by intro x hx
        rw [hpr] at hx
        cases hp : prio with
        | none => rw [hp] at hx; cases hx
        | some f => rw [hp] at hx; cases hx; exact hprio f hp _)
  simp only [a1]
  have hq : q.data = keep cap done ++ [cur e] := by
    rw [a2.inv.data]
    simp only [BoundedList.newest, List.map_append, List.map_cons, List.map_nil]
    rw [← hi.inv.data, hdata]
  obtain ⟨m1, m2⟩ := extend_iter b.memory (cur e)
  have hm : BoundedList.newest b.memory.maxlen (b.memory.iter ++ cur e) =
      BoundedList.newest cap (done ++ [cur e]).flatten := by
    rw [hmem, hmax, RAQ.newest_newest]; simp
  cases cap with
  | none =>
    rw [evict.eq_def]
    simp only [hleft, Option.map_none]
    refine ⟨_, rfl, ⟨_, _, a2⟩, hq, rfl, ?_, m2.trans hmax, ?_, hpr⟩
    · rw [← hm]; exact m1
    · rfl
  | some c =>
    obtain ⟨b', g1, g2, g3, g4, g5, g6, g7⟩ := evict_rep c wait (keep (some c) done ++ [cur e])
      ({ cur := Function.update cur e [], episodic := q, memory := b.memory.extend (cur e),
          capacityLeft := b.capacityLeft.map (fun left => left - (cur e).length),
          defaultPriority := b.defaultPriority } : PEpi E T K)
      ⟨_, _, a2⟩ hq (by
        simp only [hleft, Option.map_some, Option.some.injEq]
        rw [total_append, total_cons]
        simp [total]; omega)
    have hk : evictList c (keep (some c) done ++ [cur e]) = keep (some c) (done ++ [cur e]) :=
      keep_append (some c) done (cur e)
    refine ⟨b', g1, g2, by rw [g3, hk], by rw [g4, hk]; rfl, ?_, ?_, g6, g7.trans hpr⟩
    · rw [g5, ← hm]; exact m1
    · rw [g5]; exact m2.trans hmax

theorem step_rep (term : T → Bool) (cap : Option Nat) (wait : Bool) (prio : Option (List T → K))
    (hprio : ∀ f, prio = some f → ∀ ep, 0 < f ep) (b : PEpi E T K)
    (s : List (List T) × (E → List T)) (h : Rep cap wait prio b s) (op : NStep.Op E T) :
    ∃ b', b.step term op = .ok b' ∧ Rep cap wait prio b' (EpisodeList.step term s op) := by
  obtain ⟨done, cur⟩ := s
  cases op with
  | append e x =>
    simp only [step, append, EpisodeList.step]
    have hb : Rep cap wait prio { b with cur := Function.update b.cur e (b.cur e ++ [x]) }
        (done, Function.update cur e (cur e ++ [x])) :=
      ⟨h.1, h.2, h.3, h.4, h.5, by have := h.cur; simp only at this; rw [this], h.7⟩
    by_cases ht : term x = true
    · rw [if_pos ht, if_pos ht]
      obtain ⟨b', h1, h2⟩ := stop_rep cap wait prio hprio _ _ _ hb e (by simp)
      refine ⟨b', h1, ?_⟩
      simpa using h2
    · rw [if_neg ht, if_neg ht]
      exact ⟨_, rfl, hb⟩
  | stop e =>
    simp only [step, EpisodeList.step]
    by_cases he : cur e = []
    · rw [if_pos he]
      refine ⟨b, ?_, h⟩
      unfold stop
      have := h.cur; simp only at this
      rw [if_neg (by rw [this]; simp [he])]
    · rw [if_neg he]
      exact stop_rep cap wait prio hprio b done cur h e he

theorem reach_rep {term : T → Bool} {cap : Option Nat} {wait : Bool} {prio : Option (List T → K)}
    (hprio : ∀ f, prio = some f → ∀ ep, 0 < f ep) {b : PEpi E T K} {ops : List (NStep.Op E T)}
    (h : Reach term cap wait prio b ops) : Rep cap wait prio b (EpisodeList.of term ops) := by
  induction h with
  | init =>
    have hk : keep cap ([] : List (List T)) = [] := by cases cap <;> rfl
    have h1 := RAQ.init_iter (α := T) cap []
    refine ⟨⟨[], 1, PBuf.inv_init _ _ _, by simp, one_pos, rfl, rfl, by simp, rfl, rfl⟩, ?_, ?_,
      ?_, h1.2, rfl, rfl⟩
    · simp [init, PBuf.init, EpisodeList.of, hk]
    · cases cap <;> simp [init, EpisodeList.of, hk, total]
    · exact h1.1
  | @feed b b' ops op _ hstep ih =>
    obtain ⟨b2, h1, h2⟩ := step_rep term cap wait prio hprio b _ ih op
    rw [hstep] at h1; cases h1
    simpa [EpisodeList.of] using h2
  | @round b b1 b2 ops ratio d eps probs mp ps _ hne hd hn hsamp hps hl hset ih =>
    obtain ⟨⟨items, mx, hi⟩, hdata, hleft, hmem, hmax, hcur, hpr⟩ := ih
    have hlen : b.episodic.data.length = items.length := by rw [hi.inv.data]; simp
    obtain ⟨pixs, data, probs', pri, q1, q2, g1, _, g3, _, _, _, _, _, _, _, g11⟩ := hi.round
      (by rintro rfl; exact hne (by rw [hi.inv.data]; rfl)) ratio d (by rw [← hlen]; exact hd)
      (by rw [← hlen]; exact hn) ps hps hl
    simp only [sampleEpisodes, g1] at hsamp
    cases hsamp
    simp only [updateErrors, g3] at hset
    cases hset
    refine ⟨⟨_, _, g11⟩, ?_, hleft, hmem, hmax, hcur, hpr⟩
    rw [← hdata]
    simp only
    rw [g11.inv.data, (PBuf.reprioritize_cols _ _ _).1, hi.inv.data]

end Verif.PEpi
