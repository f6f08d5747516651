import Mathlib.Data.List.Induction
import Verif.Model.EpisodicBuffer
import Verif.Spec.EpisodeList
import Verif.Proofs.ReplayBuffer
set_option autoImplicit false

/-! Helper lemmas for the episodic buffers. -/

namespace Verif
namespace EpisodeList
variable {E T : Type _}

theorem total_append (a b : List (List T)) : total (a ++ b) = total a + total b := by
  simp [total]

theorem total_cons (a : List T) (b : List (List T)) : total (a :: b) = a.length + total b := by
  simp [total]

theorem total_suffix {a b : List (List T)} (h : a <:+ b) : total a ≤ total b := by
  obtain ⟨t, rfl⟩ := h
  rw [total_append]; omega

/-- Dropping oldest episodes until the rest fits. -/
def evictList (c : Nat) : List (List T) → List (List T)
  | [] => []
  | ep :: eps => if total (ep :: eps) ≤ c then ep :: eps else evictList c eps

theorem suffix_cases {α : Type _} {l : List α} {x : α} {xs : List α} (h : l <:+ x :: xs) :
    l = x :: xs ∨ l <:+ xs := by
  rw [List.suffix_cons_iff] at h; exact h

theorem evictList_kept (c : Nat) (eps : List (List T)) : Kept c eps (evictList c eps) := by
  induction eps with
  | nil => exact ⟨by simp [evictList], by simp [evictList, total], by simp [evictList]⟩
  | cons ep eps ih =>
    unfold evictList
    by_cases h : total (ep :: eps) ≤ c
    · rw [if_pos h]
      exact ⟨List.suffix_refl _, h, fun l hl _ => hl.length_le⟩
    · rw [if_neg h]
      refine ⟨ih.suffix.trans (List.suffix_cons _ _), ih.fits, ?_⟩
      intro l hl hc
      rcases suffix_cases hl with rfl | hl
      · exact absurd hc h
      · exact ih.maximal l hl hc

theorem kept_unique {c : Nat} {eps a b : List (List T)} (ha : Kept c eps a) (hb : Kept c eps b) :
    a = b := by
  have h1 := ha.maximal b hb.suffix hb.fits
  have h2 := hb.maximal a ha.suffix ha.fits
  have h3 : a.length = b.length := by omega
  exact (List.suffix_of_suffix_length_le ha.suffix hb.suffix (by omega)).eq_of_length h3

/-- Evicting after every finished episode keeps the same as evicting once at
the end. -/
theorem kept_append {c : Nat} {eps kept : List (List T)} (h : Kept c eps kept) (ep : List T)
    {kept' : List (List T)} (h' : Kept c (kept ++ [ep]) kept') : Kept c (eps ++ [ep]) kept' := by
  obtain ⟨t, ht⟩ := h.suffix
  refine ⟨?_, h'.fits, ?_⟩
  · refine h'.suffix.trans ⟨t, ?_⟩
    rw [← ht]; simp
  · intro l hl hc
    apply h'.maximal l _ hc
    rcases List.eq_nil_or_concat l with rfl | ⟨l', x, rfl⟩
    · exact List.nil_suffix
    · rw [List.concat_eq_append] at hl hc ⊢
      obtain ⟨s, hs⟩ := hl
      rw [← List.append_assoc] at hs
      obtain ⟨hs1, hs2⟩ := List.append_inj' hs rfl
      cases hs2
      have hl' : l' <:+ eps := ⟨s, hs1⟩
      have hlen := h.maximal l' hl' (by rw [total_append] at hc; omega)
      obtain ⟨u, hu⟩ := List.suffix_of_suffix_length_le hl' h.suffix hlen
      exact ⟨u, by rw [← hu]; simp⟩

end EpisodeList

namespace EpiBuf
variable {E T : Type _} [DecidableEq E]
open EpisodeList

theorem popN_iter {α : Type _} (k : Nat) (q : RAQ α) (h : k ≤ q.iter.length) :
    ∃ q', popN k q = .ok q' ∧ q'.iter = q.iter.drop k ∧ q'.maxlen = q.maxlen := by
  induction k generalizing q with
  | zero => exact ⟨q, rfl, rfl, rfl⟩
  | succ k ih =>
    have hp := RAQ.popleft_iter q
    cases hq : q.iter with
    | nil => simp [hq] at h
    | cons x t =>
      rw [hq] at hp
      obtain ⟨q1, e1, e2, e3⟩ := hp
      obtain ⟨q2, f1, f2, f3⟩ := ih q1 (by rw [e2]; simp [hq] at h; omega)
      exact ⟨q2, by simp [popN, e1, f1], by rw [f2, e2]; simp, f3.trans e3⟩

/-- The invariant: both queues show the episodes `eps`. -/
structure Rep (b : EpiBuf E T) (eps : List (List T)) : Prop where
  epi : b.episodic.iter = eps
  mem : b.memory.iter = eps.flatten.map (fun t => [t])
  epiMax : b.episodic.maxlen = none
  memMax : b.memory.maxlen = none

theorem evict_rep (c : Nat) (eps : List (List T)) (b : EpiBuf E T) (h : Rep b eps)
    (hc : b.capacity = some c) :
    ∃ b', b.evict = .ok b' ∧ Rep b' (evictList c eps) ∧ b'.cur = b.cur ∧ b'.capacity = b.capacity := by
  induction eps generalizing b with
  | nil =>
    refine ⟨b, ?_, h, rfl, rfl⟩
    rw [evict.eq_def]
    simp only [hc]
    rw [if_neg]
    rw [RAQ.len_eq, h.mem]; simp
  | cons ep eps ih =>
    rw [evict.eq_def]
    simp only [hc]
    have hlen : b.memory.len = total (ep :: eps) := by
      rw [RAQ.len_eq, h.mem, List.length_map]; rfl
    by_cases hgt : b.memory.len > c
    · rw [if_pos hgt]
      have hp := RAQ.popleft_iter b.episodic
      rw [h.epi] at hp
      obtain ⟨q, e1, e2, e3⟩ := hp
      obtain ⟨m, f1, f2, f3⟩ := popN_iter ep.length b.memory (by rw [h.mem]; simp)
      rw [e1]
      simp only [f1]
      obtain ⟨b', g1, g2, g3, g4⟩ := ih { b with episodic := q, memory := m }
        ⟨e2, by rw [f2, h.mem]; simp, e3.trans h.epiMax, f3.trans h.memMax⟩ hc
      rw [hc] at g1 g4
      refine ⟨b', g1, ?_, g3, g4⟩
      rw [evictList, if_neg (by omega)]; exact g2
    · rw [if_neg hgt]
      refine ⟨b, rfl, ?_, rfl, hc⟩
      rw [evictList, if_pos (by omega)]; exact h

/-- What is kept, as a function. -/
def keep (cap : Option Nat) (eps : List (List T)) : List (List T) :=
  match cap with
  | none => eps
  | some c => evictList c eps

theorem keep_keptBy (cap : Option Nat) (eps : List (List T)) : KeptBy cap eps (keep cap eps) := by
  cases cap with
  | none => rfl
  | some c => exact evictList_kept c eps

theorem keep_append (cap : Option Nat) (eps : List (List T)) (ep : List T) :
    keep cap (keep cap eps ++ [ep]) = keep cap (eps ++ [ep]) := by
  cases cap with
  | none => rfl
  | some c =>
    exact kept_unique (kept_append (evictList_kept c eps) ep (evictList_kept c _)) (evictList_kept c _)

theorem evict_rep' (eps : List (List T)) (b : EpiBuf E T) (h : Rep b eps) :
    ∃ b', b.evict = .ok b' ∧ Rep b' (keep b.capacity eps) ∧ b'.cur = b.cur ∧
      b'.capacity = b.capacity := by
  cases hc : b.capacity with
  | none => exact ⟨b, by rw [evict.eq_def]; simp [hc], by simpa [keep] using h, rfl, hc⟩
  | some c =>
    obtain ⟨b', h1, h2, h3, h4⟩ := evict_rep c eps b h hc
    exact ⟨b', h1, h2, h3, h4.trans hc⟩

theorem stop_rep (eps : List (List T)) (b : EpiBuf E T) (h : Rep b eps) (e : E)
    (he : b.cur e ≠ []) :
    ∃ b', b.stop e = .ok b' ∧ Rep b' (keep b.capacity (eps ++ [b.cur e])) ∧
      b'.cur = Function.update b.cur e [] ∧ b'.capacity = b.capacity := by
  unfold stop
  rw [if_pos he]
  have ok1 : b.episodic.Ok := fun m hm => by rw [h.epiMax] at hm; cases hm
  have ok2 : b.memory.Ok := fun m hm => by rw [h.memMax] at hm; cases hm
  have a1 := RAQ.append_iter b.episodic (b.cur e) ok1
  have a2 := RAQ.foldl_append_iter ((b.cur e).map (fun t => [t])) b.memory ok2
  rw [h.epiMax, h.epi] at a1
  rw [h.memMax, h.mem] at a2
  refine evict_rep' (eps ++ [b.cur e]) _ ⟨a1.1, ?_, a1.2, a2.2.1⟩
  simp only [a2.1]
  simp [BoundedList.newest]

theorem step_rep (term : T → Bool) (cap : Option Nat) (b : EpiBuf E T)
    (s : List (List T) × (E → List T)) (h : Rep b (keep cap s.1)) (hcur : b.cur = s.2)
    (hcap : b.capacity = cap) (op : NStep.Op E T) :
    ∃ b', b.step term op = .ok b' ∧ Rep b' (keep cap (EpisodeList.step term s op).1) ∧
      b'.cur = (EpisodeList.step term s op).2 ∧ b'.capacity = cap := by
  obtain ⟨done, cur⟩ := s
  simp only at hcur h
  cases op with
  | append e x =>
    simp only [step, append, EpisodeList.step]
    by_cases ht : term x = true
    · rw [if_pos ht, if_pos ht]
      obtain ⟨b', h1, h2, h3, h4⟩ := stop_rep (keep cap done)
        { b with cur := Function.update b.cur e (b.cur e ++ [x]) } ⟨h.1, h.2, h.3, h.4⟩ e (by simp)
      refine ⟨b', h1, ?_, ?_, h4.trans hcap⟩
      · simp only [hcap, Function.update_self] at h2
        rw [keep_append, hcur] at h2; exact h2
      · rw [h3, hcur]; simp
    · rw [if_neg ht, if_neg ht]
      exact ⟨_, rfl, ⟨h.1, h.2, h.3, h.4⟩, by rw [hcur], hcap⟩
  | stop e =>
    simp only [step, EpisodeList.step]
    by_cases he : cur e = []
    · rw [if_pos he]
      refine ⟨b, ?_, h, hcur, hcap⟩
      unfold stop
      rw [if_neg (by rw [hcur]; simp [he])]
    · rw [if_neg he]
      obtain ⟨b', h1, h2, h3, h4⟩ := stop_rep (keep cap done) b h e (by rw [hcur]; exact he)
      refine ⟨b', h1, ?_, by rw [h3, hcur], h4.trans hcap⟩
      rw [hcap, keep_append, hcur] at h2; exact h2

theorem run_rep (term : T → Bool) (cap : Option Nat) (ops : List (NStep.Op E T)) :
    ∃ b', (init cap).run term ops = .ok b' ∧ Rep b' (keep cap (EpisodeList.of term ops).1) ∧
      b'.cur = (EpisodeList.of term ops).2 ∧ b'.capacity = cap := by
  induction ops using List.reverseRecOn with
  | nil =>
    refine ⟨init cap, rfl, ?_, rfl, rfl⟩
    have : keep cap ([] : List (List T)) = [] := by cases cap <;> rfl
    simp only [EpisodeList.of, List.foldl_nil, this]
    have h1 := RAQ.init_iter (α := List T) none []
    exact ⟨h1.1, h1.1, h1.2, h1.2⟩
  | append_singleton ops op ih =>
    obtain ⟨b, h1, h2, h3, h4⟩ := ih
    obtain ⟨b', g1, g2⟩ := step_rep term cap b _ h2 h3 h4 op
    refine ⟨b', ?_, by simpa [EpisodeList.of] using g2⟩
    unfold run at h1 ⊢
    rw [List.foldlM_append, h1]
    simp only [List.foldlM_cons, List.foldlM_nil]
    show (b.step term op >>= _) = _
    rw [g1]; rfl

end EpiBuf
end Verif
