import Mathlib.Data.List.Forall2
import Verif.Proofs.EpisodicBuffer
import Verif.Props.SampleNK
set_option autoImplicit false

/-! # C13, C14: `EpisodicReplayBuffer` -/

namespace Verif
open NStep (Op)
open EpisodeList
variable {E T : Type} [DecidableEq E]

/-- C13.  No history of calls raises.  Afterwards the stored episodes are the
most recent finished episodes that fit into the capacity (whole episodes are
evicted, oldest first, and not more than needed), the transition view is the
concatenation of these episodes in order, and `len` and `n_episodes` are their
numbers of transitions and episodes. -/
theorem C13_views_agree (term : T → Bool) (cap : Option Nat) (ops : List (Op E T)) :
    ∃ (b : EpiBuf E T) (kept : List (List T)), (EpiBuf.init cap).run term ops = .ok b ∧
      KeptBy cap (EpisodeList.of term ops).1 kept ∧
      b.episodic.iter = kept ∧ b.memory.iter = kept.flatten.map (fun t => [t]) ∧
      b.len = total kept ∧ b.nEpisodes = kept.length ∧ (∀ c, cap = some c → b.len ≤ c) := by
  obtain ⟨b, h1, h2, _, _⟩ := EpiBuf.run_rep term cap ops
  have hlen : b.len = total (EpiBuf.keep cap (EpisodeList.of term ops).1) := by
    unfold EpiBuf.len; rw [RAQ.len_eq, h2.mem, List.length_map]; rfl
  refine ⟨b, _, h1, EpiBuf.keep_keptBy cap _, h2.epi, h2.mem, hlen, ?_, ?_⟩
  · unfold EpiBuf.nEpisodes; rw [RAQ.len_eq, h2.epi]
  · rintro c rfl
    rw [hlen]; exact (evictList_kept c _).fits

/-- C13, an episode longer than the capacity leaves the buffer empty. -/
theorem C13_too_long_episode (term : T → Bool) (c : Nat) (ops : List (Op E T)) (b : EpiBuf E T)
    (hb : (EpiBuf.init (some c)).run term ops = .ok b) (ep : List T)
    (hlast : (EpisodeList.of term ops).1.getLast? = some ep) (hlong : c < ep.length) :
    b.episodic.iter = [] ∧ b.memory.iter = [] := by
  obtain ⟨b', kept, h1, h2, h3, h4, _⟩ := C13_views_agree term (some c) ops
  rw [hb] at h1; cases h1
  have h2 : Kept c _ kept := h2
  obtain ⟨l, hl⟩ : ∃ l, (EpisodeList.of term ops).1 = l ++ [ep] :=
    List.getLast?_eq_some_iff.mp hlast
  have : kept = [] := by
    rcases List.eq_nil_or_concat kept with h | ⟨k, x, h⟩
    · exact h
    · exfalso
      rw [List.concat_eq_append] at h
      have hs := h2.suffix
      rw [hl, h] at hs
      obtain ⟨t, ht⟩ := hs
      rw [← List.append_assoc] at ht
      obtain ⟨_, h6⟩ := List.append_inj' ht rfl
      cases h6
      have := h2.fits
      rw [h, total_append] at this
      simp [total] at this; omega
  rw [h3, h4, this]; simp

/-- C13, saving and loading: a new buffer of the same capacity that loads what another one saved between episodes is that buffer, so that
every later history finds it in the same state. -/
theorem C13_load (term : T → Bool) (cap : Option Nat) (ops later : List (Op E T)) (b : EpiBuf E T)
    (hb : (EpiBuf.init cap).run term ops = .ok b) (hcur : (EpisodeList.of term ops).2 = fun _ => []) :
    (EpiBuf.load (EpiBuf.init cap) b.save).run term later = (EpiBuf.init cap).run term (ops ++ later) := by
  obtain ⟨b', h1, _, h3, h4⟩ := EpiBuf.run_rep term cap ops
  rw [hb] at h1; cases h1
  have e : EpiBuf.load (EpiBuf.init cap) b.save = b := by
    rw [hcur] at h3
    cases b
    simp only at h3 h4
    subst h3 h4
    rfl
  rw [e]
  unfold EpiBuf.run at hb ⊢
  rw [List.foldlM_append, hb]
  rfl

-- the hypotheses of `C13_load`: one finished episode and none running
example : ∃ b : EpiBuf Bool Nat, (EpiBuf.init (some 3)).run (· == 9) [.append true 1, .append true 9] = .ok b ∧
    (EpisodeList.of (· == 9) [NStep.Op.append true 1, NStep.Op.append true 9]).2 = fun _ => [] := by
  obtain ⟨b, h, -⟩ := EpiBuf.run_rep (E := Bool) (· == 9) (some 3) [.append true 1, .append true 9]
  exact ⟨b, h, by funext e; cases e <;> decide⟩

-- two interleaved environments, eviction of a whole episode
example : ((EpiBuf.init (some 3) : EpiBuf Bool Nat).run (· == 9)
    [.append true 1, .append false 5, .append true 9, .append false 6, .stop false,
     .stop true]).map (fun b => (b.episodic.iter, b.memory.iter)) =
    .ok ([[5, 6]], [[5], [6]]) := by decide +kernel

/-- C14.  On every buffer: when `sample_episodes(n, max_len)` returns, it
returns, for `n` distinct stored episodes, a contiguous part of each whose
length is the smaller of the episode's length and `max_len` (the whole episode
when `max_len` is `None`), whatever `randint` draws. -/
theorem C14_subsequences (b : EpiBuf E T) (k : Nat) (maxLen : Option Nat) (d : SampleNK.NKDraws)
    (hd : d.Valid b.episodic.len k) (starts : List Nat) (hs : starts.length = k)
    (hr : ∀ eps, b.episodic.sample k d = .ret eps → ∀ p ∈ eps.zip starts, ∀ m, maxLen = some m →
      m < p.1.length → p.2 < p.1.length - m + 1)
    (l : List (List T)) (hl : b.sampleEpisodes k maxLen d starts = .ret l) :
    ∃ (ixs : List Nat) (eps : List (List T)), ixs.length = k ∧ ixs.Nodup ∧
      eps.map some = ixs.map (fun i => b.episodic.iter[i]?) ∧ l.length = k ∧
      List.Forall₂ (fun part ep => part <:+: ep ∧
        part.length = match maxLen with | none => ep.length | some m => min ep.length m) l eps := by
  obtain ⟨h1, h2⟩ := C03_queue_sample b.episodic k d hd
  unfold EpiBuf.sampleEpisodes at hl
  split at hl
  · cases hsm : b.episodic.sample k d with
    | ret eps =>
      obtain ⟨ixs, e1, e2, e3⟩ := h1 eps hsm
      have hlen : eps.length = k := by
        have := congrArg List.length e3; simp at this; omega
      cases maxLen with
      | none =>
        rw [hsm] at hl; cases hl
        exact ⟨ixs, l, by omega, e2, e3, hlen, List.forall₂_same.mpr
          fun ep _ => ⟨List.infix_refl _, rfl⟩⟩
      | some m =>
        rw [hsm] at hl; cases hl
        refine ⟨ixs, eps, by omega, e2, e3, by simp [hlen, hs], ?_⟩
        have hr := fun p hp => hr eps hsm p hp m rfl
        have hll : starts.length = eps.length := by omega
        clear * - hr hll
        induction eps generalizing starts with
        | nil => simp
        | cons ep eps ih =>
          cases starts with
          | nil => simp at hll
          | cons s starts =>
            simp only [List.zip_cons_cons, List.map_cons]
            refine .cons ?_ (ih starts (fun p hp => hr p (by simp [hp])) (by simpa using hll))
            unfold EpiBuf.randomSubseq
            by_cases h : ep.length ≤ m
            · rw [if_pos h]; exact ⟨List.infix_refl _, by show ep.length = min ep.length m; omega⟩
            · rw [if_neg h]
              have := hr (ep, s) (by simp) (by show m < ep.length; omega)
              simp only at this
              exact ⟨NStep.slice_infix m ep s, by
                show ((ep.drop s).take m).length = min ep.length m
                rw [List.length_take, List.length_drop]; omega⟩
    | raised e => cases maxLen <;> rw [hsm] at hl <;> cases hl
    | waiting => cases maxLen <;> rw [hsm] at hl <;> cases hl
  · cases hl

/-- C14, requests: it raises `AssertionError` exactly when more episodes are
requested than stored. -/
theorem C14_raises (b : EpiBuf E T) (k : Nat) (maxLen : Option Nat) (d : SampleNK.NKDraws)
    (hd : d.Valid b.episodic.len k) (starts : List Nat) (e : PyErr) :
    b.sampleEpisodes k maxLen d starts = .raised e ↔
      (e = .assertionError ∧ b.episodic.iter.length < k) := by
  obtain ⟨_, h2⟩ := C03_queue_sample b.episodic k d hd
  have hlen : b.episodic.len = b.episodic.iter.length := RAQ.len_eq _
  unfold EpiBuf.sampleEpisodes
  by_cases h : (b.episodic.len : Int) ≥ k
  · rw [if_pos h]
    have hno : ∀ e, b.episodic.sample k d ≠ .raised e := by
      intro e he
      have := (h2 e).mp he
      omega
    have : ¬ (e = .assertionError ∧ b.episodic.iter.length < k) := by omega
    simp only [this, iff_false]
    cases hsm : b.episodic.sample k d with
    | ret eps => cases maxLen <;> simp
    | raised e' => exact absurd hsm (hno e')
    | waiting => cases maxLen <;> simp
  · rw [if_neg h]
    constructor
    · intro h; cases h; exact ⟨rfl, by omega⟩
    · rintro ⟨rfl, _⟩; rfl

example : (EpiBuf.sampleEpisodes (E := Unit) ⟨none, fun _ => [], RAQ.init none [[1, 2, 3], [4]],
    RAQ.init none [[1], [2], [3], [4]]⟩ 2 (some 2) ⟨[0, 1], [0, 0, 0, 0], []⟩ [1, 0]) =
    .ret [[2, 3], [4]] := by decide +kernel

/-- The hypotheses of `C14_subsequences` hold of these draws. -/
example : ∃ (ixs : List Nat) (eps : List (List Nat)), ixs.length = 2 ∧ ixs.Nodup ∧
    eps.map some = ixs.map (fun i => (RAQ.init none [[1, 2, 3], [4]]).iter[i]?) := by
  obtain ⟨ixs, eps, h1, h2, h3, -⟩ := C14_subsequences (E := Unit) ⟨none, fun _ => [], RAQ.init none [[1, 2, 3], [4]], RAQ.init none [[1], [2], [3], [4]]⟩ 2 (some 2)
    ⟨[0, 1], [0, 0, 0, 0], []⟩ (by unfold SampleNK.NKDraws.Valid; decide +kernel) [1, 0] rfl (fun eps he => by
      have : eps = [[1, 2, 3], [4]] := by
        have h : RAQ.sample (RAQ.init none [[1, 2, 3], [4]]) 2 ⟨[0, 1], [0, 0, 0, 0], []⟩ = .ret [[1, 2, 3], [4]] := by decide +kernel
        exact (SampleNK.Res.ret.inj (h.symm.trans he)).symm
      subst this
      simp) [[2, 3], [4]] (by decide +kernel)
  exact ⟨ixs, eps, h1, h2, h3⟩

/-- C14, `sample(n)` of single transitions: it raises `AssertionError` exactly when `n` exceeds the number of stored transitions,
and otherwise returns the entries at `n` distinct positions. -/
theorem C14_sample (b : EpiBuf E T) (k : Nat) (d : SampleNK.NKDraws) (hd : d.Valid b.memory.len k) :
    (∀ e, b.sample k d = .raised e ↔ (e = .assertionError ∧ b.memory.iter.length < k)) ∧
    (∀ l, b.sample k d = .ret l → ∃ ixs : List Nat, ixs.length = k ∧ ixs.Nodup ∧
      l.map some = ixs.map (fun i => b.memory.iter[i]?)) := by
  have hlen : b.memory.len = b.memory.iter.length := RAQ.len_eq _
  obtain ⟨h1, h2⟩ := C03_queue_sample b.memory k d hd
  unfold EpiBuf.sample
  by_cases h : (b.memory.len : Int) ≥ k
  · rw [if_pos h]
    constructor
    · intro e
      rw [h2 e]
      constructor
      · rintro ⟨rfl, h3⟩; omega
      · rintro ⟨rfl, h3⟩; omega
    · intro l hl
      obtain ⟨ixs, h3, h4, h5⟩ := h1 l hl
      exact ⟨ixs, by omega, h4, h5⟩
  · rw [if_neg h]
    constructor
    · intro e
      constructor
      · intro he; cases he; exact ⟨rfl, by omega⟩
      · rintro ⟨rfl, _⟩; rfl
    · intro l hl; cases hl

end Verif
