import Verif.Proofs.ReplayBuffer
import Verif.Props.SampleNK
set_option autoImplicit false

/-! # C09-C12: `ReplayBuffer` -/

namespace Verif
open NStep (Op)
open Episodes
variable {E T : Type} [DecidableEq E]

/-- The entries stored after a history, oldest first. -/
def ReplayBuffer.entries (b : ReplayBuffer E T) : List (List T) := b.memory.iter

/-- C09.  Let every appended transition carry the id of its environment (`env`).
In a buffer of unlimited capacity, after any interleaving of calls about any
environments, the entries of environment `e` are exactly, in order: for each
finished episode one slice of at most `num_steps` transitions starting at each
of its transitions, and then the complete slices of the unfinished episode. -/
theorem C09_one_slice_per_transition (term : T → Bool) (env : T → E) (n : Nat) (hn : 0 < n)
    (ops : List (Op E T)) (henv : ∀ e x, Op.append e x ∈ ops → env x = e) (e : E) :
    (((ReplayBuffer.init none n).run term ops).entries.filter (fun w => w.all (env · = e))) =
      (Episodes.of term e ops).1.flatMap (slices n) ++ fullSlices n (Episodes.of term e ops).2 := by
  obtain ⟨ent, h1, h2⟩ := NStep.run_spec (RAQ (List T)) term n hn ops
  have hmem : ((ReplayBuffer.init none n).run term ops).entries = ent.map Prod.snd := by
    unfold ReplayBuffer.entries ReplayBuffer.run ReplayBuffer.init
    rw [h1]
    simp only
    rw [(RAQ.foldl_append_iter _ _ (RAQ.init_ok none [])).1]
    rw [(RAQ.init_iter none []).1, (RAQ.init_iter none []).2]
    rfl
  rw [hmem, ← NStep.stored, ← h2 e]
  have htag := NStep.episodes_tag term env ops henv
  rw [List.filter_map]
  congr 1
  apply List.filter_congr
  intro p hp
  have hw : p.2 ∈ NStep.stored n (Episodes.of term p.1 ops) := by
    rw [← h2 p.1]
    exact List.mem_map.mpr ⟨p, List.mem_filter.mpr ⟨hp, by simp⟩, rfl⟩
  obtain ⟨hne, ep, hep, hsub⟩ := NStep.stored_mem n hn _ _ hw
  have hall : ∀ x ∈ p.2, env x = p.1 := fun x hx => htag p.1 ep hep x (hsub.subset hx)
  simp only [Function.comp_apply]
  rw [Bool.eq_iff_iff]
  simp only [List.all_eq_true, decide_eq_true_eq]
  constructor
  · intro h
    obtain ⟨x, t, hx⟩ := List.exists_cons_of_ne_nil hne
    have hxm : x ∈ p.2 := by rw [hx]; simp
    rw [← hall x hxm, h x hxm]
  · intro h x hx
    rw [hall x hx, h]

/-- C09 without tags: a buffer fed by a single environment. -/
theorem C09_single_env (term : T → Bool) (n : Nat) (hn : 0 < n) (ops : List (Op Unit T)) :
    ((ReplayBuffer.init none n).run term ops).entries =
      (Episodes.of term () ops).1.flatMap (slices n) ++ fullSlices n (Episodes.of term () ops).2 := by
  have := C09_one_slice_per_transition term (fun _ => ()) n hn ops (fun _ _ _ => rfl) ()
  rwa [List.filter_eq_self.mpr (by simp)] at this

-- two environments, a terminal episode and a stopped one, n = 2
example :
    let ops : List (Op Bool (Bool × Nat × Bool)) :=
      [.append true (true, 1, false), .append false (false, 1, false), .append true (true, 2, false),
       .append false (false, 2, false), .append true (true, 3, true), .append false (false, 3, false),
       .stop false]
    ((ReplayBuffer.init none 2).run (fun x => x.2.2) ops).entries.map (·.map (fun x => (x.1, x.2.1)))
      = [[(true, 1), (true, 2)], [(false, 1), (false, 2)], [(true, 2), (true, 3)], [(true, 3)],
         [(false, 2), (false, 3)], [(false, 3)]] := by decide +kernel

/-- C10.  For every capacity, `num_steps` and history, every stored entry is a
non-empty run of at most `num_steps` consecutive transitions of one episode of
one environment, and no transition of it except possibly the last is terminal. -/
theorem C10_no_mixing (term : T → Bool) (cap : Option Nat) (n : Nat) (hn : 0 < n)
    (ops : List (Op E T)) (w : List T)
    (hw : w ∈ ((ReplayBuffer.init cap n).run term ops).entries) :
    w ≠ [] ∧ w.length ≤ n ∧ (∃ e, ∃ ep ∈ Episodes.all term e ops, w <:+: ep) ∧
    (∀ x ∈ w.dropLast, term x = false) := by
  obtain ⟨ent, h1, h2⟩ := NStep.run_spec (RAQ (List T)) term n hn ops
  have hmem : w ∈ ent.map Prod.snd := by
    unfold ReplayBuffer.entries ReplayBuffer.run ReplayBuffer.init at hw
    rw [h1] at hw
    simp only at hw
    rw [(RAQ.foldl_append_iter _ _ (RAQ.init_ok cap [])).1] at hw
    rw [(RAQ.init_iter cap []).1] at hw
    have := NStep.newest_subset _ _ hw
    rcases List.mem_append.mp this with h | h
    · have := NStep.newest_subset _ _ h; simp at this
    · exact h
  obtain ⟨p, hp, rfl⟩ := List.mem_map.mp hmem
  have hw : p.2 ∈ NStep.stored n (Episodes.of term p.1 ops) := by
    rw [← h2 p.1]
    exact List.mem_map.mpr ⟨p, List.mem_filter.mpr ⟨hp, by simp⟩, rfl⟩
  obtain ⟨hne, ep, hep, hsub⟩ := NStep.stored_mem n hn _ _ hw
  refine ⟨hne, NStep.stored_len n _ _ hw, ⟨p.1, ep, hep, hsub⟩, ?_⟩
  exact NStep.dropLast_not_term term _ _ hsub (NStep.episodes_not_term term p.1 ops ep hep)

/-- C11, first-in first-out: a buffer with capacity `c` holds exactly the newest
`c` of the entries that the same history leaves in an unlimited buffer. -/
theorem C11_newest_entries (term : T → Bool) (cap : Option Nat) (n : Nat) (hn : 0 < n)
    (ops : List (Op E T)) :
    ((ReplayBuffer.init cap n).run term ops).entries =
      BoundedList.newest cap ((ReplayBuffer.init none n).run term ops).entries := by
  obtain ⟨ent, h1, _⟩ := NStep.run_spec (RAQ (List T)) term n hn ops
  unfold ReplayBuffer.entries ReplayBuffer.run ReplayBuffer.init
  rw [h1 RAQ.append, h1 RAQ.append]
  simp only
  rw [(RAQ.foldl_append_iter _ _ (RAQ.init_ok none [])).1,
    (RAQ.foldl_append_iter _ _ (RAQ.init_ok cap [])).1]
  simp only [(RAQ.init_iter _ _).1, (RAQ.init_iter _ _).2]
  rw [RAQ.newest_newest]; rfl

/-- C11, the limit. -/
theorem C11_capacity (term : T → Bool) (c : Nat) (n : Nat) (hn : 0 < n) (ops : List (Op E T)) :
    ((ReplayBuffer.init (some c) n).run term ops).len ≤ c := by
  unfold ReplayBuffer.len
  rw [RAQ.len_eq]
  have := C11_newest_entries term (some c) n hn ops
  unfold ReplayBuffer.entries at this
  rw [this]; exact RAQ.newest_length c _

/-- C11, `sample(n)`: on every buffer it raises `AssertionError` exactly when
`n` exceeds the number of entries (for `n ≥ 0`), and otherwise returns entries
at `n` distinct positions. -/
theorem C11_sample (b : ReplayBuffer E T) (k : Nat) (d : SampleNK.NKDraws)
    (hd : d.Valid b.memory.len k) :
    (∀ e, b.sample k d = .raised e ↔ (e = .assertionError ∧ b.entries.length < k)) ∧
    (∀ l, b.sample k d = .ret l → ∃ ixs : List Nat, ixs.length = k ∧ ixs.Nodup ∧
      l.map some = ixs.map (fun i => b.entries[i]?)) := by
  have hlen : b.memory.len = b.memory.iter.length := RAQ.len_eq _
  obtain ⟨h1, h2⟩ := C03_queue_sample b.memory k d hd
  unfold ReplayBuffer.sample ReplayBuffer.entries
  by_cases h : (b.memory.len : Int) ≥ k
  · rw [if_pos h]
    constructor
    · intro e
      rw [h2 e]
      constructor
      · rintro ⟨rfl, h3⟩; omega
      · rintro ⟨rfl, h3⟩; omega
    · intro l hl
      obtain ⟨ixs, h3, h4, h5⟩ := h1 l hl
      exact ⟨ixs, by omega, h4, h5⟩
  · rw [if_neg h]
    constructor
    · intro e
      constructor
      · intro he; cases he; exact ⟨rfl, by omega⟩
      · rintro ⟨rfl, _⟩; rfl
    · intro l hl; cases hl

example : let ops : List (Op Unit Nat) := [.append () 1, .append () 2, .append () 3, .append () 4]
    ((ReplayBuffer.init (some 2) 1).run (· == 9) ops).entries = [[3], [4]] ∧
    ((ReplayBuffer.init none 1).run (· == 9) ops).entries = [[1], [2], [3], [4]] := by decide +kernel
example : (ReplayBuffer.sample (E := Unit) (T := Nat) ⟨1, RAQ.init none [[1], [2]], fun _ => []⟩ 2
    ⟨[1, 0], [0, 0, 0, 0], []⟩) = .ret [[2], [1]] := by decide +kernel

/-- C12, the content: loading a saved buffer into any buffer restores exactly
the stored entries, and loading a v0.2 file (a deque, which respects its
`maxlen`) restores exactly the items of the deque. -/
theorem C12_round_trip (b b' : ReplayBuffer E T) (maxlen : Option Nat) (items : List (List T))
    (hm : ∀ m, maxlen = some m → items.length ≤ m) :
    (b'.load b.save).entries = b.entries ∧ (b'.load (.deque maxlen items)).entries = items := by
  refine ⟨rfl, ?_⟩
  unfold ReplayBuffer.load ReplayBuffer.entries
  simp only
  rw [(RAQ.init_iter _ _).1]
  exact RAQ.newest_of_le _ _ hm

/-- C12, the continuation, when saving happens between episodes (no environment
has an unfinished episode): loading into a fresh buffer with the same
`num_steps` gives the same entries after every further history as if nothing had
been saved.  Missing from the full C12: saving in the middle of an episode, for
which it is false (`C12_violated_mid_episode`). -/
theorem C12_continuation_partial (term : T → Bool) (cap cap' : Option Nat) (n : Nat) (hn : 0 < n)
    (ops ops' : List (Op E T)) (hdone : ∀ e, (Episodes.of term e ops).2 = []) :
    let b := (ReplayBuffer.init cap n).run term ops
    (((ReplayBuffer.init cap' n : ReplayBuffer E T).load b.save).run term ops').entries =
      (b.run term ops').entries := by
  intro b
  have : (ReplayBuffer.init cap' n : ReplayBuffer E T).load b.save = b := by
    obtain ⟨ent, h1, h2⟩ := NStep.run_spec (RAQ (List T)) term n hn ops
    have hb : b = _ := h1 RAQ.append (RAQ.init cap [])
    rw [hb]
    simp only [ReplayBuffer.load, ReplayBuffer.save, ReplayBuffer.init]
    congr 1
    funext e; simp [hdone e]
  rw [this]

/-- C12 is false in the middle of an episode when `num_steps > 1`: the n-step
window is not saved, so the continuation misses an entry. -/
theorem C12_violated_mid_episode :
    let b : ReplayBuffer Unit Nat := (ReplayBuffer.init none 2).run (· == 9) [.append () 1]
    (((ReplayBuffer.init none 2 : ReplayBuffer Unit Nat).load b.save).run (· == 9)
      [.append () 2]).entries = [] ∧
    (b.run (· == 9) [.append () 2]).entries = [[1, 2]] := by decide +kernel

-- a history with a finished episode satisfies the hypothesis of the continuation theorem
example : ∀ e : Bool, (Episodes.of (· == 9) e [.append true 1, .append false 2, .append true 9,
    .stop false]).2 = [] := by decide

end Verif
