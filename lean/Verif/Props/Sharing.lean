import Verif.Proofs.SharingWeights
import Verif.Props.ReplayBuffer
set_option autoImplicit false
set_option linter.unusedSectionVars false

/-!
# C175: what has been recorded stays as it was, although objects are shared
-/

namespace Verif.Sharing
open BoundedList (newest)

section Frames
open FrameStack (SOp VOp VState sRun)
variable {F : Type}

/-- C175, FrameStack: whatever calls are made, each observation, read when all of them are over, shows the frames it showed when it was
returned. -/
theorem C175_frame_stack (k : Nat) (ops : List (SOp F)) :
    (stackRun k 0 [[]] ops).2.length = ops.length ∧
    ∀ i < ops.length, ((stackRun k 0 [[]] ops).2[i]?).map (·.map (get (stackRun k 0 [[]] ops).1)) = some (sRun k (ops.take (i + 1))) :=
  stackRun_spec k 0 ops [[]] (by simp)

theorem map_get_replicate (m n : Nat) : (List.range n).map (get (List.replicate (n + m) ([] : List F))) = List.replicate n [] := by
  rw [List.eq_replicate_iff]
  refine ⟨by simp, fun b hb => ?_⟩
  obtain ⟨a, ha, rfl⟩ := List.mem_map.1 hb
  simp only [get, List.getElem?_replicate]
  split <;> rfl

/-- C175, VectorFrameStack: the same for the observations of each environment. -/
theorem C175_vector_frame_stack (k n : Nat) (ops : List (VOp F)) :
    (vectorRun k (List.range n) (List.replicate n []) ops).2.length = ops.length ∧
    ∀ i (hi : i < ops.length),
      ((vectorRun k (List.range n) (List.replicate n []) ops).2[i]?).map
          (·.map (·.map (get (vectorRun k (List.range n) (List.replicate n []) ops).1))) =
        some ((((VState.init k n).after (ops.take i)).call ops[i]).2) := by
  have h := vectorRun_spec k (List.range n) ops (List.replicate n []) (by simp) List.nodup_range
  have hr := map_get_replicate (F := F) 0 n
  rw [Nat.add_zero] at hr
  rw [hr] at h
  exact h

/-- Two stacked observations of a stack of 2: the first, read after the second was made, still begins with frame 5. -/
example : (stackRun 2 0 [[]] [SOp.reset 5, SOp.step 6, SOp.step 7]).2 = [some 1, some 2, some 3] ∧
    [1, 2, 3].map (get (stackRun 2 0 [[]] [SOp.reset 5, SOp.step 6, SOp.step 7]).1) = [[5, 5], [5, 6], [6, 7]] := by decide

end Frames

section Replay
variable {E T W : Type} [DecidableEq E]

theorem rel_all (term : T → Bool) (cap : Option Nat) (n : Nat) (cs : List (Call E T W)) :
    ∃ s : List (List (Nat × T)) × (E → List (Nat × T)),
      s = (tagged 0 cs).foldl (pureStep (fun p => term p.2) n) ([], fun _ => []) ∧
      Rel ((Buf.init cap n : Buf E T W).run term cs) s.1 s.2 :=
  ⟨_, rfl, (rel_run term cs (s := ([], fun _ => [])) (rel_init cap n)).1⟩

theorem drain_capacity (d f : Nat) (b : Buf E T W) : (b.drain d f).capacity = b.capacity := by
  induction f generalizing b with
  | zero => rfl
  | succ f ih =>
    rw [Buf.drain]
    split
    · rfl
    · exact ih _

theorem window_capacity (b : Buf E T W) (e : E) : (b.window e).1.capacity = b.capacity := by
  unfold Buf.window; split <;> rfl

theorem run_capacity (term : T → Bool) (cs : List (Call E T W)) (b : Buf E T W) : (b.run term cs).capacity = b.capacity := by
  induction cs generalizing b with
  | nil => rfl
  | cons c cs ih =>
    refine (ih (b.step term c)).trans ?_
    cases c with
    | append e x =>
      simp only [Buf.step, Buf.append]
      split
      · rw [drain_capacity]; exact window_capacity b e
      · split <;> exact window_capacity b e
    | stop e =>
      simp only [Buf.step, Buf.stop]
      rw [drain_capacity]
      split <;> split <;> exact window_capacity b e
    | sample idx ws => exact (weighs_eq _ b).2.2.2.2.1

theorem contents_of_rel {b : Buf E T W} {M : List (List (Nat × T))} {L} (h : Rel b M L) :
    b.contents = newest b.capacity (M.map (·.map (·.2))) := by
  have h1 : b.contents = (b.memory.map (get b.lists)).map (·.filterMap fun j => (b.dicts[j]?).map (·.1)) := by
    simp [Buf.contents, Buf.read, Function.comp_def]
  rw [h1, h.mem, newest_map]
  congr 1
  rw [List.map_map]
  refine List.map_congr_left fun l hl => ?_
  simp only [Function.comp_apply, List.filterMap_map]
  rw [← List.filterMap_eq_map]
  exact List.filterMap_congr fun p hp => h.dictM l hl p hp

/-- C175, replay buffers: after every history of calls, `sample` included, the entries, read through the objects they consist of, are those of
the buffer whose entries are values. -/
theorem C175_contents (term : T → Bool) (cap : Option Nat) (n : Nat) (cs : List (Call E T W)) :
    ((Buf.init cap n : Buf E T W).run term cs).contents =
      ((ReplayBuffer.init cap n : ReplayBuffer E T).run term (feeds cs)).entries := by
  obtain ⟨s, hs, h⟩ := rel_all term cap n cs
  rw [contents_of_rel h, run_capacity, hs, pure_map (Prod.snd : Nat × T → T) term n, tagged_feeds]
  have := pure_run term (feeds cs) (b := ReplayBuffer.init cap n) (RAQ.init_ok cap []) ([], fun _ => [])
    (by simp only [ReplayBuffer.init, (RAQ.init_iter cap _).1, (RAQ.init_iter cap _).2]) rfl
  rw [show (ReplayBuffer.init cap n : ReplayBuffer E T).memory.maxlen = cap from (RAQ.init_iter cap _).2] at this
  unfold ReplayBuffer.entries
  rw [this]
  rfl

theorem sampled_eq (b : Buf E T W) (idx : List Nat) (h : ∀ i ∈ idx, i < b.memory.length) :
    idx.filterMap (fun i => b.memory[i]?) = idx.map (fun i => b.memory.getD i 0) := by
  rw [← List.filterMap_eq_map]
  refine List.filterMap_congr fun i hi => ?_
  simp [h i hi, List.getD_eq_getElem?_getD]

theorem read_stable {b c : Buf E T W} (s : Stable (fun x => x.1) b c) {M : List (List (Nat × T))} {L} (h : Rel b M L) {a : Nat} (ha : a ∈ b.memory) :
    c.read a = b.read a := by
  have h1 := s.lists a (h.memLt a ha) fun e he => (h.win e a he).2.1 ha
  unfold Buf.read
  rw [h1.1]
  refine List.filterMap_congr fun j hj => s.dicts j ?_
  have h2 := List.mem_map_of_mem (f := get b.lists) ha
  rw [h.mem] at h2
  obtain ⟨l, hl, he⟩ := List.mem_map.1 (NStep.newest_subset _ _ h2)
  rw [← he] at hj
  obtain ⟨p, hp, rfl⟩ := List.mem_map.1 hj
  obtain ⟨v, hv, -⟩ := Option.map_eq_some_iff.1 (h.dictM l hl p hp)
  exact (List.getElem?_eq_some_iff.1 hv).1

/-- C175, batches: the entries that `sample` returned, read after any further calls, also after they have been dropped from the buffer, hold the
transitions that the buffer held at their positions when they were drawn. -/
theorem C175_batch_stays (term : T → Bool) (cap : Option Nat) (n : Nat) (cs later : List (Call E T W)) (idx : List Nat) (ws : List W)
    (hi : ∀ i ∈ idx, i < ((Buf.init cap n : Buf E T W).run term cs).memory.length) :
    let b := (Buf.init cap n : Buf E T W).run term cs
    let batch := (b.sample idx ws).2
    batch.map ((b.sample idx ws).1.run term later).read = idx.map fun i => b.contents.getD i [] := by
  obtain ⟨s, -, h⟩ := rel_all term cap n cs
  intro b batch
  have hst := (stable_same (weighs_eq ((idx.filterMap fun i => b.memory[i]?).zip ws) b)).trans (stable_run term later _)
  simp only [batch, Buf.sample]
  rw [sampled_eq b idx hi] at hst ⊢
  rw [List.map_map]
  refine List.map_congr_left fun i hm => ?_
  have hlt : i < b.memory.length := hi i hm
  have hg : b.memory.getD i 0 = b.memory[i] := by simp [List.getD_eq_getElem?_getD, hlt]
  simp only [Function.comp_apply]
  rw [hg, read_stable hst h (List.getElem_mem hlt)]
  simp [Buf.contents, List.getD_eq_getElem?_getD, hlt]

theorem heads_all (term : T → Bool) (cap : Option Nat) (n : Nat) (hn : 0 < n) (cs : List (Call E T W)) :
    ∃ J : List Nat, ((Buf.init cap n : Buf E T W).run term cs).heads ((Buf.init cap n : Buf E T W).run term cs).memory = J.map some ∧
      J.Nodup ∧ ∀ j ∈ J, j < ((Buf.init cap n : Buf E T W).run term cs).dicts.length := by
  obtain ⟨s, hs, h⟩ := rel_all term cap n cs
  have h0 : Heads n 0 (([], fun _ => []) : List (List (Nat × T)) × (E → List (Nat × T))) [] :=
    ⟨rfl, by simp, by simp [pend], by simp [pend], by simp [pend], by simp⟩
  obtain ⟨N, H, hH⟩ := heads_run (fun p => term p.2) n hn cs 0 h0
  rw [← hs] at hH
  generalize (Buf.init cap n : Buf E T W).run term cs = b at *
  have e1 : b.heads b.memory = (newest b.capacity (H.map (·.1))).map some := by
    have : b.heads b.memory = (b.memory.map (get b.lists)).map List.head? := by simp [Buf.heads, Function.comp_def]
    rw [this, h.mem, newest_map, newest_map]
    congr 1
    rw [List.map_map]
    have hh : s.1.map (List.head? ∘ fun l => l.map (·.1)) = (s.1.map List.head?).map (Option.map (·.1)) := by
      simp [List.map_map, Function.comp_def]
    rw [hh, hH.heads]
    simp [Function.comp_def]
  refine ⟨_, e1, ?_, fun j hj => ?_⟩
  · have hsub : (newest b.capacity (H.map (·.1))).Sublist (H.map (·.1)) := by
      cases b.capacity with
      | none => exact List.Sublist.refl _
      | some c => exact List.drop_sublist _ _
    exact hsub.nodup hH.nodupH
  · obtain ⟨p, hp, rfl⟩ := List.mem_map.1 (NStep.newest_subset _ _ hj)
    have h2 : some p ∈ s.1.map List.head? := by rw [hH.heads]; exact List.mem_map_of_mem hp
    obtain ⟨l, hl, he⟩ := List.mem_map.1 h2
    have hpl : p ∈ l := List.mem_of_mem_head? (by rw [he]; rfl)
    obtain ⟨v, hv, -⟩ := Option.map_eq_some_iff.1 (h.dictM l hl p hpl)
    exact (List.getElem?_eq_some_iff.1 hv).1

theorem getD_lt (l : List Nat) {i : Nat} (h : i < l.length) : l.getD i 0 = l[i] := by
  simp [List.getD_eq_getElem?_getD, h]

theorem weight_stable {b c : Buf E T W} (s : Stable (fun x => x) b c) {M : List (List (Nat × T))} {L} (h : Rel b M L) {a : Nat} (ha : a ∈ b.memory) :
    c.weightOf a = b.weightOf a := by
  have h1 := s.lists a (h.memLt a ha) fun e he => (h.win e a he).2.1 ha
  unfold Buf.weightOf
  rw [h1.1]
  cases hj : (get b.lists a).head? with
  | none => rfl
  | some j =>
    have h2 := List.mem_map_of_mem (f := get b.lists) ha
    rw [h.mem] at h2
    obtain ⟨l, hl, he⟩ := List.mem_map.1 (NStep.newest_subset _ _ h2)
    have hm := List.mem_of_mem_head? hj
    rw [← he] at hm
    obtain ⟨p, hp, rfl⟩ := List.mem_map.1 hm
    obtain ⟨v, hv, -⟩ := Option.map_eq_some_iff.1 (h.dictM l hl p hp)
    have := s.dicts p.1 (List.getElem?_eq_some_iff.1 hv).1
    simp only [Option.map_id'] at this
    simp only [Option.bind_some, this]

/-- C175, weights: after every history, when `sample` draws distinct entries, then each of them carries its own weight, although entries share
their transitions and the weight is written into a transition; and it does so until `sample` is called again. -/
theorem C175_weights (term : T → Bool) (cap : Option Nat) (n : Nat) (hn : 0 < n) (cs later : List (Call E T W)) (idx : List Nat) (ws : List W)
    (hi : ∀ i ∈ idx, i < ((Buf.init cap n : Buf E T W).run term cs).memory.length) (nd : idx.Nodup) (hw : ws.length = idx.length)
    (hl : ∀ c ∈ later, c.Feeds) :
    let b := (Buf.init cap n : Buf E T W).run term cs
    let batch := (b.sample idx ws).2
    batch.map ((b.sample idx ws).1.run term later).weightOf = ws.map some := by
  obtain ⟨s, -, h⟩ := rel_all term cap n cs
  obtain ⟨J, j1, j2, j3⟩ := heads_all (W := W) term cap n hn cs
  intro b batch
  change ∀ i ∈ idx, i < b.memory.length at hi
  change b.heads b.memory = J.map some at j1
  simp only [batch, Buf.sample]
  have hs := rel_same h (weighs_eq ((idx.filterMap fun i => b.memory[i]?).zip ws) b)
  have hst := stable_feeds term later ((((idx.filterMap fun i => b.memory[i]?).zip ws).foldl (fun b p => b.weigh p.1 p.2) b)) hl
  have hmem := (weighs_eq ((idx.filterMap fun i => b.memory[i]?).zip ws) b).2.1
  have hmem' : ∀ a ∈ idx.filterMap (fun i => b.memory[i]?), a ∈ b.memory := by
    intro a ha
    obtain ⟨i, -, he⟩ := List.mem_filterMap.1 ha
    exact List.mem_of_getElem? he
  rw [List.map_congr_left fun a ha => weight_stable hst hs (by rw [hmem]; exact hmem' a ha)]
  have hlen : J.length = b.memory.length := by
    have := congrArg List.length j1
    simpa [Buf.heads] using this.symm
  refine weighs_own _ ws b (by rw [sampled_eq b idx hi, List.length_map, hw]) (idx.map fun i => J.getD i 0) ?_ ?_ ?_
  · rw [sampled_eq b idx hi]
    unfold Buf.heads
    rw [List.map_map, List.map_map]
    refine List.map_congr_left fun i hm => ?_
    have hlt := hi i hm
    have := congrArg (fun l => l[i]?) j1
    simp only [Buf.heads, List.getElem?_map] at this
    simp only [Function.comp_apply, List.getD_eq_getElem?_getD]
    rw [List.getElem?_eq_getElem hlt, List.getElem?_eq_getElem (by omega)] at this ⊢
    simpa using this
  · rw [List.nodup_map_iff_inj_on nd]
    intro x hx y hy hxy
    have h1 := hi x hx
    have h2 := hi y hy
    rw [getD_lt J (by omega), getD_lt J (by omega)] at hxy
    exact (List.Nodup.getElem_inj_iff j2).1 hxy
  · intro j hj
    obtain ⟨i, hm, rfl⟩ := List.mem_map.1 hj
    have := hi i hm
    rw [getD_lt J (by omega)]
    exact j3 _ (List.getElem_mem _)

/-- A 2-step buffer: transitions 10, 11, 12 of environment 0, the last of them terminal, and 20 of environment 1. -/
def exCalls : List (Call Nat Nat Nat) := [.append 0 10, .append 1 20, .append 0 11, .append 0 12]

/-- Three entries, which share the dicts of 11 and 12 and have three different first dicts. -/
example : ((Buf.init (some 5) 2 : Buf Nat Nat Nat).run (· == 12) exCalls).contents = [[10, 11], [11, 12], [12]] ∧
    ((Buf.init (some 5) 2 : Buf Nat Nat Nat).run (· == 12) exCalls).memory.map (get ((Buf.init (some 5) 2 : Buf Nat Nat Nat).run (· == 12) exCalls).lists) =
      [[0, 2], [2, 3], [3]] := by decide

/-- The hypotheses of `C175_weights` hold for a batch of entries 1 and 0 followed by further transitions, and the two weights are read. -/
example : (∀ i ∈ [1, 0], i < ((Buf.init (some 5) 2 : Buf Nat Nat Nat).run (· == 12) exCalls).memory.length) ∧ [1, 0].Nodup ∧
    ((((Buf.init (some 5) 2 : Buf Nat Nat Nat).run (· == 12) exCalls).sample [1, 0] [7, 8]).2.map
      ((((Buf.init (some 5) 2 : Buf Nat Nat Nat).run (· == 12) exCalls).sample [1, 0] [7, 8]).1.run (· == 12) [.append 0 13, .stop 0]).weightOf) =
      [some 7, some 8] := by decide

end Replay
end Verif.Sharing
