import Verif.Proofs.SharedAll

/-!
C83: the processes of an asynchronous run share models, optimizer states and counters.

`C83_visible_partial` is the main theorem: after `as_shared_objects` on the agent of the main
process and `synchronize_to_shared_objects` in all processes, every process sees at first the
values of the main process, and later, under every path, the value last written by any process,
whatever the interleaving of the writes.  `C83_mismatch`: shared arrays that the model does not
have are not ignored.  `C83_violated_state_dtype`: optimizers whose state is not of 4-byte
elements cannot be shared, although models of all types can; hence the hypothesis
`Float32States` of the main theorem.
-/

set_option autoImplicit false
set_option linter.unusedSectionVars false

namespace Verif.Shared
variable {D V : Type} [DecidableEq D]

/-- Every slot of a process is a view of the shared array of its path, which holds `val`. -/
def Linked (w : World D V) (all : List (Path × Nat)) (d : Dict) (val : Path → List V) : Prop :=
  ∀ x ∈ all, ∃ a dt n, (x.1, a) ∈ d ∧ w.slot x.2 = .arr ⟨dt, n, a⟩ ∧ w.mem a = ⟨dt, val x.1⟩

theorem key_inj {d : Dict} (hd : (d.map Prod.fst).Nodup) {p : Path} {a b : Nat} (ha : (p, a) ∈ d) (hb : (p, b) ∈ d) :
    a = b := by
  have h1 := lookup_of_mem d hd _ ha
  have h2 := lookup_of_mem d hd _ hb
  rw [h1] at h2
  simpa using h2

theorem addr_inj {d : Dict} (hd : (d.map Prod.snd).Nodup) {p q : Path} {a : Nat} (ha : (p, a) ∈ d) (hb : (q, a) ∈ d) :
    p = q := by
  have := List.inj_on_of_nodup_map hd ha hb rfl
  simpa using this

theorem Linked.read {t : Dtypes D V} {w : World D V} {all : List (Path × Nat)} {d : Dict} {val : Path → List V}
    (h : Linked w all d val) {x : Path × Nat} (hx : x ∈ all) : read t w x.2 = val x.1 := by
  obtain ⟨a, dt, n, _, h2, h3⟩ := h x hx
  unfold Shared.read readArr
  simp only [h2, h3, if_true]

theorem Linked.write {w : World D V} {all : List (Path × Nat)} {d : Dict} {val : Path → List V}
    (h : Linked w all d val) (h1 : (d.map Prod.fst).Nodup) (h2 : (d.map Prod.snd).Nodup)
    {x : Path × Nat} (hx : x ∈ all) (data : List V) :
    Linked (write w x.2 data) all d (fun q => if x.1 = q then data else val q) := by
  obtain ⟨a, dt, n, k1, k2, k3⟩ := h x hx
  intro y hy
  obtain ⟨b, dt', n', l1, l2, l3⟩ := h y hy
  refine ⟨b, dt', n', l1, ?_, ?_⟩
  · unfold Shared.write
    rw [k2]; exact l2
  · unfold Shared.write
    rw [k2]
    show (if b = a then _ else _) = Buf.mk dt' (if x.1 = y.1 then data else val y.1)
    by_cases hp : x.1 = y.1
    · have hab : a = b := key_inj h1 k1 (hp ▸ l1)
      subst hab
      rw [if_pos rfl, if_pos hp]
      rw [k3] at l3
      simp only [Buf.mk.injEq] at l3
      rw [l3.1]
    · have hab : b ≠ a := by
        intro he
        subst he
        exact hp (addr_inj h2 k1 l1)
      rw [if_neg hab, if_neg hp]; exact l3

theorem Linked.writes {all : List (Path × Nat)} {d : Dict} (h1 : (d.map Prod.fst).Nodup) (h2 : (d.map Prod.snd).Nodup) :
    ∀ (ws : List (Path × Nat × List V)) (w : World D V) (val : Path → List V), Linked w all d val →
    (∀ e ∈ ws, (e.1, e.2.1) ∈ all) → Linked (writes w ws) all d (fun q => latest q (val q) ws)
  | [], w, val => by intro h _; exact h
  | (p, i, data) :: ws, w, val => by
    intro h hw
    have := Linked.writes h1 h2 ws _ _ (h.write h1 h2 (hw (p, i, data) (by simp)) data)
      (fun e he => hw e (List.mem_cons_of_mem _ he))
    exact this

mutual
theorem Alike.slots {w : World D V} : ∀ (o o' : Obj), Alike w o o' → AlikeSlots w (slots o) (slots o')
  | .tuple l, o' => by
    intro h
    cases o' with
    | tuple l' =>
      simp only [Alike] at h
      simp only [Shared.slots]
      exact AlikeList.slots l l' 0 h
    | _ => simp [Alike] at h
  | .link l, o' => by
    intro h
    cases o' with
    | link l' =>
      simp only [Alike] at h
      simp only [Shared.slots]
      exact forall₂_append h.1 h.2
    | _ => simp [Alike] at h
  | .optimizer st, o' => by
    intro h
    cases o' with
    | optimizer st' =>
      simp only [Alike] at h
      simp only [Shared.slots]
      induction h with
      | nil => exact .nil
      | @cons x y s d h1 _ ih =>
        simp only [List.flatMap_cons]
        refine forall₂_append ?_ ih
        rw [List.forall₂_map_left_iff, List.forall₂_map_right_iff]
        exact h1.2.imp fun e f hef => ⟨by rw [h1.1, hef.1], hef.2⟩
    | _ => simp [Alike] at h
  | .value n, o' => by
    intro h
    cases o' with
    | value n' => exact .nil
    | _ => simp [Alike] at h
  | .other, o' => by intro h; simp [Alike] at h
theorem AlikeList.slots {w : World D V} : ∀ (l l' : List Obj) (k : Nat), AlikeList w l l' →
    AlikeSlots w (slotsList k l) (slotsList k l')
  | [], l', k => by
    intro h
    cases l' with
    | nil => exact .nil
    | cons => simp [AlikeList] at h
  | o :: os, l', k => by
    intro h
    cases l' with
    | nil => simp [AlikeList] at h
    | cons o' os' =>
      simp only [AlikeList] at h
      simp only [slotsList]
      refine forall₂_append ?_ (AlikeList.slots os os' (k + 1) h.2)
      rw [List.forall₂_map_left_iff, List.forall₂_map_right_iff]
      exact (Alike.slots o o' h.1).imp fun x y hxy => ⟨by rw [hxy.1], hxy.2⟩
end

theorem bound_slot_of_mem {w : World D V} {p : List (Nat × Nat)} (hp : (p.map Prod.fst).Nodup) {i a : Nat}
    (h : (i, a) ∈ p) : (bound w p).slot i = .arr ⟨dtypeOf w i, sizeOf w i, a⟩ := by
  rw [bound_slot, lookup_of_mem p hp _ h]

/-- **C83 (partial).** The object of the main process is shared and all processes, whose objects
are alike, synchronise with it.  Nothing fails; the counters of all processes are those of the
main process; and after any sequence of writes, each by any process to any of its parameters,
persistent values and optimizer states, what any process reads is the value last written under
the same path, or, before the first such write, the value that the main process started with.
Partial: `Float32States` is needed, see `C83_violated_state_dtype`. -/
theorem C83_visible_partial (t : Dtypes D V) (hpos : ∀ d, 0 < t.itemsize d) (w : World D V) (o : Obj)
    (objs : List Obj) (hn : ∀ x ∈ o :: objs, NamesOk x) (ha : ∀ x ∈ objs, Alike w o x)
    (hi : (((o :: objs).flatMap slots).map Prod.snd).Nodup) (hg : ∀ x ∈ slots o, GoodSlot t w x.2)
    (h32 : Float32States t w o) :
    ∃ sh w1 objs' w2, asShared t w o = .ok (sh, w1) ∧ syncAll t sh w1 (o :: objs) = .ok (objs', w2) ∧
      objs'.map slots = (o :: objs).map slots ∧ (∀ x ∈ objs', values x = values o) ∧
      ∀ ws : List (Path × Nat × List V), (∀ e ∈ ws, ∃ x ∈ o :: objs, (e.1, e.2.1) ∈ slots x) →
        ∀ x ∈ o :: objs, List.Forall₂
          (fun a b => a.1 = b.1 ∧ read t (writes w2 ws) b.2 = latest a.1 (read t w a.2) ws) (slots o) (slots x) := by
  have hi0 : ((slots o).map Prod.snd).Nodup := by
    simp only [List.flatMap_cons, List.map_append, List.nodup_append] at hi
    exact hi.1
  obtain ⟨s, w1, p0, e1, e2⟩ := asShared_ok t hpos o w (hn o (by simp)) hg h32 hi0
  have hk : ∀ i j, SameKind w i j → SameKind w1 i j := fun i j h => by
    unfold SameKind
    rw [e2.ext.dtype, e2.ext.dtype, e2.ext.size, e2.ext.size]
    exact h
  have hfits : ∀ x ∈ o :: objs, Fits w1 x s := by
    intro x hx
    rcases List.mem_cons.mp hx with rfl | hx
    · exact e2.fits
    · exact Alike.fits o x s (Alike.mono hk o x (ha x hx)) e2.fits
  obtain ⟨objs', P, f1, f2, f3, f4⟩ := syncAll_ok t hpos s (o :: objs) (bound w1 p0) hn
    (fun x hx => Fits.mono (fun i a h => h.bound p0) x s (hfits x hx)) hi
  refine ⟨s, bound w1 p0, objs', _, e1, f1, f3, ?_, ?_⟩
  · intro x hx
    rw [f4 x hx]
    exact asShared_values t o w _ e1
  · have hkeys : (shSlots s).map Prod.fst = (slots o).map Prod.fst := (forall₂_keys e2.copies).symm
    have h1 : ((shSlots s).map Prod.fst).Nodup := by rw [hkeys]; exact slots_keys_nodup o (hn o (by simp))
    have hP : (P.map Prod.fst).Nodup := by rw [f2.fst]; exact hi
    let val : Path → List V := fun q => (w1.mem (((shSlots s).lookup q).getD 0)).data
    have hval : ∀ q a, (q, a) ∈ shSlots s → val q = (w1.mem a).data := by
      intro q a hq
      show (w1.mem (((shSlots s).lookup q).getD 0)).data = _
      rw [lookup_of_mem _ h1 _ hq]; rfl
    have hl : Linked (bound (bound w1 p0) P) ((o :: objs).flatMap slots) (shSlots s) val := by
      intro x hx
      have hb : ∃ a, (x.2, a) ∈ P ∧ (x.1, a) ∈ shSlots s := by
        obtain ⟨n, hn1, rfl⟩ := List.getElem_of_mem hx
        have hn2 : n < P.length := by rw [← f2.length_eq]; exact hn1
        have := f2.get hn1 hn2
        simp only [List.get_eq_getElem] at this
        exact ⟨P[n].2, by rw [← this.1]; exact List.getElem_mem hn2, this.2⟩
      obtain ⟨a, b1, b2⟩ := hb
      refine ⟨a, _, _, b2, bound_slot_of_mem hP b1, ?_⟩
      rw [hval x.1 a b2]
      obtain ⟨y, hy, hxy⟩ := List.mem_flatMap.mp hx
      have hfl := Fits.flat y s (hfits y hy)
      have hfit : Fit w1 x.2 a := by
        obtain ⟨n, hn1, rfl⟩ := List.getElem_of_mem hxy
        have hn2 : n < (shSlots s).length := by rw [← hfl.length_eq]; exact hn1
        have := hfl.get hn1 hn2
        simp only [List.get_eq_getElem] at this
        have he : (shSlots s)[n].2 = a := by
          refine key_inj h1 (p := (slots y)[n].1) ?_ b2
          rw [this.1]
          exact List.getElem_mem hn2
        rw [← he]; exact this.2
      show w1.mem a = _
      rw [bound_dtype, ← hfit.2.1]
    intro ws hws x hx
    have hl2 := Linked.writes h1 e2.fresh ws _ _ hl fun e he => by
      obtain ⟨x, h3, h4⟩ := hws e he
      exact List.mem_flatMap.mpr ⟨x, h3, h4⟩
    have hs : List.Forall₂ (fun a b => a.1 = b.1) (slots o) (slots x) := by
      rcases List.mem_cons.mp hx with rfl | hx
      · exact List.forall₂_same.mpr fun _ _ => rfl
      · exact (Alike.slots o x (ha x hx)).imp fun _ _ h => h.1
    refine List.forall₂_iff_zip.mpr ⟨hs.length_eq, fun {a b} hab => ?_⟩
    have hab1 := (List.forall₂_iff_zip.mp hs).2 hab
    refine ⟨hab1, ?_⟩
    rw [hl2.read (List.mem_flatMap.mpr ⟨x, hx, (List.of_mem_zip hab).2⟩), ← hab1]
    congr 1
    obtain ⟨n, hn1, hn2⟩ := List.getElem_of_mem (List.of_mem_zip hab).1
    have hn3 : n < (shSlots s).length := by rw [← e2.copies.length_eq]; exact hn1
    have hc := e2.copies.get hn1 hn3
    simp only [List.get_eq_getElem, hn2] at hc
    rw [hval a.1 (shSlots s)[n].2 (by rw [hc.1]; exact List.getElem_mem hn3), hc.2.2.2]

/-- Element types of the examples: `false` is `float64`, `true` is `float32`. -/
def exT : Dtypes Bool Int := ⟨fun d => if d then 4 else 8, fun _ v => v, true, fun _ _ l => l⟩

/-- Slots 0-3 belong to the main process, 10-13 to a worker.  Slot 0: a `float64` parameter with two
elements; 1: a parameter of a child; 2: a scalar persistent value; 3: optimizer state. -/
def exW : World Bool Int where
  slot i := match i with
    | 0 => .arr ⟨false, 2, 0⟩
    | 1 => .arr ⟨true, 1, 1⟩
    | 2 => .scalar false 7
    | 3 => .arr ⟨true, 2, 2⟩
    | 10 => .arr ⟨false, 2, 3⟩
    | 11 => .arr ⟨true, 1, 4⟩
    | 12 => .scalar false 0
    | _ => .arr ⟨true, 2, 5⟩
  mem a := match a with
    | 0 => ⟨false, [1, 2]⟩
    | 1 => ⟨true, [3]⟩
    | 2 => ⟨true, [5, 6]⟩
    | 3 => ⟨false, [0, 0]⟩
    | 4 => ⟨true, [0]⟩
    | _ => ⟨true, [0, 0]⟩
  next := 6

def exO (k c : Nat) : Obj :=
  .tuple [.link (.mk [("W", k)] [("N", k + 2)] [(.name "l", .mk [("b", k + 1)] [] [])]),
    .optimizer [([.name "W"], [("ms", k + 3)])], .value c]

/-- A model with a child, a scalar persistent value, an optimizer and a counter in two processes:
the hypotheses of `C83_visible_partial` hold; the worker writes to the child's parameter `b`. -/
example : ∃ sh w1 objs' w2, asShared exT exW (exO 0 100) = .ok (sh, w1) ∧
    syncAll exT sh w1 [exO 0 100, exO 10 200] = .ok (objs', w2) ∧ (∀ x ∈ objs', values x = [100]) ∧
    read exT w2 10 = [1, 2] ∧ read exT w2 12 = [7] ∧ read exT w2 13 = [5, 6] ∧
    read exT (write w2 11 [9]) 1 = [9] ∧ read exT (write w2 11 [9]) 0 = [1, 2] := by
  obtain ⟨sh, w1, objs', w2, h1, h2, _, h4, h5⟩ := C83_visible_partial exT
    (by intro d; cases d <;> decide) exW (exO 0 100) [exO 10 200]
    (by
      intro x hx
      simp only [List.mem_cons, List.not_mem_nil, or_false] at hx
      rcases hx with rfl | rfl <;> simp [exO, NamesOk, NamesOkObjs, Link.NamesOk, NamesOkList])
    (by
      intro x hx
      simp only [List.mem_cons, List.not_mem_nil, or_false] at hx
      subst hx
      simp [exO, Alike, AlikeList, AlikeSlots, namedParams, namedParamsList, namedPersistent, namedPersistentList,
        SameKind, dtypeOf, sizeOf, exW])
    (by simp [exO, slots, slotsList, namedParams, namedParamsList, namedPersistent, namedPersistentList])
    (by
      simp [exO, slots, slotsList, namedParams, namedParamsList, namedPersistent, namedPersistentList,
        GoodSlot, exW, exT])
    (by simp [exO, Float32States, Float32StatesList, dtypeOf, exW, exT])
  have a := h5 [] (by simp) (exO 10 200) (by simp)
  have b := h5 [([.idx 0, .name "l", .name "b"], 11, [9])]
    (by
      simp [exO, slots, slotsList, namedParams, namedParamsList, namedPersistent, namedPersistentList])
    (exO 0 100) (by simp)
  simp [exO, slots, slotsList, namedParams, namedParamsList, namedPersistent, namedPersistentList, writes, latest] at a b
  refine ⟨sh, w1, objs', w2, h1, h2, ?_, a.1, a.2.2.1, a.2.2.2, b.2.1, b.1⟩
  intro x hx
  rw [h4 x hx]
  simp [exO, values, valuesList]

theorem setParams_keys (t : Dtypes D V) (b : Dict) : ∀ (l : List (Path × Nat)) (w : World D V) (keys : List Path)
    (r : World D V × List Path), setParams t b w keys l = .ok r → ∀ k ∈ keys, k ∉ l.map Prod.fst → k ∈ r.2
  | [], w, keys, r => by
    intro h k hk _
    simp only [setParams, Except.ok.injEq] at h
    subst h; exact hk
  | (p, i) :: l, w, keys, r => by
    intro h k hk hkl
    simp only [List.map_cons, List.mem_cons, not_or] at hkl
    simp only [setParams] at h
    cases hb : b.lookup p with
    | none => rw [hb] at h; exact setParams_keys t b l w keys r h k hk hkl.2
    | some a =>
      rw [hb] at h
      obtain ⟨w', _, h2⟩ := bind_ok' h
      by_cases hc : keys.contains p = true
      · rw [if_pos hc] at h2
        exact setParams_keys t b l w' _ r h2 k (List.mem_filter.mpr ⟨hk, by simpa using hkl.1⟩) hkl.2
      · rw [if_neg hc] at h2; cases h2

theorem setPersistents_keys (t : Dtypes D V) (b : Dict) (link : Link) : ∀ (l : List (Path × Nat)) (w : World D V)
    (keys : List Path) (r : World D V × List Path), setPersistents t b link w keys l = .ok r →
    ∀ k ∈ keys, k ∉ l.map Prod.fst → k ∈ r.2
  | [], w, keys, r => by
    intro h k hk _
    simp only [setPersistents, Except.ok.injEq] at h
    subst h; exact hk
  | (p, i) :: l, w, keys, r => by
    intro h k hk hkl
    simp only [List.map_cons, List.mem_cons, not_or] at hkl
    simp only [setPersistents] at h
    cases hb : b.lookup p with
    | none => rw [hb] at h; exact setPersistents_keys t b link l w keys r h k hk hkl.2
    | some a =>
      rw [hb] at h
      obtain ⟨_, _, h2⟩ := bind_ok' h
      obtain ⟨w', _, h2⟩ := bind_ok' h2
      by_cases hc : keys.contains p = true
      · rw [if_pos hc] at h2
        exact setPersistents_keys t b link l w' _ r h2 k (List.mem_filter.mpr ⟨hk, by simpa using hkl.1⟩) hkl.2
      · rw [if_neg hc] at h2; cases h2

/-- **C83 (mismatch).** A process can synchronise its model with shared memory only if its model
has every shared path. -/
theorem C83_mismatch (t : Dtypes D V) (w : World D V) (l : Link) (d : Dict) (r : Obj × World D V)
    (h : sync t w (.link l) (.params d) = .ok r) : ∀ x ∈ d, ∃ y ∈ slots (.link l), y.1 = x.1 := by
  simp only [sync] at h
  obtain ⟨w', h1, _⟩ := bind_ok' h
  unfold setSharedParams at h1
  obtain ⟨a, h2, h3⟩ := bind_ok' h1
  obtain ⟨b, h4, h5⟩ := bind_ok' h3
  intro x hx
  by_contra hno
  have hno' : x.1 ∉ (slots (.link l)).map Prod.fst := by
    intro hm
    obtain ⟨y, hy, he⟩ := List.mem_map.mp hm
    exact hno ⟨y, hy, he⟩
  simp only [slots, List.map_append, List.mem_append, not_or] at hno'
  have k1 := setParams_keys t d _ w _ a h2 x.1 (List.mem_map.mpr ⟨x, hx, rfl⟩) hno'.1
  have k2 := setPersistents_keys t d l _ _ _ b h4 x.1 k1 hno'.2
  cases hb : b.2 with
  | nil => rw [hb] at k2; simp at k2
  | cons z zs => rw [hb] at h5; simp [pyAssert] at h5

theorem extractEntries_ext (t : Dtypes D V) : ∀ (l : List (String × Nat)) (w : World D V), Ext w (extractEntries t w l).2
  | [], w => Ext.refl w
  | (_, i) :: l, w => (rawArray_ext t w t.float32 (read t w i)).trans (extractEntries_ext t l _)

theorem extractStates_ext (t : Dtypes D V) : ∀ (s : OptState) (w : World D V), Ext w (extractStates t w s).2
  | [], w => Ext.refl w
  | (_, st) :: s, w => (extractEntries_ext t st w).trans (extractStates_ext t s _)

/-- **C83 (violated).** Sharing an optimizer raises whenever the first entry of its state is not
empty and has elements of another size than `float32`, e.g. for a model in `float64`. -/
theorem C83_violated_state_dtype (t : Dtypes D V) (w : World D V) (p : Path) (n : String) (i : Nat)
    (es : List (String × Nat)) (rest : OptState) (hlen : (read t w i).length = sizeOf w i) (h0 : sizeOf w i ≠ 0)
    (hd : t.itemsize (dtypeOf w i) ≠ t.itemsize t.float32) (hpos : 0 < t.itemsize (dtypeOf w i)) :
    asShared t w (.optimizer ((p, (n, i) :: es) :: rest)) = .error .valueError := by
  simp only [asShared]
  have hb : (extractStates t w ((p, (n, i) :: es) :: rest)).1.lookup p =
      some ((n, w.next) :: (extractEntries t (rawArray t w t.float32 (read t w i)).2 es).1) := by
    simp only [extractStates, extractEntries, List.lookup_cons_self]
    rfl
  have he : Ext (rawArray t w t.float32 (read t w i)).2 (extractStates t w ((p, (n, i) :: es) :: rest)).2 :=
    (extractEntries_ext t es _).trans (extractStates_ext t rest _)
  have hw := (rawArray_ext t w t.float32 (read t w i)).trans he
  generalize hW : (extractStates t w ((p, (n, i) :: es) :: rest)).2 = W at he hw
  have hm : W.mem w.next = ⟨t.float32, (read t w i).map (t.store t.float32)⟩ := by
    rw [he.2.2 w.next (Nat.lt_succ_self _)]
    show (if w.next = w.next then _ else _) = _
    rw [if_pos rfl]
  simp only [setSharedStates, hb, setEntries, List.lookup_cons_self]
  have hv : bindSlot t W i w.next = .error .valueError := by
    unfold bindSlot view
    simp only [hm, List.length_map, hlen, hw.dtype, hw.size]
    split
    · rfl
    · rename_i h1
      rw [if_pos]
      · rfl
      · intro h2
        have h3 := Nat.div_add_mod (t.itemsize t.float32 * sizeOf w i) (t.itemsize (dtypeOf w i))
        simp only [ne_eq, not_not] at h1
        rw [h1, h2, Nat.add_zero] at h3
        exact hd (Nat.eq_of_mul_eq_mul_right (Nat.pos_of_ne_zero h0) h3)
  rw [hv]
  rfl

/-- A `float64` state: the hypotheses of `C83_violated_state_dtype` hold. -/
example : asShared exT exW (.optimizer [([.name "W"], [("ms", 0)])]) = .error .valueError :=
  C83_violated_state_dtype exT exW _ _ 0 [] [] (by simp [read, readArr, sizeOf, exW]) (by simp [sizeOf, exW])
    (by simp [dtypeOf, exW, exT]) (by simp [dtypeOf, exW, exT])

/-- The worker's model has every path (`C83_mismatch`); with a path too many the call fails. -/
example : ∃ r, sync exT exW (.link (.mk [("W", 10)] [] [])) (.params [([.name "W"], 0)]) = .ok r ∧
    sync exT exW (.link (.mk [("W", 10)] [] [])) (.params [([.name "W"], 0), ([.name "b"], 1)]) =
      .error .assertionError := by
  refine ⟨_, rfl, rfl⟩

end Verif.Shared
