import Verif.Proofs.SharedSync

set_option autoImplicit false
set_option linter.unusedSectionVars false

namespace Verif.Shared
variable {D V : Type} [DecidableEq D]

/-! ### New shared arrays -/

/-- Only buffers have been added. -/
def Ext (w w' : World D V) : Prop :=
  w'.slot = w.slot ∧ w.next ≤ w'.next ∧ ∀ k < w.next, w'.mem k = w.mem k

theorem Ext.refl (w : World D V) : Ext w w := ⟨rfl, Nat.le_refl _, fun _ _ => rfl⟩

theorem Ext.trans {a b c : World D V} (h1 : Ext a b) (h2 : Ext b c) : Ext a c :=
  ⟨h2.1.trans h1.1, Nat.le_trans h1.2.1 h2.2.1, fun k hk => (h2.2.2 k (Nat.lt_of_lt_of_le hk h1.2.1)).trans (h1.2.2 k hk)⟩

theorem Ext.dtype {a b : World D V} (h : Ext a b) (i : Nat) : dtypeOf b i = dtypeOf a i := by
  unfold dtypeOf; rw [h.1]

theorem Ext.size {a b : World D V} (h : Ext a b) (i : Nat) : sizeOf b i = sizeOf a i := by
  unfold sizeOf; rw [h.1]

theorem Ext.fit {a b : World D V} (h : Ext a b) (i k : Nat) (hf : Fit a i k) : Fit b i k := by
  refine ⟨Nat.lt_of_lt_of_le hf.1 h.2.1, ?_, ?_⟩
  · rw [h.2.2 k hf.1, h.dtype]; exact hf.2.1
  · rw [h.2.2 k hf.1, h.size]; exact hf.2.2

theorem Ext.good {t : Dtypes D V} {a b : World D V} (h : Ext a b) {i : Nat} (hg : GoodSlot t a i) :
    GoodSlot t b i := by
  unfold GoodSlot at hg ⊢
  rw [h.1]
  cases hs : a.slot i with
  | arr x =>
    rw [hs] at hg
    simp only at hg ⊢
    rw [h.2.2 _ hg.1]
    exact ⟨Nat.lt_of_lt_of_le hg.1 h.2.1, hg.2⟩
  | scalar d v => rw [hs] at hg; exact hg

theorem Ext.read {t : Dtypes D V} {a b : World D V} (h : Ext a b) {i : Nat} (hg : GoodSlot t a i) :
    read t b i = read t a i := by
  unfold GoodSlot at hg
  unfold Shared.read readArr
  rw [h.1]
  cases hs : a.slot i with
  | arr x =>
    rw [hs] at hg
    simp only at hg ⊢
    rw [h.2.2 _ hg.1]
  | scalar d v => rfl

theorem GoodSlot.length {t : Dtypes D V} {w : World D V} {i : Nat} (hg : GoodSlot t w i) :
    (read t w i).length = sizeOf w i := by
  unfold GoodSlot at hg
  unfold read readArr sizeOf
  cases hs : w.slot i with
  | arr x =>
    rw [hs] at hg
    simp only at hg ⊢
    rw [if_pos hg.2.1]; exact hg.2.2.1
  | scalar d v => rfl

theorem GoodSlot.store {t : Dtypes D V} {w : World D V} {i : Nat} (hg : GoodSlot t w i) :
    (read t w i).map (t.store (dtypeOf w i)) = read t w i := by
  unfold GoodSlot at hg
  unfold read readArr dtypeOf
  cases hs : w.slot i with
  | arr x =>
    rw [hs] at hg
    simp only at hg ⊢
    rw [if_pos hg.2.1]
    conv_rhs => rw [← List.map_id (w.mem x.addr).data]
    exact List.map_congr_left fun v hv => hg.2.2.2 v hv
  | scalar d v =>
    rw [hs] at hg
    simp only at hg ⊢
    simp [hg]

/-- A new array that holds the value of slot `i`. -/
def Copy (t : Dtypes D V) (w w' : World D V) (i a : Nat) : Prop :=
  w.next ≤ a ∧ a < w'.next ∧ w'.mem a = ⟨dtypeOf w i, read t w i⟩

theorem Copy.fit {t : Dtypes D V} {w w' : World D V} {i a : Nat} (h : Copy t w w' i a) (he : Ext w w')
    (hg : GoodSlot t w i) : Fit w' i a := by
  refine ⟨h.2.1, ?_, ?_⟩
  · rw [h.2.2, he.dtype]
  · rw [h.2.2, he.size]; exact hg.length

theorem Copy.ext {t : Dtypes D V} {w w' w'' : World D V} {i a : Nat} (h : Copy t w w' i a) (he : Ext w' w'') :
    Copy t w w'' i a :=
  ⟨h.1, Nat.lt_of_lt_of_le h.2.1 he.2.1, by rw [he.2.2 a h.2.1]; exact h.2.2⟩

theorem Copy.of_ext {t : Dtypes D V} {w w' w'' : World D V} {i a : Nat} (h : Copy t w' w'' i a) (he : Ext w w')
    (hg : GoodSlot t w i) : Copy t w w'' i a :=
  ⟨Nat.le_trans he.2.1 h.1, h.2.1, by rw [h.2.2, he.dtype, he.read hg]⟩

theorem rawArray_ext (t : Dtypes D V) (w : World D V) (d : D) (data : List V) : Ext w (rawArray t w d data).2 :=
  ⟨rfl, Nat.le_succ _, fun k hk => by
    show (if k = w.next then _ else w.mem k) = _
    rw [if_neg (Nat.ne_of_lt hk)]⟩

theorem rawArray_copy (t : Dtypes D V) (w : World D V) (i : Nat) (hg : GoodSlot t w i) :
    Copy t w (rawArray t w (dtypeOf w i) (read t w i)).2 i (rawArray t w (dtypeOf w i) (read t w i)).1 := by
  refine ⟨Nat.le_refl _, Nat.lt_succ_self _, ?_⟩
  show (if w.next = w.next then _ else _) = _
  rw [if_pos rfl, hg.store]

/-- What the loops of `extract_params_as_shared_arrays` make. -/
theorem extractSlots_ok (t : Dtypes D V) : ∀ (l : List (Path × Nat)) (w : World D V), (∀ x ∈ l, GoodSlot t w x.2) →
    Ext w (extractSlots t w l).2 ∧
    List.Forall₂ (fun x y => x.1 = y.1 ∧ Copy t w (extractSlots t w l).2 x.2 y.2) l (extractSlots t w l).1 ∧
    ((extractSlots t w l).1.map Prod.snd).Nodup
  | [], w => by intro _; exact ⟨Ext.refl w, .nil, List.nodup_nil⟩
  | (p, i) :: l, w => by
    intro hg
    have g0 := hg (p, i) (by simp)
    have e0 := rawArray_ext t w (dtypeOf w i) (read t w i)
    obtain ⟨h1, h2, h3⟩ := extractSlots_ok t l (rawArray t w (dtypeOf w i) (read t w i)).2
      (fun x hx => e0.good (hg x (List.mem_cons_of_mem _ hx)))
    refine ⟨e0.trans h1, .cons ⟨rfl, (rawArray_copy t w i g0).ext h1⟩ ?_, ?_⟩
    · refine List.forall₂_iff_zip.mpr ⟨h2.length_eq, fun {a b} hab => ?_⟩
      have := (List.forall₂_iff_zip.mp h2).2 hab
      exact ⟨this.1, this.2.of_ext e0 (hg a (List.mem_cons_of_mem _ (List.of_mem_zip hab).1))⟩
    · simp only [extractSlots, List.map_cons, List.nodup_cons]
      refine ⟨?_, h3⟩
      intro hm
      obtain ⟨y, hy, he⟩ := List.mem_map.mp hm
      obtain ⟨n, hn, rfl⟩ := List.getElem_of_mem hy
      have hn' : n < l.length := by rw [h2.length_eq]; exact hn
      have := (h2.get hn' hn).2.1
      have hr : (rawArray t w (dtypeOf w i) (read t w i)).1 = w.next := rfl
      have hr2 : (rawArray t w (dtypeOf w i) (read t w i)).2.next = w.next + 1 := rfl
      simp only [List.get_eq_getElem] at this
      omega

/-- As above, for one parameter's entries. -/
theorem extractEntries_ok (t : Dtypes D V) : ∀ (l : List (String × Nat)) (w : World D V),
    (∀ x ∈ l, GoodSlot t w x.2 ∧ dtypeOf w x.2 = t.float32) →
    Ext w (extractEntries t w l).2 ∧
    List.Forall₂ (fun x y => x.1 = y.1 ∧ Copy t w (extractEntries t w l).2 x.2 y.2) l (extractEntries t w l).1 ∧
    ((extractEntries t w l).1.map Prod.snd).Nodup
  | [], w => by intro _; exact ⟨Ext.refl w, .nil, List.nodup_nil⟩
  | (p, i) :: l, w => by
    intro hg
    have g0 := hg (p, i) (by simp)
    have e0 := rawArray_ext t w (dtypeOf w i) (read t w i)
    obtain ⟨h1, h2, h3⟩ := extractEntries_ok t l (rawArray t w (dtypeOf w i) (read t w i)).2
      (fun x hx => ⟨e0.good (hg x (List.mem_cons_of_mem _ hx)).1,
        by rw [e0.dtype]; exact (hg x (List.mem_cons_of_mem _ hx)).2⟩)
    simp only [extractEntries]
    rw [← g0.2]
    refine ⟨e0.trans h1, .cons ⟨rfl, (rawArray_copy t w i g0.1).ext h1⟩ ?_, ?_⟩
    · refine List.forall₂_iff_zip.mpr ⟨h2.length_eq, fun {a b} hab => ?_⟩
      have := (List.forall₂_iff_zip.mp h2).2 hab
      exact ⟨this.1, this.2.of_ext e0 (hg a (List.mem_cons_of_mem _ (List.of_mem_zip hab).1)).1⟩
    · simp only [List.map_cons, List.nodup_cons]
      refine ⟨?_, h3⟩
      intro hm
      obtain ⟨y, hy, he⟩ := List.mem_map.mp hm
      obtain ⟨n, hn, rfl⟩ := List.getElem_of_mem hy
      have hn' : n < l.length := by rw [h2.length_eq]; exact hn
      have := (h2.get hn' hn).2.1
      have hr : (rawArray t w (dtypeOf w i) (read t w i)).1 = w.next := rfl
      have hr2 : (rawArray t w (dtypeOf w i) (read t w i)).2.next = w.next + 1 := rfl
      simp only [List.get_eq_getElem] at this
      omega

/-- Copies made in sequence are different arrays. -/
theorem copies_disjoint {α β : Type} {t : Dtypes D V} {w w1 w2 : World D V} {l l' : List (α × Nat)} {d d' : List (β × Nat)}
    {R R' : α × Nat → β × Nat → Prop}
    (h1 : List.Forall₂ (fun x y => R x y ∧ Copy t w w1 x.2 y.2) l d)
    (h2 : List.Forall₂ (fun x y => R' x y ∧ Copy t w1 w2 x.2 y.2) l' d')
    (n1 : (d.map Prod.snd).Nodup) (n2 : (d'.map Prod.snd).Nodup) : ((d ++ d').map Prod.snd).Nodup := by
  have b1 : ∀ y ∈ d, y.2 < w1.next := by
    intro y hy
    obtain ⟨n, hn, rfl⟩ := List.getElem_of_mem hy
    have hn' : n < l.length := by rw [h1.length_eq]; exact hn
    exact (h1.get hn' hn).2.2.1
  have b2 : ∀ y ∈ d', w1.next ≤ y.2 := by
    intro y hy
    obtain ⟨n, hn, rfl⟩ := List.getElem_of_mem hy
    have hn' : n < l'.length := by rw [h2.length_eq]; exact hn
    exact (h2.get hn' hn).2.1
  rw [List.map_append, List.nodup_append]
  refine ⟨n1, n2, ?_⟩
  intro a ha b hb hab
  obtain ⟨x, hx, rfl⟩ := List.mem_map.mp ha
  obtain ⟨y, hy, rfl⟩ := List.mem_map.mp hb
  have := b1 x hx
  have := b2 y hy
  omega

/-- Copies of the same values, seen from an earlier world. -/
theorem copies_of_ext {α β : Type} {t : Dtypes D V} {w w1 w2 : World D V} {l : List (α × Nat)} {d : List (β × Nat)}
    {R : α × Nat → β × Nat → Prop}
    (h : List.Forall₂ (fun x y => R x y ∧ Copy t w1 w2 x.2 y.2) l d) (he : Ext w w1)
    (hg : ∀ x ∈ l, GoodSlot t w x.2) : List.Forall₂ (fun x y => R x y ∧ Copy t w w2 x.2 y.2) l d := by
  refine List.forall₂_iff_zip.mpr ⟨h.length_eq, fun {a b} hab => ?_⟩
  have := (List.forall₂_iff_zip.mp h).2 hab
  exact ⟨this.1, this.2.of_ext he (hg a (List.of_mem_zip hab).1)⟩

theorem copies_ext {α β : Type} {t : Dtypes D V} {w w1 w2 : World D V} {l : List (α × Nat)} {d : List (β × Nat)}
    {R : α × Nat → β × Nat → Prop}
    (h : List.Forall₂ (fun x y => R x y ∧ Copy t w w1 x.2 y.2) l d) (he : Ext w1 w2) :
    List.Forall₂ (fun x y => R x y ∧ Copy t w w2 x.2 y.2) l d :=
  h.imp fun _ _ hxy => ⟨hxy.1, hxy.2.ext he⟩

theorem extractParams_ok (t : Dtypes D V) (w : World D V) (l : Link)
    (hg : ∀ x ∈ namedParams l ++ namedPersistent l, GoodSlot t w x.2) :
    Ext w (extractParams t w l).2 ∧
    List.Forall₂ (fun x y => x.1 = y.1 ∧ Copy t w (extractParams t w l).2 x.2 y.2)
      (namedParams l ++ namedPersistent l) (extractParams t w l).1 ∧
    ((extractParams t w l).1.map Prod.snd).Nodup := by
  obtain ⟨a1, a2, a3⟩ := extractSlots_ok t (namedParams l) w fun x hx => hg x (List.mem_append_left _ hx)
  obtain ⟨b1, b2, b3⟩ := extractSlots_ok t (namedPersistent l) (extractSlots t w (namedParams l)).2
    fun x hx => a1.good (hg x (List.mem_append_right _ hx))
  exact ⟨a1.trans b1, forall₂_append (copies_ext a2 b1)
    (copies_of_ext b2 a1 fun x hx => hg x (List.mem_append_right _ hx)), copies_disjoint a2 b2 a3 b3⟩

/-- All arrays of a dict of dicts. -/
def flat (d : List (Path × List (String × Nat))) : List (Path × Nat) :=
  d.flatMap fun x => x.2.map fun e => (x.1 ++ [.name e.1], e.2)

theorem flat_cons (x : Path × List (String × Nat)) (d : List (Path × List (String × Nat))) :
    flat (x :: d) = x.2.map (fun e => (x.1 ++ [.name e.1], e.2)) ++ flat d := by
  simp [flat]

theorem flat_copies {t : Dtypes D V} {w w' : World D V} {s : OptState} {d : List (Path × List (String × Nat))}
    (h : List.Forall₂ (fun x y => x.1 = y.1 ∧
      List.Forall₂ (fun e f => e.1 = f.1 ∧ Copy t w w' e.2 f.2) x.2 y.2) s d) :
    List.Forall₂ (fun x y => x.1 = y.1 ∧ Copy t w w' x.2 y.2) (flat s) (flat d) := by
  induction h with
  | nil => exact .nil
  | @cons x y s d hxy _ ih =>
    rw [flat_cons, flat_cons]
    refine forall₂_append ?_ ih
    rw [List.forall₂_map_left_iff, List.forall₂_map_right_iff]
    exact hxy.2.imp fun e f hef => ⟨by rw [hxy.1, hef.1], hef.2⟩

theorem extractStates_ok (t : Dtypes D V) : ∀ (s : OptState) (w : World D V),
    (∀ x ∈ s, ∀ e ∈ x.2, GoodSlot t w e.2 ∧ dtypeOf w e.2 = t.float32) →
    Ext w (extractStates t w s).2 ∧
    List.Forall₂ (fun x y => x.1 = y.1 ∧
      List.Forall₂ (fun e f => e.1 = f.1 ∧ Copy t w (extractStates t w s).2 e.2 f.2) x.2 y.2)
      s (extractStates t w s).1 ∧
    ((flat (extractStates t w s).1).map Prod.snd).Nodup
  | [], w => by intro _; exact ⟨Ext.refl w, .nil, List.nodup_nil⟩
  | (p, st) :: s, w => by
    intro hg
    obtain ⟨a1, a2, a3⟩ := extractEntries_ok t st w (hg (p, st) (by simp))
    have hg' : ∀ x ∈ s, ∀ e ∈ x.2, GoodSlot t w e.2 := fun x hx e he => (hg x (List.mem_cons_of_mem _ hx) e he).1
    obtain ⟨b1, b2, b3⟩ := extractStates_ok t s (extractEntries t w st).2 fun x hx e he =>
      ⟨a1.good (hg' x hx e he), by rw [a1.dtype]; exact (hg x (List.mem_cons_of_mem _ hx) e he).2⟩
    refine ⟨a1.trans b1, .cons ⟨rfl, copies_ext a2 b1⟩ ?_, ?_⟩
    · refine List.forall₂_iff_zip.mpr ⟨b2.length_eq, fun {x y} hxy => ?_⟩
      have := (List.forall₂_iff_zip.mp b2).2 hxy
      exact ⟨this.1, copies_of_ext this.2 a1 (hg' x (List.of_mem_zip hxy).1)⟩
    · simp only [extractStates, flat_cons]
      refine copies_disjoint (w := w) (w1 := (extractEntries t w st).2)
        (l := st.map fun e => (p ++ [Comp.name e.1], e.2)) (R := fun x y => x.1 = y.1) ?_ (flat_copies b2) ?_ b3
      · rw [List.forall₂_map_left_iff, List.forall₂_map_right_iff]
        exact a2.imp fun e f hef => ⟨by rw [hef.1], hef.2⟩
      · rw [List.map_map]; exact a3

/-! ### `as_shared_objects` -/

/-- What sharing an object does. -/
structure Shared (t : Dtypes D V) (w : World D V) (o : Obj) (s : Sh) (w1 : World D V)
    (pairs : List (Nat × Nat)) : Prop where
  ext : Ext w w1
  fits : Fits w1 o s
  binds : Binds (slots o) (shSlots s) pairs
  copies : List.Forall₂ (fun x y => x.1 = y.1 ∧ Copy t w w1 x.2 y.2) (slots o) (shSlots s)
  fresh : ((shSlots s).map Prod.snd).Nodup

structure SharedList (t : Dtypes D V) (w : World D V) (k : Nat) (l : List Obj) (s : List Sh) (w1 : World D V)
    (pairs : List (Nat × Nat)) : Prop where
  ext : Ext w w1
  fits : FitsList w1 l s
  binds : Binds (slotsList k l) (shSlotsList k s) pairs
  copies : List.Forall₂ (fun x y => x.1 = y.1 ∧ Copy t w w1 x.2 y.2) (slotsList k l) (shSlotsList k s)
  fresh : ((shSlotsList k s).map Prod.snd).Nodup

theorem bound_slot_of_not_mem {w : World D V} {p : List (Nat × Nat)} {i : Nat} (h : i ∉ p.map Prod.fst) :
    (bound w p).slot i = w.slot i := by
  rw [bound_slot]
  have : p.lookup i = none := by
    rw [List.lookup_eq_none_iff]
    intro y hy
    rw [bne_iff_ne]
    rintro rfl
    exact h (List.mem_map.mpr ⟨y, hy, rfl⟩)
  rw [this]

theorem good_bound {t : Dtypes D V} {w : World D V} {p : List (Nat × Nat)} {i : Nat} (h : i ∉ p.map Prod.fst)
    (hg : GoodSlot t w i) : GoodSlot t (bound w p) i := by
  unfold GoodSlot at hg ⊢
  rw [bound_slot_of_not_mem h]
  exact hg

theorem read_bound {t : Dtypes D V} {w : World D V} {p : List (Nat × Nat)} {i : Nat} (h : i ∉ p.map Prod.fst) :
    read t (bound w p) i = read t w i := by
  unfold read readArr
  rw [bound_slot_of_not_mem h]
  rfl

/-- A world that extends one with bound slots is a world with bound slots. -/
theorem ext_bound {w w' : World D V} {p : List (Nat × Nat)} (h : Ext (bound w p) w') :
    ∃ w2, Ext w w2 ∧ w' = bound w2 p := by
  refine ⟨{ w' with slot := w.slot }, ⟨rfl, h.2.1, h.2.2⟩, ?_⟩
  obtain ⟨s, m, n⟩ := w'
  have : s = (bound w p).slot := h.1
  subst this
  rfl

theorem fitsSlots_of_copies {t : Dtypes D V} {w w' : World D V} {α : Type} {l d : List (α × Nat)}
    (h : List.Forall₂ (fun x y => x.1 = y.1 ∧ Copy t w w' x.2 y.2) l d) (he : Ext w w')
    (hg : ∀ x ∈ l, GoodSlot t w x.2) : List.Forall₂ (fun x y => x.1 = y.1 ∧ Fit w' x.2 y.2) l d := by
  refine List.forall₂_iff_zip.mpr ⟨h.length_eq, fun {a b} hab => ?_⟩
  have := (List.forall₂_iff_zip.mp h).2 hab
  exact ⟨this.1, this.2.fit he (hg a (List.of_mem_zip hab).1)⟩

theorem copies_prefix {t : Dtypes D V} {w w' : World D V} {l d : List (Path × Nat)} (c : Comp)
    (h : List.Forall₂ (fun x y => x.1 = y.1 ∧ Copy t w w' x.2 y.2) l d) :
    List.Forall₂ (fun x y => x.1 = y.1 ∧ Copy t w w' x.2 y.2) (l.map fun x => (c :: x.1, x.2))
      (d.map fun x => (c :: x.1, x.2)) := by
  rw [List.forall₂_map_left_iff, List.forall₂_map_right_iff]
  exact h.imp fun e f hef => ⟨by rw [hef.1], hef.2⟩

mutual
theorem asShared_ok (t : Dtypes D V) (hpos : ∀ d, 0 < t.itemsize d) : ∀ (o : Obj) (w : World D V),
    NamesOk o → (∀ x ∈ slots o, GoodSlot t w x.2) → Float32States t w o → ((slots o).map Prod.snd).Nodup →
    ∃ s w1 pairs, asShared t w o = .ok (s, bound w1 pairs) ∧ Shared t w o s w1 pairs
  | .tuple l, w => by
    intro hn hg hf hi
    simp only [NamesOk] at hn
    simp only [Float32States] at hf
    simp only [slots] at hi hg
    obtain ⟨s, w1, pairs, h1, h2⟩ := asSharedList_ok t hpos l w 0 hn hg hf hi
    refine ⟨.tuple s, w1, pairs, ?_, h2.ext, ?_, ?_, ?_, ?_⟩
    · simp only [asShared, h1]; rfl
    · simp only [Fits]; exact h2.fits
    · simp only [slots, shSlots]; exact h2.binds
    · simp only [slots, shSlots]; exact h2.copies
    · simp only [shSlots]; exact h2.fresh
  | .link l, w => by
    intro hn hg hf hi
    obtain ⟨h1, h2, h3⟩ := extractParams_ok t w l (by simpa [slots] using hg)
    have hfit : Fits (extractParams t w l).2 (.link l) (.params (extractParams t w l).1) := by
      simp only [Fits]
      exact fitsSlots_of_copies h2 h1 (by simpa [slots] using hg)
    obtain ⟨o', pairs, k1, k2, _⟩ := sync_ok t hpos (.link l) (.params (extractParams t w l).1) _ hn hfit hi
    refine ⟨.params (extractParams t w l).1, (extractParams t w l).2, pairs, ?_, h1, hfit, k2, ?_, ?_⟩
    · simp only [sync] at k1
      simp only [asShared]
      cases hs : setSharedParams t (extractParams t w l).2 l (extractParams t w l).1 with
      | error e => rw [hs] at k1; simp [bind, Except.bind] at k1
      | ok w' =>
        rw [hs] at k1
        simp only [bind, Except.bind, pure, Except.pure, Except.ok.injEq, Prod.mk.injEq] at k1 ⊢
        exact ⟨trivial, k1.2⟩
    · simpa [slots, shSlots] using h2
    · simpa [shSlots] using h3
  | .optimizer st, w => by
    intro hn hg hf hi
    simp only [Float32States] at hf
    have hg' : ∀ x ∈ st, ∀ e ∈ x.2, GoodSlot t w e.2 := by
      intro x hx e he
      exact hg (x.1 ++ [.name e.1], e.2) (by
        simp only [slots, List.mem_flatMap, List.mem_map]
        exact ⟨x, hx, e, he, rfl⟩)
    obtain ⟨h1, h2, h3⟩ := extractStates_ok t st w fun x hx e he => ⟨hg' x hx e he, hf x hx e he⟩
    have hfit : Fits (extractStates t w st).2 (.optimizer st) (.states (extractStates t w st).1) := by
      simp only [Fits]
      refine List.forall₂_iff_zip.mpr ⟨h2.length_eq, fun {x y} hxy => ?_⟩
      have := (List.forall₂_iff_zip.mp h2).2 hxy
      exact ⟨this.1, fitsSlots_of_copies this.2 h1 (hg' x (List.of_mem_zip hxy).1)⟩
    obtain ⟨o', pairs, k1, k2, _⟩ := sync_ok t hpos (.optimizer st) (.states (extractStates t w st).1) _ hn hfit hi
    refine ⟨.states (extractStates t w st).1, (extractStates t w st).2, pairs, ?_, h1, hfit, k2, ?_, ?_⟩
    · simp only [sync] at k1
      simp only [asShared]
      cases hs : setSharedStates t (extractStates t w st).1 (extractStates t w st).2 st with
      | error e => rw [hs] at k1; simp [bind, Except.bind] at k1
      | ok w' =>
        rw [hs] at k1
        simp only [bind, Except.bind, pure, Except.pure, Except.ok.injEq, Prod.mk.injEq] at k1 ⊢
        exact ⟨trivial, k1.2⟩
    · simp only [slots, shSlots]; exact flat_copies h2
    · simp only [shSlots]; exact h3
  | .value n, w => by
    intro _ _ _ _
    refine ⟨.value n, w, [], by simp only [asShared, bound_nil], Ext.refl w, by simp only [Fits], ?_, ?_, ?_⟩
    · exact .nil
    · exact .nil
    · exact List.nodup_nil
  | .other, w => by intro hn; simp [NamesOk] at hn
theorem asSharedList_ok (t : Dtypes D V) (hpos : ∀ d, 0 < t.itemsize d) : ∀ (l : List Obj) (w : World D V) (k : Nat),
    NamesOkObjs l → (∀ x ∈ slotsList k l, GoodSlot t w x.2) → Float32StatesList t w l →
    ((slotsList k l).map Prod.snd).Nodup →
    ∃ s w1 pairs, asSharedList t w l = .ok (s, bound w1 pairs) ∧ SharedList t w k l s w1 pairs
  | [], w, k => by
    intro _ _ _ _
    refine ⟨[], w, [], by simp only [asSharedList, bound_nil], Ext.refl w, by simp only [FitsList], ?_, ?_, ?_⟩
    · exact .nil
    · exact .nil
    · exact List.nodup_nil
  | o :: os, w, k => by
    intro hn hg hf hi
    simp only [NamesOkObjs] at hn
    simp only [Float32StatesList] at hf
    simp only [slotsList, List.map_append, List.map_map, List.nodup_append] at hi
    obtain ⟨i1, i2, i3⟩ := hi
    have i1' : ((slots o).map Prod.snd).Nodup := by simpa [Function.comp_def] using i1
    have hg1 : ∀ x ∈ slots o, GoodSlot t w x.2 := fun x hx =>
      hg (.idx k :: x.1, x.2) (List.mem_append_left _ (List.mem_map.mpr ⟨x, hx, rfl⟩))
    have hg2 : ∀ x ∈ slotsList (k + 1) os, GoodSlot t w x.2 := fun x hx =>
      hg x (List.mem_append_right _ hx)
    obtain ⟨s, w1, p1, h1, h2⟩ := asShared_ok t hpos o w hn.1 hg1 hf.1 i1'
    have hnot : ∀ x ∈ slotsList (k + 1) os, x.2 ∉ p1.map Prod.fst := by
      intro x hx hx2
      rw [h2.binds.fst] at hx2
      exact i3 x.2 (by simpa [Function.comp_def] using hx2) x.2 (List.mem_map.mpr ⟨x, hx, rfl⟩) rfl
    obtain ⟨ss, w2', p2, h3, h4⟩ := asSharedList_ok t hpos os (bound w1 p1) (k + 1) hn.2
      (fun x hx => good_bound (hnot x hx) (h2.ext.good (hg2 x hx)))
      (float32List_of_dtype (fun i => by rw [bound_dtype, h2.ext.dtype]) os hf.2) i2
    obtain ⟨w2, e1, rfl⟩ := ext_bound h4.ext
    refine ⟨s :: ss, w2, p1 ++ p2, ?_, h2.ext.trans e1, ?_, ?_, ?_, ?_⟩
    · simp only [asSharedList, h1]
      show (asSharedList t (bound w1 p1) os >>= _) = _
      rw [h3, ← bound_append w2 p1 p2 ?_]
      · rfl
      · intro x hx hx2
        rw [h4.binds.fst] at hx2
        have : x.1 ∈ (slots o).map Prod.snd := by
          rw [← h2.binds.fst]; exact List.mem_map.mpr ⟨x, hx, rfl⟩
        exact i3 x.1 (by simpa [Function.comp_def] using this) x.1 hx2 rfl
    · simp only [FitsList]
      refine ⟨Fits.mono (fun i a h => e1.fit i a h) o s h2.fits, ?_⟩
      refine FitsList.mono (fun i a h => ?_) os ss h4.fits
      exact ⟨h.1, by rw [← bound_dtype w2 p1]; exact h.2.1, by rw [← bound_size w2 p1]; exact h.2.2⟩
    · simp only [slotsList, shSlotsList]
      exact forall₂_append ((h2.binds.prefix (.idx k)).mono fun z hz => List.mem_append_left _ hz)
        (h4.binds.mono fun z hz => List.mem_append_right _ hz)
    · simp only [slotsList, shSlotsList]
      refine forall₂_append (copies_prefix _ (copies_ext h2.copies e1)) ?_
      refine List.forall₂_iff_zip.mpr ⟨h4.copies.length_eq, fun {x y} hxy => ?_⟩
      have hx := (List.of_mem_zip hxy).1
      obtain ⟨c1, c2, c3, c4⟩ := (List.forall₂_iff_zip.mp h4.copies).2 hxy
      refine ⟨c1, Nat.le_trans h2.ext.2.1 c2, c3, ?_⟩
      have : (bound w2 p1).mem y.2 = w2.mem y.2 := rfl
      rw [this] at c4
      rw [c4, bound_dtype, h2.ext.dtype, read_bound (hnot x hx), h2.ext.read (hg2 x hx)]
    · simp only [shSlotsList]
      refine copies_disjoint (copies_prefix (.idx k) h2.copies) (w1 := w1) (w2 := bound w2 p1) (l' := slotsList (k + 1) os)
        (R' := fun x y => x.1 = y.1) ?_ ?_ h4.fresh
      · refine List.forall₂_iff_zip.mpr ⟨h4.copies.length_eq, fun {x y} hxy => ?_⟩
        have hx := (List.of_mem_zip hxy).1
        obtain ⟨c1, c2, c3, c4⟩ := (List.forall₂_iff_zip.mp h4.copies).2 hxy
        exact ⟨c1, c2, c3, by rw [c4, bound_dtype, read_bound (hnot x hx)]⟩
      · rw [List.map_map]; exact h2.fresh
theorem float32_of_dtype {t : Dtypes D V} {w w' : World D V} (h : ∀ i, dtypeOf w' i = dtypeOf w i) :
    ∀ (o : Obj), Float32States t w o → Float32States t w' o
  | .tuple l => by
    intro hf
    simp only [Float32States] at hf ⊢
    exact float32List_of_dtype h l hf
  | .link _ => by intro _; simp only [Float32States]
  | .optimizer s => by
    intro hf
    simp only [Float32States] at hf ⊢
    intro x hx e he
    rw [h]; exact hf x hx e he
  | .value _ => by intro _; simp only [Float32States]
  | .other => by intro _; simp only [Float32States]
theorem float32List_of_dtype {t : Dtypes D V} {w w' : World D V} (h : ∀ i, dtypeOf w' i = dtypeOf w i) :
    ∀ (l : List Obj), Float32StatesList t w l → Float32StatesList t w' l
  | [] => by intro _; simp only [Float32StatesList]
  | o :: os => by
    intro hf
    simp only [Float32StatesList] at hf ⊢
    exact ⟨float32_of_dtype h o hf.1, float32List_of_dtype h os hf.2⟩
end

end Verif.Shared
