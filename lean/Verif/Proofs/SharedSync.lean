import Verif.Proofs.SharedObjects

set_option autoImplicit false
set_option linter.unusedSectionVars false

namespace Verif.Shared
variable {D V : Type} [DecidableEq D]

/-! ### Binding slots to shared arrays -/

/-- The array at `a` can be viewed as slot `i`. -/
def Fit (w : World D V) (i a : Nat) : Prop :=
  a < w.next ∧ (w.mem a).dtype = dtypeOf w i ∧ (w.mem a).data.length = sizeOf w i

/-- The world after binding the slots of `pairs` to the arrays in it. -/
def bound (w : World D V) (pairs : List (Nat × Nat)) : World D V :=
  { w with slot := fun k => match pairs.lookup k with
      | some a => .arr ⟨dtypeOf w k, sizeOf w k, a⟩
      | none => w.slot k }

/-- Binding one after the other. -/
def bindList (t : Dtypes D V) : World D V → List (Nat × Nat) → Py (World D V)
  | w, [] => .ok w
  | w, (i, a) :: rest => do
    let w' ← bindSlot t w i a
    bindList t w' rest

theorem bound_nil (w : World D V) : bound w [] = w := by
  simp [bound, List.lookup]

theorem bound_dtype (w : World D V) (pairs : List (Nat × Nat)) (k : Nat) :
    dtypeOf (bound w pairs) k = dtypeOf w k := by
  unfold bound
  cases h : pairs.lookup k <;> simp [dtypeOf, h]

theorem bound_size (w : World D V) (pairs : List (Nat × Nat)) (k : Nat) :
    sizeOf (bound w pairs) k = sizeOf w k := by
  unfold bound
  cases h : pairs.lookup k <;> simp [sizeOf, h]

theorem bound_slot (w : World D V) (p : List (Nat × Nat)) (k : Nat) : (bound w p).slot k =
    match p.lookup k with
    | some a => .arr ⟨dtypeOf w k, sizeOf w k, a⟩
    | none => w.slot k := rfl

theorem mem_of_lookup {α β : Type} [BEq α] [LawfulBEq α] : ∀ (l : List (α × β)) (k : α) (a : β),
    l.lookup k = some a → (k, a) ∈ l
  | [], k, a, h => by simp at h
  | (x, y) :: l, k, a, h => by
    simp only [List.lookup] at h
    cases hk : k == x with
    | true =>
      rw [hk] at h
      simp only [Option.some.injEq] at h
      rw [eq_of_beq hk, h]; simp
    | false =>
      rw [hk] at h
      exact List.mem_cons_of_mem _ (mem_of_lookup l k a h)

theorem bound_append (w : World D V) (p q : List (Nat × Nat)) (h : ∀ x ∈ p, x.1 ∉ q.map Prod.fst) :
    bound (bound w p) q = bound w (p ++ q) := by
  have hq : ∀ k a, p.lookup k = some a → q.lookup k = none := by
    intro k a hk
    rw [List.lookup_eq_none_iff]
    intro y hy
    have : k ∈ p.map Prod.fst := by
      exact List.mem_map.mpr ⟨_, mem_of_lookup p k a hk, rfl⟩
    obtain ⟨x, hx, rfl⟩ := List.mem_map.mp this
    have := h x hx
    simp only [List.mem_map, not_exists, not_and] at this
    rw [bne_iff_ne]
    exact fun he => this y hy he.symm
  have hs : ∀ k, (bound (bound w p) q).slot k = (bound w (p ++ q)).slot k := by
    intro k
    have e1 : (bound (bound w p) q).slot k = match q.lookup k with
      | some a => .arr ⟨dtypeOf w k, sizeOf w k, a⟩
      | none => (bound w p).slot k := by
      rw [bound_slot]
      simp only [bound_dtype, bound_size]
    rw [e1, bound_slot, bound_slot]
    simp only [List.lookup_append]
    cases hk : p.lookup k with
    | some a => simp [hq k a hk]
    | none => simp
  have : (bound (bound w p) q) = ⟨(bound w (p ++ q)).slot, w.mem, w.next⟩ := by
    rw [← funext hs]; rfl
  rw [this]; rfl

theorem bindSlot_ok (t : Dtypes D V) (hpos : ∀ d, 0 < t.itemsize d) (w : World D V) (i a : Nat)
    (h : Fit w i a) : bindSlot t w i a = .ok (bound w [(i, a)]) := by
  obtain ⟨_, h1, h2⟩ := h
  unfold bindSlot view
  simp only [h1, h2, Nat.mul_mod_right, ne_eq, not_true_eq_false, if_false,
    Nat.mul_div_cancel_left _ (hpos _)]
  show Except.ok _ = _
  congr 1
  unfold bound
  congr 1
  funext k
  by_cases hk : k = i
  · subst hk; simp
  · have : ¬ (k == i) = true := by simpa using hk
    simp [List.lookup, hk, this]

theorem Fit.bound {w : World D V} {i a : Nat} (h : Fit w i a) (p : List (Nat × Nat)) :
    Fit (bound w p) i a := by
  refine ⟨h.1, ?_, ?_⟩
  · rw [bound_dtype]; exact h.2.1
  · rw [bound_size]; exact h.2.2

theorem bindList_ok (t : Dtypes D V) (hpos : ∀ d, 0 < t.itemsize d) : ∀ (pairs : List (Nat × Nat)) (w : World D V),
    (pairs.map Prod.fst).Nodup → (∀ x ∈ pairs, Fit w x.1 x.2) → bindList t w pairs = .ok (bound w pairs)
  | [], w => by intro _ _; rw [bound_nil]; rfl
  | (i, a) :: rest, w => by
    intro hn hf
    simp only [List.map_cons, List.nodup_cons] at hn
    unfold bindList
    rw [bindSlot_ok t hpos w i a (hf (i, a) (by simp))]
    show bindList t (bound w [(i, a)]) rest = _
    rw [bindList_ok t hpos rest _ hn.2 (fun x hx => (hf x (List.mem_cons_of_mem _ hx)).bound _),
      bound_append _ _ _ (by intro x hx; simp only [List.mem_singleton] at hx; subst hx; exact hn.1)]
    rfl

theorem bindList_append (t : Dtypes D V) : ∀ (p q : List (Nat × Nat)) (w : World D V),
    bindList t w (p ++ q) = (bindList t w p >>= fun w' => bindList t w' q)
  | [], q, w => rfl
  | (i, a) :: p, q, w => by
    simp only [List.cons_append, bindList]
    cases h : bindSlot t w i a with
    | error e => rfl
    | ok w' => exact bindList_append t p q w'

/-! ### The loops of `set_shared_params` -/

theorem setParams_eq (t : Dtypes D V) (b : Dict) (f : Path → Nat) : ∀ (l : List (Path × Nat)) (w : World D V)
    (keys : List Path), (∀ x ∈ l, b.lookup x.1 = some (f x.1)) → (l.map Prod.fst).Nodup →
    (∀ x ∈ l, x.1 ∈ keys) →
    setParams t b w keys l = (bindList t w (l.map fun x => (x.2, f x.1)) >>=
      fun w' => .ok (w', keys.filter fun k => decide (k ∉ l.map Prod.fst)))
  | [], w, keys => by
    intro _ _ _
    simp [setParams, bindList, bind, Except.bind]
  | (p, i) :: rest, w, keys => by
    intro h1 h2 h3
    simp only [List.map_cons, List.nodup_cons] at h2
    simp only [setParams, h1 (p, i) (by simp), List.map_cons, bindList]
    cases hb : bindSlot t w i (f p) with
    | error e => rfl
    | ok w' =>
      have hk : keys.contains p = true := by
        simpa using h3 (p, i) (by simp)
      show (if keys.contains p then setParams t b w' (keys.filter (· ≠ p)) rest else .error .keyError) = _
      rw [if_pos hk, setParams_eq t b f rest w' _ (fun x hx => h1 x (List.mem_cons_of_mem _ hx)) h2.2]
      · show _ = (bindList t w' (rest.map fun x => (x.2, f x.1)) >>= _)
        congr 1
        funext w''
        congr 2
        rw [List.filter_filter]
        apply List.filter_congr
        intro k _
        rw [Bool.eq_iff_iff]
        simp only [Bool.and_eq_true, decide_eq_true_eq, List.mem_cons, not_or, ne_eq]
        exact and_comm
      · intro x hx
        rw [List.mem_filter]
        refine ⟨h3 x (List.mem_cons_of_mem _ hx), ?_⟩
        simp only [ne_eq, decide_eq_true_eq]
        intro he
        exact h2.1 (he ▸ List.mem_map.mpr ⟨x, hx, rfl⟩)

theorem setPersistents_eq (t : Dtypes D V) (b : Dict) (f : Path → Nat) (link : Link) : ∀ (l : List (Path × Nat))
    (w : World D V) (keys : List Path), (∀ x ∈ l, b.lookup x.1 = some (f x.1)) → (l.map Prod.fst).Nodup →
    (∀ x ∈ l, x.1 ∈ keys) → (∀ x ∈ l, findPersistent link x.1 = .ok x.2) →
    setPersistents t b link w keys l = (bindList t w (l.map fun x => (x.2, f x.1)) >>=
      fun w' => .ok (w', keys.filter fun k => decide (k ∉ l.map Prod.fst)))
  | [], w, keys => by
    intro _ _ _ _
    simp [setPersistents, bindList, bind, Except.bind]
  | (p, i) :: rest, w, keys => by
    intro h1 h2 h3 h4
    simp only [List.map_cons, List.nodup_cons] at h2
    simp only [setPersistents, h1 (p, i) (by simp), List.map_cons, bindList, h4 (p, i) (by simp)]
    show (bindSlot t w i (f p) >>= _) = _
    cases hb : bindSlot t w i (f p) with
    | error e => rfl
    | ok w' =>
      have hk : keys.contains p = true := by
        simpa using h3 (p, i) (by simp)
      show (if keys.contains p then setPersistents t b link w' (keys.filter (· ≠ p)) rest else .error .keyError) = _
      rw [if_pos hk, setPersistents_eq t b f link rest w' _ (fun x hx => h1 x (List.mem_cons_of_mem _ hx)) h2.2]
      · show _ = (bindList t w' (rest.map fun x => (x.2, f x.1)) >>= _)
        congr 1
        funext w''
        congr 2
        rw [List.filter_filter]
        apply List.filter_congr
        intro k _
        rw [Bool.eq_iff_iff]
        simp only [Bool.and_eq_true, decide_eq_true_eq, List.mem_cons, not_or, ne_eq]
        exact and_comm
      · intro x hx
        rw [List.mem_filter]
        refine ⟨h3 x (List.mem_cons_of_mem _ hx), ?_⟩
        simp only [ne_eq, decide_eq_true_eq]
        intro he
        exact h2.1 (he ▸ List.mem_map.mpr ⟨x, hx, rfl⟩)
      · exact fun x hx => h4 x (List.mem_cons_of_mem _ hx)

/-- `set_shared_params` with a dict that has exactly the paths of the link. -/
theorem setSharedParams_eq (t : Dtypes D V) (w : World D V) (l : Link) (b : Dict) (f : Path → Nat)
    (hl : l.NamesOk) (h1 : ∀ x ∈ namedParams l ++ namedPersistent l, b.lookup x.1 = some (f x.1))
    (h2 : ∀ k, k ∈ b.map Prod.fst ↔ k ∈ (namedParams l ++ namedPersistent l).map Prod.fst) :
    setSharedParams t w l b =
      bindList t w ((namedParams l ++ namedPersistent l).map fun x => (x.2, f x.1)) := by
  have hn := link_keys_nodup l hl
  rw [List.map_append, List.nodup_append] at hn
  obtain ⟨hn1, hn2, hn3⟩ := hn
  unfold setSharedParams
  rw [setParams_eq t b f (namedParams l) w _ (fun x hx => h1 x (List.mem_append_left _ hx)) hn1
    (fun x hx => (h2 _).mpr (List.mem_map.mpr ⟨x, List.mem_append_left _ hx, rfl⟩)),
    List.map_append, bindList_append]
  cases hb : bindList t w ((namedParams l).map fun x => (x.2, f x.1)) with
  | error e => rfl
  | ok w' =>
    show (setPersistents t b l w' _ (namedPersistent l) >>= _) = bindList t w' _
    rw [setPersistents_eq t b f l (namedPersistent l) w' _ (fun x hx => h1 x (List.mem_append_right _ hx)) hn2]
    · cases hb2 : bindList t w' ((namedPersistent l).map fun x => (x.2, f x.1)) with
      | error e => rfl
      | ok w'' =>
        show pyAssert _ (.ok w'') = _
        rw [List.filter_filter]
        have : (b.map Prod.fst).filter (fun a => decide (a ∉ (namedPersistent l).map Prod.fst) &&
            decide (a ∉ (namedParams l).map Prod.fst)) = [] := by
          rw [List.filter_eq_nil_iff]
          intro k hk
          have := (h2 k).mp hk
          rw [List.map_append, List.mem_append] at this
          simp only [Bool.and_eq_true, decide_eq_true_eq, not_and, not_not]
          intro hne
          exact this.resolve_right hne
        rw [this]; rfl
    · intro x hx
      rw [List.mem_filter]
      refine ⟨(h2 _).mpr (List.mem_map.mpr ⟨x, List.mem_append_right _ hx, rfl⟩), ?_⟩
      simp only [decide_eq_true_eq]
      intro he
      exact hn3 _ he _ (List.mem_map.mpr ⟨x, hx, rfl⟩) rfl
    · exact findPersistent_mem l hl

/-! ### Shared memory that fits an object -/

/-- All shared arrays, with paths. -/
def dictSlots (d : Dict) : List (Path × Nat) := d

mutual
def shSlots : Sh → List (Path × Nat)
  | .tuple l => shSlotsList 0 l
  | .params d => d
  | .states d => d.flatMap fun x => x.2.map fun e => (x.1 ++ [.name e.1], e.2)
  | .value _ => []
def shSlotsList (k : Nat) : List Sh → List (Path × Nat)
  | [] => []
  | o :: os => (shSlots o).map (fun x => (.idx k :: x.1, x.2)) ++ shSlotsList (k + 1) os
end

def FitsSlots (w : World D V) (l : List (Path × Nat)) (d : Dict) : Prop :=
  List.Forall₂ (fun x y => x.1 = y.1 ∧ Fit w x.2 y.2) l d

mutual
def Fits (w : World D V) : Obj → Sh → Prop
  | .tuple l, .tuple s => FitsList w l s
  | .link l, .params d => FitsSlots w (namedParams l ++ namedPersistent l) d
  | .optimizer s, .states d => List.Forall₂ (fun x y => x.1 = y.1 ∧
      List.Forall₂ (fun e f => e.1 = f.1 ∧ Fit w e.2 f.2) x.2 y.2) s d
  | .value _, .value _ => True
  | _, _ => False
def FitsList (w : World D V) : List Obj → List Sh → Prop
  | [], [] => True
  | o :: os, s :: ss => Fits w o s ∧ FitsList w os ss
  | _, _ => False
end

theorem forall₂_keys {α : Type} {R : Path × Nat → Path × α → Prop} {l : List (Path × Nat)} {d : List (Path × α)}
    (h : List.Forall₂ (fun x y => x.1 = y.1 ∧ R x y) l d) : l.map Prod.fst = d.map Prod.fst := by
  induction h with
  | nil => rfl
  | cons h _ ih => simp [h.1, ih]

theorem forall₂_append {α β : Type} {R : α → β → Prop} {a b : List α} {c d : List β}
    (h1 : List.Forall₂ R a c) (h2 : List.Forall₂ R b d) : List.Forall₂ R (a ++ b) (c ++ d) := by
  induction h1 with
  | nil => exact h2
  | cons h _ ih => exact .cons h ih

mutual
/-- The flattened form of `Fits`. -/
theorem Fits.flat {w : World D V} : ∀ (o : Obj) (s : Sh), Fits w o s → FitsSlots w (slots o) (shSlots s)
  | .tuple l, .tuple s => by
    intro h
    simp only [Fits] at h
    simp only [slots, shSlots]
    exact FitsList.flat l s 0 h
  | .link l, .params d => by intro h; simpa [Fits, slots, shSlots] using h
  | .optimizer s, .states d => by
    intro h
    simp only [Fits] at h
    simp only [slots, shSlots]
    induction h with
    | nil => exact .nil
    | @cons x y s d h1 _ ih =>
      simp only [List.flatMap_cons]
      refine forall₂_append ?_ ih
      rw [List.forall₂_map_left_iff, List.forall₂_map_right_iff]
      exact h1.2.imp fun e f hef => ⟨by rw [h1.1, hef.1], hef.2⟩
  | .value _, .value _ => by intro _; exact .nil
  | .tuple _, .params _ => by intro h; simp [Fits] at h
  | .tuple _, .states _ => by intro h; simp [Fits] at h
  | .tuple _, .value _ => by intro h; simp [Fits] at h
  | .link _, .tuple _ => by intro h; simp [Fits] at h
  | .link _, .states _ => by intro h; simp [Fits] at h
  | .link _, .value _ => by intro h; simp [Fits] at h
  | .optimizer _, .tuple _ => by intro h; simp [Fits] at h
  | .optimizer _, .params _ => by intro h; simp [Fits] at h
  | .optimizer _, .value _ => by intro h; simp [Fits] at h
  | .value _, .tuple _ => by intro h; simp [Fits] at h
  | .value _, .params _ => by intro h; simp [Fits] at h
  | .value _, .states _ => by intro h; simp [Fits] at h
  | .other, _ => by intro h; simp [Fits] at h
theorem FitsList.flat {w : World D V} : ∀ (l : List Obj) (s : List Sh) (k : Nat), FitsList w l s →
    FitsSlots w (slotsList k l) (shSlotsList k s)
  | [], [], k => by intro _; exact .nil
  | o :: os, s :: ss, k => by
    intro h
    simp only [FitsList] at h
    simp only [slotsList, shSlotsList]
    refine forall₂_append ?_ (FitsList.flat os ss (k + 1) h.2)
    rw [List.forall₂_map_left_iff, List.forall₂_map_right_iff]
    exact (Fits.flat o s h.1).imp fun x y hxy => ⟨by rw [hxy.1], hxy.2⟩
  | [], _ :: _, _ => by intro h; simp [FitsList] at h
  | _ :: _, [], _ => by intro h; simp [FitsList] at h
end

/-- How the slots are bound: slot by slot to the array of the same path. -/
def Binds (l : List (Path × Nat)) (d : Dict) (pairs : List (Nat × Nat)) : Prop :=
  List.Forall₂ (fun x y => y.1 = x.2 ∧ (x.1, y.2) ∈ d) l pairs

theorem Binds.fst {l : List (Path × Nat)} {d : Dict} {pairs : List (Nat × Nat)} (h : Binds l d pairs) :
    pairs.map Prod.fst = l.map Prod.snd := by
  induction h with
  | nil => rfl
  | cons h _ ih => simp [h.1, ih]

theorem Binds.mono {l : List (Path × Nat)} {d d' : Dict} {pairs : List (Nat × Nat)} (h : Binds l d pairs)
    (hd : ∀ x ∈ d, x ∈ d') : Binds l d' pairs :=
  List.Forall₂.imp (fun _ _ h => ⟨h.1, hd _ h.2⟩) h

/-- The pairs of a list of slots and a dict with the same paths. -/
theorem fits_pairs {w : World D V} {l : List (Path × Nat)} {d : Dict} (h : FitsSlots w l d)
    (hn : (l.map Prod.fst).Nodup) :
    ∃ f : Path → Nat, (∀ x ∈ l, d.lookup x.1 = some (f x.1)) ∧ Binds l d (l.map fun x => (x.2, f x.1)) ∧
      ∀ x ∈ l.map (fun x => (x.2, f x.1)), Fit w x.1 x.2 := by
  refine ⟨fun p => (d.lookup p).getD 0, ?_⟩
  have key : ∀ x ∈ l, ∃ a, d.lookup x.1 = some a ∧ (x.1, a) ∈ d ∧ Fit w x.2 a := by
    induction h with
    | nil => intro x hx; simp at hx
    | @cons x y l d hxy _ ih =>
      simp only [List.map_cons, List.nodup_cons] at hn
      intro z hz
      rcases List.mem_cons.mp hz with rfl | hz
      · refine ⟨y.2, ?_, by rw [hxy.1]; simp, hxy.2⟩
        rw [hxy.1]
        obtain ⟨y1, y2⟩ := y
        exact List.lookup_cons_self
      · obtain ⟨a, h1, h2, h3⟩ := ih hn.2 z hz
        refine ⟨a, ?_, List.mem_cons_of_mem _ h2, h3⟩
        have hne : (z.1 == y.1) = false := by
          rw [beq_eq_false_iff_ne]
          intro he
          exact hn.1 (hxy.1 ▸ he ▸ List.mem_map.mpr ⟨z, hz, rfl⟩)
        obtain ⟨y1, y2⟩ := y
        simp only [List.lookup]
        rw [hne]; exact h1
  refine ⟨?_, ?_, ?_⟩
  · intro x hx
    obtain ⟨a, h1, _, _⟩ := key x hx
    simp [h1]
  · unfold Binds
    rw [List.forall₂_map_right_iff, List.forall₂_same]
    intro x hx
    obtain ⟨a, h1, h2, _⟩ := key x hx
    exact ⟨rfl, by simpa [h1] using h2⟩
  · intro x hx
    obtain ⟨y, hy, rfl⟩ := List.mem_map.mp hx
    obtain ⟨a, h1, _, h3⟩ := key y hy
    simpa [h1] using h3

/-! ### Optimizer states -/

theorem setEntries_eq (t : Dtypes D V) (st : List (String × Nat)) :
    ∀ (b : List (String × Nat)) (g : List (Nat × Nat)) (w : World D V),
    List.Forall₂ (fun (e : String × Nat) (y : Nat × Nat) => st.lookup e.1 = some y.1 ∧ e.2 = y.2) b g →
    setEntries t st w b = bindList t w g
  | [], [], w, _ => rfl
  | (n, addr) :: b, (i, a) :: g, w, h => by
    cases h with
    | cons h1 h2 =>
      simp only at h1
      simp only [setEntries, h1.1, bindList, h1.2]
      cases hb : bindSlot t w i a with
      | error e => rfl
      | ok w' => exact setEntries_eq t st b g w' h2

theorem lookup_of_mem {α β : Type} [BEq α] [LawfulBEq α] : ∀ (l : List (α × β)), (l.map Prod.fst).Nodup → ∀ x ∈ l,
    l.lookup x.1 = some x.2
  | [], _, x, h => by simp at h
  | y :: l, hn, x, h => by
    simp only [List.map_cons, List.nodup_cons] at hn
    rcases List.mem_cons.mp h with rfl | h'
    · obtain ⟨a, b⟩ := x; simp
    · have hne : (x.1 == y.1) = false := by
        rw [beq_eq_false_iff_ne]
        intro he
        exact hn.1 (he ▸ List.mem_map.mpr ⟨x, h', rfl⟩)
      obtain ⟨a, b⟩ := y
      simp only [List.lookup]
      rw [hne]
      exact lookup_of_mem l hn.2 x h'

/-- The entries of one parameter. -/
theorem setEntries_ok (t : Dtypes D V) (st entries : List (String × Nat)) (w : World D V)
    (hn : (st.map Prod.fst).Nodup)
    (h : List.Forall₂ (fun (e f : String × Nat) => e.1 = f.1 ∧ Fit w e.2 f.2) st entries) :
    setEntries t st w entries = bindList t w (List.zipWith (fun e f => (e.2, f.2)) st entries) := by
  apply setEntries_eq
  have key : ∀ (st' entries' : List (String × Nat)), (∀ x ∈ st', x ∈ st) →
      List.Forall₂ (fun (e f : String × Nat) => e.1 = f.1 ∧ Fit w e.2 f.2) st' entries' →
      List.Forall₂ (fun (e : String × Nat) (y : Nat × Nat) => st.lookup e.1 = some y.1 ∧ e.2 = y.2) entries'
        (List.zipWith (fun e f => (e.2, f.2)) st' entries') := by
    intro st' entries' hs h'
    induction h' with
    | nil => exact .nil
    | @cons e f st' entries' hef _ ih =>
      simp only [List.zipWith_cons_cons]
      refine .cons ⟨?_, rfl⟩ (ih fun x hx => hs x (List.mem_cons_of_mem _ hx))
      rw [← hef.1]
      exact lookup_of_mem st hn e (hs e (by simp))
  exact key st entries (fun _ h => h) h

/-- All bindings of an optimizer's state. -/
def optPairs (s : OptState) (d : List (Path × List (String × Nat))) : List (Nat × Nat) :=
  (List.zipWith (fun x y => List.zipWith (fun e f => (e.2, f.2)) x.2 y.2) s d).flatten

theorem setSharedStates_eq (t : Dtypes D V) (hpos : ∀ d, 0 < t.itemsize d)
    (b : List (Path × List (String × Nat))) (hb : (b.map Prod.fst).Nodup) :
    ∀ (s : OptState) (b' : List (Path × List (String × Nat))) (w : World D V), (∀ x ∈ b', x ∈ b) →
    (∀ x ∈ s, (x.2.map Prod.fst).Nodup) → ((optPairs s b').map Prod.fst).Nodup →
    List.Forall₂ (fun x y => x.1 = y.1 ∧
      List.Forall₂ (fun e f => e.1 = f.1 ∧ Fit w e.2 f.2) x.2 y.2) s b' →
    setSharedStates t b w s = bindList t w (optPairs s b')
  | [], [], w => by intro _ _ _ _; rfl
  | (p, st) :: s, (p', entries) :: b', w => by
    intro h1 h2 hids h3
    cases h3 with
    | cons h4 h5 =>
      simp only at h4
      obtain ⟨rfl, h4⟩ := h4
      have hlook : b.lookup p = some entries := lookup_of_mem b hb (p, entries) (h1 _ (by simp))
      have hop : optPairs ((p, st) :: s) ((p, entries) :: b') =
          List.zipWith (fun e f => (e.2, f.2)) st entries ++ optPairs s b' := rfl
      rw [hop] at hids ⊢
      rw [List.map_append, List.nodup_append] at hids
      simp only [setSharedStates, hlook]
      rw [setEntries_ok t st entries w (h2 (p, st) (by simp)) h4, bindList_append]
      have hfit : ∀ x ∈ List.zipWith (fun (e f : String × Nat) => (e.2, f.2)) st entries, Fit w x.1 x.2 := by
        clear hids hop hlook h1 h2
        induction h4 with
        | nil => intro x hx; simp at hx
        | @cons e f st entries hef _ ih =>
          intro x hx
          simp only [List.zipWith_cons_cons, List.mem_cons] at hx
          rcases hx with rfl | hx
          · exact hef.2
          · exact ih x hx
      rw [bindList_ok t hpos _ w hids.1 hfit]
      show setSharedStates t b (bound w _) s = bindList t (bound w _) _
      refine setSharedStates_eq t hpos b hb s b' _ (fun x hx => h1 x (List.mem_cons_of_mem _ hx))
        (fun x hx => h2 x (List.mem_cons_of_mem _ hx)) hids.2.1 ?_
      exact h5.imp fun x y hxy => ⟨hxy.1, hxy.2.imp fun e f hef => ⟨hef.1, hef.2.bound _⟩⟩
  | [], _ :: _, w => by intro _ _ _ h; cases h
  | _ :: _, [], w => by intro _ _ _ h; cases h


theorem optPairs_binds {w : World D V} : ∀ (s : OptState) (d : List (Path × List (String × Nat))),
    List.Forall₂ (fun x y => x.1 = y.1 ∧
      List.Forall₂ (fun e f => e.1 = f.1 ∧ Fit w e.2 f.2) x.2 y.2) s d →
    Binds (slots (.optimizer s)) (shSlots (.states d)) (optPairs s d) ∧ ∀ x ∈ optPairs s d, Fit w x.1 x.2 := by
  intro s d h
  simp only [slots, shSlots]
  induction h with
  | nil => exact ⟨.nil, by simp [optPairs]⟩
  | @cons x y s d hxy _ ih =>
    have hop : optPairs (x :: s) (y :: d) =
        List.zipWith (fun (e f : String × Nat) => (e.2, f.2)) x.2 y.2 ++ optPairs s d := rfl
    rw [hop]
    simp only [List.flatMap_cons]
    obtain ⟨hx, h4⟩ := hxy
    have key : ∀ (a b : List (String × Nat)), List.Forall₂ (fun e f => e.1 = f.1 ∧ Fit w e.2 f.2) a b →
        Binds (a.map fun e => (x.1 ++ [Comp.name e.1], e.2)) (b.map fun e => (y.1 ++ [Comp.name e.1], e.2))
          (List.zipWith (fun (e f : String × Nat) => (e.2, f.2)) a b) ∧
        ∀ z ∈ List.zipWith (fun (e f : String × Nat) => (e.2, f.2)) a b, Fit w z.1 z.2 := by
      intro a b hab
      induction hab with
      | nil => exact ⟨.nil, by simp⟩
      | @cons e f a b hef _ ih =>
        simp only [List.map_cons, List.zipWith_cons_cons]
        refine ⟨.cons ⟨rfl, by rw [hx, hef.1]; simp⟩ (ih.1.mono fun z hz => List.mem_cons_of_mem _ hz), ?_⟩
        intro z hz
        rcases List.mem_cons.mp hz with rfl | hz
        · exact hef.2
        · exact ih.2 z hz
    obtain ⟨k1, k2⟩ := key _ _ h4
    refine ⟨forall₂_append (k1.mono fun z hz => List.mem_append_left _ hz)
      (Binds.mono ih.1 fun z hz => List.mem_append_right _ hz), ?_⟩
    intro z hz
    rcases List.mem_append.mp hz with hz | hz
    · exact k2 z hz
    · exact ih.2 z hz

theorem Binds.prefix {l : List (Path × Nat)} {d : Dict} {pairs : List (Nat × Nat)} (h : Binds l d pairs) (c : Comp) :
    Binds (l.map fun x => (c :: x.1, x.2)) (d.map fun x => (c :: x.1, x.2)) pairs := by
  unfold Binds
  rw [List.forall₂_map_left_iff]
  exact h.imp fun x y hxy => ⟨hxy.1, List.mem_map.mpr ⟨_, hxy.2, rfl⟩⟩

mutual
theorem Fits.mono {w w' : World D V} (hf : ∀ i a, Fit w i a → Fit w' i a) :
    ∀ (o : Obj) (s : Sh), Fits w o s → Fits w' o s
  | .tuple l, s => by
    intro h
    cases s with
    | tuple s => simp only [Fits] at h ⊢; exact FitsList.mono hf l s h
    | _ => simp [Fits] at h
  | .link l, s => by
    intro h
    cases s with
    | params d => simp only [Fits] at h ⊢; exact h.imp fun x y hxy => ⟨hxy.1, hf _ _ hxy.2⟩
    | _ => simp [Fits] at h
  | .optimizer st, s => by
    intro h
    cases s with
    | states d =>
      simp only [Fits] at h ⊢
      exact h.imp fun x y hxy => ⟨hxy.1, hxy.2.imp fun e f hef => ⟨hef.1, hf _ _ hef.2⟩⟩
    | _ => simp [Fits] at h
  | .value _, s => by
    intro h
    cases s with
    | value _ => simp [Fits]
    | _ => simp [Fits] at h
  | .other, s => by intro h; simp [Fits] at h
theorem FitsList.mono {w w' : World D V} (hf : ∀ i a, Fit w i a → Fit w' i a) :
    ∀ (l : List Obj) (s : List Sh), FitsList w l s → FitsList w' l s
  | [], s => by
    intro h
    cases s with
    | nil => simp [FitsList]
    | cons => simp [FitsList] at h
  | o :: os, s => by
    intro h
    cases s with
    | nil => simp [FitsList] at h
    | cons s ss =>
      simp only [FitsList] at h ⊢
      exact ⟨Fits.mono hf o s h.1, FitsList.mono hf os ss h.2⟩
end

mutual
def shValues : Sh → List Nat
  | .tuple l => shValuesList l
  | .value n => [n]
  | _ => []
def shValuesList : List Sh → List Nat
  | [] => []
  | s :: ss => shValues s ++ shValuesList ss
end

theorem bindList_binds (t : Dtypes D V) (hpos : ∀ d, 0 < t.itemsize d) {l : List (Path × Nat)} {d : Dict}
    {pairs : List (Nat × Nat)} (w : World D V) (hb : Binds l d pairs) (hi : (l.map Prod.snd).Nodup)
    (hf : ∀ x ∈ pairs, Fit w x.1 x.2) : bindList t w pairs = .ok (bound w pairs) :=
  bindList_ok t hpos pairs w (by rw [hb.fst]; exact hi) hf

mutual
/-- `synchronize_to_shared_objects` with shared memory that fits. -/
theorem sync_ok (t : Dtypes D V) (hpos : ∀ d, 0 < t.itemsize d) : ∀ (o : Obj) (s : Sh) (w : World D V),
    NamesOk o → Fits w o s → ((slots o).map Prod.snd).Nodup →
    ∃ o' pairs, sync t w o s = .ok (o', bound w pairs) ∧ Binds (slots o) (shSlots s) pairs ∧ slots o' = slots o ∧
      values o' = shValues s
  | .tuple l, s, w => by
    intro hn hf hi
    cases s with
    | tuple s =>
      simp only [Fits] at hf
      simp only [NamesOk] at hn
      simp only [slots] at hi
      obtain ⟨l', pairs, h1, h2, h3, hv⟩ := syncList_ok t hpos l s w 0 hn hf hi
      refine ⟨.tuple l', pairs, ?_, ?_, ?_, by simp only [values, shValues]; exact hv⟩
      · simp only [sync, h1]; rfl
      · simp only [slots, shSlots]; exact h2
      · simp only [slots]; exact h3
    | _ => simp [Fits] at hf
  | .link l, s, w => by
    intro hn hf hi
    cases s with
    | params d =>
      simp only [Fits] at hf
      simp only [NamesOk] at hn
      simp only [slots] at hi
      obtain ⟨f, h1, h2, h3⟩ := fits_pairs hf (link_keys_nodup l hn)
      refine ⟨.link l, _, ?_, by simp only [slots, shSlots]; exact h2, rfl, by simp only [values, shValues]⟩
      simp only [sync]
      rw [setSharedParams_eq t w l d f hn h1 (by intro k; rw [← forall₂_keys hf]), bindList_binds t hpos w h2 hi h3]
      rfl
    | _ => simp [Fits] at hf
  | .optimizer st, s, w => by
    intro hn hf hi
    cases s with
    | states d =>
      simp only [Fits] at hf
      simp only [NamesOk] at hn
      obtain ⟨h1, h2⟩ := optPairs_binds st d hf
      refine ⟨.optimizer st, optPairs st d, ?_, h1, rfl, by simp only [values, shValues]⟩
      have hk : st.map Prod.fst = d.map Prod.fst := by
        clear h1 h2 hi hn
        induction hf with
        | nil => rfl
        | cons h _ ih => simp [h.1, ih]
      simp only [sync]
      rw [setSharedStates_eq t hpos d (hk ▸ hn.1) st d w (fun _ h => h) hn.2 (by rw [h1.fst]; exact hi) hf,
        bindList_binds t hpos w h1 hi h2]
      rfl
    | _ => simp [Fits] at hf
  | .value n, s, w => by
    intro hn hf hi
    cases s with
    | value m =>
      refine ⟨.value m, [], ?_, .nil, rfl, by simp only [values, shValues]⟩
      simp only [sync, bound_nil]
    | _ => simp [Fits] at hf
  | .other, s, w => by intro hn; simp [NamesOk] at hn
theorem syncList_ok (t : Dtypes D V) (hpos : ∀ d, 0 < t.itemsize d) : ∀ (l : List Obj) (s : List Sh) (w : World D V)
    (k : Nat), NamesOkObjs l → FitsList w l s → ((slotsList k l).map Prod.snd).Nodup →
    ∃ l' pairs, syncList t w l s = .ok (l', bound w pairs) ∧ Binds (slotsList k l) (shSlotsList k s) pairs ∧
      slotsList k l' = slotsList k l ∧ valuesList l' = shValuesList s
  | [], s, w, k => by
    intro hn hf hi
    cases s with
    | cons => simp [FitsList] at hf
    | nil =>
    refine ⟨[], [], ?_, .nil, rfl, by simp only [valuesList, shValuesList]⟩
    simp only [syncList, bound_nil]
  | o :: os, s, w, k => by
    intro hn hf hi
    cases s with
    | nil => simp [FitsList] at hf
    | cons s ss =>
      simp only [FitsList] at hf
      simp only [NamesOkObjs] at hn
      simp only [slotsList, List.map_append, List.map_map, List.nodup_append] at hi
      obtain ⟨i1, i2, i3⟩ := hi
      have i1' : ((slots o).map Prod.snd).Nodup := by simpa [Function.comp_def] using i1
      obtain ⟨o', p1, h1, h2, h3, v1⟩ := sync_ok t hpos o s w hn.1 hf.1 i1'
      obtain ⟨l', p2, h4, h5, h6, v2⟩ := syncList_ok t hpos os ss (bound w p1) (k + 1) hn.2
        (FitsList.mono (fun i a h => h.bound p1) os ss hf.2) i2
      refine ⟨o' :: l', p1 ++ p2, ?_, ?_, ?_, by simp only [valuesList, shValuesList, v1, v2]⟩
      · simp only [syncList, h1]
        show (syncList t (bound w p1) os ss >>= _) = _
        rw [h4, ← bound_append w p1 p2 ?_]
        · rfl
        · intro x hx hx2
          rw [h5.fst] at hx2
          have : x.1 ∈ (slots o).map Prod.snd := by
            rw [← h2.fst]; exact List.mem_map.mpr ⟨x, hx, rfl⟩
          exact i3 x.1 (by simpa [Function.comp_def] using this) x.1 hx2 rfl
      · simp only [slotsList, shSlotsList]
        exact forall₂_append ((h2.prefix (.idx k)).mono fun z hz => List.mem_append_left _ hz)
          (h5.mono fun z hz => List.mem_append_right _ hz)
      · simp only [slotsList, h3, h6]
end

end Verif.Shared
