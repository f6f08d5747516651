import Verif.Model.TreeQueue

/-! Helper lemmas: the tree stores a list. -/

namespace Verif
namespace Node
variable {V : Type _}

/-- The `2^h` leaf slots below a node of height `h`, from left to right. -/
def slots : Nat → Node V → List (Option V)
  | 0, n => [n.value?]
  | h + 1, .inner l r _ => slots h l ++ slots h r
  | h + 1, _ => List.replicate (2 ^ (h + 1)) none

/-- A tree of height `h` whose inner values are those computed by `reduce`. -/
def Shaped (op : List V → V) : Nat → Node V → Prop
  | _, .nil => True
  | 0, .leaf _ => True
  | 0, .inner _ _ _ => False
  | _ + 1, .leaf _ => False
  | h + 1, .inner l r v => Shaped op h l ∧ Shaped op h r ∧ reduce op l r = .inner l r v

theorem slots_nil (h : Nat) : slots h (.nil : Node V) = List.replicate (2 ^ h) none := by
  cases h <;> simp [slots, value?]

theorem length_slots (h : Nat) (n : Node V) : (slots h n).length = 2 ^ h := by
  induction h generalizing n with
  | zero => simp [slots]
  | succ h ih =>
    cases n with
    | nil => simp [slots]
    | leaf => simp [slots]
    | inner l r v => simp [slots, ih]; omega

theorem value?_eq_none {n : Node V} : n.value? = none ↔ n = .nil := by
  cases n <;> simp [value?]

theorem reduce_shaped (op : List V → V) (h : Nat) (l r : Node V)
    (hl : Shaped op h l) (hr : Shaped op h r) : Shaped op (h + 1) (reduce op l r) := by
  unfold reduce
  split
  · trivial
  · rename_i hne
    simp only [Shaped]
    refine ⟨hl, hr, ?_⟩
    unfold reduce
    split
    · rename_i he; exact absurd he hne
    · rfl

theorem reduce_slots (op : List V → V) (h : Nat) (l r : Node V) :
    slots (h + 1) (reduce op l r) = slots h l ++ slots h r := by
  unfold reduce
  split
  · rename_i he
    simp only [List.append_eq_nil_iff, Option.toList_eq_nil_iff] at he
    rw [value?_eq_none, value?_eq_none] at he
    rw [he.1, he.2, slots_nil, slots_nil, List.replicate_append_replicate]
    congr 1; omega
  · rfl

theorem write_spec (op : List V → V) (h : Nat) (l : Int) (node : Node V) (key : Int)
    (value : Option V) (hs : Shaped op h node) (h1 : l ≤ key) (h2 : key < l + 2 ^ h) :
    ∃ node', write op l (l + 2 ^ h) node key value
        = .ok ((slots h node)[(key - l).toNat]?.join, node') ∧
      Shaped op h node' ∧ slots h node' = (slots h node).set (key - l).toNat value := by
  induction h generalizing l node with
  | zero =>
    have hk : key = l := by simp at h2; omega
    subst hk
    rw [write.eq_def, if_pos (by simp)]
    refine ⟨_, by simp only [slots, Int.sub_self]; rfl, ?_, ?_⟩
    · cases value <;> trivial
    · cases value <;> simp [slots, value?]
  | succ h ih =>
    have hpow : (2 : Int) ^ (h + 1) = 2 * 2 ^ h := by rw [Int.pow_succ]; omega
    have hpos : (0 : Int) < 2 ^ h := Int.pow_pos (by decide)
    have hposN : ((2 ^ h : Nat) : Int) = 2 ^ h := by norm_cast
    rw [write.eq_def, if_neg (by omega), if_neg (by omega)]
    have hc : (l + (l + 2 ^ (h + 1))) / 2 = l + 2 ^ h := by omega
    rw [hc]
    -- the two children
    obtain ⟨nl, nr, hch, hsl, hsr, hslots⟩ : ∃ nl nr, node.children? = some (nl, nr) ∧
        Shaped op h nl ∧ Shaped op h nr ∧ slots (h + 1) node = slots h nl ++ slots h nr := by
      cases node with
      | nil =>
        refine ⟨.nil, .nil, rfl, by cases h <;> trivial, by cases h <;> trivial, ?_⟩
        rw [slots_nil, slots_nil, List.replicate_append_replicate]
        congr 1; omega
      | leaf v => exact hs.elim
      | inner nl nr v => exact ⟨nl, nr, rfl, hs.1, hs.2.1, rfl⟩
    rw [hch, hslots]
    simp only
    split
    · rename_i hk
      obtain ⟨n', e1, e2, e3⟩ := ih l nl hsl h1 hk
      have hlt : (key - l).toNat < (slots h nl).length := by rw [length_slots]; omega
      rw [e1]
      refine ⟨_, ?_, reduce_shaped op h n' nr e2 hsr, ?_⟩
      · rw [List.getElem?_append_left hlt]
      · rw [reduce_slots, e3, List.set_append_left _ _ hlt]
    · rename_i hk
      have e0 : l + 2 ^ (h + 1) = (l + 2 ^ h) + 2 ^ h := by omega
      rw [e0]
      obtain ⟨n', e1, e2, e3⟩ := ih (l + 2 ^ h) nr hsr (by omega) (by omega)
      have hge : (slots h nl).length ≤ (key - l).toNat := by rw [length_slots]; omega
      have hidx : (key - l).toNat - (slots h nl).length = (key - (l + 2 ^ h)).toNat := by
        rw [length_slots]; omega
      rw [e1]
      refine ⟨_, ?_, reduce_shaped op h nl n' hsl e2, ?_⟩
      · rw [List.getElem?_append_right hge, hidx]
      · rw [reduce_slots, e3, List.set_append_right _ _ hge, hidx]

/-- What `sum` and `min` satisfy: the aggregate of a concatenation is the
aggregate of the two aggregates. -/
structure OpLaw (op : List V → V) : Prop where
  single : ∀ a, op [a] = a
  append : ∀ xs ys, xs ≠ [] → ys ≠ [] → op [op xs, op ys] = op (xs ++ ys)

/-- The values present in the slots. -/
def present (s : List (Option V)) : List V := s.filterMap id

theorem present_append (a b : List (Option V)) : present (a ++ b) = present a ++ present b := by
  simp [present]

theorem present_replicate (k : Nat) : present (List.replicate k (none : Option V)) = [] := by
  simp [present]

theorem present_map_some (l : List V) : present (l.map some) = l := by
  simp [present, List.filterMap_map]

/-- The value of a node is the aggregate of the values below it. -/
theorem value_spec {op : List V → V} (law : OpLaw op) (h : Nat) (node : Node V)
    (hs : Shaped op h node) :
    (node.value? = none ∧ present (slots h node) = []) ∨
    (present (slots h node) ≠ [] ∧ node.value? = some (op (present (slots h node)))) := by
  induction h generalizing node with
  | zero =>
    cases node with
    | nil => left; simp [slots, value?, present]
    | leaf v => right; simp [slots, value?, present, law.single]
    | inner => exact hs.elim
  | succ h ih =>
    cases node with
    | nil => left; rw [slots_nil]; simp [value?, present_replicate]
    | leaf v => exact hs.elim
    | inner l r v =>
      right
      obtain ⟨hl, hr, hv⟩ := hs
      simp only [slots, present_append, value?]
      unfold reduce at hv
      rcases ih l hl with ⟨l1, l2⟩ | ⟨l1, l2⟩ <;> rcases ih r hr with ⟨r1, r2⟩ | ⟨r1, r2⟩
      · rw [l1, r1] at hv; simp at hv
      · rw [l1, r2] at hv; simp [law.single] at hv
        rw [l2]; exact ⟨by simpa using r1, by rw [List.nil_append, hv]⟩
      · rw [l2, r1] at hv; simp [law.single] at hv
        rw [r2]; exact ⟨by simpa using l1, by rw [List.append_nil, hv]⟩
      · rw [l2, r2] at hv; simp [law.append _ _ l1 r1] at hv
        exact ⟨by simp [l1], by rw [hv]⟩

end Node

namespace TreeQueue
open Node
variable {V : Type _}

/-- The tree of height `h` over `[l, l + 2^h)` holds `xs` at positions
`0 .. xs.length - 1`. -/
structure TreeHolds (op : List V → V) (h : Nat) (root : Node V) (l r : Int) (xs : List V) : Prop where
  hr : r = l + 2 ^ h
  shaped : Shaped op h root
  hl : l ≤ 0
  hlen : (xs.length : Int) ≤ r
  slots : slots h root = List.replicate (-l).toNat none ++ xs.map some
    ++ List.replicate (r - xs.length).toNat none

/-- The queue holds the list `xs`. -/
def Holds (op : List V → V) (q : TreeQueue V) (xs : List V) : Prop :=
  q.length = xs.length ∧
  match q.tree with
  | none => xs = []
  | some (root, l, r) => xs ≠ [] ∧ ∃ h, TreeHolds op h root l r xs ∧
      (h = 0 → l = 0) ∧ (∀ h', h = h' + 1 → 0 < l + 2 ^ h')

theorem holds_init (op : List V → V) : Holds op (init : TreeQueue V) [] := by
  simp [Holds, init]

theorem slot_set (a b i : Nat) (xs : List V) (v : Option V) (h : i < xs.length) :
    (List.replicate a none ++ xs.map some ++ List.replicate b none).set (a + i) v
      = List.replicate a none ++ (xs.map some).set i v ++ List.replicate b none := by
  rw [List.append_assoc, List.set_append_right _ _ (by simp)]
  rw [List.set_append_left _ _ (by simp; omega)]
  simp [List.append_assoc]

theorem slot_get (a b i : Nat) (xs : List V) (h : i < xs.length) :
    (List.replicate a none ++ xs.map some ++ List.replicate b none)[a + i]?.join = xs[i]? := by
  rw [List.append_assoc, List.getElem?_append_right (by simp)]
  rw [List.getElem?_append_left (by simp; omega)]
  simp [h]

/-- A write at a position that holds an element replaces it and returns it. -/
theorem write_holds (op : List V → V) (q : TreeQueue V) (xs : List V) (i : Nat) (v : V)
    (hq : Holds op q xs) (hi : i < xs.length) :
    ∃ q', q.write op i (some v) = .ok (some xs[i], q') ∧ Holds op q' (xs.set i v) := by
  obtain ⟨hlen, ht⟩ := hq
  unfold write
  split
  · rename_i hnone; rw [hnone] at ht; simp only at ht; subst ht; simp at hi
  · rename_i root l r hsome
    rw [hsome] at ht
    obtain ⟨hne, h, th, c0, c1⟩ := ht
    have hpos : ((2 ^ h : Nat) : Int) = 2 ^ h := by norm_cast
    have hr := th.hr
    have hl := th.hl
    have hle := th.hlen
    obtain ⟨n', e1, e2, e3⟩ := write_spec op h l root i (some v) th.shaped (by omega) (by omega)
    have hidx : ((i : Int) - l).toNat = (-l).toNat + i := by omega
    rw [hidx] at e1 e3
    rw [th.slots, slot_get _ _ _ _ hi, List.getElem?_eq_getElem hi] at e1
    rw [th.slots, slot_set _ _ _ _ _ hi] at e3
    rw [hr, e1]
    refine ⟨_, rfl, by simpa using hlen, ?_⟩
    refine ⟨by simpa using hne, h, ⟨rfl, e2, hl, ?_, ?_⟩, c0, c1⟩
    · rw [List.length_set, ← hr]; exact hle
    · rw [e3, List.length_set, ← hr, List.map_set]

theorem setitem_holds (op : List V → V) (q : TreeQueue V) (xs : List V) (ix : Int) (v : V)
    (hq : Holds op q xs) :
    if 0 ≤ ix ∧ ix < xs.length then
      ∃ q', q.setitem op ix v = .ok q' ∧ Holds op q' (xs.set ix.toNat v)
    else q.setitem op ix v = .error .assertionError := by
  have hlen := hq.1
  unfold setitem
  rw [hlen]
  split
  · rename_i h
    obtain ⟨q', e1, e2⟩ := write_holds op q xs ix.toNat v hq (by omega)
    have : ((ix.toNat : Nat) : Int) = ix := by omega
    rw [this] at e1
    exact ⟨q', by rw [e1], e2⟩
  · rfl

theorem grow_spec {op : List V → V} (law : ∀ a, op [a] = a) (q : TreeQueue V) (xs : List V)
    (hq : Holds op q xs) (hne : xs ≠ []) :
    q.grow.length = xs.length ∧ ∃ root l r, q.grow.tree = some (root, l, r) ∧
      ∃ h, TreeHolds op h root l r xs ∧ (xs.length : Int) < r ∧ ∃ h', h = h' + 1 ∧ 0 < l + 2 ^ h' := by
  obtain ⟨hlen, ht⟩ := hq
  unfold grow
  split
  · rename_i root l r hsome
    rw [hsome] at ht
    obtain ⟨_, h, th, c0, c1⟩ := ht
    have hr := th.hr
    have hpow : ((2 ^ h : Nat) : Int) = 2 ^ h := by norm_cast
    rw [hlen]
    have hlpos : 0 < xs.length := List.length_pos_iff.mpr hne
    split
    · rename_i hfull
      have hpres : present (Node.slots h root) = xs := by
        rw [th.slots]; simp [present_append, present_replicate, present_map_some]
      rcases v2 : root.value? with _ | v
      · rw [value?_eq_none] at v2
        rw [v2, slots_nil, present_replicate] at hpres
        exact absurd hpres.symm hne
      · dsimp only
        have hp0 : (0 : Int) < 2 ^ h := Int.pow_pos (by decide)
        refine ⟨rfl, _, _, _, rfl, h + 1, ⟨?_, ?_, th.hl, by omega, ?_⟩, by omega, h, rfl, by omega⟩
        · rw [Int.pow_succ]; omega
        · refine ⟨th.shaped, by cases h <;> trivial, ?_⟩
          unfold reduce
          rw [v2]
          simp [value?, law]
        · simp only [Node.slots]
          rw [th.slots, slots_nil]
          rw [List.append_assoc, List.append_assoc, List.append_assoc]
          congr 2
          rw [List.replicate_append_replicate]
          congr 1; omega
    · rename_i hnf
      refine ⟨hlen, root, l, r, hsome, h, th, by have := th.hlen; omega, ?_⟩
      cases h with
      | zero =>
        have := c0 rfl
        have := th.hlen
        simp at hr; omega
      | succ h' => exact ⟨h', rfl, c1 h' rfl⟩
  · rename_i hnone; rw [hnone] at ht; exact absurd ht hne

theorem append_holds {op : List V → V} (law : ∀ a, op [a] = a) (q : TreeQueue V) (xs : List V) (v : V)
    (hq : Holds op q xs) : ∃ q', q.append op v = .ok q' ∧ Holds op q' (xs ++ [v]) := by
  have hlen := hq.1
  unfold append
  split
  · rename_i h0
    have hxs : xs = [] := List.eq_nil_of_length_eq_zero (by omega)
    subst hxs
    refine ⟨_, rfl, rfl, by simp, 0, ⟨by simp, trivial, by simp, by simp, ?_⟩, by simp, by simp⟩
    simp [Node.slots, value?]
  · rename_i h0
    have hne : xs ≠ [] := by rintro rfl; simp at hlen; omega
    obtain ⟨g1, root, l, r, g2, h, th, g3, h', g4, g5⟩ := grow_spec law q xs hq hne
    have hr := th.hr
    have hl := th.hl
    have hpow : ((2 ^ h : Nat) : Int) = 2 ^ h := by norm_cast
    obtain ⟨n', e1, e2, e3⟩ := write_spec op h l root q.length (some v) th.shaped (by omega)
      (by omega)
    have hidx : ((q.length : Int) - l).toNat = (-l).toNat + xs.length := by omega
    have hb : (r - xs.length).toNat = (r - (xs.length + 1 : Nat)).toNat + 1 := by omega
    rw [hidx, th.slots, hb, List.replicate_succ] at e1 e3
    have hget : (List.replicate (-l).toNat none ++ xs.map some ++
        none :: List.replicate (r - (xs.length + 1 : Nat)).toNat (none : Option V))[(-l).toNat + xs.length]?.join
        = none := by
      rw [List.getElem?_append_right (by simp)]; simp
    have hset : (List.replicate (-l).toNat none ++ xs.map some ++
        none :: List.replicate (r - (xs.length + 1 : Nat)).toNat (none : Option V)).set
          ((-l).toNat + xs.length) (some v)
        = List.replicate (-l).toNat none ++ (xs ++ [v]).map some ++
          List.replicate (r - (xs.length + 1 : Nat)).toNat none := by
      rw [List.set_append_right _ _ (by simp)]; simp
    rw [hget] at e1
    rw [hset] at e3
    unfold write
    rw [g2]
    simp only
    rw [hr, e1]
    refine ⟨_, rfl, by simp [hlen], ?_⟩
    simp only
    refine ⟨by simp, h, ⟨rfl, e2, hl, by simp; omega, ?_⟩, by omega, ?_⟩
    · rw [e3]; simp [hr]
    · intro h'' hh; have : h'' = h' := by omega
      subst this; exact g5

theorem popleft_holds (op : List V → V) (q : TreeQueue V) (xs : List V)
    (hq : Holds op q xs) :
    match xs with
    | [] => q.popleft op = .error .assertionError
    | x :: t => ∃ q', q.popleft op = .ok (some x, q') ∧ Holds op q' t := by
  obtain ⟨hlen, ht⟩ := hq
  cases xs with
  | nil => simp only [popleft]; rw [if_pos (by simpa using hlen)]
  | cons x t =>
    simp only [List.length_cons] at hlen
    simp only [popleft]
    rw [if_neg (by omega)]
    unfold write
    cases htree : q.tree with
    | none => rw [htree] at ht; simp at ht
    | some tr =>
      obtain ⟨root, l, r⟩ := tr
      rw [htree] at ht
      obtain ⟨_, h, th, c0, c1⟩ := ht
      have hr := th.hr
      have hl := th.hl
      have hle := th.hlen
      have hpow : ((2 ^ h : Nat) : Int) = 2 ^ h := by norm_cast
      simp only [List.length_cons] at hle
      obtain ⟨n', e1, e2, e3⟩ := write_spec op h l root 0 none th.shaped (by omega) (by omega)
      have hidx : ((0 : Int) - l).toNat = (-l).toNat + 0 := by omega
      rw [hidx, th.slots] at e1 e3
      rw [slot_get _ _ _ _ (by simp)] at e1
      rw [slot_set _ _ _ _ _ (by simp)] at e3
      simp only [List.getElem?_cons_zero] at e1
      simp only [List.map_cons, List.set_cons_zero, List.length_cons] at e3
      simp only [hr, e1]
      split
      · rename_i h0
        have : t = [] := List.eq_nil_of_length_eq_zero (by omega)
        subst this
        exact ⟨_, rfl, rfl, rfl⟩
      · rename_i h0
        have htne : t ≠ [] := by rintro rfl; simp at hlen; omega
        have htl : 0 < t.length := List.length_pos_iff.mpr htne
        -- the slots after the removal
        have hslots : Node.slots h n' = List.replicate (-(l - 1)).toNat none ++ t.map some
            ++ List.replicate (r - 1 - t.length).toNat none := by
          rw [e3]
          have h1 : (-(l - 1)).toNat = (-l).toNat + 1 := by omega
          have h2 : (r - (t.length + 1 : Nat)).toNat = (r - 1 - t.length).toNat := by omega
          rw [h1, h2, List.replicate_succ']
          simp
        cases h with
        | zero =>
          have := c0 rfl
          simp at hr; omega
        | succ h =>
          have hc1 := c1 h rfl
          have hp : (2 : Int) ^ (h + 1) = 2 * 2 ^ h := by rw [Int.pow_succ]; omega
          have hpow' : ((2 ^ h : Nat) : Int) = 2 ^ h := by norm_cast
          have hcen : (l - 1 + (l + 2 ^ (h + 1) - 1)) / 2 = l - 1 + 2 ^ h := by omega
          unfold shrink
          rw [hcen]
          by_cases hz : l - 1 + 2 ^ h = 0
          · rw [if_pos hz]
            -- the left half is empty
            have hlz : l = 1 - 2 ^ h := by omega
            cases n' with
            | nil =>
              rw [slots_nil] at hslots
              have := congrArg present hslots
              simp [present_append, present_replicate, present_map_some] at this
              exact absurd this htne
            | leaf v => exact e2.elim
            | inner nl nr v =>
              obtain ⟨s1, s2, s3⟩ := e2
              simp only [Node.slots] at hslots
              have hlen2 : (Node.slots h nl).length = (-(l - 1)).toNat := by
                rw [length_slots]; omega
              rw [List.append_assoc] at hslots
              have := (List.append_inj hslots (by simpa using hlen2)).2
              refine ⟨_, rfl, by simpa using by omega, ?_⟩
              simp only
              refine ⟨htne, h, ⟨by omega, s2, by omega, by omega, ?_⟩, ?_, ?_⟩
              · rw [this, hz]; simp [hr]
              · intro _; omega
              · intro h' hh
                subst hh
                have : (0 : Int) < 2 ^ h' := Int.pow_pos (by decide)
                omega
          · rw [if_neg hz]
            refine ⟨_, rfl, by simpa using by omega, ?_⟩
            simp only
            refine ⟨htne, h + 1, ⟨by omega, e2, by omega, by omega, ?_⟩, by omega, ?_⟩
            · rw [hslots, hr]
            · intro h' hh
              have : h' = h := by omega
              subst this; omega

/-- The value at the root is the aggregate of the held list. -/
theorem rootValue_holds {op : List V → V} (law : OpLaw op) (q : TreeQueue V) (xs : List V)
    (hq : Holds op q xs) : q.rootValue = if xs = [] then none else some (op xs) := by
  obtain ⟨hlen, ht⟩ := hq
  unfold rootValue
  cases xs with
  | nil => rw [if_pos (by simpa using hlen)]; simp
  | cons x t =>
    rw [if_neg (by simp at hlen; omega), if_neg (by simp)]
    cases htree : q.tree with
    | none => rw [htree] at ht; simp at ht
    | some tr =>
      obtain ⟨root, l, r⟩ := tr
      rw [htree] at ht
      obtain ⟨_, h, th, _⟩ := ht
      have hpres : present (Node.slots h root) = x :: t := by
        rw [th.slots]; simp only [present_append, present_replicate, present_map_some]; simp
      rcases value_spec law h root th.shaped with ⟨v1, v2⟩ | ⟨v1, v2⟩
      · rw [hpres] at v2; cases v2
      · simp only [v2, hpres]

end TreeQueue
end Verif
