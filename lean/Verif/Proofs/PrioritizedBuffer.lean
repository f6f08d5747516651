import Verif.Spec.PrioritizedBuffer
import Verif.Proofs.TreeQueueSample

/-! Helper lemmas for `PrioritizedBuffer`. -/

namespace Verif
open ListQueue TreeQueue

variable {D K : Type _} [Field K] [LinearOrder K] [IsStrictOrderedRing K]

/-- Assign `ps` at the positions `ixs`, in order. -/
def assign (xs : List K) (ixs : List Nat) (ps : List K) : List K :=
  (ixs.zip ps).foldl (fun xs ip => xs.set ip.1 ip.2) xs

omit [Field K] [LinearOrder K] [IsStrictOrderedRing K] in
theorem assign_length (xs : List K) (ixs : List Nat) (ps : List K) :
    (assign xs ixs ps).length = xs.length := by
  unfold assign
  generalize ixs.zip ps = l
  induction l generalizing xs with
  | nil => rfl
  | cons a l ih => simp only [List.foldl_cons]; rw [ih]; simp

omit [Field K] [LinearOrder K] [IsStrictOrderedRing K] in
/-- Assigning at all the positions where two lists may differ makes them equal. -/
theorem assign_agree (ixs : List Nat) (ps : List K) (xs ys : List K) (hl : ixs.length = ps.length)
    (hlen : xs.length = ys.length) (h : ∀ j, j ∉ ixs → xs[j]? = ys[j]?) :
    assign xs ixs ps = assign ys ixs ps := by
  induction ixs generalizing xs ys ps with
  | nil =>
    have : xs = ys := List.ext_getElem? (fun j => h j (by simp))
    rw [this]
  | cons i ixs ih =>
    cases ps with
    | nil => simp at hl
    | cons p ps =>
      simp only [assign, List.zip_cons_cons, List.foldl_cons]
      apply ih ps (xs.set i p) (ys.set i p) (by simpa using hl) (by simpa using hlen)
      intro j hj
      by_cases hij : i = j
      · subst hij
        simp [List.getElem?_set, hlen]
      · rw [List.getElem?_set_ne hij, List.getElem?_set_ne hij]
        exact h j (by simp; exact ⟨fun h => hij h.symm, hj⟩)

omit [Field K] [LinearOrder K] [IsStrictOrderedRing K] in
/-- With distinct positions, every position gets its value and the others keep theirs. -/
theorem assign_nodup (ixs : List Nat) (ps : List K) (xs : List K) (hl : ixs.length = ps.length)
    (hn : ixs.Nodup) (hi : ∀ i ∈ ixs, i < xs.length) :
    (∀ k (h : k < ixs.length), (assign xs ixs ps)[ixs[k]]? = ps[k]?) ∧
    ∀ j, j ∉ ixs → (assign xs ixs ps)[j]? = xs[j]? := by
  induction ixs generalizing xs ps with
  | nil => exact ⟨by intro k h; simp at h, by intro j _; simp [assign]⟩
  | cons i ixs ih =>
    cases ps with
    | nil => simp at hl
    | cons p ps =>
      rw [List.nodup_cons] at hn
      have hi' := hi i (by simp)
      obtain ⟨h1, h2⟩ := ih ps (xs.set i p) (by simpa using hl) hn.2
        (fun j hj => by simpa using hi j (by simp [hj]))
      have hunf : assign xs (i :: ixs) (p :: ps) = assign (xs.set i p) ixs ps := rfl
      rw [hunf]
      constructor
      · intro k hk
        cases k with
        | zero =>
          simp only [List.getElem_cons_zero, List.getElem?_cons_zero]
          rw [h2 i hn.1, List.getElem?_set_self hi']
        | succ k => simpa using h1 k (by simpa using hk)
      · intro j hj
        simp only [List.mem_cons, not_or] at hj
        rw [h2 j hj.2, List.getElem?_set_ne (fun h => hj.1 h.symm)]

theorem numPos_zeroAt (ixs : List Nat) (xs : List K) (hn : ixs.Nodup)
    (hp : ∀ i ∈ ixs, ∃ h : i < xs.length, 0 < xs[i]) :
    numPos (zeroAt xs ixs) + ixs.length = numPos xs := by
  induction ixs generalizing xs with
  | nil => rfl
  | cons i ixs ih =>
    rw [List.nodup_cons] at hn
    obtain ⟨h1, h2⟩ := hp i (by simp)
    have := numPos_set xs i h1 h2
    have h3 := ih (xs.set i 0) hn.2 (by
      intro j hj
      obtain ⟨a, b⟩ := hp j (by simp [hj])
      refine ⟨by simpa using a, ?_⟩
      rw [List.getElem_set_ne (by rintro rfl; exact hn.1 hj)]
      exact b)
    have hz : zeroAt xs (i :: ixs) = zeroAt (xs.set i 0) ixs := rfl
    rw [hz, List.length_cons]
    omega

omit [IsStrictOrderedRing K] in
theorem numPos_all (xs : List K) (h : ∀ x ∈ xs, 0 < x) : numPos xs = xs.length := by
  unfold numPos
  rw [List.countP_eq_length]
  intro x hx; simpa using h x hx

theorem zeroAt_nonneg (xs : List K) (hx : ∀ x ∈ xs, 0 ≤ x) (ixs : List Nat) :
    ∀ x ∈ zeroAt xs ixs, 0 ≤ x := by
  unfold zeroAt
  induction ixs generalizing xs with
  | nil => exact hx
  | cons i ixs ih => exact ih (xs.set i 0) (set_zero_nonneg xs hx i)

omit [Field K] [LinearOrder K] [IsStrictOrderedRing K] in
theorem mapM_some (ixs : List Nat) (xs : List K) (hi : ∀ i ∈ ixs, i < xs.length) :
    ∃ ps : List K, (ixs.map (fun i => xs[i]?)).mapM id = some ps ∧
      ps.map some = ixs.map (fun i => xs[i]?) := by
  induction ixs with
  | nil => exact ⟨[], rfl, rfl⟩
  | cons i ixs ih =>
    obtain ⟨ps, h1, h2⟩ := ih (fun j hj => hi j (by simp [hj]))
    refine ⟨xs[i]'(hi i (by simp)) :: ps, ?_, ?_⟩
    · rw [List.map_cons, List.mapM_cons, h1, List.getElem?_eq_getElem (hi i (by simp))]; rfl
    · rw [List.map_cons, List.map_cons, h2, List.getElem?_eq_getElem (hi i (by simp))]

omit [Field K] [LinearOrder K] [IsStrictOrderedRing K] in
theorem mapM_pyGet (ixs : List Nat) (xs : List D) (hi : ∀ i ∈ ixs, i < xs.length) :
    ∃ l : List D, (ixs.map Int.ofNat).mapM (fun i => pyGet xs i) = .ok l ∧
      l.map some = ixs.map (fun i => xs[i]?) := by
  induction ixs with
  | nil => exact ⟨[], rfl, rfl⟩
  | cons i ixs ih =>
    obtain ⟨ps, h1, h2⟩ := ih (fun j hj => hi j (by simp [hj]))
    have hil := hi i (by simp)
    have hg : pyGet xs (i : Int) = .ok xs[i] := by
      unfold pyGet pyIndex
      rw [if_pos (by omega), if_pos (by omega)]
      simp [hil]
    refine ⟨xs[i] :: ps, ?_, ?_⟩
    · rw [List.map_cons, List.mapM_cons, h1]
      simp only [Int.ofNat_eq_natCast]
      rw [hg]; rfl
    · rw [List.map_cons, List.map_cons, h2, List.getElem?_eq_getElem hil]

namespace PBuf

/-- Data and priorities are aligned: the three structures hold the columns of
one list of (item, priority) pairs. -/
structure Inv (b : PBuf D K) (items : List (D × K)) : Prop where
  data : b.data = items.map Prod.fst
  sums : Holds List.sum b.sums (items.map Prod.snd)
  mins : Holds listMin b.mins (items.map Prod.snd)

omit [IsStrictOrderedRing K] in
theorem inv_init (cap : Option Nat) (wait : Bool) (m : K) : Inv (init cap wait m : PBuf D K) [] :=
  ⟨rfl, holds_init _, holds_init _⟩

omit [IsStrictOrderedRing K] in
theorem popleft_inv (b : PBuf D K) (items : List (D × K)) (h : Inv b items) :
    match items with
    | [] => b.popleft = .error .assertionError
    | x :: t => ∃ b', b.popleft = .ok (x.1, b') ∧ Inv b' t ∧ b'.capacity = b.capacity ∧
        b'.maxPriority = b.maxPriority ∧ b'.wait = b.wait ∧ b'.flag = b.flag ∧
        b'.sampled = b.sampled := by
  cases items with
  | nil => simp [popleft, h.data]
  | cons x t =>
    have hd := h.data
    obtain ⟨s, s1, s2⟩ := popleft_holds _ _ _ h.sums
    obtain ⟨m, m1, m2⟩ := popleft_holds _ _ _ h.mins
    simp only [List.map_cons] at hd s1 m1
    simp only [popleft, hd, s1, m1]
    exact ⟨_, rfl, ⟨rfl, s2, m2⟩, rfl, rfl, rfl, rfl, rfl⟩

omit [IsStrictOrderedRing K] in
theorem append_inv (b : PBuf D K) (items : List (D × K)) (v : D) (p : Option K) (h : Inv b items)
    (hc : b.capacity ≠ some 0) :
    ∃ b', b.append v p = .ok b' ∧
      Inv b' ((if b.capacity = some items.length then items.tail else items)
        ++ [(v, p.getD b.maxPriority)]) ∧
      b'.capacity = b.capacity ∧ b'.maxPriority = b.maxPriority ∧ b'.wait = b.wait ∧
      b'.flag = b.flag ∧ b'.sampled = b.sampled := by
  have hlen : b.data.length = items.length := by rw [h.data]; simp
  obtain ⟨b1, r1, r2, r3, r4, r5, r6, r7⟩ : ∃ b1, b.makeRoom = .ok b1 ∧
      Inv b1 (if b.capacity = some items.length then items.tail else items) ∧
      b1.capacity = b.capacity ∧ b1.maxPriority = b.maxPriority ∧ b1.wait = b.wait ∧
      b1.flag = b.flag ∧ b1.sampled = b.sampled := by
    unfold makeRoom
    rw [hlen]
    by_cases hf : b.capacity = some items.length
    · rw [if_pos hf, if_pos hf]
      have hp := popleft_inv b items h
      cases items with
      | nil => simp at hf; exact absurd hf hc
      | cons x t =>
        obtain ⟨b', e1, e2, e3, e4, e5, e6, e7⟩ := hp
        exact ⟨b', by rw [e1], e2, e3, e4, e5, e6, e7⟩
    · rw [if_neg hf, if_neg hf]; exact ⟨b, rfl, h, rfl, rfl, rfl, rfl, rfl⟩
  unfold append
  rw [r1]
  simp only
  obtain ⟨s, s1, s2⟩ := append_holds sum_law.single b1.sums _ (p.getD b1.maxPriority) r2.sums
  obtain ⟨m, m1, m2⟩ := append_holds min_law.single b1.mins _ (p.getD b1.maxPriority) r2.mins
  rw [s1, m1]
  refine ⟨_, rfl, ⟨?_, ?_, ?_⟩, r3, r4, r5, r6, r7⟩
  · simp [r2.data]
  · simpa [r4] using s2
  · simpa [r4] using m2

omit [LinearOrder K] [IsStrictOrderedRing K] in
theorem zeroAt_append (xs : List K) (a b : List Nat) : zeroAt (zeroAt xs a) b = zeroAt xs (a ++ b) := by
  simp [zeroAt]

theorem sample_spec (b : PBuf D K) (items : List (D × K)) (ratio : K) (d : Draws K)
    (h : Inv b items) (hpos : ∀ x ∈ items, 0 < x.2) (hne : items ≠ [])
    (hflag : b.flag = false) (hd : d.Valid ratio items.length)
    (hn : d.uniformIxs.length + d.us.length ≤ items.length) :
    ∃ (pixs : List Nat) (data : List D) (probs : List K) (s : TreeQueue K) (pri : List K),
      let ixs := d.uniformIxs ++ pixs
      let total := (items.map Prod.snd).sum
      let m := listMin (items.map Prod.snd)
      b.sample ratio d = .ok (data, probs,
        (if 0 < ratio then ratio / items.length + (1 - ratio) * (m / total) else m / total),
        { b with sums := s, sampled := some (ixs.map Int.ofNat), flag := true }) ∧
      0 < total ∧ pixs.length = d.us.length ∧
      (∀ i ∈ ixs, i < items.length) ∧ (b.wait = true → ixs.Nodup) ∧ pixs.Nodup ∧
      data.map some = ixs.map (fun i => (items.map Prod.fst)[i]?) ∧
      pri.map some = ixs.map (fun i => (items.map Prod.snd)[i]?) ∧
      probs = pri.map (fun p => ratio / items.length + (1 - ratio) * p / total) ∧
      Holds List.sum s (if b.wait then zeroAt (items.map Prod.snd) ixs else items.map Prod.snd) ∧
      ListQueue.Draws (if b.wait then zeroAt (items.map Prod.snd) d.uniformIxs
        else items.map Prod.snd) d.us pixs := by
  have hxs : ∀ x ∈ items.map Prod.snd, 0 < x := by
    intro x hx
    obtain ⟨y, hy, rfl⟩ := List.mem_map.1 hx
    exact hpos y hy
  have hlen : b.data.length = items.length := by rw [h.data]; simp
  have hsl : (items.map Prod.snd).length = items.length := by simp
  have hxne : items.map Prod.snd ≠ [] := by simpa using hne
  have hnp := numPos_all _ hxs
  have hx0 : ∀ x ∈ items.map Prod.snd, 0 ≤ x := fun x hx => (hxs x hx).le
  have htot : 0 < (items.map Prod.snd).sum := sum_pos_of_numPos _ hx0 (by
    rw [hnp]; exact List.length_pos_iff.mpr hxne)
  -- the uniform part
  obtain ⟨s1, u1, u2⟩ : ∃ s1, b.sampleUniform ratio d
      = .ok (d.uniformIxs.map Int.ofNat, d.uniformIxs.map (fun i => (items.map Prod.snd)[i]?), s1) ∧
      Holds List.sum s1 (if b.wait then zeroAt (items.map Prod.snd) d.uniformIxs
        else items.map Prod.snd) := by
    unfold sampleUniform
    by_cases hr : 0 < ratio
    · rw [if_pos hr]
      exact uniformSample_spec d.uniformIxs b.sums _ b.wait h.sums hd.nodup
        (fun i hi => by rw [hsl]; exact hd.range i hi)
    · rw [if_neg hr, hd.none hr]
      exact ⟨b.sums, rfl, by simpa [zeroAt] using h.sums⟩
  -- the prioritized part
  have hz := zeroAt_spec (items.map Prod.snd) d.uniformIxs
  have hcount : d.us.length ≤ numPos (if b.wait then zeroAt (items.map Prod.snd) d.uniformIxs
        else items.map Prod.snd) := by
    have := numPos_zeroAt d.uniformIxs (items.map Prod.snd) hd.nodup (fun i hi =>
      ⟨by rw [hsl]; exact hd.range i hi, hxs _ (List.getElem_mem _)⟩)
    split <;> omega
  have hnn : ∀ x ∈ (if b.wait then zeroAt (items.map Prod.snd) d.uniformIxs
        else items.map Prod.snd), 0 ≤ x := by
    split
    · exact zeroAt_nonneg _ hx0 _
    · exact hx0
  obtain ⟨pixs, s2, p1, p2, p3, p4, p5, p6⟩ := prioritizedSample_spec d.us s1 _ b.wait u2 hnn
    hd.us hcount
  have hprange : ∀ i ∈ pixs, i < items.length := by
    intro i hi
    obtain ⟨a, _⟩ := p5 i hi
    split at a
    · rw [hz.1, hsl] at a; exact a
    · rw [hsl] at a; exact a
  have hnew : b.wait = true → ∀ i ∈ pixs, i ∉ d.uniformIxs := by
    intro hw i hi hmem
    have := p5 i hi
    simp only [hw, if_true] at this
    obtain ⟨a, b'⟩ := this
    have h0 := hz.2 i
    rw [if_pos ⟨hmem, by rw [hsl]; exact hprange i hi⟩, List.getElem?_eq_getElem a] at h0
    injection h0 with h0
    rw [h0] at b'
    exact lt_irrefl _ b'
  have hvals : pixs.map (fun i => (if b.wait then zeroAt (items.map Prod.snd) d.uniformIxs
        else items.map Prod.snd)[i]?) = pixs.map (fun i => (items.map Prod.snd)[i]?) := by
    apply List.map_congr_left
    intro i hi
    by_cases hw : b.wait = true
    · rw [if_pos hw, hz.2, if_neg (fun hh => hnew hw i hi hh.1)]
    · rw [if_neg hw]
  have hall : ∀ i ∈ d.uniformIxs ++ pixs, i < items.length := by
    intro i hi
    rcases List.mem_append.1 hi with hi | hi
    · exact hd.range i hi
    · exact hprange i hi
  obtain ⟨pri, q1, q2⟩ := mapM_some (d.uniformIxs ++ pixs) (items.map Prod.snd)
    (fun i hi => by rw [hsl]; exact hall i hi)
  obtain ⟨data, d1, d2⟩ := mapM_pyGet (d.uniformIxs ++ pixs) (items.map Prod.fst)
    (fun i hi => by simpa using hall i hi)
  refine ⟨pixs, data, pri.map (fun p => ratio / items.length
    + (1 - ratio) * p / (items.map Prod.snd).sum), s2, pri, ?_, htot, p3, hall, ?_, p4, d2, q2, rfl, ?_, p6⟩
  · unfold sample
    rw [hflag]
    simp only [Bool.and_false, Bool.false_eq_true, if_false]
    unfold sampleIndices
    rw [rootValue_holds min_law _ _ h.mins, if_neg hxne, sum_holds _ _ h.sums]
    simp only [if_neg htot.ne']
    rw [u1]
    simp only
    rw [p1]
    simp only
    rw [hvals, ← List.map_append, q1]
    simp only [hlen]
    rw [← List.map_append, h.data, d1]
  · intro hw
    rw [List.nodup_append]
    refine ⟨hd.nodup, p4, ?_⟩
    intro a ha c hc hac
    exact hnew hw c hc (hac ▸ ha)
  · by_cases hw : b.wait = true
    · simp only [hw, if_true] at p2 ⊢
      rw [← zeroAt_append]; exact p2
    · simp only [hw] at p2 ⊢
      exact p2

omit [IsStrictOrderedRing K] in
theorem setLoop_spec (ixs : List Nat) (ps : List K) (b : PBuf D K) (xs ys : List K)
    (hs : Holds List.sum b.sums xs) (hm : Holds listMin b.mins ys)
    (hx : ∀ i ∈ ixs, i < xs.length) (hy : ∀ i ∈ ixs, i < ys.length) (hl : ixs.length = ps.length) :
    ∃ s m, setLoop ((ixs.map Int.ofNat).zip ps) b
      = .ok { b with sums := s, mins := m, maxPriority := ps.foldl max b.maxPriority } ∧
      Holds List.sum s (assign xs ixs ps) ∧ Holds listMin m (assign ys ixs ps) := by
  induction ixs generalizing ps b xs ys with
  | nil =>
    have : ps = [] := List.eq_nil_of_length_eq_zero (by simpa using hl.symm)
    subst this
    exact ⟨b.sums, b.mins, rfl, hs, hm⟩
  | cons i ixs ih =>
    cases ps with
    | nil => simp at hl
    | cons p ps =>
      have h1 := setitem_holds List.sum b.sums xs (Int.ofNat i) p hs
      have hix := hx i (by simp)
      have hiy := hy i (by simp)
      rw [if_pos ⟨by simp, by simpa using hix⟩] at h1
      obtain ⟨s, s1, s2⟩ := h1
      have h2 := setitem_holds listMin b.mins ys (Int.ofNat i) p hm
      rw [if_pos ⟨by simp, by simpa using hiy⟩] at h2
      obtain ⟨m, m1, m2⟩ := h2
      obtain ⟨s', m', e1, e2, e3⟩ := ih ps
        ({ b with sums := s, mins := m, maxPriority := max b.maxPriority p } : PBuf D K)
        (xs.set i p) (ys.set i p) s2 m2 (fun j hj => by simpa using hx j (by simp [hj]))
        (fun j hj => by simpa using hy j (by simp [hj])) (by simpa using hl)
      refine ⟨s', m', ?_, e2, e3⟩
      simp only [List.map_cons, List.zip_cons_cons, setLoop, s1, m1]
      exact e1

omit [Field K] [LinearOrder K] [IsStrictOrderedRing K] in
theorem reprioritize_cols (items : List (D × K)) (ixs : List Nat) (ps : List K) :
    (reprioritize items ixs ps).map Prod.fst = items.map Prod.fst ∧
    (reprioritize items ixs ps).map Prod.snd = assign (items.map Prod.snd) ixs ps := by
  unfold reprioritize assign
  generalize ixs.zip ps = l
  induction l generalizing items with
  | nil => exact ⟨rfl, rfl⟩
  | cons a l ih =>
    simp only [List.foldl_cons]
    obtain ⟨h1, h2⟩ := ih (items.modify a.1 (fun x => (x.1, a.2)))
    rw [h1, h2]
    constructor
    · apply List.ext_getElem?
      intro j
      simp only [List.getElem?_map, List.getElem?_modify]
      split <;> simp [Function.comp_def]
    · congr 1
      apply List.ext_getElem?
      intro j
      simp only [List.getElem?_map, List.getElem?_modify, List.getElem?_set]
      by_cases h : a.1 = j
      · subst h
        by_cases hl : a.1 < items.length
        · simp [hl]
        · simp [hl]
      · simp [h]

/-- The invariant of all histories. -/
structure HInv (cap : Option Nat) (wait : Bool) (b : PBuf D K) (items : List (D × K)) (mx : K) : Prop where
  inv : Inv b items
  pos : ∀ x ∈ items, 0 < x.2
  mpos : 0 < mx
  mx : b.maxPriority = mx
  flag : b.flag = false
  len : ∀ c, cap = some c → items.length ≤ c
  wait : b.wait = wait
  cap : b.capacity = cap

omit [IsStrictOrderedRing K] in
theorem HInv.append {cap : Option Nat} {wait : Bool} {b : PBuf D K} {items : List (D × K)} {mx : K}
    (h : HInv cap wait b items mx) (hc : cap ≠ some 0) (v : D) (p : Option K)
    (hp : ∀ x, p = some x → 0 < x) :
    ∃ b', b.append v p = .ok b' ∧
      HInv cap wait b' (BoundedList.newest cap (items ++ [(v, p.getD mx)])) mx := by
  obtain ⟨b', e1, e2, e3, e4, e5, e6, e7⟩ := append_inv b items v p h.inv (by rw [h.cap]; exact hc)
  rw [h.cap, h.mx] at e2
  have hl : BoundedList.newest cap (items ++ [(v, p.getD mx)])
      = (if cap = some items.length then items.tail else items) ++ [(v, p.getD mx)] := by
    cases cap with
    | none => simp [BoundedList.newest]
    | some c =>
      have hlen := h.len c rfl
      simp only [BoundedList.newest, List.length_append, List.length_singleton]
      by_cases hf : c = items.length
      · subst hf
        have : items ≠ [] := by rintro rfl; exact hc rfl
        rw [if_pos rfl, show items.length + 1 - items.length = 1 by omega]
        cases items with
        | nil => exact absurd rfl this
        | cons x t => rfl
      · rw [if_neg (by simpa using hf), show items.length + 1 - c = 0 by omega]; rfl
  refine ⟨b', e1, by rw [hl]; exact e2, ?_, h.mpos, by rw [e4, h.mx], by rw [e6, h.flag],
    ?_, by rw [e5, h.wait], by rw [e3, h.cap]⟩
  · intro x hx
    have hx' : x ∈ items ++ [(v, p.getD mx)] := by
      cases cap with
      | none => exact hx
      | some c => exact List.mem_of_mem_drop hx
    rcases List.mem_append.1 hx' with hx' | hx'
    · exact h.pos x hx'
    · simp only [List.mem_singleton] at hx'
      rw [hx']
      cases p with
      | none => exact h.mpos
      | some y => exact hp y rfl
  · intro c hc'
    rw [hc']
    simp [BoundedList.newest]; omega

omit [LinearOrder K] [IsStrictOrderedRing K] in
theorem mem_assign {xs : List K} {ixs : List Nat} {ps : List K} {x : K}
    (h : x ∈ assign xs ixs ps) : x ∈ xs ∨ x ∈ ps := by
  unfold assign at h
  have hz : ∀ ip ∈ ixs.zip ps, ip.2 ∈ ps := fun ip hip => (List.of_mem_zip hip).2
  generalize ixs.zip ps = l at h hz
  induction l generalizing xs with
  | nil => exact Or.inl h
  | cons a l ih =>
    rcases ih (xs := xs.set a.1 a.2) h (fun ip hip => hz ip (by simp [hip])) with h | h
    · rcases List.mem_or_eq_of_mem_set h with h | h
      · exact Or.inl h
      · exact Or.inr (h ▸ hz a (by simp))
    · exact Or.inr h

omit [IsStrictOrderedRing K] in
theorem le_foldl_max (ps : List K) (m : K) : m ≤ ps.foldl max m := by
  induction ps generalizing m with
  | nil => exact le_rfl
  | cons p ps ih => exact (le_max_left m p).trans (ih (max m p))

theorem HInv.round {cap : Option Nat} {wait : Bool} {b : PBuf D K} {items : List (D × K)} {mx : K}
    (h : HInv cap wait b items mx) (hne : items ≠ []) (ratio : K) (d : Draws K)
    (hd : d.Valid ratio items.length)
    (hn : d.uniformIxs.length + d.us.length ≤ items.length) (ps : List K)
    (hps : ∀ p ∈ ps, 0 < p) (hl : ps.length = d.uniformIxs.length + d.us.length) :
    ∃ (pixs : List Nat) (data : List D) (probs pri : List K) (b1 b2 : PBuf D K),
      let ixs := d.uniformIxs ++ pixs
      let total := (items.map Prod.snd).sum
      let m := listMin (items.map Prod.snd)
      b.sample ratio d = .ok (data, probs,
        (if 0 < ratio then ratio / items.length + (1 - ratio) * (m / total) else m / total), b1) ∧
      b1.sampled = some (ixs.map Int.ofNat) ∧
      b1.setLast ps = .ok b2 ∧ 0 < total ∧ ixs.length = ps.length ∧
      (∀ i ∈ ixs, i < items.length) ∧ (wait = true → ixs.Nodup) ∧
      data.map some = ixs.map (fun i => (items.map Prod.fst)[i]?) ∧
      pri.map some = ixs.map (fun i => (items.map Prod.snd)[i]?) ∧
      probs = pri.map (fun p => ratio / items.length + (1 - ratio) * p / total) ∧
      HInv cap wait b2 (reprioritize items ixs ps) (ps.foldl max mx) := by
  obtain ⟨pixs, data, probs, s, pri, e1, e2, e3, e4, e5, e6, e7, e8, e9, e10, e11⟩ :=
    sample_spec b items ratio d h.inv h.pos hne h.flag hd hn
  have hixl : (d.uniformIxs ++ pixs).length = ps.length := by
    rw [List.length_append, e3, hl]
  have hsl : (items.map Prod.snd).length = items.length := by simp
  have hz := zeroAt_spec (items.map Prod.snd) (d.uniformIxs ++ pixs)
  obtain ⟨s', m', f1, f2, f3⟩ := setLoop_spec (d.uniformIxs ++ pixs) ps
    ({ b with sums := s, sampled := some ((d.uniformIxs ++ pixs).map Int.ofNat), flag := true } : PBuf D K)
    _ (items.map Prod.snd) e10 h.inv.mins
    (by intro i hi; split <;> [rw [hz.1, hsl]; rw [hsl]] <;> exact e4 i hi)
    (by intro i hi; rw [hsl]; exact e4 i hi) hixl
  have hassign : assign (if b.wait = true then zeroAt (items.map Prod.snd) (d.uniformIxs ++ pixs)
      else items.map Prod.snd) (d.uniformIxs ++ pixs) ps
      = assign (items.map Prod.snd) (d.uniformIxs ++ pixs) ps := by
    apply assign_agree _ _ _ _ hixl
    · split
      · exact hz.1
      · rfl
    · intro j hj
      split
      · rw [hz.2, if_neg (fun hh => hj hh.1)]
      · rfl
  rw [hassign] at f2
  obtain ⟨c1, c2⟩ := reprioritize_cols items (d.uniformIxs ++ pixs) ps
  refine ⟨pixs, data, probs, pri, _, { b with sums := s', mins := m', maxPriority := ps.foldl max b.maxPriority, flag := false, sampled := some [] }, e1, rfl, ?_, e2, hixl, e4, by rw [← h.wait]; exact e5, e7, e8, e9, ?_⟩
  · unfold setLast
    simp only [Bool.not_true, Bool.and_false, Bool.false_eq_true, if_false]
    rw [if_neg (not_not.2 hps)]
    simp only [List.length_map]
    rw [if_neg (not_not.2 hixl), f1]
  · refine ⟨⟨by rw [c1]; exact h.inv.data, by rw [c2]; exact f2, by rw [c2]; exact f3⟩, ?_,
      h.mpos.trans_le (le_foldl_max ps mx), by simp [h.mx], rfl, ?_, h.wait, h.cap⟩
    · intro x hx
      have hx2 : x.2 ∈ assign (items.map Prod.snd) (d.uniformIxs ++ pixs) ps := by
        rw [← c2]; exact List.mem_map_of_mem hx
      rcases mem_assign hx2 with h' | h'
      · obtain ⟨y, hy, hyx⟩ := List.mem_map.1 h'
        rw [← hyx]; exact h.pos y hy
      · exact hps _ h'
    · intro c hc
      have : (reprioritize items (d.uniformIxs ++ pixs) ps).length = items.length := by
        have := congrArg List.length c1
        simpa using this
      rw [this]; exact h.len c hc

theorem hist_inv {cap : Option Nat} {wait : Bool} {m0 : K} (hc : cap ≠ some 0) (hm : 0 < m0)
    {b : PBuf D K} {items : List (D × K)} {mx : K} (h : Hist cap wait m0 b items mx) :
    HInv cap wait b items mx := by
  induction h with
  | init =>
    exact ⟨inv_init _ _ _, by simp, hm, rfl, rfl, by simp, rfl, rfl⟩
  | append v p _ hp happ ih =>
    obtain ⟨b', e1, e2⟩ := ih.append hc v p hp
    rw [e1] at happ; cases happ; exact e2
  | popleft _ hpop ih =>
    obtain ⟨b', e1, e2, e3, e4, e5, e6, e7⟩ := popleft_inv _ _ ih.inv
    rw [e1] at hpop; cases hpop
    exact ⟨e2, fun x hx => ih.pos x (by simp [hx]), ih.mpos, by rw [e4, ih.mx], by rw [e6, ih.flag],
      fun c hc' => by have := ih.len c hc'; simp at this; omega, by rw [e5, ih.wait], by rw [e3, ih.cap]⟩
  | @round b b1 b2 items mx ratio d data probs mp ixs ps _ hne hd hn hsamp hsi hset ih =>
    -- the priorities passed the assertions of `set_last_priority`
    obtain ⟨hps, hlen⟩ : (∀ p ∈ ps, 0 < p) ∧ ixs.length = ps.length := by
      unfold setLast at hset
      split at hset
      · cases hset
      · split at hset
        · cases hset
        · rename_i h2
          rw [hsi] at hset
          simp only [List.length_map] at hset
          split at hset
          · cases hset
          · rename_i h3; exact ⟨not_not.1 h2, not_not.1 h3⟩
    obtain ⟨pixs, data', probs', s, pri, e1, e2, e3, e4, e5, e6, e7, e8, e9, e10, e11⟩ :=
      sample_spec b items ratio d ih.inv ih.pos hne ih.flag hd hn
    have hixs : ixs = d.uniformIxs ++ pixs := by
      rw [e1] at hsamp
      injection hsamp with hsamp
      injection hsamp with _ hsamp
      injection hsamp with _ hsamp
      injection hsamp with _ hb1
      rw [← hb1] at hsi
      injection hsi with hsi
      exact (List.map_injective_iff.2 (fun a b hab => by simpa using hab) hsi).symm
    obtain ⟨pixs2, data2, probs2, pri2, b1', b2', g1, g2, g3, g4, g5, g6, g7, g8, g9, g10, g11⟩ :=
      ih.round hne ratio d hd hn ps hps (by rw [← hlen, hixs, List.length_append, e3])
    rw [g1] at hsamp
    injection hsamp with hsamp
    injection hsamp with _ hsamp
    injection hsamp with _ hsamp
    injection hsamp with _ hb1
    subst hb1
    rw [g3] at hset
    cases hset
    rw [g2] at hsi
    injection hsi with hsi
    have : d.uniformIxs ++ pixs2 = ixs :=
      List.map_injective_iff.2 (fun a b hab => by simpa using hab) hsi
    rw [← this]; exact g11

end PBuf
end Verif
