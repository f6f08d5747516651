import Mathlib.Algebra.Field.Rat
import Verif.Spec.StatelessRecurrent
set_option autoImplicit false
set_option linter.unusedSectionVars false

/-! # C60: recurrent state surgery -/

namespace Verif.Stateless
variable {K : Type} [MulZeroOneClass K]

theorem mapM_of {α β : Type} (f : α → Py β) (g : α → β) : ∀ l : List α, (∀ a ∈ l, f a = .ok (g a)) →
    l.mapM f = .ok (l.map g)
  | [], _ => rfl
  | a :: l, h => by
    rw [List.mapM_cons, h a (List.mem_cons_self ..), mapM_of f g l fun b hb => h b (List.mem_cons_of_mem _ hb)]
    rfl

theorem pyGet_at {α : Type} {l : List α} {i : Nat} {x : α} (h : l[i]? = some x) : pyGet l (i : Int) = .ok x := by
  have hi : i < l.length := (List.getElem?_eq_some_iff.1 h).1
  have : pyIndex l.length (i : Int) = some i := by simp [pyIndex, hi]
  simp only [pyGet, this, h]

/-! ### Concatenating and getting back -/

/-- The rows a single state contributes. -/
def hOf (n : Nat) : RS K → List K
  | .lstm (.single h) _ => h
  | .gru (.single h) => h
  | _ => List.replicate n 0
def cOf (n : Nat) : RS K → List K
  | .lstm _ (.single c) => c
  | _ => List.replicate n 0

theorem lstm_single {n : Nat} {s : RS K} (h : IsSingle (.lstm n) s) :
    lstmPart n s = .ok ([hOf n s], [cOf n s]) ∧ fill (.lstm n) s = .lstm (.single (hOf n s)) (.single (cOf n s)) ∧
    (hOf n s).length = n ∧ (cOf n s).length = n := by
  cases h with
  | none _ _ => exact ⟨rfl, rfl, by simp [hOf], by simp [cOf]⟩
  | lstm h1 h2 =>
    refine ⟨?_, rfl, h1, h2⟩
    simp only [lstmPart, asRows, pyAssert, h1, h2, beq_self_eq_true, if_true, bind, Except.bind, pure, Except.pure,
      hOf, cOf]

theorem gru_single {n : Nat} {s : RS K} (h : IsSingle (.gru n) s) :
    gruPart n s = .ok [hOf n s] ∧ fill (.gru n) s = .gru (.single (hOf n s)) ∧ (hOf n s).length = n := by
  cases h with
  | none _ _ => exact ⟨rfl, rfl, by simp [hOf]⟩
  | gru h1 =>
    refine ⟨?_, rfl, h1⟩
    simp only [gruPart, asRows, pyAssert, h1, beq_self_eq_true, if_true, hOf]

theorem flatten_singletons {α β : Type} (f : α → β) (l : List α) : (l.map fun a => [f a]).flatten = l.map f := by
  induction l with
  | nil => rfl
  | cons a l ih => simp [ih]

theorem initials_cons {l : Link} (ls : List Link) (h : l.Rec) :
    (initials (l :: ls) : List (RS K)) = initial l :: initials ls := by
  cases l with
  | lstm n => rw [initials]; rfl
  | gru n => rw [initials]; rfl
  | chain cs => rw [initials, initial, fill]
  | plain => exact h.elim

theorem fills_cons {l : Link} (ls : List Link) (s : RS K) (ss : List (RS K)) (h : l.Rec) :
    fills (l :: ls) (s :: ss) = fill l s :: fills ls ss := by
  cases l with
  | plain => exact h.elim
  | _ => rw [fills]; intro h; cases h

theorem nRecurrent_cons {l : Link} (ls : List Link) (h : l.Rec) : nRecurrent (l :: ls) = nRecurrent ls + 1 := by
  cases l with
  | plain => exact h.elim
  | _ => rfl

theorem concatList_cons {l : Link} (ls : List Link) (rows : List (List (RS K))) (h : l.Rec) :
    concatList (l :: ls) rows = (do
      let s ← concatS l (heads rows)
      let ss ← concatList ls (tails rows)
      pure (s :: ss)) := by
  cases l with
  | plain => exact h.elim
  | _ => rw [concatList]; intro h; cases h

theorem getList_cons {l : Link} (ls : List Link) (s : RS K) (ss : List (RS K)) (ix : Idx) (h : l.Rec) :
    getList (l :: ls) (s :: ss) ix = (do
      let s ← getS l s ix
      let ss ← getList ls ss ix
      pure (s :: ss)) := by
  cases l with
  | plain => exact h.elim
  | _ => rw [getList]; intro h; cases h

theorem maskList_cons {l : Link} (ls : List Link) (s : RS K) (ss : List (RS K)) (ix : Idx) (h : l.Rec) :
    maskList (l :: ls) (s :: ss) ix = (do
      let s ← maskS l s ix
      let ss ← maskList ls ss ix
      pure (s :: ss)) := by
  cases l with
  | plain => exact h.elim
  | _ => rw [maskList]; intro h; cases h

theorem getS_none (l : Link) (ix : Idx) : getS l (.none : RS K) ix = .ok .none := by
  cases l <;> rw [getS]

theorem maskS_none (l : Link) (ix : Idx) : maskS l (.none : RS K) ix = .ok .none := by
  cases l <;> rw [maskS]

theorem singles_length : ∀ {ls : List Link} {ss : List (RS K)}, IsSingles ls ss → ss.length = nRecurrent ls
  | _, _, .nil => rfl
  | _, _, .skip h => by rw [nRecurrent]; exact singles_length h
  | _, _, .cons hr _ h => by rw [nRecurrent_cons _ hr, List.length_cons, singles_length h]

theorem batches_length {B : Nat} : ∀ {ls : List Link} {ss : List (RS K)}, IsBatches B ls ss →
    ss.length = nRecurrent ls
  | _, _, .nil => rfl
  | _, _, .skip h => by rw [nRecurrent]; exact batches_length h
  | _, _, .cons hr _ h => by rw [nRecurrent_cons _ hr, List.length_cons, batches_length h]

/-- `None` for a chain means `None` for each recurrent child. -/
theorem nones : ∀ ls : List Link, IsSingles ls (List.replicate (nRecurrent ls) (.none : RS K)) ∧
    fills ls (List.replicate (nRecurrent ls) (.none : RS K)) = initials ls
  | [] => ⟨.nil, by rw [initials]; rfl⟩
  | .plain :: ls => by
    obtain ⟨h1, h2⟩ := nones ls
    refine ⟨.skip h1, ?_⟩
    rw [initials, nRecurrent, fills]
    exact h2
  | .lstm n :: ls => by
    have hr : (Link.lstm n).Rec := trivial
    obtain ⟨h1, h2⟩ := nones ls
    refine ⟨.cons trivial (.none _ trivial) h1, ?_⟩
    rw [initials_cons ls hr, nRecurrent_cons ls hr, List.replicate_succ, fills_cons _ _ _ hr, h2]
    rfl
  | .gru n :: ls => by
    have hr : (Link.gru n).Rec := trivial
    obtain ⟨h1, h2⟩ := nones ls
    refine ⟨.cons trivial (.none _ trivial) h1, ?_⟩
    rw [initials_cons ls hr, nRecurrent_cons ls hr, List.replicate_succ, fills_cons _ _ _ hr, h2]
    rfl
  | .chain cs :: ls => by
    have hr : (Link.chain cs).Rec := trivial
    obtain ⟨h1, h2⟩ := nones ls
    refine ⟨.cons trivial (.none _ trivial) h1, ?_⟩
    rw [initials_cons ls hr, nRecurrent_cons ls hr, List.replicate_succ, fills_cons _ _ _ hr, h2]
    rfl

/-- The states of the children contained in a state of a chain. -/
def kids (ls : List Link) : RS K → List (RS K)
  | .list ss => ss
  | _ => List.replicate (nRecurrent ls) .none

theorem chain_single {ls : List Link} {s : RS K} (h : IsSingle (.chain ls) s) :
    rowOf (nRecurrent ls) s = .ok (kids ls s) ∧ IsSingles ls (kids ls s) ∧
    fill (.chain ls) s = .list (fills ls (kids ls s)) := by
  cases h with
  | none _ _ => exact ⟨rfl, (nones ls).1, by rw [fill, kids, (nones ls).2]; intro ss h; cases h⟩
  | chain h1 =>
    refine ⟨?_, h1, by rw [fill, kids]⟩
    simp only [rowOf, pyAssert, singles_length h1, beq_self_eq_true, if_true, kids]

theorem heads_cons {l : Link} {ls : List Link} (hr : l.Rec) : ∀ rows : List (List (RS K)),
    (∀ row ∈ rows, IsSingles (l :: ls) row) →
    (heads rows).length = rows.length ∧ (tails rows).length = rows.length ∧
    (∀ s ∈ heads rows, IsSingle l s) ∧ (∀ row ∈ tails rows, IsSingles ls row) ∧
    ∀ (i : Nat) (row : List (RS K)), rows[i]? = some row →
      ∃ s ss, row = s :: ss ∧ (heads rows)[i]? = some s ∧ (tails rows)[i]? = some ss
  | [], _ => by simp [heads, tails]
  | row :: rows, h => by
    obtain ⟨h1, h2, h3, h4, h5⟩ := heads_cons hr rows fun r hr => h r (List.mem_cons_of_mem _ hr)
    have hrow := h row (List.mem_cons_self ..)
    cases hrow with
    | skip _ => exact hr.elim
    | @cons _ _ s ss _ hs hss =>
      have e1 : heads ((s :: ss) :: rows) = s :: heads rows := rfl
      have e2 : tails ((s :: ss) :: rows) = ss :: tails rows := rfl
      rw [e1, e2]
      refine ⟨by simp [h1], by simp [h2], ?_, ?_, ?_⟩
      · intro t ht
        rcases List.mem_cons.1 ht with rfl | ht
        · exact hs
        · exact h3 t ht
      · intro t ht
        rcases List.mem_cons.1 ht with rfl | ht
        · exact hss
        · exact h4 t ht
      · intro i row' hi
        cases i with
        | zero =>
          simp only [List.getElem?_cons_zero, Option.some.injEq] at hi
          exact ⟨s, ss, hi.symm, rfl, rfl⟩
        | succ i =>
          simp only [List.getElem?_cons_succ] at hi ⊢
          exact h5 i row' hi

mutual
theorem concat_get : ∀ (l : Link) (ss : List (RS K)), ss ≠ [] → l.Rec → (∀ s ∈ ss, IsSingle l s) →
    ∃ b, concatS l ss = .ok b ∧ IsBatch ss.length l b ∧
      ∀ (i : Nat) (s : RS K), ss[i]? = some s → getS l b (.one i) = .ok (fill l s)
  | .lstm n, ss, hne, _, h => by
    have hm := mapM_of (lstmPart n) (fun s => ([hOf n s], [cOf n s])) ss (fun s hs => (lstm_single (h s hs)).1)
    refine ⟨.lstm (.batch (ss.map (hOf n))) (.batch (ss.map (cOf n))), ?_, ?_, ?_⟩
    · have : nonEmpty (ss.map fun s => ([hOf n s], [cOf n s])) = .ok () := by
        cases ss with
        | nil => exact absurd rfl hne
        | cons _ _ => rfl
      rw [concatS, hm]
      simp only [bind, Except.bind, this, pure, Except.pure, List.map_map, Function.comp_def, flatten_singletons]
    · refine .lstm (by simp) (by simp) ?_ ?_
      · intro r hr
        obtain ⟨s, hs, rfl⟩ := List.mem_map.1 hr
        exact (lstm_single (h s hs)).2.2.1
      · intro r hr
        obtain ⟨s, hs, rfl⟩ := List.mem_map.1 hr
        exact (lstm_single (h s hs)).2.2.2
    · intro i s hi
      have hs : s ∈ ss := List.mem_of_getElem? hi
      have e1 : (ss.map (hOf n))[i]? = some (hOf n s) := by rw [List.getElem?_map, hi]; rfl
      have e2 : (ss.map (cOf n))[i]? = some (cOf n s) := by rw [List.getElem?_map, hi]; rfl
      rw [getS, (lstm_single (h s hs)).2.1]
      simp only [selArr, pyGet_at e1, pyGet_at e2, bind, Except.bind, pure, Except.pure]
  | .gru n, ss, hne, _, h => by
    have hm := mapM_of (gruPart n) (fun s => [hOf n s]) ss (fun s hs => (gru_single (h s hs)).1)
    refine ⟨.gru (.batch (ss.map (hOf n))), ?_, ?_, ?_⟩
    · have : nonEmpty (ss.map fun s => [hOf n s]) = .ok () := by
        cases ss with
        | nil => exact absurd rfl hne
        | cons _ _ => rfl
      rw [concatS, hm]
      simp only [bind, Except.bind, this, pure, Except.pure, flatten_singletons]
    · refine .gru (by simp) ?_
      intro r hr
      obtain ⟨s, hs, rfl⟩ := List.mem_map.1 hr
      exact (gru_single (h s hs)).2.2
    · intro i s hi
      have hs : s ∈ ss := List.mem_of_getElem? hi
      have e1 : (ss.map (hOf n))[i]? = some (hOf n s) := by rw [List.getElem?_map, hi]; rfl
      rw [getS, (gru_single (h s hs)).2.1]
      simp only [selArr, pyGet_at e1, bind, Except.bind, pure, Except.pure]
  | .chain ls, ss, hne, _, h => by
    have hm := mapM_of (rowOf (nRecurrent ls)) (kids ls) ss (fun s hs => (chain_single (h s hs)).1)
    obtain ⟨out, o1, o2, o3⟩ := concatList_get ls (ss.map (kids ls)) (by simpa using hne) (by
      intro row hrow
      obtain ⟨s, hs, rfl⟩ := List.mem_map.1 hrow
      exact (chain_single (h s hs)).2.1)
    rw [List.length_map] at o2
    refine ⟨.list out, ?_, .chain o2, ?_⟩
    · have he : (ss.map (kids ls)).isEmpty = false := by
        cases ss with
        | nil => exact absurd rfl hne
        | cons _ _ => rfl
      rw [concatS, hm]
      simp only [bind, Except.bind, he, Bool.false_and, Bool.not_false, pyAssert, if_true, o1, pure, Except.pure]
    · intro i s hi
      have hs : s ∈ ss := List.mem_of_getElem? hi
      have hg := o3 i (kids ls s) (by rw [List.getElem?_map, hi]; rfl)
      rw [getS, (chain_single (h s hs)).2.2]
      simp only [pyAssert, batches_length o2, beq_self_eq_true, if_true, hg, bind, Except.bind, pure, Except.pure]
  | .plain, _, _, hr, _ => hr.elim
theorem concatList_get : ∀ (ls : List Link) (rows : List (List (RS K))), rows ≠ [] →
    (∀ row ∈ rows, IsSingles ls row) →
    ∃ out, concatList ls rows = .ok out ∧ IsBatches rows.length ls out ∧
      ∀ (i : Nat) (row : List (RS K)), rows[i]? = some row → getList ls out (.one i) = .ok (fills ls row)
  | [], rows, _, h => by
    refine ⟨[], by rw [concatList], .nil, ?_⟩
    intro i row hi
    have := h row (List.mem_of_getElem? hi)
    cases this
    rw [getList]
    · rfl
    · intro l h; cases h
    · intro l ls s ss h; cases h
  | .plain :: ls, rows, hne, h => by
    obtain ⟨out, o1, o2, o3⟩ := concatList_get ls rows hne (by
      intro row hrow
      have := h row hrow
      cases this with
      | skip h' => exact h'
      | cons hr _ _ => exact hr.elim)
    refine ⟨out, by rw [concatList, o1], .skip o2, ?_⟩
    intro i row hi
    rw [getList, fills]
    exact o3 i row hi
  | .lstm n :: ls, rows, hne, h => by
    have hr : (Link.lstm n).Rec := trivial
    obtain ⟨h1, h2, h3, h4, h5⟩ := heads_cons hr rows h
    have hh : heads rows ≠ [] := fun e => hne (List.length_eq_zero_iff.1 (by rw [← h1, e]; rfl))
    have ht : tails rows ≠ [] := fun e => hne (List.length_eq_zero_iff.1 (by rw [← h2, e]; rfl))
    obtain ⟨b, b1, b2, b3⟩ := concat_get (.lstm n) (heads rows) hh hr h3
    obtain ⟨out, o1, o2, o3⟩ := concatList_get ls (tails rows) ht h4
    rw [h1] at b2; rw [h2] at o2
    refine ⟨b :: out, ?_, .cons hr b2 o2, ?_⟩
    · rw [concatList_cons ls rows hr, b1, o1]; rfl
    · intro i row hi
      obtain ⟨s, ss, rfl, e1, e2⟩ := h5 i row hi
      rw [getList_cons ls b out _ hr, b3 i s e1, o3 i ss e2, fills_cons ls s ss hr]; rfl
  | .gru n :: ls, rows, hne, h => by
    have hr : (Link.gru n).Rec := trivial
    obtain ⟨h1, h2, h3, h4, h5⟩ := heads_cons hr rows h
    have hh : heads rows ≠ [] := fun e => hne (List.length_eq_zero_iff.1 (by rw [← h1, e]; rfl))
    have ht : tails rows ≠ [] := fun e => hne (List.length_eq_zero_iff.1 (by rw [← h2, e]; rfl))
    obtain ⟨b, b1, b2, b3⟩ := concat_get (.gru n) (heads rows) hh hr h3
    obtain ⟨out, o1, o2, o3⟩ := concatList_get ls (tails rows) ht h4
    rw [h1] at b2; rw [h2] at o2
    refine ⟨b :: out, ?_, .cons hr b2 o2, ?_⟩
    · rw [concatList_cons ls rows hr, b1, o1]; rfl
    · intro i row hi
      obtain ⟨s, ss, rfl, e1, e2⟩ := h5 i row hi
      rw [getList_cons ls b out _ hr, b3 i s e1, o3 i ss e2, fills_cons ls s ss hr]; rfl
  | .chain cs :: ls, rows, hne, h => by
    have hr : (Link.chain cs).Rec := trivial
    obtain ⟨h1, h2, h3, h4, h5⟩ := heads_cons hr rows h
    have hh : heads rows ≠ [] := fun e => hne (List.length_eq_zero_iff.1 (by rw [← h1, e]; rfl))
    have ht : tails rows ≠ [] := fun e => hne (List.length_eq_zero_iff.1 (by rw [← h2, e]; rfl))
    obtain ⟨b, b1, b2, b3⟩ := concat_get (.chain cs) (heads rows) hh hr h3
    obtain ⟨out, o1, o2, o3⟩ := concatList_get ls (tails rows) ht h4
    rw [h1] at b2; rw [h2] at o2
    refine ⟨b :: out, ?_, .cons hr b2 o2, ?_⟩
    · rw [concatList_cons ls rows hr, b1, o1]; rfl
    · intro i row hi
      obtain ⟨s, ss, rfl, e1, e2⟩ := h5 i row hi
      rw [getList_cons ls b out _ hr, b3 i s e1, o3 i ss e2, fills_cons ls s ss hr]; rfl
end

/-- **C60**: for every link and every nonempty list of states of single sequences, any of
which may be or contain `None`, concatenation succeeds with a batched state, and getting
index `i` from it gives the `i`-th state, with `None` written out as zeros. -/
theorem C60_get_of_concat (l : Link) (ss : List (RS K)) (hne : ss ≠ []) (hr : l.Rec)
    (h : ∀ s ∈ ss, IsSingle l s) :
    ∃ b, concatS l ss = .ok b ∧ IsBatch ss.length l b ∧
      ∀ (i : Nat) (s : RS K), ss[i]? = some s → getS l b (.one i) = .ok (fill l s) :=
  concat_get l ss hne hr h

/-! ### Masking -/

theorem position_nat {B i : Nat} (h : i < B) : position B (i : Int) = .ok i := by
  have : pyIndex B (i : Int) = some i := by simp [pyIndex, h]
  simp only [position, this]

/-- `indices` denotes exactly the sequences in `ks`. -/
def Denotes (B : Nat) (ix : Idx) (ks : List Nat) : Prop := positions B ix = .ok ks

theorem denotes_many {B : Nat} {is : List Nat} (h : ∀ i ∈ is, i < B) :
    Denotes B (.many (is.map Int.ofNat)) is := by
  show List.mapM (position B) _ = _
  have := mapM_of (position B) Int.toNat (is.map Int.ofNat) (by
    intro a ha
    obtain ⟨i, hi, rfl⟩ := List.mem_map.1 ha
    exact position_nat (h i hi))
  rw [this, List.map_map]
  congr 1
  conv_rhs => rw [← List.map_id is]
  rfl

theorem denotes_one {B i : Nat} (h : i < B) : Denotes B (.one i) [i] := by
  show (do let k ← position B i; pure [k]) = _
  rw [position_nat h]; rfl

theorem maskArr_spec {B n : Nat} {ix : Idx} {ks : List Nat} (hk : Denotes B ix ks) {rows : List (List K)}
    (hB : rows.length = B) (hn : ∀ r ∈ rows, r.length = n) :
    ∃ rows', maskArr (.batch rows) ix = .ok (.batch rows') ∧ rows'.length = B ∧ (∀ r ∈ rows', r.length = n) ∧
      ∀ j, j < B → ∃ r, rows[j]? = some r ∧
        rows'[j]? = some (if j ∈ ks then List.replicate n 0 else r) := by
  subst hB
  refine ⟨rows.mapIdx fun j row => row.map fun x => x * (if j ∈ ks then 0 else 1), ?_, by simp, ?_, ?_⟩
  · unfold Denotes at hk
    simp only [maskArr, hk, bind, Except.bind, pure, Except.pure]
  · intro r hr
    obtain ⟨j, hj, rfl⟩ := List.mem_mapIdx.1 hr
    rw [List.length_map]
    exact hn _ (List.getElem_mem _)
  · intro j hj
    refine ⟨rows[j], List.getElem?_eq_getElem hj, ?_⟩
    rw [List.getElem?_mapIdx, List.getElem?_eq_getElem hj]
    simp only [Option.map_some, Option.some.injEq]
    have hl := hn rows[j] (List.getElem_mem _)
    split
    · simp only [mul_zero]
      rw [List.map_const', hl]
    · simp

theorem selArr_at {rows : List (List K)} {j : Nat} {r : List K} (h : rows[j]? = some r) :
    selArr (.batch rows) (.one j) = .ok (.single r) := by
  simp only [selArr, pyGet_at h, bind, Except.bind, pure, Except.pure]

mutual
theorem mask_get {B : Nat} {ix : Idx} {ks : List Nat} (hk : Denotes B ix ks) :
    ∀ {l : Link} {s : RS K}, IsBatch B l s →
    ∃ s', maskS l s ix = .ok s' ∧ IsBatch B l s' ∧ ∀ j, j < B → ∃ a a',
      getS l s (.one j) = .ok a ∧ getS l s' (.one j) = .ok a' ∧
      (j ∈ ks → fill l a' = initial l) ∧ (j ∉ ks → a' = a)
  | _, _, .none l hr => ⟨.none, maskS_none l ix, .none l hr, fun j _ =>
      ⟨.none, .none, getS_none l _, getS_none l _, fun _ => rfl, fun _ => rfl⟩⟩
  | _, _, .lstm (n := n) h1 h2 h3 h4 => by
    obtain ⟨h', a1, a2, a3, a4⟩ := maskArr_spec hk h1 h3
    obtain ⟨c', b1, b2, b3, b4⟩ := maskArr_spec hk h2 h4
    refine ⟨.lstm (.batch h') (.batch c'), ?_, .lstm a2 b2 a3 b3, ?_⟩
    · rw [maskS, a1, b1]; rfl
    · intro j hj
      obtain ⟨r, r1, r2⟩ := a4 j hj
      obtain ⟨q, q1, q2⟩ := b4 j hj
      refine ⟨_, _, by rw [getS, selArr_at r1, selArr_at q1]; rfl, by rw [getS, selArr_at r2, selArr_at q2]; rfl,
        ?_, ?_⟩
      · intro hm; rw [if_pos hm, if_pos hm]; rfl
      · intro hm; rw [if_neg hm, if_neg hm]
  | _, _, .gru (n := n) h1 h3 => by
    obtain ⟨h', a1, a2, a3, a4⟩ := maskArr_spec hk h1 h3
    refine ⟨.gru (.batch h'), ?_, .gru a2 a3, ?_⟩
    · rw [maskS, a1]; rfl
    · intro j hj
      obtain ⟨r, r1, r2⟩ := a4 j hj
      refine ⟨_, _, by rw [getS, selArr_at r1]; rfl, by rw [getS, selArr_at r2]; rfl, ?_, ?_⟩
      · intro hm; rw [if_pos hm]; rfl
      · intro hm; rw [if_neg hm]
  | _, _, .chain (ls := ls) h => by
    obtain ⟨ss', o1, o2, o3⟩ := maskList_get hk h
    refine ⟨.list ss', ?_, .chain o2, ?_⟩
    · rw [maskS]
      simp only [pyAssert, batches_length h, beq_self_eq_true, if_true, o1, bind, Except.bind, pure, Except.pure]
    · intro j hj
      obtain ⟨a, a', a1, a2, a3, a4⟩ := o3 j hj
      refine ⟨.list a, .list a', ?_, ?_, ?_, ?_⟩
      · rw [getS]
        simp only [pyAssert, batches_length h, beq_self_eq_true, if_true, a1, bind, Except.bind, pure, Except.pure]
      · rw [getS]
        simp only [pyAssert, batches_length o2, beq_self_eq_true, if_true, a2, bind, Except.bind, pure, Except.pure]
      · intro hm
        rw [fill, a3 hm, initial, fill]
      · intro hm; rw [a4 hm]
theorem maskList_get {B : Nat} {ix : Idx} {ks : List Nat} (hk : Denotes B ix ks) :
    ∀ {ls : List Link} {ss : List (RS K)}, IsBatches B ls ss →
    ∃ ss', maskList ls ss ix = .ok ss' ∧ IsBatches B ls ss' ∧ ∀ j, j < B → ∃ a a',
      getList ls ss (.one j) = .ok a ∧ getList ls ss' (.one j) = .ok a' ∧
      (j ∈ ks → fills ls a' = initials ls) ∧ (j ∉ ks → a' = a)
  | _, _, .nil => by
    have hg : ∀ j : Int, getList ([] : List Link) ([] : List (RS K)) (.one j) = .ok [] := by
      intro j
      rw [getList]
      · intro l h; cases h
      · intro l ls s ss h; cases h
    refine ⟨[], ?_, .nil, fun j _ => ⟨[], [], hg j, hg j, fun _ => by rw [initials]; rfl, fun _ => rfl⟩⟩
    rw [maskList]
    · intro l h; cases h
    · intro l ls s ss h; cases h
  | _, _, .skip h => by
    obtain ⟨ss', o1, o2, o3⟩ := maskList_get hk h
    refine ⟨ss', by rw [maskList, o1], .skip o2, ?_⟩
    intro j hj
    obtain ⟨a, a', a1, a2, a3, a4⟩ := o3 j hj
    exact ⟨a, a', by rw [getList, a1], by rw [getList, a2], by
      intro hm; rw [fills, initials]; exact a3 hm, a4⟩
  | _, _, .cons (ls := ls) hr hs hss => by
    obtain ⟨s', p1, p2, p3⟩ := mask_get hk hs
    obtain ⟨ss', o1, o2, o3⟩ := maskList_get hk hss
    refine ⟨s' :: ss', by rw [maskList_cons _ _ _ _ hr, p1, o1]; rfl, .cons hr p2 o2, ?_⟩
    intro j hj
    obtain ⟨b, b', b1, b2, b3, b4⟩ := p3 j hj
    obtain ⟨a, a', a1, a2, a3, a4⟩ := o3 j hj
    refine ⟨b :: a, b' :: a', by rw [getList_cons _ _ _ _ hr, b1, a1]; rfl,
      by rw [getList_cons _ _ _ _ hr, b2, a2]; rfl, ?_, ?_⟩
    · intro hm
      rw [fills_cons _ _ _ hr, b3 hm, a3 hm, initials_cons ls hr]
    · intro hm
      rw [b4 hm, a4 hm]
end

/-- **C60**: for every link and batched state, masking a list of sequences sets exactly
those to the initial state and leaves the state of every other sequence as it was. -/
theorem C60_mask (l : Link) (B : Nat) (s : RS K) (is : List Nat) (hs : IsBatch B l s) (his : ∀ i ∈ is, i < B) :
    ∃ s', maskS l s (.many (is.map Int.ofNat)) = .ok s' ∧ IsBatch B l s' ∧ ∀ j, j < B → ∃ a a',
      getS l s (.one j) = .ok a ∧ getS l s' (.one j) = .ok a' ∧
      (j ∈ is → fill l a' = initial l) ∧ (j ∉ is → a' = a) :=
  mask_get (denotes_many his) hs

/-- **C60**: the same for a single index. -/
theorem C60_mask_one (l : Link) (B : Nat) (s : RS K) (i : Nat) (hs : IsBatch B l s) (hi : i < B) :
    ∃ s', maskS l s (.one i) = .ok s' ∧ IsBatch B l s' ∧ ∀ j, j < B → ∃ a a',
      getS l s (.one j) = .ok a ∧ getS l s' (.one j) = .ok a' ∧
      (j = i → fill l a' = initial l) ∧ (j ≠ i → a' = a) := by
  obtain ⟨s', h1, h2, h3⟩ := mask_get (denotes_one hi) hs
  refine ⟨s', h1, h2, fun j hj => ?_⟩
  obtain ⟨a, a', a1, a2, a3, a4⟩ := h3 j hj
  exact ⟨a, a', a1, a2, fun h => a3 (by simp [h]), fun h => a4 (by simp [h])⟩

/-- **C60**: getting from `None` through a chain's method gives a state that concatenates as
the initial state. -/
theorem C60_get_of_none (ls : List Link) (ix : Idx) :
    ∃ s, chainGet ls (.none : RS K) ix = .ok s ∧ IsSingle (.chain ls) s ∧ fill (.chain ls) s = initial (.chain ls) := by
  refine ⟨_, rfl, .chain (nones ls).1, ?_⟩
  rw [fill, (nones ls).2, initial, fill]

/-- A nested link, two states of which one is `None`, and the batch they make. -/
def exampleLink : Link := .chain [.plain, .lstm 2, .chain [.gru 1, .plain]]
def exampleState : RS ℚ := .list [.lstm (.single [1, 2]) (.single [3, 4]), .list [.gru (.single [5])]]

example : IsSingle exampleLink exampleState ∧ IsSingle exampleLink (.none : RS ℚ) ∧
    concatS exampleLink [exampleState, .none] =
      .ok (.list [.lstm (.batch [[1, 2], [0, 0]]) (.batch [[3, 4], [0, 0]]), .list [.gru (.batch [[5], [0]])]]) := by
  refine ⟨.chain (.skip (.cons trivial (.lstm rfl rfl) (.cons trivial
    (.chain (.cons trivial (.gru rfl) (.skip .nil))) .nil))), .none _ trivial, rfl⟩

theorem selArr_many {B n : Nat} {rows : List (List K)} {is : List Nat} (his : ∀ i ∈ is, i < B) (h1 : rows.length = B) (h2 : ∀ r ∈ rows, r.length = n) :
    ∃ rows', selArr (.batch rows) (.many (is.map Int.ofNat)) = .ok (.batch rows') ∧ rows'.length = is.length ∧ (∀ r ∈ rows', r.length = n) ∧
      ∀ k i : Nat, is[k]? = some i → ∃ r, rows[i]? = some r ∧ rows'[k]? = some r := by
  have hm : (is.map Int.ofNat).mapM (pyGet rows) = .ok (is.map fun i => rows.getD i []) := by
    rw [mapM_of (pyGet rows) (fun i : Int => rows.getD i.toNat [])]
    · simp [List.map_map, Function.comp_def]
    · intro a ha
      obtain ⟨i, hi, rfl⟩ := List.mem_map.1 ha
      have hlt := his i hi
      have : rows[i]? = some (rows.getD i []) := by
        rw [List.getD_eq_getElem?_getD, List.getElem?_eq_getElem (by omega)]; rfl
      exact pyGet_at this
  refine ⟨is.map fun i => rows.getD i [], ?_, by simp, ?_, ?_⟩
  · simp only [selArr, hm, bind, Except.bind, pure, Except.pure]
  · intro r hr
    obtain ⟨i, hi, rfl⟩ := List.mem_map.1 hr
    have hlt := his i hi
    rw [List.getD_eq_getElem?_getD, List.getElem?_eq_getElem (by omega)]
    exact h2 _ (List.getElem_mem _)
  · intro k i hk
    have hlt := his i (List.mem_of_getElem? hk)
    refine ⟨rows.getD i [], ?_, by rw [List.getElem?_map, hk]; rfl⟩
    rw [List.getD_eq_getElem?_getD, List.getElem?_eq_getElem (by omega)]; rfl

mutual
theorem get_many {B : Nat} {is : List Nat} (his : ∀ i ∈ is, i < B) : ∀ {l : Link} {s : RS K}, IsBatch B l s →
    ∃ s', getS l s (.many (is.map Int.ofNat)) = .ok s' ∧ IsBatch is.length l s' ∧
      ∀ k i : Nat, is[k]? = some i → ∃ a, getS l s (.one i) = .ok a ∧ getS l s' (.one k) = .ok a
  | _, _, .none l hr => ⟨.none, getS_none l _, .none l hr, fun _ _ _ => ⟨.none, getS_none l _, getS_none l _⟩⟩
  | _, _, .lstm (n := n) h1 h2 h3 h4 => by
    obtain ⟨h', a1, a2, a3, a4⟩ := selArr_many his h1 h3
    obtain ⟨c', b1, b2, b3, b4⟩ := selArr_many his h2 h4
    refine ⟨.lstm (.batch h') (.batch c'), by rw [getS, a1, b1]; rfl, .lstm a2 b2 a3 b3, ?_⟩
    intro k i hk
    obtain ⟨r, r1, r2⟩ := a4 k i hk
    obtain ⟨q, q1, q2⟩ := b4 k i hk
    exact ⟨.lstm (.single r) (.single q), by rw [getS, selArr_at r1, selArr_at q1]; rfl, by rw [getS, selArr_at r2, selArr_at q2]; rfl⟩
  | _, _, .gru (n := n) h1 h3 => by
    obtain ⟨h', a1, a2, a3, a4⟩ := selArr_many his h1 h3
    refine ⟨.gru (.batch h'), by rw [getS, a1]; rfl, .gru a2 a3, ?_⟩
    intro k i hk
    obtain ⟨r, r1, r2⟩ := a4 k i hk
    exact ⟨.gru (.single r), by rw [getS, selArr_at r1]; rfl, by rw [getS, selArr_at r2]; rfl⟩
  | _, _, .chain (ls := ls) h => by
    obtain ⟨ss', o1, o2, o3⟩ := getList_many his h
    refine ⟨.list ss', ?_, .chain o2, ?_⟩
    · rw [getS]
      simp only [pyAssert, batches_length h, beq_self_eq_true, if_true, o1, bind, Except.bind, pure, Except.pure]
    · intro k i hk
      obtain ⟨a, a1, a2⟩ := o3 k i hk
      refine ⟨.list a, ?_, ?_⟩
      · rw [getS]
        simp only [pyAssert, batches_length h, beq_self_eq_true, if_true, a1, bind, Except.bind, pure, Except.pure]
      · rw [getS]
        simp only [pyAssert, batches_length o2, beq_self_eq_true, if_true, a2, bind, Except.bind, pure, Except.pure]
theorem getList_many {B : Nat} {is : List Nat} (his : ∀ i ∈ is, i < B) : ∀ {ls : List Link} {ss : List (RS K)}, IsBatches B ls ss →
    ∃ ss', getList ls ss (.many (is.map Int.ofNat)) = .ok ss' ∧ IsBatches is.length ls ss' ∧
      ∀ k i : Nat, is[k]? = some i → ∃ a, getList ls ss (.one i) = .ok a ∧ getList ls ss' (.one k) = .ok a
  | _, _, .nil => by
    have hg : ∀ ix : Idx, getList ([] : List Link) ([] : List (RS K)) ix = .ok [] := by
      intro j
      rw [getList]
      · intro l h; cases h
      · intro l ls s ss h; cases h
    exact ⟨[], hg _, .nil, fun _ _ _ => ⟨[], hg _, hg _⟩⟩
  | _, _, .skip h => by
    obtain ⟨ss', o1, o2, o3⟩ := getList_many his h
    refine ⟨ss', by rw [getList, o1], .skip o2, ?_⟩
    intro k i hk
    obtain ⟨a, a1, a2⟩ := o3 k i hk
    exact ⟨a, by rw [getList, a1], by rw [getList, a2]⟩
  | _, _, .cons (ls := ls) hr hs hss => by
    obtain ⟨s', p1, p2, p3⟩ := get_many his hs
    obtain ⟨ss', o1, o2, o3⟩ := getList_many his hss
    refine ⟨s' :: ss', by rw [getList_cons _ _ _ _ hr, p1, o1]; rfl, .cons hr p2 o2, ?_⟩
    intro k i hk
    obtain ⟨b, b1, b2⟩ := p3 k i hk
    obtain ⟨a, a1, a2⟩ := o3 k i hk
    exact ⟨b :: a, by rw [getList_cons _ _ _ _ hr, b1, a1]; rfl, by rw [getList_cons _ _ _ _ hr, b2, a2]; rfl⟩
end

/-- **C60**: for every link and batched state, getting a list of sequences gives a batch with exactly these, in
the order of the list: the `k`-th sequence of the result is the sequence at the `k`-th index. -/
theorem C60_get_many (l : Link) (B : Nat) (s : RS K) (is : List Nat) (hs : IsBatch B l s) (his : ∀ i ∈ is, i < B) :
    ∃ s', getS l s (.many (is.map Int.ofNat)) = .ok s' ∧ IsBatch is.length l s' ∧
      ∀ k i : Nat, is[k]? = some i → ∃ a, getS l s (.one i) = .ok a ∧ getS l s' (.one k) = .ok a :=
  get_many his hs

/-- **C60**: an index beyond the batch is refused with an IndexError, from the front and from the back. -/
theorem C60_mask_out_of_range (n : Nat) (h c : List (List K)) (hc : c.length = h.length) (i : Int) (hi : (h.length : Int) ≤ i ∨ i < -(h.length : Int)) :
    maskS (.lstm n) (.lstm (.batch h) (.batch c)) (.one i) = .error .indexError ∧ maskS (.gru n) (.gru (.batch h)) (.one i) = .error .indexError := by
  have e : ∀ m : Nat, m = h.length → pyIndex m i = none := fun m hm => by
    subst hm
    unfold pyIndex
    rcases hi with hi | hi
    · rw [if_pos (by omega), if_neg (by omega)]
    · rw [if_neg (by omega), if_neg (by omega)]
  constructor
  · simp [maskS, maskArr, positions, position, e _ hc]; rfl
  · simp [maskS, maskArr, positions, position, e _ rfl]

/-- **C60**: concatenating no states raises a ValueError. -/
theorem C60_concat_empty (n : Nat) : concatS (.lstm n) ([] : List (RS K)) = .error .valueError ∧ concatS (.gru n) ([] : List (RS K)) = .error .valueError := ⟨rfl, rfl⟩

/-- **C60**: a state of one sequence of another size is refused with an AssertionError, at any position. -/
theorem C60_concat_wrong_size (n : Nat) (before : List (List K)) (hb : ∀ r ∈ before, r.length = n) (row : List K) (hr : row.length ≠ n) (rest : List (RS K)) :
    concatS (.gru n) (before.map (fun r => .gru (.single r)) ++ .gru (.single row) :: rest) = .error .assertionError := by
  have h1 : ∀ l : List (List K), (∀ r ∈ l, r.length = n) → (l.map fun r => (.gru (.single r) : RS K)).mapM (gruPart n) = .ok (l.map fun r => [r]) := fun l hl => by
    induction l with
    | nil => rfl
    | cons r l ih =>
      rw [List.map_cons, List.mapM_cons, ih fun r hr => hl r (List.mem_cons_of_mem _ hr)]
      simp [gruPart, asRows, pyAssert, hl r List.mem_cons_self]; rfl
  rw [concatS, List.mapM_append, h1 before hb, List.mapM_cons]
  simp [gruPart, asRows, pyAssert, hr]; rfl

example : maskS (.gru 1) (.gru (.batch [[(1 : ℚ)], [2]])) (.one 2) = .error .indexError := (C60_mask_out_of_range 1 [[1], [2]] [[1], [2]] rfl 2 (by decide)).2

end Verif.Stateless
