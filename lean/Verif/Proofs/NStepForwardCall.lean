import Verif.Proofs.NStepForwardMain

set_option autoImplicit false
set_option linter.unusedSectionVars false

namespace Verif.NStepForward
variable {V S : Type} [Inhabited V]

theorem bind_ok {α β : Type} (x : α) (f : α → Py β) : ((Except.ok x : Py α) >>= f) = f x := rfl

theorem callFn_pack (l : Layer V S) (hl : l.isRecurrent = false) (a b : Shape) (hf : Fits l a b)
    (xs : List (State l × List (List V))) (hw : ∀ p ∈ xs, Wide a p.2) :
    callFn l (pack a (xs.map Prod.snd).flatten) =
      .ok (pack b (xs.map fun p => (runWith (step l) p.1 p.2).2).flatten) := by
  have hwf : Wide a (xs.map Prod.snd).flatten := Wide.flatten (by
    intro s hs
    obtain ⟨p, hp, rfl⟩ := List.mem_map.1 hs
    exact hw p hp)
  cases l with
  | core _ _ => simp [Layer.isRecurrent] at hl
  | seq _ => simp [Layer.isRecurrent] at hl
  | branch _ => simp [Layer.isRecurrent] at hl
  | fn f =>
    simp only [Fits] at hf
    rw [hf.2]
    simp only [callFn]
    rw [argRows_pack a hf.1 _ hwf, bind_ok]
    have : ∀ (s : State (Layer.fn f : Layer V S)) (rows : List (List V)),
        (runWith (step (.fn f)) s rows).2 = rows.map fun r => [f r] := by
      intro s rows
      induction rows generalizing s with
      | nil => rfl
      | cons r rows ih => rw [runWith_cons]; simp only [ih]; rfl
    simp only [this, pack_none]
    show Except.ok _ = Except.ok _
    congr 2
    rw [List.map_flatten, List.map_flatten, List.map_map, List.map_map]
    congr 1
    apply List.map_congr_left
    intro p _
    simp [List.map_map]
  | fnTup k f =>
    simp only [Fits] at hf
    rw [hf.2.1]
    simp only [callFn]
    rw [argRows_pack a hf.1 _ hwf, bind_ok]
    have : ∀ (s : State (Layer.fnTup k f : Layer V S)) (rows : List (List V)),
        (runWith (step (.fnTup k f)) s rows).2 = rows.map fun r => List.ofFn (f r) := by
      intro s rows
      induction rows generalizing s with
      | nil => rfl
      | cons r rows ih => rw [runWith_cons]; simp only [ih]; rfl
    simp only [this, pack_some]
    show Except.ok _ = Except.ok _
    congr 2
    apply List.ext_getElem
    · simp
    · intro i h1 h2
      have hi : i < k := by simpa using h1
      simp only [List.getElem_ofFn, List.getElem_map, List.getElem_range]
      rw [List.map_flatten, List.map_flatten, List.map_map, List.map_map]
      congr 1
      apply List.map_congr_left
      intro p _
      simp [List.map_map, hi]

theorem map_snd_length {σ : Type} (f : σ → List V → σ × List V) (xs : List (σ × List (List V))) :
    (xs.map fun p => (runWith f p.1 p.2).2).map List.length = (xs.map Prod.snd).map List.length := by
  rw [List.map_map, List.map_map]
  apply List.map_congr_left
  intro p _
  exact runWith_length f p.1 p.2

theorem core_spec (cell : S → V → S × V) (zero : S) (concat : Bool) (rs : RS S)
    (xs : List (S × List (List V))) (hne : xs ≠ [])
    (hs : Stands (.core cell zero : Layer V S) rs (xs.map fun p => p.1)) :
    ∃ rs', call (.core cell zero) (xs.map fun p => pack none p.2) rs concat =
        .ok (outOf concat none (xs.map fun p => (runWith (coreStep cell) p.1 p.2).2), rs') ∧
      Stands (.core cell zero : Layer V S) rs' (xs.map fun p => (runWith (coreStep cell) p.1 p.2).1) := by
  have hst : coreStates zero (xs.map fun p => pack none p.2).length rs = .ok (xs.map fun p => p.1) := by
    cases rs with
    | none =>
      show Except.ok _ = Except.ok _
      congr 1
      symm
      rw [List.length_map]
      apply List.eq_replicate_iff.2
      refine ⟨by simp, ?_⟩
      intro s h
      exact hs s h
    | rows r =>
      have : r = xs.map fun p => p.1 := hs
      rw [this]; rfl
    | list _ => exact hs.elim
  refine ⟨.rows (xs.map fun p => (runWith (coreStep cell) p.1 p.2).1), ?_, ?_⟩
  · simp only [call]
    rw [hst, bind_ok, runCore_pack, bind_ok]
    have h2 := finish_rep (sh := none) (h := .split ((xs.map fun p => (runWith (coreStep cell) p.1 p.2).2).map (pack none)))
      concat (.inl rfl) (by simp) (seqs := xs.map fun p => (runWith (coreStep cell) p.1 p.2).2)
      (by simpa using hne)
    have h3 : ∀ sec sec', finish concat sec (.split ((xs.map fun p => (runWith (coreStep cell) p.1 p.2).2).map (pack none)))
        = finish concat sec' (.split ((xs.map fun p => (runWith (coreStep cell) p.1 p.2).2).map (pack none))) := by
      intro sec sec'; cases concat <;> rfl
    refine Eq.trans (congrArg (fun z => z >>= _) ((h3 _ _).trans h2)) ?_
    rfl
  · exact rfl

mutual
theorem call_spec : (l : Layer V S) → (a b : Shape) → (concat : Bool) → (rs : RS S) →
    (xs : List (State l × List (List V))) → Fits l a b → l.isRecurrent = true → xs ≠ [] →
    (∀ p ∈ xs, Wide a p.2) → Stands l rs (xs.map fun p => p.1) →
    ∃ rs', call l (xs.map fun p => pack a p.2) rs concat =
        .ok (outOf concat b (xs.map fun p => (runWith (step l) p.1 p.2).2), rs') ∧
      Stands l rs' (xs.map fun p => (runWith (step l) p.1 p.2).1)
  | .core cell zero, a, b, concat, rs, xs, hf, hl, hne, hw, hs => by
    simp only [Fits] at hf
    obtain ⟨rfl, rfl⟩ := hf
    exact core_spec cell zero concat rs xs hne hs
  | .fn _, _, _, _, _, _, _, hl, _, _, _ => by simp [Layer.isRecurrent] at hl
  | .fnTup _ _, _, _, _, _, _, _, hl, _, _, _ => by simp [Layer.isRecurrent] at hl
  | .seq ls, a, b, concat, rs, xs, hf, hl, hne, hw, hs => by
    simp only [Fits] at hf
    obtain ⟨rfl, hf⟩ := hf
    suffices key : ∀ xs : List (States ls × List (List V)), xs ≠ [] → (∀ p ∈ xs, Wide none p.2) →
        Stands (.seq ls) rs (xs.map fun p => p.1) →
        ∃ rs', call (.seq ls) (xs.map fun p => pack none p.2) rs concat =
          .ok (outOf concat b (xs.map fun p => (runWith (through ls) p.1 p.2).2), rs') ∧
        Stands (.seq ls) rs' (xs.map fun p => (runWith (through ls) p.1 p.2).1) by
      have := key xs hne hw hs
      simp only [runWith_seq]
      exact this
    clear hs hw hne
    clear xs
    intro xs hne hw hs
    have hq : ∃ queue, childStates (ls.countP Layer.isRecurrent) rs = .ok queue ∧
        StandsSeq ls queue (xs.map fun p => p.1) := by
      cases rs with
      | none =>
        simp only [Stands] at hs
        exact ⟨_, rfl, standsSeq_none ls _ hs⟩
      | list r =>
        simp only [Stands] at hs
        refine ⟨r, ?_, hs⟩
        simp [childStates, pyAssert, standsSeq_length ls r _ hs]
      | rows _ => simp only [Stands] at hs
    obtain ⟨queue, hq1, hq2⟩ := hq
    have hsec : sectionsOf (xs.map fun p => pack none p.2) = secs (xs.map Prod.snd) := by
      rw [← secs_of_pack, List.map_map]; rfl
    obtain ⟨h', rs', h1, h2, h3⟩ := seqLoop_spec ls none b (secs (xs.map Prod.snd))
      (.split (xs.map fun p => pack none p.2)) queue xs hf (by simp) hne hw rfl
      (.inl (by rw [List.map_map]; rfl)) hq2
    refine ⟨.list rs', ?_, ?_⟩
    · simp only [call]
      rw [hsec, hq1, bind_ok, h1, bind_ok]
      have hne' : (!(xs.map fun p => pack none p.2).isEmpty) = true := by
        cases xs with
        | nil => exact absurd rfl hne
        | cons _ _ => rfl
      rw [pyAssert, if_pos hne']
      rw [← secs_congr (map_snd_length (through ls) xs),
        finish_rep concat h2 (fitsSeq_pos ls none b hf (by simp)) (by simpa using hne), bind_ok]
      rfl
    · exact h3
  | .branch cs, a, b, concat, rs, xs, hf, hl, hne, hw, hs => by
    simp only [Fits] at hf
    obtain ⟨h0, hcs, rfl, hall⟩ := hf
    suffices key : ∀ xs : List (States cs × List (List V)), xs ≠ [] → (∀ p ∈ xs, Wide a p.2) →
        Stands (.branch cs) rs (xs.map fun p => p.1) →
        ∃ rs', call (.branch cs) (xs.map fun p => pack a p.2) rs concat =
          .ok (outOf concat (some cs.length) (xs.map fun p => (runWith (parallel cs) p.1 p.2).2), rs') ∧
        Stands (.branch cs) rs' (xs.map fun p => (runWith (parallel cs) p.1 p.2).1) by
      have := key xs hne hw hs
      simp only [runWith_branch]
      exact this
    clear hs hw hne
    clear xs
    intro xs hne hw hs
    have hq : ∃ queue, branchStates cs.length rs = .ok queue ∧
        StandsSeq cs queue (xs.map fun p => p.1) := by
      cases rs with
      | none =>
        simp only [Stands] at hs
        refine ⟨_, rfl, ?_⟩
        have := standsSeq_none cs _ hs
        rwa [fitsAll_count cs a hall] at this
      | list r =>
        simp only [Stands] at hs
        exact ⟨r, rfl, hs⟩
      | rows _ => simp only [Stands] at hs
    obtain ⟨queue, hq1, hq2⟩ := hq
    obtain ⟨rs', h1, h2⟩ := branchLoop_spec cs a concat queue xs hall hne hw hq2
    refine ⟨.list rs', ?_, ?_⟩
    · simp only [call]
      rw [hq1, bind_ok, h1, bind_ok]
      have hn : cs.length ≠ 0 := by simpa using hcs
      have he : ((List.range cs.length).map (outCol concat (xs.map fun p => (runWith (parallel cs) p.1 p.2).2))).isEmpty
          = false := by
        cases cs with
        | nil => exact absurd rfl hcs
        | cons _ _ => simp [List.range_succ_eq_map]
      simp only [he, Bool.false_eq_true, if_false]
      rw [branchOut_cols concat _ _ hn _ (by simp), bind_ok]
      rfl
    · exact h2
theorem seqLoop_spec : (ls : List (Layer V S)) → (a b : Shape) → (sections : List Nat) → (h : Out V) →
    (queue : List (RS S)) → (xs : List (States ls × List (List V))) → FitsSeq ls a b → a ≠ some 0 →
    xs ≠ [] → (∀ p ∈ xs, Wide a p.2) → sections = secs (xs.map Prod.snd) → Rep a h (xs.map Prod.snd) →
    StandsSeq ls queue (xs.map fun p => p.1) →
    ∃ h' rs', seqLoop sections ls h queue = .ok (h', rs', []) ∧
      Rep b h' (xs.map fun p => (runWith (through ls) p.1 p.2).2) ∧
      StandsSeq ls rs' (xs.map fun p => (runWith (through ls) p.1 p.2).1)
  | [], a, b, sections, h, queue, xs, hf, h0, hne, hw, hsec, hrep, hs => by
    simp only [FitsSeq] at hf
    simp only [StandsSeq] at hs
    subst hf hs
    refine ⟨h, [], rfl, ?_, ?_⟩
    · simp only [runWith_through_nil]
      exact hrep
    · simp only [StandsSeq]
  | l :: ls, a, b, sections, h, queue, xs, hf, h0, hne, hw, hsec, hrep, hs => by
    simp only [FitsSeq] at hf
    obtain ⟨m, hf1, hf2⟩ := hf
    simp only [StandsSeq] at hs
    -- the sequences as seen by this layer
    let ys : List (State l × List (List V)) := xs.map fun p => (p.1.1, p.2)
    let zs : List (States ls × List (List V)) := xs.map fun p => (p.1.2, (runWith (step l) p.1.1 p.2).2)
    have hyne : ys ≠ [] := by simpa [ys] using hne
    have hzne : zs ≠ [] := by simpa [zs] using hne
    have hyw : ∀ p ∈ ys, Wide a p.2 := by
      intro p hp
      obtain ⟨q, hq, rfl⟩ := List.mem_map.1 hp
      exact hw q hq
    have hzw : ∀ p ∈ zs, Wide m p.2 := by
      intro p hp
      obtain ⟨q, hq, rfl⟩ := List.mem_map.1 hp
      exact runWith_wide _ a m (fun s row hr => step_width l a m hf1 s row hr) _ _ (hw q hq)
    have hy2 : ys.map Prod.snd = xs.map Prod.snd := by simp [ys]
    have hyz : (ys.map fun p => (runWith (step l) p.1 p.2).2) = zs.map Prod.snd := by
      simp only [ys, zs, List.map_map]; rfl
    have hsec' : sections = secs (zs.map Prod.snd) := by
      rw [hsec, ← hyz, ← hy2]
      exact (secs_congr (map_snd_length (step l) ys)).symm
    have hout : (zs.map fun p => (runWith (through ls) p.1 p.2).2) =
        xs.map fun p => (runWith (through (l :: ls)) p.1 p.2).2 := by
      simp only [zs, List.map_map]
      apply List.map_congr_left
      intro p _
      rw [runWith_through_cons]; rfl
    have hfin2 : (zs.map fun p => (runWith (through ls) p.1 p.2).1) =
        (xs.map fun p => (runWith (through (l :: ls)) p.1 p.2).1).map (fun s => s.2) := by
      simp only [zs, List.map_map]
      apply List.map_congr_left
      intro p _
      simp only [Function.comp]
      rw [runWith_through_cons]
    have hfin1 : (ys.map fun p => (runWith (step l) p.1 p.2).1) =
        (xs.map fun p => (runWith (through (l :: ls)) p.1 p.2).1).map (fun s => s.1) := by
      simp only [ys, List.map_map]
      apply List.map_congr_left
      intro p _
      simp only [Function.comp]
      rw [runWith_through_cons]
    have hys1 : (ys.map fun p => p.1) = (xs.map fun p => p.1).map (fun s => s.1) := by
      simp only [ys, List.map_map]; rfl
    have hzs1 : (zs.map fun p => p.1) = (xs.map fun p => p.1).map (fun s => s.2) := by
      simp only [zs, List.map_map]; rfl
    by_cases hl : l.isRecurrent = true
    · rw [if_pos hl] at hs
      obtain ⟨r, queue', rfl, hs1, hs2⟩ := hs
      obtain ⟨r', e1, e2⟩ := call_spec l a m false r ys hf1 hl hyne hyw (by rw [hys1]; exact hs1)
      obtain ⟨h', rs', e3, e4, e5⟩ := seqLoop_spec ls m b sections
        (.split ((zs.map Prod.snd).map (pack m))) queue' zs hf2 (fits_pos l a m hf1).2 hzne hzw hsec'
        (.inl rfl) (by rw [hzs1]; exact hs2)
      refine ⟨h', r' :: rs', ?_, ?_, ?_⟩
      · simp only [seqLoop]
        rw [if_pos hl]
        have : toSeqs sections h = ys.map fun p => pack a p.2 := by
          rw [hsec, toSeqs_rep hrep h0 (by simpa using hne)]
          simp only [ys, List.map_map]; rfl
        rw [this, e1, bind_ok]
        have : outOf false m (ys.map fun p => (runWith (step l) p.1 p.2).2) =
            .split ((zs.map Prod.snd).map (pack m)) := by rw [hyz]; rfl
        simp only [this]
        rw [e3]
        rfl
      · rw [← hout]; exact e4
      · simp only [StandsSeq]
        rw [if_pos hl]
        refine ⟨r', rs', rfl, ?_, ?_⟩
        · rw [← hfin1]; exact e2
        · rw [← hfin2]; exact e5
    · rw [if_neg hl] at hs
      obtain ⟨h', rs', e3, e4, e5⟩ := seqLoop_spec ls m b sections
        (.concat (pack m (zs.map Prod.snd).flatten)) queue zs hf2 (fits_pos l a m hf1).2 hzne hzw hsec'
        (.inr rfl) (by rw [hzs1]; exact hs)
      refine ⟨h', rs', ?_, ?_, ?_⟩
      · simp only [seqLoop]
        rw [if_neg hl, toBatch_rep hrep (by simpa using hne), bind_ok]
        have := callFn_pack l (by simpa using hl) a m hf1 ys hyw
        rw [hy2] at this
        rw [this, bind_ok, hyz, e3]
      · rw [← hout]; exact e4
      · simp only [StandsSeq]
        rw [if_neg hl, ← hfin2]
        exact e5
theorem branchLoop_spec : (cs : List (Layer V S)) → (a : Shape) → (concat : Bool) → (queue : List (RS S)) →
    (xs : List (States cs × List (List V))) → FitsAll cs a → xs ≠ [] → (∀ p ∈ xs, Wide a p.2) →
    StandsSeq cs queue (xs.map fun p => p.1) →
    ∃ rs', branchLoop (xs.map fun p => pack a p.2) concat cs queue =
        .ok ((List.range cs.length).map (outCol concat (xs.map fun p => (runWith (parallel cs) p.1 p.2).2)), rs') ∧
      StandsSeq cs rs' (xs.map fun p => (runWith (parallel cs) p.1 p.2).1)
  | [], a, concat, queue, xs, hf, hne, hw, hs => by
    refine ⟨[], ?_, ?_⟩
    · simp [branchLoop]
    · simp only [StandsSeq]
  | c :: cs, a, concat, queue, xs, hf, hne, hw, hs => by
    simp only [FitsAll] at hf
    obtain ⟨hl, hf1, hf2⟩ := hf
    simp only [StandsSeq] at hs
    rw [if_pos hl] at hs
    obtain ⟨r, queue', rfl, hs1, hs2⟩ := hs
    let ys : List (State c × List (List V)) := xs.map fun p => (p.1.1, p.2)
    let zs : List (States cs × List (List V)) := xs.map fun p => (p.1.2, p.2)
    have hyp : (ys.map fun p => pack a p.2) = xs.map fun p => pack a p.2 := by
      simp only [ys, List.map_map]; rfl
    have hzp : (zs.map fun p => pack a p.2) = xs.map fun p => pack a p.2 := by
      simp only [zs, List.map_map]; rfl
    have hyw : ∀ p ∈ ys, Wide a p.2 := by
      intro p hp
      obtain ⟨q, hq, rfl⟩ := List.mem_map.1 hp
      exact hw q hq
    have hzw : ∀ p ∈ zs, Wide a p.2 := by
      intro p hp
      obtain ⟨q, hq, rfl⟩ := List.mem_map.1 hp
      exact hw q hq
    obtain ⟨r', e1, e2⟩ := call_spec c a none concat r ys hf1 hl (by simpa [ys] using hne) hyw
      (by simp only [ys, List.map_map] at hs1 ⊢; exact hs1)
    obtain ⟨rs', e3, e4⟩ := branchLoop_spec cs a concat queue' zs hf2 (by simpa [zs] using hne) hzw
      (by simp only [zs, List.map_map] at hs2 ⊢; exact hs2)
    refine ⟨r' :: rs', ?_, ?_⟩
    · simp only [branchLoop]
      rw [← hyp, e1, bind_ok, hyp, ← hzp, e3, bind_ok]
      show Except.ok _ = Except.ok _
      congr 2
      simp only [List.length_cons, List.range_succ_eq_map, List.map_cons, List.map_map]
      -- a row of the model is the row of the first child followed by those of the others
      have hone : ∀ p ∈ xs, Wide none (runWith (step c) p.1.1 p.2).2 := fun p hp =>
        runWith_wide _ a none (fun s row hr => step_width c a none hf1 s row hr) _ _ (hw p hp)
      have hzip : ∀ p : States (c :: cs) × List (List V), Wide none (runWith (step c) p.1.1 p.2).2 →
          ((runWith (parallel (c :: cs)) p.1 p.2).2.map fun r => r.getD 0 default) =
            ((runWith (step c) p.1.1 p.2).2.map fun r => r.headD default) ∧
          ∀ i, ((runWith (parallel (c :: cs)) p.1 p.2).2.map fun r => r.getD (i + 1) default) =
            ((runWith (parallel cs) p.1.2 p.2).2.map fun r => r.getD i default) := by
        intro p hp
        rw [runWith_parallel_cons]
        have hlen : (runWith (step c) p.1.1 p.2).2.length = (runWith (parallel cs) p.1.2 p.2).2.length := by
          rw [runWith_length, runWith_length]
        generalize (runWith (step c) p.1.1 p.2).2 = u at hp hlen
        generalize (runWith (parallel cs) p.1.2 p.2).2 = v at hlen
        clear e1 e2 e3 e4
        induction u generalizing v with
        | nil =>
          cases v with
          | nil => exact ⟨rfl, fun _ => rfl⟩
          | cons _ _ => simp at hlen
        | cons x u ih =>
          cases v with
          | nil => simp at hlen
          | cons y v =>
            obtain ⟨i1, i2⟩ := ih (fun r hr => hp r (by simp [hr])) v (by simpa using hlen)
            have hx : x.length = 1 := hp x (by simp)
            match x, hx with
            | [x0], _ =>
              refine ⟨?_, fun i => ?_⟩
              · simp only [List.zipWith_cons_cons, List.map_cons]; rw [i1]; rfl
              · simp only [List.zipWith_cons_cons, List.map_cons]; rw [i2]; rfl
      congr 1
      · have h0 : (xs.map fun p => (runWith (parallel (c :: cs)) p.1 p.2).2.map fun r => r.getD 0 default) =
            ys.map fun p => (runWith (step c) p.1 p.2).2.map fun r => r.headD default := by
          simp only [ys, List.map_map]
          apply List.map_congr_left
          intro p hp
          exact (hzip p (hone p hp)).1
        cases concat
        · show Out.split _ = Out.split _
          congr 1
          have := congrArg (List.map Val.arr) h0
          simp only [ys, zs, List.map_map] at this ⊢
          exact this.symm
        · show Out.concat _ = Out.concat _
          congr 1
          rw [pack_none]
          congr 1
          simp only [ys, zs, List.map_flatten, List.map_map] at h0 ⊢
          exact congrArg List.flatten h0.symm
      · apply List.map_congr_left
        intro i _
        have h0 : (xs.map fun p => (runWith (parallel (c :: cs)) p.1 p.2).2.map fun r => r.getD (i + 1) default) =
            zs.map fun p => (runWith (parallel cs) p.1 p.2).2.map fun r => r.getD i default := by
          simp only [zs, List.map_map]
          apply List.map_congr_left
          intro p hp
          exact (hzip p (hone p hp)).2 i
        cases concat
        · show Out.split _ = Out.split _
          congr 1
          have := congrArg (List.map Val.arr) h0
          simp only [ys, zs, List.map_map] at this ⊢
          exact this.symm
        · show Out.concat _ = Out.concat _
          congr 2
          simp only [ys, zs, List.map_flatten, List.map_map] at h0 ⊢
          exact congrArg List.flatten h0.symm
    · simp only [StandsSeq]
      rw [if_pos hl]
      refine ⟨r', rs', rfl, ?_, ?_⟩
      · have : (ys.map fun p => (runWith (step c) p.1 p.2).1) =
            (xs.map fun p => (runWith (parallel (c :: cs)) p.1 p.2).1).map (fun s => s.1) := by
          simp only [ys, List.map_map]
          apply List.map_congr_left
          intro p _
          simp only [Function.comp]
          rw [runWith_parallel_cons]
        rw [← this]; exact e2
      · have : (zs.map fun p => (runWith (parallel cs) p.1 p.2).1) =
            (xs.map fun p => (runWith (parallel (c :: cs)) p.1 p.2).1).map (fun s => s.2) := by
          simp only [zs, List.map_map]
          apply List.map_congr_left
          intro p _
          simp only [Function.comp]
          rw [runWith_parallel_cons]
        rw [← this]; exact e4
end

end Verif.NStepForward
