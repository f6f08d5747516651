import Verif.Proofs.NStepForward

set_option autoImplicit false
set_option linter.unusedSectionVars false

namespace Verif.NStepForward
variable {V S : Type} [Inhabited V]

/-! ### runs -/

theorem runWith_cons {σ : Type} (f : σ → List V → σ × List V) (s : σ) (r : List V) (rows : List (List V)) :
    runWith f s (r :: rows) =
      ((runWith f (f s r).1 rows).1, (f s r).2 :: (runWith f (f s r).1 rows).2) := rfl

theorem runWith_length {σ : Type} (f : σ → List V → σ × List V) (s : σ) (rows : List (List V)) :
    (runWith f s rows).2.length = rows.length := by
  induction rows generalizing s with
  | nil => rfl
  | cons r rows ih => simp [runWith, ih]

theorem runWith_wide {σ : Type} (f : σ → List V → σ × List V) (a b : Shape)
    (h : ∀ s row, row.length = a.width → (f s row).2.length = b.width)
    (s : σ) (rows : List (List V)) (hw : Wide a rows) : Wide b (runWith f s rows).2 := by
  induction rows generalizing s with
  | nil => intro r hr; simp [runWith] at hr
  | cons r rows ih =>
    intro q hq
    simp only [runWith, List.mem_cons] at hq
    rcases hq with rfl | hq
    · exact h s r (hw r (by simp))
    · exact ih _ (fun x hx => hw x (by simp [hx])) q hq

theorem runWith_through_nil (ss : States ([] : List (Layer V S))) (rows : List (List V)) :
    runWith (through []) ss rows = (ss, rows) := by
  induction rows generalizing ss with
  | nil => rfl
  | cons r rows ih => rw [runWith_cons, ih]; rfl

theorem runWith_through_cons (l : Layer V S) (ls : List (Layer V S)) (ss : States (l :: ls))
    (rows : List (List V)) :
    runWith (through (l :: ls)) ss rows =
      (((runWith (step l) ss.1 rows).1, (runWith (through ls) ss.2 (runWith (step l) ss.1 rows).2).1),
       (runWith (through ls) ss.2 (runWith (step l) ss.1 rows).2).2) := by
  induction rows generalizing ss with
  | nil => rfl
  | cons r rows ih => rw [runWith_cons, ih]; rfl

theorem runWith_parallel_cons (l : Layer V S) (ls : List (Layer V S)) (ss : States (l :: ls))
    (rows : List (List V)) :
    runWith (parallel (l :: ls)) ss rows =
      (((runWith (step l) ss.1 rows).1, (runWith (parallel ls) ss.2 rows).1),
       List.zipWith (· ++ ·) (runWith (step l) ss.1 rows).2 (runWith (parallel ls) ss.2 rows).2) := by
  induction rows generalizing ss with
  | nil => rfl
  | cons r rows ih => rw [runWith_cons, ih]; rfl

theorem runWith_seq (ls : List (Layer V S)) : runWith (step (.seq ls)) = runWith (through ls) := by
  funext s rows
  induction rows generalizing s with
  | nil => rfl
  | cons r rows ih => rw [runWith_cons, ih]; rfl

theorem runWith_branch (ls : List (Layer V S)) : runWith (step (.branch ls)) = runWith (parallel ls) := by
  funext s rows
  induction rows generalizing s with
  | nil => rfl
  | cons r rows ih => rw [runWith_cons, ih]; rfl

mutual
theorem step_width : (l : Layer V S) → (a b : Shape) → Fits l a b → (s : State l) → (row : List V) →
    row.length = a.width → (step l s row).2.length = b.width
  | .core _ _, a, b, h, s, row, hr => by simp only [Fits] at h; rw [h.2]; rfl
  | .fn _, a, b, h, s, row, hr => by simp only [Fits] at h; rw [h.2]; rfl
  | .fnTup k _, a, b, h, s, row, hr => by simp only [Fits] at h; rw [h.2.1]; simp [step, Shape.width]
  | .seq ls, a, b, h, s, row, hr => by
    simp only [Fits] at h
    exact through_width ls a b h.2 s row hr
  | .branch cs, a, b, h, s, row, hr => by
    simp only [Fits] at h
    rw [h.2.2.1]
    exact parallel_width cs a h.2.2.2 s row hr
theorem through_width : (ls : List (Layer V S)) → (a b : Shape) → FitsSeq ls a b → (s : States ls) →
    (row : List V) → row.length = a.width → (through ls s row).2.length = b.width
  | [], a, b, h, s, row, hr => by simp only [FitsSeq] at h; rw [← h]; exact hr
  | l :: ls, a, b, h, s, row, hr => by
    simp only [FitsSeq] at h
    obtain ⟨m, h1, h2⟩ := h
    exact through_width ls m b h2 _ _ (step_width l a m h1 _ _ hr)
theorem parallel_width : (cs : List (Layer V S)) → (a : Shape) → FitsAll cs a → (s : States cs) →
    (row : List V) → row.length = a.width → (parallel cs s row).2.length = cs.length
  | [], a, h, s, row, hr => rfl
  | c :: cs, a, h, s, row, hr => by
    simp only [FitsAll] at h
    simp only [parallel, List.length_append, List.length_cons]
    rw [step_width c a none h.2.1 _ _ hr, parallel_width cs a h.2.2 _ _ hr]
    simp [Shape.width]; omega
end

/-! ### outputs -/

/-- The output for the sequences `seqs`. -/
def outOf (concat : Bool) (sh : Shape) (seqs : List (List (List V))) : Out V :=
  if concat then .concat (pack sh seqs.flatten) else .split (seqs.map (pack sh))

/-- `h` holds the sequences `seqs`, split or concatenated. -/
def Rep (sh : Shape) (h : Out V) (seqs : List (List (List V))) : Prop :=
  h = .split (seqs.map (pack sh)) ∨ h = .concat (pack sh seqs.flatten)

/-- The section boundaries of sequences. -/
def secs (seqs : List (List (List V))) : List Nat := cumsum 0 (seqs.dropLast.map List.length)

theorem toSeqs_rep {sh : Shape} {h : Out V} {seqs : List (List (List V))} (hr : Rep sh h seqs)
    (h0 : sh ≠ some 0) (hne : seqs ≠ []) : toSeqs (secs seqs) h = seqs.map (pack sh) := by
  rcases hr with rfl | rfl
  · rfl
  · exact splitSeqs_pack sh h0 seqs hne

theorem toBatch_rep {sh : Shape} {h : Out V} {seqs : List (List (List V))} (hr : Rep sh h seqs)
    (hne : seqs ≠ []) : toBatch h = .ok (pack sh seqs.flatten) := by
  rcases hr with rfl | rfl
  · exact concatSeqs_pack sh seqs hne
  · rfl

theorem finish_rep {sh : Shape} {h : Out V} {seqs : List (List (List V))} (concat : Bool)
    (hr : Rep sh h seqs) (h0 : sh ≠ some 0) (hne : seqs ≠ []) :
    finish concat (secs seqs) h = .ok (outOf concat sh seqs) := by
  unfold finish outOf
  cases concat
  · simp [toSeqs_rep hr h0 hne]
  · simp only [if_true]; rw [toBatch_rep hr hne]; rfl

theorem secs_congr {s t : List (List (List V))} (h : s.map List.length = t.map List.length) :
    secs s = secs t := by
  unfold secs
  rw [List.map_dropLast, List.map_dropLast, h]

theorem secs_of_pack (seqs : List (List (List V))) :
    sectionsOf (seqs.map (pack none)) = secs seqs := by
  unfold sectionsOf secs
  rw [← List.map_dropLast, List.map_map]
  congr 2
  funext s
  simp [pack_none, Val.pyLen]

theorem fits_out {l : Layer V S} {a b : Shape} (h : Fits l a b) (hseq : ∀ ls, l ≠ .seq ls) :
    b ≠ some 0 := by
  cases l with
  | core _ _ => simp only [Fits] at h; rw [h.2]; simp
  | fn _ => simp only [Fits] at h; rw [h.2]; simp
  | fnTup _ _ => simp only [Fits] at h; rw [h.2.1]; simpa using h.2.2
  | seq ls => exact absurd rfl (hseq ls)
  | branch cs => simp only [Fits] at h; rw [h.2.2.1]; simpa using h.2.1

mutual
theorem fits_pos : (l : Layer V S) → (a b : Shape) → Fits l a b → a ≠ some 0 ∧ b ≠ some 0
  | .core _ _, a, b, h => by simp only [Fits] at h; rw [h.1, h.2]; simp
  | .fn _, a, b, h => by simp only [Fits] at h; rw [h.2]; simpa using h.1
  | .fnTup _ _, a, b, h => by simp only [Fits] at h; rw [h.2.1]; exact ⟨h.1, by simpa using h.2.2⟩
  | .seq ls, a, b, h => by
    simp only [Fits] at h
    exact ⟨by rw [h.1]; simp, fitsSeq_pos ls a b h.2 (by rw [h.1]; simp)⟩
  | .branch cs, a, b, h => by
    simp only [Fits] at h; rw [h.2.2.1]; exact ⟨h.1, by simpa using h.2.1⟩
theorem fitsSeq_pos : (ls : List (Layer V S)) → (a b : Shape) → FitsSeq ls a b → a ≠ some 0 → b ≠ some 0
  | [], a, b, h, h0 => by simp only [FitsSeq] at h; rw [← h]; exact h0
  | l :: ls, a, b, h, h0 => by
    simp only [FitsSeq] at h
    obtain ⟨m, h1, h2⟩ := h
    exact fitsSeq_pos ls m b h2 (fits_pos l a m h1).2
end

/-! ### states -/

theorem standsSeq_length : (ls : List (Layer V S)) → (rs : List (RS S)) → (ss : List (States ls)) →
    StandsSeq ls rs ss → rs.length = ls.countP Layer.isRecurrent
  | [], rs, ss, h => by simp only [StandsSeq] at h; simp [h]
  | l :: ls, rs, ss, h => by
    simp only [StandsSeq] at h
    by_cases hl : l.isRecurrent = true
    · rw [if_pos hl] at h
      obtain ⟨r, rs', rfl, _, h⟩ := h
      simp [hl, standsSeq_length ls rs' _ h]
    · rw [if_neg hl] at h
      rw [standsSeq_length ls rs _ h, List.countP_cons_of_neg hl]

theorem stands_none (l : Layer V S) (ss : List (State l)) (h : ∀ s ∈ ss, s = initial l) :
    Stands l .none ss := by
  cases l <;> simp only [Stands] <;> exact h

theorem standsSeq_none : (ls : List (Layer V S)) → (ss : List (States ls)) → (∀ s ∈ ss, s = initials ls) →
    StandsSeq ls (List.replicate (ls.countP Layer.isRecurrent) .none) ss
  | [], ss, h => by simp [StandsSeq]
  | l :: ls, ss, h => by
    have h1 : ∀ s ∈ ss.map (fun s => s.1), s = initial l := by
      intro s hs
      obtain ⟨t, ht, rfl⟩ := List.mem_map.1 hs
      rw [h t ht]; rfl
    have h2 : ∀ s ∈ ss.map (fun s => s.2), s = initials ls := by
      intro s hs
      obtain ⟨t, ht, rfl⟩ := List.mem_map.1 hs
      rw [h t ht]; rfl
    simp only [StandsSeq]
    by_cases hl : l.isRecurrent = true
    · rw [if_pos hl, List.countP_cons_of_pos hl, List.replicate_succ]
      exact ⟨_, _, rfl, stands_none l _ h1, standsSeq_none ls _ h2⟩
    · rw [if_neg hl, List.countP_cons_of_neg hl]
      exact standsSeq_none ls _ h2

theorem fitsAll_count : (cs : List (Layer V S)) → (a : Shape) → FitsAll cs a →
    cs.countP Layer.isRecurrent = cs.length
  | [], _, _ => rfl
  | c :: cs, a, h => by
    simp only [FitsAll] at h
    simp [h.1, fitsAll_count cs a h.2.2]

/-! ### the links -/

/-- `step` of a core link. -/
def coreStep (cell : S → V → S × V) (s : S) (row : List V) : S × List V :=
  ((cell s (row.headD default)).1, [(cell s (row.headD default)).2])

theorem runCore_pack (cell : S → V → S × V) (xs : List (S × List (List V))) :
    runCore cell (xs.map Prod.fst) (xs.map fun p => pack none p.2) =
      .ok (xs.map (fun p => (runWith (coreStep cell) p.1 p.2).1),
        (xs.map fun p => (runWith (coreStep cell) p.1 p.2).2).map (pack none)) := by
  have key : ∀ (s : S) (rows : List (List V)),
      runCell cell s (rows.map fun r => r.headD default) =
        ((runWith (coreStep cell) s rows).1,
          (runWith (coreStep cell) s rows).2.map fun r => r.headD default) := by
    intro s rows
    induction rows generalizing s with
    | nil => rfl
    | cons r rows ih =>
      simp only [List.map_cons, runCell, runWith, coreStep]
      rw [ih]
      rfl
  induction xs with
  | nil => rfl
  | cons p xs ih =>
    have h := key p.1 p.2
    simp only [List.map_cons]
    rw [pack_none]
    simp only [runCore]
    rw [ih, h]
    rfl

/-- Part `i` of the rows of all sequences, as the output of a child. -/
def outCol (concat : Bool) (seqs : List (List (List V))) (i : Nat) : Out V :=
  if concat then .concat (.arr (seqs.flatten.map fun r => r.getD i default))
  else .split (seqs.map fun s => .arr (s.map fun r => r.getD i default))

theorem branchOut_cols (concat : Bool) (n b : Nat) (hn : n ≠ 0) (seqs : List (List (List V)))
    (hb : seqs.length = b) :
    branchOut concat n b ((List.range n).map (outCol concat seqs)) = .ok (outOf concat (some n) seqs) := by
  have arrs : ∀ (l : List Nat) (g : Nat → List V), arraysOf (l.map fun i => Val.arr (g i)) = .ok (l.map g) := by
    intro l g
    induction l with
    | nil => rfl
    | cons i l ih => simp only [List.map_cons, arraysOf]; rw [ih]; rfl
  have cons : ∀ (l : List Nat) (g : Nat → Val V), concatsOf (l.map fun i => Out.concat (g i)) = .ok (l.map g) := by
    intro l g
    induction l with
    | nil => rfl
    | cons i l ih => simp only [List.map_cons, concatsOf]; rw [ih]; rfl
  have spl : ∀ (l : List Nat) (g : Nat → List (Val V)), splitsOf (l.map fun i => Out.split (g i)) = .ok (l.map g) := by
    intro l g
    induction l with
    | nil => rfl
    | cons i l ih => simp only [List.map_cons, splitsOf]; rw [ih]; rfl
  unfold branchOut outOf
  cases concat
  · simp only [Bool.false_eq_true, if_false]
    rw [show outCol false seqs = fun i => Out.split (seqs.map fun s => .arr (s.map fun r => r.getD i default))
      from rfl, spl]
    have hne : List.range n ≠ [] := by simpa using hn
    have hc : ((((List.range n).map fun i => seqs.map fun s => Val.arr (s.map fun r => r.getD i default)).length == n)
        && ((((List.range n).map fun i => seqs.map fun s => Val.arr (s.map fun r => r.getD i default)).head?.map
          List.length) == some b)) = true := by
      cases n with
      | zero => exact absurd rfl hn
      | succ n => simp [List.range_succ_eq_map, hb]
    show (pyAssert _ _ : Py (Out V)) = _
    rw [pyAssert, if_pos hc]
    rw [← hb, zipStar_table (fun (i : Nat) (s : List (List V)) => Val.arr (s.map fun r => r.getD i default)) _ hne]
    rw [mapM_ok _ (fun vs => vs.filterMap fun v => match v with | .arr x => some x | .tup _ => none)]
    · show Except.ok _ = Except.ok _
      congr 2
      rw [List.map_map, List.map_map]
      apply List.map_congr_left
      intro s _
      simp only [Function.comp, pack_some, List.filterMap_map]
      congr 1
      exact (List.filterMap_eq_map (f := fun i => s.map fun r => r.getD i default)) ▸ rfl
    · intro vs hvs
      obtain ⟨s, _, rfl⟩ := List.mem_map.1 hvs
      rw [arrs, List.filterMap_map]
      congr 1
      exact ((List.filterMap_eq_map (f := fun i => s.map fun r => r.getD i default)) ▸ rfl)
  · simp only [if_true]
    rw [show outCol true seqs = fun i => Out.concat (.arr (seqs.flatten.map fun r => r.getD i default))
      from rfl, cons]
    show (do let as ← arraysOf _; pure (Out.concat (.tup as)) : Py (Out V)) = _
    rw [arrs]
    rfl

end Verif.NStepForward
