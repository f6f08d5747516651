import Verif.Proofs.NStepForwardCall
import Verif.Spec.RecurrentUpdate

set_option autoImplicit false
set_option linter.unusedSectionVars false

namespace Verif.NStepForward
variable {V S A R : Type}

theorem mapM_fst {α β γ : Type} (f : α → Py β) (g : α × γ → β) (xs : List (α × γ))
    (h : ∀ p ∈ xs, f p.1 = .ok (g p)) : (xs.map fun p => p.1).mapM f = .ok (xs.map g) := by
  induction xs with
  | nil => rfl
  | cons a l ih =>
    rw [List.map_cons, List.mapM_cons, h a (by simp), ih (fun x hx => h x (by simp [hx]))]
    rfl

theorem standsOnes_length : (ls : List (Layer V S)) → (rs : List (SRS S)) → (s : States ls) →
    StandsOnes ls rs s → rs.length = ls.countP Layer.isRecurrent
  | [], rs, s, h => by simp only [StandsOnes] at h; simp [h]
  | l :: ls, rs, s, h => by
    simp only [StandsOnes] at h
    by_cases hl : l.isRecurrent = true
    · rw [if_pos hl] at h
      obtain ⟨r, rs', rfl, _, h2⟩ := h
      rw [List.length_cons, List.countP_cons_of_pos hl, standsOnes_length ls rs' _ h2]
    · rw [if_neg hl] at h
      rw [List.countP_cons_of_neg hl, standsOnes_length ls rs _ h]

theorem standsOne_none (l : Layer V S) : StandsOne l .none (initial l) := by
  cases l <;> simp only [StandsOne]

theorem standsOnes_none : (ls : List (Layer V S)) →
    StandsOnes ls (List.replicate (ls.countP Layer.isRecurrent) .none) (initials ls)
  | [] => by simp only [StandsOnes]; rfl
  | l :: ls => by
    simp only [StandsOnes]
    by_cases hl : l.isRecurrent = true
    · rw [if_pos hl, List.countP_cons_of_pos hl, List.replicate_succ]
      exact ⟨_, _, rfl, standsOne_none l, standsOnes_none ls⟩
    · rw [if_neg hl, List.countP_cons_of_neg hl]
      exact standsOnes_none ls

/-- What the entry of a container is expanded to. -/
theorem expand_list (ls : List (Layer V S)) (r : List (SRS S)) (s : States ls) (h : StandsOnes ls r s) :
    expand (ls.countP Layer.isRecurrent) (.list r) = .ok r := by
  simp [expand, pyAssert, standsOnes_length ls r s h]

theorem core_concat (cell : S → V → S × V) (zero : S) (xs : List (SRS S × S))
    (h : ∀ p ∈ xs, StandsOne (.core cell zero : Layer V S) p.1 p.2) :
    (xs.map fun p => p.1).mapM (coreRow zero) = .ok (xs.map fun p => p.2) := by
  apply mapM_fst
  intro p hp
  have := h p hp
  obtain ⟨srs, s⟩ := p
  cases srs with
  | none =>
    have : s = zero := this
    rw [this]; rfl
  | row r =>
    have : r = s := this
    rw [this]; rfl
  | list _ => exact this.elim

/-- The expansion of the entries of a container. -/
def expanded (n : Nat) : SRS S → List (SRS S)
  | .list r => r
  | _ => List.replicate n .none

mutual
theorem concatStates_spec : (l : Layer V S) → (xs : List (SRS S × State l)) → l.isRecurrent = true →
    (∀ p ∈ xs, StandsOne l p.1 p.2) →
    ∃ rs, concatStates l (xs.map fun p => p.1) = .ok rs ∧ Stands l rs (xs.map fun p => p.2)
  | .core cell zero, xs, _, h => by
    suffices key : ∀ xs : List (SRS S × S), (∀ p ∈ xs, StandsOne (.core cell zero : Layer V S) p.1 p.2) →
        ∃ rs, concatStates (.core cell zero : Layer V S) (xs.map fun p => p.1) = .ok rs ∧
          Stands (.core cell zero : Layer V S) rs (xs.map fun p => p.2) from key xs h
    clear h; clear xs
    intro xs h
    refine ⟨.rows (xs.map fun p => p.2), ?_, ?_⟩
    · simp only [concatStates]
      rw [core_concat cell zero xs h]; rfl
    · exact rfl
  | .fn _, xs, hl, _ => by simp [Layer.isRecurrent] at hl
  | .fnTup _ _, xs, hl, _ => by simp [Layer.isRecurrent] at hl
  | .seq ls, xs, _, h => by
    suffices key : ∀ xs : List (SRS S × States ls), (∀ p ∈ xs, StandsOne (.seq ls) p.1 p.2) →
        ∃ rs, concatStates (.seq ls) (xs.map fun p => p.1) = .ok rs ∧
          Stands (.seq ls) rs (xs.map fun p => p.2) from key xs h
    clear h; clear xs
    intro xs h
    have h1 : ∀ p ∈ xs, StandsOnes ls (expanded (ls.countP Layer.isRecurrent) p.1) p.2 := by
      intro p hp
      have := h p hp
      obtain ⟨srs, s⟩ := p
      cases srs with
      | none =>
        have : s = initials ls := this
        rw [this]; exact standsOnes_none ls
      | row r => exact this.elim
      | list r => exact this
    have h2 : (xs.map fun p => p.1).mapM (expand (ls.countP Layer.isRecurrent)) =
        .ok (xs.map fun p => expanded (ls.countP Layer.isRecurrent) p.1) := by
      apply mapM_fst
      intro p hp
      have h3 := h1 p hp
      have := h p hp
      obtain ⟨srs, s⟩ := p
      cases srs with
      | none => rfl
      | row r => exact this.elim
      | list r => exact expand_list ls r s h3
    obtain ⟨rs, e1, e2⟩ := concatLinks_spec ls
      (xs.map fun p => (expanded (ls.countP Layer.isRecurrent) p.1, p.2))
      (by
        intro p hp
        obtain ⟨q, hq, rfl⟩ := List.mem_map.1 hp
        exact h1 q hq)
    rw [List.map_map] at e1 e2
    refine ⟨.list rs, ?_, e2⟩
    simp only [concatStates]
    rw [h2, bind_ok]
    refine Eq.trans (congrArg (fun z => z >>= _) e1) ?_
    rfl
  | .branch ls, xs, _, h => by
    suffices key : ∀ xs : List (SRS S × States ls), (∀ p ∈ xs, StandsOne (.branch ls) p.1 p.2) →
        ∃ rs, concatStates (.branch ls) (xs.map fun p => p.1) = .ok rs ∧
          Stands (.branch ls) rs (xs.map fun p => p.2) from key xs h
    clear h; clear xs
    intro xs h
    have h1 : ∀ p ∈ xs, StandsOnes ls (expanded (ls.countP Layer.isRecurrent) p.1) p.2 := by
      intro p hp
      have := h p hp
      obtain ⟨srs, s⟩ := p
      cases srs with
      | none =>
        have : s = initials ls := this
        rw [this]; exact standsOnes_none ls
      | row r => exact this.elim
      | list r => exact this
    have h2 : (xs.map fun p => p.1).mapM (expand (ls.countP Layer.isRecurrent)) =
        .ok (xs.map fun p => expanded (ls.countP Layer.isRecurrent) p.1) := by
      apply mapM_fst
      intro p hp
      have h3 := h1 p hp
      have := h p hp
      obtain ⟨srs, s⟩ := p
      cases srs with
      | none => rfl
      | row r => exact this.elim
      | list r => exact expand_list ls r s h3
    obtain ⟨rs, e1, e2⟩ := concatLinks_spec ls
      (xs.map fun p => (expanded (ls.countP Layer.isRecurrent) p.1, p.2))
      (by
        intro p hp
        obtain ⟨q, hq, rfl⟩ := List.mem_map.1 hp
        exact h1 q hq)
    rw [List.map_map] at e1 e2
    refine ⟨.list rs, ?_, e2⟩
    simp only [concatStates]
    rw [h2, bind_ok]
    refine Eq.trans (congrArg (fun z => z >>= _) e1) ?_
    rfl
theorem concatLinks_spec : (ls : List (Layer V S)) → (xs : List (List (SRS S) × States ls)) →
    (∀ p ∈ xs, StandsOnes ls p.1 p.2) →
    ∃ rs, concatLinks ls (xs.map fun p => p.1) = .ok rs ∧ StandsSeq ls rs (xs.map fun p => p.2)
  | [], xs, _ => ⟨[], rfl, by simp only [StandsSeq]⟩
  | l :: ls, xs, h => by
    by_cases hl : l.isRecurrent = true
    · have h1 : ∀ p ∈ xs, ∃ r rs', p.1 = r :: rs' ∧ StandsOne l r p.2.1 ∧ StandsOnes ls rs' p.2.2 := by
        intro p hp
        have := h p hp
        simp only [StandsOnes] at this
        rwa [if_pos hl] at this
      have h2 : (xs.map fun p => p.1).mapM (fun x => pyGet x 0) = .ok (xs.map fun p => p.1.headD .none) := by
        apply mapM_fst
        intro p hp
        obtain ⟨r, rs', e, _⟩ := h1 p hp
        rw [e]
        exact pyGet_nat (r :: rs') 0 (by simp)
      obtain ⟨r, e1, e2⟩ := concatStates_spec l (xs.map fun p => (p.1.headD .none, p.2.1)) hl (by
        intro p hp
        obtain ⟨q, hq, rfl⟩ := List.mem_map.1 hp
        obtain ⟨r, rs', e, h3, _⟩ := h1 q hq
        simp only [e]
        exact h3)
      obtain ⟨rs, e3, e4⟩ := concatLinks_spec ls (xs.map fun p => (p.1.tail, p.2.2)) (by
        intro p hp
        obtain ⟨q, hq, rfl⟩ := List.mem_map.1 hp
        obtain ⟨r, rs', e, _, h3⟩ := h1 q hq
        simp only [e]
        exact h3)
      rw [List.map_map] at e1 e2 e3 e4
      refine ⟨r :: rs, ?_, ?_⟩
      · simp only [concatLinks]
        rw [if_pos hl, h2, bind_ok]
        refine Eq.trans (congrArg (fun z => z >>= _) e1) ?_
        rw [bind_ok, List.map_map]
        refine Eq.trans (congrArg (fun z => z >>= _) e3) ?_
        rfl
      · simp only [StandsSeq]
        rw [if_pos hl, List.map_map, List.map_map]
        exact ⟨r, rs, rfl, e2, e4⟩
    · have h1 : ∀ p ∈ xs, StandsOnes ls p.1 p.2.2 := by
        intro p hp
        have := h p hp
        simp only [StandsOnes] at this
        rwa [if_neg hl] at this
      obtain ⟨rs, e3, e4⟩ := concatLinks_spec ls (xs.map fun p => (p.1, p.2.2)) (by
        intro p hp
        obtain ⟨q, hq, rfl⟩ := List.mem_map.1 hp
        exact h1 q hq)
      rw [List.map_map] at e3 e4
      refine ⟨rs, ?_, ?_⟩
      · simp only [concatLinks]
        rw [if_neg hl]
        exact e3
      · simp only [StandsSeq]
        rw [if_neg hl, List.map_map]
        exact e4
end

mutual
theorem sameShape_rec : (l l' : Layer V S) → SameShape l l' → l.isRecurrent = l'.isRecurrent
  | .core _ _, l', h => by cases l' <;> simp_all [SameShape, Layer.isRecurrent]
  | .fn _, l', h => by cases l' <;> simp_all [SameShape, Layer.isRecurrent]
  | .fnTup _ _, l', h => by cases l' <;> simp_all [SameShape, Layer.isRecurrent]
  | .seq _, l', h => by cases l' <;> simp_all [SameShape, Layer.isRecurrent]
  | .branch _, l', h => by cases l' <;> simp_all [SameShape, Layer.isRecurrent]
theorem sameShapes_count : (ls ls' : List (Layer V S)) → SameShapes ls ls' →
    ls.countP Layer.isRecurrent = ls'.countP Layer.isRecurrent
  | [], [], _ => rfl
  | [], _ :: _, h => by simp [SameShapes] at h
  | _ :: _, [], h => by simp [SameShapes] at h
  | l :: ls, l' :: ls', h => by
    simp only [SameShapes] at h
    rw [List.countP_cons, List.countP_cons, sameShape_rec l l' h.1, sameShapes_count ls ls' h.2]
end

mutual
theorem concatStates_same : (l l' : Layer V S) → SameShape l l' → (srs : List (SRS S)) →
    concatStates l srs = concatStates l' srs
  | .core _ _, l', h, srs => by
    cases l' <;> simp only [SameShape] at h
    subst h; rfl
  | .fn _, l', h, srs => by cases l' <;> simp only [SameShape] at h; rfl
  | .fnTup _ _, l', h, srs => by cases l' <;> simp only [SameShape] at h; rfl
  | .seq ls, l', h, srs => by
    cases l' <;> simp only [SameShape] at h
    rename_i ls'
    simp only [concatStates]
    rw [sameShapes_count ls ls' h]
    have : concatLinks ls = concatLinks ls' := funext (concatLinks_same ls ls' h)
    rw [this]
  | .branch ls, l', h, srs => by
    cases l' <;> simp only [SameShape] at h
    rename_i ls'
    simp only [concatStates]
    rw [sameShapes_count ls ls' h]
    have : concatLinks ls = concatLinks ls' := funext (concatLinks_same ls ls' h)
    rw [this]
theorem concatLinks_same : (ls ls' : List (Layer V S)) → SameShapes ls ls' → (x : List (List (SRS S))) →
    concatLinks ls x = concatLinks ls' x
  | [], [], _, _ => rfl
  | [], _ :: _, h, _ => by simp [SameShapes] at h
  | _ :: _, [], h, _ => by simp [SameShapes] at h
  | l :: ls, l' :: ls', h, x => by
    simp only [SameShapes] at h
    simp only [concatLinks]
    rw [sameShape_rec l l' h.1]
    have e1 : concatStates l = concatStates l' := funext (concatStates_same l l' h.1)
    have e2 : concatLinks ls = concatLinks ls' := funext (concatLinks_same ls ls' h.2)
    rw [e1, e2]
end

end Verif.NStepForward
