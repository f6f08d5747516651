import Verif.Spec.NStepForward
import Mathlib.Data.List.Basic

set_option autoImplicit false
set_option linter.unusedSectionVars false

namespace Verif.NStepForward
variable {V S : Type} [Inhabited V]

theorem mapM_ok {α β : Type} (f : α → Py β) (g : α → β) (l : List α) (h : ∀ x ∈ l, f x = .ok (g x)) :
    l.mapM f = .ok (l.map g) := by
  induction l with
  | nil => rfl
  | cons a l ih =>
    rw [List.mapM_cons, h a (by simp), ih (fun x hx => h x (by simp [hx]))]
    rfl

theorem pyGet_nat {α : Type} (l : List α) (i : Nat) (h : i < l.length) : pyGet l i = .ok l[i] := by
  unfold pyGet pyIndex
  simp [h]

/-- All rows have the width of the shape. -/
def Wide (sh : Shape) (rows : List (List V)) : Prop := ∀ r ∈ rows, r.length = sh.width

theorem Wide.append {sh : Shape} {a b : List (List V)} : Wide sh (a ++ b) ↔ Wide sh a ∧ Wide sh b := by
  simp only [Wide, List.mem_append]
  exact ⟨fun h => ⟨fun r hr => h r (.inl hr), fun r hr => h r (.inr hr)⟩,
    fun h r hr => hr.elim (h.1 r) (h.2 r)⟩

theorem Wide.flatten {sh : Shape} {l : List (List (List V))} (h : ∀ s ∈ l, Wide sh s) : Wide sh l.flatten := by
  intro r hr
  obtain ⟨s, hs, hr⟩ := List.mem_flatten.1 hr
  exact h s hs r hr

/-! ### zip -/

theorem zipStar_table {α β γ : Type} (g : β → γ → α) (bs : List β) (hb : bs ≠ []) (cs : List γ) :
    zipStar cs.length (bs.map fun b => cs.map (g b)) = cs.map fun c => bs.map fun b => g b c := by
  induction cs with
  | nil => rfl
  | cons c cs ih =>
    simp only [List.length_cons, zipStar, List.map_cons]
    have h1 : (bs.map fun b => g b c :: cs.map (g b)).isEmpty = false := by
      cases bs with
      | nil => exact absurd rfl hb
      | cons _ _ => rfl
    have h2 : (bs.map fun b => g b c :: cs.map (g b)).any List.isEmpty = false := by
      simp [List.any_eq_false]
    rw [h1, h2]
    simp only [Bool.or_self, Bool.false_eq_true, if_false, List.filterMap_map, List.map_map]
    congr 1
    · rw [show (List.head? ∘ fun b => g b c :: cs.map (g b)) = fun b => some (g b c) from rfl]
      exact (List.filterMap_eq_map (f := fun b => g b c)) ▸ rfl

theorem row_eq (r : List V) (k : Nat) (h : r.length = k) : (List.range k).map (fun i => r.getD i default) = r := by
  subst h
  apply List.ext_getElem
  · simp
  · intro i h1 h2
    simp [List.getD, h2]

/-! ### sections -/

theorem splitAxis_flatten (seqs : List (List V)) (hne : seqs ≠ []) (pre : List V) (pos : Nat)
    (hp : pre.length = pos) :
    splitAxis (pre ++ seqs.flatten) pos (cumsum pos (seqs.dropLast.map List.length)) = seqs := by
  induction seqs generalizing pre pos with
  | nil => exact absurd rfl hne
  | cons s seqs ih =>
    cases seqs with
    | nil =>
      subst hp
      simp [cumsum, splitAxis]
    | cons s2 seqs =>
      have h := ih (by simp) (pre ++ s) (pos + s.length) (by simp [hp])
      simp only [List.dropLast_cons₂, List.map_cons, cumsum, splitAxis, List.flatten_cons] at h ⊢
      congr 1
      · subst hp
        rw [← List.append_assoc, ← List.append_assoc, List.append_assoc (pre ++ s),
          List.take_append_of_le_length (by simp), List.take_of_length_le (by simp)]
        simp
      · rw [← List.append_assoc, ← List.append_assoc] at *
        simpa using h

/-! ### packing -/

theorem pack_none (rows : List (List V)) : pack none rows = .arr (rows.map fun r => r.headD default) := rfl
theorem pack_some (k : Nat) (rows : List (List V)) :
    pack (some k) rows = .tup ((List.range k).map fun i => rows.map fun r => r.getD i default) := rfl

theorem concatArrays_cons (x : List V) (rest : List (Val V)) : concatArrays (.arr x :: rest) =
    (do let xs ← concatArrays rest; pure (x ++ xs)) := rfl
theorem component_cons (i : Nat) (as : List (List V)) (rest : List (Val V)) : component i (.tup as :: rest) =
    (do let x ← pyGet as i; let xs ← component i rest; pure (x ++ xs)) := rfl
theorem concatSeqs_arr (x : List V) (rest : List (Val V)) : concatSeqs (.arr x :: rest) =
    (do let xs ← concatArrays (.arr x :: rest); pure (.arr xs)) := rfl
theorem concatSeqs_tup (as : List (List V)) (rest : List (Val V)) : concatSeqs (.tup as :: rest) =
    (do let xs ← (List.range as.length).mapM (fun i => component i (.tup as :: rest)); pure (.tup xs)) := rfl
theorem argRows_tup (a : List V) (as : List (List V)) : argRows (.tup (a :: as)) =
    if as.all (fun b => b.length == a.length) then .ok (zipStar a.length (a :: as))
    else .error .valueError := rfl

theorem concatArrays_pack (seqs : List (List (List V))) :
    concatArrays (seqs.map (pack none)) = .ok (seqs.flatten.map fun r => r.headD default) := by
  induction seqs with
  | nil => rfl
  | cons s seqs ih =>
    rw [List.map_cons, pack_none, concatArrays_cons, ih]
    simp only [List.flatten_cons, List.map_append]
    rfl

theorem component_pack (k i : Nat) (hi : i < k) (seqs : List (List (List V))) :
    component i (seqs.map (pack (some k))) = .ok (seqs.flatten.map fun r => r.getD i default) := by
  induction seqs with
  | nil => rfl
  | cons s seqs ih =>
    rw [List.map_cons, pack_some, component_cons, pyGet_nat _ _ (by simpa using hi), ih]
    simp only [List.getElem_map, List.getElem_range, List.flatten_cons, List.map_append]
    rfl

theorem concatSeqs_pack (sh : Shape) (seqs : List (List (List V))) (hne : seqs ≠ []) :
    concatSeqs (seqs.map (pack sh)) = .ok (pack sh seqs.flatten) := by
  cases sh with
  | none =>
    cases seqs with
    | nil => exact absurd rfl hne
    | cons s seqs =>
      have h := concatArrays_pack (s :: seqs)
      rw [List.map_cons, pack_none] at h ⊢
      rw [concatSeqs_arr, h]
      rfl
  | some k =>
    cases seqs with
    | nil => exact absurd rfl hne
    | cons s seqs =>
      have h := fun i hi => component_pack k i hi (s :: seqs)
      simp only [List.map_cons, pack_some] at h ⊢
      rw [concatSeqs_tup]
      simp only [List.length_map, List.length_range]
      rw [mapM_ok _ (fun i => (s :: seqs).flatten.map fun r => r.getD i default) _
        (fun i hi => h i (List.mem_range.1 hi))]
      rfl

theorem sections_map {W : Type} (f : List V → W) (seqs : List (List (List V))) :
    seqs.dropLast.map List.length = (seqs.map fun s => s.map f).dropLast.map List.length := by
  rw [← List.map_dropLast, List.map_map]
  congr 1
  funext s
  simp

theorem splitSeqs_pack (sh : Shape) (h0 : sh ≠ some 0) (seqs : List (List (List V))) (hne : seqs ≠ []) :
    splitSeqs (pack sh seqs.flatten) (cumsum 0 (seqs.dropLast.map List.length)) = seqs.map (pack sh) := by
  have key : ∀ f : List V → V, splitAxis (seqs.flatten.map f) 0 (cumsum 0 (seqs.dropLast.map List.length)) =
      seqs.map (fun s => s.map f) := by
    intro f
    have := splitAxis_flatten (seqs.map fun s => s.map f) (by simpa using hne) [] 0 rfl
    rw [sections_map f]
    simpa [List.map_flatten] using this
  have hlen : ∀ acc (l : List Nat), (cumsum acc l).length = l.length := by
    intro acc l
    induction l generalizing acc with
    | nil => rfl
    | cons x l ih => simp [cumsum, ih]
  cases sh with
  | none =>
    simp only [pack_none, splitSeqs]
    rw [key, List.map_map]
    rfl
  | some k =>
    simp only [pack_some, splitSeqs, List.map_map]
    have hk : List.range k ≠ [] := by
      intro h
      have : k = 0 := by simpa using h
      exact h0 (by rw [this])
    have hl : (cumsum 0 (seqs.dropLast.map List.length)).length + 1 = seqs.length := by
      rw [hlen]
      cases seqs with
      | nil => exact absurd rfl hne
      | cons s seqs => simp
    have e : ((fun xs => splitAxis xs 0 (cumsum 0 (seqs.dropLast.map List.length))) ∘
        fun i => seqs.flatten.map fun r => r.getD i default) =
        fun i => seqs.map fun s => s.map fun r => r.getD i default := by
      funext i
      exact key _
    rw [e, hl, zipStar_table (fun (i : Nat) (s : List (List V)) => s.map fun r => r.getD i default) _ hk,
      List.map_map]
    rfl

theorem argRows_pack (sh : Shape) (h0 : sh ≠ some 0) (rows : List (List V)) (hw : Wide sh rows) :
    argRows (pack sh rows) = .ok rows := by
  cases sh with
  | none =>
    simp only [pack_none, argRows, List.map_map]
    congr 1
    rw [List.map_congr_left (g := id)]
    · simp
    · intro r hr
      have := hw r hr
      match r, this with
      | [x], _ => rfl
  | some k =>
    cases k with
    | zero => exact absurd rfl h0
    | succ k =>
      simp only [pack_some]
      have hne : List.range (k + 1) ≠ [] := by simp
      have h := zipStar_table (fun (i : Nat) (r : List V) => r.getD i default) _ hne rows
      rw [List.map_congr_left (g := id) (fun r hr => by simpa using row_eq r (k + 1) (hw r hr))] at h
      rw [List.range_succ_eq_map] at h ⊢
      simp only [List.map_cons] at h ⊢
      rw [argRows_tup, if_pos]
      · simp only [List.length_map]
        rw [h]; simp
      · simp

end Verif.NStepForward
