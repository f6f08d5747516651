import Mathlib.Data.List.Forall2
import Mathlib.Data.List.Nodup
import Mathlib.Data.List.Basic
import Verif.Spec.SharedObjects

set_option autoImplicit false
set_option linter.unusedSectionVars false

namespace Verif.Shared
variable {D V : Type} [DecidableEq D]

/-! ### Paths -/

mutual
theorem namedParams_ne_nil : ∀ (l : Link), ∀ x ∈ namedParams l, x.1 ≠ []
  | .mk params persistent children => by
    intro x hx
    simp only [namedParams, List.mem_append, List.mem_map] at hx
    rcases hx with ⟨y, _, rfl⟩ | hx
    · simp
    · obtain ⟨c, p, h, _, _⟩ := namedParamsList_form children x hx
      rw [h]; simp
theorem namedParamsList_form : ∀ (cs : List (Comp × Link)), ∀ x ∈ namedParamsList cs,
    ∃ c p, x.1 = c :: p ∧ c ∈ cs.map Prod.fst ∧ p ≠ []
  | [] => by intro x hx; simp [namedParamsList] at hx
  | (c, l) :: rest => by
    intro x hx
    simp only [namedParamsList, List.mem_append, List.mem_map] at hx
    rcases hx with ⟨y, hy, rfl⟩ | hx
    · exact ⟨c, y.1, rfl, by simp, namedParams_ne_nil l y hy⟩
    · obtain ⟨c', p, h1, h2, h3⟩ := namedParamsList_form rest x hx
      exact ⟨c', p, h1, by simp only [List.map_cons]; exact List.mem_cons_of_mem _ h2, h3⟩
end

mutual
theorem namedPersistent_ne_nil : ∀ (l : Link), ∀ x ∈ namedPersistent l, x.1 ≠ []
  | .mk params persistent children => by
    intro x hx
    simp only [namedPersistent, List.mem_append, List.mem_map] at hx
    rcases hx with ⟨y, _, rfl⟩ | hx
    · simp
    · obtain ⟨c, p, h, _, _⟩ := namedPersistentList_form children x hx
      rw [h]; simp
theorem namedPersistentList_form : ∀ (cs : List (Comp × Link)), ∀ x ∈ namedPersistentList cs,
    ∃ c p, x.1 = c :: p ∧ c ∈ cs.map Prod.fst ∧ p ≠ []
  | [] => by intro x hx; simp [namedPersistentList] at hx
  | (c, l) :: rest => by
    intro x hx
    simp only [namedPersistentList, List.mem_append, List.mem_map] at hx
    rcases hx with ⟨y, hy, rfl⟩ | hx
    · exact ⟨c, y.1, rfl, by simp, namedPersistent_ne_nil l y hy⟩
    · obtain ⟨c', p, h1, h2, h3⟩ := namedPersistentList_form rest x hx
      exact ⟨c', p, h1, by simp only [List.map_cons]; exact List.mem_cons_of_mem _ h2, h3⟩
end

theorem perm4 {α : Type} (a b c d : List α) : ((a ++ b) ++ (c ++ d)).Perm ((a ++ c) ++ (b ++ d)) := by
  rw [List.append_assoc, List.append_assoc]
  exact List.Perm.append_left a (List.perm_append_comm_assoc b c d)

mutual
theorem link_keys_nodup : ∀ (l : Link), l.NamesOk →
    ((namedParams l ++ namedPersistent l).map Prod.fst).Nodup
  | .mk params persistent children => by
    intro h
    simp only [Link.NamesOk] at h
    obtain ⟨h1, h2, h3⟩ := h
    simp only [namedParams, namedPersistent]
    rw [List.Perm.nodup_iff ((perm4 _ _ _ _).map _), List.map_append, List.nodup_append]
    refine ⟨?_, linkList_keys_nodup children h2 h3, ?_⟩
    · have : ((List.map (fun p : String × Nat => (([Comp.name p.1] : Path), p.2)) params ++
          List.map (fun p : String × Nat => (([Comp.name p.1] : Path), p.2)) persistent).map Prod.fst) =
          (params.map Prod.fst ++ persistent.map Prod.fst).map (fun n => ([Comp.name n] : Path)) := by
        simp [Function.comp_def]
      rw [this]
      exact h1.map (by intro a b hab; simpa using hab)
    · intro a ha b hb hab
      subst hab
      simp only [List.map_append, List.map_map, List.mem_append, List.mem_map, Function.comp_apply] at ha hb
      have hl : a.length = 1 := by
        rcases ha with ⟨y, _, rfl⟩ | ⟨y, _, rfl⟩ <;> rfl
      rcases hb with ⟨y, hy, rfl⟩ | ⟨y, hy, rfl⟩
      · obtain ⟨c, p, e, _, hp⟩ := namedParamsList_form children y hy
        rw [e] at hl
        exact hp (by simpa using hl)
      · obtain ⟨c, p, e, _, hp⟩ := namedPersistentList_form children y hy
        rw [e] at hl
        exact hp (by simpa using hl)
theorem linkList_keys_nodup : ∀ (cs : List (Comp × Link)), (cs.map Prod.fst).Nodup → NamesOkList cs →
    ((namedParamsList cs ++ namedPersistentList cs).map Prod.fst).Nodup
  | [] => by intro _ _; simp [namedParamsList, namedPersistentList]
  | (c, l) :: rest => by
    intro h1 h2
    simp only [NamesOkList] at h2
    simp only [List.map_cons, List.nodup_cons] at h1
    simp only [namedParamsList, namedPersistentList]
    rw [List.Perm.nodup_iff ((perm4 _ _ _ _).map _), List.map_append, List.nodup_append]
    refine ⟨?_, linkList_keys_nodup rest h1.2 h2.2, ?_⟩
    · have : ((List.map (fun p : Path × Nat => (c :: p.1, p.2)) (namedParams l) ++
          List.map (fun p : Path × Nat => (c :: p.1, p.2)) (namedPersistent l)).map Prod.fst) =
          ((namedParams l ++ namedPersistent l).map Prod.fst).map (fun p => c :: p) := by
        simp [Function.comp_def]
      rw [this]
      exact (link_keys_nodup l h2.1).map (by intro a b hab; simpa using hab)
    · intro a ha b hb hab
      subst hab
      simp only [List.map_append, List.map_map, List.mem_append, List.mem_map, Function.comp_apply] at ha hb
      have hl : ∃ p, a = c :: p := by
        rcases ha with ⟨y, _, rfl⟩ | ⟨y, _, rfl⟩ <;> exact ⟨_, rfl⟩
      obtain ⟨p, rfl⟩ := hl
      rcases hb with ⟨y, hy, he⟩ | ⟨y, hy, he⟩
      · obtain ⟨c', p', e, hc, _⟩ := namedParamsList_form rest y hy
        rw [e] at he
        simp only [List.cons.injEq] at he
        exact h1.1 (he.1 ▸ hc)
      · obtain ⟨c', p', e, hc, _⟩ := namedPersistentList_form rest y hy
        rw [e] at he
        simp only [List.cons.injEq] at he
        exact h1.1 (he.1 ▸ hc)
end

theorem slotNamed_mem : ∀ (l : List (String × Nat)), (l.map Prod.fst).Nodup → ∀ n i, (n, i) ∈ l →
    slotNamed l n = .ok i
  | [], _, n, i, h => by simp at h
  | (m, j) :: rest, hn, n, i, h => by
    simp only [List.map_cons, List.nodup_cons] at hn
    simp only [List.mem_cons, Prod.mk.injEq] at h
    rcases h with ⟨rfl, rfl⟩ | h
    · simp [slotNamed]
    · have hne : m ≠ n := by
        rintro rfl
        exact hn.1 (List.mem_map.mpr ⟨_, h, rfl⟩)
      simp only [slotNamed, if_neg hne]
      exact slotNamed_mem rest hn.2 n i h

theorem childAt_mem : ∀ (l : List (Comp × Link)), (l.map Prod.fst).Nodup → ∀ c x, (c, x) ∈ l →
    childAt l c = .ok x
  | [], _, c, x, h => by simp at h
  | (m, j) :: rest, hn, c, x, h => by
    simp only [List.map_cons, List.nodup_cons] at hn
    simp only [List.mem_cons, Prod.mk.injEq] at h
    rcases h with ⟨rfl, rfl⟩ | h
    · simp [childAt]
    · have hne : m ≠ c := by
        rintro rfl
        exact hn.1 (List.mem_map.mpr ⟨_, h, rfl⟩)
      simp only [childAt, if_neg hne]
      exact childAt_mem rest hn.2 c x h

mutual
theorem findPersistent_mem : ∀ (l : Link), l.NamesOk → ∀ x ∈ namedPersistent l, findPersistent l x.1 = .ok x.2
  | .mk params persistent children => by
    intro h x hx
    simp only [Link.NamesOk] at h
    obtain ⟨h1, h2, h3⟩ := h
    simp only [namedPersistent, List.mem_append, List.mem_map] at hx
    rcases hx with ⟨y, hy, rfl⟩ | hx
    · rw [findPersistent]
      exact slotNamed_mem persistent (List.nodup_append.mp h1).2.1 _ _ hy
    · obtain ⟨c, l, p, e1, e2, e3, e4⟩ := findPersistentList_mem children h3 x hx
      cases p with
      | nil => exact absurd rfl e3
      | cons c' p =>
        rw [e1, findPersistent, childAt_mem children h2 _ _ e2]
        exact e4
theorem findPersistentList_mem : ∀ (cs : List (Comp × Link)), NamesOkList cs → ∀ x ∈ namedPersistentList cs,
    ∃ c l p, x.1 = c :: p ∧ (c, l) ∈ cs ∧ p ≠ [] ∧ findPersistent l p = .ok x.2
  | [] => by intro _ x hx; simp [namedPersistentList] at hx
  | (c, l) :: rest => by
    intro h x hx
    simp only [NamesOkList] at h
    simp only [namedPersistentList, List.mem_append, List.mem_map] at hx
    rcases hx with ⟨y, hy, rfl⟩ | hx
    · exact ⟨c, l, y.1, rfl, by simp, namedPersistent_ne_nil l y hy, findPersistent_mem l h.1 y hy⟩
    · obtain ⟨c', l', p, e1, e2, e3, e4⟩ := findPersistentList_mem rest h.2 x hx
      exact ⟨c', l', p, e1, List.mem_cons_of_mem _ e2, e3, e4⟩
end

mutual
/-- Different slots of an object have different paths. -/
theorem slots_keys_nodup : ∀ (o : Obj), NamesOk o → ((slots o).map Prod.fst).Nodup
  | .tuple l => by
    intro h
    simp only [NamesOk] at h
    exact (slotsList_keys_nodup l 0 h).1
  | .link l => by
    intro h
    simp only [NamesOk] at h
    simp only [slots]
    exact link_keys_nodup l h
  | .optimizer s => by
    intro h
    simp only [NamesOk] at h
    obtain ⟨h1, h2⟩ := h
    simp only [slots]
    induction s with
    | nil => simp
    | cons x s ih =>
      simp only [List.map_cons, List.nodup_cons] at h1
      simp only [List.flatMap_cons, List.map_append, List.nodup_append]
      refine ⟨?_, ih h1.2 (fun y hy => h2 y (List.mem_cons_of_mem _ hy)), ?_⟩
      · have : ((x.2.map fun e => (x.1 ++ [Comp.name e.1], e.2)).map Prod.fst) =
            (x.2.map Prod.fst).map (fun n => x.1 ++ [Comp.name n]) := by simp [Function.comp_def]
        rw [this]
        exact (h2 x (by simp)).map (by intro a b hab; simpa using hab)
      · intro a ha b hb hab
        subst hab
        simp only [List.mem_map, List.mem_flatMap] at ha hb
        obtain ⟨_, ⟨e, _, rfl⟩, rfl⟩ := ha
        obtain ⟨_, ⟨y, hy, e', _, rfl⟩, he⟩ := hb
        have := (List.append_inj' he (by simp)).1
        exact h1.1 (this ▸ List.mem_map.mpr ⟨y, hy, rfl⟩)
  | .value _ => by intro _; simp [slots]
  | .other => by intro _; simp [slots]
theorem slotsList_keys_nodup : ∀ (l : List Obj) (k : Nat), NamesOkObjs l →
    ((slotsList k l).map Prod.fst).Nodup ∧ ∀ x ∈ slotsList k l, ∃ j p, x.1 = .idx j :: p ∧ k ≤ j
  | [], k => by intro _; simp [slotsList]
  | o :: os, k => by
    intro h
    simp only [NamesOkObjs] at h
    obtain ⟨h1, h2⟩ := slotsList_keys_nodup os (k + 1) h.2
    simp only [slotsList]
    constructor
    · rw [List.map_append, List.nodup_append]
      refine ⟨?_, h1, ?_⟩
      · have : (((slots o).map fun x => (Comp.idx k :: x.1, x.2)).map Prod.fst) =
            ((slots o).map Prod.fst).map (fun p => Comp.idx k :: p) := by simp [Function.comp_def]
        rw [this]
        exact (slots_keys_nodup o h.1).map (by intro a b hab; simpa using hab)
      · intro a ha b hb hab
        subst hab
        simp only [List.map_map, List.mem_map, Function.comp_apply] at ha hb
        obtain ⟨x, _, rfl⟩ := ha
        obtain ⟨y, hy, he⟩ := hb
        obtain ⟨j, p, e, hj⟩ := h2 y hy
        rw [e] at he
        simp only [List.cons.injEq, Comp.idx.injEq] at he
        omega
    · intro x hx
      simp only [List.mem_append, List.mem_map] at hx
      rcases hx with ⟨y, _, rfl⟩ | hx
      · exact ⟨k, y.1, rfl, Nat.le_refl _⟩
      · obtain ⟨j, p, e, hj⟩ := h2 x hx
        exact ⟨j, p, e, by omega⟩
end

end Verif.Shared
