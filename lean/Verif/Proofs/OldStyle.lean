import Verif.Spec.OldStyle
import Mathlib.Data.List.Basic
import Mathlib.Data.List.Nodup
import Mathlib.Data.List.Range

set_option autoImplicit false
set_option linter.unusedSectionVars false

namespace Verif.OldStyle

variable {V F : Type} {g : Graph V F}

theorem used_cons_iff {v : V} {vs : List V} {f : F} :
    Used g (v :: vs) f ↔ Used g [v] f ∨ Used g vs f := by
  constructor
  · intro h
    induction h with
    | direct hv hc =>
      rcases List.mem_cons.1 hv with rfl | hv
      · exact .inl (.direct (by simp) hc)
      · exact .inr (.direct hv hc)
    | indirect _ hi hc ih =>
      rcases ih with ih | ih
      · exact .inl (.indirect ih hi hc)
      · exact .inr (.indirect ih hi hc)
  · have mono : ∀ {a b : List V}, (∀ x ∈ a, x ∈ b) → Used g a f → Used g b f := by
      intro a b hab h
      induction h with
      | direct hv hc => exact .direct (hab _ hv) hc
      | indirect _ hi hc ih => exact .indirect ih hi hc
    rintro (h | h)
    · exact mono (by simp) h
    · exact mono (fun x hx => List.mem_cons_of_mem _ hx) h

theorem used_nil {f : F} : ¬ Used g [] f := by
  intro h
  induction h with
  | direct hv _ => simp at hv
  | indirect _ _ _ ih => exact ih

theorem used_single {v : V} {f' : F} :
    Used g [v] f' ↔ ∃ f, g.creator v = some f ∧ (f' = f ∨ Used g (g.inputs f) f') := by
  constructor
  · intro h
    induction h with
    | direct hv hc =>
      obtain rfl := List.mem_singleton.1 hv
      exact ⟨_, hc, .inl rfl⟩
    | indirect _ hi hc ih =>
      obtain ⟨f, h1, h2⟩ := ih
      refine ⟨f, h1, .inr ?_⟩
      rcases h2 with rfl | h2
      · exact .direct hi hc
      · exact .indirect h2 hi hc
  · rintro ⟨f, h1, rfl | h2⟩
    · exact .direct (by simp) h1
    · induction h2 with
      | direct hv hc => exact .indirect (.direct (by simp) h1) hv hc
      | indirect _ hi hc ih => exact .indirect ih hi hc

theorem walk_nil {w : List Nat} : ¬ Walk g [] w := by
  match w with
  | [] => simp [Walk]
  | [i] => simp [Walk]
  | i :: j :: r => simp [Walk]

/-- Walks from the head. -/
theorem walk_zero {v : V} {vs : List V} {w : List Nat} :
    Walk g (v :: vs) (0 :: w) ↔ w = [] ∨ ∃ f, g.creator v = some f ∧ Walk g (g.inputs f) w := by
  match w with
  | [] => simp [Walk]
  | j :: r => simp [Walk]

theorem walk_succ {v : V} {vs : List V} {i : Nat} {w : List Nat} :
    Walk g (v :: vs) ((i + 1) :: w) ↔ Walk g vs (i :: w) := by
  match w with
  | [] => simp [Walk]
  | j :: r => simp [Walk]

theorem walk_cons {v : V} {vs : List V} {w : List Nat} :
    Walk g (v :: vs) w ↔ (∃ r, w = 0 :: r ∧ (r = [] ∨ ∃ f, g.creator v = some f ∧ Walk g (g.inputs f) r)) ∨
      ∃ i r, w = (i + 1) :: r ∧ Walk g vs (i :: r) := by
  match w with
  | [] => simp [Walk]
  | 0 :: r => rw [walk_zero]; simp
  | (i + 1) :: r => rw [walk_succ]; simp

/-- Moves a walk one variable to the right. -/
def shift : List Nat → List Nat
  | [] => []
  | i :: r => (i + 1) :: r

theorem shift_injective : Function.Injective shift := by
  intro a b h
  match a, b with
  | [], [] => rfl
  | [], _ :: _ => simp [shift] at h
  | _ :: _, [] => simp [shift] at h
  | _ :: _, _ :: _ => simpa [shift] using h

theorem cons_nodup {v : V} {vs : List V} {ws sub : List (List Nat)} (hw : ws.Nodup) (hs : sub.Nodup)
    (hsub : ∀ w ∈ sub, w ≠ []) : ([0] :: sub.map (0 :: ·) ++ ws.map shift).Nodup := by
  rw [List.nodup_append]
  refine ⟨List.nodup_cons.2 ⟨?_, hs.map (fun a b h => by simpa using h)⟩, hw.map shift_injective, ?_⟩
  · intro h
    obtain ⟨w, h1, h2⟩ := List.mem_map.1 h
    exact hsub w h1 (by simpa using h2)
  · intro a ha b hb hab
    obtain ⟨w, -, rfl⟩ := List.mem_map.1 hb
    have h0 : ∃ r, a = 0 :: r := by
      rcases List.mem_cons.1 ha with rfl | ha
      · exact ⟨_, rfl⟩
      · obtain ⟨r, -, rfl⟩ := List.mem_map.1 ha; exact ⟨_, rfl⟩
    obtain ⟨r, rfl⟩ := h0
    match w with
    | [] => simp [shift] at hab
    | _ :: _ => simp [shift] at hab

/-- What a call returns. -/
structure Right (g : Graph V F) (vs : List V) (r : List F × Nat) : Prop where
  found : ∀ f, f ∈ r.1 ↔ g.old f = true ∧ Used g vs f
  visits : ∃ ws : List (List Nat), ws.Nodup ∧ (∀ w, w ∈ ws ↔ Walk g vs w) ∧ r.2 = ws.length

theorem right_nil : Right g [] ([], 0) :=
  ⟨fun f => by simp [used_nil], [], by simp, fun w => by simp [walk_nil], rfl⟩

theorem right_leaf {v : V} {vs : List V} (hc : g.creator v = none) {r : List F × Nat} (h : Right g vs r) :
    Right g (v :: vs) (r.1, 1 + r.2) := by
  obtain ⟨h1, ws, h2, h3, h4⟩ := h
  refine ⟨fun f => ?_, [0] :: ([] : List (List Nat)).map (0 :: ·) ++ ws.map shift,
    cons_nodup (v := v) (vs := vs) h2 (by simp) (by simp), fun w => ?_, ?_⟩
  · rw [h1, used_cons_iff, used_single]; simp [hc]
  · rw [walk_cons]
    simp only [List.map_nil, List.mem_append, List.mem_singleton, List.mem_map, hc]
    constructor
    · rintro (rfl | ⟨a, ha, rfl⟩)
      · exact .inl ⟨[], rfl, .inl rfl⟩
      · match a, (h3 a).1 ha with
        | i :: r, hw => exact .inr ⟨i, r, rfl, hw⟩
    · rintro (⟨r, rfl, rfl | ⟨f, hf, -⟩⟩ | ⟨i, r, rfl, hw⟩)
      · exact .inl rfl
      · cases hf
      · exact .inr ⟨i :: r, (h3 _).2 hw, rfl⟩
  · simp [h4]; omega

theorem right_node {v : V} {vs : List V} {f : F} (hc : g.creator v = some f) {r s : List F × Nat}
    (hs : Right g (g.inputs f) s) (h : Right g vs r) :
    Right g (v :: vs) ((if g.old f then [f] else []) ++ s.1 ++ r.1, 1 + s.2 + r.2) := by
  obtain ⟨h1, ws, h2, h3, h4⟩ := h
  obtain ⟨s1, us, s2, s3, s4⟩ := hs
  have hne : ∀ w ∈ us, w ≠ [] := by
    rintro w hw rfl
    have := (s3 _).1 hw
    simp [Walk] at this
  refine ⟨fun f' => ?_, [0] :: us.map (0 :: ·) ++ ws.map shift, cons_nodup (v := v) (vs := vs) h2 s2 hne,
    fun w => ?_, ?_⟩
  · have hu : Used g (v :: vs) f' ↔ (f' = f ∨ Used g (g.inputs f) f') ∨ Used g vs f' := by
      rw [used_cons_iff, used_single]; simp only [hc, Option.some.injEq, exists_eq_left']
    simp only [List.mem_append, h1, s1, hu]
    by_cases ho : g.old f = true
    · simp only [ho, if_true, List.mem_singleton]
      constructor
      · rintro ((rfl | h) | h)
        · exact ⟨ho, .inl (.inl rfl)⟩
        · exact ⟨h.1, .inl (.inr h.2)⟩
        · exact ⟨h.1, .inr h.2⟩
      · rintro ⟨a, (b | b) | b⟩
        · exact .inl (.inl b)
        · exact .inl (.inr ⟨a, b⟩)
        · exact .inr ⟨a, b⟩
    · simp only [if_neg ho, List.not_mem_nil, false_or]
      constructor
      · rintro (h | h)
        · exact ⟨h.1, .inl (.inr h.2)⟩
        · exact ⟨h.1, .inr h.2⟩
      · rintro ⟨a, (rfl | b) | b⟩
        · exact absurd a ho
        · exact .inl ⟨a, b⟩
        · exact .inr ⟨a, b⟩
  · rw [walk_cons]
    simp only [List.mem_append, List.mem_cons, List.mem_map, hc, Option.some.injEq, exists_eq_left']
    constructor
    · rintro ((rfl | ⟨a, ha, rfl⟩) | ⟨a, ha, rfl⟩)
      · exact .inl ⟨[], rfl, .inl rfl⟩
      · exact .inl ⟨a, rfl, .inr ((s3 a).1 ha)⟩
      · match a, (h3 a).1 ha with
        | i :: r, hw => exact .inr ⟨i, r, rfl, hw⟩
    · rintro (⟨r, rfl, rfl | hw⟩ | ⟨i, r, rfl, hw⟩)
      · exact .inl (.inl rfl)
      · exact .inl (.inr ⟨r, (s3 r).2 hw, rfl⟩)
      · exact .inr ⟨i :: r, (h3 _).2 hw, rfl⟩
  · simp [h4, s4]; omega

theorem findLoop_acc (recurse : List V → Py (List F × Nat)) (vs : List V) (a : List F) (n : Nat) :
    findLoop g recurse vs (a, n) =
      match findLoop g recurse vs ([], 0) with
      | .error e => .error e
      | .ok r => .ok (a ++ r.1, n + r.2) := by
  induction vs generalizing a n with
  | nil => simp [findLoop]
  | cons v vs ih =>
    simp only [findLoop]
    cases hc : g.creator v with
    | none =>
      simp only
      rw [ih a (n + 1), ih [] (0 + 1)]
      cases findLoop g recurse vs ([], 0) with
      | error e => rfl
      | ok r => simp; omega
    | some f =>
      simp only
      cases hr : recurse (g.inputs f) with
      | error e => rfl
      | ok s =>
        obtain ⟨more, k⟩ := s
        simp only
        rw [ih _ (n + 1 + k), ih _ (0 + 1 + k)]
        cases findLoop g recurse vs ([], 0) with
        | error e => rfl
        | ok r => simp only [Except.ok.injEq, Prod.mk.injEq]; constructor
                  · split <;> simp
                  · omega

theorem findOld_step (d : Nat) (v : V) (vs : List V) :
    findOld g (d + 1) (v :: vs) =
      match g.creator v with
      | none => (match findOld g (d + 1) vs with
        | .error e => .error e
        | .ok r => .ok (r.1, 1 + r.2))
      | some f => (match findOld g d (g.inputs f) with
        | .error e => .error e
        | .ok s => (match findOld g (d + 1) vs with
          | .error e => .error e
          | .ok r => .ok ((if g.old f then [f] else []) ++ s.1 ++ r.1, 1 + s.2 + r.2))) := by
  simp only [findOld, findLoop]
  cases hc : g.creator v with
  | none =>
    simp only
    rw [findLoop_acc]
    simp only [List.nil_append, Nat.zero_add]
  | some f =>
    simp only
    cases findOld g d (g.inputs f) with
    | error e => rfl
    | ok s =>
      simp only
      rw [findLoop_acc]
      simp only [List.nil_append, Nat.zero_add]

theorem findOld_right (d : Nat) (vs : List V) (h : ∀ fs, Chain g vs fs → fs.length < d) :
    ∃ r, findOld g d vs = .ok r ∧ Right g vs r := by
  induction d generalizing vs with
  | zero => exact absurd (h [] trivial) (by simp)
  | succ d ih =>
    induction vs with
    | nil => exact ⟨_, rfl, right_nil⟩
    | cons v vs ihv =>
      obtain ⟨r, hr, hR⟩ := ihv (fun fs hc => h fs (by
        match fs, hc with
        | [], _ => trivial
        | f :: fs, ⟨⟨x, hx, hf⟩, hc⟩ => exact ⟨⟨x, List.mem_cons_of_mem _ hx, hf⟩, hc⟩))
      rw [findOld_step]
      cases hc : g.creator v with
      | none => exact ⟨_, by simp only [hr], right_leaf hc hR⟩
      | some f =>
        obtain ⟨s, hs, hS⟩ := ih (g.inputs f) (fun fs hch => by
          have := h (f :: fs) ⟨⟨v, by simp, hc⟩, hch⟩
          simpa using this)
        exact ⟨_, by simp only [hr, hs], right_node hc hS hR⟩

theorem findOld_error (d : Nat) (vs : List V) (e : PyErr) (h : findOld g d vs = .error e) : e = .recursionError := by
  induction d generalizing vs with
  | zero => exact (Except.error.inj h).symm
  | succ d ih =>
    induction vs with
    | nil => cases h
    | cons v vs ihv =>
      rw [findOld_step] at h
      cases hc : g.creator v with
      | none =>
        simp only [hc] at h
        cases hr : findOld g (d + 1) vs with
        | error e' => rw [hr] at h; exact ihv (hr.trans (by simpa using h))
        | ok r => rw [hr] at h; cases h
      | some f =>
        simp only [hc] at h
        cases hs : findOld g d (g.inputs f) with
        | error e' => rw [hs] at h; exact ih _ (hs.trans (by simpa using h))
        | ok s =>
          simp only [hs] at h
          cases hr : findOld g (d + 1) vs with
          | error e' => rw [hr] at h; exact ihv (hr.trans (by simpa using h))
          | ok r => rw [hr] at h; cases h

theorem findOld_deep (d : Nat) (vs : List V) (fs : List F) (h : Chain g vs fs) (hd : d ≤ fs.length) :
    findOld g d vs = .error .recursionError := by
  induction d generalizing vs fs with
  | zero => rfl
  | succ d ih =>
    cases fs with
    | nil => simp at hd
    | cons f fs =>
      obtain ⟨⟨x, hx, hf⟩, hc⟩ := h
      have hin := ih (g.inputs f) fs hc (by simpa using hd)
      cases hres : findOld g (d + 1) vs with
      | error e => rw [findOld_error _ _ _ hres]
      | ok r =>
        exfalso
        induction vs generalizing r with
        | nil => simp at hx
        | cons v vs ihv =>
          rw [findOld_step] at hres
          rcases List.mem_cons.1 hx with rfl | hx
          · simp only [hf, hin] at hres; cases hres
          · cases hr : findOld g (d + 1) vs with
            | ok r' => exact ihv hx _ hr
            | error e =>
              cases hcv : g.creator v with
              | none => simp only [hcv, hr] at hres; cases hres
              | some f' =>
                simp only [hcv, hr] at hres
                cases hs : findOld g d (g.inputs f') with
                | error e => rw [hs] at hres; cases hres
                | ok s => rw [hs] at hres; cases hres

end Verif.OldStyle
