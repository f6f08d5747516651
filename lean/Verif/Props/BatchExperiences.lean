import Mathlib.Algebra.BigOperators.Ring.List
import Mathlib.Tactic.Ring
import Verif.Model.BatchExperiences
import Verif.Spec.Returns
set_option autoImplicit false

/-! # C16: `batch_experiences` -/

namespace Verif
variable {S A R F : Type} [CommSemiring R]

theorem expReward_eq (gamma : R) (exp : List (Transition S A R)) :
    expReward gamma exp = discounted gamma (exp.map (·.reward)) := by
  unfold expReward
  induction exp with
  | nil => simp [discounted]
  | cons t exp ih =>
    simp only [List.map_cons, discounted, ← ih, List.length_cons, List.range_succ_eq_map,
      List.map_map, List.sum_cons]
    simp only [pow_zero, List.getElem?_cons_zero, Option.map_some, Option.getD_some, one_mul]
    congr 1
    rw [← List.sum_map_mul_left]
    congr 1
    apply List.map_congr_left
    intro i _
    simp only [Function.comp_apply, List.getElem?_cons_succ, Nat.succ_eq_add_one]
    ring

theorem mapM_pyGet_first {α : Type} (exps : List (List α)) (h : ∀ e ∈ exps, e ≠ []) :
    ∃ l, exps.mapM (fun e => pyGet e 0) = Except.ok l ∧ l.map some = exps.map List.head? := by
  induction exps with
  | nil => exact ⟨[], rfl, rfl⟩
  | cons e exps ih =>
    obtain ⟨l, h1, h2⟩ := ih (fun e he => h e (by simp [he]))
    cases e with
    | nil => exact absurd rfl (h [] (by simp))
    | cons x t =>
      refine ⟨x :: l, ?_, by simp [h2]⟩
      rw [List.mapM_cons, h1]
      have : pyGet (x :: t) 0 = Except.ok x := by simp [pyGet, pyIndex]
      rw [this]; rfl

theorem mapM_pyGet_last {α : Type} (exps : List (List α)) (h : ∀ e ∈ exps, e ≠ []) :
    ∃ l, exps.mapM (fun e => pyGet e (-1)) = Except.ok l ∧ l.map some = exps.map List.getLast? := by
  induction exps with
  | nil => exact ⟨[], rfl, rfl⟩
  | cons e exps ih =>
    obtain ⟨l, h1, h2⟩ := ih (fun e he => h e (by simp [he]))
    have hne := h e (by simp)
    refine ⟨e.getLast hne :: l, ?_, by simp [h2, List.getLast?_eq_getLast_of_ne_nil hne]⟩
    rw [List.mapM_cons, h1]
    have hpos : 0 < e.length := List.length_pos_iff.mpr hne
    have : pyGet e (-1) = Except.ok (e.getLast hne) := by
      unfold pyGet pyIndex
      rw [if_neg (by omega), if_pos (by omega)]
      have hk : ((e.length : Int) + -1).toNat = e.length - 1 := by omega
      simp only [hk]
      rw [List.getElem?_eq_getElem (by omega), List.getLast_eq_getElem]
    rw [this]; rfl

/-- C16.  For every batch of non-empty entries: row `k` holds the first state
and action, the discounted sum of the rewards, the last next state, the terminal
flag (1 iff some transition of the entry is terminal) and the discount
`gamma ^ length` of entry `k`; next actions are present exactly when the last
transition of every entry has one, and then row `k` holds that of entry `k`. -/
theorem C16_batch_rows (phi : S → F) (gamma : R) (exps : List (List (Transition S A R)))
    (hne : ∀ e ∈ exps, e ≠ []) :
    ∃ b, batchExperiences phi gamma exps = .ok b ∧
      b.state.map some = exps.map (fun e => e.head?.map (fun t => phi t.state)) ∧
      b.action.map some = exps.map (fun e => e.head?.map (fun t => t.action)) ∧
      b.reward = exps.map (fun e => discounted gamma (e.map (fun t => t.reward))) ∧
      b.nextState.map some = exps.map (fun e => e.getLast?.map (fun t => phi t.nextState)) ∧
      b.terminal = exps.map (fun e => if ∃ t ∈ e, t.terminal = true then 1 else 0) ∧
      b.discount = exps.map (fun e => gamma ^ e.length) ∧
      (b.nextAction.isSome ↔ ∀ e ∈ exps, ∃ t, e.getLast? = some t ∧ t.nextAction.isSome) ∧
      (∀ acts, b.nextAction = some acts →
        acts.map some = exps.map (fun e => e.getLast?.bind (fun t => t.nextAction))) := by
  obtain ⟨first, f1, f2⟩ := mapM_pyGet_first exps hne
  obtain ⟨last, l1, l2⟩ := mapM_pyGet_last exps hne
  have g1 : ∀ {β : Type} (f : Transition S A R → β), (first.map f).map some =
      exps.map (fun e => e.head?.map f) := by
    intro β f
    have := congrArg (List.map (Option.map f)) f2
    simpa [Function.comp_def] using this
  have g2 : ∀ {β : Type} (f : Transition S A R → β), (last.map f).map some =
      exps.map (fun e => e.getLast?.map f) := by
    intro β f
    have := congrArg (List.map (Option.map f)) l2
    simpa [Function.comp_def] using this
  refine ⟨_, by rw [batchExperiences, f1, l1]; rfl, g1 _, g1 _, ?_, g2 _, ?_, rfl, ?_, ?_⟩
  · exact List.map_congr_left fun e _ => expReward_eq gamma e
  · apply List.map_congr_left
    intro e _
    by_cases h : ∃ t ∈ e, t.terminal = true
    · rw [if_pos h, if_pos (by simpa using h)]
    · rw [if_neg h, if_neg (by simpa using h)]
  · have hall : last.all (fun t => t.nextAction.isSome) = true ↔
        ∀ e ∈ exps, ∃ t, e.getLast? = some t ∧ t.nextAction.isSome := by
      rw [List.all_eq_true]
      constructor
      · intro h e he
        have hm : e.getLast? ∈ exps.map List.getLast? := List.mem_map_of_mem he
        rw [← l2] at hm
        obtain ⟨t, ht, hte⟩ := List.mem_map.mp hm
        exact ⟨t, hte.symm, h t ht⟩
      · intro h t ht
        have hm : some t ∈ last.map some := List.mem_map_of_mem ht
        rw [l2] at hm
        obtain ⟨e, he, hte⟩ := List.mem_map.mp hm
        obtain ⟨t', h1, h2⟩ := h e he
        rw [h1] at hte; cases hte; exact h2
    by_cases h : last.all (fun t => t.nextAction.isSome) = true
    · simp only [h, if_true, Option.isSome_some, true_iff]; exact hall.mp h
    · simp only [h]
      constructor
      · intro h'; simp at h'
      · intro h'; exact absurd (hall.mpr h') h
  · intro acts hacts
    simp only at hacts
    split at hacts
    · rename_i h
      cases hacts
      have h3 : (last.filterMap (fun t => t.nextAction)).map some = last.map (fun t => t.nextAction) := by
        rw [List.all_eq_true] at h
        clear * - h
        induction last with
        | nil => rfl
        | cons t last ih =>
          have ht := h t (by simp)
          obtain ⟨a, ha⟩ := Option.isSome_iff_exists.mp ht
          rw [List.filterMap_cons, ha]
          simp only [List.map_cons, ha]
          rw [ih (fun t ht => h t (by simp [ht]))]
      rw [h3]
      have := congrArg (List.map (fun o => o.bind (fun t : Transition S A R => t.nextAction))) l2
      simpa [Function.comp_def] using this
    · cases hacts

/-- C16, malformed batches: an empty entry raises `IndexError`. -/
theorem C16_empty_entry (phi : S → F) (gamma : R) (exps : List (List (Transition S A R)))
    (h : [] ∈ exps) : batchExperiences phi gamma exps = .error .indexError := by
  have : exps.mapM (fun e => pyGet e 0) = Except.error PyErr.indexError := by
    induction exps with
    | nil => simp at h
    | cons e exps ih =>
      rw [List.mapM_cons]
      cases e with
      | nil => rfl
      | cons x t =>
        have hx : pyGet (x :: t) 0 = Except.ok x := by simp [pyGet, pyIndex]
        rw [hx, ih (by simpa using h)]; rfl
  rw [batchExperiences, this]; rfl

-- a 3-step terminal entry and a 1-step entry, gamma = 2
example : (batchExperiences (S := Nat) (A := Nat) (R := Nat) (· + 100) 2
    [[⟨0, 5, 1, 1, none, false⟩, ⟨1, 6, 1, 2, none, false⟩, ⟨2, 7, 3, 3, some 8, true⟩],
     [⟨7, 9, 4, 8, some 1, false⟩]]).map (fun b => (b.state, b.reward, b.nextState, b.terminal,
      b.discount, b.nextAction)) =
    .ok ([100, 107], [15, 4], [103, 108], [1, 0], [8, 2], some [8, 1]) := rfl

end Verif
