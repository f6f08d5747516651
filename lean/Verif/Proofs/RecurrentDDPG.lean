import Verif.Model.RecurrentDDPG
import Mathlib.Tactic.Ring

set_option autoImplicit false
set_option linter.unusedSectionVars false

namespace Verif.RecDDPG
variable {F A R H X Y S : Type}

theorem bind_ok {α β : Type} (x : α) (f : α → Py β) : ((Except.ok x : Py α) >>= f) = f x := rfl

theorem mapM_ok {α β : Type} (f : α → Py β) (g : α → β) (l : List α) (h : ∀ x ∈ l, f x = .ok (g x)) :
    l.mapM f = .ok (l.map g) := by
  induction l with
  | nil => rfl
  | cons a l ih =>
    rw [List.mapM_cons, h a (by simp), ih (fun x hx => h x (by simp [hx]))]
    rfl

/-- The state of a row after it has read the given inputs. -/
def Fn.after (f : Fn H X Y) (past : List X) : H := past.foldl (fun h x => (f.step h x).1) f.zero

/-- The output for an input that follows the given ones. -/
def Fn.out (f : Fn H X Y) (past : List X) (x : X) : Y := (f.step (f.after past) x).2

theorem Fn.after_snoc (f : Fn H X Y) (past : List X) (x : X) :
    f.after (past ++ [x]) = (f.step (f.after past) x).1 := by
  simp [Fn.after, List.foldl_append]

theorem Fn.call_some {α : Type} (f : Fn H X Y) (alive dead : List α) (st : α → H) (x : α → X) :
    f.call (some ((alive ++ dead).map st)) (alive.map x) =
      .ok (some (alive.map (fun e => (f.step (st e) (x e)).1) ++ dead.map st),
        alive.map fun e => (f.step (st e) (x e)).2) := by
  unfold Fn.call
  simp only []
  rw [if_neg (by simp)]
  have hz : ∀ {Z : Type} (g : H → X → Z), List.zipWith g ((alive ++ dead).map st) (alive.map x) =
      alive.map fun e => g (st e) (x e) := by
    intro Z g
    induction alive with
    | nil => simp
    | cons e alive ih => simp only [List.cons_append, List.map_cons, List.zipWith_cons_cons, ih]
  rw [hz, hz]
  congr 4
  rw [List.map_append, List.length_map]
  have : alive.length = (alive.map st).length := by simp
  rw [this, List.drop_left]

/-- The state `st` is that of the rows `eps` after the inputs `hist`. -/
def Reps {α : Type} (f : Fn H X Y) (eps : List α) (hist : α → List X) (st : Option (List H)) : Prop :=
  st = some (eps.map fun e => f.after (hist e)) ∨ (st = none ∧ ∀ e ∈ eps, hist e = [])

theorem Fn.call_hist {α : Type} (f : Fn H X Y) (alive dead : List α) (hist hist' : α → List X) (x : α → X)
    (st : Option (List H)) (hr : Reps f (alive ++ dead) hist st) (hd : st = none → dead = [])
    (ha : ∀ e ∈ alive, hist' e = hist e ++ [x e]) (hdead : ∀ e ∈ dead, hist' e = hist e) :
    f.call st (alive.map x) = .ok (some ((alive ++ dead).map fun e => f.after (hist' e)),
      alive.map fun e => f.out (hist e) (x e)) := by
  have hnew : ((alive ++ dead).map fun e => f.after (hist' e)) =
      alive.map (fun e => (f.step (f.after (hist e)) (x e)).1) ++ dead.map fun e => f.after (hist e) := by
    rw [List.map_append]
    congr 1
    · apply List.map_congr_left
      intro e he
      rw [ha e he, f.after_snoc]
    · apply List.map_congr_left
      intro e he
      rw [hdead e he]
  rw [hnew]
  rcases hr with rfl | ⟨rfl, h0⟩
  · exact f.call_some alive dead (fun e => f.after (hist e)) x
  · have hd' := hd rfl
    subst hd'
    unfold Fn.call
    simp only [List.map_map, List.map_nil, List.append_nil]
    congr 2
    · congr 1
      apply List.map_congr_left
      intro e he
      simp [h0 e (by simp [he]), Fn.after]
    · apply List.map_congr_left
      intro e he
      simp [h0 e (by simp [he]), Fn.after, Fn.out]

/-! ### the batches -/

/-- Longest first. -/
def Desc {α : Type} (eps : List (List α)) : Prop := eps.Pairwise fun a b => b.length ≤ a.length

theorem sortEpisodes_perm {α : Type} (eps : List (List α)) : (sortEpisodes eps).Perm eps :=
  (List.reverse_perm _).trans (List.mergeSort_perm eps _)

theorem sortEpisodes_desc {α : Type} (eps : List (List α)) : Desc (sortEpisodes eps) := by
  unfold Desc sortEpisodes
  rw [List.pairwise_reverse]
  have := List.pairwise_mergeSort (le := fun a b : List α => decide (a.length ≤ b.length))
    (by intro a b c h1 h2; simp only [decide_eq_true_eq] at *; omega)
    (by intro a b; simp only [Bool.or_eq_true, decide_eq_true_eq]; omega) eps
  exact this.imp (by intro a b h; simpa using h)

theorem split_desc {α : Type} (eps : List (List α)) (h : Desc eps) (i : Nat) :
    ∃ alive dead, eps = alive ++ dead ∧ (∀ e ∈ alive, i < e.length) ∧ ∀ e ∈ dead, e.length ≤ i := by
  induction eps with
  | nil => exact ⟨[], [], rfl, by simp, by simp⟩
  | cons e eps ih =>
    have h' := List.pairwise_cons.1 h
    obtain ⟨alive, dead, rfl, h1, h2⟩ := ih h'.2
    by_cases he : i < e.length
    · refine ⟨e :: alive, dead, rfl, ?_, h2⟩
      intro x hx
      rcases List.mem_cons.1 hx with rfl | hx
      · exact he
      · exact h1 x hx
    · refine ⟨[], e :: (alive ++ dead), rfl, by simp, ?_⟩
      intro x hx
      rcases List.mem_cons.1 hx with rfl | hx
      · omega
      · have := h'.1 x hx; omega

theorem column_split {α : Type} (i : Nat) (alive dead : List (List α)) (d : α)
    (h1 : ∀ e ∈ alive, i < e.length) (h2 : ∀ e ∈ dead, e.length ≤ i) :
    column i (alive ++ dead) = alive.map fun e => [e.getD i d] := by
  induction alive with
  | nil =>
    cases dead with
    | nil => rfl
    | cons e dead =>
      have : e[i]? = none := List.getElem?_eq_none (h2 e (by simp))
      simp [column, this]
  | cons e alive ih =>
    have he := h1 e (by simp)
    have : e[i]? = some (e.getD i d) := by simp [List.getD, List.getElem?_eq_getElem he]
    simp only [List.cons_append, column, this, List.map_cons]
    rw [ih (fun x hx => h1 x (by simp [hx]))]

theorem filterMap_split {α β : Type} (i : Nat) (alive dead : List (List α)) (d : α) (g : List α → α → β)
    (h1 : ∀ e ∈ alive, i < e.length) (h2 : ∀ e ∈ dead, e.length ≤ i) :
    (alive ++ dead).filterMap (fun e => (e[i]?).map (g e)) = alive.map fun e => g e (e.getD i d) := by
  rw [List.filterMap_append]
  have hd : dead.filterMap (fun e => (e[i]?).map (g e)) = [] := by
    rw [List.filterMap_eq_nil_iff]
    intro e he
    rw [List.getElem?_eq_none (h2 e he)]; rfl
  rw [hd, List.append_nil]
  induction alive with
  | nil => rfl
  | cons e alive ih =>
    have he := h1 e (by simp)
    have : e[i]? = some (e.getD i d) := by simp [List.getD, List.getElem?_eq_getElem he]
    rw [List.filterMap_cons_some (b := g e (e.getD i d)) (by rw [this]; rfl), List.map_cons,
      ih (fun x hx => h1 x (by simp [hx]))]

theorem pyGet_zero {α : Type} (x : α) (l : List α) : pyGet (x :: l) 0 = .ok x := by
  unfold pyGet pyIndex; simp

theorem pyGet_one {α : Type} (x : α) : pyGet [x] (-1) = .ok x := by
  unfold pyGet pyIndex; simp

variable [CommRing R]

/-- The batch of single transitions, when all have a next action. -/
def batchOf (phi : S → F) (trs : List (Transition S A R)) : ExpBatch F A R :=
  { state := trs.map fun t => phi t.state
    action := trs.map (·.action)
    reward := trs.map (·.reward)
    nextState := trs.map fun t => phi t.nextState
    terminal := trs.map fun t => if t.terminal then 1 else 0
    discount := trs.map fun _ => 0
    nextAction := some (trs.filterMap (·.nextAction)) }

theorem batchExperiences_single (phi : S → F) (gamma : R) (trs : List (Transition S A R))
    (h : ∀ t ∈ trs, t.nextAction ≠ none) :
    batchExperiences phi gamma (trs.map fun t => [t]) =
      .ok { batchOf phi trs with discount := trs.map fun _ => gamma } := by
  unfold batchExperiences
  have e1 : (trs.map fun t => [t]).mapM (fun e => pyGet e 0) = .ok trs := by
    rw [List.mapM_map]
    refine (mapM_ok _ (fun t => t) _ (fun t _ => ?_)).trans (by simp)
    exact pyGet_zero t []
  have e2 : (trs.map fun t => [t]).mapM (fun e => pyGet e (-1)) = .ok trs := by
    rw [List.mapM_map]
    refine (mapM_ok _ (fun t => t) _ (fun t _ => ?_)).trans (by simp)
    exact pyGet_one t
  rw [e1, bind_ok, e2, bind_ok]
  show Except.ok _ = Except.ok _
  congr 1
  have hall : trs.all (·.nextAction.isSome) = true := by
    rw [List.all_eq_true]
    intro t ht
    exact Option.isSome_iff_ne_none.2 (h t ht)
  simp only [batchOf, hall, if_true, List.map_map]
  congr 1
  · apply List.map_congr_left
    intro t _
    simp [expReward]
  · apply List.map_congr_left
    intro t _
    simp
  · apply List.map_congr_left
    intro t _
    simp

end Verif.RecDDPG
