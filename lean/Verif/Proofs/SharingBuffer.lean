import Verif.Proofs.Sharing
import Mathlib.Data.List.Nodup
set_option autoImplicit false
set_option linter.unusedSectionVars false

/-! Helper lemmas about the objects of replay buffers. -/

namespace Verif.Sharing
open BoundedList (newest)
variable {E T W : Type} [DecidableEq E]

theorem newest_map {α β : Type} (c : Option Nat) (f : α → β) (l : List α) : (newest c l).map f = newest c (l.map f) := by
  cases c <;> simp [newest, List.map_drop]

/-- The buffer holds the entries `M` (all that were ever stored) and the windows `L`; a transition is given with its dict. -/
structure Rel (b : Buf E T W) (M : List (List (Nat × T))) (L : E → List (Nat × T)) : Prop where
  mem : b.memory.map (get b.lists) = newest b.capacity (M.map (·.map (·.1)))
  memLt : ∀ a ∈ b.memory, a < b.lists.length
  win : ∀ e d, b.windows e = some d → d < b.lists.length ∧ d ∉ b.memory ∧ get b.lists d = (L e).map (·.1)
  winNone : ∀ e, b.windows e = none → L e = []
  inj : ∀ e e' d, b.windows e = some d → b.windows e' = some d → e = e'
  dictL : ∀ e, ∀ p ∈ L e, (b.dicts[p.1]?).map (·.1) = some p.2
  dictM : ∀ l ∈ M, ∀ p ∈ l, (b.dicts[p.1]?).map (·.1) = some p.2

theorem rel_init (cap : Option Nat) (n : Nat) : Rel (Buf.init cap n : Buf E T W) [] fun _ => [] := by
  constructor <;> simp [Buf.init]
  cases cap <;> simp [newest]

theorem rel_window {b : Buf E T W} {M L} (h : Rel b M L) (e : E) :
    Rel (b.window e).1 M L ∧ (b.window e).1.windows e = some (b.window e).2 ∧ (b.window e).1.dicts = b.dicts ∧
      (b.window e).1.numSteps = b.numSteps := by
  unfold Buf.window
  cases hw : b.windows e with
  | some d => exact ⟨h, hw, rfl, rfl⟩
  | none =>
    refine ⟨⟨?_, ?_, ?_, ?_, ?_, h.dictL, h.dictM⟩, by simp, rfl, rfl⟩
    · simp only [map_get_append _ _ _ h.memLt]; exact h.mem
    · intro a ha; have := h.memLt a ha; simp only [List.length_append]; omega
    · intro e' d hd
      simp only [Function.update_apply] at hd
      simp only [List.length_append, List.length_singleton]
      split at hd
      · rename_i he
        obtain rfl := Option.some.inj hd
        refine ⟨by omega, fun m => by have := h.memLt _ m; omega, ?_⟩
        rw [get_new, he, h.winNone e hw]; rfl
      · obtain ⟨a1, a2, a3⟩ := h.win e' d hd
        exact ⟨by omega, a2, by rw [get_append _ _ a1, a3]⟩
    · intro e' he'
      simp only [Function.update_apply] at he'
      split at he'
      · cases he'
      · exact h.winNone e' he'
    · intro e1 e2 d h1 h2
      simp only [Function.update_apply] at h1 h2
      split at h1 <;> split at h2
      · simp_all
      · obtain rfl := Option.some.inj h1
        have := (h.win e2 _ h2).1; omega
      · obtain rfl := Option.some.inj h2
        have := (h.win e1 _ h1).1; omega
      · exact h.inj e1 e2 d h1 h2

/-- The deque of an environment gets new items. -/
theorem rel_write {b : Buf E T W} {M L} (h : Rel b M L) {e : E} {d : Nat} (hd : b.windows e = some d) (w : List (Nat × T))
    (r : List (T × Option W)) (hw : ∀ p ∈ w, ((b.dicts ++ r)[p.1]?).map (·.1) = some p.2) :
    Rel { b with dicts := b.dicts ++ r, lists := b.lists.set d (w.map (·.1)) } M (Function.update L e w) := by
  obtain ⟨d1, d2, d3⟩ := h.win e d hd
  have old : ∀ p : Nat × T, (b.dicts[p.1]?).map (·.1) = some p.2 → ((b.dicts ++ r)[p.1]?).map (·.1) = some p.2 := by
    intro p hp
    obtain ⟨v, hv, -⟩ := Option.map_eq_some_iff.1 hp
    obtain ⟨hl, -⟩ := List.getElem?_eq_some_iff.1 hv
    rw [List.getElem?_append_left hl]; exact hp
  refine ⟨?_, ?_, ?_, ?_, h.inj, ?_, ?_⟩
  · simp only [map_get_set _ _ _ _ d2]; exact h.mem
  · intro a ha; simpa using h.memLt a ha
  · intro e' d' hd'
    obtain ⟨a1, a2, a3⟩ := h.win e' d' hd'
    refine ⟨by simpa using a1, a2, ?_⟩
    by_cases he : e' = e
    · subst he
      obtain rfl := Option.some.inj (hd.symm.trans hd')
      rw [get_set_self _ _ d1, Function.update_self]
    · have hne : d' ≠ d := by rintro rfl; exact he (h.inj e' e _ hd' hd)
      rw [get_set_ne _ _ hne, a3, Function.update_of_ne he]
  · intro e' he'
    have : e' ≠ e := by rintro rfl; rw [hd] at he'; cases he'
    rw [Function.update_of_ne this]; exact h.winNone e' he'
  · intro e' p hp
    by_cases he : e' = e
    · subst he; rw [Function.update_self] at hp; exact hw p hp
    · rw [Function.update_of_ne he] at hp; exact old p (h.dictL e' p hp)
  · intro l hl p hp; exact old p (h.dictM l hl p hp)

theorem dequeAppend_map {α β : Type} (f : α → β) (n : Nat) (w : List α) (x : α) :
    (dequeAppend n w x).map f = dequeAppend n (w.map f) (f x) := by
  unfold dequeAppend
  simp only [List.length_map]
  split <;> simp

theorem dequeAppend_mem {α : Type} {n : Nat} {w : List α} {x p : α} (h : p ∈ dequeAppend n w x) : p ∈ w ∨ p = x := by
  unfold dequeAppend at h
  split at h
  · simpa using List.mem_of_mem_tail h
  · simpa using h

theorem rel_add {b : Buf E T W} {M L} (h : Rel b M L) {e : E} {d : Nat} (hd : b.windows e = some d) (x : T) :
    Rel (b.add d x) M (Function.update L e (dequeAppend b.numSteps (L e) (b.dicts.length, x))) := by
  have := rel_write h hd (dequeAppend b.numSteps (L e) (b.dicts.length, x)) [(x, none)] ?_
  · rw [dequeAppend_map, ← (h.win e d hd).2.2] at this
    exact this
  · intro p hp
    rcases dequeAppend_mem hp with hp | rfl
    · have := h.dictL e p hp
      obtain ⟨v, hv, -⟩ := Option.map_eq_some_iff.1 this
      obtain ⟨hl, -⟩ := List.getElem?_eq_some_iff.1 hv
      rw [List.getElem?_append_left hl]; exact this
    · simp

theorem rel_del {b : Buf E T W} {M L} (h : Rel b M L) {e : E} {d : Nat} (hd : b.windows e = some d) :
    Rel (b.delFirst d) M (Function.update L e (L e).tail) := by
  have := rel_write h hd (L e).tail [] fun p hp => by
    rw [List.append_nil]; exact h.dictL e p (List.mem_of_mem_tail hp)
  rw [List.map_tail, ← (h.win e d hd).2.2] at this
  simpa [Buf.delFirst] using this

theorem rel_store {b : Buf E T W} {M L} (h : Rel b M L) {e : E} {d : Nat} (hd : b.windows e = some d) :
    Rel (b.store d) (M ++ [L e]) L := by
  obtain ⟨d1, d2, d3⟩ := h.win e d hd
  refine ⟨?_, ?_, ?_, h.winNone, h.inj, h.dictL, ?_⟩
  · simp only [Buf.store]
    rw [newest_map, List.map_append, List.map_cons, List.map_nil, get_new, map_get_append _ _ _ h.memLt, h.mem, d3, RAQ.newest_newest]
    simp
  · intro a ha
    have := NStep.newest_subset _ _ ha
    simp only [Buf.store, List.length_append, List.length_singleton]
    rcases List.mem_append.1 this with m | m
    · have := h.memLt a m; omega
    · simp at m; omega
  · intro e' d' hd'
    obtain ⟨a1, a2, a3⟩ := h.win e' d' hd'
    refine ⟨by simp [Buf.store]; omega, fun m => ?_, by simp only [Buf.store]; rw [get_append _ _ a1, a3]⟩
    rcases List.mem_append.1 (NStep.newest_subset _ _ m) with m | m
    · exact a2 m
    · simp at m; omega
  · intro l hl p hp
    rcases List.mem_append.1 hl with m | m
    · exact h.dictM l m p hp
    · obtain rfl := List.mem_singleton.1 m
      exact h.dictL e p hp

theorem rel_drain {e : E} {d : Nat} (f : Nat) {b : Buf E T W} {M L} (h : Rel b M L) (hd : b.windows e = some d)
    (hf : (L e).length ≤ f) :
    Rel (b.drain d f) (M ++ NStep.tails (L e)) (Function.update L e []) := by
  induction f generalizing b M L with
  | zero =>
    have : L e = [] := List.length_eq_zero_iff.1 (by omega)
    rw [this, NStep.tails_nil, List.append_nil, ← this, Function.update_eq_self]
    exact h
  | succ f ih =>
    have hg := (h.win e d hd).2.2
    rw [Buf.drain]
    cases hl : L e with
    | nil =>
      rw [hl, List.map_nil] at hg
      rw [if_pos hg, NStep.tails_nil, List.append_nil, ← hl, Function.update_eq_self]
      exact h
    | cons x t =>
      rw [if_neg (by rw [hg, hl]; simp)]
      have h2 := rel_del (rel_store h hd) hd
      have := ih h2 hd (by rw [Function.update_self, hl]; rw [hl] at hf; simpa using hf)
      rw [Function.update_self, Function.update_idem, hl, List.tail_cons, List.append_assoc] at this
      rw [NStep.tails_cons]
      exact this

theorem weigh_eq (b : Buf E T W) (a : Nat) (w : W) :
    (b.weigh a w).lists = b.lists ∧ (b.weigh a w).memory = b.memory ∧ (b.weigh a w).windows = b.windows ∧
      (b.weigh a w).numSteps = b.numSteps ∧ (b.weigh a w).capacity = b.capacity ∧ (b.weigh a w).dicts.length = b.dicts.length ∧
      ∀ j : Nat, ((b.weigh a w).dicts[j]?).map (·.1) = (b.dicts[j]?).map (·.1) := by
  unfold Buf.weigh
  split
  · refine ⟨rfl, rfl, rfl, rfl, rfl, by simp, fun j => ?_⟩
    simp only [List.getElem?_modify]
    cases b.dicts[j]? with
    | none => rfl
    | some v => simp only [Option.map_some]; split <;> rfl
  · exact ⟨rfl, rfl, rfl, rfl, rfl, rfl, fun _ => rfl⟩

/-- The buffers differ at most in weights. -/
def SameBut (b c : Buf E T W) : Prop :=
  c.lists = b.lists ∧ c.memory = b.memory ∧ c.windows = b.windows ∧
      c.numSteps = b.numSteps ∧ c.capacity = b.capacity ∧ c.dicts.length = b.dicts.length ∧
      ∀ j : Nat, (c.dicts[j]?).map (·.1) = (b.dicts[j]?).map (·.1)

theorem weighs_eq (ps : List (Nat × W)) (b : Buf E T W) : SameBut b (ps.foldl (fun b p => b.weigh p.1 p.2) b) := by
  induction ps generalizing b with
  | nil => exact ⟨rfl, rfl, rfl, rfl, rfl, rfl, fun _ => rfl⟩
  | cons p ps ih =>
    obtain ⟨a1, a2, a3, a4, a5, a6, a7⟩ := weigh_eq b p.1 p.2
    obtain ⟨b1, b2, b3, b4, b5, b6, b7⟩ := ih (b.weigh p.1 p.2)
    exact ⟨b1.trans a1, b2.trans a2, b3.trans a3, b4.trans a4, b5.trans a5, b6.trans a6, fun j => (b7 j).trans (a7 j)⟩

theorem rel_same {b c : Buf E T W} {M L} (h : Rel b M L) (s : SameBut b c) : Rel c M L := by
  obtain ⟨a1, a2, a3, a4, a5, a6, a7⟩ := s
  refine ⟨?_, ?_, ?_, ?_, ?_, fun e p hp => (a7 _).trans (h.dictL e p hp), fun l hl p hp => (a7 _).trans (h.dictM l hl p hp)⟩
  · rw [a1, a2, a5]; exact h.mem
  · rw [a1, a2]; exact h.memLt
  · rw [a1, a2, a3]; exact h.win
  · rw [a3]; exact h.winNone
  · rw [a3]; exact h.inj

theorem add_facts (b : Buf E T W) (d : Nat) (x : T) : (b.add d x).numSteps = b.numSteps ∧ (b.add d x).windows = b.windows ∧
    (b.add d x).dicts.length = b.dicts.length + 1 := by simp [Buf.add]

theorem drain_facts (d f : Nat) (b : Buf E T W) : (b.drain d f).numSteps = b.numSteps ∧ (b.drain d f).dicts = b.dicts := by
  induction f generalizing b with
  | zero => exact ⟨rfl, rfl⟩
  | succ f ih =>
    rw [Buf.drain]
    split
    · exact ⟨rfl, rfl⟩
    · exact ih _

/-- The call as one about transitions that are given with their dicts; the next dict is `j`. -/
def opOf (j : Nat) : Call E T W → Option (NStep.Op E (Nat × T))
  | .append e x => some (.append e (j, x))
  | .stop e => some (.stop e)
  | .sample _ _ => none

theorem rel_step (term : T → Bool) {b : Buf E T W} {M L} (h : Rel b M L) (c : Call E T W) :
    match opOf b.dicts.length c with
    | some op => Rel (b.step term c) (M ++ NStep.emit (fun p => term p.2) b.numSteps (L op.env) op)
        (Function.update L op.env (NStep.window (fun p => term p.2) b.numSteps (L op.env) op)) ∧
        (b.step term c).numSteps = b.numSteps ∧
        (b.step term c).dicts.length = b.dicts.length + (match c with | .append _ _ => 1 | _ => 0)
    | none => SameBut b (b.step term c) := by
  cases c with
  | sample idx ws => exact weighs_eq _ b
  | append e x =>
    simp only [opOf, NStep.emit, NStep.window, Buf.step, Buf.append]
    rw [NStep.env_append]
    obtain ⟨w1, w2, w3, w4⟩ := rel_window h e
    generalize b.window e = r at *
    obtain ⟨c, d⟩ := r
    simp only at *
    have ha := rel_add w1 w2 x
    have hf := add_facts c d x
    rw [w3, w4] at ha
    have hg := (ha.win e d w2).2.2
    rw [Function.update_self] at hg
    by_cases ht : term x = true
    · rw [if_pos ht, if_pos ht, if_pos ht]
      have := rel_drain (get (c.add d x).lists d).length ha w2 (by rw [hg]; simp)
      rw [Function.update_self, Function.update_idem] at this
      refine ⟨this, ?_, ?_⟩
      · rw [(drain_facts _ _ _).1, hf.1, w4]
      · rw [(drain_facts _ _ _).2, hf.2.2, w3]
    · rw [if_neg ht, if_neg ht, if_neg ht, hf.1, w4, hg, List.length_map]
      by_cases hn : (dequeAppend b.numSteps (L e) (b.dicts.length, x)).length = b.numSteps
      · rw [if_pos hn, if_pos hn]
        have := rel_store ha w2
        rw [Function.update_self] at this
        exact ⟨this, by rw [← w4]; rfl, by rw [← w3]; exact hf.2.2⟩
      · rw [if_neg hn, if_neg hn, List.append_nil]
        exact ⟨ha, by rw [← w4]; rfl, by rw [← w3]; exact hf.2.2⟩
  | stop e =>
    simp only [opOf, NStep.emit, NStep.window, Buf.step, Buf.stop]
    rw [NStep.env_stop]
    obtain ⟨w1, w2, w3, w4⟩ := rel_window h e
    generalize b.window e = r at *
    obtain ⟨c, d⟩ := r
    simp only at *
    have hl : (get c.lists d).length = (L e).length := by rw [(w1.win e d w2).2.2, List.length_map]
    rw [hl, w4]
    obtain ⟨c', hc'⟩ : ∃ c', c' = if 0 < (L e).length ∧ (L e).length < b.numSteps then c.store d else c := ⟨_, rfl⟩
    have h1 : Rel c' (M ++ if 0 < (L e).length ∧ (L e).length < b.numSteps then [L e] else []) L ∧ c'.windows = c.windows ∧
        c'.dicts = c.dicts ∧ c'.numSteps = c.numSteps := by
      rw [hc']
      split
      · exact ⟨rel_store w1 w2, rfl, rfl, rfl⟩
      · rw [List.append_nil]; exact ⟨w1, rfl, rfl, rfl⟩
    obtain ⟨r1, f1, f2, f3⟩ := h1
    rw [← hc', f3, w4]
    obtain ⟨c'', hc''⟩ : ∃ c'', c'' = if 0 < (L e).length ∧ (L e).length ≤ b.numSteps then c'.delFirst d else c' := ⟨_, rfl⟩
    have h2 : Rel c'' (M ++ if 0 < (L e).length ∧ (L e).length < b.numSteps then [L e] else [])
        (Function.update L e (if 0 < (L e).length ∧ (L e).length ≤ b.numSteps then (L e).tail else L e)) ∧ c''.windows = c.windows ∧
        c''.dicts = c.dicts ∧ c''.numSteps = c.numSteps := by
      rw [hc'']
      split
      · exact ⟨rel_del r1 (by rw [f1]; exact w2), f1, f2, f3⟩
      · rw [Function.update_eq_self]; exact ⟨r1, f1, f2, f3⟩
    obtain ⟨r2, g1, g2, g3⟩ := h2
    rw [← hc'']
    have w2' : c''.windows e = some d := by rw [g1]; exact w2
    have := rel_drain (get c''.lists d).length r2 w2' (by rw [(r2.win e d w2').2.2, List.length_map]; exact Nat.le_refl _)
    rw [Function.update_self, Function.update_idem, List.append_assoc] at this
    exact ⟨this, by rw [(drain_facts _ _ _).1, g3, w4], by rw [(drain_facts _ _ _).2, g2, w3]; rfl⟩

/-- The feeding calls, their transitions with the dicts they are put in. -/
def tagged : Nat → List (Call E T W) → List (NStep.Op E (Nat × T))
  | _, [] => []
  | j, .append e x :: cs => .append e (j, x) :: tagged (j + 1) cs
  | j, .stop e :: cs => .stop e :: tagged j cs
  | j, .sample _ _ :: cs => tagged j cs

/-- The operation on other transitions. -/
def mapOp {A B : Type} (f : A → B) : NStep.Op E A → NStep.Op E B
  | .append e x => .append e (f x)
  | .stop e => .stop e

theorem tagged_feeds (cs : List (Call E T W)) (j : Nat) : (tagged j cs).map (mapOp (·.2)) = feeds cs := by
  induction cs generalizing j with
  | nil => rfl
  | cons c cs ih => cases c <;> simp [tagged, feeds, mapOp, ih]

/-- Entries and windows after one operation. -/
def pureStep {A : Type} (term : A → Bool) (n : Nat) (s : List (List A) × (E → List A)) (op : NStep.Op E A) :
    List (List A) × (E → List A) :=
  (s.1 ++ NStep.emit term n (s.2 op.env) op, Function.update s.2 op.env (NStep.window term n (s.2 op.env) op))

theorem rel_run (term : T → Bool) (cs : List (Call E T W)) {b : Buf E T W} {s : List (List (Nat × T)) × (E → List (Nat × T))}
    (h : Rel b s.1 s.2) :
    Rel (b.run term cs) ((tagged b.dicts.length cs).foldl (pureStep (fun p => term p.2) b.numSteps) s).1
      ((tagged b.dicts.length cs).foldl (pureStep (fun p => term p.2) b.numSteps) s).2 ∧
      (b.run term cs).numSteps = b.numSteps := by
  induction cs generalizing b s with
  | nil => exact ⟨h, rfl⟩
  | cons c cs ih =>
    have hs := rel_step term h c
    cases c with
    | sample idx ws =>
      simp only [opOf] at hs
      have := ih (s := s) (rel_same h hs)
      rw [hs.2.2.2.1, hs.2.2.2.2.2.1] at this
      exact this
    | append e x =>
      simp only [opOf] at hs
      have := ih (s := pureStep (fun p => term p.2) b.numSteps s (.append e (b.dicts.length, x))) hs.1
      rw [hs.2.1, hs.2.2] at this
      exact this
    | stop e =>
      simp only [opOf] at hs
      have := ih (s := pureStep (fun p => term p.2) b.numSteps s (.stop e)) hs.1
      rw [hs.2.1, hs.2.2] at this
      exact this

theorem tails_map {A B : Type} (f : A → B) (w : List A) : (NStep.tails w).map (·.map f) = NStep.tails (w.map f) := by
  induction w with
  | nil => rfl
  | cons x t ih => rw [NStep.tails_cons, List.map_cons, ih, List.map_cons, NStep.tails_cons]

theorem emit_map {A B : Type} (f : A → B) (term : B → Bool) (n : Nat) (w : List A) (op : NStep.Op E A) :
    (NStep.emit (fun a => term (f a)) n w op).map (·.map f) = NStep.emit term n (w.map f) (mapOp f op) ∧
    (NStep.window (fun a => term (f a)) n w op).map f = NStep.window term n (w.map f) (mapOp f op) := by
  cases op with
  | append e x =>
    simp only [NStep.emit, NStep.window, mapOp, ← dequeAppend_map, List.length_map, ← tails_map]
    constructor
    · split
      · rfl
      · split <;> rfl
    · split <;> rfl
  | stop e =>
    simp only [NStep.emit, NStep.window, mapOp, List.length_map, List.map_append, ← List.map_tail]
    refine ⟨?_, rfl⟩
    congr 1
    · split <;> rfl
    · split <;> rw [tails_map]

theorem pure_map {A B : Type} (f : A → B) (term : B → Bool) (n : Nat) (ops : List (NStep.Op E A)) (s : List (List A) × (E → List A)) :
    ((ops.foldl (pureStep (fun a => term (f a)) n) s).1).map (·.map f) =
      ((ops.map (mapOp f)).foldl (pureStep term n) (s.1.map (·.map f), fun e => (s.2 e).map f)).1 := by
  induction ops generalizing s with
  | nil => rfl
  | cons op ops ih =>
    rw [List.foldl_cons, List.map_cons, List.foldl_cons, ih]
    congr 2
    have he : (mapOp f op).env = op.env := by cases op <;> rfl
    unfold pureStep
    rw [he]
    refine Prod.ext ?_ ?_
    · simp only [List.map_append, (emit_map f term n _ op).1]
    · funext e
      simp only [Function.update_apply]
      split
      · exact (emit_map f term n _ op).2
      · rfl

theorem pure_run {A : Type} (term : A → Bool) (ops : List (NStep.Op E A)) {b : ReplayBuffer E A} (ok : b.memory.Ok)
    (s : List (List A) × (E → List A)) (hm : b.memory.iter = newest b.memory.maxlen s.1) (hl : b.last = s.2) :
    (b.run term ops).memory.iter = newest b.memory.maxlen (ops.foldl (pureStep term b.numSteps) s).1 := by
  induction ops generalizing b s with
  | nil => exact hm
  | cons op ops ih =>
    have hs := NStep.step_eq RAQ.append term b op
    have hi := RAQ.foldl_append_iter (NStep.emit term b.numSteps (b.last op.env) op) b.memory ok
    have := ih (b := b.step RAQ.append term op) (by rw [hs]; exact hi.2.2) (pureStep term b.numSteps s op)
      (by rw [hs]; simp only; rw [hi.1, hi.2.1, hm, RAQ.newest_newest, hl]; rfl) (by rw [hs]; simp only; rw [hl]; rfl)
    rw [show (b.step RAQ.append term op).numSteps = b.numSteps by rw [hs],
      show (b.step RAQ.append term op).memory.maxlen = b.memory.maxlen by rw [hs]; exact hi.2.1] at this
    exact this

end Verif.Sharing
