import Mathlib.Logic.Function.Basic
import Mathlib.Data.List.Induction
import Verif.Spec.Episodes
import Verif.Proofs.RandomAccessQueue
set_option autoImplicit false

/-! Helper lemmas for the n-step replay buffer. -/

namespace Verif
namespace NStep
variable {M E T : Type _} [DecidableEq E]
open Episodes

/-- All non-empty suffixes of a window, longest first. -/
def tails (w : List T) : List (List T) := (List.range w.length).map (fun k => w.drop k)

theorem tails_nil : tails ([] : List T) = [] := rfl

theorem tails_cons (x : T) (t : List T) : tails (x :: t) = (x :: t) :: tails t := by
  simp [tails, List.range_succ_eq_map, Function.comp_def]

theorem flush_eq (push : M → List T → M) (w : List T) (m : M) :
    flush push w m = (tails w).foldl push m := by
  induction w generalizing m with
  | nil => rfl
  | cons x t ih => rw [flush, ih, tails_cons]; rfl

/-- The environment a call is about. -/
def Op.env : Op E T → E
  | .append e _ => e
  | .stop e => e

theorem env_append (e : E) (x : T) : Op.env (.append e x) = e := rfl
theorem env_stop (e : E) : Op.env (.stop e : Op E T) = e := rfl

/-- The entries one call stores, given the environment's window. -/
def emit (term : T → Bool) (n : Nat) (w : List T) : Op E T → List (List T)
  | .append _ x =>
    let w := dequeAppend n w x
    if term x then tails w else if w.length = n then [w] else []
  | .stop _ =>
    (if 0 < w.length ∧ w.length < n then [w] else []) ++
      tails (if 0 < w.length ∧ w.length ≤ n then w.tail else w)

/-- The window after the call. -/
def window (term : T → Bool) (n : Nat) (w : List T) : Op E T → List T
  | .append _ x => if term x then [] else dequeAppend n w x
  | .stop _ => []

theorem step_eq (push : M → List T → M) (term : T → Bool) (b : NStep M E T) (op : Op E T) :
    b.step push term op =
      ⟨b.numSteps, (emit term b.numSteps (b.last op.env) op).foldl push b.memory,
        Function.update b.last op.env (window term b.numSteps (b.last op.env) op)⟩ := by
  cases op with
  | append e x =>
    rw [env_append]
    simp only [step, append, emit, window]
    by_cases ht : term x = true
    · simp [flush_eq, ht]
    · simp only [ht]
      by_cases hl : (dequeAppend b.numSteps (b.last e) x).length = b.numSteps
      · simp [hl]
      · simp [hl]
  | stop e =>
    rw [env_stop]
    simp only [step, stop, emit, window]
    rw [flush_eq, List.foldl_append]
    congr 2
    by_cases h : 0 < (b.last e).length ∧ (b.last e).length < b.numSteps
    · rw [if_pos h, if_pos h]; rfl
    · rw [if_neg h, if_neg h]; rfl

/-- The last (at most) `n` elements. -/
theorem dequeAppend_eq (n : Nat) (hn : 0 < n) (ep : List T) (x : T) :
    dequeAppend n (ep.drop (ep.length - n)) x = (ep ++ [x]).drop ((ep ++ [x]).length - n) := by
  unfold dequeAppend
  by_cases h : ep.length < n
  · rw [if_neg (by simp; omega)]
    simp [show ep.length - n = 0 by omega, show ep.length + 1 - n = 0 by omega]
  · rw [if_pos (by simp; omega), ← List.drop_append_of_le_length (by omega), List.tail_drop]
    congr 1; simp; omega

/-- What the specification says is stored for one environment. -/
def stored (n : Nat) (s : List (List T) × List T) : List (List T) :=
  s.1.flatMap (slices n) ++ fullSlices n s.2

theorem range_split (a b : Nat) (h : a ≤ b) :
    List.range b = List.range a ++ (List.range (b - a)).map (a + ·) := by
  have h2 := List.range_add (n := a) (m := b - a)
  rwa [show a + (b - a) = b by omega] at h2

theorem tails_drop (ep : List T) (k : Nat) :
    tails (ep.drop k) = (List.range (ep.length - k)).map (fun i => ep.drop (k + i)) := by
  simp [tails, List.drop_drop]

theorem fullSlices_append (n : Nat) (ep : List T) (x : T) (hn : 0 < n) :
    fullSlices n ep = (List.range ((ep ++ [x]).length - n)).map (slice n (ep ++ [x])) := by
  simp only [fullSlices, List.length_append, List.length_cons, List.length_nil]
  rw [show ep.length + (0 + 1) - n = ep.length + 1 - n by omega]
  apply List.map_congr_left
  intro i hi
  simp only [List.mem_range] at hi
  unfold slice
  rw [List.drop_append_of_le_length (by omega), List.take_append_of_le_length]
  simp; omega

theorem slices_split (n : Nat) (ep : List T) :
    slices n ep = (List.range (ep.length - n)).map (slice n ep) ++ tails (ep.drop (ep.length - n)) := by
  rw [tails_drop, slices, range_split (ep.length - n) ep.length (by omega), List.map_append,
    List.map_map]
  congr 1
  apply List.map_congr_left
  intro i hi
  simp only [List.mem_range] at hi
  simp only [Function.comp_apply, slice]
  rw [List.take_of_length_le]
  simp; omega

theorem stored_step (term : T → Bool) (n : Nat) (hn : 0 < n) (e : E)
    (s : List (List T) × List T) (op : Op E T) :
    stored n (Episodes.step term e s op) =
      stored n s ++ (if op.env = e then emit term n (s.2.drop (s.2.length - n)) op else []) ∧
    (Episodes.step term e s op).2.drop ((Episodes.step term e s op).2.length - n) =
      (if op.env = e then window term n (s.2.drop (s.2.length - n)) op
        else s.2.drop (s.2.length - n)) := by
  obtain ⟨fin, ep⟩ := s
  cases op with
  | append e' x =>
    rw [env_append]
    simp only [Episodes.step]
    by_cases he : e' = e
    · rw [if_pos he, if_pos he, if_pos he]
      simp only [emit, window]
      rw [dequeAppend_eq n hn ep x]
      by_cases ht : term x = true
      · simp only [ht, if_true]
        constructor
        · simp only [stored, List.flatMap_append, List.append_assoc]
          rw [fullSlices_append n ep x hn]
          congr 1
          rw [← slices_split]
          simp [fullSlices, show 1 - n = 0 by omega]
        · simp
      · simp only [ht]
        constructor
        · simp only [stored, List.append_assoc, Bool.false_eq_true, if_false]
          rw [fullSlices_append n ep x hn]
          congr 1
          simp only [fullSlices]
          by_cases hl : n ≤ (ep ++ [x]).length
          · rw [if_pos (by rw [List.length_drop]; omega)]
            rw [show (ep ++ [x]).length + 1 - n = ((ep ++ [x]).length - n) + 1 by omega,
              List.range_succ, List.map_append]
            congr 1
            simp only [slice, List.map_cons, List.map_nil]
            rw [List.take_of_length_le]
            rw [List.length_drop]; omega
          · rw [if_neg (by rw [List.length_drop]; omega)]
            rw [show (ep ++ [x]).length + 1 - n = 0 by omega,
              show (ep ++ [x]).length - n = 0 by omega]
            simp
        · simp
    · simp [if_neg he]
  | stop e' =>
    rw [env_stop]
    simp only [Episodes.step]
    by_cases he : e' = e
    · simp only [he, true_and, if_true]
      by_cases hep : ep = []
      · subst hep; simp [emit, tails, window]
      · rw [if_pos hep]
        have hpos : 0 < ep.length := List.length_pos_iff.mpr hep
        constructor
        · simp only [stored, List.flatMap_append, List.append_assoc, emit]
          congr 1
          rw [show fullSlices n ([] : List T) = [] by simp [fullSlices, show 1 - n = 0 by omega]]
          simp only [List.flatMap_cons, List.flatMap_nil, List.append_nil]
          by_cases hl : ep.length < n
          · rw [show ep.length - n = 0 by omega]
            rw [slices_split, show ep.length - n = 0 by omega]
            simp only [List.drop_zero, List.range_zero, List.map_nil, List.nil_append]
            rw [if_pos ⟨hpos, hl⟩, if_pos ⟨hpos, by omega⟩]
            simp only [fullSlices, show ep.length + 1 - n = 0 by omega]
            cases ep with
            | nil => simp at hpos
            | cons y t => rw [tails_cons]; simp
          · have hlen : (ep.drop (ep.length - n)).length = n := by rw [List.length_drop]; omega
            rw [if_neg (by omega), if_pos (by omega), List.tail_drop, List.nil_append, tails_drop]
            rw [slices_split, tails_drop, fullSlices,
              show ep.length + 1 - n = (ep.length - n) + 1 by omega, List.range_succ,
              List.map_append, List.append_assoc]
            congr 1
            rw [show ep.length - (ep.length - n) = (ep.length - (ep.length - n + 1)) + 1 by omega,
              List.range_succ_eq_map]
            simp only [List.map_cons, List.map_map, List.map_nil]
            rw [List.singleton_append]
            congr 1
            · simp only [slice]
              rw [List.take_of_length_le (by omega)]; simp
            · apply List.map_congr_left
              intro i _
              simp only [Function.comp_apply]; congr 1; omega
        · simp [window]
    · simp [he]

theorem of_append (term : T → Bool) (e : E) (ops : List (Op E T)) (op : Op E T) :
    Episodes.of term e (ops ++ [op]) = Episodes.step term e (Episodes.of term e ops) op := by
  simp [Episodes.of]

/-- The state after a history: the window of every environment is the end of
its unfinished episode, and the memory has received the entries `ent`, each
stored by a call about the environment it is paired with. -/
theorem run_spec (M : Type _) (term : T → Bool) (n : Nat) (hn : 0 < n) (ops : List (Op E T)) :
    ∃ ent : List (E × List T),
      (∀ (push : M → List T → M) (m : M), run push term ⟨n, m, fun _ => []⟩ ops =
        ⟨n, (ent.map Prod.snd).foldl push m, fun e =>
          (Episodes.of term e ops).2.drop ((Episodes.of term e ops).2.length - n)⟩) ∧
      ∀ e, (ent.filter (fun p => p.1 = e)).map Prod.snd = stored n (Episodes.of term e ops) := by
  induction ops using List.reverseRecOn with
  | nil =>
    refine ⟨[], by simp [run, Episodes.of], ?_⟩
    intro e
    simp [stored, Episodes.of, fullSlices, show 1 - n = 0 by omega]
  | append_singleton ops op ih =>
    obtain ⟨ent, h1, h2⟩ := ih
    let w := (Episodes.of term op.env ops).2.drop ((Episodes.of term op.env ops).2.length - n)
    refine ⟨ent ++ (emit term n w op).map (fun x => (op.env, x)), ?_, ?_⟩
    · intro push m
      have : run push term ⟨n, m, fun _ => []⟩ (ops ++ [op]) =
          (run push term ⟨n, m, fun _ => []⟩ ops).step push term op := by simp [run]
      rw [this, h1, step_eq]
      simp only [List.map_append, List.foldl_append, List.map_map, Function.comp_def, List.map_id']
      congr 1
      funext e
      rw [of_append, (stored_step term n hn e _ op).2]
      by_cases he : op.env = e
      · subst he; simp
      · rw [if_neg he, Function.update_of_ne (Ne.symm he)]
    · intro e
      rw [of_append, (stored_step term n hn e _ op).1, List.filter_append, List.map_append, h2]
      congr 1
      by_cases he : op.env = e
      · rw [if_pos he]; subst he
        simp [List.filter_map, Function.comp_def, w]
      · rw [if_neg he]
        simp [List.filter_map, Function.comp_def, he]

theorem slice_infix (n : Nat) (ep : List T) (i : Nat) : slice n ep i <:+: ep :=
  (List.take_prefix _ _).isInfix.trans (List.drop_suffix _ _).isInfix

theorem stored_mem (n : Nat) (hn : 0 < n) (s : List (List T) × List T) (w : List T)
    (h : w ∈ stored n s) : w ≠ [] ∧ ∃ ep ∈ s.1 ++ [s.2], w <:+: ep := by
  unfold stored at h
  have hne : ∀ (ep : List T) i, i < ep.length → slice n ep i ≠ [] := by
    intro ep i hi hc
    have := congrArg List.length hc
    simp [slice] at this; omega
  rcases List.mem_append.mp h with h | h
  · obtain ⟨ep, hep, hw⟩ := List.mem_flatMap.mp h
    obtain ⟨i, hi, rfl⟩ := List.mem_map.mp hw
    exact ⟨hne ep i (List.mem_range.mp hi), ep, by simp [hep], slice_infix n ep i⟩
  · obtain ⟨i, hi, rfl⟩ := List.mem_map.mp h
    have := List.mem_range.mp hi
    exact ⟨hne s.2 i (by omega), s.2, by simp, slice_infix n s.2 i⟩

theorem stored_len (n : Nat) (s : List (List T) × List T) (w : List T)
    (h : w ∈ stored n s) : w.length ≤ n := by
  unfold stored at h
  rcases List.mem_append.mp h with h | h
  · obtain ⟨ep, hep, hw⟩ := List.mem_flatMap.mp h
    obtain ⟨i, hi, rfl⟩ := List.mem_map.mp hw
    simp [slice]; omega
  · obtain ⟨i, hi, rfl⟩ := List.mem_map.mp h
    simp [slice]; omega

theorem episodes_tag (term : T → Bool) (env : T → E) (ops : List (Op E T))
    (henv : ∀ e x, Op.append e x ∈ ops → env x = e) (e : E) :
    ∀ ep ∈ Episodes.all term e ops, ∀ x ∈ ep, env x = e := by
  unfold Episodes.all
  induction ops using List.reverseRecOn with
  | nil => simp [Episodes.of]
  | append_singleton ops op ih =>
    have ih := ih (fun e x h => henv e x (by simp [h]))
    rw [of_append]
    generalize Episodes.of term e ops = s at ih
    obtain ⟨fin, cur⟩ := s
    simp only [List.mem_append, List.mem_singleton] at ih
    cases op with
    | append e' x =>
      have hx := henv e' x (by simp)
      simp only [Episodes.step]
      by_cases he : e' = e
      · rw [if_pos he]
        by_cases ht : term x = true
        · rw [if_pos ht]
          simp only [List.mem_append, List.mem_singleton]
          rintro ep ((h | rfl) | rfl) y hy
          · exact ih ep (.inl h) y hy
          · rcases List.mem_append.mp hy with h | h
            · exact ih cur (.inr rfl) y h
            · simp only [List.mem_singleton] at h; rw [h, hx, he]
          · simp at hy
        · rw [if_neg ht]
          simp only [List.mem_append, List.mem_singleton]
          rintro ep (h | rfl) y hy
          · exact ih ep (.inl h) y hy
          · rcases List.mem_append.mp hy with h | h
            · exact ih cur (.inr rfl) y h
            · simp only [List.mem_singleton] at h; rw [h, hx, he]
      · rw [if_neg he]
        simpa using ih
    | stop e' =>
      simp only [Episodes.step]
      by_cases he : e' = e ∧ cur ≠ []
      · rw [if_pos he]
        simp only [List.mem_append, List.mem_singleton]
        rintro ep ((h | rfl) | rfl) y hy
        · exact ih ep (.inl h) y hy
        · exact ih ep (.inr rfl) y hy
        · simp at hy
      · rw [if_neg he]
        simpa using ih

theorem episodes_not_term' (term : T → Bool) (e : E) (ops : List (Op E T)) :
    (∀ ep ∈ (Episodes.of term e ops).1, ∀ x ∈ ep.dropLast, term x = false) ∧
    (∀ x ∈ (Episodes.of term e ops).2, term x = false) := by
  induction ops using List.reverseRecOn with
  | nil => simp [Episodes.of]
  | append_singleton ops op ih =>
    rw [of_append]
    generalize Episodes.of term e ops = s at ih
    obtain ⟨fin, cur⟩ := s
    obtain ⟨ih1, ih2⟩ := ih
    simp only at ih1 ih2
    cases op with
    | append e' x =>
      simp only [Episodes.step]
      by_cases he : e' = e
      · rw [if_pos he]
        by_cases ht : term x = true
        · rw [if_pos ht]
          refine ⟨?_, by simp⟩
          simp only [List.mem_append, List.mem_singleton]
          rintro ep (h | rfl) y hy
          · exact ih1 ep h y hy
          · simp only [List.dropLast_concat] at hy
            exact ih2 y hy
        · rw [if_neg ht]
          refine ⟨ih1, ?_⟩
          intro y hy
          rcases List.mem_append.mp hy with h | h
          · exact ih2 y h
          · simp only [List.mem_singleton] at h; rw [h]; simpa using ht
      · rw [if_neg he]
        exact ⟨ih1, ih2⟩
    | stop e' =>
      simp only [Episodes.step]
      by_cases he : e' = e ∧ cur ≠ []
      · rw [if_pos he]
        refine ⟨?_, by simp⟩
        simp only [List.mem_append, List.mem_singleton]
        rintro ep (h | rfl) y hy
        · exact ih1 ep h y hy
        · exact ih2 y ((List.dropLast_subset _) hy)
      · rw [if_neg he]
        exact ⟨ih1, ih2⟩

theorem episodes_not_term (term : T → Bool) (e : E) (ops : List (Op E T)) (ep : List T)
    (h : ep ∈ Episodes.all term e ops) : ∀ x ∈ ep.dropLast, term x = false := by
  unfold Episodes.all at h
  rcases List.mem_append.mp h with h | h
  · exact (episodes_not_term' term e ops).1 ep h
  · simp only [List.mem_singleton] at h; subst h
    exact fun x hx => (episodes_not_term' term e ops).2 x ((List.dropLast_subset _) hx)

theorem dropLast_not_term (term : T → Bool) (w ep : List T) (h : w <:+: ep)
    (hep : ∀ x ∈ ep.dropLast, term x = false) : ∀ x ∈ w.dropLast, term x = false := by
  obtain ⟨s, t, rfl⟩ := h
  intro x hx
  apply hep
  have hw : w ≠ [] := by rintro rfl; simp at hx
  by_cases ht : t = []
  · subst ht
    rw [List.append_nil, List.dropLast_append_of_ne_nil hw]
    exact List.mem_append_right _ hx
  · rw [List.dropLast_append_of_ne_nil ht]
    exact List.mem_append_left _ (List.mem_append_right _ ((List.dropLast_subset _) hx))

theorem newest_subset {α : Type _} (m : Option Nat) (l : List α) :
    BoundedList.newest m l ⊆ l := by
  cases m with
  | none => exact List.Subset.refl l
  | some k => exact List.drop_subset _ _

end NStep

namespace RAQ
variable {α : Type _}

theorem newest_newest (m : Option Nat) (l r : List α) :
    BoundedList.newest m (BoundedList.newest m l ++ r) = BoundedList.newest m (l ++ r) := by
  cases m with
  | none => rfl
  | some k =>
    simp only [BoundedList.newest]
    by_cases h : l.length ≤ k
    · simp [show l.length - k = 0 by omega]
    · rw [← List.drop_append_of_le_length (by omega), List.drop_drop]
      congr 1
      simp; omega

theorem foldl_append_iter (xs : List α) (q : RAQ α) (hq : q.Ok) :
    (xs.foldl append q).iter = BoundedList.newest q.maxlen (q.iter ++ xs) ∧
    (xs.foldl append q).maxlen = q.maxlen ∧ (xs.foldl append q).Ok := by
  induction xs generalizing q with
  | nil =>
    refine ⟨?_, rfl, hq⟩
    simp only [List.foldl_nil, List.append_nil]
    exact (newest_of_le _ _ hq).symm
  | cons x xs ih =>
    have h := append_iter q x hq
    obtain ⟨h1, h2, h3⟩ := ih (q.append x) (ok_of_iter (l := q.iter ++ [x]) (by rw [h.1, h.2]))
    refine ⟨?_, h2.trans h.2, h3⟩
    rw [List.foldl_cons, h1, h.1, h.2, newest_newest]
    simp

end RAQ
end Verif
