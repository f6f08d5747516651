import Verif.Proofs.OldStyle
import Mathlib.Tactic.Ring

/-!
C143: the check of TRPO for functions that cannot be differentiated twice.

`C143_exact`, `C143_check`: the check finds exactly the old-style functions that took part in the computation.
`C143_visits`: it looks at a variable once for every walk that leads to it.  `C143_violated_cost`: for a recurrent
policy that is a number of steps exponential in the length of the sequence.  `C143_violated_depth`: a computation
deeper than the stack of the interpreter is refused with `RecursionError`.
-/

set_option autoImplicit false
set_option linter.unusedSectionVars false

namespace Verif.OldStyle

section
variable {V F : Type} (g : Graph V F)

/-- **C143.** When the stack is deep enough for every chain of functions, the search returns, and the list it returns
contains exactly the old-style functions that took part in the computation of the outputs. -/
theorem C143_exact (depth : Nat) (outputs : List V) (h : ∀ fs, Chain g outputs fs → fs.length < depth) :
    ∃ found visits, findOld g depth outputs = .ok (found, visits) ∧
      ∀ f, f ∈ found ↔ g.old f = true ∧ Used g outputs f := by
  obtain ⟨r, h1, h2⟩ := findOld_right depth outputs h
  exact ⟨r.1, r.2, h1, h2.found⟩

/-- **C143.** The check then raises `RuntimeError` if and only if an old-style function took part in the computation
of the KL divergence, and passes otherwise. -/
theorem C143_check (depth : Nat) (kl : V) (h : ∀ fs, Chain g [kl] fs → fs.length < depth) :
    (checkKl g depth kl = .error .runtimeError ↔ ∃ f, g.old f = true ∧ Used g [kl] f) ∧
    (checkKl g depth kl = .ok () ↔ ∀ f, Used g [kl] f → g.old f = false) := by
  obtain ⟨r, h1, h2⟩ := findOld_right depth [kl] h
  obtain ⟨found, visits⟩ := r
  unfold checkKl
  rw [h1]
  have hf : ∀ f, f ∈ found ↔ g.old f = true ∧ Used g [kl] f := h2.found
  cases found with
  | nil =>
    simp only [List.isEmpty_nil, if_true, true_iff, reduceCtorEq, false_iff, not_exists]
    exact ⟨fun f hx => by simpa using (hf f).2 hx, fun f hu => by
      by_contra hne
      simpa using (hf f).2 ⟨by simpa using hne, hu⟩⟩
  | cons f fs =>
    simp only [List.isEmpty_cons, Bool.false_eq_true, if_false, true_iff, reduceCtorEq, false_iff]
    have := (hf f).1 (by simp)
    exact ⟨⟨f, this⟩, fun hall => by rw [hall f this.2] at this; simp at this⟩

/-- **C143.** The number of variables looked at is the number of walks from the outputs, not the number of variables:
what is reached along several ways is searched again each time. -/
theorem C143_visits (depth : Nat) (outputs : List V) (h : ∀ fs, Chain g outputs fs → fs.length < depth) :
    ∃ (found : List F) (ws : List (List Nat)), ws.Nodup ∧ (∀ w, w ∈ ws ↔ Walk g outputs w) ∧
      findOld g depth outputs = .ok (found, ws.length) := by
  obtain ⟨r, h1, h2⟩ := findOld_right depth outputs h
  obtain ⟨ws, h3, h4, h5⟩ := h2.visits
  exact ⟨r.1, ws, h3, h4, by rw [h1, ← h5]⟩

/-- **C143** is violated: a chain of functions as long as the stack is deep makes the check raise `RecursionError`,
whatever the functions. -/
theorem C143_violated_depth (depth : Nat) (kl : V) (fs : List F) (h : Chain g [kl] fs) (hd : depth ≤ fs.length) :
    checkKl g depth kl = .error .recursionError := by
  unfold checkKl
  rw [findOld_deep depth [kl] fs h hd]

end

/-! ### An LSTM unrolled in time -/

/-- The variables of an LSTM after `t` steps: cell, output, the sum that enters the gates, the product of the previous
output with its weights; and a parameter or an observation. -/
inductive LV where
  | cell (t : Nat) | out (t : Nat) | gates (t : Nat) | prod (t : Nat) | leaf
deriving DecidableEq

/-- The functions of step `t`: `F.lstm`, the addition, `F.linear` of the previous output. -/
inductive LF where
  | lstm (t : Nat) | add (t : Nat) | linear (t : Nat)
deriving DecidableEq

/-- The graph that `F.n_step_lstm` records without cuDNN: per step
`lstm(c, linear(x, xw, xb) + linear(h, hw, hb))`.  The product with the observation is a leaf here, so the real graph
contains this one. -/
def lstmGraph : Graph LV LF where
  creator
    | .cell (t + 1) => some (.lstm t)
    | .out (t + 1) => some (.lstm t)
    | .gates t => some (.add t)
    | .prod t => some (.linear t)
    | _ => none
  inputs
    | .lstm t => [.cell t, .gates t]
    | .add t => [.leaf, .prod t]
    | .linear t => [.out t, .leaf, .leaf]
  old _ := false

theorem lstm_chain (t : Nat) : ∃ fs, Chain lstmGraph [LV.out t] fs ∧ fs.length = 3 * t := by
  induction t with
  | zero => exact ⟨[], trivial, rfl⟩
  | succ t ih =>
    obtain ⟨fs, h1, h2⟩ := ih
    refine ⟨.lstm t :: .add t :: .linear t :: fs, ⟨⟨.out (t + 1), by simp, rfl⟩, ⟨.gates t, by simp [lstmGraph], rfl⟩,
      ⟨.prod t, by simp [lstmGraph], rfl⟩, ?_⟩, by simp [h2]; omega⟩
    cases fs with
    | nil => trivial
    | cons f fs =>
      obtain ⟨⟨v, hv, hf⟩, hc⟩ := h1
      obtain rfl := List.mem_singleton.1 hv
      exact ⟨⟨.out t, by simp [lstmGraph], hf⟩, hc⟩

theorem lstm_find (t depth : Nat) (hd : 3 * t < depth) :
    ∃ n, 2 ^ t ≤ n ∧ (∀ vs r, findOld lstmGraph depth vs = .ok r →
      findOld lstmGraph depth (.cell t :: vs) = .ok (r.1, n + r.2) ∧
      findOld lstmGraph depth (.out t :: vs) = .ok (r.1, n + r.2)) := by
  induction t generalizing depth with
  | zero =>
    obtain ⟨d, rfl⟩ : ∃ d, depth = d + 1 := ⟨depth - 1, by omega⟩
    refine ⟨1, by simp, fun vs r h => ?_⟩
    rw [findOld_step, findOld_step, h]
    exact ⟨rfl, rfl⟩
  | succ t ih =>
    obtain ⟨d, rfl⟩ : ∃ d, depth = d + 4 := ⟨depth - 4, by omega⟩
    obtain ⟨n1, hn1, h1⟩ := ih (d + 3) (by omega)
    obtain ⟨n2, hn2, h2⟩ := ih (d + 1) (by omega)
    have leaf : ∀ k vs r, findOld lstmGraph (k + 1) vs = .ok r →
        findOld lstmGraph (k + 1) (.leaf :: vs) = .ok (r.1, 1 + r.2) := by
      intro k vs r h
      rw [findOld_step, h]; rfl
    have hlin : findOld lstmGraph (d + 1) (lstmGraph.inputs (.linear t)) = .ok ([], n2 + 2) :=
      (h2 [.leaf, .leaf] ([], 2) (leaf d [.leaf] ([], 1) (leaf d [] ([], 0) rfl))).2
    have hprod : findOld lstmGraph (d + 2) [.prod t] = .ok ([], 1 + (n2 + 2) + 0) := by
      rw [findOld_step]
      simp only [show lstmGraph.creator (.prod t) = some (.linear t) from rfl, hlin]
      rfl
    have hadd : findOld lstmGraph (d + 2) (lstmGraph.inputs (.add t)) = .ok ([], 1 + (1 + (n2 + 2) + 0)) :=
      leaf _ _ _ hprod
    have hgates : findOld lstmGraph (d + 3) [.gates t] = .ok ([], 1 + (1 + (1 + (n2 + 2) + 0)) + 0) := by
      rw [findOld_step]
      simp only [show lstmGraph.creator (.gates t) = some (.add t) from rfl, hadd]
      rfl
    have hl : findOld lstmGraph (d + 3) (lstmGraph.inputs (.lstm t)) =
        .ok ([], n1 + (1 + (1 + (1 + (n2 + 2) + 0)) + 0)) := (h1 _ _ hgates).1
    refine ⟨1 + (n1 + (1 + (1 + (1 + (n2 + 2) + 0)) + 0)), by rw [Nat.pow_succ]; omega, fun vs r h => ?_⟩
    constructor
    · rw [findOld_step]
      simp only [show lstmGraph.creator (.cell (t + 1)) = some (.lstm t) from rfl, hl, h]
      rfl
    · rw [findOld_step]
      simp only [show lstmGraph.creator (.out (t + 1)) = some (.lstm t) from rfl, hl, h]
      rfl

theorem lstm_used (t : Nat) (f : LF) (h : Used lstmGraph [LV.out t] f) :
    ∃ s < t, f = .lstm s ∨ f = .add s ∨ f = .linear s := by
  induction h with
  | direct hv hc =>
    obtain rfl := List.mem_singleton.1 hv
    cases t with
    | zero => simp [lstmGraph] at hc
    | succ t => exact ⟨t, by omega, .inl (by simpa [lstmGraph] using hc.symm)⟩
  | indirect _ hi hc ih =>
    obtain ⟨s, hs, rfl | rfl | rfl⟩ := ih
    · simp only [lstmGraph, List.mem_cons, List.not_mem_nil, or_false] at hi
      rcases hi with rfl | rfl
      · cases s with
        | zero => simp [lstmGraph] at hc
        | succ s => exact ⟨s, by omega, .inl (by simpa [lstmGraph] using hc.symm)⟩
      · exact ⟨s, hs, .inr (.inl (by simpa [lstmGraph] using hc.symm))⟩
    · simp only [lstmGraph, List.mem_cons, List.not_mem_nil, or_false] at hi
      rcases hi with rfl | rfl
      · simp [lstmGraph] at hc
      · exact ⟨s, hs, .inr (.inr (by simpa [lstmGraph] using hc.symm))⟩
    · simp only [lstmGraph, List.mem_cons, List.not_mem_nil, or_false] at hi
      rcases hi with rfl | rfl | rfl
      · cases s with
        | zero => simp [lstmGraph] at hc
        | succ s => exact ⟨s, by omega, .inl (by simpa [lstmGraph] using hc.symm)⟩
      · simp [lstmGraph] at hc
      · simp [lstmGraph] at hc

/-- **C143** is violated: for an LSTM policy unrolled over `t` steps, whose computation consists of `3 * t` functions
all of the new style, the check looks at `2 ^ t` variables at least, when the stack suffices; when it does not, the
check raises `RecursionError`. -/
theorem C143_violated_cost (t : Nat) :
    (∃ fns : List LF, fns.length = 3 * t ∧ ∀ f, Used lstmGraph [.out t] f → f ∈ fns) ∧
    (∀ depth, 3 * t < depth → ∃ visits, 2 ^ t ≤ visits ∧ findOld lstmGraph depth [.out t] = .ok ([], visits)) ∧
    (∀ depth, depth ≤ 3 * t → checkKl lstmGraph depth (.out t) = .error .recursionError) := by
  refine ⟨⟨(List.range t).map .lstm ++ (List.range t).map .add ++ (List.range t).map .linear, by simp; omega,
    fun f hf => ?_⟩, fun depth hd => ?_, fun depth hd => ?_⟩
  · obtain ⟨s, hs, rfl | rfl | rfl⟩ := lstm_used t f hf <;> simp [hs]
  · obtain ⟨n, hn, h⟩ := lstm_find t depth hd
    obtain ⟨d, rfl⟩ : ∃ d, depth = d + 1 := ⟨depth - 1, by omega⟩
    exact ⟨n, hn, (h [] ([], 0) rfl).2⟩
  · obtain ⟨fs, h1, h2⟩ := lstm_chain t
    exact C143_violated_depth lstmGraph depth (.out t) fs h1 (by omega)

/-! ### Examples -/

/-- `kl = add(square(x), old(x))`. -/
def smallGraph : Graph Nat Nat where
  creator v := if v = 0 then none else some v
  inputs f := if f = 3 then [1, 2] else [0]
  old f := f == 2

example : findOld smallGraph 1000 [3] = .ok ([2], 5) ∧ checkKl smallGraph 1000 3 = .error .runtimeError ∧
    checkKl smallGraph 1000 1 = .ok () := ⟨rfl, rfl, rfl⟩

/-- The hypothesis of the theorems holds of it. -/
example : ∀ fs, Chain smallGraph [3] fs → fs.length < 1000 := by
  intro fs h
  match fs, h with
  | [], _ => simp
  | [_], _ => simp
  | [_, _], _ => simp
  | a :: b :: c :: rest, ⟨⟨v, hv, ha⟩, ⟨w, hw, hb⟩, ⟨x, hx, hc⟩, _⟩ =>
    exfalso
    obtain rfl := List.mem_singleton.1 hv
    obtain rfl : 3 = a := by simpa [smallGraph] using ha
    simp only [smallGraph, if_true, List.mem_cons, List.not_mem_nil, or_false] at hw
    rcases hw with rfl | rfl
    · obtain rfl : 1 = b := by simpa [smallGraph] using hb
      simp [smallGraph] at hx
      subst hx
      simp [smallGraph] at hc
    · obtain rfl : 2 = b := by simpa [smallGraph] using hb
      simp [smallGraph] at hx
      subst hx
      simp [smallGraph] at hc

end Verif.OldStyle
