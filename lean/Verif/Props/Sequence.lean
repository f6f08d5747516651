import Mathlib.Tactic.Common
import Verif.Model.Sequence

/-!
C95: `Sequence` passes keyword arguments to the layers that accept them.
-/

set_option autoImplicit false
set_option linter.unusedSectionVars false

namespace Verif.Seq
variable {X V : Type}

/-! ### Specification -/

/-- A callable accepts a keyword if it has a parameter of that name or takes arbitrary keywords. -/
def Accepts (l : Layer X V) (name : String) : Prop := name ∈ l.names ∨ l.varKeyword = true

instance (l : Layer X V) (name : String) : Decidable (Accepts l name) := inferInstanceAs (Decidable (_ ∨ _))

/-- The layers one after the other, each with the keyword arguments it accepts. -/
def compose (kwargs : List (String × V)) : List (Layer X V) → X → X
  | [], h => h
  | l :: ls, h => compose kwargs ls (l.run h (kwargs.filter fun e => decide (Accepts l e.1)))

/-- The keyword arguments can be routed: no layer's first parameter is named, and no argument without default is missing. -/
def Routable (kwargs : List (String × V)) (l : Layer X V) : Prop :=
  (∀ e ∈ kwargs, e.1 ≠ l.first) ∧ ∀ n ∈ l.required, n ∈ l.names ∧ ∃ e ∈ kwargs, e.1 = n

/-! ### Proofs -/

theorem layerKwargs_eq (kwargs : List (String × V)) (l : Layer X V) (h : Routable kwargs l)
    (hv : l.varPositional = true → l.varKeyword = true) :
    layerKwargs l kwargs = kwargs.filter fun e => decide (Accepts l e.1) := by
  unfold layerKwargs acceptVariableArguments
  cases hk : l.varKeyword with
  | true =>
    have : (kwargs.filter fun e => decide (Accepts l e.1)) = kwargs := by
      rw [List.filter_eq_self]
      intro e _
      simp [Accepts, hk]
    simp [this]
  | false =>
    have hp : l.varPositional = false := by
      cases hp : l.varPositional with
      | false => rfl
      | true => rw [hv hp] at hk; exact absurd hk (by simp)
    simp only [hp, Bool.or_self, Bool.false_eq_true, if_false]
    apply List.filter_congr
    intro e he
    have := h.1 e he
    simp [argnames, Accepts, hk, this]

theorem call_layer (kwargs : List (String × V)) (l : Layer X V) (x : X) (h : Routable kwargs l) :
    l.call x (kwargs.filter fun e => decide (Accepts l e.1)) =
      .ok (l.run x (kwargs.filter fun e => decide (Accepts l e.1))) := by
  unfold Layer.call
  rw [if_neg, if_neg, if_neg]
  · simp only [List.any_eq_true, Bool.not_eq_true', not_exists, not_and, Bool.not_eq_false]
    intro n hn
    obtain ⟨hnn, e, he, hen⟩ := h.2 n hn
    refine ⟨e, ?_, by simpa using hen⟩
    rw [List.mem_filter]
    exact ⟨he, by simp [Accepts, hen, hnn]⟩
  · simp only [Bool.and_eq_true, Bool.not_eq_true', List.any_eq_true, not_and, not_exists]
    intro hk e he
    rw [List.mem_filter] at he
    have := he.2
    simp only [Accepts, hk, decide_eq_true_eq] at this
    simpa using this
  · simp only [List.any_eq_true, not_exists, not_and]
    intro e he
    rw [List.mem_filter] at he
    simpa using h.1 e he.1

/-- **C95.** For every list of layers none of which has `*args` without `**kwargs`, every input and all keyword
arguments that can be routed, the sequence computes its layers one after the other, each with exactly the keyword
arguments it accepts; arguments that no layer accepts are ignored. -/
theorem C95_routing_partial (kwargs : List (String × V)) : ∀ (ls : List (Layer X V)) (x : X),
    (∀ l ∈ ls, Routable kwargs l) → (∀ l ∈ ls, l.varPositional = true → l.varKeyword = true) →
    call ls x kwargs = .ok (compose kwargs ls x)
  | [], _, _, _ => rfl
  | l :: ls, x, hr, hv => by
    have h1 := hr l (by simp)
    simp only [call, layerKwargs_eq kwargs l h1 (hv l (by simp)), call_layer kwargs l x h1]
    exact C95_routing_partial kwargs ls _ (fun l' h' => hr l' (by simp [h'])) (fun l' h' => hv l' (by simp [h']))

/-- **C95.** An argument that no layer accepts does not change the result. -/
theorem C95_ignored (kwargs : List (String × V)) (name : String) (v : V) (ls : List (Layer X V)) (x : X)
    (hn : ∀ l ∈ ls, ¬ Accepts l name) : compose ((name, v) :: kwargs) ls x = compose kwargs ls x := by
  induction ls generalizing x with
  | nil => rfl
  | cons l ls ih =>
    have h1 := hn l (by simp)
    simp only [compose, List.filter_cons, h1, decide_false, Bool.false_eq_true, if_false]
    exact ih _ (fun l' h' => hn l' (by simp [h']))

/-- **C95**, violated: a layer with `*args` but without `**kwargs` is given every keyword argument, also those it does
not accept, so that the call fails, whatever the layers before it (if they can be called) and after it. -/
theorem C95_violated_var_positional (kwargs : List (String × V)) (before after : List (Layer X V)) (l : Layer X V) (x : X)
    (hb : ∀ l ∈ before, Routable kwargs l) (hv : ∀ l ∈ before, l.varPositional = true → l.varKeyword = true)
    (hp : l.varPositional = true) (hk : l.varKeyword = false) (name : String) (v : V) (hm : (name, v) ∈ kwargs)
    (hn : ¬ Accepts l name) :
    call (before ++ l :: after) x kwargs = .error .typeError := by
  induction before generalizing x with
  | nil =>
    have e : l.call x (layerKwargs l kwargs) = .error .typeError := by
      unfold Layer.call layerKwargs acceptVariableArguments
      simp only [hp, Bool.true_or, if_true, hk, Bool.not_false, Bool.true_and]
      split
      · rfl
      · rw [if_pos]
        rw [List.any_eq_true]
        refine ⟨(name, v), hm, ?_⟩
        simp only [Accepts, hk] at hn
        simpa using hn
    simp only [List.nil_append, call, e]
  | cons b bs ih =>
    have h1 := hb b (by simp)
    simp only [List.cons_append, call, layerKwargs_eq kwargs b h1 (hv b (by simp)), call_layer kwargs b x h1]
    exact ih _ (fun l' h' => hb l' (by simp [h'])) (fun l' h' => hv l' (by simp [h']))

/-- **C95.** A keyword that is the name of a layer's first parameter is rejected. -/
theorem C95_first_parameter (kwargs : List (String × V)) (l : Layer X V) (ls : List (Layer X V)) (x : X) (v : V)
    (h : (l.first, v) ∈ kwargs) : call (l :: ls) x kwargs = .error .typeError := by
  have hm : (l.first, v) ∈ layerKwargs l kwargs := by
    unfold layerKwargs
    split
    · exact h
    · rw [List.mem_filter]; exact ⟨h, by simp [argnames]⟩
  have e : l.call x (layerKwargs l kwargs) = .error .typeError := by
    unfold Layer.call
    rw [if_pos]
    rw [List.any_eq_true]
    exact ⟨_, hm, by simp⟩
  simp only [call, e]

/-- A layer that adds an optional keyword argument `n`, a plain one, and one with `*args`. -/
def exAdd : Layer Nat Nat := ⟨"x", ["n"], [], false, false, fun x kw => x + ((kw.lookup "n").getD 1)⟩
def exDouble : Layer Nat Nat := ⟨"x", [], [], false, false, fun x _ => 2 * x⟩
def exStar : Layer Nat Nat := ⟨"x", [], [], true, false, fun x _ => x⟩

example : call [exAdd, exDouble, exAdd] 3 [("n", 10), ("m", 5)] = .ok 36 := by rfl
example : call [exAdd, exStar] 3 [("n", 10)] = .error .typeError := by rfl
example : call [exAdd, exStar] 3 [] = .ok 4 := by rfl
example : ∀ l ∈ [exAdd, exDouble], Routable [("n", 10), ("m", 5)] l := by
  intro l hl
  simp only [List.mem_cons, List.not_mem_nil, or_false] at hl
  rcases hl with rfl | rfl <;> simp [Routable, exAdd, exDouble]

end Verif.Seq
