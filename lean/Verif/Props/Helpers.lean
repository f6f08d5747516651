import Mathlib.Data.List.Forall2
import Mathlib.Tactic.Tauto
import Verif.Model.Helpers

/-! # C154: asking before a replay buffer is saved, collecting variables, branched links -/

set_option autoImplicit false
set_option linter.unusedSectionVars false

namespace Verif.Helpers

/-! ## Specification -/

/-- The answers that mean yes and no, in any case. -/
def Yes (line : List Char) : Prop := line.map Char.toLower ∈ [['y'], ['y', 'e'], ['y', 'e', 's']]
/-- See `Yes`. -/
def No (line : List Char) : Prop := line.map Char.toLower ∈ [['n'], ['n', 'o']]

mutual
/-- The variables inside an object, in order. -/
def Obj.flat {V : Type} : Obj V → List V
  | .variable v => [v]
  | .actionValue ps => ps
  | .distribution ps => ps
  | .seq l => l.flat
  | .other => []
/-- The variables inside a list. -/
def Objs.flat {V : Type} : Objs V → List V
  | .nil => []
  | .cons o os => o.flat ++ os.flat
end

mutual
/-- The object is a variable, an action value, a distribution, or a list of such, of such lists and so on. -/
def Obj.Supported {V : Type} : Obj V → Prop
  | .seq l => l.Supported
  | .other => False
  | _ => True
/-- See `Obj.Supported`. -/
def Objs.Supported {V : Type} : Objs V → Prop
  | .nil => True
  | .cons o os => o.Supported ∧ os.Supported
end

/-! ## Asking -/

theorem yes_not_no (line : List Char) (h : Yes line) : ¬No line := by
  simp only [Yes, No, List.mem_cons, List.not_mem_nil, or_false] at h ⊢
  rcases h with h | h | h <;> rw [h] <;> decide

theorem ask_cons (x : List Char) (xs : List (List Char)) : (Yes x → askYesNo (x :: xs) = some (true, 1, xs)) ∧ (¬Yes x → No x → askYesNo (x :: xs) = some (false, 1, xs)) ∧
    (¬Yes x → ¬No x → askYesNo (x :: xs) = (askYesNo xs).map fun (b, n, r) => (b, n + 1, r)) := by
  simp only [Yes, No, List.mem_cons, List.not_mem_nil, or_false]
  refine ⟨fun h => ?_, fun h h' => ?_, fun h h' => ?_⟩
  · rw [askYesNo]; exact if_pos h
  · rw [askYesNo]; exact (if_neg h).trans (if_pos h')
  · rw [askYesNo]; exact (if_neg h).trans (if_neg h')

/-- **C154**: the answer is that of the first line that means yes or no; the question is asked once per line up to that one, and lines after it are left. -/
theorem C154_ask (lines : List (List Char)) (b : Bool) (n : Nat) (rest : List (List Char)) :
    askYesNo lines = some (b, n, rest) ↔
      ∃ pre line, lines = pre ++ line :: rest ∧ n = pre.length + 1 ∧ (∀ l ∈ pre, ¬Yes l ∧ ¬No l) ∧ if b then Yes line else No line := by
  induction lines generalizing n with
  | nil => simp [askYesNo]
  | cons x xs ih =>
    obtain ⟨c1, c2, c3⟩ := ask_cons x xs
    have first : ∀ pre line, x :: xs = pre ++ line :: rest → (∀ l ∈ pre, ¬Yes l ∧ ¬No l) → (Yes x ∨ No x) → pre = [] ∧ line = x ∧ rest = xs := by
      intro pre line h1 h2 h3
      cases pre with
      | nil => simp at h1; exact ⟨rfl, h1.1.symm, h1.2.symm⟩
      | cons p ps =>
        simp only [List.cons_append, List.cons.injEq] at h1
        have := h2 p (by simp)
        rw [← h1.1] at this
        tauto
    by_cases h1 : Yes x
    · rw [c1 h1]
      constructor
      · intro h
        simp only [Option.some.injEq, Prod.mk.injEq] at h
        obtain ⟨rfl, rfl, rfl⟩ := h
        exact ⟨[], x, rfl, rfl, by simp, by simpa using h1⟩
      · rintro ⟨pre, line, e1, e2, e3, e4⟩
        obtain ⟨rfl, rfl, rfl⟩ := first pre line e1 e3 (.inl h1)
        cases b
        · exact absurd (by simpa using e4) (yes_not_no _ h1)
        · simp [e2]
    · by_cases h2 : No x
      · rw [c2 h1 h2]
        constructor
        · intro h
          simp only [Option.some.injEq, Prod.mk.injEq] at h
          obtain ⟨rfl, rfl, rfl⟩ := h
          exact ⟨[], x, rfl, rfl, by simp, by simpa using h2⟩
        · rintro ⟨pre, line, e1, e2, e3, e4⟩
          obtain ⟨rfl, rfl, rfl⟩ := first pre line e1 e3 (.inr h2)
          cases b
          · simp [e2]
          · exact absurd (by simpa using e4) h1
      · rw [c3 h1 h2]
        constructor
        · intro h
          obtain ⟨⟨b', n', r'⟩, h3, h4⟩ := Option.map_eq_some_iff.1 h
          simp only [Prod.mk.injEq] at h4
          obtain ⟨rfl, rfl, rfl⟩ := h4
          obtain ⟨pre, line, e1, e2, e3, e4⟩ := (ih n').1 h3
          exact ⟨x :: pre, line, by simp [e1], by simp [e2], by simpa [h1, h2] using e3, e4⟩
        · rintro ⟨pre, line, e1, e2, e3, e4⟩
          cases pre with
          | nil =>
            simp only [List.nil_append, List.cons.injEq] at e1
            rw [← e1.1] at e4
            cases b
            · exact absurd (by simpa using e4) h2
            · exact absurd (by simpa using e4) h1
          | cons p ps =>
            simp only [List.cons_append, List.cons.injEq] at e1
            rw [(ih (ps.length + 1)).2 ⟨ps, line, e1.2, rfl, fun l hl => e3 l (by simp [hl]), e4⟩]
            simp [e2]

/-- **C154**: `EOFError` exactly when no line means yes or no. -/
theorem C154_eof (lines : List (List Char)) : askYesNo lines = none ↔ ∀ l ∈ lines, ¬Yes l ∧ ¬No l := by
  induction lines with
  | nil => simp [askYesNo]
  | cons x xs ih =>
    obtain ⟨c1, c2, c3⟩ := ask_cons x xs
    simp only [List.mem_cons, forall_eq_or_imp]
    by_cases h1 : Yes x
    · simp [h1, c1 h1]
    · by_cases h2 : No x
      · simp [h2, c2 h1 h2]
      · simp [h1, h2, c3 h1 h2, ih]

/-- **C154**: the replay buffer is written to `<t><suffix>.replay.pkl` if the agent has one and the answer is yes; in all other cases no file changes; an agent without a replay buffer
is not asked about. -/
theorem C154_save {B : Type} (buf : Option B) (t : Nat) (suffix : String) (lines : List (List Char)) (fs fs' : Files B) (n : Nat) (rest : List (List Char))
    (h : askAndSave buf t suffix lines fs = some (fs', n, rest)) :
    (∃ b, buf = some b ∧ askYesNo lines = some (true, n, rest) ∧ fs' (toString t ++ suffix ++ ".replay.pkl") = some b ∧
      ∀ name, name ≠ toString t ++ suffix ++ ".replay.pkl" → fs' name = fs name) ∨
    (buf ≠ none ∧ askYesNo lines = some (false, n, rest) ∧ fs' = fs) ∨ (buf = none ∧ n = 0 ∧ rest = lines ∧ fs' = fs) := by
  unfold askAndSave at h
  cases buf with
  | none =>
    simp only [Option.some.injEq, Prod.mk.injEq] at h
    exact .inr (.inr ⟨rfl, h.2.1.symm, h.2.2.symm, h.1.symm⟩)
  | some b =>
    cases hq : askYesNo lines with
    | none => simp [hq] at h
    | some r =>
      obtain ⟨a, m, r⟩ := r
      cases a
      · simp only [hq, Option.some.injEq, Prod.mk.injEq] at h
        obtain ⟨rfl, rfl, rfl⟩ := h
        exact .inr (.inl ⟨by simp, rfl, rfl⟩)
      · simp only [hq, Option.some.injEq, Prod.mk.injEq] at h
        obtain ⟨rfl, rfl, rfl⟩ := h
        exact .inl ⟨b, rfl, rfl, by simp [saveReplayBuffer], fun name hn => if_neg hn⟩

/-- **C154**, violated: the prompt ends with `[y/N]`, by which programs say that the empty answer means no; but the empty answer is not taken as no: the question comes again. -/
theorem C154_default_violated (rest : List (List Char)) : askYesNo ([] :: rest) = (askYesNo rest).map fun (b, n, r) => (b, n + 1, r) := by
  exact (ask_cons [] rest).2.2 (by unfold Yes; decide) (by unfold No; decide)

/-! ## Collecting variables -/

mutual
theorem collect_supported {V : Type} : ∀ o : Obj V, o.Supported → collect o = .ok (some o.flat)
  | .variable _, _ => rfl
  | .actionValue _, _ => rfl
  | .distribution _, _ => rfl
  | .seq l, h => by
    rw [collect, collectAll_supported l [] h]
    rfl
  | .other, h => h.elim
theorem collectAll_supported {V : Type} : ∀ (os : Objs V) (acc : List V), os.Supported → collectAll os acc = .ok (acc ++ os.flat)
  | .nil, acc, _ => by simp [collectAll, Objs.flat]
  | .cons o os, acc, h => by
    rw [collectAll, collect_supported o h.1]
    simp only
    rw [collectAll_supported os _ h.2, Objs.flat, List.append_assoc]
end

mutual
theorem collect_unsupported {V : Type} : ∀ o : Obj V, ¬o.Supported → (o = .other ∧ collect o = .ok none) ∨ (o ≠ .other ∧ collect o = .error .typeError)
  | .variable _, h => (h trivial).elim
  | .actionValue _, h => (h trivial).elim
  | .distribution _, h => (h trivial).elim
  | .seq l, h => by
    refine .inr ⟨by simp, ?_⟩
    rw [collect, collectAll_unsupported l [] h]
    rfl
  | .other, _ => .inl ⟨rfl, rfl⟩
theorem collectAll_unsupported {V : Type} : ∀ (os : Objs V) (acc : List V), ¬os.Supported → collectAll os acc = .error .typeError
  | .nil, _, h => (h trivial).elim
  | .cons o os, acc, h => by
    rw [collectAll]
    by_cases ho : o.Supported
    · rw [collect_supported o ho]
      exact collectAll_unsupported os _ fun hos => h ⟨ho, hos⟩
    · rcases collect_unsupported o ho with ⟨-, e⟩ | ⟨-, e⟩ <;> rw [e]
end

/-- **C154**: `collect_variables` gives the variables of nested lists in order; it raises `TypeError` when something else is inside a list, and returns `None` for something else. -/
theorem C154_collect {V : Type} (o : Obj V) : (o.Supported → collect o = .ok (some o.flat)) ∧
    (¬o.Supported → (o = .other ∧ collect o = .ok none) ∨ (o ≠ .other ∧ collect o = .error .typeError)) := ⟨collect_supported o, collect_unsupported o⟩

/-! ## Branched -/

/-- **C154**: a branched link returns the outputs of all children for the same arguments, in order, or raises what the first child to fail raises. -/
theorem C154_branched {A B : Type} (fs : List (A → Py B)) (x : A) :
    (∀ ys, branchedCall fs x = .ok ys ↔ List.Forall₂ (fun f y => f x = .ok y) fs ys) ∧
    ∀ e, branchedCall fs x = .error e ↔ ∃ pre f post, fs = pre ++ f :: post ∧ (∀ g ∈ pre, ∃ y, g x = .ok y) ∧ f x = .error e := by
  induction fs with
  | nil =>
    refine ⟨fun ys => ⟨fun h => ?_, fun h => ?_⟩, fun e => ⟨fun h => ?_, fun ⟨pre, f, post, h, _⟩ => ?_⟩⟩
    · simp only [branchedCall, Except.ok.injEq] at h; rw [← h]; exact .nil
    · cases h; rfl
    · simp [branchedCall] at h
    · simp at h
  | cons f fs ih =>
    obtain ⟨ih1, ih2⟩ := ih
    cases hf : f x with
    | error e' =>
      have hb : branchedCall (f :: fs) x = .error e' := by rw [branchedCall, hf]; rfl
      refine ⟨fun ys => ?_, fun e => ?_⟩
      · rw [hb]
        refine ⟨fun h => by simp at h, fun h => ?_⟩
        cases h with
        | cons h1 _ => rw [hf] at h1; simp at h1
      · rw [hb]
        refine ⟨fun h => ⟨[], f, fs, rfl, by simp, by rw [hf]; simpa using h⟩, fun ⟨pre, g, post, h1, h2, h3⟩ => ?_⟩
        cases pre with
        | nil => simp at h1; rw [← h1.1, hf] at h3; simpa using h3
        | cons p ps =>
          simp at h1
          obtain ⟨y, hy⟩ := h2 p (by simp)
          rw [← h1.1, hf] at hy; simp at hy
    | ok y =>
      have hb : branchedCall (f :: fs) x = (branchedCall fs x).map (y :: ·) := by
        rw [branchedCall, hf]; cases branchedCall fs x <;> rfl
      refine ⟨fun ys => ?_, fun e => ?_⟩
      · rw [hb]
        refine ⟨fun h => ?_, fun h => ?_⟩
        · cases hr : branchedCall fs x with
          | error e => rw [hr] at h; simp [Except.map] at h
          | ok zs =>
            rw [hr] at h
            simp only [Except.map, Except.ok.injEq] at h
            rw [← h]
            exact .cons hf ((ih1 zs).1 hr)
        · cases h with
          | cons h1 h2 =>
            rw [hf] at h1
            simp only [Except.ok.injEq] at h1
            rw [(ih1 _).2 h2, h1]; rfl
      · rw [hb]
        refine ⟨fun h => ?_, fun ⟨pre, g, post, h1, h2, h3⟩ => ?_⟩
        · cases hr : branchedCall fs x with
          | ok zs => rw [hr] at h; simp [Except.map] at h
          | error e' =>
            rw [hr] at h
            simp only [Except.map, Except.error.injEq] at h
            obtain ⟨pre, g, post, h1, h2, h3⟩ := (ih2 e').1 hr
            exact ⟨f :: pre, g, post, by simp [h1], fun k hk => by
              rcases List.mem_cons.1 hk with rfl | hk
              · exact ⟨y, hf⟩
              · exact h2 k hk, by rw [← h]; exact h3⟩
        · cases pre with
          | nil => simp at h1; rw [← h1.1, hf] at h3; simp at h3
          | cons p ps =>
            simp only [List.cons_append, List.cons.injEq] at h1
            rw [(ih2 e).2 ⟨ps, g, post, h1.2, fun k hk => h2 k (by simp [hk]), h3⟩]; rfl

/-! ## Cases -/

/-- An empty line and a question mark are asked about again; then `YES` saves the buffer. -/
example : ∃ fs, askAndSave (some 5) 100 "_except" [[], ['?'], ['Y', 'E', 'S'], ['n']] (fun _ => none) = some (fs, 3, [['n']]) ∧
    fs (toString 100 ++ "_except" ++ ".replay.pkl") = some 5 ∧ fs "other" = none := by
  have h : askYesNo [[], ['?'], ['Y', 'E', 'S'], ['n']] = some (true, 3, [['n']]) := by decide
  have h2 : askAndSave (some 5) 100 "_except" [[], ['?'], ['Y', 'E', 'S'], ['n']] (fun _ => none) = some (saveReplayBuffer 5 100 "_except" fun _ => none, 3, [['n']]) := by
    unfold askAndSave; rw [h]
  refine ⟨_, h2, ?_⟩
  rcases C154_save _ _ _ _ _ _ _ _ h2 with ⟨b, h3, -, h4, h5⟩ | ⟨-, h3, -⟩ | ⟨h3, -⟩
  · cases h3; exact ⟨h4, h5 _ (by decide)⟩
  · rw [h] at h3; simp at h3
  · simp at h3

/-- A nested list. -/
example : collect (.seq (.cons (.variable 1) (.cons (.seq (.cons (.distribution [2, 3]) .nil)) (.cons (.actionValue [4]) .nil)))) = .ok (some [1, 2, 3, 4]) :=
  (C154_collect _).1 (by simp [Obj.Supported, Objs.Supported])

end Verif.Helpers
