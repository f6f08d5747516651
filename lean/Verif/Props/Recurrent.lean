import Verif.Spec.Recurrent
set_option autoImplicit false
set_option linter.unusedSectionVars false

/-! # C59: `state_kept` and `state_reset` -/

namespace Verif.Recurrent
variable {V : Type}

mutual
theorem sameShape_refl : ∀ t : Tree V, SameShape t t
  | .lstm s => .lstm s s
  | .other => .other
  | .chain ts => .chain (sameShapes_refl ts)
theorem sameShapes_refl : ∀ ts : List (Tree V), SameShapes ts ts
  | [] => .nil
  | t :: ts => .cons (sameShape_refl t) (sameShapes_refl ts)
end

mutual
theorem sameShape_trans : ∀ {a b c : Tree V}, SameShape a b → SameShape b c → SameShape a c
  | _, _, _, .lstm s _, .lstm _ s' => .lstm s s'
  | _, _, _, .other, .other => .other
  | _, _, _, .chain h, .chain h' => .chain (sameShapes_trans h h')
theorem sameShapes_trans : ∀ {a b c : List (Tree V)}, SameShapes a b → SameShapes b c → SameShapes a c
  | _, _, _, .nil, .nil => .nil
  | _, _, _, .cons h hs, .cons h' hs' => .cons (sameShape_trans h h') (sameShapes_trans hs hs')
end

mutual
theorem sameShape_symm : ∀ {a b : Tree V}, SameShape a b → SameShape b a
  | _, _, .lstm s s' => .lstm s' s
  | _, _, .other => .other
  | _, _, .chain h => .chain (sameShapes_symm h)
theorem sameShapes_symm : ∀ {a b : List (Tree V)}, SameShapes a b → SameShapes b a
  | _, _, .nil => .nil
  | _, _, .cons h hs => .cons (sameShape_symm h) (sameShapes_symm hs)
end

mutual
theorem sameShape_length : ∀ {a b : Tree V}, SameShape a b → a.states.length = b.states.length
  | _, _, .lstm s s' => rfl
  | _, _, .other => rfl
  | _, _, .chain h => sameShapes_length h
theorem sameShapes_length : ∀ {a b : List (Tree V)}, SameShapes a b →
    (Tree.statesList a).length = (Tree.statesList b).length
  | _, _, .nil => rfl
  | _, _, .cons h hs => by
    simp only [Tree.statesList, List.length_append, sameShape_length h, sameShapes_length hs]
end

mutual
/-- A link is determined by its shape and its states. -/
theorem sameShape_ext : ∀ {a b : Tree V}, SameShape a b → a.states = b.states → a = b
  | _, _, .lstm s s', h => by simp only [Tree.states, List.cons.injEq, and_true] at h; rw [h]
  | _, _, .other, _ => rfl
  | _, _, .chain h, e => by rw [sameShapes_ext h e]
theorem sameShapes_ext : ∀ {a b : List (Tree V)}, SameShapes a b → Tree.statesList a = Tree.statesList b → a = b
  | _, _, .nil, _ => rfl
  | _, _, .cons h hs, e => by
    simp only [Tree.statesList] at e
    obtain ⟨e1, e2⟩ := List.append_inj e (sameShape_length h)
    rw [sameShape_ext h e1, sameShapes_ext hs e2]
end

mutual
theorem reset_shape : ∀ t : Tree V, SameShape t (resetOne t)
  | .lstm s => .lstm s none
  | .other => .other
  | .chain ts => .chain (reset_shapes ts)
theorem reset_shapes : ∀ ts : List (Tree V), SameShapes ts (resetList ts)
  | [] => .nil
  | t :: ts => .cons (reset_shape t) (reset_shapes ts)
end

mutual
theorem reset_states : ∀ t : Tree V, ∀ s ∈ (resetOne t).states, s = none
  | .lstm _ => by simp [resetOne, Tree.states]
  | .other => by simp [resetOne, Tree.states]
  | .chain ts => reset_statesList ts
theorem reset_statesList : ∀ ts : List (Tree V), ∀ s ∈ Tree.statesList (resetList ts), s = none
  | [] => by simp [resetList, Tree.statesList]
  | t :: ts => by
    intro s hs
    simp only [resetList, Tree.statesList, List.mem_append] at hs
    rcases hs with hs | hs
    · exact reset_states t s hs
    · exact reset_statesList ts s hs
end

/-- The saved state, or the present one if the saved one is initial. -/
def overlay (saved now : Option (V × V)) : Option (V × V) := saved.or now

mutual
theorem set_get : ∀ {a b : Tree V}, SameShape a b →
    ∃ c, setOne b (getOne a) = .ok c ∧ SameShape a c ∧ c.states = List.zipWith overlay a.states b.states
  | _, _, .lstm none s' => ⟨.lstm s', rfl, .lstm _ _, rfl⟩
  | _, _, .lstm (some x) s' => ⟨.lstm (some x), rfl, .lstm _ _, rfl⟩
  | _, _, .other => ⟨.other, rfl, .other, rfl⟩
  | _, _, .chain h => by
    obtain ⟨cs, h1, h2, h3⟩ := sets_gets h
    refine ⟨.chain cs, ?_, .chain h2, h3⟩
    simp only [getOne, setOne, h1, bind, Except.bind, pure, Except.pure]
theorem sets_gets : ∀ {a b : List (Tree V)}, SameShapes a b →
    ∃ c, setList b (getList a) = .ok c ∧ SameShapes a c ∧
      Tree.statesList c = List.zipWith overlay (Tree.statesList a) (Tree.statesList b)
  | _, _, .nil => ⟨[], rfl, .nil, rfl⟩
  | _, _, .cons h hs => by
    obtain ⟨c, h1, h2, h3⟩ := set_get h
    obtain ⟨cs, g1, g2, g3⟩ := sets_gets hs
    refine ⟨c :: cs, ?_, .cons h2 g2, ?_⟩
    · simp only [getList, setList, h1, g1, bind, Except.bind, pure, Except.pure]
    · simp only [Tree.statesList, h3, g3]
      rw [List.zipWith_append (sameShape_length h)]
end

/-- What leaving a context does, given that its body ended in `w` without an exception. -/
theorem pop_spec {i : Nat} {t : Tree V} {w : World V} {rest : List (St V)} (hst : w.stack = getOne t :: rest)
    (hsh : SameShape t (w.link i)) :
    ∃ c, pop i w = (World.set { w with stack := rest } i c, none) ∧ SameShape t c ∧
      c.states = List.zipWith overlay t.states (w.link i).states := by
  obtain ⟨c, h1, h2, h3⟩ := set_get hsh
  exact ⟨c, by simp only [pop, hst, h1], h2, h3⟩

/-- Programs whose contexts contain their exceptions leave the stack and the shapes as they
were. -/
theorem exec_balanced (rec : Nat → Bool) : ∀ (p : Prog V) (w : World V), Sane p → Contained p →
    (MayRaise p = false → (exec rec p w).2 = none) ∧ (exec rec p w).1.stack = w.stack ∧
    ∀ j, SameShape (w.link j) ((exec rec p w).1.link j)
  | .skip, w, _, _ => ⟨fun _ => rfl, rfl, fun j => sameShape_refl _⟩
  | .run i f, w, hs, _ => by
    refine ⟨fun _ => rfl, rfl, fun j => ?_⟩
    simp only [exec, World.set]
    split
    · rename_i h; subst h; exact hs _
    · exact sameShape_refl _
  | .fail e, w, _, _ => ⟨fun h => by simp [MayRaise] at h, rfl, fun j => sameShape_refl _⟩
  | .seq p q, w, hs, hn => by
    obtain ⟨p1, p2, p3⟩ := exec_balanced rec p w hs.1 hn.1
    obtain ⟨q1, q2, q3⟩ := exec_balanced rec q (exec rec p w).1 hs.2 hn.2
    rw [exec]
    generalize hp : exec rec p w = r at p1 p2 p3 q1 q2 q3
    obtain ⟨w', o⟩ := r
    cases o with
    | none =>
      refine ⟨fun h => q1 ?_, q2.trans p2, fun j => sameShape_trans (p3 j) (q3 j)⟩
      simp only [MayRaise, Bool.or_eq_false_iff] at h
      exact h.2
    | some e =>
      refine ⟨fun h => ?_, p2, p3⟩
      simp only [MayRaise, Bool.or_eq_false_iff] at h
      exact p1 h.1
  | .tryCatch p q, w, hs, hn => by
    obtain ⟨p1, p2, p3⟩ := exec_balanced rec p w hs.1 hn.1
    obtain ⟨q1, q2, q3⟩ := exec_balanced rec q (exec rec p w).1 hs.2 hn.2
    rw [exec]
    generalize hp : exec rec p w = r at p1 p2 p3 q1 q2 q3
    obtain ⟨w', o⟩ := r
    cases o with
    | none => exact ⟨fun _ => rfl, p2, p3⟩
    | some e =>
      refine ⟨fun h => ?_, q2.trans p2, fun j => sameShape_trans (p3 j) (q3 j)⟩
      simp only [MayRaise, Bool.and_eq_false_iff] at h
      rcases h with h | h
      · exact absurd (p1 h) (by simp)
      · exact q1 h
  | .kept i p, w, hs, hn => by
    rw [exec]
    by_cases hr : rec i = true
    · rw [if_pos hr]
      obtain ⟨p1, p2, p3⟩ := exec_balanced rec p (pushKeep i w) hs hn.2
      replace p1 := p1 hn.1
      generalize exec rec p (pushKeep i w) = r at p1 p2 p3
      obtain ⟨w', o⟩ := r
      simp only at p1 p2 p3
      subst p1
      obtain ⟨c, h1, h2, -⟩ := pop_spec (t := w.link i) (rest := w.stack) p2 (p3 i)
      simp only [h1]
      refine ⟨fun _ => trivial, rfl, fun j => ?_⟩
      simp only [World.set]
      split
      · rename_i h; subst h; exact h2
      · exact p3 j
    · rw [if_neg hr]
      exact exec_balanced rec p w hs hn.2
  | .reset i p, w, hs, hn => by
    rw [exec]
    by_cases hr : rec i = true
    · rw [if_pos hr]
      obtain ⟨p1, p2, p3⟩ := exec_balanced rec p (push i w) hs hn.2
      replace p1 := p1 hn.1
      generalize exec rec p (push i w) = r at p1 p2 p3
      obtain ⟨w', o⟩ := r
      simp only at p1 p2 p3
      subst p1
      have hsh : SameShape (w.link i) (w'.link i) := by
        have := p3 i
        simp only [push, World.set, if_true] at this
        exact sameShape_trans (reset_shape _) this
      obtain ⟨c, h1, h2, -⟩ := pop_spec (t := w.link i) (rest := w.stack) p2 hsh
      simp only [h1]
      refine ⟨fun _ => trivial, rfl, fun j => ?_⟩
      simp only [World.set]
      split
      · rename_i h; subst h; exact h2
      · rename_i h
        have := p3 j
        simp only [push, pushKeep, World.set, if_neg h] at this
        exact this
    · rw [if_neg hr]
      exact exec_balanced rec p w hs hn.2

/-- What a context leaves behind, given the world at the end of its body. -/
theorem kept_spec (rec : Nat → Bool) (i : Nat) (p : Prog V) (w : World V) (hr : rec i = true) (hs : Sane p)
    (hm : MayRaise p = false) (hn : Contained p) :
    (exec rec (.kept i p) w).2 = none ∧ (exec rec (.kept i p) w).1.stack = w.stack ∧
    SameShape (w.link i) ((exec rec (.kept i p) w).1.link i) ∧
    (w.link i).states.length = ((exec rec p (pushKeep i w)).1.link i).states.length ∧
    ((exec rec (.kept i p) w).1.link i).states =
      List.zipWith overlay (w.link i).states ((exec rec p (pushKeep i w)).1.link i).states := by
  rw [exec, if_pos hr]
  obtain ⟨p1, p2, p3⟩ := exec_balanced rec p (pushKeep i w) hs hn
  replace p1 := p1 hm
  generalize exec rec p (pushKeep i w) = r at p1 p2 p3 ⊢
  obtain ⟨w', o⟩ := r
  simp only at p1 p2 p3
  subst p1
  obtain ⟨c, h1, h2, h3⟩ := pop_spec (t := w.link i) (rest := w.stack) p2 (p3 i)
  simp only [h1, World.set, if_true]
  exact ⟨trivial, trivial, h2, sameShape_length (p3 i), h3⟩

theorem reset_spec (rec : Nat → Bool) (i : Nat) (p : Prog V) (w : World V) (hr : rec i = true) (hs : Sane p)
    (hm : MayRaise p = false) (hn : Contained p) :
    (exec rec (.reset i p) w).2 = none ∧ (exec rec (.reset i p) w).1.stack = w.stack ∧
    SameShape (w.link i) ((exec rec (.reset i p) w).1.link i) ∧
    (w.link i).states.length = ((exec rec p (push i w)).1.link i).states.length ∧
    ((exec rec (.reset i p) w).1.link i).states =
      List.zipWith overlay (w.link i).states ((exec rec p (push i w)).1.link i).states := by
  rw [exec, if_pos hr]
  obtain ⟨p1, p2, p3⟩ := exec_balanced rec p (push i w) hs hn
  replace p1 := p1 hm
  have hsh : SameShape (w.link i) ((exec rec p (push i w)).1.link i) := by
    have := p3 i
    have e : (push i w).link i = resetOne (w.link i) := by simp [push, World.set]
    rw [e] at this
    exact sameShape_trans (reset_shape _) this
  generalize exec rec p (push i w) = r at p1 p2 hsh ⊢
  obtain ⟨w', o⟩ := r
  simp only at p1 p2 hsh
  subst p1
  obtain ⟨c, h1, h2, h3⟩ := pop_spec (t := w.link i) (rest := w.stack) p2 hsh
  simp only [h1, World.set, if_true]
  exact ⟨trivial, trivial, h2, sameShape_length hsh, h3⟩

theorem zipWith_overlay_left : ∀ (a b : List (Option (V × V))), a.length = b.length → (∀ s ∈ a, s ≠ none) →
    List.zipWith overlay a b = a
  | [], [], _, _ => rfl
  | none :: _, _ :: _, _, h => absurd rfl (h none (List.mem_cons_self ..))
  | some x :: a, _ :: b, hl, h => by
    rw [List.zipWith_cons_cons, zipWith_overlay_left a b (by simpa using hl)
      (fun s hs => h s (List.mem_cons_of_mem _ hs))]
    rfl
  | [], _ :: _, hl, _ => by simp at hl
  | _ :: _, [], hl, _ => by simp at hl

/-- **C59** (partial): for every link none of whose `LSTM`s is in its initial state and
every body with arbitrarily nested contexts on any links, `state_kept` and `state_reset`
restore the link exactly and raise nothing, provided no exception leaves a context.
Missing: links in the initial state and exceptions leaving a context, where the claim is
false. -/
theorem C59_restores_partial (rec : Nat → Bool) (i : Nat) (p : Prog V) (w : World V) (hr : rec i = true)
    (hs : Sane p) (hm : MayRaise p = false) (hn : Contained p) (hi : NonInitial (w.link i)) :
    ((exec rec (.kept i p) w).2 = none ∧ (exec rec (.kept i p) w).1.link i = w.link i ∧
      (exec rec (.kept i p) w).1.stack = w.stack) ∧
    ((exec rec (.reset i p) w).2 = none ∧ (exec rec (.reset i p) w).1.link i = w.link i ∧
      (exec rec (.reset i p) w).1.stack = w.stack) := by
  constructor
  · obtain ⟨h1, h2, h3, h4, h5⟩ := kept_spec rec i p w hr hs hm hn
    refine ⟨h1, (sameShape_ext h3 ?_).symm, h2⟩
    rw [h5, zipWith_overlay_left _ _ h4 hi]
  · obtain ⟨h1, h2, h3, h4, h5⟩ := reset_spec rec i p w hr hs hm hn
    refine ⟨h1, (sameShape_ext h3 ?_).symm, h2⟩
    rw [h5, zipWith_overlay_left _ _ h4 hi]

/-- **C59** (partial): exactly what is restored in general: an `LSTM` that had a state gets
it back, one that was in its initial state keeps whatever the body left. -/
theorem C59_overlay_partial (rec : Nat → Bool) (i : Nat) (p : Prog V) (w : World V) (hr : rec i = true)
    (hs : Sane p) (hm : MayRaise p = false) (hn : Contained p) (k : Nat) (before : Option (V × V))
    (hk : (w.link i).states[k]? = some before) :
    (∀ x, before = some x → ((exec rec (.kept i p) w).1.link i).states[k]? = some (some x) ∧
      ((exec rec (.reset i p) w).1.link i).states[k]? = some (some x)) ∧
    (before = none → ((exec rec (.kept i p) w).1.link i).states[k]? =
        ((exec rec p (pushKeep i w)).1.link i).states[k]? ∧
      ((exec rec (.reset i p) w).1.link i).states[k]? = ((exec rec p (push i w)).1.link i).states[k]?) := by
  obtain ⟨-, -, -, h4, h5⟩ := kept_spec rec i p w hr hs hm hn
  obtain ⟨-, -, -, g4, g5⟩ := reset_spec rec i p w hr hs hm hn
  have hlt : k < (w.link i).states.length := (List.getElem?_eq_some_iff.1 hk).1
  have hg : ((exec rec p (pushKeep i w)).1.link i).states[k]? =
      some ((exec rec p (pushKeep i w)).1.link i).states[k] := List.getElem?_eq_getElem (by omega)
  have hg' : ((exec rec p (push i w)).1.link i).states[k]? =
      some ((exec rec p (push i w)).1.link i).states[k] := List.getElem?_eq_getElem (by omega)
  rw [h5, g5, List.getElem?_zipWith, List.getElem?_zipWith, hk, hg, hg']
  constructor
  · rintro x rfl; exact ⟨rfl, rfl⟩
  · rintro rfl; exact ⟨rfl, rfl⟩

/-- **C59**: inside `state_kept` the body starts in the link's state, inside `state_reset`
in the initial state; other links are untouched. -/
theorem C59_entry (i : Nat) (w : World V) :
    (pushKeep i w).link = w.link ∧ Initial ((push i w).link i) ∧ SameShape (w.link i) ((push i w).link i) ∧
    ∀ j, j ≠ i → (push i w).link j = w.link j := by
  refine ⟨rfl, ?_, ?_, ?_⟩
  · intro s hs
    simp only [push, World.set, if_true] at hs
    exact reset_states _ s hs
  · simp only [push, World.set, if_true]; exact reset_shape _
  · intro j hj; simp [push, pushKeep, World.set, hj]

/-- **C59**: links that are not recurrent are ignored. -/
theorem C59_ignores (rec : Nat → Bool) (i : Nat) (p : Prog V) (w : World V) (hr : rec i = false) :
    exec rec (.kept i p) w = exec rec p w ∧ exec rec (.reset i p) w = exec rec p w := by
  simp [exec, hr]

/-- **C59** is false at the initial state: for every body that leaves an `LSTM` in another
state, neither context restores a link that was in the initial state. -/
theorem C59_violated_initial (x : V × V) (rest : Nat → Tree V) (stack : List (St V)) :
    let w : World V := ⟨fun j => if j = 0 then .chain [.lstm none] else rest j, stack⟩
    let body : Prog V := .run 0 (fun _ => .chain [.lstm (some x)])
    (exec (fun _ => true) (.kept 0 body) w).1.link 0 = .chain [.lstm (some x)] ∧
    (exec (fun _ => true) (.reset 0 body) w).1.link 0 = .chain [.lstm (some x)] ∧
    w.link 0 ≠ .chain [.lstm (some x)] := by
  refine ⟨rfl, rfl, ?_⟩
  simp

/-- **C59** is false when an exception leaves an inner context and is caught inside an outer
one: the outer context pops the inner one's entry of the shared stack and installs the
state of another link. -/
theorem C59_violated_exception (x y : V × V) (rest : Nat → Tree V) (e : PyErr) :
    let w : World V := ⟨fun j => if j = 0 then .chain [.lstm (some x)] else if j = 1 then .chain [.lstm (some y)]
      else rest j, []⟩
    let p : Prog V := .kept 0 (.tryCatch (.kept 1 (.fail e)) .skip)
    (exec (fun _ => true) p w).2 = none ∧ (exec (fun _ => true) p w).1.link 0 = .chain [.lstm (some y)] ∧
    (exec (fun _ => true) p w).1.stack ≠ w.stack := by
  refine ⟨rfl, rfl, ?_⟩
  intro h
  have := congrArg List.length h
  exact absurd this (by show ¬ (1 : Nat) = 0; decide)

/-- Two links, nested contexts, a caught exception, non-initial states. -/
def exampleProg : Prog Nat :=
  .seq (.run 0 resetOne) (.kept 1 (.seq (.tryCatch (.fail .valueError) .skip) (.reset 0 (.run 1 resetOne))))

example : Sane exampleProg ∧ MayRaise exampleProg = false ∧ Contained exampleProg ∧
    NonInitial (.chain [.lstm (some (1, 2)), .other, .chain [.lstm (some (3, 4))]] : Tree Nat) := by
  refine ⟨⟨reset_shape, ⟨trivial, trivial⟩, reset_shape⟩, rfl, ⟨trivial, rfl, ⟨trivial, trivial⟩, rfl, trivial⟩, ?_⟩
  intro s hs
  simp [Tree.states, Tree.statesList] at hs
  rcases hs with rfl | rfl <;> simp

mutual
theorem setOne_shape : ∀ (t : Tree V) (s : St V) (t' : Tree V), setOne t s = .ok t' → SameShape t t'
  | .lstm a, s, t' => by
    intro h
    cases s with
    | pair p =>
      cases p with
      | none => simp only [setOne, Except.ok.injEq] at h; subst h; exact .lstm _ _
      | some x => simp only [setOne, Except.ok.injEq] at h; subst h; exact .lstm _ _
    | _ => simp [setOne] at h
  | .other, s, t' => by
    intro h
    cases s with
    | none => simp only [setOne, Except.ok.injEq] at h; subst h; exact .other
    | _ => simp [setOne] at h
  | .chain ts, s, t' => by
    intro h
    cases s with
    | list ss =>
      simp only [setOne] at h
      cases hl : setList ts ss with
      | error e => rw [hl] at h; cases h
      | ok ts' => rw [hl] at h; cases h; exact .chain (setList_shape ts ss ts' hl)
    | _ => simp [setOne] at h
theorem setList_shape : ∀ (ts : List (Tree V)) (ss : List (St V)) (ts' : List (Tree V)),
    setList ts ss = .ok ts' → SameShapes ts ts'
  | [], ss, ts' => by
    intro h
    simp only [setList, Except.ok.injEq] at h
    subst h; exact .nil
  | t :: ts, [], ts' => by
    intro h
    simp only [setList, Except.ok.injEq] at h
    subst h; exact sameShapes_refl _
  | t :: ts, s :: ss, ts' => by
    intro h
    simp only [setList] at h
    cases h1 : setOne t s with
    | error e => rw [h1] at h; cases h
    | ok t1 =>
      rw [h1] at h
      cases hl : setList ts ss with
      | error e => simp only [hl, bind, Except.bind] at h; cases h
      | ok ts1 =>
        simp only [hl, bind, Except.bind, pure, Except.pure, Except.ok.injEq] at h
        subst h
        exact .cons (setOne_shape t s t1 h1) (setList_shape ts ss ts1 hl)
end

/-- **C59**: whatever state is set, `set_state` raises or keeps the structure of the links, and
links for which the state has no entry are left alone. -/
theorem C59_set_state (ts : List (Tree V)) (ss : List (St V)) (ts' : List (Tree V))
    (h : setList ts ss = .ok ts') : SameShapes ts ts' ∧ ts'.drop ss.length = ts.drop ss.length := by
  refine ⟨setList_shape ts ss ts' h, ?_⟩
  induction ts generalizing ss ts' with
  | nil => simp only [setList, Except.ok.injEq] at h; subst h; rfl
  | cons t ts ih =>
    cases ss with
    | nil => simp only [setList, Except.ok.injEq] at h; subst h; rfl
    | cons s ss =>
      simp only [setList] at h
      cases h1 : setOne t s with
      | error e => rw [h1] at h; cases h
      | ok t1 =>
        rw [h1] at h
        cases hl : setList ts ss with
        | error e => simp only [hl, bind, Except.bind] at h; cases h
        | ok ts1 =>
          simp only [hl, bind, Except.bind, pure, Except.pure, Except.ok.injEq] at h
          subst h
          exact ih ss ts1 hl

example : setList [Tree.lstm (some (1, 2)), .lstm (some (3, 4))] [St.pair (some (5, 6))] =
    .ok [.lstm (some (5, 6)), .lstm (some (3, 4))] := rfl

end Verif.Recurrent
