import Verif.Proofs.NStepForwardCall

set_option autoImplicit false
set_option linter.unusedSectionVars false

/-! # C80: multi-step forward computation of stateless recurrent models -/

namespace Verif.NStepForward
variable {V S : Type} [Inhabited V]

/-- The final state of a sequence that starts in state `s`: its rows are fed one by one. -/
abbrev last (l : Layer V S) (p : State l × List (List V)) : State l := (runWith (step l) p.1 p.2).1

/-- The output rows of a sequence that starts in state `s`. -/
abbrev outputs (l : Layer V S) (p : State l × List (List V)) : List (List V) := (runWith (step l) p.1 p.2).2

/-- A batch of sequences of any lengths, each with a state of its own, gives with
`output_mode='split'` for every sequence exactly what feeding that sequence alone, row by
row, gives; and the new batched state stands for the states the sequences end in.  The part
that is missing is about sequences that are tuples given to a `StatelessRecurrentSequential`
(`Fits` asks for arrays there), where it is false: see `C80_violated_tuple_input`. -/
theorem C80_split_partial (l : Layer V S) (a b : Shape) (rs : RS S)
    (xs : List (State l × List (List V))) (hf : Fits l a b) (hl : l.isRecurrent = true)
    (hne : xs ≠ []) (hw : ∀ p ∈ xs, ∀ row ∈ p.2, row.length = a.width)
    (hs : Stands l rs (xs.map fun p => p.1)) :
    ∃ rs', call l (xs.map fun p => pack a p.2) rs false =
        .ok (.split (xs.map fun p => pack b (outputs l p)), rs') ∧
      Stands l rs' (xs.map (last l)) := by
  obtain ⟨rs', h1, h2⟩ := call_spec l a b false rs xs hf hl hne hw hs
  refine ⟨rs', ?_, h2⟩
  rw [h1]
  simp only [outOf, List.map_map]
  rfl

/-- With `output_mode='concat'` the outputs of the sequences come one after the other, in the
order of the sequences. -/
theorem C80_concat_partial (l : Layer V S) (a b : Shape) (rs : RS S)
    (xs : List (State l × List (List V))) (hf : Fits l a b) (hl : l.isRecurrent = true)
    (hne : xs ≠ []) (hw : ∀ p ∈ xs, ∀ row ∈ p.2, row.length = a.width)
    (hs : Stands l rs (xs.map fun p => p.1)) :
    ∃ rs', call l (xs.map fun p => pack a p.2) rs true =
        .ok (.concat (pack b (xs.map (outputs l)).flatten), rs') ∧
      Stands l rs' (xs.map (last l)) := by
  obtain ⟨rs', h1, h2⟩ := call_spec l a b true rs xs hf hl hne hw hs
  exact ⟨rs', by rw [h1]; rfl, h2⟩

/-- `None` as recurrent state starts every sequence from the initial state, whatever the
model. -/
theorem C80_none_partial (l : Layer V S) (a b : Shape) (seqs : List (List (List V))) (hf : Fits l a b)
    (hl : l.isRecurrent = true) (hne : seqs ≠ [])
    (hw : ∀ rows ∈ seqs, ∀ row ∈ rows, row.length = a.width) :
    ∃ rs', call l (seqs.map (pack a)) .none false =
        .ok (.split (seqs.map fun rows => pack b (outputs l (initial l, rows))), rs') ∧
      Stands l rs' (seqs.map fun rows => last l (initial l, rows)) := by
  have := C80_split_partial l a b .none (seqs.map fun rows => (initial l, rows)) hf hl (by simpa using hne)
    (by simpa using hw) (stands_none l _ (by simp))
  simpa only [List.map_map, Function.comp_def] using this

theorem runWith_append {σ : Type} (f : σ → List V → σ × List V) (s : σ) (u v : List (List V)) :
    runWith f s (u ++ v) =
      ((runWith f (runWith f s u).1 v).1, (runWith f s u).2 ++ (runWith f (runWith f s u).1 v).2) := by
  induction u generalizing s with
  | nil => rfl
  | cons r u ih => rw [List.cons_append, runWith_cons, ih, runWith_cons]; rfl

/-- Truncated computation: the sequences cut in two anywhere, each at a place of its own, the
second parts computed from the state the first call returned: the outputs are those of the
whole sequences, cut at the same places, and the last state stands for the same states. -/
theorem C80_carry_partial (l : Layer V S) (a b : Shape) (rs : RS S)
    (xs : List (State l × List (List V) × List (List V))) (hf : Fits l a b) (hl : l.isRecurrent = true)
    (hne : xs ≠ []) (hw : ∀ p ∈ xs, ∀ row ∈ p.2.1 ++ p.2.2, row.length = a.width)
    (hs : Stands l rs (xs.map fun p => p.1)) :
    ∃ rs₁ rs₂ rs₃ ys zs ws,
      call l (xs.map fun p => pack a p.2.1) rs false = .ok (.split (ys.map (pack b)), rs₁) ∧
      call l (xs.map fun p => pack a p.2.2) rs₁ false = .ok (.split (zs.map (pack b)), rs₂) ∧
      call l (xs.map fun p => pack a (p.2.1 ++ p.2.2)) rs false = .ok (.split (ws.map (pack b)), rs₃) ∧
      ws = List.zipWith (· ++ ·) ys zs ∧ ys.map List.length = xs.map (fun p => p.2.1.length) ∧
      Stands l rs₂ (xs.map fun p => last l (p.1, p.2.1 ++ p.2.2)) ∧
      Stands l rs₃ (xs.map fun p => last l (p.1, p.2.1 ++ p.2.2)) := by
  obtain ⟨rs₁, h1, s1⟩ := C80_split_partial l a b rs (xs.map fun p => (p.1, p.2.1)) hf hl (by simpa using hne)
    (by
      intro q hq row hr
      obtain ⟨p, hp, rfl⟩ := List.mem_map.1 hq
      exact hw p hp row (List.mem_append.2 (.inl hr)))
    (by simpa only [List.map_map, Function.comp_def] using hs)
  obtain ⟨rs₂, h2, s2⟩ := C80_split_partial l a b rs₁ (xs.map fun p => (last l (p.1, p.2.1), p.2.2)) hf hl
    (by simpa using hne)
    (by
      intro q hq row hr
      obtain ⟨p, hp, rfl⟩ := List.mem_map.1 hq
      exact hw p hp row (List.mem_append.2 (.inr hr)))
    (by simpa only [List.map_map, Function.comp_def] using s1)
  obtain ⟨rs₃, h3, s3⟩ := C80_split_partial l a b rs (xs.map fun p => (p.1, p.2.1 ++ p.2.2)) hf hl
    (by simpa using hne)
    (by
      intro q hq row hr
      obtain ⟨p, hp, rfl⟩ := List.mem_map.1 hq
      exact hw p hp row hr)
    (by simpa only [List.map_map, Function.comp_def] using hs)
  refine ⟨rs₁, rs₂, rs₃, xs.map fun p => outputs l (p.1, p.2.1),
    xs.map fun p => outputs l (last l (p.1, p.2.1), p.2.2), xs.map fun p => outputs l (p.1, p.2.1 ++ p.2.2),
    ?_, ?_, ?_, ?_, ?_, ?_, ?_⟩
  · simpa only [List.map_map, Function.comp_def] using h1
  · simpa only [List.map_map, Function.comp_def] using h2
  · simpa only [List.map_map, Function.comp_def] using h3
  · clear h1 h2 h3 s1 s2 s3 hs hw hne
    induction xs with
    | nil => rfl
    | cons p xs ih =>
      simp only [List.map_cons, List.zipWith_cons_cons]
      rw [ih]
      congr 1
      simp only [outputs, last, runWith_append]
  · rw [List.map_map]
    apply List.map_congr_left
    intro p _
    exact runWith_length _ _ _
  · rw [List.map_map] at s2
    have : (xs.map fun p => last l (p.1, p.2.1 ++ p.2.2)) =
        xs.map (last l ∘ fun p => (last l (p.1, p.2.1), p.2.2)) := by
      apply List.map_congr_left
      intro p _
      simp only [outputs, last, runWith_append, Function.comp]
    rw [this]; exact s2
  · simpa only [List.map_map, Function.comp_def] using s3

/-- One-step computation on a batch, `model(x, recurrent_state)`: row `i` of the output is one
step of sequence `i`. -/
theorem C80_one_step_partial (l : Layer V S) (b : Shape) (rs : RS S) (xs : List (State l × V))
    (hf : Fits l none b) (hl : l.isRecurrent = true) (hne : xs ≠ [])
    (hs : Stands l rs (xs.map fun p => p.1)) :
    ∃ rs', oneStep l (.arr (xs.map fun p => p.2)) rs =
        .ok (.concat (pack b (xs.map fun p => (step l p.1 [p.2]).2)), rs') ∧
      Stands l rs' (xs.map fun p => (step l p.1 [p.2]).1) := by
  obtain ⟨rs', h1, h2⟩ := C80_concat_partial l none b rs (xs.map fun p => (p.1, [[p.2]])) hf hl
    (by simpa using hne)
    (by
      intro q hq row hr
      obtain ⟨p, _, rfl⟩ := List.mem_map.1 hq
      simp only [List.mem_singleton] at hr
      subst hr; rfl)
    (by simpa only [List.map_map, Function.comp_def] using hs)
  refine ⟨rs', ?_, ?_⟩
  · simp only [oneStep, splitOneStep]
    rw [List.map_map] at h1 ⊢
    refine Eq.trans ?_ (h1.trans ?_)
    · rfl
    · congr 4
      rw [List.map_map]
      clear h1 h2 hs hne
      induction xs with
      | nil => rfl
      | cons p xs ih => simp only [List.map_cons, List.flatten_cons, ih]; rfl
  · rw [List.map_map] at h2; exact h2

/-- The sequences of a `StatelessRecurrentSequential` may not be tuples: sections are computed
with `len` of the tuple, which is the number of its arrays.  The two sequences below have
three and one rows; the model adds the two arrays of a tuple and feeds the sums to a
recurrent link that outputs running totals.  Alone the second sequence gives `[100]`; in the
batch it is given the third row of the first sequence too. -/
theorem C80_violated_tuple_input :
    let model : Layer Int Int := .seq [.fn fun row => row.sum, .core (fun s x => (s + x, s + x)) 0]
    let seq₁ : List (List Int) := [[1, 0], [2, 0], [3, 0]]
    let seq₂ : List (List Int) := [[100, 0]]
    (outputs model (initial model, seq₁) = [[1], [3], [6]] ∧
      outputs model (initial model, seq₂) = [[100]]) ∧
    (call model ([seq₁, seq₂].map (pack (some 2))) .none false).map Prod.fst =
      .ok (.split [.arr [1, 3], .arr [3, 103]]) := by
  refine ⟨⟨rfl, rfl⟩, rfl⟩

/-- One-step computation is documented for tuples too, but raises for every one of them. -/
theorem C80_violated_one_step_tuple (l : Layer V S) (arrays : List (List V)) (rs : RS S) :
    oneStep l (.tup arrays) rs = .error .assertionError := rfl

/-! ### Recurrent states that do not fit -/

/-- A sequential model refuses a state that does not have one part for every recurrent layer. -/
theorem C80_wrong_states (layers : List (Layer V S)) (xs : List (Val V)) (ss : List (RS S)) (concat : Bool) (h : ss.length ≠ layers.countP Layer.isRecurrent) :
    call (.seq layers) xs (.list ss) concat = .error .assertionError := by
  rw [call]
  unfold pyAssert
  split
  · simp [childStates, pyAssert, h, Bind.bind, Except.bind]
  · rfl

theorem branchLoop_nil_left (xs : List (Val V)) (concat : Bool) (states : List (RS S)) : branchLoop xs concat [] states = .ok ([], []) := by
  simp [branchLoop]

theorem branchLoop_nil_right (xs : List (Val V)) (concat : Bool) (children : List (Layer V S)) : branchLoop xs concat children [] = .ok ([], []) := by
  cases children <;> simp [branchLoop]

theorem branchLoop_length (xs : List (Val V)) (concat : Bool) : ∀ (children : List (Layer V S)) (states : List (RS S)) (r : List (Out V) × List (RS S)),
    branchLoop xs concat children states = .ok r → r.1.length = min children.length states.length
  | [], _, r, h => by rw [branchLoop_nil_left] at h; cases h; simp
  | _ :: _, [], r, h => by rw [branchLoop_nil_right] at h; cases h; simp
  | c :: cs, s :: ss, r, h => by
    rw [branchLoop] at h
    cases h1 : call c xs s concat with
    | error e => rw [h1] at h; cases h
    | ok y =>
      cases h2 : branchLoop xs concat cs ss with
      | error e => rw [h1] at h; simp [h2, Bind.bind, Except.bind] at h
      | ok q =>
        rw [h1] at h
        simp only [h2, Bind.bind, Except.bind, pure, Except.pure] at h
        cases h
        have := branchLoop_length xs concat cs ss q h2
        simp [this]

theorem branchLoop_take (xs : List (Val V)) (concat : Bool) : ∀ (children : List (Layer V S)) (states : List (RS S)),
    branchLoop xs concat (children.take states.length) states = branchLoop xs concat children states ∧
    branchLoop xs concat children (states.take children.length) = branchLoop xs concat children states
  | [], ss => by simp [branchLoop_nil_left]
  | c :: cs, [] => by simp [branchLoop_nil_left, branchLoop_nil_right]
  | c :: cs, s :: ss => by
    have ih := branchLoop_take xs concat cs ss
    constructor
    · simp only [List.length_cons, List.take_succ_cons]
      rw [branchLoop, branchLoop, ih.1]
    · simp only [List.length_cons, List.take_succ_cons]
      rw [branchLoop, branchLoop, ih.2]

theorem splitsOf_length : ∀ (ys : List (Out V)) (vss : List (List (Val V))), splitsOf ys = .ok vss → vss.length = ys.length
  | [], _, h => by cases h; rfl
  | .split y :: rest, vss, h => by
    rw [splitsOf] at h
    cases h1 : splitsOf rest with
    | error e => rw [h1] at h; cases h
    | ok q => rw [h1] at h; cases h; simp [splitsOf_length rest q h1]
  | .concat _ :: _, _, h => by cases h

/-- A branched model without children cannot be called. -/
theorem C80_no_children (xs : List (Val V)) (rs : RS S) (concat : Bool) : ∃ e, call (.branch []) xs rs concat = .error e := by
  rw [call]
  cases rs <;> simp [branchStates, branchLoop_nil_left, Bind.bind, Except.bind]

/-- With `output_mode='split'` a branched model refuses a state with too few parts. -/
theorem C80_missing_states (children : List (Layer V S)) (xs : List (Val V)) (ss : List (RS S)) (h : ss.length < children.length) :
    ∃ e, call (.branch children) xs (.list ss) false = .error e := by
  rw [call]
  simp only [branchStates, Bind.bind, Except.bind]
  cases h1 : branchLoop xs false children ss with
  | error e => exact ⟨e, rfl⟩
  | ok r =>
    have hl := branchLoop_length xs false children ss r h1
    dsimp only
    split
    · exact ⟨_, rfl⟩
    · simp only [branchOut, Bool.false_eq_true, if_false, Bind.bind, Except.bind]
      cases h2 : splitsOf r.1 with
      | error e => exact ⟨e, rfl⟩
      | ok vss =>
        have := splitsOf_length r.1 vss h2
        have hne : ¬ vss.length = children.length := by omega
        refine ⟨.assertionError, ?_⟩
        simp [pyAssert, hne]

/-- Otherwise nothing checks the state of a branched model.  Parts beyond the number of children are ignored, and with `output_mode='concat'` (also in one-step calls) children for which there is no
part are silently left out, so that the output has too few components. -/
theorem C80_violated_branch_states (children : List (Layer V S)) (xs : List (Val V)) (ss : List (RS S)) (concat : Bool) :
    call (.branch children) xs (.list ss) concat = call (.branch children) xs (.list (ss.take children.length)) concat ∧
    call (.branch children) xs (.list ss) true = call (.branch (children.take ss.length)) xs (.list ss) true := by
  have h := fun b => branchLoop_take xs b children ss
  constructor
  · rw [call, call]
    simp only [branchStates, Bind.bind, Except.bind, (h concat).2]
  · rw [call, call]
    simp only [branchStates, Bind.bind, Except.bind, (h true).1, branchOut, if_true]

example : let two : List (Layer Int Int) := [.core (fun s x => (s + x, s + x)) 0, .core (fun s x => (x, s)) 7]
    (call (.branch two) [.arr [1, 2]] .none true).map Prod.fst = .ok (.concat (.tup [[1, 3], [7, 1]])) ∧
    (call (.branch two) [.arr [1, 2]] (.list [.rows [0]]) true).map Prod.fst = .ok (.concat (.tup [[1, 3]])) ∧
    call (.seq two) [.arr [1, 2]] (.list [.rows [0]]) true = .error .assertionError := ⟨rfl, rfl, rfl⟩

/-! ### Examples: the hypotheses are met by a model with every kind of layer -/

/-- Two branches (a running sum and a sequential model that doubles and keeps the last input),
a layer that swaps and a layer that adds. -/
def exModel : Layer Int Int :=
  .seq [.fn fun r => r.headD 0 + 1,
    .branch [.core (fun s x => (s + x, s + x)) 0, .seq [.fn fun r => 2 * r.headD 0, .core (fun s x => (x, s)) 7]],
    .fnTup 2 (fun r i => if i = 0 then r.getD 1 0 else r.getD 0 0),
    .fn (fun r => 10 * r.getD 0 0 + r.getD 1 0), .core (fun s x => (s + 1, x)) 0]

example : Fits exModel none none := by
  refine ⟨rfl, none, ⟨by simp, rfl⟩, some 2, ⟨by simp, by simp, rfl, rfl, ⟨rfl, rfl⟩, rfl,
    ⟨rfl, none, ⟨by simp, rfl⟩, none, ⟨rfl, rfl⟩, rfl⟩, trivial⟩, some 2, ⟨by simp, rfl, by simp⟩, none,
    ⟨by simp, rfl⟩, none, ⟨rfl, rfl⟩, rfl⟩

example : (call exModel [.arr [1, 2, 3], .arr [5]] .none false).map Prod.fst =
    .ok (.split [.arr [72, 45, 69], .arr [76]]) := rfl

example : (call exModel [.arr [1, 2, 3], .arr [5]] .none true).map Prod.fst =
    .ok (.concat (.arr [72, 45, 69, 76])) := rfl

example : (oneStep exModel (.arr [1, 5]) .none).map Prod.fst = .ok (.concat (.arr [72, 76])) := rfl

/-- The hypotheses of `C80_split_partial` and `C80_carry_partial` hold of this model, from the initial state. -/
example : (∃ rs', call exModel [.arr [1, 2, 3], .arr [5]] .none false = .ok (.split ([[[1], [2], [3]], [[5]]].map fun rows =>
      pack none (outputs exModel (initial exModel, rows))), rs')) ∧
    ∃ rs₁ rs₂ ys zs, call exModel [.arr [1, 2], .arr [5]] .none false = .ok (.split ((ys : List (List (List Int))).map (pack none)), rs₁) ∧
      call exModel [.arr [3], .arr []] rs₁ false = .ok (.split ((zs : List (List (List Int))).map (pack none)), rs₂) := by
  have hf : Fits exModel none none := by
    refine ⟨rfl, none, ⟨by simp, rfl⟩, some 2, ⟨by simp, by simp, rfl, rfl, ⟨rfl, rfl⟩, rfl,
      ⟨rfl, none, ⟨by simp, rfl⟩, none, ⟨rfl, rfl⟩, rfl⟩, trivial⟩, some 2, ⟨by simp, rfl, by simp⟩, none,
      ⟨by simp, rfl⟩, none, ⟨rfl, rfl⟩, rfl⟩
  refine ⟨?_, ?_⟩
  · obtain ⟨rs', h, -⟩ := C80_split_partial exModel none none .none [(initial exModel, [[1], [2], [3]]), (initial exModel, [[5]])] hf rfl (by simp)
      (by simp [Shape.width]) (by simp [exModel, Stands])
    exact ⟨rs', h⟩
  · obtain ⟨rs₁, rs₂, -, ys, zs, -, h1, h2, -⟩ := C80_carry_partial exModel none none .none
      [(initial exModel, [[1], [2]], [[3]]), (initial exModel, [[5]], [])] hf rfl (by simp) (by simp [Shape.width]; rintro row ((rfl | rfl) | rfl) <;> rfl) (by simp [exModel, Stands])
    exact ⟨rs₁, rs₂, ys, zs, h1, h2⟩

end Verif.NStepForward
