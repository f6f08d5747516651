import Verif.Proofs.RecurrentUpdate
import Verif.Props.NStepForward
import Mathlib.Algebra.Ring.Rat
import Mathlib.Tactic.Ring

set_option autoImplicit false
set_option linter.unusedSectionVars false

/-! # C81: the update of a recurrent DQN from sampled episodes -/

namespace Verif.NStepForward
variable {V S A R : Type} [Inhabited V]

/-- A sampled (sub)episode with the states its stored recurrent states stand for: that of the
model when it read the first state, and that of the target model when it reads the first next
state. -/
structure Sampled (model target : Layer V S) (A R : Type) where
  start : State model
  nextStart : State target
  steps : List (Tr V A R S)

/-- The episode has a step, and its first step carries the two states. -/
def Sampled.Ok {model target : Layer V S} (e : Sampled model target A R) : Prop :=
  ∃ tr rest, e.steps = tr :: rest ∧ StandsOne model tr.recState e.start ∧
    StandsOne target tr.nextRecState e.nextStart

variable [CommRing R]

/-- The values of the actions of one episode: the model reads the states of the episode one by
one, from the stored state. -/
def Sampled.values {model target : Layer V S} (qeval : V → A → R) (e : Sampled model target A R) : List R :=
  List.zipWith (fun row tr => qeval (row.headD default) tr.action)
    (outputs model (e.start, e.steps.map fun tr => [tr.state])) e.steps

/-- Their targets: the reward, and unless the step is terminal the discounted largest value in
the output of the target model for the next state, which it reads after the earlier next
states of the episode, from the stored state. -/
def Sampled.targets {model target : Layer V S} (qmax : V → R) (gamma : R) (e : Sampled model target A R) :
    List R :=
  List.zipWith (fun row tr => tr.reward + if tr.terminal then 0 else gamma * qmax (row.headD default))
    (outputs target (e.nextStart, e.steps.map fun tr => [tr.nextState])) e.steps

theorem arr_pack (l : List (Tr V A R S)) (f : Tr V A R S → V) :
    (Val.arr (l.map f) : Val V) = pack none (l.map fun tr => [f tr]) := by
  rw [pack_none, List.map_map]; rfl

theorem zipWith_flatten {α β γ δ : Type} (f : α → β → γ) (xs : List δ) (a : δ → List α) (b : δ → List β)
    (h : ∀ x ∈ xs, (a x).length = (b x).length) :
    List.zipWith f (xs.map a).flatten (xs.map b).flatten = (xs.map fun x => List.zipWith f (a x) (b x)).flatten := by
  induction xs with
  | nil => rfl
  | cons x xs ih =>
    simp only [List.map_cons, List.flatten_cons]
    rw [List.zipWith_append (h x (by simp)), ih (fun y hy => h y (by simp [hy]))]

theorem zipWith_target (qmax : V → R) (gamma : R) (rows : List (List V)) (trs : List (Tr V A R S))
    (h : rows.length = trs.length) :
    List.zipWith (· + ·) (trs.map Tr.reward)
      (List.zipWith (· * ·) (List.zipWith (· * ·) (List.replicate trs.length gamma)
        ((trs.map fun tr => if tr.terminal then (1 : R) else 0).map fun d => 1 - d))
        ((rows.map fun r => r.headD default).map qmax)) =
    List.zipWith (fun row tr => tr.reward + if tr.terminal then 0 else gamma * qmax (row.headD default))
      rows trs := by
  induction rows generalizing trs with
  | nil =>
    cases trs with
    | nil => rfl
    | cons _ _ => simp at h
  | cons r rows ih =>
    cases trs with
    | nil => simp at h
    | cons tr trs =>
      simp only [List.map_cons, List.length_cons, List.replicate_succ, List.zipWith_cons_cons]
      rw [ih trs (by simpa using h)]
      congr 1
      cases tr.terminal <;> simp

/-- For every recurrent model and target model of the same structure, and every batch of
sampled (sub)episodes of any lengths, the values and the targets that the update regresses
are those of the steps of the episodes, in their order, and each depends on its own episode
only: on the stored recurrent states and the states up to that step. -/
theorem C81_update (model target : Layer V S) (hm : Fits model none none) (ht : Fits target none none)
    (hrec : model.isRecurrent = true) (hsame : SameShape model target) (qeval : V → A → R) (qmax : V → R)
    (gamma : R) (es : List (Sampled model target A R)) (hne : es ≠ []) (hok : ∀ e ∈ es, e.Ok) :
    updateYT model target qeval qmax gamma (es.map Sampled.steps) =
      .ok ((es.map (Sampled.values qeval)).flatten, (es.map (Sampled.targets qmax gamma)).flatten) := by
  have hrec' : target.isRecurrent = true := by rw [← sameShape_rec model target hsame]; exact hrec
  have hfirst : (es.map Sampled.steps).mapM (fun ep => pyGet ep 0) =
      .ok (es.map fun e => e.steps.headD ⟨default, (Classical.choice (by
        obtain ⟨e, he⟩ := List.exists_mem_of_ne_nil es hne
        obtain ⟨tr, _⟩ := hok e he
        exact ⟨tr.action⟩)), 0, default, false, .none, .none⟩) := by
    rw [List.mapM_map]
    apply mapM_ok
    intro e he
    obtain ⟨tr, rest, h, _⟩ := hok e he
    simp only [Function.comp, h]
    exact pyGet_nat (tr :: rest) 0 (by simp)
  generalize (⟨default, (Classical.choice _), 0, default, false, .none, .none⟩ : Tr V A R S) = d at hfirst
  obtain ⟨rs, e1, s1⟩ := concatStates_spec model (es.map fun e => ((e.steps.headD d).recState, e.start)) hrec (by
    intro p hp
    obtain ⟨e, he, rfl⟩ := List.mem_map.1 hp
    obtain ⟨tr, rest, h, h1, h2⟩ := hok e he
    simp only [h]; exact h1)
  obtain ⟨nrs, e2, s2⟩ := concatStates_spec target (es.map fun e => ((e.steps.headD d).nextRecState, e.nextStart))
    hrec' (by
      intro p hp
      obtain ⟨e, he, rfl⟩ := List.mem_map.1 hp
      obtain ⟨tr, rest, h, h1, h2⟩ := hok e he
      simp only [h]; exact h2)
  rw [List.map_map] at e1 s1 e2 s2
  obtain ⟨rs', c1, _⟩ := C80_concat_partial model none none rs
    (es.map fun e => (e.start, e.steps.map fun tr => [tr.state])) hm hrec (by simpa using hne)
    (by
      intro q hq row hr
      obtain ⟨e, _, rfl⟩ := List.mem_map.1 hq
      obtain ⟨tr, _, rfl⟩ := List.mem_map.1 hr
      rfl)
    (by rw [List.map_map]; exact s1)
  obtain ⟨nrs', c2, _⟩ := C80_concat_partial target none none nrs
    (es.map fun e => (e.nextStart, e.steps.map fun tr => [tr.nextState])) ht hrec' (by simpa using hne)
    (by
      intro q hq row hr
      obtain ⟨e, _, rfl⟩ := List.mem_map.1 hq
      obtain ⟨tr, _, rfl⟩ := List.mem_map.1 hr
      rfl)
    (by rw [List.map_map]; exact s2)
  rw [List.map_map, List.map_map] at c1 c2
  have f1 : (es.map Sampled.steps).map (fun ep => (Val.arr (ep.map Tr.state) : Val V)) =
      es.map ((fun p => pack none p.2) ∘ fun e => (e.start, e.steps.map fun tr => [tr.state])) := by
    rw [List.map_map]
    apply List.map_congr_left
    intro e _
    exact arr_pack e.steps Tr.state
  have f2 : (es.map Sampled.steps).map (fun ep => (Val.arr (ep.map Tr.nextState) : Val V)) =
      es.map ((fun p => pack none p.2) ∘ fun e => (e.nextStart, e.steps.map fun tr => [tr.nextState])) := by
    rw [List.map_map]
    apply List.map_congr_left
    intro e _
    exact arr_pack e.steps Tr.nextState
  have l1 : ∀ e : Sampled model target A R,
      (outputs model (e.start, e.steps.map fun tr => [tr.state])).length = e.steps.length := by
    intro e
    simp only [outputs]
    rw [runWith_length, List.length_map]
  have l2 : ∀ e : Sampled model target A R,
      (outputs target (e.nextStart, e.steps.map fun tr => [tr.nextState])).length = e.steps.length := by
    intro e
    simp only [outputs]
    rw [runWith_length, List.length_map]
  unfold updateYT batchRecurrent
  simp only []
  rw [hfirst, bind_ok]
  have g1 : concatStates model ((es.map fun e => e.steps.headD d).map Tr.recState) = .ok rs := by
    rw [List.map_map]; exact e1
  have g2 : concatStates model ((es.map fun e => e.steps.headD d).map Tr.nextRecState) = .ok nrs := by
    rw [concatStates_same model target hsame, List.map_map]; exact e2
  rw [g1, bind_ok, g2, bind_ok]
  show computeYT model target qeval qmax _ = _
  unfold computeYT targetValues
  simp only []
  rw [f1, c1, bind_ok, f2, c2]
  simp only [pack_none, outRows, bind_ok]
  show Except.ok _ = Except.ok _
  congr 2
  · have := zipWith_flatten (fun (row : List V) (tr : Tr V A R S) => qeval (row.headD default) tr.action) es
      (fun e => outputs model (e.start, e.steps.map fun tr => [tr.state])) Sampled.steps (fun e _ => l1 e)
    rw [show (es.map (Sampled.values qeval)).flatten = _ from this.symm, List.zipWith_map]
    rfl
  · have := zipWith_flatten
      (fun (row : List V) (tr : Tr V A R S) => tr.reward + if tr.terminal then 0 else gamma * qmax (row.headD default)) es
      (fun e => outputs target (e.nextStart, e.steps.map fun tr => [tr.nextState])) Sampled.steps (fun e _ => l2 e)
    rw [show (es.map (Sampled.targets qmax gamma)).flatten = _ from this.symm]
    refine zipWith_target qmax gamma _ _ ?_
    rw [List.length_flatten, List.length_flatten, List.map_map, List.map_map]
    congr 1
    apply List.map_congr_left
    intro e _
    exact l2 e

/-! ### Example: two episodes of lengths 2 and 1, one of them from its beginning -/

/-- A model that outputs the running sum. -/
def exSum : Layer Int Int := .seq [.fn fun r => r.headD 0, .core (fun s x => (s + x, s + x)) 0]

/-- A target model of the same structure. -/
def exTarget : Layer Int Int := .seq [.fn fun r => 2 * r.headD 0, .core (fun s x => (s + x, s + x)) 0]

def exSteps : List (List (Tr Int Int Int Int)) :=
  [[⟨1, 5, 100, 2, false, .list [.none], .list [.row 1]⟩, ⟨2, 6, 200, 3, true, .list [.row 1], .list [.row 3]⟩],
    [⟨4, 7, 300, 8, false, .list [.row 20], .list [.row 24]⟩]]

def exSampled : List (Sampled exSum exTarget Int Int) :=
  [⟨((), (0 : Int), ()), ((), (1 : Int), ()), exSteps[0]⟩, ⟨((), (20 : Int), ()), ((), (24 : Int), ()), exSteps[1]⟩]

example : Fits exSum none none ∧ Fits exTarget none none ∧ SameShape exSum exTarget ∧ exSampled ≠ [] ∧
    exSampled.map Sampled.steps = exSteps ∧ ∀ e ∈ exSampled, e.Ok := by
  refine ⟨⟨rfl, none, ⟨by simp, rfl⟩, none, ⟨rfl, rfl⟩, rfl⟩, ⟨rfl, none, ⟨by simp, rfl⟩, none, ⟨rfl, rfl⟩, rfl⟩,
    ⟨trivial, rfl, trivial⟩, by simp [exSampled], rfl, ?_⟩
  intro e he
  simp only [exSampled, List.mem_cons, List.not_mem_nil, or_false] at he
  rcases he with rfl | rfl
  · exact ⟨_, _, rfl, ⟨_, _, rfl, rfl, rfl⟩, ⟨_, _, rfl, rfl, rfl⟩⟩
  · exact ⟨_, _, rfl, ⟨_, _, rfl, rfl, rfl⟩, ⟨_, _, rfl, rfl, rfl⟩⟩

example : updateYT exSum exTarget (fun v a => 10 * v + a) (fun v => v) 10 exSteps =
    .ok ([15, 36, 247], [150, 200, 700]) := rfl

end Verif.NStepForward
