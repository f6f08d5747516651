import Mathlib.Order.Defs.LinearOrder
import Verif.Model.Eff
set_option autoImplicit false

/-!
# Model of `chainerrl/experiments/evaluator.py`: `Evaluator`

What `eval_performance`, `agent.get_statistics`, writing to `scores.txt` and
`agent.save` return or raise is an input (`World`).  Scores are elements of a
linear order; `elapsed` (wall clock) and logging are not modelled.
-/

namespace Verif.Evaluator

/-- The dict returned by `eval_performance` (`evaluator.py:248-254`), without
`episodes`, which is not used. -/
structure Stats (K : Type) where
  mean : K
  median : K
  stdev : K
  max : K
  min : K
  deriving DecidableEq

/-- The visible effects: lines written to `scores.txt` and the snapshot `best`.
`C` is the type of what `agent.get_statistics()` returns (made by evaluator.py:258-267, 323-346). -/
inductive Ev (K C : Type) where
  /-- lines 318-321: `scores.txt` is truncated, the header is written -/
  | header
  /-- `record_stats` (258-260): one line is appended -/
  | record (t episodes : Nat) (stats : Stats K) (custom : C)
  /-- `save_agent(agent, "best", …)` (263-266) -/
  | best
  deriving DecidableEq

/-- The outside world during one call (what the calls in evaluator.py:218-255, 323-346 return). -/
structure World (K C X : Type) where
  eval : Except X (Stats K)
  custom : Except X C
  record : Except X Unit
  save : Except X Unit

/-- The constructor's arguments (lines 286-297) that matter here. -/
structure Cfg where
  evalInterval : Nat
  stepOffset : Nat
  saveBest : Bool

/-- The mutable attributes: `max_score`, `prev_eval_t` (evaluator.py:305-310). -/
structure St (K : Type) where
  maxScore : K
  prev : Nat
  deriving DecidableEq

variable {K C X : Type} [LinearOrder K]

/-- `__init__` (lines 298-321); `lo` is `np.finfo(np.float32).min`. -/
def init (c : Cfg) (lo : K) : List (Ev K C) × St K :=
  ([.header], ⟨lo, c.stepOffset - c.stepOffset % c.evalInterval⟩)

/-- `evaluate_and_update_max_score` (lines 323-346). -/
def evaluateAndUpdateMaxScore (c : Cfg) (w : World K C X) (t episodes : Nat) :
    Eff (St K) (Ev K C) X K := fun s =>
  match w.eval, w.custom with
  | .error e, _ => ([], s, .error e)
  | .ok _, .error e => ([], s, .error e)
  | .ok st, .ok cu =>
    match w.record with
    | .error e => ([], s, .error e)
    | .ok _ =>
      let line := Ev.record t episodes st cu
      if st.mean > s.maxScore then
        let s' := { s with maxScore := st.mean }
        if c.saveBest then
          match w.save with
          | .error e => ([line], s', .error e)
          | .ok _ => ([line, .best], s', .ok st.mean)
        else ([line], s', .ok st.mean)
      else ([line], s, .ok st.mean)

/-- `evaluate_if_necessary` (lines 348-353). -/
def evaluateIfNecessary (c : Cfg) (w : World K C X) (t episodes : Nat) :
    Eff (St K) (Ev K C) X (Option K) := fun s =>
  if t ≥ s.prev + c.evalInterval then
    match evaluateAndUpdateMaxScore c w t episodes s with
    | (l, s', .error e) => (l, s', .error e)
    | (l, s', .ok score) => (l, { s' with prev := t - t % c.evalInterval }, .ok (some score))
  else ([], s, .ok none)

/-- A call of `evaluate_if_necessary` (evaluator.py:348-353). -/
structure Call (K C X : Type) where
  t : Nat
  episodes : Nat
  w : World K C X

/-- What a call does: the effects and the result (of evaluator.py:323-353). -/
abbrev Outcome (K C X : Type) := List (Ev K C) × Except X (Option K)

/-- A history of calls on one evaluator; a caller may go on after an exception (iterates evaluator.py:348-353). -/
def runFrom (c : Cfg) (s : St K) : List (Call K C X) → List (Outcome K C X) × St K
  | [] => ([], s)
  | x :: l =>
    let r := evaluateIfNecessary c x.w x.t x.episodes s
    let r' := runFrom c r.2.1 l
    ((r.1, r.2.2) :: r'.1, r'.2)

/-- A history of calls on a new evaluator (evaluator.py:286-353). -/
def run (c : Cfg) (lo : K) (l : List (Call K C X)) : List (Outcome K C X) × St K :=
  runFrom c (init (C := C) c lo).2 l

end Verif.Evaluator
