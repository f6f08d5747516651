import Mathlib.Logic.Function.Basic
import Verif.Model.Evaluator
set_option autoImplicit false

/-!
# Model of `chainerrl/experiments/evaluator.py`: `AsyncEvaluator`

One evaluator shared by `P` processes.  A schedule is a list of slices; each
slice is the code between two points at which another process can interfere:
a `with value.get_lock()` block is one slice, and so is each of the evaluation
and the appending of a line to `scores.txt`.  `rnd` is the rounding of a score
to the C float of `mp.Value('f')`.  `agent.get_statistics`, `elapsed` and
logging are not modelled.  A call that raises has no effect of its own.
-/

namespace Verif.AsyncEvaluator
open Evaluator (Stats)

/-- The constructor's arguments; `base` (lines 396-397) is computed from them. -/
structure Cfg where
  evalInterval : Nat
  stepOffset : Nat
  saveBest : Bool

/-- A line of `scores.txt` (evaluator.py:427, 437-441). -/
inductive Line (K : Type) where
  /-- what was in the file before (it is opened with mode `a`, line 402) -/
  | old
  | header
  | score (t episodes : Nat) (stats : Stats K)
  deriving DecidableEq

/-- Where a process is in `evaluate_if_necessary` (evaluator.py:443-455). -/
inductive Pc (K : Type) where
  /-- outside -/
  | idle
  /-- line 450 -/
  | header (t episodes : Nat)
  /-- line 412 -/
  | eval (t episodes : Nat)
  /-- line 427 -/
  | record (t episodes : Nat) (stats : Stats K)
  /-- line 428 -/
  | update (mean : K)
  deriving DecidableEq

/-- The values shared among the processes, and the file (evaluator.py:396-403). -/
structure Shared (K : Type) where
  prev : Nat
  maxScore : K
  wroteHeader : Bool
  file : List (Line K)
  deriving DecidableEq

/-- What happens (the calls made in evaluator.py:411-455). -/
inductive Ev (K : Type) where
  /-- a call with step `t` found that an evaluation is necessary (lines 446-448) -/
  | claim (t : Nat)
  | header
  | record (t episodes : Nat) (stats : Stats K)
  /-- the agent with this mean was saved as `best` -/
  | best (mean : K)
  | ret (score : Option K)
  | raised
  deriving DecidableEq

/-- The arguments of a call, and what the calls made in the slice return (evaluator.py:411-425, 443). -/
structure Inp (K : Type) where
  t : Nat
  episodes : Nat
  stats : Stats K
  raise : Bool

variable {K : Type} [LinearOrder K]

/-- One slice of a process (a part of evaluator.py:411-455 between two accesses to shared values). -/
def slice (c : Cfg) (rnd : K → K) (i : Inp K) (g : Shared K) (pc : Pc K) :
    List (Ev K) × Shared K × Pc K :=
  match pc with
  | .idle =>
    if i.t ≥ g.prev + c.evalInterval then
      ([.claim i.t], { g with prev := g.prev + c.evalInterval }, .header i.t i.episodes)
    else ([.ret none], g, .idle)
  | .header t e =>
    if g.wroteHeader then ([], g, .eval t e)
    else if i.raise then ([.raised], g, .idle)
    else ([.header], { g with wroteHeader := true, file := [.header] }, .eval t e)
  | .eval t e =>
    if i.raise then ([.raised], g, .idle) else ([], g, .record t e i.stats)
  | .record t e st =>
    if i.raise then ([.raised], g, .idle)
    else ([.record t e st], { g with file := g.file ++ [.score t e st] }, .update st.mean)
  | .update m =>
    if m > g.maxScore then
      if c.saveBest then
        if i.raise then ([.raised], { g with maxScore := rnd m }, .idle)
        else ([.best m, .ret (some m)], { g with maxScore := rnd m }, .idle)
      else ([.ret (some m)], { g with maxScore := rnd m }, .idle)
    else ([.ret (some m)], g, .idle)

/-- The whole system (evaluator.py:356-403, for all processes). -/
structure State (P : Nat) (K : Type) where
  g : Shared K
  w : Fin P → Pc K

/-- `__init__`, lines 396-403; `lo` is `np.finfo(np.float32).min`. -/
def init (c : Cfg) (lo : K) (old : List (Line K)) (P : Nat) : State P K :=
  ⟨⟨c.stepOffset - c.stepOffset % c.evalInterval, lo, false, old⟩, fun _ => .idle⟩

/-- One slice of process `p` (evaluator.py:411-455). -/
def State.slice {P : Nat} (c : Cfg) (rnd : K → K) (s : State P K) (p : Fin P) (i : Inp K) :
    List (Fin P × Ev K) × State P K :=
  let r := AsyncEvaluator.slice c rnd i s.g (s.w p)
  (r.1.map (p, ·), ⟨r.2.1, Function.update s.w p r.2.2⟩)

/-- A schedule (interleaves the calls of evaluator.py:443-455). -/
def State.exec {P : Nat} (c : Cfg) (rnd : K → K) (s : State P K) :
    List (Fin P × Inp K) → List (Fin P × Ev K) × State P K
  | [] => ([], s)
  | (p, i) :: l =>
    let r := s.slice c rnd p i
    let r' := r.2.exec c rnd l
    (r.1 ++ r'.1, r'.2)

/-- A schedule of a new evaluator shared by `P` processes (evaluator.py:371-455). -/
def run (c : Cfg) (rnd : K → K) (lo : K) (old : List (Line K)) (P : Nat) (sched : List (Fin P × Inp K)) :
    List (Fin P × Ev K) × State P K :=
  (init c lo old P).exec c rnd sched

end Verif.AsyncEvaluator
