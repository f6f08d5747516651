import Mathlib.Algebra.Group.Defs
import Verif.Model.TrainAgent
set_option autoImplicit false

/-!
# Model of `run_evaluation_episodes` (`chainerrl/experiments/evaluator.py:27-83`)

The outside world decides what every call returns or raises.  The loop has no
bound in the code; the model runs at most `fuel` iterations and returns `none`
when they did not suffice.  Logging and the cast of a score to float are not
modelled; rewards are added in an additive monoid.
-/

namespace Verif.RunEval
open Train (StepOut)

/-- The observable calls (evaluator.py:27-83). -/
inductive Ev (O A K : Type) where
  | reset (obs : O)
  /-- `agent.act(obs)` returned `a` -/
  | act (obs : O) (a : A)
  | step (a : A) (out : StepOut O K)
  | stop
  deriving DecidableEq

/-- The outside world in one iteration (what the calls in evaluator.py:50-83 return). -/
structure Iter (O A K X : Type) where
  reset : Except X O
  act : Except X A
  step : Except X (StepOut O K)
  stop : Except X Unit

/-- The arguments `n_steps`, `n_episodes` (line 44: exactly one is given) and
`max_episode_len`. -/
inductive Budget where
  | steps (n : Nat)
  | episodes (n : Nat)

/-- The local variables: `obs` is meaningless before the first reset (evaluator.py:47-50). -/
structure Loc (O K : Type) where
  obs : Option O
  testR : K
  episodeLen : Nat
  timestep : Nat
  scores : List K
  reset : Bool

variable {O A K X : Type} [AddMonoid K]

/-- Lines 48-51. -/
def Loc.init : Loc O K := ⟨none, 0, 0, 0, [], true⟩

/-- Lines 64-65. -/
def ends (maxLen : Option Nat) (len : Nat) (out : StepOut O K) : Bool :=
  out.done || (some len == maxLen || out.needsReset)

/-- Lines 72-75: `terminate`. -/
def Budget.spent (b : Budget) (numScores timestep : Nat) : Bool :=
  match b with
  | .episodes n => decide (numScores ≥ n)
  | .steps n => decide (timestep ≥ n)

/-- Lines 76-77. -/
def stopIf (b : Bool) (w : Iter O A K X) : Eff Unit (Ev O A K) X Unit :=
  if b then Eff.call (fun _ => .stop) w.stop else pure ()

/-- Lines 53-58: `obs`, `test_r` and `episode_len` at the start of an iteration. -/
def start (w : Iter O A K X) (l : Loc O K) : Eff Unit (Ev O A K) X (O × K × Nat) :=
  match if l.reset then none else l.obs with
  | some obs => pure (obs, l.testR, l.episodeLen)
  | none => do
    let obs ← Eff.call (fun o => .reset o) w.reset
    pure (obs, 0, 0)

/-- Lines 53-77: one iteration; the flag is `terminate`. -/
def iter (b : Budget) (maxLen : Option Nat) (w : Iter O A K X) (l : Loc O K) :
    Eff Unit (Ev O A K) X (Loc O K × Bool) := do
  let (obs, testR, len) ← start w l
  let a ← Eff.call (fun a => .act obs a) w.act
  let out ← Eff.call (fun o => .step a o) w.step
  let testR := testR + out.r
  let len := len + 1
  let timestep := l.timestep + 1
  let reset := ends maxLen len out
  let scores := if reset then l.scores ++ [testR] else l.scores
  let terminate := b.spent scores.length timestep
  stopIf (reset || terminate) w
  pure (⟨some out.obs, testR, len, timestep, scores, reset⟩, terminate)

/-- Lines 52-83. -/
def loop (b : Budget) (maxLen : Option Nat) (w : Nat → Iter O A K X) :
    Nat → Nat → Loc O K → Eff Unit (Ev O A K) X (Option (List K))
  | 0, _, _ => pure none
  | fuel + 1, i, l => do
    let (l', terminate) ← iter b maxLen (w i) l
    if terminate then
      pure (some (if l'.scores.length = 0 then l'.scores ++ [l'.testR] else l'.scores))
    else loop b maxLen w fuel (i + 1) l'

/-- `run_evaluation_episodes`: the calls made, and the scores or the exception
(`none`: more than `fuel` iterations) (evaluator.py:27-83). -/
def run (b : Budget) (maxLen : Option Nat) (w : Nat → Iter O A K X) (fuel : Nat) :
    List (Ev O A K) × Except X (Option (List K)) :=
  let r := loop b maxLen w fuel 0 Loc.init ()
  (r.1, r.2.2)

end Verif.RunEval
