import Verif.Model.RunEval
set_option autoImplicit false

/-!
# Model of `chainerrl/experiments/collect_demos.py`

As in `Verif.Model.RunEval`.  Logging and `episode_r` (only logged) are not
modelled.  The pickle dataset is the sequence of the tuples written.
-/

namespace Verif.CollectDemos
open Train (StepOut)
open RunEval (Budget)

/-- The observable calls (the calls made in collect_demos.py:31-70). -/
inductive Ev (O A K : Type) where
  | reset (obs : O)
  /-- `agent.act(obs)` returned `a` -/
  | act (obs : O) (a : A)
  | step (a : A) (out : StepOut O K)
  /-- `dataset.write((obs, a, r, new_obs, done, info))`; `out` has the last four -/
  | write (obs : O) (a : A) (out : StepOut O K)
  | stop
  deriving DecidableEq

/-- The outside world in one iteration (what the calls in collect_demos.py:38-64 return). -/
structure Iter (O A K X : Type) where
  reset : Except X O
  act : Except X A
  step : Except X (StepOut O K)
  write : Except X Unit
  stop : Except X Unit

/-- The local variables: `obs` is meaningless before the first reset (collect_demos.py:31-36). -/
structure Loc (O : Type) where
  obs : Option O
  episodeLen : Nat
  timestep : Nat
  episodeNum : Nat
  reset : Bool

variable {O A K X : Type}

/-- Lines 31-36. -/
def Loc.init : Loc O := ⟨none, 0, 0, 0, true⟩

/-- Lines 55-56; `len` is `episode_len` before it is incremented (line 58). -/
def ends (maxLen : Option Nat) (len : Nat) (out : StepOut O K) : Bool :=
  out.done || (some len == maxLen || out.needsReset)

/-- Lines 65-66. -/
def stopIf (b : Bool) (w : Iter O A K X) : Eff Unit (Ev O A K) X Unit :=
  if b then Eff.call (fun _ => .stop) w.stop else pure ()

/-- Lines 38-47: `obs` and `episode_len` at the start of an iteration. -/
def start (w : Iter O A K X) (l : Loc O) : Eff Unit (Ev O A K) X (O × Nat) :=
  match if l.reset then none else l.obs with
  | some obs => pure (obs, l.episodeLen)
  | none => do
    let obs ← Eff.call (fun o => .reset o) w.reset
    pure (obs, 0)

/-- Lines 38-66: one iteration; the flag is `terminate` (lines 61-64). -/
def iter (b : Budget) (maxLen : Option Nat) (w : Iter O A K X) (l : Loc O) :
    Eff Unit (Ev O A K) X (Loc O × Bool) := do
  let (obs, len) ← start w l
  let a ← Eff.call (fun a => .act obs a) w.act
  let out ← Eff.call (fun o => .step a o) w.step
  Eff.call (fun _ => .write obs a out) w.write
  let reset := ends maxLen len out
  let timestep := l.timestep + 1
  let len := len + 1
  let episodeNum := if reset then l.episodeNum + 1 else l.episodeNum
  let terminate := b.spent episodeNum timestep
  stopIf (reset || terminate) w
  pure (⟨some out.obs, len, timestep, episodeNum, reset⟩, terminate)

/-- Line 37 (collect_demos.py:37). -/
def loop (b : Budget) (maxLen : Option Nat) (w : Nat → Iter O A K X) :
    Nat → Nat → Loc O → Eff Unit (Ev O A K) X Bool
  | 0, _, _ => pure false
  | fuel + 1, i, l => do
    let (l', terminate) ← iter b maxLen (w i) l
    if terminate then pure true else loop b maxLen w fuel (i + 1) l'

/-- `collect_demonstrations`: the calls made, and whether it returned (`false`:
more than `fuel` iterations) (collect_demos.py:7-70). -/
def run (b : Budget) (maxLen : Option Nat) (w : Nat → Iter O A K X) (fuel : Nat) :
    List (Ev O A K) × Except X Bool :=
  let r := loop b maxLen w fuel 0 Loc.init ()
  (r.1, r.2.2)

end Verif.CollectDemos
