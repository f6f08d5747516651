import Mathlib.Logic.Function.Basic
import Verif.Model.RunEval
set_option autoImplicit false

/-!
# Model of `batch_run_evaluation_episodes` (`chainerrl/experiments/evaluator.py:86-215`)

As in `Verif.Model.RunEval`.  The arrays `episode_indices`, `episode_r` and
`episode_len`, indexed by environment, are one list of `EnvSt`; the dicts
`episode_returns` and `episode_lengths`, which have the same keys, are one
partial function.
-/

namespace Verif.BatchRunEval
open Train (StepOut)
open RunEval (Budget)

/-- The observable calls (the calls made in evaluator.py:86-215). -/
inductive Ev (O A K : Type) where
  /-- `env.reset()` (`none`) or `env.reset(mask)` -/
  | reset (mask : Option (List Bool)) (obss : List O)
  | act (obss : List O) (actions : List A)
  | step (actions : List A) (outs : List (StepOut O K))
  | observe (obss : List O) (rs : List K) (dones resets : List Bool)
  deriving DecidableEq

/-- The outside world in one iteration (what the calls in evaluator.py:130-149 return). -/
structure Iter (O A K X : Type) where
  act : Except X (List A)
  step : Except X (List (StepOut O K))
  observe : Except X Unit
  reset : Except X (List O)

/-- The entries of the arrays for one environment (evaluator.py:115-128). -/
structure EnvSt (K : Type) where
  idx : Nat
  r : K
  len : Nat
  deriving DecidableEq

/-- The local variables (evaluator.py:115-128). -/
structure Loc (O K : Type) where
  obss : List O
  envs : List (EnvSt K)
  /-- `episode_returns`, `episode_lengths` -/
  finished : Nat → Option (K × Nat)
  /-- `episode_idx` -/
  next : Nat

variable {O A K X : Type} [AddMonoid K]

/-- Lines 115-125, after `env.reset()` returned `obss`. -/
def Loc.init (numEnvs : Nat) (obss : List O) : Loc O K :=
  ⟨obss, (List.range numEnvs).map fun i => ⟨i, 0, 0⟩, fun _ => none, numEnvs⟩

/-- Lines 150-159: the environments with their `end` flags. -/
def finish : List (EnvSt K × Bool) → (Nat → Option (K × Nat)) → Nat →
    List (EnvSt K) × (Nat → Option (K × Nat)) × Nat
  | [], d, next => ([], d, next)
  | (v, false) :: l, d, next =>
    let r := finish l d next
    (v :: r.1, r.2)
  | (v, true) :: l, d, next =>
    let r := finish l (Function.update d v.idx (some (v.r, v.len))) (next + 1)
    (⟨next, 0, 0⟩ :: r.1, r.2)

/-- Lines 162-164; `fuel` bounds the keys. -/
def firstUnfinished (d : Nat → Option (K × Nat)) : Nat → Nat → Nat
  | 0, i => i
  | fuel + 1, i => if (d i).isSome then firstUnfinished d fuel (i + 1) else i

/-- `episode_returns[i]` and `episode_lengths[i]` for an `i` that is a key (evaluator.py:170-178). -/
def lookup (d : Nat → Option (K × Nat)) (i : Nat) : K × Nat := (d i).getD (0, 0)

/-- Lines 170-178: `total_time` and the returns collected. -/
def scan (d : Nat → Option (K × Nat)) (n : Nat) : List Nat → Nat → List K → Nat × List K
  | [], total, acc => (total, acc)
  | i :: l, total, acc =>
    let total := total + (lookup d i).2
    if total > n then (total, acc) else scan d n l total (acc ++ [(lookup d i).1])

/-- Lines 161-197: `termination_conditions` and `eval_episode_returns`. -/
def conclude (b : Budget) (envs : List (EnvSt K)) (d : Nat → Option (K × Nat)) (next : Nat) : Bool × List K :=
  let fu := firstUnfinished d next 0
  match b with
  | .episodes n =>
    if fu ≥ n then (true, (List.range n).map fun i => (lookup d i).1) else (false, [])
  | .steps n =>
    let (total, acc) := scan d n (List.range fu) 0 []
    if total ≥ n then (true, acc)
    else match envs.find? (fun v => v.idx == fu) with
      | none => (false, acc)
      | some v =>
        if total + v.len ≥ n then (true, if fu = 0 then acc ++ [v.r] else acc) else (false, acc)

/-- Lines 136-137. -/
def addStep (outs : List (StepOut O K)) (l : Loc O K) : List (EnvSt K) :=
  List.zipWith (fun v o => ⟨v.idx, v.r + o.r, v.len + 1⟩) l.envs outs

/-- Lines 139-144: `resets`. -/
def resetsOf (maxLen : Option Nat) (outs : List (StepOut O K)) (l : Loc O K) : List Bool :=
  List.zipWith (fun (v : EnvSt K) (o : StepOut O K) => some v.len == maxLen || o.needsReset) (addStep outs l) outs

/-- Line 147: `end` (evaluator.py:147). -/
def endsOf (maxLen : Option Nat) (outs : List (StepOut O K)) (l : Loc O K) : List Bool :=
  List.zipWith (· || ·) (resetsOf maxLen outs l) (outs.map (·.done))

/-- Lines 135-159: the arrays, the dicts and `episode_idx`. -/
def advance (maxLen : Option Nat) (outs : List (StepOut O K)) (l : Loc O K) :
    List (EnvSt K) × (Nat → Option (K × Nat)) × Nat :=
  finish ((addStep outs l).zip (endsOf maxLen outs l)) l.finished l.next

/-- Lines 131-209: one iteration; `Sum.inl` when it breaks. -/
def iter (b : Budget) (maxLen : Option Nat) (w : Iter O A K X) (l : Loc O K) :
    Eff Unit (Ev O A K) X (List K ⊕ Loc O K) := do
  let actions ← Eff.call (fun a => .act l.obss a) w.act
  let outs ← Eff.call (fun o => .step actions o) w.step
  let s := advance maxLen outs l
  let c := conclude b s.1 s.2.1 s.2.2
  let resets := resetsOf maxLen outs l
  Eff.call (fun _ => .observe (outs.map (·.obs)) (outs.map (·.r)) (outs.map (·.done))
    (if c.1 then resets.map fun _ => true else resets)) w.observe
  if c.1 then pure (.inl c.2)
  else do
    let obss ← Eff.call (fun o => .reset (some ((endsOf maxLen outs l).map (!·))) o) w.reset
    pure (.inr ⟨obss, s.1, s.2.1, s.2.2⟩)

/-- Lines 130-215. -/
def loop (b : Budget) (maxLen : Option Nat) (w : Nat → Iter O A K X) :
    Nat → Nat → Loc O K → Eff Unit (Ev O A K) X (Option (List K))
  | 0, _, _ => pure none
  | fuel + 1, i, l => do
    match ← iter b maxLen (w i) l with
    | .inl scores => pure (some scores)
    | .inr l' => loop b maxLen w fuel (i + 1) l'

/-- `batch_run_evaluation_episodes`; `reset` is what the first `env.reset()`
does (evaluator.py:86-215). -/
def run (numEnvs : Nat) (b : Budget) (maxLen : Option Nat) (reset : Except X (List O))
    (w : Nat → Iter O A K X) (fuel : Nat) : List (Ev O A K) × Except X (Option (List K)) :=
  let m : Eff Unit (Ev O A K) X (Option (List K)) := do
    let obss ← Eff.call (fun o => .reset none o) reset
    loop b maxLen w fuel 0 (Loc.init numEnvs obss)
  let r := m ()
  (r.1, r.2.2)

end Verif.BatchRunEval
