import Mathlib.Algebra.Order.Field.Basic
import Mathlib.Data.List.Sort
import Verif.Model.Py
set_option autoImplicit false

/-! # Model: the replay update of PCL

`chainerrl/agents/pcl.py`, lines 177-233 and 261-341, for a feed-forward model given by
`V` (the value of a state) and `logp` (the log probability of an action in a state).
Arithmetic is exact.  The losses are modelled by their values. -/

namespace Verif.PCL
variable {K : Type} [Field K]

/-- A transition of a replayed episode (pcl.py:275-300). -/
structure Tr (O A K : Type) where
  state : O
  action : A
  reward : K
  nextState : O
  terminal : Bool

/-- The constructor's parameters used by `compute_loss` (pcl.py:88-108). -/
structure Cfg (K : Type) where
  gamma : K
  tau : K
  piLossCoef : K
  vLossCoef : K
  rolloutLen : Nat
  normalize : Bool

/-- What `compute_loss` reads for one step: reward, value, next value and log
probability (pcl.py:177-233). -/
structure Row (K : Type) where
  reward : K
  value : K
  nextValue : K
  logp : K

/-- `C_pi` (and `C_v`, which has the same value) at the first of `rows`
(pcl.py:189-211). -/
def consistency (c : Cfg K) (rows : List (Row K)) : Py K := do
  let d := min rows.length c.rolloutLen
  let first ← pyGet rows 0
  -- next_values[t + d - 1]: there is no entry before the first step
  let last ← if d = 0 then .error .keyError else pyGet rows ((d : Int) - 1)
  let rSeq := ((List.range d).map (fun i => c.gamma ^ i * ((rows[i]?.map Row.reward).getD 0))).sum
  let g := ((List.range d).map (fun i => c.gamma ^ i * ((rows[i]?.map Row.logp).getD 0))).sum
  pure (-first.value + c.gamma ^ d * last.nextValue + rSeq - c.tau * g)

/-- The squared errors of all steps (pcl.py:188-214). -/
def squares (c : Cfg K) : List (Row K) → Py (List K)
  | [] => .ok []
  | r :: rows => do
    let x ← consistency c (r :: rows)
    let xs ← squares c rows
    pure (x ^ 2 :: xs)

/-- `compute_loss` (pcl.py:177-233). -/
def computeLoss (c : Cfg K) (rows : List (Row K)) : Py K := do
  let xs ← squares c rows
  let pi := xs.sum / 2 / c.tau * c.piLossCoef
  let v := xs.sum / 2 * c.vLossCoef
  if c.normalize then
    if rows.length = 0 then .error .zeroDivisionError
    else pure (pi / (rows.length : K) + v / (rows.length : K))
  else pure (pi + v)

variable {O A : Type}

/-- `reversed(sorted(episodes, key=len))` (pcl.py:282); Python's sort is stable. -/
def sortEpisodes (eps : List (List (Tr O A K))) : List (List (Tr O A K)) :=
  (eps.mergeSort (fun a b => decide (a.length ≤ b.length))).reverse

/-- The transitions at time `t` (pcl.py:294-298): the loop over the episodes stops at
the first that is too short. -/
def column (t : Nat) : List (List (Tr O A K)) → List (Tr O A K)
  | [] => []
  | ep :: eps => match ep[t]? with
    | none => []
    | some tr => tr :: column t eps

/-- What is kept for one time: `values[t]`, `next_values[t]`, `rewards[t]`, `log_probs[t]`
(pcl.py:311-315), one entry for each episode. -/
structure Col (K : Type) where
  values : List K
  nextValues : List K
  rewards : List K
  logps : List K

/-- The states `action_distrib` and `v` are computed from (pcl.py:305-309). -/
def colStates (next : Option (List O)) (trs : List (Tr O A K)) : List O :=
  match next with
  | none => trs.map Tr.state
  | some ns => ns.take trs.length

/-- The body of the loop over `t` (pcl.py:294-315); `next` is the previous time's
`next_action_distrib, next_v`: the states they were computed from. -/
def mkCol (V : O → K) (logp : O → A → K) (next : Option (List O)) (trs : List (Tr O A K)) :
    Col K × List O :=
  let states := colStates next trs
  (⟨states.map V, trs.map (fun tr => V tr.nextState * (if tr.terminal then 0 else 1)),
    trs.map Tr.reward, List.zipWith (fun s (tr : Tr O A K) => logp s tr.action) states trs⟩,
   trs.map Tr.nextState)

/-- The loop over `t` (pcl.py:286-315), from time `t` for `n` more times. -/
def cols (V : O → K) (logp : O → A → K) (eps : List (List (Tr O A K))) :
    Nat → Nat → Option (List O) → List (Col K)
  | _, 0, _ => []
  | t, n + 1, next =>
    let r := mkCol V logp next (column t eps)
    r.1 :: cols V logp eps (t + 1) n (some r.2)

/-- The rows of episode `i` (pcl.py:323-331). -/
def rowsOf (cs : List (Col K)) (i : Nat) (len : Nat) : Py (List (Row K)) :=
  (List.range len).mapM (fun (t : Nat) => do
    let c ← pyGet cs (t : Int)
    let v ← pyGet c.values (i : Int)
    let nv ← pyGet c.nextValues (i : Int)
    let r ← pyGet c.rewards (i : Int)
    let lp ← pyGet c.logps (i : Int)
    pure ⟨r, v, nv, lp⟩)

/-- The losses of the sorted episodes (pcl.py:317-338), from episode `i` on. -/
def losses (c : Cfg K) (cs : List (Col K)) : Nat → List (List (Tr O A K)) → Py (List K)
  | _, [] => .ok []
  | i, ep :: eps => do
    let rows ← rowsOf cs i ep.length
    let l ← computeLoss c rows
    let ls ← losses c cs (i + 1) eps
    pure (l :: ls)

/-- The loss of `update_from_replay` (pcl.py:275-340) for the sampled episodes and
weights. -/
def replayLoss (c : Cfg K) (V : O → K) (logp : O → A → K) (batchsize : Nat)
    (episodes : List (List (Tr O A K))) (weights : List K) : Py K := do
  let sorted := sortEpisodes episodes
  let first ← pyGet sorted 0
  let ls ← losses c (cols V logp sorted 0 first.length none) 0 sorted
  pure ((List.zipWith (· * ·) weights ls).sum / (batchsize : K))

end Verif.PCL
