import Verif.Model.Py
import Mathlib.Algebra.Field.Basic
import Mathlib.Algebra.BigOperators.Group.List.Basic
set_option autoImplicit false

/-! # Model: networks with batch normalisation, and the mode in which agents act

`chainerrl/links/mlp_bn.py`, the networks built from it
(`q_functions/state_action_q_functions.py`, `policies/deterministic_policy.py`), and
`act` and `batch_act` of the agents.  Simplifications: sizes fit (Chainer raises an exception when they do not; see
C96 for the sizes); numbers are elements of a field with any function `sqrt`. -/

namespace Verif.BatchNorm
variable {K : Type} [Field K]

/-- One row of a batch (the rows of the batches in mlp_bn.py:18-19). -/
abbrev Row (K : Type) := List K

/-- One feature of `L.BatchNormalization`: parameters and running averages (the link of mlp_bn.py:13-16). -/
structure Feature (K : Type) where
  gamma : K
  beta : K
  avgMean : K
  avgVar : K
deriving DecidableEq

/-- `decay` and `eps` of `L.BatchNormalization` (Chainer's defaults are 0.9 and 2e-5), and the square root
(the link of mlp_bn.py:13-16). -/
structure Const (K : Type) where
  decay : K
  eps : K
  sqrt : K → K

/-- The mean of a column of a batch (in Chainer's link, called in mlp_bn.py:18-19). -/
def mean (col : List K) : K := col.sum / (col.length : K)

/-- The variance of a column of a batch (in Chainer's link, called in mlp_bn.py:18-19). -/
def var (col : List K) : K := (col.map fun x => (x - mean col) * (x - mean col)).sum / (col.length : K)

/-- Normalisation with a mean and a variance (in Chainer's link, called in mlp_bn.py:18-19). -/
def normalize (c : Const K) (f : Feature K) (m v x : K) : K := f.gamma * (x - m) / c.sqrt (v + c.eps) + f.beta

/-- Column `j` of a batch (in Chainer's link, called in mlp_bn.py:18-19). -/
def col (xs : List (Row K)) (j : Nat) : List K := xs.map fun x => x.getD j 0

/-- The running averages after a batch in training mode; the variance is that without bias (Chainer,
`functions/normalization/batch_normalization.py`: `m / max(m - 1, 1)`). -/
def Feature.update (c : Const K) (f : Feature K) (column : List K) : Feature K :=
  let n := column.length
  { f with
    avgMean := c.decay * f.avgMean + (1 - c.decay) * mean column
    avgVar := c.decay * f.avgVar + (1 - c.decay) * (var column * ((n : K) / ((max (n - 1) 1 : Nat) : K))) }

/-- A row in test mode (in Chainer's link, called in mlp_bn.py:18-19). -/
def testRow (c : Const K) (bn : List (Feature K)) (x : Row K) : Row K :=
  List.zipWith (fun (f : Feature K) v => normalize c f f.avgMean f.avgVar v) bn x

/-- A batch in training mode (in Chainer's link, called in mlp_bn.py:18-19). -/
def trainRows (c : Const K) (bn : List (Feature K)) (xs : List (Row K)) : List (Row K) :=
  xs.map fun x => bn.mapIdx fun j f => normalize c f (mean (col xs j)) (var (col xs j)) (x.getD j 0)

/-- `L.BatchNormalization.__call__` with `chainer.config.train` (called in mlp_bn.py:18-19, 74-75). -/
def bnCall (c : Const K) (train : Bool) (bn : List (Feature K)) (xs : List (Row K)) : List (Row K) × List (Feature K) :=
  if train then (trainRows c bn xs, bn.mapIdx fun j f => f.update c (col xs j))
  else (xs.map (testRow c bn), bn)

/-- `L.Linear` (mlp_bn.py:13-16). -/
structure Lin (K : Type) where
  W : List (List K)
  b : List K
deriving DecidableEq

/-- A row through `L.Linear` (called in mlp_bn.py:18-19). -/
def Lin.row (l : Lin K) (x : Row K) : Row K :=
  List.zipWith (fun w b => (List.zipWith (fun u v => u * v) w x).sum + b) l.W l.b

/-- `LinearBN` (mlp_bn.py:7-19). -/
structure LinearBN (K : Type) where
  linear : Lin K
  bn : List (Feature K)
deriving DecidableEq

/-- mlp_bn.py:18-19. -/
def LinearBN.call (c : Const K) (train : Bool) (l : LinearBN K) (xs : List (Row K)) : List (Row K) × LinearBN K :=
  let r := bnCall c train l.bn (xs.map l.linear.row)
  (r.1, { l with bn := r.2 })

/-- `MLPBN` (mlp_bn.py:40-69): `inputBN` and `outputBN` exist if they are asked for. -/
structure MLPBN (K : Type) where
  inputBN : Option (List (Feature K))
  hidden : List (LinearBN K)
  output : Lin K
  outputBN : Option (List (Feature K))
deriving DecidableEq

/-- The loop over the hidden layers (mlp_bn.py:76-78), `σ` is the nonlinearity. -/
def hiddenCall (c : Const K) (σ : Row K → Row K) (train : Bool) : List (LinearBN K) → List (Row K) → List (Row K) × List (LinearBN K)
  | [], h => (h, [])
  | l :: ls, h =>
    let r := l.call c train h
    let s := hiddenCall c σ train ls (r.1.map σ)
    (s.1, r.2 :: s.2)

/-- An optional batch normalisation (mlp_bn.py:74-75, 80-81). -/
def optCall (c : Const K) (train : Bool) : Option (List (Feature K)) → List (Row K) → List (Row K) × Option (List (Feature K))
  | none, h => (h, none)
  | some bn, h => ((bnCall c train bn h).1, some (bnCall c train bn h).2)

/-- `MLPBN.__call__` (mlp_bn.py:71-82): the outputs and the network afterwards. -/
def MLPBN.call (c : Const K) (σ : Row K → Row K) (train : Bool) (m : MLPBN K) (xs : List (Row K)) : Py (List (Row K) × MLPBN K) :=
  if train && !(decide (1 < xs.length)) then .error .assertionError
  else
    let a := optCall c train m.inputBN xs
    let h := hiddenCall c σ train m.hidden a.1
    let o := optCall c train m.outputBN (h.1.map m.output.row)
    .ok (o.1, ⟨a.2, h.2, m.output, o.2⟩)

/-- `FCBNSAQFunction.__call__` (state_action_q_functions.py:136-138). -/
def saqCall (c : Const K) (σ : Row K → Row K) (train : Bool) (m : MLPBN K) (xs : List (Row K × Row K)) : Py (List (Row K) × MLPBN K) :=
  m.call c σ train (xs.map fun x => x.1 ++ x.2)

/-- `FCBNLateActionSAQFunction.__call__` (state_action_q_functions.py:190-193); `mlp` is the MLP without batch normalisation, on a row. -/
def lateCall (c : Const K) (σ : Row K → Row K) (mlp : Row K → Row K) (train : Bool) (m : MLPBN K) (xs : List (Row K × Row K)) :
    Py (List (Row K) × MLPBN K) := do
  let r ← m.call c σ train (xs.map Prod.fst)
  pure ((List.zipWith (fun h a => mlp (h ++ a)) (r.1.map σ) (xs.map Prod.snd)), r.2)

/-- `FCBNDeterministicPolicy` (deterministic_policy.py:37-47, 124-155); `filter` is `bound_by_tanh` on a row, or nothing. -/
def policyCall (c : Const K) (σ filter : Row K → Row K) (train : Bool) (m : MLPBN K) (xs : List (Row K)) : Py (List (Row K) × MLPBN K) := do
  let r ← m.call c σ train xs
  pure (r.1.map filter, r.2)

/-! ## Acting -/

variable {N N' X Y Z A : Type}

/-- A network: what a call on a batch in a mode returns, and the network afterwards
(any of mlp_bn.py:22-82 and the networks that contain one). -/
abbrev Net (N X Y : Type) := Bool → N → List X → Py (List Y × N)

/-- The agents (chainerrl/agents/*.py). -/
inductive Kind where
  | dqn | ddpg | td3 | sac | pgt | ppo | trpo
  | a2c | a3c | acer | pcl | reinforce | nsq
deriving DecidableEq

/-- `chainer.config.train` while `act` (and `batch_act`) call the networks, when it is `train` (by default `True`) at the
call of the method.  Test mode: dqn.py:362, 466, ddpg.py:335, 359, td3.py:239, 279, soft_actor_critic.py:291, pgt.py:234,
ppo.py:647, 700, trpo.py:706, 759.  No change: a2c.py:248, 281, a3c.py:271, acer.py:653, pcl.py:433, reinforce.py:96,
nsq.py:159. -/
def actingMode (k : Kind) (train : Bool) : Bool :=
  match k with
  | .dqn | .ddpg | .td3 | .sac | .pgt | .ppo | .trpo => false
  | .a2c | .a3c | .acer | .pcl | .reinforce | .nsq => train

/-- `batch_act`, and `act` with one observation, of the agents with one network for acting (the policy, the model or the Q-function):
what the network returns for the observations, and the network afterwards (dqn.py:430-442, td3.py:238-286 and the like). -/
def actOne (k : Kind) (net : Net N X Y) (train : Bool) (n : N) (obs : List X) : Py (List Y × N) := net (actingMode k train) n obs

/-- `act` and `batch_act` of DDPG (ddpg.py:335-339, 359-363), and `act` of PGT (pgt.py:234-241): the Q-function is called only for
information; `choose` gives the action chosen from a row of the policy's output and `us` are random numbers. -/
def actTwo (k : Kind) (policy : Net N X Y) (q : Net N' (X × A) Z) (choose : Y → Nat → A) (train : Bool) (n : N) (n' : N')
    (obs : List X) (us : List Nat) : Py (List A × N × N') := do
  let r ← policy (actingMode k train) n obs
  let actions := List.zipWith choose r.1 us
  let s ← q (actingMode k train) n' (List.zip obs actions)
  pure (actions, r.2, s.2)

end Verif.BatchNorm
