import Mathlib.Algebra.Field.Defs
import Verif.Model.Py
set_option autoImplicit false

/-! # Model: REINFORCE

`chainerrl/agents/reinforce.py`.  Arithmetic is exact.  A gradient is represented by the
value of the loss it is the gradient of; log probabilities and entropies are given with
each action by the caller (they come from the model and the sampled action). -/

namespace Verif.Reinforce
variable {K : Type} [Field K]

/-- The last or any other entry of `reward_sequences`, `log_prob_sequences` and
`entropy_sequences`, which are changed together (reinforce.py:64-66). -/
structure Seq (K : Type) where
  rewards : List K
  logps : List K
  ents : List K

/-- The empty entries (reinforce.py:64-66). -/
def Seq.empty : Seq K := ⟨[], [], []⟩

/-- The agent (reinforce.py:63-67): all entries but the last, the last, `n_backward`,
and the accumulated gradient. -/
structure St (K : Type) where
  ended : List (Seq K)
  last : Seq K
  nBackward : Nat
  acc : K

/-- A new agent (reinforce.py:38-67). -/
def St.init : St K := ⟨[], Seq.empty, 0, 0⟩

/-- The constructor's parameters (reinforce.py:38-58). -/
structure Cfg (K : Type) where
  beta : K
  batchsize : Nat
  separately : Bool

/-- `np.cumsum` (called in reinforce.py:133-156). -/
def cumsum (acc : K) : List K → List K
  | [] => []
  | x :: xs => (acc + x) :: cumsum (acc + x) xs

/-- `R_seq` (reinforce.py:143). -/
def returns (rewards : List K) : List K := (cumsum 0 (rewards.drop 1).reverse).reverse

/-- The losses of one entry (reinforce.py:141-146). -/
def seqLosses (beta : K) (s : Seq K) : Py (List K) :=
  pyAssert (s.rewards.length - 1 == s.logps.length && s.logps.length == s.ents.length)
    (.ok (List.zipWith (fun (R : K) (le : K × K) => -R * le.1 - beta * le.2)
      (returns s.rewards) (List.zip s.logps s.ents)))

/-- `sum_arrays` of the losses: the function cannot be applied to no input (called in reinforce.py:133-156). -/
def sumArrays (xs : List K) : Py K :=
  match xs with
  | [] => .error .indexError
  | _ => .ok xs.sum

/-- `accumulate_grad()` (reinforce.py:133-156). -/
def accumulateGrad (c : Cfg K) (s : St K) : Py (St K) := do
  let losses ← (s.ended ++ [s.last]).mapM (seqLosses c.beta)
  let total ← sumArrays losses.flatten
  let acc := if s.nBackward = 0 then 0 else s.acc
  pure ⟨[], Seq.empty, s.nBackward + 1, acc + total / (c.batchsize : K)⟩

/-- A call of the agent: `act_and_train` with the reward it is given and the log
probability and entropy of the action it selects, or `stop_episode_and_train` (reinforce.py:69, 105). -/
inductive Call (K : Type) where
  | act (reward logp ent : K)
  | stop (reward : K) (done : Bool)

/-- `batch_update()` (reinforce.py:158-166): the new state and the gradient used. -/
def batchUpdate (c : Cfg K) (s : St K) : Py (St K × List K) :=
  pyAssert (s.ended.length + 1 == c.batchsize) (pyAssert (s.nBackward == 0) do
    let s ← accumulateGrad c s
    pure ({ s with nBackward := 0 }, [s.acc]))

/-- The end of an episode with `done` (reinforce.py:116-128). -/
def stopDone (c : Cfg K) (s : St K) : Py (St K × List K) :=
  if c.separately then do
    let s ← accumulateGrad c s
    if s.nBackward = c.batchsize then pure ({ s with nBackward := 0 }, [s.acc]) else pure (s, [])
  else
    if s.ended.length + 1 = c.batchsize then batchUpdate c s
    else pure ({ s with ended := s.ended ++ [s.last], last := Seq.empty }, [])

/-- One call: the new state and the gradient of the update made, if any (reinforce.py:69-93, 105-131). -/
def step (c : Cfg K) (s : St K) : Call K → Py (St K × List K)
  | .act reward logp ent =>
    -- reinforce.py:77-81
    .ok ({ s with last := ⟨s.last.rewards ++ [reward], s.last.logps ++ [logp], s.last.ents ++ [ent]⟩ }, [])
  | .stop reward done =>
    -- reinforce.py:105-128
    if done then
      stopDone c { s with last := { s.last with rewards := s.last.rewards ++ [reward] } }
    else .ok ({ s with last := Seq.empty }, [])

/-- A history of calls: the gradients of the updates made, in order (iterates reinforce.py:69-93, 105-131). -/
def run (c : Cfg K) : St K → List (Call K) → Py (St K × List K)
  | s, [] => .ok (s, [])
  | s, x :: xs => do
    let r ← step c s x
    let r' ← run c r.1 xs
    pure (r'.1, r.2 ++ r'.2)

end Verif.Reinforce
