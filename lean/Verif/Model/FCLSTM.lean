import Verif.Model.Distrib
import Verif.Model.FCNets
import Verif.Model.RecurrentDDPG
set_option autoImplicit false

/-!
# Models of the ready-made recurrent networks and of the networks for discrete actions and state values

`FCLSTMDeterministicPolicy` (`chainerrl/policies/deterministic_policy.py` lines 157-218), `FCLSTMSAQFunction`
(`chainerrl/q_functions/state_action_q_functions.py` lines 64-100), `FCLSTMStateQFunction`
(`chainerrl/q_functions/state_q_functions.py` lines 120-148), `FCSoftmaxPolicy` (`chainerrl/policies/softmax_policy.py`),
`FCVFunction` (`chainerrl/v_functions/v_functions.py`).

One row of a batch at a time; real numbers; weights are arbitrary.  `L.LSTM` is part of Chainer: the cell below is what its
documentation defines, with its layout of the four gates.  A layer fails (`none`) when the input does not have the expected size.
-/

namespace Verif.FCLSTM
open FCNets

noncomputable section

/-- `F.sigmoid` (in Chainer's LSTM, called in state_action_q_functions.py:96-100). -/
def sigmoid (x : ℝ) : ℝ := 1 / (1 + Real.exp (-x))

/-- Parameters of `L.LSTM(in_size, out_size)`: `upward` with a bias, `lateral` without
(the link of state_action_q_functions.py:80-94). -/
structure LSTM where
  upward : Lin
  lateral : List (List ℝ)

/-- The parameters have the shapes of `L.LSTM(n, m)` (the link of state_action_q_functions.py:80-94). -/
def LSTM.HasShape (l : LSTM) (n m : Nat) : Prop :=
  l.upward.HasShape (n, 4 * m) ∧ l.lateral.length = 4 * m ∧ ∀ row ∈ l.lateral, row.length = m

/-- The state of a row: `None` after `reset_state`, else cell and output
(of the link in state_action_q_functions.py:80-94). -/
abbrev State := Option (List ℝ × List ℝ)

/-- The input of the gates: `upward(x)`, plus `lateral(h)` unless the state is `None`
(in Chainer's LSTM, called in state_action_q_functions.py:96-100). -/
def LSTM.gates (l : LSTM) (st : State) (x : List ℝ) : Option (List ℝ) :=
  match l.upward.apply x, st with
  | none, _ => none
  | some z, none => some z
  | some z, some (_, h) =>
    match (⟨l.lateral, List.replicate l.lateral.length 0⟩ : Lin).apply h with
    | none => none
    | some y => some (List.zipWith (· + ·) z y)

/-- The cell: `m` is `state_size`; unit `j` reads the gates `4 j` (candidate), `4 j + 1` (input), `4 j + 2` (forget), `4 j + 3` (output).
A cell that is `None` stands for zeros (in Chainer's LSTM, called in state_action_q_functions.py:96-100). -/
def cell (m : Nat) (st : State) (z : List ℝ) : List ℝ × List ℝ :=
  let c := match st with
    | none => List.replicate m 0
    | some (c, _) => c
  let c' := (List.range m).map fun j =>
    Real.tanh (z.getD (4 * j) 0) * sigmoid (z.getD (4 * j + 1) 0) + sigmoid (z.getD (4 * j + 2) 0) * c.getD j 0
  (c', (List.range m).map fun j => sigmoid (z.getD (4 * j + 3) 0) * Real.tanh (c'.getD j 0))

/-- `L.LSTM.__call__` on a row (called in state_action_q_functions.py:96-100). -/
def LSTM.call (l : LSTM) (m : Nat) (st : State) (x : List ℝ) : Option (List ℝ × List ℝ) :=
  match l.gates st x with
  | none => none
  | some z => some (cell m st z)

/-- The parameters of the three networks: `fc`, `lstm`, `out` (as in state_action_q_functions.py:80-94). -/
structure Net where
  fc : MLP
  lstm : LSTM
  out : Lin

/-- The shapes that the constructors give: deterministic_policy.py lines 198-207, state_action_q_functions.py lines 88-94 (with `nIn` the
sum of the sizes and `outSize = 1`), state_q_functions.py lines 138-143. -/
def Net.HasShape (n : Net) (nIn nHidden nLayers outSize : Nat) : Prop :=
  n.fc.HasShape nIn nHidden (List.replicate nLayers nHidden) ∧ n.lstm.HasShape nHidden nHidden ∧ n.out.HasShape (nHidden, outSize)

/-- The computation that they share: deterministic_policy.py lines 209-213, state_action_q_functions.py lines 98-100,
state_q_functions.py lines 146-148.  Returns the new state and the output. -/
def Net.call (n : Net) (nHidden : Nat) (σ : Nonlin) (st : State) (x : List ℝ) : Option (State × List ℝ) :=
  match n.fc.call σ x with
  | none => none
  | some y =>
    match n.lstm.call nHidden st (σ y) with
    | none => none
    | some s =>
      match n.out.apply s.2 with
      | none => none
      | some o => some (some s, o)

/-- `FCLSTMSAQFunction.__call__` (state_action_q_functions.py lines 96-100). -/
def saqCall (n : Net) (nHidden : Nat) (σ : Nonlin) (st : State) (x a : List ℝ) : Option (State × List ℝ) := n.call nHidden σ st (x ++ a)

/-- `F.relu` on a row (state_action_q_functions.py:96-100). -/
def relu (x : List ℝ) : List ℝ := x.map fun v => max v 0

/-- `FCLSTMStateQFunction.__call__` (state_q_functions.py lines 145-148): the action values. -/
def stateQCall (n : Net) (nHidden : Nat) (st : State) (x : List ℝ) : Option (State × List ℝ) := n.call nHidden relu st x

/-- `FCLSTMDeterministicPolicy.__call__` (deterministic_policy.py lines 36-47 and 190-218). -/
def policyCall (n : Net) (nHidden : Nat) (σ : Nonlin) (bound : Option (List ℝ × List ℝ)) (st : State) (x : List ℝ) : Option (State × List ℝ) :=
  match n.call nHidden σ st x with
  | none => none
  | some (s, o) => some (s, filtered bound o)

/-- Calls one after the other; the outputs (iterates state_action_q_functions.py:96-100). -/
def run (call : State → List ℝ → Option (State × List ℝ)) : State → List (List ℝ) → Option (List (List ℝ))
  | _, [] => some []
  | st, x :: xs =>
    match call st x with
    | none => none
    | some (s, o) =>
      match run call s xs with
      | none => none
      | some os => some (o :: os)

/-! ## Discrete actions and state values -/

/-- `FCSoftmaxPolicy.__call__` (softmax_policy.py lines 29-32 and 38-56): the logits are the outputs of an MLP, then the distribution is built. -/
def softmaxPolicyCall (m : MLP) (σ : Nonlin) (nActions : Nat) (beta minProb : ℝ) (x : List ℝ) : Option (Py (Distrib.Categorical nActions)) :=
  match m.call σ x with
  | none => none
  | some y => some (Distrib.softmaxDist (fun i => y.getD i 0) beta minProb)

/-- `FCVFunction.__call__` (v_functions.py lines 22-24 and 29-40). -/
def vCall (m : MLP) (σ : Nonlin) (x : List ℝ) : Option (List ℝ) := m.call σ x

end

end Verif.FCLSTM
