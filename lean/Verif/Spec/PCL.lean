import Verif.Model.PCL
set_option autoImplicit false

/-! # Specification: the replay update of PCL (C53, C74) -/

namespace Verif.PCL
variable {K : Type} [Field K] {O A : Type}

/-- The discounted sum `x_0 + gamma x_1 + ...`. -/
def disc (gamma : K) : List K → K
  | [] => 0
  | x :: xs => x + gamma * disc gamma xs

/-- The value of the state reached by a transition, zero after a terminal one. -/
def nextV (V : O → K) (tr : Tr O A K) : K := if tr.terminal then 0 else V tr.nextState

/-- The path consistency error of a path of transitions: discounted rewards minus `tau`
times discounted log probabilities, plus the discounted value at the end, minus the
value at the start. -/
def pathError (c : Cfg K) (V : O → K) (logp : O → A → K) (path : List (Tr O A K)) : K :=
  match path.head?, path.getLast? with
  | some first, some last =>
    disc c.gamma (path.map (fun tr => tr.reward - c.tau * logp tr.state tr.action)) +
      c.gamma ^ path.length * nextV V last - V first.state
  | _, _ => 0

/-- The loss of an episode: half the sum over its steps of the squared error of the path
of `rolloutLen` steps (or up to the end) that starts there, weighted for the policy by
`1 / tau` and the coefficients; divided by the number of steps if asked for. -/
def episodeLoss (c : Cfg K) (V : O → K) (logp : O → A → K) (ep : List (Tr O A K)) : K :=
  let s := (ep.tails.dropLast.map (fun tl => pathError c V logp (tl.take c.rolloutLen) ^ 2)).sum
  (s / 2 / c.tau * c.piLossCoef + s / 2 * c.vLossCoef) / (if c.normalize then (ep.length : K) else 1)

/-- Each transition starts where the one before ended. -/
def Contiguous (ep : List (Tr O A K)) : Prop := List.IsChain (fun a b => a.nextState = b.state) ep

end Verif.PCL
