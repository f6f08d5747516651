import Verif.Model.BatchNorm
set_option autoImplicit false

/-! # Specification: acting without a trace (C127) -/

namespace Verif.BatchNorm
variable {K N X Y : Type} [Field K]

/-- A network that in test mode has for each row an output that depends on this row alone, and does not change. -/
def Rowwise (net : Net N X Y) : Prop := ∃ row : N → X → Y, ∀ (n : N) (xs : List X), net false n xs = .ok (xs.map (row n), n)

/-- The agents that act in test mode. -/
def Kind.inTestMode : Kind → Prop
  | .dqn | .ddpg | .td3 | .sac | .pgt | .ppo | .trpo => True
  | .a2c | .a3c | .acer | .pcl | .reinforce | .nsq => False

/-- The running mean after the batches with means `ms`, oldest first: an exponential average. -/
def runningMean (decay start : K) : List K → K
  | [] => start
  | m :: ms => runningMean decay (decay * start + (1 - decay) * m) ms

end Verif.BatchNorm
