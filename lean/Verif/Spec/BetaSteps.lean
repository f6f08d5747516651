import Mathlib.Data.Finset.Card
import Mathlib.Order.Interval.Finset.Nat
import Verif.Spec.TrainProtocol
set_option autoImplicit false

/-! # When a training run learns, counted -/

namespace Verif
namespace BetaSteps

/-- Calls of `act_and_train`. -/
def isDecision {O A K S : Type} : Train.Ev O A K S → Bool
  | .act .. => true
  | _ => false

/-- Of the first `acts` decisions, numbered from 0, those that come after at least `start` steps and whose step number
(counted from `offset`) is a multiple of the update interval. -/
def due (start interval offset acts : Nat) : Nat :=
  ((Finset.range acts).filter fun j => interval ∣ offset + j ∧ start ≤ j).card

end BetaSteps
end Verif
