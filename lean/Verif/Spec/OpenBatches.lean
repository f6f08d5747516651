import Verif.Model.OpenBatches
import Verif.Spec.BoundedList
set_option autoImplicit false

/-! # Specification of C180 -/

namespace Verif.OpenBatches
open TrainPrioritized
variable {T : Type}

/-- The entries added by the operations. -/
def entriesOf (ops : List (Op T)) : List (List T) :=
  ops.filterMap fun | .entry w => some w | .update _ _ => none

/-- How many of `k` entries a buffer of this capacity still holds. -/
def held : Option Nat → Nat → Nat
  | none, k => k
  | some c, k => min k c

/-- The number of updates that are due in `ops`, when `k` entries have been added before: those at a multiple of the update interval
with at least `replay_start_size` entries in the buffer. -/
def due (c : Sched) (cap : Option Nat) : Nat → List (Op T) → Nat
  | _, [] => 0
  | k, .entry _ :: ops => due c cap (k + 1) ops
  | k, .update t _ :: ops => (if c.startSize ≤ held cap k ∧ c.interval ∣ t then 1 else 0) + due c cap k ops

/-- `n` variates of `np.random.uniform` for each batch. -/
def Variates (n : Nat) (us : Nat → List ℝ) : Prop := ∀ j, (us j).length = n ∧ ∀ u ∈ us j, 0 ≤ u ∧ u < 1

/-- The variates of all updates are such. -/
def AllVariates (n : Nat) (ops : List (Op T)) : Prop := ∀ t us, Op.update t us ∈ ops → Variates n us

end Verif.OpenBatches
