import Mathlib.Algebra.BigOperators.Group.List.Basic
import Verif.Model.RunEval
set_option autoImplicit false

/-!
# Episodes of a vector environment

`o n e` is what environment `e` returned in the `n`-th step (from 0).
-/

namespace Verif.BatchEpisodes
open Train (StepOut)
variable {O K : Type}

/-- Does this step, the `len`-th of its episode, end the episode? -/
def Ends (maxLen : Option Nat) (len : Nat) (out : StepOut O K) : Prop :=
  out.done = true ∨ out.needsReset = true ∨ maxLen = some len

instance (maxLen : Option Nat) (len : Nat) (out : StepOut O K) : Decidable (Ends maxLen len out) :=
  inferInstanceAs (Decidable (_ ∨ _ ∨ _))

/-- The length of the current episode of environment `e` after `n` steps. -/
def len (maxLen : Option Nat) (o : Nat → Nat → StepOut O K) (e : Nat) : Nat → Nat
  | 0 => 0
  | n + 1 => if Ends maxLen (len maxLen o e n + 1) (o n e) then 0 else len maxLen o e n + 1

/-- The episodes begun up to time `n`, as pairs of the environment and the time
of their start: in the order of their starts, for equal times in the order of
the environments. -/
def starts (numEnvs : Nat) (maxLen : Option Nat) (o : Nat → Nat → StepOut O K) (n : Nat) : List (Nat × Nat) :=
  (List.range (n + 1)).flatMap fun s =>
    ((List.range numEnvs).filter fun e => len maxLen o e s = 0).map fun e => (e, s)

/-- Environment `e` has an episode from time `s` to time `t`: no shorter one. -/
structure IsEpisode (maxLen : Option Nat) (o : Nat → Nat → StepOut O K) (e s t : Nat) : Prop where
  lt : s < t
  start : len maxLen o e s = 0
  finish : len maxLen o e t = 0
  between : ∀ u, s < u → u < t → len maxLen o e u ≠ 0

/-- The sum of the rewards of environment `e` from time `s` to time `t`. -/
def ret [AddMonoid K] (o : Nat → Nat → StepOut O K) (e s t : Nat) : K :=
  ((List.range' s (t - s)).map fun u => (o u e).r).sum

end Verif.BatchEpisodes
