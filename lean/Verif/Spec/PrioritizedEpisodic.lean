import Verif.Model.PrioritizedEpisodic
import Verif.Spec.EpisodeList
import Verif.Spec.PrioritizedBuffer
set_option autoImplicit false

/-!
# Specification for the prioritized episodic buffer: its histories
-/

namespace Verif.PEpi
variable {E T K : Type} [DecidableEq E] [Field K] [LinearOrder K]

/-- `b` is reached from an empty buffer by the feeding calls `ops`, with any
number of sampling rounds (`sample_episodes` followed by `update_errors`) in
between. -/
inductive Reach (term : T → Bool) (cap : Option Nat) (wait : Bool) (prio : Option (List T → K)) :
    PEpi E T K → List (NStep.Op E T) → Prop
  | init : Reach term cap wait prio (init cap wait prio) []
  | feed {b b' ops} (op : NStep.Op E T) : Reach term cap wait prio b ops →
      b.step term op = .ok b' → Reach term cap wait prio b' (ops ++ [op])
  | round {b b1 b2 ops} {ratio : K} {d : PBuf.Draws K} {eps probs minProb} {ps : List K} :
      Reach term cap wait prio b ops → b.episodic.data ≠ [] →
      d.Valid ratio b.episodic.data.length →
      d.uniformIxs.length + d.us.length ≤ b.episodic.data.length →
      b.sampleEpisodes ratio d = .ok (eps, probs, minProb, b1) →
      (∀ p ∈ ps, 0 < p) → ps.length = d.uniformIxs.length + d.us.length →
      b1.updateErrors ps = .ok b2 → Reach term cap wait prio b2 ops

end Verif.PEpi
