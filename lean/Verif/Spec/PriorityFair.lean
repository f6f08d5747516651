import Verif.Model.PriorityWeights
import Verif.Model.PrioritizedBuffer
set_option autoImplicit false

/-!
# Specification for C159: the weighted mean over a minibatch

Everything here is written with the results of the public calls only.
-/

namespace Verif.PriorityFair

/-- `v` is the weighted mean of `f` over the minibatch that `sample` returns for the draws `d`,
each entry weighted by `weights_from_probabilities`, as in
`chainerrl/agents/dqn.py:46-72` (`batch_accumulator='mean'`). -/
def Weighted {D : Type} (b : PBuf D ℝ) (ratio : ℝ) (d : PBuf.Draws ℝ) (p : PWE) (f : D → ℝ)
    (v : ℝ) : Prop :=
  ∃ data probs minProb b' ws p', b.sample ratio d = .ok (data, probs, minProb, b') ∧
    p.weights b.data.length probs minProb = .ok (ws, p') ∧
    v = (List.zipWith (fun w x => w * f x) ws data).sum / data.length

/-- The plain mean of `f` over what is stored: what a uniform draw gives on average. -/
noncomputable def uniformMean {D : Type} (items : List (D × ℝ)) (f : D → ℝ) : ℝ :=
  (items.map (fun x => f x.1)).sum / items.length

/-- The mean of `f` in which every stored entry counts in proportion to its priority. -/
noncomputable def priorityMean {D : Type} (items : List (D × ℝ)) (f : D → ℝ) : ℝ :=
  (items.map (fun x => x.2 * f x.1)).sum / (items.map Prod.snd).sum

end Verif.PriorityFair
