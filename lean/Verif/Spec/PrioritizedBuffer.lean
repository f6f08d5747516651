import Verif.Model.PrioritizedBuffer
import Verif.Spec.BoundedList

/-!
# Specification for `PrioritizedBuffer`: one list of (item, priority) pairs
-/

namespace Verif.PBuf
variable {D K : Type _} [Field K] [LinearOrder K]
open ListQueue (listMin)

/-- The buffer shows the pairs `items`: its data are the items in order, and
both priority queues show the priorities in the same order. -/
def Shows (b : PBuf D K) (items : List (D × K)) : Prop :=
  b.data = items.map Prod.fst ∧
  ListQueue.Shows List.sum b.sums (items.map Prod.snd) ∧
  ListQueue.Shows listMin b.mins (items.map Prod.snd)

/-- The random choices of a `sample(n, uniform_ratio)` call respect the
contracts of `np.random.binomial`, `sample_n_k` and `np.random.uniform`. -/
structure Draws.Valid (d : Draws K) (ratio : K) (len : Nat) : Prop where
  nodup : d.uniformIxs.Nodup
  range : ∀ i ∈ d.uniformIxs, i < len
  us : ∀ u ∈ d.us, 0 ≤ u ∧ u < 1
  none : ¬ 0 < ratio → d.uniformIxs = []

/-- Give the pairs at the positions `ixs` the priorities `ps`, in order. -/
def reprioritize (items : List (D × K)) (ixs : List Nat) (ps : List K) : List (D × K) :=
  (ixs.zip ps).foldl (fun items ip => items.modify ip.1 (fun x => (x.1, ip.2))) items

/-- `Hist b items mx`: `b` is reached from an empty buffer by `append`,
`popleft` and `sample` immediately followed by `set_last_priority`; `items` is
what a plain list of pairs contains after the same history and `mx` the
greatest priority seen so far. -/
inductive Hist (cap : Option Nat) (wait : Bool) (m0 : K) : PBuf D K → List (D × K) → K → Prop
  | init : Hist cap wait m0 (init cap wait m0) [] m0
  | append {b b' items mx} (v : D) (p : Option K) : Hist cap wait m0 b items mx →
      (∀ x, p = some x → 0 < x) → b.append v p = .ok b' →
      Hist cap wait m0 b' (BoundedList.newest cap (items ++ [(v, p.getD mx)])) mx
  | popleft {b b' items mx} {x : D × K} {y : D} : Hist cap wait m0 b (x :: items) mx →
      b.popleft = .ok (y, b') → Hist cap wait m0 b' items mx
  | round {b b1 b2 items mx} {ratio : K} {d : Draws K} {data probs minProb} {ixs : List Nat}
      {ps : List K} : Hist cap wait m0 b items mx → items ≠ [] → d.Valid ratio items.length →
      d.uniformIxs.length + d.us.length ≤ items.length →
      b.sample ratio d = .ok (data, probs, minProb, b1) → b1.sampled = some (ixs.map Int.ofNat) →
      b1.setLast ps = .ok b2 →
      Hist cap wait m0 b2 (reprioritize items ixs ps) (ps.foldl max mx)

end Verif.PBuf
