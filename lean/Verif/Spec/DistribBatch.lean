import Verif.Model.DistribBatch
set_option autoImplicit false

/-! # Specification: what a batch of distributions stands for (C150)

A batch object, together with the memory of its arrays, stands for a list of single
distributions, one per row, whose densities, entropies and divergences are those of
`Verif.Distrib` (C66, C67, C75-C77). -/

namespace Verif.DistribBatch

open Verif.Distrib

variable {n : Nat}

/-- The categorical distributions that the arrays of `d` describe now. -/
noncomputable def cats (brent : Brent) (h : Heap n) : Dist n → Option (List (Categorical n))
  | .soft a beta minProb _ _ =>
    if minProb * n ≤ 1 then some ((read h a).map fun x => ⟨softmaxProb x beta minProb, softmaxLogProb x beta minProb⟩) else none
  | .mellow a omega _ _ => some ((read h a).map fun x => mellowmaxDist brent x omega)
  | _ => none

/-- The Gaussians that the arrays of `d` describe now; `sq` says whether they are squashed. -/
def gaussians (h : Heap n) : Dist n → Option (Bool × List (Gaussian n))
  | .gauss m v _ => if m.rows.length = v.rows.length then some (false, List.zipWith (fun m v => ⟨m, v⟩) (read h m) (read h v)) else none
  | .squashed m v _ => if m.rows.length = v.rows.length then some (true, List.zipWith (fun m v => ⟨m, v⟩) (read h m) (read h v)) else none
  | _ => none

/-- The points that the array of a deterministic distribution describes now. -/
def points (h : Heap n) : Dist n → Option (List (Row n))
  | .determ x => some (read h x)
  | _ => none

/-- What was computed earlier and kept in the object is what the arrays give now. -/
def UpToDate (brent : Brent) (h : Heap n) : Dist n → Prop
  | d@(.soft _ _ _ p l) => ∀ ds, cats brent h d = some ds → (∀ x, p = some x → x = ds.map Categorical.allProb) ∧ ∀ x, l = some x → x = ds.map Categorical.allLogProb
  | d@(.mellow _ _ p l) => ∀ ds, cats brent h d = some ds → (∀ x, p = some x → x = ds.map Categorical.allProb) ∧ ∀ x, l = some x → x = ds.map Categorical.allLogProb
  | .gauss _ v ln => ln = (read h v).map fun r i => Real.log (r i)
  | .squashed _ v ln => ln = (read h v).map fun r i => Real.log (r i)
  | .determ _ => True

/-- The buffers that the object refers to. -/
def buffers : Dist n → List Nat
  | .soft a _ _ _ _ => [a.buf]
  | .mellow a _ _ _ => [a.buf]
  | .gauss m v _ => [m.buf, v.buf]
  | .squashed m v _ => [m.buf, v.buf]
  | .determ x => [x.buf]

end Verif.DistribBatch
