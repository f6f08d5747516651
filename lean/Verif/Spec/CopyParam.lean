import Verif.Model.CopyParam
set_option autoImplicit false

/-! # Specification: parameter copies (C56) -/

namespace Verif.CopyParam
variable {K : Type} [Field K]

/-- The value stored under a name. -/
def Link.array (l : Link K) (name : String) : Option (List K) := (l.params.lookup name).bind Param.array

/-- The gradient stored under a name. -/
def Link.grad (l : Link K) (name : String) : Option (List K) := (l.params.lookup name).bind Param.grad

/-- The statistics of the batch normalisation link of a given name. -/
def Link.stats (l : Link K) (name : String) : Option (BN K) := (l.links.lookup name).join

/-- Every name of the source exists in the target, with an initialised array of the same
size, and so do its batch normalisation links; names are unique. -/
structure Compatible (target source : Link K) : Prop where
  uniqueParams : (source.params.map Prod.fst).Nodup
  uniqueLinks : (source.links.map Prod.fst).Nodup
  params : ∀ name p, (name, p) ∈ source.params → ∃ src dst, p.array = some src ∧
    target.array name = some dst ∧ dst.length = src.length
  links : ∀ name bn, (name, some bn) ∈ source.links → ∃ t, target.stats name = some t ∧
    t.avgMean.length = bn.avgMean.length ∧ t.avgVar.length = bn.avgVar.length

end Verif.CopyParam
