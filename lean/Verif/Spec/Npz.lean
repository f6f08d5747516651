import Verif.Model.Npz
set_option autoImplicit false

/-! # Specification: what loading should leave (C128) -/

namespace Verif.Npz
variable {κ V : Type} [DecidableEq κ]

/-- The value that an object has under a name. -/
def value (o : Entries κ V) (k : κ) : Option V := (o.find? fun e => e.1 = k).map Prod.snd

/-- The names that an object has. -/
def names (o : Entries κ V) : List κ := o.map Prod.fst

end Verif.Npz
