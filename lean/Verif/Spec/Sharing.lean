import Verif.Model.Sharing
set_option autoImplicit false

/-!
# Specification: what a reader of shared objects sees

A batch or an observation is a list of references.  What its reader sees depends on the objects at the time of reading.
-/

namespace Verif.Sharing
variable {E T W : Type}

/-- The transitions of the entry `a`, read now. -/
def Buf.read (b : Buf E T W) (a : Nat) : List T := (get b.lists a).filterMap fun j => (b.dicts[j]?).map (·.1)

/-- All entries of the buffer, oldest first, read now. -/
def Buf.contents (b : Buf E T W) : List (List T) := b.memory.map b.read

/-- `elem[0]['weight']` of the entry `a`, read now (`none`: there is none). -/
def Buf.weightOf (b : Buf E T W) (a : Nat) : Option W :=
  ((get b.lists a).head?).bind fun j => (b.dicts[j]?).bind (·.2)

/-- The calls that feed the buffer. -/
def feeds : List (Call E T W) → List (NStep.Op E T)
  | [] => []
  | .append e x :: cs => .append e x :: feeds cs
  | .stop e :: cs => .stop e :: feeds cs
  | .sample _ _ :: cs => feeds cs

/-- The call is no `sample`. -/
def Call.Feeds : Call E T W → Prop
  | .sample _ _ => False
  | _ => True

end Verif.Sharing
