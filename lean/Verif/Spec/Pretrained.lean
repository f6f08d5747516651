import Verif.Model.Pretrained
set_option autoImplicit false

/-!
# What the download of pretrained models promises
-/

namespace Verif.Pretrained

variable {Key Name Data : Type} [DecidableEq Key] [DecidableEq Name]

/-- The model directory holds every file of the model, complete. -/
def Complete (remote : Key → List (Name × Data)) (s : State Key Name Data) (k : Key) : Prop :=
  ∀ n d, (n, d) ∈ remote k → s.dir k n = .full d

/-- The process is extracting an archive. -/
def Extracting (s : State Key Name Data) (p : Nat) : Prop :=
  ∃ c, (∃ l, s.procs p = some ⟨c, .extract l⟩) ∨ ∃ n d l, s.procs p = some ⟨c, .writing n d l⟩

/-- The event does not interrupt the extraction of an archive. -/
def Uninterrupted (s : State Key Name Data) : Act Key → Prop
  | .fail p => ¬ Extracting s p
  | .kill p => ¬ Extracting s p
  | _ => True

/-- The states that can be reached by events satisfying `ok`. -/
inductive Reach (remote : Key → List (Name × Data)) (ok : State Key Name Data → Act Key → Prop)
    (s₀ : State Key Name Data) : State Key Name Data → Prop
  | refl : Reach remote ok s₀ s₀
  | step {s s' : State Key Name Data} (a : Act Key) : Reach remote ok s₀ s → ok s a → step remote s a = some s' →
      Reach remote ok s₀ s'

end Verif.Pretrained
