import Verif.Model.Grasping
set_option autoImplicit false

/-!
# What the wrappers of the grasping example are to do
-/

namespace Verif.Grasping

variable {A O P : Type}

/-- The number of steps that returned since the last call of `reset`; the calls and what they gave, latest first. -/
def sinceReset : List (Op A × Seen O) → Nat
  | [] => 0
  | (.reset, _) :: _ => 0
  | (.step _, .step _) :: l => sinceReset l + 1
  | (.step _, _) :: l => sinceReset l

/-- What is seen, with every observation replaced. -/
def Seen.map (f : O → P) : Seen O → Seen P
  | .reset o => .reset (f o)
  | .step r => .step ⟨f r.obs, r.reward, r.done⟩
  | .raised e => .raised e

/-- What is to be seen in place of `x` after `n` steps: the observation with the number `n`, or a refusal beyond the maximum. -/
def Seen.counted (maxSteps n : Nat) : Seen O → Seen (O × Nat)
  | .reset o => .reset (o, 0)
  | .step r => if n ≤ maxSteps then .step ⟨(r.obs, n), r.reward, r.done⟩ else .raised .assertionError
  | .raised e => .raised e

/-- An index of an array of this shape. -/
def ValidIndex (shape idx : List Nat) : Prop := idx.length = shape.length ∧ ∀ k, k < shape.length → idx.getD k 0 < shape.getD k 0

/-- `box.contains(a)`, for a box with bounds of the same shape. -/
def InBox (b : Box) (a : Array' Int) : Prop :=
  a.shape = b.low.shape ∧ a.shape = b.high.shape ∧
    ∀ idx, ValidIndex a.shape idx → b.low.entry idx ≤ a.entry idx ∧ a.entry idx ≤ b.high.entry idx

end Verif.Grasping
