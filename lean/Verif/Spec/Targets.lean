import Verif.Model.BatchExperiences
import Verif.Spec.ActionValue
import Verif.Spec.Returns
set_option autoImplicit false

/-! # Specification: n-step bootstrap targets (C44, C45) -/

namespace Verif.Targets
variable {S A K : Type} [CommRing K]

/-- The target of an n-step entry: the discounted sum of its rewards, plus
`gamma ^ length` times the next-state value `v` unless the entry contains a
terminal transition. -/
def nStepTarget (gamma : K) (e : List (Transition S A K)) (v : K) : K :=
  discounted gamma (e.map (·.reward)) +
    if ∃ t ∈ e, t.terminal = true then 0 else gamma ^ e.length * v

/-- `rows` holds the targets of the entries `exps`: one per entry, and the
one `y` of an entry `e` with first transition `t₀` and last transition `t`
satisfies `P e t₀ t y`. -/
def Rows (exps : List (List (Transition S A K))) (rows : List K)
    (P : List (Transition S A K) → Transition S A K → Transition S A K → K → Prop) : Prop :=
  rows.length = exps.length ∧
  ∀ (k : Nat) e t₀ t, exps[k]? = some e → e.head? = some t₀ → e.getLast? = some t →
    ∃ y, rows[k]? = some y ∧ P e t₀ t y

end Verif.Targets
