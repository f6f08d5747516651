import Verif.Spec.Retrace
set_option autoImplicit false

/-! # Specification: paths of a policy through a process (for C138) -/

namespace Verif.MDP
variable {S K : Type} [Field K] [LinearOrder K]

/-- One step of a path. -/
structure Exp (S K : Type) where
  state : S
  action : Nat
  out : Outcome S K

/-- The paths of at most `n + 1` steps that begin with action `a` in state `s`, when the following actions are chosen by the policy `p`, with their probabilities.  A path
is shorter only if the episode ends. -/
def paths (env : Env S K) (p : S → Nat → K) : Nat → S → Nat → List (K × List (Exp S K))
  | n, s, a => (env.outcomes s a).flatMap fun x =>
    if x.2.done then [(x.1, [⟨s, a, x.2⟩])]
    else match n with
      | 0 => [(x.1, [⟨s, a, x.2⟩])]
      | n + 1 => (choices env (p x.2.next)).flatMap fun x' =>
          (paths env p n x.2.next x'.2).map fun y => (x.1 * x'.1 * y.1, ⟨s, a, x.2⟩ :: y.2)

/-- The value at the end of a path: 0 if the episode has ended. -/
def endOf (V : S → K) (l : List (Exp S K)) : K :=
  match l.getLast? with
  | none => 0
  | some e => if e.out.done then 0 else V e.out.next

end Verif.MDP
