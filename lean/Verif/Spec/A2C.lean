import Verif.Spec.Returns
import Verif.Model.A2C
set_option autoImplicit false

/-! # Specification: returns cut at episode ends (C48) -/

namespace Verif.A2C
variable {K : Type} [CommRing K]

/-- One step of a process: the value of the state acted in, the reward, whether
the episode ended (done or reset), and the value of the state reached. -/
structure Step (K : Type) where
  value : K
  reward : K
  done : Bool
  reset : Bool
  next : K

/-- The episode ends with this step. -/
def Step.ended (s : Step K) : Bool := s.done || s.reset

/-- The calls of one step; the value given to `act` for an update it never makes
is arbitrary. -/
def Step.calls (s : Step K) : List (Call K) :=
  [.act s.value s.next, .observe s.reward s.done s.reset s.next]

/-- The part of `l` up to and including the first episode end. -/
def untilEnd : List (Step K) → List (Step K)
  | [] => []
  | s :: l => if s.ended then [s] else s :: untilEnd l

/-- The return of the first step of `l`: the discounted rewards up to the episode
end, plus the discounted bootstrap value if the episode does not end in `l`. -/
def ret (gamma boot : K) (l : List (Step K)) : K :=
  discounted gamma ((untilEnd l).map (·.reward)) +
    if l.any (·.ended) then 0 else gamma ^ l.length * boot

/-- The value of the state in which `l` starts. -/
def valueOf (boot : K) : List (Step K) → K
  | [] => boot
  | s :: _ => s.value

/-- The temporal difference errors of consecutive steps. -/
def deltas (gamma boot : K) : List (Step K) → List K
  | [] => []
  | s :: l => (s.reward + (if s.ended then 0 else gamma * valueOf boot l) - s.value) ::
      deltas gamma boot l

/-- The generalised advantage estimate of the first step of `l`: the sum of the
errors up to the episode end, discounted by `gamma * tau`. -/
def gae (gamma tau boot : K) (l : List (Step K)) : K :=
  discounted (gamma * tau) (deltas gamma boot (untilEnd l))

/-- The return target of the first step of `l`. -/
def target (gamma : K) (tau : Option K) (boot : K) (l : List (Step K)) : K :=
  match tau with
  | none => ret gamma boot l
  | some tau => gae gamma tau boot l + valueOf boot l

/-- The return targets of the steps of a rollout, whose bootstrap value is that of
the state reached last. -/
def targets (gamma : K) (tau : Option K) (boot : K) : List (Step K) → List K
  | [] => []
  | s :: l => target gamma tau boot (s :: l) :: targets gamma tau boot l

/-- The value of the state reached by the last step. -/
def endValue (c : List (Step K)) : K := (c.getLast?.map (·.next)).getD 0

end Verif.A2C
