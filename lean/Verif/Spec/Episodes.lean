import Verif.Model.ReplayBuffer
set_option autoImplicit false

/-!
# Specification: the episodes of a history and their n-step slices
-/

namespace Verif.Episodes
variable {E T : Type _} [DecidableEq E]
open NStep (Op)

/-- The episodes of environment `e` in a history: the finished ones, in order,
and the transitions of the unfinished one.  A terminal transition finishes an
episode, and so does a stop (of a non-empty episode). -/
def step (term : T → Bool) (e : E) (s : List (List T) × List T) : Op E T → List (List T) × List T
  | .append e' x =>
    if e' = e then
      if term x then (s.1 ++ [s.2 ++ [x]], []) else (s.1, s.2 ++ [x])
    else s
  | .stop e' => if e' = e ∧ s.2 ≠ [] then (s.1 ++ [s.2], []) else s

/-- Finished and unfinished episodes of `e` in the history `ops`. -/
def of (term : T → Bool) (e : E) (ops : List (Op E T)) : List (List T) × List T :=
  ops.foldl (step term e) ([], [])

/-- Every episode of `e`, finished or not. -/
def all (term : T → Bool) (e : E) (ops : List (Op E T)) : List (List T) :=
  (of term e ops).1 ++ [(of term e ops).2]

/-- The slice of (at most) `n` transitions that starts at transition `i`. -/
def slice (n : Nat) (ep : List T) (i : Nat) : List T := (ep.drop i).take n

/-- One slice per transition of a finished episode. -/
def slices (n : Nat) (ep : List T) : List (List T) := (List.range ep.length).map (slice n ep)

/-- The slices of an unfinished episode that are already complete. -/
def fullSlices (n : Nat) (ep : List T) : List (List T) :=
  (List.range (ep.length + 1 - n)).map (slice n ep)

end Verif.Episodes
