import Verif.Model.ReplayBuffer
set_option autoImplicit false

/-!
# Specification for the episodic buffers: the list of finished episodes
-/

namespace Verif.EpisodeList
variable {E T : Type _} [DecidableEq E]
open NStep (Op)

/-- The episodes finished so far in all environments, in the order in which they
were finished, and the unfinished episode of every environment. -/
def step (term : T → Bool) (s : List (List T) × (E → List T)) :
    Op E T → List (List T) × (E → List T)
  | .append e x =>
    if term x then (s.1 ++ [s.2 e ++ [x]], Function.update s.2 e [])
    else (s.1, Function.update s.2 e (s.2 e ++ [x]))
  | .stop e => if s.2 e = [] then s else (s.1 ++ [s.2 e], Function.update s.2 e [])

/-- The episodes of a history. -/
def of (term : T → Bool) (ops : List (Op E T)) : List (List T) × (E → List T) :=
  ops.foldl (step term) ([], fun _ => [])

/-- Number of transitions in a list of episodes. -/
def total (eps : List (List T)) : Nat := eps.flatten.length

/-- `kept` are the most recent episodes of `eps` that fit: whole episodes, at
most `c` transitions, and keeping one more episode would exceed `c`. -/
structure Kept (c : Nat) (eps kept : List (List T)) : Prop where
  suffix : kept <:+ eps
  fits : total kept ≤ c
  maximal : ∀ l, l <:+ eps → total l ≤ c → l.length ≤ kept.length

/-- The episodes that a buffer of the given capacity keeps. -/
def KeptBy (capacity : Option Nat) (eps kept : List (List T)) : Prop :=
  match capacity with
  | none => kept = eps
  | some c => Kept c eps kept

end Verif.EpisodeList
