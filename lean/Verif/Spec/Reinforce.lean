import Verif.Model.Reinforce
set_option autoImplicit false

/-! # Specification: REINFORCE (C54) -/

namespace Verif.Reinforce
variable {K : Type} [Field K]

/-- An action taken: the reward observed before it, its log probability and the entropy. -/
structure Act (K : Type) where
  reward : K
  logp : K
  ent : K

/-- A complete episode: its actions, and the reward observed at its end. -/
structure Episode (K : Type) where
  acts : List (Act K)
  final : K

/-- What has happened: the complete episodes, and the actions of the current one. -/
structure View (K : Type) where
  episodes : List (Episode K)
  current : List (Act K)

/-- The effect of a call. -/
def View.see (v : View K) : Call K → View K
  | .act r l e => { v with current := v.current ++ [⟨r, l, e⟩] }
  | .stop r true => ⟨v.episodes ++ [⟨v.current, r⟩], []⟩
  | .stop _ false => { v with current := [] }

/-- What has happened after a history of calls. -/
def view (cs : List (Call K)) : View K := cs.foldl View.see ⟨[], []⟩

/-- No complete episode is without actions. -/
def Legal (cs : List (Call K)) : Prop := ∀ ep ∈ (view cs).episodes, ep.acts ≠ []

/-- The loss of an episode: each action's log probability weighted by minus the sum of
the rewards observed after it, minus `beta` times the entropies. -/
def actsLoss (beta final : K) : List (Act K) → K
  | [] => 0
  | a :: as => -((as.map Act.reward).sum + final) * a.logp - beta * a.ent + actsLoss beta final as

/-- The loss of the `k`-th batch of complete episodes. -/
def batchLoss (beta : K) (n : Nat) (eps : List (Episode K)) (k : Nat) : K :=
  (((eps.drop (k * n)).take n).map (fun ep => actsLoss beta ep.final ep.acts)).sum / (n : K)

end Verif.Reinforce
