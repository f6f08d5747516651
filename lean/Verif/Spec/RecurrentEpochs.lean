import Mathlib.Data.List.Perm.Basic
import Verif.Spec.PPOData
import Verif.Model.TrainAgentBatch
set_option autoImplicit false

/-!
# Specification for C179: passes over a dataset of sequences
-/

namespace Verif.RecurrentEpochs
variable {α : Type}

/-- A pass over the dataset in minibatches of `n` transitions: the minibatches together have every transition once, every minibatch has `n` of
them and consists of (non-empty) pieces of consecutive transitions of an episode, no longer than `maxLen`. -/
structure Pass (n : Nat) (maxLen : Option Nat) (episodes : List (List α)) (us : List (List (List α))) : Prop where
  all : us.flatten.flatten.Perm episodes.flatten
  size : ∀ u ∈ us, (u.map List.length).sum = n
  piece : ∀ u ∈ us, ∀ p ∈ u, p ≠ [] ∧ (∃ q ∈ episodes, p <:+: q) ∧ ∀ m, maxLen = some m → p.length ≤ m

/-- A sound configuration of the update: minibatches, `max_recurrent_sequence_len` (if given) and episodes are not empty. -/
def Sound (n : Nat) (maxLen : Option Nat) (episodes : List (List α)) : Prop :=
  0 < n ∧ (∀ m, maxLen = some m → 0 < m) ∧ ∀ q ∈ episodes, q ≠ []

/-- The least multiple of `N` that is at least `U`. -/
def roundUp (U N : Nat) : Nat := N * ((U + N - 1) / N)

/-- Only the methods for several environments are called, in the order of a training loop with `N` environments. -/
inductive Rounds {O A R : Type} (N : Nat) : List (PPOData.Call O A R) → Prop where
  | nil : Rounds N []
  | act (rows : List (O × A)) : rows.length = N → Rounds N [.batchAct rows]
  | round (rows : List (O × A)) (rows' : List (O × R × Bool × Bool)) (cs : List (PPOData.Call O A R)) :
      rows.length = N → rows'.length = N → Rounds N cs → Rounds N (.batchAct rows :: .batchObserve rows' :: cs)

section Count
variable {O A R : Type}

/-- The calls of `batch_observe_and_train`. -/
def observes (cs : List (PPOData.Call O A R)) : Nat := cs.countP fun c => match c with | .batchObserve _ => true | _ => false

/-- The calls of `act_and_train`. -/
def acts (cs : List (PPOData.Call O A R)) : Nat := cs.countP fun c => match c with | .act _ _ _ => true | _ => false

/-- Only the methods for one environment are called. -/
def Single (cs : List (PPOData.Call O A R)) : Prop :=
  ∀ c ∈ cs, (∃ obs reward action, c = .act obs reward action) ∨ ∃ state reward done, c = .stop state reward done

/-- The last call is one of `act_and_train`. -/
def endsWithAct (cs : List (PPOData.Call O A R)) : Bool := match cs.getLast? with | some (.act _ _ _) => true | _ => false

/-- The rounds of a run of `train_agent_batch` that the agent has been told the outcomes of. -/
def observed {S : Type} (l : List (TrainBatch.Ev O A R S)) : Nat := l.countP fun e => match e with | .observe _ _ _ _ => true | _ => false

end Count

end Verif.RecurrentEpochs
