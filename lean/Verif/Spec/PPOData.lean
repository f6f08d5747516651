import Verif.Spec.Returns
import Verif.Model.PPOData
set_option autoImplicit false

/-! # Specification: advantages, minibatches and datasets of PPO and TRPO (C49-C51) -/

namespace Verif.PPOData

/-! ## Generalised advantage estimation -/

/-- The temporal difference error of a transition. -/
def tdError {K : Type} [Ring K] (gamma : K) (t : VTrans K) : K :=
  t.reward + gamma * t.nonterminal * t.nextVPred - t.vPred

/-! ## Cutting into pieces -/

/-- `Cuts n seqs subsets`: the subsets are consecutive parts of `n` items each of
the list of sequences, in which a sequence is cut only where a subset ends. -/
inductive Cuts {α : Type} (n : Nat) : List (List α) → List (List (List α)) → Prop where
  | nil : Cuts n [] []
  | whole (sub rest : List (List α)) (us : List (List (List α))) :
      (sub.map List.length).sum = n → Cuts n rest us → Cuts n (sub ++ rest) (sub :: us)
  | split (sub : List (List α)) (a b : List α) (rest : List (List α)) (us : List (List (List α))) :
      (sub.map List.length).sum + a.length = n → a ≠ [] → b ≠ [] → Cuts n (b :: rest) us →
      Cuts n (sub ++ (a ++ b) :: rest) ((sub ++ [a]) :: us)

/-! ## What one environment experiences -/

section Book
variable {O A R : Type}

/-- The experience of one environment: the episodes that have ended, the
transitions of the current one, and the observation and action whose outcome is
not known yet. -/
structure View (O A R : Type) where
  ended : List (List (Tr O A R))
  current : List (Tr O A R)
  last : Option (O × A)

/-- Nothing experienced. -/
def View.init : View O A R := ⟨[], [], none⟩

/-- The pending action has led to `obs` with `reward`. -/
def View.outcome (v : View O A R) (obs : O) (reward : R) (done : Bool) : View O A R :=
  match v.last with
  | none => v
  | some (o, a) => { v with current := v.current ++ [⟨o, a, reward, obs, done⟩], last := none }

/-- The episode has ended. -/
def View.close (v : View O A R) : View O A R := ⟨v.ended ++ [v.current], [], none⟩

/-- What environment `tag` (`none`: that of the single interface) sees of a call. -/
def View.see (tag : Option Nat) (v : View O A R) : Call O A R → View O A R
  | .act obs reward action =>
    if tag = none then { v.outcome obs reward false with last := some (obs, action) } else v
  | .stop state reward done => if tag = none then (v.outcome state reward done).close else v
  | .batchAct rows => match tag with
    | none => v
    | some i => match rows[i]? with
      | none => v
      | some r => { v with last := some r }
  | .batchObserve rows => match tag with
    | none => v
    | some i => match rows[i]? with
      | none => v
      | some (obs, reward, done, reset) =>
        let w := { v.outcome obs reward done with last := none }
        if done || reset then w.close else w

/-- What environment `tag` sees of a history. -/
def view (tag : Option Nat) (cs : List (Call O A R)) : View O A R :=
  cs.foldl (View.see tag) View.init

/-- The fragments of environment `tag` in a list of datasets, in order. -/
def fragments (tag : Option Nat) (ds : List (Dataset O A R)) : List (List (Tr O A R)) :=
  (ds.flatten.filter (fun e => e.1 = tag)).map Prod.snd

/-- `Covers frags cur v`: the non-empty fragments `frags` followed by `cur` are
exactly the experience `v`, each fragment a part of one episode. -/
def Covers (frags : List (List (Tr O A R))) (cur : List (Tr O A R)) (v : View O A R) : Prop :=
  ∃ (groups : List (List (List (Tr O A R)))) (open_ : List (List (Tr O A R))),
    frags = groups.flatten ++ open_ ∧ groups.map List.flatten = v.ended ∧
    open_.flatten ++ cur = v.current ∧ ∀ f ∈ frags, f ≠ []

/-- The number of transitions in a dataset. -/
def Dataset.size (d : Dataset O A R) : Nat := (d.map (fun e => e.2.length)).sum

/-- The number of transitions experienced. -/
def View.count (v : View O A R) : Nat := (v.ended.map List.length).sum + v.current.length

/-- The number of transitions experienced by the single interface's environment and
the first `n` environments of the batch interface. -/
def experienced (n : Nat) (cs : List (Call O A R)) : Nat :=
  (view none cs).count + ((List.range n).map (fun i => (view (some i) cs).count)).sum

/-- `Legal n a b cs`: the calls come in an order a training loop makes them, with
batches of `n`: `stop` ends an episode in which an action was selected (`a`: this is
so now), `batchObserve` follows `batchAct` (`b`: it has just been called). -/
inductive Legal (n : Nat) : Bool → Bool → List (Call O A R) → Prop where
  | nil (a b : Bool) : Legal n a b []
  | act (a b : Bool) (obs : O) (reward : R) (action : A) (cs : List (Call O A R)) :
      Legal n true b cs → Legal n a b (.act obs reward action :: cs)
  | stop (b : Bool) (state : O) (reward : R) (done : Bool) (cs : List (Call O A R)) :
      Legal n false b cs → Legal n true b (.stop state reward done :: cs)
  | batchAct (a b : Bool) (rows : List (O × A)) (cs : List (Call O A R)) :
      rows.length = n → Legal n a true cs → Legal n a b (.batchAct rows :: cs)
  | batchObserve (a : Bool) (rows : List (O × R × Bool × Bool)) (cs : List (Call O A R)) :
      rows.length = n → Legal n a false cs → Legal n a true (.batchObserve rows :: cs)

end Book

end Verif.PPOData
