import Mathlib.Algebra.Ring.Defs
import Verif.Model.Py
set_option autoImplicit false

/-! # Model: the datasets of PPO and TRPO

`chainerrl/agents/ppo.py`: advantages (27-45), sequence cutting (139-171), and the
book-keeping of transitions (344-419, 593-615, 662-688, 714-807);
`chainerrl/agents/trpo.py` uses the first two by import and repeats the third
(233-300, 652-673, 721-747, 773-). -/

namespace Verif.PPOData

/-! ## Advantages -/

/-- What `_add_advantage_and_value_target_to_episode` reads of a transition (ppo.py:27-38). -/
structure VTrans (K : Type) where
  reward : K
  nonterminal : K
  vPred : K
  nextVPred : K

section Adv
variable {K : Type} [Ring K]

/-- The loop over `reversed(episode)` (ppo.py:27-38): the pairs `(adv, v_teacher)` in
episode order, and the last `adv` computed (that of the first transition). -/
def addAdvantage (gamma lambd : K) : List (VTrans K) → List (K × K) × K
  | [] => ([], 0)
  | t :: ep =>
    let r := addAdvantage gamma lambd ep
    let tdErr := t.reward + gamma * t.nonterminal * t.nextVPred - t.vPred
    let adv := tdErr + gamma * lambd * r.2
    ((adv, adv + t.vPred) :: r.1, adv)

end Adv

/-! ## Cutting sequences -/

section Cut
variable {α : Type}

/-- The `while` loop of `_limit_sequence_length` for one sequence (ppo.py:143-148). -/
def limitOne (maxLen : Nat) (seq : List α) : Py (List (List α)) :=
  if h : maxLen < seq.length ∧ 0 < maxLen then do
    let rest ← limitOne maxLen (seq.drop maxLen)
    pure (seq.take maxLen :: rest)
  else pyAssert (decide (0 < seq.length ∧ seq.length ≤ maxLen)) (.ok [seq])
termination_by seq.length
decreasing_by rw [List.length_drop]; omega

/-- The loop over the sequences (ppo.py:142-148). -/
def limitAll (maxLen : Nat) : List (List α) → Py (List (List α))
  | [] => .ok []
  | s :: ss => do
    let a ← limitOne maxLen s
    let b ← limitAll maxLen ss
    pure (a ++ b)

/-- `_limit_sequence_length(sequences, max_len)` (ppo.py:139-149). -/
def limitSequenceLength (sequences : List (List α)) (maxLen : Nat) : Py (List (List α)) :=
  pyAssert (decide (0 < maxLen)) (limitAll maxLen sequences)

/-- The inner loop (ppo.py:157-162): pop sequences until `count >= n_items`.  The
stack is a list whose head is the top, i.e. the sequences in their order. -/
def popItems (n count : Nat) (subset stack : List (List α)) :
    Py (List (List α) × Nat × List (List α)) :=
  if count < n then
    match stack with
    | [] => .error .indexError
    | s :: stack => popItems n (count + s.length) (subset ++ [s]) stack
  else .ok (subset, count, stack)

/-- Splitting the last sequence (ppo.py:163-169); `sequence[:-n_exceeds]` and
`sequence[-n_exceeds:]`. -/
def splitLast (n count : Nat) (subset stack : List (List α)) : List (List α) × List (List α) :=
  if n < count then
    let s := subset.getLast?.getD []
    let ex := count - n
    (subset.dropLast ++ [s.take (s.length - ex)], s.drop (s.length - ex) :: stack)
  else (subset, stack)

/-- The outer loop (ppo.py:156-171): the subsets yielded and the exception that
ends the iteration, if any.  `fuel` bounds the number of iterations; the generator
below starts with more than there can be. -/
def yieldLoop (n : Nat) : Nat → List (List α) → List (List (List α)) × Option PyErr
  | 0, _ => ([], some .recursionError)
  | fuel + 1, stack =>
    if stack.isEmpty then ([], none)
    else match popItems n 0 [] stack with
      | .error e => ([], some e)
      | .ok (subset, count, stack) =>
        let r := splitLast n count subset stack
        if (r.1.map List.length).sum = n then
          let rest := yieldLoop n fuel r.2
          (r.1 :: rest.1, rest.2)
        else ([], some .assertionError)

/-- `_yield_subset_of_sequences_with_fixed_number_of_items(sequences, n_items)`
(ppo.py:152-171), iterated to the end. -/
def yieldSubsets (sequences : List (List α)) (n : Nat) : List (List (List α)) × Option PyErr :=
  if 0 < n then yieldLoop n ((sequences.map List.length).sum + 2) sequences
  else ([], some .assertionError)

end Cut

/-! ## Book-keeping -/

section Book
variable {O A R : Type}

/-- A transition (ppo.py:596-602, 665-671, 771-777); the recurrent states that are
added to it for recurrent models are left out. -/
structure Tr (O A R : Type) where
  state : O
  action : A
  reward : R
  nextState : O
  done : Bool
deriving DecidableEq

/-- One environment's part of `batch_last_episode`, `batch_last_state` and
`batch_last_action` (ppo.py:353-355); the last two are set and cleared together. -/
structure Slot (O A R : Type) where
  episode : List (Tr O A R)
  last : Option (O × A)

/-- The agent's data (ppo.py:344-355).  Each entry of `memory` carries the index of
the environment it comes from (`none` for the single interface); that index is
added by the model and not read by any of its functions. -/
structure St (O A R : Type) where
  memory : List (Option Nat × List (Tr O A R))
  lastEpisode : List (Tr O A R)
  last : Option (O × A)
  batch : Option (List (Slot O A R))

/-- A new agent (ppo.py:344-355, 370-373). -/
def St.init : St O A R := ⟨[], [], none, none⟩

/-- An update dataset: the episodes in `memory` (ppo.py:375-409). -/
abbrev Dataset (O A R : Type) := List (Option Nat × List (Tr O A R))

/-- The loop over `batch_last_episode` (ppo.py:416-419). -/
def flushSlots : Nat → List (Slot O A R) → Dataset O A R × List (Slot O A R)
  | _, [] => ([], [])
  | i, s :: ss =>
    let r := flushSlots (i + 1) ss
    if s.episode.isEmpty then (r.1, s :: r.2)
    else ((some i, s.episode) :: r.1, { s with episode := [] } :: r.2)

/-- The batch part of `_flush_last_episode` (ppo.py:411-419). -/
def flushBatch (s : St O A R) : St O A R :=
  match s.batch with
  | none => s
  | some slots =>
    let r := flushSlots 0 slots
    { s with memory := s.memory ++ r.1, batch := some r.2 }

/-- `_flush_last_episode()` (ppo.py:411-419). -/
def flush (s : St O A R) : St O A R :=
  flushBatch (if s.lastEpisode.isEmpty then s
    else { s with memory := s.memory ++ [(none, s.lastEpisode)], lastEpisode := [] })

/-- The number of transitions in all slots (ppo.py:376-380). -/
def batchSize (s : St O A R) : Nat :=
  match s.batch with
  | none => 0
  | some slots => (slots.map (fun sl => sl.episode.length)).sum

/-- `dataset_size` (ppo.py:376-380). -/
def datasetSize (s : St O A R) : Nat :=
  (s.memory.map (fun e => e.2.length)).sum + s.lastEpisode.length + batchSize s

/-- `_update_if_dataset_is_ready()` (ppo.py:375-409): the dataset given to the
update, if one is made. -/
def updateIfReady (interval : Nat) (s : St O A R) : St O A R × List (Dataset O A R) :=
  if interval ≤ datasetSize s then
    let s := flush s
    ({ s with memory := [] }, [s.memory])
  else (s, [])

/-- A call of the agent with the action it selects (ppo.py:593, 662, 714, 758). -/
inductive Call (O A R : Type) where
  | act (obs : O) (reward : R) (action : A)
  | stop (state : O) (reward : R) (done : Bool)
  | batchAct (rows : List (O × A))
  | batchObserve (rows : List (O × R × Bool × Bool))

/-- The transition recorded by `act_and_train` (ppo.py:595-612). -/
def record (s : St O A R) (obs : O) (reward : R) : St O A R :=
  match s.last with
  | none => s
  | some (o, a) => { s with lastEpisode := s.lastEpisode ++ [⟨o, a, reward, obs, false⟩] }

/-- The loop body of `batch_observe_and_train` for environment `i` (ppo.py:769-793):
the entry moved to `memory`, if any, and the new slot. -/
def observeRow (i : Nat) (sl : Slot O A R) (row : O × R × Bool × Bool) :
    Py (Dataset O A R × Slot O A R) :=
  let ep := match sl.last with
    | none => sl.episode
    | some (o, a) => sl.episode ++ [⟨o, a, row.2.1, row.1, row.2.2.1⟩]
  if row.2.2.1 || row.2.2.2 then
    if ep.isEmpty then .error .assertionError else .ok ([(some i, ep)], ⟨[], none⟩)
  else .ok ([], ⟨ep, none⟩)

/-- The loop of `batch_observe_and_train` (ppo.py:761-793); `zip` stops at the shorter. -/
def observeRows : Nat → List (Slot O A R) → List (O × R × Bool × Bool) →
    Py (Dataset O A R × List (Slot O A R))
  | i, sl :: sls, row :: rows => do
    let r ← observeRow i sl row
    let rest ← observeRows (i + 1) sls rows
    pure (r.1 ++ rest.1, r.2 :: rest.2)
  | _, sls, _ => .ok ([], sls)

/-- The slots for `batch_act_and_train` (ppo.py:721-726, 742-743). -/
def actSlots (s : St O A R) (rows : List (O × A)) : Py (List (Slot O A R)) :=
  match s.batch with
  | none => .ok (rows.map (fun r => ⟨[], some r⟩))
  | some slots => pyAssert (slots.length == rows.length)
      (.ok (List.zipWith (fun sl r => { sl with last := some r }) slots rows))

/-- One call: the new data and the datasets of the updates made (ppo.py:593-638, 662-688, 714-745, 758-807). -/
def step (interval : Nat) (s : St O A R) : Call O A R → Py (St O A R × List (Dataset O A R))
  | .act obs reward action =>
    -- ppo.py:593-638
    let r := updateIfReady interval (record s obs reward)
    .ok ({ r.1 with last := some (obs, action) }, r.2)
  | .stop state reward done =>
    -- ppo.py:662-688
    match s.last with
    | none => .error .assertionError
    | some (o, a) => .ok (updateIfReady interval
        (flush { s with lastEpisode := s.lastEpisode ++ [⟨o, a, reward, state, done⟩], last := none }))
  | .batchAct rows => do
    -- ppo.py:714-745
    let slots ← actSlots s rows
    pure ({ s with batch := some slots }, [])
  | .batchObserve rows =>
    -- ppo.py:758-807
    match s.batch with
    | none => .error .typeError
    | some slots => do
      let r ← observeRows 0 slots rows
      pure (updateIfReady interval { s with memory := s.memory ++ r.1, batch := some r.2 })

/-- A history of calls: the datasets of the updates in order (iterates ppo.py:593-807). -/
def run (interval : Nat) : St O A R → List (Call O A R) → Py (St O A R × List (Dataset O A R))
  | s, [] => .ok (s, [])
  | s, c :: cs => do
    let r ← step interval s c
    let r' ← run interval r.1 cs
    pure (r'.1, r.2 ++ r'.2)

end Book

end Verif.PPOData
