import Verif.Model.ReplayBuffer
set_option autoImplicit false

/-!
# Model of `chainerrl/replay_buffers/episodic.py`
and of `random_subseq` (`chainerrl/replay_buffer.py:127-132`)
-/

namespace Verif

/-- `episodic.py:11-15`.  `memory` holds one-element lists (line 76). -/
structure EpiBuf (E T : Type _) where
  capacity : Option Nat
  cur : E → List T
  episodic : RAQ (List T)
  memory : RAQ (List T)

namespace EpiBuf
variable {E T : Type _} [DecidableEq E]

/-- `episodic.py:11-15`. -/
def init (capacity : Option Nat) : EpiBuf E T :=
  ⟨capacity, fun _ => [], RAQ.init none [], RAQ.init none []⟩

/-- `episodic.py:81-82`: `for _ in range(k): self.memory.popleft()`. -/
def popN {α : Type _} : Nat → RAQ α → Py (RAQ α)
  | 0, q => .ok q
  | k + 1, q => match q.popleft with
    | .ok (_, q') => popN k q'
    | .error e => .error e

/-- `episodic.py:78-82`: discard the oldest episode while there are more
transitions than `capacity`. -/
def evict (b : EpiBuf E T) : Py (EpiBuf E T) :=
  match b.capacity with
  | none => .ok b
  | some c =>
    if b.memory.len > c then
      match _h : b.episodic.popleft with
      | .error e => .error e
      | .ok (ep, q) =>
        match popN ep.length b.memory with
        | .error e => .error e
        | .ok m => evict { b with episodic := q, memory := m }
    else .ok b
termination_by b.episodic.len
decreasing_by have := RAQ.len_popleft _h; omega

/-- `episodic.py:71-83` `stop_current_episode`. -/
def stop (b : EpiBuf E T) (e : E) : Py (EpiBuf E T) :=
  if b.cur e ≠ [] then
    let ep := b.cur e
    evict { b with
      episodic := b.episodic.append ep
      memory := (ep.map (fun t => [t])).foldl RAQ.append b.memory
      cur := Function.update b.cur e [] }
  else .ok b

/-- `episodic.py:17-26` `append`. -/
def append (term : T → Bool) (b : EpiBuf E T) (e : E) (x : T) : Py (EpiBuf E T) :=
  let b := { b with cur := Function.update b.cur e (b.cur e ++ [x]) }
  if term x then b.stop e else .ok b

/-- One call of `append` or `stop_current_episode` (episodic.py:17-26, 71-83). -/
def step (term : T → Bool) (b : EpiBuf E T) : NStep.Op E T → Py (EpiBuf E T)
  | .append e x => b.append term e x
  | .stop e => b.stop e

/-- A history of calls; it ends at the first exception (iterates episodic.py:17-26, 71-83). -/
def run (term : T → Bool) (b : EpiBuf E T) (ops : List (NStep.Op E T)) : Py (EpiBuf E T) :=
  ops.foldlM (step term) b

/-- `episodic.py:40-41` `__len__`. -/
def len (b : EpiBuf E T) : Nat := b.memory.len

/-- `episodic.py:43-45` `n_episodes`. -/
def nEpisodes (b : EpiBuf E T) : Nat := b.episodic.len

/-- `episodic.py:28-30` `sample`. -/
def sample (b : EpiBuf E T) (n : Int) (d : SampleNK.NKDraws) : SampleNK.Res (List (List T)) :=
  if (b.memory.len : Int) ≥ n then b.memory.sample n d else .raised .assertionError

/-- `replay_buffer.py:127-132` `random_subseq`; `i` is what `np.random.randint`
draws, used only when the sequence is longer than `n`. -/
def randomSubseq (seq : List T) (n : Nat) (i : Nat) : List T :=
  if seq.length ≤ n then seq else (seq.drop i).take n

/-- `episodic.py:32-38` `sample_episodes`; `starts` lists one draw per sampled
episode (the code draws only for those that are too long; the others are
ignored here). -/
def sampleEpisodes (b : EpiBuf E T) (n : Int) (maxLen : Option Nat) (d : SampleNK.NKDraws)
    (starts : List Nat) : SampleNK.Res (List (List T)) :=
  if (b.episodic.len : Int) ≥ n then
    match b.episodic.sample n d, maxLen with
    | .ret eps, some m => .ret ((eps.zip starts).map (fun p => randomSubseq p.1 m p.2))
    | r, _ => r
  else .raised .assertionError

/-- `episodic.py:47-49` and `51-55`: the current file format holds both queues.
Pickling is assumed to restore equal objects.  The v0.2 branch (lines 56-69) is
not modelled: it stores bare transitions where lists are expected. -/
def save (b : EpiBuf E T) : RAQ (List T) × RAQ (List T) := (b.memory, b.episodic)

/-- `episodic.py:51-55` `load`, current format. -/
def load (b : EpiBuf E T) (f : RAQ (List T) × RAQ (List T)) : EpiBuf E T :=
  { b with memory := f.1, episodic := f.2 }

end EpiBuf
end Verif
