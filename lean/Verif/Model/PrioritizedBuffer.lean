import Verif.Model.TreeQueue
import Verif.Spec.ListQueue

/-!
# Model of `chainerrl/misc/prioritized.py:8-106` (class `PrioritizedBuffer`)

Priorities are in any ordered type with the operations that the code uses: in the properties a
linearly ordered field, or the floating-point numbers of `Model/Float64.lean` (C142).
-/

namespace Verif
variable {D K : Type _} [LinearOrder K] [Zero K] [One K] [Add K] [Sub K] [Mul K] [Div K] [NatCast K]
open ListQueue (listMin)

/-- `prioritized.py:10-18`.  `sampled` is the attribute `sampled_indices`
(`none` before the first call of `sample`). -/
structure PBuf (D K : Type _) where
  capacity : Option Nat
  data : List D
  sums : TreeQueue K
  mins : TreeQueue K
  maxPriority : K
  wait : Bool
  flag : Bool
  sampled : Option (List Int)

namespace PBuf

/-- `prioritized.py:10-18`. -/
def init (capacity : Option Nat) (wait : Bool) (initialMax : K) : PBuf D K :=
  ⟨capacity, [], .init, .init, initialMax, wait, false, none⟩

/-- `prioritized.py:34-38`. -/
def popleft (b : PBuf D K) : Py (D × PBuf D K) :=
  match b.data with
  | [] => .error .assertionError
  | x :: t =>
    match b.sums.popleft List.sum with
    | .error e => .error e
    | .ok (_, s) =>
      match b.mins.popleft listMin with
      | .error e => .error e
      | .ok (_, m) => .ok (x, { b with data := t, sums := s, mins := m })

/-- `prioritized.py:24-25`: make room when the buffer is full. -/
def makeRoom (b : PBuf D K) : Py (PBuf D K) :=
  if b.capacity = some b.data.length then
    match b.popleft with
    | .error e => .error e
    | .ok (_, b') => .ok b'
  else .ok b

/-- `prioritized.py:23-32`. -/
def append (b : PBuf D K) (value : D) (priority : Option K) : Py (PBuf D K) :=
  match b.makeRoom with
  | .error e => .error e
  | .ok b =>
    let p := priority.getD b.maxPriority
    match b.sums.append List.sum p with
    | .error e => .error e
    | .ok s =>
      match b.mins.append listMin p with
      | .error e => .error e
      | .ok m => .ok { b with data := b.data ++ [value], sums := s, mins := m }

/-- The random choices of one `sample` call: `uniformIxs` is the result of
`sample_n_k(len, n_uniform)`, `us` the variates of the prioritized draws (misc/prioritized.py:40-68, 102-108). -/
structure Draws (K : Type _) where
  uniformIxs : List Nat
  us : List K

/-- `prioritized.py:47-53`: the uniform part (nothing when `uniform_ratio` is
not positive). -/
def sampleUniform (b : PBuf D K) (ratio : K) (d : Draws K) :
    Py (List Int × List (Option K) × TreeQueue K) :=
  if 0 < ratio then SumTree.uniformSample b.sums (d.uniformIxs.map Int.ofNat) b.wait
  else .ok ([], [], b.sums)

/-- `prioritized.py:40-68` `_sample_indices_and_probabilities`.  A priority
`None` (an empty slot was hit) makes line 65 raise `TypeError`. -/
def sampleIndices (b : PBuf D K) (ratio : K) (d : Draws K) :
    Py (List Int × List K × K × PBuf D K) :=
  let total := SumTree.sum b.sums
  match b.mins.rootValue with
  | none => .error .zeroDivisionError
  | some mn =>
    if total = 0 then .error .zeroDivisionError
    else
      let minProb := mn / total
      match b.sampleUniform ratio d with
      | .error e => .error e
      | .ok (ui, up, s) =>
        let minProb := if 0 < ratio then ratio / b.data.length + (1 - ratio) * minProb else minProb
        match SumTree.prioritizedSample s d.us b.wait with
        | .error e => .error e
        | .ok (pi, pp, s) =>
          match (up ++ pp).mapM id with
          | none => .error .typeError
          | some priorities =>
            .ok (ui ++ pi,
              priorities.map (fun p => ratio / b.data.length + (1 - ratio) * p / total),
              minProb, { b with sums := s })

/-- `prioritized.py:70-88` `sample`. -/
def sample (b : PBuf D K) (ratio : K) (d : Draws K) : Py (List D × List K × K × PBuf D K) :=
  if b.wait && b.flag then .error .assertionError
  else
    match b.sampleIndices ratio d with
    | .error e => .error e
    | .ok (ixs, probs, minProb, b') =>
      match ixs.mapM (fun i => pyGet b'.data i) with
      | .error e => .error e
      | .ok sampled =>
        .ok (sampled, probs, minProb, { b' with sampled := some ixs, flag := true })

/-- `prioritized.py:95-98`: the update loop. -/
def setLoop : List (Int × K) → PBuf D K → Py (PBuf D K)
  | [], b => .ok b
  | (i, p) :: rest, b =>
    match b.sums.setitem List.sum i p with
    | .error e => .error e
    | .ok s =>
      match b.mins.setitem listMin i p with
      | .error e => .error e
      | .ok m => setLoop rest { b with sums := s, mins := m, maxPriority := max b.maxPriority p }

/-- `prioritized.py:90-100` `set_last_priority`. -/
def setLast (b : PBuf D K) (ps : List K) : Py (PBuf D K) :=
  if b.wait && !b.flag then .error .assertionError
  else if ¬ (∀ p ∈ ps, 0 < p) then .error .assertionError
  else match b.sampled with
    | none => .error .attributeError
    | some ixs =>
      if ixs.length ≠ ps.length then .error .assertionError
      else match setLoop (ixs.zip ps) b with
        | .error e => .error e
        | .ok b' => .ok { b' with flag := false, sampled := some [] }

end PBuf
end Verif
