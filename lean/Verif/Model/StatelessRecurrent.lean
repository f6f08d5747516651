import Mathlib.Algebra.GroupWithZero.Defs
import Verif.Model.Py
set_option autoImplicit false

/-! # Model: recurrent states of stateless recurrent links

`chainerrl/links/stateless_recurrent.py`, lines 221-389.  An array of shape
`(n_layers, batch_size, out_size)` is the list, over the batch axis, of the blocks of
`n_layers * out_size` numbers; an array of shape `(n_layers, out_size)` is one such block.
Whether a value is wrapped in a `Variable` is not modelled. -/

namespace Verif.Stateless
variable {K : Type} [MulZeroOneClass K]

/-- A link: an `NStepLSTM` or one of the links with a single state array, with block size
`n_layers * out_size`; a `StatelessRecurrentChainList` or subclass; or a link that is not
recurrent (stateless_recurrent.py:126-141). -/
inductive Link where
  | lstm (size : Nat)
  | gru (size : Nat)
  | chain (children : List Link)
  | plain

/-- A state array: with or without batch axis (as in stateless_recurrent.py:254-352). -/
inductive Arr (K : Type) where
  | batch (rows : List (List K))
  | single (row : List K)

/-- A recurrent state (stateless_recurrent.py:254-352). -/
inductive RS (K : Type) where
  | none
  | lstm (h c : Arr K)
  | gru (h : Arr K)
  | list (states : List (RS K))

/-- `indices`: an int or a list of ints (stateless_recurrent.py:254-304). -/
inductive Idx where
  | one (i : Int)
  | many (is : List Int)

/-- `h[:, indices]` after `assert h.ndim == 3` (stateless_recurrent.py:290-292, 298-299). -/
def selArr : Arr K → Idx → Py (Arr K)
  | .batch rows, .one i => do
    let v ← pyGet rows i
    pure (.single v)
  | .batch rows, .many is => do
    let vs ← is.mapM (pyGet rows)
    pure (.batch vs)
  | .single _, _ => .error .assertionError

/-- The position an index denotes (stateless_recurrent.py:254-304). -/
def position (n : Nat) (i : Int) : Py Nat :=
  match pyIndex n i with
  | some k => .ok k
  | none => .error .indexError

/-- The positions `indices` denotes (stateless_recurrent.py:254-304). -/
def positions (n : Nat) : Idx → Py (List Nat)
  | .one i => do
    let k ← position n i
    pure [k]
  | .many is => is.mapM (position n)

/-- `mask = ones_like(h); mask[:, indices] = 0; h * mask`
(stateless_recurrent.py:260-265, 270-273). -/
def maskArr : Arr K → Idx → Py (Arr K)
  | .batch rows, ix => do
    let ks ← positions rows.length ix
    pure (.batch (rows.mapIdx fun j row => row.map fun x => x * (if j ∈ ks then 0 else 1)))
  | .single _, _ => .error .assertionError

/-- The rows an array contributes to a concatenation (stateless_recurrent.py:320-326,
341-345). -/
def asRows (size : Nat) : Arr K → Py (List (List K))
  | .single row => pyAssert (row.length == size) (.ok [row])
  | .batch rows => .ok rows

/-- The zero block (stateless_recurrent.py:317-318, 339). -/
def zeros (size : Nat) : List K := List.replicate size 0

/-- What one state contributes to the concatenation for an `NStepLSTM`
(stateless_recurrent.py:315-328). -/
def lstmPart (size : Nat) : RS K → Py (List (List K) × List (List K))
  | .none => .ok ([zeros size], [zeros size])
  | .lstm h c => do
    let h ← asRows size h
    let c ← asRows size c
    pure (h, c)
  | _ => .error .typeError

/-- The same for links with one array (stateless_recurrent.py:337-346). -/
def gruPart (size : Nat) : RS K → Py (List (List K))
  | .none => .ok [zeros size]
  | .gru h => asRows size h
  | _ => .error .typeError

/-- `F.concat(hs, axis=1)` of no arrays raises (stateless_recurrent.py:307-352). -/
def nonEmpty {α : Type} (l : List α) : Py Unit := if l.isEmpty then .error .valueError else .ok ()

/-- Number of recurrent children (stateless_recurrent.py:367-375). -/
def nRecurrent : List Link → Nat
  | [] => 0
  | .plain :: ls => nRecurrent ls
  | _ :: ls => nRecurrent ls + 1

/-- Replace `None` with a list of `None`, and check lengths (stateless_recurrent.py:242-246). -/
def rowOf (n : Nat) : RS K → Py (List (RS K))
  | .none => .ok (List.replicate n .none)
  | .list ss => pyAssert (ss.length == n) (.ok ss)
  | _ => .error .assertionError

/-- First elements and remaining elements of the rows: one column of `zip(*rows)` (stateless_recurrent.py:238-251). -/
def heads (rows : List (List (RS K))) : List (RS K) := rows.filterMap List.head?
/-- stateless_recurrent.py:238-251. -/
def tails (rows : List (List (RS K))) : List (List (RS K)) := rows.map List.tail

mutual
/-- `concatenate_recurrent_states` (stateless_recurrent.py:307-352). -/
def concatS : Link → List (RS K) → Py (RS K)
  | .lstm size, srs => do
    let parts ← srs.mapM (lstmPart size)
    nonEmpty parts
    pure (.lstm (.batch (parts.map Prod.fst).flatten) (.batch (parts.map Prod.snd).flatten))
  | .gru size, srs => do
    let parts ← srs.mapM (gruPart size)
    nonEmpty parts
    pure (.gru (.batch parts.flatten))
  | .chain ls, srs => do
    let rows ← srs.mapM (rowOf (nRecurrent ls))
    pyAssert (!(rows.isEmpty && nRecurrent ls != 0)) do
      let out ← concatList ls rows
      pure (.list out)
  | .plain, _ => .error .valueError
/-- `concatenate_recurrent_states_of_links` after the checks (stateless_recurrent.py:247-251):
column by column. -/
def concatList : List Link → List (List (RS K)) → Py (List (RS K))
  | [], _ => .ok []
  | .plain :: ls, rows => concatList ls rows
  | l :: ls, rows => do
    let s ← concatS l (heads rows)
    let ss ← concatList ls (tails rows)
    pure (s :: ss)
end

mutual
/-- `get_recurrent_state_at` (stateless_recurrent.py:281-304, 229-235). -/
def getS : Link → RS K → Idx → Py (RS K)
  | _, .none, _ => .ok .none
  | .lstm _, .lstm h c, ix => do
    let h ← selArr h ix
    let c ← selArr c ix
    pure (.lstm h c)
  | .gru _, .gru h, ix => do
    let h ← selArr h ix
    pure (.gru h)
  | .chain ls, .list ss, ix => pyAssert (nRecurrent ls == ss.length) do
    let ss ← getList ls ss ix
    pure (.list ss)
  | .plain, _, _ => .error .valueError
  | _, _, _ => .error .typeError
/-- The comprehension of `get_recurrent_states_of_links_at` (stateless_recurrent.py:234-235). -/
def getList : List Link → List (RS K) → Idx → Py (List (RS K))
  | .plain :: ls, ss, ix => getList ls ss ix
  | l :: ls, s :: ss, ix => do
    let s ← getS l s ix
    let ss ← getList ls ss ix
    pure (s :: ss)
  | _, _, _ => .ok []
end

mutual
/-- `mask_recurrent_state_at` (stateless_recurrent.py:254-278, 221-226). -/
def maskS : Link → RS K → Idx → Py (RS K)
  | _, .none, _ => .ok .none
  | .lstm _, .lstm h c, ix => do
    let c ← maskArr c ix
    let h ← maskArr h ix
    pure (.lstm h c)
  | .gru _, .gru h, ix => do
    let h ← maskArr h ix
    pure (.gru h)
  | .chain ls, .list ss, ix => pyAssert (nRecurrent ls == ss.length) do
    let ss ← maskList ls ss ix
    pure (.list ss)
  | .plain, _, _ => .error .valueError
  | _, _, _ => .error .typeError
/-- The comprehension of `mask_recurrent_states_of_links_at` (stateless_recurrent.py:225-226). -/
def maskList : List Link → List (RS K) → Idx → Py (List (RS K))
  | .plain :: ls, ss, ix => maskList ls ss ix
  | l :: ls, s :: ss, ix => do
    let s ← maskS l s ix
    let ss ← maskList ls ss ix
    pure (s :: ss)
  | _, _, _ => .ok []
end

/-- The method `get_recurrent_state_at` of a chain (stateless_recurrent.py:381-385), which
answers `None` with a list of `None`. -/
def chainGet (ls : List Link) : RS K → Idx → Py (RS K)
  | .none, _ => .ok (.list (List.replicate (nRecurrent ls) .none))
  | s, ix => getS (.chain ls) s ix

end Verif.Stateless
