import Verif.Model.RandomAccessQueue

/-!
# Model of `chainerrl/misc/random.py` (`sample_n_k`)

Random draws are inputs: `NKDraws` lists what the calls of
`numpy.random.choice` return.  The refills of line 25 are a list of any finite
length; a run that needs one more draw than the list holds is `waiting`.
-/

namespace Verif.SampleNK

/-- Results of the `numpy.random.choice` calls of `random.py`. -/
structure NKDraws where
  /-- line 12: `choice(n, k, replace=False)` -/
  noRep : List Nat
  /-- line 14: `choice(n, 2 * k)` -/
  first : List Nat
  /-- line 25: the successive `choice(n, k)` -/
  refills : List (List Nat)

/-- What a run of `sample_n_k` on a finite supply of draws does (random.py:4-28). -/
inductive Res (α : Type) where
  | ret (a : α) | raised (e : PyErr) | waiting
  deriving DecidableEq

/-- Variables of the loop: `result`, `j` and the refills not yet drawn (random.py:14-27). -/
structure Vars where
  result : List Nat
  j : Nat
  refills : List (List Nat)

/-- `random.py:20-26`, the `while x in selected` loop for position `i`. -/
def inner (k i : Nat) (selected : List Nat) (x : Nat) (v : Vars) : Res (Nat × Vars) :=
  if x ∈ selected then
    if hj : v.j < 2 * k then
      match v.result[v.j]? with
      | none => .raised .indexError
      | some y =>
        let result := v.result.set i y
        if v.j + 1 = 2 * k then
          match hr : v.refills with
          | [] => .waiting
          | r :: rs => inner k i selected y ⟨result.take k ++ r, k, rs⟩
        else inner k i selected y ⟨result, v.j + 1, v.refills⟩
    else .raised .indexError
  else .ret (x, v)
termination_by (v.refills.length, 2 * k - v.j)
decreasing_by
  · simp [hr, Prod.lex_def]
  · simp [Prod.lex_def]; omega

/-- `random.py:18-27`, the `for i in range(k)` loop from position `i`, with
`m = k - i` iterations left. -/
def outer (k : Nat) : Nat → Nat → List Nat → Vars → Res Vars
  | 0, _, _, v => .ret v
  | m + 1, i, selected, v =>
    match v.result[i]? with
    | none => .raised .indexError
    | some x =>
      match inner k i selected x v with
      | .ret (x, v) => outer k m (i + 1) (x :: selected) v
      | .raised e => .raised e
      | .waiting => .waiting

/-- `random.py:4-28`. -/
def sampleNK (n k : Int) (d : NKDraws) : Res (List Nat) :=
  if ¬ (0 ≤ k ∧ k ≤ n) then .raised .valueError
  else if k = 0 then .ret []
  else if 3 * k ≥ n then .ret d.noRep
  else
    let k := k.toNat
    match outer k k 0 [] ⟨d.first, k, d.refills⟩ with
    | .ret v => .ret (v.result.take k)
    | .raised e => .raised e
    | .waiting => .waiting

/-- The contract of `numpy.random.choice`: sizes, range, and distinctness with
`replace=False` (called in random.py:12-24). -/
def NKDraws.Valid (n k : Nat) (d : NKDraws) : Prop :=
  (d.noRep.length = k ∧ d.noRep.Nodup ∧ ∀ x ∈ d.noRep, x < n) ∧
  (d.first.length = 2 * k ∧ ∀ x ∈ d.first, x < n) ∧
  (∀ r ∈ d.refills, r.length = k ∧ ∀ x ∈ r, x < n)

end Verif.SampleNK

namespace Verif
open SampleNK

/-- `collections.py:101-102`: `RandomAccessQueue.sample(k)`. -/
def RAQ.sample {α : Type} (q : RAQ α) (k : Int) (d : NKDraws) : Res (List α) :=
  match sampleNK q.len k d with
  | .ret ixs => match ixs.mapM (fun i : Nat => q.getitem i) with
    | .ok l => .ret l
    | .error e => .raised e
  | .raised e => .raised e
  | .waiting => .waiting

end Verif
