import Mathlib.Data.List.Forall2
import Verif.Model.SharedObjects

/-!
Specification for sharing objects between processes: the slots of an object with their paths,
when two objects are alike, and what well-formed objects are.
-/

set_option autoImplicit false

namespace Verif.Shared

mutual
/-- All parameters, persistent values and optimizer state entries of an object, with paths. -/
def slots : Obj → List (Path × Nat)
  | .tuple l => slotsList 0 l
  | .link l => namedParams l ++ namedPersistent l
  | .optimizer s => s.flatMap fun x => x.2.map fun e => (x.1 ++ [.name e.1], e.2)
  | .value _ => []
  | .other => []
def slotsList (k : Nat) : List Obj → List (Path × Nat)
  | [] => []
  | o :: os => (slots o).map (fun x => (.idx k :: x.1, x.2)) ++ slotsList (k + 1) os
end

mutual
/-- The `mp.Value`s (counters) of an object, in order. -/
def values : Obj → List Nat
  | .tuple l => valuesList l
  | .value n => [n]
  | _ => []
def valuesList : List Obj → List Nat
  | [] => []
  | o :: os => values o ++ valuesList os
end

mutual
/-- The attributes of every link in the tree have different names. -/
def Link.NamesOk : Link → Prop
  | .mk params persistent children =>
    (params.map Prod.fst ++ persistent.map Prod.fst).Nodup ∧ (children.map Prod.fst).Nodup ∧
      NamesOkList children
def NamesOkList : List (Comp × Link) → Prop
  | [] => True
  | (_, l) :: rest => l.NamesOk ∧ NamesOkList rest
end

mutual
/-- An object that can be shared: links, optimizers, `mp.Value`s and tuples of them, whose names
are different where Python requires it. -/
def NamesOk : Obj → Prop
  | .tuple l => NamesOkObjs l
  | .link l => l.NamesOk
  | .optimizer s => (s.map Prod.fst).Nodup ∧ ∀ x ∈ s, (x.2.map Prod.fst).Nodup
  | .value _ => True
  | .other => False
def NamesOkObjs : List Obj → Prop
  | [] => True
  | o :: os => NamesOk o ∧ NamesOkObjs os
end

variable {D V : Type} [DecidableEq D]

/-- Slots `i` and `j` hold the same kind of array. -/
def SameKind (w : World D V) (i j : Nat) : Prop := dtypeOf w i = dtypeOf w j ∧ sizeOf w i = sizeOf w j

/-- The same paths with the same kinds of arrays, in the same order. -/
def AlikeSlots (w : World D V) (a b : List (Path × Nat)) : Prop :=
  List.Forall₂ (fun x y => x.1 = y.1 ∧ SameKind w x.2 y.2) a b

mutual
/-- Two objects of the same structure, as `make_agent` creates them in different processes. -/
def Alike (w : World D V) : Obj → Obj → Prop
  | .tuple l, .tuple l' => AlikeList w l l'
  | .link l, .link l' => AlikeSlots w (namedParams l) (namedParams l') ∧
      AlikeSlots w (namedPersistent l) (namedPersistent l')
  | .optimizer s, .optimizer s' => List.Forall₂ (fun x y => x.1 = y.1 ∧
      List.Forall₂ (fun e f => e.1 = f.1 ∧ SameKind w e.2 f.2) x.2 y.2) s s'
  | .value _, .value _ => True
  | _, _ => False
def AlikeList (w : World D V) : List Obj → List Obj → Prop
  | [], [] => True
  | o :: os, o' :: os' => Alike w o o' ∧ AlikeList w os os'
  | _, _ => False
end

/-- A slot that holds what its header says. -/
def GoodSlot (t : Dtypes D V) (w : World D V) (i : Nat) : Prop :=
  match w.slot i with
  | .arr a => a.addr < w.next ∧ (w.mem a.addr).dtype = a.dtype ∧ (w.mem a.addr).data.length = a.size ∧
      ∀ v ∈ (w.mem a.addr).data, t.store a.dtype v = v
  | .scalar d v => t.store d v = v

mutual
/-- The entries of all optimizer states are `float32`. -/
def Float32States (t : Dtypes D V) (w : World D V) : Obj → Prop
  | .tuple l => Float32StatesList t w l
  | .optimizer s => ∀ x ∈ s, ∀ e ∈ x.2, dtypeOf w e.2 = t.float32
  | _ => True
def Float32StatesList (t : Dtypes D V) (w : World D V) : List Obj → Prop
  | [] => True
  | o :: os => Float32States t w o ∧ Float32StatesList t w os
end

/-- The processes write to their parameters, states and persistent values in some order: every
entry has a path, the slot of that path in the writing process, and the new value. -/
def writes (w : World D V) : List (Path × Nat × List V) → World D V
  | [] => w
  | (_, i, data) :: rest => writes (write w i data) rest

/-- The value last written under path `p`, by whatever process; `v` if there is none. -/
def latest (p : Path) (v : List V) : List (Path × Nat × List V) → List V
  | [] => v
  | (q, _, data) :: rest => latest p (if q = p then data else v) rest

end Verif.Shared
