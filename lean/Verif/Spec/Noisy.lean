import Verif.Model.Noisy

/-!
Specification of the conversion to a noisy network: a network in which no link occurs twice is a
tree, and the conversion is an operation on that tree.
-/

set_option autoImplicit false

namespace Verif.Noisy

/-- A network as a tree of links with their identities.  For a `Sequence`, `shape` says where in its
list of layers the functions (`some`) and the links (`none`) are. -/
inductive Tree where
  | leaf (i : Nat) (n : Node)
  | chain (i : Nat) (cls : Cls) (names : List String) (ts : List Tree)
  | list (i : Nat) (shape : Option (List (Option Nat))) (ts : List Tree)

/-- The identity of the root. -/
def Tree.root : Tree → Nat
  | .leaf i _ => i
  | .chain i _ _ _ => i
  | .list i _ _ => i

/-- Put the links in their places between the functions. -/
def fill : List (Option Nat) → List Nat → List Item
  | [], _ => []
  | some f :: sh, rs => .fn f :: fill sh rs
  | none :: sh, r :: rs => .link r :: fill sh rs
  | none :: _, [] => []

/-- A link without children. -/
def Node.childless : Node → Prop
  | .linear _ _ => True
  | .other _ => True
  | _ => False

mutual
/-- The heap holds this network. -/
def Rep (h : H) : Tree → Prop
  | .leaf i n => h.node i = some n ∧ n.childless
  | .chain i cls names ts => h.node i = some (.chain cls (names.zip (ts.map Tree.root))) ∧ names.Nodup ∧
      names.length = ts.length ∧ Reps h ts
  | .list i shape ts => h.node i = some (.list (shape.map fun sh => fill sh (ts.map Tree.root)) (ts.map Tree.root)) ∧
      (∀ sh, shape = some sh → sh.count none = ts.length) ∧ Reps h ts
/-- The heap holds these networks. -/
def Reps (h : H) : List Tree → Prop
  | [] => True
  | t :: ts => Rep h t ∧ Reps h ts
end

mutual
/-- The identities of all links of a network. -/
def Tree.ids : Tree → List Nat
  | .leaf i _ => [i]
  | .chain i _ _ ts => i :: idss ts
  | .list i _ ts => i :: idss ts
/-- The identities of all links of networks. -/
def idss : List Tree → List Nat
  | [] => []
  | t :: ts => t.ids ++ idss ts
end

mutual
/-- How deep links are nested. -/
def Tree.depth : Tree → Nat
  | .leaf _ _ => 1
  | .chain _ _ _ ts => depths ts + 1
  | .list _ _ ts => depths ts + 1
/-- The deepest of some networks. -/
def depths : List Tree → Nat
  | [] => 0
  | t :: ts => max t.depth (depths ts)
end

/-- A noisy layer of size `s`, made of two new linear links with new weights. -/
def IsNoisy (new : Nat) (s : Size) (t : Tree) : Prop :=
  ∃ j a b wa wb, t = .chain j .noisy ["mu", "sigma"] [.leaf a (.linear s wa), .leaf b (.linear s wb)] ∧
    new ≤ j ∧ new ≤ a ∧ new ≤ b ∧ new ≤ wa ∧ new ≤ wb

/-- The size of a linear link; `none` for any other network. -/
def Tree.linear? : Tree → Option Size
  | .leaf _ (.linear s _) => some s
  | _ => none

mutual
/-- The network `t'` is `t` with every linear child link replaced by a noisy layer. -/
def Conv (new : Nat) : Tree → Tree → Prop
  | .leaf i n, t' => t' = .leaf i n
  | .chain i cls names ts, t' => ∃ ts', t' = .chain i cls names ts' ∧ Slots new ts ts'
  | .list i shape ts, t' => ∃ ts', t' = .list i shape ts' ∧ Slots new ts ts'
/-- The children. -/
def Slots (new : Nat) : List Tree → List Tree → Prop
  | [], ts' => ts' = []
  | t :: ts, ts' => ∃ u us, ts' = u :: us ∧ ((∀ s, t.linear? = some s → IsNoisy new s u) ∧
      (t.linear? = none → Conv new t u)) ∧ Slots new ts us
end

mutual
/-- The number of linear links that are not part of a noisy layer. -/
def Tree.bare : Tree → Nat
  | .leaf _ (.linear _ _) => 1
  | .leaf _ _ => 0
  | .chain _ .noisy _ _ => 0
  | .chain _ (.plain _) _ ts => bares ts
  | .list _ _ ts => bares ts
/-- The number of linear links that are not part of a noisy layer. -/
def bares : List Tree → Nat
  | [] => 0
  | t :: ts => t.bare + bares ts
end

mutual
/-- The number of noisy layers. -/
def Tree.noisies : Tree → Nat
  | .leaf _ _ => 0
  | .chain _ .noisy _ _ => 1
  | .chain _ (.plain _) _ ts => noisiess ts
  | .list _ _ ts => noisiess ts
/-- The number of noisy layers. -/
def noisiess : List Tree → Nat
  | [] => 0
  | t :: ts => t.noisies + noisiess ts
end

end Verif.Noisy
