import Mathlib.Data.Real.Sqrt

/-!
# Model of `init_like_torch`

`chainerrl/misc/init_like_torch.py`.  Arrays are their entries in order (C order) with their shape; entries are real numbers.  The random numbers are
a sequence `u` with values in `[0, 1)`, from which `np.random.uniform` takes the next ones.
-/

set_option autoImplicit false

namespace Verif.InitLikeTorch

noncomputable section

/-- What a link is, for `init_like_torch`: a `L.Linear`, a `L.Convolution2D`, or something else with parameters of its own.  `b` is `none` when made with `nobias=True`
(init_like_torch.py:5-20). -/
inductive Kind
  | linear (nOut nIn : Nat) (W : List ℝ) (b : Option (List ℝ))
  | conv (nOut nIn kh kw : Nat) (W : List ℝ) (b : Option (List ℝ))
  | other (params : List ℝ)

mutual
/-- A link with its children, in the order of `children()` (init_like_torch.py:5-20). -/
inductive Link
  | node (k : Kind) (children : Links)

/-- Links one after the other (init_like_torch.py:5-20). -/
inductive Links
  | nil
  | cons (l : Link) (ls : Links)
end

/-- `np.random.uniform(low, high, size)` for `n` entries, when `k` random numbers have been used before: numpy computes `low + (high - low) * u`
(init_like_torch.py:8-20). -/
def uniform (u : ℕ → ℝ) (k : ℕ) (low high : ℝ) (n : ℕ) : List ℝ := (List.range n).map fun i => low + (high - low) * u (k + i)

/-- `li.b.array[:] = np.random.uniform(-stdv, stdv, size=li.b.shape)` unless `li.b` is `None` (lines 13-14 and 19-20). -/
def initBias (u : ℕ → ℝ) (k : ℕ) (stdv : ℝ) : Option (List ℝ) → Option (List ℝ) × ℕ
  | none => (none, k)
  | some b => (some (uniform u k (-stdv) stdv b.length), k + b.length)

/-- The body of the loop (lines 9-20) for one link. -/
def initOne (u : ℕ → ℝ) (k : ℕ) : Kind → Kind × ℕ
  | .linear nOut nIn W b =>
    let stdv := 1 / Real.sqrt nIn
    let (b', k') := initBias u (k + W.length) stdv b
    (.linear nOut nIn (uniform u k (-stdv) stdv W.length) b', k')
  | .conv nOut nIn kh kw W b =>
    let stdv := 1 / Real.sqrt ((nIn * kh * kw : ℕ) : ℝ)
    let (b', k') := initBias u (k + W.length) stdv b
    (.conv nOut nIn kh kw (uniform u k (-stdv) stdv W.length) b', k')
  | .other p => (.other p, k)

mutual
/-- The loop over `link.links()` (line 8), which yields a link before its children. -/
def initLink (u : ℕ → ℝ) (k : ℕ) : Link → Link × ℕ
  | .node kind cs =>
    let (kind', k1) := initOne u k kind
    let (cs', k2) := initLinks u k1 cs
    (.node kind' cs', k2)

/-- The loop over the links below (init_like_torch.py:7-20). -/
def initLinks (u : ℕ → ℝ) (k : ℕ) : Links → Links × ℕ
  | .nil => (.nil, k)
  | .cons l ls =>
    let (l', k1) := initLink u k l
    let (ls', k2) := initLinks u k1 ls
    (.cons l' ls', k2)
end

/-- `init_like_torch(link)` (lines 5-20), with fresh random numbers. -/
def initLikeTorch (u : ℕ → ℝ) (l : Link) : Link := (initLink u 0 l).1

/-- `L.Linear.__call__` on a row: part of Chainer.  Row `j` of `W` is the slice from `j * nIn`
(the links of init_like_torch.py:9). -/
def linearCall (nOut nIn : Nat) (W : List ℝ) (b : Option (List ℝ)) (x : Nat → ℝ) : List ℝ :=
  (List.range nOut).map fun j => ((List.range nIn).map fun i => W.getD (j * nIn + i) 0 * x i).sum + (match b with | none => 0 | some b => b.getD j 0)

end

end Verif.InitLikeTorch
