import Verif.Model.Distrib
set_option autoImplicit false

/-! # Model: batches of distributions as objects

`chainerrl/distribution.py`: construction, `__getitem__`, `copy` and the queries of the classes
on a batch, with arrays that can be shared and written in place, `ln_var` computed at
construction and `all_prob` and `all_log_prob` cached at their first use.  A batch has any number
of rows of one width `n`.  The other cached properties (`entropy`, `most_probable`) are functions
of these two caches or of attributes that never change, so caching them is not observable and is
not modelled.  The computational graph is not modelled (a copy has no history). -/

namespace Verif.DistribBatch

open Verif.Distrib Real

noncomputable section

variable {n : Nat}

/-- One row of an array of shape (B, n) (the attributes of distribution.py:168-440). -/
abbrev Row (n : Nat) := Fin n → ℝ

/-- The memory of the arrays: buffers of rows (the arrays behind distribution.py:168-440). -/
abbrev Heap (n : Nat) := List (List (Row n))

/-- A NumPy array or the `.array` of a Variable: some rows of a buffer, in order
(the attributes of distribution.py:168-440). -/
structure Arr where
  buf : Nat
  rows : List Nat

/-- The rows that an array shows now (any access to an attribute in distribution.py:168-440). -/
def read (h : Heap n) (a : Arr) : List (Row n) :=
  a.rows.map fun r => ((h[a.buf]?.getD [])[r]?).getD fun _ => 0

/-- `x[i:j]` for `0 <= i`, `0 <= j`, on a NumPy array or (`F.get_item`) on a Variable: a view
into the same memory (distribution.py:216-218, 257-258, 325-326). -/
def view (a : Arr) (i j : Nat) : Arr := ⟨a.buf, (a.rows.drop i).take (j - i)⟩

/-- `_unwrap_variable(x).copy()` (distribution.py:21-25 and numpy.copy): new memory. -/
def copyArr (h : Heap n) (a : Arr) : Heap n × Arr :=
  (h ++ [read h a], ⟨h.length, List.range a.rows.length⟩)

/-- `x[r] = v` on a whole buffer (what a user of distribution.py:168-440 may do to an array). -/
def write (h : Heap n) (b r : Nat) (v : Row n) : Heap n := h.modify b fun l => l.set r v

/-- The distribution objects with their attributes and caches (distribution.py:168-440). -/
inductive Dist (n : Nat) where
  /-- `SoftmaxDistribution` (distribution.py:168-219). -/
  | soft (logits : Arr) (beta minProb : ℝ) (allProb allLogProb : Option (List (Row n)))
  /-- `MellowmaxDistribution` (distribution.py:221-258). -/
  | mellow (values : Arr) (omega : ℝ) (allProb allLogProb : Option (List (Row n)))
  /-- `GaussianDistribution` (distribution.py:275-326); `ln_var` is a new array. -/
  | gauss (mean var : Arr) (lnVar : List (Row n))
  /-- `SquashedGaussianDistribution` (distribution.py:336-401). -/
  | squashed (mean var : Arr) (lnVar : List (Row n))
  /-- `ContinuousDeterministicDistribution` (distribution.py:404-440). -/
  | determ (x : Arr)

/-- `SoftmaxDistribution.__init__` (distribution.py:179-184). -/
def newSoft (_h : Heap n) (logits : Arr) (beta minProb : ℝ) : Py (Dist n) :=
  if minProb * n ≤ 1 then .ok (.soft logits beta minProb none none) else .error .assertionError

/-- `MellowmaxDistribution.__init__` (distribution.py:230-232). -/
def newMellow (_h : Heap n) (values : Arr) (omega : ℝ) : Py (Dist n) := .ok (.mellow values omega none none)

/-- `F.log(var)`, elementwise, into a new array (distribution.py:281). -/
def lnRows (h : Heap n) (var : Arr) : List (Row n) := (read h var).map fun v i => log (v i)

/-- `GaussianDistribution.__init__` (distribution.py:278-281). -/
def newGauss (h : Heap n) (mean var : Arr) : Py (Dist n) := .ok (.gauss mean var (lnRows h var))

/-- `SquashedGaussianDistribution.__init__` (distribution.py:342-345). -/
def newSquashed (h : Heap n) (mean var : Arr) : Py (Dist n) := .ok (.squashed mean var (lnRows h var))

/-- `ContinuousDeterministicDistribution.__init__` (distribution.py:411-412). -/
def newDeterm (_h : Heap n) (x : Arr) : Py (Dist n) := .ok (.determ x)

/-- `distrib[i:j]` (distribution.py:216-218, 257-258, 325-326, 400-401); the deterministic
distribution has no `__getitem__`. -/
def slice (h : Heap n) (d : Dist n) (i j : Nat) : Py (Dist n) :=
  match d with
  | .soft logits beta minProb _ _ => newSoft h (view logits i j) beta minProb
  | .mellow values omega _ _ => newMellow h (view values i j) omega
  | .gauss mean var _ => newGauss h (view mean i j) (view var i j)
  | .squashed mean var _ => newSquashed h (view mean i j) (view var i j)
  | .determ _ => .error .typeError

/-- `distrib.copy()` (distribution.py:207-209, 248-250, 311-313, 388-391, 428-430). -/
def copy (h : Heap n) (d : Dist n) : Py (Heap n × Dist n) :=
  match d with
  | .soft logits beta minProb _ _ => do
    let (h, a) := copyArr h logits
    let d ← newSoft h a beta minProb
    pure (h, d)
  | .mellow values omega _ _ => do
    let (h, a) := copyArr h values
    let d ← newMellow h a omega
    pure (h, d)
  | .gauss mean var _ => do
    let (h, m) := copyArr h mean
    let (h, v) := copyArr h var
    let d ← newGauss h m v
    pure (h, d)
  | .squashed mean var _ => do
    let (h, m) := copyArr h mean
    let (h, v) := copyArr h var
    let d ← newSquashed h m v
    pure (h, d)
  | .determ x => do
    let (h, a) := copyArr h x
    let d ← newDeterm h a
    pure (h, d)

/-- `all_prob` (distribution.py:190-197, 238-241): computed at the first access. -/
def allProb (brent : Brent) (h : Heap n) : Dist n → Py (List (Row n) × Dist n)
  | .soft logits beta minProb none l =>
    let p := (read h logits).map fun x => softmaxProb x beta minProb
    .ok (p, .soft logits beta minProb (some p) l)
  | .mellow values omega none l =>
    let p := (read h values).map fun x => (mellowmaxDist brent x omega).allProb
    .ok (p, .mellow values omega (some p) l)
  | d@(.soft _ _ _ (some p) _) => .ok (p, d)
  | d@(.mellow _ _ (some p) _) => .ok (p, d)
  | _ => .error .attributeError

/-- `all_log_prob` (distribution.py:199-205, 243-246): computed at the first access, from
`all_prob` unless the class is the softmax without a minimum probability. -/
def allLogProb (brent : Brent) (h : Heap n) : Dist n → Py (List (Row n) × Dist n)
  | .soft logits beta minProb p none =>
    if 0 < minProb then do
      let (p, _) ← allProb brent h (.soft logits beta minProb p none)
      let l := p.map fun x i => log (x i)
      pure (l, .soft logits beta minProb (some p) (some l))
    else
      let l := (read h logits).map fun x => logSoftmax fun j => beta * x j
      pure (l, .soft logits beta minProb p (some l))
  | .mellow values omega p none => do
    let (p, _) ← allProb brent h (.mellow values omega p none)
    let l := p.map fun x i => log (x i)
    pure (l, .mellow values omega (some p) (some l))
  | d@(.soft _ _ _ _ (some l)) => .ok (l, d)
  | d@(.mellow _ _ _ (some l)) => .ok (l, d)
  | _ => .error .attributeError

/-- The points at which probabilities are asked for: labels or vectors, one per row
(the argument `x` of distribution.py:149-154, 294-300). -/
inductive Points (n : Nat) where
  | labels (l : List (Fin n))
  | vectors (l : List (Row n))

/-- `log_prob(x)` (distribution.py:154-155, 297-300, 373-382, 432-433).  Labels for the
categorical classes and vectors for the others, one per row, other arguments are not modelled
(`TypeError`).  `NotImplementedError` is a `RuntimeError`. -/
def logProb (brent : Brent) (h : Heap n) (d : Dist n) (x : Points n) : Py (List ℝ × Dist n) :=
  match d, x with
  | .gauss mean var ln, .vectors x =>
    .ok (List.zipWith (fun (x : Row n) (p : Row n × Row n × Row n) =>
      ∑ i, gaussianLogLikelihood (x i) (p.1 i) (p.2.1 i) (p.2.2 i)) x
        ((read h mean).zip ((read h var).zip ln)), d)
  | .squashed mean var ln, .vectors x =>
    .ok (List.zipWith (fun (x : Row n) (p : Row n × Row n × Row n) =>
      ∑ i, (gaussianLogLikelihood (artanh (x i)) (p.1 i) (p.2.1 i) (p.2.2 i) - tanhLogDet (artanh (x i)))) x
        ((read h mean).zip ((read h var).zip ln)), d)
  | .determ _, _ => .error .runtimeError
  | d, .labels x => do
    let (l, d) ← allLogProb brent h d
    pure (List.zipWith (fun x l => l x) x l, d)
  | _, _ => .error .typeError

/-- `prob(x)` (distribution.py:151-152, 294-295, 370-371, 425-426). -/
def prob (brent : Brent) (h : Heap n) (d : Dist n) (x : Points n) : Py (List ℝ × Dist n) :=
  match d, x with
  | .soft a b c e f, .labels x => do
    let (p, d) ← allProb brent h (.soft a b c e f)
    pure (List.zipWith (fun x p => p x) x p, d)
  | .mellow a b e f, .labels x => do
    let (p, d) ← allProb brent h (.mellow a b e f)
    pure (List.zipWith (fun x p => p x) x p, d)
  | d, x => do
    let (l, d) ← logProb brent h d x
    pure (l.map exp, d)

/-- `entropy` (distribution.py:136-139, 302-309, 384-386, 414-416). -/
def entropy (brent : Brent) (h : Heap n) (d : Dist n) : Py (List ℝ × Dist n) :=
  match d with
  | .gauss _ _ ln => .ok (ln.map fun l => 0.5 * n * (log (2 * π) + 1) + 0.5 * ∑ i, l i, d)
  | .squashed _ _ _ => .error .runtimeError
  | .determ _ => .error .runtimeError
  | d => do
    let (p, d) ← allProb brent h d
    let (l, d) ← allLogProb brent h d
    pure (List.zipWith (fun p l => -∑ i, p i * l i) p l, d)

/-- `most_probable` of the classes over vectors (distribution.py:287-289, 351-353, 418-420); for
the categorical classes it is `argmax` of `all_prob` and not modelled here. -/
def mode (h : Heap n) (d : Dist n) : Py (List (Row n)) :=
  match d with
  | .gauss mean _ _ => .ok (read h mean)
  | .squashed mean _ _ => .ok ((read h mean).map fun m i => tanh (m i))
  | .determ x => .ok (read h x)
  | _ => .error .typeError

/-- `p.kl(q)` (distribution.py:163-165, 315-319, 393-394, 435-436), for `q` of the same kind. -/
def kl (brent : Brent) (h : Heap n) (p q : Dist n) : Py (List ℝ × Dist n × Dist n) :=
  match p, q with
  | .gauss pm pv pl, .gauss qm qv ql =>
    .ok (List.zipWith (fun (p q : Row n × Row n × Row n) =>
        0.5 * ∑ i, (q.2.2 i - p.2.2 i + (p.2.1 i + (p.1 i - q.1 i) ^ 2) / q.2.1 i - 1))
      ((read h pm).zip ((read h pv).zip pl)) ((read h qm).zip ((read h qv).zip ql)), p, q)
  | .gauss _ _ _, _ => .error .attributeError
  | .squashed _ _ _, _ => .error .runtimeError
  | .determ _, _ => .error .runtimeError
  | p, q => do
    let (a, p) ← allProb brent h p
    let (b, p) ← allLogProb brent h p
    let (c, q) ← allLogProb brent h q
    pure (List.zipWith (fun (x : Row n × Row n) (y : Row n) => ∑ i, x.1 i * (x.2 i - y i)) (a.zip b) c, p, q)

end

end Verif.DistribBatch
