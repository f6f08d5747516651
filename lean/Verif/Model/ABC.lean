import Mathlib.Analysis.SpecialFunctions.Exp
import Verif.Model.ActionValue
set_option autoImplicit false

/-!
# Model of the toy environment `ABC` (`chainerrl/envs/abc.py`)

Rewards are natural numbers (0 or 1).  The random offset of line 114 and the random action of line 129 are arguments.
-/

namespace Verif.ABC

/-- abc.py lines 76-85. -/
structure Config where
  size : Nat
  episodic : Bool
  partiallyObservable : Bool
  deterministic : Bool

/-- `_state` and `_offset`; `offset` is `none` before the first reset (no attribute) (abc.py:103-115). -/
structure S where
  state : Nat
  offset : Option Nat
  deriving DecidableEq

/-- Lines 98-101: a one-hot vector of length `size + 2` (`none`: IndexError). -/
def observe (c : Config) (s : S) : Option (List Nat) :=
  let i := s.state + s.offset.getD 0
  if i < c.size + 2 then some ((List.replicate (c.size + 2) 0).set i 1) else none

/-- Lines 103-115; `random` is `np.random.randint(2)`. -/
def reset (c : Config) (random : Nat) (s : S) : S × Option (List Nat) :=
  let offset :=
    if c.partiallyObservable then
      if c.deterministic then (s.offset.getD 0 + 1) % 2 else random
    else 0
  let s' : S := ⟨0, some offset⟩
  (s', observe c s')

/-- What `step` returns besides `info` (abc.py:150). -/
structure Out where
  obs : Option (List Nat)
  reward : Nat
  done : Bool
  deriving DecidableEq

/-- Lines 130-150, `action` being the discrete action. -/
def step (c : Config) (s : S) (action : Nat) : S × Out :=
  if action = s.state then
    if s.state + 1 = c.size then
      if c.episodic then
        let s' := { s with state := c.size }
        (s', ⟨observe c s', 1, true⟩)
      else
        let s' := { s with state := 0 }
        (s', ⟨observe c s', 1, false⟩)
    else
      let s' := { s with state := s.state + 1 }
      (s', ⟨observe c s', 0, false⟩)
  else if c.episodic then
    let s' := { s with state := c.size }
    (s', ⟨observe c s', 0, true⟩)
  else (s, ⟨observe c s, 0, false⟩)

/-- A sequence of steps (iterates abc.py:117-150). -/
def steps (c : Config) : S → List Nat → S × List Out
  | s, [] => (s, [])
  | s, a :: as =>
    let r := step c s a
    let rs := steps c r.1 as
    (rs.1, r.2 :: rs.2)

/-! ## Continuous actions -/

/-- Lines 120-122: `np.clip(action, -1, 1)`. -/
noncomputable def clip (x : ℝ) : ℝ := min (max x (-1)) 1

/-- Lines 120-124: the discrete action of a vector, deterministic. -/
noncomputable def innerGreedy (action : List ℝ) : Nat := ActionValue.greedy (action.map clip)

/-- Lines 126-127: the probabilities of the discrete actions. -/
noncomputable def innerProb (action : List ℝ) : List ℝ :=
  let es := (action.map clip).map Real.exp
  es.map (· / es.sum)

end Verif.ABC
