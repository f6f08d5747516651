import Verif.Model.Py

/-!
Model of the Arcade Learning Environment wrapper, `/repo/chainerrl/envs/ale.py` (lines 134-246).

The emulator is any deterministic machine.  `max2` is `np.maximum` of two raw screens and `proc`
the conversion to an 84x84 grey image (138-163, shapes are not modelled).  The constructor calls
`initialize` (125); options of the emulator, rendering and seeds are not modelled.  The number of
null actions is drawn at random; here it is an argument of `initialize`.
-/

set_option autoImplicit false

namespace Verif.ALE

/-- The emulator (`atari_py.ALEInterface`) and the processing of screens (as used in ale.py:75-235). -/
structure Emu (S A Scr Img : Type) where
  act : S → A → S × Int
  lives : S → Nat
  over : S → Bool
  resetGame : S → S
  screen : S → Scr
  nullop : A
  legal : List A
  max2 : Scr → Scr → Scr
  proc : Scr → Img
  zeros : Img

/-- The settings (ale.py:76-79, 105). -/
structure Config where
  nLastScreens : Nat
  frameSkip : Nat
  lifeLostTerminal : Bool

/-- The attributes of an `ALE` object that change (set in ale.py:185-235). -/
structure Env (S Scr Img : Type) where
  emu : S
  lives : Nat
  livesLost : Bool
  lastRaw : Option Scr
  screens : List Img
  reward : Int

variable {S A Scr Img : Type}

/-- `deque.append` with `maxlen = n` (ale.py:209, 229-232). -/
def push (n : Nat) (l : List Img) (x : Img) : List Img := (l ++ [x]).drop (l.length + 1 - n)

/-- `is_terminal` (ale.py:170-175). -/
def isTerminal (m : Emu S A Scr Img) (c : Config) (e : Env S Scr Img) : Bool :=
  if c.lifeLostTerminal then e.livesLost || m.over e.emu else m.over e.emu

/-- `current_screen` (ale.py:136-163). -/
def currentScreen (m : Emu S A Scr Img) (e : Env S Scr Img) : Py (Img × Env S Scr Img) :=
  match e.lastRaw with
  | none => .error .assertionError
  | some raw => .ok (m.proc (m.max2 (m.screen e.emu) raw), { e with lastRaw := none })

/-- The loop of `receive_action` (ale.py:189-205), `i` being the loop variable and `n` the
number of iterations left; `rs` is the sum of the rewards so far. -/
def frames (m : Emu S A Scr Img) (c : Config) (action : Int) : Nat → Nat → Env S Scr Img → Int →
    Py (Env S Scr Img × Int)
  | 0, _, e, rs => .ok (e, rs)
  | n + 1, i, e, rs => do
    let e := if i + 1 = c.frameSkip then { e with lastRaw := some (m.screen e.emu) } else e
    let a ← pyGet m.legal action
    let r := m.act e.emu a
    let e := { e with emu := r.1, livesLost := decide (m.lives r.1 < e.lives), lives := m.lives r.1 }
    if isTerminal m c e then .ok (e, rs + r.2) else frames m c action n (i + 1) e (rs + r.2)

/-- `receive_action` (ale.py:185-213). -/
def receiveAction (m : Emu S A Scr Img) (c : Config) (action : Int) (e : Env S Scr Img) : Py (Env S Scr Img) :=
  if isTerminal m c e then .error .assertionError
  else do
    let r ← frames m c action c.frameSkip 0 e 0
    if isTerminal m c r.1 then .ok { r.1 with reward := r.2 }
    else do
      let s ← currentScreen m r.1
      .ok { s.2 with screens := push c.nLastScreens s.2.screens s.1, reward := r.2 }

/-- `k` null actions (ale.py:220-223). -/
def nullops (m : Emu S A Scr Img) : Nat → S → S
  | 0, s => s
  | k + 1, s => nullops m k (m.act s m.nullop).1

/-- `initialize` (ale.py:215-235) with `k` null actions. -/
def initEnv (m : Emu S A Scr Img) (c : Config) (k : Nat) (s : S) : Py (Env S Scr Img) := do
  let s := if m.over s then m.resetGame s else s
  let s := nullops m k s
  let e : Env S Scr Img := ⟨s, 0, false, some (m.screen s), [], 0⟩
  let r ← currentScreen m e
  let screens := (List.replicate (c.nLastScreens - 1) m.zeros ++ [r.1]).drop
    (c.nLastScreens - 1 + 1 - c.nLastScreens)
  .ok { r.2 with screens := screens, livesLost := false, lives := m.lives s }

/-- `state` (ale.py:165-168). -/
def state (c : Config) (e : Env S Scr Img) : Py (List Img) :=
  if e.screens.length = c.nLastScreens then .ok e.screens else .error .assertionError

/-- `reset` (ale.py:237-239). -/
def reset (m : Emu S A Scr Img) (c : Config) (k : Nat) (s : S) : Py (List Img × Env S Scr Img) := do
  let e ← initEnv m c k s
  let o ← state c e
  .ok (o, e)

/-- What `step` returns (ale.py:241-243). -/
structure Out (Img : Type) where
  obs : List Img
  reward : Int
  done : Bool

/-- `step` (ale.py:241-243). -/
def step (m : Emu S A Scr Img) (c : Config) (action : Int) (e : Env S Scr Img) :
    Py (Out Img × Env S Scr Img) := do
  let e ← receiveAction m c action e
  let o ← state c e
  .ok (⟨o, e.reward, isTerminal m c e⟩, e)

end Verif.ALE
