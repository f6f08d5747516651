import Verif.Model.ALE

/-!
Specification of the ALE environment in terms of the emulator alone.
-/

set_option autoImplicit false

namespace Verif.ALE
variable {S A Scr Img : Type}

/-- The emulator after `k` frames of action `a`. -/
def after (m : Emu S A Scr Img) (a : A) : Nat → S → S
  | 0, s => s
  | k + 1, s => after m a k (m.act s a).1

/-- The rewards of `k` frames of action `a`. -/
def rewards (m : Emu S A Scr Img) (a : A) : Nat → S → List Int
  | 0, _ => []
  | k + 1, s => (m.act s a).2 :: rewards m a k (m.act s a).1

/-- The episode ends with the frame that leads from `s` to `s'`: the game is over or, if that
counts, a life is lost in this frame. -/
def Ends (m : Emu S A Scr Img) (c : Config) (s s' : S) : Prop :=
  m.over s' = true ∨ (c.lifeLostTerminal = true ∧ m.lives s' < m.lives s)

/-- The episode ends with frame `k` (counted from one) of action `a`. -/
def EndsAt (m : Emu S A Scr Img) (c : Config) (a : A) (s : S) (k : Nat) : Prop :=
  Ends m c (after m a (k - 1) s) (after m a k s)

/-- The new image after a full step: the maximum of its last two frames. -/
def image (m : Emu S A Scr Img) (c : Config) (a : A) (s : S) : Img :=
  m.proc (m.max2 (m.screen (after m a c.frameSkip s)) (m.screen (after m a (c.frameSkip - 1) s)))

instance (m : Emu S A Scr Img) (c : Config) (s s' : S) : Decidable (Ends m c s s') := by
  unfold Ends; infer_instance

/-- How many of `n` frames of action `a` are played until the episode ends. -/
def played (m : Emu S A Scr Img) (c : Config) (a : A) : Nat → S → Nat
  | 0, _ => 0
  | n + 1, s => if Ends m c s (m.act s a).1 then 1 else played m c a n (m.act s a).1 + 1

/-- The images that the steps with these actions show: one for each, but none for a step in which the
episode ends. -/
def images (m : Emu S A Scr Img) (c : Config) : List A → S → List Img
  | [], _ => []
  | a :: as, s =>
    if Ends m c (after m a (played m c a c.frameSkip s - 1) s) (after m a (played m c a c.frameSkip s) s) then []
    else image m c a s :: images m c as (after m a (played m c a c.frameSkip s) s)

/-- `n` images: the last ones of `l`, preceded by black images if there are fewer. -/
def lastN (n : Nat) (z : Img) (l : List Img) : List Img := List.replicate (n - l.length) z ++ l.drop (l.length - n)

/-- Take steps one after the other. -/
def steps (m : Emu S A Scr Img) (c : Config) : List Int → Env S Scr Img → Py (List (Out Img) × Env S Scr Img)
  | [], e => .ok ([], e)
  | a :: as, e => do
    let r ← step m c a e
    let rs ← steps m c as r.2
    .ok (r.1 :: rs.1, rs.2)

end Verif.ALE
