import Mathlib.Data.List.Basic
import Mathlib.Tactic.Common
import Verif.Spec.ALE

/-!
C84: the ALE environment.

`C84_step`: a step plays the action for `frame_skip` frames or until the episode ends, sums the
rewards and shows the last images.  `C84_history`: the observations of any run after a reset.
`C84_after_end`: nothing can be done after the end but reset.  `C84_violated_reset_over` and
`C84_violated_reset_continues`: resetting does not always give a new, playable episode.
-/

set_option autoImplicit false
set_option linter.unusedSectionVars false

namespace Verif.ALE
variable {S A Scr Img : Type}

theorem after_succ' (m : Emu S A Scr Img) (a : A) : ∀ (k : Nat) (s : S),
    after m a (k + 1) s = (m.act (after m a k s) a).1
  | 0, s => rfl
  | k + 1, s => by
    rw [after, after_succ' m a k]; rfl

theorem isTerminal_iff (m : Emu S A Scr Img) (c : Config) (e : Env S Scr Img) :
    isTerminal m c e = true ↔ m.over e.emu = true ∨ (c.lifeLostTerminal = true ∧ e.livesLost = true) := by
  unfold isTerminal
  cases c.lifeLostTerminal
  · simp
  · simp [or_comm]

/-- What the loop does. -/
theorem frames_spec (m : Emu S A Scr Img) (c : Config) (action : Int) (a : A) (ha : pyGet m.legal action = .ok a) :
    ∀ (n i : Nat) (e : Env S Scr Img) (rs : Int), i + (n + 1) = c.frameSkip → e.lives = m.lives e.emu →
    ∃ k e', frames m c action (n + 1) i e rs = .ok (e', rs + (rewards m a k e.emu).sum) ∧
      1 ≤ k ∧ k ≤ n + 1 ∧ (∀ j, 1 ≤ j → j < k → ¬ EndsAt m c a e.emu j) ∧ (k < n + 1 → EndsAt m c a e.emu k) ∧
      e'.emu = after m a k e.emu ∧ e'.lives = m.lives e'.emu ∧ e'.screens = e.screens ∧
      (isTerminal m c e' = true ↔ EndsAt m c a e.emu k) ∧
      (k = n + 1 → e'.lastRaw = some (m.screen (after m a n e.emu)))
  | n, i, e, rs => by
    intro hi hl
    rw [frames]
    have key : ∀ e1 : Env S Scr Img, e1.emu = e.emu → e1.lives = e.lives → e1.screens = e.screens →
        (n = 0 → e1.lastRaw = some (m.screen e.emu)) →
        ∃ k e', (do
            let a ← pyGet m.legal action
            let r := m.act e1.emu a
            let e := { e1 with emu := r.1, livesLost := decide (m.lives r.1 < e1.lives), lives := m.lives r.1 }
            if isTerminal m c e then .ok (e, rs + r.2) else frames m c action n (i + 1) e (rs + r.2)) =
              .ok (e', rs + (rewards m a k e.emu).sum) ∧
          1 ≤ k ∧ k ≤ n + 1 ∧ (∀ j, 1 ≤ j → j < k → ¬ EndsAt m c a e.emu j) ∧ (k < n + 1 → EndsAt m c a e.emu k) ∧
          e'.emu = after m a k e.emu ∧ e'.lives = m.lives e'.emu ∧ e'.screens = e.screens ∧
          (isTerminal m c e' = true ↔ EndsAt m c a e.emu k) ∧
          (k = n + 1 → e'.lastRaw = some (m.screen (after m a n e.emu))) := by
      intro e1 h1 h2 h3 h4
      rw [ha]
      show ∃ k e', (if isTerminal m c _ then _ else _) = _ ∧ _
      have hterm : isTerminal m c { e1 with emu := (m.act e1.emu a).1, livesLost := decide (m.lives (m.act e1.emu a).1 < e1.lives), lives := m.lives (m.act e1.emu a).1 } = true ↔
          EndsAt m c a e.emu 1 := by
        rw [isTerminal_iff]
        simp only [EndsAt, Ends, after, h1, h2, hl, decide_eq_true_eq, Nat.sub_self]
      by_cases ht : EndsAt m c a e.emu 1
      · rw [if_pos (hterm.mpr ht)]
        refine ⟨1, { e1 with emu := (m.act e1.emu a).1, livesLost := decide (m.lives (m.act e1.emu a).1 < e1.lives), lives := m.lives (m.act e1.emu a).1 }, ?_, Nat.le_refl _, by omega, by intro j h5 h6; omega, fun _ => ht, ?_, rfl, h3, hterm, ?_⟩
        · rw [h1]; simp [rewards]
        · rw [← h1]; rfl
        · intro hk
          have : n = 0 := by omega
          subst this
          exact h4 rfl
      · rw [if_neg (fun h => ht (hterm.mp h))]
        cases n with
        | zero =>
          refine ⟨1, { e1 with emu := (m.act e1.emu a).1, livesLost := decide (m.lives (m.act e1.emu a).1 < e1.lives), lives := m.lives (m.act e1.emu a).1 }, ?_, Nat.le_refl _, by omega, by intro j h5 h6; omega, by intro h; omega, ?_, rfl, h3, hterm, ?_⟩
          · rw [frames]
            rw [h1]; simp [rewards]
          · rw [← h1]; rfl
          · intro _; exact h4 rfl
        | succ n =>
          obtain ⟨k, e', g1, g2, g3, g4, g5, g6, g7, g8, g9, g10⟩ := frames_spec m c action a ha n (i + 1)
            { e1 with emu := (m.act e1.emu a).1, livesLost := decide (m.lives (m.act e1.emu a).1 < e1.lives), lives := m.lives (m.act e1.emu a).1 }
            (rs + (m.act e1.emu a).2) (by omega) rfl
          have hshift : ∀ j, 1 ≤ j → (EndsAt m c a (m.act e1.emu a).1 j ↔ EndsAt m c a e.emu (j + 1)) := by
            intro j hj
            obtain ⟨j, rfl⟩ : ∃ j', j = j' + 1 := ⟨j - 1, by omega⟩
            simp only [EndsAt, Nat.add_sub_cancel, h1]
            rfl
          refine ⟨k + 1, e', ?_, by omega, by omega, ?_, ?_, ?_, g7, g8.trans h3, ?_, ?_⟩
          · rw [g1, h1]
            simp only [rewards, List.sum_cons]
            rw [Int.add_assoc]
          · intro j h5 h6
            by_cases hj : j = 1
            · subst hj; exact ht
            · obtain ⟨j, rfl⟩ : ∃ j', j = j' + 1 := ⟨j - 1, by omega⟩
              rw [← hshift j (by omega)]
              exact g4 j (by omega) (by omega)
          · intro h5
            rw [← hshift k g2]
            exact g5 (by omega)
          · rw [g6, h1]; rfl
          · rw [← hshift k g2]; exact g9
          · intro hk
            rw [g10 (by omega), h1]; rfl
    by_cases hlast : i + 1 = c.frameSkip
    · rw [if_pos hlast]
      exact key _ rfl rfl rfl fun _ => rfl
    · rw [if_neg hlast]
      exact key e rfl rfl rfl fun h => absurd (by omega : i + 1 = c.frameSkip) hlast

theorem lastN_length (n : Nat) (z : Img) (l : List Img) : (lastN n z l).length = n := by
  unfold lastN
  simp only [List.length_append, List.length_replicate, List.length_drop]
  omega

theorem push_lastN (n : Nat) (z : Img) (l : List Img) (x : Img) :
    push n (lastN n z l) x = lastN n z (l ++ [x]) := by
  unfold push
  rw [lastN_length]
  unfold lastN
  rcases Nat.lt_or_ge l.length n with h | h
  · rw [List.append_assoc, show l.length - n = 0 by omega, show n + 1 - n = 1 by omega,
      show (l ++ [x]).length - n = 0 by simp; omega, List.drop_zero, List.drop_zero,
      show n - l.length = (n - (l ++ [x]).length) + 1 by simp; omega]
    rw [List.replicate_succ]
    simp
  · rw [show n - l.length = 0 by omega, show n - (l ++ [x]).length = 0 by simp; omega]
    simp only [List.replicate_zero, List.nil_append]
    rw [← List.drop_append_of_le_length (by omega), List.drop_drop]
    congr 1
    simp
    omega

/-- An environment in the middle of an episode: `shown` are the images so far. -/
structure Playing (m : Emu S A Scr Img) (c : Config) (shown : List Img) (e : Env S Scr Img) : Prop where
  lives : e.lives = m.lives e.emu
  screens : e.screens = lastN c.nLastScreens m.zeros shown

/-- **C84.** Resetting plays the null actions, in a new game if the old one was over, and shows
one screen after black ones. -/
theorem C84_reset (m : Emu S A Scr Img) (c : Config) (k : Nat) (s : S) :
    ∃ e, reset m c k s = .ok (lastN c.nLastScreens m.zeros [m.proc (m.max2 (m.screen e.emu) (m.screen e.emu))], e) ∧
      e.emu = after m m.nullop k (if m.over s then m.resetGame s else s) ∧
      Playing m c [m.proc (m.max2 (m.screen e.emu) (m.screen e.emu))] e ∧
      (isTerminal m c e = true ↔ m.over e.emu = true) := by
  have hnull : ∀ (k : Nat) (s : S), nullops m k s = after m m.nullop k s := by
    intro k
    induction k with
    | zero => intro s; rfl
    | succ k ih => intro s; exact ih _
  have hscr : ∀ x : Img, (List.replicate (c.nLastScreens - 1) m.zeros ++ [x]).drop
      (c.nLastScreens - 1 + 1 - c.nLastScreens) = lastN c.nLastScreens m.zeros [x] := by
    intro x
    unfold lastN
    cases hn : c.nLastScreens with
    | zero => simp
    | succ n => simp
  unfold reset initEnv
  simp only [hnull]
  generalize after m m.nullop k (if m.over s then m.resetGame s else s) = s'
  refine ⟨⟨s', m.lives s', false, none, lastN c.nLastScreens m.zeros [m.proc (m.max2 (m.screen s') (m.screen s'))], 0⟩,
    ?_, rfl, ⟨rfl, rfl⟩, ?_⟩
  · simp only [currentScreen, bind, Except.bind, hscr, state, lastN_length, if_true]
  · rw [isTerminal_iff]; simp

/-- **C84.** A step in the middle of an episode plays the chosen action for `frame_skip` frames, or
up to the frame that ends the episode; the reward is the sum of the frames' rewards; it is done
exactly if the last of these frames ended the episode; and the observation is extended by the
maximum of the last two frames, except at the end. -/
theorem C84_step (m : Emu S A Scr Img) (c : Config) (action : Int) (a : A) (shown : List Img) (e : Env S Scr Img)
    (ha : pyGet m.legal action = .ok a) (hc : 1 ≤ c.frameSkip) (hp : Playing m c shown e)
    (ht : isTerminal m c e = false) :
    ∃ k out e' shown', step m c action e = .ok (out, e') ∧ 1 ≤ k ∧ k ≤ c.frameSkip ∧
      (∀ j, 1 ≤ j → j < k → ¬ EndsAt m c a e.emu j) ∧ (k < c.frameSkip → EndsAt m c a e.emu k) ∧
      e'.emu = after m a k e.emu ∧ out.reward = (rewards m a k e.emu).sum ∧
      (out.done = true ↔ EndsAt m c a e.emu k) ∧ out.obs = lastN c.nLastScreens m.zeros shown' ∧
      (EndsAt m c a e.emu k → shown' = shown) ∧ (¬ EndsAt m c a e.emu k → shown' = shown ++ [image m c a e.emu]) ∧
      Playing m c shown' e' ∧ isTerminal m c e' = out.done := by
  obtain ⟨n, hn⟩ : ∃ n, c.frameSkip = n + 1 := ⟨c.frameSkip - 1, by omega⟩
  obtain ⟨k, e', g1, g2, g3, g4, g5, g6, g7, g8, g9, g10⟩ :=
    frames_spec m c action a ha n 0 e 0 (by omega) hp.lives
  rw [← hn] at g1 g3 g5
  rw [Int.zero_add] at g1
  unfold step receiveAction
  rw [ht, g1]
  by_cases hend : EndsAt m c a e.emu k
  · have ht' := g9.mpr hend
    refine ⟨k, ⟨lastN c.nLastScreens m.zeros shown, (rewards m a k e.emu).sum, true⟩, { e' with reward := (rewards m a k e.emu).sum }, shown, ?_, g2, g3, g4, g5, g6, rfl,
      by simp [hend], rfl, fun _ => rfl, fun h => absurd hend h, ⟨g7, g8.trans hp.screens⟩, ht'⟩
    have hst : state c { e' with reward := (rewards m a k e.emu).sum } = .ok (lastN c.nLastScreens m.zeros shown) := by
      unfold state
      simp only [g8, hp.screens, lastN_length, if_true]
    simp only [bind, Except.bind, Bool.false_eq_true, if_false, ht', if_true, hst]
    have : isTerminal m c { e' with reward := (rewards m a k e.emu).sum } = true := ht'
    rw [this]
  · have ht' : isTerminal m c e' = false := by
      rw [← Bool.not_eq_true, g9]; exact hend
    have hk : k = n + 1 := by
      by_contra hne
      exact hend (g5 (by omega))
    have hraw := g10 hk
    have himg : m.proc (m.max2 (m.screen e'.emu) (m.screen (after m a n e.emu))) = image m c a e.emu := by
      unfold image
      rw [g6, hk, hn]; rfl
    refine ⟨k, ⟨lastN c.nLastScreens m.zeros (shown ++ [image m c a e.emu]), (rewards m a k e.emu).sum, false⟩, { e' with lastRaw := none, screens := push c.nLastScreens e'.screens (image m c a e.emu), reward := (rewards m a k e.emu).sum },
      shown ++ [image m c a e.emu], ?_, g2, g3, g4, g5, g6, rfl, by simp [hend], rfl, fun h => absurd h hend, fun _ => rfl,
      ⟨g7, ?_⟩, ht'⟩
    · have hcs : currentScreen m e' = .ok (image m c a e.emu, { e' with lastRaw := none }) := by
        unfold currentScreen
        rw [hraw]
        simp only [himg]
      have hst : state c { e' with lastRaw := (none : Option Scr), screens := push c.nLastScreens e'.screens (image m c a e.emu), reward := (rewards m a k e.emu).sum } =
          .ok (lastN c.nLastScreens m.zeros (shown ++ [image m c a e.emu])) := by
        unfold state
        simp only [g8, hp.screens, push_lastN, lastN_length, if_true]
      simp only [bind, Except.bind, Bool.false_eq_true, if_false, ht', hcs, hst]
      have : isTerminal m c { e' with lastRaw := none, screens := push c.nLastScreens e'.screens (image m c a e.emu), reward := (rewards m a k e.emu).sum } = false := ht'
      rw [this]
    · show push c.nLastScreens e'.screens _ = _
      rw [g8, hp.screens, push_lastN]

/-- **C84.** After the end of an episode a step raises, whatever the action. -/
theorem C84_after_end (m : Emu S A Scr Img) (c : Config) (action : Int) (e : Env S Scr Img)
    (ht : isTerminal m c e = true) : step m c action e = .error .assertionError := by
  unfold step receiveAction
  rw [ht]
  rfl

/-- **C84.** An action that does not exist raises before anything is played. -/
theorem C84_bad_action (m : Emu S A Scr Img) (c : Config) (action : Int) (e : Env S Scr Img)
    (ha : pyGet m.legal action = .error .indexError) (hc : 1 ≤ c.frameSkip) (ht : isTerminal m c e = false) :
    step m c action e = .error .indexError := by
  obtain ⟨n, hn⟩ : ∃ n, c.frameSkip = n + 1 := ⟨c.frameSkip - 1, by omega⟩
  unfold step receiveAction
  rw [ht, hn, frames, ha]
  rfl

theorem played_unique (m : Emu S A Scr Img) (c : Config) (a : A) : ∀ (n k : Nat) (s : S), 1 ≤ k → k ≤ n →
    (∀ j, 1 ≤ j → j < k → ¬ EndsAt m c a s j) → (k < n → EndsAt m c a s k) → k = played m c a n s
  | 0, k, s => by intro h1 h2; omega
  | n + 1, k, s => by
    intro h1 h2 h3 h4
    rw [played]
    by_cases hE : Ends m c s (m.act s a).1
    · rw [if_pos hE]
      by_contra hk
      exact h3 1 (Nat.le_refl _) (by omega) hE
    · rw [if_neg hE]
      by_cases hk : k = 1
      · subst hk
        by_cases hn : 1 < n + 1
        · exact absurd (h4 hn) hE
        · have : n = 0 := by omega
          subst this; rfl
      · obtain ⟨k, rfl⟩ : ∃ k', k = k' + 1 := ⟨k - 1, by omega⟩
        have hshift : ∀ j, 1 ≤ j → (EndsAt m c a (m.act s a).1 j ↔ EndsAt m c a s (j + 1)) := by
          intro j hj
          obtain ⟨j, rfl⟩ : ∃ j', j = j' + 1 := ⟨j - 1, by omega⟩
          simp only [EndsAt, Nat.add_sub_cancel]
          rfl
        rw [← played_unique m c a n k (m.act s a).1 (by omega) (by omega)
          (fun j g1 g2 => by rw [hshift j g1]; exact h3 (j + 1) (by omega) (by omega))
          (fun g => by rw [hshift k (by omega)]; exact h4 (by omega))]

/-- **C84.** The observations of a whole run: after any steps from a reset, each observation shows
the last of the images of all steps so far, and every step but the last is not done. -/
theorem C84_history (m : Emu S A Scr Img) (c : Config) (hc : 1 ≤ c.frameSkip) : ∀ (acts : List Int) (as : List A)
    (e e' : Env S Scr Img) (shown : List Img) (outs : List (Out Img)), acts.map (pyGet m.legal) = as.map .ok →
    Playing m c shown e → steps m c acts e = .ok (outs, e') →
    outs.length = acts.length ∧ (∀ i out, outs[i]? = some out → i + 1 < outs.length → out.done = false) ∧
    ∀ i out, outs[i]? = some out →
      out.obs = lastN c.nLastScreens m.zeros (shown ++ (images m c as e.emu).take (i + 1))
  | [], as, e, e', shown, outs => by
    intro _ _ h
    simp only [steps, Except.ok.injEq, Prod.mk.injEq] at h
    obtain ⟨rfl, _⟩ := h
    simp
  | _ :: _, [], _, _, _, _ => by intro h; simp at h
  | a :: acts, x :: as, e, e', shown, outs => by
    intro hmap hp h
    simp only [List.map_cons, List.cons.injEq] at hmap
    obtain ⟨hx, hmap⟩ := hmap
    simp only [steps] at h
    cases hs : step m c a e with
    | error er => rw [hs] at h; cases h
    | ok r =>
      rw [hs] at h
      cases hr : steps m c acts r.2 with
      | error er => simp only [bind, Except.bind, hr] at h; cases h
      | ok rs =>
        simp only [bind, Except.bind, hr, Except.ok.injEq, Prod.mk.injEq] at h
        obtain ⟨rfl, rfl⟩ := h
        have ht : isTerminal m c e = false := by
          by_contra hne
          rw [C84_after_end m c a e (by simpa using hne)] at hs
          cases hs
        obtain ⟨k, out, e1, shown', g1, g2, g3, g4, g5, g6, g7, g8, g9, g10, g11, g12, g13⟩ :=
          C84_step m c a x shown e hx hc hp ht
        have hk := played_unique m c x c.frameSkip k e.emu g2 g3 g4 g5
        rw [hs, Except.ok.injEq] at g1
        subst g1
        have ih := C84_history m c hc acts as e1 rs.2 shown' rs.1 hmap g12 hr
        have hnd : rs.1 ≠ [] → out.done = false := by
          intro hne
          cases acts with
          | nil =>
            simp only [steps, Except.ok.injEq] at hr
            rw [← hr] at hne
            exact absurd rfl hne
          | cons b bs =>
            by_contra hd
            simp only [steps] at hr
            rw [C84_after_end m c b e1 (by rw [g13]; simpa using hd)] at hr
            cases hr
        refine ⟨by simp [ih.1], ?_, ?_⟩
        · intro i o hi hlt
          cases i with
          | zero =>
            simp only [List.getElem?_cons_zero, Option.some.injEq] at hi
            subst hi
            apply hnd
            intro hnil
            rw [hnil] at hlt
            simp at hlt
          | succ i =>
            rw [List.getElem?_cons_succ] at hi
            exact ih.2.1 i o hi (by simpa using hlt)
        · intro i o hi
          rw [images, ← hk]
          cases i with
          | zero =>
            simp only [List.getElem?_cons_zero, Option.some.injEq] at hi
            subst hi
            by_cases hend : EndsAt m c x e.emu k
            · rw [if_pos (show Ends m c _ _ from hend), g9, g10 hend]; simp
            · rw [if_neg (show ¬ Ends m c _ _ from hend), g9, g11 hend]; simp
          | succ i =>
            rw [List.getElem?_cons_succ] at hi
            have hne : rs.1 ≠ [] := by
              intro hnil; rw [hnil] at hi; simp at hi
            have hend : ¬ EndsAt m c x e.emu k := by
              intro h
              have := g8.mpr h
              rw [hnd hne] at this
              cases this
            rw [if_neg (show ¬ Ends m c _ _ from hend), ih.2.2 i o hi, g11 hend, List.append_assoc, g6]; rfl

/-- **C84 (violated).** If the null actions after a reset end the game, `reset` returns although the
episode is already over, and the first step raises. -/
theorem C84_violated_reset_over (m : Emu S A Scr Img) (c : Config) (k : Nat) (s : S) (action : Int)
    (h : m.over (after m m.nullop k (if m.over s then m.resetGame s else s)) = true) :
    ∃ o e, reset m c k s = .ok (o, e) ∧ step m c action e = .error .assertionError := by
  obtain ⟨e, h1, h2, _, h4⟩ := C84_reset m c k s
  exact ⟨_, e, h1, C84_after_end m c action e (h4.mpr (by rw [h2]; exact h))⟩

/-- **C84 (violated).** Resetting in the middle of a game goes on with that game: with no null
actions nothing but the shown images changes. -/
theorem C84_violated_reset_continues (m : Emu S A Scr Img) (c : Config) (s : S) (h : m.over s = false) :
    ∃ o e, reset m c 0 s = .ok (o, e) ∧ e.emu = s := by
  obtain ⟨e, h1, h2, _, _⟩ := C84_reset m c 0 s
  refine ⟨_, e, h1, ?_⟩
  rw [h2, h]; rfl

/-! ### Examples -/

/-- A game of ten frames with three lives; a life is lost at frames 3 and 7. -/
def exM : Emu Nat Nat Nat Nat where
  act s a := (s + 1, (s : Int) + a)
  lives s := if s < 3 then 3 else if s < 7 then 2 else 1
  over s := decide (10 ≤ s)
  resetGame _ := 0
  screen s := s
  nullop := 0
  legal := [0, 10]
  max2 := max
  proc s := 100 + s
  zeros := 0

def exC : Config := ⟨3, 2, true⟩

/-- Two full steps are not possible: the second ends after one frame with the loss of a life. -/
example : ∃ e, reset exM exC 0 0 = .ok ([0, 0, 100], e) ∧ ∃ e' outs, steps exM exC [1, 0] e = .ok (outs, e') ∧
    outs.map (fun o => (o.obs, o.reward, o.done)) = [([0, 100, 102], 21, false), ([0, 100, 102], 2, true)] :=
  ⟨_, rfl, _, _, rfl, rfl⟩

example : images exM exC [10, 0] 0 = [102] := rfl

/-- The hypothesis of `C84_violated_reset_over` holds: eleven null actions end the game. -/
example : ∃ o e, reset exM exC 11 0 = .ok (o, e) ∧ step exM exC 0 e = .error .assertionError :=
  C84_violated_reset_over exM exC 11 0 0 rfl

example : ∃ o e, reset exM exC 0 5 = .ok (o, e) ∧ e.emu = 5 := C84_violated_reset_continues exM exC 5 rfl

end Verif.ALE
