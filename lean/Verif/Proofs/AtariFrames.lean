import Verif.Proofs.AtariStack
set_option autoImplicit false
set_option linter.unusedSectionVars false

/-! Helper lemmas: the frames of each call of an Atari environment. -/

namespace Verif.AtariStack
open Train (StepOut)
open Wrappers (Gym Op Out ends limitOut noopLoop Buffer maxAndSkip fireReset Life lifeReset lifeOut stepReset skipLoop)
open AtariPipeline (Frame Config wrapDeepmind)
variable {S O A K P T : Type}

/-- The frames of a step: what the observer writes down, and what the step returns. -/
def StepFrames (n : Nat) (log log' : List (Raw O A ℝ)) (a : A) (out : StepOut O ℝ) (exact : Bool) : Prop :=
  ∃ fs : List (StepOut O ℝ), log' = log ++ fs.map (.frame a) ∧ 1 ≤ fs.length ∧ fs.length ≤ n ∧ (∀ f ∈ fs.dropLast, ends f = false) ∧
    out.r = (fs.map (·.r)).sum ∧ (∀ f, fs.getLast? = some f → (f.done = true → out.done = true) ∧ (exact = true → out.done = f.done)) ∧
    (fs.length < n → ends out = true)

theorem limit_step (m : Nat) (g : Gym S O A ℝ) (w : Nat × (S × List (Raw O A ℝ))) (a : A) :
    ∃ f, ((limit m (logged g)).step w a).1.2.2 = w.2.2 ++ [.frame a f] ∧ ((limit m (logged g)).step w a).2.r = f.r ∧
      ((limit m (logged g)).step w a).2.done = f.done ∧ ((limit m (logged g)).step w a).2.obs = f.obs ∧
      (ends f = true → ends ((limit m (logged g)).step w a).2 = true) := by
  refine ⟨(g.step w.2.1 a).2, rfl, ?_, ?_, ?_, fun h => ?_⟩
  · simp only [limit, logged, limitOut]; split <;> (try split) <;> rfl
  · simp only [limit, logged, limitOut]; split <;> (try split) <;> rfl
  · simp only [limit, logged, limitOut]; split <;> (try split) <;> rfl
  · simp only [limit, logged, ends_limit, h, Bool.true_or]

theorem skipLoop_log (m : Nat) (g : Gym S (P → Nat) A ℝ) (skip : Nat) (a : A) (fuel i : Nat) (k : ℝ) (last)
    (w : Buffer P × (Nat × (S × List (Raw (P → Nat) A ℝ)))) :
    ∃ fs : List (StepOut (P → Nat) ℝ), ∃ out,
      (skipLoop (limit m (logged g)) skip a (fuel + 1) i k last w).1.2.2.2 = w.2.2.2 ++ fs.map (.frame a) ∧
      1 ≤ fs.length ∧ fs.length ≤ fuel + 1 ∧ (∀ f ∈ fs.dropLast, ends f = false) ∧
      (skipLoop (limit m (logged g)) skip a (fuel + 1) i k last w).2.1 = k + (fs.map (·.r)).sum ∧
      (skipLoop (limit m (logged g)) skip a (fuel + 1) i k last w).2.2 = some out ∧
      (∀ f, fs.getLast? = some f → out.done = f.done) ∧ (fs.length < fuel + 1 → ends out = true) := by
  induction fuel generalizing i k last w with
  | zero =>
    obtain ⟨f, h1, h2, h3, h4, h5⟩ := limit_step m g w.2 a
    refine ⟨[f], ((limit m (logged g)).step w.2 a).2, ?_, by simp, by simp, by simp, ?_, ?_, ?_, by simp⟩
    · simp only [skipLoop]; split <;> simpa using h1
    · simp only [skipLoop]; split <;> simp [h2]
    · simp only [skipLoop]; split <;> rfl
    · intro f' hf'; obtain rfl : f = f' := by simpa using hf'
      exact h3
  | succ fuel ih =>
    obtain ⟨f, h1, h2, h3, h4, h5⟩ := limit_step m g w.2 a
    by_cases he : ends ((limit m (logged g)).step w.2 a).2 = true
    · refine ⟨[f], ((limit m (logged g)).step w.2 a).2, ?_, by simp, by simp, by simp, ?_, ?_, ?_, fun _ => he⟩
      · rw [skipLoop]; simp only [if_pos he]; simpa using h1
      · rw [skipLoop]; simp only [if_pos he]; simp [h2]
      · rw [skipLoop]; simp only [if_pos he]
      · intro f' hf'; obtain rfl : f = f' := by simpa using hf'
        exact h3
    · obtain ⟨fs, out, i1, i2, i3, i4, i5, i6, i7, i8⟩ := ih (i + 1) (k + ((limit m (logged g)).step w.2 a).2.r)
        (some ((limit m (logged g)).step w.2 a).2) (w.1.put skip i ((limit m (logged g)).step w.2 a).2.obs, ((limit m (logged g)).step w.2 a).1)
      have hne : fs ≠ [] := by rintro rfl; simp at i2
      refine ⟨f :: fs, out, ?_, by simp, by simp; omega, ?_, ?_, ?_, ?_, ?_⟩
      · rw [skipLoop]; simp only [if_neg he]; rw [i1]; simp only [h1]; simp
      · intro x hx
        rw [List.dropLast_cons_of_ne_nil hne] at hx
        rcases List.mem_cons.1 hx with rfl | hx
        · have : ¬ ends x = true := fun h => he (h5 h)
          simpa using this
        · exact i4 x hx
      · rw [skipLoop]; simp only [if_neg he]; rw [i5, h2]; simp [add_assoc]
      · rw [skipLoop]; simp only [if_neg he]; exact i6
      · intro x hx
        rw [List.getLast?_cons_of_ne_nil hne] at hx
        exact i7 x hx
      · intro hl; exact i8 (by simp at hl; omega)

/-- What an environment writes down: the frames of a step, and in a reset only frames with actions in `B`. -/
structure Writes (g : Gym T O A ℝ) (lg : T → List (Raw O A ℝ)) (B : A → Prop) (n : Nat) (fresh exact : Bool) : Prop where
  reset : ∀ t, ∃ c, lg (g.reset t).1 = lg t ++ c ∧ (∀ a out, Raw.frame a out ∈ c → B a) ∧ (fresh = true → c.head? = some .reset)
  step : ∀ t a, StepFrames n (lg t) (lg (g.step t a).1) a (g.step t a).2 exact

variable {lg : T → List (Raw O A ℝ)} {B : A → Prop} {n : Nat} {fresh exact : Bool}

theorem writes_limit (m : Nat) (g : Gym S O A ℝ) : Writes (limit m (logged g)) (fun w => w.2.2) (fun _ => False) 1 true true := by
  refine ⟨fun t => ⟨[.reset], rfl, by simp, fun _ => rfl⟩, fun t a => ?_⟩
  obtain ⟨f, h1, h2, h3, h4, h5⟩ := limit_step m g t a
  refine ⟨[f], h1, by simp, by simp, by simp, by simpa using h2, fun f' hf' => ?_, by simp⟩
  obtain rfl : f = f' := by simpa using hf'
  rw [h3]; simp

theorem stepFrames_actions {log log' : List (Raw O A ℝ)} {a : A} {out : StepOut O ℝ} (h : StepFrames n log log' a out exact) (hB : B a) :
    ∃ c, log' = log ++ c ∧ ∀ b o, Raw.frame b o ∈ c → B b := by
  obtain ⟨fs, h1, -⟩ := h
  refine ⟨_, h1, fun b o hm => ?_⟩
  obtain ⟨f, -, hf⟩ := List.mem_map.1 hm
  cases hf; exact hB

theorem writes_stepReset {g : Gym T O A ℝ} (h : Writes g lg B n fresh exact) (a : A) (hB : B a) (t : T) :
    ∃ c, lg (stepReset g a t).1 = lg t ++ c ∧ ∀ b o, Raw.frame b o ∈ c → B b := by
  obtain ⟨c, c1, c2⟩ := stepFrames_actions (h.step t a) hB
  unfold stepReset
  simp only
  split
  · obtain ⟨d, d1, d2, -⟩ := h.reset (g.step t a).1
    refine ⟨c ++ d, by rw [d1, c1, List.append_assoc], fun b o hm => ?_⟩
    rcases List.mem_append.1 hm with hm | hm
    · exact c2 b o hm
    · exact d2 b o hm
  · exact ⟨c, c1, c2⟩

theorem writes_noopLoop {g : Gym T O A ℝ} (h : Writes g lg B n fresh exact) (a : A) (hB : B a) (k : Nat) (t : T) (ob : Option O) (tr) :
    ∃ c, lg (noopLoop g a k t ob tr).1 = lg t ++ c ∧ ∀ b o, Raw.frame b o ∈ c → B b := by
  induction k generalizing t ob tr with
  | zero => exact ⟨[], by simp [noopLoop], by simp⟩
  | succ k ih =>
    obtain ⟨c, c1, c2⟩ := writes_stepReset h a hB t
    obtain ⟨d, d1, d2⟩ := ih (stepReset g a t).1 (some ((stepReset g a t).2.2.1.getD (stepReset g a t).2.1)) (tr ++ (stepReset g a t).2.2.2)
    refine ⟨c ++ d, by rw [noopLoop, d1, c1, List.append_assoc], fun b o hm => ?_⟩
    rcases List.mem_append.1 hm with hm | hm
    · exact c2 b o hm
    · exact d2 b o hm

theorem Writes.mono {g : Gym T O A ℝ} (h : Writes g lg B n fresh exact) {B' : A → Prop} (hb : ∀ a, B a → B' a) : Writes g lg B' n fresh exact :=
  ⟨fun t => by obtain ⟨c, c1, c2, c3⟩ := h.reset t; exact ⟨c, c1, fun a o hm => hb a (c2 a o hm), c3⟩, h.step⟩

theorem head_append {α : Type} {c d : List α} {x : α} (h : c.head? = some x) : (c ++ d).head? = some x := by
  cases c with
  | nil => cases h
  | cons y c => exact h

theorem writes_noop {g : Gym T O A ℝ} (h : Writes g lg B n fresh exact) (draw : T → T × Nat) (hd : ∀ t, lg (draw t).1 = lg t) (a : A) (hB : B a) :
    Writes (noop draw a g) lg B n fresh exact := by
  refine ⟨fun t => ?_, h.step⟩
  obtain ⟨c, c1, c2, c3⟩ := h.reset t
  obtain ⟨d, d1, d2⟩ := writes_noopLoop h a hB (draw (g.reset t).1).2 (draw (g.reset t).1).1 none []
  refine ⟨c ++ d, ?_, fun b o hm => ?_, fun hf => head_append (c3 hf)⟩
  · simp only [noop]; rw [d1, hd, c1, List.append_assoc]
  · rcases List.mem_append.1 hm with hm | hm
    · exact c2 b o hm
    · exact d2 b o hm

theorem writes_makeAtari (m : Nat) (draw : S × List (Raw (P → Nat) A ℝ) → (S × List (Raw (P → Nat) A ℝ)) × Nat)
    (hd : ∀ w, (draw w).1.2 = w.2) (a₀ : A) (g : Gym S (P → Nat) A ℝ) :
    Writes (makeAtari m draw a₀ (logged g)) (fun w => w.2.2.2) (fun a => a = a₀) 4 true true := by
  have hn : Writes (noop (fun w => let d := draw w.2; ((w.1, d.1), d.2)) a₀ (limit m (logged g))) (fun w => w.2.2) (fun a => a = a₀) 1 true true :=
    writes_noop ((writes_limit m g).mono (fun _ h => h.elim)) _ (fun t => hd t.2) a₀ rfl
  refine ⟨fun t => hn.reset t.2, fun t a => ?_⟩
  obtain ⟨fs, out, h1, h2, h3, h4, h5, h6, h7, h8⟩ := skipLoop_log m g 4 a 3 0 0 none t
  have heq : (makeAtari m draw a₀ (logged g)).step t a = ((skipLoop (limit m (logged g)) 4 a 4 0 0 none t).1,
      { out with obs := (skipLoop (limit m (logged g)) 4 a 4 0 0 none t).1.1.max, r := (skipLoop (limit m (logged g)) 4 a 4 0 0 none t).2.1 }) := by
    show (_, _) = _
    refine Prod.ext rfl ?_
    have : (maxAndSkip (noop (fun w => let d := draw w.2; ((w.1, d.1), d.2)) a₀ (limit m (logged g))) 4 t a).2 =
      (skipLoop (limit m (logged g)) 4 a 4 0 0 none t).2.2.map fun out => { out with obs := (skipLoop (limit m (logged g)) 4 a 4 0 0 none t).1.1.max, r := (skipLoop (limit m (logged g)) 4 a 4 0 0 none t).2.1 } := by
      have hs : ∀ (fuel i : Nat) (k : ℝ) last (w : Buffer P × (Nat × (S × List (Raw (P → Nat) A ℝ)))),
          skipLoop (noop (fun w => let d := draw w.2; ((w.1, d.1), d.2)) a₀ (limit m (logged g))) 4 a fuel i k last w =
            skipLoop (limit m (logged g)) 4 a fuel i k last w := by
        intro fuel
        induction fuel with
        | zero => intros; rfl
        | succ fuel ih =>
          intro i k last w
          rw [skipLoop, skipLoop]
          simp only [ih]
          rfl
      simp only [maxAndSkip, hs]
    simp only
    rw [this, h6]
    rfl
  rw [heq]
  exact ⟨fs, h1, h2, h3, h4, by simpa using h5, fun f hf => by simp only [h7 f hf]; simp, h8⟩

theorem writes_lives {g : Gym T O A ℝ} (h : Writes g lg B n true true) (b : Bool) (count : T → Nat) (a₀ : A) (hB : B a₀) :
    Writes (lives b count a₀ g) (fun w => lg w.2) B n (!b) (!b) := by
  cases b with
  | false => exact ⟨fun t => h.reset t.2, fun t a => h.step t.2 a⟩
  | true =>
    refine ⟨fun t => ?_, fun t a => ?_⟩
    · simp only [lives, lifeReset, if_true]
      cases t.1.needsRealReset with
      | true =>
        obtain ⟨c, c1, c2, -⟩ := h.reset t.2
        exact ⟨c, c1, c2, fun hf => by cases hf⟩
      | false =>
        obtain ⟨c, c1, c2⟩ := stepFrames_actions (h.step t.2 a₀) hB
        exact ⟨c, c1, c2, fun hf => by cases hf⟩
    · obtain ⟨fs, h1, h2, h3, h4, h5, h6, h7⟩ := h.step t.2 a
      refine ⟨fs, h1, h2, h3, h4, ?_, fun f hf => ⟨fun hd => ?_, fun hx => by cases hx⟩, fun hl => ?_⟩
      · rw [← h5]; simp only [lives, lifeOut, if_true]; split <;> rfl
      · have := (h6 f hf).1 hd
        simp only [lives, lifeOut, if_true]; split
        · rfl
        · exact this
      · have := h7 hl
        simp only [lives, lifeOut, if_true]; split
        · simp [ends]
        · exact this

theorem writes_fire {g : Gym T O A ℝ} (h : Writes g lg B n fresh exact) (b : Bool) (a₁ a₂ : A) (h₁ : B a₁) (h₂ : B a₂) :
    Writes (fire b a₁ a₂ g) lg B n fresh exact := by
  refine ⟨fun t => ?_, h.step⟩
  cases b with
  | false => exact h.reset t
  | true =>
    obtain ⟨c, c1, c2, c3⟩ := h.reset t
    obtain ⟨d, d1, d2⟩ := writes_stepReset h a₁ h₁ (g.reset t).1
    obtain ⟨e, e1, e2⟩ := writes_stepReset h a₂ h₂ (stepReset g a₁ (g.reset t).1).1
    refine ⟨c ++ (d ++ e), ?_, fun b o hm => ?_, fun hf => head_append (c3 hf)⟩
    · simp only [fire, if_true, fireReset]; rw [e1, d1, c1]; simp
    · rcases List.mem_append.1 hm with hm | hm
      · exact c2 b o hm
      · rcases List.mem_append.1 hm with hm | hm
        · exact d2 b o hm
        · exact e2 b o hm

theorem writes_inner (o : Options A) (draw : S → S × Nat) (count : S → Nat) (g : Gym S (P → Nat) A ℝ) :
    Writes (inner o (fun w => let d := draw w.1; ((d.1, w.2), d.2)) (fun w => count w.1) (logged g)) (fun w => w.2.2.2.2)
      (fun a => a = o.a₀ ∨ a = o.a₁ ∨ a = o.a₂) 4 (!o.episodeLife) (!o.episodeLife) := by
  unfold inner
  exact writes_fire (writes_lives ((writes_makeAtari o.maxFrames _ (fun _ => rfl) o.a₀ g).mono fun a h => .inl h) _ _ _ (.inl rfl)) _ _ _
    (.inr (.inl rfl)) (.inr (.inr rfl))

end Verif.AtariStack
