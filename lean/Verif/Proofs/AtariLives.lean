import Verif.Proofs.AtariStack
set_option autoImplicit false
set_option linter.unusedSectionVars false

/-! Helper lemmas about the stack of Atari wrappers with EpisodicLifeEnv. -/

namespace Verif.AtariStack
open Train (StepOut)
open Wrappers (Gym Op Out ends limitOut noopLoop Buffer maxAndSkip fireReset Life lifeReset lifeOut stepReset skipLoop)
variable {S O A K P T : Type} {I L : T → Prop}

theorem legalBut_nil (m : Nat) (a₀ : A) : LegalBut m a₀ ([] : List (Raw O A K)) := by
  intro b c a o h; simp at h

theorem legalBut_reset {m : Nat} {a₀ : A} {log : List (Raw O A K)} (h : LegalBut m a₀ log) : LegalBut m a₀ (log ++ [.reset]) := by
  intro b c a o e
  rcases List.eq_nil_or_concat c with rfl | ⟨c', x, rfl⟩
  · have := congrArg List.getLast? e
    simp at this
  · rw [List.concat_eq_append, ← List.cons_append, ← List.append_assoc] at e
    exact h b c' a o (List.append_inj' e rfl).1

theorem legalBut_frame {m : Nat} {a₀ : A} {log : List (Raw O A K)} (h : LegalBut m a₀ log)
    (hr : (∃ fs, Running m log fs) ∨ EndedIdle m a₀ log) (a : A) (out : StepOut O K) : LegalBut m a₀ (log ++ [.frame a out]) := by
  intro b c a' o e
  rcases List.eq_nil_or_concat c with rfl | ⟨c', x, rfl⟩
  · exact (List.append_inj' e rfl).1 ▸ hr
  · rw [List.concat_eq_append, ← List.cons_append, ← List.append_assoc] at e
    exact h b c' a' o (List.append_inj' e rfl).1

theorem idle_frame {m : Nat} {a₀ : A} {log : List (Raw O A K)} (h : EndedIdle m a₀ log) (a : A) (out : StepOut O K) :
    EndedIdle m a₀ (log ++ [.frame a out]) := by
  obtain ⟨b, fs, o, rest, h1, h2, h3⟩ := h
  exact ⟨b, fs, o, rest ++ [(a, out)], by rw [h1]; simp, h2, h3⟩

/-- A no-op keeps `L`, whether it ends the episode or not. -/
def Calm (g : Gym T O A K) (a₀ : A) (L : T → Prop) : Prop := ∀ t, L t → L (g.step t a₀).1

/-- What holds while the game may be stepped. -/
def Open (m : Nat) (a₀ : A) (w : Nat × (S × List (Raw O A K))) : Prop :=
  (∃ fs, Running m w.2.2 fs ∧ w.1 = fs.length) ∨ EndedIdle m a₀ w.2.2

theorem but_limit (m : Nat) (a₀ : A) (g : Gym S O A K) :
    Safe (limit m (logged g)) (fun w => LegalBut m a₀ w.2.2) (Open m a₀) (fun _ => True) := by
  refine ⟨fun t h => ⟨legalBut_reset h, .inl ⟨[], ⟨⟨t.2.2, rfl⟩, by simp, fun h => Nat.pos_of_ne_zero h⟩, rfl⟩⟩, fun t a h hl => ?_⟩
  have heq : (limit m (logged g)).step t a = ((t.1 + 1, ((g.step t.2.1 a).1, t.2.2 ++ [.frame a (g.step t.2.1 a).2])),
      if m = 0 then (g.step t.2.1 a).2 else limitOut m (t.1 + 1) (g.step t.2.1 a).2) := rfl
  rw [heq]
  simp only [ends_limit]
  refine ⟨legalBut_frame h ?_ _ _, fun hn => ?_, fun _ => trivial⟩
  · rcases hl with ⟨fs, hr, -⟩ | hl
    · exact .inl ⟨fs, hr⟩
    · exact .inr hl
  · rcases hl with ⟨fs, ⟨⟨older, ho⟩, h2, h3⟩, he⟩ | hl
    · simp only [Bool.or_eq_false_iff, decide_eq_false_iff_not] at hn
      refine .inl ⟨fs ++ [(a, (g.step t.2.1 a).2)], ⟨⟨older, by rw [ho]; simp⟩, ?_, fun hm => ?_⟩, by simp [he]⟩
      · intro f hf
        rcases List.mem_append.1 hf with hf | hf
        · exact h2 f hf
        · obtain rfl := List.mem_singleton.1 hf; exact hn.1
      · have := hn.2; simp only [List.length_append, List.length_singleton]; omega
    · exact .inr (idle_frame hl _ _)

theorem calm_limit (m : Nat) (a₀ : A) (g : Gym S O A K) : Calm (limit m (logged g)) a₀ (Open m a₀) := by
  intro t hl
  have heq : ((limit m (logged g)).step t a₀).1 = (t.1 + 1, ((g.step t.2.1 a₀).1, t.2.2 ++ [.frame a₀ (g.step t.2.1 a₀).2])) := rfl
  rw [heq]
  rcases hl with ⟨fs, hr, he⟩ | hl
  · by_cases hn : ends (g.step t.2.1 a₀).2 = true ∨ m ≠ 0 ∧ fs.length + 1 = m
    · exact .inr ⟨t.2.2, fs, _, [], rfl, hr, hn⟩
    · obtain ⟨⟨older, ho⟩, h2, h3⟩ := hr
      have hn1 : ends (g.step t.2.1 a₀).2 = false := by
        cases h : ends (g.step t.2.1 a₀).2 with
        | false => rfl
        | true => exact absurd (.inl h) hn
      refine .inl ⟨fs ++ [(a₀, (g.step t.2.1 a₀).2)], ⟨⟨older, by rw [ho]; simp⟩, ?_, fun hm => ?_⟩, by simp [he]⟩
      · intro f hf
        rcases List.mem_append.1 hf with hf | hf
        · exact h2 f hf
        · obtain rfl := List.mem_singleton.1 hf; exact hn1
      · have := h3 hm
        have : ¬ (fs.length + 1 = m) := fun h => hn (.inr ⟨hm, h⟩)
        simp only [List.length_append, List.length_singleton]; omega
  · exact .inr (idle_frame hl _ _)

theorem calm_unlimited {m : Nat} (hm : m = 0) {a₀ : A} {g : Gym S O A K} (hg : ∀ s, ends (g.step s a₀).2 = false) :
    Calm (limit m (logged g)) a₀ (fun w => ∃ fs, Running m w.2.2 fs ∧ w.1 = fs.length) := by
  rintro t ⟨fs, ⟨⟨older, ho⟩, h2, -⟩, he⟩
  have heq : ((limit m (logged g)).step t a₀).1 = (t.1 + 1, ((g.step t.2.1 a₀).1, t.2.2 ++ [.frame a₀ (g.step t.2.1 a₀).2])) := rfl
  rw [heq]
  refine ⟨fs ++ [(a₀, (g.step t.2.1 a₀).2)], ⟨⟨older, by rw [ho]; simp⟩, ?_, fun h => absurd hm h⟩, by simp [he]⟩
  intro f hf
  rcases List.mem_append.1 hf with hf | hf
  · exact h2 f hf
  · obtain rfl := List.mem_singleton.1 hf; exact hg _

theorem calm_skipLoop [Add K] {g : Gym T (P → Nat) A K} {a₀ : A} (h : Calm g a₀ L) (skip fuel i : Nat) (k : K) (last) (w : Buffer P × T)
    (hl : L w.2) : L (skipLoop g skip a₀ fuel i k last w).1.2 := by
  induction fuel generalizing i k last w with
  | zero => exact hl
  | succ fuel ih =>
    rw [skipLoop]
    split
    · exact h _ hl
    · exact ih _ _ _ _ (h _ hl)

theorem calm_skipped [Add K] [Zero K] {g : Gym T (P → Nat) A K} {a₀ : A} (h : Calm g a₀ L) (skip : Nat) :
    Calm (skipped skip g) a₀ (fun w => L w.2) :=
  fun t hl => calm_skipLoop h skip skip 0 0 none t hl

theorem ends_life {x y : Nat} {out : StepOut O K} (h : ends (lifeOut x y out) = false) : ends out = false := by
  unfold lifeOut at h
  split at h
  · simp [ends] at h
  · exact h

theorem safe_lifeReset {D : T → Prop} {g : Gym T O A K} {a₀ : A} (h : Safe g I L D) (hc : Calm g a₀ L) (real : Bool) (t : T) (hi : I t)
    (hr : real = false → L t) : I (lifeReset g a₀ real t).1 ∧ L (lifeReset g a₀ real t).1 := by
  cases real with
  | true => exact h.reset t hi
  | false => exact ⟨(h.step t a₀ hi (hr rfl)).1, hc t (hr rfl)⟩

theorem safe_lives_any {D : T → Prop} {g : Gym T O A K} {a₀ : A} (h : Safe g I L D) (hc : Calm g a₀ L) (b : Bool) (count : T → Nat) :
    Safe (lives b count a₀ g) (fun w => I w.2 ∧ (b = true → w.1.needsRealReset = false → L w.2)) (fun w => L w.2) (fun _ => True) := by
  cases b with
  | false =>
    refine ⟨fun t hi => ?_, fun t a hi hl => ?_⟩
    · obtain ⟨r1, r2⟩ := h.reset t.2 hi.1
      exact ⟨⟨r1, fun h => by cases h⟩, r2⟩
    · obtain ⟨s1, s2, -⟩ := h.step t.2 a hi.1 hl
      exact ⟨⟨s1, fun h => by cases h⟩, s2, fun _ => trivial⟩
  | true =>
    refine ⟨fun t hi => ?_, fun t a hi hl => ?_⟩
    · obtain ⟨r1, r2⟩ := safe_lifeReset h hc t.1.needsRealReset t.2 hi.1 (hi.2 rfl)
      exact ⟨⟨r1, fun _ _ => r2⟩, r2⟩
    · obtain ⟨s1, s2, -⟩ := h.step t.2 a hi.1 hl
      exact ⟨⟨s1, fun _ hn => s2 hn⟩, fun hn => s2 (ends_life hn), fun _ => trivial⟩

/-- The whole stack, for what holds at the game. -/
theorem safe_stack [Add K] [Zero K] {D : Nat × S → Prop} {I L : Nat × S → Prop} (o : Options A) (draw : S → S × Nat) (count : S → Nat)
    (g : Gym S (P → Nat) A K) (h : Safe (limit o.maxFrames g) I L D) (hc : Calm (limit o.maxFrames g) o.a₀ L)
    (hd : ∀ w : Nat × S, (I w → I (w.1, (draw w.2).1)) ∧ (L w → L (w.1, (draw w.2).1))) :
    Safe (inner o draw count g) (fun w => I w.2.2 ∧ (o.episodeLife = true → w.1.needsRealReset = false → L w.2.2)) (fun w => L w.2.2)
      (fun _ => True) := by
  unfold inner makeAtari
  refine safe_fire (safe_lives_any (safe_skipped (safe_noop h _ hd _) 3) (calm_skipped (g := noop _ o.a₀ (limit o.maxFrames g)) hc 4) _ _) _ _ _

end Verif.AtariStack
