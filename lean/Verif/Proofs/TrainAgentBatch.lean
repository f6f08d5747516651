import Mathlib.Data.List.Basic
import Verif.Proofs.Eff
import Verif.Spec.TrainBatchProtocol
set_option autoImplicit false

namespace Verif.TrainBatch
open Train (StepOut Suffix)
variable {O A K S X : Type} [Zero S] [LinearOrder S]

/-- Inside the loop. -/
def Phase.inLoop (p : Phase O A K S) : Prop := p ≠ .fresh ∧ (∀ t, p ≠ .finished t) ∧ ∀ t, p ≠ .failed t

/-- What holds when an exception leaves the loop. -/
def Err (c : Cfg S) (_ : X) (q : Phase O A K S) (s : Nat) : Prop :=
  q.inLoop ∧ s = q.time c.stepOffset

/-- The calls due for step `t`. -/
def dueOne (numHooks : Nat) (freq : Option Nat) (t : Nat) : List (Ev O A K S) :=
  (match freq with
      | none => []
      | some f => if f ≠ 0 ∧ f ∣ t then [.save t .checkpoint] else []) ++
    (List.range numHooks).map fun i => .hook i t

omit [Zero S] [LinearOrder S] in
theorem due_succ (n h : Nat) (f : Option Nat) (t : Nat) :
    due (O := O) (A := A) (K := K) (S := S) (n + 1) h f t = dueOne h f (t + 1) ++ due n h f (t + 1) := by
  unfold due dueOne
  rw [List.range_succ_eq_map, List.flatMap_cons, List.flatMap_map]
  congr 1
  apply List.flatMap_congr
  intro j _
  rw [show t + j.succ + 1 = t + 1 + j + 1 by omega]

theorem hooks_hoare (c : Cfg S) (w : Iter O A K S X) (t : Nat) (rest : List (Ev O A K S))
    (ends : List Bool) (lens : List Nat) (T k : Nat) :
    Eff.Hoare (Next c) (Eff.forN (fun i => Eff.call (fun _ => (.hook i t : Ev O A K S)) (w.hook i t)) 0 c.numHooks)
      (.counting ((List.range c.numHooks).map (fun i => .hook i t) ++ rest) ends lens T k) t
      (fun _ q s => q = .counting rest ends lens T k ∧ s = t) (Err c) := by
  have := Eff.Hoare.forN (N := Next (O := O) (A := A) (K := K) c) (X := X)
    (f := fun i => Eff.call (fun _ => (.hook i t : Ev O A K S)) (w.hook i t))
    (p := .counting ((List.range c.numHooks).map (fun i => .hook i t) ++ rest) ends lens T k) (s := t)
    (I := fun i q s => s = t ∧ q = .counting ((List.range' i (c.numHooks - i)).map (fun i => .hook i t) ++ rest) ends lens T k)
    (R := Err c) c.numHooks 0 ⟨rfl, by rw [List.range_eq_range']; rfl⟩ ?_
  · refine this.mono ?_ (fun _ _ _ h => h)
    rintro _ q s ⟨rfl, rfl⟩
    simp
  · rintro j q s _ hj ⟨rfl, rfl⟩
    have hs : c.numHooks - j = (c.numHooks - (j + 1)) + 1 := by omega
    rw [hs, List.range'_succ]
    apply Eff.Hoare.call
    · intro _ _
      exact ⟨_, .count _ _ _ _ _ _, rfl, rfl⟩
    · intro e _
      exact ⟨⟨by simp, by simp, by simp⟩, rfl⟩

theorem tick_hoare (c : Cfg S) (w : Iter O A K S X) (t : Nat) (rest : List (Ev O A K S))
    (ends : List Bool) (lens : List Nat) (T k : Nat) :
    Eff.Hoare (Next c) (tick c w)
      (.counting (dueOne c.numHooks c.checkpointFreq (t + 1) ++ rest) ends lens T k) t
      (fun _ q s => q = .counting rest ends lens T k ∧ s = t + 1) (Err c) := by
  unfold tick
  apply Eff.Hoare.get_bind
  apply Eff.Hoare.set_bind
  simp only
  unfold dueOne
  refine Eff.Hoare.bind (Q' := fun _ q s => s = t + 1 ∧
    q = .counting ((List.range c.numHooks).map (fun i => .hook i (t + 1)) ++ rest) ends lens T k) ?_ ?_
  · cases hf : c.checkpointFreq with
    | none => exact Eff.Hoare.pure ⟨rfl, rfl⟩
    | some f =>
      cases f with
      | zero => exact Eff.Hoare.pure ⟨rfl, rfl⟩
      | succ f =>
        simp only
        by_cases hd : (t + 1) % (f + 1) = 0
        · rw [if_pos hd, if_pos ⟨by omega, Nat.dvd_of_mod_eq_zero hd⟩]
          apply Eff.Hoare.call
          · intro _ _
            exact ⟨_, .count _ _ _ _ _ _, rfl, rfl⟩
          · intro e _
            exact ⟨⟨by simp, by simp, by simp⟩, rfl⟩
        · rw [if_neg hd, if_neg (fun h => hd (Nat.mod_eq_zero_of_dvd h.2))]
          exact Eff.Hoare.pure ⟨rfl, rfl⟩
  · rintro _ q s ⟨rfl, rfl⟩
    exact hooks_hoare c w (t + 1) rest ends lens T k

theorem ticks_hoare (c : Cfg S) (w : Iter O A K S X) (t : Nat)
    (ends : List Bool) (lens : List Nat) (T k : Nat) :
    Eff.Hoare (Next c) (Eff.forN (fun _ => tick c w) 0 c.numEnvs)
      (.counting (due c.numEnvs c.numHooks c.checkpointFreq t) ends lens T k) t
      (fun _ q s => q = .counting [] ends lens T k ∧ s = t + c.numEnvs) (Err c) := by
  have := Eff.Hoare.forN (N := Next (O := O) (A := A) (K := K) c) (X := X) (f := fun _ => tick c w)
    (p := .counting (due c.numEnvs c.numHooks c.checkpointFreq t) ends lens T k) (s := t)
    (I := fun i q s => s = t + i ∧
      q = .counting (due (c.numEnvs - i) c.numHooks c.checkpointFreq (t + i)) ends lens T k)
    (R := Err c) c.numEnvs 0 ⟨rfl, rfl⟩ ?_
  · refine this.mono ?_ (fun _ _ _ h => h)
    rintro _ q s ⟨rfl, rfl⟩
    simp [due]
  · rintro j q s _ hj ⟨rfl, rfl⟩
    rw [show c.numEnvs - j = (c.numEnvs - (j + 1)) + 1 by omega, due_succ]
    refine (tick_hoare c w (t + j) _ ends lens T k).mono ?_ (fun _ _ _ h => h)
    rintro _ q s ⟨rfl, rfl⟩
    exact ⟨rfl, rfl⟩

theorem eval_hoare (c : Cfg S) (w : Iter O A K S X) (ends : List Bool) (lens : List Nat) (t k : Nat) :
    Eff.Hoare (Next c) (evalStep c w k) (.counting [] ends lens t k : Phase O A K S) t
      (fun b q s => s = t ∧ ((c.hasEvaluator = true ∧ q = .judged b ends lens t k) ∨
        (c.hasEvaluator = false ∧ b = false ∧ q = .counting [] ends lens t k))) (Err c) := by
  unfold evalStep
  by_cases h : c.hasEvaluator
  · rw [if_pos h]
    apply Eff.Hoare.get_bind
    apply Eff.Hoare.call_bind
    · rintro ⟨score, m⟩ _
      refine ⟨_, .evaluate _ _ _ _ score m h, ?_⟩
      simp only
      cases score with
      | none => exact Eff.Hoare.pure ⟨rfl, .inl ⟨h, by simp [success]⟩⟩
      | some x =>
        simp only
        by_cases hx : x = 0
        · rw [if_pos hx]
          refine Eff.Hoare.pure ⟨rfl, .inl ⟨h, ?_⟩⟩
          cases c.successfulScore <;> simp [success, hx]
        · rw [if_neg hx]
          cases hs : c.successfulScore with
          | none => exact Eff.Hoare.pure ⟨rfl, .inl ⟨h, by simp [success]⟩⟩
          | some s =>
            refine Eff.Hoare.pure ⟨rfl, .inl ⟨h, ?_⟩⟩
            simp [success, hx]
    · intro e _
      exact ⟨⟨by simp, by simp, by simp⟩, rfl⟩
  · rw [if_neg h]
    exact Eff.Hoare.pure ⟨rfl, .inr ⟨by simpa using h, rfl, rfl⟩⟩

theorem zipWith_eq {α β γ : Type} (f : α → β → γ) (l : List α) (l' : List β) :
    List.zipWith f l l' = (l.zip l').map fun x => f x.1 x.2 := by
  induction l generalizing l' with
  | nil => rfl
  | cons a l ih => cases l' with
    | nil => rfl
    | cons b l' => simp [ih]

/-- When an iteration breaks. -/
def AtEnd (c : Cfg S) (q : Phase O A K S) (t : Nat) : Prop :=
  ∃ s ends lens k, (s = true ∨ c.steps ≤ t) ∧
    (q = .judged s ends lens t k ∨ c.hasEvaluator = false ∧ s = false ∧ q = .counting [] ends lens t k)

theorem iter_hoare (c : Cfg S) (w : Iter O A K S X) (l : Loc O) (t : Nat) :
    Eff.Hoare (Next c) (iter c w l) (.ready l.obss l.episodeLen t l.episodes : Phase O A K S) t
      (fun r q s => s = t + c.numEnvs ∧ match r with
        | some l' => s < c.steps ∧ q = .ready l'.obss l'.episodeLen s l'.episodes
        | none => AtEnd c q s) (Err c) := by
  unfold iter
  apply Eff.Hoare.call_bind _ (fun e _ => ⟨⟨by simp, by simp, by simp⟩, rfl⟩)
  intro a _
  refine ⟨_, .act _ _ _ _ a, ?_⟩
  apply Eff.Hoare.call_bind _ (fun e _ => ⟨⟨by simp, by simp, by simp⟩, rfl⟩)
  intro outs _
  refine ⟨_, .step _ _ _ _ outs, ?_⟩
  simp only
  apply Eff.Hoare.call_bind _ (fun e _ => ⟨⟨by simp, by simp, by simp⟩, rfl⟩)
  intro _ _
  refine ⟨_, .observe _ _ _ _ (resetsOf c (l.episodeLen.map (· + 1)) outs)
    (List.zipWith (· || ·) (resetsOf c (l.episodeLen.map (· + 1)) outs) (outs.map (·.done))) ?_ ?_, ?_⟩
  · unfold resetsOf
    rw [zipWith_eq]
    apply List.map_congr_left
    rintro ⟨len, o⟩ _
    simp only [mustReset]
    rw [Bool.or_comm]
    congr 1
    rw [Bool.eq_iff_iff]
    simp only [beq_iff_eq, decide_eq_true_eq]
    exact eq_comm
  · rw [List.zipWith_map_right, zipWith_eq]
  refine Eff.Hoare.bind (ticks_hoare c w t _ _ _ _) ?_
  rintro _ q s ⟨rfl, rfl⟩
  refine Eff.Hoare.bind (eval_hoare c w _ _ _ _) ?_
  rintro b q s ⟨rfl, hq⟩
  cases b with
  | true =>
    rw [if_pos rfl]
    refine Eff.Hoare.pure ⟨rfl, ?_⟩
    rcases hq with ⟨h1, rfl⟩ | ⟨_, h, _⟩
    · exact ⟨_, _, _, _, .inl rfl, .inl rfl⟩
    · cases h
  | false =>
    rw [if_neg (by simp)]
    apply Eff.Hoare.get_bind
    by_cases ht : t + c.numEnvs ≥ c.steps
    · rw [if_pos ht]
      refine Eff.Hoare.pure ⟨rfl, ?_⟩
      rcases hq with ⟨h1, rfl⟩ | ⟨h1, h2, rfl⟩
      · exact ⟨_, _, _, _, .inr ht, .inl rfl⟩
      · exact ⟨_, _, _, _, .inr ht, .inr ⟨h1, rfl, rfl⟩⟩
    · rw [if_neg ht]
      have hlt : t + c.numEnvs < c.steps := by omega
      apply Eff.Hoare.call_bind
      · intro obss _
        rw [zipWith_eq (fun e len => if e = true then 0 else len)]
        rcases hq with ⟨h1, rfl⟩ | ⟨h1, h2, rfl⟩
        · exact ⟨_, .reset _ _ _ _ _ hlt, Eff.Hoare.pure ⟨rfl, hlt, rfl⟩⟩
        · exact ⟨_, .noEvaluator h1 (.reset _ _ _ _ _ hlt), Eff.Hoare.pure ⟨rfl, hlt, rfl⟩⟩
      · intro e _
        rcases hq with ⟨h1, rfl⟩ | ⟨h1, h2, rfl⟩ <;> exact ⟨⟨by simp, by simp, by simp⟩, rfl⟩

theorem loop_hoare (c : Cfg S) (hn : 0 < c.numEnvs) (w : Nat → Iter O A K S X) (fuel i : Nat) (l : Loc O)
    (t : Nat) (hf : 0 < fuel) (ht : c.steps + 1 ≤ t + fuel) :
    Eff.Hoare (Next c) (loop c w fuel i l) (.ready l.obss l.episodeLen t l.episodes : Phase O A K S) t
      (fun _ q s => AtEnd c q s) (Err c) := by
  induction fuel generalizing i l t with
  | zero => omega
  | succ fuel ih =>
    unfold loop
    refine Eff.Hoare.bind (iter_hoare c (w i) l t) ?_
    rintro r q s ⟨rfl, h⟩
    cases r with
    | none => exact Eff.Hoare.pure h
    | some l' =>
      obtain ⟨h1, rfl⟩ := h
      exact ih (i + 1) l' _ (by omega) (by omega)

/-- The outcome of a run. -/
def Outcome (c : Cfg S) (q : Phase O A K S) : Except X Unit → Prop
  | .ok _ => ∃ t, q = .finished t
  | .error _ => ∀ t, q ≠ .finished t

theorem run_hoare (c : Cfg S) (hn : 0 < c.numEnvs) (w : World O A K S X) :
    ∃ q : Phase O A K S, Steps (Next c) .fresh (run c w).1 q ∧ Outcome c q (run c w).2 := by
  have : Eff.Hoare (Next c) (trainAgentBatch c w) (.fresh : Phase O A K S) 0
      (fun _ q _ => ∃ t, q = .finished t) (fun _ q _ => ∀ t, q ≠ .finished t) := by
    unfold trainAgentBatch
    apply Eff.Hoare.call_bind _ (fun e _ => by simp)
    intro o _
    refine ⟨_, .first o, ?_⟩
    apply Eff.Hoare.set_bind
    refine Eff.Hoare.bind (Q' := fun _ q s => q = .ready o (List.replicate c.numEnvs 0) c.stepOffset 0 ∧ s = c.stepOffset) ?_ ?_
    · split
      · exact Eff.Hoare.call (fun _ _ => ⟨_, .setT _ _, rfl, rfl⟩) (fun e h => by cases h)
      · exact Eff.Hoare.pure ⟨rfl, rfl⟩
    rintro _ q s ⟨rfl, rfl⟩
    refine Eff.Hoare.bind (Eff.Hoare.onError
      (loop_hoare c hn w.iter _ 0 ⟨o, List.replicate c.numEnvs 0, 0⟩ c.stepOffset (by omega) (by omega)) ?_) ?_
    · rintro e q s ⟨h1, rfl⟩
      apply Eff.Hoare.get_bind
      apply Eff.Hoare.call_bind _ (fun e _ => h1.2.1)
      intro _ _
      refine ⟨_, .fail _ h1, ?_⟩
      apply Eff.Hoare.call_bind _ (fun e _ => by simp)
      intro _ _
      refine ⟨_, .closeEnv _, ?_⟩
      split
      · exact Eff.Hoare.call (fun _ _ => ⟨_, .closeEvalEnv _, by simp⟩) (fun e _ => by simp)
      · exact Eff.Hoare.pure (by simp)
    · rintro _ q s ⟨b, ends, lens, k, h1, h2⟩
      apply Eff.Hoare.get_bind
      apply Eff.Hoare.call
      · intro _ _
        rcases h2 with rfl | ⟨h3, rfl, rfl⟩
        · exact ⟨_, .finish _ _ _ _ _ h1, _, rfl⟩
        · exact ⟨_, .noEvaluator h3 (.finish _ _ _ _ _ h1), _, rfl⟩
      · intro e _
        rcases h2 with rfl | ⟨h3, rfl, rfl⟩ <;> simp
  obtain ⟨q, h1, h2⟩ := this
  refine ⟨q, h1, ?_⟩
  unfold run
  simp only
  cases hr : (trainAgentBatch c w 0).2.2 <;> rw [hr] at h2 <;> exact h2

end Verif.TrainBatch
