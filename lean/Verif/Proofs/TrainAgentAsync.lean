import Mathlib.Data.List.Basic
import Verif.Model.TrainAgentAsync
set_option autoImplicit false

namespace Verif.TrainAsync
open Train (StepOut)
variable {O A K S : Type} [Zero K] [LinearOrder S] {P : Nat}

def Ev.isFinish : Ev O A K → Bool
  | .saveFinish _ => true
  | _ => false

def Ev.isSuccessful : Ev O A K → Bool
  | .saveSuccessful => true
  | _ => false

def Ev.countNo : Ev O A K → Option Nat
  | .count n => some n
  | _ => none

/-- Before the next global number is taken. -/
def Pc.before : Pc O A K → Bool
  | .start | .act .. | .step .. | .count .. | .reset => true
  | _ => false

/-- After a number was taken, still in the loop or past it. -/
def Pc.after : Pc O A K → Bool
  | .hooks .. | .decide .. | .stop _ | .evaluate | .setDone | .episode | .check | .finish | .success | .ended => true
  | _ => false

def Pc.exited : Pc O A K → Bool
  | .finish | .success | .ended => true
  | _ => false

def Pc.noFinish : Pc O A K → Bool
  | .success | .ended | .dead => false
  | _ => true

def Pc.notEnded : Pc O A K → Bool
  | .ended => false
  | _ => true

/-- What holds of one process; `nF`, `nS`: the number of `_finish` and
`successful` snapshots it took. -/
structure WInv (c : Cfg S) (g : Shared) (w : Worker O A K) (nF nS : Nat) : Prop where
  le : w.globalT ≤ g.counter
  before : w.pc.before = true → w.globalT = 0 ∨ w.globalT < c.steps
  after : w.pc.after = true → w.globalT ≠ 0
  exited : w.pc.exited = true → c.steps ≤ w.globalT ∨ g.done = true
  succ : w.successful = true → g.done = true ∧ (w.pc.exited = true ∨ w.pc = .dead)
  fin0 : w.pc.noFinish = true → nF = 0
  fin1 : w.pc = .success ∨ w.pc = .ended → nF = if w.globalT = c.steps then 1 else 0
  fin2 : nF ≠ 0 → nF = 1 ∧ w.globalT = c.steps ∧ w.globalT ≠ 0
  suc0 : w.pc.notEnded = true → nS = 0
  suc1 : w.pc = .ended → nS = if w.successful then 1 else 0

/-- What a slice does. -/
structure SliceRes (c : Cfg S) (g : Shared) (w : Worker O A K) (evs : List (Ev O A K)) (g' : Shared)
    (w' : Worker O A K) : Prop where
  winv : ∀ nF nS, WInv c g w nF nS →
    WInv c g' w' (nF + evs.countP Ev.isFinish) (nS + evs.countP Ev.isSuccessful)
  count : (g'.counter = g.counter ∧ w'.globalT = w.globalT ∧ evs.filterMap Ev.countNo = []) ∨
    (g'.counter = g.counter + 1 ∧ w'.globalT = g.counter + 1 ∧ evs.filterMap Ev.countNo = [g.counter + 1] ∧
      w.pc.before = true)
  done : g.done = true → g'.done = true
  succ : w'.successful = w.successful ∨ g.done = false ∧ w'.successful = true
  succ_of_done : w'.successful = true → w.successful = true ∨ g.done = false

theorem sliceRes (c : Cfg S) (idx : Nat) (i : Inp O A K S) (g : Shared) (w : Worker O A K) :
    SliceRes c g w (slice c idx i g w).1 (slice c idx i g w).2.1 (slice c idx i g w).2.2 := by
  have crash : ∀ (e : Pc O A K), w.pc = e → e.noFinish = true → e.notEnded = true → e.exited = false → e ≠ .dead →
      SliceRes c g w [] g { w with pc := .except } := by
    rintro e rfl h1 h2 h3 h4
    refine ⟨fun nF nS h => ?_, .inl ⟨rfl, rfl, rfl⟩, id, .inl rfl, fun h => .inl h⟩
    refine ⟨h.le, ?_, ?_, ?_, ?_, fun _ => h.fin0 h1, ?_, h.fin2, fun _ => h.suc0 h2, ?_⟩
    · intro h; cases h
    · intro h; cases h
    · intro h; cases h
    · intro h'
      rcases (h.succ h').2 with h5 | h5
      · rw [h3] at h5; cases h5
      · exact absurd h5 h4
    · rintro (h | h) <;> cases h
    · intro h; cases h
  unfold slice
  rcases w with ⟨pc, gt, ge, su⟩
  simp only at crash
  cases pc with
  | start =>
    simp only
    split
    · exact crash _ rfl rfl rfl rfl (by simp)
    · exact ⟨fun nF nS h => ⟨h.le, fun _ => h.before rfl, by simp [Pc.after], by simp [Pc.exited],
        fun h' => absurd (h.succ h').2 (by simp [Pc.exited]), fun _ => h.fin0 rfl, by simp, h.fin2,
        fun _ => h.suc0 rfl, by simp⟩, .inl ⟨rfl, rfl, rfl⟩, id, .inl rfl, fun h => .inl h⟩
  | act obs r len =>
    simp only
    split
    · exact crash _ rfl rfl rfl rfl (by simp)
    · exact ⟨fun nF nS h => ⟨h.le, fun _ => h.before rfl, by simp [Pc.after], by simp [Pc.exited],
        fun h' => absurd (h.succ h').2 (by simp [Pc.exited]), fun _ => h.fin0 rfl, by simp, h.fin2,
        fun _ => h.suc0 rfl, by simp⟩, .inl ⟨rfl, rfl, rfl⟩, id, .inl rfl, fun h => .inl h⟩
  | step a len =>
    simp only
    split
    · exact crash _ rfl rfl rfl rfl (by simp)
    · exact ⟨fun nF nS h => ⟨h.le, fun _ => h.before rfl, by simp [Pc.after], by simp [Pc.exited],
        fun h' => absurd (h.succ h').2 (by simp [Pc.exited]), fun _ => h.fin0 rfl, by simp, h.fin2,
        fun _ => h.suc0 rfl, by simp⟩, .inl ⟨rfl, rfl, rfl⟩, id, .inl rfl, fun h => .inl h⟩
  | count out len =>
    exact ⟨fun nF nS h => ⟨by simp, by simp [Pc.before], by simp, by simp [Pc.exited],
        fun h' => absurd (h.succ h').2 (by simp [Pc.exited]), fun _ => h.fin0 rfl, by simp,
        fun hn => absurd (h.fin0 rfl) (by simpa [Ev.isFinish] using hn),
        fun _ => h.suc0 rfl, by simp⟩, .inr ⟨rfl, rfl, rfl, rfl⟩, id, .inl rfl, fun h => .inl h⟩
  | hooks out len k =>
    simp only
    split
    · split
      · exact crash _ rfl rfl rfl rfl (by simp)
      · exact ⟨fun nF nS h => ⟨h.le, by simp [Pc.before], fun _ => h.after rfl, by simp [Pc.exited],
        fun h' => absurd (h.succ h').2 (by simp [Pc.exited]), fun _ => h.fin0 rfl, by simp, h.fin2,
        fun _ => h.suc0 rfl, by simp⟩, .inl ⟨rfl, rfl, rfl⟩, id, .inl rfl, fun h => .inl h⟩
    · exact ⟨fun nF nS h => ⟨h.le, by simp [Pc.before], fun _ => h.after rfl, by simp [Pc.exited],
        fun h' => absurd (h.succ h').2 (by simp [Pc.exited]), fun _ => h.fin0 rfl, by simp, h.fin2,
        fun _ => h.suc0 rfl, by simp⟩, .inl ⟨rfl, rfl, rfl⟩, id, .inl rfl, fun h => .inl h⟩
  | decide out len =>
    simp only
    split
    · exact ⟨fun nF nS h => ⟨h.le, by simp [Pc.before], fun _ => h.after rfl, by simp [Pc.exited],
        fun h' => absurd (h.succ h').2 (by simp [Pc.exited]), fun _ => h.fin0 rfl, by simp, h.fin2,
        fun _ => h.suc0 rfl, by simp⟩, .inl ⟨rfl, rfl, rfl⟩, id, .inl rfl, fun h => .inl h⟩
    · rename_i hne
      refine ⟨fun nF nS h => ⟨h.le, fun _ => .inr ?_, by simp [Pc.after], by simp [Pc.exited],
        fun h' => absurd (h.succ h').2 (by simp [Pc.exited]), fun _ => h.fin0 rfl, by simp, h.fin2,
        fun _ => h.suc0 rfl, by simp⟩, .inl ⟨rfl, rfl, rfl⟩, id, .inl rfl, fun h => .inl h⟩
      simp only [endsEpisode, Bool.or_eq_true, decide_eq_true_eq, not_or] at hne
      exact Nat.not_le.mp hne.1.2
  | stop out =>
    simp only
    split
    · exact crash _ rfl rfl rfl rfl (by simp)
    · exact ⟨fun nF nS h => ⟨h.le, by simp [Pc.before], fun _ => h.after rfl, by simp [Pc.exited],
        fun h' => absurd (h.succ h').2 (by simp [Pc.exited]), fun _ => h.fin0 rfl, by simp, h.fin2,
        fun _ => h.suc0 rfl, by simp⟩, .inl ⟨rfl, rfl, rfl⟩, id, .inl rfl, fun h => .inl h⟩
  | evaluate =>
    simp only
    split
    · split
      · exact crash _ rfl rfl rfl rfl (by simp)
      · cases isSuccess c i.score <;>
        exact ⟨fun nF nS h => ⟨h.le, by simp [Pc.before], fun _ => h.after rfl, by simp [Pc.exited],
        fun h' => absurd (h.succ h').2 (by simp [Pc.exited]), fun _ => h.fin0 rfl, by simp, h.fin2,
        fun _ => h.suc0 rfl, by simp⟩, .inl ⟨rfl, rfl, rfl⟩, id, .inl rfl, fun h => .inl h⟩
    · exact ⟨fun nF nS h => ⟨h.le, by simp [Pc.before], fun _ => h.after rfl, by simp [Pc.exited],
        fun h' => absurd (h.succ h').2 (by simp [Pc.exited]), fun _ => h.fin0 rfl, by simp, h.fin2,
        fun _ => h.suc0 rfl, by simp⟩, .inl ⟨rfl, rfl, rfl⟩, id, .inl rfl, fun h => .inl h⟩
  | setDone =>
    refine ⟨fun nF nS h => ⟨h.le, by simp [Pc.before], fun _ => h.after rfl, fun _ => .inr rfl,
        fun h' => ⟨rfl, .inl rfl⟩, fun _ => h.fin0 rfl, by simp, h.fin2,
        fun _ => h.suc0 rfl, by simp⟩, .inl ⟨rfl, rfl, rfl⟩, fun _ => rfl, ?_, ?_⟩
    · cases su <;> cases hd : g.done <;> simp
    · cases su <;> cases hd : g.done <;> simp
  | episode =>
    exact ⟨fun nF nS h => ⟨h.le, by simp [Pc.before], fun _ => h.after rfl, by simp [Pc.exited],
        fun h' => absurd (h.succ h').2 (by simp [Pc.exited]), fun _ => h.fin0 rfl, by simp, h.fin2,
        fun _ => h.suc0 rfl, by simp⟩, .inl ⟨rfl, rfl, rfl⟩, id, .inl rfl, fun h => .inl h⟩
  | check =>
    simp only
    split
    · rename_i hc
      exact ⟨fun nF nS h => ⟨h.le, by simp [Pc.before], fun _ => h.after rfl,
        fun _ => by simpa [Bool.or_eq_true] using hc,
        fun h' => absurd (h.succ h').2 (by simp [Pc.exited]), fun _ => h.fin0 rfl, by simp, h.fin2,
        fun _ => h.suc0 rfl, by simp⟩, .inl ⟨rfl, rfl, rfl⟩, id, .inl rfl, fun h => .inl h⟩
    · rename_i hc
      exact ⟨fun nF nS h => ⟨h.le, fun _ => .inr (by
          simp only [Bool.or_eq_true, decide_eq_true_eq, not_or] at hc; exact Nat.not_le.mp hc.1), by simp [Pc.after],
        by simp [Pc.exited],
        fun h' => absurd (h.succ h').2 (by simp [Pc.exited]), fun _ => h.fin0 rfl, by simp, h.fin2,
        fun _ => h.suc0 rfl, by simp⟩, .inl ⟨rfl, rfl, rfl⟩, id, .inl rfl, fun h => .inl h⟩
  | reset =>
    simp only
    split
    · exact crash _ rfl rfl rfl rfl (by simp)
    · exact ⟨fun nF nS h => ⟨h.le, fun _ => h.before rfl, by simp [Pc.after], by simp [Pc.exited],
        fun h' => absurd (h.succ h').2 (by simp [Pc.exited]), fun _ => h.fin0 rfl, by simp, h.fin2,
        fun _ => h.suc0 rfl, by simp⟩, .inl ⟨rfl, rfl, rfl⟩, id, .inl rfl, fun h => .inl h⟩
  | finish =>
    simp only
    split
    · rename_i heq
      split
      · exact ⟨fun nF nS h => ⟨h.le, by simp [Pc.before], by simp [Pc.after], by simp [Pc.exited],
          fun h' => ⟨(h.succ h').1, .inr rfl⟩, by simp [Pc.noFinish], by simp, h.fin2,
          fun _ => h.suc0 rfl, by simp⟩, .inl ⟨rfl, rfl, rfl⟩, id, .inl rfl, fun h => .inl h⟩
      · exact ⟨fun nF nS h => ⟨h.le, by simp [Pc.before], fun _ => h.after rfl, fun _ => h.exited rfl,
          fun h' => ⟨(h.succ h').1, .inl rfl⟩, by simp [Pc.noFinish],
          fun _ => by rw [h.fin0 rfl]; simp [heq, Ev.isFinish],
          fun _ => ⟨by rw [h.fin0 rfl]; simp [Ev.isFinish], heq, h.after rfl⟩,
          fun _ => h.suc0 rfl, by simp⟩, .inl ⟨rfl, rfl, rfl⟩, id, .inl rfl, fun h => .inl h⟩
    · rename_i heq
      exact ⟨fun nF nS h => ⟨h.le, by simp [Pc.before], fun _ => h.after rfl, fun _ => h.exited rfl,
          fun h' => ⟨(h.succ h').1, .inl rfl⟩, by simp [Pc.noFinish],
          fun _ => by rw [h.fin0 rfl]; simp [heq],
          h.fin2, fun _ => h.suc0 rfl, by simp⟩, .inl ⟨rfl, rfl, rfl⟩, id, .inl rfl, fun h => .inl h⟩
  | success =>
    simp only
    split
    · rename_i hs
      split
      · exact ⟨fun nF nS h => ⟨h.le, by simp [Pc.before], by simp [Pc.after], by simp [Pc.exited],
          fun h' => ⟨(h.succ h').1, .inr rfl⟩, by simp [Pc.noFinish], by simp, h.fin2,
          fun _ => h.suc0 rfl, by simp⟩, .inl ⟨rfl, rfl, rfl⟩, id, .inl rfl, fun h => .inl h⟩
      · exact ⟨fun nF nS h => ⟨h.le, by simp [Pc.before], fun _ => h.after rfl, fun _ => h.exited rfl,
          fun h' => ⟨(h.succ h').1, .inl rfl⟩, by simp [Pc.noFinish],
          fun _ => h.fin1 (.inl rfl), h.fin2,
          by simp [Pc.notEnded], fun _ => by rw [h.suc0 rfl]; simp [hs, Ev.isSuccessful]⟩,
          .inl ⟨rfl, rfl, rfl⟩, id, .inl rfl, fun h => .inl h⟩
    · rename_i hs
      exact ⟨fun nF nS h => ⟨h.le, by simp [Pc.before], fun _ => h.after rfl, fun _ => h.exited rfl,
          fun h' => ⟨(h.succ h').1, .inl rfl⟩, by simp [Pc.noFinish],
          fun _ => h.fin1 (.inl rfl), h.fin2,
          by simp [Pc.notEnded], fun _ => by rw [h.suc0 rfl]; simp [hs]⟩,
          .inl ⟨rfl, rfl, rfl⟩, id, .inl rfl, fun h => .inl h⟩
  | ended => exact ⟨fun nF nS h => by simpa using h, .inl ⟨rfl, rfl, rfl⟩, id, .inl rfl, fun h => .inl h⟩
  | dead => exact ⟨fun nF nS h => by simpa using h, .inl ⟨rfl, rfl, rfl⟩, id, .inl rfl, fun h => .inl h⟩
  | except =>
    simp only
    split <;>
    exact ⟨fun nF nS h => ⟨h.le, by simp [Pc.before], by simp [Pc.after], by simp [Pc.exited],
          fun h' => ⟨(h.succ h').1, .inr rfl⟩, by simp [Pc.noFinish], by simp, h.fin2,
          fun _ => h.suc0 rfl, by simp⟩, .inl ⟨rfl, rfl, rfl⟩, id, .inl rfl, fun h => .inl h⟩

/-- The `_finish` snapshots of process `p`. -/
def nFinish (tr : List (Fin P × Ev O A K)) (p : Fin P) : Nat :=
  tr.countP fun e => decide (e.1 = p) && e.2.isFinish

/-- The `successful` snapshots of process `p`. -/
def nSuccessful (tr : List (Fin P × Ev O A K)) (p : Fin P) : Nat :=
  tr.countP fun e => decide (e.1 = p) && e.2.isSuccessful

/-- The global numbers in the order in which they were taken. -/
def numbers (tr : List (Fin P × Ev O A K)) : List Nat := tr.filterMap fun e => e.2.countNo

/-- The invariant of the whole system. -/
structure Inv (c : Cfg S) (tr : List (Fin P × Ev O A K)) (s : State P O A K) : Prop where
  numbers : numbers tr = (List.range s.g.counter).map (· + 1)
  worker : ∀ p, WInv c s.g (s.w p) (nFinish tr p) (nSuccessful tr p)
  inj : ∀ p q, (s.w p).globalT = (s.w q).globalT → (s.w p).globalT ≠ 0 → p = q
  holders : ∀ n, 1 ≤ n → c.steps ≤ n → n ≤ s.g.counter → ∃ p, (s.w p).globalT = n
  succ : ∀ p q, (s.w p).successful = true → (s.w q).successful = true → p = q

omit [LinearOrder S] [Zero K] in
theorem WInv.mono {c : Cfg S} {g g' : Shared} {w : Worker O A K} {nF nS : Nat} (h : WInv c g w nF nS)
    (h1 : g.counter ≤ g'.counter) (h2 : g.done = true → g'.done = true) : WInv c g' w nF nS :=
  ⟨Nat.le_trans h.le h1, h.before, h.after, fun h' => (h.exited h').imp id h2,
    fun h' => ⟨h2 (h.succ h').1, (h.succ h').2⟩, h.fin0, h.fin1, h.fin2, h.suc0, h.suc1⟩

theorem Inv.slice {c : Cfg S} {tr : List (Fin P × Ev O A K)} {s : State P O A K} (h : Inv c tr s)
    (p : Fin P) (i : Inp O A K S) : Inv c (tr ++ (s.slice c p i).1) (s.slice c p i).2 := by
  have hr := sliceRes c p.val i s.g (s.w p)
  unfold State.slice
  rcases hs : TrainAsync.slice c p.val i s.g (s.w p) with ⟨evs, g', w'⟩
  rw [hs] at hr
  simp only at hr ⊢
  have hmono : s.g.counter ≤ g'.counter := by rcases hr.count with h | h <;> omega
  have hnF : ∀ q, nFinish (tr ++ evs.map (p, ·)) q = nFinish tr q + if q = p then evs.countP Ev.isFinish else 0 := by
    intro q
    unfold nFinish
    rw [List.countP_append, List.countP_map]
    congr 1
    split
    · subst q; congr 1; funext e; simp [Function.comp]
    · rename_i hne; rw [List.countP_eq_zero]; intro e _; simp [Function.comp, Ne.symm hne]
  have hnS : ∀ q, nSuccessful (tr ++ evs.map (p, ·)) q = nSuccessful tr q + if q = p then evs.countP Ev.isSuccessful else 0 := by
    intro q
    unfold nSuccessful
    rw [List.countP_append, List.countP_map]
    congr 1
    split
    · subst q; congr 1; funext e; simp [Function.comp]
    · rename_i hne; rw [List.countP_eq_zero]; intro e _; simp [Function.comp, Ne.symm hne]
  have hnum : TrainAsync.numbers (tr ++ evs.map (p, ·)) = TrainAsync.numbers tr ++ evs.filterMap Ev.countNo := by
    unfold TrainAsync.numbers
    rw [List.filterMap_append, List.filterMap_map]
    rfl
  refine ⟨?_, ?_, ?_, ?_, ?_⟩
  · rw [hnum, h.numbers]
    rcases hr.count with ⟨h1, _, h3⟩ | ⟨h1, _, h3, _⟩
    · rw [h3, h1]; simp
    · rw [h3, h1, List.range_succ]; simp
  · intro q
    rw [hnF, hnS]
    by_cases hq : q = p
    · subst hq
      simp only [Function.update_self, if_true]
      exact hr.winv _ _ (h.worker q)
    · simp only [Function.update_of_ne hq, if_neg hq, Nat.add_zero]
      exact (h.worker q).mono hmono hr.done
  · have key : ∀ q, q ≠ p → w'.globalT = (s.w q).globalT → w'.globalT ≠ 0 → False := by
      intro q hq heq hne
      rcases hr.count with ⟨_, h2, _⟩ | ⟨_, h2, _, _⟩
      · exact hq (h.inj p q (by rw [← h2]; exact heq) (by rw [← h2]; exact hne)).symm
      · have := (h.worker q).le; omega
    intro q r heq hne
    by_cases hq : q = p <;> by_cases hr' : r = p
    · rw [hq, hr']
    · subst hq
      simp only [Function.update_self, Function.update_of_ne hr'] at heq hne
      exact (key r hr' heq hne).elim
    · subst hr'
      simp only [Function.update_self, Function.update_of_ne hq] at heq hne
      exact (key q hq heq.symm (by rw [← heq]; exact hne)).elim
    · simp only [Function.update_of_ne hq, Function.update_of_ne hr'] at heq hne
      exact h.inj q r heq hne
  · intro n h1 h2 h3
    simp only at h3
    rcases hr.count with ⟨h4, h5, _⟩ | ⟨h4, h5, _, h6⟩
    · obtain ⟨q, hq⟩ := h.holders n h1 h2 (by omega)
      refine ⟨q, ?_⟩
      by_cases hqp : q = p
      · subst hqp; simp only [Function.update_self]; omega
      · simp only [Function.update_of_ne hqp]; exact hq
    · by_cases hn : n = s.g.counter + 1
      · exact ⟨p, by simp only [Function.update_self]; omega⟩
      · obtain ⟨q, hq⟩ := h.holders n h1 h2 (by omega)
        refine ⟨q, ?_⟩
        have hqp : q ≠ p := by
          rintro rfl
          rcases (h.worker q).before h6 with h7 | h7 <;> omega
        simp only [Function.update_of_ne hqp]; exact hq
  · have key : ∀ q, q ≠ p → w'.successful = true → (s.w q).successful = true → False := by
      intro q hq h1 h2
      rcases hr.succ_of_done h1 with h3 | h3
      · exact hq (h.succ q p h2 h3)
      · rw [((h.worker q).succ h2).1] at h3; cases h3
    intro q r h1 h2
    by_cases hq : q = p <;> by_cases hr' : r = p
    · rw [hq, hr']
    · subst hq
      simp only [Function.update_self, Function.update_of_ne hr'] at h1 h2
      exact (key r hr' h1 h2).elim
    · subst hr'
      simp only [Function.update_self, Function.update_of_ne hq] at h1 h2
      exact (key q hq h2 h1).elim
    · simp only [Function.update_of_ne hq, Function.update_of_ne hr'] at h1 h2
      exact h.succ q r h1 h2

theorem inv_init (c : Cfg S) : Inv c [] (init c P : State P O A K) := by
  refine ⟨rfl, ?_, ?_, ?_, ?_⟩
  · intro p
    exact ⟨Nat.le_refl _, fun _ => .inl rfl, by simp [init, Pc.after], by simp [init, Pc.exited],
      by simp [init], fun _ => rfl, by simp [init], by simp [nFinish], fun _ => rfl, by simp [init]⟩
  · intro p q _ h; exact absurd rfl h
  · intro n h1 _ h3; simp only [init, initShared] at h3; omega
  · intro p q h; simp [init] at h

theorem exec_inv {c : Cfg S} (sched : List (Fin P × Inp O A K S)) {tr : List (Fin P × Ev O A K)}
    {s : State P O A K} (h : Inv c tr s) : Inv c (tr ++ (s.exec c sched).1) (s.exec c sched).2 := by
  induction sched generalizing tr s with
  | nil => simpa [State.exec] using h
  | cons x l ih =>
    obtain ⟨p, i⟩ := x
    have := ih (h.slice p i)
    rw [List.append_assoc] at this
    exact this

theorem run_inv (c : Cfg S) (sched : List (Fin P × Inp O A K S)) :
    Inv c (run c P sched).1 (run c P sched).2 := by
  have := exec_inv sched (inv_init (O := O) (A := A) (K := K) (P := P) c)
  rw [List.nil_append] at this
  exact this

end Verif.TrainAsync
