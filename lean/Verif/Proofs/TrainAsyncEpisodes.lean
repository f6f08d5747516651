import Mathlib.Algebra.BigOperators.Group.Finset.Basic
import Mathlib.Algebra.BigOperators.Group.Finset.Piecewise
import Mathlib.Algebra.Order.BigOperators.Group.Finset
import Mathlib.Data.Fintype.Basic
import Mathlib.Data.Fintype.BigOperators
import Verif.Proofs.TrainAgentAsync
set_option autoImplicit false
set_option linter.unusedSectionVars false

namespace Verif.TrainAsync
open Train (StepOut)
variable {O A K S : Type} [Zero K] [LinearOrder S] {P : Nat}

/-- An invariant of trace and state that every slice preserves holds after every schedule. -/
theorem exec_induction {c : Cfg S} (I : List (Fin P × Ev O A K) → State P O A K → Prop)
    (hstep : ∀ tr s p i, I tr s → I (tr ++ (s.slice c p i).1) (s.slice c p i).2)
    (sched : List (Fin P × Inp O A K S)) {tr : List (Fin P × Ev O A K)} {s : State P O A K}
    (h : I tr s) : I (tr ++ (s.exec c sched).1) (s.exec c sched).2 := by
  induction sched generalizing tr s with
  | nil => simpa [State.exec] using h
  | cons x l ih =>
    have := ih (hstep tr s x.1 x.2 h)
    simpa [State.exec, List.append_assoc] using this

theorem run_induction {c : Cfg S} (I : List (Fin P × Ev O A K) → State P O A K → Prop)
    (hinit : I [] (init c P))
    (hstep : ∀ tr s p i, I tr s → I (tr ++ (s.slice c p i).1) (s.slice c p i).2)
    (sched : List (Fin P × Inp O A K S)) : I (run c P sched).1 (run c P sched).2 := by
  simpa [run] using exec_induction I hstep sched hinit

theorem run_append_one (c : Cfg S) (sched : List (Fin P × Inp O A K S)) (p : Fin P) (i : Inp O A K S) :
    run c P (sched ++ [(p, i)]) = ((run c P sched).1 ++ ((run c P sched).2.slice c p i).1,
      ((run c P sched).2.slice c p i).2) := by
  have : ∀ s : State P O A K, s.exec c (sched ++ [(p, i)]) =
      ((s.exec c sched).1 ++ ((s.exec c sched).2.slice c p i).1, ((s.exec c sched).2.slice c p i).2) := by
    induction sched with
    | nil => intro s; simp [State.exec]
    | cons x l ih => intro s; simp [State.exec, ih]
  exact this _

def Ev.isStop : Ev O A K → Bool
  | .stop .. => true
  | _ => false

/-- Is an episode that has stopped not (yet) counted? -/
def PendOk (g : Shared) (w : Worker O A K) (n : Nat) : Prop :=
  match w.pc with
  | .evaluate | .setDone | .episode => n = 1
  | .finish | .success | .ended => n = 0 ∨ (n = 1 ∧ g.done = true)
  | .except | .dead => n ≤ 1
  | _ => n = 0

theorem slice_pend (c : Cfg S) (idx : Nat) (i : Inp O A K S) (g : Shared) (w : Worker O A K) (n : Nat)
    (h : PendOk g w n) :
    ∃ n', PendOk (slice c idx i g w).2.1 (slice c idx i g w).2.2 n' ∧
      (slice c idx i g w).1.countP Ev.isStop + g.episodes + n = (slice c idx i g w).2.1.episodes + n' ∧
      (g.done = true → (slice c idx i g w).2.1.done = true) := by
  rcases w with ⟨pc, gt, ge, su⟩
  refine ⟨(slice c idx i g ⟨pc, gt, ge, su⟩).1.countP Ev.isStop + g.episodes + n -
      (slice c idx i g ⟨pc, gt, ge, su⟩).2.1.episodes, ?_⟩
  unfold slice
  cases pc <;> simp only [PendOk] at h <;> cases hr : i.raise <;> simp only <;>
    (repeat' split) <;> simp_all [PendOk, Ev.isStop] <;> omega

/-- `stops` episodes ended; all but the pending ones are counted. -/
def EpInv (tr : List (Fin P × Ev O A K)) (s : State P O A K) : Prop :=
  ∃ pend : Fin P → Nat, tr.countP (fun e => e.2.isStop) = s.g.episodes + ∑ p, pend p ∧
    ∀ p, PendOk s.g (s.w p) (pend p)

omit [Zero K] in
theorem PendOk.mono {g g' : Shared} {w : Worker O A K} {n : Nat} (h : PendOk g w n)
    (hd : g.done = true → g'.done = true) : PendOk g' w n := by
  rcases w with ⟨pc, gt, ge, su⟩
  cases pc <;> simp only [PendOk] at h ⊢ <;> try exact h
  all_goals exact h.imp id fun h => ⟨h.1, hd h.2⟩

omit [Zero K] in
theorem PendOk.le {g : Shared} {w : Worker O A K} {n : Nat} (h : PendOk g w n) : n ≤ 1 := by
  rcases w with ⟨pc, gt, ge, su⟩
  cases pc <;> simp only [PendOk] at h <;> omega

theorem epInv_run (c : Cfg S) (sched : List (Fin P × Inp O A K S)) :
    EpInv (run c P sched).1 (run c P sched).2 := by
  refine run_induction EpInv ⟨fun _ => 0, by simp [init, initShared], fun p => rfl⟩ ?_ sched
  rintro tr s p i ⟨pend, h1, h2⟩
  obtain ⟨n', h3, h4, h5⟩ := slice_pend c p.val i s.g (s.w p) (pend p) (h2 p)
  refine ⟨Function.update pend p n', ?_, fun q => ?_⟩
  · have e1 : (s.slice c p i).1.countP (fun e => e.2.isStop) =
        (slice c p.val i s.g (s.w p)).1.countP Ev.isStop := by
      simp [State.slice, List.countP_map, Function.comp_def]
    have e2 : ∑ q, Function.update pend p n' q + pend p = n' + ∑ q, pend q := by
      rw [Finset.sum_update_of_mem (Finset.mem_univ p), ← Finset.add_sum_erase _ pend (Finset.mem_univ p),
        Finset.sdiff_singleton_eq_erase]
      omega
    have e3 : (s.slice c p i).2.g = (slice c p.val i s.g (s.w p)).2.1 := rfl
    rw [List.countP_append, e1, e3, h1]
    omega
  · by_cases hq : q = p
    · subst hq
      simpa [State.slice] using h3
    · simpa [State.slice, Function.update_of_ne hq] using (h2 q).mono h5

/-- The episode numbers given to the evaluator belong to one process each. -/
structure NumInv (tr : List (Fin P × Ev O A K)) (s : State P O A K) : Prop where
  le : ∀ p, (s.w p).globalEpisodes ≤ s.g.episodes
  inj : ∀ p q, (s.w p).globalEpisodes = (s.w q).globalEpisodes → (s.w p).globalEpisodes ≠ 0 → p = q
  tle : ∀ p t e, (p, Ev.evaluate t e) ∈ tr → e ≤ s.g.episodes
  own : ∀ p t e q, (p, Ev.evaluate t e) ∈ tr → e = (s.w q).globalEpisodes → e ≠ 0 → p = q
  tinj : ∀ p q t t' e, (p, Ev.evaluate t e) ∈ tr → (q, Ev.evaluate t' e) ∈ tr → e ≠ 0 → p = q

theorem slice_num (c : Cfg S) (idx : Nat) (i : Inp O A K S) (g : Shared) (w : Worker O A K) :
    (((slice c idx i g w).2.1.episodes = g.episodes ∧ (slice c idx i g w).2.2.globalEpisodes = w.globalEpisodes) ∨
     ((slice c idx i g w).2.1.episodes = g.episodes + 1 ∧
       (slice c idx i g w).2.2.globalEpisodes = g.episodes + 1 ∧ (slice c idx i g w).1 = [])) ∧
    ∀ t e, Ev.evaluate t e ∈ (slice c idx i g w).1 → e = w.globalEpisodes ∧ t = w.globalT := by
  rcases w with ⟨pc, gt, ge, su⟩
  unfold slice
  cases pc <;> cases hr : i.raise <;> simp only <;> (repeat' split) <;> simp_all

theorem numInv_run (c : Cfg S) (sched : List (Fin P × Inp O A K S)) :
    NumInv (run c P sched).1 (run c P sched).2 := by
  refine run_induction NumInv ?_ ?_ sched
  · constructor <;> simp [init, initShared]
  rintro tr s p i h
  obtain ⟨h1, h2⟩ := slice_num c p.val i s.g (s.w p)
  have hev : ∀ q t e, (q, Ev.evaluate t e) ∈ (s.slice c p i).1 → q = p ∧ e = (s.w p).globalEpisodes := by
    intro q t e hm
    simp only [State.slice, List.mem_map, Prod.mk.injEq] at hm
    obtain ⟨x, hx, rfl, rfl⟩ := hm
    exact ⟨rfl, (h2 _ _ hx).1⟩
  have hw : ∀ q, q ≠ p → (s.slice c p i).2.w q = s.w q := by
    intro q hq; simp [State.slice, Function.update_of_ne hq]
  have hwp : (s.slice c p i).2.w p = (slice c p.val i s.g (s.w p)).2.2 := by simp [State.slice]
  have hg : (s.slice c p i).2.g = (slice c p.val i s.g (s.w p)).2.1 := rfl
  -- the events of this slice, as if they had been there before
  have hte : ∀ q t e, (q, Ev.evaluate t e) ∈ tr ++ (s.slice c p i).1 →
      (q, Ev.evaluate t e) ∈ tr ∨ (q = p ∧ e = (s.w p).globalEpisodes) := by
    intro q t e hm
    rcases List.mem_append.mp hm with hm | hm
    · exact .inl hm
    · exact .inr (hev q t e hm)
  have htle : ∀ q t e, (q, Ev.evaluate t e) ∈ tr ++ (s.slice c p i).1 → e ≤ s.g.episodes := by
    intro q t e hm
    rcases hte q t e hm with hm | ⟨_, rfl⟩
    · exact h.tle _ _ _ hm
    · exact h.le p
  have hown : ∀ q t e q', (q, Ev.evaluate t e) ∈ tr ++ (s.slice c p i).1 → e = (s.w q').globalEpisodes →
      e ≠ 0 → q = q' := by
    intro q t e q' hm he h0
    rcases hte q t e hm with hm | ⟨rfl, rfl⟩
    · exact h.own _ _ _ _ hm he h0
    · exact h.inj _ _ he h0
  have htinj : ∀ q q' t t' e, (q, Ev.evaluate t e) ∈ tr ++ (s.slice c p i).1 →
      (q', Ev.evaluate t' e) ∈ tr ++ (s.slice c p i).1 → e ≠ 0 → q = q' := by
    intro q q' t t' e hm hm' h0
    rcases hte q t e hm with h5 | ⟨h5, he⟩
    · rcases hte q' t' e hm' with h6 | ⟨h6, he⟩
      · exact h.tinj _ _ _ _ _ h5 h6 h0
      · exact (h.own _ _ _ _ h5 he h0).trans h6.symm
    · exact h5.trans (hown _ _ _ _ hm' he h0).symm
  rcases h1 with ⟨h3, h4⟩ | ⟨h3, h4, _⟩
  · have hge : ∀ q, ((s.slice c p i).2.w q).globalEpisodes = (s.w q).globalEpisodes := by
      intro q
      by_cases hq : q = p
      · subst hq; rw [hwp, h4]
      · rw [hw q hq]
    refine ⟨?_, ?_, ?_, ?_, htinj⟩
    · intro q; rw [hge, hg, h3]; exact h.le q
    · intro q q'; rw [hge, hge]; exact h.inj q q'
    · intro q t e hm; rw [hg, h3]; exact htle q t e hm
    · intro q t e q' hm; rw [hge]; exact hown q t e q' hm
  · refine ⟨?_, ?_, ?_, ?_, htinj⟩
    · intro q
      by_cases hq : q = p
      · subst hq; rw [hwp, h4, hg, h3]
      · rw [hw q hq, hg, h3]; exact Nat.le_succ_of_le (h.le q)
    · intro q q' he h0
      by_cases hq : q = p
      · subst hq
        by_cases hq' : q' = q
        · exact hq'.symm
        · rw [hwp, h4, hw q' hq'] at he
          have := h.le q'; omega
      · by_cases hq' : q' = p
        · subst hq'
          rw [hwp, h4, hw q hq] at he
          have := h.le q; omega
        · rw [hw q hq, hw q' hq'] at he
          rw [hw q hq] at h0
          exact h.inj q q' he h0
    · intro q t e hm; rw [hg, h3]; exact Nat.le_succ_of_le (htle q t e hm)
    · intro q t e q' hm he h0
      by_cases hq' : q' = p
      · subst hq'
        rw [hwp, h4] at he
        have := htle q t e hm; omega
      · rw [hw q' hq'] at he
        exact hown q t e q' hm he h0

def Ev.isExcept : Ev O A K → Bool
  | .saveExcept _ => true
  | _ => false

/-- The last global number in a list of events. -/
def lastNo (l : List (Ev O A K)) : Nat := (l.filterMap Ev.countNo).getLastD 0

/-- What holds of the `_except` snapshots of process `p`, with events `l`. -/
structure ExInv (idx : Nat) (w : Worker O A K) (l : List (Ev O A K)) : Prop where
  last : w.globalT = lastNo l
  none : w.pc ≠ .dead → ∀ e ∈ l, e.isExcept = false
  form : ∀ e ∈ l, e.isExcept = true → idx = 0 ∧ ∃ l', l = l' ++ [.saveExcept (lastNo l)] ∧ ∀ e ∈ l', e.isExcept = false

theorem lastNo_append_nil (l l' : List (Ev O A K)) (h : l'.filterMap Ev.countNo = []) :
    lastNo (l ++ l') = lastNo l := by
  simp [lastNo, h]

theorem slice_ex (c : Cfg S) (idx : Nat) (i : Inp O A K S) (g : Shared) (w : Worker O A K)
    (l : List (Ev O A K)) (h : ExInv idx w l) :
    ExInv idx (slice c idx i g w).2.2 (l ++ (slice c idx i g w).1) := by
  have h1 : (slice c idx i g w).2.2.globalT = lastNo (l ++ (slice c idx i g w).1) := by
    rcases (sliceRes c idx i g w).count with ⟨_, h2, h3⟩ | ⟨_, h2, h3, _⟩
    · rw [lastNo_append_nil _ _ h3, h2, h.last]
    · simp [lastNo, h2, h3]
  by_cases hd : w.pc = .dead
  · have h2 : (slice c idx i g w) = ([], g, w) := by simp [slice, hd]
    rw [h2]; simpa using h
  have hn := h.none hd
  by_cases he : w.pc = .except
  · have h2 : (slice c idx i g w) = if idx = 0 ∧ i.raise = false then
        ([.saveExcept w.globalT], g, { w with pc := .dead }) else ([], g, { w with pc := .dead }) := by
      simp [slice, he]
    rw [h2] at h1 ⊢
    split
    · rename_i h3
      rw [if_pos h3] at h1
      refine ⟨h1, by simp, fun e _ _ => ⟨h3.1, l, ?_, hn⟩⟩
      rw [← h1]
    · refine ⟨by simpa using h.last, by simp, fun e hm hx => ?_⟩
      simp only [List.append_nil] at hm
      rw [hn e hm] at hx; cases hx
  · have h2 : ∀ e ∈ (slice c idx i g w).1, e.isExcept = false := by
      rcases w with ⟨pc, gt, ge, su⟩
      unfold slice
      cases pc <;> simp at he hd <;> cases hr : i.raise <;> simp only <;> (repeat' split) <;>
        simp_all [Ev.isExcept]
    have h3 : ∀ e ∈ l ++ (slice c idx i g w).1, e.isExcept = false := by
      intro e hm
      rcases List.mem_append.mp hm with hm | hm
      · exact hn e hm
      · exact h2 e hm
    exact ⟨h1, fun _ => h3, fun e hm hx => by rw [h3 e hm] at hx; cases hx⟩

/-- The events of process `p`. -/
def eventsOf (p : Fin P) (tr : List (Fin P × Ev O A K)) : List (Ev O A K) :=
  (tr.filter fun e => decide (e.1 = p)).map Prod.snd

theorem exInv_run (c : Cfg S) (sched : List (Fin P × Inp O A K S)) (p : Fin P) :
    ExInv p.val ((run c P sched).2.w p) (eventsOf p (run c P sched).1) := by
  refine run_induction (fun tr s => ExInv p.val (s.w p) (eventsOf p tr)) ?_ ?_ sched
  · exact ⟨rfl, by simp [eventsOf], by simp [eventsOf]⟩
  · intro tr s q i h
    have h0 : eventsOf p (tr ++ (s.slice c q i).1) = eventsOf p tr ++ eventsOf p (s.slice c q i).1 := by
      simp [eventsOf]
    rw [h0]
    by_cases hq : p = q
    · subst hq
      have h3 : eventsOf p (s.slice c p i).1 = (slice c p.val i s.g (s.w p)).1 := by
        simp [eventsOf, State.slice, List.filter_map, Function.comp_def]
      have h4 : (s.slice c p i).2.w p = (slice c p.val i s.g (s.w p)).2.2 := by
        simp [State.slice]
      rw [h3, h4]
      exact slice_ex c p.val i s.g (s.w p) _ h
    · have h3 : eventsOf p (s.slice c q i).1 = [] := by
        simp [eventsOf, State.slice, List.filter_map, Function.comp_def, Ne.symm hq]
      have h4 : (s.slice c q i).2.w p = s.w p := by
        simp [State.slice, Function.update_of_ne hq]
      rw [h3, h4]; simpa using h

end Verif.TrainAsync
