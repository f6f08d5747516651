import Mathlib.Data.Int.Order.Basic
import Mathlib.Data.Fintype.Card
import Verif.Proofs.Eff
import Verif.Proofs.TrainAgentAsync
import Verif.Proofs.TrainAsyncEpisodes
import Verif.Spec.TrainAsyncProtocol
set_option autoImplicit false

/-! # C25: asynchronous training -/

namespace Verif.TrainAsync
open Train (StepOut)
variable {O A K S : Type} [Zero K] [LinearOrder S] {P : Nat}

/-- C25: under every schedule the global numbers are handed out one at a time,
in order, each to exactly one step: 1, 2, ..., counter. -/
theorem C25_unique_numbers (c : Cfg S) (sched : List (Fin P × Inp O A K S)) :
    ((run c P sched).1.filterMap fun e => match e.2 with | .count n => some n | _ => none)
      = (List.range (run c P sched).2.g.counter).map (· + 1) := by
  have := (run_inv c sched).numbers
  unfold numbers at this
  rw [← this]
  apply List.filterMap_congr
  rintro ⟨p, e⟩ _
  cases e <;> rfl

theorem le_one_of_unique {q : Ev O A K → Bool} (tr : List (Fin P × Ev O A K))
    (h1 : ∀ p, tr.countP (fun e => decide (e.1 = p) && q e.2) ≤ 1)
    (h2 : ∀ p p', tr.countP (fun e => decide (e.1 = p) && q e.2) ≠ 0 →
      tr.countP (fun e => decide (e.1 = p') && q e.2) ≠ 0 → p = p') :
    tr.countP (fun e => q e.2) ≤ 1 := by
  by_cases hz : tr.countP (fun e => q e.2) = 0
  · omega
  · obtain ⟨⟨p, e⟩, he, hq⟩ := List.countP_pos_iff.mp (Nat.pos_of_ne_zero hz)
    have hne : ∀ x ∈ tr, q x.2 = true → tr.countP (fun e => decide (e.1 = x.1) && q e.2) ≠ 0 := by
      intro x hx hq'
      exact Nat.pos_iff_ne_zero.mp (List.countP_pos_iff.mpr ⟨x, hx, by simp [hq']⟩)
    have : tr.countP (fun e => q e.2) = tr.countP (fun e => decide (e.1 = p) && q e.2) := by
      apply List.countP_congr
      intro x hx
      constructor
      · intro hq'
        have := h2 x.1 p (hne x hx hq') (hne _ he hq)
        simp [this, hq']
      · intro h; simp only [Bool.and_eq_true] at h; exact h.2
    rw [this]; exact h1 p

/-- C25: under every schedule at most one `<steps>_finish` snapshot is written. -/
theorem C25_finish_once (c : Cfg S) (sched : List (Fin P × Inp O A K S)) :
    (run c P sched).1.countP (fun e => e.2.isFinish) ≤ 1 := by
  have h := run_inv c sched
  apply le_one_of_unique
  · intro p
    have := (h.worker p).fin2
    unfold nFinish at this
    omega
  · intro p p' h1 h2
    have h3 := (h.worker p).fin2 h1
    have h4 := (h.worker p').fin2 h2
    exact h.inj p p' (by rw [h3.2.1, h4.2.1]) h3.2.2

omit [Zero K] [LinearOrder S] in
theorem WInv.suc_le {c : Cfg S} {g : Shared} {w : Worker O A K} {nF nS : Nat} (h : WInv c g w nF nS)
    (hn : nS ≠ 0) : nS = 1 ∧ w.successful = true := by
  have h1 : w.pc = .ended := by
    cases hpc : w.pc <;> first | rfl | exact absurd (h.suc0 (by rw [hpc]; rfl)) hn
  have h2 := h.suc1 h1
  split at h2
  · rename_i hs; exact ⟨h2, hs⟩
  · exact absurd h2 hn

/-- C25: under every schedule at most one `successful` snapshot is written. -/
theorem C25_successful_once (c : Cfg S) (sched : List (Fin P × Inp O A K S)) :
    (run c P sched).1.countP (fun e => e.2.isSuccessful) ≤ 1 := by
  have h := run_inv c sched
  apply le_one_of_unique
  · intro p
    by_cases hn : nSuccessful (run c P sched).1 p = 0
    · unfold nSuccessful at hn; omega
    · have := ((h.worker p).suc_le hn).1; unfold nSuccessful at this; omega
  · intro p p' h1 h2
    exact h.succ p p' ((h.worker p).suc_le h1).2 ((h.worker p').suc_le h2).2

/-- C25: the counter never exceeds `steps - 1 + processes` (for `steps ≥ 1`; for
`steps = 0` every process still takes one step). -/
theorem C25_counter_bound (c : Cfg S) (sched : List (Fin P × Inp O A K S)) :
    (run c P sched).2.g.counter ≤ max c.steps 1 - 1 + P := by
  have h := run_inv c sched
  by_contra hlt
  have hlt := Nat.not_le.mp hlt
  -- one process for each of the P + 1 numbers from `max steps 1`
  have hp : ∀ i : Fin (P + 1), ∃ p, ((run c P sched).2.w p).globalT = max c.steps 1 + i.val := by
    intro i
    have := i.isLt
    exact h.holders _ (by omega) (by omega) (by omega)
  choose f hf using hp
  have hinj : Function.Injective f := by
    intro i j hij
    have h1 := hf i
    have h2 := hf j
    rw [hij] at h1
    exact Fin.ext (by omega)
  have := Fintype.card_le_of_injective f hinj
  simp only [Fintype.card_fin] at this
  omega

/-- C25: when all processes have returned and no evaluation succeeded, all
`steps` steps were taken and exactly one `<steps>_finish` snapshot exists. -/
theorem C25_finish_saved (c : Cfg S) (hs : 0 < c.steps) (hP : 0 < P)
    (sched : List (Fin P × Inp O A K S))
    (hend : ∀ p, ((run c P sched).2.w p).pc = .ended) (hnd : (run c P sched).2.g.done = false) :
    c.steps ≤ (run c P sched).2.g.counter ∧
    (run c P sched).1.countP (fun e => e.2.isFinish) = 1 := by
  have h := run_inv c sched
  have h1 : c.steps ≤ (run c P sched).2.g.counter := by
    rcases (h.worker ⟨0, hP⟩).exited (by rw [hend]; rfl) with h2 | h2
    · exact Nat.le_trans h2 (h.worker ⟨0, hP⟩).le
    · rw [hnd] at h2; cases h2
  refine ⟨h1, ?_⟩
  obtain ⟨p, hp⟩ := h.holders c.steps hs (Nat.le_refl _) h1
  have h2 := (h.worker p).fin1 (.inr (hend p))
  rw [if_pos hp] at h2
  have h3 : nFinish (run c P sched).1 p ≤ (run c P sched).1.countP (fun e => e.2.isFinish) := by
    unfold nFinish
    apply List.countP_mono_left
    intro e _ he
    simp only [Bool.and_eq_true] at he
    exact he.2
  have h4 := C25_finish_once c sched
  omega

/-! ## The protocol of each process -/

theorem Next.mono {c : Cfg S} {b : Bool} {p q : Phase O A K} {e : Ev O A K} (h : Next c b p e q) :
    Next c true p e q := by
  cases h with
  | first => exact .first _
  | act => exact .act _ _ _ _
  | step => exact .step _ _ _
  | count => exact .count _ _ _
  | hook _ _ _ _ h => exact .hook _ _ _ _ h
  | go _ _ _ _ h => exact .go _ _ _ _ h
  | stop => exact .stop _ _ _ (.inr rfl)
  | evaluate _ _ h => exact .evaluate _ _ h
  | again _ _ h => exact .again _ _ h
  | finish h => exact .finish h
  | successful _ _ h' => exact .successful _ rfl h'
  | successful' _ => exact .successful' rfl
  | except => exact .except _ _

theorem steps_mono {c : Cfg S} {b : Bool} {p q : Phase O A K} {l : List (Ev O A K)}
    (h : Steps (Next c b) p l q) : Steps (Next c true) p l q := by
  induction h with
  | nil => exact .nil _
  | cons h _ ih => exact .cons h.mono ih

/-- How the phase of a process matches its program counter. -/
def Sim (c : Cfg S) (g : Shared) (w : Worker O A K) (ph : Phase O A K) : Prop :=
  match w.pc with
  | .start => ph = .fresh
  | .act obs r len => ph = .ready obs r len ∨
      ∃ out n, ph = .counted out len n c.numHooks ∧ ¬ MustEnd c out len n ∧ obs = out.obs ∧ r = out.r
  | .step a len => ph = .chosen a len
  | .count out len => ph = .stepped out len
  | .hooks out len i => ph = .counted out len w.globalT i ∧ i ≤ c.numHooks
  | .decide out len => ph = .counted out len w.globalT c.numHooks
  | .stop out => ∃ len, ph = .counted out len w.globalT c.numHooks ∧
      (MustEnd c out len w.globalT ∨ g.done = true)
  | .evaluate => ph = .stopped w.globalT false
  | .setDone => ph = .stopped w.globalT true ∧ c.hasEvaluator = true
  | .episode | .check => ph = .stopped w.globalT c.hasEvaluator
  | .reset => ph = .stopped w.globalT c.hasEvaluator ∧ w.globalT < c.steps
  | .finish => ph = .stopped w.globalT c.hasEvaluator ∧ w.globalT ≠ 0 ∧
      (w.successful = true → g.done = true ∧ c.hasEvaluator = true)
  | .success => ((ph = .stopped w.globalT c.hasEvaluator ∧ w.globalT ≠ c.steps) ∨ ph = .saved) ∧
      (w.successful = true → g.done = true ∧ c.hasEvaluator = true)
  | .ended | .except | .dead => True

theorem slice_sim (c : Cfg S) (idx : Nat) (i : Inp O A K S) (g : Shared) (w : Worker O A K)
    (ph : Phase O A K) {nF nS : Nat} (hw : WInv c g w nF nS) (h : Sim c g w ph) :
    ∃ ph', Steps (Next c (slice c idx i g w).2.1.done) ph (slice c idx i g w).1 ph' ∧
      Sim c (slice c idx i g w).2.1 (slice c idx i g w).2.2 ph' := by
  have hafter := hw.after
  have hsucc := hw.succ
  rcases w with ⟨pc, gt, ge, su⟩
  unfold slice
  cases pc with
  | start =>
    simp only [Sim] at h ⊢
    subst h
    split
    · exact ⟨_, .nil _, trivial⟩
    · exact ⟨_, .single (.first _), .inl rfl⟩
  | act obs r len =>
    simp only [Sim] at h ⊢
    split
    · exact ⟨_, .nil _, trivial⟩
    · rcases h with rfl | ⟨out, n, rfl, h1, rfl, rfl⟩
      · exact ⟨_, .single (.act _ _ _ _), rfl⟩
      · exact ⟨_, .single (.go _ _ _ _ h1), rfl⟩
  | step a len =>
    simp only [Sim] at h ⊢
    subst h
    split
    · exact ⟨_, .nil _, trivial⟩
    · exact ⟨_, .single (.step _ _ _), rfl⟩
  | count out len =>
    simp only [Sim] at h ⊢
    subst h
    exact ⟨_, .single (.count _ _ _), rfl, by omega⟩
  | hooks out len k =>
    simp only [Sim] at h ⊢
    obtain ⟨rfl, h⟩ := h
    split
    · rename_i hk
      split
      · exact ⟨_, .nil _, trivial⟩
      · exact ⟨_, .single (.hook _ _ _ _ hk), rfl, hk⟩
    · exact ⟨_, .nil _, by simp only; rw [show k = c.numHooks by omega]⟩
  | decide out len =>
    simp only [Sim] at h ⊢
    subst h
    have hiff : endsEpisode c g (⟨.decide out len, gt, ge, su⟩ : Worker O A K) out len = true ↔
        (MustEnd c out len gt ∨ g.done = true) := by
      simp only [endsEpisode, MustEnd, Bool.or_eq_true, beq_iff_eq, decide_eq_true_eq]
      constructor
      · rintro (((h | h | h) | h) | h)
        · exact .inl (.inl h)
        · exact .inl (.inr (.inr (.inl h.symm)))
        · exact .inl (.inr (.inl h))
        · exact .inl (.inr (.inr (.inr h)))
        · exact .inr h
      · rintro ((h | h | h | h) | h)
        · exact .inl (.inl (.inl h))
        · exact .inl (.inl (.inr (.inr h)))
        · exact .inl (.inl (.inr (.inl h.symm)))
        · exact .inl (.inr h)
        · exact .inr h
    split
    · rename_i he
      exact ⟨_, .nil _, len, rfl, hiff.mp he⟩
    · rename_i he
      exact ⟨_, .nil _, .inr ⟨out, gt, rfl, fun h => he (hiff.mpr (.inl h)), rfl, rfl⟩⟩
  | stop out =>
    simp only [Sim] at h ⊢
    obtain ⟨len, rfl, h⟩ := h
    split
    · exact ⟨_, .nil _, trivial⟩
    · exact ⟨_, .single (.stop _ _ _ h), rfl⟩
  | evaluate =>
    simp only [Sim] at h ⊢
    subst h
    split
    · rename_i hev
      split
      · exact ⟨_, .nil _, trivial⟩
      · refine ⟨_, .single (.evaluate _ _ hev), ?_⟩
        cases isSuccess c i.score
        · simp [hev]
        · simp [hev]
    · rename_i hev
      have : c.hasEvaluator = false := by simpa using hev
      exact ⟨_, .nil _, by simp [this]⟩
  | setDone =>
    simp only [Sim] at h ⊢
    obtain ⟨rfl, h⟩ := h
    refine ⟨_, .nil _, by rw [h], hafter rfl, fun _ => ⟨trivial, h⟩⟩
  | episode =>
    simp only [Sim] at h ⊢
    subst h
    exact ⟨_, .nil _, rfl⟩
  | check =>
    simp only [Sim] at h ⊢
    subst h
    split
    · refine ⟨_, .nil _, rfl, hafter rfl, fun h' => ?_⟩
      exact absurd (hsucc h').2 (by simp [Pc.exited])
    · rename_i hc
      simp only [Bool.or_eq_true, decide_eq_true_eq, not_or] at hc
      exact ⟨_, .nil _, rfl, Nat.not_le.mp hc.1⟩
  | reset =>
    simp only [Sim] at h ⊢
    obtain ⟨rfl, h⟩ := h
    split
    · exact ⟨_, .nil _, trivial⟩
    · exact ⟨_, .single (.again _ _ h), .inl rfl⟩
  | finish =>
    simp only [Sim] at h ⊢
    obtain ⟨rfl, h1, h2⟩ := h
    split
    · rename_i heq
      subst heq
      split
      · exact ⟨_, .nil _, trivial⟩
      · exact ⟨_, .single (.finish h1), .inr rfl, h2⟩
    · rename_i heq
      exact ⟨_, .nil _, .inl ⟨rfl, heq⟩, h2⟩
  | success =>
    simp only [Sim] at h ⊢
    obtain ⟨h1, h2⟩ := h
    split
    · rename_i hs
      obtain ⟨h3, h4⟩ := h2 hs
      split
      · exact ⟨_, .nil _, trivial⟩
      · rcases h1 with ⟨rfl, h1⟩ | rfl
        · rw [h4]; exact ⟨_, .single (.successful _ h3 h1), trivial⟩
        · exact ⟨_, .single (.successful' h3), trivial⟩
    · exact ⟨_, .nil _, trivial⟩
  | ended => exact ⟨_, .nil _, trivial⟩
  | dead => exact ⟨_, .nil _, trivial⟩
  | except =>
    simp only [Sim] at h ⊢
    split
    · exact ⟨_, .single (.except _ _), trivial⟩
    · exact ⟨_, .nil _, trivial⟩

omit [LinearOrder S] in
theorem Sim.mono {c : Cfg S} {g g' : Shared} {w : Worker O A K} {ph : Phase O A K} (h : Sim c g w ph)
    (h2 : g.done = true → g'.done = true) : Sim c g' w ph := by
  rcases w with ⟨pc, gt, ge, su⟩
  cases pc <;> simp only [Sim] at h ⊢ <;> try exact h
  · obtain ⟨len, h3, h4⟩ := h; exact ⟨len, h3, h4.imp id h2⟩
  · exact ⟨h.1, h.2.1, fun h' => ⟨h2 (h.2.2 h').1, (h.2.2 h').2⟩⟩
  · exact ⟨h.1, fun h' => ⟨h2 (h.2 h').1, (h.2 h').2⟩⟩

theorem exec_protocol {c : Cfg S} (sched : List (Fin P × Inp O A K S)) {tr : List (Fin P × Ev O A K)}
    {s : State P O A K} (hi : Inv c tr s)
    (h : ∀ p, ∃ ph, Steps (Next c s.g.done) .fresh (eventsOf p tr) ph ∧ Sim c s.g (s.w p) ph) :
    ∀ p, ∃ ph, Steps (Next c (s.exec c sched).2.g.done) .fresh (eventsOf p (tr ++ (s.exec c sched).1)) ph ∧
      Sim c (s.exec c sched).2.g ((s.exec c sched).2.w p) ph := by
  induction sched generalizing tr s with
  | nil => simpa [State.exec] using h
  | cons x l ih =>
    obtain ⟨p, i⟩ := x
    have := ih (hi.slice p i) ?_
    · simp only [List.append_assoc] at this
      exact this
    intro q
    obtain ⟨ph, h1, h2⟩ := h q
    have hr := sliceRes c p.val i s.g (s.w p)
    have hdone : s.g.done = true → (s.slice c p i).2.g.done = true := hr.done
    have h1' : Steps (Next c (s.slice c p i).2.g.done) .fresh (eventsOf q tr) ph := by
      cases hd : s.g.done with
      | true => rw [hdone hd, ← hd]; exact h1
      | false =>
        rw [hd] at h1
        cases (s.slice c p i).2.g.done
        · exact h1
        · exact steps_mono h1
    by_cases hq : q = p
    · subst hq
      obtain ⟨ph', h3, h4⟩ := slice_sim c q.val i s.g (s.w q) ph (hi.worker q) h2
      refine ⟨ph', ?_, ?_⟩
      · have : eventsOf q (tr ++ (s.slice c q i).1) = eventsOf q tr ++ (slice c q.val i s.g (s.w q)).1 := by
          simp only [eventsOf, State.slice, List.filter_append, List.map_append, List.filter_map,
            List.map_map]
          congr 1
          simp [Function.comp_def]
        rw [this]
        exact h1'.append h3
      · simp only [State.slice, Function.update_self]
        exact h4
    · refine ⟨ph, ?_, ?_⟩
      · have : eventsOf q (tr ++ (s.slice c p i).1) = eventsOf q tr := by
          simp only [eventsOf, State.slice, List.filter_append, List.map_append, List.filter_map,
            List.map_map]
          simp [Function.comp_def, Ne.symm hq]
        rw [this]; exact h1'
      · simp only [State.slice, Function.update_of_ne hq]
        exact h2.mono hr.done

/-- C25: under every schedule the calls of every process follow the protocol:
act, step, take a global number, call the hooks with it; the episode ends at
`done`, `needs_reset`, the maximal length or a number `≥ steps` (or, after a
success, earlier); after a number `≥ steps` no further episode is started. -/
theorem C25_protocol (c : Cfg S) (sched : List (Fin P × Inp O A K S)) (p : Fin P) :
    ∃ ph, Steps (Next c (run c P sched).2.g.done) .fresh (eventsOf p (run c P sched).1) ph := by
  have := exec_protocol sched (inv_init (O := O) (A := A) (K := K) (P := P) c)
    (fun p => ⟨.fresh, .nil _, rfl⟩) p
  obtain ⟨ph, h1, _⟩ := this
  exact ⟨ph, h1⟩

def Ev.isAct : Ev O A K → Bool
  | .act .. => true
  | _ => false

/-- C25: a process that got a number `≥ steps` does not act again. -/
theorem C25_stops_at_limit (c : Cfg S) (sched : List (Fin P × Inp O A K S)) (p : Fin P)
    (pre post : List (Ev O A K)) (n : Nat) (hn : c.steps ≤ n)
    (h : eventsOf p (run c P sched).1 = pre ++ .count n :: post) : ∀ e ∈ post, e.isAct = false := by
  obtain ⟨ph, h1⟩ := C25_protocol c sched p
  rw [h] at h1
  obtain ⟨ph1, _, h2⟩ := h1.split
  cases h2 with
  | cons hs ht =>
    cases hs with
    | count out len _ =>
      have : ∀ {q : Phase O A K} {l : List (Ev O A K)} {q' : Phase O A K},
          Steps (Next c (run c P sched).2.g.done) q l q' →
          ((∃ out len i, q = .counted out len n i) ∨ (∃ b, q = .stopped n b) ∨ q = .saved ∨ q = .over) →
          ∀ e ∈ l, e.isAct = false := by
        intro q l q' hst
        induction hst with
        | nil => simp
        | cons hs _ ih =>
          intro hq e he
          cases hs with
          | first => rcases hq with ⟨_, _, _, h⟩ | ⟨_, h⟩ | h | h <;> cases h
          | act => rcases hq with ⟨_, _, _, h⟩ | ⟨_, h⟩ | h | h <;> cases h
          | step => rcases hq with ⟨_, _, _, h⟩ | ⟨_, h⟩ | h | h <;> cases h
          | count => rcases hq with ⟨_, _, _, h⟩ | ⟨_, h⟩ | h | h <;> cases h
          | hook =>
            rcases hq with ⟨_, _, _, h⟩ | ⟨_, h⟩ | h | h <;> cases h
            rcases List.mem_cons.mp he with rfl | he
            · rfl
            · exact ih (.inl ⟨_, _, _, rfl⟩) e he
          | go _ _ _ _ hm =>
            rcases hq with ⟨_, _, _, h⟩ | ⟨_, h⟩ | h | h <;> cases h
            exact absurd (.inr (.inr (.inr hn))) hm
          | stop =>
            rcases hq with ⟨_, _, _, h⟩ | ⟨_, h⟩ | h | h <;> cases h
            rcases List.mem_cons.mp he with rfl | he
            · rfl
            · exact ih (.inr (.inl ⟨_, rfl⟩)) e he
          | evaluate =>
            rcases hq with ⟨_, _, _, h⟩ | ⟨_, h⟩ | h | h <;> cases h
            rcases List.mem_cons.mp he with rfl | he
            · rfl
            · exact ih (.inr (.inl ⟨_, rfl⟩)) e he
          | again _ _ hlt =>
            rcases hq with ⟨_, _, _, h⟩ | ⟨_, h⟩ | h | h <;> cases h
            omega
          | finish =>
            rcases List.mem_cons.mp he with rfl | he
            · rfl
            · exact ih (.inr (.inr (.inl rfl))) e he
          | successful =>
            rcases List.mem_cons.mp he with rfl | he
            · rfl
            · exact ih (.inr (.inr (.inr rfl))) e he
          | successful' =>
            rcases List.mem_cons.mp he with rfl | he
            · rfl
            · exact ih (.inr (.inr (.inr rfl))) e he
          | except =>
            rcases List.mem_cons.mp he with rfl | he
            · rfl
            · exact ih (.inr (.inr (.inr rfl))) e he
      exact this ht (.inl ⟨_, _, _, rfl⟩)

/-- What is left to count after a success. -/
def left (w : Worker O A K) : Nat :=
  match w.pc with
  | .start | .act .. | .step .. | .count .. | .reset => 1
  | _ => 0

theorem slice_left (c : Cfg S) (idx : Nat) (i : Inp O A K S) (g : Shared) (w : Worker O A K)
    (hd : g.done = true) :
    ((slice c idx i g w).1.filterMap Ev.countNo).length + left (slice c idx i g w).2.2 ≤ left w := by
  rcases w with ⟨pc, gt, ge, su⟩
  unfold slice
  have he : ∀ (w : Worker O A K) out len, endsEpisode c g w out len = true := by
    intro w out len; simp [endsEpisode, hd]
  cases i.raise <;> cases isSuccess c i.score <;> cases pc <;> simp [left, Ev.countNo, he, hd]
  all_goals split <;> simp [Ev.countNo]

/-- C25: after a success (`training_done`) every process takes at most one more
step, whatever the schedule. -/
theorem C25_after_success (c : Cfg S) (sched sched' : List (Fin P × Inp O A K S))
    (hd : (run c P sched).2.g.done = true) (p : Fin P) :
    ((eventsOf p ((run c P sched).2.exec c sched').1).filterMap Ev.countNo).length ≤ 1 := by
  generalize (run c P sched).2 = s at hd
  have : ((eventsOf p (s.exec c sched').1).filterMap Ev.countNo).length +
      left ((s.exec c sched').2.w p) ≤ left (s.w p) := by
    induction sched' generalizing s with
    | nil => simp [State.exec, eventsOf]
    | cons x l ih =>
      obtain ⟨q, i⟩ := x
      have hr := sliceRes c q.val i s.g (s.w q)
      have h1 := ih (s.slice c q i).2 (hr.done hd)
      have h2 := slice_left c q.val i s.g (s.w q) hd
      have hev : eventsOf p (s.exec c ((q, i) :: l)).1 =
          eventsOf p (s.slice c q i).1 ++ eventsOf p ((s.slice c q i).2.exec c l).1 := by
        simp [eventsOf, State.exec]
      rw [hev, List.filterMap_append, List.length_append]
      by_cases hq : p = q
      · subst hq
        have h3 : eventsOf p (s.slice c p i).1 = (slice c p.val i s.g (s.w p)).1 := by
          simp [eventsOf, State.slice, List.filter_map, Function.comp_def]
        have h4 : (s.slice c p i).2.w p = (slice c p.val i s.g (s.w p)).2.2 := by
          simp [State.slice]
        rw [h4] at h1
        rw [h3]
        have h5 : (s.exec c ((p, i) :: l)).2 = ((s.slice c p i).2.exec c l).2 := rfl
        rw [h5]
        omega
      · have h3 : eventsOf p (s.slice c q i).1 = [] := by
          simp [eventsOf, State.slice, List.filter_map, Function.comp_def, Ne.symm hq]
        have h4 : (s.slice c q i).2.w p = s.w p := by
          simp [State.slice, Function.update_of_ne hq]
        rw [h4] at h1
        rw [h3]
        have h5 : (s.exec c ((q, i) :: l)).2 = ((s.slice c q i).2.exec c l).2 := rfl
        rw [h5]
        simpa using h1
  have h2 : left (s.w p) ≤ 1 := by unfold left; split <;> omega
  omega

/-- C25: only process 0 writes an `<n>_except` snapshot, as its very last action,
and `n` is the last global number it took. -/
theorem C25_except_only_first (c : Cfg S) (sched : List (Fin P × Inp O A K S)) (p : Fin P) (n : Nat)
    (h : (p, Ev.saveExcept n) ∈ (run c P sched).1) :
    p.val = 0 ∧ ∃ pre, eventsOf p (run c P sched).1 = pre ++ [.saveExcept n] ∧
      n = (pre.filterMap Ev.countNo).getLastD 0 := by
  have hm : Ev.saveExcept n ∈ eventsOf p (run c P sched).1 := by
    simp only [eventsOf, List.mem_map, List.mem_filter, decide_eq_true_eq]
    exact ⟨_, ⟨h, rfl⟩, rfl⟩
  have hx := exInv_run c sched p
  obtain ⟨h1, l', h2, h5⟩ := hx.form _ hm rfl
  refine ⟨h1, l', ?_⟩
  have h3 : lastNo (eventsOf p (run c P sched).1) = (l'.filterMap Ev.countNo).getLastD 0 := by
    rw [h2]; exact lastNo_append_nil _ _ rfl
  have h4 : n = lastNo (eventsOf p (run c P sched).1) := by
    rw [h2] at hm
    rcases List.mem_append.mp hm with hm | hm
    · have := h5 _ hm; cases this
    · simpa using hm
  rw [h4]
  exact ⟨h2, h3⟩

/-- C25: when a call made by process 0 raises, its next slice writes the
`<n>_except` snapshot (unless that raises as well), and the process is dead. -/
theorem C25_except_saved (c : Cfg S) (sched : List (Fin P × Inp O A K S)) (p : Fin P) (i : Inp O A K S)
    (h0 : p.val = 0) (hi : i.raise = false) (h : ((run c P sched).2.w p).pc = .except) :
    (run c P (sched ++ [(p, i)])).1 = (run c P sched).1 ++
      [(p, .saveExcept (((eventsOf p (run c P sched).1).filterMap Ev.countNo).getLastD 0))] ∧
    ((run c P (sched ++ [(p, i)])).2.w p).pc = .dead := by
  have h1 := (exInv_run c sched p).last
  rw [run_append_one]
  simp [State.slice, slice, h, h0, hi, h1, lastNo]

/-- C25: the episode counter never exceeds the number of ended episodes, and
misses at most one per process. -/
theorem C25_episodes_counted (c : Cfg S) (sched : List (Fin P × Inp O A K S)) :
    (run c P sched).2.g.episodes ≤ (run c P sched).1.countP (fun e => e.2.isStop) ∧
    (run c P sched).1.countP (fun e => e.2.isStop) ≤ (run c P sched).2.g.episodes + P := by
  obtain ⟨pend, h1, h2⟩ := epInv_run c sched
  have h3 : ∑ p, pend p ≤ P := by
    calc ∑ p, pend p ≤ ∑ _p : Fin P, 1 := Finset.sum_le_sum fun p _ => (h2 p).le
      _ = P := by simp
  omega

/-- C25: when all processes have returned and no evaluation succeeded, every
ended episode was counted: no update of the shared counter is lost. -/
theorem C25_episodes_exact (c : Cfg S) (sched : List (Fin P × Inp O A K S))
    (hend : ∀ p, ((run c P sched).2.w p).pc = .ended) (hnd : (run c P sched).2.g.done = false) :
    (run c P sched).2.g.episodes = (run c P sched).1.countP (fun e => e.2.isStop) := by
  obtain ⟨pend, h1, h2⟩ := epInv_run c sched
  have h3 : ∑ p, pend p = 0 := by
    refine Finset.sum_eq_zero fun p _ => ?_
    have := h2 p
    simp only [PendOk, hend p, hnd] at this
    simpa using this
  omega

/-- C25: the episode numbers that the evaluator gets are numbers of counted
episodes, and no two processes pass the same one (0: none counted yet). -/
theorem C25_episode_numbers (c : Cfg S) (sched : List (Fin P × Inp O A K S)) (p q : Fin P) (t t' e : Nat)
    (hp : (p, Ev.evaluate t e) ∈ (run c P sched).1) (hq : (q, Ev.evaluate t' e) ∈ (run c P sched).1) :
    e ≤ (run c P sched).2.g.episodes ∧ (e ≠ 0 → p = q) :=
  ⟨(numInv_run c sched).tle _ _ _ hp, (numInv_run c sched).tinj _ _ _ _ _ hp hq⟩

/-! ## Success -/

/-- In the schedule, process `p` made an evaluation that returned a score of at least `successful_score`. -/
def Reached (c : Cfg S) (sched : List (Fin P × Inp O A K S)) (p : Fin P) : Prop :=
  ∃ pre i post x y, sched = pre ++ (p, i) :: post ∧ ((run c P pre).2.w p).pc = .evaluate ∧ c.hasEvaluator = true ∧ i.raise = false ∧
    i.score = some x ∧ c.successfulScore = some y ∧ y ≤ x

theorem exec_append (c : Cfg S) (l l' : List (Fin P × Inp O A K S)) : ∀ s : State P O A K,
    s.exec c (l ++ l') = ((s.exec c l).1 ++ ((s.exec c l).2.exec c l').1, ((s.exec c l).2.exec c l').2) := by
  induction l with
  | nil => intro s; simp [State.exec]
  | cons a l ih => intro s; simp [State.exec, ih]

theorem Reached.append {c : Cfg S} {sched : List (Fin P × Inp O A K S)} {p : Fin P} (h : Reached c sched p) (l : List (Fin P × Inp O A K S)) :
    Reached c (sched ++ l) p := by
  obtain ⟨pre, i, post, x, y, rfl, h⟩ := h
  exact ⟨pre, i, post ++ l, x, y, by simp, h⟩

theorem slice_done (c : Cfg S) (idx : Nat) (i : Inp O A K S) (g : Shared) (w : Worker O A K) :
    let r := slice c idx i g w
    (r.2.1.done = true → g.done = true ∨ w.pc = .setDone) ∧ (g.done = true → r.2.1.done = true) ∧
    (w.pc = .setDone → r.2.1.done = true) ∧
    (r.2.2.pc = .setDone → w.pc = .evaluate ∧ c.hasEvaluator = true ∧ i.raise = false ∧ isSuccess c i.score = true) ∧
    (r.2.2.successful = true → w.successful = true ∨ w.pc = .setDone) ∧
    (Ev.saveSuccessful ∈ r.1 → w.successful = true) := by
  intro r
  simp only [r]
  obtain ⟨pc, t, n, suc⟩ := w
  cases pc <;> simp only [slice] <;> (repeat' split) <;> simp_all

/-- C25, success: the event that ends the training of all processes is set, and a `successful` snapshot is written, only if some process made an evaluation whose score
reached `successful_score`. -/
theorem C25_success_only (c : Cfg S) (sched : List (Fin P × Inp O A K S)) :
    ((run c P sched).2.g.done = true → ∃ p, Reached c sched p) ∧
    (∀ p, (p, Ev.saveSuccessful) ∈ (run c P sched).1 → Reached c sched p) := by
  have inv : ∀ sched : List (Fin P × Inp O A K S), ((run c P sched).2.g.done = true → ∃ p, Reached c sched p) ∧
      (∀ p, ((run c P sched).2.w p).pc = .setDone ∨ ((run c P sched).2.w p).successful = true → Reached c sched p) ∧
      (∀ p, (p, Ev.saveSuccessful) ∈ (run c P sched).1 → Reached c sched p) := by
    intro sched
    induction sched using List.reverseRecOn with
    | nil => simp [run, State.exec, init, initShared]
    | append_singleton sched a ih =>
      obtain ⟨q, i⟩ := a
      obtain ⟨h1, h2, h3⟩ := ih
      have e : run c P (sched ++ [(q, i)]) = ((run c P sched).1 ++ ((run c P sched).2.slice c q i).1, ((run c P sched).2.slice c q i).2) := by
        simp [run, exec_append, State.exec]
      obtain ⟨k1, -, -, k4, k5, k6⟩ := slice_done c q.val i (run c P sched).2.g ((run c P sched).2.w q)
      rw [e]
      refine ⟨fun hd => ?_, fun p hp => ?_, fun p hp => ?_⟩
      · rcases k1 hd with h | h
        · obtain ⟨p, hp⟩ := h1 h
          exact ⟨p, hp.append _⟩
        · exact ⟨q, (h2 q (.inl h)).append _⟩
      · simp only [State.slice] at hp
        by_cases hpq : p = q
        · subst hpq
          rw [Function.update_self] at hp
          rcases hp with hp | hp
          · obtain ⟨a1, a2, a3, a4⟩ := k4 hp
            unfold isSuccess at a4
            split at a4
            · rename_i x y hx hy
              exact ⟨sched, i, [], x, y, rfl, a1, a2, a3, hx, hy, by simpa using a4⟩
            · simp at a4
          · rcases k5 hp with h | h
            · exact (h2 p (.inr h)).append _
            · exact (h2 p (.inl h)).append _
        · rw [Function.update_of_ne hpq] at hp
          exact (h2 p hp).append _
      · rcases List.mem_append.1 hp with hp | hp
        · exact (h3 p hp).append _
        · simp only [State.slice, List.mem_map] at hp
          obtain ⟨ev, hev, he⟩ := hp
          injection he with he1 he2
          subst he1 he2
          exact (h2 q (.inr (k6 hev))).append _
  exact ⟨(inv sched).1, (inv sched).2.2⟩

/-- C25, success: once an evaluation of a process has reached `successful_score` and that process has run on by a slice, the event is set, whatever the others do. -/
theorem C25_success_ends (c : Cfg S) (pre post : List (Fin P × Inp O A K S)) (p : Fin P) (i : Inp O A K S) (x y : S)
    (hpc : ((run c P pre).2.w p).pc = .evaluate) (he : c.hasEvaluator = true) (hi : i.raise = false) (hx : i.score = some x) (hy : c.successfulScore = some y) (hxy : y ≤ x)
    (hpost : p ∈ post.map Prod.fst) : (run c P (pre ++ (p, i) :: post)).2.g.done = true := by
  have key : ∀ (post : List (Fin P × Inp O A K S)) (s : State P O A K),
      s.g.done = true ∨ ((s.w p).pc = .setDone ∧ p ∈ post.map Prod.fst) → (s.exec c post).2.g.done = true := by
    intro post
    induction post with
    | nil => intro s h; simpa [State.exec] using h
    | cons a post ih =>
      obtain ⟨q, j⟩ := a
      intro s h
      obtain ⟨-, k2, k3, -⟩ := slice_done c q.val j s.g (s.w q)
      simp only [State.exec]
      apply ih
      rcases h with h | ⟨h, hm⟩
      · exact .inl (k2 h)
      · by_cases hpq : p = q
        · subst hpq; exact .inl (k3 h)
        · refine .inr ⟨?_, ?_⟩
          · simp only [State.slice]; rw [Function.update_of_ne hpq]; exact h
          · simpa [hpq] using hm
  have e : run c P (pre ++ (p, i) :: post) = ((run c P pre).1 ++ ((run c P pre).2.exec c ((p, i) :: post)).1, ((run c P pre).2.exec c ((p, i) :: post)).2) :=
    exec_append c pre _ _
  rw [e]
  simp only [State.exec]
  apply key
  refine .inr ⟨?_, hpost⟩
  simp only [State.slice, Function.update_self]
  simp [slice, hpc, he, hi, isSuccess, hx, hy, hxy]

/-! ## Concrete executions -/

def exCfg : Cfg Int := ⟨3, 0, none, true, some 5, 1⟩

def exInp (score : Option Int) : Inp Nat Nat Int Int := ⟨false, 1, 2, ⟨3, 4, true, false⟩, score⟩

/-- `n` rounds in which each of two processes runs one slice. -/
def exRounds (score : Option Int) : Nat → List (Fin 2 × Inp Nat Nat Int Int)
  | 0 => []
  | n + 1 => (0, exInp score) :: (1, exInp score) :: exRounds score n

-- without success: four steps were taken by two processes (bound 3 - 1 + 2), one `_finish`
example : ((run exCfg 2 (exRounds none 40)).2.w 0).pc = .ended ∧
    ((run exCfg 2 (exRounds none 40)).2.w 1).pc = .ended ∧
    (run exCfg 2 (exRounds none 40)).2.g = ⟨4, 4, false⟩ ∧
    (run exCfg 2 (exRounds none 40)).1.filter (fun e => e.2.isFinish) = [(0, .saveFinish 3)] := by
  decide +kernel

-- a score equal to `successful_score` is a success
example : (run exCfg 2 (exRounds (some 5) 40)).2.g.done = true ∧ (run exCfg 2 (exRounds (some 4) 40)).2.g.done = false := by
  decide +kernel

-- both processes succeed; only one `successful` snapshot, no `_finish`
example : (run exCfg 2 (exRounds (some 7) 40)).2.g = ⟨2, 0, true⟩ ∧
    (run exCfg 2 (exRounds (some 7) 40)).1.filter (fun e => e.2.isSuccessful) = [(0, .saveSuccessful)] ∧
    (run exCfg 2 (exRounds (some 7) 40)).1.countP (fun e => e.2.isFinish) = 0 := by
  decide +kernel

-- process 0 raises in its third slice: one `_except` snapshot
example : ((run exCfg 2 [(0, exInp none), (0, exInp none), (0, { exInp none with raise := true })]).2.w 0).pc = .except ∧
    (run exCfg 2 [(0, exInp none), (0, exInp none), (0, { exInp none with raise := true }),
      (0, exInp none)]).1.filter (fun e => e.2.isExcept) = [(0, .saveExcept 0)] := by
  decide +kernel

end Verif.TrainAsync
