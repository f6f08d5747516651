import Verif.Model.TrainBatchDQN
import Verif.Spec.TrainBatchDQN
import Verif.Props.TrainDQN
import Verif.Props.TrainAgentBatch
set_option autoImplicit false
set_option linter.unusedSectionVars false

/-! # C122: what a vectorised training run puts into the replay buffer -/

namespace Verif.TrainBatchDQN
open DQN (EnvStep EnvRound)
open TrainDQN (told tellStep told_eq told_append entriesOf stored buffer bufOps stepOf slices_map newest_map)
open TrainBatch (Phase Next Ev)
open Train (StepOut)
variable {θ O A R S H X : Type} [Zero S] [LinearOrder S]

theorem record_snoc (i : Nat) (l : List (Ev O A R S)) (e : Ev O A R S) : record i (l ++ [e]) = (record i l).watch i e := by
  simp [record]

theorem drive_snoc (c : DQN.Cfg θ O H) (ps : Nat → Nat → θ) (s : DQN.St θ O A H) (l : List (Ev O A R S)) (e : Ev O A R S)
    (x y : Nat × DQN.St θ O A H × List (DQN.Ev θ O A R H)) (h : drive c ps s l = .ok x) (h' : driveStep c ps x e = .ok y) :
    drive c ps s (l ++ [e]) = .ok y := by
  unfold drive at h ⊢
  rw [List.foldlM_append, h]
  show (driveStep c ps x e >>= fun z => pure z) = _
  rw [h']
  rfl

/-- The rows of a round. -/
theorem rows (n : Nat) : ∀ (os : List O) (as : List A) (outs : List (StepOut O R)) (rs : List Bool) (ps : List θ),
    os.length = n → as.length = n → outs.length = n → rs.length = n → ps.length = n →
    ∃ r : List (EnvRound θ O A R), r.map (·.obs) = os ∧ r.map (·.action) = as ∧ r.map (·.nextObs) = outs.map (·.obs) ∧
      r.map (·.reward) = outs.map (·.r) ∧ r.map (·.done) = outs.map (·.done) ∧ r.map (·.reset) = rs ∧ r.map (·.params) = ps := by
  induction n with
  | zero =>
    intro os as outs rs ps h1 h2 h3 h4 h5
    simp only [List.length_eq_zero_iff] at h1 h2 h3 h4 h5
    subst h1 h2 h3 h4 h5
    exact ⟨[], rfl, rfl, rfl, rfl, rfl, rfl, rfl⟩
  | succ n ih =>
    intro os as outs rs ps h1 h2 h3 h4 h5
    obtain ⟨o, os, rfl⟩ := List.exists_cons_of_length_eq_add_one h1
    obtain ⟨a, as, rfl⟩ := List.exists_cons_of_length_eq_add_one h2
    obtain ⟨out, outs, rfl⟩ := List.exists_cons_of_length_eq_add_one h3
    obtain ⟨x, rs, rfl⟩ := List.exists_cons_of_length_eq_add_one h4
    obtain ⟨p, ps, rfl⟩ := List.exists_cons_of_length_eq_add_one h5
    simp only [List.length_cons, Nat.add_right_cancel_iff] at h1 h2 h3 h4 h5
    obtain ⟨r, g1, g2, g3, g4, g5, g6, g7⟩ := ih os as outs rs ps h1 h2 h3 h4 h5
    exact ⟨⟨o, a, out.r, out.obs, out.done, x, p⟩ :: r, by simp [g1], by simp [g2], by simp [g3], by simp [g4], by simp [g5], by simp [g6],
      by simp [g7]⟩

/-- `batch_observe_and_train` after `batch_act_and_train`. -/
theorem observe_ok (d : DQN.Cfg θ O H) (hd : 0 < d.targetInterval) (s0 : DQN.St θ O A H) (r : List (EnvRound θ O A R)) :
    ∃ s' ev, d.call (d.batchActAndTrain s0 (r.map (·.obs)) (r.map (·.action))) (.batchObserve (DQN.obsOf r)) = .ok (s', ev) ∧
      DQN.bufCalls ev = r.zipIdx.flatMap (fun p => p.1.sends p.2) := by
  obtain ⟨s', ev, h1, h2, -, -⟩ := DQN.run_round d hd r s0
  refine ⟨s', ev, ?_, h2⟩
  simp only [DQN.roundCalls, DQN.Cfg.run] at h1
  obtain ⟨⟨s1, e1⟩, g1, h1⟩ := DQN.except_bind_ok.1 h1
  obtain ⟨⟨s2, e2⟩, g2, h1⟩ := DQN.except_bind_ok.1 h1
  obtain ⟨⟨s3, e3⟩, g3, g2⟩ := DQN.except_bind_ok.1 g2
  obtain ⟨⟨s4, e4⟩, g4, g2⟩ := DQN.except_bind_ok.1 g2
  simp only [pure, Except.pure, DQN.Cfg.call, Except.ok.injEq, Prod.mk.injEq] at g1 g2 g4 h1
  obtain ⟨rfl, rfl⟩ := g1
  obtain ⟨rfl, rfl⟩ := g4
  obtain ⟨rfl, rfl⟩ := g2
  obtain ⟨rfl, rfl⟩ := h1
  simpa [DQN.Cfg.call] using g3

theorem foldl_tell (i : Nat) (l : List (DQN.BufCall O A R)) : ∀ k, l.foldl (tellStep i) k = (l.filter (fun b => b.env == i)).foldl (tellStep i) k := by
  induction l with
  | nil => intro k; rfl
  | cons b l ih =>
    intro k
    by_cases hb : b.env = i
    · rw [List.filter_cons_of_pos (by simp [hb])]; exact ih _
    · rw [List.filter_cons_of_neg (by simp [hb]), List.foldl_cons, ih]
      congr 1
      cases b with
      | append e x => simp only [DQN.BufCall.env] at hb; simp [tellStep, hb]
      | stop e => simp only [DQN.BufCall.env] at hb; simp [tellStep, hb]

/-- What environment `i` has after it sent its step. -/
theorem tell_sends (i : Nat) (e : EnvRound θ O A R) (fin : List (List (EnvStep O A R))) (prior : List (EnvStep O A R)) :
    (e.sends i).foldl (tellStep i) (fin, prior) =
      if e.done = true ∨ e.reset = true then (fin ++ [prior ++ [⟨e.obs, e.action, e.reward, e.nextObs, e.done⟩]], [])
      else (fin, prior ++ [⟨e.obs, e.action, e.reward, e.nextObs, e.done⟩]) := by
  unfold DQN.EnvRound.sends
  cases hd : e.done <;> cases hr : e.reset <;> simp [tellStep]

/-! ## The invariant -/

/-- How the agent relates to the records. -/
def Inv (d : DQN.Cfg θ O H) (n : Nat) (l : List (Ev O A R S)) (s : DQN.St θ O A H) : Phase O A R S → Prop
  | .fresh => l = []
  | .ready obss lens _ _ => obss.length = n ∧ lens.length = n ∧
      ∀ i, i < n → (record i l).obs = obss[i]? ∧ (record i l).told = ((record i l).finished, (record i l).current)
  | .chosen a lens _ _ => lens.length = n ∧ a.length = n ∧ ∃ s0 obss, obss.length = n ∧ s = d.batchActAndTrain s0 obss a ∧
      ∀ i, i < n → (record i l).obs = obss[i]? ∧ (record i l).told = ((record i l).finished, (record i l).current)
  | .stepped outs lens _ _ => lens.length = n ∧ outs.length = n ∧ ∃ s0 obss a, obss.length = n ∧ a.length = n ∧ s = d.batchActAndTrain s0 obss a ∧
      ∀ i, i < n → ∃ o x out prior, obss[i]? = some o ∧ a[i]? = some x ∧ outs[i]? = some out ∧
        (record i l).current = prior ++ [⟨o, x, out.r, out.obs, out.done⟩] ∧ (record i l).told = ((record i l).finished, prior)
  | .counting todo ends lens _ _ => lens.length = n ∧ ends.length = n ∧ (∀ e ∈ todo, e.isUse = false ∧ ∀ t, e ≠ .setT t) ∧
      ∀ i, i < n → (record i l).current ≠ [] ∧
        (record i l).told = if ends[i]? = some true then ((record i l).finished ++ [(record i l).current], []) else ((record i l).finished, (record i l).current)
  | .judged _ ends lens _ _ => lens.length = n ∧ ends.length = n ∧
      ∀ i, i < n → (record i l).current ≠ [] ∧
        (record i l).told = if ends[i]? = some true then ((record i l).finished ++ [(record i l).current], []) else ((record i l).finished, (record i l).current)
  | .finished _ => ∀ i, i < n → (record i l).current ≠ [] ∧
      ((record i l).told = ((record i l).finished ++ [(record i l).current], []) ∨ (record i l).told = ((record i l).finished, (record i l).current))
  | .failed _ => True

/-- The whole invariant: the agent ran without error and the buffer was told what the records say. -/
def Good (d : DQN.Cfg θ O H) (c : TrainBatch.Cfg S) (ps : Nat → Nat → θ) (p0 : θ) (l : List (Ev O A R S)) (q : Phase O A R S) : Prop :=
  (∀ e ∈ l, Sized c.numEnvs e) →
  ∃ k s ev, drive d ps (DQN.init p0) l = .ok (k, s, ev) ∧ (∀ i, i < c.numEnvs → told i ev = (record i l).told) ∧
    (∀ i, c.numEnvs ≤ i → told i ev = ([], [])) ∧ Inv d c.numEnvs l s q

theorem watch_other (i : Nat) (w : Record O A R) (e : Ev O A R S) (h : e.isUse = false) : w.watch i e = w := by
  cases e <;> first | rfl | exact absurd h (by simp [Ev.isUse])

theorem driveStep_other (d : DQN.Cfg θ O H) (ps : Nat → Nat → θ) (x : Nat × DQN.St θ O A H × List (DQN.Ev θ O A R H)) (e : Ev O A R S)
    (h : e.isUse = false) (hT : ∀ t, e ≠ .setT t) : driveStep d ps x e = .ok x := by
  cases e <;> first | rfl | exact absurd rfl (hT _) | exact absurd h (by simp [Ev.isUse])

theorem good_other (d : DQN.Cfg θ O H) (c : TrainBatch.Cfg S) (ps : Nat → Nat → θ) (p0 : θ) (l : List (Ev O A R S)) (q r : Phase O A R S) (e : Ev O A R S)
    (h : Good d c ps p0 l q) (he : e.isUse = false) (hT : ∀ t, e ≠ .setT t)
    (hI : ∀ s, (∀ i, record i (l ++ [e]) = record i l) → Inv d c.numEnvs l s q → Inv d c.numEnvs (l ++ [e]) s r) : Good d c ps p0 (l ++ [e]) r := by
  intro hs
  obtain ⟨k, s, ev, h1, h2, h2', h3⟩ := h fun e' he' => hs e' (by simp [he'])
  have hrec : ∀ i, record i (l ++ [e]) = record i l := fun i => by rw [record_snoc, watch_other i _ e he]
  exact ⟨k, s, ev, drive_snoc d ps _ l e _ _ h1 (driveStep_other d ps _ e he hT), fun i hi => by rw [hrec, h2 i hi], h2', hI s hrec h3⟩

theorem good_judged (d : DQN.Cfg θ O H) (c : TrainBatch.Cfg S) (ps : Nat → Nat → θ) (p0 : θ) (l : List (Ev O A R S)) (b : Bool) (ends : List Bool)
    (lens : List Nat) (t k : Nat) (e : Ev O A R S) (r : Phase O A R S) (h : Good d c ps p0 l (.judged b ends lens t k))
    (hn : Next c (.judged b ends lens t k) e r) : Good d c ps p0 (l ++ [e]) r := by
  rcases TrainBatch.judged_inv hn with ⟨-, -, obss, rfl, rfl⟩ | ⟨-, rfl, rfl⟩ | ⟨rfl, rfl⟩
  · intro hs
    obtain ⟨k', s, ev, h1, h2, h2', h3, h4, h5⟩ := h fun e' he' => hs e' (by simp [he'])
    have hsz : Sized c.numEnvs (Ev.reset (A := A) (K := R) (S := S) (some (ends.map not)) obss) := hs _ (by simp)
    refine ⟨k', s, ev, drive_snoc d ps _ l _ _ _ h1 rfl, ?_, h2', hsz, by simp [h3, h4], ?_⟩
    · intro i hi
      rw [record_snoc, h2 i hi]
      simp only [Record.watch]
      split <;> rfl
    · intro i hi
      rw [record_snoc]
      obtain ⟨hc, g1⟩ := h5 i hi
      have hlt : i < ends.length := by omega
      cases hb : ends[i] with
      | true =>
        have e1 : ends[i]? = some true := by rw [List.getElem?_eq_getElem hlt, hb]
        rw [if_pos e1] at g1
        simp [Record.watch, e1, hc, g1]
      | false =>
        have e1 : ends[i]? = some false := by rw [List.getElem?_eq_getElem hlt, hb]
        rw [if_neg (by rw [e1]; simp)] at g1
        simp [Record.watch, e1, g1]
  · exact good_other d c ps p0 l _ _ _ h rfl (by intro t h; cases h) fun s hrec hI => by
      obtain ⟨-, -, h5⟩ := hI
      intro i hi
      rw [hrec]
      obtain ⟨g1, g2⟩ := h5 i hi
      refine ⟨g1, ?_⟩
      split at g2
      · exact .inl g2
      · exact .inr g2
  · exact good_other d c ps p0 l _ _ _ h rfl (by intro t h; cases h) fun _ _ _ => trivial

theorem good_step (d : DQN.Cfg θ O H) (hd : 0 < d.targetInterval) (c : TrainBatch.Cfg S) (ps : Nat → Nat → θ) (p0 : θ) (l : List (Ev O A R S))
    (q : Phase O A R S) (e : Ev O A R S) (r : Phase O A R S) (h : Good d c ps p0 l q) (hn : Next c q e r) : Good d c ps p0 (l ++ [e]) r := by
  cases hn with
  | first obss =>
    intro hs
    obtain ⟨k, s, ev, h1, h2, h2', rfl⟩ := h fun e' he' => hs e' (by simp [he'])
    have hsz : Sized c.numEnvs (Ev.reset (A := A) (K := R) (S := S) none obss) := hs _ (by simp)
    refine ⟨k, s, ev, drive_snoc d ps _ [] _ _ _ h1 rfl, h2, h2', hsz, by simp, fun i hi => ⟨rfl, rfl⟩⟩
  | setT obss lens =>
    intro hs
    obtain ⟨k, s, ev, h1, h2, h2', h3, h4, h5⟩ := h fun e' he' => hs e' (by simp [he'])
    have hrec : ∀ i, record i (l ++ [Ev.setT c.stepOffset]) = record i l := fun i => by rw [record_snoc]; rfl
    exact ⟨k, _, ev, drive_snoc d ps _ l _ _ _ h1 rfl, fun i hi => by rw [hrec, h2 i hi], h2', h3, h4, fun i hi => by rw [hrec]; exact h5 i hi⟩
  | act obss lens t k a =>
    intro hs
    obtain ⟨k, s, ev, h1, h2, h2', h3, h4, h5⟩ := h fun e' he' => hs e' (by simp [he'])
    have hsz : Sized c.numEnvs (Ev.act (K := R) (S := S) obss a) := hs _ (by simp)
    have hrec : ∀ i, record i (l ++ [Ev.act obss a]) = record i l := fun i => by rw [record_snoc]; rfl
    refine ⟨k, _, ev ++ [], drive_snoc d ps _ l _ _ _ h1 rfl, fun i hi => ?_, ?_, h4, hsz, s, obss, h3, rfl, fun i hi => by rw [hrec]; exact h5 i hi⟩
    · rw [hrec, List.append_nil, h2 i hi]
    · rw [List.append_nil]; exact h2'
  | step a lens t k outs =>
    intro hs
    obtain ⟨k, s, ev, h1, h2, h2', h3, h4, s0, obss, h5, h6, h7⟩ := h fun e' he' => hs e' (by simp [he'])
    have hsz : Sized c.numEnvs (Ev.step (S := S) a outs) := hs _ (by simp)
    simp only [Sized] at hsz
    have hw : ∀ i, i < c.numEnvs → ∃ o x out, obss[i]? = some o ∧ a[i]? = some x ∧ outs[i]? = some out ∧
        record i (l ++ [.step a outs]) = { record i l with current := (record i l).current ++ [⟨o, x, out.r, out.obs, out.done⟩], obs := some out.obs } := by
      intro i hi
      have e1 := List.getElem?_eq_getElem (l := obss) (i := i) (by omega)
      have e2 := List.getElem?_eq_getElem (l := a) (i := i) (by omega)
      have e3 := List.getElem?_eq_getElem (l := outs) (i := i) (by omega)
      refine ⟨_, _, _, e1, e2, e3, ?_⟩
      rw [record_snoc]
      simp only [Record.watch, (h7 i hi).1, e1, e2, e3]
    refine ⟨k, s, ev, drive_snoc d ps _ l _ _ _ h1 rfl, fun i hi => ?_, h2', by simpa using h3, hsz, s0, obss, a, h5, h4, h6, fun i hi => ?_⟩
    · obtain ⟨o, x, out, -, -, -, e4⟩ := hw i hi
      rw [e4, h2 i hi]
    · obtain ⟨o, x, out, e1, e2, e3, e4⟩ := hw i hi
      refine ⟨o, x, out, (record i l).current, e1, e2, e3, ?_, ?_⟩
      · rw [e4]
      · rw [e4]; exact (h7 i hi).2
  | observe outs lens t k resets ends hr he =>
    intro hs
    obtain ⟨k, s, ev, h1, h2, h2', h3, h4, s0, obss, a, h5, h6, rfl, h7⟩ := h fun e' he' => hs e' (by simp [he'])
    have hrl : resets.length = c.numEnvs := by rw [hr]; simp [h3, h4]
    have hel : ends.length = c.numEnvs := by rw [he]; simp [hrl, h4]
    obtain ⟨r, g1, g2, g3, g4, g5, g6, g7⟩ := rows c.numEnvs obss a outs resets ((List.range (outs.map (·.obs)).length).map (ps k)) h5 h6 h4 hrl (by simp [h4])
    obtain ⟨s', ev', f1, f2⟩ := observe_ok d hd s0 r
    have f1' : d.call (d.batchActAndTrain s0 obss a) (.batchObserve ⟨outs.map (·.obs), outs.map (·.r), outs.map (·.done), resets,
        (List.range (outs.map (·.obs)).length).map (ps k)⟩) = .ok (s', ev') := by
      rw [← f1, DQN.obsOf, g1, g2, g3, g4, g5, g6, g7]
    have hstep : driveStep d ps (k, d.batchActAndTrain s0 obss a, ev) (Ev.observe (S := S) (outs.map (·.obs)) (outs.map (·.r)) (outs.map (·.done)) resets) =
        .ok (k + 1, s', ev ++ ev') := by
      simp only [driveStep, f1', bind, Except.bind, pure, Except.pure]
    have htold : ∀ i, told i (ev ++ ev') = ((r[i]?.map (fun e => e.sends i)).getD []).foldl (tellStep i) (told i ev) := by
      intro i
      rw [told_append, f2, foldl_tell, DQN.filter_sends]
      simp
    have hrlen : r.length = c.numEnvs := by rw [← h5, ← g1, List.length_map]
    have hmain : ∀ i, i < c.numEnvs → told i (ev ++ ev') =
        (if ends[i]? = some true then ((record i l).finished ++ [(record i l).current], []) else ((record i l).finished, (record i l).current)) ∧
        (ends[i]? = some true ↔ (outs.map (·.done))[i]? = some true ∨ resets[i]? = some true) ∧ (record i l).current ≠ [] := by
      intro i hi
      obtain ⟨o, x, out, prior, e1, e2, e3, e4, e5⟩ := h7 i hi
      obtain ⟨row, er⟩ : ∃ row, r[i]? = some row := ⟨_, List.getElem?_eq_getElem (by omega)⟩
      have q1 : row.obs = o := by
        have := congrArg (fun l => l[i]?) g1; simp [er, e1] at this; exact this
      have q2 : row.action = x := by
        have := congrArg (fun l => l[i]?) g2; simp [er, e2] at this; exact this
      have q3 : row.nextObs = out.obs := by
        have := congrArg (fun l => l[i]?) g3; simp [er, e3] at this; exact this
      have q4 : row.reward = out.r := by
        have := congrArg (fun l => l[i]?) g4; simp [er, e3] at this; exact this
      have q5 : row.done = out.done := by
        have := congrArg (fun l => l[i]?) g5; simp [er, e3] at this; exact this
      have q6 : resets[i]? = some row.reset := by
        rw [← g6, List.getElem?_map, er]; rfl
      have hends : ends[i]? = some (row.reset || out.done) := by
        rw [he, List.getElem?_map, List.getElem?_zip_eq_some (z := (row.reset, out)).2 ⟨q6, e3⟩]; rfl
      refine ⟨?_, ?_, by rw [e4]; simp⟩
      · rw [htold, er, h2 i hi, e5]
        simp only [Option.map_some, Option.getD_some]
        rw [tell_sends, q1, q2, q3, q4, q5, ← e4, hends]
        cases out.done <;> cases row.reset <;> simp
      · rw [hends, q6, List.getElem?_map, e3]
        simp only [Option.map_some, Option.some.injEq, Bool.or_eq_true]
        exact Or.comm
    have hrec : ∀ i, i < c.numEnvs → record i (l ++ [.observe (outs.map (·.obs)) (outs.map (·.r)) (outs.map (·.done)) resets]) =
        { record i l with told := if ends[i]? = some true then ((record i l).finished ++ [(record i l).current], []) else ((record i l).finished, (record i l).current) } := by
      intro i hi
      rw [record_snoc]
      simp only [Record.watch, (hmain i hi).2.1]
    refine ⟨k + 1, s', ev ++ ev', drive_snoc d ps _ l _ _ _ h1 hstep, fun i hi => ?_, fun i hi => ?_, h3, hel, fun e he => ?_, fun i hi => ?_⟩
    · rw [hrec i hi]; exact (hmain i hi).1
    · rw [htold, List.getElem?_eq_none (by omega)]
      exact h2' i hi
    · have := TrainBatch.due_mem he
      refine ⟨?_, fun t ht => ?_⟩
      · cases e <;> first | rfl | exact absurd this.2 (by simp [Ev.isDue])
      · rw [ht] at this; exact absurd this.2 (by simp [Ev.isDue])
    · rw [hrec i hi]
      exact ⟨(hmain i hi).2.2, rfl⟩
  | count e todo ends lens t k =>
    intro hs
    obtain ⟨k', s, ev, h1, h2, h2', h3, h4, h5, h6⟩ := h fun e' he' => hs e' (by simp [he'])
    have ho := h5 e (by simp)
    have hrec : ∀ i, record i (l ++ [e]) = record i l := fun i => by rw [record_snoc, watch_other i _ e ho.1]
    exact ⟨k', s, ev, drive_snoc d ps _ l e _ _ h1 (driveStep_other d ps _ e ho.1 ho.2), fun i hi => by rw [hrec, h2 i hi], h2', h3, h4,
      fun e' he' => h5 e' (by simp [he']), fun i hi => by rw [hrec]; exact h6 i hi⟩
  | evaluate ends lens t k score m hev =>
    refine good_other d c ps p0 l _ _ _ h rfl (by intro t h; cases h) fun s hrec hI => ?_
    obtain ⟨h3, h4, -, h6⟩ := hI
    exact ⟨h3, h4, fun i hi => by rw [hrec]; exact h6 i hi⟩
  | noEvaluator hev hn =>
    refine good_judged d c ps p0 l _ _ _ _ _ e r ?_ hn
    intro hs
    obtain ⟨k', s, ev, h1, h2, h2', h3, h4, -, h6⟩ := h hs
    exact ⟨k', s, ev, h1, h2, h2', h3, h4, h6⟩
  | reset ends lens t k obss hlt => exact good_judged d c ps p0 l _ _ _ _ _ _ _ h (.reset _ _ _ _ _ hlt)
  | finish b ends lens t k hb => exact good_judged d c ps p0 l _ _ _ _ _ _ _ h (.finish _ _ _ _ _ hb)
  | fail p hp => exact good_other d c ps p0 l _ _ _ h rfl (by intro t h; cases h) fun _ _ _ => trivial
  | closeEnv t => exact good_other d c ps p0 l _ _ _ h rfl (by intro t h; cases h) fun _ _ _ => trivial
  | closeEvalEnv t => exact good_other d c ps p0 l _ _ _ h rfl (by intro t h; cases h) fun _ _ _ => trivial

theorem good_run (d : DQN.Cfg θ O H) (hd : 0 < d.targetInterval) (c : TrainBatch.Cfg S) {q : Phase O A R S} {l : List (Ev O A R S)}
    (h : Steps (Next c) .fresh l q) (ps : Nat → Nat → θ) (p0 : θ) : Good d c ps p0 l q := by
  refine h.invariant (I := fun l q => Good d c ps p0 l q) ?_ (good_step d hd c ps p0)
  intro _
  exact ⟨0, _, [], rfl, fun _ _ => rfl, fun _ _ => rfl, rfl⟩

/-- The entries of the buffer, by environment. -/
theorem stored_spec (cap : Option Nat) (n : Nat) (hn : 0 < n) (ev : List (DQN.Ev θ O A R H)) :
    ∃ ent : List (Nat × List (EnvStep O A R)), stored (buffer cap n ev) = BoundedList.newest cap (ent.map Prod.snd) ∧
      ∀ i, (ent.filter (fun p => p.1 = i)).map Prod.snd = entriesOf n (told i ev) := by
  obtain ⟨ent, h1, h2⟩ := NStep.run_spec (RAQ (List (DQN.Rec O A R H))) (·.terminal) n hn (bufOps ev)
  refine ⟨ent.map fun p => (p.1, p.2.map stepOf), ?_, ?_⟩
  · unfold stored buffer ReplayBuffer.entries ReplayBuffer.run ReplayBuffer.init
    rw [h1 RAQ.append]
    simp only
    rw [(RAQ.foldl_append_iter _ _ (RAQ.init_ok cap [])).1]
    simp only [(RAQ.init_iter _ _).1, (RAQ.init_iter _ _).2, newest_map]
    have e0 : BoundedList.newest cap ([] : List (List (DQN.Rec O A R H))) = [] := by cases cap <;> simp [BoundedList.newest]
    simp [Function.comp_def, e0]
  · intro i
    have := congrArg (List.map (List.map stepOf)) (h2 i)
    simp only [NStep.stored, List.map_append, (slices_map stepOf n _).2, List.map_flatMap, List.map_map] at this
    unfold entriesOf told
    simp only [List.flatMap_map, (slices_map stepOf n _).1] at this ⊢
    rw [← this]
    simp [List.filter_map, Function.comp_def]

/-- C122: at every moment of every run of `train_agent_batch` with a DQN, also one that an exception ends, no call of the agent raises by itself and its
replay buffer holds, in some interleaving of the environments, exactly the entries that belong to the steps of each environment the agent has been told
of, in order, or the newest ones of these if it is full. -/
theorem C122_buffer (c : TrainBatch.Cfg S) (hc : 0 < c.numEnvs) (w : TrainBatch.World O A R S X) (d : DQN.Cfg θ O H) (hd : 0 < d.targetInterval)
    (cap : Option Nat) (n : Nat) (hn : 0 < n) (ps : Nat → Nat → θ) (p0 : θ) (pre post : List (Ev O A R S)) (hrun : (TrainBatch.run c w).1 = pre ++ post)
    (hs : ∀ e ∈ pre, Sized c.numEnvs e) :
    ∃ k s ev, drive d ps (DQN.init p0) pre = .ok (k, s, ev) ∧
      ∃ ent : List (Nat × List (EnvStep O A R)), stored (buffer cap n ev) = BoundedList.newest cap (ent.map Prod.snd) ∧
        (∀ p ∈ ent, p.1 < c.numEnvs) ∧
        ∀ i, i < c.numEnvs → (ent.filter (fun p => p.1 = i)).map Prod.snd = entriesOf n (record i pre).told := by
  obtain ⟨q', h, -⟩ := TrainBatch.C23_protocol c hc w
  rw [hrun] at h
  obtain ⟨q, h, -⟩ := h.split
  obtain ⟨k, s, ev, h1, h2, h3, -⟩ := good_run d hd c h ps p0 hs
  obtain ⟨ent, g1, g2⟩ := stored_spec cap n hn ev
  refine ⟨k, s, ev, h1, ent, g1, fun p hp => ?_, fun i hi => by rw [g2, h2 i hi]⟩
  refine Nat.lt_of_not_le fun hle => ?_
  have := g2 p.1
  rw [h3 _ hle] at this
  have e0 : entriesOf n (([], []) : List (List (EnvStep O A R)) × List (EnvStep O A R)) = [] := by
    simp [entriesOf, Episodes.fullSlices]; omega
  rw [e0, List.map_eq_nil_iff] at this
  have hm : p ∈ ent.filter (fun x => decide (x.1 = p.1)) := List.mem_filter.2 ⟨hp, by simp⟩
  rw [this] at hm
  cases hm

/-- C122: a run that ends normally has told the agent about every step of every environment: about all finished episodes, and about the last one, which
the agent takes to be over if the environment said so, if it has the maximal length or if `needs_reset` was set. -/
theorem C122_finished (c : TrainBatch.Cfg S) (hc : 0 < c.numEnvs) (w : TrainBatch.World O A R S X) (hok : (TrainBatch.run c w).2 = .ok ())
    (d : DQN.Cfg θ O H) (hd : 0 < d.targetInterval) (cap : Option Nat) (n : Nat) (hn : 0 < n) (ps : Nat → Nat → θ) (p0 : θ)
    (hs : ∀ e ∈ (TrainBatch.run c w).1, Sized c.numEnvs e) :
    ∃ k s ev, drive d ps (DQN.init p0) (TrainBatch.run c w).1 = .ok (k, s, ev) ∧
      ∃ ent : List (Nat × List (EnvStep O A R)), stored (buffer cap n ev) = BoundedList.newest cap (ent.map Prod.snd) ∧
        (∀ p ∈ ent, p.1 < c.numEnvs) ∧
        ∀ i, i < c.numEnvs → let r := record i (TrainBatch.run c w).1
          r.current ≠ [] ∧
          ((ent.filter (fun p => p.1 = i)).map Prod.snd = (r.finished ++ [r.current]).flatMap (Episodes.slices n) ∨
           (ent.filter (fun p => p.1 = i)).map Prod.snd = r.finished.flatMap (Episodes.slices n) ++ Episodes.fullSlices n r.current) := by
  obtain ⟨k, s, ev, h1, ent, h2, h3, h4⟩ := C122_buffer c hc w d hd cap n hn ps p0 (TrainBatch.run c w).1 [] (by simp) hs
  refine ⟨k, s, ev, h1, ent, h2, h3, fun i hi => ?_⟩
  obtain ⟨q', h, hq⟩ := TrainBatch.C23_protocol c hc w
  rw [hok] at hq
  obtain ⟨t, rfl⟩ := hq
  obtain ⟨_, _, _, _, _, _, hI⟩ := good_run d hd c h ps p0 hs
  obtain ⟨g1, g2⟩ := hI i hi
  refine ⟨g1, ?_⟩
  rw [h4 i hi]
  rcases g2 with g2 | g2 <;> rw [g2]
  · left
    have e1 : Episodes.fullSlices n ([] : List (EnvStep O A R)) = [] := by simp [Episodes.fullSlices]; omega
    simp [entriesOf, e1]
  · right; rfl

/-! ## Times of updates -/

/-- `batch_observe_and_train`. -/
def isObserve : Ev O A R S → Bool
  | .observe .. => true
  | _ => false

/-- How many rounds the agent has been told of. -/
def Told (n : Nat) (l : List (Ev O A R S)) : Phase O A R S → Prop
  | .stepped outs _ _ _ => l.countP isObserve + 1 = l.countP Ev.isStep ∧ outs.length = n
  | .failed _ => True
  | .fresh => l = []
  | _ => l.countP isObserve = l.countP Ev.isStep

/-- The agent's clock. -/
def Clock (d : DQN.Cfg θ O H) (c : TrainBatch.Cfg S) (ps : Nat → Nat → θ) (p0 : θ) (l : List (Ev O A R S)) (q : Phase O A R S) : Prop :=
  (∀ e ∈ l, Sized c.numEnvs e) → Told c.numEnvs l q ∧
  ∀ k s ev, drive d ps (DQN.init p0) l = .ok (k, s, ev) → ∃ base, (.setT c.stepOffset ∈ l → base = c.stepOffset) ∧
    DQN.Piece d { DQN.init p0 with t := base } s ev (List.range' (base + 1) (c.numEnvs * l.countP isObserve))

theorem drive_split (d : DQN.Cfg θ O H) (ps : Nat → Nat → θ) (s : DQN.St θ O A H) (l : List (Ev O A R S)) (e : Ev O A R S)
    (y : Nat × DQN.St θ O A H × List (DQN.Ev θ O A R H)) (h : drive d ps s (l ++ [e]) = .ok y) :
    ∃ x, drive d ps s l = .ok x ∧ driveStep d ps x e = .ok y := by
  unfold drive at h ⊢
  rw [List.foldlM_append] at h
  obtain ⟨x, h1, h2⟩ := DQN.except_bind_ok.1 h
  refine ⟨x, h1, ?_⟩
  rw [List.foldlM_cons] at h2
  obtain ⟨z, h2, h3⟩ := DQN.except_bind_ok.1 h2
  rw [h2]
  exact h3

/-- Calls other than those of the agent leave its clock alone. -/
theorem clock_other (d : DQN.Cfg θ O H) (c : TrainBatch.Cfg S) (ps : Nat → Nat → θ) (p0 : θ) (l : List (Ev O A R S)) (q r : Phase O A R S) (e : Ev O A R S)
    (h : Clock d c ps p0 l q) (he : ∀ x : Nat × DQN.St θ O A H × List (DQN.Ev θ O A R H), driveStep d ps x e = .ok x) (ho : isObserve e = false)
    (hT : ∀ t, e ≠ .setT t) (hq : Sized c.numEnvs e → Told c.numEnvs l q → Told c.numEnvs (l ++ [e]) r) : Clock d c ps p0 (l ++ [e]) r := by
  intro hs
  obtain ⟨h1, h2⟩ := h fun e' he' => hs e' (by simp [he'])
  refine ⟨hq (hs e (by simp)) h1, fun k s ev hd => ?_⟩
  obtain ⟨x, g1, g2⟩ := drive_split d ps _ l e _ hd
  rw [he] at g2
  injection g2 with g2
  subst g2
  obtain ⟨base, b1, b2⟩ := h2 k s ev g1
  refine ⟨base, fun hm => b1 ?_, ?_⟩
  · rcases List.mem_append.1 hm with hm | hm
    · exact hm
    · exact absurd (List.mem_singleton.1 hm).symm (hT _)
  · rw [List.countP_append]; simpa [ho] using b2

theorem count_snoc (p : Ev O A R S → Bool) (l : List (Ev O A R S)) (e : Ev O A R S) : (l ++ [e]).countP p = l.countP p + if p e then 1 else 0 := by
  rw [List.countP_append, List.countP_singleton]

theorem clock_judged (d : DQN.Cfg θ O H) (c : TrainBatch.Cfg S) (ps : Nat → Nat → θ) (p0 : θ) (l : List (Ev O A R S)) (b : Bool) (ends : List Bool)
    (lens : List Nat) (t k : Nat) (e : Ev O A R S) (r : Phase O A R S) (h : Clock d c ps p0 l (.judged b ends lens t k))
    (hn : Next c (.judged b ends lens t k) e r) : Clock d c ps p0 (l ++ [e]) r := by
  rcases TrainBatch.judged_inv hn with ⟨-, -, obss, rfl, rfl⟩ | ⟨-, rfl, rfl⟩ | ⟨rfl, rfl⟩
  · exact clock_other d c ps p0 l _ _ _ h (fun _ => rfl) rfl (by intro t h; cases h) fun _ hq => by simpa [Told, count_snoc, isObserve, Ev.isStep] using hq
  · exact clock_other d c ps p0 l _ _ _ h (fun _ => rfl) rfl (by intro t h; cases h) fun _ hq => by simpa [Told, count_snoc, isObserve, Ev.isStep] using hq
  · exact clock_other d c ps p0 l _ _ _ h (fun _ => rfl) rfl (by intro t h; cases h) fun _ hq => trivial

theorem clock_step (d : DQN.Cfg θ O H) (c : TrainBatch.Cfg S) (hc : 0 < c.numEnvs) (ps : Nat → Nat → θ) (p0 : θ) (l : List (Ev O A R S))
    (q : Phase O A R S) (e : Ev O A R S) (r : Phase O A R S) (ht : TrainBatch.TimeInv c l q ∧ TrainBatch.DueInv c l q) (h : Clock d c ps p0 l q)
    (hn : Next c q e r) : Clock d c ps p0 (l ++ [e]) r := by
  cases hn with
  | first obss =>
    exact clock_other d c ps p0 l _ _ _ h (fun _ => rfl) rfl (by intro t h; cases h) fun _ hq => by
      have hq : l = [] := hq
      subst hq; rfl
  | setT obss lens =>
    intro hs
    obtain ⟨h1, h2⟩ := h fun e' he' => hs e' (by simp [he'])
    have h1 : l.countP isObserve = l.countP Ev.isStep := h1
    refine ⟨by simpa [Told, count_snoc, isObserve, Ev.isStep] using h1, fun k s ev hd => ?_⟩
    have h0 : l.countP isObserve = 0 := by
      have := ht.1.1
      rw [h1]
      rcases Nat.eq_zero_or_pos (l.countP Ev.isStep) with h0 | h0
      · exact h0
      · have := Nat.mul_pos hc h0; omega
    obtain ⟨⟨k', s', ev'⟩, g1, g2⟩ := drive_split d ps _ l _ _ hd
    simp only [driveStep, Except.ok.injEq, Prod.mk.injEq] at g2
    obtain ⟨rfl, rfl, rfl⟩ := g2
    obtain ⟨base, b1, b2⟩ := h2 _ _ _ g1
    refine ⟨c.stepOffset, fun _ => rfl, ?_⟩
    rw [count_snoc]
    rw [h0] at b2 ⊢
    exact ⟨by simp [isObserve], b2.target, by simpa [isObserve] using b2.syncTimes, by simpa [isObserve] using b2.updTimes, b2.model, b2.src⟩
  | act obss lens t k a =>
    intro hs
    obtain ⟨h1, h2⟩ := h fun e' he' => hs e' (by simp [he'])
    have h1 : l.countP isObserve = l.countP Ev.isStep := h1
    refine ⟨by simpa [Told, count_snoc, isObserve, Ev.isStep] using h1, fun k s ev hd => ?_⟩
    obtain ⟨⟨k', s', ev'⟩, g1, g2⟩ := drive_split d ps _ l _ _ hd
    simp only [driveStep] at g2
    obtain ⟨⟨s1, e1⟩, g4, g3⟩ := DQN.except_bind_ok.1 g2
    simp only [pure, Except.pure, Except.ok.injEq, Prod.mk.injEq] at g3
    obtain ⟨rfl, rfl, rfl⟩ := g3
    obtain ⟨base, b1, b2⟩ := h2 _ _ _ g1
    refine ⟨base, fun hm => b1 (by simpa using hm), ?_⟩
    have := b2.trans (DQN.call_piece d _ _ _ _ g4)
    rw [count_snoc]
    simpa [DQN.Call.times, isObserve] using this
  | step a lens t k outs =>
    exact clock_other d c ps p0 l _ _ _ h (fun _ => rfl) rfl (by intro t h; cases h) fun hsz hq => by
      have hq : l.countP isObserve = l.countP Ev.isStep := hq
      simp only [Told, count_snoc, isObserve, Ev.isStep, hq]
      exact ⟨by simp, hsz⟩
  | observe outs lens t k resets ends hr he =>
    intro hs
    obtain ⟨⟨h1, h1'⟩, h2⟩ := h fun e' he' => hs e' (by simp [he'])
    refine ⟨by simp only [Told, count_snoc, isObserve, Ev.isStep]; simpa using h1, fun k s ev hd => ?_⟩
    obtain ⟨⟨k', s', ev'⟩, g1, g2⟩ := drive_split d ps _ l _ _ hd
    simp only [driveStep] at g2
    obtain ⟨⟨s1, e1⟩, g4, g3⟩ := DQN.except_bind_ok.1 g2
    simp only [pure, Except.pure, Except.ok.injEq, Prod.mk.injEq] at g3
    obtain ⟨rfl, rfl, rfl⟩ := g3
    obtain ⟨base, b1, b2⟩ := h2 _ _ _ g1
    refine ⟨base, fun hm => b1 (by simpa using hm), ?_⟩
    have := b2.trans (DQN.call_piece d _ _ _ _ g4)
    rw [count_snoc]
    simp only [DQN.Call.times, List.length_map, h1', b2.time, List.length_range'] at this
    simp only [isObserve, if_true, Nat.mul_succ]
    rw [← List.range'_append_1]
    rw [show base + 1 + c.numEnvs * l.countP isObserve = base + c.numEnvs * l.countP isObserve + 1 by omega]
    exact this
  | count e todo ends lens t k =>
    have hdue := ht.2.1 e (by simp)
    refine clock_other d c ps p0 l _ _ _ h (fun x => ?_) ?_ ?_ fun _ hq => ?_
    · cases e <;> first | rfl | exact absurd hdue.2 (by simp [Ev.isDue])
    · cases e <;> first | rfl | exact absurd hdue.2 (by simp [Ev.isDue])
    · intro t ht'; rw [ht'] at hdue; exact absurd hdue.2 (by simp [Ev.isDue])
    · have hq : l.countP isObserve = l.countP Ev.isStep := hq
      have ho : isObserve e = false := by cases e <;> first | rfl | exact absurd hdue.2 (by simp [Ev.isDue])
      simp only [Told, count_snoc, ho, hdue.1, hq]
  | evaluate ends lens t k score m hev =>
    exact clock_other d c ps p0 l _ _ _ h (fun _ => rfl) rfl (by intro t h; cases h) fun _ hq => by simpa [Told, count_snoc, isObserve, Ev.isStep] using hq
  | noEvaluator hev hn => exact clock_judged d c ps p0 l _ _ _ _ _ e r h hn
  | reset ends lens t k obss hlt => exact clock_judged d c ps p0 l _ _ _ _ _ _ _ h (.reset _ _ _ _ _ hlt)
  | finish b ends lens t k hb => exact clock_judged d c ps p0 l _ _ _ _ _ _ _ h (.finish _ _ _ _ _ hb)
  | fail p hp => exact clock_other d c ps p0 l _ _ _ h (fun _ => rfl) rfl (by intro t h; cases h) fun _ hq => trivial
  | closeEnv t => exact clock_other d c ps p0 l _ _ _ h (fun _ => rfl) rfl (by intro t h; cases h) fun _ hq => trivial
  | closeEvalEnv t => exact clock_other d c ps p0 l _ _ _ h (fun _ => rfl) rfl (by intro t h; cases h) fun _ hq => trivial

theorem run_setT (c : TrainBatch.Cfg S) (hT : c.agentHasT = true) (w : TrainBatch.World O A R S X) :
    (TrainBatch.run c w).1 = [] ∨ ∃ o rest, (TrainBatch.run c w).1 = .reset none o :: .setT c.stepOffset :: rest := by
  unfold TrainBatch.run TrainBatch.trainAgentBatch
  cases hr : w.reset with
  | error e => left; rfl
  | ok o => right; refine ⟨o, ?_⟩; rw [if_pos hT]; exact ⟨_, rfl⟩

/-- C122: the agent updates once for each step of each environment, numbered from `step_offset + 1` on without gaps, and copies the parameters into the
target network exactly at the multiples of `target_update_interval` among these numbers. -/
theorem C122_times (c : TrainBatch.Cfg S) (hc : 0 < c.numEnvs) (hT : c.agentHasT = true) (w : TrainBatch.World O A R S X) (d : DQN.Cfg θ O H)
    (hd : 0 < d.targetInterval) (ps : Nat → Nat → θ) (p0 : θ) (pre post : List (Ev O A R S)) (hrun : (TrainBatch.run c w).1 = pre ++ post)
    (hs : ∀ e ∈ pre, Sized c.numEnvs e) :
    ∃ k s ev, drive d ps (DQN.init p0) pre = .ok (k, s, ev) ∧
      (DQN.updates ev).map (·.1) = List.range' (c.stepOffset + 1) (c.numEnvs * pre.countP isObserve) ∧
      (DQN.syncs ev).map (·.1) = (List.range' (c.stepOffset + 1) (c.numEnvs * pre.countP isObserve)).filter (fun t => t % d.targetInterval == 0) ∧
      (0 < pre.countP isObserve → s.t = c.stepOffset + c.numEnvs * pre.countP isObserve) := by
  obtain ⟨q', h, -⟩ := TrainBatch.C23_protocol c hc w
  rw [hrun] at h
  obtain ⟨q, h, -⟩ := h.split
  obtain ⟨k, s, ev, h1, -⟩ := good_run d hd c h ps p0 hs
  obtain ⟨-, hclock⟩ := h.invariant (I := fun l q => (TrainBatch.TimeInv c l q ∧ TrainBatch.DueInv c l q) ∧ Clock d c ps p0 l q)
    ⟨⟨rfl, rfl⟩, fun _ => ⟨rfl, fun k s ev hd => by
      injection hd with hd
      simp only [Prod.mk.injEq] at hd
      obtain ⟨rfl, rfl, rfl⟩ := hd
      exact ⟨0, by simp, .quiet rfl rfl rfl rfl rfl⟩⟩⟩
    (fun l q e r hi hn => ⟨TrainBatch.inv_step hi.1 hn, clock_step d c hc ps p0 l q e r hi.1 hi.2 hn⟩)
  obtain ⟨base, b1, b2⟩ := (hclock hs).2 k s ev h1
  have hb : base = c.stepOffset ∨ pre.countP isObserve = 0 := by
    rcases run_setT c hT w with h | ⟨o, rest, h⟩
    · rw [h] at hrun
      right
      rw [(List.append_eq_nil_iff.1 hrun.symm).1]; rfl
    · rw [h] at hrun
      cases pre with
      | nil => right; rfl
      | cons x pre =>
        cases pre with
        | nil => right; simp only [List.cons_append, List.cons.injEq] at hrun; rw [← hrun.1]; rfl
        | cons y pre =>
          left
          simp only [List.cons_append, List.cons.injEq] at hrun
          exact b1 (by rw [← hrun.2.1]; simp)
  refine ⟨k, s, ev, h1, ?_, ?_, ?_⟩
  · rw [b2.updTimes]; rcases hb with rfl | h0
    · rfl
    · simp [h0]
  · rw [b2.syncTimes]; rcases hb with rfl | h0
    · rfl
    · simp [h0]
  · intro hpos
    rcases hb with rfl | h0
    · rw [b2.time]; simp
    · omega

/-! ## Non-vacuity -/

def exTrain : TrainBatch.Cfg Int := ⟨2, 5 + 6, 5, some 2, none, false, none, 0, true⟩

/-- Three rounds of two environments, from step 5 to step 11: the first environment is done after two steps, the second one is cut off after two
steps by `max_episode_len`; at the end both have an unfinished or finished third step. -/
example : ∃ s ev, drive DQN.exCfg (fun k i => 10 * k + i) (DQN.init 7) (TrainBatch.run exTrain TrainBatch.exWorld).1 = .ok (3, s, ev) ∧
    (stored (buffer none 2 ev)).map (·.map fun x => (x.state, x.action, x.reward, x.nextState, x.terminal)) =
      [[(0, 0, 1, 10, false), (7, 1, 1, 11, true)], [(7, 1, 1, 11, true)], [(0, 0, 2, 20, false), (8, 1, 2, 21, false)], [(8, 1, 2, 21, false)],
       [(8, 2, 2, 22, false)]] ∧
    (DQN.updates ev) = [(6, 0), (7, 1), (8, 10), (9, 11), (10, 20), (11, 21)] ∧ (DQN.syncs ev).map (·.1) = [6, 8, 10] ∧ s.t = 11 := by
  refine ⟨_, _, rfl, ?_, ?_, ?_, ?_⟩ <;> decide +kernel

/-- The hypotheses of the theorems. -/
example : (TrainBatch.run exTrain TrainBatch.exWorld).2 = .ok () ∧ (∀ e ∈ (TrainBatch.run exTrain TrainBatch.exWorld).1, Sized 2 e) ∧
    0 < DQN.exCfg.targetInterval := by
  refine ⟨rfl, ?_, by decide⟩
  have : (TrainBatch.run exTrain TrainBatch.exWorld).1.all (fun e => match e with
      | .reset _ o => o.length == 2 | .act _ a => a.length == 2 | .step _ o => o.length == 2 | _ => true) = true := by decide +kernel
  intro e he
  have := List.all_eq_true.1 this e he
  cases e <;> simpa [Sized] using this

end Verif.TrainBatchDQN
