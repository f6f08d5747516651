import Verif.Model.TrainBatchCalls
import Verif.Spec.TrainBatchCalls
import Verif.Props.TrainBatchDQN
import Verif.Props.TrainCalls
import Verif.Props.A2C
set_option autoImplicit false
set_option linter.unusedSectionVars false

/-! # C124: what a vectorised training run tells the agent -/

namespace Verif.TrainBatchCalls
open DQN (EnvStep EnvRound)
open TrainDQN (tellStep entriesOf)
open TrainBatchDQN (record Record Sized record_snoc watch_other rows)
open TrainBatch (Phase Next Ev)
open Train (StepOut)
variable {θ O A R S K X : Type} [Zero S] [LinearOrder S]

/-! ## Calls as rounds -/

/-- How the calls so far relate to the records. -/
def Inv (n : Nat) (l : List (Ev O A R S)) (pend : Option (List O × List A)) : Phase O A R S → Prop
  | .fresh => l = [] ∧ pend = none
  | .ready obss lens _ _ => pend = none ∧ obss.length = n ∧ lens.length = n ∧
      ∀ i, i < n → (record i l).obs = obss[i]? ∧ (record i l).told = ((record i l).finished, (record i l).current)
  | .chosen a lens _ _ => lens.length = n ∧ a.length = n ∧ ∃ obss, obss.length = n ∧ pend = some (obss, a) ∧
      ∀ i, i < n → (record i l).obs = obss[i]? ∧ (record i l).told = ((record i l).finished, (record i l).current)
  | .stepped outs lens _ _ => lens.length = n ∧ outs.length = n ∧ ∃ obss a, obss.length = n ∧ a.length = n ∧ pend = some (obss, a) ∧
      ∀ i, i < n → ∃ o x out prior, obss[i]? = some o ∧ a[i]? = some x ∧ outs[i]? = some out ∧
        (record i l).current = prior ++ [⟨o, x, out.r, out.obs, out.done⟩] ∧ (record i l).told = ((record i l).finished, prior)
  | .counting todo ends lens _ _ => pend = none ∧ lens.length = n ∧ ends.length = n ∧ (∀ e ∈ todo, e.isUse = false ∧ ∀ t, e ≠ .setT t) ∧
      ∀ i, i < n → (record i l).current ≠ [] ∧
        (record i l).told = if ends[i]? = some true then ((record i l).finished ++ [(record i l).current], []) else ((record i l).finished, (record i l).current)
  | .judged _ ends lens _ _ => pend = none ∧ lens.length = n ∧ ends.length = n ∧
      ∀ i, i < n → (record i l).current ≠ [] ∧
        (record i l).told = if ends[i]? = some true then ((record i l).finished ++ [(record i l).current], []) else ((record i l).finished, (record i l).current)
  | .finished _ => pend = none ∧ ∀ i, i < n → (record i l).current ≠ [] ∧
      ((record i l).told = ((record i l).finished ++ [(record i l).current], []) ∨ (record i l).told = ((record i l).finished, (record i l).current))
  | .failed _ => True

/-- The calls, seen as rounds, are what the records say. -/
structure Tells (c : TrainBatch.Cfg S) (ps : Nat → Nat → θ) (l : List (Ev O A R S)) (rounds : List (List (EnvRound θ O A R)))
    (pend : Option (List O × List A)) : Prop where
  calls : calls l = history rounds pend
  size : ∀ r ∈ rounds, r.length = c.numEnvs
  pend : ∀ p ∈ pend, p.1.length = c.numEnvs ∧ p.2.length = c.numEnvs
  params : ∀ k r, rounds[k]? = some r → r.map (·.params) = (List.range c.numEnvs).map (ps k)
  told : ∀ i, i < c.numEnvs → episodes (column i rounds) = (record i l).told

/-- The whole invariant. -/
def Good (c : TrainBatch.Cfg S) (ps : Nat → Nat → θ) (l : List (Ev O A R S)) (q : Phase O A R S) : Prop :=
  (∀ e ∈ l, Sized c.numEnvs e) → ∃ rounds pend, Tells c ps l rounds pend ∧ Inv c.numEnvs l pend q

theorem calls_snoc (l : List (Ev O A R S)) (e : Ev O A R S) : calls (l ++ [e]) = calls l ++ calls [e] := by
  simp [calls, List.filterMap_append]

theorem calls_other (e : Ev O A R S) (h : e.isUse = false) : calls [e] = [] := by
  cases e <;> first | rfl | exact absurd h (by simp [Ev.isUse])

theorem tells_other {c : TrainBatch.Cfg S} {ps : Nat → Nat → θ} {l : List (Ev O A R S)} {rounds : List (List (EnvRound θ O A R))}
    {pend : Option (List O × List A)} (h : Tells c ps l rounds pend) (e : Ev O A R S) (hc : calls [e] = [])
    (hr : ∀ i, i < c.numEnvs → (record i (l ++ [e])).told = (record i l).told) : Tells c ps (l ++ [e]) rounds pend :=
  ⟨by rw [calls_snoc, hc, List.append_nil, h.calls], h.size, h.pend, h.params, fun i hi => by rw [h.told i hi, hr i hi]⟩

theorem good_other (c : TrainBatch.Cfg S) (ps : Nat → Nat → θ) (l : List (Ev O A R S)) (q r : Phase O A R S) (e : Ev O A R S)
    (h : Good c ps l q) (he : e.isUse = false)
    (hI : ∀ pend, (∀ i, record i (l ++ [e]) = record i l) → Inv c.numEnvs l pend q → Inv c.numEnvs (l ++ [e]) pend r) : Good c ps (l ++ [e]) r := by
  intro hs
  obtain ⟨rounds, pend, h1, h2⟩ := h fun e' he' => hs e' (by simp [he'])
  have hrec : ∀ i, record i (l ++ [e]) = record i l := fun i => by rw [record_snoc, watch_other i _ e he]
  exact ⟨rounds, pend, tells_other h1 e (calls_other e he) (fun i _ => by rw [hrec]), hI pend hrec h2⟩

theorem good_judged (c : TrainBatch.Cfg S) (ps : Nat → Nat → θ) (l : List (Ev O A R S)) (b : Bool) (ends : List Bool)
    (lens : List Nat) (t k : Nat) (e : Ev O A R S) (r : Phase O A R S) (h : Good c ps l (.judged b ends lens t k))
    (hn : Next c (.judged b ends lens t k) e r) : Good c ps (l ++ [e]) r := by
  rcases TrainBatch.judged_inv hn with ⟨-, -, obss, rfl, rfl⟩ | ⟨-, rfl, rfl⟩ | ⟨rfl, rfl⟩
  · intro hs
    obtain ⟨rounds, pend, h1, h2, h3, h4, h5⟩ := h fun e' he' => hs e' (by simp [he'])
    have hsz : Sized c.numEnvs (Ev.reset (A := A) (K := R) (S := S) (some (ends.map not)) obss) := hs _ (by simp)
    refine ⟨rounds, pend, tells_other h1 _ rfl ?_, h2, hsz, by simp [h3, h4], ?_⟩
    · intro i hi
      rw [record_snoc]
      simp only [Record.watch]
      split <;> rfl
    · intro i hi
      rw [record_snoc]
      obtain ⟨hc, g1⟩ := h5 i hi
      have hlt : i < ends.length := by omega
      cases hb : ends[i] with
      | true =>
        have e1 : ends[i]? = some true := by rw [List.getElem?_eq_getElem hlt, hb]
        rw [if_pos e1] at g1
        simp [Record.watch, e1, hc, g1]
      | false =>
        have e1 : ends[i]? = some false := by rw [List.getElem?_eq_getElem hlt, hb]
        rw [if_neg (by rw [e1]; simp)] at g1
        simp [Record.watch, e1, g1]
  · exact good_other c ps l _ _ _ h rfl fun s hrec hI => by
      obtain ⟨h2, -, -, h5⟩ := hI
      refine ⟨h2, fun i hi => ?_⟩
      rw [hrec]
      obtain ⟨g1, g2⟩ := h5 i hi
      refine ⟨g1, ?_⟩
      split at g2
      · exact .inl g2
      · exact .inr g2
  · exact good_other c ps l _ _ _ h rfl fun _ _ _ => trivial

theorem history_snoc (rounds : List (List (EnvRound θ O A R))) (r : List (EnvRound θ O A R)) :
    history (rounds ++ [r]) none = history rounds (some (r.map (·.obs), r.map (·.action))) ++
      [.observe (r.map (·.nextObs)) (r.map (·.reward)) (r.map (·.done)) (r.map (·.reset))] := by
  simp [history, roundCalls]

theorem column_snoc (i : Nat) (rounds : List (List (EnvRound θ O A R))) (r : List (EnvRound θ O A R)) (e : EnvRound θ O A R) (h : r[i]? = some e) :
    column i (rounds ++ [r]) = column i rounds ++ [e] := by
  simp [column, List.filterMap_append, h]

theorem episodes_snoc (l : List (EnvRound θ O A R)) (e : EnvRound θ O A R) :
    episodes (l ++ [e]) = if e.done = true ∨ e.reset = true then ((episodes l).1 ++ [(episodes l).2 ++ [step e]], []) else ((episodes l).1, (episodes l).2 ++ [step e]) := by
  simp [episodes]

theorem good_step (c : TrainBatch.Cfg S) (ps : Nat → Nat → θ) (l : List (Ev O A R S))
    (q : Phase O A R S) (e : Ev O A R S) (r : Phase O A R S) (h : Good c ps l q) (hn : Next c q e r) : Good c ps (l ++ [e]) r := by
  cases hn with
  | first obss =>
    intro hs
    obtain ⟨rounds, pend, h1, rfl, rfl⟩ := h fun e' he' => hs e' (by simp [he'])
    have hsz : Sized c.numEnvs (Ev.reset (A := A) (K := R) (S := S) none obss) := hs _ (by simp)
    exact ⟨rounds, none, tells_other h1 _ rfl (fun i _ => rfl), rfl, hsz, by simp, fun i hi => ⟨rfl, rfl⟩⟩
  | setT obss lens =>
    intro hs
    obtain ⟨rounds, pend, h1, h2, h3, h4, h5⟩ := h fun e' he' => hs e' (by simp [he'])
    have hrec : ∀ i, record i (l ++ [Ev.setT c.stepOffset]) = record i l := fun i => by rw [record_snoc]; rfl
    exact ⟨rounds, pend, tells_other h1 _ rfl (fun i _ => by rw [hrec]), h2, h3, h4, fun i hi => by rw [hrec]; exact h5 i hi⟩
  | act obss lens t k a =>
    intro hs
    obtain ⟨rounds, pend, h1, rfl, h3, h4, h5⟩ := h fun e' he' => hs e' (by simp [he'])
    have hsz : Sized c.numEnvs (Ev.act (K := R) (S := S) obss a) := hs _ (by simp)
    have hrec : ∀ i, record i (l ++ [Ev.act obss a]) = record i l := fun i => by rw [record_snoc]; rfl
    refine ⟨rounds, some (obss, a), ⟨?_, h1.size, ?_, h1.params, fun i hi => by rw [hrec]; exact h1.told i hi⟩, h4, hsz, obss, h3, rfl,
      fun i hi => by rw [hrec]; exact h5 i hi⟩
    · rw [calls_snoc, h1.calls]; simp [history, calls]
    · intro p hp; injection hp with hp; subst hp; exact ⟨h3, hsz⟩
  | step a lens t k outs =>
    intro hs
    obtain ⟨rounds, pend, h1, h3, h4, obss, h5, rfl, h7⟩ := h fun e' he' => hs e' (by simp [he'])
    have hsz : Sized c.numEnvs (Ev.step (S := S) a outs) := hs _ (by simp)
    simp only [Sized] at hsz
    have hw : ∀ i, i < c.numEnvs → ∃ o x out, obss[i]? = some o ∧ a[i]? = some x ∧ outs[i]? = some out ∧
        record i (l ++ [.step a outs]) = { record i l with current := (record i l).current ++ [⟨o, x, out.r, out.obs, out.done⟩], obs := some out.obs } := by
      intro i hi
      have e1 := List.getElem?_eq_getElem (l := obss) (i := i) (by omega)
      have e2 := List.getElem?_eq_getElem (l := a) (i := i) (by omega)
      have e3 := List.getElem?_eq_getElem (l := outs) (i := i) (by omega)
      refine ⟨_, _, _, e1, e2, e3, ?_⟩
      rw [record_snoc]
      simp only [Record.watch, (h7 i hi).1, e1, e2, e3]
    refine ⟨rounds, some (obss, a), tells_other h1 _ rfl (fun i hi => ?_), by simpa using h3, hsz, obss, a, h5, h4, rfl, fun i hi => ?_⟩
    · obtain ⟨o, x, out, -, -, -, e4⟩ := hw i hi
      rw [e4]
    · obtain ⟨o, x, out, e1, e2, e3, e4⟩ := hw i hi
      refine ⟨o, x, out, (record i l).current, e1, e2, e3, ?_, ?_⟩
      · rw [e4]
      · rw [e4]; exact (h7 i hi).2
  | observe outs lens t k resets ends hr he =>
    intro hs
    obtain ⟨rounds, pend, h1, h3, h4, obss, a, h5, h6, rfl, h7⟩ := h fun e' he' => hs e' (by simp [he'])
    have hrl : resets.length = c.numEnvs := by rw [hr]; simp [h3, h4]
    have hel : ends.length = c.numEnvs := by rw [he]; simp [hrl, h4]
    obtain ⟨r, g1, g2, g3, g4, g5, g6, g7⟩ := rows c.numEnvs obss a outs resets ((List.range c.numEnvs).map (ps rounds.length)) h5 h6 h4 hrl (by simp)
    have hrlen : r.length = c.numEnvs := by rw [← h5, ← g1, List.length_map]
    have hmain : ∀ i, i < c.numEnvs → episodes (column i (rounds ++ [r])) =
        (if ends[i]? = some true then ((record i l).finished ++ [(record i l).current], []) else ((record i l).finished, (record i l).current)) ∧
        (ends[i]? = some true ↔ (outs.map (·.done))[i]? = some true ∨ resets[i]? = some true) ∧ (record i l).current ≠ [] := by
      intro i hi
      obtain ⟨o, x, out, prior, e1, e2, e3, e4, e5⟩ := h7 i hi
      obtain ⟨row, er⟩ : ∃ row, r[i]? = some row := ⟨_, List.getElem?_eq_getElem (by omega)⟩
      have q1 : row.obs = o := by
        have := congrArg (fun l => l[i]?) g1; simp [er, e1] at this; exact this
      have q2 : row.action = x := by
        have := congrArg (fun l => l[i]?) g2; simp [er, e2] at this; exact this
      have q3 : row.nextObs = out.obs := by
        have := congrArg (fun l => l[i]?) g3; simp [er, e3] at this; exact this
      have q4 : row.reward = out.r := by
        have := congrArg (fun l => l[i]?) g4; simp [er, e3] at this; exact this
      have q5 : row.done = out.done := by
        have := congrArg (fun l => l[i]?) g5; simp [er, e3] at this; exact this
      have q6 : resets[i]? = some row.reset := by
        rw [← g6, List.getElem?_map, er]; rfl
      have hends : ends[i]? = some (row.reset || out.done) := by
        rw [he, List.getElem?_map, List.getElem?_zip_eq_some (z := (row.reset, out)).2 ⟨q6, e3⟩]; rfl
      refine ⟨?_, ?_, by rw [e4]; simp⟩
      · rw [column_snoc i rounds r row er, episodes_snoc, h1.told i hi, e5, hends]
        unfold step
        rw [q1, q2, q3, q4, q5]
        dsimp only
        rw [← e4]
        cases out.done <;> cases row.reset <;> simp
      · rw [hends, q6, List.getElem?_map, e3]
        simp only [Option.map_some, Option.some.injEq, Bool.or_eq_true]
        exact Or.comm
    have hrec : ∀ i, i < c.numEnvs → record i (l ++ [.observe (outs.map (·.obs)) (outs.map (·.r)) (outs.map (·.done)) resets]) =
        { record i l with told := if ends[i]? = some true then ((record i l).finished ++ [(record i l).current], []) else ((record i l).finished, (record i l).current) } := by
      intro i hi
      rw [record_snoc]
      simp only [Record.watch, (hmain i hi).2.1]
    refine ⟨rounds ++ [r], none, ⟨?_, ?_, by simp, ?_, fun i hi => ?_⟩, rfl, h3, hel, fun e he => ?_, fun i hi => ?_⟩
    · rw [calls_snoc, h1.calls, history_snoc, g1, g2, g3, g4, g5, g6]; rfl
    · intro x hx
      rcases List.mem_append.1 hx with hx | hx
      · exact h1.size x hx
      · rw [List.mem_singleton.1 hx, hrlen]
    · intro k x hx
      by_cases hk : k < rounds.length
      · rw [List.getElem?_append_left hk] at hx; exact h1.params k x hx
      · rw [List.getElem?_append_right (by omega)] at hx
        have : k - rounds.length = 0 := by
          have := (List.getElem?_eq_some_iff.1 hx).1; simp at this; omega
        rw [this] at hx
        injection hx with hx
        rw [← hx, g7, show k = rounds.length by omega]
    · rw [hrec i hi]; exact (hmain i hi).1
    · have := TrainBatch.due_mem he
      refine ⟨?_, fun t ht => ?_⟩
      · cases e <;> first | rfl | exact absurd this.2 (by simp [Ev.isDue])
      · rw [ht] at this; exact absurd this.2 (by simp [Ev.isDue])
    · rw [hrec i hi]
      exact ⟨(hmain i hi).2.2, rfl⟩
  | count e todo ends lens t k =>
    intro hs
    obtain ⟨rounds, pend, h1, h2, h3, h4, h5, h6⟩ := h fun e' he' => hs e' (by simp [he'])
    have ho := h5 e (by simp)
    have hrec : ∀ i, record i (l ++ [e]) = record i l := fun i => by rw [record_snoc, watch_other i _ e ho.1]
    exact ⟨rounds, pend, tells_other h1 e (calls_other e ho.1) (fun i _ => by rw [hrec]), h2, h3, h4, fun e' he' => h5 e' (by simp [he']),
      fun i hi => by rw [hrec]; exact h6 i hi⟩
  | evaluate ends lens t k score m hev =>
    refine good_other c ps l _ _ _ h rfl fun pend hrec hI => ?_
    obtain ⟨h2, h3, h4, -, h6⟩ := hI
    exact ⟨h2, h3, h4, fun i hi => by rw [hrec]; exact h6 i hi⟩
  | noEvaluator hev hn =>
    refine good_judged c ps l _ _ _ _ _ e r ?_ hn
    intro hs
    obtain ⟨rounds, pend, h1, h2, h3, h4, -, h6⟩ := h hs
    exact ⟨rounds, pend, h1, h2, h3, h4, h6⟩
  | reset ends lens t k obss hlt => exact good_judged c ps l _ _ _ _ _ _ _ h (.reset _ _ _ _ _ hlt)
  | finish b ends lens t k hb => exact good_judged c ps l _ _ _ _ _ _ _ h (.finish _ _ _ _ _ hb)
  | fail p hp => exact good_other c ps l _ _ _ h rfl fun _ _ _ => trivial
  | closeEnv t => exact good_other c ps l _ _ _ h rfl fun _ _ _ => trivial
  | closeEvalEnv t => exact good_other c ps l _ _ _ h rfl fun _ _ _ => trivial

theorem good_run (c : TrainBatch.Cfg S) {q : Phase O A R S} {l : List (Ev O A R S)} (h : Steps (Next c) .fresh l q) (ps : Nat → Nat → θ) : Good c ps l q :=
  h.invariant (I := fun l q => Good c ps l q)
    (fun _ => ⟨[], none, ⟨rfl, by simp, by simp, by simp, fun _ _ => rfl⟩, rfl, rfl⟩) (good_step c ps)

theorem tells (c : TrainBatch.Cfg S) (hc : 0 < c.numEnvs) (w : TrainBatch.World O A R S X) (ps : Nat → Nat → θ) (pre post : List (Ev O A R S))
    (hrun : (TrainBatch.run c w).1 = pre ++ post) (hs : ∀ e ∈ pre, Sized c.numEnvs e) : ∃ rounds pend, Tells c ps pre rounds pend := by
  obtain ⟨q', h, -⟩ := TrainBatch.C23_protocol c hc w
  rw [hrun] at h
  obtain ⟨q, h, -⟩ := h.split
  obtain ⟨rounds, pend, h1, -⟩ := good_run c h ps hs
  exact ⟨rounds, pend, h1⟩

/-- **C124**: at every moment of every run of `train_agent_batch`, also one that an exception ends, the calls that the agent has got are whole rounds, each
with one decision and its outcome for every environment, followed perhaps by decisions whose outcome is not known yet; and what they say about an
environment is exactly what has happened in it, episode by episode, as far as the agent has been told. -/
theorem C124_calls (c : TrainBatch.Cfg S) (hc : 0 < c.numEnvs) (w : TrainBatch.World O A R S X) (pre post : List (Ev O A R S))
    (hrun : (TrainBatch.run c w).1 = pre ++ post) (hs : ∀ e ∈ pre, Sized c.numEnvs e) :
    ∃ (rounds : List (List (EnvRound Unit O A R))) (pend : Option (List O × List A)), calls pre = history rounds pend ∧
      (∀ r ∈ rounds, r.length = c.numEnvs) ∧ ∀ i, i < c.numEnvs → episodes (column i rounds) = (record i pre).told := by
  obtain ⟨rounds, pend, h⟩ := tells c hc w (fun _ _ => ()) pre post hrun hs
  exact ⟨rounds, pend, h.calls, h.size, h.told⟩

/-! ## DDPG, TD3, SoftActorCritic -/

theorem entries_by_env {T : Type} (f : T → EnvStep O A R) (cap : Option Nat) (n : Nat) (hn : 0 < n) (ops : List (NStep.Op Nat T)) :
    ∃ ent : List (Nat × List (EnvStep O A R)),
      ((ReplayBuffer.init cap n).run (fun x => (f x).terminal) ops).memory.iter.map (·.map f) = BoundedList.newest cap (ent.map Prod.snd) ∧
      ∀ i, (ent.filter (fun p => p.1 = i)).map Prod.snd = entriesOf n ((ops.map (TrainCalls.opCall f)).foldl (tellStep i) ([], [])) := by
  obtain ⟨ent, h1, h2⟩ := NStep.run_spec (RAQ (List T)) (fun x => (f x).terminal) n hn ops
  refine ⟨ent.map fun p => (p.1, p.2.map f), ?_, ?_⟩
  · unfold ReplayBuffer.run ReplayBuffer.init
    rw [h1 RAQ.append]
    simp only
    rw [(RAQ.foldl_append_iter _ _ (RAQ.init_ok cap [])).1]
    simp only [(RAQ.init_iter _ _).1, (RAQ.init_iter _ _).2, TrainDQN.newest_map]
    have e0 : BoundedList.newest cap ([] : List (List T)) = [] := by cases cap <;> simp [BoundedList.newest]
    simp [Function.comp_def, e0]
  · intro i
    have := congrArg (List.map (List.map f)) (h2 i)
    simp only [NStep.stored, List.map_append, (TrainDQN.slices_map f n _).2, List.map_flatMap, List.map_map] at this
    rw [← TrainCalls.episodes_map f i ops]
    unfold entriesOf
    simp only [List.flatMap_map, (TrainDQN.slices_map f n _).1] at this ⊢
    rw [← this]
    simp [List.filter_map, Function.comp_def]

/-- What the buffer calls of the rounds say about environment `i`. -/
theorem tell_rounds (i : Nat) (rounds : List (List (EnvRound θ O A R))) :
    (rounds.flatMap fun r => r.zipIdx.flatMap fun p => p.1.sends p.2).foldl (tellStep i) ([], []) = episodes (column i rounds) := by
  induction rounds using List.reverseRecOn with
  | nil => rfl
  | append_singleton rounds r ih =>
    rw [List.flatMap_append, List.foldl_append, ih, List.flatMap_singleton, TrainBatchDQN.foldl_tell, DQN.filter_sends]
    cases hr : r[i]? with
    | none => simp [column, hr]
    | some e =>
      rw [column_snoc i rounds r e hr, episodes_snoc]
      simp only [Nat.zero_le, Nat.sub_zero, if_true, hr, Option.map_some, Option.getD_some]
      have := TrainBatchDQN.tell_sends i e (episodes (column i rounds)).1 (episodes (column i rounds)).2
      rw [this]
      rfl

theorem acCalls_history (cands : Nat → Nat → Bool → A) (n : Nat) (pend : Option (List O × List A)) (hp : ∀ p ∈ pend, p.1.length = n) :
    ∀ (rounds : List (List (EnvRound (Bool → A) O A R))) (k : Nat), (∀ r ∈ rounds, r.length = n) →
    (∀ j r, rounds[j]? = some r → r.map (·.params) = (List.range n).map (cands (k + j))) →
    acCalls cands k (history rounds pend) = rounds.flatMap ActorCritic.roundCalls ++
      (pend.map fun p => ActorCritic.Call.batchAct p.1 ((List.range n).map (cands (k + rounds.length)))).toList
  | [], k, _, _ => by
    cases pend with
    | none => rfl
    | some p => simp [history, acCalls, hp p rfl]
  | r :: rounds, k, hs, h => by
    have ih := acCalls_history cands n pend hp rounds (k + 1) (fun r hr => hs r (by simp [hr]))
      (fun j r hr => by rw [h (j + 1) r (by simpa using hr)]; congr 2; omega)
    have h0 := h 0 r rfl
    have e1 : history (r :: rounds) pend = roundCalls r ++ history rounds pend := by simp [history]
    rw [e1]
    simp only [roundCalls, List.cons_append, List.nil_append, acCalls]
    rw [ih, List.length_map, hs r (by simp), ← (show r.map (·.params) = (List.range n).map (cands k) from h0)]
    simp [ActorCritic.roundCalls, Nat.add_assoc, Nat.add_comm 1]

theorem chosen_calls (evs : List (Ev O A R S)) (rounds : List (List (EnvRound θ O A R))) (pend : Option (List O × List A))
    (h : calls evs = history rounds pend) : chosen evs = rounds.flatMap (fun r => r.map (·.action)) ++ ((pend.map Prod.snd).getD []) := by
  have e1 : ∀ evs : List (Ev O A R S), chosen evs = (calls evs).flatMap fun x : Call O A R => match x with | .act _ a => a | _ => [] := by
    intro evs
    induction evs with
    | nil => rfl
    | cons e l ih => cases e <;> first | exact ih | exact congrArg (_ ++ ·) ih
  rw [e1, h, history, List.flatMap_append]
  congr 1
  · rw [List.flatMap_assoc]
    congr 1
    funext r
    simp [roundCalls]
  · cases pend <;> simp

theorem returned_choices (cands : List (Bool → A)) (b : Bool) :
    ActorCritic.returned ((cands.map fun f => ActorCritic.Ev.choose (O := O) (R := R) b (f b)) ++ cands.map fun f => .ret (f b)) = cands.map (· b) ∧
    ActorCritic.bufCalls ((cands.map fun f => ActorCritic.Ev.choose (O := O) (R := R) b (f b)) ++ cands.map fun f => .ret (f b)) = [] := by
  constructor
  · simp [ActorCritic.returned, List.filterMap_append, List.filterMap_map, Function.comp_def]
  · simp [ActorCritic.bufCalls, List.filterMap_append, List.filterMap_map, Function.comp_def]

/-- **C124**: at every moment of every run of `train_agent_batch` with DDPG, TD3 or SoftActorCritic, whatever actions burn-in function and policy offer, no
call of the agent raises by itself; and if the actions of the run are those the agent returned, its replay buffer holds, in some interleaving of the
environments, exactly the entries that belong to the steps of each environment the agent has been told of, in order, or the newest ones of these if it
is full. -/
theorem C124_actor_critic (c : TrainBatch.Cfg S) (hc : 0 < c.numEnvs) (w : TrainBatch.World O A R S X) (d : ActorCritic.Args) (hd : ActorCritic.Good d)
    (cap : Option Nat) (n : Nat) (hn : 0 < n) (cands : Nat → Nat → Bool → A) (pre post : List (Ev O A R S))
    (hrun : (TrainBatch.run c w).1 = pre ++ post) (hs : ∀ e ∈ pre, Sized c.numEnvs e) :
    ∃ s ev, driveAC d cap n c.stepOffset cands pre = .ok (s, ev) ∧
      (ActorCritic.returned ev = chosen pre →
        ∃ ent : List (Nat × List (EnvStep O A R)), TrainCalls.stored s.buf = BoundedList.newest cap (ent.map Prod.snd) ∧
          (∀ p ∈ ent, p.1 < c.numEnvs) ∧
          ∀ i, i < c.numEnvs → (ent.filter (fun p => p.1 = i)).map Prod.snd = entriesOf n (record i pre).told) := by
  obtain ⟨rounds, pend, h⟩ := tells c hc w cands pre post hrun hs
  have h6 := acCalls_history (R := R) cands c.numEnvs pend (fun p hp => (h.pend p hp).1) rounds 0 h.size (by simpa using h.params)
  obtain ⟨s1, e1, a1, l1, k1⟩ := ActorCritic.C78_recorded_batch d hd (TrainCalls.replayBuf (O := O) (A := A) (R := R)) rounds
    { ActorCritic.init (ReplayBuffer.init cap n) with t := c.stepOffset }
  obtain ⟨s2, e2, a2, k2⟩ : ∃ s2 e2, d.run TrainCalls.replayBuf s1
      (pend.map fun p => ActorCritic.Call.batchAct p.1 ((List.range c.numEnvs).map (cands (0 + rounds.length)))).toList = .ok (s2, e2) ∧
      ActorCritic.bufCalls e2 = [] := by
    cases pend with
    | none => exact ⟨s1, [], rfl, rfl⟩
    | some p =>
      refine ⟨_, _, rfl, ?_⟩
      simp only [ActorCritic.Args.batchActAndTrain, List.append_nil]
      exact (returned_choices _ _).2
  have hr := ActorCritic.run_append d TrainCalls.replayBuf _ _ _ s1 s2 e1 e2 a1 a2
  rw [← h6, ← h.calls] at hr
  refine ⟨s2, e1 ++ e2, hr, fun hret => ?_⟩
  have hbuf := TrainCalls.run_buf d TrainCalls.replayBuf _ _ _ _ hr
  rw [ActorCritic.returned_append, chosen_calls pre rounds pend h.calls] at hret
  obtain ⟨g1, -⟩ := List.append_inj hret l1
  have hcalls : ActorCritic.bufCalls (e1 ++ e2) = rounds.flatMap (fun r => r.zipIdx.flatMap (fun p => p.1.sends p.2)) := by
    rw [ActorCritic.bufCalls_append, k1 g1, k2, List.append_nil]
  obtain ⟨ent, q1, q2⟩ := entries_by_env TrainCalls.stepOf cap n hn (TrainCalls.acOps (e1 ++ e2))
  simp only [TrainCalls.acOps_calls, hcalls, tell_rounds] at q2
  refine ⟨ent, ?_, fun p hp => ?_, fun i hi => by rw [q2, h.told i hi]⟩
  · unfold TrainCalls.stored
    rw [hbuf, TrainCalls.bufferAfter_run]
    exact q1
  · refine Nat.lt_of_not_le fun hle => ?_
    have := q2 p.1
    have e0 : column p.1 rounds = [] := by
      unfold column
      rw [List.filterMap_eq_nil_iff]
      intro r hr
      exact List.getElem?_eq_none (by rw [h.size r hr]; exact hle)
    rw [e0] at this
    have e1 : entriesOf n (([], []) : List (List (EnvStep O A R)) × List (EnvStep O A R)) = [] := by
      simp [entriesOf, Episodes.fullSlices]; omega
    rw [show episodes ([] : List (EnvRound (Bool → A) O A R)) = ([], []) from rfl, e1, List.map_eq_nil_iff] at this
    have hm : p ∈ ent.filter (fun x => decide (x.1 = p.1)) := List.mem_filter.2 ⟨hp, by simp⟩
    rw [this] at hm
    cases hm

/-! ## PPO and TRPO -/

theorem ppoStep_toTr (l : List (EnvStep O A R)) : (l.map TrainCalls.toTr).map TrainCalls.ppoStep = l := by
  rw [List.map_map]
  exact List.map_id l

theorem ppoCalls_history (rounds : List (List (EnvRound θ O A R))) (pend : Option (List O × List A)) :
    ppoCalls (history rounds pend) = rounds.flatMap (fun r => [PPOData.Call.batchAct (r.map fun e => (e.obs, e.action)),
      PPOData.Call.batchObserve (r.map fun e => (e.nextObs, e.reward, e.done, e.reset))]) ++
      (pend.map fun p => PPOData.Call.batchAct (p.1.zip p.2)).toList := by
  unfold ppoCalls history
  rw [List.map_append, List.map_flatMap]
  congr 1
  · congr 1
    funext r
    simp only [roundCalls, List.map_cons, List.map_nil, List.zip_map']
  · cases pend <;> rfl

theorem legal_rounds (n : Nat) (pend : Option (List O × List A)) (hp : ∀ p ∈ pend, p.1.length = n ∧ p.2.length = n) :
    ∀ (rounds : List (List (EnvRound θ O A R))), (∀ r ∈ rounds, r.length = n) →
    PPOData.Legal n false false (ppoCalls (history rounds pend))
  | [], _ => by
    rw [ppoCalls_history]
    cases pend with
    | none => exact .nil _ _
    | some p => exact .batchAct _ _ _ _ (by simp [hp p rfl]) (.nil _ _)
  | r :: rounds, hs => by
    have ih := legal_rounds n pend hp rounds fun r hr => hs r (by simp [hr])
    rw [ppoCalls_history] at ih ⊢
    exact .batchAct _ _ _ _ (by simp [hs r]) (.batchObserve _ _ _ (by simp [hs r]) ih)

/-- What environment `i` sees of the rounds. -/
theorem view_rounds (i : Nat) (rounds : List (List (EnvRound θ O A R))) :
    PPOData.view (some i) (ppoCalls (history rounds none)) =
      ⟨(episodes (column i rounds)).1.map (·.map TrainCalls.toTr), (episodes (column i rounds)).2.map TrainCalls.toTr, none⟩ := by
  rw [ppoCalls_history]
  simp only [Option.map_none, Option.toList_none, List.append_nil]
  induction rounds using List.reverseRecOn with
  | nil => rfl
  | append_singleton rounds r ih =>
    rw [List.flatMap_append]
    unfold PPOData.view at ih ⊢
    rw [List.foldl_append, ih, List.flatMap_singleton]
    simp only [List.foldl_cons, List.foldl_nil, PPOData.View.see, List.getElem?_map]
    cases hr : r[i]? with
    | none => simp [column, hr]
    | some e =>
      rw [column_snoc i rounds r e hr, episodes_snoc]
      simp only [Option.map_some, PPOData.View.outcome, PPOData.View.close]
      cases hd : e.done <;> cases hz : e.reset <;> simp [TrainCalls.toTr, step, hd]

theorem view_history (i : Nat) (rounds : List (List (EnvRound θ O A R))) (pend : Option (List O × List A)) :
    (PPOData.view (some i) (ppoCalls (history rounds pend))).ended = (episodes (column i rounds)).1.map (·.map TrainCalls.toTr) ∧
    (PPOData.view (some i) (ppoCalls (history rounds pend))).current = (episodes (column i rounds)).2.map TrainCalls.toTr := by
  have h := view_rounds i rounds
  rw [ppoCalls_history] at h ⊢
  cases pend with
  | none => rw [h]; exact ⟨rfl, rfl⟩
  | some p =>
    simp only [Option.map_none, Option.toList_none, List.append_nil] at h
    unfold PPOData.view at h ⊢
    rw [List.foldl_append, h]
    simp only [Option.map_some, Option.toList_some, List.foldl_cons, List.foldl_nil, PPOData.View.see]
    split <;> exact ⟨rfl, rfl⟩

theorem view_none (rounds : List (List (EnvRound θ O A R))) (pend : Option (List O × List A)) :
    PPOData.view none (ppoCalls (history rounds pend)) = PPOData.View.init := by
  have key : ∀ (l : List (Call O A R)) (v : PPOData.View O A R), (ppoCalls l).foldl (PPOData.View.see none) v = v := by
    intro l
    induction l with
    | nil => intro v; rfl
    | cons e l ih => intro v; cases e <;> exact ih v
  exact key _ _

theorem covers_init {fr : List (List (PPOData.Tr O A R))} {cur : List (PPOData.Tr O A R)} {v : PPOData.View O A R} (h : PPOData.Covers fr cur v)
    (h1 : v.ended = []) (h2 : v.current = []) : fr = [] := by
  obtain ⟨groups, op, g1, g2, g3, g4⟩ := h
  rw [h1, List.map_eq_nil_iff] at g2
  subst g2
  rw [h2] at g3
  simp only [List.flatten_nil, List.nil_append] at g1
  subst g1
  cases fr with
  | nil => rfl
  | cons x fr =>
    have : x = [] := by
      have := (List.append_eq_nil_iff.1 g3).1
      simp at this
      exact this.1
    exact absurd this (g4 x (by simp))

/-- **C124**: at every moment of every run of `train_agent_batch` with PPO (or TRPO) no call of the agent raises by itself.  For each environment the
fragments in the datasets of the updates made so far, then those waiting in memory, then the transitions being recorded, are exactly the steps of this
environment that the agent has been told of: each fragment is part of one episode, and in order they make up the finished episodes and the current one.
There are no other fragments. -/
theorem C124_ppo (c : TrainBatch.Cfg S) (hc : 0 < c.numEnvs) (w : TrainBatch.World O A R S X) (interval : Nat) (pre post : List (Ev O A R S))
    (hrun : (TrainBatch.run c w).1 = pre ++ post) (hs : ∀ e ∈ pre, Sized c.numEnvs e) :
    ∃ s ds, drivePPO interval pre = .ok (s, ds) ∧ (∀ x ∈ ds.flatten ++ s.memory, ∃ i, i < c.numEnvs ∧ x.1 = some i) ∧
      ∀ i, i < c.numEnvs →
        ∃ (groups : List (List (List (PPOData.Tr O A R)))) (open_ : List (List (PPOData.Tr O A R))) (recording : List (PPOData.Tr O A R)),
        ((ds.flatten ++ s.memory).filter (fun x => x.1 = some i)).map Prod.snd = groups.flatten ++ open_ ∧
        (groups.map List.flatten).map (·.map TrainCalls.ppoStep) = (record i pre).told.1 ∧
        (open_.flatten ++ recording).map TrainCalls.ppoStep = (record i pre).told.2 := by
  obtain ⟨rounds, pend, h⟩ := tells c hc w (fun _ _ => ()) pre post hrun hs
  obtain ⟨s, ds, hr⟩ := PPOData.C50_no_error interval c.numEnvs _ (legal_rounds c.numEnvs pend h.pend rounds h.size)
  refine ⟨s, ds, by rw [drivePPO, h.calls, hr], ?_, fun i hi => ?_⟩
  · intro x hx
    have key : ∀ tag, PPOData.fragments tag (ds ++ [s.memory]) = [] → x.1 ≠ tag := by
      rintro tag he rfl
      unfold PPOData.fragments at he
      rw [List.map_eq_nil_iff, List.filter_eq_nil_iff] at he
      exact he x (by simpa using hx) (by simp)
    cases hx1 : x.1 with
    | none =>
      obtain ⟨cur, hcov⟩ := PPOData.C50_exactly_once interval none _ s ds hr
      rw [view_none] at hcov
      exact absurd hx1 (key none (covers_init hcov rfl rfl))
    | some i =>
      refine ⟨i, Nat.lt_of_not_le fun hle => ?_, rfl⟩
      obtain ⟨cur, hcov⟩ := PPOData.C50_exactly_once interval (some i) _ s ds hr
      have e0 : column i rounds = [] := by
        unfold column
        rw [List.filterMap_eq_nil_iff]
        intro r hr
        exact List.getElem?_eq_none (by rw [h.size r hr]; exact hle)
      have hv := view_history i rounds pend
      rw [e0] at hv
      exact key (some i) (covers_init hcov (by rw [hv.1]; rfl) (by rw [hv.2]; rfl)) hx1
  · obtain ⟨rec, groups, open_, g1, g2, g3, -⟩ := PPOData.C50_exactly_once interval (some i) _ s ds hr
    obtain ⟨v1, v2⟩ := view_history i rounds pend
    refine ⟨groups, open_, rec, ?_, ?_, ?_⟩
    · rw [← g1]; simp [PPOData.fragments]
    · rw [g2, v1, h.told i hi, List.map_map]
      conv_rhs => rw [← List.map_id (record i pre).told.1]
      congr 1
      funext x
      exact ppoStep_toTr x
    · rw [g3, v2, h.told i hi]
      exact ppoStep_toTr _

/-- **C124**: and every dataset has at least `update_interval` transitions and fewer than `update_interval + num_envs`, and fewer than `update_interval`
of the steps that the agent has been told of have not been used in an update yet. -/
theorem C124_ppo_updates (c : TrainBatch.Cfg S) (hc : 0 < c.numEnvs) (w : TrainBatch.World O A R S X) (interval : Nat) (hi : 1 ≤ interval)
    (pre post : List (Ev O A R S)) (hrun : (TrainBatch.run c w).1 = pre ++ post) (hs : ∀ e ∈ pre, Sized c.numEnvs e) :
    ∃ s ds, drivePPO interval pre = .ok (s, ds) ∧
      (∀ d ∈ ds, interval ≤ PPOData.Dataset.size d ∧ PPOData.Dataset.size d < interval + c.numEnvs) ∧
      ((List.range c.numEnvs).map fun i => (record i pre).told.1.flatten.length + (record i pre).told.2.length).sum <
        (ds.map PPOData.Dataset.size).sum + interval := by
  obtain ⟨rounds, pend, h⟩ := tells c hc w (fun _ _ => ()) pre post hrun hs
  obtain ⟨s, ds, hr⟩ := PPOData.C50_no_error interval c.numEnvs _ (legal_rounds c.numEnvs pend h.pend rounds h.size)
  refine ⟨s, ds, by rw [drivePPO, h.calls, hr], ?_, ?_⟩
  · refine PPOData.C50_dataset_size interval c.numEnvs hi hc _ s ds hr fun rows hm => ?_
    rw [ppoCalls_history] at hm
    rcases List.mem_append.1 hm with hm | hm
    · obtain ⟨r, h1, h2⟩ := List.mem_flatMap.1 hm
      simp only [List.mem_cons, reduceCtorEq, PPOData.Call.batchObserve.injEq, false_or, List.not_mem_nil, or_false] at h2
      rw [h2, List.length_map, h.size r h1]
    · cases pend <;> simp at hm
  · have := PPOData.C50_as_soon_as interval c.numEnvs hi _ s ds hr
    unfold PPOData.experienced at this
    rw [view_none] at this
    refine lt_of_eq_of_lt ?_ this
    rw [show (PPOData.View.init : PPOData.View O A R).count = 0 from rfl, Nat.zero_add]
    congr 1
    refine List.map_congr_left fun i hi => ?_
    have v := view_history i rounds pend
    rw [h.told i (List.mem_range.1 hi)] at v
    unfold PPOData.View.count
    rw [v.1, v.2, List.length_flatten, List.map_map, List.length_map]
    simp [Function.comp_def]

/-! ## A2C -/

section A2C
variable [CommRing K]

/-- The calls of one environment's part of a round. -/
def a2cRound (value : Nat → O → K) (k : Nat) (e : EnvRound θ O A K) : List (A2C.Call K) :=
  [.act (value k e.obs) (value k e.obs), .observe e.reward e.done e.reset (value k e.nextObs)]

/-- The calls of one environment. -/
def a2cRounds (value : Nat → O → K) : Nat → List (EnvRound θ O A K) → List (A2C.Call K)
  | _, [] => []
  | k, e :: l => a2cRound value k e ++ a2cRounds value (k + 1) l

theorem a2cCalls_history (i n : Nat) (hi : i < n) (value : Nat → O → K) (pend : Option (List O × List A)) : ∀ (rounds : List (List (EnvRound θ O A K))) (k : Nat),
    (∀ r ∈ rounds, r.length = n) → a2cCalls i value k (history rounds pend) = a2cRounds value k (column i rounds) ++
      ((pend.bind fun p => p.1[i]?).map fun x => A2C.Call.act (value (k + rounds.length) x) (value (k + rounds.length) x)).toList
  | [], k, _ => by
    cases pend with
    | none => rfl
    | some p =>
      simp only [history, List.flatMap_nil, List.nil_append, Option.map_some, Option.toList_some, a2cCalls, column, List.filterMap_nil, a2cRounds,
        Option.bind_some, List.length_nil, Nat.add_zero, List.append_nil]
      cases p.1[i]? <;> rfl
  | r :: rounds, k, h => by
    have ih := a2cCalls_history i n hi value pend rounds (k + 1) fun r hr => h r (by simp [hr])
    have hlt : i < r.length := by rw [h r (by simp)]; exact hi
    have e0 := List.getElem?_eq_getElem hlt
    have e1 : history (r :: rounds) pend = roundCalls r ++ history rounds pend := by simp [history]
    have e2 : column i (r :: rounds) = r[i] :: column i rounds := by simp [column, e0]
    rw [e1, e2]
    simp only [roundCalls, List.cons_append, List.nil_append, a2cCalls, ih, List.getElem?_map, e0, Option.map_some, a2cRounds, a2cRound,
      List.length_cons, Nat.add_assoc, Nat.add_comm 1]

/-- The updates of a rollout that has `c` stored. -/
def outs (gamma : K) (tau : Option K) (n : Nat) : List (A2C.Step K) → List (A2C.Step K) → List (List K)
  | _, [] => []
  | c, a :: l => if c.length + 1 = n then A2C.targets gamma tau a.next (c ++ [a]) :: outs gamma tau n [] l else outs gamma tau n (c ++ [a]) l

theorem act_next (gamma : K) (tau : Option K) (n : Nat) (s : A2C.St K) (c : List (A2C.Step K)) (h : A2C.Inv n s c) (hc : c.length < n) (v x y : K) :
    A2C.step gamma tau n s (.act v x) = A2C.step gamma tau n s (.act v y) := by
  have hn1 : s.t - s.tStart ≠ n := by have := h.len; omega
  simp only [A2C.step, A2C.maybeUpdate, hn1, if_false]

theorem run_two (gamma : K) (tau : Option K) (n : Nat) (s : A2C.St K) (a b a' : A2C.Call K) (h : A2C.step gamma tau n s a = A2C.step gamma tau n s a') :
    A2C.run gamma tau n s [a, b] = A2C.run gamma tau n s [a', b] := by
  simp only [A2C.run, h]

theorem run_rounds (gamma : K) (tau : Option K) (n : Nat) (hn : 1 ≤ n) (value : Nat → O → K) : ∀ (l : List (EnvRound θ O A K)) (k : Nat) (s : A2C.St K)
    (c : List (A2C.Step K)), A2C.Inv n s c → c.length < n →
    ∃ s' c', A2C.run gamma tau n s (a2cRounds value k l) = .ok (s', outs gamma tau n c (a2cSteps value k l)) ∧ A2C.Inv n s' c' ∧ c'.length < n
  | [], k, s, c, h, hc => ⟨s, c, rfl, h, hc⟩
  | e :: l, k, s, c, h, hc => by
    obtain ⟨s1, h1, i1⟩ := A2C.run_step gamma tau n s c ⟨value k e.obs, e.reward, e.done, e.reset, value k e.nextObs⟩ h hc
    have h1' : A2C.run gamma tau n s (a2cRound value k e) = _ := (run_two gamma tau n s _ _ _ (act_next gamma tau n s c h hc _ _ _)).trans h1
    by_cases hf : c.length + 1 = n
    · rw [if_pos hf] at h1' i1
      obtain ⟨s2, c2, h2, i2, l2⟩ := run_rounds gamma tau n hn value l (k + 1) s1 [] i1 (by simp; omega)
      refine ⟨s2, c2, ?_, i2, l2⟩
      rw [a2cSteps, outs, if_pos hf]
      exact A2C.run_append gamma tau n _ _ s s1 s2 _ _ h1' h2
    · rw [if_neg hf] at h1' i1
      obtain ⟨s2, c2, h2, i2, l2⟩ := run_rounds gamma tau n hn value l (k + 1) s1 _ i1 (by simp; omega)
      refine ⟨s2, c2, ?_, i2, l2⟩
      rw [a2cSteps, outs, if_neg hf]
      exact A2C.run_append gamma tau n _ _ s s1 s2 _ _ h1' h2

theorem chunks_short {α : Type} (n : Nat) (l : List α) (h : l.length < n) : chunks n l = [] := by
  simp [chunks, Nat.div_eq_of_lt h]

theorem chunks_full {α : Type} (n : Nat) (hn : 0 < n) (x l : List α) (h : x.length = n) : chunks n (x ++ l) = x :: chunks n l := by
  have e1 : (x ++ l).length / n = l.length / n + 1 := by
    rw [List.length_append, h, Nat.add_comm, Nat.add_div_right _ hn]
  unfold chunks
  rw [e1, List.range_succ_eq_map, List.map_cons, List.map_map]
  congr 1
  · simp [← h]
  · refine List.map_congr_left fun j _ => ?_
    simp only [Function.comp_apply]
    rw [Nat.succ_mul, Nat.add_comm, ← List.drop_drop, ← h, List.drop_left]

theorem outs_chunks (gamma : K) (tau : Option K) (n : Nat) : ∀ (l c : List (A2C.Step K)), c.length < n →
    outs gamma tau n c l = (chunks n (c ++ l)).map fun c => A2C.targets gamma tau (A2C.endValue c) c
  | [], c, hc => by rw [List.append_nil, chunks_short n c hc]; rfl
  | a :: l, c, hc => by
    rw [outs]
    by_cases hf : c.length + 1 = n
    · rw [if_pos hf, outs_chunks gamma tau n l [] (by simp; omega), show c ++ a :: l = (c ++ [a]) ++ l by simp,
        chunks_full n (by omega) (c ++ [a]) l (by simpa using hf)]
      simp [A2C.endValue]
    · rw [if_neg hf, outs_chunks gamma tau n l (c ++ [a]) (by simp; omega)]
      simp

theorem act_ok (gamma : K) (tau : Option K) (n : Nat) (s : A2C.St K) (c : List (A2C.Step K)) (h : A2C.Inv n s c) (hc : c.length < n) (v x : K) :
    ∃ s', A2C.run gamma tau n s [.act v x] = .ok (s', []) := by
  obtain ⟨s1, h1, -⟩ := A2C.run_step gamma tau n s c ⟨v, 0, false, false, x⟩ h hc
  have hn1 : s.t - s.tStart ≠ n := by have := h.len; omega
  simp only [A2C.Step.calls, A2C.run] at h1
  obtain ⟨⟨s2, o2⟩, g1, -⟩ := DQN.except_bind_ok.1 h1
  have ho : o2 = [] := by
    simp only [A2C.step] at g1
    obtain ⟨st, -, g2⟩ := DQN.except_bind_ok.1 g1
    obtain ⟨vals, -, g3⟩ := DQN.except_bind_ok.1 g2
    simp only [pure, Except.pure, Except.ok.injEq, Prod.mk.injEq, A2C.maybeUpdate, hn1, if_false] at g3
    exact g3.2.symm
  subst ho
  exact ⟨s2, by simp only [A2C.run, g1, bind, Except.bind, pure, Except.pure, List.append_nil]⟩

/-- **C124**: at every moment of every run of `train_agent_batch` with A2C that begins at step 0 no call of the agent raises by itself, and it has made one
update after each `update_steps` rounds, for each environment with the return targets of exactly the steps of these rounds (`value k o` is the value that
the model gives to `o` in round `k`). -/
theorem C124_a2c (c : TrainBatch.Cfg S) (hc : 0 < c.numEnvs) (hoff : c.stepOffset = 0) (w : TrainBatch.World O A K S X) (gamma : K) (tau : Option K)
    (n : Nat) (hn : 1 ≤ n) (value : Nat → O → K) (pre post : List (Ev O A K S)) (hrun : (TrainBatch.run c w).1 = pre ++ post)
    (hs : ∀ e ∈ pre, Sized c.numEnvs e) :
    ∃ (rounds : List (List (EnvRound Unit O A K))) (pend : Option (List O × List A)), calls pre = history rounds pend ∧
      ∀ i, i < c.numEnvs → (column i rounds).length = rounds.length ∧ episodes (column i rounds) = (record i pre).told ∧
        ∃ s, driveA2C gamma tau n c.stepOffset i value pre =
          .ok (s, (chunks n (a2cSteps value 0 (column i rounds))).map fun x => A2C.targets gamma tau (A2C.endValue x) x) := by
  obtain ⟨rounds, pend, h⟩ := tells c hc w (fun _ _ => ()) pre post hrun hs
  refine ⟨rounds, pend, h.calls, fun i hi => ⟨?_, h.told i hi, ?_⟩⟩
  · have : ∀ l : List (List (EnvRound Unit O A K)), (∀ r ∈ l, r.length = c.numEnvs) → (column i l).length = l.length := by
      intro l
      induction l with
      | nil => intro _; rfl
      | cons r l ih =>
        intro hl
        have e0 := List.getElem?_eq_getElem (l := r) (i := i) (by rw [hl r (by simp)]; exact hi)
        simp only [column, List.filterMap_cons, e0, List.length_cons]
        exact congrArg (· + 1) (ih fun r hr => hl r (by simp [hr]))
    exact this rounds h.size
  · obtain ⟨s1, c1, h1, i1, l1⟩ := run_rounds gamma tau n hn value (column i rounds) 0 A2C.St.init [] ⟨rfl, .inl ⟨rfl, rfl⟩⟩ (by simp; omega)
    rw [outs_chunks gamma tau n _ [] (by simp; omega)] at h1
    unfold driveA2C
    rw [h.calls, a2cCalls_history i c.numEnvs hi value pend rounds 0 h.size, hoff]
    cases hx : pend.bind fun p => p.1[i]? with
    | none => exact ⟨s1, by simpa [A2C.St.init] using h1⟩
    | some x =>
      obtain ⟨s2, h2⟩ := act_ok gamma tau n s1 c1 i1 l1 (value (0 + rounds.length) x) (value (0 + rounds.length) x)
      have := A2C.run_append gamma tau n _ _ _ s1 s2 _ _ h1 h2
      rw [List.append_nil] at this
      exact ⟨s2, this⟩

/-- **C124** is violated by A2C in a run that continues at a step greater than 0: `train_agent_batch` sets `agent.t`, and A2C allocates its storage only
when `t` is 0.  Whatever the environments do, the first call of the agent raises. -/
theorem C124_a2c_offset_violated (c : TrainBatch.Cfg S) (hc : 0 < c.numEnvs) (hoff : 0 < c.stepOffset) (w : TrainBatch.World O A K S X) (gamma : K)
    (tau : Option K) (n : Nat) (value : Nat → O → K) (pre post : List (Ev O A K S)) (hrun : (TrainBatch.run c w).1 = pre ++ post)
    (hs : ∀ e ∈ pre, Sized c.numEnvs e) (hcall : calls pre ≠ []) (i : Nat) (hi : i < c.numEnvs) :
    driveA2C gamma tau n c.stepOffset i value pre = .error .attributeError := by
  obtain ⟨rounds, pend, h⟩ := tells c hc w (fun _ _ => ()) pre post hrun hs
  have key : ∀ v x rest, A2C.run gamma tau n { A2C.St.init with t := c.stepOffset } (.act v x :: rest) = .error .attributeError := by
    intro v x rest
    simp only [A2C.run, A2C.step, A2C.actStore, show c.stepOffset ≠ 0 by omega, if_false, A2C.St.init, bind, Except.bind]
  unfold driveA2C
  rw [h.calls, a2cCalls_history i c.numEnvs hi value pend rounds 0 h.size]
  cases rounds with
  | cons r rounds =>
    have e0 := List.getElem?_eq_getElem (l := r) (i := i) (by rw [h.size r (by simp)]; exact hi)
    have e2 : column i (r :: rounds) = r[i]'(by rw [h.size r (by simp)]; exact hi) :: column i rounds := by simp [column, e0]
    rw [e2]
    exact key _ _ _
  | nil =>
    cases pend with
    | none => exact absurd h.calls (by simpa [history] using hcall)
    | some p =>
      have e0 := List.getElem?_eq_getElem (l := p.1) (i := i) (by rw [(h.pend p rfl).1]; exact hi)
      simp only [Option.bind_some, e0, column, List.filterMap_nil, a2cRounds, List.nil_append, Option.map_some, Option.toList_some]
      exact key _ _ _

end A2C

/-! ## Non-vacuity -/

/-- The run of `Props/TrainBatchDQN.lean`: three rounds of two environments, from step 5 to step 11. -/
abbrev exEvents : List (Ev Nat Nat Int Int) := (TrainBatch.run TrainBatchDQN.exTrain TrainBatch.exWorld).1

example : (calls exEvents).length = 6 ∧ chosen exEvents = [0, 0, 1, 1, 2, 2] := by decide +kernel

set_option synthInstance.maxSize 512 in
/-- SoftActorCritic, whose actions are the burn-in function's before the first update. -/
example : (driveAC ActorCritic.exSac none 2 5 (fun k _ burn => if burn then (if k < 2 then k else 99) else k) exEvents).toOption.map
    (fun x => (ActorCritic.returned x.2, (TrainCalls.stored x.1.buf).map (·.map fun x => (x.state, x.action, x.reward, x.nextState, x.terminal)))) =
      some (chosen exEvents,
        [[(0, 0, 1, 10, false), (7, 1, 1, 11, true)], [(7, 1, 1, 11, true)], [(0, 0, 2, 20, false), (8, 1, 2, 21, false)], [(8, 1, 2, 21, false)],
         [(8, 2, 2, 22, false)]]) := by decide +kernel

/-- PPO with `update_interval=3`: an update with four transitions, and two wait. -/
example : ∃ s ds, drivePPO 3 exEvents = .ok (s, ds) ∧ ds.map (·.map fun e => (e.1, e.2.map (·.action))) = [[(some 0, [0, 1]), (some 1, [0, 1])]] ∧
    s.memory.map (fun e => (e.1, e.2.map (·.action))) = [(some 1, [2])] := by
  refine ⟨_, _, rfl, ?_, ?_⟩ <;> decide +kernel

/-- A2C with `update_steps=2` from step 0: one update, in which the first environment's episode ends with its second step. -/
example : (driveA2C (2 : Int) none 2 0 0 (fun k (o : Nat) => 100 * (k : Int) + (o : Int)) (TrainBatch.run ⟨2, 6, 0, some 2, none, false, none, 0, true⟩ TrainBatch.exWorld).1).toOption.map (·.2) =
    some [[1 + 2 * 1, 1]] := by decide +kernel

/-- And if it begins at step 5. -/
example : driveA2C (2 : Int) none 2 5 0 (fun k (o : Nat) => 100 * (k : Int) + (o : Int)) exEvents = .error .attributeError ∧ calls exEvents ≠ [] :=
  ⟨rfl, by intro h; exact absurd (congrArg List.length h) (by decide +kernel)⟩

end Verif.TrainBatchCalls
