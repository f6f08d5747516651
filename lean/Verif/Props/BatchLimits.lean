import Verif.Spec.BatchLimits
import Verif.Props.TrainBatchDQN
import Verif.Props.StepLimits
set_option autoImplicit false
set_option linter.unusedSectionVars false

/-! # C170: step limits in a vectorised training run -/

namespace Verif.BatchLimits
open DQN (EnvStep)
open TrainBatchDQN (Record record drive Sized)
open TrainDQN (stored buffer entriesOf)
open TrainBatch (Phase Next Ev)
open StepLimits (cut cut_concat Stops Only Endless)
open Wrappers (Gym timeLimit stepLimited doneOut limitOut)
variable {θ O A K S E H X T : Type}

/-! ## One call -/

/-- What a call is to environment `i`. -/
theorem ofEnv_cases (i : Nat) (e : Ev O A K S) :
    (∃ mask obss o, e = .reset mask obss ∧ ¬ mask.bind (·[i]?) = some true ∧ obss[i]? = some o ∧ ofEnv i e = some (.reset o)) ∨
    (∃ as outs a out, e = .step as outs ∧ as[i]? = some a ∧ outs[i]? = some out ∧ ofEnv i e = some (.step a out)) ∨ ofEnv i e = none := by
  cases e with
  | reset mask obss =>
    by_cases hm : mask.bind (·[i]?) = some true
    · right; right; simp only [ofEnv, if_pos hm]
    · rcases ho : obss[i]? with _ | o
      · right; right; simp only [ofEnv, if_neg hm, ho, Option.map_none]
      · left; exact ⟨mask, obss, o, rfl, hm, ho, by simp only [ofEnv, if_neg hm, ho, Option.map_some]⟩
  | step as outs =>
    rcases ha : as[i]? with _ | a <;> rcases ho : outs[i]? with _ | out
    · right; right; simp [ofEnv, ha]
    · right; right; simp [ofEnv, ha]
    · right; right; simp [ofEnv, ha, ho]
    · right; left; exact ⟨as, outs, a, out, rfl, ha, ho, by simp [ofEnv, ha, ho]⟩
  | _ => right; right; rfl

theorem getElem?_set_of_some {α : Type} {l : List α} {i : Nat} {x : α} (h : l[i]? = some x) (y : α) : (l.set i y)[i]? = some y := by
  obtain ⟨hi, -⟩ := List.getElem?_eq_some_iff.1 h
  simp [hi]

theorem set_of_some {α : Type} {l : List α} {i : Nat} {x : α} (h : l[i]? = some x) : l.set i x = l := by
  obtain ⟨hi, rfl⟩ := List.getElem?_eq_some_iff.1 h
  simp

/-- A part of a run used the same environment. -/
theorem Served.prefix {i : Nat} {call : T → Wrappers.Op A → T × Wrappers.Out O K} {t : T} {pre post : List (Ev O A K S)}
    (h : Served i call t (pre ++ post)) : Served i call t pre := by
  unfold Served at *
  rw [List.filterMap_append] at h
  exact StepLimits.Served.prefix h

/-- The environment itself: nothing is changed. -/
theorem asIf_served (i : Nat) (g : Gym E O A K) (es : List (Ev O A K S)) : ∀ s, Served i g.call s es → asIf i g s es = es := by
  induction es with
  | nil => intros; rfl
  | cons e es ih =>
    intro s h
    unfold Served at h
    rcases ofEnv_cases i e with ⟨mask, obss, o, rfl, hm, ho, he⟩ | ⟨as, outs, a, out, rfl, ha, ho, he⟩ | he
    · rw [List.filterMap_cons_some he] at h
      simp only [StepLimits.Served, StepLimits.envOps, StepLimits.envOuts, Wrappers.run, Gym.call, List.cons.injEq, Wrappers.Out.obs.injEq] at h
      obtain ⟨rfl, h⟩ := h
      simp only [asIf, he, put, ih _ h]
      rw [set_of_some ho]
    · rw [List.filterMap_cons_some he] at h
      simp only [StepLimits.Served, StepLimits.envOps, StepLimits.envOuts, Wrappers.run, Gym.call, List.cons.injEq, Wrappers.Out.step.injEq] at h
      obtain ⟨rfl, h⟩ := h
      simp only [asIf, he, put, ih _ h]
      rw [set_of_some ho]
    · rw [List.filterMap_cons_none he] at h
      simp only [asIf, he, ih _ h]

/-- The record shows the environment inside `ContinuingTimeLimit`. -/
theorem record_timeLimit (i : Nat) (g : Gym E O A K) (n : Nat) (es : List (Ev O A K S)) : ∀ (c : Option Nat) (s : E) (w : Record O A K),
    Served i (timeLimit g n) (c, s) es → es.foldl (Record.watch i) w = (asIf i g s es).foldl (Record.watch i) w := by
  induction es with
  | nil => intros; rfl
  | cons e es ih =>
    intro c s w h
    unfold Served at h
    rcases ofEnv_cases i e with ⟨mask, obss, o, rfl, hm, ho, he⟩ | ⟨as, outs, a, out, rfl, ha, ho, he⟩ | he
    · rw [List.filterMap_cons_some he] at h
      simp only [StepLimits.Served, StepLimits.envOps, StepLimits.envOuts, Wrappers.run, timeLimit, List.cons.injEq, Wrappers.Out.obs.injEq] at h
      obtain ⟨rfl, h⟩ := h
      simp only [asIf, he, put, List.foldl_cons]
      rw [ih _ _ _ h]
      simp only [Record.watch, if_neg hm, getElem?_set_of_some ho, ho]
    · rw [List.filterMap_cons_some he] at h
      cases c with
      | none => simp [StepLimits.Served, StepLimits.envOps, StepLimits.envOuts, Wrappers.run, timeLimit] at h
      | some c =>
        simp only [StepLimits.Served, StepLimits.envOps, StepLimits.envOuts, Wrappers.run, timeLimit, List.cons.injEq, Wrappers.Out.step.injEq] at h
        obtain ⟨rfl, h⟩ := h
        simp only [asIf, he, put, List.foldl_cons]
        rw [ih _ _ _ h]
        congr 1
        simp only [Record.watch, getElem?_set_of_some ho, ho, ha]
        have e1 : ∀ (k : Nat) (o : Train.StepOut O K), (limitOut n k o).r = o.r ∧ (limitOut n k o).obs = o.obs ∧ (limitOut n k o).done = o.done := by
          intro k o; unfold limitOut; split <;> exact ⟨rfl, rfl, rfl⟩
        cases w.obs <;> simp [e1]
    · rw [List.filterMap_cons_none he] at h
      simp only [asIf, he, List.foldl_cons]
      exact ih _ _ _ h

/-- How the record of a run in an environment limited by `make_timestep_limited` relates to that of the environment inside. -/
structure Cuts (n : Nat) (w w' : Record O A K) : Prop where
  finished : w.finished = w'.finished.map (cut n)
  current : w.current = cut n w'.current
  obs : w.obs = w'.obs
  told : w.told = (w'.told.1.map (cut n), cut n w'.told.2)

theorem cut_isEmpty (n : Nat) (l : List (EnvStep O A K)) : (cut n l).isEmpty = l.isEmpty := by cases l <;> simp [cut]

/-- The record of a run in an environment limited by `make_timestep_limited`, after its first reset. -/
theorem record_stepLimited (i : Nat) (g : Gym E O A K) (n : Nat) (es : List (Ev O A K S)) (hs : ∀ mask obss, Ev.reset mask obss ∈ es → i < obss.length) :
    ∀ (c : Nat) (s : E) (w w' : Record O A K), Served i (stepLimited g n) (c, s) es → Cuts n w w' → w'.obs ≠ none → c = w'.current.length + 1 →
      Cuts n (es.foldl (Record.watch i) w) ((asIf i g s es).foldl (Record.watch i) w') := by
  induction es with
  | nil => intro c s w w' _ h _ _; exact h
  | cons e es ih =>
    intro c s w w' h hcut hobs hc
    have ih := ih fun mask obss hm => hs mask obss (List.mem_cons_of_mem _ hm)
    obtain ⟨h1, h2, h3, h4⟩ := hcut
    unfold Served at h
    rcases ofEnv_cases i e with ⟨mask, obss, o, rfl, hm, ho, he⟩ | ⟨as, outs, a, out, rfl, ha, ho, he⟩ | he
    · rw [List.filterMap_cons_some he] at h
      simp only [StepLimits.Served, StepLimits.envOps, StepLimits.envOuts, Wrappers.run, stepLimited, List.cons.injEq, Wrappers.Out.obs.injEq] at h
      obtain ⟨rfl, h⟩ := h
      simp only [asIf, he, put, List.foldl_cons]
      refine ih _ _ _ _ h ⟨?_, ?_, ?_, ?_⟩ ?_ ?_ <;> simp only [Record.watch, if_neg hm, getElem?_set_of_some ho, ho]
      · simp only [h1, h2, cut_isEmpty]
        split <;> simp
      · rfl
      · exact h4
      · simp
      · simp
    · rw [List.filterMap_cons_some he] at h
      simp only [StepLimits.Served, StepLimits.envOps, StepLimits.envOuts, Wrappers.run, stepLimited, List.cons.injEq, Wrappers.Out.step.injEq] at h
      obtain ⟨rfl, h⟩ := h
      obtain ⟨o, hob⟩ := Option.ne_none_iff_exists'.1 hobs
      have e1 : ∀ x : Train.StepOut O K, (doneOut n c x).r = x.r ∧ (doneOut n c x).obs = x.obs ∧ (doneOut n c x).done = (x.done || decide (n ≤ c)) := by
        intro x; unfold doneOut; split <;> rename_i hle <;> simp [hle]
      simp only [asIf, he, put, List.foldl_cons]
      refine ih _ _ _ _ h ⟨?_, ?_, ?_, ?_⟩ ?_ ?_ <;> simp only [Record.watch, getElem?_set_of_some ho, ho, ha, h3, hob, e1]
      · exact h1
      · rw [h2, cut_concat, hc]
      · exact h4
      · simp
      · simp [hc]
    · rw [List.filterMap_cons_none he] at h
      simp only [asIf, he, List.foldl_cons]
      cases e with
      | reset mask obss =>
        have hlt := hs mask obss List.mem_cons_self
        have hm : mask.bind (·[i]?) = some true := by
          by_contra hm
          simp [ofEnv, hm, hlt] at he
        refine ih _ _ _ _ h ⟨?_, ?_, ?_, ?_⟩ ?_ ?_ <;> simp only [Record.watch, if_pos hm]
        · exact h1
        · exact h2
        · exact h4
        · simp [hlt]
        · exact hc
      | step as outs =>
        have hw : ∀ v : Record O A K, v.watch i (.step as outs : Ev O A K S) = v := by
          intro v
          simp only [ofEnv] at he
          simp only [Record.watch]
          split
          · rename_i e1 e2; simp [e1, e2] at he
          · rfl
        rw [hw, hw]
        exact ih _ _ _ _ h ⟨h1, h2, h3, h4⟩ hobs hc
      | observe a b dones resets =>
        refine ih _ _ _ _ h ⟨h1, h2, h3, ?_⟩ hobs hc
        simp only [Record.watch, h1, h2]
        split <;> simp [cut]
      | _ => exact ih _ _ _ _ h ⟨h1, h2, h3, h4⟩ hobs hc

/-! ## How long episodes are -/

/-- What is known of the length of the current episode; `F`: the environment never ends an episode by itself. -/
def Len (n i : Nat) (F : Prop) (ml : Option Nat) (q : Phase O A K S) (c : Nat) (w : Record O A K) : Prop :=
  (∀ ep ∈ w.finished, ep.length ≤ n ∧ (F → ep.length = n)) ∧
  match q with
  | .fresh => w = {} ∧ c = 0
  | .ready _ lens _ _ => w.obs ≠ none ∧ lens[i]? = some w.current.length ∧ c = w.current.length ∧ w.current.length < n
  | .chosen a lens _ _ => w.obs ≠ none ∧ lens[i]? = some w.current.length ∧ c = w.current.length ∧ w.current.length < n ∧ ∃ x, a[i]? = some x
  | .stepped outs lens _ _ => w.obs ≠ none ∧ lens[i]? = some w.current.length ∧ c = w.current.length ∧ w.current.length ≤ n ∧ 0 < w.current.length ∧
      ∃ out, outs[i]? = some out ∧ (w.current.length = n → out.done = true ∨ out.needsReset = true ∨ ml = some n) ∧
        (F → out.done = true ∨ out.needsReset = true → w.current.length = n)
  | .counting todo ends lens _ _ => (∀ e ∈ todo, e.isUse = false) ∧
      w.obs ≠ none ∧ lens[i]? = some w.current.length ∧ c = w.current.length ∧ w.current.length ≤ n ∧ 0 < w.current.length ∧
      ∃ b, ends[i]? = some b ∧ (w.current.length = n → b = true) ∧ (F → b = true → w.current.length = n)
  | .judged _ ends lens _ _ =>
      w.obs ≠ none ∧ lens[i]? = some w.current.length ∧ c = w.current.length ∧ w.current.length ≤ n ∧ 0 < w.current.length ∧
      ∃ b, ends[i]? = some b ∧ (w.current.length = n → b = true) ∧ (F → b = true → w.current.length = n)
  | .finished _ => w.current.length ≤ n
  | .failed _ => w.current.length ≤ n

theorem ofEnv_other (i : Nat) (e : Ev O A K S) (h : e.isUse = false) : ofEnv i e = none := by
  cases e <;> first | rfl | exact absurd h (by simp [Ev.isUse])

/-- The length at any moment. -/
theorem Len.bound {n i : Nat} {F : Prop} {ml : Option Nat} {q : Phase O A K S} {c : Nat} {w : Record O A K} (h : Len n i F ml q c w) :
    w.current.length ≤ n := by
  obtain ⟨-, h⟩ := h
  cases q with
  | fresh => simp [h.1]
  | ready => exact h.2.2.2.le
  | chosen => exact h.2.2.2.1.le
  | stepped => exact h.2.2.2.1
  | counting => exact h.2.2.2.2.1
  | judged => exact h.2.2.2.1
  | finished => exact h
  | failed => exact h

/-- One call keeps track of the length. -/
def Keeps (n i : Nat) (F : Prop) (ml : Option Nat) (es : List (Ev O A K S)) (r : Phase O A K S) (w : Record O A K) : Prop :=
  ∃ c, Stops n ml c (es.filterMap (ofEnv i)) ∧ (F → Only n c (es.filterMap (ofEnv i))) ∧ Len n i F ml r c w

variable [Zero S] [LinearOrder S]

theorem len_judged {n i : Nat} (hn : 0 < n) {F : Prop} {c : TrainBatch.Cfg S} (hi : i < c.numEnvs) {b : Bool} {ends : List Bool} {lens : List Nat} {t k : Nat}
    {e : Ev O A K S} {r : Phase O A K S} (hnx : Next c (.judged b ends lens t k) e r) (es : List (Ev O A K S)) (hsz : Sized c.numEnvs e) (m : Nat) (w : Record O A K)
    (hs : Stops n c.maxEpisodeLen m ((e :: es).filterMap (ofEnv i))) (ho : F → Only n m ((e :: es).filterMap (ofEnv i)))
    (h : Len n i F c.maxEpisodeLen (.judged b ends lens t k : Phase O A K S) m w) : Keeps n i F c.maxEpisodeLen es r (w.watch i e) := by
  obtain ⟨h0, h1, h2, h3, h4, h4', x, h5, h6, h7⟩ := h
  rcases TrainBatch.judged_inv hnx with ⟨-, -, obss, rfl, rfl⟩ | ⟨-, rfl, rfl⟩ | ⟨rfl, rfl⟩
  · have hsz : obss.length = c.numEnvs := hsz
    have hlt : i < obss.length := by omega
    cases x with
    | true =>
      have hm : ¬ ((some (ends.map not)).bind (·[i]?) = some true) := by simp [h5]
      have he : ofEnv i (Ev.reset (A := A) (K := K) (S := S) (some (ends.map not)) obss) = some (.reset obss[i]) := by
        simp only [ofEnv, if_neg hm, List.getElem?_eq_getElem hlt, Option.map_some]
      rw [List.filterMap_cons_some he] at hs ho
      have hs' : Stops n c.maxEpisodeLen 0 (es.filterMap (ofEnv i)) := by
        cases hs with
        | reset _ _ _ hs => exact hs
        | skip _ _ _ _ h => exact absurd rfl (h _)
      have ho' : F → Only n 0 (es.filterMap (ofEnv i)) := by
        intro hF
        cases ho hF with
        | reset _ _ _ hs => exact hs
        | skip _ _ _ _ h => exact absurd rfl (h _)
      refine ⟨0, hs', ho', ?_, ?_⟩
      · simp only [Record.watch, if_neg hm]
        intro ep hep
        split at hep
        · exact h0 ep hep
        · rcases List.mem_append.1 hep with hep | hep
          · exact h0 ep hep
          · rw [List.mem_singleton.1 hep]; exact ⟨h4, fun hF => h7 hF rfl⟩
      · simp only [Record.watch, if_neg hm]
        refine ⟨by simp [hlt], ?_, rfl, hn⟩
        rw [List.getElem?_map, List.getElem?_zip_eq_some (z := (true, w.current.length)).2 ⟨h5, h2⟩]
        rfl
    | false =>
      have hm : (some (ends.map not)).bind (·[i]?) = some true := by simp [h5]
      have he : ofEnv i (Ev.reset (A := A) (K := K) (S := S) (some (ends.map not)) obss) = none := by
        simp only [ofEnv, if_pos hm]
      rw [List.filterMap_cons_none he] at hs ho
      refine ⟨m, hs, ho, ?_, ?_⟩
      · simpa only [Record.watch, if_pos hm] using h0
      · simp only [Record.watch, if_pos hm]
        refine ⟨by simp [hlt], ?_, h3, lt_of_le_of_ne h4 fun h => by have := h6 h; simp at this⟩
        rw [List.getElem?_map, List.getElem?_zip_eq_some (z := (false, w.current.length)).2 ⟨h5, h2⟩]
        rfl
  · exact ⟨m, hs, ho, h0, h4⟩
  · exact ⟨m, hs, ho, h0, h4⟩

theorem len_step {n i : Nat} (hn : 0 < n) {F : Prop} {c : TrainBatch.Cfg S} (hml : F → ∀ x, c.maxEpisodeLen = some x → x = n) (hi : i < c.numEnvs) {q : Phase O A K S}
    {e : Ev O A K S} {r : Phase O A K S} (hnx : Next c q e r) (es : List (Ev O A K S)) (hsz : Sized c.numEnvs e) (m : Nat) (w : Record O A K)
    (hs : Stops n c.maxEpisodeLen m ((e :: es).filterMap (ofEnv i))) (ho : F → Only n m ((e :: es).filterMap (ofEnv i)))
    (h : Len n i F c.maxEpisodeLen q m w) : Keeps n i F c.maxEpisodeLen es r (w.watch i e) := by
  cases hnx with
  | first obss =>
    obtain ⟨h0, rfl, rfl⟩ := h
    have hsz : obss.length = c.numEnvs := hsz
    have hlt : i < obss.length := by omega
    have he : ofEnv i (Ev.reset (A := A) (K := K) (S := S) none obss) = some (.reset obss[i]) := by
      simp [ofEnv, hlt]
    rw [List.filterMap_cons_some he] at hs ho
    have hs' : Stops n c.maxEpisodeLen 0 (es.filterMap (ofEnv i)) := by
      cases hs with
      | reset _ _ _ hs => exact hs
      | skip _ _ _ _ h => exact absurd rfl (h _)
    have ho' : F → Only n 0 (es.filterMap (ofEnv i)) := by
      intro hF
      cases ho hF with
      | reset _ _ _ hs => exact hs
      | skip _ _ _ _ h => exact absurd rfl (h _)
    exact ⟨0, hs', ho', by simp [Record.watch], by simp [Record.watch, hlt, hi, hn]⟩
  | setT obss lens => exact ⟨m, hs, ho, h⟩
  | act obss lens t k a =>
    have hsz : a.length = c.numEnvs := hsz
    obtain ⟨h0, h1, h2, h3, h4⟩ := h
    exact ⟨m, hs, ho, h0, h1, h2, h3, h4, _, List.getElem?_eq_getElem (by omega)⟩
  | step a lens t k outs =>
    have hsz : outs.length = c.numEnvs := hsz
    obtain ⟨h0, h1, h2, h3, h4, x, hx⟩ := h
    have hlt : i < outs.length := by omega
    have hout := List.getElem?_eq_getElem hlt
    obtain ⟨o, hob⟩ := Option.ne_none_iff_exists'.1 h1
    have he : ofEnv i (Ev.step (S := S) a outs) = some (.step x outs[i]) := by
      simp [ofEnv, hx, hout]
    rw [List.filterMap_cons_some he] at hs ho
    subst h3
    obtain ⟨hs1, hs2⟩ : (n = w.current.length + 1 → outs[i].done = true ∨ outs[i].needsReset = true ∨ c.maxEpisodeLen = some n) ∧
        Stops n c.maxEpisodeLen (w.current.length + 1) (es.filterMap (ofEnv i)) := by
      cases hs with
      | step _ _ _ _ h1 h2 => exact ⟨h1, h2⟩
      | skip _ _ _ h => simp [Train.Ev.isStep] at h
    have ho' : F → (outs[i].done = true ∨ outs[i].needsReset = true → n ≤ w.current.length + 1) ∧ Only n (w.current.length + 1) (es.filterMap (ofEnv i)) := by
      intro hF
      cases ho hF with
      | step _ _ _ _ h1 h2 => exact ⟨h1, h2⟩
      | skip _ _ _ h => simp [Train.Ev.isStep] at h
    refine ⟨_, hs2, fun hF => (ho' hF).2, ?_, ?_⟩
    · simpa only [Record.watch, hob, hx, hout] using h0
    · simp only [Record.watch, hob, hx, hout, List.length_append, List.length_singleton]
      refine ⟨by simp, by simp [h2], trivial, h4, by omega, _, rfl, fun h => hs1 h.symm, fun hF hd => ?_⟩
      have := (ho' hF).1 hd
      omega
  | observe outs lens t k resets ends hr he =>
    obtain ⟨h0, h1, h2, h3, h4, h4', out, h5, h6, h7⟩ := h
    have e1 : resets[i]? = some (TrainBatch.mustReset c.maxEpisodeLen w.current.length out) := by
      rw [hr, List.getElem?_map, List.getElem?_zip_eq_some (z := (w.current.length, out)).2 ⟨h2, h5⟩]; rfl
    have e2 : ends[i]? = some (TrainBatch.mustReset c.maxEpisodeLen w.current.length out || out.done) := by
      rw [he, List.getElem?_map, List.getElem?_zip_eq_some (z := (TrainBatch.mustReset c.maxEpisodeLen w.current.length out, out)).2 ⟨e1, h5⟩]; rfl
    refine ⟨m, hs, ho, h0, fun e he => ?_, h1, h2, h3, h4, h4', _, e2, fun hl => ?_, fun hF hb => ?_⟩
    · have := (TrainBatch.due_mem he).2
      cases e <;> first | rfl | exact absurd this (by simp [TrainBatch.Ev.isDue])
    · simp only [TrainBatch.mustReset]
      rcases h6 hl with h | h | h
      · simp [h]
      · simp [h]
      · have hl : w.current.length = n := hl
        rw [h, hl]; simp
    · simp only [TrainBatch.mustReset, Bool.or_eq_true, decide_eq_true_eq] at hb
      rcases hb with (hb | hb) | hb
      · exact h7 hF (.inr hb)
      · exact hml hF _ hb
      · exact h7 hF (.inl hb)
  | count e todo ends lens t k =>
    obtain ⟨h0, h8, h1, h2, h3, h4⟩ := h
    have hu := h8 e List.mem_cons_self
    rw [List.filterMap_cons_none (ofEnv_other i e hu)] at hs ho
    rw [TrainBatchDQN.watch_other i w e hu]
    exact ⟨m, hs, ho, h0, fun e' he' => h8 e' (List.mem_cons_of_mem _ he'), h1, h2, h3, h4⟩
  | evaluate ends lens t k score mx hev =>
    obtain ⟨h0, h8, h⟩ := h
    exact ⟨m, hs, ho, h0, h⟩
  | noEvaluator hev hn' =>
    obtain ⟨h0, h8, h⟩ := h
    exact len_judged hn hi hn' es hsz m w hs ho ⟨h0, h⟩
  | reset ends lens t k obss hlt => exact len_judged hn hi (.reset _ _ _ _ _ hlt) es hsz m w hs ho h
  | finish b ends lens t k hb => exact len_judged hn hi (.finish _ _ _ _ _ hb) es hsz m w hs ho h
  | fail p hp => exact ⟨m, hs, ho, h.1, h.bound⟩
  | closeEnv t => exact ⟨m, hs, ho, h⟩
  | closeEvalEnv t => exact ⟨m, hs, ho, h⟩

theorem len_run {n i : Nat} (hn : 0 < n) {F : Prop} {c : TrainBatch.Cfg S} (hml : F → ∀ x, c.maxEpisodeLen = some x → x = n) (hi : i < c.numEnvs) {p q : Phase O A K S}
    {es : List (Ev O A K S)} (h : Steps (Next c) p es q) (hsz : ∀ e ∈ es, Sized c.numEnvs e) : ∀ (m : Nat) (w : Record O A K),
    Stops n c.maxEpisodeLen m (es.filterMap (ofEnv i)) → (F → Only n m (es.filterMap (ofEnv i))) → Len n i F c.maxEpisodeLen p m w →
    (∀ ep ∈ (es.foldl (Record.watch i) w).finished, ep.length ≤ n ∧ (F → ep.length = n)) ∧ (es.foldl (Record.watch i) w).current.length ≤ n := by
  induction h with
  | nil p => intro m w _ _ h; exact ⟨h.1, h.bound⟩
  | @cons p q r e es hnx _ ih =>
    intro m w hs ho h
    obtain ⟨m', h1, h2, h3⟩ := len_step hn hml hi hnx es (hsz e List.mem_cons_self) m w hs ho h
    exact ih (fun e he => hsz e (List.mem_cons_of_mem _ he)) _ _ h1 h2 h3

theorem Limited.stops {n i : Nat} {c : TrainBatch.Cfg S} {g : Gym E O A K} {s : E} {evs : List (Ev O A K S)} (h : Limited n c i g s evs) :
    Stops n c.maxEpisodeLen 0 (evs.filterMap (ofEnv i)) := by
  rcases h with ⟨h, -⟩ | h | h
  · rw [h]; exact StepLimits.stops_of_plain n _ 0
  · exact StepLimits.stops_of_timeLimit g n _ _ none s 0 (by simp) h
  · exact StepLimits.stops_of_stepLimited g n _ _ s 0 h

theorem Limited.only {n i : Nat} {c : TrainBatch.Cfg S} {g : Gym E O A K} (hg : Endless g) {s : E} {evs : List (Ev O A K S)} (h : Limited n c i g s evs) :
    Only n 0 (evs.filterMap (ofEnv i)) := by
  rcases h with ⟨-, h⟩ | h | h
  · exact StepLimits.only_of_plain g hg n _ s 0 h
  · exact StepLimits.only_of_timeLimit g hg n _ none s 0 (by simp) h
  · exact StepLimits.only_of_stepLimited g hg n _ s 0 h

/-- **C170**: with any of the limits no episode of the environment is longer than `n` steps, whatever the other environments do. -/
theorem C170_length (n : Nat) (hn : 0 < n) (c : TrainBatch.Cfg S) (i : Nat) (hi : i < c.numEnvs) (w : TrainBatch.World O A K S X) (g : Gym E O A K) (s : E)
    (hs : ∀ e ∈ (TrainBatch.run c w).1, Sized c.numEnvs e) (h : Limited n c i g s (TrainBatch.run c w).1) :
    ∀ ep ∈ episodes i (TrainBatch.run c w).1, ep.length ≤ n := by
  obtain ⟨q, hp, -⟩ := TrainBatch.C23_protocol c (by omega) w
  obtain ⟨h1, h2⟩ := len_run (F := False) hn (by simp) hi hp hs 0 {} h.stops (by simp) ⟨by simp, rfl, rfl⟩
  intro ep hep
  rcases List.mem_append.1 hep with hep | hep
  · exact (h1 ep hep).1
  · rw [List.mem_singleton.1 hep]; exact h2

/-- **C170**: if the environment never ends an episode by itself, every episode of it that was followed by another has exactly `n` steps. -/
theorem C170_full (n : Nat) (hn : 0 < n) (c : TrainBatch.Cfg S) (hml : ∀ x, c.maxEpisodeLen = some x → x = n) (i : Nat) (hi : i < c.numEnvs)
    (w : TrainBatch.World O A K S X) (g : Gym E O A K) (hg : Endless g) (s : E)
    (hs : ∀ e ∈ (TrainBatch.run c w).1, Sized c.numEnvs e) (h : Limited n c i g s (TrainBatch.run c w).1) :
    ∀ ep ∈ (record i (TrainBatch.run c w).1).finished, ep.length = n := by
  obtain ⟨q, hp, -⟩ := TrainBatch.C23_protocol c (by omega) w
  obtain ⟨h1, -⟩ := len_run (F := True) hn (fun _ => hml) hi hp hs 0 {} h.stops (fun _ => h.only hg) ⟨by simp, rfl, rfl⟩
  exact fun ep hep => (h1 ep hep).2 trivial

/-- The run begins with a reset of all environments. -/
theorem run_first (c : TrainBatch.Cfg S) (hc : 0 < c.numEnvs) (w : TrainBatch.World O A K S X) (pre post : List (Ev O A K S)) (hrun : (TrainBatch.run c w).1 = pre ++ post) :
    pre = [] ∨ ∃ obss rest, pre = .reset none obss :: rest := by
  obtain ⟨q, hp, -⟩ := TrainBatch.C23_protocol c hc w
  rw [hrun] at hp
  cases pre with
  | nil => exact .inl rfl
  | cons e rest =>
    right
    cases hp with
    | cons hnx _ =>
      cases hnx with
      | first obss => exact ⟨obss, rest, rfl⟩
      | fail p hp => exact absurd rfl hp.1

/-- **C170**: with `max_episode_len` or `ContinuingTimeLimit`, at every moment of the run the entries of the environment in the
replay buffer are what happened in the environment itself, with its own terminal flags. -/
theorem C170_own_history (n : Nat) (c : TrainBatch.Cfg S) (i : Nat) (hi : i < c.numEnvs) (w : TrainBatch.World O A K S X) (g : Gym E O A K) (s : E)
    (h : (c.maxEpisodeLen = some n ∧ Served i g.call s (TrainBatch.run c w).1) ∨ Served i (timeLimit g n) (none, s) (TrainBatch.run c w).1)
    (d : DQN.Cfg θ O H) (hd : 0 < d.targetInterval) (cap : Option Nat) (k : Nat) (hk : 0 < k) (ps : Nat → Nat → θ) (p0 : θ)
    (pre post : List (Ev O A K S)) (hrun : (TrainBatch.run c w).1 = pre ++ post) (hs : ∀ e ∈ pre, Sized c.numEnvs e) :
    ∃ j s' ev, drive d ps (DQN.init p0) pre = .ok (j, s', ev) ∧
      ∃ ent : List (Nat × List (EnvStep O A K)), stored (buffer cap k ev) = BoundedList.newest cap (ent.map Prod.snd) ∧
        (ent.filter (fun p => p.1 = i)).map Prod.snd = entriesOf k (record i (asIf i g s pre)).told := by
  obtain ⟨j, s', ev, h1, ent, h2, -, h3⟩ := TrainBatchDQN.C122_buffer c (by omega) w d hd cap k hk ps p0 pre post hrun hs
  refine ⟨j, s', ev, h1, ent, h2, ?_⟩
  rw [h3 i hi]
  rw [hrun] at h
  rcases h with ⟨-, h⟩ | h
  · rw [asIf_served i g pre s h.prefix]
  · have : record i pre = record i (asIf i g s pre) := record_timeLimit i g n pre none s {} h.prefix
    rw [this]

/-- The record of a run in an environment limited by `make_timestep_limited`. -/
theorem run_cuts (n : Nat) (c : TrainBatch.Cfg S) (i : Nat) (hi : i < c.numEnvs) (w : TrainBatch.World O A K S X) (g : Gym E O A K) (s : E)
    (h : Served i (stepLimited g n) (1, s) (TrainBatch.run c w).1)
    (pre post : List (Ev O A K S)) (hrun : (TrainBatch.run c w).1 = pre ++ post) (hs : ∀ e ∈ pre, Sized c.numEnvs e) :
    Cuts n (record i pre) (record i (asIf i g s pre)) := by
  rw [hrun] at h
  have h := h.prefix
  rcases run_first c (by omega) w pre post hrun with rfl | ⟨obss, rest, rfl⟩
  · exact ⟨rfl, rfl, rfl, rfl⟩
  · have hlt : i < obss.length := by
      have : obss.length = c.numEnvs := hs _ List.mem_cons_self
      omega
    have he : ofEnv i (Ev.reset (A := A) (K := K) (S := S) none obss) = some (.reset obss[i]) := by simp [ofEnv, hlt]
    unfold Served at h
    rw [List.filterMap_cons_some he] at h
    simp only [StepLimits.Served, StepLimits.envOps, StepLimits.envOuts, Wrappers.run, stepLimited, List.cons.injEq, Wrappers.Out.obs.injEq] at h
    have key := record_stepLimited i g n rest (fun mask os hm => by
        have : os.length = c.numEnvs := hs _ (List.mem_cons_of_mem _ hm)
        omega) 1 (g.reset s).1 (Record.watch i {} (.reset none obss : Ev O A K S)) (Record.watch i {} (.reset none (obss.set i (g.reset s).2) : Ev O A K S)) h.2
      ⟨by simp [Record.watch], by simp [Record.watch, cut], by simp [Record.watch, hlt, h.1], by simp [Record.watch, cut]⟩ (by simp [Record.watch, hlt]) (by simp [Record.watch])
    have e1 : record i (.reset none obss :: rest) = rest.foldl (Record.watch i) (Record.watch i {} (.reset none obss : Ev O A K S)) := rfl
    have e2 : record i (asIf i g s (.reset none obss :: rest)) =
        (asIf i g (g.reset s).1 rest).foldl (Record.watch i) (Record.watch i {} (.reset none (obss.set i (g.reset s).2) : Ev O A K S)) := by
      simp only [asIf, he, put]; rfl
    rw [e1, e2]
    exact key

/-- **C170**: `make_timestep_limited` adds terminal flags of its own: those of the `n`-th steps. -/
theorem C170_limited (n : Nat) (c : TrainBatch.Cfg S) (i : Nat) (hi : i < c.numEnvs) (w : TrainBatch.World O A K S X) (g : Gym E O A K) (s : E)
    (h : Served i (stepLimited g n) (1, s) (TrainBatch.run c w).1)
    (d : DQN.Cfg θ O H) (hd : 0 < d.targetInterval) (cap : Option Nat) (k : Nat) (hk : 0 < k) (ps : Nat → Nat → θ) (p0 : θ)
    (pre post : List (Ev O A K S)) (hrun : (TrainBatch.run c w).1 = pre ++ post) (hs : ∀ e ∈ pre, Sized c.numEnvs e) :
    ∃ j s' ev, drive d ps (DQN.init p0) pre = .ok (j, s', ev) ∧
      ∃ ent : List (Nat × List (EnvStep O A K)), stored (buffer cap k ev) = BoundedList.newest cap (ent.map Prod.snd) ∧
        (ent.filter (fun p => p.1 = i)).map Prod.snd =
          entriesOf k ((record i (asIf i g s pre)).told.1.map (cut n), cut n (record i (asIf i g s pre)).told.2) := by
  obtain ⟨j, s', ev, h1, ent, h2, -, h3⟩ := TrainBatchDQN.C122_buffer c (by omega) w d hd cap k hk ps p0 pre post hrun hs
  refine ⟨j, s', ev, h1, ent, h2, ?_⟩
  rw [h3 i hi]
  rw [(run_cuts n c i hi w g s h pre post hrun hs).told]

/-- No step of an endless environment is terminal. -/
theorem endless_steps (i : Nat) (g : Gym E O A K) (hg : Endless g) (es : List (Ev O A K S)) : ∀ (s : E) (w : Record O A K),
    (∀ ep ∈ w.current :: w.finished, ∀ x ∈ ep, x.terminal = false) →
    ∀ ep ∈ ((asIf i g s es).foldl (Record.watch i) w).current :: ((asIf i g s es).foldl (Record.watch i) w).finished, ∀ x ∈ ep, x.terminal = false := by
  have reset : ∀ (mask : Option (List Bool)) (obss : List O) (w : Record O A K), (∀ ep ∈ w.current :: w.finished, ∀ x ∈ ep, x.terminal = false) →
      ∀ ep ∈ (w.watch i (.reset mask obss : Ev O A K S)).current :: (w.watch i (.reset mask obss : Ev O A K S)).finished, ∀ x ∈ ep, x.terminal = false := by
    intro mask obss w h ep hep x hx
    simp only [Record.watch] at hep
    split at hep
    · exact h ep hep x hx
    · rcases List.mem_cons.1 hep with rfl | hep
      · simp at hx
      · simp only at hep
        split at hep
        · exact h ep (List.mem_cons_of_mem _ hep) x hx
        · rcases List.mem_append.1 hep with hep | hep
          · exact h ep (List.mem_cons_of_mem _ hep) x hx
          · rw [List.mem_singleton.1 hep] at hx; exact h _ List.mem_cons_self x hx
  induction es with
  | nil => intro s w h; exact h
  | cons e es ih =>
    intro s w h
    rcases ofEnv_cases i e with ⟨mask, obss, o, rfl, hm, ho, he⟩ | ⟨as, outs, a, out, rfl, ha, ho, he⟩ | he
    · simp only [asIf, he, put, List.foldl_cons]
      exact ih _ _ (reset _ _ w h)
    · simp only [asIf, he, put, List.foldl_cons]
      refine ih _ _ ?_
      rcases hob : w.obs with _ | o
      · simpa [Record.watch, hob] using h
      · simp only [Record.watch, hob, ha, getElem?_set_of_some ho]
        intro ep hep x hx
        rcases List.mem_cons.1 hep with rfl | hep
        · rcases List.mem_append.1 hx with hx | hx
          · exact h _ List.mem_cons_self x hx
          · rw [List.mem_singleton.1 hx]; exact (hg s a).1
        · exact h ep (List.mem_cons_of_mem _ hep) x hx
    · simp only [asIf, he, List.foldl_cons]
      refine ih _ _ ?_
      cases e with
      | reset mask obss => exact reset _ _ w h
      | step as outs =>
        have hw : w.watch i (.step as outs : Ev O A K S) = w := by
          simp only [ofEnv] at he
          simp only [Record.watch]
          split
          · rename_i e1 e2; simp [e1, e2] at he
          · rfl
        rw [hw]; exact h
      | _ => exact h

/-- **C170, violated with `make_timestep_limited`**: the environment never ends an episode, but in what the agent stores the last step
of every finished episode of it is terminal. -/
theorem C170_violated_limited (n : Nat) (hn : 0 < n) (c : TrainBatch.Cfg S) (hml : ∀ x, c.maxEpisodeLen = some x → x = n) (i : Nat) (hi : i < c.numEnvs)
    (w : TrainBatch.World O A K S X) (g : Gym E O A K) (hg : Endless g) (s : E)
    (hs : ∀ e ∈ (TrainBatch.run c w).1, Sized c.numEnvs e) (h : Served i (stepLimited g n) (1, s) (TrainBatch.run c w).1) :
    (∀ ep ∈ episodes i (asIf i g s (TrainBatch.run c w).1), ∀ x ∈ ep, x.terminal = false) ∧
    ∀ ep ∈ (record i (TrainBatch.run c w).1).finished, ∃ l x, ep = l ++ [x] ∧ l.length + 1 = n ∧ x.terminal = true := by
  refine ⟨fun ep hep x hx => ?_, fun ep hep => ?_⟩
  · refine endless_steps i g hg (TrainBatch.run c w).1 s {} (by simp) ep ?_ x hx
    rcases List.mem_append.1 hep with hep | hep
    · exact List.mem_cons_of_mem _ hep
    · rw [List.mem_singleton.1 hep]; exact List.mem_cons_self
  · have hl := C170_full n hn c hml i hi w g hg s hs (.inr (.inr h)) ep hep
    rw [(run_cuts n c i hi w g s h _ [] (by simp) hs).finished] at hep
    obtain ⟨ep', -, rfl⟩ := List.mem_map.1 hep
    rcases List.eq_nil_or_concat ep' with rfl | ⟨l, x, rfl⟩
    · simp [cut] at hl; omega
    · rw [List.concat_eq_append] at hl ⊢
      have hlen : l.length + 1 = n := by simpa [cut] using hl
      exact ⟨cut n l, _, cut_concat n l x, by simpa [cut] using hlen, by simp [hlen]⟩

/-- Nor is it in what the agent was told. -/
theorem endless_told (i : Nat) (g : Gym E O A K) (hg : Endless g) (es : List (Ev O A K S)) : ∀ (s : E) (w : Record O A K),
    (∀ ep ∈ w.current :: w.finished, ∀ x ∈ ep, x.terminal = false) → (∀ ep ∈ w.told.2 :: w.told.1, ∀ x ∈ ep, x.terminal = false) →
    ∀ ep ∈ ((asIf i g s es).foldl (Record.watch i) w).told.2 :: ((asIf i g s es).foldl (Record.watch i) w).told.1, ∀ x ∈ ep, x.terminal = false := by
  have reset : ∀ (mask : Option (List Bool)) (obss : List O) (w : Record O A K), (w.watch i (.reset mask obss : Ev O A K S)).told = w.told := by
    intro mask obss w
    simp only [Record.watch]
    split <;> rfl
  have step : ∀ as outs (w : Record O A K), (w.watch i (.step as outs : Ev O A K S)).told = w.told := by
    intro as outs w
    simp only [Record.watch]
    split <;> rfl
  induction es with
  | nil => intro s w _ h; exact h
  | cons e es ih =>
    intro s w h ht
    have h1 := endless_steps i g hg [e] s w h
    rcases ofEnv_cases i e with ⟨mask, obss, o, rfl, hm, ho, he⟩ | ⟨as, outs, a, out, rfl, ha, ho, he⟩ | he
    · simp only [asIf, he, put, List.foldl_cons, List.foldl_nil] at h1 ⊢
      exact ih _ _ h1 (by rw [reset]; exact ht)
    · simp only [asIf, he, put, List.foldl_cons, List.foldl_nil] at h1 ⊢
      exact ih _ _ h1 (by rw [step]; exact ht)
    · simp only [asIf, he, List.foldl_cons, List.foldl_nil] at h1 ⊢
      refine ih _ _ h1 ?_
      cases e with
      | reset mask obss => rw [reset]; exact ht
      | step as outs => rw [step]; exact ht
      | observe a b dones resets =>
        simp only [Record.watch]
        split
        · intro ep hep x hx
          rcases List.mem_cons.1 hep with rfl | hep
          · simp at hx
          · rcases List.mem_append.1 hep with hep | hep
            · exact h ep (List.mem_cons_of_mem _ hep) x hx
            · rw [List.mem_singleton.1 hep] at hx; exact h _ List.mem_cons_self x hx
        · exact h
      | _ => exact ht

/-- **C170**: with `max_episode_len` or `ContinuingTimeLimit`, in environments that never end an episode the buffer never holds
a terminal transition. -/
theorem C170_never_terminal (n : Nat) (c : TrainBatch.Cfg S) (hc : 0 < c.numEnvs) (w : TrainBatch.World O A K S X) (g : Nat → Gym E O A K) (s : Nat → E)
    (h : ∀ i, i < c.numEnvs → Endless (g i) ∧ ((c.maxEpisodeLen = some n ∧ Served i (g i).call (s i) (TrainBatch.run c w).1) ∨
      Served i (timeLimit (g i) n) (none, s i) (TrainBatch.run c w).1))
    (d : DQN.Cfg θ O H) (hd : 0 < d.targetInterval) (cap : Option Nat) (k : Nat) (hk : 0 < k) (ps : Nat → Nat → θ) (p0 : θ)
    (pre post : List (Ev O A K S)) (hrun : (TrainBatch.run c w).1 = pre ++ post) (hs : ∀ e ∈ pre, Sized c.numEnvs e) :
    ∃ j s' ev, drive d ps (DQN.init p0) pre = .ok (j, s', ev) ∧ ∀ e ∈ stored (buffer cap k ev), ∀ x ∈ e, x.terminal = false := by
  obtain ⟨j, s', ev, h1, ent, h2, h3, h4⟩ := TrainBatchDQN.C122_buffer c hc w d hd cap k hk ps p0 pre post hrun hs
  refine ⟨j, s', ev, h1, fun e he x hx => ?_⟩
  rw [h2] at he
  obtain ⟨p, hp, rfl⟩ := List.mem_map.1 (StepLimits.mem_newest _ _ _ he)
  have hi := h3 p hp
  have hm : p.2 ∈ entriesOf k (record p.1 pre).told := by
    rw [← h4 p.1 hi]
    exact List.mem_map_of_mem (List.mem_filter.2 ⟨hp, by simp⟩)
  obtain ⟨hg, hw⟩ := h p.1 hi
  rw [hrun] at hw
  have e1 : record p.1 pre = record p.1 (asIf p.1 (g p.1) (s p.1) pre) := by
    rcases hw with ⟨-, hw⟩ | hw
    · rw [asIf_served p.1 (g p.1) pre (s p.1) hw.prefix]
    · exact record_timeLimit p.1 (g p.1) n pre none (s p.1) {} hw.prefix
  rw [e1] at hm
  obtain ⟨ep, hep, hx⟩ := StepLimits.mem_entries k _ _ hm x hx
  exact endless_told p.1 (g p.1) hg pre (s p.1) {} (by simp) (by simp) ep hep x hx

/-! ## The hypotheses can be met -/

/-- Counts its own steps and never ends. -/
def counter : Gym Nat Nat Nat Int := ⟨fun _ => (0, 0), fun s a => (s + 1, ⟨s + 1, a, false, false⟩)⟩

/-- Four rounds of two environments: the second one is a counter limited to two steps, the first one is never done. -/
def exWorld (done needsReset : Bool) : TrainBatch.World Nat Nat Int Int String where
  reset := .ok [5, 0]
  iter k :=
    { act := .ok [k, k], step := .ok [⟨6 + k, 1, false, false⟩, ⟨k % 2 + 1, k, done && k % 2 == 1, needsReset && k % 2 == 1⟩], observe := .ok ()
      checkpoint := fun _ => .ok (), hook := fun _ _ => .ok (), evaluate := .ok (none, 0), reset := .ok [6 + k, if k % 2 == 1 then 0 else 1] }
  saveExcept := .ok ()
  closeEnv := .ok ()
  closeEvalEnv := .ok ()
  saveFinish := .ok ()

/-- Eight steps. -/
def exTrain (maxLen : Option Nat) : TrainBatch.Cfg Int := ⟨2, 8, 0, maxLen, none, false, none, 0, true⟩

example : Served 1 (stepLimited counter 2) (1, 7) (TrainBatch.run (exTrain none) (exWorld true false)).1 ∧ Endless counter := by
  refine ⟨?_, fun _ _ => ⟨rfl, rfl⟩⟩
  unfold Served StepLimits.Served
  decide +kernel

example : Served 1 (timeLimit counter 2) (none, 7) (TrainBatch.run (exTrain none) (exWorld false true)).1 := by
  unfold Served StepLimits.Served
  decide +kernel

/-- With `max_episode_len` both environments are limited. -/
example : Served 1 counter.call 7 (TrainBatch.run (exTrain (some 2)) (exWorld false false)).1 ∧
    (episodes 1 (TrainBatch.run (exTrain (some 2)) (exWorld false false)).1).map List.length = [2, 2] ∧
    (episodes 0 (TrainBatch.run (exTrain (some 2)) (exWorld false false)).1).map List.length = [2, 2] := by
  unfold Served StepLimits.Served
  refine ⟨?_, ?_, ?_⟩ <;> decide +kernel

/-- The number of answers. -/
example (b b' : Bool) (ml : Option Nat) (hml : ml = none ∨ ml = some 2) : ∀ e ∈ (TrainBatch.run (exTrain ml) (exWorld b b')).1, Sized 2 e := by
  have : (TrainBatch.run (exTrain ml) (exWorld b b')).1.all (fun e => match e with
      | .reset _ o => o.length == 2 | .act _ a => a.length == 2 | .step _ o => o.length == 2 | _ => true) = true := by
    rcases hml with rfl | rfl <;> cases b <;> cases b' <;> decide +kernel
  intro e he
  have := List.all_eq_true.1 this e he
  cases e <;> simpa [Sized] using this

/-- What the limits leave of the second environment: the steps of one round trip, terminal with `make_timestep_limited` only. -/
example : (record 1 (TrainBatch.run (exTrain none) (exWorld true false)).1).finished.map (·.map (·.terminal)) = [[false, true]] ∧
    (record 1 (TrainBatch.run (exTrain none) (exWorld false true)).1).finished.map (·.map (·.terminal)) = [[false, false]] := by
  decide +kernel

end Verif.BatchLimits
