import Verif.Spec.AtariStack
import Verif.Props.StepLimits
import Verif.Props.BatchLimits
import Verif.Props.AsyncLimits
set_option autoImplicit false
set_option linter.unusedSectionVars false

/-! Helper lemmas: the three training loops step an environment only after a reset and before an end. -/

namespace Verif.AtariTraining
open Train (StepOut)
open Wrappers (Op Out ends)
open AtariStack (Proper)
open DQN (EnvStep)
variable {O A K S T X : Type}

/-- Steps come after a reset and not after an end. -/
def Tidy : Bool → List (Train.Ev O A K S) → Prop
  | _, [] => True
  | _, .reset _ :: es => Tidy true es
  | p, .step _ out :: es => p = true ∧ Tidy (!ends out) es
  | p, _ :: es => Tidy p es

theorem tidy_mono (es : List (Train.Ev O A K S)) : ∀ {p q : Bool}, (p = true → q = true) → Tidy p es → Tidy q es := by
  induction es with
  | nil => intros; trivial
  | cons e es ih =>
    intro p q hpq h
    cases e with
    | reset o => exact h
    | step a out => exact ⟨hpq h.1, h.2⟩
    | _ => exact ih hpq h

theorem proper_of_tidy {call : T → Op A → T × Out O K} (es : List (Train.Ev O A K S)) : ∀ (t : T) (p : Bool), StepLimits.Served call t es → Tidy p es →
    Proper call t p (StepLimits.envOps es) := by
  induction es with
  | nil => intros; trivial
  | cons e es ih =>
    intro t p hs h
    cases e with
    | reset o =>
      simp only [StepLimits.Served, StepLimits.envOps, StepLimits.envOuts, Wrappers.run, List.cons.injEq] at hs
      exact ih _ _ hs.2 h
    | step a out =>
      simp only [StepLimits.Served, StepLimits.envOps, StepLimits.envOuts, Wrappers.run, List.cons.injEq] at hs
      refine ⟨h.1, ?_⟩
      rw [hs.1]
      exact ih _ _ hs.2 h.2
    | _ => exact ih _ _ hs h

theorem tidy_prefix (l l' : List (Train.Ev O A K S)) : ∀ p, Tidy p (l ++ l') → Tidy p l := by
  induction l with
  | nil => intros; trivial
  | cons e l ih =>
    intro p h
    cases e with
    | reset o => exact ih _ h
    | step a out => exact ⟨h.1, ih _ h.2⟩
    | _ => exact ih _ h

/-! ## train_agent -/

theorem tidy_filter (es : List (Train.Ev O A K S)) : ∀ p, Tidy p (es.filter Train.Ev.isProtocol) → Tidy p es := by
  induction es with
  | nil => intros; trivial
  | cons e es ih =>
    intro p h
    cases e with
    | reset o => exact ih _ h
    | step a out => exact ⟨h.1, ih _ h.2⟩
    | _ => exact ih _ h

theorem tidy_path [Zero K] {steps offset : Nat} {ml : Option Nat} {p q : Train.Phase O A K} {es : List (Train.Ev O A K S)}
    (h : Train.Path steps offset ml p es q) : ∀ b, (match p with | .ready .. => b = true | .chosen .. => b = true | _ => True) → Tidy b es := by
  induction h with
  | nil p => intros; trivial
  | @cons p q r e es hnx hp ih =>
    intro b hb
    cases hnx with
    | first o => exact ih true rfl
    | act o r len t a hlt => exact ih b hb
    | stepOn a len t out hne =>
      refine ⟨hb, ih _ ?_⟩
      simp only [Train.Ends, not_or, Bool.not_eq_true] at hne
      simp [ends, hne.1, hne.2.1]
    | stepEnd a len t out he => exact ⟨hb, ih _ trivial⟩
    | stop out t => exact ih b trivial
    | again t o hlt => exact ih true rfl

theorem tidy_train [Zero K] [LinearOrder S] (c : Train.Cfg S) (w : Train.World O A K S X) : Tidy false (Train.run c w).1 := by
  obtain ⟨q, hp, -⟩ := Train.C21_protocol c w
  exact tidy_filter _ _ (tidy_path hp false trivial)

/-! ## train_agent_batch -/

section Batch
open TrainBatch (Ev Phase Next)
open TrainBatchDQN (Sized)
open BatchLimits (ofEnv)
variable [Zero S] [LinearOrder S]

/-- Whether environment `i` may be stepped. -/
def Play (i : Nat) (q : Phase O A K S) (b : Bool) : Prop :=
  match q with
  | .fresh => True
  | .ready _ lens _ _ => b = true ∧ ∃ m, lens[i]? = some m
  | .chosen a lens _ _ => b = true ∧ ∃ m x, lens[i]? = some m ∧ a[i]? = some x
  | .stepped outs lens _ _ => ∃ m out, lens[i]? = some m ∧ outs[i]? = some out ∧ b = !ends out
  | .counting todo es lens _ _ => (∀ e ∈ todo, e.isUse = false) ∧ ∃ m x, lens[i]? = some m ∧ es[i]? = some x ∧ (x = false → b = true)
  | .judged _ es lens _ _ => ∃ m x, lens[i]? = some m ∧ es[i]? = some x ∧ (x = false → b = true)
  | .finished _ => True
  | .failed _ => True

theorem play_judged {i : Nat} {c : TrainBatch.Cfg S} {s : Bool} {en : List Bool} {lens : List Nat} {t k : Nat} {e : Ev O A K S}
    {r : Phase O A K S} (hi : i < c.numEnvs) (hnx : Next c (.judged s en lens t k) e r) (hsz : Sized c.numEnvs e) (es : List (Ev O A K S))
    (ih : ∀ b, Play i r b → Tidy b (es.filterMap (ofEnv i))) (b : Bool) (h : Play i (.judged s en lens t k : Phase O A K S) b) :
    Tidy b ((e :: es).filterMap (ofEnv i)) := by
  obtain ⟨m, x, h1, h2, h3⟩ := h
  rcases TrainBatch.judged_inv hnx with ⟨-, -, obss, rfl, rfl⟩ | ⟨-, rfl, rfl⟩ | ⟨rfl, rfl⟩
  · have hsz : obss.length = c.numEnvs := hsz
    have hlt : i < obss.length := by omega
    have hl : ((en.zip lens).map fun x => if x.1 then 0 else x.2)[i]? = some (if x then 0 else m) := by
      rw [List.getElem?_map, List.getElem?_zip_eq_some (z := (x, m)).2 ⟨h2, h1⟩]
      rfl
    cases x with
    | true =>
      have hm : ¬ ((some (en.map not)).bind (·[i]?) = some true) := by simp [h2]
      have he : ofEnv i (Ev.reset (A := A) (K := K) (S := S) (some (en.map not)) obss) = some (.reset obss[i]) := by
        simp only [ofEnv, if_neg hm, List.getElem?_eq_getElem hlt, Option.map_some]
      rw [List.filterMap_cons_some he]
      exact ih true ⟨rfl, _, hl⟩
    | false =>
      have hm : (some (en.map not)).bind (·[i]?) = some true := by simp [h2]
      have he : ofEnv i (Ev.reset (A := A) (K := K) (S := S) (some (en.map not)) obss) = none := by
        simp only [ofEnv, if_pos hm]
      rw [List.filterMap_cons_none he]
      exact ih b ⟨h3 rfl, _, hl⟩
  · exact ih b trivial
  · exact ih b trivial

theorem tidy_steps {i : Nat} {c : TrainBatch.Cfg S} (hi : i < c.numEnvs) {p q : Phase O A K S} {es : List (Ev O A K S)}
    (h : Steps (Next c) p es q) (hsz : ∀ e ∈ es, Sized c.numEnvs e) : ∀ b, Play i p b → Tidy b (es.filterMap (ofEnv i)) := by
  induction h with
  | nil p => intros; trivial
  | @cons p q r e es hnx _ ih =>
    have ih := ih fun e he => hsz e (List.mem_cons_of_mem _ he)
    have hsz := hsz e List.mem_cons_self
    intro b h
    cases hnx with
    | first obss =>
      have hsz : obss.length = c.numEnvs := hsz
      have hlt : i < obss.length := by omega
      have he : ofEnv i (Ev.reset (A := A) (K := K) (S := S) none obss) = some (.reset obss[i]) := by simp [ofEnv, hlt]
      rw [List.filterMap_cons_some he]
      exact ih true ⟨rfl, 0, by simp [hi]⟩
    | setT obss lens => exact ih b h
    | act obss lens t k a =>
      have hsz : a.length = c.numEnvs := hsz
      obtain ⟨h1, m, h2⟩ := h
      exact ih b ⟨h1, m, _, h2, List.getElem?_eq_getElem (by omega)⟩
    | step a lens t k outs =>
      have hsz : outs.length = c.numEnvs := hsz
      have hlt : i < outs.length := by omega
      obtain ⟨h1, m, x, h2, hx⟩ := h
      have he : ofEnv i (Ev.step (S := S) a outs) = some (.step x outs[i]) := by simp [ofEnv, hx, hlt]
      rw [List.filterMap_cons_some he]
      exact ⟨h1, ih _ ⟨m + 1, outs[i], by simp [h2], List.getElem?_eq_getElem hlt, rfl⟩⟩
    | observe outs lens t k resets en hr he =>
      obtain ⟨m, out, h1, h2, h3⟩ := h
      have e1 : resets[i]? = some (TrainBatch.mustReset c.maxEpisodeLen m out) := by
        rw [hr, List.getElem?_map, List.getElem?_zip_eq_some (z := (m, out)).2 ⟨h1, h2⟩]; rfl
      have e2 : en[i]? = some (TrainBatch.mustReset c.maxEpisodeLen m out || out.done) := by
        rw [he, List.getElem?_map, List.getElem?_zip_eq_some (z := (TrainBatch.mustReset c.maxEpisodeLen m out, out)).2 ⟨e1, h2⟩]; rfl
      refine ih b ⟨fun e he => ?_, m, _, h1, e2, fun hx => ?_⟩
      · have := (TrainBatch.due_mem he).2
        cases e <;> first | rfl | exact absurd this (by simp [TrainBatch.Ev.isDue])
      · simp only [TrainBatch.mustReset, Bool.or_eq_false_iff] at hx
        simp [h3, ends, hx.2, hx.1.1]
    | count e todo en lens t k =>
      obtain ⟨h8, h⟩ := h
      rw [List.filterMap_cons_none (BatchLimits.ofEnv_other i e (h8 e List.mem_cons_self))]
      exact ih b ⟨fun e' he' => h8 e' (List.mem_cons_of_mem _ he'), h⟩
    | evaluate en lens t k score mx hev => exact ih b h.2
    | noEvaluator hev hn' => exact play_judged hi hn' hsz es ih b h.2
    | reset en lens t k obss hlt => exact play_judged hi (.reset _ _ _ _ _ hlt) hsz es ih b h
    | finish s en lens t k hb => exact play_judged hi (.finish _ _ _ _ _ hb) hsz es ih b h
    | fail p hp => exact ih b trivial
    | closeEnv t => exact ih b trivial
    | closeEvalEnv t => exact ih b trivial

theorem tidy_batch (c : TrainBatch.Cfg S) {i : Nat} (hi : i < c.numEnvs) (w : TrainBatch.World O A K S X)
    (hs : ∀ e ∈ (TrainBatch.run c w).1, Sized c.numEnvs e) : Tidy false ((TrainBatch.run c w).1.filterMap (ofEnv i)) := by
  obtain ⟨q, hp, -⟩ := TrainBatch.C23_protocol c (by omega) w
  exact tidy_steps hi hp hs false trivial

end Batch

/-! ## train_agent_async -/

section Async
open TrainAsync (Ev Phase Next MustEnd Cfg Inp eventsOf)
open AsyncLimits (ofEnv)

theorem tidy_async_steps [Zero K] {c : Cfg S} {early : Bool} {p q : Phase O A K} {es : List (Ev O A K)} (h : Steps (Next c early) p es q) :
    ∀ b, (match p with | .ready .. => b = true | .chosen .. => b = true | .stepped out _ => b = !ends out | .counted out _ _ _ => b = !ends out | _ => True) →
      Tidy b (es.filterMap ofEnv) := by
  induction h with
  | nil p => intros; trivial
  | @cons p q r e es hnx hp ih =>
    intro b hb
    cases hnx with
    | first o => exact ih true rfl
    | act o r len a => exact ih b hb
    | step a len out => exact ⟨hb, ih _ rfl⟩
    | count out len n => exact ih b hb
    | hook out len n i h => exact ih b hb
    | go out len n a hne =>
      refine ih b ?_
      simp only [MustEnd, not_or, Bool.not_eq_true] at hne
      simp only at hb
      simp [hb, ends, hne.1, hne.2.1]
    | again n o h => exact ih true rfl
    | _ => exact ih b trivial

theorem tidy_async [Zero K] [LinearOrder S] {P : Nat} (c : Cfg S) (sched : List (Fin P × Inp O A K S)) (p : Fin P) :
    Tidy false ((eventsOf p (TrainAsync.run c P sched).1).filterMap ofEnv) := by
  obtain ⟨ph, hp⟩ := TrainAsync.C25_protocol c sched p
  exact tidy_async_steps hp false trivial

end Async

/-! ## Where recorded steps come from -/

section Recorded
open TrainDQN (Record record known entriesOf)

theorem recorded_from (es : List (Train.Ev O A K S)) : ∀ (w : Record O A K) (ep : List (EnvStep O A K)),
    ep ∈ (es.foldl Record.watch w).current :: (es.foldl Record.watch w).finished → ∀ x ∈ ep,
      (∃ ep' ∈ w.current :: w.finished, x ∈ ep') ∨ ∃ l l' nr, es = l ++ .step x.action ⟨x.nextState, x.reward, x.terminal, nr⟩ :: l' := by
  induction es with
  | nil => intro w ep h x hx; exact .inl ⟨ep, h, hx⟩
  | cons e es ih =>
    intro w ep h x hx
    rcases ih _ ep h x hx with ⟨ep', h1, h2⟩ | ⟨l, l', nr, rfl⟩
    · cases e with
      | reset o =>
        left
        simp only [Record.watch] at h1
        rcases List.mem_cons.1 h1 with rfl | h1
        · simp at h2
        · split at h1
          · exact ⟨ep', List.mem_cons_of_mem _ h1, h2⟩
          · rcases List.mem_append.1 h1 with h1 | h1
            · exact ⟨ep', List.mem_cons_of_mem _ h1, h2⟩
            · exact ⟨w.current, List.mem_cons_self, (List.mem_singleton.1 h1) ▸ h2⟩
      | step a out =>
        simp only [Record.watch] at h1
        cases ho : w.obs with
        | none => rw [ho] at h1; exact .inl ⟨ep', h1, h2⟩
        | some o =>
          rw [ho] at h1
          rcases List.mem_cons.1 h1 with rfl | h1
          · rcases List.mem_append.1 h2 with h2 | h2
            · exact .inl ⟨_, List.mem_cons_self, h2⟩
            · rw [List.mem_singleton.1 h2]
              exact .inr ⟨[], es, out.needsReset, rfl⟩
          · exact .inl ⟨ep', List.mem_cons_of_mem _ h1, h2⟩
      | _ => exact .inl ⟨ep', h1, h2⟩
    · exact .inr ⟨e :: l, l', nr, rfl⟩

theorem known_from (k : Nat) (evs : List (Train.Ev O A K S)) (e : List (EnvStep O A K)) (he : e ∈ entriesOf k (known evs)) (x : EnvStep O A K) (hx : x ∈ e) :
    ∃ l l' nr, evs = l ++ .step x.action ⟨x.nextState, x.reward, x.terminal, nr⟩ :: l' := by
  obtain ⟨ep, hep, hx⟩ := StepLimits.mem_entries k _ e he x hx
  have : ∃ ep' ∈ (record evs).current :: (record evs).finished, x ∈ ep' := by
    unfold known at hep
    split at hep
    · rcases List.mem_cons.1 hep with rfl | hep
      · simp at hx
      · rcases List.mem_append.1 hep with hep | hep
        · exact ⟨ep, List.mem_cons_of_mem _ hep, hx⟩
        · rw [List.mem_singleton.1 hep] at hx; exact ⟨_, List.mem_cons_self, hx⟩
    · rcases List.mem_cons.1 hep with rfl | hep
      · exact ⟨_, List.mem_cons_self, List.mem_of_mem_dropLast hx⟩
      · exact ⟨ep, List.mem_cons_of_mem _ hep, hx⟩
    · rcases List.mem_cons.1 hep with rfl | hep
      · exact ⟨_, List.mem_cons_self, hx⟩
      · exact ⟨ep, List.mem_cons_of_mem _ hep, hx⟩
  obtain ⟨ep', h1, h2⟩ := this
  rcases recorded_from evs {} ep' h1 x h2 with ⟨ep'', h3, h4⟩ | h
  · simp at h3; subst h3; simp at h4
  · exact h

end Recorded
end Verif.AtariTraining
