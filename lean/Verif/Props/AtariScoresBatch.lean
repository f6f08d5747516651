import Verif.Props.AtariScores
import Verif.Props.BatchRunEval
set_option autoImplicit false
set_option linter.unusedSectionVars false

/-!
# C178: the scores of vectorised evaluations of Atari games
-/

namespace Verif.AtariScores
open Train (StepOut)
open Wrappers (Gym Op Out ends)
open AtariStack (Options State observed Raw Legal)
open AtariPipeline (Frame)
open RunEval (Episode)
open BatchEpisodes (len starts IsEpisode)
open BatchRunEval (numSteps callsAt)
variable {S A P X O K T : Type}

/-! ## The episodes of one environment -/

section Episodes
variable (maxLen : Option Nat) (out : Nat → Nat → StepOut O K) (ob : Nat → O) (x : Nat → A × StepOut O K) (e : Nat)

/-- The episode with one more step. -/
def more (y : A × StepOut O K) : List (Episode O A K) → List (Episode O A K)
  | [] => []
  | [ep] => [⟨ep.first, ep.steps ++ [y]⟩]
  | ep :: l => ep :: more y l

/-- The episodes of environment `e` in the first `n` steps. -/
def epsOf : Nat → List (Episode O A K)
  | 0 => []
  | n + 1 => if len maxLen out e n = 0 then epsOf n ++ [⟨ob n, [x n]⟩] else more (x n) (epsOf n)

theorem more_append (y : A × StepOut O K) (l : List (Episode O A K)) (ep : Episode O A K) : more y (l ++ [ep]) = l ++ [⟨ep.first, ep.steps ++ [y]⟩] := by
  induction l with
  | nil => rfl
  | cons a l ih =>
    cases l with
    | nil => rfl
    | cons b l => exact congrArg (a :: ·) ih

theorem epsOf_episode {s t : Nat} (hs : len maxLen out e s = 0) (hlt : s < t) (hb : ∀ u, s < u → u < t → len maxLen out e u ≠ 0) :
    epsOf maxLen out ob x e t = epsOf maxLen out ob x e s ++ [⟨ob s, (List.range' s (t - s)).map x⟩] := by
  induction t, hlt using Nat.le_induction with
  | base =>
    rw [epsOf, if_pos hs]
    simp
  | succ t ht ih =>
    rw [epsOf, if_neg (hb t (by omega) (by omega)), ih (fun u h1 h2 => hb u h1 (by omega)), more_append]
    have : t + 1 - s = (t - s) + 1 := by omega
    rw [this, List.range'_concat, List.map_append]
    simp [show s + (t - s) = t by omega]

theorem epsOf_later {s t : Nat} (hlt : s < t) (hs : len maxLen out e s = 0) :
    ∃ l ep, epsOf maxLen out ob x e t = epsOf maxLen out ob x e s ++ (l ++ [ep]) := by
  induction t, hlt using Nat.le_induction with
  | base => exact ⟨[], _, by rw [epsOf, if_pos hs]; rfl⟩
  | succ t ht ih =>
    obtain ⟨l, ep, h⟩ := ih
    rw [epsOf, h]
    split
    · exact ⟨l ++ [ep], _, by rw [List.append_assoc]⟩
    · rw [← List.append_assoc, more_append, List.append_assoc]
      exact ⟨l, _, rfl⟩

theorem epsOf_prefix {s t : Nat} (h : s ≤ t) (hs : len maxLen out e s = 0) : epsOf maxLen out ob x e s <+: epsOf maxLen out ob x e t := by
  rcases Nat.lt_or_ge s t with h' | h'
  · obtain ⟨l, ep, h⟩ := epsOf_later maxLen out ob x e h' hs
    exact ⟨_, h.symm⟩
  · rw [show s = t by omega]

theorem epsOf_last (n : Nat) (hn : 0 < n) : ∃ l ep, epsOf maxLen out ob x e n = l ++ [ep] := by
  obtain ⟨l, ep, h⟩ := epsOf_later (s := 0) maxLen out ob x e hn rfl
  exact ⟨l, ep, by simpa [epsOf] using h⟩

theorem epsOf_length (n : Nat) : (epsOf maxLen out ob x e n).length = begun maxLen out e n := by
  induction n with
  | zero => rfl
  | succ n ih =>
    unfold begun at ih ⊢
    rw [epsOf, List.range_succ, List.filter_append, List.length_append, ← ih]
    split
    · rename_i h; simp [h]
    · rename_i h
      have hn : 0 < n := Nat.pos_of_ne_zero fun h0 => h (by rw [h0]; rfl)
      obtain ⟨l, ep, hl⟩ := epsOf_last maxLen out ob x e n hn
      rw [hl, more_append]
      simp [h]

/-- The calls up to the `n`-th step. -/
theorem epsOf_uses (n : Nat) : (epsOf maxLen out ob x e n).flatMap uses =
    (List.range n).flatMap fun i => (if len maxLen out e i = 0 then [.reset (ob i)] else []) ++ [.step (x i).1 (x i).2] := by
  induction n with
  | zero => rfl
  | succ n ih =>
    rw [List.range_succ, List.flatMap_append, ← ih, epsOf]
    split
    · rename_i h; simp [uses, h]
    · rename_i h
      have hn : 0 < n := Nat.pos_of_ne_zero fun h0 => h (by rw [h0]; rfl)
      obtain ⟨l, ep, hl⟩ := epsOf_last maxLen out ob x e n hn
      rw [hl, more_append]
      simp [h, uses]

theorem epsOf_plays (hx : ∀ n, (x n).2 = out n e) (n : Nat) : (∀ ep ∈ epsOf maxLen out ob x e n, Plays ep) ∧
    (len maxLen out e n ≠ 0 → ∀ l ep, epsOf maxLen out ob x e n = l ++ [ep] → ∀ y ∈ ep.steps, ends y.2 = false) := by
  have hno : ∀ n, len maxLen out e (n + 1) ≠ 0 → ends (x n).2 = false := by
    intro n h
    rw [len] at h
    split at h
    · exact absurd rfl h
    · rename_i hc
      simp only [BatchEpisodes.Ends, not_or, Bool.not_eq_true] at hc
      simp [ends, hx, hc.1, hc.2.1]
  induction n with
  | zero => exact ⟨fun ep h => by simp [epsOf] at h, fun h => absurd rfl h⟩
  | succ n ih =>
    by_cases h : len maxLen out e n = 0
    · rw [epsOf, if_pos h]
      refine ⟨fun ep hep => ?_, fun hn l ep hl y hy => ?_⟩
      · rcases List.mem_append.1 hep with hep | hep
        · exact ih.1 ep hep
        · rw [List.mem_singleton.1 hep]; exact ⟨by simp, by simp⟩
      · have := (List.append_inj' hl rfl).2
        simp only [List.cons.injEq, and_true] at this
        rw [← this] at hy
        rw [List.mem_singleton.1 hy]
        exact hno n hn
    · have hpos : 0 < n := Nat.pos_of_ne_zero fun h0 => h (by rw [h0]; rfl)
      obtain ⟨l, ep, hl⟩ := epsOf_last maxLen out ob x e n hpos
      have hold := ih.2 h l ep hl
      rw [epsOf, if_neg h, hl, more_append]
      rw [hl] at ih
      refine ⟨fun ep' hep => ?_, fun hn l' ep' hl' y hy => ?_⟩
      · rcases List.mem_append.1 hep with hep | hep
        · exact ih.1 ep' (List.mem_append_left _ hep)
        · rw [List.mem_singleton.1 hep]
          exact ⟨by simp, by simpa using hold⟩
      · have := (List.append_inj' hl' rfl).2
        simp only [List.cons.injEq, and_true] at this
        rw [← this] at hy
        rcases List.mem_append.1 hy with hy | hy
        · exact hold y hy
        · rw [List.mem_singleton.1 hy]; exact hno n hn

end Episodes

/-- What environment `e` sees of the run. -/
theorem batch_uses {N : Nat} {maxLen : Option Nat} {out : Nat → Nat → StepOut O K} {act : Nat → List A} {ob : Nat → Nat → O} {x : Nat → A × StepOut O K}
    {e : Nat} (he : e < N) (hx : ∀ i, (act i)[e]? = some (x i).1 ∧ (x i).2 = out i e) (n m : Nat) (hm : m < n) :
    (BatchRunEval.Ev.reset none ((List.range N).map (ob 0)) ::
        (List.range (m + 1)).flatMap (callsAt N maxLen out act (fun i => (List.range N).map (ob i)) n)).filterMap (ofBatch e) =
      (epsOf maxLen out (fun i => ob i e) x e (m + 1)).flatMap uses ++
        (if m + 1 = n then [] else if len maxLen out e (m + 1) = 0 then [.reset (ob (m + 1) e)] else []) := by
  have hcall : ∀ i, (callsAt N maxLen out act (fun i => (List.range N).map (ob i)) n i).filterMap (ofBatch e) =
      (.step (x i).1 (x i).2 : Train.Ev O A K Unit) ::
        (if i + 1 = n then [] else if len maxLen out e (i + 1) = 0 then [.reset (ob (i + 1) e)] else []) := by
    intro i
    have h1 : (List.range N)[e]? = some e := by simp [he]
    unfold callsAt
    simp only [List.filterMap_append, List.filterMap_cons, List.filterMap_nil, ofBatch, (hx i).1, List.getElem?_map, h1, Option.map_some, (hx i).2,
      List.cons_append, List.nil_append]
    congr 1
    split
    · rfl
    · by_cases hl : len maxLen out e (i + 1) = 0
      · simp [hl, ofBatch, he]
      · simp [hl, ofBatch, he]
  induction m with
  | zero =>
    simp only [List.filterMap_cons, ofBatch, Nat.zero_add, List.range_one, List.flatMap_cons, List.flatMap_nil, List.append_nil, hcall]
    simp [he, epsOf, len, uses]
  | succ m ih =>
    rw [List.range_succ, List.flatMap_append, ← List.cons_append, List.filterMap_append, ih (by omega), epsOf_uses, epsOf_uses, List.range_succ (n := m + 1),
      List.flatMap_append, if_neg (by omega)]
    simp only [List.flatMap_cons, List.flatMap_nil, List.append_nil, hcall, List.append_assoc, List.cons_append, List.nil_append]

theorem steps_pos [AddMonoid K] {N : Nat} {b : RunEval.Budget} {maxLen : Option Nat} {obss : List O} {w : Nat → BatchRunEval.Iter O A K X} {a : List A}
    {outs : List (StepOut O K)} {obss' : List O} (hw : w 0 = ⟨.ok a, .ok outs, .ok (), .ok obss'⟩) {fuel : Nat} {scores : List K}
    (h : (BatchRunEval.run N b maxLen (.ok obss) w fuel).2 = .ok (some scores)) : 0 < numSteps (BatchRunEval.run N b maxLen (.ok obss) w fuel).1 := by
  unfold numSteps
  rw [List.countP_pos_iff]
  cases fuel with
  | zero => cases h
  | succ fuel =>
    refine ⟨.step a outs, ?_, rfl⟩
    have key : .step a outs ∈ (BatchRunEval.iter b maxLen (w 0) (BatchRunEval.Loc.init N obss) ()).1 := by
      simp only [BatchRunEval.iter, hw, bind, Eff.bind, Eff.call]
      simp
    simp only [BatchRunEval.run, BatchRunEval.loop, bind, Eff.bind, Eff.call]
    generalize BatchRunEval.iter b maxLen (w 0) (BatchRunEval.Loc.init N obss) () = r at key
    obtain ⟨ev, u, r⟩ := r
    cases r with
    | error _ => exact List.mem_append_right _ key
    | ok r => exact List.mem_append_right _ (List.mem_append_left _ key)

theorem start_mem {N n j e st : Nat} {maxLen : Option Nat} {out : Nat → Nat → StepOut O K} (h : (starts N maxLen out n)[j]? = some (e, st)) :
    e < N ∧ len maxLen out e st = 0 := by
  have := List.mem_of_getElem? h
  simp only [starts, List.mem_flatMap, List.mem_map, List.mem_filter, List.mem_range] at this
  obtain ⟨_, _, e', he', heq⟩ := this
  cases heq
  exact ⟨he'.1, by simpa using he'.2⟩

theorem start_env {N n j e st : Nat} {maxLen : Option Nat} {out : Nat → Nat → StepOut O K} (h : (starts N maxLen out n)[j]? = some (e, st)) : e < N :=
  (start_mem h).1

theorem start_len {N n j e st : Nat} {maxLen : Option Nat} {out : Nat → Nat → StepOut O K} (h : (starts N maxLen out n)[j]? = some (e, st)) :
    len maxLen out e st = 0 := (start_mem h).2

variable (o : Options A) (draw : S → S × Nat) (rand : S → S × ℝ) (count : S → Nat) (warp : (P → Nat) → Frame) (g : Gym S (P → Nat) A ℝ)

/-- The games of all environments in an evaluation. -/
theorem batch_games (ho : o.episodeLife = false) (hc : o.obs.clipRewards = false) (N : Nat) (b : RunEval.Budget) (maxLen : Option Nat)
    (out : Nat → Nat → StepOut (List Frame) ℝ) (act : Nat → List A) (ha : ∀ i, (act i).length = N) (ob : Nat → Nat → List Frame)
    (w : Nat → BatchRunEval.Iter (List Frame) A ℝ X)
    (hw : ∀ i, w i = ⟨.ok (act i), .ok ((List.range N).map (out i)), .ok (), .ok ((List.range N).map (ob (i + 1)))⟩) (fuel : Nat) (scores : List ℝ)
    (h : (BatchRunEval.run N b maxLen (.ok ((List.range N).map (ob 0))) w fuel).2 = .ok (some scores))
    (s : Nat → State S A P) (hl : ∀ e, e < N → Legal o.maxFrames (s e).log) :
    let evs := (BatchRunEval.run N b maxLen (.ok ((List.range N).map (ob 0))) w fuel).1
    (∀ e, e < N → BatchServed e (observed o draw rand count warp g) (s e) evs) →
    ∃ games : Nat → List (Game (P → Nat) A),
      (∀ e, e < N →
        AtariTraining.history o draw rand count warp g (s e) (evs.filterMap (ofBatch e)) = (s e).log ++ (games e).flatMap Game.log ∧
        Legal o.maxFrames (AtariTraining.history o draw rand count warp g (s e) (evs.filterMap (ofBatch e))) ∧ ∀ gm ∈ games e, gm.Fair o) ∧
      ∀ e, e < N → ∀ st t, st < t → t ≤ numSteps evs → len maxLen out e st = 0 → (t = numSteps evs ∨ len maxLen out e t = 0) →
        (∀ u, st < u → u < t → len maxLen out e u ≠ 0) →
        ∃ gm, (games e)[begun maxLen out e st]? = some gm ∧ gm.score = BatchEpisodes.ret out e st t ∧ gm.Left (t - st) ∧
          (IsEpisode maxLen out e st t → gm.Over o ∨ ∃ m, maxLen = some m ∧ gm.Left m) := by
  intro evs hs
  have hcalls := BatchRunEval.C29_calls (maxLen := maxLen) (o := out) b w act (fun i => (List.range N).map (ob i)) hw fuel scores h
  change evs = _ at hcalls
  generalize hn : numSteps evs = n at hcalls ⊢
  have hpos : 0 < n := by
    rw [← hn]
    exact steps_pos (hw 0) h
  let x : Nat → Nat → A × StepOut (List Frame) ℝ := fun e i => ((act i)[e]?.getD o.a₀, out i e)
  have hev : ∀ e, e < N → evs.filterMap (ofBatch e) = (epsOf maxLen out (fun i => ob i e) (x e) e n).flatMap uses := by
    intro e he
    have := batch_uses (maxLen := maxLen) (out := out) (act := act) (ob := ob) (x := x e) he
      (fun i => ⟨by simp [x, List.getElem?_eq_getElem (show e < (act i).length by rw [ha]; exact he)], rfl⟩) n (n - 1) (by omega)
    rw [show n - 1 + 1 = n by omega] at this
    rw [hcalls, this]
    simp
  have hgames : ∀ e, ∃ games : List (Game (P → Nat) A), e < N →
      List.Forall₂ (Shows o) (epsOf maxLen out (fun i => ob i e) (x e) e n) games ∧
      AtariTraining.history o draw rand count warp g (s e) (evs.filterMap (ofBatch e)) = (s e).log ++ games.flatMap Game.log ∧
      Legal o.maxFrames (AtariTraining.history o draw rand count warp g (s e) (evs.filterMap (ofBatch e))) := by
    intro e
    by_cases he : e < N
    · have hse := hs e he
      unfold BatchServed at hse
      rw [hev e he] at hse ⊢
      obtain ⟨games, hg⟩ := all_uses o draw rand count warp g ho hc _ (epsOf_plays maxLen out (fun i => ob i e) (x e) e (fun _ => rfl) n).1 (s e) (hl e he) hse
      exact ⟨games, fun _ => hg⟩
    · exact ⟨[], fun h => absurd h he⟩
  choose games hgames using hgames
  refine ⟨games, fun e he => ⟨(hgames e he).2.1, (hgames e he).2.2, fun gm hgm => ?_⟩, fun e he st t q1 q2 q3 q4 q5 => ?_⟩
  · obtain ⟨ep, -, hsh⟩ := shown o (hgames e he).1 hgm
    exact hsh.1
  · have hep := epsOf_episode maxLen out (fun i => ob i e) (x e) e q3 q1 q5
    have hpre : epsOf maxLen out (fun i => ob i e) (x e) e t <+: epsOf maxLen out (fun i => ob i e) (x e) e n := by
      rcases q4 with rfl | q4
      · exact List.prefix_rfl
      · exact epsOf_prefix maxLen out (fun i => ob i e) (x e) e q2 q4
    obtain ⟨rest, hrest⟩ := hpre
    have hget : (epsOf maxLen out (fun i => ob i e) (x e) e n)[begun maxLen out e st]? = some ⟨ob st e, (List.range' st (t - st)).map (x e)⟩ := by
      rw [← hrest, hep, ← epsOf_length maxLen out (fun i => ob i e) (x e) e st]
      simp
    obtain ⟨gm, hgm, hsh⟩ : ∃ gm, (games e)[begun maxLen out e st]? = some gm ∧ Shows o ⟨ob st e, (List.range' st (t - st)).map (x e)⟩ gm := by
      have hlen := (hgames e he).1.length_eq
      obtain ⟨hi, hii⟩ := List.getElem?_eq_some_iff.1 hget
      refine ⟨_, List.getElem?_eq_getElem (by omega), ?_⟩
      have := (List.forall₂_iff_get.1 (hgames e he).1).2 _ hi (by omega)
      simp only [List.get_eq_getElem, hii] at this
      exact this
    refine ⟨gm, hgm, ?_, ?_, fun k2 => ?_⟩
    · rw [← hsh.2.1]
      simp [Episode.ret, BatchEpisodes.ret, List.map_map, Function.comp_def, x]
    · have := hsh.2.2.1
      simpa only [List.length_map, List.length_range'] using this
    have hlt := k2.lt
    have hlast : ((List.range' st (t - st)).map (x e)).getLast? = some (x e (t - 1)) := by
      rw [show t - st = (t - 1 - st) + 1 by omega, List.range'_concat, List.map_append, List.getLast?_append]
      simp [show st + (t - 1 - st) = t - 1 by omega]
    have hE : BatchEpisodes.Ends maxLen (len maxLen out e (t - 1) + 1) (out (t - 1) e) := by
      have := k2.finish
      rw [show t = t - 1 + 1 by omega, len] at this
      by_contra hc
      rw [if_neg hc] at this
      omega
    have hleng : len maxLen out e (t - 1) = t - 1 - st := by
      have : ∀ d, st + d < t → len maxLen out e (st + d) = d := by
        intro d
        induction d with
        | zero => intro _; exact k2.start
        | succ d ih =>
          intro hd
          have hne := k2.between (st + (d + 1)) (by omega) (by omega)
          rw [show st + (d + 1) = st + d + 1 by omega, len] at hne ⊢
          split at hne
          · exact absurd rfl hne
          · rename_i hc; rw [if_neg hc, ih (by omega)]
      have := this (t - 1 - st) (by omega)
      rwa [show st + (t - 1 - st) = t - 1 by omega] at this
    rcases hE with hE | hE | hE
    · exact .inl (hsh.2.2.2 _ hlast (by simp [ends, x, hE]))
    · exact .inl (hsh.2.2.2 _ hlast (by simp [ends, x, hE]))
    · refine .inr ⟨_, hE, ?_⟩
      have := hsh.2.2.1
      simp only [List.length_map, List.length_range'] at this
      rwa [hleng, show t - 1 - st + 1 = t - st by omega]

/-- C178, vectorised with `n_episodes`: each environment plays a sequence of games; the `j`-th score is the score of the game that is the `j`-th to
begin (for equal times in the order of the environments), which has been played to its end or for `max_episode_len` steps. -/
theorem C178_batch (ho : o.episodeLife = false) (hc : o.obs.clipRewards = false) (N k : Nat) (maxLen : Option Nat)
    (out : Nat → Nat → StepOut (List Frame) ℝ) (act : Nat → List A) (ha : ∀ i, (act i).length = N) (ob : Nat → Nat → List Frame)
    (w : Nat → BatchRunEval.Iter (List Frame) A ℝ X)
    (hw : ∀ i, w i = ⟨.ok (act i), .ok ((List.range N).map (out i)), .ok (), .ok ((List.range N).map (ob (i + 1)))⟩) (fuel : Nat) (scores : List ℝ)
    (h : (BatchRunEval.run N (.episodes k) maxLen (.ok ((List.range N).map (ob 0))) w fuel).2 = .ok (some scores))
    (s : Nat → State S A P) (hl : ∀ e, e < N → Legal o.maxFrames (s e).log) :
    let evs := (BatchRunEval.run N (.episodes k) maxLen (.ok ((List.range N).map (ob 0))) w fuel).1
    (∀ e, e < N → BatchServed e (observed o draw rand count warp g) (s e) evs) →
    ∃ games : Nat → List (Game (P → Nat) A),
      (∀ e, e < N →
        AtariTraining.history o draw rand count warp g (s e) (evs.filterMap (ofBatch e)) = (s e).log ++ (games e).flatMap Game.log ∧
        Legal o.maxFrames (AtariTraining.history o draw rand count warp g (s e) (evs.filterMap (ofBatch e))) ∧ ∀ gm ∈ games e, gm.Fair o) ∧
      scores.length = k ∧
      ∀ j, j < k → ∃ e t gm, (starts N maxLen out (numSteps evs))[j]? = some (e, t) ∧ (games e)[begun maxLen out e t]? = some gm ∧
        scores[j]? = some gm.score ∧ (gm.Over o ∨ ∃ m, maxLen = some m ∧ gm.Left m) := by
  intro evs hs
  obtain ⟨games, g1, g2⟩ := batch_games o draw rand count warp g ho hc N (.episodes k) maxLen out act ha ob w hw fuel scores h s hl hs
  obtain ⟨h1, h2, -⟩ := BatchRunEval.C29_episodes (maxLen := maxLen) (o := out) k (.ok ((List.range N).map (ob 0))) w
    (fun i outs hi => by rw [hw i] at hi; exact (Except.ok.inj hi).symm) fuel scores h
  refine ⟨games, g1, h1, fun j hj => ?_⟩
  obtain ⟨e, st, t, k1, k2, k3, k4⟩ := h2 j hj
  obtain ⟨gm, m1, m2, -, m3⟩ := g2 e (start_env k1) st t k2.lt k3 k2.start (.inr k2.finish) k2.between
  exact ⟨e, st, gm, k1, m1, by rw [k4, m2], m3 k2⟩

/-- C178, vectorised with `n_steps`: the scores are those of the games that are the first to begin, all of them played to their end or for
`max_episode_len` steps, and of no more than `n_steps` steps of the agent (so of at most four times as many frames) together; or, if the very first game
is not over after `n_steps` steps, the only score is that of this game up to then. -/
theorem C178_batch_steps (ho : o.episodeLife = false) (hc : o.obs.clipRewards = false) (N k : Nat) (hk : 0 < k) (maxLen : Option Nat)
    (out : Nat → Nat → StepOut (List Frame) ℝ) (act : Nat → List A) (ha : ∀ i, (act i).length = N) (ob : Nat → Nat → List Frame)
    (w : Nat → BatchRunEval.Iter (List Frame) A ℝ X)
    (hw : ∀ i, w i = ⟨.ok (act i), .ok ((List.range N).map (out i)), .ok (), .ok ((List.range N).map (ob (i + 1)))⟩) (fuel : Nat) (scores : List ℝ)
    (h : (BatchRunEval.run N (.steps k) maxLen (.ok ((List.range N).map (ob 0))) w fuel).2 = .ok (some scores))
    (s : Nat → State S A P) (hl : ∀ e, e < N → Legal o.maxFrames (s e).log) :
    let evs := (BatchRunEval.run N (.steps k) maxLen (.ok ((List.range N).map (ob 0))) w fuel).1
    (∀ e, e < N → BatchServed e (observed o draw rand count warp g) (s e) evs) →
    ∃ games : Nat → List (Game (P → Nat) A),
      (∀ e, e < N →
        AtariTraining.history o draw rand count warp g (s e) (evs.filterMap (ofBatch e)) = (s e).log ++ (games e).flatMap Game.log ∧
        Legal o.maxFrames (AtariTraining.history o draw rand count warp g (s e) (evs.filterMap (ofBatch e))) ∧ ∀ gm ∈ games e, gm.Fair o) ∧
      ((∃ scored : List (Game (P → Nat) A), scores = scored.map Game.score ∧ (scored.map fun gm => gm.played.length).sum ≤ 4 * k ∧
          ∀ (j : Nat) (gm : Game (P → Nat) A), scored[j]? = some gm → (gm.Over o ∨ ∃ m, maxLen = some m ∧ gm.Left m) ∧
            ∃ e t, (starts N maxLen out (numSteps evs))[j]? = some (e, t) ∧ (games e)[begun maxLen out e t]? = some gm) ∨
        ∃ e t gm, (starts N maxLen out (numSteps evs))[0]? = some (e, t) ∧ (games e)[begun maxLen out e t]? = some gm ∧ scores = [gm.score] ∧
          k ≤ gm.played.length) := by
  intro evs hs
  obtain ⟨games, g1, g2⟩ := batch_games o draw rand count warp g ho hc N (.steps k) maxLen out act ha ob w hw fuel scores h s hl hs
  refine ⟨games, g1, ?_⟩
  rcases BatchRunEval.C29_steps (maxLen := maxLen) (o := out) k (.ok ((List.range N).map (ob 0))) w
    (fun i outs hi => by rw [hw i] at hi; exact (Except.ok.inj hi).symm) fuel scores h with ⟨eps, e1, e2, e3, e4, -⟩ | ⟨e, st, e1, e2, e3, e4⟩
  · refine .inl ?_
    change eps.map (fun x => (x.1, x.2.1)) = (starts N maxLen out (numSteps evs)).take eps.length at e1
    have hst : ∀ (j : Nat) (x : Nat × Nat × Nat), eps[j]? = some x → (starts N maxLen out (numSteps evs))[j]? = some (x.1, x.2.1) := by
      intro j x hx
      have hj := (List.getElem?_eq_some_iff.1 hx).1
      have h5 : (eps.map fun x => (x.1, x.2.1))[j]? = some (x.1, x.2.1) := by rw [List.getElem?_map, hx]; rfl
      rw [e1, List.getElem?_take, if_pos hj] at h5
      exact h5
    have hgm : ∀ x ∈ eps, ∃ gm, (games x.1)[begun maxLen out x.1 x.2.1]? = some gm ∧ gm.score = BatchEpisodes.ret out x.1 x.2.1 x.2.2 ∧
        gm.Left (x.2.2 - x.2.1) ∧ (gm.Over o ∨ ∃ m, maxLen = some m ∧ gm.Left m) := by
      intro x hx
      obtain ⟨j, hj⟩ := List.mem_iff_getElem?.1 hx
      obtain ⟨k2, k3⟩ := e2 x hx
      obtain ⟨gm, m1, m2, m3, m4⟩ := g2 x.1 (start_env (hst j x hj)) x.2.1 x.2.2 k2.lt k3 k2.start (.inr k2.finish) k2.between
      exact ⟨gm, m1, m2, m3, m4 k2⟩
    have hex : ∃ scored : List (Game (P → Nat) A), List.Forall₂ (fun (x : Nat × Nat × Nat) gm => (games x.1)[begun maxLen out x.1 x.2.1]? = some gm ∧
        gm.score = BatchEpisodes.ret out x.1 x.2.1 x.2.2 ∧ gm.Left (x.2.2 - x.2.1) ∧ (gm.Over o ∨ ∃ m, maxLen = some m ∧ gm.Left m)) eps scored := by
      clear e1 e2 e3 e4 hst
      induction eps with
      | nil => exact ⟨[], .nil⟩
      | cons x eps ih =>
        obtain ⟨gm, hg⟩ := hgm x List.mem_cons_self
        obtain ⟨l, hl'⟩ := ih fun y hy => hgm y (List.mem_cons_of_mem _ hy)
        exact ⟨gm :: l, .cons hg hl'⟩
    obtain ⟨scored, hsc⟩ := hex
    refine ⟨scored, ?_, ?_, ?_⟩
    · rw [e3]
      clear e1 e2 e3 e4 hst hgm
      induction hsc with
      | nil => rfl
      | cons hx _ ih => rw [List.map_cons, List.map_cons, ih, hx.2.1]
    · refine le_trans ?_ (Nat.mul_le_mul_left 4 e4)
      clear e1 e2 e3 e4 hst hgm
      induction hsc with
      | nil => simp
      | cons hx _ ih =>
        have := hx.2.2.1.2
        simp only [List.map_cons, List.sum_cons]
        omega
    · intro j gm hj
      have hlen := hsc.length_eq
      obtain ⟨hi, hii⟩ := List.getElem?_eq_some_iff.1 hj
      have := (List.forall₂_iff_get.1 hsc).2 j (by omega) hi
      simp only [List.get_eq_getElem, hii] at this
      exact ⟨this.2.2.2, _, _, hst j _ (List.getElem?_eq_getElem (by omega)), this.1⟩
  · refine .inr ?_
    change (starts N maxLen out (numSteps evs))[0]? = some (e, st) at e1
    change ¬ BatchRunEval.Over N maxLen out (numSteps evs) 0 at e2
    change k ≤ numSteps evs - st at e3
    change scores = [BatchEpisodes.ret out e st (numSteps evs)] at e4
    obtain ⟨gm, m1, m2, m3, -⟩ := g2 e (start_env e1) st (numSteps evs) (by omega) (le_refl _) (start_len e1) (.inl rfl) (by
      intro u hu hun h0
      have hex : ∃ u, st < u ∧ len maxLen out e u = 0 := ⟨u, hu, h0⟩
      classical
      have f1 := Nat.find_spec hex
      have f2 : Nat.find hex ≤ u := Nat.find_min' hex ⟨hu, h0⟩
      refine e2 ⟨e, st, Nat.find hex, e1, ⟨f1.1, start_len e1, f1.2, fun v hv hvl h0' => Nat.find_min hex hvl ⟨hv, h0'⟩⟩, by omega⟩)
    refine ⟨e, st, gm, e1, m1, by rw [e4, m2], ?_⟩
    have := m3.1
    omega

/-- What two environments return in an evaluation of one step. -/
def exBatch {T : Type} (call : T → Op A → T × Out (List Frame) ℝ) (s : Nat → T) (a : A) : BatchRunEval.Iter (List Frame) A ℝ String :=
  ⟨.ok [a, a], .ok ((List.range 2).map fun e => AtariTraining.outOf (call (call (s e) .reset).1 (.step a)).2), .ok (),
    .ok ((List.range 2).map fun e => AtariTraining.obsOf (call (s e) .reset).2)⟩

/-- The hypotheses of `C178_batch` are met by every pair of games evaluated for one step. -/
example (s : Nat → State S A P) (a : A) :
    let call := observed o draw rand count warp g
    let r := BatchRunEval.run 2 (.episodes 2) (some 1) (.ok ((List.range 2).map fun e => AtariTraining.obsOf (call (s e) .reset).2))
      (fun _ => exBatch call s a) 1
    (∀ e, e < 2 → BatchServed e call (s e) r.1) ∧ ∃ scores, r.2 = .ok (some scores) := by
  intro call r
  have hstep : ∀ e, ∃ x0 x1, (call (s e) .reset).2 = .obs x0 ∧ (call (call (s e) .reset).1 (.step a)).2 = .step x1 := by
    intro e
    obtain ⟨f1, f2, -⟩ := AtariStack.observed_frames o draw rand count warp g (s e) .reset (.inl rfl)
    obtain ⟨x0, e0⟩ := f2 rfl
    obtain ⟨-, -, f4⟩ := AtariStack.observed_frames o draw rand count warp g _ (.step a) (.inr f1)
    obtain ⟨x1, e1⟩ := f4 a rfl
    exact ⟨x0, x1, e0, e1⟩
  choose x0 x1 e0 e1 using hstep
  have key : r.1.filterMap (ofBatch 0) = [.reset (x0 0), .step a (x1 0)] ∧ r.1.filterMap (ofBatch 1) = [.reset (x0 1), .step a (x1 1)] ∧
      r.2 = .ok (some [0 + (x1 0).r, 0 + (x1 1).r]) := by
    have hw : exBatch call s a = ⟨.ok [a, a], .ok [x1 0, x1 1], .ok (), .ok [x0 0, x0 1]⟩ := by
      simp [exBatch, e0, e1, AtariTraining.obsOf, AtariTraining.outOf, List.range_succ]
    have hr : r = BatchRunEval.run 2 (.episodes 2) (some 1) (.ok [x0 0, x0 1])
        (fun _ => (⟨.ok [a, a], .ok [x1 0, x1 1], .ok (), .ok [x0 0, x0 1]⟩ : BatchRunEval.Iter (List Frame) A ℝ String)) 1 := by
      show BatchRunEval.run 2 (.episodes 2) (some 1) _ (fun _ => exBatch call s a) 1 = _
      rw [hw]
      simp [e0, AtariTraining.obsOf, List.range_succ]
    rw [hr]
    generalize x1 0 = y at *
    generalize x1 1 = z at *
    exact ⟨rfl, rfl, rfl⟩
  refine ⟨fun e he => ?_, _, key.2.2⟩
  unfold BatchServed
  have : e = 0 ∨ e = 1 := by omega
  rcases this with rfl | rfl
  · rw [key.1]
    simp only [StepLimits.Served, StepLimits.envOps, StepLimits.envOuts, Wrappers.run, e0, e1]
  · rw [key.2.1]
    simp only [StepLimits.Served, StepLimits.envOps, StepLimits.envOuts, Wrappers.run, e0, e1]

/-- The hypotheses of `C178_batch_steps` are met by every pair of games evaluated for one step. -/
example (s : Nat → State S A P) (a : A) :
    let call := observed o draw rand count warp g
    let r := BatchRunEval.run 2 (.steps 2) (some 1) (.ok ((List.range 2).map fun e => AtariTraining.obsOf (call (s e) .reset).2))
      (fun _ => exBatch call s a) 1
    (∀ e, e < 2 → BatchServed e call (s e) r.1) ∧ ∃ scores, r.2 = .ok (some scores) := by
  intro call r
  have hstep : ∀ e, ∃ x0 x1, (call (s e) .reset).2 = .obs x0 ∧ (call (call (s e) .reset).1 (.step a)).2 = .step x1 := by
    intro e
    obtain ⟨f1, f2, -⟩ := AtariStack.observed_frames o draw rand count warp g (s e) .reset (.inl rfl)
    obtain ⟨x0, e0⟩ := f2 rfl
    obtain ⟨-, -, f4⟩ := AtariStack.observed_frames o draw rand count warp g _ (.step a) (.inr f1)
    obtain ⟨x1, e1⟩ := f4 a rfl
    exact ⟨x0, x1, e0, e1⟩
  choose x0 x1 e0 e1 using hstep
  have key : r.1.filterMap (ofBatch 0) = [.reset (x0 0), .step a (x1 0)] ∧ r.1.filterMap (ofBatch 1) = [.reset (x0 1), .step a (x1 1)] ∧
      r.2 = .ok (some [0 + (x1 0).r, 0 + (x1 1).r]) := by
    have hw : exBatch call s a = ⟨.ok [a, a], .ok [x1 0, x1 1], .ok (), .ok [x0 0, x0 1]⟩ := by
      simp [exBatch, e0, e1, AtariTraining.obsOf, AtariTraining.outOf, List.range_succ]
    have hr : r = BatchRunEval.run 2 (.steps 2) (some 1) (.ok [x0 0, x0 1])
        (fun _ => (⟨.ok [a, a], .ok [x1 0, x1 1], .ok (), .ok [x0 0, x0 1]⟩ : BatchRunEval.Iter (List Frame) A ℝ String)) 1 := by
      show BatchRunEval.run 2 (.steps 2) (some 1) _ (fun _ => exBatch call s a) 1 = _
      rw [hw]
      simp [e0, AtariTraining.obsOf, List.range_succ]
    rw [hr]
    generalize x1 0 = y at *
    generalize x1 1 = z at *
    exact ⟨rfl, rfl, rfl⟩
  refine ⟨fun e he => ?_, _, key.2.2⟩
  unfold BatchServed
  have : e = 0 ∨ e = 1 := by omega
  rcases this with rfl | rfl
  · rw [key.1]
    simp only [StepLimits.Served, StepLimits.envOps, StepLimits.envOuts, Wrappers.run, e0, e1]
  · rw [key.2.1]
    simp only [StepLimits.Served, StepLimits.envOps, StepLimits.envOuts, Wrappers.run, e0, e1]

end Verif.AtariScores
