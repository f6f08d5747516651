import Verif.Spec.AtariScores
import Verif.Props.AtariTraining
import Verif.Props.RunEval
set_option autoImplicit false
set_option linter.unusedSectionVars false

/-!
# C178: the scores of evaluations of Atari games
-/

namespace Verif.AtariScores
open Train (StepOut)
open Wrappers (Gym Op Out ends)
open AtariStack (Options State observed Raw Legal Proper Finished)
open AtariPipeline (Frame)
open RunEval (Episode Complete Unfinished EndsAt Iter stepEvents)
open AtariTraining (Tidy)
variable {S A P X O K T : Type}

/-! ## The calls of an episode -/

/-- No step but the last ends the episode. -/
def Plays (e : Episode O A K) : Prop := e.steps ≠ [] ∧ ∀ x ∈ e.steps.dropLast, ends x.2 = false

theorem plays_of {maxLen : Option Nat} {e : Episode O A K} (hne : e.steps ≠ []) (h : ∀ i, i + 1 < e.steps.length → ¬ EndsAt maxLen e.steps i) : Plays e := by
  refine ⟨hne, fun x hx => ?_⟩
  obtain ⟨i, hi, rfl⟩ := List.getElem_of_mem hx
  rw [List.length_dropLast] at hi
  have := h i (by omega)
  by_contra hc
  refine this ⟨e.steps[i], List.getElem?_eq_getElem (by omega), ?_⟩
  rw [List.getElem_dropLast] at hc
  simp only [ends, Bool.not_eq_false, Bool.or_eq_true] at hc
  rcases hc with hc | hc
  · exact .inl hc
  · exact .inr (.inl hc)

/-- The calls of the environment in an episode. -/
def uses (e : Episode O A K) : List (Train.Ev O A K Unit) := .reset e.first :: e.steps.map fun x => .step x.1 x.2

theorem events_uses (e : Episode O A K) : e.events.filterMap ofEnv = uses e := by
  have : ∀ (l : List (A × StepOut O K)) (o : O), (stepEvents o l).filterMap ofEnv = l.map fun x => (.step x.1 x.2 : Train.Ev O A K Unit) := by
    intro l
    induction l with
    | nil => intro o; rfl
    | cons x l ih => intro o; simp [stepEvents, List.filterMap_cons, ofEnv, ih]
  simp [Episode.events, uses, List.filterMap_cons, ofEnv, this]

theorem uses_ops (e : Episode O A K) : StepLimits.envOps (uses e) = .reset :: (e.steps.map (·.1)).map .step := by
  have : ∀ l : List (A × StepOut O K), StepLimits.envOps (l.map fun x => (.step x.1 x.2 : Train.Ev O A K Unit)) = (l.map (·.1)).map .step := by
    intro l
    induction l with
    | nil => rfl
    | cons x l ih => simp [StepLimits.envOps, ih]
  simp [uses, StepLimits.envOps, this]

theorem uses_outs (e : Episode O A K) : StepLimits.envOuts (uses e) = .obs e.first :: (e.steps.map (·.2)).map .step := by
  have : ∀ l : List (A × StepOut O K), StepLimits.envOuts (l.map fun x => (.step x.1 x.2 : Train.Ev O A K Unit)) = (l.map (·.2)).map .step := by
    intro l
    induction l with
    | nil => rfl
    | cons x l ih => simp [StepLimits.envOuts, ih]
  simp [uses, StepLimits.envOuts, this]

theorem tidy_uses {e : Episode O A K} (h : Plays e) : Tidy false (uses e) := by
  have : ∀ l : List (A × StepOut O K), (∀ x ∈ l.dropLast, ends x.2 = false) → Tidy true (l.map fun x => (.step x.1 x.2 : Train.Ev O A K Unit)) := by
    intro l
    induction l with
    | nil => intros; trivial
    | cons x l ih =>
      intro h
      refine ⟨rfl, ?_⟩
      cases l with
      | nil => trivial
      | cons y l =>
        rw [List.dropLast_cons_of_ne_nil (by simp)] at h
        rw [h x List.mem_cons_self]
        exact ih fun z hz => h z (List.mem_cons_of_mem _ hz)
  exact this e.steps h.2

/-! ## One game per episode -/

theorem after_reset {Y : Type} {older older' : List (Raw Y A ℝ)} {l l' : List (A × StepOut Y ℝ)}
    (h : older ++ .reset :: l.map (fun f => .frame f.1 f.2) = older' ++ .reset :: l'.map (fun f => .frame f.1 f.2)) : l = l' := by
  have hinj : ∀ l l' : List (A × StepOut Y ℝ), l.map (fun f => (.frame f.1 f.2 : Raw Y A ℝ)) = l'.map (fun f => .frame f.1 f.2) → l = l' := by
    intro l l' h
    refine List.map_injective_iff.2 ?_ h
    rintro ⟨a, b⟩ ⟨c, d⟩ h
    simpa using h
  have hmem : ∀ l : List (A × StepOut Y ℝ), (Raw.reset : Raw Y A ℝ) ∉ l.map fun f => .frame f.1 f.2 := by
    intro l h; simp at h
  rcases List.append_eq_append_iff.1 h with ⟨d, -, h2⟩ | ⟨d, -, h2⟩
  · cases d with
    | nil => simp only [List.nil_append, List.cons.injEq, true_and] at h2; exact hinj _ _ h2
    | cons x d =>
      simp only [List.cons_append, List.cons.injEq] at h2
      exact absurd (h2.2 ▸ List.mem_append_right _ List.mem_cons_self) (hmem l)
  · cases d with
    | nil => simp only [List.nil_append, List.cons.injEq, true_and] at h2; exact hinj _ _ h2.symm
    | cons x d =>
      simp only [List.cons_append, List.cons.injEq] at h2
      exact absurd (h2.2 ▸ List.mem_append_right _ List.mem_cons_self) (hmem l')

variable (o : Options A) (draw : S → S × Nat) (rand : S → S × ℝ) (count : S → Nat) (warp : (P → Nat) → Frame) (g : Gym S (P → Nat) A ℝ)

/-- What an episode shows of the game. -/
def Shows (o : Options A) (e : Episode (List Frame) A ℝ) (gm : Game (P → Nat) A) : Prop :=
  gm.Fair o ∧ e.ret = gm.score ∧ gm.Left e.steps.length ∧ ∀ x, e.steps.getLast? = some x → ends x.2 = true → gm.Over o

theorem one_game (ho : o.episodeLife = false) (hc : o.obs.clipRewards = false) (w : State S A P) (hw : Legal o.maxFrames w.log)
    (e : Episode (List Frame) A ℝ) (he : Plays e) (hs : StepLimits.Served (observed o draw rand count warp g) w (uses e)) :
    ∃ gm : Game (P → Nat) A, Shows o e gm ∧
      (Wrappers.run (observed o draw rand count warp g) w (StepLimits.envOps (uses e))).1.log = w.log ++ gm.log ∧
      Legal o.maxFrames (Wrappers.run (observed o draw rand count warp g) w (StepLimits.envOps (uses e))).1.log := by
  have hp := AtariTraining.proper_of_tidy _ w false hs (tidy_uses he)
  have hleg := AtariStack.legal_run o draw rand count warp g ho w hw _ hp
  obtain ⟨pre, warm, fs, first, outs, h1, h2, h3, h4, h5, h6, h7, h8⟩ := AtariStack.C176_score o draw rand count warp g ho hc w hw (e.steps.map (·.1))
  unfold StepLimits.Served at hs
  rw [uses_outs, uses_ops, h7] at hs
  simp only [List.cons.injEq] at hs
  have houts : outs = e.steps.map (·.2) := by
    refine List.map_injective_iff.2 ?_ hs.2
    intro a b h; cases h; rfl
  refine ⟨⟨pre, warm, fs⟩, ⟨⟨h2, h3⟩, ?_, ?_, ?_⟩, ?_, hleg⟩
  · unfold Episode.ret Game.score
    rw [← h8, houts, List.map_map]
    rfl
  · rw [List.length_map] at h5 h6; exact ⟨h5, h6⟩
  · intro x hx hx2
    obtain ⟨l, hl⟩ : ∃ l, e.steps = l ++ [x] := by
      rcases List.eq_nil_or_concat e.steps with h | ⟨l, y, h⟩
      · exact absurd h he.1
      · rw [List.concat_eq_append] at h
        rw [h, List.getLast?_append] at hx
        simp at hx
        exact ⟨l, hx ▸ h⟩
    have hops : StepLimits.envOps (uses e) = (.reset :: (l.map (·.1)).map .step) ++ [.step x.1] := by
      rw [uses_ops, hl]; simp
    have hfin := AtariStack.ended_run o draw rand count warp g ho w hw _ x.1 (hops ▸ hp) x.2 (by
      rw [← hops, uses_ops, h7, houts, hl]; simp [List.getLast?_cons, List.getLast?_append]) hx2
    rw [← hops, uses_ops, h1] at hfin
    obtain ⟨older, gs, f, e1, e2⟩ := hfin
    have e3 := after_reset (l := warm ++ fs) (l' := gs ++ [f]) e1
    have hne : fs ≠ [] := by
      intro h
      rw [h, List.length_map] at h5
      have : 0 < e.steps.length := List.length_pos_iff.2 he.1
      simp only [List.length_nil] at h5; omega
    refine ⟨f, ?_, ?_⟩
    · have := congrArg List.getLast? e3
      rw [List.getLast?_append, List.getLast?_append] at this
      obtain ⟨y, hy⟩ : ∃ y, fs.getLast? = some y := by
        cases h : fs.getLast? with
        | none => exact absurd (List.getLast?_eq_none_iff.1 h) hne
        | some y => exact ⟨y, rfl⟩
      rw [hy] at this ⊢
      simpa using this
    · rw [e3]; exact e2
  · rw [uses_ops, h1]; simp [Game.log]

theorem all_uses (ho : o.episodeLife = false) (hc : o.obs.clipRewards = false) (eps : List (Episode (List Frame) A ℝ)) (he : ∀ e ∈ eps, Plays e) :
    ∀ (w : State S A P), Legal o.maxFrames w.log → StepLimits.Served (observed o draw rand count warp g) w (eps.flatMap uses) →
      ∃ games : List (Game (P → Nat) A), List.Forall₂ (Shows o) eps games ∧
        AtariTraining.history o draw rand count warp g w (eps.flatMap uses) = w.log ++ games.flatMap Game.log ∧
        Legal o.maxFrames (AtariTraining.history o draw rand count warp g w (eps.flatMap uses)) := by
  induction eps with
  | nil => intro w hw _; exact ⟨[], .nil, by simp [AtariTraining.history, StepLimits.envOps, Wrappers.run], hw⟩
  | cons e eps ih =>
    intro w hw hs
    rw [List.flatMap_cons] at hs
    obtain ⟨gm, g1, g2, g3⟩ := one_game o draw rand count warp g ho hc w hw e (he e List.mem_cons_self) hs.prefix
    have hs2 : StepLimits.Served (observed o draw rand count warp g) (Wrappers.run (observed o draw rand count warp g) w (StepLimits.envOps (uses e))).1
        (eps.flatMap uses) := by
      unfold StepLimits.Served at hs ⊢
      rw [StepLimits.envOps_append, StepLimits.envOuts_append, StepLimits.run_append] at hs
      exact (List.append_inj hs (by rw [StepLimits.run_length, StepLimits.env_length])).2
    obtain ⟨games, k1, k2, k3⟩ := ih (fun e' h => he e' (List.mem_cons_of_mem _ h)) _ g3 hs2
    have hh : AtariTraining.history o draw rand count warp g w ((e :: eps).flatMap uses) =
        AtariTraining.history o draw rand count warp g (Wrappers.run (observed o draw rand count warp g) w (StepLimits.envOps (uses e))).1
          (eps.flatMap uses) := by
      unfold AtariTraining.history
      rw [List.flatMap_cons, StepLimits.envOps_append, AtariTraining.run_state]
    rw [hh]
    exact ⟨gm :: games, .cons g1 k1, by rw [k2, g2]; simp, k3⟩

theorem all_games (ho : o.episodeLife = false) (hc : o.obs.clipRewards = false) (eps : List (Episode (List Frame) A ℝ)) (he : ∀ e ∈ eps, Plays e)
    (w : State S A P) (hw : Legal o.maxFrames w.log) (hs : Served (observed o draw rand count warp g) w (eps.flatMap Episode.events)) :
    ∃ games : List (Game (P → Nat) A), List.Forall₂ (Shows o) eps games ∧
      AtariTraining.history o draw rand count warp g w ((eps.flatMap Episode.events).filterMap ofEnv) = w.log ++ games.flatMap Game.log ∧
      Legal o.maxFrames (AtariTraining.history o draw rand count warp g w ((eps.flatMap Episode.events).filterMap ofEnv)) := by
  have h : (eps.flatMap Episode.events).filterMap ofEnv = eps.flatMap uses := by
    rw [List.filterMap_flatMap]
    exact List.flatMap_congr fun e _ => events_uses e
  unfold Served at hs
  rw [h] at hs ⊢
  exact all_uses o draw rand count warp g ho hc eps he w hw hs

theorem scores_eq {eps : List (Episode (List Frame) A ℝ)} {games : List (Game (P → Nat) A)} (h : List.Forall₂ (Shows o) eps games) :
    eps.map Episode.ret = games.map Game.score := by
  induction h with
  | nil => rfl
  | cons a _ ih => rw [List.map_cons, List.map_cons, a.2.1, ih]

theorem length_between {eps : List (Episode (List Frame) A ℝ)} {games : List (Game (P → Nat) A)} (h : List.Forall₂ (Shows o) eps games) :
    (eps.map (·.steps.length)).sum ≤ (games.map (·.played.length)).sum ∧ (games.map (·.played.length)).sum ≤ 4 * (eps.map (·.steps.length)).sum := by
  induction h with
  | nil => exact ⟨le_refl _, le_refl _⟩
  | cons a _ ih =>
    have := a.2.2.1.1
    have := a.2.2.1.2
    simp only [List.map_cons, List.sum_cons]
    omega

theorem shown {eps : List (Episode (List Frame) A ℝ)} {games : List (Game (P → Nat) A)} (h : List.Forall₂ (Shows o) eps games) {gm : Game (P → Nat) A}
    (hgm : gm ∈ games) : ∃ e ∈ eps, Shows o e gm := by
  induction h with
  | nil => simp at hgm
  | cons a _ ih =>
    rcases List.mem_cons.1 hgm with rfl | hgm
    · exact ⟨_, List.mem_cons_self, a⟩
    · obtain ⟨e, h1, h2⟩ := ih hgm; exact ⟨e, List.mem_cons_of_mem _ h1, h2⟩

theorem over_of_complete {maxLen : Option Nat} {e : Episode (List Frame) A ℝ} (he : Complete maxLen e) {gm : Game (P → Nat) A} (hsh : Shows o e gm) :
    gm.Over o ∨ ∃ m, maxLen = some m ∧ gm.Left m := by
  obtain ⟨hne, hE⟩ := he
  have hpos : 0 < e.steps.length := List.length_pos_iff.2 hne
  obtain ⟨x, x1, x2⟩ := (hE (e.steps.length - 1)).2 (by omega)
  have hx : e.steps.getLast? = some x := by rw [List.getLast?_eq_getElem?]; exact x1
  rcases x2 with x2 | x2 | x2
  · exact .inl (hsh.2.2.2 x hx (by simp [ends, x2]))
  · exact .inl (hsh.2.2.2 x hx (by simp [ends, x2]))
  · exact .inr ⟨e.steps.length, by rw [x2]; congr 1; omega, hsh.2.2.1⟩

theorem plays_complete {maxLen : Option Nat} {e : Episode O A K} (h : Complete maxLen e) : Plays e :=
  plays_of h.1 fun i hi hE => by have := (h.2 i).1 hE; omega

/-- C178 with `n_episodes`: an environment without `episode_life` and `clip_rewards` (as for evaluation) is evaluated, new or after other use.  The reported scores
are, one by one, what the successive games of the emulator awarded the agent; each game is played until it is over (or has `max_frames` frames)
or, with `max_episode_len`, for this many steps, and no frame is played out of place. -/
theorem C178_episodes (ho : o.episodeLife = false) (hc : o.obs.clipRewards = false) (k : Nat) (hk : 0 < k) (maxLen : Option Nat)
    (w : Nat → Iter (List Frame) A ℝ X) (fuel : Nat) (scores : List ℝ) (h : (RunEval.run (.episodes k) maxLen w fuel).2 = .ok (some scores))
    (s : State S A P) (hl : Legal o.maxFrames s.log)
    (hs : Served (observed o draw rand count warp g) s (RunEval.run (.episodes k) maxLen w fuel).1) :
    ∃ games : List (Game (P → Nat) A), games.length = k ∧ scores = games.map Game.score ∧
      AtariTraining.history o draw rand count warp g s ((RunEval.run (.episodes k) maxLen w fuel).1.filterMap ofEnv) = s.log ++ games.flatMap Game.log ∧
      Legal o.maxFrames (AtariTraining.history o draw rand count warp g s ((RunEval.run (.episodes k) maxLen w fuel).1.filterMap ofEnv)) ∧
      ∀ gm ∈ games, gm.Fair o ∧ (gm.Over o ∨ ∃ m, maxLen = some m ∧ gm.Left m) := by
  obtain ⟨eps, e1, e2, e3, e4⟩ := RunEval.C28_episodes k hk maxLen w fuel scores h
  rw [e3] at hs ⊢
  obtain ⟨games, g1, g2, g3⟩ := all_games o draw rand count warp g ho hc eps (fun e he => plays_complete (e2 e he)) s hl hs
  refine ⟨games, by rw [← g1.length_eq, e1], by rw [e4, scores_eq o g1], g2, g3, fun gm hgm => ?_⟩
  obtain ⟨e, he, hsh⟩ := shown o g1 hgm
  exact ⟨hsh.1, over_of_complete o (e2 e he) hsh⟩

/-- C178 with `n_steps`: the same; only the last game may be left before it is over, when the steps are used up, and its score is reported only if
it is the only game.  The agent plays between `n` and `4n` frames. -/
theorem C178_steps (ho : o.episodeLife = false) (hc : o.obs.clipRewards = false) (n : Nat) (hn : 0 < n) (maxLen : Option Nat)
    (w : Nat → Iter (List Frame) A ℝ X) (fuel : Nat) (scores : List ℝ) (h : (RunEval.run (.steps n) maxLen w fuel).2 = .ok (some scores))
    (s : State S A P) (hl : Legal o.maxFrames s.log)
    (hs : Served (observed o draw rand count warp g) s (RunEval.run (.steps n) maxLen w fuel).1) :
    ∃ (games : List (Game (P → Nat) A)) (last : Option (Game (P → Nat) A)),
      scores = (if games = [] then last.toList else games).map Game.score ∧
      AtariTraining.history o draw rand count warp g s ((RunEval.run (.steps n) maxLen w fuel).1.filterMap ofEnv) =
        s.log ++ (games ++ last.toList).flatMap Game.log ∧
      Legal o.maxFrames (AtariTraining.history o draw rand count warp g s ((RunEval.run (.steps n) maxLen w fuel).1.filterMap ofEnv)) ∧
      (∀ gm ∈ games, gm.Over o ∨ ∃ m, maxLen = some m ∧ gm.Left m) ∧ (∀ gm ∈ games ++ last.toList, gm.Fair o) ∧
      n ≤ ((games ++ last.toList).map (·.played.length)).sum ∧ ((games ++ last.toList).map (·.played.length)).sum ≤ 4 * n := by
  obtain ⟨eps, last, e1, e2, e3, e4, e5⟩ := RunEval.C28_steps n hn maxLen w fuel scores h
  rw [e4] at hs ⊢
  obtain ⟨all, g1, g2, g3⟩ := all_games o draw rand count warp g ho hc (eps ++ last.toList) (fun e he => by
    rcases List.mem_append.1 he with he | he
    · exact plays_complete (e1 e he)
    · obtain ⟨h1, h2⟩ := e2 e (by simpa using he)
      exact plays_of h1 fun i _ => h2 i) s hl hs
  obtain ⟨games, rest, k1, k2, rfl⟩ : ∃ games rest, List.Forall₂ (Shows o) eps games ∧ List.Forall₂ (Shows o) last.toList rest ∧ all = games ++ rest := by
    refine ⟨all.take eps.length, all.drop eps.length, ?_, ?_, (List.take_append_drop _ _).symm⟩
    · have := List.forall₂_take eps.length g1
      rwa [List.take_left] at this
    · have := List.forall₂_drop eps.length g1
      rwa [List.drop_left] at this
  obtain ⟨lg, rfl⟩ : ∃ lg : Option (Game (P → Nat) A), rest = lg.toList := by
    cases last with
    | none => cases k2; exact ⟨none, rfl⟩
    | some e => cases k2 with | cons a b => cases b; exact ⟨some _, rfl⟩
  have hlen := length_between o g1
  rw [e3] at hlen
  refine ⟨games, lg, ?_, g2, g3, ?_, ?_, hlen⟩
  · have hnil : eps = [] ↔ games = [] := by
      rw [← List.length_eq_zero_iff, k1.length_eq, List.length_eq_zero_iff]
    rw [e5]
    by_cases hg : games = []
    · rw [if_pos (hnil.2 hg), if_pos hg, scores_eq o k2]
    · rw [if_neg (mt hnil.1 hg), if_neg hg, scores_eq o k1]
  · intro gm hgm
    obtain ⟨e, he, hsh⟩ := shown o k1 hgm
    exact over_of_complete o (e1 e he) hsh
  · intro gm hgm
    obtain ⟨e, -, hsh⟩ := shown o g1 hgm
    exact hsh.1

/-- What the calls return in an evaluation of one step. -/
def exIter {T : Type} (call : T → Op A → T × Out (List Frame) ℝ) (s : T) (a : A) : Iter (List Frame) A ℝ String :=
  let r0 := call s .reset
  ⟨.ok (AtariTraining.obsOf r0.2), .ok a, .ok (AtariTraining.outOf (call r0.1 (.step a)).2), .ok ()⟩

/-- The hypotheses of `C178_episodes` and `C178_steps` are met by every game evaluated for one step. -/
example (b : RunEval.Budget) (hb : b = .episodes 1 ∨ b = .steps 1) (s : State S A P) (a : A) :
    Served (observed o draw rand count warp g) s (RunEval.run b (some 1) (fun _ => exIter (observed o draw rand count warp g) s a) 1).1 ∧
      ∃ scores, (RunEval.run b (some 1) (fun _ => exIter (observed o draw rand count warp g) s a) 1).2 = .ok (some scores) := by
  obtain ⟨f1, f2, -⟩ := AtariStack.observed_frames o draw rand count warp g s .reset (.inl rfl)
  obtain ⟨x0, e0⟩ := f2 rfl
  generalize hr0 : observed o draw rand count warp g s .reset = r0 at *
  obtain ⟨-, -, f4⟩ := AtariStack.observed_frames o draw rand count warp g r0.1 (.step a) (.inr f1)
  obtain ⟨x1, e1⟩ := f4 a rfl
  have hw : exIter (observed o draw rand count warp g) s a = ⟨.ok x0, .ok a, .ok x1, .ok ()⟩ := by
    simp only [exIter, hr0, e0, e1, AtariTraining.obsOf, AtariTraining.outOf]
  rw [hw]
  have key : ((RunEval.run b (some 1) (fun _ => (⟨.ok x0, .ok a, .ok x1, .ok ()⟩ : Iter (List Frame) A ℝ String)) 1).1.filterMap ofEnv =
        [.reset x0, .step a x1]) ∧
      (RunEval.run b (some 1) (fun _ => (⟨.ok x0, .ok a, .ok x1, .ok ()⟩ : Iter (List Frame) A ℝ String)) 1).2 = .ok (some [0 + x1.r]) := by
    obtain ⟨ob, r, d, n⟩ := x1
    rcases hb with rfl | rfl <;> cases d <;> cases n <;> exact ⟨rfl, rfl⟩
  refine ⟨?_, _, key.2⟩
  unfold Served
  rw [key.1]
  simp only [StepLimits.Served, StepLimits.envOps, StepLimits.envOuts, Wrappers.run, hr0, e0, e1]

end Verif.AtariScores
