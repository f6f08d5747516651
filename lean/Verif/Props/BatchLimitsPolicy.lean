import Verif.Props.BatchLimits
import Verif.Props.TrainBatchCalls
import Verif.Props.LimitsPolicy
set_option autoImplicit false
set_option linter.unusedSectionVars false

/-! # C173: what the other agents make of step limits in a vectorised training run -/

namespace Verif.BatchLimits
open DQN (EnvStep EnvRound)
open TrainBatch (Ev Phase Next)
open TrainBatchDQN (Record record Sized)
open TrainBatchCalls (driveAC drivePPO driveA2C column history calls a2cSteps chunks chosen)
open TrainDQN (entriesOf)
open StepLimits (Endless Stops Only cut)
open Wrappers (Gym timeLimit stepLimited)
variable {O A K S E X : Type}

/-- The agent has been told of whole episodes of `n` steps and a shorter one. -/
def Told (n : Nat) (w : Record O A K) : Prop := (∀ ep ∈ w.told.1, ep.length = n) ∧ w.told.2.length < n

section
variable [Zero S] [LinearOrder S]

theorem told_step {n i : Nat} {c : TrainBatch.Cfg S} (hml : ∀ x, c.maxEpisodeLen = some x → x = n) {q : Phase O A K S}
    {e : Ev O A K S} {r : Phase O A K S} (hnx : Next c q e r) (m : Nat) (w : Record O A K)
    (h : Len n i True c.maxEpisodeLen q m w) (ht : Told n w) : Told n (w.watch i e) := by
  cases e with
  | observe obss rs dones resets =>
    cases hnx with
    | observe outs lens t k _ ends hr he =>
      obtain ⟨h0, h1, h2, h3, h4, h4', out, h5, h6, h7⟩ := h
      have e1 : resets[i]? = some (TrainBatch.mustReset c.maxEpisodeLen w.current.length out) := by
        rw [hr, List.getElem?_map, List.getElem?_zip_eq_some (z := (w.current.length, out)).2 ⟨h2, h5⟩]; rfl
      have e2 : (outs.map (·.done))[i]? = some out.done := by rw [List.getElem?_map, h5]; rfl
      unfold Told
      simp only [Record.watch, e1, e2, Option.some.injEq]
      split
      · rename_i hb
        refine ⟨fun ep hep => ?_, h4'.trans_le h4⟩
        rcases List.mem_append.1 hep with hep | hep
        · exact (h0 ep hep).2 trivial
        · rw [List.mem_singleton.1 hep]
          simp only [TrainBatch.mustReset, Bool.or_eq_true, decide_eq_true_eq] at hb
          rcases hb with hb | hb | hb
          · exact h7 trivial (.inl hb)
          · exact h7 trivial (.inr hb)
          · exact hml _ hb
      · rename_i hb
        refine ⟨fun ep hep => (h0 ep hep).2 trivial, lt_of_le_of_ne h4 fun hl => hb ?_⟩
        simp only [TrainBatch.mustReset, Bool.or_eq_true, decide_eq_true_eq]
        rcases h6 hl with h | h | h
        · exact .inl h
        · exact .inr (.inl h)
        · exact .inr (.inr (by rw [h, hl]))
    | count e todo ends lens t k =>
      have := h.2.1 _ List.mem_cons_self
      simp [TrainBatch.Ev.isUse] at this
    | noEvaluator hev hn' =>
      rcases TrainBatch.judged_inv hn' with ⟨-, -, obss, h, -⟩ | ⟨-, h, -⟩ | ⟨h, -⟩ <;> cases h
  | reset mask obss =>
    have e : (w.watch i (.reset mask obss : Ev O A K S)).told = w.told := by
      simp only [Record.watch]; split <;> rfl
    unfold Told at *; rw [e]; exact ht
  | step a outs =>
    have e : (w.watch i (.step a outs : Ev O A K S)).told = w.told := by
      simp only [Record.watch]; split <;> rfl
    unfold Told at *; rw [e]; exact ht
  | _ => exact ht

theorem told_run {n i : Nat} (hn : 0 < n) {c : TrainBatch.Cfg S} (hml : ∀ x, c.maxEpisodeLen = some x → x = n) (hi : i < c.numEnvs) {p q : Phase O A K S}
    {es : List (Ev O A K S)} (h : Steps (Next c) p es q) (hsz : ∀ e ∈ es, Sized c.numEnvs e) : ∀ (m : Nat) (w : Record O A K),
    Stops n c.maxEpisodeLen m (es.filterMap (ofEnv i)) → Only n m (es.filterMap (ofEnv i)) → Len n i True c.maxEpisodeLen p m w → Told n w →
    ∀ pre post, es = pre ++ post → Told n (pre.foldl (Record.watch i) w) := by
  induction h with
  | nil p =>
    intro m w _ _ _ ht pre post he
    obtain ⟨rfl, -⟩ := List.append_eq_nil_iff.1 he.symm
    exact ht
  | @cons p q r e es hnx _ ih =>
    intro m w hs ho h ht pre post he
    cases pre with
    | nil => exact ht
    | cons e' pre =>
      simp only [List.cons_append, List.cons.injEq] at he
      obtain ⟨rfl, he⟩ := he
      obtain ⟨m', h1, h2, h3⟩ := len_step hn (fun _ => hml) hi hnx es (hsz e List.mem_cons_self) m w hs (fun _ => ho) h
      exact ih (fun e he => hsz e (List.mem_cons_of_mem _ he)) _ _ h1 (h2 trivial) h3 (told_step hml hnx m w h ht) pre post he

/-- In every run the agent has been told of whole episodes of `n` steps and a shorter one, if the environment is endless and limited to `n` steps. -/
theorem told_full (n : Nat) (hn : 0 < n) (c : TrainBatch.Cfg S) (hml : ∀ x, c.maxEpisodeLen = some x → x = n) (i : Nat) (hi : i < c.numEnvs)
    (w : TrainBatch.World O A K S X) (g : Gym E O A K) (hg : Endless g) (s : E)
    (hs : ∀ e ∈ (TrainBatch.run c w).1, Sized c.numEnvs e) (h : Limited n c i g s (TrainBatch.run c w).1)
    (pre post : List (Ev O A K S)) (hrun : (TrainBatch.run c w).1 = pre ++ post) : Told n (record i pre) := by
  obtain ⟨q, hp, -⟩ := TrainBatch.C23_protocol c (by omega) w
  exact told_run hn hml hi hp hs 0 {} h.stops (h.only hg) ⟨by simp, rfl, rfl⟩ ⟨by simp, hn⟩ pre post hrun

end

section Own
variable [Zero S] [LinearOrder S]

/-- With a limit that the agent sees as a reset, the record of environment `i` is that of the environment inside. -/
theorem record_own (n : Nat) (c : TrainBatch.Cfg S) (i : Nat) (g : Gym E O A K) (s : E) (run pre post : List (Ev O A K S)) (hrun : run = pre ++ post)
    (h : (c.maxEpisodeLen = some n ∧ Served i g.call s run) ∨ Served i (timeLimit g n) (none, s) run) : record i pre = record i (asIf i g s pre) := by
  rw [hrun] at h
  rcases h with ⟨-, h⟩ | h
  · rw [asIf_served i g pre s h.prefix]
  · exact record_timeLimit i g n pre none s {} h.prefix

theorem told_endless (i : Nat) (g : Gym E O A K) (hg : Endless g) (s : E) (pre : List (Ev O A K S)) (ep : List (EnvStep O A K))
    (hep : ep ∈ (record i (asIf i g s pre)).told.2 :: (record i (asIf i g s pre)).told.1) (x : EnvStep O A K) (hx : x ∈ ep) : x.terminal = false :=
  endless_told i g hg pre s {} (by simp) (by simp) ep hep x hx

end Own

section Actor
variable [Zero K] [Zero S] [LinearOrder S]

/-- **C173**: DDPG, TD3 and SoftActorCritic: with `max_episode_len` or `ContinuingTimeLimit` what the buffer holds of environment `i` is what happened
in the environment inside, with its own terminal flags: none if it never ends an episode. -/
theorem C173_actor_critic (n : Nat) (c : TrainBatch.Cfg S) (i : Nat) (hi : i < c.numEnvs) (w : TrainBatch.World O A K S X) (g : Gym E O A K) (s : E)
    (h : (c.maxEpisodeLen = some n ∧ Served i g.call s (TrainBatch.run c w).1) ∨ Served i (timeLimit g n) (none, s) (TrainBatch.run c w).1)
    (d : ActorCritic.Args) (hd : ActorCritic.Good d) (cap : Option Nat) (k : Nat) (hk : 0 < k) (cands : Nat → Nat → Bool → A)
    (pre post : List (Ev O A K S)) (hrun : (TrainBatch.run c w).1 = pre ++ post) (hs : ∀ e ∈ pre, Sized c.numEnvs e) :
    ∃ s' ev, driveAC d cap k c.stepOffset cands pre = .ok (s', ev) ∧
      (ActorCritic.returned ev = chosen pre →
        ∃ ent : List (Nat × List (EnvStep O A K)), TrainCalls.stored s'.buf = BoundedList.newest cap (ent.map Prod.snd) ∧
          (ent.filter (fun p => p.1 = i)).map Prod.snd = entriesOf k (record i (asIf i g s pre)).told ∧
          (Endless g → ∀ p ∈ ent, p.1 = i → ∀ x ∈ p.2, x.terminal = false)) := by
  obtain ⟨s', ev, h1, h2⟩ := TrainBatchCalls.C124_actor_critic c (by omega) w d hd cap k hk cands pre post hrun hs
  refine ⟨s', ev, h1, fun hr => ?_⟩
  obtain ⟨ent, h3, -, h4⟩ := h2 hr
  have h5 := h4 i hi
  rw [record_own n c i g s _ pre post hrun h] at h5
  refine ⟨ent, h3, h5, fun hg p hp hpi x hx => ?_⟩
  have hm : p.2 ∈ entriesOf k (record i (asIf i g s pre)).told := by
    rw [← h5]; exact List.mem_map_of_mem (List.mem_filter.2 ⟨hp, by simpa using hpi⟩)
  obtain ⟨ep, hep, hx⟩ := StepLimits.mem_entries k _ _ hm x hx
  exact told_endless i g hg s pre ep hep x hx

/-- **C173**: with `make_timestep_limited` their buffers hold ends that did not happen. -/
theorem C173_violated_actor_critic_limited (n : Nat) (c : TrainBatch.Cfg S) (i : Nat) (hi : i < c.numEnvs) (w : TrainBatch.World O A K S X) (g : Gym E O A K)
    (s : E) (h : Served i (stepLimited g n) (1, s) (TrainBatch.run c w).1)
    (d : ActorCritic.Args) (hd : ActorCritic.Good d) (cap : Option Nat) (k : Nat) (hk : 0 < k) (cands : Nat → Nat → Bool → A)
    (pre post : List (Ev O A K S)) (hrun : (TrainBatch.run c w).1 = pre ++ post) (hs : ∀ e ∈ pre, Sized c.numEnvs e) :
    ∃ s' ev, driveAC d cap k c.stepOffset cands pre = .ok (s', ev) ∧
      (ActorCritic.returned ev = chosen pre →
        ∃ ent : List (Nat × List (EnvStep O A K)), TrainCalls.stored s'.buf = BoundedList.newest cap (ent.map Prod.snd) ∧
          (ent.filter (fun p => p.1 = i)).map Prod.snd =
            entriesOf k ((record i (asIf i g s pre)).told.1.map (cut n), cut n (record i (asIf i g s pre)).told.2)) := by
  obtain ⟨s', ev, h1, h2⟩ := TrainBatchCalls.C124_actor_critic c (by omega) w d hd cap k hk cands pre post hrun hs
  refine ⟨s', ev, h1, fun hr => ?_⟩
  obtain ⟨ent, h3, -, h4⟩ := h2 hr
  exact ⟨ent, h3, by rw [h4 i hi, (run_cuts n c i hi w g s h pre post hrun hs).told]⟩

/-- The steps of environment `i` in the data of PPO or TRPO. -/
def ppoSteps (i : Nat) (l : List (Option Nat × List (PPOData.Tr O A K))) : List (EnvStep O A K) :=
  ((l.filter (fun x => x.1 = some i)).flatMap Prod.snd).map TrainCalls.ppoStep

theorem ppo_told (c : TrainBatch.Cfg S) (w : TrainBatch.World O A K S X) (i : Nat) (hi : i < c.numEnvs) (interval : Nat)
    (pre post : List (Ev O A K S)) (hrun : (TrainBatch.run c w).1 = pre ++ post) (hs : ∀ e ∈ pre, Sized c.numEnvs e) :
    ∃ st ds, drivePPO interval pre = .ok (st, ds) ∧
      ∃ rest, ppoSteps i (ds.flatten ++ st.memory) ++ rest = (record i pre).told.1.flatten ++ (record i pre).told.2 := by
  obtain ⟨st, ds, h1, -, h2⟩ := TrainBatchCalls.C124_ppo c (by omega) w interval pre post hrun hs
  obtain ⟨groups, op, rc, h2, h3, h4⟩ := h2 i hi
  refine ⟨st, ds, h1, rc.map TrainCalls.ppoStep, ?_⟩
  rw [ppoSteps, List.flatMap_def, h2, List.flatten_append, List.map_append, ← h4, ← h3, List.map_append, List.append_assoc, List.flatten_flatten,
    List.map_flatten]

/-- **C173**: PPO and TRPO: with `max_episode_len` or `ContinuingTimeLimit` the steps of environment `i` in the datasets and in the memory are those of
the environment inside; if it never ends an episode, none counts as terminal, so every advantage bootstraps. -/
theorem C173_ppo (n : Nat) (c : TrainBatch.Cfg S) (i : Nat) (hi : i < c.numEnvs) (w : TrainBatch.World O A K S X) (g : Gym E O A K) (s : E)
    (h : (c.maxEpisodeLen = some n ∧ Served i g.call s (TrainBatch.run c w).1) ∨ Served i (timeLimit g n) (none, s) (TrainBatch.run c w).1)
    (interval : Nat) (pre post : List (Ev O A K S)) (hrun : (TrainBatch.run c w).1 = pre ++ post) (hs : ∀ e ∈ pre, Sized c.numEnvs e) :
    ∃ st ds, drivePPO interval pre = .ok (st, ds) ∧
      (∃ rest, ppoSteps i (ds.flatten ++ st.memory) ++ rest = (record i (asIf i g s pre)).told.1.flatten ++ (record i (asIf i g s pre)).told.2) ∧
      (Endless g → ∀ dset ∈ ds, ∀ ep ∈ dset, ep.1 = some i → ∀ x ∈ ep.2, x.done = false) := by
  obtain ⟨st, ds, h1, rest, h2⟩ := ppo_told c w i hi interval pre post hrun hs
  rw [record_own n c i g s _ pre post hrun h] at h2
  refine ⟨st, ds, h1, ⟨rest, h2⟩, fun hg dset hd ep hep hei x hx => ?_⟩
  have hm : TrainCalls.ppoStep x ∈ (record i (asIf i g s pre)).told.1.flatten ++ (record i (asIf i g s pre)).told.2 := by
    rw [← h2]
    refine List.mem_append_left _ (List.mem_map_of_mem (List.mem_flatMap.2 ⟨ep, List.mem_filter.2
      ⟨List.mem_append_left _ (List.mem_flatten.2 ⟨dset, hd, hep⟩), by simpa using hei⟩, hx⟩))
  rcases List.mem_append.1 hm with hm | hm
  · obtain ⟨e, he, hx'⟩ := List.mem_flatten.1 hm
    exact told_endless i g hg s pre e (List.mem_cons_of_mem _ he) _ hx'
  · exact told_endless i g hg s pre _ List.mem_cons_self _ hm

/-- **C173**: with `make_timestep_limited` the `n`-th step of each episode is terminal in the data of PPO and TRPO. -/
theorem C173_violated_ppo_limited (n : Nat) (c : TrainBatch.Cfg S) (i : Nat) (hi : i < c.numEnvs) (w : TrainBatch.World O A K S X) (g : Gym E O A K) (s : E)
    (h : Served i (stepLimited g n) (1, s) (TrainBatch.run c w).1)
    (interval : Nat) (pre post : List (Ev O A K S)) (hrun : (TrainBatch.run c w).1 = pre ++ post) (hs : ∀ e ∈ pre, Sized c.numEnvs e) :
    ∃ st ds, drivePPO interval pre = .ok (st, ds) ∧
      ∃ rest, ppoSteps i (ds.flatten ++ st.memory) ++ rest =
        ((record i (asIf i g s pre)).told.1.map (cut n)).flatten ++ cut n (record i (asIf i g s pre)).told.2 := by
  obtain ⟨st, ds, h1, rest, h2⟩ := ppo_told c w i hi interval pre post hrun hs
  exact ⟨st, ds, h1, rest, by rw [h2, (run_cuts n c i hi w g s h pre post hrun hs).told]⟩

end Actor

section A2C
open TrainBatchCalls (step)
variable {θ : Type}

theorem episodes_concat (l : List (EnvRound θ O A K)) (e : EnvRound θ O A K) :
    TrainBatchCalls.episodes (l ++ [e]) = if e.done = true ∨ e.reset = true then
      ((TrainBatchCalls.episodes l).1 ++ [(TrainBatchCalls.episodes l).2 ++ [step e]], []) else
      ((TrainBatchCalls.episodes l).1, (TrainBatchCalls.episodes l).2 ++ [step e]) := by
  simp [TrainBatchCalls.episodes, List.foldl_append]

theorem episodes_flat (l : List (EnvRound θ O A K)) :
    (TrainBatchCalls.episodes l).1.flatten ++ (TrainBatchCalls.episodes l).2 = l.map step := by
  induction l using List.reverseRecOn with
  | nil => rfl
  | append_singleton l e ih =>
    rw [episodes_concat]
    split <;> simp [← ih]

/-- If all finished episodes have `n` steps, the ends are at every `n`-th step. -/
theorem ends_at (n : Nat) (l : List (EnvRound θ O A K)) (h1 : ∀ ep ∈ (TrainBatchCalls.episodes l).1, ep.length = n)
    (h2 : (TrainBatchCalls.episodes l).2.length < n) :
    (TrainBatchCalls.episodes l).2.length = l.length % n ∧ ∀ j e, l[j]? = some e → ((e.done || e.reset) = true ↔ n ∣ j + 1) := by
  induction l using List.reverseRecOn with
  | nil => exact ⟨by simp [TrainBatchCalls.episodes], by simp⟩
  | append_singleton l e ih =>
    rw [episodes_concat] at h1 h2 ⊢
    split at h1
    · rename_i he
      rw [if_pos he] at h2 ⊢
      have hl := h1 _ (List.mem_append_right _ List.mem_cons_self)
      rw [List.length_append, List.length_singleton] at hl
      obtain ⟨i1, i2⟩ := ih (fun ep hep => h1 ep (List.mem_append_left _ hep)) (by omega)
      have hd : n ∣ l.length + 1 := by
        have := Nat.div_add_mod l.length n
        exact ⟨l.length / n + 1, by rw [Nat.mul_add]; omega⟩
      refine ⟨by simpa using (Nat.mod_eq_zero_of_dvd hd).symm, fun j x hj => ?_⟩
      rcases Nat.lt_trichotomy j l.length with hlt | rfl | hgt
      · rw [List.getElem?_append_left hlt] at hj; exact i2 j x hj
      · simp at hj; subst hj; simpa [hd] using he
      · rw [List.getElem?_eq_none (by simp; omega)] at hj; cases hj
    · rename_i he
      rw [if_neg he] at h2 ⊢
      rw [List.length_append, List.length_singleton] at h2
      obtain ⟨i1, i2⟩ := ih h1 (by omega)
      have hm : (l.length + 1) % n = l.length % n + 1 := by
        rw [Nat.add_mod, Nat.mod_eq_of_lt (show 1 < n by omega), Nat.mod_eq_of_lt (by omega)]
      refine ⟨by simp [i1, hm], fun j x hj => ?_⟩
      rcases Nat.lt_trichotomy j l.length with hlt | rfl | hgt
      · rw [List.getElem?_append_left hlt] at hj; exact i2 j x hj
      · simp at hj; subst hj
        rw [Nat.dvd_iff_mod_eq_zero, hm]
        simpa using he
      · rw [List.getElem?_eq_none (by simp; omega)] at hj; cases hj

variable [Field K]

theorem a2cSteps_get (value : Nat → O → K) (l : List (EnvRound θ O A K)) : ∀ k j : Nat, (a2cSteps value k l)[j]? =
    l[j]?.map fun e => (⟨value (k + j) e.obs, e.reward, e.done, e.reset, value (k + j) e.nextObs⟩ : A2C.Step K) := by
  induction l with
  | nil => intros; rfl
  | cons e l ih =>
    intro k j
    cases j with
    | zero => rfl
    | succ j =>
      simp only [a2cSteps, List.getElem?_cons_succ, ih]
      rw [show k + 1 + j = k + (j + 1) by omega]

theorem a2cSteps_length (value : Nat → O → K) (l : List (EnvRound θ O A K)) (k : Nat) : (a2cSteps value k l).length = l.length := by
  induction l generalizing k with
  | nil => rfl
  | cons e l ih => simp [a2cSteps, ih]

theorem targets_get (gamma : K) (tau : Option K) (boot : K) (l : List (A2C.Step K)) : ∀ r, r < l.length →
    (A2C.targets gamma tau boot l)[r]? = some (A2C.target gamma tau boot (l.drop r)) := by
  induction l with
  | nil => intro r h; simp at h
  | cons x l ih =>
    intro r h
    cases r with
    | zero => rfl
    | succ r => simpa [A2C.targets] using ih r (by simpa using h)

theorem targets_length (gamma : K) (tau : Option K) (boot : K) (l : List (A2C.Step K)) : (A2C.targets gamma tau boot l).length = l.length := by
  induction l with
  | nil => rfl
  | cons x l ih => simp [A2C.targets, ih]

/-- The return of a list whose first end is at position `k`. -/
theorem ret_ends (gamma boot : K) (l : List (A2C.Step K)) : ∀ k, (∀ j x, j < k → l[j]? = some x → x.ended = false) →
    (∃ x, l[k]? = some x ∧ x.ended = true) → A2C.ret gamma boot l = discounted gamma ((l.take (k + 1)).map (·.reward)) := by
  intro k h1 h2
  have hany : l.any (·.ended) = true := by
    obtain ⟨x, hx, he⟩ := h2
    exact List.any_eq_true.2 ⟨x, List.mem_of_getElem? hx, he⟩
  rw [A2C.ret, if_pos hany, add_zero]
  congr 2
  clear hany
  induction l generalizing k with
  | nil => obtain ⟨x, hx, -⟩ := h2; simp at hx
  | cons x l ih =>
    cases k with
    | zero =>
      obtain ⟨y, hy, he⟩ := h2
      simp at hy; subst hy
      simp [A2C.untilEnd, he]
    | succ k =>
      have := h1 0 x (by omega) rfl
      rw [A2C.untilEnd, if_neg (by simp [this]), List.take_succ_cons, ih k (fun j y hj hy => h1 (j + 1) y (by omega) (by simpa using hy)) (by simpa using h2)]

variable [Zero S] [LinearOrder S]

/-- What environment `i` did, as far as the agent has been told of it. -/
def toldSteps (i : Nat) (pre : List (Ev O A K S)) : List (EnvStep O A K) := (record i pre).told.1.flatten ++ (record i pre).told.2

/-- **C173**: A2C takes a limit for the end of the episode, however it is set: in an environment that never ends an episode, limited to `n` steps, the
target of a step whose episode reaches the limit inside the rollout of `m` steps is the discounted sum of the rewards up to the limit, without any value
of the state in which the limit was reached. -/
theorem C173_violated_a2c (n : Nat) (hn : 0 < n) (c : TrainBatch.Cfg S) (hml : ∀ x, c.maxEpisodeLen = some x → x = n) (i : Nat) (hi : i < c.numEnvs)
    (hoff : c.stepOffset = 0) (w : TrainBatch.World O A K S X) (g : Gym E O A K) (hg : Endless g) (s : E)
    (hs : ∀ e ∈ (TrainBatch.run c w).1, Sized c.numEnvs e) (h : Limited n c i g s (TrainBatch.run c w).1)
    (gamma : K) (m : Nat) (hm : 1 ≤ m) (value : Nat → O → K) (pre post : List (Ev O A K S)) (hrun : (TrainBatch.run c w).1 = pre ++ post) :
    ∃ st us, driveA2C gamma none m c.stepOffset i value pre = .ok (st, us) ∧ us.length = (toldSteps i pre).length / m ∧ (∀ u ∈ us, u.length = m) ∧
      ∀ q r, q < us.length → r < m → n * ((q * m + r) / n + 1) ≤ (q + 1) * m →
        us[q]?.bind (·[r]?) = some (discounted gamma
          ((((toldSteps i pre).drop (q * m + r)).take (n * ((q * m + r) / n + 1) - (q * m + r))).map (·.reward))) := by
  have hs' : ∀ e ∈ pre, Sized c.numEnvs e := fun e he => hs e (by rw [hrun]; exact List.mem_append_left _ he)
  obtain ⟨rounds, pend, -, h1⟩ := TrainBatchCalls.C124_a2c c (by omega) hoff w gamma none m hm value pre post hrun hs'
  obtain ⟨-, h2, st, h3⟩ := h1 i hi
  obtain ⟨t1, t2⟩ := told_full n hn c hml i hi w g hg s hs h pre post hrun
  rw [← h2] at t1 t2
  obtain ⟨-, hends⟩ := ends_at n _ t1 t2
  have hflat : toldSteps i pre = (column i rounds).map step := by rw [toldSteps, ← h2, episodes_flat]
  refine ⟨st, _, h3, by simp [chunks, hflat, a2cSteps_length], fun u hu => ?_, fun q r hq hr hle => ?_⟩
  · obtain ⟨x, hx, rfl⟩ := List.mem_map.1 hu
    obtain ⟨j, hj, rfl⟩ := List.mem_map.1 hx
    rw [targets_length, List.length_take, List.length_drop]
    have := Nat.div_mul_le_self (a2cSteps value 0 (column i rounds)).length m
    have : (j + 1) * m ≤ _ := (Nat.mul_le_mul_right m (List.mem_range.1 hj)).trans this
    rw [Nat.add_mul] at this
    omega
  · have hq' : q < (a2cSteps value 0 (column i rounds)).length / m := by simpa [chunks] using hq
    have hfit : (q + 1) * m ≤ (column i rounds).length := by
      have := (Nat.mul_le_mul_right m hq').trans (Nat.div_mul_le_self _ m)
      rwa [a2cSteps_length] at this
    have hqm : (q + 1) * m = q * m + m := by rw [Nat.add_mul, Nat.one_mul]
    rw [List.getElem?_map, chunks, List.getElem?_map, List.getElem?_range hq']
    simp only [Option.map_some, Option.bind_some]
    rw [targets_get _ _ _ _ r (by rw [List.length_take, List.length_drop, a2cSteps_length]; omega)]
    congr 1
    rw [List.drop_take, List.drop_drop]
    generalize hj : q * m + r = j at *
    have hdm := Nat.div_add_mod j n
    have hlt := Nat.mod_lt j hn
    have he : n * (j / n + 1) = n * (j / n) + n := by rw [Nat.mul_add, Nat.mul_one]
    have hget : ∀ k, k < m - r → (((a2cSteps value 0 (column i rounds)).drop j).take (m - r))[k]? =
        (column i rounds)[j + k]?.map fun e => ⟨value (j + k) e.obs, e.reward, e.done, e.reset, value (j + k) e.nextObs⟩ := by
      intro k hk
      rw [List.getElem?_take_of_lt hk, List.getElem?_drop, a2cSteps_get]
      simp
    rw [A2C.target, ret_ends gamma _ _ (n * (j / n + 1) - j - 1)]
    · rw [show n * (j / n + 1) - j - 1 + 1 = n * (j / n + 1) - j by omega, List.take_take,
        show min (n * (j / n + 1) - j) (m - r) = n * (j / n + 1) - j by omega, hflat]
      congr 1
      apply List.ext_getElem?
      intro k
      by_cases hk : k < n * (j / n + 1) - j
      · rw [List.getElem?_map, List.getElem?_map, List.getElem?_take_of_lt hk, List.getElem?_take_of_lt hk, List.getElem?_drop, List.getElem?_drop,
          a2cSteps_get, List.getElem?_map]
        cases (column i rounds)[j + k]? <;> rfl
      · rw [List.getElem?_eq_none (by simp; omega), List.getElem?_eq_none (by simp; omega)]
    · intro k x hk hx
      rw [hget k (by omega)] at hx
      obtain ⟨e, hce, rfl⟩ := Option.map_eq_some_iff.1 hx
      have := hends _ e hce
      rw [A2C.Step.ended, ← Bool.not_eq_true]
      intro hc
      obtain ⟨y, hy⟩ := this.1 hc
      have : j / n < y := by
        by_contra hcon
        have := Nat.mul_le_mul_left n (Nat.le_of_not_lt hcon)
        omega
      have := Nat.mul_le_mul_left n this
      simp only [Nat.succ_eq_add_one] at this
      omega
    · have hb : j + (n * (j / n + 1) - j - 1) < (column i rounds).length := by omega
      refine ⟨_, by rw [hget _ (by omega), List.getElem?_eq_getElem hb]; rfl, ?_⟩
      rw [A2C.Step.ended]
      exact (hends _ _ (List.getElem?_eq_getElem hb)).2 ⟨j / n + 1, by omega⟩

/-- **C173**: if moreover the rollouts are made of whole episodes (`n` divides `update_steps`), the targets of A2C do not depend on the value function at
all: it learns the returns up to the limit. -/
theorem C173_violated_a2c_no_value (n : Nat) (hn : 0 < n) (c : TrainBatch.Cfg S) (hml : ∀ x, c.maxEpisodeLen = some x → x = n) (i : Nat)
    (hi : i < c.numEnvs) (hoff : c.stepOffset = 0) (w : TrainBatch.World O A K S X) (g : Gym E O A K) (hg : Endless g) (s : E)
    (hs : ∀ e ∈ (TrainBatch.run c w).1, Sized c.numEnvs e) (h : Limited n c i g s (TrainBatch.run c w).1)
    (gamma : K) (m : Nat) (hm : 1 ≤ m) (hnm : n ∣ m) (value value' : Nat → O → K) (pre post : List (Ev O A K S))
    (hrun : (TrainBatch.run c w).1 = pre ++ post) :
    ∃ st st' us, driveA2C gamma none m c.stepOffset i value pre = .ok (st, us) ∧ driveA2C gamma none m c.stepOffset i value' pre = .ok (st', us) := by
  obtain ⟨st, us, h1, h2, h3, h4⟩ := C173_violated_a2c n hn c hml i hi hoff w g hg s hs h gamma m hm value pre post hrun
  obtain ⟨st', us', h1', h2', h3', h4'⟩ := C173_violated_a2c n hn c hml i hi hoff w g hg s hs h gamma m hm value' pre post hrun
  suffices us = us' by subst this; exact ⟨st, st', us, h1, h1'⟩
  apply List.ext_getElem (by rw [h2, h2'])
  intro q hq hq'
  apply List.ext_getElem (by rw [h3 _ (List.getElem_mem hq), h3' _ (List.getElem_mem hq')])
  intro r hr hr'
  have hrm : r < m := by rwa [h3 _ (List.getElem_mem hq)] at hr
  have hle : n * ((q * m + r) / n + 1) ≤ (q + 1) * m := by
    obtain ⟨y, rfl⟩ := hnm
    rw [show (q + 1) * (n * y) = n * ((q + 1) * y) by ring]
    apply Nat.mul_le_mul_left
    apply Nat.succ_le_of_lt
    rw [Nat.div_lt_iff_lt_mul hn, show (q + 1) * y * n = q * (n * y) + n * y by ring]
    omega
  have e1 := h4 q r hq hrm hle
  have e2 := h4' q r hq' hrm hle
  rw [List.getElem?_eq_getElem hq, Option.bind_some, List.getElem?_eq_getElem hr] at e1
  rw [List.getElem?_eq_getElem hq', Option.bind_some, List.getElem?_eq_getElem hr'] at e2
  exact Option.some.inj (e1.trans e2.symm)

end A2C

/-- A walk that pays 1 for each step and never ends. -/
def walk : Gym Nat Nat Nat ℚ := ⟨fun _ => (0, 0), fun s _ => (s + 1, ⟨s + 1, 1, false, false⟩)⟩

/-- Two walks, of which the second is asked for its state. -/
def exWalks : TrainBatch.World Nat Nat ℚ Int String where
  reset := .ok [0, 0]
  iter k :=
    { act := .ok [k, k], step := .ok [⟨k % 2 + 1, 1, false, false⟩, ⟨k % 2 + 1, 1, false, false⟩], observe := .ok ()
      checkpoint := fun _ => .ok (), hook := fun _ _ => .ok (), evaluate := .ok (none, 0), reset := .ok [if k % 2 == 1 then 0 else 1, if k % 2 == 1 then 0 else 1] }
  saveExcept := .ok ()
  closeEnv := .ok ()
  closeEvalEnv := .ok ()
  saveFinish := .ok ()

/-- The hypotheses are met by a run of two walks limited to two steps by `max_episode_len`. -/
example : Served 1 walk.call 7 (TrainBatch.run (exTrain (some 2)) exWalks).1 ∧ Endless walk ∧ (exTrain (some 2)).stepOffset = 0 := by
  refine ⟨?_, fun _ _ => ⟨rfl, rfl⟩, rfl⟩
  unfold Served StepLimits.Served
  decide +kernel

example : ∀ e ∈ (TrainBatch.run (exTrain (some 2)) exWalks).1, Sized 2 e := by
  have : (TrainBatch.run (exTrain (some 2)) exWalks).1.all (fun e => match e with
      | .reset _ o => o.length == 2 | .act _ a => a.length == 2 | .step _ o => o.length == 2 | _ => true) = true := by decide +kernel
  intro e he
  have := List.all_eq_true.1 this e he
  cases e <;> simpa [Sized] using this

/-- There, with a discount of 1/2, every step has a true value of 2, but the targets of the second walk are 3/2 and 1, even if the value function
is right. -/
example : (driveA2C ((1 : ℚ) / 2) none 2 0 1 (fun _ _ => 2) (TrainBatch.run (exTrain (some 2)) exWalks).1).toOption.map (·.2) =
    some [[3 / 2, 1], [3 / 2, 1]] := by decide +kernel

end Verif.BatchLimits
