import Verif.Props.StepLimits
import Verif.Props.TrainCalls
import Verif.Props.TrainSyncCalls
set_option autoImplicit false
set_option linter.unusedSectionVars false

/-! # C172: what the other agents make of step limits in a training run -/

namespace Verif.StepLimits
open DQN (EnvStep)
open TrainDQN (Record record known entriesOf)
open TrainCalls (chosen ppoStep driveAC drivePPO driveReinforce losses means episodeLoss)
open TrainSyncCalls (drivePGT driveNStep)
open Wrappers (Gym timeLimit stepLimited)
variable {θ O A K S E X Y : Type}

/-- With a limit that the agent sees as a reset, the steps an agent has been told of are those of the environment inside. -/
theorem known_own (n : Nat) (c : Train.Cfg S) (g : Gym E O A K) (s : E) (run pre post : List (Train.Ev O A K S)) (hrun : run = pre ++ post)
    (h : (c.maxEpisodeLen = some n ∧ Served g.call s run) ∨ Served (timeLimit g n) (none, s) run) : known pre = known (asIf g s pre) := by
  rw [hrun] at h
  rcases h with ⟨-, h⟩ | h
  · rw [asIf_served g pre s h.prefix]
  · have hr : record pre = record (asIf g s pre) := record_timeLimit g n pre none s {} h.prefix
    rw [known_congr (asIf g s pre) pre id (fun _ => rfl) (asIf_filter g pre s) (by rw [hr]; simp) (by rw [hr]; rfl) rfl]
    simp

theorem known_limited (n : Nat) (g : Gym E O A K) (s : E) (run pre post : List (Train.Ev O A K S)) (hrun : run = pre ++ post)
    (h : Served (stepLimited g n) (1, s) run) : known pre = ((known (asIf g s pre)).1.map (cut n), cut n (known (asIf g s pre)).2) := by
  rw [hrun] at h
  obtain ⟨h3, h4⟩ := record_stepLimited g n pre 1 s {} {} h.prefix rfl rfl rfl (by simp)
  rw [known_congr (asIf g s pre) pre (cut n) (cut_dropLast n) (asIf_filter g pre s) h3 h4 rfl]

theorem known_endless (g : Gym E O A K) (hg : Endless g) (s : E) (pre : List (Train.Ev O A K S)) (ep : List (EnvStep O A K))
    (hep : ep ∈ (known (asIf g s pre)).2 :: (known (asIf g s pre)).1) (x : EnvStep O A K) (hx : x ∈ ep) : x.terminal = false := by
  have hr := endless_steps g hg pre s {} (by simp)
  have : ∃ ep' ∈ (record (asIf g s pre)).current :: (record (asIf g s pre)).finished, x ∈ ep' := by
    unfold known at hep
    split at hep
    · rcases List.mem_cons.1 hep with rfl | hep
      · simp at hx
      · rcases List.mem_append.1 hep with hep | hep
        · exact ⟨ep, List.mem_cons_of_mem _ hep, hx⟩
        · rw [List.mem_singleton.1 hep] at hx; exact ⟨_, List.mem_cons_self, hx⟩
    · rcases List.mem_cons.1 hep with rfl | hep
      · exact ⟨_, List.mem_cons_self, List.mem_of_mem_dropLast hx⟩
      · exact ⟨ep, List.mem_cons_of_mem _ hep, hx⟩
    · rcases List.mem_cons.1 hep with rfl | hep
      · exact ⟨_, List.mem_cons_self, hx⟩
      · exact ⟨ep, List.mem_cons_of_mem _ hep, hx⟩
  obtain ⟨ep', hep', hx'⟩ := this
  exact hr ep' hep' x hx'

section Actor
variable [Zero K] [LinearOrder S]

/-- **C172**: DDPG, TD3 and SoftActorCritic: with `max_episode_len` or `ContinuingTimeLimit` the buffer holds what happened in the environment
inside, with its own terminal flags. -/
theorem C172_actor_critic (n : Nat) (c : Train.Cfg S) (w : Train.World O A K S X) (g : Gym E O A K) (s : E)
    (h : (c.maxEpisodeLen = some n ∧ Served g.call s (Train.run c w).1) ∨ Served (timeLimit g n) (none, s) (Train.run c w).1)
    (d : ActorCritic.Args) (hd : ActorCritic.Good d) (cap : Option Nat) (k : Nat) (hk : 0 < k) (cands : Nat → Bool → A)
    (pre post : List (Train.Ev O A K S)) (hrun : (Train.run c w).1 = pre ++ post) :
    ∃ s' ev, driveAC d cap k c.stepOffset cands pre = .ok (s', ev) ∧
      (ActorCritic.returned ev = chosen pre →
        TrainCalls.stored s'.buf = BoundedList.newest cap (entriesOf k (known (asIf g s pre))) ∧
        (Endless g → ∀ e ∈ TrainCalls.stored s'.buf, ∀ x ∈ e, x.terminal = false)) := by
  obtain ⟨s', ev, h1, h2⟩ := TrainCalls.C123_actor_critic c w d hd cap k hk cands pre post hrun
  refine ⟨s', ev, h1, fun hr => ?_⟩
  have h3 := h2 hr
  rw [known_own n c g s _ pre post hrun h] at h3
  refine ⟨h3, fun hg e he x hx => ?_⟩
  rw [h3] at he
  obtain ⟨ep, hep, hx⟩ := mem_entries k _ e (mem_newest _ _ _ he) x hx
  exact known_endless g hg s pre ep hep x hx

/-- **C172**: PPO and TRPO: with `max_episode_len` or `ContinuingTimeLimit` the steps in the datasets and in the memory are those of the environment
inside, with its own terminal flags; if it never ends an episode, no transition counts as terminal, so every advantage bootstraps. -/
theorem C172_ppo (n : Nat) (c : Train.Cfg S) (w : Train.World O A K S X) (g : Gym E O A K) (s : E)
    (h : (c.maxEpisodeLen = some n ∧ Served g.call s (Train.run c w).1) ∨ Served (timeLimit g n) (none, s) (Train.run c w).1)
    (interval : Nat) (pre post : List (Train.Ev O A K S)) (hrun : (Train.run c w).1 = pre ++ post) :
    ∃ st ds, drivePPO interval pre = .ok (st, ds) ∧
      (∃ rest, ((ds.flatten ++ st.memory).flatMap Prod.snd).map ppoStep ++ rest = (known (asIf g s pre)).1.flatten ++ (known (asIf g s pre)).2) ∧
      (Endless g → ∀ dset ∈ ds, ∀ ep ∈ dset, ∀ x ∈ ep.2, x.done = false) := by
  obtain ⟨st, ds, h1, groups, op, rc, h2, h3, h4⟩ := TrainCalls.C123_ppo c w interval pre post hrun
  rw [known_own n c g s _ pre post hrun h] at h3 h4
  have e1 : ((ds.flatten ++ st.memory).flatMap Prod.snd) = groups.flatten.flatten ++ op.flatten := by
    rw [List.flatMap_def, h2, List.flatten_append]
  have e2 : (groups.flatten.flatten).map ppoStep = (known (asIf g s pre)).1.flatten := by
    rw [← h3, List.flatten_flatten, List.map_flatten]
  have e3 : ((ds.flatten ++ st.memory).flatMap Prod.snd).map ppoStep ++ rc.map ppoStep =
      (known (asIf g s pre)).1.flatten ++ (known (asIf g s pre)).2 := by
    rw [e1, List.map_append, e2, ← h4, List.map_append, List.append_assoc]
  refine ⟨st, ds, h1, ⟨_, e3⟩, fun hg dset hd ep hep x hx => ?_⟩
  have hm : ppoStep x ∈ (known (asIf g s pre)).1.flatten ++ (known (asIf g s pre)).2 := by
    rw [← e3]
    refine List.mem_append_left _ (List.mem_map_of_mem (List.mem_flatMap.2 ⟨ep, List.mem_append_left _ (List.mem_flatten.2 ⟨dset, hd, hep⟩), hx⟩))
  rcases List.mem_append.1 hm with hm | hm
  · obtain ⟨e, he, hx'⟩ := List.mem_flatten.1 hm
    exact known_endless g hg s pre e (List.mem_cons_of_mem _ he) (ppoStep x) hx'
  · exact known_endless g hg s pre _ List.mem_cons_self (ppoStep x) hm

/-- **C172**: with `make_timestep_limited` PPO and TRPO are told ends that did not happen: the `n`-th step of each episode is terminal in their
data, whatever the environment inside says. -/
theorem C172_violated_ppo_limited (n : Nat) (c : Train.Cfg S) (w : Train.World O A K S X) (g : Gym E O A K) (s : E)
    (h : Served (stepLimited g n) (1, s) (Train.run c w).1) (interval : Nat) (pre post : List (Train.Ev O A K S)) (hrun : (Train.run c w).1 = pre ++ post) :
    ∃ st ds, drivePPO interval pre = .ok (st, ds) ∧
      ∃ rest, ((ds.flatten ++ st.memory).flatMap Prod.snd).map ppoStep ++ rest =
        ((known (asIf g s pre)).1.map (cut n)).flatten ++ cut n (known (asIf g s pre)).2 := by
  obtain ⟨st, ds, h1, groups, op, rc, h2, h3, h4⟩ := TrainCalls.C123_ppo c w interval pre post hrun
  rw [known_limited n g s _ pre post hrun h] at h3 h4
  refine ⟨st, ds, h1, rc.map ppoStep, ?_⟩
  simp only at h3 h4
  rw [List.flatMap_def, h2, List.flatten_append, List.map_append, ← h4, ← h3, List.map_append, List.append_assoc, List.flatten_flatten, List.map_flatten]

end Actor

section Returns
variable [Field K] [LinearOrder S]

theorem losses_none (beta : K) (logp ent : Nat → K) (eps : List (List (EnvStep O A K))) (h : ∀ ep ∈ eps, ∀ x ∈ ep, x.terminal = false) :
    ∀ k, losses beta logp ent k eps = [] := by
  induction eps with
  | nil => intro k; rfl
  | cons ep eps ih =>
    intro k
    have : ep.getLast?.map (·.terminal) ≠ some true := by
      intro hl
      obtain ⟨x, hx, ht⟩ := Option.map_eq_some_iff.1 hl
      rw [h ep List.mem_cons_self x (List.mem_of_getLast? hx)] at ht
      cases ht
    simp [losses, this, ih (fun e he => h e (List.mem_cons_of_mem _ he))]

/-- **C172**: REINFORCE: if the environment never ends an episode, then with `max_episode_len` or `ContinuingTimeLimit` it never makes an update,
however long the training. -/
theorem C172_reinforce_starves (n : Nat) (c : Train.Cfg S) (w : Train.World O A K S X) (g : Gym E O A K) (hg : Endless g) (s : E)
    (h : (c.maxEpisodeLen = some n ∧ Served g.call s (Train.run c w).1) ∨ Served (timeLimit g n) (none, s) (Train.run c w).1)
    (d : Reinforce.Cfg K) (hd : 1 ≤ d.batchsize) (logp ent : Nat → K) (pre post : List (Train.Ev O A K S)) (hrun : (Train.run c w).1 = pre ++ post) :
    ∃ st, driveReinforce d logp ent pre = .ok (st, []) := by
  obtain ⟨st, h1⟩ := TrainCalls.C123_reinforce c w d hd logp ent pre post hrun
  rw [known_own n c g s _ pre post hrun h,
    losses_none _ _ _ _ fun ep hep x hx => known_endless g hg s pre ep (List.mem_cons_of_mem _ hep) x hx] at h1
  exact ⟨st, by simpa [means] using h1⟩

theorem losses_cut (n : Nat) (hn : 0 < n) (beta : K) (logp ent : Nat → K) (eps : List (List (EnvStep O A K))) (h : ∀ ep ∈ eps, ∀ x ∈ ep, x.terminal = false) :
    ∀ k, (losses beta logp ent k (eps.map (cut n))).length = eps.countP fun ep => decide (n ≤ ep.length) := by
  induction eps with
  | nil => intro k; rfl
  | cons ep eps ih =>
    intro k
    have key : ((cut n ep).getLast?.map (·.terminal) = some true) ↔ n ≤ ep.length := by
      rcases List.eq_nil_or_concat ep with rfl | ⟨l, x, rfl⟩
      · simp [cut]; omega
      · have hx := h _ List.mem_cons_self x (by simp)
        rw [List.concat_eq_append] at *
        rw [cut_concat]
        simp [hx]
    rw [List.map_cons, losses, List.length_append, ih (fun e he => h e (List.mem_cons_of_mem _ he)), List.countP_cons]
    by_cases hl : n ≤ ep.length
    · rw [if_pos (key.2 hl)]; simp [hl]; omega
    · rw [if_neg (fun hh => hl (key.1 hh))]; simp [hl]

/-- **C172**: REINFORCE with `make_timestep_limited` in such an environment makes one update for each `batchsize` episodes that reach the limit. -/
theorem C172_reinforce_limited (n : Nat) (hn : 0 < n) (c : Train.Cfg S) (w : Train.World O A K S X) (g : Gym E O A K) (hg : Endless g) (s : E)
    (h : Served (stepLimited g n) (1, s) (Train.run c w).1)
    (d : Reinforce.Cfg K) (hd : 1 ≤ d.batchsize) (logp ent : Nat → K) (pre post : List (Train.Ev O A K S)) (hrun : (Train.run c w).1 = pre ++ post) :
    ∃ st us, driveReinforce d logp ent pre = .ok (st, us) ∧ us.length = ((known pre).1.countP fun ep => decide (n ≤ ep.length)) / d.batchsize := by
  obtain ⟨st, h1⟩ := TrainCalls.C123_reinforce c w d hd logp ent pre post hrun
  have hk := known_limited n g s _ pre post hrun h
  refine ⟨st, _, h1, ?_⟩
  rw [hk]
  simp only [means, List.length_map, List.length_range]
  rw [losses_cut n hn _ _ _ _ (fun ep hep x hx => known_endless g hg s pre ep (List.mem_cons_of_mem _ hep) x hx)]
  congr 1
  rw [List.countP_map]
  congr 1
  funext ep
  simp [cut]

/-- **C172**: A3C and NSQ from step 0: in an environment that never ends an episode, with `max_episode_len` or `ContinuingTimeLimit`, the last rollout of
every episode bootstraps from the network's value in the call that ended the episode. -/
theorem C172_nstep (n : Nat) (c : Train.Cfg S) (h0 : c.stepOffset = 0) (w : Train.World O A K S X) (g : Gym E O A K) (hg : Endless g) (s : E)
    (h : (c.maxEpisodeLen = some n ∧ Served g.call s (Train.run c w).1) ∨ Served (timeLimit g n) (none, s) (Train.run c w).1)
    (gamma : K) (tMax : Nat) (htm : 1 ≤ tMax) (boot : Nat → K) (x : Nat → Y) (pre post : List (Train.Ev O A K S)) (hrun : (Train.run c w).1 = pre ++ post) :
    ∃ st uss tail, driveNStep gamma tMax c.stepOffset boot x pre = .ok (st, uss.flatten ++ tail) ∧
      List.Forall₂ (fun (e : NStepAgent.Episode Y K) ups => ∃ us, NStepAgent.Rollouts tMax e.boot e.steps us ∧
          ups = us.map fun u => (NStepAgent.returnsOf gamma u.2 u.1).reverse)
        (TrainAsyncCalls.nEpisodes boot x 0 (known (asIf g s pre)).1) uss := by
  obtain ⟨st, uss, tail, h1, h2, -⟩ := TrainSyncCalls.C166_nstep c h0 w gamma tMax htm boot x pre post hrun
  refine ⟨st, uss, tail, h1, ?_⟩
  rw [known_own n c g s _ pre post hrun h] at h2
  have hf : ∀ (eps : List (List (EnvStep O A K))) k, (∀ ep ∈ eps, ∀ x ∈ ep, x.terminal = false) →
      ∀ e ∈ TrainAsyncCalls.nEpisodes boot x k eps, e.done = false := by
    intro eps
    induction eps with
    | nil => intro k _ e he; simp [TrainAsyncCalls.nEpisodes] at he
    | cons ep eps ih =>
      intro k hall e he
      rcases List.mem_cons.1 he with rfl | he
      · simp only [TrainAsyncCalls.nEpisode]
        rcases hl : ep.getLast? with _ | y
        · rfl
        · simpa using hall ep List.mem_cons_self y (List.mem_of_getLast? hl)
      · exact ih _ (fun e he => hall e (List.mem_cons_of_mem _ he)) e he
  have hd := hf (known (asIf g s pre)).1 0 fun ep hep x hx => known_endless g hg s pre ep (List.mem_cons_of_mem _ hep) x hx
  refine List.Forall₂.imp ?_ ((List.forall₂_iff_zip.2 ⟨List.Forall₂.length_eq h2, fun {a b} hab => ?_⟩ :
    List.Forall₂ (fun e ups => e.done = false ∧ TrainAsyncCalls.NUpdates gamma tMax e ups) _ _))
  · rintro e ups ⟨hed, us, hr, hu⟩
    refine ⟨us, ?_, hu⟩
    simpa [NStepAgent.Episode.endValue, hed] using hr
  · exact ⟨hd _ (List.of_mem_zip hab).1, (List.forall₂_iff_zip.1 h2).2 hab⟩

/-- **C172**: PGT: the same for its replay buffer. -/
theorem C172_pgt (n : Nat) (c : Train.Cfg S) (w : Train.World O A K S X) (g : Gym E O A K) (s : E)
    (h : (c.maxEpisodeLen = some n ∧ Served g.call s (Train.run c w).1) ∨ Served (timeLimit g n) (none, s) (Train.run c w).1)
    (d : PGT.Args K) (hd : PGT.Good d) (cap : Option Nat) (k : Nat) (hk : 0 < k) (q : Nat → K)
    (pre post : List (Train.Ev O A K S)) (hrun : (Train.run c w).1 = pre ++ post) :
    ∃ s' ev, drivePGT d cap k c.stepOffset q pre = .ok (s', ev) ∧
      TrainCalls.stored s'.buf = BoundedList.newest cap (entriesOf k (known (asIf g s pre))) := by
  obtain ⟨s', ev, h1, -, h2⟩ := TrainSyncCalls.C166_pgt c w d hd cap k hk q pre post hrun
  exact ⟨s', ev, h1, by rw [h2, known_own n c g s _ pre post hrun h]⟩

end Returns

/-- The hypotheses are met by the run of the treadmill under a time limit of two steps (see C169). -/
example (pre post : List (Train.Ev Unit Unit ℝ ℤ)) (h : (Train.run exTrain exWorld').1 = pre ++ post) :
    ∃ st, driveReinforce (⟨0, 1, false⟩ : Reinforce.Cfg ℝ) (fun _ => 0) (fun _ => 0) pre = .ok (st, []) :=
  C172_reinforce_starves 2 exTrain exWorld' treadmill (fun _ _ => ⟨rfl, rfl⟩) () (Or.inr rfl) _ (le_refl _) _ _ pre post h

end Verif.StepLimits
