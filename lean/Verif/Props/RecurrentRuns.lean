import Verif.Props.RecurrentEpochs
import Verif.Props.TrainBatchCalls
set_option autoImplicit false
set_option linter.unusedSectionVars false

/-! # C179 in whole training runs -/

namespace Verif.RecurrentEpochs
open TrainBatchCalls (history ppoCalls calls)
open TrainBatchDQN (Sized)
variable {θ O A R S X α : Type} [Zero S] [LinearOrder S]

/-- What becomes of an update with a dataset whose size is `size`: whole passes, or `IndexError` in the first epoch. -/
def Outcome (adv : α → ℝ) (standardize : Bool) (n k size : Nat) (shuffle : Nat → List (List α) → List (List α)) (maxLen : Option Nat)
    (episodes : List (List α)) : Prop :=
  (n ∣ size → ∃ us : List (List (List (List α))), ppo adv standardize n k shuffle maxLen episodes = (us.flatten, none) ∧ us.length = k ∧
      ∀ u ∈ us, Pass n maxLen episodes u) ∧
    (¬ n ∣ size → 0 < k → ∃ us, ppo adv standardize n k shuffle maxLen episodes = (us, some .indexError) ∧ us.length = size / n)

theorem rounds_history (n : Nat) (pend : Option (List O × List A)) (hp : ∀ p ∈ pend, p.1.length = n ∧ p.2.length = n) :
    ∀ (rounds : List (List (DQN.EnvRound θ O A R))), (∀ r ∈ rounds, r.length = n) →
      Rounds n (ppoCalls (history rounds pend)) ∧ observes (ppoCalls (history rounds pend)) = rounds.length
  | [], _ => by
    rw [TrainBatchCalls.ppoCalls_history]
    cases pend with
    | none => exact ⟨.nil, rfl⟩
    | some p => exact ⟨.act _ (by simp [hp p rfl]), rfl⟩
  | r :: rounds, hs => by
    obtain ⟨h1, h2⟩ := rounds_history n pend hp rounds fun r hr => hs r (by simp [hr])
    rw [TrainBatchCalls.ppoCalls_history] at h1 h2 ⊢
    refine ⟨.round _ _ _ (by simp [hs r]) (by simp [hs r]) h1, ?_⟩
    rw [List.length_cons, ← h2]
    simp only [List.flatMap_cons, List.cons_append, List.nil_append, List.append_assoc]
    simp [observes]

/-- The rounds told to the agent are the calls of `batch_observe_and_train`. -/
theorem observes_calls (l : List (TrainBatch.Ev O A R S)) : observes (ppoCalls (calls l)) = observed l := by
  induction l with
  | nil => rfl
  | cons e l ih =>
    have h1 : calls (e :: l) = calls [e] ++ calls l := by
      unfold calls
      rw [← List.filterMap_append]
      rfl
    have h2 : ∀ a b : List (TrainBatchCalls.Call O A R), observes (ppoCalls (a ++ b)) = observes (ppoCalls a) + observes (ppoCalls b) := by
      intro a b
      unfold ppoCalls observes
      rw [List.map_append, List.countP_append]
    have h3 : observed (e :: l) = observed [e] + observed l := by
      unfold observed
      rw [← List.countP_append]
      rfl
    rw [h1, h2, h3, ih]
    congr 1
    cases e <;> rfl

/-- C179: at every point of a run of `train_agent_batch` with `N` environments, the updates made are as many as whole multiples of the rounded interval
are in the `N` steps of each round, each has that many transitions, and its outcome depends on whether `minibatch_size` divides it. -/
theorem C179_run_batch (c : TrainBatch.Cfg S) (hc : 0 < c.numEnvs) (w : TrainBatch.World O A R S X) (U n k : Nat) (hU : 1 ≤ U) (hn : 0 < n)
    (pre post : List (TrainBatch.Ev O A R S)) (hrun : (TrainBatch.run c w).1 = pre ++ post) (hs : ∀ e ∈ pre, Sized c.numEnvs e) :
    ∃ s ds, TrainBatchCalls.drivePPO U pre = .ok (s, ds) ∧ ds.length = observed pre * c.numEnvs / roundUp U c.numEnvs ∧
      ∀ d ∈ ds, d.size = roundUp U c.numEnvs ∧
        ∀ (adv : α → ℝ) (standardize : Bool) (shuffle : Nat → List (List α) → List (List α)) (maxLen : Option Nat) (episodes : List (List α)),
          (∀ i l, (shuffle i l).Perm l) → (∀ m, maxLen = some m → 0 < m) → episodes.map List.length = d.map (fun e => e.2.length) →
          (standardize = true → ∃ x ∈ episodes.flatten, ∃ y ∈ episodes.flatten, adv x ≠ adv y) →
          Outcome adv standardize n k (roundUp U c.numEnvs) shuffle maxLen episodes := by
  obtain ⟨rounds, pend, h⟩ := TrainBatchCalls.tells c hc w (fun _ _ => ()) pre post hrun hs
  obtain ⟨s, ds, hr⟩ := PPOData.C50_no_error U c.numEnvs _ (TrainBatchCalls.legal_rounds c.numEnvs pend h.pend rounds h.size)
  obtain ⟨h1, -⟩ := rounds_history c.numEnvs pend h.pend rounds h.size
  refine ⟨s, ds, by rw [TrainBatchCalls.drivePPO, h.calls, hr], ?_, fun d hd => ⟨C179_vector_size U _ hU hc _ h1 s ds hr d hd, ?_⟩⟩
  · rw [C179_updates_vector U _ hU hc _ h1 s ds hr, ← observes_calls, h.calls]
  · intro adv standardize shuffle maxLen episodes hsh hm he ha
    refine ⟨(C179_training adv standardize U _ n k hU hc hn shuffle hsh maxLen hm _ (.inl h1) s ds hr d hd episodes he ha).1, fun hnd hk => ?_⟩
    obtain ⟨k', rfl⟩ : ∃ k', k = k' + 1 := ⟨k - 1, by omega⟩
    exact (C179_training adv standardize U _ n k' hU hc hn shuffle hsh maxLen hm _ (.inl h1) s ds hr d hd episodes he ha).2 hnd

/-- C179: the same for `train_agent`: an update after every `update_interval` steps whose outcome the agent knows, of exactly these steps. -/
theorem C179_run [Zero R] (c : Train.Cfg S) (w : Train.World O A R S X) (U n k : Nat) (hU : 1 ≤ U) (hn : 0 < n)
    (pre post : List (Train.Ev O A R S)) (hrun : (Train.run c w).1 = pre ++ post) :
    ∃ s ds, TrainCalls.drivePPO U pre = .ok (s, ds) ∧
      ds.length = ((TrainDQN.known pre).1.flatten.length + (TrainDQN.known pre).2.length) / U ∧
      ∀ d ∈ ds, d.size = U ∧
        ∀ (adv : α → ℝ) (standardize : Bool) (shuffle : Nat → List (List α) → List (List α)) (maxLen : Option Nat) (episodes : List (List α)),
          (∀ i l, (shuffle i l).Perm l) → (∀ m, maxLen = some m → 0 < m) → episodes.map List.length = d.map (fun e => e.2.length) →
          (standardize = true → ∃ x ∈ episodes.flatten, ∃ y ∈ episodes.flatten, adv x ≠ adv y) →
          Outcome adv standardize n k U shuffle maxLen episodes := by
  obtain ⟨s, ds, hr, h1, h2⟩ := TrainCalls.C123_ppo_updates c w U hU pre post hrun
  refine ⟨s, ds, hr, h2, fun d hd => ⟨h1 d hd, ?_⟩⟩
  intro adv standardize shuffle maxLen episodes hsh hm he ha
  have hb : Rounds 1 (TrainCalls.ppoCalls (TrainCalls.calls pre)) ∨ 1 = 1 ∧ ∀ rows, PPOData.Call.batchObserve rows ∉ TrainCalls.ppoCalls (TrainCalls.calls pre) := by
    refine .inr ⟨rfl, fun rows hm => ?_⟩
    obtain ⟨x, -, hx⟩ := List.mem_map.1 hm
    cases x <;> cases hx
  refine ⟨fun hd' => ?_, fun hnd hk => ?_⟩
  · exact (C179_training adv standardize U 1 n k hU (le_refl 1) hn shuffle hsh maxLen hm _ hb s ds hr d hd episodes he ha).1 (by rwa [roundUp_one])
  · obtain ⟨k', rfl⟩ : ∃ k', k = k' + 1 := ⟨k - 1, by omega⟩
    have := (C179_training adv standardize U 1 n k' hU (le_refl 1) hn shuffle hsh maxLen hm _ hb s ds hr d hd episodes he ha).2 (by rwa [roundUp_one])
    rwa [roundUp_one] at this

/-- Witness: the run of `Props/TrainBatchCalls.lean` with two environments, three rounds and an interval of 3 has one update, with four transitions. -/
example : observed TrainBatchCalls.exEvents = 3 ∧ 3 * 2 / roundUp 3 2 = 1 ∧ roundUp 3 2 = 4 := by decide +kernel

example : ∃ s ds, TrainBatchCalls.drivePPO 3 TrainBatchCalls.exEvents = .ok (s, ds) ∧ ds.map (fun d => d.size) = [4] := ⟨_, _, rfl, by decide +kernel⟩

/-- C179, in terms of the parameters: if `minibatch_size` divides `update_interval`, as in all example scripts, and there are no more environments than
transitions in a minibatch, updates make whole passes exactly if the number of environments divides `update_interval`. -/
theorem C179_when (U N n : Nat) (hN : 1 ≤ N) (hd : n ∣ U) (hNn : N ≤ n) : n ∣ roundUp U N ↔ N ∣ U := by
  have h1 := roundUp_ge U N hN
  have h2 : roundUp U N < U + N := by
    unfold roundUp
    have := Nat.mul_div_le (U + N - 1) N
    omega
  have h3 : N ∣ roundUp U N := ⟨_, rfl⟩
  constructor
  · intro h
    have h4 : n ∣ roundUp U N - U := Nat.dvd_sub h hd
    have h5 : roundUp U N - U = 0 := Nat.eq_zero_of_dvd_of_lt h4 (by omega)
    rwa [show U = roundUp U N by omega]
  · intro h
    have h4 : N ∣ roundUp U N - U := Nat.dvd_sub h3 h
    have h5 : roundUp U N - U = 0 := Nat.eq_zero_of_dvd_of_lt h4 (by omega)
    rwa [show roundUp U N = U by omega]

/-- `examples/atari/train_ppo_ale.py --recurrent` (lines 32, 63-66) works with its 8 environments, but for example not with `--num-envs 10`. -/
example : 32 * 8 ∣ roundUp (128 * 8) 8 ∧ ¬ 32 * 8 ∣ roundUp (128 * 8) 10 := by decide

theorem ppo_plain (adv : α → ℝ) (n k : Nat) (shuffle : Nat → List (List α) → List (List α)) (maxLen : Option Nat) (episodes : List (List α)) :
    ppo adv false n k shuffle maxLen episodes = trpo n k shuffle maxLen episodes := by
  unfold ppo trpo
  cases cut maxLen episodes with
  | error e => rfl
  | ok ds => simp [stdOk]

/-- C179: the value function of TRPO in a run of `train_agent`. -/
theorem C179_run_trpo [Zero R] (c : Train.Cfg S) (w : Train.World O A R S X) (U n k : Nat) (hU : 1 ≤ U) (hn : 0 < n)
    (pre post : List (Train.Ev O A R S)) (hrun : (Train.run c w).1 = pre ++ post) :
    ∃ s ds, TrainCalls.drivePPO U pre = .ok (s, ds) ∧
      ∀ d ∈ ds, ∀ (shuffle : Nat → List (List α) → List (List α)) (maxLen : Option Nat) (episodes : List (List α)),
        (∀ i l, (shuffle i l).Perm l) → (∀ m, maxLen = some m → 0 < m) → episodes.map List.length = d.map (fun e => e.2.length) →
        (n ∣ U → ∃ us : List (List (List (List α))), trpo n k shuffle maxLen episodes = (us.flatten, none) ∧ us.length = k ∧
            ∀ u ∈ us, Pass n maxLen episodes u) ∧
          (¬ n ∣ U → 0 < k → ∃ us, trpo n k shuffle maxLen episodes = (us, some .indexError) ∧ us.length = U / n) := by
  obtain ⟨s, ds, h1, -, h2⟩ := C179_run (α := α) c w U n k hU hn pre post hrun
  refine ⟨s, ds, h1, fun d hd shuffle maxLen episodes hs hm he => ?_⟩
  have := (h2 d hd).2 (fun _ => 0) false shuffle maxLen episodes hs hm he (by simp)
  unfold Outcome at this
  simp only [ppo_plain] at this
  exact this

/-- C179: the same in a run of `train_agent_batch`. -/
theorem C179_run_batch_trpo (c : TrainBatch.Cfg S) (hc : 0 < c.numEnvs) (w : TrainBatch.World O A R S X) (U n k : Nat) (hU : 1 ≤ U) (hn : 0 < n)
    (pre post : List (TrainBatch.Ev O A R S)) (hrun : (TrainBatch.run c w).1 = pre ++ post) (hs : ∀ e ∈ pre, Sized c.numEnvs e) :
    ∃ s ds, TrainBatchCalls.drivePPO U pre = .ok (s, ds) ∧
      ∀ d ∈ ds, ∀ (shuffle : Nat → List (List α) → List (List α)) (maxLen : Option Nat) (episodes : List (List α)),
        (∀ i l, (shuffle i l).Perm l) → (∀ m, maxLen = some m → 0 < m) → episodes.map List.length = d.map (fun e => e.2.length) →
        (n ∣ roundUp U c.numEnvs → ∃ us : List (List (List (List α))), trpo n k shuffle maxLen episodes = (us.flatten, none) ∧ us.length = k ∧
            ∀ u ∈ us, Pass n maxLen episodes u) ∧
          (¬ n ∣ roundUp U c.numEnvs → 0 < k →
            ∃ us, trpo n k shuffle maxLen episodes = (us, some .indexError) ∧ us.length = roundUp U c.numEnvs / n) := by
  obtain ⟨s, ds, h1, -, h2⟩ := C179_run_batch (α := α) c hc w U n k hU hn pre post hrun hs
  refine ⟨s, ds, h1, fun d hd shuffle maxLen episodes hsh hm he => ?_⟩
  have := (h2 d hd).2 (fun _ => 0) false shuffle maxLen episodes hsh hm he (by simp)
  unfold Outcome at this
  simp only [ppo_plain] at this
  exact this

end Verif.RecurrentEpochs
