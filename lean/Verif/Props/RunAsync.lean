import Verif.Model.RunAsync
import Mathlib.Tactic.ByContra
set_option autoImplicit false
set_option linter.unusedSectionVars false

/-! # C107: `set_random_seed`, `run_async` and the workers of `train_agent_async` -/

namespace Verif.RunAsync
variable {R N C : Type}

/-! ### Seeding -/

theorem seedGpus_eq (a : Algo R N C) (seed : Int) : ∀ (gpus : List Int) (f : Nat → C) (i : Nat),
    seedGpus a seed gpus f i = if (i : Int) ∈ gpus then a.cupy seed else f i
  | [], f, i => by simp [seedGpus]
  | g :: gs, f, i => by
    rw [seedGpus, seedGpus_eq a seed gs]
    by_cases h : (i : Int) ∈ gs
    · simp [h]
    · simp only [h, if_false, List.mem_cons, or_false]
      by_cases hg : g ≥ 0
      · simp only [hg, if_true]
        by_cases hi : i = g.toNat
        · rw [if_pos hi, if_pos (by omega)]
        · rw [if_neg hi, if_neg (by omega)]
      · rw [if_neg hg, if_neg (by omega)]

/-- **C107**: after `set_random_seed(seed, gpus)` the generators of `random`, `numpy` and the devices listed, and
`CHAINER_SEED`, are determined by the seed, whatever was drawn or seeded before; other devices are left alone. -/
theorem C107_seed (a : Algo R N C) (seed : Int) (h0 : 0 ≤ seed) (h1 : seed < 2 ^ 32) (gpus : List Int)
    (g : Gens R N C) :
    ∃ g', setRandomSeed a seed gpus g = .ok g' ∧ g'.random = a.random seed ∧ g'.numpy = a.numpy seed ∧
      g'.chainerSeed = some seed ∧ (∀ i : Nat, (i : Int) ∈ gpus → g'.cupy i = a.cupy seed) ∧
      ∀ i : Nat, (i : Int) ∉ gpus → g'.cupy i = g.cupy i :=
  ⟨_, if_pos ⟨h0, by omega⟩, rfl, rfl, rfl, fun i hi => by
      show seedGpus a seed gpus g.cupy i = _
      rw [seedGpus_eq, if_pos hi],
    fun i hi => by
      show seedGpus a seed gpus g.cupy i = _
      rw [seedGpus_eq, if_neg hi]⟩

/-- **C107**: seeds out of range are rejected. -/
theorem C107_seed_range (a : Algo R N C) (seed : Int) (h : seed < 0 ∨ 2 ^ 32 ≤ seed) (gpus : List Int) (g : Gens R N C) :
    setRandomSeed a seed gpus g = .error .valueError := by
  refine if_neg ?_
  rintro ⟨h0, h1⟩
  omega

/-! ### Processes -/

theorem childGens_eq (a : Algo R N C) (g : Gens R N C) : childGens a g =
    if 0 ≤ ((a.randint g.numpy).1 : Int) ∧ (a.randint g.numpy).1 < 2 ^ 32 then
      .ok ⟨a.random (a.randint g.numpy).1, a.numpy (a.randint g.numpy).1, g.cupy, some ((a.randint g.numpy).1 : Int)⟩
    else .error .valueError := rfl

attribute [local irreducible] childGens

theorem flatMap_congr' {α β : Type} (f f' : α → List β) : ∀ l : List α, (∀ x ∈ l, f x = f' x) → l.flatMap f = l.flatMap f'
  | [], _ => rfl
  | x :: l, h => by
    rw [List.flatMap_cons, List.flatMap_cons, h x (by simp), flatMap_congr' f f' l fun y hy => h y (by simp [hy])]

/-- What is always true. -/
structure Inv (a : Algo R N C) (n : Nat) (g : Gens R N C) (s : State R N C) : Prop where
  gens : s.gens = g
  forked : ∀ i g', s.children i = .forked g' → g' = g
  inFunc : ∀ i g', s.children i = .inFunc g' → childGens a g = .ok g'
  pc : match s.pc with
    | .start k => k ≤ n ∧ s.warnings = [] ∧ ∀ i, i < k ↔ s.children i ≠ .notStarted
    | .join k => k ≤ n ∧ (∀ i, i < n ↔ s.children i ≠ .notStarted) ∧
        ∃ code : Nat → Int, (∀ i, i < k → s.children i = .exited (code i)) ∧
          s.warnings = (List.range k).flatMap fun i => warn i (code i)
    | .returned => (∀ i, i < n ↔ s.children i ≠ .notStarted) ∧
        ∃ code : Nat → Int, (∀ i, i < n → s.children i = .exited (code i)) ∧
          s.warnings = (List.range n).flatMap fun i => warn i (code i)

theorem inv_change {a : Algo R N C} {n : Nat} {g : Gens R N C} {s : State R N C} (h : Inv a n g s) (i : Nat)
    (c : Child R N C) (hs : (∃ g', s.children i = .forked g') ∨ ∃ g', s.children i = .inFunc g')
    (hc : (∃ g', c = .inFunc g' ∧ childGens a g = .ok g') ∨ ∃ code, c = .exited code) :
    Inv a n g { s with children := fun j => if j = i then c else s.children j } := by
  have hns : s.children i ≠ .notStarted := by rcases hs with ⟨_, h⟩ | ⟨_, h⟩ <;> rw [h] <;> simp
  have hne : ∀ code, s.children i ≠ .exited code := by
    intro code; rcases hs with ⟨_, h⟩ | ⟨_, h⟩ <;> rw [h] <;> simp
  have hcn : c ≠ .notStarted := by rcases hc with ⟨_, rfl, -⟩ | ⟨_, rfl⟩ <;> simp
  have hn : ∀ j, (if j = i then c else s.children j) = .notStarted ↔ s.children j = .notStarted := by
    intro j
    by_cases hj : j = i
    · subst hj; simp [hns, hcn]
    · simp [hj]
  have hkeep : ∀ j code, s.children j = .exited code → (if j = i then c else s.children j) = .exited code := by
    intro j code he
    by_cases hj : j = i
    · subst hj; exact absurd he (hne code)
    · simpa [hj] using he
  refine ⟨h.gens, ?_, ?_, ?_⟩
  · intro j g' hj
    by_cases hji : j = i
    · subst hji
      simp only [if_true] at hj
      rcases hc with ⟨_, rfl, -⟩ | ⟨_, rfl⟩ <;> simp at hj
    · simp only [hji, if_false] at hj
      exact h.forked j g' hj
  · intro j g' hj
    by_cases hji : j = i
    · subst hji
      simp only [if_true] at hj
      rcases hc with ⟨g'', rfl, hg⟩ | ⟨_, rfl⟩
      · cases Child.inFunc.inj hj; exact hg
      · simp at hj
    · simp only [hji, if_false] at hj
      exact h.inFunc j g' hj
  · have hp := h.pc
    split at hp
    · rename_i e
      simp only [e]
      exact ⟨hp.1, hp.2.1, fun j => (hp.2.2 j).trans (not_congr (hn j)).symm⟩
    · rename_i e
      simp only [e]
      obtain ⟨h1, h2, code, h3, h4⟩ := hp
      exact ⟨h1, fun j => (h2 j).trans (not_congr (hn j)).symm, code, fun j hj => hkeep j _ (h3 j hj), h4⟩
    · rename_i e
      simp only [e]
      obtain ⟨h2, code, h3, h4⟩ := hp
      exact ⟨fun j => (h2 j).trans (not_congr (hn j)).symm, code, fun j hj => hkeep j _ (h3 j hj), h4⟩

theorem inv_parent {a : Algo R N C} {n : Nat} {g : Gens R N C} {s s' : State R N C} (h : Inv a n g s)
    (hs : parentStep n s = some s') : Inv a n g s' := by
  obtain ⟨gens, pc, children, warnings⟩ := s
  have hp := h.pc
  unfold parentStep at hs
  cases pc with
  | start k =>
    simp only at hs hp
    obtain ⟨h1, h2, h3⟩ := hp
    split at hs
    · rename_i hk
      injection hs with hs
      subst hs
      refine ⟨h.gens, ?_, ?_, ?_⟩
      · intro j g' hj
        by_cases hji : j = k
        · simp only [hji, if_true] at hj
          injection hj with hj
          rw [← hj]; exact h.gens
        · simp only [hji, if_false] at hj
          exact h.forked j g' hj
      · intro j g' hj
        by_cases hji : j = k
        · simp [hji] at hj
        · simp only [hji, if_false] at hj
          exact h.inFunc j g' hj
      · refine ⟨hk, h2, fun j => ?_⟩
        by_cases hj : j = k
        · subst hj; simp
        · simp only [hj, if_false]
          rw [← h3 j]
          omega
    · rename_i hk
      injection hs with hs
      subst hs
      have : k = n := by omega
      subst this
      exact ⟨h.gens, h.forked, h.inFunc, Nat.zero_le _, h3, fun _ => 0, fun i hi => absurd hi (Nat.not_lt_zero i), h2⟩
  | join k =>
    simp only at hs hp
    obtain ⟨h1, h2, code, h3, h4⟩ := hp
    split at hs
    · rename_i hk
      split at hs
      · rename_i c hc
        injection hs with hs
        subst hs
        refine ⟨h.gens, h.forked, h.inFunc, hk, h2, fun i => if i = k then c else code i, ?_, ?_⟩
        · intro i hi
          by_cases hik : i = k
          · subst hik; simpa using hc
          · simpa [hik] using h3 i (by omega)
        · simp only [List.range_succ, List.flatMap_append, List.flatMap_cons, List.flatMap_nil, List.append_nil, if_true, h4]
          congr 1
          apply flatMap_congr'
          intro i hi
          have : i ≠ k := by have := List.mem_range.1 hi; omega
          simp [this]
      · cases hs
    · rename_i hk
      injection hs with hs
      subst hs
      have : k = n := by omega
      subst this
      exact ⟨h.gens, h.forked, h.inFunc, h2, code, h3, h4⟩
  | returned => cases hs

theorem reach_inv {a : Algo R N C} {n : Nat} {g : Gens R N C} {s : State R N C} (h : Reach a n g s) : Inv a n g s := by
  induction h with
  | init =>
    refine ⟨rfl, ?_, ?_, ?_⟩
    · intro i g' h; cases h
    · intro i g' h; cases h
    · exact ⟨Nat.zero_le _, rfl, fun i => by simp [State.init]⟩
  | step x _ hs ih =>
    cases x with
    | parent => exact inv_parent ih hs
    | enter i =>
      simp only [step] at hs
      split at hs
      · rename_i g' hg
        have hg0 := ih.forked i g' hg
        obtain ⟨o, ho⟩ : ∃ o, childGens a g' = o := ⟨_, rfl⟩
        rw [ho] at hs
        rw [hg0] at ho
        cases o with
        | error e => cases hs
        | ok g'' =>
          injection hs with hs
          subst hs
          exact inv_change ih i _ (Or.inl ⟨g', hg⟩) (Or.inl ⟨g'', rfl, ho⟩)
      · cases hs
    | exit i code =>
      simp only [step] at hs
      split at hs
      · rename_i g' hg
        injection hs with hs
        subst hs
        exact inv_change ih i _ (Or.inl ⟨g', hg⟩) (Or.inr ⟨code, rfl⟩)
      · rename_i g' hg
        injection hs with hs
        subst hs
        exact inv_change ih i _ (Or.inr ⟨g', hg⟩) (Or.inr ⟨code, rfl⟩)
      · cases hs

/-- What `run_async` should say about a process that exited with a code: nothing for 0, the status for a positive one, the
signal for a negative one. -/
def Says (i : Nat) (code : Int) (l : List Warning) : Prop :=
  (code = 0 → l = []) ∧ (0 < code → l = [.status i code]) ∧ (code < 0 → l = [.signal i (-code)])

/-- **C107**: `run_async` returns only after every one of the processes has exited, and has then given exactly one warning
for each that did not exit with status 0, in the order of the processes, with its status or signal. -/
theorem C107_returned (a : Algo R N C) (n : Nat) (g : Gens R N C) (s : State R N C) (h : Reach a n g s)
    (hr : s.pc = .returned) :
    ∃ (code : Nat → Int) (says : Nat → List Warning), (∀ i, i < n → s.children i = .exited (code i)) ∧
      (∀ i, i < n → Says i (code i) (says i)) ∧ s.warnings = (List.range n).flatMap says := by
  have hp := (reach_inv h).pc
  rw [hr] at hp
  obtain ⟨-, code, h1, h2⟩ := hp
  refine ⟨code, fun i => warn i (code i), h1, fun i _ => ⟨fun h => ?_, fun h => ?_, fun h => ?_⟩, h2⟩
  · simp [warn, h]
  · simp [warn, h]
  · show warn i (code i) = _
    unfold warn
    rw [if_neg (by omega), if_pos h]

/-- **C107**: exactly the processes `0..n-1` are ever started, and all of them before the first is waited for, so that
processes may wait for each other. -/
theorem C107_started (a : Algo R N C) (n : Nat) (g : Gens R N C) (s : State R N C) (h : Reach a n g s) :
    (∀ i, n ≤ i → s.children i = .notStarted) ∧
    (∀ k, s.pc = .join k → ∀ i, i < n → s.children i ≠ .notStarted) := by
  have hp := (reach_inv h).pc
  constructor
  · intro i hi
    by_contra hc
    split at hp
    · have := (hp.2.2 i).2 hc
      omega
    · have := (hp.2.1 i).2 hc
      omega
    · have := (hp.1 i).2 hc
      omega
  · intro k hk i hi he
    rw [hk] at hp
    exact (hp.2.1 i).1 hi he

/-- **C107**: unless it has returned, the parent can go on or waits for a started process that has not exited. -/
theorem C107_progress (a : Algo R N C) (n : Nat) (g : Gens R N C) (s : State R N C) (h : Reach a n g s)
    (hr : s.pc ≠ .returned) :
    (∃ s', step a n s .parent = some s') ∨
      ∃ i, i < n ∧ s.pc = .join i ∧ s.children i ≠ .notStarted ∧ ∀ code, s.children i ≠ .exited code := by
  have hp := (reach_inv h).pc
  simp only [step, parentStep]
  cases e : s.pc with
  | returned => exact absurd e hr
  | start k => left; by_cases hk : k < n <;> simp [hk]
  | join k =>
    rw [e] at hp
    by_cases hk : k < n
    · cases hc : s.children k with
      | exited code => left; simp only [if_pos hk, hc]; exact ⟨_, rfl⟩
      | notStarted => exact absurd hc ((hp.2.1 k).1 hk)
      | forked g => right; exact ⟨k, hk, rfl, by simp [hc], by simp [hc]⟩
      | inFunc g => right; exact ⟨k, hk, rfl, by simp [hc], by simp [hc]⟩
    · left; simp [hk]

/-- **C107, violated**: `run_async` draws a seed in each process so that they differ, but all processes inherit the same
generators: every process enters `run_func` with the same seed, and so with the same `random` and `numpy` generators. -/
theorem C107_violated_same_seed (a : Algo R N C) (n : Nat) (g : Gens R N C) (s s' : State R N C) (h : Reach a n g s)
    (h' : Reach a n g s') (i j : Nat) (gi gj : Gens R N C) (hi : s.children i = .inFunc gi)
    (hj : s'.children j = .inFunc gj) : gi = gj := by
  have h1 := (reach_inv h).inFunc i gi hi
  have h2 := (reach_inv h').inFunc j gj hj
  rw [h1] at h2
  injection h2

/-- The state after `k` starts. -/
theorem reach_started (a : Algo R N C) (n : Nat) (g : Gens R N C) : ∀ k, k ≤ n →
    Reach a n g ⟨g, .start k, fun i => if i < k then .forked g else .notStarted, []⟩
  | 0, _ => by
    have := Reach.init (a := a) (n := n) (g := g)
    simpa [State.init] using this
  | k + 1, hk => by
    refine .step .parent (reach_started a n g k (by omega)) ?_
    simp only [step, parentStep, if_pos (show k < n by omega), Option.some.injEq, State.mk.injEq, true_and, and_true]
    funext j
    by_cases hj : j = k
    · subst hj; simp
    · simp only [hj, if_false]
      by_cases hj' : j < k
      · rw [if_pos hj', if_pos (by omega)]
      · rw [if_neg hj', if_neg (by omega)]

/-- The hypotheses of `C107_violated_same_seed` are met: any two of the processes can be in `run_func` at the same time. -/
example (a : Algo R N C) (ha : ∀ x, (a.randint x).1 < 2 ^ 32) (n : Nat) (g : Gens R N C) (i j : Nat) (hi : i < n)
    (hj : j < n) (hij : i ≠ j) : ∃ s gi gj, Reach a n g s ∧ s.children i = .inFunc gi ∧ s.children j = .inFunc gj := by
  obtain ⟨g', hg⟩ : ∃ g', childGens a g = .ok g' :=
    ⟨_, (childGens_eq a g).trans (if_pos ⟨Int.natCast_nonneg _, ha g.numpy⟩)⟩
  have h0 := reach_started a n g n (Nat.le_refl n)
  have h1 : Reach a n g ⟨g, .start n, fun k => if k = i then .inFunc g' else if k < n then .forked g else .notStarted, []⟩ :=
    .step (.enter i) h0 (by simp [step, hi, hg])
  refine ⟨_, g', g', .step (.enter j) h1 (by simp [step, hj, Ne.symm hij, hg]; rfl), ?_, ?_⟩
  · simp [hij]
  · simp

/-! ### Workers -/

/-- **C107, violated**: a worker of `train_agent_async` seeds its generators with its index: whatever seed the user has set,
worker `i` draws the same random numbers (the seed 0 in worker 0, 1 in worker 1, ...). -/
theorem C107_violated_worker_seed (a : Algo R N C) (idx : Nat) (h : idx < 2 ^ 32) (userSeed userSeed' : Int)
    (g g' u u' : Gens R N C) (_ : setRandomSeed a userSeed [] g = .ok u) (_ : setRandomSeed a userSeed' [] g' = .ok u') :
    ∃ w w', workerGens a idx u = .ok w ∧ workerGens a idx u' = .ok w' ∧ w.random = w'.random ∧ w.numpy = w'.numpy ∧
      w.chainerSeed = some (idx : Int) ∧ w'.chainerSeed = some (idx : Int) := by
  have hc : 0 ≤ (idx : Int) ∧ (idx : Int).toNat < 2 ^ 32 := ⟨by omega, h⟩
  have he : ∀ v : Gens R N C, workerGens a idx v = .ok ⟨a.random idx, a.numpy idx, v.cupy, some (idx : Int)⟩ :=
    fun v => by unfold workerGens setRandomSeed; rw [if_pos hc]; rfl
  exact ⟨_, _, he u, he u', rfl, rfl, rfl, rfl⟩

/-- **C107**: every environment a worker makes it closes, once, after training; a worker makes one environment for
training and, if and only if there is an evaluator, another for evaluation. -/
theorem C107_environments (evaluator makeAgent : Bool) (idx : Nat) :
    ∃ before after, runFunc evaluator makeAgent idx = before ++ .trainLoop idx :: after ∧
      (∀ test, before.count (.makeEnv idx test) = after.count (.closeEnv idx test)) ∧
      (before.count (.makeEnv idx false) = 1) ∧
      (before.count (.makeEnv idx true) = if evaluator then 1 else 0) ∧
      (∀ test, after.count (.makeEnv idx test) = 0 ∧ before.count (.closeEnv idx test) = 0) := by
  refine ⟨[.makeEnv idx false] ++ (if evaluator then [.makeEnv idx true] else []) ++
    (if makeAgent then [.makeAgent idx, .attach idx] else []),
    [.closeEnv idx false] ++ (if evaluator then [.closeEnv idx true] else []), ?_, ?_, ?_, ?_, ?_⟩
  · simp [runFunc]
  · intro test; cases test <;> cases evaluator <;> cases makeAgent <;> simp
  · cases evaluator <;> cases makeAgent <;> simp
  · cases evaluator <;> cases makeAgent <;> simp
  · intro test; cases test <;> cases evaluator <;> cases makeAgent <;> simp

/-- **C107**: with neither `agent` nor `make_agent` the call is rejected before anything is made. -/
theorem C107_arguments (agentGiven makeAgent : Bool) :
    setUp agentGiven makeAgent = .error .assertionError ↔ agentGiven = false ∧ makeAgent = false := by
  cases agentGiven <;> cases makeAgent <;> simp [setUp, pyAssert]

/-- **C107**: the attributes of the agent are moved to shared memory exactly once, last before the workers are started, of the given agent or of the one
made for this; a worker that makes its own agent attaches it to the shared memory before it trains, and one that does not has nothing to attach. -/
theorem C107_shared (agentGiven makeAgent : Bool) (calls : List Call) (h : setUp agentGiven makeAgent = .ok calls) :
    (∃ before, calls = before ++ [.share] ∧ .share ∉ before ∧ (agentGiven = false → .makeAgent 0 ∈ before)) ∧
    (∀ evaluator idx, ∃ before after, runFunc evaluator true idx = before ++ [.makeAgent idx, .attach idx, .trainLoop idx] ++ after ∧
      .trainLoop idx ∉ before) ∧
    (∀ evaluator idx, .attach idx ∉ runFunc evaluator false idx ∧ .makeAgent idx ∉ runFunc evaluator false idx) := by
  refine ⟨?_, fun e idx => ⟨[.makeEnv idx false] ++ (if e then [.makeEnv idx true] else []),
    [.closeEnv idx false] ++ (if e then [.closeEnv idx true] else []), by simp [runFunc], ?_⟩, fun e idx => ?_⟩
  · cases agentGiven <;> cases makeAgent <;> simp only [setUp, pyAssert] at h
    · cases h
    all_goals injection h with h; subst h
    · exact ⟨[.makeAgent 0], rfl, by simp, by simp⟩
    · exact ⟨[], rfl, by simp, by simp⟩
    · exact ⟨[], rfl, by simp, by simp⟩
  · cases e <;> simp
  · cases e <;> simp [runFunc]

end Verif.RunAsync
