import Verif.Props.OpenBatchesRun
set_option autoImplicit false
set_option linter.unusedSectionVars false

/-! # C180: training runs of DDPG, TD3 and SoftActorCritic with prioritized replay and any `num_steps` -/

namespace Verif.OpenBatches
open TrainPrioritized
variable {O A R S X : Type}

/-- The steps that are in the window and have not begun an entry yet. -/
def waiting (n : Nat) (w : List (Transition O A R)) : Nat := min w.length (n - 1)

theorem flush_memory (w : List (Transition O A R)) : ∀ m : List (List (Transition O A R)), (NStep.flush (fun m e => m ++ [e]) w m).length = m.length + w.length := by
  induction w with
  | nil => intro m; rfl
  | cons x w ih => intro m; rw [NStep.flush, ih]; simp; omega

theorem deque_length (n : Nat) (hn : 0 < n) (w : List (Transition O A R)) (x : Transition O A R) (hw : w.length ≤ n) :
    (dequeAppend n w x).length = min (w.length + 1) n := by
  unfold dequeAppend
  split <;> simp <;> omega

theorem append_count (n : Nat) (hn : 0 < n) (w : List (Transition O A R)) (x : Transition O A R) (hw : w.length ≤ n) :
    (windowAppend n w x).1.length + waiting n (windowAppend n w x).2 = waiting n w + 1 ∧ (windowAppend n w x).2.length ≤ n := by
  have h := deque_length n hn w x hw
  unfold windowAppend NStep.append
  simp only
  split
  · simp only [flush_memory, Function.update_self, waiting, List.length_nil]; omega
  · split
    · rename_i h2
      simp only [Function.update_self, waiting, List.length_append, List.length_nil, List.length_singleton]; omega
    · rename_i h2
      simp only [Function.update_self, waiting, List.length_nil]; omega

theorem stop_count (n : Nat) (w : List (Transition O A R)) (hw : w.length ≤ n) :
    (windowStop n w).1.length = waiting n w ∧ (windowStop n w).2 = [] := by
  unfold windowStop NStep.stop
  refine ⟨?_, by simp⟩
  simp only [flush_memory, waiting]
  split <;> split <;> simp <;> omega

theorem due_entries (c : Sched) (cap : Option Nat) (es : List (List (Transition O A R))) (l : List (Op (Transition O A R))) : ∀ k,
    due c cap k (es.map .entry ++ l) = due c cap (k + es.length) l := by
  induction es with
  | nil => intro k; rfl
  | cons e es ih => intro k; simp only [List.map_cons, List.cons_append, due, ih, List.length_cons, show k + 1 + es.length = k + (es.length + 1) by omega]

/-- The updates that are due in `m` decisions, if `j` have been made and at most `lag` of the steps before the last decision are not stored yet. -/
def dueLag (c : Sched) (cap : Option Nat) (lag : Nat) : Nat → Nat → Nat → Nat
  | _, _, 0 => 0
  | j, t, m + 1 => (if c.startSize ≤ held cap (j - lag) ∧ c.interval ∣ t + 1 then 1 else 0) + dueLag c cap lag (j + 1) (t + 1) m

theorem held_mono (cap : Option Nat) {a b : Nat} (h : a ≤ b) : held cap a ≤ held cap b := by
  cases cap <;> simp [held] <;> omega

theorem due_bounds (c : Sched) (cap : Option Nat) (us : Nat → Nat → List ℝ) (n : Nat) (hn : 0 < n) (l : List (TrainCalls.Call O A R)) :
    ∀ (t : Nat) (w : List (Transition O A R)) (prev : Option (O × A)) (k j : Nat), w.length ≤ n → k + waiting n w + prev.toList.length = j →
      dueLag c cap (n - 1) j t (decisions l) ≤ due c cap k (agentOpsN us n t w prev l) ∧
      due c cap k (agentOpsN us n t w prev l) ≤ dueActs c cap j t (decisions l) := by
  have hlag : ∀ w : List (Transition O A R), waiting n w ≤ n - 1 := fun w => Nat.min_le_right _ _
  induction l with
  | nil => intro t w prev k j _ _; cases prev <;> exact ⟨le_refl _, le_refl _⟩
  | cons x l ih =>
    intro t w prev k j hw hj
    cases x with
    | act o r a =>
      have hd : decisions (TrainCalls.Call.act o r a :: l) = decisions l + 1 := by simp [decisions]
      rw [hd]
      have upd : ∀ (w' : List (Transition O A R)) (k' : Nat), w'.length ≤ n → k' + waiting n w' = j →
          dueLag c cap (n - 1) j t (decisions l + 1) ≤ due c cap k' (.update (t + 1) (us (t + 1)) :: agentOpsN us n (t + 1) w' (some (o, a)) l) ∧
          due c cap k' (.update (t + 1) (us (t + 1)) :: agentOpsN us n (t + 1) w' (some (o, a)) l) ≤ dueActs c cap j t (decisions l + 1) := by
        intro w' k' hw' hk'
        obtain ⟨i1, i2⟩ := ih (t + 1) w' (some (o, a)) k' (j + 1) hw' (by simp [← hk'])
        have m1 : held cap (j - (n - 1)) ≤ held cap k' := held_mono cap (by have := hlag w'; omega)
        have m2 : held cap k' ≤ held cap j := held_mono cap (by omega)
        simp only [due, dueLag, dueActs]
        refine ⟨Nat.add_le_add ?_ i1, Nat.add_le_add ?_ i2⟩
        · split
          · rename_i h; rw [if_pos ⟨h.1.trans m1, h.2⟩]
          · exact Nat.zero_le _
        · split
          · rename_i h; rw [if_pos ⟨h.1.trans m2, h.2⟩]
          · exact Nat.zero_le _
      cases prev with
      | none => exact upd w k hw (by simpa using hj)
      | some p =>
        obtain ⟨a1, a2⟩ := append_count n hn w ⟨p.1, p.2, r, o, some a, false⟩ hw
        rw [agentOpsN, due_entries]
        refine upd _ _ a2 ?_
        simp only [Option.toList, List.length_singleton] at hj
        omega
    | stop o r d =>
      have hd : decisions (TrainCalls.Call.stop o r d :: l) = decisions l := by simp [decisions]
      rw [hd]
      cases prev with
      | none => exact ih t w none k j hw hj
      | some p =>
        obtain ⟨a1, a2⟩ := append_count n hn w ⟨p.1, p.2, r, o, some p.2, d⟩ hw
        obtain ⟨b1, b2⟩ := stop_count n _ a2
        rw [agentOpsN, due_entries, due_entries]
        refine ih t _ none _ j (by rw [b2]; simp) ?_
        simp only [Option.toList, List.length_singleton, List.length_nil] at hj ⊢
        rw [b1, b2]
        simp only [waiting, List.length_nil, Nat.zero_min] at a1 hj ⊢
        omega

theorem dueLag_add (c : Sched) (cap : Option Nat) (lag m m' : Nat) : ∀ j t, dueLag c cap lag j t (m + m') = dueLag c cap lag j t m + dueLag c cap lag (j + m) (t + m) m' := by
  induction m with
  | zero => intro j t; simp [dueLag]
  | succ m ih =>
    intro j t
    rw [show m + 1 + m' = (m + m') + 1 by omega, dueLag, ih, dueLag, show j + 1 + m = j + (m + 1) by omega, show t + 1 + m = t + (m + 1) by omega, Nat.add_assoc]

theorem dueLag_ge (c : Sched) (cap : Option Nat) (lag m : Nat) : ∀ i j t, i + lag ≤ j → dueActs c cap i t m ≤ dueLag c cap lag j t m := by
  induction m with
  | zero => intro i j t _; exact le_refl _
  | succ m ih =>
    intro i j t h
    have m1 : held cap i ≤ held cap (j - lag) := held_mono cap (by omega)
    simp only [dueLag, dueActs]
    refine Nat.add_le_add ?_ (ih (i + 1) (j + 1) (t + 1) (by omega))
    split
    · rename_i h; rw [if_pos ⟨h.1.trans m1, h.2⟩]
    · exact Nat.zero_le _

theorem opsN_variates (b : Nat) (us : Nat → Nat → List ℝ) (hus : ∀ t, Variates b (us t)) (n : Nat) (l : List (TrainCalls.Call O A R)) :
    ∀ (t : Nat) (w : List (Transition O A R)) (prev : Option (O × A)), AllVariates b (agentOpsN us n t w prev l) := by
  have hent : ∀ (es : List (List (Transition O A R))) t' us', Op.update t' us' ∉ es.map Op.entry := by
    intro es t' us' h
    obtain ⟨e, -, h⟩ := List.mem_map.1 h
    cases h
  induction l with
  | nil => intro t w prev t' us' h; cases prev <;> simp [agentOpsN] at h
  | cons x l ih =>
    intro t w prev t' us' h
    cases x <;> cases prev <;> simp only [agentOpsN, List.mem_append, List.mem_cons] at h
    · rcases h with h | h
      · cases h; exact hus _
      · exact ih _ _ _ _ _ h
    · rcases h with h | h | h
      · exact absurd h (hent _ _ _)
      · cases h; exact hus _
      · exact ih _ _ _ _ _ h
    · exact ih _ _ _ _ _ h
    · rcases h with h | h | h
      · exact absurd h (hent _ _ _)
      · exact absurd h (hent _ _ _)
      · exact ih _ _ _ _ _ h

/-- **C180** (violated): with `PrioritizedReplayBuffer(num_steps = n)` the same: whatever calls DDPG, TD3 or SoftActorCritic get, nothing is drawn in the first
`replay_start_size` decisions, and an `AssertionError` has been raised when `replay_start_size + (n - 1) + 2 * update_interval` decisions have been made. -/
theorem C180_violated_calls_num_steps {cap : Option Nat} {p : PWE} {c : Sched} (hs : Sensible cap p c) (hcap : ∀ x, cap = some x → c.startSize ≤ x) (hn : 0 < c.nTimes)
    (n : Nat) (hpos : 0 < n) (us : Nat → Nat → List ℝ) (hus : ∀ t, Variates c.batchsize (us t)) (offset : Nat) (l : List (TrainCalls.Call O A R)) :
    (decisions l ≤ c.startSize → ∃ m, run c (.ok (Mem.init cap p)) (agentOpsN us n offset [] none l) = .ok m ∧ m.log = []) ∧
    (c.startSize + (n - 1) + 2 * c.interval ≤ decisions l → run c (.ok (Mem.init cap p)) (agentOpsN us n offset [] none l) = .error .assertionError) := by
  obtain ⟨h0, -, h2⟩ := C180_violated_unreported hs (agentOpsN us n offset [] none l) (opsN_variates _ us hus _ _ _ _ _)
  obtain ⟨b1, b2⟩ := due_bounds c cap us n hpos l offset [] none 0 0 (by simp) (by simp [waiting])
  refine ⟨fun h => ?_, fun h => h2 ?_⟩
  · rw [dueActs_none _ _ _ _ _ (by omega)] at b2
    obtain ⟨m, a, -, b⟩ := h0 (by rw [Nat.le_zero.1 b2, Nat.zero_mul])
    exact ⟨m, a, b⟩
  · obtain ⟨k, hk⟩ : ∃ k, decisions l = (c.startSize + (n - 1)) + (c.interval + (c.interval + k)) := ⟨decisions l - (c.startSize + (n - 1) + 2 * c.interval), by omega⟩
    rw [hk, dueLag_add] at b1
    have h4 := dueLag_ge c cap (n - 1) (c.interval + (c.interval + k)) c.startSize (0 + (c.startSize + (n - 1))) (offset + (c.startSize + (n - 1))) (by omega)
    rw [dueActs_add, dueActs_add] at h4
    have h1 := dueActs_interval c cap hcap hs.interval c.startSize (offset + (c.startSize + (n - 1))) (by omega)
    have h3 := dueActs_interval c cap hcap hs.interval (c.startSize + c.interval) (offset + (c.startSize + (n - 1)) + c.interval) (by omega)
    refine le_trans ?_ (Nat.mul_le_mul_left _ hn)
    omega

/-- **C180** (violated): and in every run of `train_agent`. -/
theorem C180_violated_run_num_steps [Zero R] [LinearOrder S] (tc : Train.Cfg S) (w : Train.World O A R S X) {cap : Option Nat} {p : PWE} {c : Sched} (hs : Sensible cap p c)
    (hcap : ∀ x, cap = some x → c.startSize ≤ x) (hn : 0 < c.nTimes) (n : Nat) (hpos : 0 < n) (us : Nat → Nat → List ℝ) (hus : ∀ t, Variates c.batchsize (us t))
    (pre post : List (Train.Ev O A R S)) (hrun : (Train.run tc w).1 = pre ++ post) :
    (pre.countP Train.Ev.isStep < c.startSize →
      ∃ m, run c (.ok (Mem.init cap p)) (agentOpsN us n tc.stepOffset [] none (TrainCalls.calls pre)) = .ok m ∧ m.log = []) ∧
    (c.startSize + (n - 1) + 2 * c.interval ≤ pre.countP Train.Ev.isStep →
      run c (.ok (Mem.init cap p)) (agentOpsN us n tc.stepOffset [] none (TrainCalls.calls pre)) = .error .assertionError) := by
  obtain ⟨h1, h2⟩ := run_decisions tc w pre post hrun
  obtain ⟨h3, h4⟩ := C180_violated_calls_num_steps hs hcap hn n hpos us hus tc.stepOffset (TrainCalls.calls pre)
  exact ⟨fun h => h3 (by omega), fun h => h4 (by omega)⟩

/-- With `num_steps = 1` these are the operations of `C180_violated_calls`. -/
theorem ops_one (us : Nat → Nat → List ℝ) (l : List (TrainCalls.Call O A R)) : ∀ (t : Nat) (w : List (Transition O A R)) (prev : Option (O × A)), w.length ≤ 1 →
    agentOpsN us 1 t w prev l = agentOps us t prev l := by
  have app : ∀ (w : List (Transition O A R)) x, w.length ≤ 1 → (windowAppend 1 w x).1 = [[x]] ∧ (windowAppend 1 w x).2 = if x.terminal then [] else [x] := by
    intro w x hw
    have hd : dequeAppend 1 w x = [x] := by
      match w, hw with
      | [], _ => rfl
      | [y], _ => rfl
    unfold windowAppend NStep.append
    simp only [hd]
    cases x.terminal <;> simp [NStep.flush]
  have stp : ∀ w : List (Transition O A R), w.length ≤ 1 → windowStop 1 w = ([], []) := by
    intro w hw
    match w, hw with
    | [], _ => simp [windowStop, NStep.stop, NStep.flush]
    | [y], _ => simp [windowStop, NStep.stop, NStep.flush]
  induction l with
  | nil => intro t w prev _; cases prev <;> rfl
  | cons x l ih =>
    intro t w prev hw
    cases x with
    | act o r a =>
      cases prev with
      | none => rw [agentOpsN, agentOps, ih _ _ _ hw]
      | some p =>
        obtain ⟨a1, a2⟩ := app w ⟨p.1, p.2, r, o, some a, false⟩ hw
        rw [agentOpsN, agentOps, a1, a2, ih _ _ _ (by simp)]
        rfl
    | stop o r d =>
      cases prev with
      | none => rw [agentOpsN, agentOps, ih _ _ _ hw]
      | some p =>
        obtain ⟨a1, a2⟩ := app w ⟨p.1, p.2, r, o, some p.2, d⟩ hw
        have h2 : (windowAppend 1 w ⟨p.1, p.2, r, o, some p.2, d⟩).2.length ≤ 1 := by rw [a2]; split <;> simp
        rw [agentOpsN, agentOps, a1, stp _ h2, ih _ _ _ (by simp)]
        rfl

/-- Four decisions with `num_steps = 2`. -/
example : run ⟨1, 1, 1, 1⟩ (.ok (Mem.init none ⟨0.6, 0.4, 0.6 / 200000, 0.01, .batch, some 0, some 1⟩))
    (agentOpsN (fun _ _ => [0]) 2 0 [] none [TrainCalls.Call.act 'a' (0 : ℤ) true, .act 'b' 1 false, .act 'c' 1 true, .act 'd' 1 true]) = .error .assertionError :=
  (C180_violated_calls_num_steps sensible_small (by simp) (by norm_num) 2 (by norm_num) _ (fun _ => variates_zero) 0 _).2 (by simp [decisions])

end Verif.OpenBatches
