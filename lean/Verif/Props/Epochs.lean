import Mathlib.Data.List.Basic
import Mathlib.Data.List.Perm.Basic
import Mathlib.Data.List.Nodup
import Mathlib.Tactic.Ring
import Mathlib.Tactic.Linarith
import Verif.Model.Epochs

/-!
C88: minibatches of PPO and of TRPO's value function.

`C88_passes`: the minibatches are complete passes over the dataset, one for each epoch, and
less than one further minibatch.  `C88_uses`: how often a transition is used.  `C88_updates`: the number
of updates.  `C88_size`: the size of the minibatches.
-/

set_option autoImplicit false
set_option linter.unusedSectionVars false

namespace Verif.Epochs
variable {α : Type}

/-- The passes `0`, ..., `k - 1` one after the other. -/
def passes (orders : Nat → List α) (k : Nat) : List α := ((List.range k).map orders).flatten

theorem passes_succ (orders : Nat → List α) (k : Nat) : passes orders (k + 1) = passes orders k ++ orders k := by
  simp [passes, List.range_succ]

/-- What has been handed out when the iterator is in state `it`. -/
def given (orders : Nat → List α) (it : Iter) : List α := passes orders it.epoch ++ (orders it.epoch).take it.pos

theorem next_given (orders : Nat → List α) (n b : Nat) (it : Iter) (hlen : ∀ k, (orders k).length = n) :
    given orders it ++ (next orders n b it).1 = given orders (next orders n b it).2 := by
  unfold next given
  simp only
  split
  · next h =>
    simp only [passes_succ]
    have : ((orders it.epoch).take (it.pos + b)).drop it.pos = (orders it.epoch).drop it.pos := by
      rw [List.take_of_length_le (by rw [hlen]; exact h)]
    rw [this]
    simp only [List.append_assoc]
    rw [← List.append_assoc (List.take _ _), List.take_append_drop]
  · next h =>
    rw [List.append_assoc]
    congr 1
    rw [List.drop_take, Nat.add_sub_cancel_left]
    rw [List.take_add]

theorem next_epoch_le (orders : Nat → List α) (n b : Nat) (it : Iter) :
    (next orders n b it).2.epoch ≤ it.epoch + 1 := by
  unfold next; simp only; split <;> simp

theorem next_count (orders : Nat → List α) (n b : Nat) (it : Iter) :
    (next orders n b it).2.epoch * n + (next orders n b it).2.pos = it.epoch * n + it.pos + b := by
  unfold next; simp only; split <;> simp only [Nat.add_mul] <;> omega

theorem loop_flatten (orders : Nat → List α) (n b epochs : Nat) (hlen : ∀ k, (orders k).length = n) :
    ∀ (fuel : Nat) (it : Iter) (bs : List (List α)), it.epoch ≤ epochs → loop orders n b epochs fuel it = some bs →
    ∃ it' : Iter, it'.epoch = epochs ∧ given orders it ++ bs.flatten = given orders it' ∧
      it.epoch * n + it.pos + bs.length * b = epochs * n + it'.pos := by
  intro fuel
  induction fuel with
  | zero =>
    intro it bs he h
    unfold loop at h
    split at h
    · cases h
      have : it.epoch = epochs := by omega
      exact ⟨it, this, by simp, by simp [this]⟩
    · cases h
  | succ fuel ih =>
    intro it bs he h
    unfold loop at h
    split at h
    · cases h
      have : it.epoch = epochs := by omega
      exact ⟨it, this, by simp, by simp [this]⟩
    · next hlt =>
      simp only [Option.map_eq_some_iff] at h
      obtain ⟨cs, hc, rfl⟩ := h
      have he' : (next orders n b it).2.epoch ≤ epochs := by
        have := next_epoch_le orders n b it; omega
      obtain ⟨it', h1, h2, h3⟩ := ih _ cs he' hc
      refine ⟨it', h1, ?_, ?_⟩
      · rw [List.flatten_cons, ← List.append_assoc, next_given orders n b it hlen, h2]
      · rw [next_count] at h3
        rw [← h3, List.length_cons, Nat.add_mul]; omega

/-- With minibatches no larger than the dataset the last one is partly in the last epoch. -/
theorem loop_last (orders : Nat → List α) (n b epochs : Nat) (hb : b ≤ n) (hb0 : 0 < b) :
    ∀ (fuel : Nat) (it : Iter) (bs : List (List α)), it.epoch ≤ epochs → it.pos < n →
    (it.epoch = epochs → it.pos < b) → loop orders n b epochs fuel it = some bs →
    it.epoch * n + it.pos + bs.length * b < epochs * n + b := by
  intro fuel
  induction fuel with
  | zero =>
    intro it bs he hp hl h
    unfold loop at h
    split at h
    · cases h
      have : it.epoch = epochs := by omega
      have := hl this
      simp [*]
    · cases h
  | succ fuel ih =>
    intro it bs he hp hl h
    unfold loop at h
    split at h
    · cases h
      have : it.epoch = epochs := by omega
      have := hl this
      simp [*]
    · next hlt =>
      simp only [Option.map_eq_some_iff] at h
      obtain ⟨cs, hc, rfl⟩ := h
      have he' : (next orders n b it).2.epoch ≤ epochs := by
        have := next_epoch_le orders n b it; omega
      have hp' : (next orders n b it).2.pos < n := by
        unfold next; simp only; split <;> simp only <;> omega
      have hl' : (next orders n b it).2.epoch = epochs → (next orders n b it).2.pos < b := by
        unfold next; simp only; split <;> simp only <;> omega
      have := ih _ cs he' hp' hl' hc
      rw [next_count] at this
      rw [List.length_cons, Nat.add_mul]; omega

theorem loop_ends (orders : Nat → List α) (n b epochs : Nat) (hb0 : 0 < b) :
    ∀ (fuel : Nat) (it : Iter), epochs * (n + 1) ≤ fuel + it.epoch * (n + 1) + min it.pos n →
    ∃ bs, loop orders n b epochs fuel it = some bs := by
  intro fuel
  induction fuel with
  | zero =>
    intro it h
    unfold loop
    split
    · exact ⟨_, rfl⟩
    · next hlt =>
      exfalso
      have : (it.epoch + 1) * (n + 1) ≤ epochs * (n + 1) := Nat.mul_le_mul_right _ (by omega)
      rw [Nat.add_mul] at this
      omega
  | succ fuel ih =>
    intro it h
    unfold loop
    split
    · exact ⟨_, rfl⟩
    · next hlt =>
      obtain ⟨bs, hbs⟩ := ih (next orders n b it).2 (by
        unfold next; simp only; split <;> simp only [Nat.add_mul] <;> omega)
      exact ⟨(next orders n b it).1 :: bs, by simp only [hbs, Option.map_some]⟩

theorem loop_mono (orders : Nat → List α) (n b epochs : Nat) :
    ∀ (fuel fuel' : Nat) (it : Iter) (bs : List (List α)), fuel ≤ fuel' →
    loop orders n b epochs fuel it = some bs → loop orders n b epochs fuel' it = some bs := by
  intro fuel
  induction fuel with
  | zero =>
    intro fuel' it bs _ h
    unfold loop at h ⊢
    split at h
    · next hc => rw [if_pos hc]; exact h
    · cases h
  | succ fuel ih =>
    intro fuel' it bs hle h
    obtain ⟨f, rfl⟩ : ∃ f, fuel' = f + 1 := ⟨fuel' - 1, by omega⟩
    unfold loop at h ⊢
    split at h
    · next hc => rw [if_pos hc]; exact h
    · next hc =>
      rw [if_neg hc]
      simp only [Option.map_eq_some_iff] at h ⊢
      obtain ⟨cs, hcs, rfl⟩ := h
      exact ⟨cs, ih f _ cs (by omega) hcs, rfl⟩

/-- Each pass is the dataset in some order. -/
def Shuffles (dataset : List α) (orders : Nat → List α) : Prop := ∀ k, (orders k).Perm dataset

/-- The loop over minibatches ends, and then yields `bs`. -/
def Yields (orders : Nat → List α) (n b epochs : Nat) (bs : List (List α)) : Prop :=
  ∃ enough, ∀ fuel, enough ≤ fuel → minibatches orders n b epochs fuel = some bs

/-- The loop always ends: there is exactly one list of minibatches. -/
theorem C88_ends (orders : Nat → List α) (n b epochs : Nat) (hb : 0 < b) :
    ∃ bs, Yields orders n b epochs bs ∧ ∀ bs', Yields orders n b epochs bs' → bs' = bs := by
  obtain ⟨bs, h⟩ := loop_ends orders n b epochs hb (epochs * (n + 1)) ⟨0, 0⟩ (by simp)
  have hy : Yields orders n b epochs bs := ⟨_, fun f hf => loop_mono _ _ _ _ _ _ _ _ hf h⟩
  refine ⟨bs, hy, fun bs' ⟨e', h'⟩ => ?_⟩
  obtain ⟨e, he⟩ := hy
  have h1 := he (max e e') (by omega)
  have h2 := h' (max e e') (by omega)
  rw [h1] at h2
  exact (Option.some.inj h2).symm

/-- **C88.** Put one after the other, the minibatches are `epochs` complete passes over the
dataset, each in its own random order, followed by the beginning of one further pass. -/
theorem C88_passes (dataset : List α) (orders : Nat → List α) (b epochs : Nat) (bs : List (List α))
    (hs : Shuffles dataset orders) (hy : Yields orders dataset.length b epochs bs) :
    ∃ extra, bs.flatten = passes orders epochs ++ (orders epochs).take extra ∧
      bs.length * b = epochs * dataset.length + extra := by
  obtain ⟨e, h⟩ := hy
  have h := h e (Nat.le_refl _)
  obtain ⟨it', h1, h2, h3⟩ := loop_flatten orders dataset.length b epochs (fun k => (hs k).length_eq) e ⟨0, 0⟩ bs
    (Nat.zero_le _) h
  refine ⟨it'.pos, ?_, by simpa using h3⟩
  simpa [given, passes, h1] using h2

theorem passes_count [DecidableEq α] (dataset : List α) (orders : Nat → List α) (hs : Shuffles dataset orders) (a : α) :
    ∀ k, (passes orders k).count a = k * dataset.count a
  | 0 => by simp [passes]
  | k + 1 => by
    rw [passes_succ, List.count_append, passes_count dataset orders hs a k, (hs k).count_eq, Nat.add_mul, Nat.one_mul]

/-- **C88.** A transition is used at least `epochs` times and at most once more. -/
theorem C88_uses [DecidableEq α] (dataset : List α) (orders : Nat → List α) (b epochs : Nat) (bs : List (List α))
    (hs : Shuffles dataset orders) (hy : Yields orders dataset.length b epochs bs) (hd : dataset.Nodup)
    (a : α) (ha : a ∈ dataset) :
    epochs ≤ bs.flatten.count a ∧ bs.flatten.count a ≤ epochs + 1 := by
  obtain ⟨r, h, -⟩ := C88_passes dataset orders b epochs bs hs hy
  have h1 : dataset.count a = 1 := List.count_eq_one_of_mem hd ha
  rw [h, List.count_append, passes_count dataset orders hs a, h1]
  have : ((orders epochs).take r).count a ≤ (orders epochs).count a := (List.take_sublist _ _).count_le a
  rw [(hs epochs).count_eq, h1] at this
  omega

/-- **C88.** Nothing but the dataset is used. -/
theorem C88_only (dataset : List α) (orders : Nat → List α) (b epochs : Nat) (bs : List (List α))
    (hs : Shuffles dataset orders) (hy : Yields orders dataset.length b epochs bs) :
    ∀ batch ∈ bs, ∀ a ∈ batch, a ∈ dataset := by
  intro batch hb a ha
  obtain ⟨r, h, -⟩ := C88_passes dataset orders b epochs bs hs hy
  have hm : a ∈ bs.flatten := List.mem_flatten.2 ⟨batch, hb, ha⟩
  rw [h, List.mem_append] at hm
  rcases hm with hm | hm
  · obtain ⟨l, hl, hal⟩ := List.mem_flatten.1 hm
    obtain ⟨k, -, rfl⟩ := List.mem_map.1 hl
    exact (hs k).mem_iff.1 hal
  · exact (hs epochs).mem_iff.1 (List.mem_of_mem_take hm)

/-- **C88.** With minibatches no larger than the dataset, the number of updates is
`epochs * size / batch size`, rounded up. -/
theorem C88_updates (orders : Nat → List α) (n b epochs : Nat) (bs : List (List α))
    (hb : 0 < b) (hbn : b ≤ n) (hlen : ∀ k, (orders k).length = n) (hy : Yields orders n b epochs bs) :
    epochs * n ≤ bs.length * b ∧ bs.length * b < epochs * n + b := by
  obtain ⟨e, h⟩ := hy
  have h := h e (Nat.le_refl _)
  obtain ⟨it', -, -, h3⟩ := loop_flatten orders n b epochs hlen e ⟨0, 0⟩ bs (Nat.zero_le _) h
  have h4 := loop_last orders n b epochs hbn hb e ⟨0, 0⟩ bs (Nat.zero_le _) (by simp only; omega) (fun _ => hb) h
  simp only [Nat.zero_mul, Nat.zero_add] at h3 h4
  omega

theorem loop_size (orders : Nat → List α) (n b epochs : Nat) (hbn : b ≤ n) (hlen : ∀ k, (orders k).length = n) :
    ∀ (fuel : Nat) (it : Iter) (bs : List (List α)), it.pos ≤ n → loop orders n b epochs fuel it = some bs →
    ∀ batch ∈ bs, batch.length = b := by
  intro fuel
  induction fuel with
  | zero =>
    intro it bs _ h
    unfold loop at h
    split at h
    · cases h; simp
    · cases h
  | succ fuel ih =>
    intro it bs hp h
    unfold loop at h
    split at h
    · cases h; simp
    · simp only [Option.map_eq_some_iff] at h
      obtain ⟨cs, hc, rfl⟩ := h
      intro batch hbatch
      rcases List.mem_cons.1 hbatch with rfl | hm
      · unfold next; simp only; split <;> simp [hlen] <;> omega
      · refine ih _ cs ?_ hc batch hm
        unfold next; simp only; split <;> simp only <;> omega

/-- **C88.** Then every minibatch has exactly the configured size, the last one too. -/
theorem C88_size (orders : Nat → List α) (n b epochs : Nat) (bs : List (List α))
    (hbn : b ≤ n) (hlen : ∀ k, (orders k).length = n) (hy : Yields orders n b epochs bs) :
    ∀ batch ∈ bs, batch.length = b := by
  obtain ⟨e, h⟩ := hy
  exact loop_size orders n b epochs hbn hlen e ⟨0, 0⟩ bs (Nat.zero_le _) (h e (Nat.le_refl _))

theorem loop_large (orders : Nat → List α) (n b epochs : Nat) (hnb : n ≤ b) :
    ∀ (fuel : Nat) (it : Iter) (bs : List (List α)), it.epoch ≤ epochs → loop orders n b epochs fuel it = some bs →
    it.epoch + bs.length = epochs := by
  intro fuel
  induction fuel with
  | zero =>
    intro it bs he h
    unfold loop at h
    split at h
    · cases h; simp; omega
    · cases h
  | succ fuel ih =>
    intro it bs he h
    unfold loop at h
    split at h
    · cases h; simp; omega
    · simp only [Option.map_eq_some_iff] at h
      obtain ⟨cs, hc, rfl⟩ := h
      have hn : (next orders n b it).2.epoch = it.epoch + 1 := by
        unfold next; simp only; rw [if_pos (by omega)]
      have := ih _ cs (by omega) hc
      rw [hn] at this
      rw [List.length_cons]; omega

/-- **C88.** A dataset no larger than one minibatch gives one update for each epoch. -/
theorem C88_small_dataset (orders : Nat → List α) (n b epochs : Nat) (bs : List (List α))
    (hnb : n ≤ b) (hy : Yields orders n b epochs bs) : bs.length = epochs := by
  obtain ⟨e, h⟩ := hy
  have := loop_large orders n b epochs hnb e ⟨0, 0⟩ bs (Nat.zero_le _) (h e (Nat.le_refl _))
  simpa using this

/-- Minibatches of two from three transitions, for two epochs: the epochs share a minibatch. -/
example : Yields (fun k => if k = 0 then [1, 2, 3] else [3, 1, 2]) 3 2 2 [[1, 2], [3, 3], [1, 2]] :=
  ⟨3, fun f hf => loop_mono _ _ _ _ 3 f _ _ hf rfl⟩

example : Shuffles [1, 2, 3] (fun k => if k = 0 then [1, 2, 3] else [3, 1, 2]) := by
  intro k
  by_cases h : k = 0
  · simp [h]
  · simp only [h, if_false]; decide

/-- A minibatch larger than the dataset holds a transition twice. -/
example : Yields (fun _ => [7]) 1 2 1 [[7, 7]] := ⟨1, fun f hf => loop_mono _ _ _ _ 1 f _ _ hf rfl⟩

end Verif.Epochs
