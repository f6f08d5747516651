import Mathlib.Algebra.BigOperators.Group.Finset.Basic
import Mathlib.Algebra.BigOperators.Ring.Finset
import Mathlib.Algebra.BigOperators.Fin
import Mathlib.Algebra.Order.BigOperators.Ring.Finset
import Mathlib.Algebra.Field.GeomSum
import Mathlib.Tactic.Linarith
import Mathlib.Tactic.NormNum
import Mathlib.Tactic.Ring
import Mathlib.Tactic.Positivity
import Verif.Model.TargetNet
set_option autoImplicit false
set_option linter.unusedSectionVars false

/-!
# C115: target networks
-/

namespace Verif.TargetNet
open Finset

variable {ι κ X Y : Type}

/-! ## Specification -/

/-- In test mode a network computes each row from its own input, and keeps its statistics. -/
def TestMode (net : Net ι κ X Y) (f : (ι → ℝ) → (κ → ℝ) → X → Y) : Prop :=
  ∀ p st xs, net.forward false p st xs = (st, xs.map (f p st))

/-- A network that does the same in both modes (no batch normalisation, no dropout). -/
def Modeless (net : Net ι κ X Y) : Prop := ∀ p st xs, net.forward true p st xs = net.forward false p st xs

/-- The online networks at the synchronisations of a history. -/
def synced : Obj ι κ → List (Event ι κ X) → List (Obj ι κ)
  | _, [] => []
  | o, .update _ p st :: l => synced { o with params := p, stats := st } l
  | o, .sync :: l => o :: synced o l

/-- What exponential averaging makes of an initial value and a list of values. -/
noncomputable def average (tau x0 : ℝ) (xs : List ℝ) : ℝ :=
  (1 - tau) ^ xs.length * x0 + ∑ j : Fin xs.length, tau * (1 - tau) ^ (xs.length - 1 - j.val) * xs[j]

/-! ## The attribute `__call__` -/

/-- C115, violated: `disable_train` and the wrapping in DQN have no effect: calling the object is the same computation as before. -/
theorem C115_violated_disable_train (net : Net ι κ X Y) (train : Bool) (o : Obj ι κ) (xs : List X) :
    (call net train (disableTrain o) xs).2 = (call net train o xs).2 ∧
    (call net train (disableTrain o) xs).1.stats = (call net train o xs).1.stats := ⟨rfl, rfl⟩

/-! ## Parameters -/

/-- The target's parameters are blended with the online ones at synchronisations. -/
theorem run_params (k : Kind) (m : Method) (net : Net ι κ X Y) (train : Bool) (l : List (Event ι κ X)) :
    ∀ s : State ι κ, (run k m net train s l).target.params =
      (synced s.online l).foldl (fun t o => blend m t o.params) s.target.params := by
  induction l with
  | nil => intro s; rfl
  | cons e l ih =>
    intro s
    cases e with
    | update xs p st =>
      simp only [run, step, synced]
      rw [ih]
      congr 1
      cases k <;> rfl
    | sync => simp only [run, step, synced, List.foldl_cons]; rw [ih]; rfl

theorem run_stats (k : Kind) (m : Method) (net : Net ι κ X Y) (train : Bool)
    (h : ∀ (o : Obj ι κ) xs, (targetValues k net train o xs).1.stats = o.stats) (l : List (Event ι κ X)) :
    ∀ s : State ι κ, (run k m net train s l).target.stats =
      (synced s.online l).foldl (fun t o => blend m t o.stats) s.target.stats := by
  induction l with
  | nil => intro s; rfl
  | cons e l ih =>
    intro s
    cases e with
    | update xs p st =>
      simp only [run, step, synced]
      rw [ih, h]
    | sync => simp only [run, step, synced, List.foldl_cons]; rw [ih]; rfl

theorem average_nil (tau x0 : ℝ) : average tau x0 [] = x0 := by simp [average]

theorem average_cons (tau x0 x : ℝ) (xs : List ℝ) :
    average tau x0 (x :: xs) = average tau (x0 * (1 - tau) + tau * x) xs := by
  unfold average
  simp only [List.length_cons]
  rw [Fin.sum_univ_succ]
  simp only [Fin.getElem_fin, Fin.val_zero, List.getElem_cons_zero, Fin.val_succ, List.getElem_cons_succ, Nat.add_sub_cancel, Nat.sub_zero]
  have : ∀ j : Fin xs.length, xs.length - (j.val + 1) = xs.length - 1 - j.val := fun j => by omega
  simp only [this]
  ring

theorem foldl_average {α : Type} (tau : ℝ) (i : α) (l : List (α → ℝ)) : ∀ t : α → ℝ,
    (l.foldl (fun t o => blend (.soft tau) t o) t) i = average tau (t i) (l.map fun o => o i) := by
  induction l with
  | nil => intro t; simp [average_nil]
  | cons o l ih =>
    intro t
    simp only [List.foldl_cons, List.map_cons, average_cons]
    rw [ih]
    rfl

/-- C115: with soft updates each parameter of the target network is the exponential average of the values that the online parameter had at the
synchronisations: the one before `j` others has weight `tau * (1 - tau) ^ j`, and the rest belongs to the initial value. -/
theorem C115_soft (k : Kind) (tau : ℝ) (net : Net ι κ X Y) (train : Bool) (p0 : ι → ℝ) (st0 : κ → ℝ) (l : List (Event ι κ X)) (i : ι) :
    (run k (.soft tau) net train (init k p0 st0) l).target.params i =
      average tau (p0 i) ((synced (init k p0 st0).online l).map fun o => o.params i) := by
  rw [run_params]
  have : (init k p0 st0).target.params = p0 := by cases k <;> rfl
  rw [this]
  have e := foldl_average tau i ((synced (init k p0 st0).online l).map fun o => o.params) p0
  rw [List.foldl_map, List.map_map] at e
  exact e

/-- The weights add up to 1. -/
theorem C115_weights (tau : ℝ) (n : Nat) :
    (1 - tau) ^ n + ∑ j : Fin n, tau * (1 - tau) ^ (n - 1 - j.val) = 1 := by
  induction n with
  | zero => simp
  | succ n ih =>
    rw [Fin.sum_univ_succ]
    simp only [Fin.val_zero, Nat.add_sub_cancel, Nat.sub_zero, Fin.val_succ]
    have : ∀ j : Fin n, n - (j.val + 1) = n - 1 - j.val := fun j => by omega
    simp only [this]
    rw [pow_succ]
    linarith

/-- C115: so for `tau` in [0, 1] a target parameter never leaves an interval that contains the initial and all synchronised values of
the online parameter. -/
theorem C115_between (k : Kind) (tau : ℝ) (h0 : 0 ≤ tau) (h1 : tau ≤ 1) (net : Net ι κ X Y) (train : Bool) (p0 : ι → ℝ) (st0 : κ → ℝ)
    (l : List (Event ι κ X)) (i : ι) (a b : ℝ) (hp : a ≤ p0 i ∧ p0 i ≤ b)
    (hl : ∀ o ∈ synced (init k p0 st0).online l, a ≤ o.params i ∧ o.params i ≤ b) :
    a ≤ (run k (.soft tau) net train (init k p0 st0) l).target.params i ∧
      (run k (.soft tau) net train (init k p0 st0) l).target.params i ≤ b := by
  rw [C115_soft]
  have : ∀ (xs : List ℝ) (x0 : ℝ), (a ≤ x0 ∧ x0 ≤ b) → (∀ x ∈ xs, a ≤ x ∧ x ≤ b) → a ≤ average tau x0 xs ∧ average tau x0 xs ≤ b := by
    intro xs
    induction xs with
    | nil => intro x0 h _; simpa [average_nil] using h
    | cons x xs ih =>
      intro x0 h hx
      rw [average_cons]
      obtain ⟨c1, c2⟩ := hx x (by simp)
      refine ih _ ⟨?_, ?_⟩ (fun y hy => hx y (by simp [hy]))
      · nlinarith [h.1]
      · nlinarith [h.2]
  apply this _ _ hp
  intro x hx
  obtain ⟨o, ho, rfl⟩ := List.mem_map.1 hx
  exact hl o ho

/-- C115: with hard updates the target's parameters are those of the online network at the last synchronisation. -/
theorem C115_hard (k : Kind) (net : Net ι κ X Y) (train : Bool) (p0 : ι → ℝ) (st0 : κ → ℝ) (l : List (Event ι κ X)) :
    (run k .hard net train (init k p0 st0) l).target.params =
      (((synced (init k p0 st0).online l).map (·.params)).getLast?).getD p0 := by
  rw [run_params]
  have : (init k p0 st0).target.params = p0 := by cases k <;> rfl
  rw [this]
  generalize synced (init k p0 st0).online l = os
  revert p0
  induction os with
  | nil => intro p0 _; rfl
  | cons o os ih =>
    intro p0 h
    simp only [List.foldl_cons, List.map_cons]
    rw [show blend .hard p0 o.params = o.params from rfl]
    have : List.foldl (fun t (o : Obj ι κ) => blend .hard t o.params) o.params os =
        (os.map (·.params)).getLast?.getD o.params := by
      cases k <;> exact ih o.params rfl
    rw [this]
    cases os with
    | nil => rfl
    | cons o' os => simp [List.getLast?_cons_cons, List.getLast?_cons]

/-! ## TD3 and SAC, and networks without modes -/

/-- TD3 and SAC, and DQN, DDPG and PGT with networks that do not distinguish modes, compute target values in test mode. -/
theorem targetValues_test (k : Kind) (net : Net ι κ X Y) (train : Bool) (f : (ι → ℝ) → (κ → ℝ) → X → Y) (ht : TestMode net f)
    (hk : k = .td3 ∨ k = .sac ∨ Modeless net) (o : Obj ι κ) (xs : List X) :
    targetValues k net train o xs = (o, xs.map (f o.params o.stats)) := by
  have e : call net false o xs = (o, xs.map (f o.params o.stats)) := by
    simp [call, ht o.params o.stats xs]
  have e' : Modeless net → ∀ b, call net b o xs = call net false o xs := by
    intro h b
    cases b with
    | false => rfl
    | true => simp only [call, h o.params o.stats xs]
  cases k with
  | td3 => exact e
  | sac => exact e
  | dqn => rcases hk with h | h | h <;> [cases h; cases h; exact (e' h train).trans e]
  | ddpg => rcases hk with h | h | h <;> [cases h; cases h; exact (e' h train).trans e]
  | pgt => rcases hk with h | h | h <;> [cases h; cases h; exact (e' h train).trans e]

/-- C115: for TD3 and SAC with any networks, and for the others with networks without batch normalisation and dropout, the target value of each
transition is a function of its own next state and the target's parameters and statistics, whatever else is in the minibatch, and computing
it does not change the target network. -/
theorem C115_test_mode (k : Kind) (m : Method) (net : Net ι κ X Y) (train : Bool) (f : (ι → ℝ) → (κ → ℝ) → X → Y) (ht : TestMode net f)
    (hk : k = .td3 ∨ k = .sac ∨ Modeless net) (s : State ι κ) (xs : List X) (p : ι → ℝ) (st : κ → ℝ) :
    (step k m net train s (.update xs p st)).2 = xs.map (f s.target.params s.target.stats) ∧
      (step k m net train s (.update xs p st)).1.target = s.target := by
  simp only [step, targetValues_test k net train f ht hk]
  exact ⟨trivial, trivial⟩

/-- C115: then the target's statistics, too, are the exponential average of those of the online network at the synchronisations. -/
theorem C115_stats (k : Kind) (tau : ℝ) (net : Net ι κ X Y) (train : Bool) (f : (ι → ℝ) → (κ → ℝ) → X → Y) (ht : TestMode net f)
    (hk : k = .td3 ∨ k = .sac ∨ Modeless net) (p0 : ι → ℝ) (st0 : κ → ℝ) (l : List (Event ι κ X)) (i : κ) :
    (run k (.soft tau) net train (init k p0 st0) l).target.stats i =
      average tau (st0 i) ((synced (init k p0 st0).online l).map fun o => o.stats i) := by
  rw [run_stats k (.soft tau) net train (fun o xs => by rw [targetValues_test k net train f ht hk])]
  have : (init k p0 st0).target.stats = st0 := by cases k <;> rfl
  rw [this]
  have e := foldl_average tau i ((synced (init k p0 st0).online l).map fun o => o.stats) st0
  rw [List.foldl_map, List.map_map] at e
  exact e

/-! ## Batch normalisation -/

/-- A batch normalisation layer is a network with a test mode as described. -/
theorem batchNorm_testMode (decay eps : ℝ) : TestMode (batchNorm decay eps)
    (fun p st x => p true * ((x - st false) / Real.sqrt (st true + eps)) + p false) := by
  intro p st xs
  simp [batchNorm]

/-- A history with two synchronisations. -/
example (k : Kind) (tau : ℝ) : (run k (.soft tau) (batchNorm 0.9 1) true (init k (fun _ => 1) (fun _ => 0))
    [.update [0] (fun _ => 2) (fun _ => 0), .sync, .update [0] (fun _ => 3) (fun _ => 0), .sync]).target.params true =
    (1 - tau) ^ 2 * 1 + tau * (1 - tau) * 2 + tau * 3 := by
  rw [C115_soft]
  have : (synced (X := ℝ) (init k (fun _ : Bool => 1) (fun _ : Bool => 0)).online
    [.update [0] (fun _ => 2) (fun _ => 0), .sync, .update [0] (fun _ => 3) (fun _ => 0), .sync]).map (fun o => o.params true) = [2, 3] := by
    cases k <;> rfl
  rw [this]
  simp [average, Fin.sum_univ_succ]
  ring

/-- C115, violated: DQN, DDPG and PGT evaluate their target networks in training mode: with batch normalisation the target value of
a transition depends on the other transitions of the minibatch.  Next state 0 gets another value beside 2 than
beside 0. -/
theorem C115_violated_minibatch (k : Kind) (hk : k = .dqn ∨ k = .ddpg ∨ k = .pgt) (m : Method) (decay eps : ℝ) (he : 0 < eps) :
    let net := batchNorm decay eps
    let s : State Bool Bool := init k (fun b => if b then 1 else 0) (fun _ => 0)
    (step k m net true s (.update [0, 2] s.online.params s.online.stats)).2[0]? ≠
      (step k m net true s (.update [0, 0] s.online.params s.online.stats)).2[0]? := by
  have h1 : mean [0, 2] = 1 := by norm_num [mean]
  have h2 : mean [0, 0] = 0 := by norm_num [mean]
  have hv : variance [0, 2] = 1 := by simp only [variance, h1]; norm_num
  have hs : Real.sqrt (1 + eps) ≠ 0 := (Real.sqrt_pos.2 (by linarith)).ne'
  rcases hk with rfl | rfl | rfl <;>
    simp [step, targetValues, call, batchNorm, init, disableTrain, h1, h2, hv, hs]

/-- C115, violated: and evaluating the target network changes its statistics, without any synchronisation: here the running mean of the target
moves to `1 - decay`, while the online network keeps all its values. -/
theorem C115_violated_statistics (k : Kind) (hk : k = .dqn ∨ k = .ddpg ∨ k = .pgt) (m : Method) (decay eps : ℝ) :
    let net := batchNorm decay eps
    let s : State Bool Bool := init k (fun _ => 1) (fun _ => 0)
    let s' := run k m net true s [.update [0, 2] s.online.params s.online.stats]
    synced s.online ([.update [0, 2] s.online.params s.online.stats] : List (Event Bool Bool ℝ)) = [] ∧
      s'.online.stats false = 0 ∧ s'.target.stats false = 1 - decay := by
  have h1 : mean [0, 2] = 1 := by norm_num [mean]
  rcases hk with rfl | rfl | rfl <;>
    simp [run, step, targetValues, call, batchNorm, init, disableTrain, h1, synced]

/-- C115, violated: in general every update moves the running statistics of the target towards those of the minibatch, `decay` of the old value remaining. -/
theorem C115_violated_drift (k : Kind) (hk : k = .dqn ∨ k = .ddpg ∨ k = .pgt) (m : Method) (decay eps : ℝ) (s : State Bool Bool)
    (xs : List ℝ) (p st : Bool → ℝ) :
    (step k m (batchNorm decay eps) true s (.update xs p st)).1.target.stats false =
        decay * s.target.stats false + (1 - decay) * (xs.sum / xs.length) ∧
      (step k m (batchNorm decay eps) true s (.update xs p st)).1.target.stats true =
        decay * s.target.stats true + (1 - decay) * variance xs := by
  rcases hk with rfl | rfl | rfl <;>
    simp [step, targetValues, call, batchNorm, disableTrain, mean]

/-! ### Concrete cases of the hypotheses -/

/-- Batch normalisation out of training maps every input by a fixed function of the parameters and the statistics. -/
private theorem norm_testMode (decay eps : ℝ) : TestMode (batchNorm decay eps)
    (fun p st x => p true * ((x - st false) / Real.sqrt (st true + eps)) + p false) := fun _ _ _ => rfl

example (m : Method) (s : State Bool Bool) := C115_test_mode .td3 m (batchNorm 0.9 1) true _ (norm_testMode 0.9 1) (.inl rfl) s [1, 5] (fun _ => 1) (fun _ => 0)

example (l : List (Event Bool Bool ℝ)) := C115_stats .sac 0.5 (batchNorm 0.9 1) true _ (norm_testMode 0.9 1) (.inr (.inl rfl))
  (fun _ => 1) (fun _ => 0) l

/-- A linear network has no mode: `C115_test_mode` holds of it for every agent. -/
example (k : Kind) (m : Method) (s : State Bool Bool) :=
  C115_test_mode (X := ℝ) (Y := ℝ) k m ⟨fun _ p st xs => (st, xs.map fun x => p true * x + p false)⟩ true (fun p _ x => p true * x + p false)
    (fun _ _ _ => rfl) (.inr (.inr fun _ _ _ => rfl)) s [1, 5] (fun _ => 1) (fun _ => 0)

example (k : Kind) := C115_between k 0.5 (by norm_num) (by norm_num) (batchNorm 0.9 1) true (fun _ => 1) (fun _ => 0)
  [.update [0] (fun _ => 2) (fun _ => 0), .sync] true 1 2 (by norm_num) (by
    intro o ho
    have : (synced (X := ℝ) (init k (fun _ : Bool => 1) (fun _ : Bool => 0)).online [.update [0] (fun _ => 2) (fun _ => 0), .sync]).map (fun o => o.params true) = [2] := by
      cases k <;> rfl
    have h := List.mem_map_of_mem (f := fun o : Obj Bool Bool => o.params true) ho
    rw [this, List.mem_singleton] at h
    rw [h]; norm_num)

end Verif.TargetNet
