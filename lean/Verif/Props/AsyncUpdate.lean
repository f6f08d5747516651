import Mathlib.Tactic.FieldSimp
import Mathlib.Tactic.Linarith
import Mathlib.Tactic.Positivity
import Mathlib.Tactic.Ring
import Verif.Model.AsyncUpdate
set_option autoImplicit false
set_option linter.unusedSectionVars false

/-!
# C111: asynchronous updates
-/

namespace Verif.AsyncUpdate
open Real
open Optimizers (Hyper updateCore)

variable {ι : Type}

/-! ## Specification -/

/-- The gradients with which process `i` started updates, in order, each computed from the
parameters of its own model at that moment. -/
noncomputable def started (c : Cfg) (i : Nat) : World ι → List (Turn ι) → List (Nat → Option (Arr ι))
  | _, [] => []
  | w, t :: l =>
    (match (w.procs i).pc, decide (t.proc = i) with
      | .idle, true => [t.grads (w.procs i).model]
      | _, _ => []) ++ started c i (step c w t).1 l

/-- The parameters that a gradient reaches, with their gradients, in order. -/
def reached (m : Nat) (g : Nat → Option (Arr ι)) : List (Nat × Arr ι) :=
  (List.range m).filterMap fun p => (g p).map fun x => (p, x)

/-- The world after the first `k` turns. -/
noncomputable def worldAt (c : Cfg) (w : World ι) (l : List (Turn ι)) (k : Nat) : World ι := (run c w (l.take k)).1

/-! ## No update is lost -/

theorem step_params (c : Cfg) (w : World ι) (t : Turn ι) (p : Nat) (j : ι) :
    (step c w t).1.shared.params p j =
      w.shared.params p j - (((step c w t).2.filter (fun x => x.param = p)).map (fun x => x.delta j)).sum := by
  unfold step procStep
  rcases (w.procs t.proc) with ⟨model, grad, pc⟩
  cases pc with
  | idle => simp
  | decay q =>
    simp only
    split
    · simp
    · split <;> simp
  | square q => simp only; split <;> simp
  | read q => simp only; split <;> simp
  | sub q d =>
    simp only
    split
    · simp
    · by_cases hq : q = p
      · subst hq; simp
      · simp [hq, Function.update_of_ne (Ne.symm hq)]
  | copy q => simp only; split <;> simp
  | mul q => simp only; split <;> simp
  | add q => simp

/-- C111: whatever the schedule, a global parameter is its initial value minus the sum of everything
that the processes subtracted: no update is lost or overwritten by another process. -/
theorem C111_no_lost_update (c : Cfg) (l : List (Turn ι)) : ∀ (w : World ι) (p : Nat) (j : ι),
    (run c w l).1.shared.params p j =
      w.shared.params p j - (((run c w l).2.filter (fun x => x.param = p)).map (fun x => x.delta j)).sum := by
  induction l with
  | nil => intro w p j; simp [run]
  | cons t l ih =>
    intro w p j
    simp only [run]
    rw [ih, step_params, List.filter_append, List.map_append, List.sum_append]
    ring

/-! ## Every update is applied once -/

/-- What a process still has to subtract in its current update. -/
def pending (m : Nat) (q : Proc ι) : List (Nat × Arr ι) :=
  match q.pc with
  | .decay p | .square p | .read p | .sub p _ =>
    (List.range' p (m - p)).filterMap fun p => (q.grad p).map fun x => (p, x)
  | _ => []

/-- A process is in a sensible place. -/
def Ok (m : Nat) (q : Proc ι) : Prop :=
  match q.pc with
  | .decay p => p ≤ m
  | .square p | .read p | .sub p _ => p < m ∧ (q.grad p).isSome
  | _ => True

theorem range'_split (p m : Nat) (h : p < m) : List.range' p (m - p) = p :: List.range' (p + 1) (m - (p + 1)) := by
  rw [show m - p = (m - (p + 1)) + 1 by omega, List.range'_succ]

theorem procStep_pending (c : Cfg) (G : (Nat → Arr ι) → Nat → Option (Arr ι)) (sh : Shared ι) (q : Proc ι)
    (h : Ok c.numParams q) :
    Ok c.numParams (procStep c G sh q).2.1 ∧
    (procStep c G sh q).2.2.toList.map (fun x => (x.1, x.2.1)) ++ pending c.numParams (procStep c G sh q).2.1 =
      pending c.numParams q ++ (match q.pc with | .idle => reached c.numParams (G q.model) | _ => []) := by
  unfold procStep
  rcases q with ⟨model, grad, pc⟩
  cases pc with
  | idle => simp [Ok, pending, reached, List.range_eq_range']
  | decay p =>
    simp only [Ok] at h
    simp only
    split
    · rename_i hp
      subst hp
      simp [Ok, pending]
    · have hp : p < c.numParams := by omega
      split
      · rename_i hg
        simp only [Ok, pending, range'_split p _ hp, List.filterMap_cons, hg]
        simpa using hp
      · rename_i g hg
        simp [Ok, pending, hg, hp]
  | square p =>
    obtain ⟨h1, h2⟩ := h
    simp only at h2
    obtain ⟨g, hg⟩ := Option.isSome_iff_exists.1 h2
    simp [hg, Ok, pending, h1]
  | read p =>
    obtain ⟨h1, h2⟩ := h
    simp only at h2
    obtain ⟨g, hg⟩ := Option.isSome_iff_exists.1 h2
    simp [hg, Ok, pending, h1]
  | sub p d =>
    obtain ⟨h1, h2⟩ := h
    simp only at h2
    obtain ⟨g, hg⟩ := Option.isSome_iff_exists.1 h2
    simp only [hg, Ok, pending, range'_split p _ h1, List.filterMap_cons, Option.map_some]
    simp
    omega
  | copy p => simp only; split <;> [(split <;> simp [Ok, pending]); simp [Ok, pending]]
  | mul p => simp only; split <;> simp [Ok, pending]
  | add p => simp [Ok, pending]

/-- What process `i` subtracted: parameters and gradients, in order. -/
def subtracted (i : Nat) (log : List (Change ι)) : List (Nat × Arr ι) :=
  (log.filter (fun x => x.proc = i)).map fun x => (x.param, x.grad)

theorem run_pending (c : Cfg) (i : Nat) (l : List (Turn ι)) : ∀ (w : World ι), (∀ k, Ok c.numParams (w.procs k)) →
    (∀ k, Ok c.numParams ((run c w l).1.procs k)) ∧
    subtracted i (run c w l).2 ++ pending c.numParams ((run c w l).1.procs i) =
      pending c.numParams (w.procs i) ++ (started c i w l).flatMap (reached c.numParams) := by
  induction l with
  | nil => intro w h; exact ⟨h, by simp [run, subtracted, started]⟩
  | cons t l ih =>
    intro w h
    have hs : ∀ k, Ok c.numParams ((step c w t).1.procs k) := by
      intro k
      by_cases hk : k = t.proc
      · subst hk
        simp only [step, Function.update_self]
        exact (procStep_pending c t.grads w.shared _ (h _)).1
      · simp only [step, Function.update_of_ne hk]
        exact h k
    obtain ⟨i1, i2⟩ := ih _ hs
    refine ⟨i1, ?_⟩
    simp only [run, started, subtracted, List.filter_append, List.map_append, List.flatMap_append] at i2 ⊢
    rw [List.append_assoc, i2]
    by_cases hk : t.proc = i
    · subst hk
      have := (procStep_pending c t.grads w.shared _ (h t.proc)).2
      simp only [step, Function.update_self, decide_true] at this ⊢
      rw [← List.append_assoc, ← List.append_assoc]
      congr 1
      rw [List.filter_eq_self.2 (by rintro a ha; simp only [List.mem_map] at ha; obtain ⟨_, _, rfl⟩ := ha; simp), List.map_map]
      simp only [Function.comp_def]
      rw [this]
      congr 1
      cases (w.procs t.proc).pc <;> simp
    · have hf : (List.filter (fun x => decide (x.proc = i)) (step c w t).2) = [] := by
        rw [List.filter_eq_nil_iff]
        intro x hx
        simp only [step, List.mem_map] at hx
        obtain ⟨y, _, rfl⟩ := hx
        simpa using hk
      have hi : (step c w t).1.procs i = w.procs i := by
        simp only [step, Function.update_of_ne (Ne.symm hk)]
      rw [hf, hi]
      simp only [decide_eq_false hk, List.map_nil, List.nil_append]
      cases (w.procs i).pc <;> simp

/-- C111: whatever the other processes do, a process that has finished its updates has subtracted
something from each parameter that the gradient of each of its updates reaches exactly once, in
order, with that gradient, and nothing else. -/
theorem C111_each_once (c : Cfg) (i : Nat) (w : World ι) (l : List (Turn ι)) (hw : ∀ k, (w.procs k).pc = .idle)
    (hi : ((run c w l).1.procs i).pc = .idle) :
    subtracted i (run c w l).2 = (started c i w l).flatMap (reached c.numParams) := by
  have h0 : ∀ k, Ok c.numParams (w.procs k) := by intro k; simp [Ok, hw k]
  have := (run_pending c i l w h0).2
  have h1 : pending c.numParams (w.procs i) = [] := by simp [pending, hw i]
  have h2 : pending c.numParams ((run c w l).1.procs i) = [] := by simp [pending, hi]
  rw [h1, h2] at this
  simpa using this

/-! ## What is subtracted -/

/-- What is subtracted for gradient `g`: as the update rule says, for some mean square. -/
def Valid (hp : Hyper) (g d : Arr ι) : Prop := ∀ j, ∃ v, 0 ≤ v ∧ d j = hp.lr * g j / sqrt (v + hp.eps)

def DeltaInv (hp : Hyper) (q : Proc ι) : Prop :=
  match q.pc with
  | .sub p d => ∀ g, q.grad p = some g → Valid hp g d
  | _ => True

theorem procStep_valid (c : Cfg) (h0 : 0 ≤ c.hp.alpha) (h1 : c.hp.alpha ≤ 1) (G : (Nat → Arr ι) → Nat → Option (Arr ι))
    (sh : Shared ι) (q : Proc ι) (hms : ∀ p j, 0 ≤ sh.ms p j) (hq : DeltaInv c.hp q) :
    (∀ p j, 0 ≤ (procStep c G sh q).1.ms p j) ∧ DeltaInv c.hp (procStep c G sh q).2.1 ∧
    ∀ x ∈ (procStep c G sh q).2.2, Valid c.hp x.2.1 x.2.2 := by
  unfold procStep
  rcases q with ⟨model, grad, pc⟩
  cases pc with
  | idle => exact ⟨hms, trivial, by simp⟩
  | decay p =>
    simp only
    split
    · exact ⟨hms, trivial, by simp⟩
    · split
      · exact ⟨hms, trivial, by simp⟩
      · refine ⟨?_, trivial, by simp⟩
        intro r j
        by_cases hr : r = p
        · subst hr
          simp only [Function.update_self]
          exact mul_nonneg (hms _ _) h0
        · simp only [Function.update_of_ne hr]
          exact hms _ _
  | square p =>
    simp only
    split
    · exact ⟨hms, trivial, by simp⟩
    · rename_i g hg
      refine ⟨?_, trivial, by simp⟩
      intro r j
      by_cases hr : r = p
      · subst hr
        simp only [Function.update_self]
        have h2 : 0 ≤ 1 - c.hp.alpha := by linarith
        have h3 := mul_nonneg h2 (mul_self_nonneg (g j))
        have := hms r j
        rw [mul_assoc]
        linarith
      · simp only [Function.update_of_ne hr]
        exact hms _ _
  | read p =>
    simp only
    split
    · exact ⟨hms, trivial, by simp⟩
    · rename_i g hg
      refine ⟨hms, ?_, by simp⟩
      intro g' hg' j
      simp only at hg'
      rw [hg] at hg'
      cases hg'
      exact ⟨sh.ms p j, hms p j, rfl⟩
  | sub p d =>
    simp only
    split
    · exact ⟨hms, trivial, by simp⟩
    · rename_i g hg
      refine ⟨hms, trivial, ?_⟩
      rintro x ⟨⟩
      exact hq g hg
  | copy p =>
    simp only
    split
    · refine ⟨hms, ?_, by simp⟩
      cases c.trustRegionAlpha <;> exact trivial
    · exact ⟨hms, trivial, by simp⟩
  | mul p =>
    simp only
    split
    · exact ⟨hms, trivial, by simp⟩
    · exact ⟨hms, trivial, by simp⟩
  | add p => exact ⟨hms, trivial, by simp⟩

theorem run_valid (c : Cfg) (h0 : 0 ≤ c.hp.alpha) (h1 : c.hp.alpha ≤ 1) (l : List (Turn ι)) : ∀ (w : World ι),
    (∀ p j, 0 ≤ w.shared.ms p j) → (∀ k, DeltaInv c.hp (w.procs k)) →
    (∀ p j, 0 ≤ (run c w l).1.shared.ms p j) ∧ ∀ x ∈ (run c w l).2, Valid c.hp x.grad x.delta := by
  induction l with
  | nil => intro w h _; exact ⟨h, by simp [run]⟩
  | cons t l ih =>
    intro w h hq
    obtain ⟨a1, a2, a3⟩ := procStep_valid c h0 h1 t.grads w.shared (w.procs t.proc) h (hq _)
    obtain ⟨b1, b2⟩ := ih (step c w t).1 a1 (by
      intro k
      by_cases hk : k = t.proc
      · subst hk; simpa only [step, Function.update_self] using a2
      · simpa only [step, Function.update_of_ne hk] using hq k)
    refine ⟨b1, ?_⟩
    intro x hx
    simp only [run, List.mem_append] at hx
    rcases hx with hx | hx
    · simp only [step, List.mem_map, Option.mem_toList] at hx
      obtain ⟨y, hy, rfl⟩ := hx
      exact a3 y hy
    · exact b2 x hx

/-- C111: whatever the schedule, the shared mean squares never get negative, and everything that is
subtracted for a gradient points in its direction and is at most `lr / sqrt eps` times as large,
in every component. -/
theorem C111_step_size (c : Cfg) (h0 : 0 ≤ c.hp.alpha) (h1 : c.hp.alpha ≤ 1) (hlr : 0 ≤ c.hp.lr) (he : 0 < c.hp.eps)
    (w : World ι) (l : List (Turn ι)) (hw : ∀ k, (w.procs k).pc = .idle) (hms : ∀ p j, 0 ≤ w.shared.ms p j) :
    (∀ p j, 0 ≤ (run c w l).1.shared.ms p j) ∧
    ∀ x ∈ (run c w l).2, ∀ j, 0 ≤ x.delta j * x.grad j ∧ |x.delta j| ≤ c.hp.lr / sqrt c.hp.eps * |x.grad j| := by
  obtain ⟨a1, a2⟩ := run_valid c h0 h1 l w hms (by intro k; simp [DeltaInv, hw k])
  refine ⟨a1, ?_⟩
  intro x hx j
  obtain ⟨v, hv, hd⟩ := a2 x hx j
  have hs : 0 < sqrt (v + c.hp.eps) := sqrt_pos.2 (by linarith)
  have hs' : 0 < sqrt c.hp.eps := sqrt_pos.2 he
  have hle : sqrt c.hp.eps ≤ sqrt (v + c.hp.eps) := sqrt_le_sqrt (by linarith)
  rw [hd]
  constructor
  · rw [show c.hp.lr * x.grad j / sqrt (v + c.hp.eps) * x.grad j =
      c.hp.lr * (x.grad j * x.grad j) / sqrt (v + c.hp.eps) by ring]
    exact div_nonneg (mul_nonneg hlr (mul_self_nonneg _)) hs.le
  · rw [abs_div, abs_mul, abs_of_nonneg hlr, abs_of_pos hs]
    rw [show c.hp.lr / sqrt c.hp.eps * |x.grad j| = c.hp.lr * |x.grad j| / sqrt c.hp.eps by ring]
    exact div_le_div_of_nonneg_left (mul_nonneg hlr (abs_nonneg _)) hs' hle

/-! ## Local models are snapshots -/

theorem run_append (c : Cfg) (l l' : List (Turn ι)) : ∀ w : World ι,
    (run c w (l ++ l')).1 = (run c (run c w l).1 l').1 := by
  induction l with
  | nil => intro w; rfl
  | cons t l ih => intro w; simp only [List.cons_append, run, ih]

theorem worldAt_succ (c : Cfg) (w : World ι) (l : List (Turn ι)) (k : Nat) (hk : k < l.length) :
    worldAt c w l (k + 1) = (step c (worldAt c w l k) l[k]).1 := by
  unfold worldAt
  rw [List.take_add_one, List.getElem?_eq_getElem hk, run_append]
  rfl

/-- C111: a process that starts copying the global parameters at time `a` and has finished at time
`b` has in its own model, for each parameter, a value that the global parameter had at some time in
between: never a stale or a mixed one. -/
theorem C111_snapshot (c : Cfg) (w : World ι) (l : List (Turn ι)) (i a b : Nat) (hab : a ≤ b) (hb : b ≤ l.length)
    (ha : ((worldAt c w l a).procs i).pc = .copy 0)
    (hcopy : ∀ k, a ≤ k → k < b → ∃ p, ((worldAt c w l k).procs i).pc = .copy p)
    (hdone : ∀ p, ((worldAt c w l b).procs i).pc ≠ .copy p) :
    ∀ p, p < c.numParams → ∃ k, a ≤ k ∧ k < b ∧
      ((worldAt c w l b).procs i).model p = (worldAt c w l k).shared.params p := by
  -- while the process copies
  have inv : ∀ k, a ≤ k → k < b → ∀ p, ((worldAt c w l k).procs i).pc = .copy p → ∀ p', p' < p →
      ∃ k', a ≤ k' ∧ k' < k ∧ ((worldAt c w l k).procs i).model p' = (worldAt c w l k').shared.params p' := by
    intro k hak
    induction k, hak using Nat.le_induction with
    | base =>
      intro _ p hp p' hp'
      rw [ha] at hp
      cases hp
      omega
    | succ k hak ih =>
      intro hkb p hp p' hp'
      obtain ⟨p0, h0⟩ := hcopy k hak (by omega)
      have hkl : k < l.length := by omega
      rw [worldAt_succ c w l k hkl] at hp ⊢
      by_cases ht : l[k].proc = i
      · simp only [step, ht, Function.update_self] at hp ⊢
        unfold procStep at hp ⊢
        simp only [h0] at hp ⊢
        split at hp
        · simp only at hp
          split at hp <;> cases hp
        · rename_i hne
          rw [if_neg hne]
          simp only [Pc.copy.injEq] at hp
          have hp'' : p' < p0 + 1 := by omega
          clear hp'
          by_cases h : p' = p0
          · subst h
            exact ⟨k, hak, by omega, by simp⟩
          · obtain ⟨k', b1, b2, b3⟩ := ih (by omega) p0 h0 p' (by omega)
            refine ⟨k', b1, by omega, ?_⟩
            simp only [Function.update_of_ne h]
            exact b3
      · simp only [step, Function.update_of_ne (Ne.symm ht)] at hp ⊢
        rw [h0] at hp
        cases hp
        obtain ⟨k', b1, b2, b3⟩ := ih (by omega) _ h0 p' hp'
        exact ⟨k', b1, by omega, b3⟩
  intro p hp
  have hlt : a < b := by
    rcases Nat.lt_or_ge a b with h | h
    · exact h
    · have : a = b := by omega
      subst this
      exact absurd ha (hdone 0)
  obtain ⟨k, rfl⟩ : ∃ k, b = k + 1 := ⟨b - 1, by omega⟩
  obtain ⟨p0, h0⟩ := hcopy k (by omega) (by omega)
  have hkl : k < l.length := by omega
  have hd := hdone
  rw [worldAt_succ c w l k hkl] at hd ⊢
  by_cases ht : l[k].proc = i
  · simp only [step, ht, Function.update_self] at hd ⊢
    unfold procStep at hd ⊢
    simp only [h0] at hd ⊢
    by_cases hm : p0 = c.numParams
    · rw [if_pos hm]
      obtain ⟨k', b1, b2, b3⟩ := inv k (by omega) (by omega) p0 h0 p (by omega)
      exact ⟨k', b1, by omega, b3⟩
    · rw [if_neg hm] at hd
      exact absurd rfl (hd (p0 + 1))
  · simp only [step, Function.update_of_ne (Ne.symm ht)] at hd
    exact absurd h0 (hd p0)

/-! ## Updates one at a time -/

/-- Process `i` alone gets from `w` to `w'`. -/
def Alone (c : Cfg) (t : Turn ι) (w w' : World ι) : Prop := ∃ n, (run c w (List.replicate n t)).1 = w'

theorem Alone.trans {c : Cfg} {t : Turn ι} {w w' w'' : World ι} (h : Alone c t w w') (h' : Alone c t w' w'') :
    Alone c t w w'' := by
  obtain ⟨n, h⟩ := h
  obtain ⟨n', h'⟩ := h'
  refine ⟨n + n', ?_⟩
  rw [List.replicate_add, run_append, h, h']

theorem Alone.one (c : Cfg) (t : Turn ι) (w : World ι) : Alone c t w (step c w t).1 := ⟨1, rfl⟩

/-- The parameter as the update rule sees it. -/
def asParam (sh : Shared ι) (g : Nat → Option (Arr ι)) (p : Nat) : Optimizers.Param ι := ⟨"", sh.params p, g p, sh.ms p⟩

theorem opt_phase (c : Cfg) (t : Turn ι) (k : Nat) : ∀ (p : Nat) (w : World ι), p + k = c.numParams →
    (w.procs t.proc).pc = .decay p → ∃ w', Alone c t w w' ∧
      w'.procs = Function.update w.procs t.proc { w.procs t.proc with pc := .copy 0 } ∧
      w'.shared.avg = w.shared.avg ∧
      ∀ r, w'.shared.params r = (if p ≤ r ∧ r < c.numParams then
          (updateCore c.hp (asParam w.shared (w.procs t.proc).grad r)).array else w.shared.params r) ∧
        w'.shared.ms r = (if p ≤ r ∧ r < c.numParams then
          (updateCore c.hp (asParam w.shared (w.procs t.proc).grad r)).ms else w.shared.ms r) := by
  induction k with
  | zero =>
    intro p w hp hpc
    refine ⟨_, Alone.one c t w, ?_, ?_, ?_⟩
    · simp only [step, procStep, hpc, if_pos (show p = c.numParams by omega)]
    · simp only [step, procStep, hpc, if_pos (show p = c.numParams by omega)]
    · intro r
      have : ¬ (p ≤ r ∧ r < c.numParams) := by omega
      simp only [step, procStep, hpc, if_pos (show p = c.numParams by omega), if_neg this, and_self]
  | succ k ih =>
    intro p w hp hpc
    have hne : p ≠ c.numParams := by omega
    cases hg : (w.procs t.proc).grad p with
    | none =>
      have h1 : (step c w t).1 = ⟨w.shared, Function.update w.procs t.proc { w.procs t.proc with pc := .decay (p + 1) }⟩ := by
        simp only [step, procStep, hpc, if_neg hne, hg]
      obtain ⟨w', a1, a2, a3, a4⟩ := ih (p + 1) (step c w t).1 (by omega) (by rw [h1]; simp)
      rw [h1] at a2 a3 a4
      refine ⟨w', (Alone.one c t w).trans a1, ?_, a3, ?_⟩
      · rw [a2]; simp
      · intro r
        obtain ⟨b1, b2⟩ := a4 r
        rw [b1, b2]
        simp only [Function.update_self]
        by_cases hr : r = p
        · subst hr
          have e1 : ¬ (r + 1 ≤ r ∧ r < c.numParams) := by omega
          have e2 : r ≤ r ∧ r < c.numParams := by omega
          rw [if_neg e1, if_neg e1, if_pos e2, if_pos e2]
          simp [updateCore, asParam, hg]
        · by_cases hr2 : p + 1 ≤ r ∧ r < c.numParams
          · have e2 : p ≤ r ∧ r < c.numParams := by omega
            rw [if_pos hr2, if_pos hr2, if_pos e2, if_pos e2]; exact ⟨rfl, rfl⟩
          · have e2 : ¬ (p ≤ r ∧ r < c.numParams) := by omega
            rw [if_neg hr2, if_neg hr2, if_neg e2, if_neg e2]; exact ⟨rfl, rfl⟩
    | some g =>
      -- the four operations
      let ms1 := Function.update w.shared.ms p fun i => w.shared.ms p i * c.hp.alpha
      let ms2 := Function.update ms1 p fun i => ms1 p i + (1 - c.hp.alpha) * g i * g i
      let d : Arr ι := fun i => c.hp.lr * g i / sqrt (ms2 p i + c.hp.eps)
      let par := Function.update w.shared.params p fun i => w.shared.params p i - d i
      have h1 : (step c w t).1 = ⟨⟨w.shared.params, ms1, w.shared.avg⟩,
          Function.update w.procs t.proc { w.procs t.proc with pc := .square p }⟩ := by
        simp only [step, procStep, hpc, if_neg hne, hg, ms1]
      have h2 : (step c (step c w t).1 t).1 = ⟨⟨w.shared.params, ms2, w.shared.avg⟩,
          Function.update w.procs t.proc { w.procs t.proc with pc := .read p }⟩ := by
        rw [h1]
        simp only [step, procStep, Function.update_self, hg, Function.update_idem, ms2]
      have h3 : (step c (step c (step c w t).1 t).1 t).1 = ⟨⟨w.shared.params, ms2, w.shared.avg⟩,
          Function.update w.procs t.proc { w.procs t.proc with pc := .sub p d }⟩ := by
        rw [h2]
        simp only [step, procStep, Function.update_self, hg, Function.update_idem, d]
      have h4 : (step c (step c (step c (step c w t).1 t).1 t).1 t).1 = ⟨⟨par, ms2, w.shared.avg⟩,
          Function.update w.procs t.proc { w.procs t.proc with pc := .decay (p + 1) }⟩ := by
        rw [h3]
        simp only [step, procStep, Function.update_self, hg, Function.update_idem, par]
      obtain ⟨w', a1, a2, a3, a4⟩ := ih (p + 1) (step c (step c (step c (step c w t).1 t).1 t).1 t).1 (by omega)
        (by rw [h4]; simp)
      have hreach := (((Alone.one c t w).trans (Alone.one c t _)).trans (Alone.one c t _)).trans (Alone.one c t _)
      rw [h4] at a2 a3 a4
      refine ⟨w', hreach.trans a1, ?_, a3, ?_⟩
      · rw [a2]; simp
      · intro r
        obtain ⟨b1, b2⟩ := a4 r
        rw [b1, b2]
        simp only [Function.update_self]
        by_cases hr : r = p
        · subst hr
          have e1 : ¬ (r + 1 ≤ r ∧ r < c.numParams) := by omega
          have e2 : r ≤ r ∧ r < c.numParams := by omega
          rw [if_neg e1, if_neg e1, if_pos e2, if_pos e2]
          simp [updateCore, asParam, hg, par, d, ms2, ms1]
        · by_cases hr2 : p + 1 ≤ r ∧ r < c.numParams
          · have e2 : p ≤ r ∧ r < c.numParams := by omega
            rw [if_pos hr2, if_pos hr2, if_pos e2, if_pos e2]
            simp [updateCore, asParam, par, ms2, ms1, Function.update_of_ne hr]
          · have e2 : ¬ (p ≤ r ∧ r < c.numParams) := by omega
            rw [if_neg hr2, if_neg hr2, if_neg e2, if_neg e2]
            simp [par, ms2, ms1, Function.update_of_ne hr]

theorem copy_phase (c : Cfg) (t : Turn ι) (k : Nat) : ∀ (p : Nat) (w : World ι), p + k = c.numParams →
    (w.procs t.proc).pc = .copy p → ∃ w', Alone c t w w' ∧ w'.shared = w.shared ∧
      w'.procs = Function.update w.procs t.proc { w.procs t.proc with
        model := fun r => if p ≤ r ∧ r < c.numParams then w.shared.params r else (w.procs t.proc).model r
        pc := if c.trustRegionAlpha.isSome then .mul 0 else .idle } := by
  induction k with
  | zero =>
    intro p w hp hpc
    refine ⟨_, Alone.one c t w, ?_, ?_⟩
    · simp only [step, procStep, hpc, if_pos (show p = c.numParams by omega)]
    · simp only [step, procStep, hpc, if_pos (show p = c.numParams by omega)]
      congr 1
      congr 1
      funext r
      rw [if_neg (by omega)]
  | succ k ih =>
    intro p w hp hpc
    have hne : p ≠ c.numParams := by omega
    have h1 : (step c w t).1 = ⟨w.shared, Function.update w.procs t.proc { w.procs t.proc with
        model := Function.update (w.procs t.proc).model p (w.shared.params p), pc := .copy (p + 1) }⟩ := by
      simp only [step, procStep, hpc, if_neg hne]
    obtain ⟨w', a1, a2, a3⟩ := ih (p + 1) (step c w t).1 (by omega) (by rw [h1]; simp)
    rw [h1] at a2 a3
    refine ⟨w', (Alone.one c t w).trans a1, a2, ?_⟩
    rw [a3]
    simp only [Function.update_self, Function.update_idem]
    congr 1
    congr 1
    funext r
    by_cases hr : r = p
    · subst hr
      rw [if_neg (by omega), if_pos (by omega), Function.update_self]
    · rw [Function.update_of_ne hr]
      by_cases hr2 : p + 1 ≤ r ∧ r < c.numParams
      · rw [if_pos hr2, if_pos (by omega)]
      · rw [if_neg hr2, if_neg (by omega)]

theorem avg_phase (c : Cfg) (alpha : ℝ) (hc : c.trustRegionAlpha = some alpha) (t : Turn ι) (k : Nat) :
    ∀ (p : Nat) (w : World ι), p + k = c.numParams →
    (w.procs t.proc).pc = .mul p → ∃ w', Alone c t w w' ∧ w'.shared.params = w.shared.params ∧
      w'.shared.ms = w.shared.ms ∧ w'.procs = Function.update w.procs t.proc { w.procs t.proc with pc := .idle } ∧
      ∀ r j, w'.shared.avg r j = if p ≤ r ∧ r < c.numParams then
        alpha * w.shared.avg r j + (1 - alpha) * (w.procs t.proc).model r j else w.shared.avg r j := by
  induction k with
  | zero =>
    intro p w hp hpc
    refine ⟨_, Alone.one c t w, ?_, ?_, ?_, ?_⟩
    · simp only [step, procStep, hpc, if_pos (show p = c.numParams by omega)]
    · simp only [step, procStep, hpc, if_pos (show p = c.numParams by omega)]
    · simp only [step, procStep, hpc, if_pos (show p = c.numParams by omega)]
    · intro r j
      simp only [step, procStep, hpc, if_pos (show p = c.numParams by omega)]
      rw [if_neg (by omega)]
  | succ k ih =>
    intro p w hp hpc
    have hne : p ≠ c.numParams := by omega
    let avg1 := Function.update w.shared.avg p fun i => w.shared.avg p i * (1 - (1 - alpha))
    let avg2 := Function.update avg1 p fun i => avg1 p i + (1 - alpha) * (w.procs t.proc).model p i
    have h1 : (step c w t).1 = ⟨⟨w.shared.params, w.shared.ms, avg1⟩,
        Function.update w.procs t.proc { w.procs t.proc with pc := .add p }⟩ := by
      simp only [step, procStep, hpc, if_neg hne, hc, Option.getD_some, avg1]
    have h2 : (step c (step c w t).1 t).1 = ⟨⟨w.shared.params, w.shared.ms, avg2⟩,
        Function.update w.procs t.proc { w.procs t.proc with pc := .mul (p + 1) }⟩ := by
      rw [h1]
      simp only [step, procStep, Function.update_self, Function.update_idem, hc, Option.getD_some, avg2]
    obtain ⟨w', a1, a2, a3, a4, a5⟩ := ih (p + 1) (step c (step c w t).1 t).1 (by omega) (by rw [h2]; simp)
    rw [h2] at a2 a3 a4 a5
    refine ⟨w', ((Alone.one c t w).trans (Alone.one c t _)).trans a1, a2, a3, ?_, ?_⟩
    · rw [a4]; simp
    · intro r j
      rw [a5]
      simp only [Function.update_self]
      by_cases hr : r = p
      · subst hr
        rw [if_neg (by omega), if_pos (by omega)]
        simp only [avg2, avg1, Function.update_self]
        ring
      · have : avg2 r = w.shared.avg r := by simp only [avg2, avg1, Function.update_of_ne hr]
        rw [this]
        by_cases hr2 : p + 1 ≤ r ∧ r < c.numParams
        · rw [if_pos hr2, if_pos (by omega)]
        · rw [if_neg hr2, if_neg (by omega)]

/-- C111: an update that is not interrupted by other processes computes the gradients at the
parameters of the process's model, applies the update rule of C85 once to every global parameter, and
then the process's model is the global model; with ACER the average model moves towards it by
`1 - trust_region_alpha`.  Nothing else changes. -/
theorem C111_serial (c : Cfg) (t : Turn ι) (w : World ι) (hw : (w.procs t.proc).pc = .idle) :
    ∃ n, let w' := (run c w (List.replicate n t)).1
      (w'.procs t.proc).pc = .idle ∧ (∀ k, k ≠ t.proc → w'.procs k = w.procs k) ∧
      (∀ p, p < c.numParams →
        w'.shared.params p = (updateCore c.hp (asParam w.shared (t.grads (w.procs t.proc).model) p)).array ∧
        w'.shared.ms p = (updateCore c.hp (asParam w.shared (t.grads (w.procs t.proc).model) p)).ms ∧
        (w'.procs t.proc).model p = w'.shared.params p ∧
        ∀ alpha, c.trustRegionAlpha = some alpha → ∀ j,
          w'.shared.avg p j = alpha * w.shared.avg p j + (1 - alpha) * w'.shared.params p j) ∧
      (∀ p, c.numParams ≤ p → w'.shared.params p = w.shared.params p ∧ w'.shared.ms p = w.shared.ms p) ∧
      (c.trustRegionAlpha = none → w'.shared.avg = w.shared.avg) := by
  have h1 : (step c w t).1 = ⟨w.shared, Function.update w.procs t.proc { w.procs t.proc with
      grad := t.grads (w.procs t.proc).model, pc := .decay 0 }⟩ := by
    simp only [step, procStep, hw]
  obtain ⟨w1, a1, a2, a3, a4⟩ := opt_phase c t c.numParams 0 (step c w t).1 (by omega) (by rw [h1]; simp)
  rw [h1] at a2 a3 a4
  simp only [Function.update_self, Function.update_idem] at a2 a4
  obtain ⟨w2, b1, b2, b3⟩ := copy_phase c t c.numParams 0 w1 (by omega) (by rw [a2]; simp)
  have hr := ((Alone.one c t w).trans a1).trans b1
  rw [a2] at b3
  simp only [Function.update_self, Function.update_idem] at b3
  cases hc : c.trustRegionAlpha with
  | none =>
    obtain ⟨n, hn⟩ := hr
    refine ⟨n, ?_⟩
    simp only
    rw [hn, b2, b3]
    refine ⟨by simp [hc], fun k hk => Function.update_of_ne hk _ _, ?_, ?_, fun _ => a3⟩
    · intro p hp
      obtain ⟨c1, c2⟩ := a4 p
      rw [if_pos ⟨Nat.zero_le _, hp⟩] at c1 c2
      refine ⟨c1, c2, ?_, ?_⟩
      · simp [hp]
      · intro alpha h; cases h
    · intro p hp
      obtain ⟨c1, c2⟩ := a4 p
      rw [if_neg (by omega)] at c1 c2
      exact ⟨c1, c2⟩
  | some alpha =>
    obtain ⟨w3, d1, d2, d3, d4, d5⟩ := avg_phase c alpha hc t c.numParams 0 w2 (by omega) (by rw [b3]; simp [hc])
    obtain ⟨n, hn⟩ := hr.trans d1
    refine ⟨n, ?_⟩
    simp only
    rw [b3] at d4 d5
    simp only [Function.update_self, Function.update_idem] at d4 d5
    rw [hn, d2, d3, d4, b2]
    refine ⟨by simp, fun k hk => Function.update_of_ne hk _ _, ?_, ?_, fun h => by cases h⟩
    · intro p hp
      obtain ⟨c1, c2⟩ := a4 p
      rw [if_pos ⟨Nat.zero_le _, hp⟩] at c1 c2
      refine ⟨c1, c2, ?_, ?_⟩
      · simp [hp]
      · rintro _ ⟨⟩ j
        rw [d5, if_pos ⟨Nat.zero_le _, hp⟩, if_pos ⟨Nat.zero_le _, hp⟩, b2, a3]
    · intro p hp
      obtain ⟨c1, c2⟩ := a4 p
      rw [if_neg (by omega)] at c1 c2
      exact ⟨c1, c2⟩

/-! ## ACER's average model -/

/-- Two processes with one parameter, all values 1, and no gradients. -/
noncomputable def ones : World Unit :=
  ⟨⟨fun _ _ => 1, fun _ _ => 0, fun _ _ => 1⟩, fun _ => ⟨fun _ _ => 1, fun _ => none, .idle⟩⟩

/-- C111, violated: the average model is not an average when two processes of ACER synchronise at the
same time.  `soft_copy_param` multiplies by `trust_region_alpha` and adds `1 - trust_region_alpha`
times the model in two steps; if both multiply first, the weights add up to
`1 + (1 - trust_region_alpha) ^ 2`.  Here all parameters of all models are 1, no gradient changes
anything, and the average model leaves 1. -/
theorem C111_violated_average (hp : Hyper) (alpha : ℝ) :
    let t : Nat → Turn Unit := fun i => ⟨i, fun _ _ => none⟩
    let l := List.replicate 6 (t 0) ++ List.replicate 6 (t 1) ++ List.replicate 2 (t 0) ++ List.replicate 2 (t 1)
    let w' := (run ⟨1, hp, some alpha⟩ ones l).1
    (w'.procs 0).pc = .idle ∧ (w'.procs 1).pc = .idle ∧ w'.shared.params 0 () = 1 ∧
      w'.shared.avg 0 () = 1 + (1 - alpha) ^ 2 := by
  intro t l w'
  have h : w'.shared.avg 0 () = 1 * (1 - (1 - alpha)) * (1 - (1 - alpha)) + (1 - alpha) * 1 + (1 - alpha) * 1 := rfl
  refine ⟨rfl, rfl, rfl, ?_⟩
  rw [h]; ring

/-- Without interference the same two updates leave the average model at 1. -/
example (hp : Hyper) (alpha : ℝ) :
    let t : Nat → Turn Unit := fun i => ⟨i, fun _ _ => none⟩
    let w' := (run ⟨1, hp, some alpha⟩ ones (List.replicate 8 (t 0) ++ List.replicate 8 (t 1))).1
    (w'.procs 0).pc = .idle ∧ (w'.procs 1).pc = .idle ∧ w'.shared.avg 0 () = 1 := by
  intro t w'
  have h : w'.shared.avg 0 () = (1 * (1 - (1 - alpha)) + (1 - alpha) * 1) * (1 - (1 - alpha)) + (1 - alpha) * 1 := rfl
  refine ⟨rfl, rfl, ?_⟩
  rw [h]; ring

/-- Two processes that update one parameter at the same time: both gradients count. -/
example (hp : Hyper) : ∃ d0 d1 : ℝ,
    let t : Nat → ℝ → Turn Unit := fun i g => ⟨i, fun _ _ => some fun _ => g⟩
    let r := run ⟨1, hp, none⟩ ones ([t 0 3, t 1 5, t 0 3, t 1 5, t 1 5, t 0 3, t 0 3, t 1 5, t 1 5, t 0 3] )
    r.1.shared.params 0 () = 1 - d1 - d0 ∧
      r.2.map (fun x => (x.proc, x.param, x.grad ())) = [(1, 0, 5), (0, 0, 3)] := ⟨_, _, rfl, rfl⟩

/-! ## Loading -/

/-- C111: after `load` the global model and the model of the process that loads are the saved one, so
its next update (if it is not interrupted) starts there: the gradients are computed at, and the
update rule is applied to, the saved parameters. -/
theorem C111_load (c : Cfg) (file ms : Nat → Arr ι) (t : Turn ι) (w : World ι) (hw : (w.procs t.proc).pc = .idle) :
    ∃ n, ∀ p, p < c.numParams →
      (run c (load file ms t.proc w) (List.replicate n t)).1.shared.params p =
        (updateCore c.hp ⟨"", file p, t.grads file p, ms p⟩).array := by
  have h0 : ((load file ms t.proc w).procs t.proc).pc = .idle := by simp [load, hw]
  obtain ⟨n, _, _, h, _⟩ := C111_serial c t (load file ms t.proc w) h0
  refine ⟨n, fun p hp => ?_⟩
  rw [(h p hp).1]
  simp [load, asParam]

/-- C111, violated: `load` does not restore ACER's average model.  Let an agent be saved in world `w`
(its process idle, its model the global one), and loaded by a new agent in world `w0`.  If the average models
of the two differ in some parameter, then after the next update with the same gradients the loaded agent has the same
parameters as the agent that simply went on, but another average model, that is, another trust
region. -/
theorem C111_violated_load_average (c : Cfg) (alpha : ℝ) (hc : c.trustRegionAlpha = some alpha) (h0 : alpha ≠ 0)
    (t : Turn ι) (w w0 : World ι) (hw : (w.procs t.proc).pc = .idle) (hw0 : (w0.procs t.proc).pc = .idle)
    (hm : (w.procs t.proc).model = w.shared.params) (p : Nat) (hp : p < c.numParams) (j : ι)
    (hd : w.shared.avg p j ≠ w0.shared.avg p j) : ∃ n n',
    let w1 := (run c w (List.replicate n t)).1
    let w2 := (run c (load w.shared.params w.shared.ms t.proc w0) (List.replicate n' t)).1
    (w1.procs t.proc).pc = .idle ∧ (w2.procs t.proc).pc = .idle ∧ w1.shared.params p = w2.shared.params p ∧
      w1.shared.avg p j ≠ w2.shared.avg p j := by
  obtain ⟨n, a1, _, a2, _⟩ := C111_serial c t w hw
  obtain ⟨n', b1, _, b2, _⟩ := C111_serial c t (load w.shared.params w.shared.ms t.proc w0) (by simp [load, hw0])
  refine ⟨n, n', a1, b1, ?_⟩
  obtain ⟨a3, _, _, a4⟩ := a2 p hp
  obtain ⟨b3, _, _, b4⟩ := b2 p hp
  have e : (run c w (List.replicate n t)).1.shared.params p =
      (run c (load w.shared.params w.shared.ms t.proc w0) (List.replicate n' t)).1.shared.params p := by
    rw [a3, b3]
    simp [load, asParam, hm]
  refine ⟨e, ?_⟩
  rw [a4 alpha hc j, b4 alpha hc j, e]
  have : (load w.shared.params w.shared.ms t.proc w0).shared.avg p j = w0.shared.avg p j := rfl
  rw [this]
  intro h
  exact hd (mul_left_cancel₀ h0 (by linarith))

-- the hypotheses of `C111_step_size`, for any schedule of the two processes
example (l : List (Turn Unit)) := C111_step_size ⟨1, ⟨1 / 10, 9 / 10, 1 / 100⟩, none⟩ (by norm_num) (by norm_num) (by norm_num)
  (by norm_num) ones l (fun _ => rfl) (fun _ _ => le_refl _)

-- and of `C111_violated_load_average`: the loading world is the initial one, the other has an average model that has moved on
example (t : Turn Unit) (hp : Hyper) := C111_violated_load_average ⟨1, hp, some (99 / 100)⟩ (99 / 100) rfl (by norm_num) t
  { ones with shared := { ones.shared with avg := fun _ _ => 3 } } ones rfl rfl rfl 0 Nat.one_pos () (by norm_num [ones])

-- and of `C111_snapshot`: after one turn for each of its two parameters (without gradient) process 0 copies them, and process 1 acts in between
example (hp : Hyper) :
    let t : Nat → Turn Unit := fun i => ⟨i, fun _ _ => none⟩
    let l := [t 0, t 0, t 0, t 0, t 0, t 1, t 0, t 0]
    ∀ p, p < 2 → ∃ k, 4 ≤ k ∧ k < 8 ∧ ((worldAt ⟨2, hp, none⟩ ones l 8).procs 0).model p = (worldAt ⟨2, hp, none⟩ ones l k).shared.params p := by
  intro t l
  refine C111_snapshot ⟨2, hp, none⟩ ones l 0 4 8 (by omega) (le_refl _) rfl ?_ ?_
  · intro k h1 h2
    obtain rfl | rfl | rfl | rfl : k = 4 ∨ k = 5 ∨ k = 6 ∨ k = 7 := by omega
    all_goals exact ⟨_, rfl⟩
  · intro p h
    have : ((worldAt ⟨2, hp, none⟩ ones l 8).procs 0).pc = .idle := rfl
    rw [this] at h
    cases h

end Verif.AsyncUpdate
