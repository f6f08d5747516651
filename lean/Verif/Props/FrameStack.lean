import Mathlib.Tactic.Common
import Verif.Model.FrameStack
set_option autoImplicit false

/-! # C34: frame stacks -/

namespace Verif.FrameStack
variable {F : Type}

/-! ## Specification -/

/-- The last `k` frames of the episode that began with frame `first`, which is
repeated before the beginning. -/
def lastFrames (k : Nat) (first : F) (later : List F) : List F :=
  (List.replicate k first ++ later).drop later.length

/-- The frames of environment `i` since its last reset in a history: the first one
and the later ones; `none` if it was never reset. -/
def episode (i : Nat) : List (VOp F) → Option (F × List F) → Option (F × List F)
  | [], e => e
  | .reset mask obs :: ops, e =>
    let isReset := match mask with
      | none => true
      | some m => m[i]? == some false
    match obs[i]? with
    | some o => episode i ops (if isReset then some (o, []) else e)
    | none => episode i ops e
  | .step obs :: ops, e =>
    match obs[i]? with
    | some o => episode i ops (e.map fun x => (x.1, x.2 ++ [o]))
    | none => episode i ops e

/-- All lists in a call have one entry per environment. -/
def VOp.width (n : Nat) : VOp F → Prop
  | .reset none obs => obs.length = n
  | .reset (some m) obs => m.length = n ∧ obs.length = n
  | .step obs => obs.length = n

/-! ## Proofs -/

theorem push_length (k : Nat) (q : List F) (x : F) (h : q.length ≤ k) : (push k q x).length ≤ k := by
  simp [push]; omega

/-- Appending to a full deque of which `later` are after the first. -/
theorem push_last (k : Nat) (f : F) (later : List F) (x : F) :
    push k (lastFrames k f later) x = lastFrames k f (later ++ [x]) := by
  have hlen : (lastFrames k f later).length = k := by simp [lastFrames]
  unfold push
  rw [hlen]
  simp only [Nat.add_sub_cancel_left]
  unfold lastFrames
  rw [← List.append_assoc, List.length_append, List.length_singleton, ← List.drop_drop]
  congr 1
  exact (List.drop_append_of_le_length (l₁ := List.replicate k f ++ later) (l₂ := [x]) (by simp)).symm

/-- After the first `k` appends nothing older is left. -/
theorem pushN_eq (k : Nat) (x : F) (n : Nat) : ∀ q : List F, q.length ≤ k →
    pushN k x n q = (q ++ List.replicate n x).drop (q.length + n - k) := by
  induction n with
  | zero => intro q h; simp [pushN, Nat.sub_eq_zero_of_le h]
  | succ n ih =>
    intro q h
    rw [pushN, ih _ (push_length k q x h)]
    have hl : (push k q x).length = q.length + 1 - (q.length + 1 - k) := by simp [push]
    rw [hl]
    unfold push
    have h1 : (List.drop (q.length + 1 - k) (q ++ [x]) ++ List.replicate n x) =
        List.drop (q.length + 1 - k) (q ++ List.replicate (n + 1) x) := by
      rw [List.replicate_succ, ← List.singleton_append (l := List.replicate n x), ← List.append_assoc]
      exact (List.drop_append_of_le_length (l₁ := q ++ [x]) (l₂ := List.replicate n x) (by simp)).symm
    rw [h1, List.drop_drop]
    congr 1
    omega

theorem pushN_full (k : Nat) (x : F) (q : List F) (h : q.length ≤ k) : pushN k x k q = lastFrames k x [] := by
  rw [pushN_eq k x k q h]
  simp [lastFrames]

/-- What the deque of environment `i` has, given its episode. -/
def Stack (k : Nat) (q : List F) : Option (F × List F) → Prop
  | none => q.length ≤ k
  | some (f, later) => q = lastFrames k f later

theorem Stack.length {k : Nat} {q : List F} {e : Option (F × List F)} (h : Stack k q e) : q.length ≤ k := by
  cases e with
  | none => exact h
  | some x =>
    obtain ⟨f, later⟩ := x
    have h' : q = lastFrames k f later := h
    simp [h', lastFrames]

theorem resetAll_get (k : Nat) (ms : List Bool) : ∀ (qs : List (List F)) (os : List F) (i : Nat) (m : Bool) (q : List F) (o : F),
    ms[i]? = some m → qs[i]? = some q → os[i]? = some o →
    (resetAll k ms qs os)[i]? = some (resetFrames k m q o) := by
  induction ms with
  | nil => intro qs os i m q o h; simp at h
  | cons m' ms ih =>
    intro qs os i m q o h1 h2 h3
    cases qs with
    | nil => simp at h2
    | cons q' qs =>
      cases os with
      | nil => simp at h3
      | cons o' os =>
        cases i with
        | zero => simp_all [resetAll]
        | succ i => simpa [resetAll] using ih qs os i m q o (by simpa using h1) (by simpa using h2) (by simpa using h3)

theorem stepAll_get (k : Nat) (qs : List (List F)) : ∀ (os : List F) (i : Nat) (q : List F) (o : F),
    qs[i]? = some q → os[i]? = some o → (stepAll k qs os)[i]? = some (push k q o) := by
  induction qs with
  | nil => intro os i q o h; simp at h
  | cons q' qs ih =>
    intro os i q o h2 h3
    cases os with
    | nil => simp at h3
    | cons o' os =>
      cases i with
      | zero => simp_all [stepAll]
      | succ i => simpa [stepAll] using ih os i q o (by simpa using h2) (by simpa using h3)

theorem resetAll_length (k : Nat) (ms : List Bool) : ∀ (qs : List (List F)) (os : List F),
    (resetAll k ms qs os).length = qs.length := by
  induction ms with
  | nil => intro qs os; simp [resetAll]
  | cons m ms ih =>
    intro qs os
    cases qs with
    | nil => simp [resetAll]
    | cons q qs =>
      cases os with
      | nil => simp [resetAll]
      | cons o os => simp [resetAll, ih]

theorem stepAll_length (k : Nat) (qs : List (List F)) : ∀ (os : List F), (stepAll k qs os).length = qs.length := by
  induction qs with
  | nil => intro os; simp [stepAll]
  | cons q qs ih =>
    intro os
    cases os with
    | nil => simp [stepAll]
    | cons o os => simp [stepAll, ih]

theorem call_frames (v : VState F) (op : VOp F) : (v.call op).1.k = v.k ∧ (v.call op).1.frames.length = v.frames.length := by
  cases op with
  | reset mask obs => simp [VState.call, resetAll_length]
  | step obs => simp [VState.call, stepAll_length]

theorem after_frames (ops : List (VOp F)) : ∀ v : VState F,
    (v.after ops).k = v.k ∧ (v.after ops).frames.length = v.frames.length := by
  induction ops with
  | nil => intro v; exact ⟨rfl, rfl⟩
  | cons op ops ih =>
    intro v
    obtain ⟨h1, h2⟩ := call_frames v op
    obtain ⟨h3, h4⟩ := ih (v.call op).1
    exact ⟨by rw [← h1, ← h3]; rfl, by rw [← h2, ← h4]; rfl⟩

theorem after_stack (ops : List (VOp F)) : ∀ (v : VState F) (e : Option (F × List F)) (i : Nat) (q : List F),
    (∀ op ∈ ops, op.width v.frames.length) → v.frames[i]? = some q → Stack v.k q e →
    ∃ q', (v.after ops).frames[i]? = some q' ∧ Stack v.k q' (episode i ops e) := by
  induction ops with
  | nil => intro v e i q _ hq hs; exact ⟨q, hq, hs⟩
  | cons op ops ih =>
    intro v e i q hw hq hs
    have hi : i < v.frames.length := (List.getElem?_eq_some_iff.mp hq).1
    have hw0 := hw op List.mem_cons_self
    obtain ⟨hk, hl⟩ := call_frames v op
    have hw' : ∀ x ∈ ops, x.width (v.call op).1.frames.length := by
      intro x hx; rw [hl]; exact hw x (List.mem_cons_of_mem _ hx)
    have next : ∀ q1 e1, (v.call op).1.frames[i]? = some q1 → Stack v.k q1 e1 →
        ∃ q', (v.after (op :: ops)).frames[i]? = some q' ∧ Stack v.k q' (episode i ops e1) := by
      intro q1 e1 h1 h2
      obtain ⟨q', h3, h4⟩ := ih (v.call op).1 e1 i q1 hw' h1 (by rw [hk]; exact h2)
      exact ⟨q', h3, by rw [← hk]; exact h4⟩
    cases op with
    | step obs =>
      simp only [VOp.width] at hw0
      have ho := List.getElem?_eq_getElem (l := obs) (i := i) (by omega)
      simp only [episode, ho]
      refine next (push v.k q obs[i]) _ (stepAll_get v.k _ _ i q _ hq ho) ?_
      cases e with
      | none => exact push_length _ _ _ hs
      | some x =>
        obtain ⟨f, later⟩ := x
        show push v.k q _ = lastFrames v.k f (later ++ [_])
        have h' : q = lastFrames v.k f later := hs
        rw [h', push_last]
    | reset mask obs =>
      have hol : obs.length = v.frames.length := by
        cases mask with
        | none => exact hw0
        | some m => exact hw0.2
      have ho := List.getElem?_eq_getElem (l := obs) (i := i) (by omega)
      simp only [episode, ho]
      obtain ⟨m, hm, hmm⟩ : ∃ m, (maskOf v.frames.length mask)[i]? = some m ∧
          (match mask with | none => true | some m => m[i]? == some false) = !m := by
        cases mask with
        | none => exact ⟨false, by simp [maskOf, hi], rfl⟩
        | some l =>
          have := hw0.1
          have hm := List.getElem?_eq_getElem (l := l) (i := i) (by omega)
          refine ⟨l[i], hm, ?_⟩
          simp only [hm]
          cases l[i] <;> rfl
      rw [hmm]
      refine next (resetFrames v.k m q obs[i]) _ (resetAll_get v.k _ _ _ i m q _ hm hq ho) ?_
      cases m with
      | true => exact hs
      | false => exact pushN_full _ _ _ hs.length

/-! ## The properties -/

/-- C34 (VectorFrameStack).  After every history, a call's stacked observation of an
environment that has been reset consists of the `k` last frames of its current
episode, the first one being repeated to fill; resets of other environments (a
mask entry of true) do not matter. -/
theorem C34_vector (k n : Nat) (ops : List (VOp F)) (op : VOp F) (hw : ∀ x ∈ ops ++ [op], x.width n) (i : Nat)
    (hi : i < n) (f : F) (later : List F) (he : episode i (ops ++ [op]) none = some (f, later))
    (obs : List (List F)) (hobs : (((VState.init k n).after ops).call op).2 = some obs) :
    obs.length = n ∧ obs[i]? = some (lastFrames k f later) := by
  have hlen : (VState.init k n : VState F).frames.length = n := by simp [VState.init]
  obtain ⟨q', h1, h2⟩ := after_stack (ops ++ [op]) (VState.init k n) none i []
    (by rw [hlen]; exact hw) (by simp [VState.init, hi]) (by simp [Stack])
  obtain ⟨_, h4⟩ := after_frames (ops ++ [op]) (VState.init k n : VState F)
  rw [he] at h2
  have hst : (VState.init k n : VState F).after (ops ++ [op]) = (((VState.init k n).after ops).call op).1 := by
    simp [VState.after]
  rw [hst] at h1 h4
  have hget : getOb (((VState.init k n).after ops).call op).1 = some obs := by
    cases op <;> exact hobs
  unfold getOb at hget
  split at hget
  · cases hget
  · rename_i q qs hq
    split at hget
    · cases hget
      exact ⟨by rw [h4, hlen], by rw [h1]; exact congrArg some h2⟩
    · cases hget

/-- C34: the assertion holds as soon as the first environment has been reset. -/
theorem C34_vector_no_error (k n : Nat) (ops : List (VOp F)) (op : VOp F) (hw : ∀ x ∈ ops ++ [op], x.width n)
    (hn : 0 < n) (e : F × List F) (he : episode 0 (ops ++ [op]) none = some e) :
    ∃ obs, (((VState.init k n).after ops).call op).2 = some obs := by
  have hlen : (VState.init k n : VState F).frames.length = n := by simp [VState.init]
  obtain ⟨q', h1, h2⟩ := after_stack (ops ++ [op]) (VState.init k n) none 0 []
    (by rw [hlen]; exact hw) (by simp [VState.init, hn]) (by simp [Stack])
  obtain ⟨h3, _⟩ := after_frames (ops ++ [op]) (VState.init k n : VState F)
  rw [he] at h2
  have hst : (VState.init k n : VState F).after (ops ++ [op]) = (((VState.init k n).after ops).call op).1 := by
    simp [VState.after]
  rw [hst] at h1 h3
  have hq : q'.length = k := by
    obtain ⟨f, later⟩ := e
    have h2' : q' = lastFrames k f later := h2
    simp [h2', lastFrames]
  have : getOb (((VState.init k n).after ops).call op).1 = some (((VState.init k n).after ops).call op).1.frames := by
    unfold getOb
    split
    · rename_i hnil; rw [hnil] at h1; simp at h1
    · rename_i q qs hcons
      rw [hcons] at h1
      simp only [List.getElem?_cons_zero, Option.some.injEq] at h1
      rw [if_pos (by rw [h1, hq, h3]; rfl), hcons]
  refine ⟨(((VState.init k n).after ops).call op).1.frames, ?_⟩
  cases op <;> exact this

theorem sCall_stack (k : Nat) (f : F) (later : List F) (l : List F) : ∀ q, q = lastFrames k f later →
    (l.map SOp.step).foldl (sCall k) q = lastFrames k f (later ++ l) := by
  induction l generalizing later with
  | nil => intro q h; simpa using h
  | cons x l ih =>
    intro q h
    rw [List.map_cons, List.foldl_cons]
    have := ih (later ++ [x]) (sCall k q (.step x)) (by simp [sCall, h, push_last])
    rw [this, List.append_assoc, List.singleton_append]

theorem sCall_length (k : Nat) (ops : List (SOp F)) : ∀ q : List F, q.length ≤ k → (ops.foldl (sCall k) q).length ≤ k := by
  induction ops with
  | nil => intro q h; exact h
  | cons op ops ih =>
    intro q h
    rw [List.foldl_cons]
    apply ih
    cases op with
    | reset ob =>
      simp only [sCall, pushN_full k ob q h]
      simp [lastFrames]
    | step ob => exact push_length k q ob h

/-- C34 (FrameStack).  After any history, a reset and any further steps, the last
call returns the `k` last frames since that reset. -/
theorem C34_single (k : Nat) (before : List (SOp F)) (f : F) (later : List F) :
    sRun k (before ++ SOp.reset f :: later.map SOp.step) = some (lastFrames k f later) := by
  unfold sRun
  rw [List.foldl_append, List.foldl_cons]
  have h1 := sCall_length k before [] (by simp)
  rw [sCall_stack k f [] later _ (by simp [sCall, pushN_full k f _ h1])]
  simp [sGetOb, lastFrames]

/-- C34 (FrameStack): a step before the first reset is an error (for `k > 1`
after one step). -/
theorem C34_single_before_reset (k : Nat) (later : List F) (h : later.length < k) :
    sRun k (later.map SOp.step) = none := by
  have key : ∀ (l q : List F), q.length + l.length < k →
      ((l.map SOp.step).foldl (sCall k) q).length = q.length + l.length := by
    intro l
    induction l with
    | nil => intro q _; simp
    | cons x l ih =>
      intro q hq
      simp only [List.length_cons] at hq
      rw [List.map_cons, List.foldl_cons, ih]
      · simp only [sCall, push, List.length_drop, List.length_append, List.length_cons, List.length_nil]; omega
      · simp only [sCall, push, List.length_drop, List.length_append, List.length_cons, List.length_nil]; omega
  have := key later [] (by simpa using h)
  unfold sRun sGetOb
  rw [if_neg]
  rw [this]
  simp
  omega

/-! ## Concrete cases -/

-- what `lastFrames` means
example : lastFrames 4 'a' ['b', 'c'] = ['a', 'a', 'b', 'c'] := by decide
example : lastFrames 2 'a' ['b', 'c', 'd'] = ['c', 'd'] := by decide

-- two environments, the second one is not reset the second time
example : (((VState.init 3 2).after [.reset none [1, 10], .step [2, 11], .reset (some [false, true]) [5, 11]]).call
    (.step [6, 12])).2 = some [[5, 5, 6], [10, 11, 12]] := by decide
example : episode 1 [.reset none [1, 10], .step [2, 11], .reset (some [false, true]) [5, 11], .step [6, 12]] none =
    some (10, [11, 12]) := by decide

end Verif.FrameStack
