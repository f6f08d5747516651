import Mathlib.Data.List.Basic
import Mathlib.Data.List.Perm.Basic
import Mathlib.Data.List.Nodup
import Mathlib.Data.List.Range
import Mathlib.Data.List.GetD
import Verif.Spec.Grasping
set_option autoImplicit false
set_option linter.unusedSectionVars false

/-!
# C162: the wrappers of the grasping example
-/

namespace Verif.Grasping

variable {S A B O : Type}

theorem run_length (env : Env S A O) (s : S) (ops : List (Op A)) : (run env s ops).2.length = ops.length := by
  induction ops generalizing s with
  | nil => rfl
  | cons op l ih => cases op <;> simp [run, ih]

/-! ## `ObserveElapsedSteps` -/

theorem elapsed_general (maxSteps : Nat) (env : Env S A O) (ops : List (Op A)) (s : S) (past : List (Op A × Seen O)) :
    (run (observeElapsed maxSteps env) (s, sinceReset past) ops).1.1 = (run env s ops).1 ∧
    ∀ (i : Nat) (x : Seen O), (run env s ops).2[i]? = some x →
      (run (observeElapsed maxSteps env) (s, sinceReset past) ops).2[i]? = some
        (x.counted maxSteps (sinceReset (((ops.zip (run env s ops).2).take (i + 1)).reverse ++ past))) := by
  induction ops generalizing s past with
  | nil => exact ⟨rfl, fun i x h => by simp [run] at h⟩
  | cons op l ih =>
    cases op with
    | reset =>
      rcases hr : env.reset s with ⟨s', _ | o⟩
      · rename_i e
        have h := ih s' ((.reset, .raised e) :: past)
        simp only [run, observeElapsed, hr, sinceReset] at h ⊢
        refine ⟨h.1, fun i x hx => ?_⟩
        rcases i with _ | i
        · simp only [List.getElem?_cons_zero, Option.some.injEq] at hx ⊢
          subst hx; rfl
        · simp only [List.getElem?_cons_succ] at hx ⊢
          rw [h.2 i x hx]
          simp
      · have h := ih s' ((.reset, .reset o) :: past)
        simp only [run, observeElapsed, hr, sinceReset] at h ⊢
        refine ⟨h.1, fun i x hx => ?_⟩
        rcases i with _ | i
        · simp only [List.getElem?_cons_zero, Option.some.injEq] at hx ⊢
          subst hx; rfl
        · simp only [List.getElem?_cons_succ] at hx ⊢
          rw [h.2 i x hx]
          simp
    | step a =>
      rcases hr : env.step s a with ⟨s', e | r⟩
      · have h := ih s' ((.step a, .raised e) :: past)
        simp only [run, observeElapsed, hr, sinceReset] at h ⊢
        refine ⟨h.1, fun i x hx => ?_⟩
        rcases i with _ | i
        · simp only [List.getElem?_cons_zero, Option.some.injEq] at hx ⊢
          subst hx; rfl
        · simp only [List.getElem?_cons_succ] at hx ⊢
          rw [h.2 i x hx]
          simp
      · have h := ih s' ((.step a, .step r) :: past)
        have hst : (observeElapsed maxSteps env).step (s, sinceReset past) a =
            ((s', sinceReset past + 1), if sinceReset past + 1 ≤ maxSteps then .ok ⟨(r.obs, sinceReset past + 1), r.reward, r.done⟩ else .error .assertionError) := by
          simp only [observeElapsed, hr]
          split <;> rfl
        simp only [run, hst, hr, sinceReset] at h ⊢
        refine ⟨h.1, fun i x hx => ?_⟩
        rcases i with _ | i
        · simp only [List.getElem?_cons_zero, Option.some.injEq] at hx ⊢
          subst hx
          simp only [List.zip_cons_cons, List.take_succ_cons, List.take_zero, List.reverse_cons, List.reverse_nil, List.nil_append,
            List.singleton_append, sinceReset, Seen.counted]
          by_cases hm : sinceReset past + 1 ≤ maxSteps
          · simp only [if_pos hm]
          · simp only [if_neg hm]
        · simp only [List.getElem?_cons_succ] at hx ⊢
          rw [h.2 i x hx]
          simp

/-- C162: through every history of calls, with any environment below that may raise, an observation carries the number of
steps that returned since the last `reset`; everything else is as the environment below gives it, except that a step beyond
the maximum is refused with an `AssertionError`. -/
theorem C162_elapsed (maxSteps : Nat) (env : Env S A O) (s : S) (ops : List (Op A)) (i : Nat) (x : Seen O)
    (hx : (run env s ops).2[i]? = some x) :
    (run (observeElapsed maxSteps env) (s, 0) ops).2[i]? = some
      (x.counted maxSteps (sinceReset ((ops.zip (run env s ops).2).take (i + 1)).reverse)) := by
  have := (elapsed_general maxSteps env ops s []).2 i x hx
  rw [List.append_nil] at this
  exact this

/-- C162: every number that is observed has a row in the table of embeddings of the Q-function. -/
theorem C162_embedded {α : Type} (maxSteps : Nat) (env : Env S A O) (s : S) (ops : List (Op A)) (table : List α)
    (ht : table.length = maxSteps + 1) (o : O × Nat)
    (ho : (∃ r, Seen.step r ∈ (run (observeElapsed maxSteps env) (s, 0) ops).2 ∧ r.obs = o) ∨
      Seen.reset o ∈ (run (observeElapsed maxSteps env) (s, 0) ops).2) :
    ∃ row, embedRow maxSteps table o.2 = .ok row ∧ table[o.2]? = some row := by
  have key : o.2 ≤ maxSteps := by
    have hcase : ∀ y ∈ (run (observeElapsed maxSteps env) (s, 0) ops).2,
        (∀ r, y = .step r → r.obs.2 ≤ maxSteps) ∧ ∀ o, y = .reset o → o.2 ≤ maxSteps := by
      intro y hy
      obtain ⟨i, hi, hyi⟩ := List.mem_iff_getElem.1 hy
      have hlen : i < (run env s ops).2.length := by
        rw [run_length] at hi ⊢
        exact hi
      have h := C162_elapsed maxSteps env s ops i _ (List.getElem?_eq_getElem hlen)
      rw [List.getElem?_eq_getElem hi, hyi, Option.some.injEq] at h
      subst h
      constructor
      · intro r hr
        revert hr
        unfold Seen.counted
        split
        · intro h; exact absurd h (by simp)
        · split
          · intro h
            rw [Seen.step.injEq] at h
            subst h
            assumption
          · intro h; exact absurd h (by simp)
        · intro h; exact absurd h (by simp)
      · intro o ho
        revert ho
        unfold Seen.counted
        split
        · intro h
          rw [Seen.reset.injEq] at h
          subst h
          exact Nat.zero_le _
        · split
          · intro h; exact absurd h (by simp)
          · intro h; exact absurd h (by simp)
        · intro h; exact absurd h (by simp)
    rcases ho with ⟨r, hr, rfl⟩ | ho
    · exact (hcase _ hr).1 r rfl
    · exact (hcase _ ho).2 o rfl
  refine ⟨table[o.2]'(by omega), ?_, List.getElem?_eq_getElem _⟩
  simp only [embedRow, if_pos (Nat.lt_succ_of_le key), List.getElem?_eq_getElem (show o.2 < table.length by omega)]

/-! ## `CastAction` -/

/-- C162: with actions that can be cast the environment below gets the cast ones; an action that cannot be cast raises, and
the environment below is not touched. -/
theorem C162_cast (cast : B → Py A) (env : Env S A O) (s : S) :
    (∀ b e, cast b = .error e → run (castAction cast env) s [.step b] = (s, [.raised e])) ∧
    ∀ (f : B → A) (ops : List (Op B)), (∀ b, Op.step b ∈ ops → cast b = .ok (f b)) →
      run (castAction cast env) s ops = run env s (ops.map fun | .reset => .reset | .step b => .step (f b)) := by
  refine ⟨fun b e h => by simp [run, castAction, h], fun f ops h => ?_⟩
  induction ops generalizing s with
  | nil => rfl
  | cons op l ih =>
    have hl := fun s => ih s fun b hb => h b (List.mem_cons_of_mem _ hb)
    cases op with
    | reset => simp only [run, List.map_cons, castAction] at hl ⊢; rw [hl]
    | step b =>
      have hb := h b (by simp)
      simp only [run, List.map_cons, castAction, hb] at hl ⊢; rw [hl]

/-! ## `TransposeObservation` -/

theorem range_getD (idx : List Nat) (n : Nat) (h : idx.length = n) : (List.range n).map (fun d => idx.getD d 0) = idx := by
  subst h
  refine List.ext_getElem (by simp) fun i h1 h2 => ?_
  rw [List.getElem_map, List.getElem_range, List.getD_eq_getElem _ _ h2]

theorem getD_idxOf (axes : List Nat) (f : Nat → Nat) (d : Nat) (hd : d ∈ axes) : (axes.map f).getD (axes.idxOf d) 0 = f d := by
  have h := List.idxOf_lt_length_of_mem hd
  rw [List.getD_eq_getElem _ _ (by simpa using h), List.getElem_map, List.getElem_idxOf]

/-- C162: the entry of the transposed array at an index permuted as the axes is the entry of the array. -/
theorem C162_transpose {α : Type} (axes : List Nat) (a : Array' α) (hp : axes.Perm (List.range a.shape.length)) (idx : List Nat)
    (hi : idx.length = a.shape.length) :
    (transpose axes a).entry (axes.map fun k => idx.getD k 0) = a.entry idx ∧
    (transpose axes a).shape = axes.map fun k => a.shape.getD k 0 := by
  refine ⟨?_, rfl⟩
  show a.entry _ = a.entry idx
  congr 1
  rw [← range_getD idx _ hi]
  refine List.map_congr_left fun d hd => ?_
  rw [range_getD idx _ hi]
  exact getD_idxOf axes (fun k => idx.getD k 0) d (hp.mem_iff.2 hd)

/-- C162: images of height `h`, width `w` and three colours come out with the colour first, and entry `(k, i, j)` is the
entry `(i, j, k)` of the image. -/
theorem C162_image {α : Type} (a : Array' α) (h w c : Nat) (hs : a.shape = [h, w, c]) (i j k : Nat) :
    (transpose [2, 0, 1] a).shape = [c, h, w] ∧ (transpose [2, 0, 1] a).entry [k, i, j] = a.entry [i, j, k] := by
  have := C162_transpose [2, 0, 1] a (by rw [hs]; exact (by decide : [2, 0, 1].Perm (List.range 3))) [i, j, k] (by rw [hs]; rfl)
  rw [hs] at this
  exact ⟨this.2, this.1⟩

theorem valid_transposed (axes : List Nat) (shape idx : List Nat) (hp : axes.Perm (List.range shape.length)) (hv : ValidIndex shape idx) :
    ValidIndex (axes.map fun k => shape.getD k 0) (axes.map fun k => idx.getD k 0) := by
  refine ⟨by simp, fun k hk => ?_⟩
  have hk : k < axes.length := by simpa using hk
  rw [List.getD_eq_getElem _ _ (by simpa using hk), List.getD_eq_getElem _ _ (by simpa using hk)]
  simp only [List.getElem_map]
  exact hv.2 _ (List.mem_range.1 (hp.mem_iff.1 (List.getElem_mem hk)))

theorem valid_back (axes : List Nat) (shape idx : List Nat) (hp : axes.Perm (List.range shape.length))
    (hv : ValidIndex (axes.map fun k => shape.getD k 0) idx) :
    ∃ idx0, ValidIndex shape idx0 ∧ idx = axes.map fun k => idx0.getD k 0 := by
  have hlen : idx.length = axes.length := by simpa using hv.1
  have hnd : axes.Nodup := hp.nodup_iff.2 List.nodup_range
  refine ⟨(List.range shape.length).map fun d => idx.getD (axes.idxOf d) 0, ⟨by simp, fun k hk => ?_⟩, ?_⟩
  · have hm : k ∈ axes := hp.mem_iff.2 (List.mem_range.2 hk)
    have h := hv.2 (axes.idxOf k) (by simpa using List.idxOf_lt_length_of_mem hm)
    rw [getD_idxOf axes (fun k => shape.getD k 0) k hm] at h
    rw [List.getD_eq_getElem _ _ (by simpa using hk)]
    simpa using h
  · refine List.ext_getElem (by simp [hlen]) fun k h1 h2 => ?_
    have hk : k < axes.length := by omega
    have hr := List.mem_range.1 (hp.mem_iff.1 (List.getElem_mem hk))
    rw [List.getElem_map, List.getD_eq_getElem _ _ (by simpa using hr)]
    simp only [List.getElem_map, List.getElem_range]
    rw [hnd.idxOf_getElem k hk, List.getD_eq_getElem _ _ h1]

/-- C162: an observation lies in the space of the wrapper exactly when the one below lies in the space below. -/
theorem C162_space (axes : List Nat) (b : Box) (a : Array' Int) (hb : b.low.shape = b.high.shape) (hl : a.shape.length = b.low.shape.length)
    (hp : axes.Perm (List.range a.shape.length)) :
    InBox (transposeSpace axes b) (transpose axes a) ↔ InBox b a := by
  have hpl : axes.Perm (List.range b.low.shape.length) := hl ▸ hp
  have hph : axes.Perm (List.range b.high.shape.length) := hb ▸ hpl
  have hshape : ∀ l l' : List Nat, l.length = a.shape.length → l'.length = a.shape.length →
      (axes.map fun k => l.getD k 0) = (axes.map fun k => l'.getD k 0) → l = l' := by
    intro l l' h1 h2 h
    refine List.ext_getElem (by omega) fun k hk hk' => ?_
    have hm : k ∈ axes := hp.mem_iff.2 (List.mem_range.2 (by omega))
    have := List.map_inj_left.1 h k hm
    rwa [List.getD_eq_getElem _ _ hk, List.getD_eq_getElem _ _ hk'] at this
  constructor
  · rintro ⟨h1, h2, h3⟩
    have e1 : a.shape = b.low.shape := hshape _ _ rfl hl.symm h1
    have e2 : a.shape = b.high.shape := hshape _ _ rfl (by rw [← hb]; exact hl.symm) h2
    refine ⟨e1, e2, fun idx hv => ?_⟩
    have h := h3 _ (valid_transposed axes a.shape idx hp hv)
    rw [(C162_transpose axes a hp idx hv.1).1] at h
    have hlo := (C162_transpose axes b.low hpl idx (hv.1.trans hl)).1
    have hhi := (C162_transpose axes b.high hph idx (hv.1.trans (hl.trans (congrArg _ hb)))).1
    simp only [transposeSpace] at h
    rw [hlo, hhi] at h
    exact h
  · rintro ⟨h1, h2, h3⟩
    refine ⟨by show axes.map _ = axes.map _; rw [h1], by show axes.map _ = axes.map _; rw [h2], fun idx' hv' => ?_⟩
    obtain ⟨idx, hv, rfl⟩ := valid_back axes a.shape idx' hp hv'
    rw [(C162_transpose axes a hp idx hv.1).1]
    simp only [transposeSpace]
    rw [(C162_transpose axes b.low hpl idx (hv.1.trans hl)).1, (C162_transpose axes b.high hph idx (hv.1.trans (hl.trans (congrArg _ hb)))).1]
    exact h3 idx hv

theorem run_transpose {α : Type} (axes : List Nat) (env : Env S A (Array' α)) (s : S) (ops : List (Op A)) :
    run (transposeObs axes env) s ops = ((run env s ops).1, (run env s ops).2.map (Seen.map (transpose axes))) := by
  induction ops generalizing s with
  | nil => rfl
  | cons op l ih =>
    cases op with
    | reset =>
      rcases hr : env.reset s with ⟨s', e | o⟩
      · have := ih s'
        simp only [run, transposeObs, hr] at this ⊢
        rw [this]; rfl
      · have := ih s'
        simp only [run, transposeObs, hr] at this ⊢
        rw [this]; rfl
    | step a =>
      rcases hr : env.step s a with ⟨s', e | o⟩
      · have := ih s'
        simp only [run, transposeObs, hr] at this ⊢
        rw [this]; rfl
      · have := ih s'
        simp only [run, transposeObs, hr] at this ⊢
        rw [this]; rfl

/-! ## The environment of the script -/

/-- C162: through every history of calls, the environment that the script builds gives the transposed image of the
environment below together with the number of steps since `reset`, as long as every action can be cast. -/
theorem C162_env {α : Type} (cast : B → Py A) (f : B → A) (hf : ∀ b, cast b = .ok (f b)) (maxSteps : Nat) (env : Env S A (Array' α)) (s : S)
    (ops : List (Op B)) (ops' : List (Op A)) (hops : ops' = ops.map fun | .reset => .reset | .step b => .step (f b)) (i : Nat)
    (x : Seen (Array' α)) (hx : (run env s ops').2[i]? = some x) :
    (run (graspingEnv cast maxSteps env) (s, 0) ops).2[i]? = some
      ((x.map (transpose [2, 0, 1])).counted maxSteps (sinceReset ((ops'.zip (run env s ops').2).take (i + 1)).reverse)) := by
  have hc := (C162_cast cast (observeElapsed maxSteps (transposeObs [2, 0, 1] env)) (s, 0)).2 f ops fun b _ => hf b
  rw [graspingEnv, hc, ← hops]
  have h := C162_elapsed maxSteps (transposeObs [2, 0, 1] env) s ops' i (x.map (transpose [2, 0, 1])) (by
    rw [run_transpose]; simp [hx])
  rw [h, run_transpose]
  have hz : ∀ l : List (Op A × Seen (Array' α)),
      sinceReset (l.map fun p => (p.1, p.2.map (transpose [2, 0, 1]))) = sinceReset l := by
    intro l
    induction l with
    | nil => rfl
    | cons p l ih =>
      rcases p with ⟨_ | a, o | r | e⟩
      · rfl
      · rfl
      · rfl
      · exact ih
      · exact congrArg (· + 1) ih
      · exact ih
  have hzip : sinceReset ((ops'.zip ((run env s ops').2.map (Seen.map (transpose [2, 0, 1])))).take (i + 1)).reverse =
      sinceReset ((ops'.zip (run env s ops').2).take (i + 1)).reverse := by
    rw [← hz ((ops'.zip (run env s ops').2).take (i + 1)).reverse, List.map_reverse, List.map_take, List.zip_map_right]
    rfl
  rw [hzip]

/-! ## `RecordMovie` -/

/-- C162: recording changes nothing that is seen, and the resets that return start the files 0, 1, 2, … in this order. -/
theorem C162_movies (env : Env S A O) (s : S) (ops : List (Op A)) :
    (run (recordMovie env) (s, -1, []) ops).2 = (run env s ops).2 ∧
    (run (recordMovie env) (s, -1, []) ops).1.2.2 =
      (List.range ((run env s ops).2.countP fun | .reset _ => true | _ => false)).map fun k : Nat => (k : Int) := by
  have key : ∀ (ops : List (Op A)) (s : S) (k : Nat),
      (run (recordMovie env) (s, (k : Int) - 1, (List.range k).map fun k : Nat => (k : Int)) ops).2 = (run env s ops).2 ∧
      (run (recordMovie env) (s, (k : Int) - 1, (List.range k).map fun k : Nat => (k : Int)) ops).1.2.2 =
        (List.range (k + (run env s ops).2.countP fun | .reset _ => true | _ => false)).map fun k : Nat => (k : Int) := by
    intro ops
    induction ops with
    | nil => exact fun s k => ⟨rfl, rfl⟩
    | cons op l ih =>
      intro s k
      cases op with
      | reset =>
        rcases hr : env.reset s with ⟨s', e | o⟩
        · have h := ih s' k
          simp only [run, recordMovie, hr] at h ⊢
          exact ⟨by rw [h.1], by rw [h.2]; simp⟩
        · have h := ih s' (k + 1)
          have e1 : ((k + 1 : Nat) : Int) - 1 = (k : Int) - 1 + 1 := by omega
          have e2 : (List.range (k + 1)).map (fun k : Nat => (k : Int)) = (List.range k).map (fun k : Nat => (k : Int)) ++ [(k : Int) - 1 + 1] := by
            rw [List.range_succ, List.map_append]; simp
          rw [e1, e2] at h
          simp only [run, recordMovie, hr] at h ⊢
          refine ⟨by rw [h.1], ?_⟩
          rw [h.2, List.countP_cons_of_pos rfl]
          congr 2; omega
      | step a =>
        rcases hr : env.step s a with ⟨s', e | o⟩
        · have h := ih s' k
          simp only [run, recordMovie, hr] at h ⊢
          exact ⟨by rw [h.1], by rw [h.2]; simp⟩
        · have h := ih s' k
          simp only [run, recordMovie, hr] at h ⊢
          exact ⟨by rw [h.1], by rw [h.2]; simp⟩
  have := key ops s 0
  simpa using this

/-! ### A concrete case: an environment that counts and raises on the action 0 -/

private def countEnv : Env Nat Nat Nat where
  reset s := (s + 1, .ok (100 * s))
  step s a := if a = 0 then (s, .error .valueError) else (s, .ok ⟨a, 1, false⟩)

example : (run (observeElapsed 2 countEnv) (0, 0) [.reset, .step 5, .step 0, .step 6, .step 7, .reset, .step 8]).2 =
    [.reset (0, 0), .step ⟨(5, 1), 1, false⟩, .raised .valueError, .step ⟨(6, 2), 1, false⟩, .raised .assertionError, .reset (100, 0),
      .step ⟨(8, 1), 1, false⟩] := by decide

example := C162_elapsed 2 countEnv 0 [.reset, .step 5, .step 0, .step 6, .step 7, .reset, .step 8] 3 (.step ⟨6, 1, false⟩) (by decide)

example : (run (recordMovie countEnv) (0, -1, []) [.reset, .step 5, .reset]).1.2.2 = [0, 1] := by decide

example := C162_space [2, 0, 1] ⟨⟨[84, 84, 3], fun _ => 0⟩, ⟨[84, 84, 3], fun _ => 255⟩⟩ ⟨[84, 84, 3], fun idx => idx.getD 2 0⟩ rfl rfl (by decide)

end Verif.Grasping
