import Verif.Proofs.Pretrained

/-!
C100: downloading pretrained models, with any number of processes, killed or failing at any point.
-/

set_option autoImplicit false
set_option linter.unusedSectionVars false

namespace Verif.Pretrained

variable {Key Name Data : Type} [DecidableEq Key] [DecidableEq Name]

theorem reach_all {remote : Key → List (Name × Data)} {ok : State Key Name Data → Act Key → Prop}
    (hnd : ∀ k, ((remote k).map Prod.fst).Nodup) {s : State Key Name Data}
    (h : Reach remote ok State.init s) : Inv remote s ∧ Returned s := by
  refine ⟨inv_reach hnd (inv_init remote) h, ?_⟩
  induction h with
  | refl => intro p k b e; simp [State.init] at e
  | step a hr _ hs ih => exact returned_step (inv_reach hnd (inv_init remote) hr) ih a hs

/-- If no extraction is interrupted (processes may be killed and downloads may fail at all other points), whenever a
call of `download_and_store_model` has returned, the directory holds the complete model; and it does so for ever, whatever
happens afterwards. -/
theorem C100_returned_partial (remote : Key → List (Name × Data)) (hnd : ∀ k, ((remote k).map Prod.fst).Nodup)
    (s : State Key Name Data) (h : Reach remote Uninterrupted State.init s) (p : Nat) (k : Key) (cached : Bool)
    (hp : s.procs p = some ⟨.store k, .returned cached⟩) :
    Complete remote s k ∧ ∀ s', Reach remote (fun _ _ => True) s s' → Complete remote s' k := by
  obtain ⟨hi, hr⟩ := reach_all hnd h
  have hst : Stored remote s := by
    clear hp hr hi
    induction h with
    | refl => intro k hk; simp [State.init] at hk
    | step a hr ha hs ih => exact stored_step (inv_reach hnd (inv_init remote) hr) ih a ha hs
  have hset := hr p k cached hp
  have hc : Complete remote s k := by
    rcases hst k hset.1 with hc | ⟨q, hq⟩
    · exact hc
    · exact absurd hq (hset.2 q)
  refine ⟨hc, fun s' hr' n d hm => ?_⟩
  rw [(hset.reach hnd hi hr' k).2]
  exact hc n d hm

/-- At every moment of every execution, the cache and the archives hold only completely downloaded files. -/
theorem C100_complete_downloads (remote : Key → List (Name × Data)) (hnd : ∀ k, ((remote k).map Prod.fst).Nodup)
    (s : State Key Name Data) (h : Reach remote (fun _ _ => True) State.init s) (k : Key) (z : List (Name × Data)) :
    (s.cache k = some z → z = remote k) ∧ (s.zip k = some z → z = remote k) :=
  ⟨(reach_all hnd h).1.cache k z, (reach_all hnd h).1.zip k z⟩

/-- A call of `download_and_store_model` fetches a model only if its archive is not stored; two calls never do anything
but wait at the same time; a call of `os.rename` finds its file. -/
theorem C100_exclusive (remote : Key → List (Name × Data)) (hnd : ∀ k, ((remote k).map Prod.fst).Nodup)
    (s : State Key Name Data) (h : Reach remote (fun _ _ => True) State.init s) :
    (∀ p k, s.procs p = some ⟨.store k, .fetch⟩ → s.zip k = none) ∧
    (∀ p k, s.procs p = some ⟨.store k, .rename⟩ → s.zip k = none ∧ s.cache k = some (remote k)) ∧
    (∀ p q k k' pc pc', s.procs p = some ⟨.store k, pc⟩ → s.procs q = some ⟨.store k', pc'⟩ → pc ≠ .lockModels →
      pc' ≠ .lockModels → pc.over = false → pc'.over = false → p = q) := by
  obtain ⟨hi, _⟩ := reach_all hnd h
  refine ⟨fun p k hp => ?_, fun p k hp => ?_, fun p q k k' pc pc' hp hq h1 h2 h3 h4 => ?_⟩
  · have := hi.loc p; rw [hp] at this; exact this
  · have := hi.loc p
    rw [hp] at this
    refine ⟨this.2.1, ?_⟩
    have h2 : (s.cache k).isSome := this.2.2
    obtain ⟨z, hz⟩ := Option.isSome_iff_exists.mp h2
    rw [hz, hi.cache k z hz]
  · have e1 := (hi.lockM p).mpr (by rw [hp]; exact ⟨h3, h1⟩)
    have e2 := (hi.lockM q).mpr (by rw [hq]; exact ⟨h4, h2⟩)
    rw [e1] at e2
    exact Option.some.inj e2

/-- There is no deadlock: as long as a call is under way, some process can make a step. -/
theorem C100_progress (remote : Key → List (Name × Data)) (hnd : ∀ k, ((remote k).map Prod.fst).Nodup)
    (s : State Key Name Data) (h : Reach remote (fun _ _ => True) State.init s) (p : Nat)
    (q : Proc Key Name Data) (hp : s.procs p = some q) (ho : q.pc.over = false) :
    ∃ r s', step remote s (.next r) = some s' := by
  obtain ⟨hi, _⟩ := reach_all hnd h
  -- the owner of the cache's lock can go on
  have hcase : ∀ r, s.cacheLock = some r → ∃ s', step remote s (.next r) = some s' := by
    intro r hr
    have := (hi.lockC r).mp hr
    cases e : s.procs r with
    | none => rw [e] at this; exact absurd this id
    | some q =>
      obtain ⟨c, pc⟩ := q
      rw [e] at this
      cases pc <;> simp only [holdsC] at this <;> simp only [step, e, Option.bind_some, next]
      · split <;> exact ⟨_, rfl⟩
      · exact ⟨_, rfl⟩
  rcases hC : s.cacheLock with _ | r
  case some => exact ⟨r, hcase r hC⟩
  have active : ∀ r (q : Proc Key Name Data), s.procs r = some q → q.pc.over = false → q.pc ≠ .lockModels →
      ∃ s', step remote s (.next r) = some s' := by
    rintro r ⟨c, pc⟩ hr ho hl
    cases pc <;> simp only [step, hr, Option.bind_some, next, hC, if_true] <;>
      first | exact ⟨_, rfl⟩ | exact absurd rfl hl | cases ho | skip
    · split <;> exact ⟨_, rfl⟩
    · split <;> exact ⟨_, rfl⟩
    · split <;> exact ⟨_, rfl⟩
    · rename_i l; cases l <;> exact ⟨_, rfl⟩
  by_cases hM : s.modelsLock = none
  · by_cases hl : q.pc = .lockModels
    · obtain ⟨c, pc⟩ := q
      cases hl
      exact ⟨p, _, by simp only [step, hp, Option.bind_some, next, hM, if_true]; rfl⟩
    · exact ⟨p, active p q hp ho hl⟩
  · obtain ⟨r, hr⟩ := Option.ne_none_iff_exists'.mp hM
    have := (hi.lockM r).mp hr
    cases e : s.procs r with
    | none => rw [e] at this; exact absurd this id
    | some q =>
      obtain ⟨c, pc⟩ := q
      rw [e] at this
      cases c with
      | download k => exact absurd this id
      | store k => exact ⟨r, active r _ e this.1 this.2⟩

/-- What the two processes of the violation can see: their states, the archive in the cache and in its place, the file
`n` of the model, the temporary file of process 0 and the locks. -/
def Seen (k : Key) (n : Name) (p0 p1 : Option (Proc Key Name Data)) (cache zip : Option (List (Name × Data)))
    (temp : Option (Option (List (Name × Data)))) (m l : Option Nat) (s : State Key Name Data) : Prop :=
  s.procs 0 = p0 ∧ s.procs 1 = p1 ∧ s.cache k = cache ∧ s.zip k = zip ∧ s.temp 0 = temp ∧ s.modelsLock = m ∧
    s.cacheLock = l ∧ s.dir k n = .absent

theorem advance (remote : Key → List (Name × Data)) (a : Act Key) {s : State Key Name Data}
    (hr : Reach remote (fun _ _ => True) State.init s) {P : State Key Name Data → Prop}
    (h : ∃ s', step remote s a = some s' ∧ P s') : ∃ s', Reach remote (fun _ _ => True) State.init s' ∧ P s' := by
  obtain ⟨s', h1, h2⟩ := h
  exact ⟨s', .step a hr trivial h1, h2⟩

/-- One step of the two processes. -/
local macro "close_step " v:ident : tactic => `(tactic| (
  obtain ⟨a1, a2, a3, a4, a5, a6, a7, a8⟩ := $v
  simp [step, next, canStart, State.goto, State.finish, entry, Call.key, afterCached, release, Pc.over, fail, Seen,
    Function.update, Option.join, a1, a2, a3, a4, a5, a6, a7, a8]))

/-- The full claim is violated: if the extraction is interrupted (the process is killed, or the extraction raises, after
the archive has been stored), another call returns, saying that the model is cached, although a file of it is missing;
and the directory is never completed. -/
theorem C100_violated_interrupted (remote : Key → List (Name × Data)) (hnd : ∀ k, ((remote k).map Prod.fst).Nodup)
    (k : Key) (n : Name) (d : Data) (hk : (n, d) ∈ remote k) (killed : Bool) :
    ∃ s : State Key Name Data, Reach remote (fun _ _ => True) State.init s ∧
      s.procs 0 = some ⟨.store k, if killed then .killed else .raised⟩ ∧
      s.procs 1 = some ⟨.store k, .returned true⟩ ∧ s.dir k n = .absent ∧
      ∀ s', Reach remote (fun _ _ => True) s s' → ¬ Complete remote s' k := by
  have r0 : Reach remote (fun _ _ => True) State.init (State.init : State Key Name Data) := .refl
  have v0 : Seen k n none none none none none none none (State.init : State Key Name Data) :=
    ⟨rfl, rfl, rfl, rfl, rfl, rfl, rfl, rfl⟩
  obtain ⟨s1, r1, v1⟩ := advance remote (.start 0 (.store k)) r0
    (P := Seen k n (some ⟨.store k, .lockModels⟩) none none none none none none) (by
      close_step v0)
  obtain ⟨s2, r2, v2⟩ := advance remote (.next 0) r1
    (P := Seen k n (some ⟨.store k, .testPath⟩) none none none none (some 0) none) (by
      close_step v1)
  obtain ⟨s3, r3, v3⟩ := advance remote (.next 0) r2
    (P := Seen k n (some ⟨.store k, .lockCache⟩) none none none none (some 0) none) (by
      close_step v2)
  obtain ⟨s4, r4, v4⟩ := advance remote (.next 0) r3
    (P := Seen k n (some ⟨.store k, .testCache⟩) none none none none (some 0) (some 0)) (by
      close_step v3)
  obtain ⟨s5, r5, v5⟩ := advance remote (.next 0) r4
    (P := Seen k n (some ⟨.store k, .makeTemp⟩) none none none none (some 0) none) (by
      close_step v4)
  obtain ⟨s6, r6, v6⟩ := advance remote (.next 0) r5
    (P := Seen k n (some ⟨.store k, .fetch⟩) none none none (some none) (some 0) none) (by
      close_step v5)
  obtain ⟨s7, r7, v7⟩ := advance remote (.next 0) r6
    (P := Seen k n (some ⟨.store k, .lockMove⟩) none none none (some (some (remote k))) (some 0) none) (by
      close_step v6)
  obtain ⟨s8, r8, v8⟩ := advance remote (.next 0) r7
    (P := Seen k n (some ⟨.store k, .move⟩) none none none (some (some (remote k))) (some 0) (some 0)) (by
      close_step v7)
  obtain ⟨s9, r9, v9⟩ := advance remote (.next 0) r8
    (P := Seen k n (some ⟨.store k, .cleanup⟩) none (some (remote k)) none (some none) (some 0) none) (by
      close_step v8)
  obtain ⟨s10, r10, v10⟩ := advance remote (.next 0) r9
    (P := Seen k n (some ⟨.store k, .rename⟩) none (some (remote k)) none none (some 0) none) (by
      close_step v9)
  obtain ⟨s11, r11, v11⟩ := advance remote (.next 0) r10
    (P := Seen k n (some ⟨.store k, (.extract (remote k))⟩) none none (some (remote k)) none (some 0) none) (by
      close_step v10)
  obtain ⟨s12, r12, v12⟩ := advance remote (if killed then .kill 0 else .fail 0) r11
    (P := Seen k n (some ⟨.store k, (if killed then .killed else .raised)⟩) none none (some (remote k)) none none none) (by
      cases killed <;> close_step v11)
  obtain ⟨s13, r13, v13⟩ := advance remote (.start 1 (.store k)) r12
    (P := Seen k n (some ⟨.store k, (if killed then .killed else .raised)⟩) (some ⟨.store k, .lockModels⟩) none (some (remote k)) none none none) (by
      close_step v12)
  obtain ⟨s14, r14, v14⟩ := advance remote (.next 1) r13
    (P := Seen k n (some ⟨.store k, (if killed then .killed else .raised)⟩) (some ⟨.store k, .testPath⟩) none (some (remote k)) none (some 1) none) (by
      close_step v13)
  obtain ⟨s15, r15, v15⟩ := advance remote (.next 1) r14
    (P := Seen k n (some ⟨.store k, (if killed then .killed else .raised)⟩) (some ⟨.store k, (.returned true)⟩) none (some (remote k)) none none none) (by
      close_step v14)
  obtain ⟨h0, h1, -, -, -, -, -, hd⟩ := v15
  refine ⟨s15, r15, h0, h1, hd, fun s' hr hc => ?_⟩
  obtain ⟨hi, hR⟩ := reach_all hnd r15
  have := hc n d hk
  rw [((hR 1 k true h1).reach hnd hi hr k).2, hd] at this
  cases this

/-- A sequence of events. -/
def runActs (remote : Key → List (Name × Data)) : State Key Name Data → List (Act Key) → Option (State Key Name Data)
  | s, [] => some s
  | s, a :: l => (step remote s a).bind fun s' => runActs remote s' l

/-- Two processes ask for the same model at once; the second waits for the first and finds the model complete. -/
example : ∃ s : State Bool Nat Nat, Reach (fun _ => [(1, 10), (2, 20)]) Uninterrupted State.init s ∧
    s.procs 0 = some ⟨.store true, .returned false⟩ ∧ s.procs 1 = some ⟨.store true, .returned true⟩ ∧
    s.dir true 1 = .full 10 ∧ s.dir true 2 = .full 20 := by
  have hrun : ∃ s, runActs (fun _ => [(1, 10), (2, 20)]) (State.init : State Bool Nat Nat)
      ([.start 0 (.store true), .start 1 (.store true)] ++ List.replicate 15 (.next 0) ++ [.next 1, .next 1]) = some s ∧
      s.procs 0 = some ⟨.store true, .returned false⟩ ∧ s.procs 1 = some ⟨.store true, .returned true⟩ ∧
      s.dir true 1 = .full 10 ∧ s.dir true 2 = .full 20 := by
    exact ⟨_, rfl, rfl, rfl, rfl, rfl⟩
  obtain ⟨s, hs, h⟩ := hrun
  refine ⟨s, ?_, h⟩
  have aux : ∀ (l : List (Act Bool)) (s₀ s s' : State Bool Nat Nat), (∀ a ∈ l, ∀ t : State Bool Nat Nat, Uninterrupted t a) →
      Reach (fun _ => [(1, 10), (2, 20)]) Uninterrupted s₀ s → runActs (fun _ => [(1, 10), (2, 20)]) s l = some s' →
      Reach (fun _ => [(1, 10), (2, 20)]) Uninterrupted s₀ s' := by
    intro l
    induction l with
    | nil => intro s₀ s s' _ h₀ h; cases h; exact h₀
    | cons a l ih =>
      intro s₀ s s' hl h₀ h
      simp only [runActs, Option.bind_eq_some_iff] at h
      obtain ⟨s1, h1, h2⟩ := h
      exact ih s₀ s1 s' (fun b hb => hl b (List.mem_cons_of_mem _ hb)) (.step a h₀ (hl a List.mem_cons_self _) h1) h2
  refine aux _ _ _ s (fun a ha s => ?_) .refl hs
  simp [List.replicate] at ha
  rcases ha with rfl | rfl | rfl | rfl <;> trivial

end Verif.Pretrained
