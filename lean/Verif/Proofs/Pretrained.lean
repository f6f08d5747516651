import Verif.Spec.Pretrained
set_option autoImplicit false
set_option linter.unusedSectionVars false

namespace Verif.Pretrained

variable {Key Name Data : Type} [DecidableEq Key] [DecidableEq Name]

/-- The process holds `models.lock`. -/
def holdsM : Option (Proc Key Name Data) → Prop
  | some ⟨.store _, pc⟩ => pc.over = false ∧ pc ≠ .lockModels
  | _ => False

/-- The process holds the lock of the cache. -/
def holdsC : Option (Proc Key Name Data) → Prop
  | some ⟨_, .testCache⟩ => True
  | some ⟨_, .move⟩ => True
  | _ => False

/-- The archive has not been stored, for a call that is going to. -/
def fresh (s : State Key Name Data) : Call Key → Prop
  | .download _ => True
  | .store k => s.zip k = none

/-- The archive is in the cache, for a call that is going to take it. -/
def cachedIf (s : State Key Name Data) : Call Key → Prop
  | .download _ => True
  | .store k => (s.cache k).isSome

def isStore : Call Key → Prop
  | .download _ => False
  | .store _ => True

/-- What is known about a process. -/
def Local (remote : Key → List (Name × Data)) (s : State Key Name Data) (p : Nat) : Option (Proc Key Name Data) → Prop
  | none => True
  | some ⟨c, .lockModels⟩ => isStore c
  | some ⟨c, .testPath⟩ => isStore c
  | some ⟨c, .lockCache⟩ => fresh s c
  | some ⟨c, .testCache⟩ => fresh s c
  | some ⟨c, .makeTemp⟩ => fresh s c
  | some ⟨c, .fetch⟩ => fresh s c
  | some ⟨c, .lockMove⟩ => fresh s c ∧ s.temp p = some (some (remote c.key))
  | some ⟨c, .move⟩ => fresh s c ∧ s.temp p = some (some (remote c.key))
  | some ⟨c, .cleanup⟩ => fresh s c ∧ cachedIf s c
  | some ⟨c, .cleanupRaise⟩ => fresh s c
  | some ⟨c, .rename⟩ => isStore c ∧ fresh s c ∧ cachedIf s c
  | some ⟨c, .extract l⟩ => isStore c ∧ (s.zip c.key).isSome ∧
      ∃ pre, remote c.key = pre ++ l ∧ ∀ n d, (n, d) ∈ pre → s.dir c.key n = .full d
  | some ⟨c, .writing n d l⟩ => isStore c ∧ (s.zip c.key).isSome ∧
      ∃ pre, remote c.key = pre ++ (n, d) :: l ∧ ∀ n d, (n, d) ∈ pre → s.dir c.key n = .full d
  | some ⟨_, .returned _⟩ => True
  | some ⟨_, .raised⟩ => True
  | some ⟨_, .killed⟩ => True

structure Inv (remote : Key → List (Name × Data)) (s : State Key Name Data) : Prop where
  lockM : ∀ p, s.modelsLock = some p ↔ holdsM (s.procs p)
  lockC : ∀ p, s.cacheLock = some p ↔ holdsC (s.procs p)
  cache : ∀ k z, s.cache k = some z → z = remote k
  zip : ∀ k z, s.zip k = some z → z = remote k
  loc : ∀ p, Local remote s p (s.procs p)

/-- What is known about a process that does not hold `models.lock` depends on its temporary directory only. -/
theorem local_frame (remote : Key → List (Name × Data)) (s s' : State Key Name Data) (p : Nat)
    (q : Option (Proc Key Name Data)) (hq : ¬ holdsM q) (ht : s'.temp p = s.temp p) (h : Local remote s p q) :
    Local remote s' p q := by
  cases q with
  | none => trivial
  | some q =>
    obtain ⟨c, pc⟩ := q
    cases c <;> cases pc <;> simp_all [Local, holdsM, fresh, cachedIf, isStore, Pc.over]

/-- If only the cache grows, what is known stays. -/
theorem local_mono (remote : Key → List (Name × Data)) (s s' : State Key Name Data) (p : Nat)
    (q : Option (Proc Key Name Data)) (ht : s'.temp p = s.temp p) (hz : s'.zip = s.zip) (hd : s'.dir = s.dir)
    (hc : ∀ k, (s.cache k).isSome → (s'.cache k).isSome) (h : Local remote s p q) :
    Local remote s' p q := by
  cases q with
  | none => trivial
  | some q =>
    obtain ⟨c, pc⟩ := q
    cases c <;> cases pc <;> simp_all [Local, fresh, cachedIf, isStore]

/-- A step of one process. -/
theorem Inv.step_of {remote : Key → List (Name × Data)} {s : State Key Name Data} (h : Inv remote s) (p : Nat)
    (q' : Option (Proc Key Name Data)) (s' : State Key Name Data)
    (hprocs : s'.procs = Function.update s.procs p q')
    (htemp : ∀ r, r ≠ p → s'.temp r = s.temp r)
    (hM : ∀ r, r ≠ p → (s'.modelsLock = some r ↔ s.modelsLock = some r)) (hMp : s'.modelsLock = some p ↔ holdsM q')
    (hC : ∀ r, r ≠ p → (s'.cacheLock = some r ↔ s.cacheLock = some r)) (hCp : s'.cacheLock = some p ↔ holdsC q')
    (hcache : ∀ k z, s'.cache k = some z → z = remote k)
    (hzip : ∀ k z, s'.zip k = some z → z = remote k)
    (hframe : s.modelsLock = some p ∨
      (s'.zip = s.zip ∧ s'.dir = s.dir ∧ ∀ k, (s.cache k).isSome → (s'.cache k).isSome))
    (hloc : Local remote s' p q') : Inv remote s' := by
  have hne : ∀ r, r ≠ p → s'.procs r = s.procs r := fun r hr => by rw [hprocs, Function.update_of_ne hr]
  have heq : s'.procs p = q' := by rw [hprocs, Function.update_self]
  refine ⟨fun r => ?_, fun r => ?_, hcache, hzip, fun r => ?_⟩
  · by_cases hr : r = p
    · subst hr; rw [heq]; exact hMp
    · rw [hne r hr, hM r hr]; exact h.lockM r
  · by_cases hr : r = p
    · subst hr; rw [heq]; exact hCp
    · rw [hne r hr, hC r hr]; exact h.lockC r
  · by_cases hr : r = p
    · subst hr; rw [heq]; exact hloc
    · rw [hne r hr]
      rcases hframe with hf | ⟨hz, hd, hc⟩
      · refine local_frame remote s s' r _ ?_ (htemp r hr) (h.loc r)
        intro hh
        have := (h.lockM r).mpr hh
        rw [hf] at this
        exact hr (Option.some.inj this).symm
      · exact local_mono remote s s' r _ (htemp r hr) hz hd hc (h.loc r)

theorem inv_init (remote : Key → List (Name × Data)) : Inv remote (State.init : State Key Name Data) := by
  refine ⟨fun p => ?_, fun p => ?_, fun k z h => ?_, fun k z h => ?_, fun p => ?_⟩ <;>
    simp_all [State.init, holdsM, holdsC, Local]

theorem release_ne (l : Option Nat) (p r : Nat) (h : r ≠ p) : release l p = some r ↔ l = some r := by
  unfold release
  split
  · rename_i e; subst e; simp [Ne.symm h]
  · rfl

theorem release_self (l : Option Nat) (p : Nat) : ¬ release l p = some p := by
  unfold release
  split <;> simp_all

/-- A call ends. -/
theorem Inv.finish {remote : Key → List (Name × Data)} {s : State Key Name Data} (h : Inv remote s) (p : Nat)
    (c : Call Key) (pc : Pc Name Data) (ho : pc.over = true) : Inv remote (s.finish p c pc) := by
  refine h.step_of p (some ⟨c, pc⟩) _ rfl (fun _ _ => rfl) (fun r hr => release_ne _ _ _ hr) ?_
    (fun r hr => release_ne _ _ _ hr) ?_ h.cache h.zip (.inr ⟨rfl, rfl, fun _ h => h⟩) ?_
  · refine ⟨fun e => absurd e (release_self _ _), fun e => ?_⟩
    cases c <;> simp_all [holdsM]
  · refine ⟨fun e => absurd e (release_self _ _), fun e => ?_⟩
    cases pc <;> simp_all [holdsC, Pc.over]
  · cases pc <;> simp_all [Local, Pc.over]

theorem Inv.temp {remote : Key → List (Name × Data)} {s : State Key Name Data} (h : Inv remote s) (p : Nat)
    (t : Option (Option (List (Name × Data)))) (c : Call Key) (hp : s.procs p = some ⟨c, .cleanup⟩ ∨
      s.procs p = some ⟨c, .cleanupRaise⟩) :
    Inv remote { s with temp := Function.update s.temp p t } := by
  refine ⟨h.lockM, h.lockC, h.cache, h.zip, fun r => ?_⟩
  by_cases hr : r = p
  · subst hr
    have := h.loc r
    rcases hp with hp | hp <;> rw [hp] at this <;> simp only [hp] <;> exact this
  · exact local_mono remote s _ r _ (Function.update_of_ne hr _ _) rfl rfl (fun _ h => h) (h.loc r)

theorem Inv.afterCached {remote : Key → List (Name × Data)} {s : State Key Name Data} (h : Inv remote s) (p : Nat)
    (c : Call Key) (hM : s.modelsLock = some p ↔ isStore c) (hC : ¬ s.cacheLock = some p) (hf : fresh s c)
    (hc : cachedIf s c) : Inv remote (afterCached s p c) := by
  cases c with
  | download k => exact h.finish p _ _ rfl
  | store k =>
    refine h.step_of p (some ⟨.store k, .rename⟩) _ rfl (fun _ _ => rfl) (fun _ _ => Iff.rfl) ?_ (fun _ _ => Iff.rfl)
      ?_ h.cache h.zip (.inr ⟨rfl, rfl, fun _ h => h⟩) ⟨trivial, hf, hc⟩
    · exact hM.trans (by simp [isStore, holdsM, Pc.over])
    · exact iff_of_false hC (by simp [holdsC])

theorem names_ne {l l' : List (Name × Data)} {n : Name} {d : Data}
    (h : ((l ++ (n, d) :: l').map Prod.fst).Nodup) {n' : Name} {d' : Data} (h' : (n', d') ∈ l) : n' ≠ n := by
  rw [List.map_append, List.map_cons, List.nodup_append] at h
  exact h.2.2 n' (List.mem_map.mpr ⟨_, h', rfl⟩) n (List.mem_cons_self)

theorem Inv.next {remote : Key → List (Name × Data)} {s s' : State Key Name Data} (h : Inv remote s) (p : Nat)
    (c : Call Key) (pc : Pc Name Data) (hp : s.procs p = some ⟨c, pc⟩)
    (hnd : ∀ k, ((remote k).map Prod.fst).Nodup) (hs : next remote s p c pc = some s') :
    Inv remote s' := by
  have hl := h.loc p
  have hM := h.lockM p
  have hC := h.lockC p
  rw [hp] at hl hM hC
  cases pc with
  | lockModels =>
    simp only [Pretrained.next] at hs
    split at hs
    · rename_i e
      cases hs
      refine h.step_of p (some ⟨c, .testPath⟩) _ rfl (fun _ _ => rfl) (fun r hr => ?_) ?_ (fun _ _ => Iff.rfl) ?_
        h.cache h.zip (.inr ⟨rfl, rfl, fun _ h => h⟩) hl
      · simp [e, Ne.symm hr]
      · cases c <;> simp_all [holdsM, Pc.over, Local, isStore]
      · exact iff_of_false (fun e => by simpa [holdsC] using hC.mp e) (by simp [holdsC])
    · cases hs
  | testPath =>
    simp only [Pretrained.next] at hs
    split at hs
    · cases hs; exact h.finish p _ _ rfl
    · rename_i e
      cases hs
      refine h.step_of p (some ⟨c, .lockCache⟩) _ rfl (fun _ _ => rfl) (fun r hr => Iff.rfl) ?_ (fun _ _ => Iff.rfl) ?_
        h.cache h.zip (.inr ⟨rfl, rfl, fun _ h => h⟩) ?_
      · refine hM.trans ?_
        cases c <;> simp [holdsM, Pc.over]
      · exact iff_of_false (fun e => by simpa [holdsC] using hC.mp e) (by simp [holdsC])
      · cases c <;> simp_all [Local, fresh, Call.key, State.goto]
  | lockCache =>
    simp only [Pretrained.next] at hs
    split at hs
    · rename_i e
      cases hs
      refine h.step_of p (some ⟨c, .testCache⟩) _ rfl (fun _ _ => rfl) (fun _ _ => Iff.rfl) ?_ (fun r hr => ?_) ?_
        h.cache h.zip (.inr ⟨rfl, rfl, fun _ h => h⟩) ?_
      · refine hM.trans ?_
        cases c <;> simp [holdsM, Pc.over]
      · simp [e, Ne.symm hr]
      · simp [holdsC]
      · cases c <;> simp_all [Local, fresh, State.goto]
    · cases hs
  | testCache =>
    have hrel : s.cacheLock = some p := hC.mpr trivial
    have hinv : Inv remote { s.goto p c .makeTemp with cacheLock := none } := by
      refine h.step_of p (some ⟨c, .makeTemp⟩) _ rfl (fun _ _ => rfl) (fun _ _ => Iff.rfl) ?_ (fun r hr => ?_) ?_
        h.cache h.zip (.inr ⟨rfl, rfl, fun _ h => h⟩) ?_
      · refine hM.trans ?_
        cases c <;> simp [holdsM, Pc.over]
      · simp [hrel, Ne.symm hr]
      · simp [holdsC]
      · cases c <;> simp_all [Local, fresh, State.goto]
    simp only [Pretrained.next] at hs
    split at hs
    · rename_i e
      cases hs
      have e2 : Pretrained.afterCached { s with cacheLock := none } p c =
          Pretrained.afterCached { s.goto p c .makeTemp with cacheLock := none } p c := by
        cases c <;> simp [Pretrained.afterCached, State.finish, State.goto]
      rw [e2]
      refine hinv.afterCached p c ?_ (by simp) ?_ ?_
      · refine hM.trans ?_
        cases c <;> simp [holdsM, Pc.over, isStore]
      · cases c <;> simp_all [Local, fresh, State.goto]
      · cases c <;> simp_all [cachedIf, State.goto, Call.key]
    · cases hs; exact hinv
  | makeTemp =>
    simp only [Pretrained.next] at hs
    cases hs
    refine h.step_of p (some ⟨c, .fetch⟩) _ rfl (fun _ hr => Function.update_of_ne hr _ _) (fun _ _ => Iff.rfl) ?_
      (fun r hr => Iff.rfl) ?_ h.cache h.zip (.inr ⟨rfl, rfl, fun _ h => h⟩) ?_
    · refine hM.trans ?_
      cases c <;> simp [holdsM, Pc.over]
    · exact iff_of_false (fun e => by simpa [holdsC] using hC.mp e) (by simp [holdsC])
    · cases c <;> simp_all [Local, fresh, State.goto]
  | fetch =>
    simp only [Pretrained.next] at hs
    cases hs
    refine h.step_of p (some ⟨c, .lockMove⟩) _ rfl (fun _ hr => Function.update_of_ne hr _ _) (fun _ _ => Iff.rfl) ?_
      (fun r hr => Iff.rfl) ?_ h.cache h.zip (.inr ⟨rfl, rfl, fun _ h => h⟩) ?_
    · refine hM.trans ?_
      cases c <;> simp [holdsM, Pc.over]
    · exact iff_of_false (fun e => by simpa [holdsC] using hC.mp e) (by simp [holdsC])
    · cases c <;> simp_all [Local, fresh, State.goto]
  | lockMove =>
    simp only [Pretrained.next] at hs
    split at hs
    · rename_i e
      cases hs
      refine h.step_of p (some ⟨c, .move⟩) _ rfl (fun _ _ => rfl) (fun _ _ => Iff.rfl) ?_ (fun r hr => ?_) ?_
        h.cache h.zip (.inr ⟨rfl, rfl, fun _ h => h⟩) ?_
      · refine hM.trans ?_
        cases c <;> simp [holdsM, Pc.over]
      · simp [e, Ne.symm hr]
      · simp [holdsC]
      · cases c <;> simp_all [Local, fresh, State.goto]
    · cases hs
  | move =>
    have hrel : s.cacheLock = some p := hC.mpr trivial
    simp only [Pretrained.next] at hs
    cases hs
    have ht : (s.temp p).join = some (remote c.key) := by rw [hl.2]; rfl
    refine h.step_of p (some ⟨c, .cleanup⟩) _ rfl (fun _ hr => Function.update_of_ne hr _ _) (fun _ _ => Iff.rfl) ?_
      (fun r hr => ?_) ?_ (fun k z hz => ?_) h.zip (.inr ⟨rfl, rfl, fun k hk => ?_⟩) ?_
    · refine hM.trans ?_
      cases c <;> simp [holdsM, Pc.over]
    · simp [hrel, Ne.symm hr]
    · simp [holdsC]
    · simp only [ht] at hz
      by_cases hk : k = c.key
      · subst hk; rw [Function.update_self] at hz; exact (Option.some.inj hz).symm
      · rw [Function.update_of_ne hk] at hz; exact h.cache k z hz
    · simp only [ht]
      by_cases hk' : k = c.key
      · subst hk'; rw [Function.update_self]; rfl
      · rw [Function.update_of_ne hk']; exact hk
    · cases c <;> simp_all [Local, fresh, cachedIf, State.goto, Call.key]
  | cleanup =>
    simp only [Pretrained.next] at hs
    cases hs
    refine (h.temp p none c (.inl hp)).afterCached p c ?_ ?_ ?_ ?_
    · refine hM.trans ?_
      cases c <;> simp [holdsM, Pc.over, isStore]
    · exact fun e => by simpa [holdsC] using hC.mp e
    · have := hl.1; cases c <;> exact this
    · have := hl.2; cases c <;> exact this
  | cleanupRaise =>
    simp only [Pretrained.next] at hs
    cases hs
    exact (h.temp p none c (.inr hp)).finish p c _ rfl
  | rename =>
    obtain ⟨hst, hf, hc⟩ := hl
    cases c with
    | download k => exact absurd hst id
    | store k =>
      have hMp : s.modelsLock = some p := hM.mpr ⟨rfl, by simp⟩
      simp only [Pretrained.next, Call.key] at hs
      cases e : s.cache k with
      | none => rw [cachedIf, e] at hc; cases hc
      | some z =>
        rw [e] at hs
        cases hs
        have hz : z = remote k := h.cache k z e
        refine h.step_of p (some ⟨.store k, .extract z⟩) _ rfl (fun _ _ => rfl) (fun _ _ => Iff.rfl) ?_
          (fun r hr => Iff.rfl) ?_ (fun k' z' hz' => ?_) (fun k' z' hz' => ?_) (.inl hMp) ?_
        · exact iff_of_true hMp ⟨rfl, by simp⟩
        · exact iff_of_false (fun e => by simpa [holdsC] using hC.mp e) (by simp [holdsC])
        · by_cases hk : k' = k
          · subst hk; simp at hz'
          · exact h.cache k' z' (by simpa [Function.update_of_ne hk] using hz')
        · by_cases hk : k' = k
          · subst hk; simp at hz'; rw [← hz', hz]
          · exact h.zip k' z' (by simpa [Function.update_of_ne hk] using hz')
        · exact ⟨trivial, by simp [Call.key], [], by simp [Call.key, hz], by simp⟩
  | extract l =>
    obtain ⟨hst, hz, pre, hpre, hd⟩ := hl
    cases c with
    | download k => exact absurd hst id
    | store k =>
      have hMp : s.modelsLock = some p := hM.mpr ⟨rfl, by simp⟩
      cases l with
      | nil => simp only [Pretrained.next] at hs; cases hs; exact h.finish p _ _ rfl
      | cons e l =>
        obtain ⟨n, d⟩ := e
        simp only [Pretrained.next] at hs
        cases hs
        refine h.step_of p (some ⟨.store k, .writing n d l⟩) _ rfl (fun _ _ => rfl) (fun _ _ => Iff.rfl) ?_
          (fun r hr => Iff.rfl) ?_ h.cache h.zip (.inl hMp) ?_
        · exact iff_of_true hMp ⟨rfl, by simp⟩
        · exact iff_of_false (fun e => by simpa [holdsC] using hC.mp e) (by simp [holdsC])
        · refine ⟨trivial, hz, pre, hpre, fun n' d' hm => ?_⟩
          have hne : n' ≠ n := names_ne (hpre ▸ hnd _) hm
          simp [Call.key, hne]
          exact hd n' d' hm
  | writing n d l =>
    obtain ⟨hst, hz, pre, hpre, hd⟩ := hl
    cases c with
    | download k => exact absurd hst id
    | store k =>
      have hMp : s.modelsLock = some p := hM.mpr ⟨rfl, by simp⟩
      simp only [Pretrained.next] at hs
      cases hs
      refine h.step_of p (some ⟨.store k, .extract l⟩) _ rfl (fun _ _ => rfl) (fun _ _ => Iff.rfl) ?_
        (fun r hr => Iff.rfl) ?_ h.cache h.zip (.inl hMp) ?_
      · exact iff_of_true hMp ⟨rfl, by simp⟩
      · exact iff_of_false (fun e => by simpa [holdsC] using hC.mp e) (by simp [holdsC])
      · refine ⟨trivial, hz, pre ++ [(n, d)], by simpa using hpre, fun n' d' hm => ?_⟩
        rcases List.mem_append.mp hm with hm | hm
        · have hne : n' ≠ n := names_ne (hpre ▸ hnd _) hm
          simp [Call.key, hne]
          exact hd n' d' hm
        · simp at hm
          obtain ⟨rfl, rfl⟩ := hm
          simp [Call.key]
  | returned b => simp [Pretrained.next] at hs
  | raised => simp [Pretrained.next] at hs
  | killed => simp [Pretrained.next] at hs

theorem Inv.fail {remote : Key → List (Name × Data)} {s s' : State Key Name Data} (h : Inv remote s) (p : Nat)
    (c : Call Key) (pc : Pc Name Data) (hp : s.procs p = some ⟨c, pc⟩) (hs : fail s p c pc = some s') :
    Inv remote s' := by
  have hl := h.loc p
  have hM := h.lockM p
  have hC := h.lockC p
  rw [hp] at hl hM hC
  cases pc <;> simp only [Pretrained.fail] at hs <;> cases hs
  · refine h.step_of p (some ⟨c, .cleanupRaise⟩) _ rfl (fun _ _ => rfl) (fun _ _ => Iff.rfl) ?_ (fun r hr => Iff.rfl)
      ?_ h.cache h.zip (.inr ⟨rfl, rfl, fun _ h => h⟩) ?_
    · refine hM.trans ?_
      cases c <;> simp [holdsM, Pc.over]
    · exact iff_of_false (fun e => by simpa [holdsC] using hC.mp e) (by simp [holdsC])
    · cases c <;> simp_all [Local, fresh, State.goto]
  · exact h.finish p _ _ rfl
  · exact h.finish p _ _ rfl

theorem not_holds_of_canStart (q : Option (Proc Key Name Data)) (h : canStart q = true) : ¬ holdsM q ∧ ¬ holdsC q := by
  cases q with
  | none => simp [holdsM, holdsC]
  | some q =>
    obtain ⟨c, pc⟩ := q
    cases c <;> cases pc <;> simp_all [canStart, holdsM, holdsC, Pc.over]

theorem Inv.step {remote : Key → List (Name × Data)} {s s' : State Key Name Data} (h : Inv remote s) (a : Act Key)
    (hnd : ∀ k, ((remote k).map Prod.fst).Nodup) (hs : step remote s a = some s') : Inv remote s' := by
  cases a with
  | start p c =>
    simp only [Pretrained.step] at hs
    split at hs
    · rename_i e
      cases hs
      have hn := not_holds_of_canStart _ e
      refine h.step_of p (some ⟨c, entry c⟩) _ rfl (fun _ _ => rfl) (fun _ _ => Iff.rfl) ?_ (fun r hr => Iff.rfl)
        ?_ h.cache h.zip (.inr ⟨rfl, rfl, fun _ h => h⟩) ?_
      · exact iff_of_false (fun e => hn.1 ((h.lockM p).mp e)) (by cases c <;> simp [holdsM, entry])
      · exact iff_of_false (fun e => hn.2 ((h.lockC p).mp e)) (by cases c <;> simp [holdsC, entry])
      · cases c <;> simp [Local, entry, fresh, isStore]
    · cases hs
  | next p =>
    simp only [Pretrained.step] at hs
    cases e : s.procs p with
    | none => simp [e] at hs
    | some q => exact h.next p q.call q.pc e hnd (by simpa [e] using hs)
  | fail p =>
    simp only [Pretrained.step] at hs
    cases e : s.procs p with
    | none => simp [e] at hs
    | some q => exact h.fail p q.call q.pc e (by simpa [e] using hs)
  | kill p =>
    simp only [Pretrained.step] at hs
    cases e : s.procs p with
    | none => simp [e] at hs
    | some q =>
      simp [e] at hs
      rw [← hs.2]
      exact h.finish p _ _ rfl

theorem inv_reach {remote : Key → List (Name × Data)} {ok : State Key Name Data → Act Key → Prop}
    (hnd : ∀ k, ((remote k).map Prod.fst).Nodup) {s₀ s : State Key Name Data} (h₀ : Inv remote s₀)
    (h : Reach remote ok s₀ s) : Inv remote s := by
  induction h with
  | refl => exact h₀
  | step a _ _ hs ih => exact ih.step a hnd hs

/-! ## The model directories -/

/-- A process is extracting the archive of this model. -/
def ExtractingKey (s : State Key Name Data) (k : Key) (p : Nat) : Prop :=
  (∃ l, s.procs p = some ⟨.store k, .extract l⟩) ∨ ∃ n d l, s.procs p = some ⟨.store k, .writing n d l⟩

/-- How an event changes archives and directories: not at all; by renaming; by extracting. -/
theorem step_dir {remote : Key → List (Name × Data)} {s s' : State Key Name Data} (h : Inv remote s) (a : Act Key)
    (hs : step remote s a = some s') (k : Key) :
    (s'.dir k = s.dir k ∧ s'.zip k = s.zip k) ∨
    (s'.dir k = s.dir k ∧ s.zip k = none ∧ (s'.zip k).isSome ∧ ∃ p, ExtractingKey s' k p) ∨
    (s'.zip k = s.zip k ∧ ∃ p, ExtractingKey s k p ∧ ExtractingKey s' k p) := by
  cases a with
  | start p c =>
    simp only [Pretrained.step] at hs
    split at hs
    · cases hs; exact .inl ⟨rfl, rfl⟩
    · cases hs
  | kill p =>
    simp only [Pretrained.step] at hs
    cases e : s.procs p with
    | none => simp [e] at hs
    | some q => simp [e] at hs; rw [← hs.2]; exact .inl ⟨rfl, rfl⟩
  | fail p =>
    simp only [Pretrained.step] at hs
    cases e : s.procs p with
    | none => simp [e] at hs
    | some q =>
      obtain ⟨c, pc⟩ := q
      simp only [e, Option.bind_some] at hs
      cases pc <;> simp only [Pretrained.fail] at hs <;> cases hs <;> exact .inl ⟨rfl, rfl⟩
  | next p =>
    simp only [Pretrained.step] at hs
    cases e : s.procs p with
    | none => simp [e] at hs
    | some q =>
      obtain ⟨c, pc⟩ := q
      have hl := h.loc p
      rw [e] at hl
      simp only [e, Option.bind_some] at hs
      cases pc with
      | rename =>
        obtain ⟨hst, hf, hc⟩ := hl
        cases c with
        | download k' => exact absurd hst id
        | store k' =>
          simp only [Pretrained.next, Call.key] at hs
          cases ec : s.cache k' with
          | none => rw [cachedIf, ec] at hc; cases hc
          | some z =>
            rw [ec] at hs
            cases hs
            by_cases hk : k = k'
            · subst hk
              exact .inr (.inl ⟨rfl, hf, by simp, p, .inl ⟨z, by simp [State.goto]⟩⟩)
            · exact .inl ⟨rfl, by simp [hk, State.goto]⟩
      | extract l =>
        obtain ⟨hst, hf, hc⟩ := hl
        cases c with
        | download k' => exact absurd hst id
        | store k' =>
          cases l with
          | nil => simp only [Pretrained.next] at hs; cases hs; exact .inl ⟨rfl, rfl⟩
          | cons x l =>
            obtain ⟨n, d⟩ := x
            simp only [Pretrained.next] at hs
            cases hs
            by_cases hk : k = k'
            · subst hk
              exact .inr (.inr ⟨rfl, p, .inl ⟨_, e⟩, .inr ⟨n, d, l, by simp [State.goto]⟩⟩)
            · exact .inl ⟨by simp [Call.key, hk, State.goto], rfl⟩
      | writing n d l =>
        obtain ⟨hst, hf, hc⟩ := hl
        cases c with
        | download k' => exact absurd hst id
        | store k' =>
          simp only [Pretrained.next] at hs
          cases hs
          by_cases hk : k = k'
          · subst hk
            exact .inr (.inr ⟨rfl, p, .inr ⟨n, d, l, e⟩, .inl ⟨l, by simp [State.goto]⟩⟩)
          · exact .inl ⟨by simp [Call.key, hk, State.goto], rfl⟩
      | testCache =>
        simp only [Pretrained.next] at hs
        split at hs <;> cases hs
        · cases c <;> exact .inl ⟨rfl, rfl⟩
        · exact .inl ⟨rfl, rfl⟩
      | cleanup =>
        simp only [Pretrained.next] at hs
        cases hs
        cases c <;> exact .inl ⟨rfl, rfl⟩
      | testPath => simp only [Pretrained.next] at hs; split at hs <;> cases hs <;> exact .inl ⟨rfl, rfl⟩
      | lockModels => simp only [Pretrained.next] at hs; split at hs <;> cases hs; exact .inl ⟨rfl, rfl⟩
      | lockCache => simp only [Pretrained.next] at hs; split at hs <;> cases hs; exact .inl ⟨rfl, rfl⟩
      | lockMove => simp only [Pretrained.next] at hs; split at hs <;> cases hs; exact .inl ⟨rfl, rfl⟩
      | makeTemp => simp only [Pretrained.next] at hs; cases hs; exact .inl ⟨rfl, rfl⟩
      | fetch => simp only [Pretrained.next] at hs; cases hs; exact .inl ⟨rfl, rfl⟩
      | move => simp only [Pretrained.next] at hs; cases hs; exact .inl ⟨rfl, rfl⟩
      | cleanupRaise => simp only [Pretrained.next] at hs; cases hs; exact .inl ⟨rfl, rfl⟩
      | returned b => simp [Pretrained.next] at hs
      | raised => simp [Pretrained.next] at hs
      | killed => simp [Pretrained.next] at hs

/-- Who is extracting after an event was before, or has just renamed the archive. -/
theorem extracting_step {remote : Key → List (Name × Data)} {s s' : State Key Name Data} (h : Inv remote s)
    (a : Act Key) (hs : step remote s a = some s') (k : Key) (q : Nat) (he : ExtractingKey s' k q) :
    ExtractingKey s k q ∨ s.zip k = none := by
  have key : ∀ p c pc, s'.procs = Function.update s.procs p (some ⟨c, pc⟩) →
      (c = .store k → (∃ l, pc = .extract l) ∨ (∃ n d l, pc = .writing n d l) →
        ExtractingKey s k p ∨ s.zip k = none) → ExtractingKey s k q ∨ s.zip k = none := by
    intro p c pc hp hc
    by_cases hq : q = p
    · subst hq
      rcases he with ⟨l, e⟩ | ⟨n, d, l, e⟩ <;> rw [hp, Function.update_self] at e <;> cases e
      · exact hc rfl (.inl ⟨l, rfl⟩)
      · exact hc rfl (.inr ⟨n, d, l, rfl⟩)
    · left
      unfold ExtractingKey at he ⊢
      rwa [hp, Function.update_of_ne hq] at he
  cases a with
  | start p c =>
    simp only [Pretrained.step] at hs
    split at hs
    · cases hs
      exact key p c _ rfl (fun _ h => by cases c <;> simp [entry] at h)
    · cases hs
  | kill p =>
    simp only [Pretrained.step] at hs
    cases e : s.procs p with
    | none => simp [e] at hs
    | some q =>
      simp [e] at hs
      exact key p _ _ (by rw [← hs.2]; rfl) (fun _ h => by simp at h)
  | fail p =>
    simp only [Pretrained.step] at hs
    cases e : s.procs p with
    | none => simp [e] at hs
    | some q =>
      obtain ⟨c, pc⟩ := q
      simp only [e, Option.bind_some] at hs
      cases pc <;> simp only [Pretrained.fail] at hs <;> cases hs <;>
        exact key p _ _ rfl (fun _ h => by simp at h)
  | next p =>
    simp only [Pretrained.step] at hs
    cases e : s.procs p with
    | none => simp [e] at hs
    | some q =>
      obtain ⟨c, pc⟩ := q
      have hl := h.loc p
      rw [e] at hl
      simp only [e, Option.bind_some] at hs
      cases pc with
      | rename =>
        obtain ⟨hst, hf, hc⟩ := hl
        cases c with
        | download k' => exact absurd hst id
        | store k' =>
          simp only [Pretrained.next, Call.key] at hs
          cases ec : s.cache k' with
          | none => rw [cachedIf, ec] at hc; cases hc
          | some z =>
            rw [ec] at hs
            cases hs
            exact key p _ _ rfl (fun hk _ => by cases hk; exact .inr hf)
      | extract l =>
        cases l with
        | nil => simp only [Pretrained.next] at hs; cases hs; exact key p _ _ rfl (fun _ h => by simp at h)
        | cons x l =>
          obtain ⟨n, d⟩ := x
          simp only [Pretrained.next] at hs
          cases hs
          exact key p _ _ rfl (fun hk _ => .inl (.inl ⟨_, hk ▸ e⟩))
      | writing n d l =>
        simp only [Pretrained.next] at hs
        cases hs
        exact key p _ _ rfl (fun hk _ => .inl (.inr ⟨n, d, l, hk ▸ e⟩))
      | testCache =>
        simp only [Pretrained.next] at hs
        split at hs <;> cases hs
        · cases c <;> exact key p _ _ rfl (fun _ h => by simp at h)
        · exact key p _ _ rfl (fun _ h => by simp at h)
      | cleanup =>
        simp only [Pretrained.next] at hs
        cases hs
        cases c <;> exact key p _ _ rfl (fun _ h => by simp at h)
      | testPath =>
        simp only [Pretrained.next] at hs; split at hs <;> cases hs <;> exact key p _ _ rfl (fun _ h => by simp at h)
      | lockModels =>
        simp only [Pretrained.next] at hs; split at hs <;> cases hs; exact key p _ _ rfl (fun _ h => by simp at h)
      | lockCache =>
        simp only [Pretrained.next] at hs; split at hs <;> cases hs; exact key p _ _ rfl (fun _ h => by simp at h)
      | lockMove =>
        simp only [Pretrained.next] at hs; split at hs <;> cases hs; exact key p _ _ rfl (fun _ h => by simp at h)
      | makeTemp => simp only [Pretrained.next] at hs; cases hs; exact key p _ _ rfl (fun _ h => by simp at h)
      | fetch => simp only [Pretrained.next] at hs; cases hs; exact key p _ _ rfl (fun _ h => by simp at h)
      | move => simp only [Pretrained.next] at hs; cases hs; exact key p _ _ rfl (fun _ h => by simp at h)
      | cleanupRaise => simp only [Pretrained.next] at hs; cases hs; exact key p _ _ rfl (fun _ h => by simp at h)
      | returned b => simp [Pretrained.next] at hs
      | raised => simp [Pretrained.next] at hs
      | killed => simp [Pretrained.next] at hs

/-- The archive is stored and nobody is extracting it. -/
def Settled (s : State Key Name Data) (k : Key) : Prop := (s.zip k).isSome ∧ ∀ q, ¬ ExtractingKey s k q

theorem Settled.step {remote : Key → List (Name × Data)} {s s' : State Key Name Data} (h : Inv remote s)
    (a : Act Key) (hs : step remote s a = some s') (k : Key) (hk : Settled s k) :
    Settled s' k ∧ s'.dir k = s.dir k := by
  have hn : ∀ q, ¬ ExtractingKey s' k q := fun q he => by
    rcases extracting_step h a hs k q he with h1 | h1
    · exact hk.2 q h1
    · have := hk.1; rw [h1] at this; cases this
  rcases step_dir h a hs k with ⟨hd, hz⟩ | ⟨hd, hz, _⟩ | ⟨hz, p, hp, _⟩
  · exact ⟨⟨hz ▸ hk.1, hn⟩, hd⟩
  · have := hk.1; rw [hz] at this; cases this
  · exact absurd hp (hk.2 p)

theorem Settled.reach {remote : Key → List (Name × Data)} {ok : State Key Name Data → Act Key → Prop}
    (hnd : ∀ k, ((remote k).map Prod.fst).Nodup) {s s' : State Key Name Data} (h : Inv remote s)
    (hr : Reach remote ok s s') (k : Key) (hk : Settled s k) : Settled s' k ∧ s'.dir k = s.dir k := by
  induction hr with
  | refl => exact ⟨hk, rfl⟩
  | step a hr _ hs ih =>
    have h1 := ih
    have h2 := h1.1.step (inv_reach hnd h hr) a hs k
    exact ⟨h2.1, h2.2.trans h1.2⟩

theorem extracting_holds {s : State Key Name Data} {k : Key} {p : Nat} (h : ExtractingKey s k p) :
    holdsM (s.procs p) := by
  rcases h with ⟨l, e⟩ | ⟨n, d, l, e⟩ <;> rw [e] <;> exact ⟨rfl, by simp⟩

/-- Whoever has returned, the archive is settled. -/
def Returned (s : State Key Name Data) : Prop :=
  ∀ p k b, s.procs p = some ⟨.store k, .returned b⟩ → Settled s k

theorem returned_step {remote : Key → List (Name × Data)} {s s' : State Key Name Data} (h : Inv remote s)
    (hR : Returned s) (a : Act Key) (hs : step remote s a = some s') : Returned s' := by
  intro q k b hq
  have key : ∀ p c pc, s'.procs = Function.update s.procs p (some ⟨c, pc⟩) →
      (c = .store k → pc = .returned b → Settled s' k) → Settled s' k := by
    intro p c pc hp hc
    by_cases e : q = p
    · subst e
      rw [hp, Function.update_self] at hq
      cases hq
      exact hc rfl rfl
    · rw [hp, Function.update_of_ne e] at hq
      exact ((hR q k b hq).step h a hs k).1
  have done : ∀ p pc, s.procs p = some ⟨.store k, pc⟩ → holdsM (s.procs p) → (s.zip k).isSome →
      s' = s.finish p (.store k) (.returned b) → Settled s' k := by
    intro p pc hp hh hz e
    refine ⟨by rw [e]; exact hz, fun r he => ?_⟩
    rcases extracting_step h a hs k r he with h1 | h1
    · have h2 := (h.lockM r).mpr (extracting_holds h1)
      rw [(h.lockM p).mpr hh] at h2
      cases h2
      rw [e] at he
      rcases he with ⟨l, e⟩ | ⟨n, d, l, e⟩ <;> simp [State.finish, State.goto] at e
    · rw [h1] at hz; cases hz
  cases a with
  | start p c =>
    simp only [Pretrained.step] at hs
    split at hs
    · cases hs
      exact key p c _ rfl (fun _ h => by cases c <;> simp [entry] at h)
    · cases hs
  | kill p =>
    simp only [Pretrained.step] at hs
    cases e : s.procs p with
    | none => simp [e] at hs
    | some q =>
      simp [e] at hs
      exact key p _ _ (by rw [← hs.2]; rfl) (fun _ h => by simp at h)
  | fail p =>
    simp only [Pretrained.step] at hs
    cases e : s.procs p with
    | none => simp [e] at hs
    | some q =>
      obtain ⟨c, pc⟩ := q
      simp only [e, Option.bind_some] at hs
      cases pc <;> simp only [Pretrained.fail] at hs <;> cases hs <;>
        exact key p _ _ rfl (fun _ h => by simp at h)
  | next p =>
    simp only [Pretrained.step] at hs
    cases e : s.procs p with
    | none => simp [e] at hs
    | some q =>
      obtain ⟨c, pc⟩ := q
      have hl := h.loc p
      rw [e] at hl
      simp only [e, Option.bind_some] at hs
      cases pc with
      | rename =>
        obtain ⟨hst, hf, hc⟩ := hl
        cases c with
        | download k' => exact absurd hst id
        | store k' =>
          simp only [Pretrained.next, Call.key] at hs
          cases ec : s.cache k' with
          | none => rw [cachedIf, ec] at hc; cases hc
          | some z =>
            rw [ec] at hs
            cases hs
            exact key p _ _ rfl (fun _ h => by simp at h)
      | extract l =>
        cases l with
        | nil =>
          simp only [Pretrained.next] at hs
          have hs' := (Option.some.inj hs).symm
          refine key p c (.returned false) (by rw [hs']; rfl) (fun hc hb => ?_)
          subst hc
          cases hb
          exact done p _ e (by rw [e]; exact ⟨rfl, by simp⟩) hl.2.1 hs'
        | cons x l =>
          obtain ⟨n, d⟩ := x
          simp only [Pretrained.next] at hs
          cases hs
          exact key p _ _ rfl (fun _ h => by simp at h)
      | writing n d l =>
        simp only [Pretrained.next] at hs
        cases hs
        exact key p _ _ rfl (fun _ h => by simp at h)
      | testCache =>
        simp only [Pretrained.next] at hs
        split at hs <;> cases hs
        · cases c
          · exact key p _ _ rfl (fun hc => by simp at hc)
          · exact key p _ _ rfl (fun _ h => by simp at h)
        · exact key p _ _ rfl (fun _ h => by simp at h)
      | cleanup =>
        simp only [Pretrained.next] at hs
        cases hs
        cases c
        · exact key p _ _ rfl (fun hc => by simp at hc)
        · exact key p _ _ rfl (fun _ h => by simp at h)
      | testPath =>
        simp only [Pretrained.next] at hs
        split at hs
        · rename_i hz
          have hs' := (Option.some.inj hs).symm
          refine key p c (.returned true) (by rw [hs']; rfl) (fun hc hb => ?_)
          subst hc
          cases hb
          exact done p _ e (by rw [e]; exact ⟨rfl, by simp⟩) hz hs'
        · cases hs
          exact key p _ _ rfl (fun _ h => by simp at h)
      | lockModels =>
        simp only [Pretrained.next] at hs; split at hs <;> cases hs; exact key p _ _ rfl (fun _ h => by simp at h)
      | lockCache =>
        simp only [Pretrained.next] at hs; split at hs <;> cases hs; exact key p _ _ rfl (fun _ h => by simp at h)
      | lockMove =>
        simp only [Pretrained.next] at hs; split at hs <;> cases hs; exact key p _ _ rfl (fun _ h => by simp at h)
      | makeTemp => simp only [Pretrained.next] at hs; cases hs; exact key p _ _ rfl (fun _ h => by simp at h)
      | fetch => simp only [Pretrained.next] at hs; cases hs; exact key p _ _ rfl (fun _ h => by simp at h)
      | move => simp only [Pretrained.next] at hs; cases hs; exact key p _ _ rfl (fun _ h => by simp at h)
      | cleanupRaise => simp only [Pretrained.next] at hs; cases hs; exact key p _ _ rfl (fun _ h => by simp at h)
      | returned b => simp [Pretrained.next] at hs
      | raised => simp [Pretrained.next] at hs
      | killed => simp [Pretrained.next] at hs

/-- A stored archive has been extracted or is being extracted. -/
def Stored (remote : Key → List (Name × Data)) (s : State Key Name Data) : Prop :=
  ∀ k, (s.zip k).isSome → Complete remote s k ∨ ∃ p, ExtractingKey s k p

/-- An extraction that is not interrupted goes on or completes the directory. -/
theorem extracting_next {remote : Key → List (Name × Data)} {s s' : State Key Name Data} (h : Inv remote s)
    (a : Act Key) (ha : Uninterrupted s a) (hs : step remote s a = some s') (k : Key) (p : Nat)
    (he : ExtractingKey s k p) : ExtractingKey s' k p ∨ Complete remote s' k := by
  have other : ∀ r c pc, r ≠ p → s'.procs = Function.update s.procs r (some ⟨c, pc⟩) → ExtractingKey s' k p := by
    intro r c pc hr hp
    unfold ExtractingKey at he ⊢
    rwa [hp, Function.update_of_ne (Ne.symm hr)]
  have hex : Extracting s p := by
    rcases he with ⟨l, e⟩ | ⟨n, d, l, e⟩
    · exact ⟨_, .inl ⟨l, e⟩⟩
    · exact ⟨_, .inr ⟨n, d, l, e⟩⟩
  have upd : ∀ r q, s.procs r = some q → (∃ a, step remote s a = some s' ∧ (a = .next r ∨ a = .fail r ∨ a = .kill r)) →
      ∃ c pc, s'.procs = Function.update s.procs r (some ⟨c, pc⟩) := by
    rintro r ⟨c, pc⟩ hr ⟨a, ha, rfl | rfl | rfl⟩
    · simp only [Pretrained.step, hr, Option.bind_some] at ha
      have hl := h.loc r
      rw [hr] at hl
      cases pc with
      | rename =>
        simp only [Pretrained.next] at ha
        split at ha <;> cases ha <;> exact ⟨_, _, rfl⟩
      | extract l =>
        cases l with
        | nil => simp only [Pretrained.next] at ha; cases ha; exact ⟨_, _, rfl⟩
        | cons x l => simp only [Pretrained.next] at ha; cases ha; exact ⟨_, _, rfl⟩
      | testCache =>
        simp only [Pretrained.next] at ha
        split at ha <;> cases ha
        · cases c <;> exact ⟨_, _, rfl⟩
        · exact ⟨_, _, rfl⟩
      | cleanup => simp only [Pretrained.next] at ha; cases ha; cases c <;> exact ⟨_, _, rfl⟩
      | testPath => simp only [Pretrained.next] at ha; split at ha <;> cases ha <;> exact ⟨_, _, rfl⟩
      | lockModels => simp only [Pretrained.next] at ha; split at ha <;> cases ha <;> exact ⟨_, _, rfl⟩
      | lockCache => simp only [Pretrained.next] at ha; split at ha <;> cases ha <;> exact ⟨_, _, rfl⟩
      | lockMove => simp only [Pretrained.next] at ha; split at ha <;> cases ha <;> exact ⟨_, _, rfl⟩
      | returned b => simp [Pretrained.next] at ha
      | raised => simp [Pretrained.next] at ha
      | killed => simp [Pretrained.next] at ha
      | makeTemp => simp only [Pretrained.next] at ha; cases ha; exact ⟨_, _, rfl⟩
      | fetch => simp only [Pretrained.next] at ha; cases ha; exact ⟨_, _, rfl⟩
      | move => simp only [Pretrained.next] at ha; cases ha; exact ⟨_, _, rfl⟩
      | cleanupRaise => simp only [Pretrained.next] at ha; cases ha; exact ⟨_, _, rfl⟩
      | writing n d l => simp only [Pretrained.next] at ha; cases ha; exact ⟨_, _, rfl⟩
    · simp only [Pretrained.step, hr, Option.bind_some] at ha
      cases pc <;> simp only [Pretrained.fail] at ha <;> cases ha <;> exact ⟨_, _, rfl⟩
    · simp [Pretrained.step, hr] at ha
      exact ⟨_, _, by rw [← ha.2]; rfl⟩
  cases a with
  | start r c =>
    simp only [Pretrained.step] at hs
    split at hs
    · rename_i e
      cases hs
      refine .inl (other r c (entry c) (fun hr => ?_) rfl)
      subst hr
      exact (not_holds_of_canStart _ e).1 (extracting_holds he)
    · cases hs
  | kill r =>
    have hr : r ≠ p := fun e => ha (e ▸ hex)
    cases e : s.procs r with
    | none => simp [Pretrained.step, e] at hs
    | some q =>
      obtain ⟨c, pc, hp⟩ := upd r q e ⟨_, hs, by simp⟩
      exact .inl (other r c pc hr hp)
  | fail r =>
    have hr : r ≠ p := fun e => ha (e ▸ hex)
    cases e : s.procs r with
    | none => simp [Pretrained.step, e] at hs
    | some q =>
      obtain ⟨c, pc, hp⟩ := upd r q e ⟨_, hs, by simp⟩
      exact .inl (other r c pc hr hp)
  | next r =>
    by_cases hr : r = p
    · subst hr
      have hl := h.loc r
      rcases he with ⟨l, e⟩ | ⟨n, d, l, e⟩ <;> rw [e] at hl <;> simp only [Pretrained.step, e, Option.bind_some] at hs
      · cases l with
        | nil =>
          simp only [Pretrained.next] at hs
          cases hs
          obtain ⟨_, _, pre, hpre, hd⟩ := hl
          refine .inr fun n d hm => hd n d ?_
          rw [Call.key, List.append_nil] at hpre
          rwa [← hpre]
        | cons x l =>
          obtain ⟨n, d⟩ := x
          simp only [Pretrained.next] at hs
          cases hs
          exact .inl (.inr ⟨n, d, l, by simp [State.goto]⟩)
      · simp only [Pretrained.next] at hs
        cases hs
        exact .inl (.inl ⟨l, by simp [State.goto]⟩)
    · cases e : s.procs r with
      | none => simp [Pretrained.step, e] at hs
      | some q =>
        obtain ⟨c, pc, hp⟩ := upd r q e ⟨_, hs, by simp⟩
        exact .inl (other r c pc hr hp)

theorem stored_step {remote : Key → List (Name × Data)} {s s' : State Key Name Data} (h : Inv remote s)
    (hS : Stored remote s) (a : Act Key) (ha : Uninterrupted s a) (hs : step remote s a = some s') :
    Stored remote s' := by
  intro k hk
  rcases step_dir h a hs k with ⟨hd, hz⟩ | ⟨_, _, _, p, hp⟩ | ⟨_, p, _, hp⟩
  · rw [hz] at hk
    rcases hS k hk with hc | ⟨p, hp⟩
    · left; intro n d hm; rw [hd]; exact hc n d hm
    · rcases extracting_next h a ha hs k p hp with h1 | h1
      · exact .inr ⟨p, h1⟩
      · exact .inl h1
  · exact .inr ⟨p, hp⟩
  · exact .inr ⟨p, hp⟩

end Verif.Pretrained
