import Verif.Spec.OutputDir

/-!
C101: output directories are new, private and complete.
-/

set_option autoImplicit false
set_option linter.unusedSectionVars false

namespace Verif.OutputDir

variable {Path Text : Type} [DecidableEq Path]

/-- The directory a call has made. -/
def made : Option (Call Path Text × Pc Path Text) → Option Path
  | some (_, .write d _) => some d
  | some (_, .returned d) => some d
  | _ => none

/-- The files that have been written so far. -/
def Written (f : String → Option Text) (l : List (String × Option Text)) : Prop :=
  ∀ n t, (n, t) ∈ l → t.isSome ∧ f n = t

/-- What is known about a process. -/
def Local (join : Path → Text → Path) (kind₀ : Path → Option Kind) (s : State Path Text) :
    Option (Call Path Text × Pc Path Text) → Prop
  | some (c, .checkOut d) => ∃ u, c.user = some u ∧ d = join u c.time
  | some (c, .makeDirs d) => ∃ u, c.user = some u ∧ d = join u c.time
  | some (c, .makeTemp) => c.user = none
  | some (c, .write d l) => (∀ u, c.user = some u → d = join u c.time) ∧ kind₀ d = none ∧ s.kind d = some .dir ∧
      ∃ pre, filesOf c = pre ++ l ∧ Written (s.files d) pre
  | some (c, .returned d) => (∀ u, c.user = some u → d = join u c.time) ∧ kind₀ d = none ∧ s.kind d = some .dir ∧
      Written (s.files d) (filesOf c)
  | _ => True

structure Inv (join : Path → Text → Path) (kind₀ : Path → Option Kind) (files₀ : Path → String → Option Text)
    (s : State Path Text) : Prop where
  kind : ∀ d k, kind₀ d = some k → s.kind d = some k
  files : ∀ d, (kind₀ d).isSome → s.files d = files₀ d
  loc : ∀ p, Local join kind₀ s (s.procs p)
  apart : ∀ p q d, made (s.procs p) = some d → made (s.procs q) = some d → p = q

theorem local_frame (join : Path → Text → Path) (kind₀ : Path → Option Kind) (s s' : State Path Text)
    (q : Option (Call Path Text × Pc Path Text)) (hk : ∀ d k, s.kind d = some k → s'.kind d = some k)
    (hf : ∀ d, made q = some d → s'.files d = s.files d) (h : Local join kind₀ s q) : Local join kind₀ s' q := by
  rcases q with _ | ⟨c, pc⟩
  · trivial
  · cases pc <;> simp only [Local] at h ⊢ <;> try exact h
    · obtain ⟨h1, h2, h3, h4⟩ := h
      exact ⟨h1, h2, hk _ _ h3, by rw [hf _ rfl]; exact h4⟩
    · obtain ⟨h1, h2, h3, h4⟩ := h
      exact ⟨h1, h2, hk _ _ h3, by rw [hf _ rfl]; exact h4⟩

theorem made_kind {join : Path → Text → Path} {kind₀ : Path → Option Kind} {s : State Path Text}
    {q : Option (Call Path Text × Pc Path Text)} {d : Path} (h : Local join kind₀ s q) (hm : made q = some d) :
    s.kind d = some .dir ∧ kind₀ d = none := by
  rcases q with _ | ⟨c, pc⟩
  · cases hm
  · cases pc <;> simp only [made] at hm <;> cases hm
    · exact ⟨h.2.2.1, h.2.1⟩
    · exact ⟨h.2.2.1, h.2.1⟩

/-- A step of one process. -/
theorem Inv.step_of {join : Path → Text → Path} {kind₀ : Path → Option Kind} {files₀ : Path → String → Option Text}
    {s : State Path Text} (h : Inv join kind₀ files₀ s) (p : Nat) (q' : Call Path Text × Pc Path Text)
    (s' : State Path Text) (hprocs : s'.procs = Function.update s.procs p (some q'))
    (hk : ∀ d k, s.kind d = some k → s'.kind d = some k)
    (hf : ∀ d, made (s.procs p) ≠ some d → s'.files d = s.files d)
    (hl : Local join kind₀ s' (some q'))
    (hm : ∀ d, made (some q') = some d → made (s.procs p) = some d ∨ s.kind d = none) :
    Inv join kind₀ files₀ s' := by
  have hne : ∀ r, r ≠ p → s'.procs r = s.procs r := fun r hr => by rw [hprocs, Function.update_of_ne hr]
  have heq : s'.procs p = some q' := by rw [hprocs, Function.update_self]
  have key : ∀ r d, r ≠ p → made (s.procs r) = some d → made (some q') = some d → False := by
    intro r d hr h1 h2
    rcases hm d h2 with h3 | h3
    · exact hr (h.apart r p d h1 h3)
    · rw [(made_kind (h.loc r) h1).1] at h3; cases h3
  refine ⟨fun d k hd => hk d k (h.kind d k hd), fun d hd => ?_, fun r => ?_, fun r r' d h1 h2 => ?_⟩
  · rw [hf d, h.files d hd]
    intro e
    rw [(made_kind (h.loc p) e).2] at hd
    cases hd
  · by_cases hr : r = p
    · subst hr; rw [heq]; exact hl
    · rw [hne r hr]
      refine local_frame join kind₀ s s' _ hk (fun d hd => hf d fun e => hr (h.apart r p d hd e)) (h.loc r)
  · by_cases hr : r = p <;> by_cases hr' : r' = p
    · rw [hr, hr']
    · subst hr; rw [heq] at h1; rw [hne r' hr'] at h2; exact (key r' d hr' h2 h1).elim
    · subst hr'; rw [heq] at h2; rw [hne r hr] at h1; exact (key r d hr h1 h2).elim
    · rw [hne r hr] at h1; rw [hne r' hr'] at h2; exact h.apart r r' d h1 h2

/-- A step that changes nothing but where the process is. -/
theorem Inv.goto {join : Path → Text → Path} {kind₀ : Path → Option Kind} {files₀ : Path → String → Option Text}
    {s : State Path Text} (h : Inv join kind₀ files₀ s) (p : Nat) (c : Call Path Text) (pc : Pc Path Text)
    (hl : Local join kind₀ s (some (c, pc)))
    (hm : ∀ d, made (some (c, pc)) = some d → made (s.procs p) = some d) :
    Inv join kind₀ files₀ (s.goto p c pc) := by
  refine h.step_of p (c, pc) _ rfl (fun _ _ h => h) (fun _ _ => rfl) ?_ (fun d hd => .inl (hm d hd))
  exact local_frame join kind₀ s _ _ (fun _ _ h => h) (fun _ _ => rfl) hl

theorem names_nodup (c : Call Path Text) : ((filesOf c).map Prod.fst).Nodup := by
  unfold filesOf gitFiles
  cases c.git <;> simp

theorem Inv.make {join : Path → Text → Path} {kind₀ : Path → Option Kind} {files₀ : Path → String → Option Text}
    {s : State Path Text} (h : Inv join kind₀ files₀ s) (p : Nat) (c : Call Path Text) (d : Path)
    (hd : s.kind d = none) (hc : ∀ u, c.user = some u → d = join u c.time) :
    Inv join kind₀ files₀ { s.goto p c (.write d (filesOf c)) with kind := Function.update s.kind d (some .dir) } := by
  refine h.step_of p (c, .write d (filesOf c)) _ rfl (fun d' k hk => ?_) (fun _ _ => rfl) ?_ (fun d' hd' => ?_)
  · have : d' ≠ d := fun e => by subst e; rw [hd] at hk; cases hk
    simpa [this] using hk
  · refine ⟨hc, ?_, by simp, [], rfl, by simp [Written]⟩
    cases e : kind₀ d with
    | none => rfl
    | some k => rw [h.kind d k e] at hd; cases hd
  · cases hd'; exact .inr hd

theorem Inv.next {join : Path → Text → Path} {kind₀ : Path → Option Kind} {files₀ : Path → String → Option Text}
    {s s' : State Path Text} (h : Inv join kind₀ files₀ s) (p : Nat) (c : Call Path Text) (new : Path)
    (pc : Pc Path Text) (hp : s.procs p = some (c, pc)) (hs : next join s p c new pc = some s') :
    Inv join kind₀ files₀ s' := by
  have hl := h.loc p
  rw [hp] at hl
  cases pc with
  | checkUser =>
    simp only [OutputDir.next] at hs
    cases hs
    cases e : c.user with
    | none => exact h.goto p c _ e (by simp [made])
    | some u =>
      simp only [checkUser]
      split
      · exact h.goto p c _ trivial (by simp [made])
      · exact h.goto p c _ ⟨u, e, rfl⟩ (by simp [made])
  | checkOut d =>
    simp only [OutputDir.next] at hs
    split at hs <;> cases hs
    · exact h.goto p c _ trivial (by simp [made])
    · exact h.goto p c _ hl (by simp [made])
  | makeDirs d =>
    simp only [OutputDir.next] at hs
    split at hs <;> cases hs
    · exact h.goto p c _ trivial (by simp [made])
    · rename_i e
      obtain ⟨u, hu, hd⟩ := hl
      refine h.make p c d (by simpa using e) fun u' hu' => ?_
      rw [hu] at hu'; cases hu'; exact hd
  | makeTemp =>
    simp only [OutputDir.next] at hs
    split at hs <;> cases hs
    rename_i e
    refine h.make p c new (by simpa using e) fun u hu => ?_
    rw [show c.user = none from hl] at hu
    cases hu
  | write d l =>
    obtain ⟨h1, h2, h3, pre, h4, h5⟩ := hl
    cases l with
    | nil =>
      simp only [OutputDir.next] at hs
      cases hs
      rw [List.append_nil] at h4
      exact h.goto p c _ ⟨h1, h2, h3, h4 ▸ h5⟩ (fun d' hd => by rw [hp]; exact hd)
    | cons x l =>
      obtain ⟨n, t⟩ := x
      cases t with
      | none =>
        simp only [OutputDir.next] at hs
        cases hs
        exact h.goto p c _ trivial (by simp [made])
      | some t =>
        simp only [OutputDir.next] at hs
        cases hs
        have hnd := names_nodup c
        rw [h4, List.map_append, List.map_cons, List.nodup_append] at hnd
        refine h.step_of p (c, .write d l) _ rfl (fun _ _ h => h) (fun d' hd' => ?_) ?_ (fun d' hd' => .inl ?_)
        · have : d' ≠ d := fun e => hd' (by rw [hp, e]; rfl)
          simp [this, State.goto]
        · refine ⟨h1, h2, h3, pre ++ [(n, some t)], by simpa using h4, fun n' t' hm => ?_⟩
          rcases List.mem_append.mp hm with hm | hm
          · have hne : n' ≠ n := hnd.2.2 n' (List.mem_map.mpr ⟨_, hm, rfl⟩) n List.mem_cons_self
            have := h5 n' t' hm
            simp [hne]
            exact this
          · simp at hm
            obtain ⟨rfl, rfl⟩ := hm
            simp
        · rw [hp]; exact hd'
  | returned d => simp [OutputDir.next] at hs
  | raised => simp [OutputDir.next] at hs
  | killed => simp [OutputDir.next] at hs

theorem Inv.step {join : Path → Text → Path} {kind₀ : Path → Option Kind} {files₀ : Path → String → Option Text}
    {s s' : State Path Text} (h : Inv join kind₀ files₀ s) (a : Act Path Text) (hs : step join s a = some s') :
    Inv join kind₀ files₀ s' := by
  cases a with
  | start p c =>
    simp only [OutputDir.step] at hs
    split at hs
    · cases hs
      refine h.goto p c _ ?_ ?_ <;> unfold entry <;> cases e : c.user <;> simp [Local, made, e]
    · cases hs
  | next p d =>
    simp only [OutputDir.step, Option.bind_eq_some_iff] at hs
    obtain ⟨⟨c, pc⟩, hp, hs⟩ := hs
    exact h.next p c d pc hp hs
  | kill p =>
    simp only [OutputDir.step, Option.map_eq_some_iff] at hs
    obtain ⟨⟨c, pc⟩, hp, rfl⟩ := hs
    exact h.goto p c _ trivial (by simp [made])
  | other d k =>
    simp only [OutputDir.step] at hs
    split at hs
    · rename_i e
      cases hs
      have hk : ∀ d' k', s.kind d' = some k' → Function.update s.kind d (some k) d' = some k' := fun d' k' hk => by
        have : d' ≠ d := fun e' => by subst e'; rw [hk] at e; cases e
        simpa [this] using hk
      exact ⟨fun d' k' hd => hk d' k' (h.kind d' k' hd), h.files,
        fun p => local_frame join kind₀ s _ _ hk (fun _ _ => rfl) (h.loc p), h.apart⟩
    · cases hs

theorem inv_reach {join : Path → Text → Path} {kind₀ : Path → Option Kind} {files₀ : Path → String → Option Text}
    {s : State Path Text} (h : Reach join (initial kind₀ files₀) s) : Inv join kind₀ files₀ s := by
  induction h with
  | refl => exact ⟨fun _ _ h => h, fun _ _ => rfl, fun _ => trivial, fun p q d h => by simp [initial, made] at h⟩
  | step a _ hs ih => exact ih.step a hs

/-- For all interleavings of any number of calls and of other programs creating files: the directory a call returns
did not exist before, is returned by no other call, and contains the documented files; for a user's directory it is
the one of the current time in it. -/
theorem C101_returned (join : Path → Text → Path) (kind : Path → Option Kind) (files : Path → String → Option Text)
    (s : State Path Text) (h : Reach join (initial kind files) s) (p : Nat) (c : Call Path Text) (d : Path)
    (hp : s.procs p = some (c, .returned d)) :
    kind d = none ∧ s.kind d = some .dir ∧ (∀ u, c.user = some u → d = join u c.time) ∧ Documented c (s.files d) ∧
    ∀ q c', s.procs q = some (c', .returned d) → q = p := by
  have hi := inv_reach h
  have hl := hi.loc p
  rw [hp] at hl
  obtain ⟨h1, h2, h3, h4⟩ := hl
  refine ⟨h2, h3, h1, ⟨?_, ?_, ?_, ?_, fun g hg => ?_⟩, fun q c' hq => ?_⟩
  · exact (h4 "args.txt" c.args (by simp [filesOf])).1
  · exact (h4 "args.txt" c.args (by simp [filesOf])).2
  · exact (h4 "environ.txt" _ (by simp [filesOf])).2
  · exact (h4 "command.txt" _ (by simp [filesOf])).2
  · exact ⟨(h4 "git-head.txt" _ (by simp [filesOf, gitFiles, hg])).2,
      (h4 "git-status.txt" _ (by simp [filesOf, gitFiles, hg])).2,
      (h4 "git-log.txt" _ (by simp [filesOf, gitFiles, hg])).2,
      (h4 "git-diff.txt" _ (by simp [filesOf, gitFiles, hg])).2⟩
  · exact hi.apart q p d (by rw [hq]; rfl) (by rw [hp]; rfl)

/-- Nothing that existed is removed or changed, at any moment. -/
theorem C101_nothing_overwritten (join : Path → Text → Path) (kind : Path → Option Kind)
    (files : Path → String → Option Text) (s : State Path Text) (h : Reach join (initial kind files) s) (d : Path)
    (k : Kind) (hd : kind d = some k) : s.kind d = some k ∧ s.files d = files d :=
  ⟨(inv_reach h).kind d k hd, (inv_reach h).files d (by rw [hd]; rfl)⟩

/-- A call alone on the file system whose arguments can be represented returns, unless the user's path is a file or the
output directory exists; then it raises. -/
theorem C101_alone (join : Path → Text → Path) (kind : Path → Option Kind) (files : Path → String → Option Text)
    (c : Call Path Text) (u : Path) (hu : c.user = some u) (ha : c.args.isSome) (hg : c.git = none) :
    ∃ s, Reach join (initial kind files) s ∧
      s.procs 0 = some (c, if kind u = some .file ∨ (kind (join u c.time)).isSome then .raised
        else .returned (join u c.time)) := by
  have r0 : Reach join (initial kind files) ((initial kind files).goto 0 c .checkUser) :=
    .step (.start 0 c) .refl (by simp [step, initial, entry, hu])
  by_cases h1 : kind u = some .file
  · exact ⟨_, .step (.next 0 u) r0 (by simp [step, State.goto, next, checkUser, hu, initial, h1]; rfl),
      by simp [h1]⟩
  have r1 : Reach join (initial kind files) ((initial kind files).goto 0 c (.checkOut (join u c.time))) :=
    .step (.next 0 u) r0 (by simp [step, State.goto, next, checkUser, hu, initial, h1])
  by_cases h2 : (kind (join u c.time)).isSome
  · exact ⟨_, .step (.next 0 u) r1 (by simp [step, State.goto, next, initial, h2]; rfl), by simp [h2]⟩
  have r2 : Reach join (initial kind files) ((initial kind files).goto 0 c (.makeDirs (join u c.time))) :=
    .step (.next 0 u) r1 (by simp [step, State.goto, next, initial, h2])
  obtain ⟨t, ht⟩ := Option.isSome_iff_exists.mp ha
  have r3 := Reach.step (.next 0 u) r2 (s' := _) (by simp only [step, State.goto, Function.update_self, Option.bind_some, next, initial, h2]; rfl)
  have r4 := Reach.step (.next 0 u) r3 (s' := _) (by simp only [step, State.goto, Function.update_self, Option.bind_some, filesOf, ht, List.cons_append, next]; rfl)
  have r5 := Reach.step (.next 0 u) r4 (s' := _) (by simp only [step, State.goto, Function.update_self, Option.bind_some, next]; rfl)
  have r6 := Reach.step (.next 0 u) r5 (s' := _) (by simp only [step, State.goto, Function.update_self, Option.bind_some, next]; rfl)
  have r7 := Reach.step (.next 0 u) r6 (s' := _) (by simp only [step, State.goto, Function.update_self, Option.bind_some, hg, gitFiles, List.append_nil, List.nil_append, next]; rfl)
  exact ⟨_, r7, by simp [State.goto, h1, h2]⟩

/-- A sequence of events. -/
def runActs (join : Path → Text → Path) : State Path Text → List (Act Path Text) → Option (State Path Text)
  | s, [] => some s
  | s, a :: l => (step join s a).bind fun s' => runActs join s' l

theorem reach_of_run (join : Path → Text → Path) (l : List (Act Path Text)) (s₀ s s' : State Path Text)
    (h₀ : Reach join s₀ s) (h : runActs join s l = some s') : Reach join s₀ s' := by
  induction l generalizing s with
  | nil => cases h; exact h₀
  | cons a l ih =>
    simp only [runActs, Option.bind_eq_some_iff] at h
    obtain ⟨s1, h1, h2⟩ := h
    exact ih s1 (.step a h₀ h1) h2

/-- Two calls at the same time in the same directory: both find that the output directory does not exist, the second
fails to make it. -/
example : let c : Call Nat Nat := ⟨some 3, 5, some 1, 2, 3, some ⟨6, 7, 8, 9⟩⟩
    ∃ s : State Nat Nat, Reach (fun u t => 10 * u + t) (initial (fun d => if d = 3 then some .dir else none)
      fun _ _ => none) s ∧ s.procs 0 = some (c, .returned 35) ∧ s.procs 1 = some (c, .raised) ∧
      s.files 35 "git-log.txt" = some 8 := by
  intro c
  have hrun : ∃ s, runActs (fun u t => 10 * u + t) (initial (fun d => if d = 3 then some .dir else none)
      fun _ _ => none) ([.start 0 c, .start 1 c] ++ [.next 0 0, .next 1 0, .next 0 0, .next 1 0, .next 0 0, .next 1 0] ++
        List.replicate 8 (.next 0 0)) = some s ∧ s.procs 0 = some (c, .returned 35) ∧ s.procs 1 = some (c, .raised) ∧
      s.files 35 "git-log.txt" = some 8 := by
    simp [runActs, step, next, checkUser, initial, State.goto, entry, c, filesOf, gitFiles, List.replicate,
      Function.update]
  obtain ⟨s, hs, h⟩ := hrun
  exact ⟨s, reach_of_run _ _ _ _ s .refl hs, h⟩

end Verif.OutputDir
