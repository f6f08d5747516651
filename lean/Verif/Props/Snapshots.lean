import Mathlib.Data.List.Nodup
import Mathlib.Data.List.Pairwise
import Verif.Model.Snapshots
import Verif.Props.TrainAgent
set_option autoImplicit false
set_option linter.unusedSectionVars false

/-!
# C118: snapshots on disk at every crash point
-/

namespace Verif.Snapshots

variable {D : Type}

/-! ## Files -/

/-- The directory an operation works in. -/
def Op.dir : Op D → String
  | .truncate d _ => d
  | .complete d _ _ => d

theorem exec_append (fs : Files D) (a b : List (Op D)) : exec fs (a ++ b) = exec (exec fs a) b := by
  simp [exec]

theorem exec_other (dir attr : String) (ops : List (Op D)) : ∀ fs : Files D, (∀ o ∈ ops, o.dir ≠ dir) → exec fs ops dir attr = fs dir attr := by
  induction ops with
  | nil => intro fs _; rfl
  | cons o ops ih =>
    intro fs h
    have h1 := h o (by simp)
    show exec (o.exec fs) ops dir attr = _
    rw [ih _ (fun o' h' => h o' (by simp [h']))]
    cases o with
    | truncate d a => simp only [Op.exec, put, Op.dir] at h1 ⊢; rw [if_neg fun h => h1 h.1.symm]
    | complete d a x => simp only [Op.exec, put, Op.dir] at h1 ⊢; rw [if_neg fun h => h1 h.1.symm]

theorem saveOps_dir (attrs : List String) (dir : String) (snap : String → D) : ∀ o ∈ saveOps attrs dir snap, o.dir = dir := by
  intro o ho
  simp only [saveOps, List.mem_flatMap, List.mem_cons, List.not_mem_nil, or_false] at ho
  obtain ⟨a, _, rfl | rfl⟩ := ho <;> rfl

theorem allOps_dir (attrs : List String) (saves : List (Save D)) : ∀ o ∈ allOps attrs saves, ∃ s ∈ saves, o.dir = s.dir := by
  intro o ho
  simp only [allOps, List.mem_flatMap] at ho
  obtain ⟨s, hs, ho⟩ := ho
  exact ⟨s, hs, saveOps_dir _ _ _ o ho⟩

theorem exec_saveOps (dir : String) (snap : String → D) (attrs : List String) : ∀ (fs : Files D) (a : String),
    exec fs (saveOps attrs dir snap) dir a = if a ∈ attrs then some (.full (snap a)) else fs dir a := by
  induction attrs with
  | nil => intro fs a; simp [saveOps, exec]
  | cons b attrs ih =>
    intro fs a
    have : saveOps (b :: attrs) dir snap = [.truncate dir b, .complete dir b (snap b)] ++ saveOps attrs dir snap := rfl
    rw [this, exec_append, ih]
    by_cases ha : a ∈ attrs
    · simp [ha]
    · by_cases hb : a = b
      · subst hb; simp [ha, exec, Op.exec, put]
      · simp [ha, hb, exec, Op.exec, put]

theorem load_full (fs : Files D) (dir : String) (snap : String → D) : ∀ attrs : List String,
    (∀ a ∈ attrs, fs dir a = some (.full (snap a))) → load fs dir attrs = some (attrs.map snap)
  | [], _ => rfl
  | a :: l, h => by
    simp only [load, h a (by simp)]
    rw [load_full fs dir snap l fun b hb => h b (by simp [hb])]
    rfl

theorem allOps_append (attrs : List String) (a b : List (Save D)) : allOps attrs (a ++ b) = allOps attrs a ++ allOps attrs b := by
  simp [allOps]

/-- C118: a snapshot that has been saved completely can be loaded as it was after a crash at any later point, up to the beginning of the next save to the
same directory. -/
theorem C118_complete (attrs : List String) (fs : Files D) (pre mid post : List (Save D)) (s : Save D)
    (hmid : ∀ s' ∈ mid, s'.dir ≠ s.dir) (k : Nat) (h1 : (allOps attrs (pre ++ [s])).length ≤ k)
    (h2 : k ≤ (allOps attrs (pre ++ s :: mid)).length) :
    load (exec fs ((allOps attrs (pre ++ s :: mid ++ post)).take k)) s.dir attrs = some (attrs.map s.snap) := by
  have e1 : allOps attrs (pre ++ s :: mid ++ post) =
      allOps attrs (pre ++ [s]) ++ (allOps attrs mid ++ allOps attrs post) := by
    simp [allOps]
  have e2 : allOps attrs (pre ++ s :: mid) = allOps attrs (pre ++ [s]) ++ allOps attrs mid := by simp [allOps]
  rw [e2, List.length_append] at h2
  rw [e1, List.take_append, List.take_of_length_le h1, exec_append]
  have h3 : k - (allOps attrs (pre ++ [s])).length ≤ (allOps attrs mid).length := by omega
  rw [List.take_append_of_le_length h3]
  apply load_full
  intro a ha
  rw [exec_other]
  · rw [allOps_append, exec_append]
    have : allOps attrs [s] = saveOps attrs s.dir s.snap := by simp [allOps]
    rw [this, exec_saveOps, if_pos ha]
  · intro o ho
    obtain ⟨s', hs', e⟩ := allOps_dir attrs mid o (List.mem_of_mem_take ho)
    rw [e]
    exact hmid s' hs'

/-! ## A crash inside a save -/

/-- C118: a crash after `m` operations of a save leaves the attributes before the interrupted one in their new state, the interrupted one broken
(if its file has been opened) and the others as they were. -/
theorem C118_inside (dir : String) (snap : String → D) : ∀ (attrs : List String) (_ : attrs.Nodup) (fs : Files D) (m i : Nat) (a : String),
    attrs[i]? = some a →
    exec fs ((saveOps attrs dir snap).take m) dir a =
      if 2 * i + 2 ≤ m then some (.full (snap a)) else if 2 * i + 1 = m then some .broken else fs dir a
  | [], _, fs, m, i, a, h => by simp at h
  | b :: attrs, hn, fs, m, i, a, h => by
    have hn' := List.nodup_cons.1 hn
    have e : saveOps (b :: attrs) dir snap = .truncate dir b :: .complete dir b (snap b) :: saveOps attrs dir snap := rfl
    cases i with
    | zero =>
      simp only [List.getElem?_cons_zero, Option.some.injEq] at h
      subst h
      match m with
      | 0 => simp [exec]
      | 1 => simp [e, exec, Op.exec, put]
      | m + 2 =>
        simp only [e, List.take_succ_cons]
        rw [if_pos (by omega)]
        show exec _ ((saveOps attrs dir snap).take m) dir b = _
        have key : ∀ (attrs : List String), b ∉ attrs → ∀ (fs : Files D) m, exec fs ((saveOps attrs dir snap).take m) dir b = fs dir b := by
          intro attrs hb
          induction attrs with
          | nil => intro fs m; simp [saveOps, exec]
          | cons x attrs ih =>
            intro fs m
            have hb' : b ≠ x ∧ b ∉ attrs := by simpa using hb
            have e : saveOps (x :: attrs) dir snap = .truncate dir x :: .complete dir x (snap x) :: saveOps attrs dir snap := rfl
            match m with
            | 0 => simp [exec]
            | 1 => simp [e, exec, Op.exec, put, hb'.1]
            | m + 2 =>
              simp only [e, List.take_succ_cons]
              show exec _ ((saveOps attrs dir snap).take m) dir b = _
              rw [ih hb'.2]
              simp [Op.exec, put, hb'.1]
        rw [key attrs hn'.1]
        simp [Op.exec, put]
    | succ i =>
      simp only [List.getElem?_cons_succ] at h
      have hab : a ≠ b := by
        rintro rfl
        exact hn'.1 (List.mem_of_getElem? h)
      match m with
      | 0 => simp [exec]
      | 1 => simp [e, exec, Op.exec, put, hab]
      | m + 2 =>
        simp only [e, List.take_succ_cons]
        show exec _ ((saveOps attrs dir snap).take m) dir a = _
        rw [C118_inside dir snap attrs hn'.2 _ m i a h]
        have : Op.exec (Op.exec fs (.truncate dir b)) (.complete dir b (snap b)) dir a = fs dir a := by
          simp [Op.exec, put, hab]
        rw [this]
        have c1 : (2 * (i + 1) + 2 ≤ m + 2) = (2 * i + 2 ≤ m) := by apply propext; omega
        have c2 : (2 * (i + 1) + 1 = m + 2) = (2 * i + 1 = m) := by apply propext; omega
        simp only [c1, c2]

theorem load_none (fs : Files D) (dir a : String) (ha : ∀ d, fs dir a ≠ some (.full d)) : ∀ attrs : List String, a ∈ attrs →
    load fs dir attrs = none
  | b :: l, h => by
    rcases List.mem_cons.1 h with rfl | h
    · unfold load
      split
      · exact absurd ‹_› (ha _)
      · rfl
    · simp only [load]
      cases hb : fs dir b with
      | none => rfl
      | some c =>
        cases c with
        | broken => rfl
        | full d => simp [load_none fs dir a ha l h]

/-- C118: a crash inside the first save to a directory is noticed: loading from it raises, instead of giving a part of the agent. -/
theorem C118_detected (dir : String) (snap : String → D) (attrs : List String) (hn : attrs.Nodup) (fs : Files D)
    (hfs : ∀ a, fs dir a = none) (m : Nat) (hm : m < (saveOps attrs dir snap).length) :
    load (exec fs ((saveOps attrs dir snap).take m)) dir attrs = none := by
  have hl : (saveOps attrs dir snap).length = 2 * attrs.length := by
    clear hn hm
    induction attrs with
    | nil => rfl
    | cons a l ih =>
      have e : saveOps (a :: l) dir snap = .truncate dir a :: .complete dir a (snap a) :: saveOps l dir snap := rfl
      rw [e, List.length_cons, List.length_cons, ih, List.length_cons]; omega
  have hpos : 0 < attrs.length := by omega
  have hi : attrs.length - 1 < attrs.length := by omega
  apply load_none _ _ attrs[attrs.length - 1]
  · intro d
    rw [C118_inside dir snap attrs hn fs m (attrs.length - 1) _ (List.getElem?_eq_getElem hi)]
    rw [if_neg (by omega)]
    split
    · simp
    · rw [hfs]; simp
  · exact List.getElem_mem hi

/-! ## `best` -/

/-- C118, violated: `best` is overwritten in place.  Whatever the two snapshots are, there is a crash point at which no `best` agent can be loaded, although
one had been saved completely; -/
theorem C118_violated_best_lost (a b : String → D) :
    ∃ k, (allOps ["model", "optimizer"] [⟨"best", a⟩]).length ≤ k ∧
      load (exec (fun _ _ => none) ((allOps ["model", "optimizer"] [⟨"best", a⟩, ⟨"best", b⟩]).take k)) "best" ["model", "optimizer"] = none := by
  exact ⟨5, by simp [allOps, saveOps], rfl⟩

/-- and one at which loading succeeds, but with the model of one snapshot and the optimizer of another. -/
theorem C118_violated_best_mixed (a b : String → D) :
    ∃ k, load (exec (fun _ _ => none) ((allOps ["model", "optimizer"] [⟨"best", a⟩, ⟨"best", b⟩]).take k)) "best" ["model", "optimizer"] =
      some [b "model", a "optimizer"] := ⟨6, rfl⟩

/-! ## Names -/

theorem digits_no_underscore (t : Nat) : ∀ c ∈ (toString t).toList, c ≠ '_' := by
  intro c hc
  have e : (toString t).toList = Nat.toDigits 10 t := Nat.toList_repr
  rw [e] at hc
  have := Nat.isDigit_of_mem_toDigits (by decide) (by decide) hc
  rintro rfl
  revert this
  decide

theorem toString_injective {t u : Nat} (h : (toString t).toList = (toString u).toList) : t = u := by
  have e : ∀ t : Nat, (toString t).toList = Nat.toDigits 10 t := fun t => Nat.toList_repr
  rw [e, e] at h
  have := congrArg (fun l => Nat.ofDigitChars 10 l 0) h
  simpa using this

theorem split_at {c : Char} : ∀ {l l' : List Char} {m m' : List Char}, (∀ x ∈ l, x ≠ c) → (∀ x ∈ l', x ≠ c) →
    l ++ c :: m = l' ++ c :: m' → l = l' ∧ m = m'
  | [], [], m, m', _, _, h => by simpa using h
  | [], x :: l', m, m', _, h', h => by
    simp only [List.nil_append, List.cons_append, List.cons.injEq] at h
    exact absurd h.1.symm (h' x (by simp))
  | x :: l, [], m, m', hl, _, h => by
    simp only [List.nil_append, List.cons_append, List.cons.injEq] at h
    exact absurd h.1 (hl x (by simp))
  | x :: l, y :: l', m, m', hl, h', h => by
    simp only [List.cons_append, List.cons.injEq] at h
    obtain ⟨e1, e2⟩ := split_at (fun z hz => hl z (by simp [hz])) (fun z hz => h' z (by simp [hz])) h.2
    exact ⟨by rw [h.1, e1], e2⟩

/-- What follows the underscore. -/
def tail : Train.Suffix → List Char
  | .checkpoint => "checkpoint".toList
  | .except => "except".toList
  | .finish => "finish".toList

theorem dirname_toList (t : Nat) (s : Train.Suffix) : (dirname t s).toList = (toString t).toList ++ '_' :: tail s := by
  unfold dirname
  rw [String.toList_append]
  congr 1
  cases s <;> rfl

/-- C118: different snapshots of one run have different directories, none of which is `best`. -/
theorem C118_names (t u : Nat) (s r : Train.Suffix) :
    (dirname t s = dirname u r ↔ t = u ∧ s = r) ∧ dirname t s ≠ "best" := by
  refine ⟨⟨?_, ?_⟩, ?_⟩
  · intro h
    have h := congrArg String.toList h
    rw [dirname_toList, dirname_toList] at h
    obtain ⟨h1, h2⟩ := split_at (digits_no_underscore t) (digits_no_underscore u) h
    refine ⟨toString_injective h1, ?_⟩
    cases s <;> cases r <;> first | rfl | (exact absurd h2 (by decide))
  · rintro ⟨rfl, rfl⟩; rfl
  · intro h
    have h := congrArg String.toList h
    rw [dirname_toList] at h
    have : '_' ∈ ("best".toList) := by rw [← h]; simp
    revert this
    decide

/-! ## `train_agent` -/

section Train
open Train

variable {O A K S X : Type} [Zero K] [LinearOrder S]

/-- The directories that `train_agent` itself saves to. -/
def ownSaves : List (Ev O A K S) → List (Nat × Suffix)
  | [] => []
  | .save t s :: l => (t, s) :: ownSaves l
  | _ :: l => ownSaves l

theorem ownSaves_append (a b : List (Ev O A K S)) : ownSaves (a ++ b) = ownSaves a ++ ownSaves b := by
  induction a with
  | nil => rfl
  | cons e a ih => cases e <;> simp [ownSaves, ih]

theorem ownSaves_filter {p : Ev O A K S → Bool} (hp : ∀ t s, p (.save t s) = true) (evs : List (Ev O A K S)) :
    ownSaves evs = ownSaves (evs.filter p) := by
  induction evs with
  | nil => rfl
  | cons e evs ih =>
    rw [List.filter_cons]
    cases e with
    | save t s => rw [hp]; simp [ownSaves, ih]
    | _ => split <;> simpa [ownSaves] using ih

/-- Any snapshot of `train_agent` itself. -/
def isSave : Ev O A K S → Bool
  | .save _ _ => true
  | _ => false

theorem ownSaves_iter {c : Cfg S} {l : Loc O K} {t t1 : Nat} {evs : List (Ev O A K S)}
    {r : Except X (Option (Loc O K))} (h : IterRes c l t evs t1 r) :
    ownSaves evs = [] ∨ (ownSaves evs = [(t + 1, .checkpoint)] ∧ ∃ l', r = .ok (some l')) := by
  rw [ownSaves_filter (p := isSave) (fun _ _ => rfl)]
  have hh := filter_hooks (O := O) (A := A) (K := K) (S := S) (p := isSave) (by intros; rfl) (t + 1) 0 c.numHooks
  have hc : ownSaves ((ckpt (O := O) (A := A) (K := K) c (t + 1)).filter isSave) = [] ∨
      ownSaves ((ckpt (O := O) (A := A) (K := K) c (t + 1)).filter isSave) = [(t + 1, .checkpoint)] := by
    unfold ckpt; split
    · exact .inl rfl
    · split
      · exact .inr rfl
      · exact .inl rfl
  cases h with
  | go a out h =>
    simp only [List.filter_append, hh, ownSaves_append]
    rcases hc with hc | hc <;> rw [hc] <;> simp [isSave, ownSaves]
  | again a out E o h hE hne =>
    have he : E.filter isSave = [] := filter_evalOk (by intros; rfl) hE
    simp only [List.filter_append, hh, he, ownSaves_append]
    rcases hc with hc | hc <;> rw [hc] <;> simp [isSave, ownSaves]
  | brk a out E b h hE hb =>
    have he : E.filter isSave = [] := filter_evalOk (by intros; rfl) hE
    simp [List.filter_append, hh, he, isSave, ownSaves]
  | crashAct e => simp [ownSaves]
  | crashStep e a => simp [isSave, ownSaves]
  | crashHook e a out P hP =>
    have hp := filter_hooks_prefix (p := isSave) (by intros; rfl) hP
    simp [hp, isSave, ownSaves]
  | crashEval e a out h => simp [List.filter_append, hh, isSave, ownSaves]
  | crashReset e a out E h hE hne =>
    have he : E.filter isSave = [] := filter_evalOk (by intros; rfl) hE
    simp [List.filter_append, hh, he, isSave, ownSaves]
  | crashCkpt e a out E o h hE hne =>
    have he : E.filter isSave = [] := filter_evalOk (by intros; rfl) hE
    simp [List.filter_append, hh, he, isSave, ownSaves]

theorem ownSaves_loop {c : Cfg S} {l : Loc O K} {t t1 : Nat} {evs : List (Ev O A K S)} {r : Except X Unit} (h : LoopRes c l t evs t1 r) :
    (∀ x ∈ ownSaves evs, x.2 = .checkpoint ∧ t < x.1) ∧ (ownSaves evs).Nodup := by
  induction h with
  | exit l t h => simp [ownSaves]
  | more h hi hl ih =>
    have e1 := hi.t_of_some
    subst e1
    rw [ownSaves_append]
    rcases ownSaves_iter hi with e | ⟨e, _⟩
    · rw [e, List.nil_append]
      exact ⟨fun x hx => ⟨(ih.1 x hx).1, by have := (ih.1 x hx).2; omega⟩, ih.2⟩
    · rw [e]
      refine ⟨?_, ?_⟩
      · intro x hx
        simp only [List.singleton_append, List.mem_cons] at hx
        rcases hx with rfl | hx
        · exact ⟨rfl, Nat.lt_succ_self _⟩
        · exact ⟨(ih.1 x hx).1, by have := (ih.1 x hx).2; omega⟩
      · simp only [List.singleton_append, List.nodup_cons]
        exact ⟨fun hm => by have := (ih.1 _ hm).2; simp at this, ih.2⟩
  | brk h hi =>
    rcases ownSaves_iter hi with e | ⟨_, _, e⟩
    · simp [e]
    · cases e
  | crash h hi =>
    rcases ownSaves_iter hi with e | ⟨_, _, e⟩
    · simp [e]
    · cases e

theorem ownSaves_run (c : Cfg S) (w : World O A K S X) : (ownSaves (run c w).1).Nodup := by
  rcases run_cases c w with ⟨e, he⟩ | ⟨o, T, evs, t, r, hT, hl, hc⟩
  · rw [he]; simp [ownSaves]
  have hT' : ownSaves (.reset o :: T) = [] := by rcases hT with rfl | rfl <;> rfl
  obtain ⟨h1, h2⟩ := ownSaves_loop hl
  have hfin : ∀ s, s ≠ .checkpoint → (ownSaves (.reset o :: T ++ evs ++ [.save t s])).Nodup := by
    intro s hs
    rw [ownSaves_append, ownSaves_append, hT', List.nil_append]
    refine List.nodup_append.2 ⟨h2, by simp [ownSaves], ?_⟩
    intro x hx y hy
    simp only [ownSaves, List.mem_singleton] at hy
    rintro rfl
    subst hy
    exact hs (h1 _ hx).1
  have hno : (ownSaves (.reset o :: T ++ evs)).Nodup := by
    rw [ownSaves_append, hT', List.nil_append]; exact h2
  rcases hc with ⟨e, hr, he | ⟨e', _, he⟩⟩ | ⟨hr, he | ⟨e', _, he⟩⟩ <;> rw [he]
  · exact hfin _ (by decide)
  · exact hno
  · exact hfin _ (by decide)
  · exact hno

/-- The directories of the snapshots other than `best`. -/
theorem dirs_savesOf (improved : Nat → Bool) (snap : Nat → String → D) (evs : List (Ev O A K S)) : ∀ i,
    ((savesOf improved snap i evs).map Save.dir).filter (· ≠ "best") = (ownSaves evs).map fun x => dirname x.1 x.2 := by
  induction evs with
  | nil => intro i; rfl
  | cons e evs ih =>
    intro i
    cases e with
    | save t s =>
      have : decide (dirname t s ≠ "best") = true := by simpa using (C118_names t t s s).2
      simp only [savesOf, List.map_cons, List.filter_cons, this, if_true, ownSaves, ih]
    | evaluate a b m =>
      simp only [savesOf, List.map_append, List.filter_append, ih, ownSaves]
      split <;> simp
    | _ => simpa only [savesOf, ownSaves] using ih (i + 1)

theorem mem_savesOf (improved : Nat → Bool) (snap : Nat → String → D) (x : Save D) : ∀ (l : List (Ev O A K S)) (i : Nat),
    x ∈ savesOf improved snap i l ↔ ∃ (j : Nat) (e : Ev O A K S), l[j]? = some e ∧ x.snap = snap (i + j) ∧
      ((∃ t s, e = .save t s ∧ x.dir = dirname t s) ∨ ((∃ a b c, e = .evaluate a b c) ∧ improved (i + j) = true ∧ x.dir = "best"))
  | [], i => by simp [savesOf]
  | e :: l, i => by
    have ih := mem_savesOf improved snap x l (i + 1)
    have shift : (∃ (j : Nat) (e' : Ev O A K S), (e :: l)[j]? = some e' ∧ x.snap = snap (i + j) ∧
        ((∃ t s, e' = .save t s ∧ x.dir = dirname t s) ∨ ((∃ a b c, e' = .evaluate a b c) ∧ improved (i + j) = true ∧ x.dir = "best"))) ↔
        ((x.snap = snap i ∧ ((∃ t s, e = .save t s ∧ x.dir = dirname t s) ∨ ((∃ a b c, e = .evaluate a b c) ∧ improved i = true ∧ x.dir = "best"))) ∨
          x ∈ savesOf improved snap (i + 1) l) := by
      rw [ih]
      constructor
      · rintro ⟨j, e', h1, h2, h3⟩
        cases j with
        | zero =>
          simp only [List.getElem?_cons_zero, Option.some.injEq] at h1
          subst h1
          exact .inl ⟨h2, h3⟩
        | succ j =>
          have : i + (j + 1) = i + 1 + j := by omega
          rw [this] at h2 h3
          exact .inr ⟨j, e', by simpa using h1, h2, h3⟩
      · rintro (⟨h2, h3⟩ | ⟨j, e', h1, h2, h3⟩)
        · exact ⟨0, e, rfl, h2, h3⟩
        · have : i + (j + 1) = i + 1 + j := by omega
          refine ⟨j + 1, e', by simpa using h1, ?_, ?_⟩
          · rw [this]; exact h2
          · rw [this]; exact h3
    rw [shift]
    obtain ⟨xd, xs⟩ := x
    cases e with
    | save t s => simp [savesOf, and_comm]
    | evaluate a b c =>
      simp only [savesOf, List.mem_append]
      refine or_congr ?_ Iff.rfl
      split
      · rename_i h
        simp [h, and_comm]
      · rename_i h
        simp [h]
    | _ => simp [savesOf]

/-- C118: a call of `train_agent` saves exactly the following: at each of its own saves the agent as it is then, to the directory named after the step
and the suffix, and at each evaluation that improves the score the agent as it is then, to `best`. -/
theorem C118_saved (c : Cfg S) (w : World O A K S X) (improved : Nat → Bool) (snap : Nat → String → D) (x : Save D) :
    x ∈ savesOf improved snap 0 (run c w).1 ↔ ∃ (j : Nat) (e : Ev O A K S), (run c w).1[j]? = some e ∧ x.snap = snap j ∧
      ((∃ t s, e = .save t s ∧ x.dir = dirname t s) ∨ ((∃ a b c, e = .evaluate a b c) ∧ improved j = true ∧ x.dir = "best")) := by
  simpa using mem_savesOf improved snap x (run c w).1 0

/-- C118: in every call of `train_agent`, whatever raises and wherever the process is killed, every checkpoint, `_except` and `_finish` snapshot that was
saved completely can be loaded as it was, whatever was saved before and after it. -/
theorem C118_train (attrs : List String) (fs : Files D) (c : Cfg S) (w : World O A K S X) (improved : Nat → Bool) (snap : Nat → String → D)
    (pre post : List (Save D)) (s : Save D) (hs : savesOf improved snap 0 (run c w).1 = pre ++ s :: post) (hd : s.dir ≠ "best")
    (k : Nat) (hk : (allOps attrs (pre ++ [s])).length ≤ k) :
    load (exec fs ((allOps attrs (savesOf improved snap 0 (run c w).1)).take k)) s.dir attrs = some (attrs.map s.snap) := by
  have hn : (((savesOf improved snap 0 (run c w).1).map Save.dir).filter (· ≠ "best")).Nodup := by
    rw [dirs_savesOf]
    refine (ownSaves_run c w).map_on ?_
    rintro ⟨t, a⟩ _ ⟨u, b⟩ _ h
    obtain ⟨rfl, rfl⟩ := (C118_names t u a b).1.1 h
    rfl
  have hmid : ∀ s' ∈ post, s'.dir ≠ s.dir := by
    intro s' hs' he
    rw [hs] at hn
    simp only [List.map_append, List.map_cons, List.filter_append, List.filter_cons] at hn
    rw [if_pos (by simpa using hd)] at hn
    have := (List.nodup_cons.1 (List.nodup_append.1 hn).2.1).1
    apply this
    simp only [List.mem_filter, List.mem_map]
    exact ⟨⟨s', hs', he⟩, by simpa using hd⟩
  have key : load (exec fs ((allOps attrs (pre ++ s :: post)).take (min k (allOps attrs (pre ++ s :: post)).length))) s.dir attrs
      = some (attrs.map s.snap) := by
    have := C118_complete attrs fs pre post [] s hmid (min k (allOps attrs (pre ++ s :: post)).length) ?_ (Nat.min_le_right _ _)
    · simpa using this
    · have e : allOps attrs (pre ++ s :: post) = allOps attrs (pre ++ [s]) ++ allOps attrs post := by simp [allOps]
      have : (allOps attrs (pre ++ s :: post)).length = (allOps attrs (pre ++ [s])).length + (allOps attrs post).length := by
        rw [e, List.length_append]
      omega
  rw [hs]
  have : (allOps attrs (pre ++ s :: post)).take k = (allOps attrs (pre ++ s :: post)).take (min k (allOps attrs (pre ++ s :: post)).length) := by
    rcases Nat.le_total k (allOps attrs (pre ++ s :: post)).length with h | h
    · rw [Nat.min_eq_left h]
    · rw [Nat.min_eq_right h, List.take_length, List.take_of_length_le h]
  rw [this]
  exact key

end Train

/-! ## A concrete case -/

/-- Two checkpoints and two improvements, killed in the middle of the second `best`: both checkpoints are intact. -/
example : ∃ k, load (exec (fun _ _ => none) ((allOps ["model", "optimizer"]
      [⟨"best", fun _ => 1⟩, ⟨dirname 10 .checkpoint, fun _ => 2⟩, ⟨dirname 20 .checkpoint, fun _ => 3⟩, ⟨"best", fun _ => (4 : Nat)⟩]).take k))
        (dirname 10 .checkpoint) ["model", "optimizer"] = some [2, 2] ∧
    load (exec (fun _ _ => none) ((allOps ["model", "optimizer"]
      [⟨"best", fun _ => 1⟩, ⟨dirname 10 .checkpoint, fun _ => 2⟩, ⟨dirname 20 .checkpoint, fun _ => 3⟩, ⟨"best", fun _ => (4 : Nat)⟩]).take k))
        "best" ["model", "optimizer"] = none := ⟨13, by decide⟩

/-- The run of `Props/TrainAgent.lean`, with an improvement in its first and last evaluation, saves five times. -/
example : (savesOf (D := Nat) (fun i => i != 16) (fun i _ => i) 0 (Train.run Train.exCfg Train.exWorld).1).map Save.dir =
    ["best", "4_checkpoint", "6_checkpoint", "best", "7_finish"] := by
  decide +kernel

end Verif.Snapshots
