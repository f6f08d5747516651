import Mathlib.Data.List.Nodup
import Mathlib.Data.List.Perm.Subperm
import Verif.Model.AgentSave
set_option autoImplicit false

/-! # C31: saving and loading agents -/

namespace Verif.AgentSave
variable {D σ : Type}

/-! ## Specification -/

/-- Following the saved attributes named in `p` from object `o` leads to the
non-mixin object `l`. -/
inductive Leaf (obj : Nat → Obj) : Nat → List String → Nat → Prop
  | here {o : Nat} {a : String} {l : Nat} : a ∈ (obj o).saved → (obj o).attr a = .other l → Leaf obj o [a] l
  | there {o : Nat} {a : String} {o' : Nat} {p : List String} {l : Nat} :
      a ∈ (obj o).saved → (obj o).attr a = .mixin o' → Leaf obj o' p l → Leaf obj o (a :: p) l

/-- `o'` is a saved attribute of `o`. -/
def Child (obj : Nat → Obj) (o o' : Nat) : Prop := ∃ a ∈ (obj o).saved, (obj o).attr a = .mixin o'

/-- `o'` is reached from `o` by one or more saved attributes. -/
inductive Below (obj : Nat → Obj) : Nat → Nat → Prop
  | child {o o' : Nat} : Child obj o o' → Below obj o o'
  | step {o o' o'' : Nat} : Child obj o o' → Below obj o' o'' → Below obj o o''

/-- A cycle of saved attributes is reachable from `o`. -/
def Cyclic (obj : Nat → Obj) (o : Nat) : Prop := ∃ o', (o' = o ∨ Below obj o o') ∧ Below obj o' o'

/-- No saved attribute is missing on any reachable object. -/
def Present (obj : Nat → Obj) (o : Nat) : Prop :=
  ∀ o', (o' = o ∨ Below obj o o') → ∀ a ∈ (obj o').saved, (obj o').attr a ≠ .missing

/-- The reachable objects are among `objs`. -/
def Within (obj : Nat → Obj) (o : Nat) (objs : List Nat) : Prop := ∀ o', (o' = o ∨ Below obj o o') → o' ∈ objs

/-! ## Proofs -/

theorem Below.trans {obj : Nat → Obj} {a b c : Nat} (h : Below obj a b) (h' : Below obj b c) : Below obj a c := by
  induction h with
  | child h => exact .step h h'
  | step h _ ih => exact .step h (ih h')

theorem Leaf.det {obj : Nat → Obj} {o : Nat} {p : List String} {l l' : Nat} (h : Leaf obj o p l)
    (h' : Leaf obj o p l') : l = l' := by
  induction h with
  | here _ h1 =>
    cases h' with
    | here _ h2 => rw [h1] at h2; cases h2; rfl
    | there _ h2 h3 => rw [h1] at h2; cases h2
  | there _ h1 h3 ih =>
    cases h' with
    | here _ h2 => rw [h1] at h2; cases h2
    | there _ h2 h3' => rw [h1] at h2; cases h2; exact ih h3'

theorem each_cons_ok {f : String → σ → σ × Except Err Unit} {a : String} {l : List String} {s s' : σ}
    (h : each f (a :: l) s = (s', .ok ())) : ∃ s1, f a s = (s1, .ok ()) ∧ each f l s1 = (s', .ok ()) := by
  simp only [each] at h
  rcases hf : f a s with ⟨s1, r⟩
  rw [hf] at h
  cases r with
  | ok u => exact ⟨s1, rfl, h⟩
  | error e => simp at h

/-- What an error of the loop comes from. -/
theorem each_error {f : String → σ → σ × Except Err Unit} {e : Err} {s' : σ} (l : List String) :
    ∀ s, each f l s = (s', .error e) → ∃ a ∈ l, ∃ s1, f a s1 = (s', .error e) := by
  induction l with
  | nil => intro s h; simp [each] at h
  | cons a l ih =>
    intro s h
    simp only [each] at h
    rcases hf : f a s with ⟨s1, r⟩
    rw [hf] at h
    cases r with
    | ok u =>
      obtain ⟨b, hb, x⟩ := ih s1 h
      exact ⟨b, List.mem_cons_of_mem _ hb, x⟩
    | error e' =>
      simp only [Prod.mk.injEq, Except.error.injEq] at h
      obtain ⟨rfl, rfl⟩ := h
      exact ⟨a, List.mem_cons_self, s, hf⟩

theorem each_ok {f : String → σ → σ × Except Err Unit} (l : List String)
    (hf : ∀ a ∈ l, ∀ s, ∃ s', f a s = (s', .ok ())) : ∀ s, ∃ s', each f l s = (s', .ok ()) := by
  induction l with
  | nil => intro s; exact ⟨s, rfl⟩
  | cons a l ih =>
    intro s
    obtain ⟨s1, h1⟩ := hf a List.mem_cons_self s
    obtain ⟨s2, h2⟩ := ih (fun b hb => hf b (List.mem_cons_of_mem _ hb)) s1
    exact ⟨s2, by simp [each, h1, h2]⟩

/-- Each file is unchanged or has the state of the object its path leads to. -/
def Right (h : Heap D) (dir : List String) (o : Nat) (fs fs' : Files D) : Prop :=
  ∀ k, fs' k = fs k ∨ ∃ p l, Leaf h.obj o p l ∧ k = dir ++ p ∧ fs' k = some (h.data l)

theorem write_same (fs : Files D) (k : List String) (d : D) : write fs k d k = some d := by simp [write]

theorem saveAttr_right {h : Heap D} {dir : List String} {anc : List Nat} {o : Nat} {a : String} {fs fs' : Files D}
    {rec : List String → List Nat → Nat → Files D → Files D × Except Err Unit}
    (hrec : ∀ dir anc o fs fs', rec dir anc o fs = (fs', .ok ()) →
      Right h dir o fs fs' ∧ ∀ p l, Leaf h.obj o p l → fs' (dir ++ p) = some (h.data l))
    (ha : a ∈ (h.obj o).saved)
    (hs : saveAttr rec h dir anc o a fs = (fs', .ok ())) :
    Right h dir o fs fs' ∧ ∀ p l, Leaf h.obj o (a :: p) l → fs' (dir ++ a :: p) = some (h.data l) := by
  unfold saveAttr at hs
  cases hx : (h.obj o).attr a with
  | missing => rw [hx] at hs; simp at hs
  | none =>
    rw [hx] at hs
    simp only [Prod.mk.injEq, and_true] at hs
    subst hs
    refine ⟨fun k => .inl rfl, fun p l hl => ?_⟩
    cases hl with
    | here _ h2 => rw [hx] at h2; cases h2
    | there _ h2 _ => rw [hx] at h2; cases h2
  | mixin o' =>
    rw [hx] at hs
    simp only at hs
    split at hs
    · simp at hs
    · obtain ⟨h1, h2⟩ := hrec _ _ _ _ _ hs
      constructor
      · intro k
        rcases h1 k with h3 | ⟨p, l, h3, h4, h5⟩
        · exact .inl h3
        · exact .inr ⟨a :: p, l, .there ha hx h3, by rw [h4]; simp, h5⟩
      · intro p l hl
        cases hl with
        | here _ h3 => rw [hx] at h3; cases h3
        | there _ h3 h4 =>
          rw [hx] at h3
          cases h3
          have := h2 p l h4
          simpa using this
  | other l0 =>
    rw [hx] at hs
    simp only [Prod.mk.injEq, and_true] at hs
    subst hs
    constructor
    · intro k
      by_cases hk : k = dir ++ [a]
      · exact .inr ⟨[a], l0, .here ha hx, hk, by rw [hk]; exact write_same _ _ _⟩
      · exact .inl (by simp [write, hk])
    · intro p l hl
      cases hl with
      | here _ h3 =>
        rw [hx] at h3
        cases h3
        exact write_same _ _ _
      | there _ h3 _ => rw [hx] at h3; cases h3

theorem saveFrom_right (h : Heap D) (limit : Nat) : ∀ (dir : List String) (anc : List Nat) (o : Nat) (fs fs' : Files D),
    saveFrom h limit dir anc o fs = (fs', .ok ()) →
    Right h dir o fs fs' ∧ ∀ p l, Leaf h.obj o p l → fs' (dir ++ p) = some (h.data l) := by
  induction limit with
  | zero => intro dir anc o fs fs' hs; simp [saveFrom] at hs
  | succ n ih =>
    intro dir anc o fs fs' hs
    simp only [saveFrom] at hs
    have key : ∀ (l : List String), (∀ a ∈ l, a ∈ (h.obj o).saved) → ∀ fs,
        each (saveAttr (saveFrom h n) h dir (o :: anc) o) l fs = (fs', .ok ()) →
        Right h dir o fs fs' ∧ ∀ a ∈ l, ∀ p x, Leaf h.obj o (a :: p) x → fs' (dir ++ a :: p) = some (h.data x) := by
      intro l
      induction l with
      | nil =>
        intro _ fs he
        simp only [each, Prod.mk.injEq, and_true] at he
        subst he
        exact ⟨fun k => .inl rfl, by simp⟩
      | cons a l ihl =>
        intro hl fs he
        obtain ⟨s1, h1, h2⟩ := each_cons_ok he
        obtain ⟨r1, w1⟩ := saveAttr_right ih (hl a List.mem_cons_self) h1
        obtain ⟨r2, w2⟩ := ihl (fun b hb => hl b (List.mem_cons_of_mem _ hb)) s1 h2
        constructor
        · intro k
          rcases r2 k with h3 | h3
          · rw [h3]; exact r1 k
          · exact .inr h3
        · intro b hb p x hx
          rcases List.mem_cons.mp hb with rfl | hb
          · rcases r2 (dir ++ b :: p) with h3 | ⟨p', l', h3, h4, h5⟩
            · rw [h3]; exact w1 p x hx
            · rw [h5]
              have h6 := List.append_cancel_left h4
              rw [← h6] at h3
              rw [Leaf.det hx h3]
          · exact w2 b hb p x hx
    obtain ⟨k1, k2⟩ := key _ (fun _ h => h) fs hs
    refine ⟨k1, fun p l hl => ?_⟩
    cases hl with
    | here h1 h2 => exact k2 _ h1 [] l (.here h1 h2)
    | there h1 h2 h3 => exact k2 _ h1 _ l (.there h1 h2 h3)

/-- Each state is unchanged or was read from a file of that object; `l` lists the
attributes already handled. -/
def Read (obj : Nat → Obj) (fs : Files D) (dir : List String) (o : Nat) (data data' : Nat → D) : Prop :=
  ∀ x, data' x = data x ∨ ∃ p, Leaf obj o p x ∧ fs (dir ++ p) = some (data' x)

theorem loadAttr_read {obj : Nat → Obj} {fs : Files D} {dir : List String} {anc : List Nat} {o : Nat} {a : String}
    {d d' : Nat → D}
    {rec : List String → List Nat → Nat → (Nat → D) → (Nat → D) × Except Err Unit}
    (hrec : ∀ dir anc o d d', rec dir anc o d = (d', .ok ()) →
      Read obj fs dir o d d' ∧ ∀ p x, Leaf obj o p x → ∃ p', Leaf obj o p' x ∧ fs (dir ++ p') = some (d' x))
    (ha : a ∈ (obj o).saved)
    (hs : loadAttr rec obj fs dir anc o a d = (d', .ok ())) :
    Read obj fs dir o d d' ∧
      ∀ p x, Leaf obj o (a :: p) x → ∃ p', Leaf obj o p' x ∧ fs (dir ++ p') = some (d' x) := by
  unfold loadAttr at hs
  cases hx : (obj o).attr a with
  | missing => rw [hx] at hs; simp at hs
  | none =>
    rw [hx] at hs
    simp only [Prod.mk.injEq, and_true] at hs
    subst hs
    refine ⟨fun k => .inl rfl, fun p l hl => ?_⟩
    cases hl with
    | here _ h2 => rw [hx] at h2; cases h2
    | there _ h2 _ => rw [hx] at h2; cases h2
  | mixin o' =>
    rw [hx] at hs
    simp only at hs
    split at hs
    · simp at hs
    · obtain ⟨h1, h2⟩ := hrec _ _ _ _ _ hs
      constructor
      · intro k
        rcases h1 k with h3 | ⟨p, h3, h4⟩
        · exact .inl h3
        · exact .inr ⟨a :: p, .there ha hx h3, by rw [← h4]; simp⟩
      · intro p l hl
        cases hl with
        | here _ h3 => rw [hx] at h3; cases h3
        | there _ h3 h4 =>
          rw [hx] at h3
          cases h3
          obtain ⟨p', h5, h6⟩ := h2 p l h4
          exact ⟨a :: p', .there ha hx h5, by rw [← h6]; simp⟩
  | other l0 =>
    rw [hx] at hs
    simp only [read] at hs
    cases hf : fs (dir ++ [a]) with
    | none => rw [hf] at hs; simp at hs
    | some v =>
      rw [hf] at hs
      simp only [Prod.mk.injEq, and_true] at hs
      subst hs
      constructor
      · intro x
        by_cases hk : x = l0
        · subst hk; exact .inr ⟨[a], .here ha hx, by rw [hf]; simp⟩
        · exact .inl (by simp [hk])
      · intro p l hl
        cases hl with
        | here _ h3 =>
          rw [hx] at h3
          cases h3
          exact ⟨[a], .here ha hx, by rw [hf]; simp⟩
        | there _ h3 _ => rw [hx] at h3; cases h3

theorem loadFrom_read (obj : Nat → Obj) (fs : Files D) (limit : Nat) :
    ∀ (dir : List String) (anc : List Nat) (o : Nat) (d d' : Nat → D),
    loadFrom obj fs limit dir anc o d = (d', .ok ()) →
    Read obj fs dir o d d' ∧ ∀ p x, Leaf obj o p x → ∃ p', Leaf obj o p' x ∧ fs (dir ++ p') = some (d' x) := by
  induction limit with
  | zero => intro dir anc o d d' hs; simp [loadFrom] at hs
  | succ n ih =>
    intro dir anc o d d' hs
    simp only [loadFrom] at hs
    have key : ∀ (l : List String), (∀ a ∈ l, a ∈ (obj o).saved) → ∀ d,
        each (loadAttr (loadFrom obj fs n) obj fs dir (o :: anc) o) l d = (d', .ok ()) →
        Read obj fs dir o d d' ∧
          ∀ a ∈ l, ∀ p x, Leaf obj o (a :: p) x → ∃ p', Leaf obj o p' x ∧ fs (dir ++ p') = some (d' x) := by
      intro l
      induction l with
      | nil =>
        intro _ fs he
        simp only [each, Prod.mk.injEq, and_true] at he
        subst he
        exact ⟨fun k => .inl rfl, by simp⟩
      | cons a l ihl =>
        intro hl fs he
        obtain ⟨s1, h1, h2⟩ := each_cons_ok he
        obtain ⟨r1, w1⟩ := loadAttr_read ih (hl a List.mem_cons_self) h1
        obtain ⟨r2, w2⟩ := ihl (fun b hb => hl b (List.mem_cons_of_mem _ hb)) s1 h2
        constructor
        · intro k
          rcases r2 k with h3 | h3
          · rw [h3]; exact r1 k
          · exact .inr h3
        · intro b hb p x hx
          rcases List.mem_cons.mp hb with rfl | hb
          · rcases r2 x with h3 | h3
            · rw [h3]; exact w1 p x hx
            · exact h3
          · exact w2 b hb p x hx
    obtain ⟨k1, k2⟩ := key _ (fun _ h => h) d hs
    refine ⟨k1, fun p l hl => ?_⟩
    cases hl with
    | here h1 h2 => exact k2 _ h1 [] l (.here h1 h2)
    | there h1 h2 h3 => exact k2 _ h1 _ l (.there h1 h2 h3)

/-- Chains of saved attributes are shorter than `n`. -/
def Shallow (obj : Nat → Obj) : Nat → Nat → Prop
  | 0, _ => False
  | n + 1, o => ∀ o', Child obj o o' → Shallow obj n o'

theorem Shallow.below {obj : Nat → Obj} {o o' : Nat} (h : Below obj o o') :
    ∀ n, Shallow obj (n + 1) o → Shallow obj n o' ∨ ∃ m, m < n ∧ Shallow obj m o' := by
  induction h with
  | child h => intro n hs; exact .inl (hs _ h)
  | step h _ ih =>
    intro n hs
    have h1 := hs _ h
    cases n with
    | zero => exact h1.elim
    | succ n =>
      rcases ih n h1 with h2 | ⟨m, hm, h2⟩
      · exact .inr ⟨n, by omega, h2⟩
      · exact .inr ⟨m, by omega, h2⟩

theorem Shallow.no_loop {obj : Nat → Obj} {o : Nat} (h : Below obj o o) : ∀ n, ¬ Shallow obj n o := by
  intro n
  induction n using Nat.strongRecOn with
  | _ n ih =>
    cases n with
    | zero => exact id
    | succ n =>
      intro hs
      rcases Shallow.below h n hs with h1 | ⟨m, hm, h1⟩
      · exact ih n (by omega) h1
      · exact ih m (by omega) h1

theorem Shallow.acyclic {obj : Nat → Obj} {o n : Nat} (h : Shallow obj n o) : ¬ Cyclic obj o := by
  rintro ⟨o', rfl | h1, h2⟩
  · exact Shallow.no_loop h2 _ h
  · cases n with
    | zero => exact h.elim
    | succ n =>
      rcases Shallow.below h1 n h with h3 | ⟨m, _, h3⟩
      · exact Shallow.no_loop h2 _ h3
      · exact Shallow.no_loop h2 _ h3

theorem each_ok_mem {f : String → σ → σ × Except Err Unit} {s' : σ} (l : List String) : ∀ s,
    each f l s = (s', .ok ()) → ∀ a ∈ l, ∃ s1 s2, f a s1 = (s2, .ok ()) := by
  induction l with
  | nil => intro s _ a ha; cases ha
  | cons b l ih =>
    intro s h a ha
    obtain ⟨s1, h1, h2⟩ := each_cons_ok h
    rcases List.mem_cons.mp ha with rfl | ha
    · exact ⟨_, _, h1⟩
    · exact ih s1 h2 a ha

theorem saveFrom_shallow (h : Heap D) (limit : Nat) : ∀ (dir : List String) (anc : List Nat) (o : Nat) (fs fs' : Files D),
    saveFrom h limit dir anc o fs = (fs', .ok ()) → Shallow h.obj limit o := by
  induction limit with
  | zero => intro dir anc o fs fs' hs; simp [saveFrom] at hs
  | succ n ih =>
    intro dir anc o fs fs' hs o' ⟨a, ha, hx⟩
    simp only [saveFrom] at hs
    obtain ⟨s1, s2, h1⟩ := each_ok_mem _ _ hs a ha
    unfold saveAttr at h1
    rw [hx] at h1
    simp only at h1
    split at h1
    · simp at h1
    · exact ih _ _ _ _ _ h1

/-- `save` never exceeds the recursion limit if that is larger than the number of
objects not yet on the stack. -/
theorem saveFrom_recursion (h : Heap D) (objs : List Nat) (limit : Nat) :
    ∀ (dir : List String) (anc : List Nat) (o : Nat) (fs fs' : Files D),
    (o :: anc).Nodup → (∀ x ∈ anc, x ∈ objs) → Within h.obj o objs → objs.length < limit + anc.length →
    saveFrom h limit dir anc o fs ≠ (fs', .error .recursion) := by
  induction limit with
  | zero =>
    intro dir anc o fs fs' hn ha hw hl _
    have hsub : (o :: anc) ⊆ objs := by
      intro x hx
      rcases List.mem_cons.mp hx with rfl | hx
      · exact hw x (.inl rfl)
      · exact ha x hx
    have := (hn.subperm hsub).length_le
    simp at this
    omega
  | succ n ih =>
    intro dir anc o fs fs' hn ha hw hl hs
    simp only [saveFrom] at hs
    obtain ⟨a, hmem, s1, h1⟩ := each_error _ _ hs
    unfold saveAttr at h1
    cases hx : (h.obj o).attr a with
    | missing => rw [hx] at h1; simp at h1
    | none => rw [hx] at h1; simp at h1
    | other l => rw [hx] at h1; simp at h1
    | mixin o' =>
      rw [hx] at h1
      simp only at h1
      have hc : Child h.obj o o' := ⟨a, hmem, hx⟩
      split at h1
      · simp at h1
      · rename_i hnin
        refine ih _ _ _ _ _ (List.nodup_cons.mpr ⟨hnin, hn⟩) ?_ ?_ ?_ h1
        · intro x hx
          rcases List.mem_cons.mp hx with rfl | hx
          · exact hw x (.inl rfl)
          · exact ha x hx
        · intro x hx
          rcases hx with rfl | hx
          · exact hw x (.inr (.child hc))
          · exact hw x (.inr (.step hc hx))
        · simp; omega

theorem each_errs {P : Err → Prop} {f : String → σ → σ × Except Err Unit} {l : List String} {s s' : σ} {e : Err}
    (h : each f l s = (s', .error e)) (hf : ∀ a ∈ l, ∀ s1 s2, f a s1 = (s2, .error e) → P e) : P e := by
  obtain ⟨a, ha, s1, h1⟩ := each_error _ _ h
  exact hf a ha _ _ h1

/-- `save` reads no file. -/
theorem saveFrom_noFile (h : Heap D) (limit : Nat) : ∀ (dir : List String) (anc : List Nat) (o : Nat) (fs fs' : Files D),
    saveFrom h limit dir anc o fs ≠ (fs', .error .noFile) := by
  induction limit with
  | zero => intro dir anc o fs fs' hs; simp [saveFrom] at hs
  | succ n ih =>
    intro dir anc o fs fs' hs
    simp only [saveFrom] at hs
    obtain ⟨a, _, s1, h1⟩ := each_error _ _ hs
    unfold saveAttr at h1
    cases hx : (h.obj o).attr a with
    | missing => rw [hx] at h1; simp at h1
    | none => rw [hx] at h1; simp at h1
    | other l => rw [hx] at h1; simp at h1
    | mixin o' =>
      rw [hx] at h1
      simp only at h1
      split at h1
      · simp at h1
      · exact ih _ _ _ _ _ h1

/-- Saving acyclic objects never finds an ancestor. -/
theorem saveFrom_no_assert (h : Heap D) (limit : Nat) : ∀ (dir : List String) (anc : List Nat) (o : Nat) (fs fs' : Files D),
    (∀ x ∈ anc, Below h.obj x o) → ¬ Cyclic h.obj o → Present h.obj o →
    saveFrom h limit dir anc o fs ≠ (fs', .error .assertion) := by
  induction limit with
  | zero => intro dir anc o fs fs' _ _ _ hs; simp [saveFrom] at hs
  | succ n ih =>
    intro dir anc o fs fs' hanc hc hp hs
    simp only [saveFrom] at hs
    obtain ⟨a, ha, s1, h1⟩ := each_error _ _ hs
    unfold saveAttr at h1
    cases hx : (h.obj o).attr a with
    | missing => exact hp o (.inl rfl) a ha hx
    | none => rw [hx] at h1; simp at h1
    | other l => rw [hx] at h1; simp at h1
    | mixin o' =>
      rw [hx] at h1
      simp only at h1
      have hch : Child h.obj o o' := ⟨a, ha, hx⟩
      split at h1
      · rename_i hin
        rcases List.mem_cons.mp hin with rfl | hin
        · exact hc ⟨_, .inl rfl, .child hch⟩
        · exact hc ⟨o', .inr (.child hch), (hanc _ hin).trans (.child hch)⟩
      · refine ih _ _ _ _ _ ?_ ?_ ?_ h1
        · intro x hx
          rcases List.mem_cons.mp hx with rfl | hx
          · exact .child hch
          · exact (hanc x hx).trans (.child hch)
        · rintro ⟨x, rfl | hx, hxx⟩
          · exact hc ⟨_, .inr (.child hch), hxx⟩
          · exact hc ⟨x, .inr (.step hch hx), hxx⟩
        · intro x hx
          rcases hx with rfl | hx
          · exact hp _ (.inr (.child hch))
          · exact hp _ (.inr (.step hch hx))

theorem outcome (r : σ × Except Err Unit) :
    (∃ s, r = (s, .ok ())) ∨ (∃ s, r = (s, .error .assertion)) ∨ (∃ s, r = (s, .error .recursion)) ∨
      (∃ s, r = (s, .error .noFile)) := by
  rcases r with ⟨s, _ | _⟩
  · rename_i e
    cases e
    · exact .inr (.inl ⟨s, rfl⟩)
    · exact .inr (.inr (.inl ⟨s, rfl⟩))
    · exact .inr (.inr (.inr ⟨s, rfl⟩))
  · exact .inl ⟨s, rfl⟩

/-- Loading objects with short chains, all files present. -/
theorem loadFrom_ok (obj : Nat → Obj) (fs : Files D) (limit : Nat) :
    ∀ (dir : List String) (o : Nat) (d : Nat → D),
    Shallow obj limit o → ¬ Cyclic obj o → Present obj o →
    (∀ p l, Leaf obj o p l → fs (dir ++ p) ≠ none) →
    ∃ d', loadFrom obj fs limit dir [] o d = (d', .ok ()) := by
  induction limit with
  | zero => intro dir o d h; exact h.elim
  | succ n ih =>
    intro dir o d hs hc hp hf
    simp only [loadFrom]
    refine each_ok _ (fun a ha s => ?_) d
    unfold loadAttr
    cases hx : (obj o).attr a with
    | missing => exact absurd hx (hp o (.inl rfl) a ha)
    | none => exact ⟨s, rfl⟩
    | other l =>
      have := hf [a] l (.here ha hx)
      simp only [read]
      cases hy : fs (dir ++ [a]) with
      | none => exact absurd hy this
      | some v => exact ⟨_, rfl⟩
    | mixin o' =>
      have hch : Child obj o o' := ⟨a, ha, hx⟩
      simp only
      rw [if_neg]
      · refine ih _ _ _ (hs _ hch) ?_ ?_ ?_
        · rintro ⟨x, rfl | hx, hxx⟩
          · exact hc ⟨_, .inr (.child hch), hxx⟩
          · exact hc ⟨x, .inr (.step hch hx), hxx⟩
        · intro x hx
          rcases hx with rfl | hx
          · exact hp _ (.inr (.child hch))
          · exact hp _ (.inr (.step hch hx))
        · intro p l hl
          have := hf (a :: p) l (.there ha hx hl)
          simpa using this
      · intro hin
        rw [List.mem_singleton.mp hin] at hch
        exact hc ⟨o, .inl rfl, .child hch⟩

/-- With at most `n` objects and no cycle, chains are short. -/
theorem shallow_of_acyclic (obj : Nat → Obj) (objs : List Nat) (n : Nat) : ∀ (anc : List Nat) (o : Nat),
    (o :: anc).Nodup → (∀ x ∈ anc, x ∈ objs ∧ Below obj x o) → Within obj o objs → ¬ Cyclic obj o →
    objs.length < n + anc.length → Shallow obj n o := by
  induction n with
  | zero =>
    intro anc o hn ha hw _ hl
    have hsub : (o :: anc) ⊆ objs := by
      intro x hx
      rcases List.mem_cons.mp hx with rfl | hx
      · exact hw x (.inl rfl)
      · exact (ha x hx).1
    have := (hn.subperm hsub).length_le
    simp at this
    omega
  | succ n ih =>
    intro anc o hn ha hw hc hl o' hch
    refine ih (o :: anc) o' (List.nodup_cons.mpr ⟨?_, hn⟩) ?_ ?_ ?_ (by simp; omega)
    · intro hin
      rcases List.mem_cons.mp hin with rfl | hin
      · exact hc ⟨_, .inl rfl, .child hch⟩
      · exact hc ⟨o', .inr (.child hch), (ha _ hin).2.trans (.child hch)⟩
    · intro x hx
      rcases List.mem_cons.mp hx with rfl | hx
      · exact ⟨hw x (.inl rfl), .child hch⟩
      · exact ⟨(ha x hx).1, (ha x hx).2.trans (.child hch)⟩
    · intro x hx
      rcases hx with rfl | hx
      · exact hw x (.inr (.child hch))
      · exact hw x (.inr (.step hch hx))
    · rintro ⟨x, rfl | hx, hxx⟩
      · exact hc ⟨_, .inr (.child hch), hxx⟩
      · exact hc ⟨x, .inr (.step hch hx), hxx⟩

/-! ## The properties -/

/-- C31, round trip.  `A` is saved (over any files already there) and its files are
loaded into `B`, whose saved attributes lead to objects only along paths along
which they do in `A`; objects of `B` found along two paths must have equal
counterparts in `A` (for instance when `B` shares attributes as `A` does).
Afterwards every object saved along a path in `A` has its state in `B`, and the
states of all other objects are as they were. -/
theorem C31_roundtrip (A B : Heap D) (a b : Nat) (dir : List String) (fs fs' : Files D) (limit limit' : Nat)
    (d' : Nat → D)
    (hsave : save A limit dir a fs = (fs', .ok ()))
    (hsub : ∀ p l, Leaf B.obj b p l → ∃ l', Leaf A.obj a p l')
    (halias : ∀ p p' l l1 l2, Leaf B.obj b p l → Leaf B.obj b p' l → Leaf A.obj a p l1 → Leaf A.obj a p' l2 →
      A.data l1 = A.data l2)
    (hload : load B fs' limit' dir b = (d', .ok ())) :
    (∀ p l l', Leaf B.obj b p l → Leaf A.obj a p l' → d' l = A.data l') ∧
    (∀ l, (∀ p, ¬ Leaf B.obj b p l) → d' l = B.data l) := by
  obtain ⟨_, h1⟩ := saveFrom_right A limit dir [] a fs fs' hsave
  obtain ⟨h2, h3⟩ := loadFrom_read B.obj fs' limit' dir [] b _ d' hload
  constructor
  · intro p l l' hB hA
    obtain ⟨p', hB', hf⟩ := h3 p l hB
    obtain ⟨l2, hA2⟩ := hsub p' l hB'
    rw [h1 p' l2 hA2] at hf
    rw [← Option.some.inj hf]
    exact halias p' p l l2 l' hB' hB hA2 hA
  · intro l hl
    rcases h2 l with h | ⟨p, hp, _⟩
    · exact h
    · exact absurd hp (hl p)

/-- C31: an agent without missing attributes and cycles can be saved, and what was
saved can be loaded into an agent of the same kind. -/
theorem C31_no_error (A B : Heap D) (a b : Nat) (dir : List String) (fs : Files D) (objs objs' : List Nat)
    (hA : Within A.obj a objs) (hB : Within B.obj b objs') (limit limit' : Nat) (hl : objs.length < limit)
    (hl' : objs'.length < limit') (hcA : ¬ Cyclic A.obj a) (hcB : ¬ Cyclic B.obj b)
    (hpA : Present A.obj a) (hpB : Present B.obj b)
    (hsub : ∀ p l, Leaf B.obj b p l → ∃ l', Leaf A.obj a p l') :
    ∃ fs' d', save A limit dir a fs = (fs', .ok ()) ∧ load B fs' limit' dir b = (d', .ok ()) := by
  have hsave : ∃ fs', save A limit dir a fs = (fs', .ok ()) := by
    rcases outcome (save A limit dir a fs) with h | ⟨s, h⟩ | ⟨s, h⟩ | ⟨s, h⟩
    · exact h
    · exact absurd h (saveFrom_no_assert A limit dir [] a fs s (by simp) hcA hpA)
    · exact absurd h (saveFrom_recursion A objs limit dir [] a fs s (by simp) (by simp) hA (by simpa using hl))
    · exact absurd h (saveFrom_noFile A limit dir [] a fs s)
  obtain ⟨fs', hs⟩ := hsave
  obtain ⟨_, h1⟩ := saveFrom_right A limit dir [] a fs fs' hs
  obtain ⟨d', hd⟩ := loadFrom_ok B.obj fs' limit' dir b B.data
    (shallow_of_acyclic B.obj objs' limit' [] b (by simp) (by simp) hB hcB (by simpa using hl')) hcB hpB
    (by
      intro p l hl
      obtain ⟨l', h⟩ := hsub p l hl
      rw [h1 p l' h]
      simp)
  exact ⟨fs', d', hs, hd⟩

/-- C31: saving an agent with a cycle of saved attributes raises
`AssertionError`, whatever the recursion limit beyond the number of objects. -/
theorem C31_save_detects_cycle (A : Heap D) (a : Nat) (dir : List String) (fs : Files D) (objs : List Nat)
    (hA : Within A.obj a objs) (limit : Nat) (hl : objs.length < limit) (hc : Cyclic A.obj a) :
    ∃ fs', save A limit dir a fs = (fs', .error .assertion) := by
  rcases outcome (save A limit dir a fs) with ⟨s, h⟩ | h | ⟨s, h⟩ | ⟨s, h⟩
  · exact absurd hc (saveFrom_shallow A limit dir [] a fs s h).acyclic
  · exact h
  · exact absurd h (saveFrom_recursion A objs limit dir [] a fs s (by simp) (by simp) hA (by simpa using hl))
  · exact absurd h (saveFrom_noFile A limit dir [] a fs s)

/-- C31 (part): loading never succeeds on a cycle, and an object that is its own
attribute is reported.  Missing: longer cycles are not detected on load. -/
theorem C31_load_self_loop_partial (B : Heap D) (b : Nat) (dir : List String) (fs : Files D) (limit : Nat)
    (attr : String) (hattr : (B.obj b).attr attr = .mixin b) (pre post : List String)
    (hs : (B.obj b).saved = pre ++ attr :: post) (hpre : ∀ x ∈ pre, (B.obj b).attr x = .none) :
    ∃ d', load B fs (limit + 1) dir b = (d', .error .assertion) := by
  unfold load
  simp only [loadFrom, hs]
  clear hs
  generalize B.data = d
  induction pre generalizing d with
  | nil => exact ⟨d, by simp [each, loadAttr, hattr]⟩
  | cons x pre ih =>
    obtain ⟨d', h⟩ := ih (fun y hy => hpre y (List.mem_cons_of_mem _ hy)) d
    refine ⟨d', ?_⟩
    rw [List.cons_append, each]
    simp only [loadAttr, hpre x List.mem_cons_self]
    exact h

/-- Two objects, each the other's only saved attribute. -/
def exCycle : Heap Nat := ⟨fun o => ⟨["peer"], fun _ => .mixin (if o = 0 then 1 else 0)⟩, fun _ => 0⟩

/-- C31 is violated: loading an agent with a cycle of length two is not detected;
it recurses until the recursion limit, whatever that is. -/
theorem C31_violated_load_cycle (fs : Files Nat) (dir : List String) (limit : Nat) :
    Cyclic exCycle.obj 0 ∧ (load exCycle fs limit dir 0).2 = .error .recursion := by
  constructor
  · exact ⟨0, .inl rfl, .step (o' := 1) ⟨"peer", by simp [exCycle], rfl⟩ (.child ⟨"peer", by simp [exCycle], rfl⟩)⟩
  · unfold load
    have key : ∀ (limit : Nat) (dir : List String) (o : Nat) (d : Nat → Nat), o = 0 ∨ o = 1 →
        loadFrom exCycle.obj fs limit dir [] o d = (d, .error .recursion) := by
      intro limit
      induction limit with
      | zero => intros; rfl
      | succ n ih =>
        intro dir o d ho
        rcases ho with rfl | rfl
        · have := ih (dir ++ ["peer"]) 1 d (.inr rfl)
          simp only [loadFrom]
          simp only [exCycle] at this ⊢
          simp [each, loadAttr, this]
        · have := ih (dir ++ ["peer"]) 0 d (.inl rfl)
          simp only [loadFrom]
          simp only [exCycle] at this ⊢
          simp [each, loadAttr, this]
    rw [key limit dir 0 _ (.inl rfl)]

/-! ## Concrete cases -/

-- the cycle is detected on save
example : (save exCycle 3 [] 0 (fun _ => none)).2 = .error .assertion := by decide +kernel

/-- An agent with a model shared with a nested agent, an optimizer, and `None`. -/
def exObj : Nat → Obj
  | 0 => ⟨["model", "inner", "optimizer", "extra"], fun a =>
      if a = "model" then .other 0 else if a = "inner" then .mixin 1
      else if a = "optimizer" then .other 1 else .none⟩
  | _ => ⟨["model"], fun _ => .other 0⟩

-- saving an agent with states 5 and 6 and loading into one with states 0 and 0
example :
    let s := save ⟨exObj, fun l => l + 5⟩ 5 ["out"] 0 (fun _ => none)
    s.2 = .ok () ∧ s.1 ["out", "inner", "model"] = some 5 ∧ s.1 ["out", "optimizer"] = some 6 ∧
    (load ⟨exObj, fun _ => 0⟩ s.1 5 ["out"] 0).2 = .ok () ∧
    (load ⟨exObj, fun _ => 0⟩ s.1 5 ["out"] 0).1 0 = 5 ∧ (load ⟨exObj, fun _ => 0⟩ s.1 5 ["out"] 0).1 1 = 6 ∧
    (load ⟨exObj, fun _ => 0⟩ s.1 5 ["out"] 0).1 2 = 0 := by decide +kernel

-- loading what was not saved
example : (load ⟨exObj, fun _ => 0⟩ (fun _ => none) 5 ["out"] 0).2 = .error .noFile := by decide +kernel

/-- The nested agent is the only saved object below another. -/
theorem exObj_child {o o' : Nat} (h : Child exObj o o') : o = 0 ∧ o' = 1 := by
  obtain ⟨a, ha, h⟩ := h
  match o with
  | 0 =>
    simp only [exObj] at h
    split at h
    · simp at h
    · split at h
      · simp_all
      · split at h <;> simp at h
  | _ + 1 => simp [exObj] at h

theorem exObj_below {o o' : Nat} (h : Below exObj o o') : o = 0 ∧ o' = 1 := by
  induction h with
  | child h => exact exObj_child h
  | step h _ ih => have := exObj_child h; omega

theorem exObj_within : Within exObj 0 [0, 1] := by
  rintro o' (rfl | h)
  · simp
  · simp [(exObj_below h).2]

theorem exObj_acyclic : ¬ Cyclic exObj 0 := by
  rintro ⟨o', -, h⟩
  have := exObj_below h
  omega

theorem exObj_present : Present exObj 0 := by
  rintro o' (rfl | h) a ha
  · simp only [exObj]
    repeat' split
    all_goals simp
  · rw [(exObj_below h).2]; simp [exObj]

-- the hypotheses of `C31_no_error` and `C31_roundtrip` hold for this agent, whatever was saved before and whatever the loading agent holds
example (data data' : Nat → Nat) (fs : Files Nat) : ∃ fs' d', save ⟨exObj, data⟩ 3 ["out"] 0 fs = (fs', .ok ()) ∧
    load ⟨exObj, data'⟩ fs' 3 ["out"] 0 = (d', .ok ()) ∧ d' 0 = data 0 ∧ d' 1 = data 1 := by
  obtain ⟨fs', d', h1, h2⟩ := C31_no_error ⟨exObj, data⟩ ⟨exObj, data'⟩ 0 0 ["out"] fs [0, 1] [0, 1] exObj_within exObj_within 3 3
    (by simp) (by simp) exObj_acyclic exObj_acyclic exObj_present exObj_present (fun p l h => ⟨l, h⟩)
  have h3 := (C31_roundtrip ⟨exObj, data⟩ ⟨exObj, data'⟩ 0 0 ["out"] fs fs' 3 3 d' h1 (fun p l h => ⟨l, h⟩)
    (fun p p' l l1 l2 a b c d => by rw [Leaf.det c a, Leaf.det d b]) h2).1
  have m0 : Leaf exObj 0 ["model"] 0 := .here (by simp [exObj]) (by simp [exObj])
  have m1 : Leaf exObj 0 ["optimizer"] 1 := .here (by simp [exObj]) (by simp [exObj])
  exact ⟨fs', d', h1, h2, h3 _ _ _ m0 m0, h3 _ _ _ m1 m1⟩

end Verif.AgentSave
