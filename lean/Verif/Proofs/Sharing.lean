import Verif.Spec.Sharing
import Verif.Proofs.ReplayBuffer
set_option autoImplicit false
set_option linter.unusedSectionVars false

/-! Helper lemmas about shared objects. -/

namespace Verif.Sharing
open BoundedList (newest)

section Get
variable {V : Type}

theorem get_set_ne (h : Lists V) {a d : Nat} (x : List V) (hd : a ≠ d) : get (h.set d x) a = get h a := by
  simp [get, List.getElem?_set_ne (Ne.symm hd)]

theorem get_set_self (h : Lists V) {d : Nat} (x : List V) (hd : d < h.length) : get (h.set d x) d = x := by
  simp [get, hd]

theorem get_append (h r : Lists V) {a : Nat} (ha : a < h.length) : get (h ++ r) a = get h a := by
  simp [get, List.getElem?_append_left ha]

theorem get_new (h : Lists V) (x : List V) : get (h ++ [x]) h.length = x := by
  simp [get]

theorem map_get_append (h r : Lists V) (as : List Nat) (ha : ∀ a ∈ as, a < h.length) :
    as.map (get (h ++ r)) = as.map (get h) :=
  List.map_congr_left fun a m => get_append h r (ha a m)

theorem map_get_set (h : Lists V) (as : List Nat) (d : Nat) (x : List V) (ha : d ∉ as) :
    as.map (get (h.set d x)) = as.map (get h) :=
  List.map_congr_left fun a m => get_set_ne h x fun e => ha (e ▸ m)

end Get

section Frames
open FrameStack (push pushN SOp VOp maskOf sCall sGetOb VState)
variable {F : Type}

theorem append_spec (k d : Nat) (ob : F) (h : Lists F) (hd : d < h.length) :
    (append k d ob h).length = h.length ∧ get (append k d ob h) d = push k (get h d) ob ∧
      ∀ a, a ≠ d → get (append k d ob h) a = get h a :=
  ⟨by simp [append], get_set_self _ _ hd, fun _ ha => get_set_ne _ _ ha⟩

theorem appendN_spec (k d : Nat) (ob : F) (n : Nat) (h : Lists F) (hd : d < h.length) :
    (appendN k d ob n h).length = h.length ∧ get (appendN k d ob n h) d = pushN k ob n (get h d) ∧
      ∀ a, a ≠ d → get (appendN k d ob n h) a = get h a := by
  induction n generalizing h with
  | zero => exact ⟨rfl, rfl, fun _ _ => rfl⟩
  | succ n ih =>
    obtain ⟨a1, a2, a3⟩ := append_spec k d ob h hd
    obtain ⟨b1, b2, b3⟩ := ih (append k d ob h) (by omega)
    refine ⟨by rw [appendN, b1, a1], by rw [appendN, b2, a2, pushN], fun a ha => ?_⟩
    rw [appendN, b3 a ha, a3 a ha]

theorem getOb_spec (k d : Nat) (h : Lists F) (hd : d < h.length) :
    (∀ a < h.length, get (getOb k d h).1 a = get h a) ∧ h.length ≤ (getOb k d h).1.length ∧
      (∀ a, (getOb k d h).2 = some a → a < (getOb k d h).1.length ∧ h.length ≤ a) ∧
      (getOb k d h).2.map (get (getOb k d h).1) = sGetOb k (get h d) := by
  unfold getOb lazyFrames sGetOb
  split
  · refine ⟨fun a ha => get_append _ _ ha, by simp, ?_, ?_⟩
    · intro a ha
      obtain rfl := Option.some.inj ha
      simp
    · simp only [Option.map_some, get_new]
  · exact ⟨fun _ _ => rfl, Nat.le_refl _, by simp, rfl⟩

theorem stackCall_spec (k d : Nat) (h : Lists F) (op : SOp F) (hd : d < h.length) :
    (∀ a < h.length, a ≠ d → get (stackCall k d h op).1 a = get h a) ∧
      h.length ≤ (stackCall k d h op).1.length ∧
      get (stackCall k d h op).1 d = sCall k (get h d) op ∧
      (∀ a, (stackCall k d h op).2 = some a → a < (stackCall k d h op).1.length ∧ a ≠ d) ∧
      (stackCall k d h op).2.map (get (stackCall k d h op).1) = sGetOb k (sCall k (get h d) op) := by
  cases op with
  | reset ob =>
    obtain ⟨a1, a2, a3⟩ := appendN_spec k d ob k h hd
    obtain ⟨b1, b2, b3, b4⟩ := getOb_spec k d (appendN k d ob k h) (by omega)
    simp only [stackCall, sCall]
    refine ⟨fun a ha hne => ?_, by omega, ?_, fun a ha => ?_, by rw [b4, a2]⟩
    · rw [b1 a (by omega), a3 a hne]
    · rw [b1 d (by omega), a2]
    · have := b3 a ha; exact ⟨this.1, by omega⟩
  | step ob =>
    obtain ⟨a1, a2, a3⟩ := append_spec k d ob h hd
    obtain ⟨b1, b2, b3, b4⟩ := getOb_spec k d (append k d ob h) (by omega)
    simp only [stackCall, sCall]
    refine ⟨fun a ha hne => ?_, by omega, ?_, fun a ha => ?_, by rw [b4, a2]⟩
    · rw [b1 a (by omega), a3 a hne]
    · rw [b1 d (by omega), a2]
    · have := b3 a ha; exact ⟨this.1, by omega⟩

theorem stackRun_stable (k d : Nat) (ops : List (SOp F)) (h : Lists F) (hd : d < h.length) :
    ∀ a < h.length, a ≠ d → get (stackRun k d h ops).1 a = get h a := by
  induction ops generalizing h with
  | nil => intro a _ _; rfl
  | cons op ops ih =>
    intro a ha hne
    obtain ⟨s1, s2, -, -, -⟩ := stackCall_spec k d h op hd
    rw [stackRun, ih (stackCall k d h op).1 (by omega) a (by omega) hne, s1 a ha hne]

theorem stackRun_spec (k d : Nat) (ops : List (SOp F)) (h : Lists F) (hd : d < h.length) :
    (stackRun k d h ops).2.length = ops.length ∧
    ∀ i < ops.length, ((stackRun k d h ops).2[i]?).map (·.map (get (stackRun k d h ops).1)) =
      some (sGetOb k ((ops.take (i + 1)).foldl (sCall k) (get h d))) := by
  induction ops generalizing h with
  | nil => exact ⟨rfl, fun i hi => by simp at hi⟩
  | cons op ops ih =>
    obtain ⟨s1, s2, s3, s4, s5⟩ := stackCall_spec k d h op hd
    have hd' : d < (stackCall k d h op).1.length := by omega
    obtain ⟨i1, i2⟩ := ih _ hd'
    refine ⟨by simp [stackRun, i1], fun i hi => ?_⟩
    cases i with
    | zero =>
      simp only [stackRun, List.getElem?_cons_zero, Option.map_some, List.take_succ_cons, List.take_zero, List.foldl_cons, List.foldl_nil]
      rw [← s5]
      congr 1
      cases hr : (stackCall k d h op).2 with
      | none => rfl
      | some a =>
        have := s4 a hr
        simp only [Option.map_some]
        rw [stackRun_stable k d ops _ hd' a this.1 this.2]
    | succ i =>
      simp only [stackRun, List.getElem?_cons_succ, List.take_succ_cons, List.foldl_cons]
      rw [i2 i (by simpa using hi), s3]

theorem resetAll_spec (k : Nat) (ms : List Bool) (ds : List Nat) (obs : List F) (h : Lists F) (hds : ∀ d ∈ ds, d < h.length)
    (nd : ds.Nodup) :
    (resetAll k ms ds obs h).length = h.length ∧
      ds.map (get (resetAll k ms ds obs h)) = FrameStack.resetAll k ms (ds.map (get h)) obs ∧
      ∀ a, a ∉ ds → get (resetAll k ms ds obs h) a = get h a := by
  induction ds generalizing ms obs h with
  | nil => cases ms <;> simp [resetAll, FrameStack.resetAll]
  | cons d ds ih =>
    cases ms with
    | nil => simp [resetAll, FrameStack.resetAll]
    | cons m ms =>
      cases obs with
      | nil => simp [resetAll, FrameStack.resetAll]
      | cons ob obs =>
        have hd := hds d (by simp)
        obtain ⟨n1, n2⟩ := List.nodup_cons.1 nd
        obtain ⟨h', e⟩ : ∃ h', h' = if m then h else appendN k d ob k h := ⟨_, rfl⟩
        have hs : h'.length = h.length ∧ get h' d = FrameStack.resetFrames k m (get h d) ob ∧ ∀ a, a ≠ d → get h' a = get h a := by
          cases m with
          | true => subst e; exact ⟨rfl, rfl, fun _ _ => rfl⟩
          | false =>
            subst e
            exact appendN_spec k d ob k h hd
        obtain ⟨i1, i2, i3⟩ := ih ms obs h' (fun x hx => by rw [hs.1]; exact hds x (by simp [hx])) n2
        rw [resetAll, ← e]
        refine ⟨i1.trans hs.1, ?_, fun a ha => ?_⟩
        · rw [List.map_cons, List.map_cons, i2, FrameStack.resetAll, i3 d n1, hs.2.1]
          congr 2
          exact List.map_congr_left fun a m' => hs.2.2 a fun e => n1 (e ▸ m')
        · simp only [List.mem_cons, not_or] at ha
          rw [i3 a ha.2, hs.2.2 a ha.1]

theorem stepAll_spec (k : Nat) (ds : List Nat) (obs : List F) (h : Lists F) (hds : ∀ d ∈ ds, d < h.length) (nd : ds.Nodup) :
    (stepAll k ds obs h).length = h.length ∧
      ds.map (get (stepAll k ds obs h)) = FrameStack.stepAll k (ds.map (get h)) obs ∧
      ∀ a, a ∉ ds → get (stepAll k ds obs h) a = get h a := by
  induction ds generalizing obs h with
  | nil => simp [stepAll, FrameStack.stepAll]
  | cons d ds ih =>
    cases obs with
    | nil => simp [stepAll, FrameStack.stepAll]
    | cons ob obs =>
      obtain ⟨n1, n2⟩ := List.nodup_cons.1 nd
      have hs := append_spec k d ob h (hds d (by simp))
      obtain ⟨i1, i2, i3⟩ := ih obs (append k d ob h) (fun x hx => by rw [hs.1]; exact hds x (by simp [hx])) n2
      rw [stepAll]
      refine ⟨i1.trans hs.1, ?_, fun a ha => ?_⟩
      · rw [List.map_cons, List.map_cons, i2, FrameStack.stepAll, i3 d n1, hs.2.1]
        congr 2
        exact List.map_congr_left fun a m' => hs.2.2 a fun e => n1 (e ▸ m')
      · simp only [List.mem_cons, not_or] at ha
        rw [i3 a ha.2, hs.2.2 a ha.1]

theorem lazyAll_spec (ds : List Nat) (h : Lists F) (hds : ∀ d ∈ ds, d < h.length) :
    (∀ a < h.length, get (lazyAll ds h).1 a = get h a) ∧ h.length ≤ (lazyAll ds h).1.length ∧
      (∀ a ∈ (lazyAll ds h).2, a < (lazyAll ds h).1.length ∧ h.length ≤ a) ∧
      (lazyAll ds h).2.map (get (lazyAll ds h).1) = ds.map (get h) := by
  induction ds generalizing h with
  | nil => simp [lazyAll]
  | cons d ds ih =>
    have hl : (lazyFrames d h).1.length = h.length + 1 := by simp [lazyFrames]
    obtain ⟨i1, i2, i3, i4⟩ := ih (lazyFrames d h).1 (fun x hx => by rw [hl]; have := hds x (by simp [hx]); omega)
    rw [hl] at i1 i2 i3
    simp only [lazyAll]
    refine ⟨fun a ha => ?_, by omega, ?_, ?_⟩
    · rw [i1 a (by omega)]; exact get_append _ _ ha
    · intro a ha
      rcases List.mem_cons.1 ha with rfl | ha
      · simp only [lazyFrames] at *; omega
      · have := i3 a ha; omega
    · rw [List.map_cons, List.map_cons, i4]
      congr 1
      · rw [i1 _ (by simp [lazyFrames])]; simp [lazyFrames, get_new]
      · exact List.map_congr_left fun a m => get_append _ _ (hds a (by simp [m]))

theorem vectorGetOb_spec (k : Nat) (ds : List Nat) (h : Lists F) (hds : ∀ d ∈ ds, d < h.length) :
    (∀ a < h.length, get (vectorGetOb k ds h).1 a = get h a) ∧ h.length ≤ (vectorGetOb k ds h).1.length ∧
      (∀ as, (vectorGetOb k ds h).2 = some as → ∀ a ∈ as, a < (vectorGetOb k ds h).1.length ∧ h.length ≤ a) ∧
      (vectorGetOb k ds h).2.map (·.map (get (vectorGetOb k ds h).1)) = FrameStack.getOb ⟨k, ds.map (get h)⟩ := by
  cases ds with
  | nil => simp [vectorGetOb, FrameStack.getOb]
  | cons d ds =>
    obtain ⟨l1, l2, l3, l4⟩ := lazyAll_spec (d :: ds) h hds
    simp only [vectorGetOb, FrameStack.getOb, List.map_cons]
    split
    · refine ⟨l1, l2, fun as e => ?_, ?_⟩
      · obtain rfl := Option.some.inj e
        exact l3
      · simpa using l4
    · exact ⟨fun _ _ => rfl, Nat.le_refl _, by simp, rfl⟩

theorem vectorCall_spec (k : Nat) (ds : List Nat) (h : Lists F) (op : VOp F) (hds : ∀ d ∈ ds, d < h.length) (nd : ds.Nodup) :
    (∀ a < h.length, a ∉ ds → get (vectorCall k ds h op).1 a = get h a) ∧
      h.length ≤ (vectorCall k ds h op).1.length ∧
      (⟨k, ds.map (get (vectorCall k ds h op).1)⟩ : VState F) = ((⟨k, ds.map (get h)⟩ : VState F).call op).1 ∧
      (∀ as, (vectorCall k ds h op).2 = some as → ∀ a ∈ as, a < (vectorCall k ds h op).1.length ∧ a ∉ ds) ∧
      (vectorCall k ds h op).2.map (·.map (get (vectorCall k ds h op).1)) =
        ((⟨k, ds.map (get h)⟩ : VState F).call op).2 := by
  cases op with
  | reset mask obs =>
    obtain ⟨a1, a2, a3⟩ := resetAll_spec k (maskOf ds.length mask) ds obs h hds nd
    have hds' : ∀ d ∈ ds, d < (resetAll k (maskOf ds.length mask) ds obs h).length := fun d hd => by rw [a1]; exact hds d hd
    obtain ⟨b1, b2, b3, b4⟩ := vectorGetOb_spec k ds _ hds'
    simp only [vectorCall, VState.call, List.length_map]
    refine ⟨fun a ha hne => ?_, by omega, ?_, fun as e a ha => ?_, by rw [b4, a2]⟩
    · rw [b1 a (by omega), a3 a hne]
    · rw [← a2]; congr 1; exact List.map_congr_left fun d m => b1 d (hds' d m)
    · have := b3 as e a ha; exact ⟨this.1, fun m => by have := hds' a m; omega⟩
  | step obs =>
    obtain ⟨a1, a2, a3⟩ := stepAll_spec k ds obs h hds nd
    have hds' : ∀ d ∈ ds, d < (stepAll k ds obs h).length := fun d hd => by rw [a1]; exact hds d hd
    obtain ⟨b1, b2, b3, b4⟩ := vectorGetOb_spec k ds _ hds'
    simp only [vectorCall, VState.call]
    refine ⟨fun a ha hne => ?_, by omega, ?_, fun as e a ha => ?_, by rw [b4, a2]⟩
    · rw [b1 a (by omega), a3 a hne]
    · rw [← a2]; congr 1; exact List.map_congr_left fun d m => b1 d (hds' d m)
    · have := b3 as e a ha; exact ⟨this.1, fun m => by have := hds' a m; omega⟩

theorem vectorRun_stable (k : Nat) (ds : List Nat) (ops : List (VOp F)) (h : Lists F) (hds : ∀ d ∈ ds, d < h.length) (nd : ds.Nodup) :
    ∀ a < h.length, a ∉ ds → get (vectorRun k ds h ops).1 a = get h a := by
  induction ops generalizing h with
  | nil => intro a _ _; rfl
  | cons op ops ih =>
    intro a ha hne
    obtain ⟨s1, s2, -, -, -⟩ := vectorCall_spec k ds h op hds nd
    rw [vectorRun, ih (vectorCall k ds h op).1 (fun d m => by have := hds d m; omega) a (by omega) hne, s1 a ha hne]

theorem vectorRun_spec (k : Nat) (ds : List Nat) (ops : List (VOp F)) (h : Lists F) (hds : ∀ d ∈ ds, d < h.length) (nd : ds.Nodup) :
    (vectorRun k ds h ops).2.length = ops.length ∧
    ∀ i (hi : i < ops.length), ((vectorRun k ds h ops).2[i]?).map (·.map (·.map (get (vectorRun k ds h ops).1))) =
      some ((((⟨k, ds.map (get h)⟩ : VState F).after (ops.take i)).call ops[i]).2) := by
  induction ops generalizing h with
  | nil => exact ⟨rfl, fun i hi => by simp at hi⟩
  | cons op ops ih =>
    obtain ⟨s1, s2, s3, s4, s5⟩ := vectorCall_spec k ds h op hds nd
    have hds' : ∀ d ∈ ds, d < (vectorCall k ds h op).1.length := fun d m => by have := hds d m; omega
    obtain ⟨i1, i2⟩ := ih _ hds'
    refine ⟨by simp [vectorRun, i1], fun i hi => ?_⟩
    cases i with
    | zero =>
      simp only [vectorRun, List.getElem?_cons_zero, Option.map_some, List.take_zero, VState.after, List.foldl_nil, List.getElem_cons_zero]
      rw [← s5]
      congr 1
      cases hr : (vectorCall k ds h op).2 with
      | none => rfl
      | some as =>
        have := s4 as hr
        simp only [Option.map_some]
        congr 1
        exact List.map_congr_left fun a m => vectorRun_stable k ds ops _ hds' nd a (this a m).1 (this a m).2
    | succ i =>
      simp only [vectorRun, List.getElem?_cons_succ, List.take_succ_cons, VState.after, List.foldl_cons, List.getElem_cons_succ]
      rw [i2 i (by simpa using hi), s3, VState.after]

end Frames
end Verif.Sharing
