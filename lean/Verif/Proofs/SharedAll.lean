import Verif.Proofs.SharedShare

set_option autoImplicit false
set_option linter.unusedSectionVars false

namespace Verif.Shared
variable {D V : Type} [DecidableEq D]

/-! ### Objects of the other processes -/

theorem forall₂_comp {α β γ : Type} {R : α → β → Prop} {S : α → γ → Prop} {T : β → γ → Prop}
    (h : ∀ a b c, R a b → S a c → T b c) {l : List α} {m : List β} {n : List γ}
    (h1 : List.Forall₂ R l m) (h2 : List.Forall₂ S l n) : List.Forall₂ T m n := by
  induction h1 generalizing n with
  | nil => cases h2; exact .nil
  | cons h3 _ ih => cases h2 with
    | cons h4 h5 => exact .cons (h _ _ _ h3 h4) (ih h5)

theorem SameKind.fit {w : World D V} {i j a : Nat} (h : SameKind w i j) (hf : Fit w i a) : Fit w j a :=
  ⟨hf.1, hf.2.1.trans h.1, hf.2.2.trans h.2⟩

mutual
theorem Alike.fits {w : World D V} : ∀ (o o' : Obj) (s : Sh), Alike w o o' → Fits w o s → Fits w o' s
  | .tuple l, o', s => by
    intro h hf
    cases o' with
    | tuple l' =>
      cases s with
      | tuple s =>
        simp only [Alike] at h
        simp only [Fits] at hf ⊢
        exact AlikeList.fits l l' s h hf
      | _ => simp [Fits] at hf
    | _ => simp [Alike] at h
  | .link l, o', s => by
    intro h hf
    cases o' with
    | link l' =>
      cases s with
      | params s =>
        simp only [Alike] at h
        simp only [Fits] at hf ⊢
        exact forall₂_comp (fun a b c h1 h2 => ⟨h1.1.symm.trans h2.1, h1.2.fit h2.2⟩) (forall₂_append h.1 h.2) hf
      | _ => simp [Fits] at hf
    | _ => simp [Alike] at h
  | .optimizer st, o', s => by
    intro h hf
    cases o' with
    | optimizer st' =>
      cases s with
      | states s =>
        simp only [Alike] at h
        simp only [Fits] at hf ⊢
        exact forall₂_comp (fun a b c h1 h2 => ⟨h1.1.symm.trans h2.1,
          forall₂_comp (fun e f g k1 k2 => ⟨k1.1.symm.trans k2.1, k1.2.fit k2.2⟩) h1.2 h2.2⟩) h hf
      | _ => simp [Fits] at hf
    | _ => simp [Alike] at h
  | .value n, o', s => by
    intro h hf
    cases o' with
    | value n' =>
      cases s with
      | value s => simp only [Fits]
      | _ => simp [Fits] at hf
    | _ => simp [Alike] at h
  | .other, o', s => by intro _ hf; simp [Fits] at hf
theorem AlikeList.fits {w : World D V} : ∀ (l l' : List Obj) (s : List Sh), AlikeList w l l' → FitsList w l s →
    FitsList w l' s
  | [], l', s => by
    intro h hf
    cases l' with
    | nil => exact hf
    | cons => simp [AlikeList] at h
  | o :: os, l', s => by
    intro h hf
    cases l' with
    | nil => simp [AlikeList] at h
    | cons o' os' =>
      cases s with
      | nil => simp [FitsList] at hf
      | cons s ss =>
        simp only [AlikeList] at h
        simp only [FitsList] at hf ⊢
        exact ⟨Alike.fits o o' s h.1 hf.1, AlikeList.fits os os' ss h.2 hf.2⟩
end

mutual
theorem Alike.mono {w w' : World D V} (hk : ∀ i j, SameKind w i j → SameKind w' i j) :
    ∀ (o o' : Obj), Alike w o o' → Alike w' o o'
  | .tuple l, o' => by
    intro h
    cases o' with
    | tuple l' => simp only [Alike] at h ⊢; exact AlikeList.mono hk l l' h
    | _ => simp [Alike] at h
  | .link l, o' => by
    intro h
    cases o' with
    | link l' =>
      simp only [Alike] at h ⊢
      exact ⟨h.1.imp fun x y hxy => ⟨hxy.1, hk _ _ hxy.2⟩, h.2.imp fun x y hxy => ⟨hxy.1, hk _ _ hxy.2⟩⟩
    | _ => simp [Alike] at h
  | .optimizer st, o' => by
    intro h
    cases o' with
    | optimizer st' =>
      simp only [Alike] at h ⊢
      exact h.imp fun x y hxy => ⟨hxy.1, hxy.2.imp fun e f hef => ⟨hef.1, hk _ _ hef.2⟩⟩
    | _ => simp [Alike] at h
  | .value n, o' => by
    intro h
    cases o' with
    | value n' => simp only [Alike]
    | _ => simp [Alike] at h
  | .other, o' => by intro h; simp [Alike] at h
theorem AlikeList.mono {w w' : World D V} (hk : ∀ i j, SameKind w i j → SameKind w' i j) :
    ∀ (l l' : List Obj), AlikeList w l l' → AlikeList w' l l'
  | [], l' => by
    intro h
    cases l' with
    | nil => simp only [AlikeList]
    | cons => simp [AlikeList] at h
  | o :: os, l' => by
    intro h
    cases l' with
    | nil => simp [AlikeList] at h
    | cons o' os' =>
      simp only [AlikeList] at h ⊢
      exact ⟨Alike.mono hk o o' h.1, AlikeList.mono hk os os' h.2⟩
end

/-- All processes synchronise. -/
theorem syncAll_ok (t : Dtypes D V) (hpos : ∀ d, 0 < t.itemsize d) (s : Sh) : ∀ (objs : List Obj) (w : World D V),
    (∀ o ∈ objs, NamesOk o) → (∀ o ∈ objs, Fits w o s) → ((objs.flatMap slots).map Prod.snd).Nodup →
    ∃ objs' pairs, syncAll t s w objs = .ok (objs', bound w pairs) ∧ Binds (objs.flatMap slots) (shSlots s) pairs ∧
      objs'.map slots = objs.map slots ∧ ∀ o ∈ objs', values o = shValues s
  | [], w => by
    intro _ _ _
    exact ⟨[], [], by simp only [syncAll, bound_nil], .nil, rfl, by simp⟩
  | o :: os, w => by
    intro hn hf hi
    simp only [List.flatMap_cons, List.map_append, List.nodup_append] at hi
    obtain ⟨i1, i2, i3⟩ := hi
    obtain ⟨o', p1, h1, h2, h3, hv⟩ := sync_ok t hpos o s w (hn o (by simp)) (hf o (by simp)) i1
    obtain ⟨l', p2, h4, h5, h6, hvs⟩ := syncAll_ok t hpos s os (bound w p1) (fun x hx => hn x (List.mem_cons_of_mem _ hx))
      (fun x hx => Fits.mono (fun i a h => h.bound p1) x s (hf x (List.mem_cons_of_mem _ hx))) i2
    refine ⟨o' :: l', p1 ++ p2, ?_, ?_, ?_, List.forall_mem_cons.mpr ⟨hv, hvs⟩⟩
    · simp only [syncAll, h1]
      show (syncAll t s (bound w p1) os >>= _) = _
      rw [h4, ← bound_append w p1 p2 ?_]
      · rfl
      · intro x hx hx2
        rw [h5.fst] at hx2
        have : x.1 ∈ (slots o).map Prod.snd := by
          rw [← h2.fst]; exact List.mem_map.mpr ⟨x, hx, rfl⟩
        exact i3 x.1 this x.1 hx2 rfl
    · simp only [List.flatMap_cons]
      exact forall₂_append h2 h5
    · simp only [List.map_cons, h3, h6]

/-! ### Counters -/

theorem bind_ok' {α β : Type} {x : Py α} {f : α → Py β} {b : β} (h : (x >>= f) = .ok b) :
    ∃ a, x = .ok a ∧ f a = .ok b := by
  cases x with
  | error e => cases h
  | ok a => exact ⟨a, rfl, h⟩

mutual
theorem asShared_values (t : Dtypes D V) : ∀ (o : Obj) (w : World D V) (r : Sh × World D V),
    asShared t w o = .ok r → shValues r.1 = values o
  | .tuple l, w, r => by
    intro h
    simp only [asShared] at h
    obtain ⟨a, h1, h2⟩ := bind_ok' h
    cases h2
    simp only [shValues, values]
    exact asSharedList_values t l w a h1
  | .link l, w, r => by
    intro h
    simp only [asShared] at h
    obtain ⟨a, h1, h2⟩ := bind_ok' h
    cases h2
    simp only [shValues, values]
  | .optimizer l, w, r => by
    intro h
    simp only [asShared] at h
    obtain ⟨a, h1, h2⟩ := bind_ok' h
    cases h2
    simp only [shValues, values]
  | .value n, w, r => by
    intro h
    simp only [asShared, Except.ok.injEq] at h
    subst h
    simp only [shValues, values]
  | .other, w, r => by intro h; simp [asShared] at h
theorem asSharedList_values (t : Dtypes D V) : ∀ (l : List Obj) (w : World D V) (r : List Sh × World D V),
    asSharedList t w l = .ok r → shValuesList r.1 = valuesList l
  | [], w, r => by
    intro h
    simp only [asSharedList, Except.ok.injEq] at h
    subst h
    simp only [shValuesList, valuesList]
  | o :: os, w, r => by
    intro h
    simp only [asSharedList] at h
    obtain ⟨a, h1, h2⟩ := bind_ok' h
    obtain ⟨b, h3, h4⟩ := bind_ok' h2
    cases h4
    simp only [shValuesList, valuesList]
    rw [asShared_values t o w a h1, asSharedList_values t os _ b h3]
end

end Verif.Shared
