import Verif.Model.Eff
set_option autoImplicit false

/-! # Proof rules: code whose calls follow a state machine -/

namespace Verif

/-- A sequence of events allowed by the state machine `N`. -/
inductive Steps {P E : Type} (N : P → E → P → Prop) : P → List E → P → Prop where
  | nil (p : P) : Steps N p [] p
  | cons {p q r : P} {e : E} {es : List E} (h : N p e q) (t : Steps N q es r) : Steps N p (e :: es) r

theorem Steps.append {P E : Type} {N : P → E → P → Prop} {p q r : P} {l1 l2 : List E}
    (h1 : Steps N p l1 q) (h2 : Steps N q l2 r) : Steps N p (l1 ++ l2) r := by
  induction h1 with
  | nil => exact h2
  | cons h t ih => exact .cons h (ih h2)

theorem Steps.single {P E : Type} {N : P → E → P → Prop} {p q : P} {e : E} (h : N p e q) :
    Steps N p [e] q := .cons h (.nil _)

theorem Steps.split {P E : Type} {N : P → E → P → Prop} {p r : P} {l1 l2 : List E}
    (h : Steps N p (l1 ++ l2) r) : ∃ q, Steps N p l1 q ∧ Steps N q l2 r := by
  induction l1 generalizing p with
  | nil => exact ⟨p, .nil _, h⟩
  | cons e l ih =>
    cases h with
    | cons h t =>
      obtain ⟨q, h1, h2⟩ := ih t
      exact ⟨q, .cons h h1, h2⟩

/-- From phase `p` and variables `s`, the calls of `m` follow the machine, and
`m` ends in a phase and with variables as described by `Q` (normal end) or `R`
(exception). -/
def Eff.Hoare {S E X α P : Type} (N : P → E → P → Prop) (m : Eff S E X α) (p : P) (s : S)
    (Q : α → P → S → Prop) (R : X → P → S → Prop) : Prop :=
  ∃ q, Steps N p (m s).1 q ∧
    match (m s).2.2 with
    | .ok a => Q a q (m s).2.1
    | .error e => R e q (m s).2.1

namespace Eff.Hoare
variable {S E X α β P : Type} {N : P → E → P → Prop} {p : P} {s : S}

theorem pure {a : α} {Q : α → P → S → Prop} {R : X → P → S → Prop} (h : Q a p s) :
    Eff.Hoare N (Pure.pure a : Eff S E X α) p s Q R := ⟨p, .nil _, h⟩

theorem bind {m : Eff S E X α} {f : α → Eff S E X β} {Q' : α → P → S → Prop} {Q : β → P → S → Prop}
    {R : X → P → S → Prop} (h1 : Eff.Hoare N m p s Q' R)
    (h2 : ∀ a q s', Q' a q s' → Eff.Hoare N (f a) q s' Q R) :
    Eff.Hoare N (m >>= f) p s Q R := by
  obtain ⟨q, h3, h4⟩ := h1
  show Eff.Hoare N (Eff.bind m f) p s Q R
  unfold Eff.Hoare Eff.bind
  rcases hm : m s with ⟨l, s', r⟩
  rw [hm] at h3 h4
  cases r with
  | error e => exact ⟨q, h3, h4⟩
  | ok a =>
    obtain ⟨q', h5, h6⟩ := h2 a q s' h4
    exact ⟨q', h3.append h5, h6⟩

theorem call {ev : α → E} {r : Except X α} {Q : α → P → S → Prop} {R : X → P → S → Prop}
    (h1 : ∀ a, r = .ok a → ∃ q, N p (ev a) q ∧ Q a q s) (h2 : ∀ e, r = .error e → R e p s) :
    Eff.Hoare N (Eff.call ev r) p s Q R := by
  cases r with
  | ok a =>
    obtain ⟨q, h3, h4⟩ := h1 a rfl
    exact ⟨q, .single h3, h4⟩
  | error e => exact ⟨p, .nil _, h2 e rfl⟩

/-- A call followed by the rest. -/
theorem call_bind {ev : α → E} {r : Except X α} {f : α → Eff S E X β} {Q : β → P → S → Prop}
    {R : X → P → S → Prop}
    (h1 : ∀ a, r = .ok a → ∃ q, N p (ev a) q ∧ Eff.Hoare N (f a) q s Q R)
    (h2 : ∀ e, r = .error e → R e p s) :
    Eff.Hoare N (Eff.call ev r >>= f) p s Q R :=
  bind (Q' := fun a q s' => s' = s ∧ Eff.Hoare N (f a) q s Q R)
    (call (fun a ha => by obtain ⟨q, h3, h4⟩ := h1 a ha; exact ⟨q, h3, rfl, h4⟩) h2)
    (by rintro a q s' ⟨rfl, h⟩; exact h)

theorem get_bind {f : S → Eff S E X β} {Q : β → P → S → Prop} {R : X → P → S → Prop}
    (h : Eff.Hoare N (f s) p s Q R) : Eff.Hoare N (Eff.get >>= f) p s Q R :=
  bind (Q' := fun a q s' => a = s ∧ q = p ∧ s' = s) ⟨p, .nil _, rfl, rfl, rfl⟩
    (by rintro a q s' ⟨rfl, rfl, rfl⟩; exact h)

theorem set_bind {s1 : S} {f : Unit → Eff S E X β} {Q : β → P → S → Prop} {R : X → P → S → Prop}
    (h : Eff.Hoare N (f ()) p s1 Q R) : Eff.Hoare N (Eff.set s1 >>= f) p s Q R :=
  bind (Q' := fun _ q s' => q = p ∧ s' = s1) ⟨p, .nil _, rfl, rfl⟩
    (by rintro a q s' ⟨rfl, rfl⟩; exact h)

theorem mono {m : Eff S E X α} {Q Q' : α → P → S → Prop} {R R' : X → P → S → Prop}
    (h : Eff.Hoare N m p s Q R) (h1 : ∀ a q s, Q a q s → Q' a q s) (h2 : ∀ e q s, R e q s → R' e q s) :
    Eff.Hoare N m p s Q' R' := by
  obtain ⟨q, h3, h4⟩ := h
  refine ⟨q, h3, ?_⟩
  cases hr : (m s).2.2 with
  | ok a => rw [hr] at h4; exact h1 _ _ _ h4
  | error e => rw [hr] at h4; exact h2 _ _ _ h4

theorem forN {f : Nat → Eff S E X Unit} {I : Nat → P → S → Prop} {R : X → P → S → Prop}
    (n i : Nat) (h0 : I i p s)
    (hstep : ∀ j q s, i ≤ j → j < i + n → I j q s → Eff.Hoare N (f j) q s (fun _ q s => I (j + 1) q s) R) :
    Eff.Hoare N (Eff.forN f i n) p s (fun _ q s => I (i + n) q s) R := by
  induction n generalizing i p s with
  | zero => exact pure h0
  | succ n ih =>
    refine bind (m := f i) (hstep i p s (Nat.le_refl _) (by omega) h0) ?_
    intro _ q s' hI
    have := ih (i + 1) hI (fun j q s h1 h2 => hstep j q s (by omega) (by omega))
    rw [show i + 1 + n = i + (n + 1) by omega] at this
    exact this

theorem onError {m : Eff S E X α} {h : Eff S E X Unit} {Q : α → P → S → Prop} {R R' : X → P → S → Prop}
    (h1 : Eff.Hoare N m p s Q R)
    (h2 : ∀ e q s, R e q s → Eff.Hoare N h q s (fun _ q s => R' e q s) R') :
    Eff.Hoare N (Eff.onError m h) p s Q R' := by
  obtain ⟨q, h3, h4⟩ := h1
  unfold Eff.Hoare Eff.onError
  rcases hm : m s with ⟨l, s', r⟩
  rw [hm] at h3 h4
  cases r with
  | ok a => exact ⟨q, h3, h4⟩
  | error e =>
    obtain ⟨q', h5, h6⟩ := h2 e q s' h4
    simp only
    rcases hh : h s' with ⟨l', s'', r'⟩
    rw [hh] at h5 h6
    cases r' with
    | ok _ => exact ⟨q', h3.append h5, h6⟩
    | error e' => exact ⟨q', h3.append h5, h6⟩

end Eff.Hoare
end Verif

namespace Verif
theorem Steps.invariant {P E : Type} {N : P → E → P → Prop} {I : List E → P → Prop} {p q : P} {l : List E}
    (h : Steps N p l q) (h0 : I [] p) (hs : ∀ l q e r, I l q → N q e r → I (l ++ [e]) r) : I l q := by
  have : ∀ (pre : List E), I pre p → I (pre ++ l) q := by
    clear h0
    induction h with
    | nil => intro pre h; simpa using h
    | cons h t ih =>
      intro pre hp
      have := ih (pre ++ [_]) (hs _ _ _ _ hp h)
      simpa using this
  simpa using this [] h0
end Verif

namespace Verif.Eff
variable {S E X α β : Type}

/-! Inversion: what it means that code ended without exception. -/

theorem bind_ok {m : Eff S E X α} {f : α → Eff S E X β} {s s' : S} {ev : List E} {b : β}
    (h : (m >>= f) s = (ev, s', .ok b)) :
    ∃ ev1 s1 a ev2, m s = (ev1, s1, .ok a) ∧ f a s1 = (ev2, s', .ok b) ∧ ev = ev1 ++ ev2 := by
  change Eff.bind m f s = _ at h
  unfold Eff.bind at h
  rcases hm : m s with ⟨l, s1, r⟩
  rw [hm] at h
  cases r with
  | error e => simp at h
  | ok a =>
    simp only [Prod.mk.injEq] at h
    exact ⟨l, s1, a, (f a s1).1, rfl, by rw [← h.2.1, ← h.2.2], h.1.symm⟩

theorem pure_ok {a b : α} {s s' : S} {ev : List E}
    (h : (Pure.pure a : Eff S E X α) s = (ev, s', .ok b)) : ev = [] ∧ s' = s ∧ b = a := by
  change (([] : List E), s, Except.ok a) = (ev, s', Except.ok b) at h
  simp only [Prod.mk.injEq, Except.ok.injEq] at h
  exact ⟨h.1.symm, h.2.1.symm, h.2.2.symm⟩

theorem call_ok {g : α → E} {r : Except X α} {s s' : S} {ev : List E} {b : α}
    (h : Eff.call g r s = (ev, s', .ok b)) : r = .ok b ∧ ev = [g b] ∧ s' = s := by
  unfold Eff.call at h
  cases r with
  | error e => simp at h
  | ok a =>
    simp only [Prod.mk.injEq, Except.ok.injEq] at h
    obtain ⟨h1, h2, rfl⟩ := h
    exact ⟨rfl, h1.symm, h2.symm⟩

end Verif.Eff
