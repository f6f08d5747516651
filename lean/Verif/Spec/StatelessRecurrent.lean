import Verif.Model.StatelessRecurrent
set_option autoImplicit false

/-! # Specification: recurrent state surgery (C60) -/

namespace Verif.Stateless
variable {K : Type} [MulZeroOneClass K]

/-- The link is recurrent. -/
def Link.Rec : Link → Prop
  | .plain => False
  | _ => True

mutual
/-- A state of one sequence, fitting the link; `None` is allowed anywhere. -/
inductive IsSingle : Link → RS K → Prop
  | none (l : Link) : l.Rec → IsSingle l .none
  | lstm {n : Nat} {h c : List K} : h.length = n → c.length = n → IsSingle (.lstm n) (.lstm (.single h) (.single c))
  | gru {n : Nat} {h : List K} : h.length = n → IsSingle (.gru n) (.gru (.single h))
  | chain {ls : List Link} {ss : List (RS K)} : IsSingles ls ss → IsSingle (.chain ls) (.list ss)
/-- States of the recurrent children, in order. -/
inductive IsSingles : List Link → List (RS K) → Prop
  | nil : IsSingles [] []
  | skip {ls : List Link} {ss : List (RS K)} : IsSingles ls ss → IsSingles (.plain :: ls) ss
  | cons {l : Link} {ls : List Link} {s : RS K} {ss : List (RS K)} : l.Rec → IsSingle l s → IsSingles ls ss →
      IsSingles (l :: ls) (s :: ss)
end

mutual
/-- A batched state of `B` sequences, fitting the link. -/
inductive IsBatch (B : Nat) : Link → RS K → Prop
  | none (l : Link) : l.Rec → IsBatch B l .none
  | lstm {n : Nat} {h c : List (List K)} : h.length = B → c.length = B → (∀ r ∈ h, r.length = n) →
      (∀ r ∈ c, r.length = n) → IsBatch B (.lstm n) (.lstm (.batch h) (.batch c))
  | gru {n : Nat} {h : List (List K)} : h.length = B → (∀ r ∈ h, r.length = n) →
      IsBatch B (.gru n) (.gru (.batch h))
  | chain {ls : List Link} {ss : List (RS K)} : IsBatches B ls ss → IsBatch B (.chain ls) (.list ss)
/-- Batched states of the recurrent children, in order. -/
inductive IsBatches (B : Nat) : List Link → List (RS K) → Prop
  | nil : IsBatches B [] []
  | skip {ls : List Link} {ss : List (RS K)} : IsBatches B ls ss → IsBatches B (.plain :: ls) ss
  | cons {l : Link} {ls : List Link} {s : RS K} {ss : List (RS K)} : l.Rec → IsBatch B l s → IsBatches B ls ss →
      IsBatches B (l :: ls) (s :: ss)
end

mutual
/-- A state of one sequence with every `None` written out as zeros. -/
def fill : Link → RS K → RS K
  | .lstm n, .none => .lstm (.single (List.replicate n 0)) (.single (List.replicate n 0))
  | .gru n, .none => .gru (.single (List.replicate n 0))
  | .chain ls, .none => .list (initials ls)
  | .chain ls, .list ss => .list (fills ls ss)
  | _, s => s
/-- The same for the recurrent children. -/
def fills : List Link → List (RS K) → List (RS K)
  | .plain :: ls, ss => fills ls ss
  | l :: ls, s :: ss => fill l s :: fills ls ss
  | _, _ => []
/-- The initial states of the recurrent children. -/
def initials : List Link → List (RS K)
  | [] => []
  | .plain :: ls => initials ls
  | .lstm n :: ls => .lstm (.single (List.replicate n 0)) (.single (List.replicate n 0)) :: initials ls
  | .gru n :: ls => .gru (.single (List.replicate n 0)) :: initials ls
  | .chain cs :: ls => .list (initials cs) :: initials ls
end

/-- The initial state of one sequence: all zeros. -/
def initial (l : Link) : RS K := fill l .none

end Verif.Stateless
