import Verif.Proofs.Noisy

/-!
C86: conversion of a network to a noisy network.

`C86_convert`: on a network in which no link occurs twice, `to_factorized_noisy` replaces every
linear child link, at any depth, by a noisy layer of the same size, and changes nothing else.
`C86_count`: there are as many noisy layers as there were linear links and no bare linear link is
left.  The violated theorems are about networks with sharing, a second conversion, a linear link
as the whole network, and the weights of the given links.
-/

set_option autoImplicit false
set_option linter.unusedSectionVars false

namespace Verif.Noisy

/-- **C86.** The conversion of a network without sharing succeeds.  The root and all links that are
not linear stay the same objects, with the same names and places of their children and, in a
`Sequence`, the same places of functions and links; every linear child is replaced by a noisy layer of
its size made of new links, no two of which are the same object; no other object changes. -/
theorem C86_convert (limit : Nat) (h : H) (t : Tree) (hr : Rep h t) (hn : t.ids.Nodup) (ho : ∀ j ∈ t.ids, j < h.next)
    (hd : t.depth ≤ limit) :
    ∃ h' t', toFactorizedNoisy limit h t.root = .ok h' ∧ Rep h' t' ∧ Conv h.next t t' ∧ t'.ids.Nodup ∧
      (∀ j ∈ t'.ids, j ∈ t.ids ∨ h.next ≤ j) ∧ (∀ j, j < h.next → j ∉ t.ids → h'.node j = h.node j) := by
  obtain ⟨h', u, h1, h2, h3⟩ := mapLinks_works limit h t hd ⟨hr, hn, ho⟩
  refine ⟨h', u, h1, h2.rep, h3, h2.nodup, fun j hj => ?_, h2.frame.2⟩
  rcases h2.ids j hj with h4 | h4
  · exact .inl h4
  · exact .inr h4.1

mutual
theorem count_conv (n : Nat) : ∀ t t' : Tree, Conv n t t' → t.linear? = none → t.noisies = 0 →
    t'.bare = 0 ∧ t'.noisies = t.bare
  | .leaf i nd, t', hc, hl, _ => by
    simp only [Conv] at hc
    subst hc
    cases nd with
    | linear s w => simp [Tree.linear?] at hl
    | _ => simp [Tree.bare, Tree.noisies]
  | .chain i cls names ts, t', hc, _, hz => by
    simp only [Conv] at hc
    obtain ⟨ts', rfl, hs⟩ := hc
    cases cls with
    | noisy => simp [Tree.noisies] at hz
    | plain tag =>
      simp only [Tree.noisies] at hz
      simpa only [Tree.bare, Tree.noisies] using count_slots n ts ts' hs hz
  | .list i shape ts, t', hc, _, hz => by
    simp only [Conv] at hc
    obtain ⟨ts', rfl, hs⟩ := hc
    simp only [Tree.noisies] at hz
    simpa only [Tree.bare, Tree.noisies] using count_slots n ts ts' hs hz
theorem count_slots (n : Nat) : ∀ ts ts' : List Tree, Slots n ts ts' → noisiess ts = 0 →
    bares ts' = 0 ∧ noisiess ts' = bares ts
  | [], ts', hs, _ => by
    simp only [Slots] at hs
    subst hs
    simp [bares, noisiess]
  | t :: ts, ts', hs, hz => by
    simp only [Slots] at hs
    obtain ⟨u, us, rfl, hu, hs⟩ := hs
    simp only [noisiess] at hz
    have ih := count_slots n ts us hs (by omega)
    simp only [bares, noisiess]
    cases hl : t.linear? with
    | none =>
      have := count_conv n t u (hu.2 hl) hl (by omega)
      omega
    | some s =>
      obtain ⟨j, a, b, wa, wb, rfl, _⟩ := hu.1 s hl
      have : t.bare = 1 := by
        cases t with
        | leaf i nd =>
          cases nd with
          | linear s' w => rfl
          | _ => simp [Tree.linear?] at hl
        | _ => simp [Tree.linear?] at hl
      simp only [Tree.bare, Tree.noisies]
      omega
end

/-- **C86.** If the network is not itself a linear link and has no noisy layers yet, then
afterwards no linear link outside of noisy layers is left, and there is one noisy layer for each linear
link there was. -/
theorem C86_count (limit : Nat) (h : H) (t : Tree) (hr : Rep h t) (hn : t.ids.Nodup) (ho : ∀ j ∈ t.ids, j < h.next)
    (hd : t.depth ≤ limit) (hl : t.linear? = none) (hz : t.noisies = 0) :
    ∃ h' t', toFactorizedNoisy limit h t.root = .ok h' ∧ Rep h' t' ∧ t'.bare = 0 ∧ t'.noisies = t.bare := by
  obtain ⟨h', t', h1, h2, h3, _⟩ := C86_convert limit h t hr hn ho hd
  exact ⟨h', t', h1, h2, count_conv _ t t' h3 hl hz⟩

/-- **C86.** A noisy layer that was made by the conversion can be called. -/
theorem C86_callable (h : H) (new : Nat) (s : Size) (t : Tree) (hr : Rep h t) (ht : IsNoisy new s t) :
    noisyCall h t.root = .ok (s, s) := by
  obtain ⟨j, a, b, wa, wb, rfl, _⟩ := ht
  simp only [Rep, Reps] at hr
  obtain ⟨r1, _, _, r2, r3, _⟩ := hr
  simp only [noisyCall, H.child, Tree.root, r1]
  simp [bind, Except.bind, List.lookup, r2.1, r3.1, Tree.root]

/-- **C86 (violated).** A linear link that is the whole network is not made noisy: nothing happens. -/
theorem C86_violated_root (limit : Nat) (h : H) (i : Nat) (s : Size) (w : Nat) (hi : h.node i = some (.linear s w)) :
    toFactorizedNoisy (limit + 1) h i = .ok h := by
  simp only [toFactorizedNoisy, mapLinks, hi]

/-- **C86 (violated).** The given link does not compute the mean: the weights of a linear child are
not used by the layer that replaces it. -/
theorem C86_violated_mean (h : H) (s : Size) (w i : Nat) (hi : h.node i = some (.linear s w)) (hw : w < h.next) :
    let r := func h i
    ∀ c, (r.1.child r.2 "mu") = .ok c → r.1.node c ≠ some (.linear s w) := by
  intro r c
  have hr : r = newNoisy h s := by simp only [r, func, hi]
  rw [hr]
  have hc : (newNoisy h s).1.child (newNoisy h s).2 "mu" = .ok h.next := by
    simp [newNoisy, H.child, H.put, List.lookup]
  rw [hc]
  intro e
  cases e
  have hn : (newNoisy h s).1.node h.next = some (.linear s h.next) := by
    simp [newNoisy, H.put]
  rw [hn]
  intro e
  simp only [Option.some.injEq, Node.linear.injEq] at e
  omega

/-- **C86 (violated).** A linear link used under two names of a chain is replaced by two different
noisy layers: it is no longer shared. -/
theorem C86_violated_sharing (limit : Nat) (h : H) (r i : Nat) (a b : String) (s : Size) (w tag : Nat) (hab : a ≠ b)
    (hr : h.node r = some (.chain (.plain tag) [(a, i), (b, i)])) (hi : h.node i = some (.linear s w))
    (hrn : r < h.next) (hin : i < h.next) (hri : r ≠ i) :
    ∃ h' x y, toFactorizedNoisy (limit + 1) h r = .ok h' ∧ h'.child r a = .ok x ∧ h'.child r b = .ok y ∧ x ≠ y := by
  have e1 : h.next + 2 ≠ i := by omega
  have e2 : h.next + 3 + 2 ≠ i := by omega
  refine ⟨(newNoisy ((newNoisy h s).1.put r (.chain (.plain tag) [(a, h.next + 2), (b, i)])) s).1.setChild r b (h.next + 3 + 2),
    h.next + 2, h.next + 3 + 2, ?_, ?_, ?_, by omega⟩
  · simp only [toFactorizedNoisy, mapLinks, hr, List.map_cons, List.map_nil, mapChain]
    have c1 : h.child r a = .ok i := by simp [H.child, hr, List.lookup]
    have f1 : func h i = newNoisy h s := by simp only [func, hi]
    simp only [c1, bind, Except.bind, f1]
    have n1 : (newNoisy h s).2 = h.next + 2 := rfl
    rw [n1, if_neg e1]
    have hr1 : (newNoisy h s).1.node r = some (.chain (.plain tag) [(a, i), (b, i)]) := by
      rw [(newNoisy_ok h s).2.2.1.2 r hrn (by simp), hr]
    have hi1 : (newNoisy h s).1.node i = some (.linear s w) := by
      rw [(newNoisy_ok h s).2.2.1.2 i hin (by simp), hi]
    have s1 : (newNoisy h s).1.setChild r a (h.next + 2) =
        (newNoisy h s).1.put r (.chain (.plain tag) [(a, h.next + 2), (b, i)]) := by
      simp [H.setChild, hr1, Ne.symm hab]
    rw [s1]
    have c2 : ((newNoisy h s).1.put r (.chain (.plain tag) [(a, h.next + 2), (b, i)])).child r b = .ok i := by
      simp [H.child, put_same, List.lookup, beq_eq_false_iff_ne.mpr (Ne.symm hab)]
    rw [c2]
    have f2 : func ((newNoisy h s).1.put r (.chain (.plain tag) [(a, h.next + 2), (b, i)])) i =
        newNoisy ((newNoisy h s).1.put r (.chain (.plain tag) [(a, h.next + 2), (b, i)])) s := by
      simp only [func, put_other _ _ _ _ (Ne.symm hri), hi1]
    simp only [f2]
    rw [show (newNoisy ((newNoisy h s).1.put r (.chain (.plain tag) [(a, h.next + 2), (b, i)])) s).2 = h.next + 3 + 2 from rfl,
      if_neg e2]
  · have hr2 : (newNoisy ((newNoisy h s).1.put r (.chain (.plain tag) [(a, h.next + 2), (b, i)])) s).1.node r =
        some (.chain (.plain tag) [(a, h.next + 2), (b, i)]) := by
      rw [(newNoisy_ok _ s).2.2.1.2 r (by show r < h.next + 3; omega) (by simp), put_same]
    simp [H.setChild, hr2, H.child, put_same, List.lookup, hab]
  · have hr2 : (newNoisy ((newNoisy h s).1.put r (.chain (.plain tag) [(a, h.next + 2), (b, i)])) s).1.node r =
        some (.chain (.plain tag) [(a, h.next + 2), (b, i)]) := by
      rw [(newNoisy_ok _ s).2.2.1.2 r (by show r < h.next + 3; omega) (by simp), put_same]
    simp [H.setChild, hr2, H.child, put_same, List.lookup, hab, beq_eq_false_iff_ne.mpr (Ne.symm hab)]

/-- **C86 (violated).** A `Sequence` that uses a linear layer twice cannot be converted. -/
theorem C86_violated_sequence (limit : Nat) (h : H) (r i : Nat) (s : Size) (w : Nat) (p q u : List Item)
    (rest : List Nat) (hr : h.node r = some (.list (some (p ++ .link i :: q ++ .link i :: u)) (i :: rest)))
    (hi : h.node i = some (.linear s w)) (hrn : r < h.next) (hin : i < h.next) :
    toFactorizedNoisy (limit + 1) h r = .error .assertionError := by
  simp only [toFactorizedNoisy, mapLinks, hr]
  rw [List.length_cons, List.range_succ_eq_map, mapList]
  have c1 : pyGet (h.listChildren r) ((0 : Nat) : Int) = .ok i := by
    simp [H.listChildren, hr, pyGet, pyIndex]
  have f1 : func h i = newNoisy h s := by simp only [func, hi]
  simp only [c1, bind, Except.bind, f1]
  rw [if_neg (show (newNoisy h s).2 ≠ i from by show h.next + 2 ≠ i; omega)]
  have hr1 : (newNoisy h s).1.layers r = some (p ++ .link i :: q ++ .link i :: u) := by
    unfold H.layers
    rw [(newNoisy_ok h s).2.2.1.2 r hrn (by simp), hr]
  rw [hr1]
  have hlen : ((((p ++ Item.link i :: q ++ Item.link i :: u).zipIdx.filter fun e => decide (e.1 = Item.link i)).map (·.2)).length = 1) →
      False := by
    intro hl
    rw [List.zipIdx_append, List.zipIdx_append, List.filter_append, List.filter_append, List.zipIdx_cons, List.zipIdx_cons,
      List.filter_cons_of_pos (by simp), List.filter_cons_of_pos (by simp)] at hl
    simp at hl
    omega
  have : replaceLayers (some (p ++ .link i :: q ++ .link i :: u)) i (newNoisy h s).2 = .error .assertionError := by
    simp only [replaceLayers, replaceUnique, pyAssert]
    rw [if_neg (by simpa using hlen)]
    rfl
  rw [this]

/-- A noisy layer whose inner links have been made noisy as well cannot be called. -/
theorem broken_call {h : H} {n : Nat} {s : Size} {t u : Tree} (hr : Rep h u) (ht : IsNoisy n s t) (m : Nat)
    (hc : Conv m t u) : noisyCall h u.root = .error .attributeError := by
  obtain ⟨j, a, b, wa, wb, rfl, _⟩ := ht
  simp only [Conv, Slots] at hc
  obtain ⟨ts', rfl, v, vs, rfl, hv, v2, vs2, rfl, hv2, rfl⟩ := hc
  obtain ⟨j1, a1, b1, wa1, wb1, rfl, _⟩ := hv.1 s rfl
  obtain ⟨j2, a2, b2, wa2, wb2, rfl, _⟩ := hv2.1 s rfl
  simp only [Rep, Reps] at hr
  obtain ⟨r1, _, _, r2, r3, _⟩ := hr
  simp only [noisyCall, H.child, Tree.root, r1]
  simp [bind, Except.bind, List.lookup, r2.1, r3.1, Tree.root]

mutual
theorem conv_depth {n : Nat} : ∀ t u : Tree, Conv n t u → u.depth ≤ t.depth + 1
  | .leaf i nd, u, h => by
    simp only [Conv] at h
    subst h
    simp [Tree.depth]
  | .chain i cls names ts, u, h => by
    simp only [Conv] at h
    obtain ⟨us, rfl, hs⟩ := h
    have := slots_depth ts us hs
    simp only [Tree.depth]
    omega
  | .list i shape ts, u, h => by
    simp only [Conv] at h
    obtain ⟨us, rfl, hs⟩ := h
    have := slots_depth ts us hs
    simp only [Tree.depth]
    omega
theorem slots_depth {n : Nat} : ∀ ts us : List Tree, Slots n ts us → depths us ≤ depths ts + 1
  | [], us, h => by simp only [Slots] at h; subst h; simp [depths]
  | t :: ts, us, h => by
    simp only [Slots] at h
    obtain ⟨u, vs, rfl, hu, hs⟩ := h
    have ih := slots_depth ts vs hs
    simp only [depths]
    have : u.depth ≤ t.depth + 1 := by
      cases hl : t.linear? with
      | none => exact conv_depth t u (hu.2 hl)
      | some s =>
        obtain ⟨j, a, b, wa, wb, rfl, _⟩ := hu.1 s hl
        cases t <;> simp [Tree.depth, depths]
    omega
end

theorem slots_get {n : Nat} : ∀ (ts us : List Tree) (k : Nat) (t : Tree), Slots n ts us → ts[k]? = some t →
    ∃ u, us[k]? = some u ∧ (∀ s, t.linear? = some s → IsNoisy n s u) ∧ (t.linear? = none → Conv n t u)
  | [], _, _, _, _, h => by simp at h
  | t :: ts, us, k, x, h, hk => by
    simp only [Slots] at h
    obtain ⟨u, vs, rfl, hu, hs⟩ := h
    cases k with
    | zero =>
      simp only [List.getElem?_cons_zero, Option.some.injEq] at hk
      subst hk
      exact ⟨u, rfl, hu⟩
    | succ k => exact slots_get ts vs k x hs (by simpa using hk)

theorem reps_get (h : H) : ∀ (ts : List Tree) (k : Nat) (t : Tree), Reps h ts → ts[k]? = some t → Rep h t
  | [], _, _, _, hk => by simp at hk
  | t :: ts, k, x, hr, hk => by
    simp only [Reps] at hr
    cases k with
    | zero =>
      simp only [List.getElem?_cons_zero, Option.some.injEq] at hk
      subst hk
      exact hr.1
    | succ k => exact reps_get h ts k x hr.2 (by simpa using hk)

theorem child_get {h : H} {i : Nat} {cls : Cls} {names : List String} {ts : List Tree} (hr : Rep h (.chain i cls names ts))
    {k : Nat} {name : String} {t : Tree} (hn : names[k]? = some name) (ht : ts[k]? = some t) :
    h.child i name = .ok t.root := by
  simp only [Rep] at hr
  obtain ⟨r1, r2, r3, _⟩ := hr
  obtain ⟨hk, hn⟩ := List.getElem?_eq_some_iff.mp hn
  obtain ⟨hk', ht⟩ := List.getElem?_eq_some_iff.mp ht
  have e1 : names = names.take k ++ name :: names.drop (k + 1) := by
    rw [← hn, List.getElem_cons_drop, List.take_append_drop]
  have e2 : ts = ts.take k ++ t :: ts.drop (k + 1) := by
    rw [← ht, List.getElem_cons_drop, List.take_append_drop]
  unfold H.child
  rw [r1]
  simp only
  rw [e1, e2, List.map_append, List.map_cons, lookup_zip]
  · simp; omega
  · intro hin
    rw [e1] at r2
    simp only [List.nodup_append, List.nodup_cons] at r2
    exact r2.2.2 name hin name (by simp) rfl

/-- **C86 (violated).** Converting a network a second time breaks it: a noisy layer that replaced a
linear child of the root can be called after the first conversion, and raises after the
second. -/
theorem C86_violated_twice (limit : Nat) (h : H) (i tag : Nat) (names : List String) (ts : List Tree)
    (hr : Rep h (.chain i (.plain tag) names ts)) (hn : (Tree.chain i (.plain tag) names ts).ids.Nodup)
    (ho : ∀ j ∈ (Tree.chain i (.plain tag) names ts).ids, j < h.next)
    (hd : (Tree.chain i (.plain tag) names ts).depth + 1 ≤ limit) (k : Nat) (name : String) (l : Tree) (s : Size)
    (hname : names[k]? = some name) (hk : ts[k]? = some l) (hl : l.linear? = some s) :
    ∃ h1 h2 c, toFactorizedNoisy limit h i = .ok h1 ∧ h1.child i name = .ok c ∧ noisyCall h1 c = .ok (s, s) ∧
      toFactorizedNoisy limit h1 i = .ok h2 ∧ h2.child i name = .ok c ∧ noisyCall h2 c = .error .attributeError ∧
      ∀ j, j < h.next → j ∉ (Tree.chain i (.plain tag) names ts).ids → h2.node j = h.node j := by
  obtain ⟨h1, u, g1, g2, g3⟩ := mapLinks_works limit h _ (by omega) ⟨hr, hn, ho⟩
  have hdu := conv_depth _ _ g3
  have g3' := g3
  simp only [Conv] at g3
  obtain ⟨us, rfl, hs⟩ := g3
  have hold : ∀ j ∈ (Tree.chain i (.plain tag) names us).ids, j < h1.next := by
    intro j hj
    rcases g2.ids j hj with h4 | h4
    · exact Nat.lt_of_lt_of_le (ho j h4) g2.frame.1
    · exact h4.2
  obtain ⟨h2, v, k1, k2, k3⟩ := mapLinks_works limit h1 _ (by omega) ⟨g2.rep, g2.nodup, hold⟩
  simp only [Conv] at k3
  obtain ⟨vs, rfl, hs2⟩ := k3
  obtain ⟨x, hx, hx1, _⟩ := slots_get ts us k l hs hk
  have hnoisy := hx1 s hl
  obtain ⟨y, hy, _, hy2⟩ := slots_get us vs k x hs2 hx
  have hxl : x.linear? = none := by
    obtain ⟨j, a, b, wa, wb, rfl, _⟩ := hnoisy
    rfl
  have hconv := hy2 hxl
  have rx : Rep h1 x := by
    have := g2.rep
    simp only [Rep] at this
    exact reps_get h1 us k x this.2.2.2 hx
  have ry : Rep h2 y := by
    have := k2.rep
    simp only [Rep] at this
    exact reps_get h2 vs k y this.2.2.2 hy
  refine ⟨h1, h2, x.root, g1, child_get g2.rep hname hx, C86_callable h1 _ s x rx hnoisy, k1, ?_, ?_, ?_⟩
  · rw [child_get k2.rep hname hy, Conv_root hconv]
  · rw [← Conv_root hconv]
    exact broken_call ry hnoisy _ hconv
  · intro j hj hj2
    rw [k2.frame.2 j (Nat.lt_of_lt_of_le hj g2.frame.1), g2.frame.2 j hj hj2]
    intro hj3
    rcases g2.ids j hj3 with h4 | h4
    · exact hj2 h4
    · omega

/-- **C86 (violated).** A sub-network used under two names is converted twice, so that its
noisy layers cannot be called. -/
theorem C86_violated_shared_chain (limit : Nat) (h : H) (r i tag tag' : Nat) (a b : String) (names : List String)
    (ts : List Tree) (hab : a ≠ b) (hroot : h.node r = some (.chain (.plain tag') [(a, i), (b, i)])) (hrn : r < h.next)
    (hr : Rep h (.chain i (.plain tag) names ts)) (hn : (Tree.chain i (.plain tag) names ts).ids.Nodup)
    (ho : ∀ j ∈ (Tree.chain i (.plain tag) names ts).ids, j < h.next) (hri : r ∉ (Tree.chain i (.plain tag) names ts).ids)
    (hd : (Tree.chain i (.plain tag) names ts).depth + 1 ≤ limit) (k : Nat) (name : String) (l : Tree) (s : Size)
    (hname : names[k]? = some name) (hk : ts[k]? = some l) (hl : l.linear? = some s) :
    ∃ h2 c, toFactorizedNoisy (limit + 1) h r = .ok h2 ∧ h2.child i name = .ok c ∧
      noisyCall h2 c = .error .attributeError := by
  obtain ⟨h1, h2, c, g1, g2, g3, g4, g5, g6, g7⟩ :=
    C86_violated_twice limit h i tag names ts hr hn ho hd k name l s hname hk hl
  obtain ⟨h1', t', k1, _, k3, _, k4, k5⟩ := C86_convert limit h _ hr hn ho (by omega)
  have hh : h1' = h1 := by
    have e : toFactorizedNoisy limit h i = .ok h1' := k1
    rw [g1] at e
    cases e; rfl
  subst hh
  refine ⟨h2, c, ?_, g5, g6⟩
  have hi : h.node i = some (.chain (.plain tag) (names.zip (ts.map Tree.root))) := by
    simp only [Rep] at hr; exact hr.1
  have f1 : func h i = (h, i) := by simp only [func, hi]
  have c1 : h.child r a = .ok i := by simp [H.child, hroot, List.lookup]
  have hroot1 : h1'.node r = some (.chain (.plain tag') [(a, i), (b, i)]) := by
    rw [k5 r hrn hri, hroot]
  have c2 : h1'.child r b = .ok i := by
    simp [H.child, hroot1, List.lookup, beq_eq_false_iff_ne.mpr (Ne.symm hab)]
  have f2 : func h1' i = (h1', i) := by
    simp only [Conv] at k3
    obtain ⟨us, rfl, _⟩ := k3
    have hrep : Rep h1' (.chain i (.plain tag) names us) := by assumption
    simp only [Rep] at hrep
    simp only [func, hrep.1]
  have e1 : mapLinks limit h i = .ok h1' := g1
  have e2 : mapLinks limit h1' i = .ok h2 := g4
  simp only [toFactorizedNoisy, mapLinks, hroot, List.map_cons, List.map_nil, mapChain, c1, bind, Except.bind, f1, if_true,
    e1, c2, f2, e2]

/-! ### Examples -/

/-- An MLP: a chain (0) with a list of hidden layers (1), which holds two linear links (2, 3), and
an output layer (4); the list is a `Sequence` with functions between the links. -/
def exT : Tree := .chain 0 (.plain 7) ["hidden", "out"]
  [.list 1 (some [none, some 50, none, some 50]) [.leaf 2 (.linear ⟨some 3, 8, true⟩ 2), .leaf 3 (.linear ⟨none, 8, true⟩ 3)],
   .leaf 4 (.linear ⟨some 8, 2, false⟩ 4)]

def exH : H where
  node j := [Node.chain (.plain 7) [("hidden", 1), ("out", 4)],
    .list (some [.link 2, .fn 50, .link 3, .fn 50]) [2, 3], .linear ⟨some 3, 8, true⟩ 2, .linear ⟨none, 8, true⟩ 3,
    .linear ⟨some 8, 2, false⟩ 4][j]?
  next := 5

/-- The hypotheses of `C86_count` hold; three noisy layers are made. -/
example : ∃ h' t', toFactorizedNoisy 10 exH 0 = .ok h' ∧ Rep h' t' ∧ t'.bare = 0 ∧ t'.noisies = 3 := by
  refine C86_count 10 exH exT ?_ (by decide) ?_ (by decide) rfl rfl
  · simp [exT, exH, Rep, Reps, Tree.root, fill, Node.childless]
  · intro j hj
    simp [exT, Tree.ids, idss] at hj
    show j < 5
    omega

/-- The layers of the `Sequence` after the conversion: the functions are where they were. -/
example : (toFactorizedNoisy 10 exH 0).toOption.map (fun h => h.layers 1) =
    some (some [.link 7, .fn 50, .link 10, .fn 50]) := rfl

/-- After the second conversion of `exH` the output layer cannot be called. -/
example : ∃ h1 h2 c, toFactorizedNoisy 10 exH 0 = .ok h1 ∧ h1.child 0 "out" = .ok c ∧
    noisyCall h1 c = .ok (⟨some 8, 2, false⟩, ⟨some 8, 2, false⟩) ∧ toFactorizedNoisy 10 h1 0 = .ok h2 ∧
    noisyCall h2 c = .error .attributeError :=
  ⟨_, _, _, rfl, rfl, rfl, rfl, rfl⟩

/-- A chain that uses linear link 1 as `a` and `b`. -/
example : ∃ h' x y, toFactorizedNoisy 10 ⟨fun j => [Node.chain (.plain 0) [("a", 1), ("b", 1)], .linear ⟨none, 2, true⟩ 1][j]?, 2⟩ 0 =
    .ok h' ∧ h'.child 0 "a" = .ok x ∧ h'.child 0 "b" = .ok y ∧ x ≠ y :=
  C86_violated_sharing 9 _ 0 1 "a" "b" ⟨none, 2, true⟩ 1 0 (by decide) rfl rfl (by decide) (by decide) (by decide)

end Verif.Noisy
