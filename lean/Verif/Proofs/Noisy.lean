import Mathlib.Data.List.Nodup
import Mathlib.Data.List.Basic
import Mathlib.Tactic.Common
import Verif.Spec.Noisy

set_option autoImplicit false
set_option linter.unusedSectionVars false
set_option linter.unusedVariables false

namespace Verif.Noisy

theorem put_same (h : H) (i : Nat) (n : Node) : (h.put i n).node i = some n := by simp [H.put]

theorem put_other (h : H) (i j : Nat) (n : Node) (hj : j ≠ i) : (h.put i n).node j = h.node j := by
  simp [H.put, hj]

theorem put_next (h : H) (i : Nat) (n : Node) : (h.put i n).next = h.next := rfl

theorem root_mem : ∀ t : Tree, t.root ∈ t.ids
  | .leaf i n => by simp [Tree.root, Tree.ids]
  | .chain i _ _ _ => by simp [Tree.root, Tree.ids]
  | .list i _ _ => by simp [Tree.root, Tree.ids]

mutual
theorem Rep_frame {h h' : H} : ∀ (t : Tree), Rep h t → (∀ j ∈ t.ids, h'.node j = h.node j) → Rep h' t
  | .leaf i n, hr, hf => by
    simp only [Rep, Tree.ids, List.mem_singleton, forall_eq] at *
    exact ⟨hf.trans hr.1, hr.2⟩
  | .chain i cls names ts, hr, hf => by
    simp only [Rep, Tree.ids, List.mem_cons, forall_eq_or_imp] at *
    exact ⟨hf.1.trans hr.1, hr.2.1, hr.2.2.1, Reps_frame ts hr.2.2.2 hf.2⟩
  | .list i shape ts, hr, hf => by
    simp only [Rep, Tree.ids, List.mem_cons, forall_eq_or_imp] at *
    exact ⟨hf.1.trans hr.1, hr.2.1, Reps_frame ts hr.2.2 hf.2⟩
theorem Reps_frame {h h' : H} : ∀ (ts : List Tree), Reps h ts → (∀ j ∈ idss ts, h'.node j = h.node j) → Reps h' ts
  | [], _, _ => by simp [Reps]
  | t :: ts, hr, hf => by
    simp only [Reps, idss, List.mem_append] at *
    exact ⟨Rep_frame t hr.1 fun j hj => hf j (.inl hj), Reps_frame ts hr.2 fun j hj => hf j (.inr hj)⟩
end

theorem Reps_append (h : H) : ∀ (ts us : List Tree), Reps h (ts ++ us) ↔ Reps h ts ∧ Reps h us
  | [], us => by simp [Reps]
  | t :: ts, us => by simp only [List.cons_append, Reps, Reps_append h ts us, and_assoc]

theorem idss_append : ∀ (ts us : List Tree), idss (ts ++ us) = idss ts ++ idss us
  | [], us => rfl
  | t :: ts, us => by simp only [List.cons_append, idss, idss_append ts us, List.append_assoc]

/-- Only links in `S` have changed, and identities have only been added. -/
def Frame (h h' : H) (S : List Nat) : Prop := h.next ≤ h'.next ∧ ∀ j, j < h.next → j ∉ S → h'.node j = h.node j

theorem Frame.trans {h h1 h2 : H} {S T U : List Nat} (f : Frame h h1 S) (g : Frame h1 h2 T)
    (hs : ∀ j ∈ S, j ∈ U) (ht : ∀ j ∈ T, j < h.next → j ∈ U) : Frame h h2 U := by
  refine ⟨Nat.le_trans f.1 g.1, fun j hj hU => ?_⟩
  rw [g.2 j (Nat.lt_of_lt_of_le hj f.1) (fun hT => hU (ht j hT hj)), f.2 j hj (fun hS => hU (hs j hS))]

/-- The noisy layer that is made. -/
def noisyTree (n : Nat) (s : Size) : Tree :=
  .chain (n + 2) .noisy ["mu", "sigma"] [.leaf n (.linear s n), .leaf (n + 1) (.linear s (n + 1))]

theorem newNoisy_ok (h : H) (s : Size) :
    (newNoisy h s).2 = (noisyTree h.next s).root ∧ Rep (newNoisy h s).1 (noisyTree h.next s) ∧
    Frame h (newNoisy h s).1 [] ∧ IsNoisy h.next s (noisyTree h.next s) ∧
    (newNoisy h s).1.next = h.next + 3 ∧ (noisyTree h.next s).ids = [h.next + 2, h.next, h.next + 1] := by
  refine ⟨rfl, ?_, ⟨?_, ?_⟩, ?_, rfl, rfl⟩
  · simp [noisyTree, Rep, Reps, newNoisy, H.put, Node.childless, Tree.root]
  · simp [newNoisy]
  · intro j hj _
    simp only [newNoisy, H.put]
    rw [if_neg (by omega), if_neg (by omega), if_neg (by omega)]
  · exact ⟨_, _, _, _, _, rfl, by omega, by omega, by omega, by omega, by omega⟩

theorem func_linear {h : H} {t : Tree} {s : Size} (hr : Rep h t) (hl : t.linear? = some s) :
    func h t.root = newNoisy h s := by
  cases t with
  | leaf i n =>
    cases n with
    | linear s' w =>
      simp only [Tree.linear?, Option.some.injEq] at hl
      subst hl
      simp only [Rep] at hr
      simp only [func, Tree.root, hr.1]
    | _ => simp [Tree.linear?] at hl
  | _ => simp [Tree.linear?] at hl

theorem func_other {h : H} {t : Tree} (hr : Rep h t) (hl : t.linear? = none) : func h t.root = (h, t.root) := by
  cases t with
  | leaf i n =>
    cases n with
    | linear s' w => simp [Tree.linear?] at hl
    | _ => simp only [Rep] at hr; simp only [func, Tree.root, hr.1]
  | chain i cls names ts => simp only [Rep] at hr; simp only [func, Tree.root, hr.1]
  | list i shape ts => simp only [Rep] at hr; simp only [func, Tree.root, hr.1]

theorem IsNoisy.mono {m n : Nat} (h : m ≤ n) {s : Size} {t : Tree} (ht : IsNoisy n s t) : IsNoisy m s t := by
  obtain ⟨j, a, b, wa, wb, e, h1, h2, h3, h4, h5⟩ := ht
  exact ⟨j, a, b, wa, wb, e, by omega, by omega, by omega, by omega, by omega⟩

mutual
theorem Conv.mono {m n : Nat} (h : m ≤ n) : ∀ (t t' : Tree), Conv n t t' → Conv m t t'
  | .leaf i nd, t', hc => by simpa only [Conv] using hc
  | .chain i cls names ts, t', hc => by
    simp only [Conv] at *
    obtain ⟨ts', e, hs⟩ := hc
    exact ⟨ts', e, Slots.mono h ts ts' hs⟩
  | .list i shape ts, t', hc => by
    simp only [Conv] at *
    obtain ⟨ts', e, hs⟩ := hc
    exact ⟨ts', e, Slots.mono h ts ts' hs⟩
theorem Slots.mono {m n : Nat} (h : m ≤ n) : ∀ (ts ts' : List Tree), Slots n ts ts' → Slots m ts ts'
  | [], ts', hc => by simpa only [Slots] using hc
  | t :: ts, ts', hc => by
    simp only [Slots] at *
    obtain ⟨u, us, e, hs, hr⟩ := hc
    exact ⟨u, us, e, ⟨fun s hl => (hs.1 s hl).mono h, fun hl => Conv.mono h t u (hs.2 hl)⟩, Slots.mono h ts us hr⟩
end

/-- A network that can be converted. -/
structure Good (h : H) (t : Tree) : Prop where
  rep : Rep h t
  nodup : t.ids.Nodup
  old : ∀ j ∈ t.ids, j < h.next

/-- The result of working on `t`. -/
structure Done (h h' : H) (t u : Tree) : Prop where
  rep : Rep h' u
  frame : Frame h h' t.ids
  nodup : u.ids.Nodup
  ids : ∀ j ∈ u.ids, j ∈ t.ids ∨ (h.next ≤ j ∧ j < h'.next)

theorem Conv_root {n : Nat} {t t' : Tree} (h : Conv n t t') : t'.root = t.root := by
  cases t with
  | leaf i nd => simp only [Conv] at h; rw [h]
  | chain i cls names ts => simp only [Conv] at h; obtain ⟨ts', rfl, _⟩ := h; rfl
  | list i shape ts => simp only [Conv] at h; obtain ⟨ts', rfl, _⟩ := h; rfl

/-- What is done with one child. -/
theorem slot_ok (recur : H → Nat → Py H) (h : H) (t : Tree) (hg : Good h t)
    (ih : t.linear? = none → ∃ h' u, recur h t.root = .ok h' ∧ Done h h' t u ∧ Conv h.next t u) :
    ∃ h' u, Done h h' t u ∧ ((∀ s, t.linear? = some s → IsNoisy h.next s u) ∧ (t.linear? = none → Conv h.next t u)) ∧
      ((func h t.root = (h, t.root) ∧ recur h t.root = .ok h' ∧ u.root = t.root) ∨
        (func h t.root = (h', u.root) ∧ u.root ≠ t.root ∧ Frame h h' [])) := by
  cases hl : t.linear? with
  | none =>
    obtain ⟨h', u, h1, h2, h3⟩ := ih hl
    exact ⟨h', u, h2, ⟨by simp, fun _ => h3⟩, .inl ⟨func_other hg.rep hl, h1, Conv_root h3⟩⟩
  | some s =>
    obtain ⟨g1, g2, g3, g4, g5, g6⟩ := newNoisy_ok h s
    refine ⟨(newNoisy h s).1, noisyTree h.next s, ⟨g2, ⟨g3.1, fun j hj _ => g3.2 j hj (by simp)⟩, ?_, ?_⟩,
      ⟨fun s' e => ?_, by simp⟩, .inr ⟨?_, ?_, g3⟩⟩
    · rw [g6]; simp
    · rw [g6, g5]
      intro j hj
      simp only [List.mem_cons, List.not_mem_nil, or_false] at hj
      omega
    · cases e; exact g4
    · rw [func_linear hg.rep hl, ← g1]
    · have := hg.old _ (root_mem t)
      show h.next + 2 ≠ _
      omega

/-! ### The loop over the children of a chain -/

theorem lookup_zip : ∀ (ns1 ns2 : List String) (name : String) (r1 r2 : List Nat) (r : Nat), ns1.length = r1.length →
    name ∉ ns1 → ((ns1 ++ name :: ns2).zip (r1 ++ r :: r2)).lookup name = some r
  | [], ns2, name, [], r2, r, _, _ => by simp
  | [], _, _, _ :: _, _, _, h, _ => by simp at h
  | _ :: _, _, _, [], _, _, h, _ => by simp at h
  | n :: ns1, ns2, name, x :: r1, r2, r, h, hn => by
    simp only [List.mem_cons, not_or] at hn
    simp only [List.cons_append, List.zip_cons_cons, List.lookup_cons, beq_eq_false_iff_ne.mpr hn.1]
    exact lookup_zip ns1 ns2 name r1 r2 r (by simpa using h) hn.2

theorem map_zip : ∀ (ns1 ns2 : List String) (name : String) (r1 r2 : List Nat) (r c : Nat), ns1.length = r1.length →
    name ∉ ns1 → name ∉ ns2 →
    ((ns1 ++ name :: ns2).zip (r1 ++ r :: r2)).map (fun e => if e.1 = name then (name, c) else e) =
      (ns1 ++ name :: ns2).zip (r1 ++ c :: r2)
  | [], ns2, name, [], r2, r, c, _, _, h2 => by
    simp only [List.nil_append, List.zip_cons_cons, List.map_cons, if_true, List.cons.injEq, true_and]
    have : ∀ e ∈ ns2.zip r2, (if e.1 = name then (name, c) else e) = e := by
      intro e he
      rw [if_neg]
      intro heq
      have := (List.of_mem_zip (show (e.1, e.2) ∈ ns2.zip r2 from he)).1
      rw [heq] at this
      exact h2 this
    rw [List.map_congr_left this, List.map_id']
  | [], _, _, _ :: _, _, _, _, h, _, _ => by simp at h
  | _ :: _, _, _, [], _, _, _, h, _, _ => by simp at h
  | n :: ns1, ns2, name, x :: r1, r2, r, c, h, h1, h2 => by
    simp only [List.mem_cons, not_or] at h1
    simp only [List.cons_append, List.zip_cons_cons, List.map_cons, if_neg (Ne.symm h1.1), List.cons.injEq, true_and]
    exact map_zip ns1 ns2 name r1 r2 r c (by simpa using h) h1.2 h2

/-- What is known in the middle of the loop: `ts1` are the children already dealt with. -/
structure Mid (h : H) (i : Nat) (ts1 ts2 : List Tree) : Prop where
  rep1 : Reps h ts1
  rep2 : Reps h ts2
  nodup : (i :: (idss ts1 ++ idss ts2)).Nodup
  old : ∀ j ∈ i :: (idss ts1 ++ idss ts2), j < h.next

/-- One child has been dealt with. -/
theorem Mid.next {h h' h'' : H} {i : Nat} {ts1 ts2 : List Tree} {t u : Tree} (hm : Mid h i ts1 (t :: ts2))
    (hd : Done h h' t u) (hn : h''.next = h'.next) (he : ∀ j, j ≠ i → h''.node j = h'.node j) :
    Mid h'' i (ts1 ++ [u]) ts2 ∧ Frame h h'' (i :: t.ids) := by
  obtain ⟨r1, r2, nd, old⟩ := hm
  simp only [idss, Reps] at *
  have hdis := nd
  simp only [List.nodup_cons, List.nodup_append, List.mem_append, not_or] at nd
  have hout1 : ∀ j ∈ idss ts1, h''.node j = h.node j := by
    intro j hj
    have hji : j ≠ i := by rintro rfl; exact nd.1.1 hj
    rw [he j hji, hd.frame.2 j (old j (by simp [hj])) (fun ht => nd.2.2.2 j hj j (.inl ht) rfl)]
  have hout2 : ∀ j ∈ idss ts2, h''.node j = h.node j := by
    intro j hj
    have hji : j ≠ i := by rintro rfl; exact nd.1.2.2 hj
    rw [he j hji, hd.frame.2 j (old j (by simp [hj])) (fun ht => nd.2.2.1.2.2 j ht j hj rfl)]
  have hi : i < h.next := old i (by simp)
  have hu : ∀ j ∈ u.ids, j ≠ i ∧ j ∉ idss ts1 ∧ j ∉ idss ts2 ∧ j < h'.next := by
    intro j hj
    rcases hd.ids j hj with hjt | ⟨hj1, hj2⟩
    · refine ⟨by rintro rfl; exact nd.1.2.1 hjt, fun h1 => nd.2.2.2 j h1 j (.inl hjt) rfl,
        fun h2 => nd.2.2.1.2.2 j hjt j h2 rfl, ?_⟩
      exact Nat.lt_of_lt_of_le (old j (by simp [hjt])) hd.frame.1
    · refine ⟨by omega, fun h1 => ?_, fun h2 => ?_, hj2⟩
      · have := old j (by simp [h1]); omega
      · have := old j (by simp [h2]); omega
  have hidss : idss (ts1 ++ [u]) = idss ts1 ++ u.ids := by rw [idss_append]; simp [idss]
  refine ⟨⟨?_, Reps_frame ts2 r2.2 hout2, ?_, ?_⟩, ?_⟩
  · rw [Reps_append]
    refine ⟨Reps_frame ts1 r1 hout1, Rep_frame u hd.rep fun j hj => he j (hu j hj).1, trivial⟩
  · rw [hidss]
    simp only [List.nodup_cons, List.nodup_append, List.mem_append, not_or]
    refine ⟨⟨⟨nd.1.1, fun h1 => (hu i h1).1 rfl⟩, nd.1.2.2⟩, ⟨nd.2.1, hd.nodup, ?_⟩, nd.2.2.1.2.1, ?_⟩
    · rintro a ha b hb rfl
      exact (hu a hb).2.1 ha
    · rintro a ha b hb rfl
      rcases ha with ha | ha
      · exact nd.2.2.2 a ha a (.inr hb) rfl
      · exact (hu a ha).2.2.1 hb
  · rw [hidss, hn]
    intro j hj
    simp only [List.mem_cons, List.mem_append] at hj
    rcases hj with rfl | (hj | hj) | hj
    · exact Nat.lt_of_lt_of_le hi hd.frame.1
    · exact Nat.lt_of_lt_of_le (old j (by simp [hj])) hd.frame.1
    · exact (hu j hj).2.2.2
    · exact Nat.lt_of_lt_of_le (old j (by simp [hj])) hd.frame.1
  · refine ⟨by rw [hn]; exact hd.frame.1, fun j hj hS => ?_⟩
    simp only [List.mem_cons, not_or] at hS
    rw [he j hS.1, hd.frame.2 j hj hS.2]

theorem depths_le : ∀ (ts : List Tree) (t : Tree), t ∈ ts → t.depth ≤ depths ts
  | [], _, h => by simp at h
  | u :: ts, t, h => by
    simp only [depths]
    rcases List.mem_cons.mp h with rfl | h
    · omega
    · have := depths_le ts t h; omega

/-- The recursive call does its work on networks of depth at most `n`. -/
def Works (recur : H → Nat → Py H) (n : Nat) : Prop :=
  ∀ (h : H) (t : Tree), t.depth ≤ n → Good h t → ∃ h' u, recur h t.root = .ok h' ∧ Done h h' t u ∧ Conv h.next t u

theorem Mid.good {h : H} {i : Nat} {ts1 ts2 : List Tree} {t : Tree} (hm : Mid h i ts1 (t :: ts2)) : Good h t := by
  obtain ⟨r1, r2, nd, old⟩ := hm
  simp only [idss, Reps] at *
  simp only [List.nodup_cons, List.nodup_append] at nd
  exact ⟨r2.1, nd.2.2.1.1, fun j hj => old j (by simp [hj])⟩

theorem mapChain_ok (recur : H → Nat → Py H) (n : Nat) (hw : Works recur n) (i : Nat) (cls : Cls) :
    ∀ (ns2 ns1 : List String) (ts1 ts2 : List Tree) (h : H), ns1.length = ts1.length → ns2.length = ts2.length →
    (ns1 ++ ns2).Nodup → depths ts2 ≤ n → Mid h i ts1 ts2 →
    h.node i = some (.chain cls ((ns1 ++ ns2).zip ((ts1 ++ ts2).map Tree.root))) →
    ∃ h' us, mapChain recur i ns2 h = .ok h' ∧ Slots h.next ts2 us ∧ Mid h' i (ts1 ++ us) [] ∧
      Frame h h' (i :: idss ts2) ∧ (∀ j ∈ idss us, j ∈ idss ts2 ∨ (h.next ≤ j ∧ j < h'.next)) ∧
      h'.node i = some (.chain cls ((ns1 ++ ns2).zip ((ts1 ++ us).map Tree.root)))
  | [], ns1, ts1, [], h => by
    intro _ _ _ _ hm hi
    exact ⟨h, [], rfl, rfl, by simpa using hm, ⟨Nat.le_refl _, fun _ _ _ => rfl⟩, by simp [idss], by simpa using hi⟩
  | [], _, _, _ :: _, _ => by intro _ h; simp at h
  | _ :: _, _, _, [], _ => by intro _ h; simp at h
  | name :: ns2, ns1, ts1, t :: ts2, h => by
    intro hl1 hl2 hnd hdep hm hi
    have hdt : t.depth ≤ n := by simp only [depths] at hdep; omega
    obtain ⟨h1, u, hd, hs, hcase⟩ := slot_ok recur h t hm.good (fun _ => hw h t hdt hm.good)
    have hname1 : name ∉ ns1 := by
      simp only [List.nodup_append, List.nodup_cons] at hnd
      intro hin; exact hnd.2.2 name hin name (by simp) rfl
    have hname2 : name ∉ ns2 := by
      simp only [List.nodup_append, List.nodup_cons] at hnd
      exact hnd.2.1.1
    have hchild : h.child i name = .ok t.root := by
      unfold H.child
      rw [hi]
      simp only [List.map_append, List.map_cons]
      rw [lookup_zip ns1 ns2 name _ _ t.root (by simpa using hl1) hname1]
    have hti : i ∉ t.ids ∧ i < h.next := by
      have h1 := hm.nodup
      simp only [idss, List.nodup_cons, List.mem_append, not_or] at h1
      exact ⟨h1.1.2.1, hm.old i (by simp)⟩
    -- the heap after this child
    have hstep : ∃ h2, mapChain recur i (name :: ns2) h = mapChain recur i ns2 h2 ∧ h2.next = h1.next ∧
        (∀ j, j ≠ i → h2.node j = h1.node j) ∧
        h2.node i = some (.chain cls (((ns1 ++ [name]) ++ ns2).zip (((ts1 ++ [u]) ++ ts2).map Tree.root))) := by
      rcases hcase with ⟨hf, hrec, hroot⟩ | ⟨hf, hroot, hfr⟩
      · refine ⟨h1, ?_, rfl, fun _ _ => rfl, ?_⟩
        · simp only [mapChain, hchild, bind, Except.bind, hf, if_true, hrec]
        · rw [hd.frame.2 i hti.2 hti.1, hi]
          simp [hroot]
      · refine ⟨h1.setChild i name u.root, ?_, ?_, ?_, ?_⟩
        · simp only [mapChain, hchild, bind, Except.bind, hf, if_neg hroot]
        · unfold H.setChild; split <;> rfl
        · intro j hj
          unfold H.setChild
          split
          · exact put_other _ _ _ _ hj
          · rfl
        · have : h1.node i = _ := (hd.frame.2 i hti.2 hti.1).trans hi
          unfold H.setChild
          rw [this]
          simp only [put_same, List.map_append, List.map_cons]
          rw [map_zip ns1 ns2 name _ _ t.root u.root (by simpa using hl1) hname1 hname2]
          simp
    obtain ⟨h2, e1, e2, e3, e4⟩ := hstep
    obtain ⟨hm2, hfr2⟩ := hm.next hd e2 e3
    obtain ⟨h3, us, g1, g2, g3, g4, g5, g6⟩ := mapChain_ok recur n hw i cls ns2 (ns1 ++ [name]) (ts1 ++ [u]) ts2 h2
      (by simp [hl1]) (by simpa using hl2) (by simpa using hnd) (by simp only [depths] at hdep; omega) hm2 e4
    refine ⟨h3, u :: us, e1.trans g1, ?_, by simpa using g3, ?_, ?_, by simpa using g6⟩
    · simp only [Slots]
      exact ⟨u, us, rfl, hs, Slots.mono hfr2.1 _ _ g2⟩
    · refine Frame.trans hfr2 g4 ?_ ?_
      · intro j hj
        simp only [idss, List.mem_cons, List.mem_append] at *
        tauto
      · intro j hj _
        simp only [idss, List.mem_cons, List.mem_append] at *
        tauto
    · intro j hj
      simp only [idss, List.mem_append] at *
      rcases hj with hj | hj
      · rcases hd.ids j hj with h4 | ⟨h4, h5⟩
        · exact .inl (.inl h4)
        · refine .inr ⟨h4, ?_⟩
          have := g4.1
          omega
      · rcases g5 j hj with h4 | ⟨h4, h5⟩
        · exact .inl (.inr h4)
        · refine .inr ⟨?_, h5⟩
          have := hfr2.1
          omega

/-! ### The loop over the children of a list -/

theorem fill_split : ∀ (sh : List (Option Nat)) (a : List Nat) (b : List Nat), sh.count none = a.length + b.length + 1 →
    ∃ p q, (∀ x, fill sh (a ++ x :: b) = p ++ Item.link x :: q) ∧ (∀ x, Item.link x ∈ p → x ∈ a) ∧
      (∀ x, Item.link x ∈ q → x ∈ b)
  | [], a, b => by intro h; simp at h
  | some f :: sh, a, b => by
    intro h
    obtain ⟨p, q, h1, h2, h3⟩ := fill_split sh a b (by simpa using h)
    refine ⟨.fn f :: p, q, fun x => by simp [fill, h1 x], ?_, h3⟩
    intro x hx
    simp only [List.mem_cons, reduceCtorEq, false_or] at hx
    exact h2 x hx
  | none :: sh, [], b => by
    intro h
    refine ⟨[], fill sh b, fun x => rfl, by simp, ?_⟩
    intro x hx
    clear h
    induction sh generalizing b with
    | nil => simp [fill] at hx
    | cons o sh ih =>
      cases o with
      | some f => simp only [fill, List.mem_cons, reduceCtorEq, false_or] at hx; exact ih b hx
      | none =>
        cases b with
        | nil => simp [fill] at hx
        | cons r b =>
          simp only [fill, List.mem_cons, Item.link.injEq] at hx ⊢
          rcases hx with rfl | hx
          · exact .inl rfl
          · exact .inr (ih b hx)
  | none :: sh, y :: a, b => by
    intro h
    obtain ⟨p, q, h1, h2, h3⟩ := fill_split sh a b (by simp only [List.count_cons_self, List.length_cons] at h; omega)
    refine ⟨.link y :: p, q, fun x => by simp [fill, h1 x], ?_, h3⟩
    intro x hx
    simp only [List.mem_cons, Item.link.injEq] at hx ⊢
    rcases hx with rfl | hx
    · exact .inl rfl
    · exact .inr (h2 x hx)

theorem filter_zipIdx (old : Nat) : ∀ (xs : List Item) (k : Nat), Item.link old ∉ xs →
    ((xs.zipIdx k).filter fun p => decide (p.1 = Item.link old)) = []
  | [], _, _ => rfl
  | x :: xs, k, h => by
    simp only [List.mem_cons, not_or] at h
    rw [List.zipIdx_cons, List.filter_cons_of_neg (by simp [Ne.symm h.1])]
    exact filter_zipIdx old xs (k + 1) h.2

theorem replaceUnique_ok (p q : List Item) (old new : Nat) (hp : Item.link old ∉ p) (hq : Item.link old ∉ q) :
    replaceUnique (p ++ Item.link old :: q) old new = .ok (p ++ Item.link new :: q) := by
  have : (((p ++ Item.link old :: q).zipIdx.filter fun e => decide (e.1 = Item.link old)).map (·.2)) = [p.length] := by
    rw [List.zipIdx_append, List.filter_append, filter_zipIdx old p 0 hp, List.zipIdx_cons,
      List.filter_cons_of_pos (by simp), filter_zipIdx old q _ hq]
    simp
  unfold replaceUnique
  simp only [this]
  simp only [pyAssert, List.length_singleton, decide_true, if_true, bind, Except.bind]
  have : pyGet [p.length] 0 = .ok p.length := rfl
  rw [this]
  simp

theorem mapList_ok (recur : H → Nat → Py H) (n : Nat) (hw : Works recur n) (i : Nat) (shape : Option (List (Option Nat))) :
    ∀ (ts2 ts1 : List Tree) (h : H), (∀ sh, shape = some sh → sh.count none = ts1.length + ts2.length) →
    depths ts2 ≤ n → Mid h i ts1 ts2 →
    h.node i = some (.list (shape.map fun sh => fill sh ((ts1 ++ ts2).map Tree.root)) ((ts1 ++ ts2).map Tree.root)) →
    ∃ h' us, mapList recur i (List.range' ts1.length ts2.length) h = .ok h' ∧ Slots h.next ts2 us ∧ Mid h' i (ts1 ++ us) [] ∧
      Frame h h' (i :: idss ts2) ∧ (∀ j ∈ idss us, j ∈ idss ts2 ∨ (h.next ≤ j ∧ j < h'.next)) ∧
      h'.node i = some (.list (shape.map fun sh => fill sh ((ts1 ++ us).map Tree.root)) ((ts1 ++ us).map Tree.root))
  | [], ts1, h => by
    intro _ _ hm hi
    exact ⟨h, [], rfl, rfl, by simpa using hm, ⟨Nat.le_refl _, fun _ _ _ => rfl⟩, by simp [idss], by simpa using hi⟩
  | t :: ts2, ts1, h => by
    intro hsh hdep hm hi
    have hdt : t.depth ≤ n := by simp only [depths] at hdep; omega
    obtain ⟨h1, u, hd, hs, hcase⟩ := slot_ok recur h t hm.good (fun _ => hw h t hdt hm.good)
    have hroots : (ts1 ++ t :: ts2).map Tree.root = ts1.map Tree.root ++ t.root :: ts2.map Tree.root := by simp
    have hchild : pyGet (h.listChildren i) (ts1.length : Int) = .ok t.root := by
      unfold H.listChildren
      rw [hi]
      simp only [hroots]
      unfold pyGet pyIndex
      simp
      rw [if_pos (by omega)]
      simp
    have hti : i ∉ t.ids ∧ i < h.next := by
      have h1 := hm.nodup
      simp only [idss, List.nodup_cons, List.mem_append, not_or] at h1
      exact ⟨h1.1.2.1, hm.old i (by simp)⟩
    have hmemroot : ∀ (ts : List Tree) (x : Nat), x ∈ ts.map Tree.root → x ∈ idss ts := by
      intro ts
      induction ts with
      | nil => simp
      | cons v ts ih =>
        intro x hx
        simp only [List.map_cons, List.mem_cons, idss, List.mem_append] at *
        rcases hx with rfl | hx
        · exact .inl (root_mem v)
        · exact .inr (ih x hx)
    have hnot : t.root ∉ ts1.map Tree.root ∧ t.root ∉ ts2.map Tree.root := by
      have h1 := hm.nodup
      simp only [idss, List.nodup_cons, List.nodup_append, List.mem_append, not_or] at h1
      refine ⟨fun hx => ?_, fun hx => ?_⟩
      · exact h1.2.2.2 _ (hmemroot _ _ hx) _ (.inl (root_mem t)) rfl
      · exact h1.2.2.1.2.2 _ (root_mem t) _ (hmemroot _ _ hx) rfl
    have hstep : ∃ h2, mapList recur i (List.range' ts1.length (t :: ts2).length) h =
          mapList recur i (List.range' (ts1.length + 1) ts2.length) h2 ∧ h2.next = h1.next ∧
        (∀ j, j ≠ i → h2.node j = h1.node j) ∧
        h2.node i = some (.list (shape.map fun sh => fill sh (((ts1 ++ [u]) ++ ts2).map Tree.root))
          (((ts1 ++ [u]) ++ ts2).map Tree.root)) := by
      have hrange : List.range' ts1.length (t :: ts2).length = ts1.length :: List.range' (ts1.length + 1) ts2.length := by
        rw [List.length_cons, List.range'_succ]
      rw [hrange]
      rcases hcase with ⟨hf, hrec, hroot⟩ | ⟨hf, hroot, hfr⟩
      · refine ⟨h1, ?_, rfl, fun _ _ => rfl, ?_⟩
        · simp only [mapList, hchild, bind, Except.bind, hf, if_true, hrec]
        · rw [hd.frame.2 i hti.2 hti.1, hi]
          simp [hroot]
      · have hi1 : h1.node i = _ := (hd.frame.2 i hti.2 hti.1).trans hi
        have hlay : replaceLayers (h1.layers i) t.root u.root =
            .ok (shape.map fun sh => fill sh (ts1.map Tree.root ++ u.root :: ts2.map Tree.root)) := by
          unfold H.layers
          rw [hi1]
          cases shape with
          | none => rfl
          | some sh =>
            obtain ⟨p, q, k1, k2, k3⟩ := fill_split sh (ts1.map Tree.root) (ts2.map Tree.root)
              (by have := hsh sh rfl; simp only [List.length_map, List.length_cons] at *; omega)
            simp only [Option.map_some, hroots, k1, replaceLayers]
            rw [replaceUnique_ok p q t.root u.root (fun hx => hnot.1 (k2 _ hx)) (fun hx => hnot.2 (k3 _ hx))]
            rfl
        have hch : h1.listChildren i = ts1.map Tree.root ++ t.root :: ts2.map Tree.root := by
          unfold H.listChildren
          rw [hi1]
          simp only [hroots]
        refine ⟨h1.put i (.list (shape.map fun sh => fill sh (ts1.map Tree.root ++ u.root :: ts2.map Tree.root))
          (ts1.map Tree.root ++ u.root :: ts2.map Tree.root)), ?_, rfl, fun j hj => put_other _ _ _ _ hj, ?_⟩
        · simp only [mapList, hchild, bind, Except.bind, hf, if_neg hroot, hlay, hch]
          congr 3
          rw [List.set_append_right _ _ (by simp)]
          simp
        · rw [put_same]; simp
    obtain ⟨h2, e1, e2, e3, e4⟩ := hstep
    obtain ⟨hm2, hfr2⟩ := hm.next hd e2 e3
    obtain ⟨h3, us, g1, g2, g3, g4, g5, g6⟩ := mapList_ok recur n hw i shape ts2 (ts1 ++ [u]) h2
      (by intro sh e; have := hsh sh e; simp only [List.length_append, List.length_cons, List.length_nil] at *; omega)
      (by simp only [depths] at hdep; omega) hm2 e4
    rw [List.length_append, List.length_singleton] at g1
    refine ⟨h3, u :: us, e1.trans g1, ?_, by simpa using g3, ?_, ?_, by simpa using g6⟩
    · simp only [Slots]
      exact ⟨u, us, rfl, hs, Slots.mono hfr2.1 _ _ g2⟩
    · refine Frame.trans hfr2 g4 ?_ ?_
      · intro j hj
        simp only [idss, List.mem_cons, List.mem_append] at *
        tauto
      · intro j hj _
        simp only [idss, List.mem_cons, List.mem_append] at *
        tauto
    · intro j hj
      simp only [idss, List.mem_append] at *
      rcases hj with hj | hj
      · rcases hd.ids j hj with h4 | ⟨h4, h5⟩
        · exact .inl (.inl h4)
        · refine .inr ⟨h4, ?_⟩
          have := g4.1
          omega
      · rcases g5 j hj with h4 | ⟨h4, h5⟩
        · exact .inl (.inr h4)
        · refine .inr ⟨?_, h5⟩
          have := hfr2.1
          omega

theorem Slots_length {n : Nat} : ∀ (ts us : List Tree), Slots n ts us → us.length = ts.length
  | [], us, h => by simp only [Slots] at h; rw [h]
  | t :: ts, us, h => by
    simp only [Slots] at h
    obtain ⟨u, vs, rfl, _, h⟩ := h
    simp [Slots_length ts vs h]

theorem mapLinks_works : ∀ n, Works (mapLinks n) n
  | 0 => by
    intro h t hd
    cases t <;> simp [Tree.depth] at hd
  | n + 1 => by
    intro h t hd hg
    obtain ⟨hr, hn, ho⟩ := hg
    cases t with
    | leaf i nd =>
      refine ⟨h, .leaf i nd, ?_, ⟨hr, ⟨Nat.le_refl _, fun _ _ _ => rfl⟩, hn, fun j hj => .inl hj⟩, by simp only [Conv]⟩
      simp only [Rep] at hr
      simp only [mapLinks, Tree.root, hr.1]
      cases nd <;> simp_all [Node.childless]
    | chain i cls names ts =>
      simp only [Rep, Tree.ids, Tree.depth] at hr hn ho hd
      obtain ⟨r1, r2, r3, r4⟩ := hr
      obtain ⟨h', us, g1, g2, g3, g4, g5, g6⟩ := mapChain_ok (mapLinks n) n (mapLinks_works n) i cls names [] [] ts h rfl r3
        (by simpa using r2) (by omega) ⟨trivial, r4, by simpa [idss] using hn, by simpa [idss] using ho⟩ (by simpa using r1)
      have hlen := Slots_length ts us g2
      refine ⟨h', .chain i cls names us, ?_, ⟨?_, ?_, ?_, ?_⟩, ?_⟩
      · simp only [mapLinks, Tree.root, r1]
        rw [List.map_fst_zip (by simp [r3]), g1]
      · simp only [Rep]
        exact ⟨by simpa using g6, r2, by omega, by simpa using g3.rep1⟩
      · exact g4
      · simpa [Tree.ids, idss] using g3.nodup
      · intro j hj
        simp only [Tree.ids, List.mem_cons] at *
        rcases hj with rfl | hj
        · exact .inl (.inl rfl)
        · rcases g5 j hj with h4 | h4
          · exact .inl (.inr h4)
          · exact .inr h4
      · simp only [Conv]
        exact ⟨us, rfl, g2⟩
    | list i shape ts =>
      simp only [Rep, Tree.ids, Tree.depth] at hr hn ho hd
      obtain ⟨r1, r2, r4⟩ := hr
      obtain ⟨h', us, g1, g2, g3, g4, g5, g6⟩ := mapList_ok (mapLinks n) n (mapLinks_works n) i shape ts [] h
        (by simpa using r2) (by omega) ⟨trivial, r4, by simpa [idss] using hn, by simpa [idss] using ho⟩ (by simpa using r1)
      have hlen := Slots_length ts us g2
      refine ⟨h', .list i shape us, ?_, ⟨?_, ?_, ?_, ?_⟩, ?_⟩
      · simp only [mapLinks, Tree.root, r1]
        rw [List.length_map, List.range_eq_range']
        exact g1
      · simp only [Rep]
        exact ⟨by simpa using g6, by rw [hlen]; exact r2, by simpa using g3.rep1⟩
      · exact g4
      · simpa [Tree.ids, idss] using g3.nodup
      · intro j hj
        simp only [Tree.ids, List.mem_cons] at *
        rcases hj with rfl | hj
        · exact .inl (.inl rfl)
        · rcases g5 j hj with h4 | h4
          · exact .inl (.inr h4)
          · exact .inr h4
      · simp only [Conv]
        exact ⟨us, rfl, g2⟩

end Verif.Noisy
