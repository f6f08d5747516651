import Verif.Proofs.SharingBuffer
set_option autoImplicit false
set_option linter.unusedSectionVars false

/-! Helper lemmas: what stays as it was, and whose weight is whose. -/

namespace Verif.Sharing
open BoundedList (newest)
variable {E T W : Type} [DecidableEq E]

/-! ## What stays -/

/-- Lists other than the windows are as before, and so is `g` of every dict. -/
structure Stable {X : Type} (g : T × Option W → X) (b c : Buf E T W) : Prop where
  len : b.lists.length ≤ c.lists.length
  lists : ∀ a < b.lists.length, (∀ e, b.windows e ≠ some a) → get c.lists a = get b.lists a ∧ ∀ e, c.windows e ≠ some a
  dlen : b.dicts.length ≤ c.dicts.length
  dicts : ∀ j < b.dicts.length, (c.dicts[j]?).map g = (b.dicts[j]?).map g

variable {X : Type} {g : T × Option W → X}

theorem Stable.refl (b : Buf E T W) : Stable g b b := ⟨Nat.le_refl _, fun _ _ h => ⟨rfl, h⟩, Nat.le_refl _, fun _ _ => rfl⟩

theorem Stable.trans {a b c : Buf E T W} (h : Stable g a b) (k : Stable g b c) : Stable g a c := by
  refine ⟨Nat.le_trans h.len k.len, fun x hx hw => ?_, Nat.le_trans h.dlen k.dlen, fun j hj => ?_⟩
  · obtain ⟨h1, h2⟩ := h.lists x hx hw
    obtain ⟨k1, k2⟩ := k.lists x (Nat.lt_of_lt_of_le hx h.len) h2
    exact ⟨k1.trans h1, k2⟩
  · exact (k.dicts j (Nat.lt_of_lt_of_le hj h.dlen)).trans (h.dicts j hj)

theorem stable_window (b : Buf E T W) (e : E) : Stable g b (b.window e).1 := by
  unfold Buf.window
  cases b.windows e with
  | some d => exact .refl b
  | none =>
    refine ⟨by simp, fun a ha hw => ⟨get_append _ _ ha, fun e' he' => ?_⟩, Nat.le_refl _, fun _ _ => rfl⟩
    simp only [Function.update_apply] at he'
    split at he'
    · have := Option.some.inj he'; omega
    · exact hw e' he'

theorem window_some (b : Buf E T W) (e : E) : (b.window e).1.windows e = some (b.window e).2 := by
  unfold Buf.window
  cases h : b.windows e with
  | some d => exact h
  | none => simp

theorem stable_add (b : Buf E T W) (e : E) (d : Nat) (x : T) (hd : b.windows e = some d) : Stable g b (b.add d x) := by
  refine ⟨by simp [Buf.add], fun a _ hw => ⟨get_set_ne _ _ fun h => hw e (h ▸ hd), hw⟩, by simp [Buf.add], fun j hj => ?_⟩
  simp only [Buf.add, List.getElem?_append_left hj]

theorem stable_store (b : Buf E T W) (d : Nat) : Stable g b (b.store d) :=
  ⟨by simp [Buf.store], fun _ ha hw => ⟨get_append _ _ ha, hw⟩, Nat.le_refl _, fun _ _ => rfl⟩

theorem stable_del (b : Buf E T W) (e : E) (d : Nat) (hd : b.windows e = some d) : Stable g b (b.delFirst d) :=
  ⟨by simp [Buf.delFirst], fun _ _ hw => ⟨get_set_ne _ _ fun h => hw e (h ▸ hd), hw⟩, Nat.le_refl _, fun _ _ => rfl⟩

theorem stable_drain (e : E) (d f : Nat) (b : Buf E T W) (hd : b.windows e = some d) : Stable g b (b.drain d f) := by
  induction f generalizing b with
  | zero => exact .refl b
  | succ f ih =>
    rw [Buf.drain]
    split
    · exact .refl b
    · exact ((stable_store b d).trans (stable_del (b.store d) e d hd)).trans (ih _ hd)

theorem stable_append (term : T → Bool) (b : Buf E T W) (e : E) (x : T) : Stable g b (b.append term e x) := by
  have h := (stable_window (g := g) b e).trans (stable_add _ e _ x (window_some b e))
  have hw : ((b.window e).1.add (b.window e).2 x).windows e = some (b.window e).2 := window_some b e
  unfold Buf.append
  simp only
  split
  · exact h.trans (stable_drain e _ _ _ hw)
  · split
    · exact h.trans (stable_store _ _)
    · exact h

theorem stable_stop (b : Buf E T W) (e : E) : Stable g b (b.stop e) := by
  have h := stable_window (g := g) b e
  have hw := window_some b e
  unfold Buf.stop
  simp only
  generalize (get (b.window e).1.lists (b.window e).2).length = l
  obtain ⟨c', hc'⟩ : ∃ c', c' = if 0 < l ∧ l < (b.window e).1.numSteps then (b.window e).1.store (b.window e).2 else (b.window e).1 := ⟨_, rfl⟩
  rw [← hc']
  have h1 : Stable g b c' ∧ c'.windows = (b.window e).1.windows := by
    rw [hc']; split
    · exact ⟨h.trans (stable_store _ _), rfl⟩
    · exact ⟨h, rfl⟩
  obtain ⟨c'', hc''⟩ : ∃ c'', c'' = if 0 < l ∧ l ≤ c'.numSteps then c'.delFirst (b.window e).2 else c' := ⟨_, rfl⟩
  rw [← hc'']
  have h2 : Stable g b c'' ∧ c''.windows = (b.window e).1.windows := by
    rw [hc'']; split
    · exact ⟨h1.1.trans (stable_del _ e _ (by rw [h1.2]; exact hw)), h1.2⟩
    · exact h1
  exact h2.1.trans (stable_drain e _ _ _ (by rw [h2.2]; exact hw))

theorem stable_same {b c : Buf E T W} (h : SameBut b c) : Stable (fun x => x.1) b c := by
  obtain ⟨a1, a2, a3, a4, a5, a6, a7⟩ := h
  exact ⟨by rw [a1]; exact Nat.le_refl _, fun a _ hw => ⟨by rw [a1], by rw [a3]; exact hw⟩, by rw [a6]; exact Nat.le_refl _, fun j _ => a7 j⟩

theorem stable_run (term : T → Bool) (cs : List (Call E T W)) (b : Buf E T W) : Stable (fun x => x.1) b (b.run term cs) := by
  induction cs generalizing b with
  | nil => exact .refl b
  | cons c cs ih =>
    refine Stable.trans ?_ (ih (b.step term c))
    cases c with
    | append e x => exact stable_append term b e x
    | stop e => exact stable_stop b e
    | sample idx ws => exact stable_same (weighs_eq _ b)

theorem stable_feeds (term : T → Bool) (cs : List (Call E T W)) (b : Buf E T W) (h : ∀ c ∈ cs, c.Feeds) :
    Stable (fun x => x) b (b.run term cs) := by
  induction cs generalizing b with
  | nil => exact .refl b
  | cons c cs ih =>
    refine Stable.trans ?_ (ih (b.step term c) fun c hc => h c (List.mem_cons_of_mem _ hc))
    cases c with
    | append e x => exact stable_append term b e x
    | stop e => exact stable_stop b e
    | sample idx ws => exact (h _ List.mem_cons_self).elim

/-! ## Heads -/

/-- The transitions of a window that no entry begins with yet. -/
def pend {A : Type} (n : Nat) (w : List A) : List A := if w.length = n then w.tail else w

/-- The transition of a call. -/
def newOf {A : Type} : NStep.Op E A → List A
  | .append _ x => [x]
  | .stop _ => []

theorem tails_heads {A : Type} (w : List A) : (NStep.tails w).map List.head? = w.map some := by
  induction w with
  | nil => rfl
  | cons x t ih => rw [NStep.tails_cons, List.map_cons, ih]; rfl

theorem emit_heads {A : Type} (term : A → Bool) (n : Nat) (hn : 0 < n) (w : List A) (hw : w.length ≤ n) (op : NStep.Op E A) :
    (NStep.window term n w op).length ≤ n ∧ ∃ H : List A, (NStep.emit term n w op).map List.head? = H.map some ∧
      H ++ pend n (NStep.window term n w op) = pend n w ++ newOf op := by
  cases op with
  | append e x =>
    have hd : dequeAppend n w x = pend n w ++ [x] := by
      unfold dequeAppend pend
      by_cases h : w.length = n
      · rw [if_pos (by omega), if_pos h, List.tail_append_of_ne_nil (by rintro rfl; simp at h; omega)]
      · rw [if_neg (by omega), if_neg h]
    have hl : (pend n w ++ [x]).length ≤ n := by
      unfold pend; split <;> simp <;> omega
    simp only [NStep.emit, NStep.window, newOf, hd]
    by_cases ht : term x = true
    · rw [if_pos ht, if_pos ht]
      refine ⟨by simp, pend n w ++ [x], tails_heads _, ?_⟩
      simp [pend]
    · rw [if_neg ht, if_neg ht]
      refine ⟨hl, ?_⟩
      generalize hv : pend n w ++ [x] = v at *
      cases v with
      | nil => simp at hv
      | cons y t =>
        by_cases h : (y :: t).length = n
        · rw [if_pos h]
          refine ⟨[y], rfl, ?_⟩
          simp only [pend]
          rw [if_pos h]; rfl
        · rw [if_neg h]
          refine ⟨[], rfl, ?_⟩
          simp only [pend]
          rw [if_neg h]; rfl
  | stop e =>
    simp only [NStep.emit, NStep.window, newOf]
    refine ⟨by simp, pend n w, ?_, by simp [pend]⟩
    rw [List.map_append, tails_heads]
    cases w with
    | nil => simp [pend]
    | cons y t =>
      simp only [List.length_cons, pend] at *
      by_cases h : t.length + 1 = n
      · rw [if_neg (by omega), if_pos (by omega), if_pos h]; rfl
      · rw [if_pos (by omega), if_pos (by omega), if_neg h]; rfl

/-- No two entries begin with the same transition. -/
structure Heads (n N : Nat) (s : List (List (Nat × T)) × (E → List (Nat × T))) (H : List (Nat × T)) : Prop where
  heads : s.1.map List.head? = H.map some
  len : ∀ e, (s.2 e).length ≤ n
  nodup : ∀ e, ((H ++ pend n (s.2 e)).map (·.1)).Nodup
  apart : ∀ e e', e ≠ e' → ∀ p ∈ pend n (s.2 e), ∀ q ∈ pend n (s.2 e'), p.1 ≠ q.1
  lt : ∀ e, ∀ p ∈ H ++ pend n (s.2 e), p.1 < N
  nodupH : (H.map (·.1)).Nodup

theorem heads_step (term : Nat × T → Bool) (n N : Nat) (hn : 0 < n) {s : List (List (Nat × T)) × (E → List (Nat × T))} {H}
    (h : Heads n N s H) (op : NStep.Op E (Nat × T)) (N' : Nat) (hN : N ≤ N')
    (hop : (newOf op).map (·.1) = [] ∨ (newOf op).map (·.1) = [N] ∧ N' = N + 1) :
    ∃ H', Heads n N' (pureStep term n s op) H' := by
  obtain ⟨h1, G, h2, h3⟩ := emit_heads term n hn (s.2 op.env) (h.len op.env) op
  generalize hwin : NStep.window term n (s.2 op.env) op = w' at *
  have hnew : ∀ p ∈ newOf op, p.1 = N ∧ N < N' := by
    intro p hp
    have := List.mem_map_of_mem (f := (·.1)) hp
    rcases hop with h0 | ⟨h0, h4⟩
    · rw [h0] at this; simp at this
    · rw [h0] at this; simp at this; omega
  have sub : ∀ p ∈ G ++ pend n w', p ∈ pend n (s.2 op.env) ∨ p.1 = N ∧ N < N' := by
    intro p hp
    rw [h3] at hp
    rcases List.mem_append.1 hp with m | m
    · exact .inl m
    · exact .inr (hnew p m)
  have hall : ((H ++ (G ++ pend n w')).map (·.1)).Nodup := by
    rw [h3, ← List.append_assoc, List.map_append, List.nodup_append]
    refine ⟨h.nodup op.env, ?_, ?_⟩
    · rcases hop with h0 | ⟨h0, -⟩ <;> rw [h0] <;> simp
    · intro a ha b hb hab
      obtain ⟨p, hp, rfl⟩ := List.mem_map.1 ha
      obtain ⟨q, hq, rfl⟩ := List.mem_map.1 hb
      have := h.lt _ p hp
      have := hnew q hq
      omega
  have upd : ∀ e, (pureStep term n s op).2 e = if e = op.env then w' else s.2 e := by
    intro e; simp only [pureStep, Function.update_apply, hwin]
  refine ⟨H ++ G, ?_, ?_, ?_, ?_, ?_, ?_⟩
  · simp only [pureStep, List.map_append, h.heads, h2]
  · intro e; rw [upd]; split
    · exact h1
    · exact h.len e
  · intro e
    rw [upd, List.append_assoc]
    split
    · exact hall
    · rename_i he
      rw [List.map_append, List.map_append, List.nodup_append]
      have hG : ((H ++ G).map (·.1)).Nodup := by
        rw [← List.append_assoc, List.map_append] at hall
        exact (List.nodup_append.1 hall).1
      have hHe := h.nodup e
      rw [List.map_append, List.nodup_append] at hHe hG
      refine ⟨hHe.1, ?_, ?_⟩
      · rw [List.nodup_append]
        refine ⟨hG.2.1, hHe.2.1, ?_⟩
        intro a ha b hb hab
        obtain ⟨p, hp, rfl⟩ := List.mem_map.1 ha
        obtain ⟨q, hq, rfl⟩ := List.mem_map.1 hb
        rcases sub p (List.mem_append_left _ hp) with m | m
        · exact h.apart op.env e (Ne.symm he) p m q hq hab
        · have := h.lt e q (List.mem_append_right _ hq); omega
      · intro a ha b hb
        rcases List.mem_append.1 hb with m | m
        · exact hG.2.2 a ha b m
        · exact hHe.2.2 a ha b m
  · intro e e' hne p hp q hq
    rw [upd] at hp hq
    split at hp <;> split at hq
    · rename_i a b; exact (hne (a.trans b.symm)).elim
    · rename_i a b
      rcases sub p (List.mem_append_right _ hp) with m | m
      · exact h.apart op.env e' (fun x => b x.symm) p m q hq
      · have := h.lt e' q (List.mem_append_right _ hq); omega
    · rename_i a b
      rcases sub q (List.mem_append_right _ hq) with m | m
      · exact h.apart e op.env a p hp q m
      · have := h.lt e p (List.mem_append_right _ hp); omega
    · exact h.apart e e' hne p hp q hq
  · intro e p hp
    rw [upd, List.append_assoc] at hp
    rcases List.mem_append.1 hp with m | m
    · have := h.lt e p (List.mem_append_left _ m); omega
    · rcases List.mem_append.1 m with m | m
      · rcases sub p (List.mem_append_left _ m) with m | m
        · have := h.lt op.env p (List.mem_append_right _ m); omega
        · omega
      · split at m
        · rcases sub p (List.mem_append_right _ m) with m | m
          · have := h.lt op.env p (List.mem_append_right _ m); omega
          · omega
        · have := h.lt e p (List.mem_append_right _ m); omega
  · rw [← List.append_assoc, List.map_append] at hall
    exact (List.nodup_append.1 hall).1

theorem heads_run (term : Nat × T → Bool) (n : Nat) (hn : 0 < n) (cs : List (Call E T W)) (N : Nat)
    {s : List (List (Nat × T)) × (E → List (Nat × T))} {H} (h : Heads n N s H) :
    ∃ N' H', Heads n N' ((tagged N cs).foldl (pureStep term n) s) H' := by
  induction cs generalizing N s H with
  | nil => exact ⟨N, H, h⟩
  | cons c cs ih =>
    cases c with
    | append e x =>
      obtain ⟨H', h'⟩ := heads_step term n N hn h (.append e (N, x)) (N + 1) (by omega) (.inr ⟨rfl, rfl⟩)
      exact ih (N + 1) h'
    | stop e =>
      obtain ⟨H', h'⟩ := heads_step term n N hn h (.stop e) N (by omega) (.inl rfl)
      exact ih N h'
    | sample idx ws => exact ih N h

/-! ## Weights -/

/-- The dicts that entries begin with. -/
def Buf.heads (b : Buf E T W) (as : List Nat) : List (Option Nat) := as.map fun a => (get b.lists a).head?

theorem weigh_other (b : Buf E T W) (a c : Nat) (w : W) (h : (get b.lists a).head? ≠ (get b.lists c).head?) :
    (b.weigh a w).weightOf c = b.weightOf c := by
  have hl := (weigh_eq b a w).1
  unfold Buf.weightOf
  rw [hl]
  cases hc : (get b.lists c).head? with
  | none => rfl
  | some j =>
    simp only [Option.bind_some]
    congr 1
    unfold Buf.weigh
    split
    · rename_i i hi
      simp only
      have hne : i ≠ j := by rintro rfl; exact h (hi.trans hc.symm)
      rw [List.getElem?_modify]
      simp [hne]
    · rfl

theorem weigh_self (b : Buf E T W) (a j : Nat) (w : W) (h : (get b.lists a).head? = some j) (hj : j < b.dicts.length) :
    (b.weigh a w).weightOf a = some w := by
  have hl := (weigh_eq b a w).1
  unfold Buf.weightOf
  rw [hl, h]
  unfold Buf.weigh
  rw [h]
  simp only [Option.bind_some, List.getElem?_modify]
  simp [hj]

theorem weighs_other (ps : List (Nat × W)) (b : Buf E T W) (c : Nat)
    (h : ∀ p ∈ ps, (get b.lists p.1).head? ≠ (get b.lists c).head?) :
    (ps.foldl (fun b p => b.weigh p.1 p.2) b).weightOf c = b.weightOf c := by
  induction ps generalizing b with
  | nil => rfl
  | cons p ps ih =>
    rw [List.foldl_cons, ih, weigh_other _ _ _ _ (h p List.mem_cons_self)]
    rw [(weigh_eq b p.1 p.2).1]
    exact fun q hq => h q (List.mem_cons_of_mem _ hq)

theorem weighs_own (as : List Nat) (ws : List W) (b : Buf E T W) (hl : ws.length = as.length) (J : List Nat)
    (hJ : b.heads as = J.map some) (nd : J.Nodup) (lt : ∀ j ∈ J, j < b.dicts.length) :
    as.map ((as.zip ws).foldl (fun b p => b.weigh p.1 p.2) b).weightOf = ws.map some := by
  induction as generalizing ws b J with
  | nil => rw [List.length_eq_zero_iff.1 hl]; rfl
  | cons a as ih =>
    cases ws with
    | nil => simp at hl
    | cons w ws =>
      cases J with
      | nil => simp [Buf.heads] at hJ
      | cons j J =>
        simp only [Buf.heads, List.map_cons, List.cons.injEq] at hJ
        obtain ⟨hj, hJ⟩ := hJ
        obtain ⟨nd1, nd2⟩ := List.nodup_cons.1 nd
        have hw := weigh_eq b a w
        rw [List.zip_cons_cons, List.foldl_cons, List.map_cons, List.map_cons]
        congr 1
        · simp only
          rw [weighs_other, weigh_self b a j w hj (lt j List.mem_cons_self)]
          intro p hp he
          have := List.mem_map_of_mem (f := fun a => (get b.lists a).head?) (List.of_mem_zip (a := p.1) (b := p.2) hp).1
          rw [hJ] at this
          rw [hw.1] at he
          rw [he, hj] at this
          simp at this
          exact nd1 this
        · refine ih ws (b.weigh a w) (by simpa using hl) J ?_ nd2 ?_
          · unfold Buf.heads; rw [hw.1]; exact hJ
          · intro i hi; rw [hw.2.2.2.2.2.1]; exact lt i (List.mem_cons_of_mem _ hi)

end Verif.Sharing
