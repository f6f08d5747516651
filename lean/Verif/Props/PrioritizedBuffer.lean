import Mathlib.Tactic.NormNum
import Mathlib.Algebra.Field.Rat
import Mathlib.Algebra.Order.Ring.Rat
import Verif.Proofs.PrioritizedBuffer
set_option autoImplicit false

/-! # C07, C08: `PrioritizedBuffer` -/

namespace Verif
open PBuf
variable {D K : Type _} [Field K] [LinearOrder K] [IsStrictOrderedRing K]

/-- C07, alignment: after every history of `append`, `popleft` and sampling
rounds, the buffer shows exactly the pairs of a plain list subjected to the same
history (so data and priorities stay aligned and first-in first-out), all
priorities are positive, `max_priority` is the greatest priority seen and the
capacity is respected. -/
theorem C07_aligned (cap : Option Nat) (wait : Bool) (m0 : K) (hc : cap ≠ some 0) (hm : 0 < m0)
    (b : PBuf D K) (items : List (D × K)) (mx : K) (h : Hist cap wait m0 b items mx) :
    b.Shows items ∧ b.maxPriority = mx ∧ (∀ x ∈ items, 0 < x.2) ∧
    (∀ c, cap = some c → items.length ≤ c) := by
  have hi := hist_inv hc hm h
  exact ⟨⟨hi.inv.data, TreeQueue.holds_shows _ _ _ hi.inv.sums, TreeQueue.holds_shows _ _ _ hi.inv.mins⟩,
    hi.mx, hi.pos, hi.len⟩

/-- C07, `append` and `popleft` never raise on a reachable buffer (except
`popleft` on an empty one) and continue the history. -/
theorem C07_append_popleft (cap : Option Nat) (wait : Bool) (m0 : K) (hc : cap ≠ some 0) (hm : 0 < m0)
    (b : PBuf D K) (items : List (D × K)) (mx : K) (h : Hist cap wait m0 b items mx) :
    (∀ v p, (∀ x, p = some x → 0 < x) → ∃ b', b.append v p = .ok b' ∧
      Hist cap wait m0 b' (BoundedList.newest cap (items ++ [(v, p.getD mx)])) mx) ∧
    (items = [] → b.popleft = .error .assertionError) ∧
    (∀ x t, items = x :: t → ∃ b', b.popleft = .ok (x.1, b') ∧ Hist cap wait m0 b' t mx) := by
  have hi := hist_inv hc hm h
  refine ⟨?_, ?_, ?_⟩
  · intro v p hp
    obtain ⟨b', e1, _⟩ := hi.append hc v p hp
    exact ⟨b', e1, .append v p h hp e1⟩
  · rintro rfl; exact popleft_inv b [] hi.inv
  · rintro x t rfl
    obtain ⟨b', e1, _⟩ := popleft_inv b (x :: t) hi.inv
    exact ⟨b', e1, .popleft h e1⟩

/-- C07, a sampling round.  On every reachable non-empty buffer, for every
`uniform_ratio` and all random choices for at most `len` samples,
`sample` returns the items at some positions `ixs`, with probability
`ratio/len + (1-ratio)*priority/total` for each; the following
`set_last_priority(ps)` succeeds and changes priorities only at those positions;
when sampling removes priorities (the default) the positions are distinct and
position `ixs[k]` gets exactly `ps[k]`. -/
theorem C07_round (cap : Option Nat) (wait : Bool) (m0 : K) (hc : cap ≠ some 0) (hm : 0 < m0)
    (b : PBuf D K) (items : List (D × K)) (mx : K) (h : Hist cap wait m0 b items mx)
    (hne : items ≠ []) (ratio : K) (d : Draws K) (hd : d.Valid ratio items.length)
    (hn : d.uniformIxs.length + d.us.length ≤ items.length)
    (ps : List K) (hps : ∀ p ∈ ps, 0 < p) (hl : ps.length = d.uniformIxs.length + d.us.length) :
    ∃ (ixs : List Nat) (data : List D) (probs pri : List K) (minProb : K) (b1 b2 : PBuf D K)
      (items' : List (D × K)),
      b.sample ratio d = .ok (data, probs, minProb, b1) ∧ b1.setLast ps = .ok b2 ∧
      ixs.length = ps.length ∧
      data.map some = ixs.map (fun i => (items.map Prod.fst)[i]?) ∧
      pri.map some = ixs.map (fun i => (items.map Prod.snd)[i]?) ∧
      probs = pri.map (fun p =>
        ratio / items.length + (1 - ratio) * p / (items.map Prod.snd).sum) ∧
      Hist cap wait m0 b2 items' (ps.foldl max mx) ∧
      items'.map Prod.fst = items.map Prod.fst ∧
      (∀ j, j ∉ ixs → items'[j]? = items[j]?) ∧
      (wait = true → ixs.Nodup ∧
        ∀ k (hk : k < ixs.length), (items'.map Prod.snd)[ixs[k]]? = ps[k]?) := by
  have hi := hist_inv hc hm h
  obtain ⟨pixs, data, probs, pri, b1, b2, e1, e2, e3, e4, e5, e6, e7, e8, e9, e10, e11⟩ :=
    hi.round hne ratio d hd hn ps hps hl
  obtain ⟨c1, c2⟩ := reprioritize_cols items (d.uniformIxs ++ pixs) ps
  refine ⟨d.uniformIxs ++ pixs, data, probs, pri, _, b1, b2, _, e1, e3, e5, e8, e9, e10,
    .round h hne hd hn e1 e2 e3, c1, ?_, ?_⟩
  · intro j hj
    unfold reprioritize
    have hz : ∀ ip ∈ (d.uniformIxs ++ pixs).zip ps, ip.1 ≠ j := by
      rintro ip hip rfl; exact hj (List.of_mem_zip hip).1
    generalize (d.uniformIxs ++ pixs).zip ps = l at hz
    clear * - hz
    induction l generalizing items with
    | nil => rfl
    | cons a l ih =>
      simp only [List.foldl_cons]
      rw [ih _ (fun ip hip => hz ip (by simp [hip])), List.getElem?_modify]
      simp [hz a (by simp)]
  · intro hw
    refine ⟨e7 hw, ?_⟩
    intro k hk
    rw [c2]
    exact (assign_nodup _ ps _ e5 (e7 hw) (by simpa using e6)).1 k hk

/-- C08, what holds: appends that do not overflow the capacity between `sample`
and `set_last_priority` do not disturb the update: the sampled items get the
given priorities and the appended ones follow with the greatest priority known
when they were appended.
Missing from the full C08: appends that evict, for which it is false
(`C08_violated`). -/
theorem C08_partial (cap : Option Nat) (wait : Bool) (m0 : K) (hc : cap ≠ some 0) (hm : 0 < m0)
    (b : PBuf D K) (items : List (D × K)) (mx : K) (h : Hist cap wait m0 b items mx)
    (hne : items ≠ []) (ratio : K) (d : Draws K) (hd : d.Valid ratio items.length)
    (hn : d.uniformIxs.length + d.us.length ≤ items.length)
    (ps : List K) (hps : ∀ p ∈ ps, 0 < p) (hl : ps.length = d.uniformIxs.length + d.us.length)
    (vs : List D) (hroom : ∀ c, cap = some c → items.length + vs.length ≤ c) :
    ∃ (ixs : List Nat) (data : List D) (probs : List K) (minProb : K) (b1 b2 b3 : PBuf D K),
      b.sample ratio d = .ok (data, probs, minProb, b1) ∧
      vs.foldlM (fun b v => b.append v none) b1 = .ok b2 ∧
      b2.setLast ps = .ok b3 ∧
      data.map some = ixs.map (fun i => (items.map Prod.fst)[i]?) ∧
      ixs.length = ps.length ∧
      b3.Shows (reprioritize items ixs ps ++ vs.map (fun v => (v, mx))) := by
  have hi := hist_inv hc hm h
  obtain ⟨pixs, data, probs, s, pri, e1, e2, e3, e4, e5, e6, e7, e8, e9, e10, e11⟩ :=
    sample_spec b items ratio d hi.inv hi.pos hne hi.flag hd hn
  have hixl : (d.uniformIxs ++ pixs).length = ps.length := by rw [List.length_append, e3, hl]
  -- the appends
  have happ : ∀ (vs : List D) (b1 : PBuf D K) (dat : List D) (A B : List K),
      b1.data = dat → TreeQueue.Holds List.sum b1.sums A → TreeQueue.Holds ListQueue.listMin b1.mins B →
      b1.capacity = cap → (∀ c, cap = some c → dat.length + vs.length ≤ c) →
      ∃ s m, vs.foldlM (fun b v => b.append v none) b1 =
          .ok { b1 with data := dat ++ vs, sums := s, mins := m } ∧
        TreeQueue.Holds List.sum s (A ++ vs.map (fun _ => b1.maxPriority)) ∧
        TreeQueue.Holds ListQueue.listMin m (B ++ vs.map (fun _ => b1.maxPriority)) := by
    intro vs
    induction vs with
    | nil =>
      intro b1 dat A B h1 h2 h3 _ _
      exact ⟨b1.sums, b1.mins, by simp [← h1]; rfl, by simpa using h2, by simpa using h3⟩
    | cons v vs ih =>
      intro b1 dat A B h1 h2 h3 h4 h5
      obtain ⟨s, s1, s2⟩ := TreeQueue.append_holds sum_law.single b1.sums A b1.maxPriority h2
      obtain ⟨m, m1, m2⟩ := TreeQueue.append_holds min_law.single b1.mins B b1.maxPriority h3
      have hroom : b1.makeRoom = .ok b1 := by
        unfold makeRoom
        rw [if_neg]
        rw [h4, h1]
        intro hcap
        have := h5 _ hcap
        simp at this
      have hap : b1.append v none = .ok { b1 with data := dat ++ [v], sums := s, mins := m } := by
        unfold PBuf.append
        rw [hroom]
        simp only [Option.getD_none, s1, m1, h1]
      obtain ⟨s', m', f1, f2, f3⟩ := ih { b1 with data := dat ++ [v], sums := s, mins := m }
        (dat ++ [v]) _ _ rfl s2 m2 h4 (fun c hc => by have := h5 c hc; simp at this ⊢; omega)
      refine ⟨s', m', ?_, by simpa using f2, by simpa using f3⟩
      rw [List.foldlM_cons, hap]
      simp only [List.append_assoc, List.singleton_append] at f1
      exact f1
  obtain ⟨s2, m2, a1, a2, a3⟩ := happ vs
    { b with sums := s, sampled := some ((d.uniformIxs ++ pixs).map Int.ofNat), flag := true }
    (items.map Prod.fst) _ _ hi.inv.data e10 hi.inv.mins hi.cap (by simpa using hroom)
  have hsl : (items.map Prod.snd).length = items.length := by simp
  have hz := zeroAt_spec (items.map Prod.snd) (d.uniformIxs ++ pixs)
  have hAlen : (if b.wait = true then zeroAt (items.map Prod.snd) (d.uniformIxs ++ pixs)
      else items.map Prod.snd).length = items.length := by
    split
    · rw [hz.1, hsl]
    · exact hsl
  obtain ⟨s3, m3, f1, f2, f3⟩ := setLoop_spec (d.uniformIxs ++ pixs) ps
    ({ b with data := items.map Prod.fst ++ vs, sums := s2, mins := m2,
              sampled := some ((d.uniformIxs ++ pixs).map Int.ofNat), flag := true } : PBuf D K)
    _ _ a2 a3
    (by intro i hi; rw [List.length_append, hAlen]; have := e4 i hi; omega)
    (by intro i hi; rw [List.length_append, hsl]; have := e4 i hi; omega) hixl
  have hagree : assign ((if b.wait = true then zeroAt (items.map Prod.snd) (d.uniformIxs ++ pixs)
      else items.map Prod.snd) ++ vs.map (fun _ => b.maxPriority)) (d.uniformIxs ++ pixs) ps
      = assign (items.map Prod.snd ++ vs.map (fun _ => b.maxPriority)) (d.uniformIxs ++ pixs) ps := by
    apply assign_agree _ _ _ _ hixl
    · rw [List.length_append, List.length_append, hAlen, hsl]
    · intro j hj
      rcases Nat.lt_or_ge j items.length with hlt | hge
      · rw [List.getElem?_append_left (by rw [hAlen]; exact hlt),
          List.getElem?_append_left (by rw [hsl]; exact hlt)]
        split
        · rw [hz.2, if_neg (fun hh => hj hh.1)]
        · rfl
      · rw [List.getElem?_append_right (by rw [hAlen]; exact hge),
          List.getElem?_append_right (by rw [hsl]; exact hge), hAlen, hsl]
  have happend : assign (items.map Prod.snd ++ vs.map (fun _ => b.maxPriority)) (d.uniformIxs ++ pixs) ps
      = assign (items.map Prod.snd) (d.uniformIxs ++ pixs) ps ++ vs.map (fun _ => b.maxPriority) := by
    unfold assign
    have hzip : ∀ ip ∈ (d.uniformIxs ++ pixs).zip ps, ip.1 < (items.map Prod.snd).length := by
      intro ip hip; rw [hsl]; exact e4 _ (List.of_mem_zip hip).1
    generalize (d.uniformIxs ++ pixs).zip ps = l at hzip
    generalize items.map Prod.snd = xs at hzip
    clear * - hzip
    induction l generalizing xs with
    | nil => rfl
    | cons a l ih =>
      simp only [List.foldl_cons]
      rw [List.set_append_left _ _ (hzip a (by simp))]
      exact ih (xs.set a.1 a.2) (fun ip hip => by simpa using hzip ip (by simp [hip]))
  obtain ⟨c1, c2⟩ := reprioritize_cols items (d.uniformIxs ++ pixs) ps
  refine ⟨d.uniformIxs ++ pixs, data, probs, _, _, _,
    { b with data := items.map Prod.fst ++ vs, sums := s3, mins := m3,
             maxPriority := ps.foldl max b.maxPriority, flag := false, sampled := some [] },
    e1, a1, ?_, e7, hixl, ?_⟩
  · unfold setLast
    simp only [Bool.not_true, Bool.and_false, Bool.false_eq_true, if_false]
    rw [if_neg (not_not.2 hps)]
    simp only [List.length_map]
    rw [if_neg (not_not.2 hixl), f1]
  · refine ⟨by simp [c1, Function.comp_def], ?_, ?_⟩
    · apply TreeQueue.holds_shows
      rw [hagree, happend] at f2
      simpa [c2, hi.mx, Function.comp_def] using f2
    · apply TreeQueue.holds_shows
      rw [happend] at f3
      simpa [c2, hi.mx, Function.comp_def] using f3

-- a history with an eviction and a full round meets the hypotheses of C07
example : ∃ b : PBuf String ℚ, Hist (some 2) true 1 b [("b", 1), ("c", 1)] 1 := by
  obtain ⟨b1, e1, h1⟩ := (C07_append_popleft (some 2) true (1 : ℚ) (by simp) (by norm_num) _ _ _
    (Hist.init (D := String))).1 "a" none (by simp)
  obtain ⟨b2, e2, h2⟩ := (C07_append_popleft (some 2) true (1 : ℚ) (by simp) (by norm_num) _ _ _
    h1).1 "b" none (by simp)
  obtain ⟨b3, e3, h3⟩ := (C07_append_popleft (some 2) true (1 : ℚ) (by simp) (by norm_num) _ _ _
    h2).1 "c" none (by simp)
  exact ⟨b3, h3⟩

example : Draws.Valid (⟨[1], [1/2]⟩ : Draws ℚ) (1/4) 2 :=
  ⟨by simp, by simp, by simp; norm_num, by norm_num⟩

/-- C08 is false of the code: with a full buffer of capacity 2, the item `"b"`
is sampled, one append evicts `"a"`, and `set_last_priority([5])` writes 5 to the
newly appended `"c"`; the sampled `"b"` keeps the priority 0 that sampling left
behind, so it can never be sampled again. -/
theorem C08_violated :
    (do
      let b ← (init (some 2) true 1 : PBuf String ℚ).append "a" none
      let b ← b.append "b" none
      let (sampled, _, _, b) ← b.sample 0 ⟨[], [3/4]⟩
      let b ← b.append "c" none
      let b ← b.setLast [5]
      pure (sampled, b.data, ListQueue.drain List.sum 2 b.sums) : Py _)
    = .ok (["b"], ["b", "c"], [.ok (some 0), .ok (some 5)]) := by
  decide +kernel

end Verif
