import Mathlib.Algebra.Field.Rat
import Mathlib.Algebra.Order.Ring.Rat
import Mathlib.Tactic.LinearCombination
import Mathlib.Tactic.Ring
import Verif.Model.PPOData
import Verif.Spec.PPOData
set_option autoImplicit false
set_option linter.unusedSectionVars false

/-! # C49, C51: advantages and minibatches of PPO and TRPO -/

namespace Verif.PPOData

/-! ## C49 -/
section Adv
variable {K : Type} [CommRing K]

theorem addAdvantage_snd (gamma lambd : K) (ep : List (VTrans K)) :
    (addAdvantage gamma lambd ep).2 = discounted (gamma * lambd) (ep.map (tdError gamma)) := by
  induction ep with
  | nil => rfl
  | cons t ep ih => simp only [addAdvantage, ih, List.map_cons, discounted, tdError]

/-- **C49**: in every episode fragment, the advantage of step `i` is the sum of the
temporal difference errors from `i` on, discounted by `gamma * lambda`, and its
value target is the advantage plus the predicted value. -/
theorem C49_gae (gamma lambd : K) (ep : List (VTrans K)) :
    (addAdvantage gamma lambd ep).1.length = ep.length ∧
    ∀ (i : Nat) t, ep[i]? = some t → ∃ adv, (addAdvantage gamma lambd ep).1[i]? =
        some (adv, adv + t.vPred) ∧
      adv = discounted (gamma * lambd) ((ep.drop i).map (tdError gamma)) := by
  induction ep with
  | nil => exact ⟨rfl, by simp⟩
  | cons a ep ih =>
    refine ⟨by simp [addAdvantage, ih.1], ?_⟩
    intro i t hi
    cases i with
    | zero =>
      simp only [List.getElem?_cons_zero, Option.some.injEq] at hi
      subst hi
      refine ⟨_, rfl, ?_⟩
      rw [addAdvantage_snd, List.drop_zero, List.map_cons, discounted]
      rfl
    | succ i =>
      simp only [List.getElem?_cons_succ] at hi
      obtain ⟨adv, h1, h2⟩ := ih.2 i t hi
      exact ⟨adv, by simpa [addAdvantage] using h1, by simpa using h2⟩

/-- **C49**, `lambda = 0`: the value target is the one-step TD target. -/
theorem C49_td (gamma : K) (ep : List (VTrans K)) (i : Nat) (t : VTrans K) (hi : ep[i]? = some t) :
    ∃ adv, (addAdvantage gamma 0 ep).1[i]? =
      some (adv, t.reward + gamma * t.nonterminal * t.nextVPred) := by
  obtain ⟨adv, h1, h2⟩ := (C49_gae gamma 0 ep).2 i t hi
  refine ⟨adv, ?_⟩
  rw [h1, h2]
  obtain ⟨hlt, hget⟩ := List.getElem?_eq_some_iff.1 hi
  rw [List.drop_eq_getElem_cons hlt, hget, List.map_cons, mul_zero]
  simp only [discounted, tdError, Option.some.injEq, Prod.mk.injEq, true_and]
  ring

/-- The value predictions of consecutive transitions agree, and only the last
transition may be terminal: what one network predicts along one episode. -/
def Chained : List (VTrans K) → Prop
  | [] => True
  | [_] => True
  | t :: u :: ep => t.nonterminal = 1 ∧ t.nextVPred = u.vPred ∧ Chained (u :: ep)

/-- **C49**, `lambda = 1`: along an episode the value target is the discounted sum of
the rewards to the end of the fragment plus the discounted value of its last state
if that is not terminal. -/
theorem C49_monte_carlo (gamma : K) (ep : List (VTrans K)) (hc : Chained ep) (i : Nat)
    (t last : VTrans K) (hi : ep[i]? = some t) (hl : ep.getLast? = some last) :
    ∃ adv, (addAdvantage gamma 1 ep).1[i]? = some (adv,
      discounted gamma ((ep.drop i).map (·.reward)) +
        gamma ^ (ep.length - i) * (last.nonterminal * last.nextVPred)) := by
  obtain ⟨adv, h1, h2⟩ := (C49_gae gamma 1 ep).2 i t hi
  refine ⟨adv, ?_⟩
  rw [h1, h2, mul_one]
  have key : ∀ (l : List (VTrans K)) (a last : VTrans K), Chained (a :: l) →
      (a :: l).getLast? = some last →
      discounted gamma ((a :: l).map (tdError gamma)) + a.vPred =
        discounted gamma ((a :: l).map (·.reward)) +
          gamma ^ (a :: l).length * (last.nonterminal * last.nextVPred) := by
    intro l
    induction l with
    | nil =>
      intro a last _ hl
      have : a = last := by simpa using hl
      subst this
      simp [discounted, tdError]; ring
    | cons b l ih =>
      intro a last ⟨c1, c2, c3⟩ hl
      have ih := ih b last c3 (by simpa using hl)
      have e1 : discounted gamma ((a :: b :: l).map (tdError gamma)) =
          tdError gamma a + gamma * discounted gamma ((b :: l).map (tdError gamma)) := rfl
      have e2 : discounted gamma ((a :: b :: l).map (·.reward)) =
          a.reward + gamma * discounted gamma ((b :: l).map (·.reward)) := rfl
      have e3 : (a :: b :: l).length = (b :: l).length + 1 := rfl
      rw [e1, e2, e3, tdError, c1, c2, pow_succ]
      linear_combination gamma * ih
  have hch : ∀ (i : Nat) (ep : List (VTrans K)), Chained ep → Chained (ep.drop i) := by
    intro i
    induction i with
    | zero => intro ep h; exact h
    | succ i ih =>
      intro ep h
      match ep, h with
      | [], _ => exact trivial
      | [a], _ => simp [Chained]
      | a :: u :: ep, h => exact ih (u :: ep) h.2.2
  obtain ⟨hlt, hget⟩ := List.getElem?_eq_some_iff.1 hi
  have hd : ep.drop i = t :: ep.drop (i + 1) := by rw [List.drop_eq_getElem_cons hlt, hget]
  have := key (ep.drop (i + 1)) t last (hd ▸ hch i ep hc) (by
    rw [← hd, List.getLast?_drop, if_neg (by omega)]; exact hl)
  rw [← hd, List.length_drop] at this
  rw [this]

end Adv

/-! ## C51 -/
section Cut
variable {α : Type}

/-- One sequence is cut into consecutive non-empty pieces of at most `max_len`, all
but the last of exactly that length. -/
theorem limitOne_spec (maxLen : Nat) (hm : 0 < maxLen) (seq : List α) (hne : seq ≠ []) :
    ∃ ps, limitOne maxLen seq = .ok ps ∧ ps.flatten = seq ∧
      (∀ p ∈ ps, 0 < p.length ∧ p.length ≤ maxLen) ∧ (∀ p ∈ ps.dropLast, p.length = maxLen) ∧
      ps ≠ [] := by
  induction hk : seq.length using Nat.strong_induction_on generalizing seq with
  | _ k ih =>
    rw [limitOne.eq_def]
    by_cases h : maxLen < seq.length ∧ 0 < maxLen
    · have hlen : (seq.drop maxLen).length = seq.length - maxLen := List.length_drop
      obtain ⟨ps, h1, h2, h3, h4, h5⟩ := ih (seq.drop maxLen).length (by omega) (seq.drop maxLen)
        (by intro h0; rw [h0] at hlen; simp at hlen; omega) rfl
      refine ⟨seq.take maxLen :: ps, ?_, ?_, ?_, ?_, by simp⟩
      · rw [dif_pos h]; simp only [h1, bind, Except.bind, pure, Except.pure]
      · rw [List.flatten_cons, h2, List.take_append_drop]
      · intro p hp
        rcases List.mem_cons.1 hp with rfl | hp
        · rw [List.length_take]; omega
        · exact h3 p hp
      · intro p hp
        cases ps with
        | nil => exact absurd rfl h5
        | cons q ps =>
          rw [List.dropLast_cons_cons] at hp
          rcases List.mem_cons.1 hp with rfl | hp
          · rw [List.length_take]; omega
          · exact h4 p hp
    · have hpos : 0 < seq.length := List.length_pos_iff.2 hne
      have hle : seq.length ≤ maxLen := by
        by_contra hc; exact h ⟨by omega, hm⟩
      refine ⟨[seq], ?_, by simp, ?_, by simp, by simp⟩
      · rw [dif_neg h]; simp [pyAssert, hpos, hle]
      · intro p hp
        rw [List.mem_singleton] at hp
        subst hp; exact ⟨hpos, hle⟩

/-- **C51**, `_limit_sequence_length`: every list of non-empty sequences is cut, each
sequence on its own and in order, into pieces of 1 to `max_len` items, all but the
last piece of a sequence having `max_len`. -/
theorem C51_limit (maxLen : Nat) (hm : 0 < maxLen) (seqs : List (List α)) (hne : ∀ s ∈ seqs, s ≠ []) :
    ∃ pss : List (List (List α)), limitSequenceLength seqs maxLen = .ok pss.flatten ∧
      pss.map List.flatten = seqs ∧
      ∀ ps ∈ pss, (∀ p ∈ ps, 0 < p.length ∧ p.length ≤ maxLen) ∧
        ∀ p ∈ ps.dropLast, p.length = maxLen := by
  simp only [limitSequenceLength, pyAssert, hm, decide_true, if_true]
  induction seqs with
  | nil => exact ⟨[], rfl, rfl, by simp⟩
  | cons s seqs ih =>
    obtain ⟨pss, h1, h2, h3⟩ := ih (fun s hs => hne s (by simp [hs]))
    obtain ⟨ps, g1, g2, g3, g4, -⟩ := limitOne_spec maxLen hm s (hne s (by simp))
    refine ⟨ps :: pss, ?_, by simp [g2, h2], ?_⟩
    · simp only [limitAll, g1, h1, bind, Except.bind, pure, Except.pure, List.flatten_cons]
    · intro q hq
      rcases List.mem_cons.1 hq with rfl | hq
      · exact ⟨g3, g4⟩
      · exact h3 q hq

/-- **C51**: a list with an empty sequence, or a limit of 0, is refused. -/
theorem C51_limit_refused (maxLen : Nat) (seqs : List (List α)) (h : maxLen = 0 ∨ [] ∈ seqs) :
    limitSequenceLength seqs maxLen = .error .assertionError := by
  by_cases hm : 0 < maxLen
  · rcases h with h | h
    · omega
    · simp only [limitSequenceLength, pyAssert, hm, decide_true, if_true]
      induction seqs with
      | nil => simp at h
      | cons s seqs ih =>
        by_cases hs : s = []
        · subst hs
          simp [limitAll, limitOne.eq_def, pyAssert, bind, Except.bind]
        · obtain ⟨ps, g1, -⟩ := limitOne_spec maxLen hm s hs
          have h' : [] ∈ seqs := by
            rcases List.mem_cons.1 h with h | h
            · exact absurd h.symm hs
            · exact h
          simp only [limitAll, g1, ih h', bind, Except.bind]
  · simp [limitSequenceLength, pyAssert, hm]

/-- Number of items. -/
def total (seqs : List (List α)) : Nat := (seqs.map List.length).sum

theorem total_append (a b : List (List α)) : total (a ++ b) = total a + total b := by
  simp [total]

theorem total_cons (a : List α) (b : List (List α)) : total (a :: b) = a.length + total b := by
  simp [total]

/-- The inner loop succeeds if there are enough items: it takes a prefix of the
stack, of which the last sequence is the first to reach `n`. -/
theorem popItems_ok (n : Nat) : ∀ (stack subset : List (List α)) (count : Nat),
    (∀ s ∈ stack, s ≠ []) → n ≤ count + total stack →
    ∃ pre rest, stack = pre ++ rest ∧ popItems n count subset stack =
        .ok (subset ++ pre, count + total pre, rest) ∧ n ≤ count + total pre ∧
      (∀ (init : List (List α)) (l : List α), pre = init ++ [l] → count + total init < n) ∧
      (pre = [] → n ≤ count)
  | stack, subset, count, hne, hle => by
    by_cases hc : count < n
    · cases stack with
      | nil => simp [total] at hle; omega
      | cons s stack =>
        obtain ⟨pre, rest, h1, h2, h3, h4, h5⟩ := popItems_ok n stack (subset ++ [s])
          (count + s.length) (fun s' hs => hne s' (by simp [hs])) (by rw [total_cons] at hle; omega)
        refine ⟨s :: pre, rest, by simp [h1], ?_, by rw [total_cons]; omega, ?_, by simp⟩
        · rw [popItems, if_pos hc, h2, total_cons]
          simp only [List.append_assoc, List.singleton_append, Except.ok.injEq, Prod.mk.injEq, true_and,
            and_true]
          omega
        · intro init l hil
          cases init with
          | nil => simpa [total] using hc
          | cons a init =>
            simp only [List.cons_append, List.cons.injEq] at hil
            obtain ⟨rfl, hil⟩ := hil
            have := h4 init l hil
            rw [total_cons]; omega
    · refine ⟨[], stack, rfl, ?_, by simp [total]; omega, by simp, fun _ => by omega⟩
      rw [popItems.eq_def, if_neg hc]
      simp [total]

/-- The inner loop fails with `IndexError` if there are not. -/
theorem popItems_fail (n : Nat) : ∀ (stack subset : List (List α)) (count : Nat),
    count + total stack < n → popItems n count subset stack = .error .indexError
  | [], subset, count, h => by
    rw [popItems.eq_def, if_pos (by simp [total] at h; omega)]
  | s :: stack, subset, count, h => by
    rw [total_cons] at h
    rw [popItems, if_pos (by omega)]
    exact popItems_fail n stack _ _ (by omega)

/-- One iteration of the outer loop, with enough items. -/
theorem one_subset (n : Nat) (hn : 0 < n) (stack : List (List α)) (hne : ∀ s ∈ stack, s ≠ [])
    (hle : n ≤ total stack) :
    ∃ sub rest, (∀ s ∈ rest, s ≠ []) ∧ total sub = n ∧ total rest + n = total stack ∧
      (∀ fuel, yieldLoop n (fuel + 1) stack =
        (sub :: (yieldLoop n fuel rest).1, (yieldLoop n fuel rest).2)) ∧
      (∀ us, Cuts n rest us → Cuts n stack (sub :: us)) := by
  obtain ⟨pre, rest, h1, h2, h3, h4, h5⟩ := popItems_ok n stack [] 0 hne (by omega)
  simp only [Nat.zero_add, List.nil_append] at h2 h3 h4
  have hpre : pre ≠ [] := fun h => by have := h5 h; omega
  obtain ⟨init, l, rfl⟩ : ∃ init l, pre = init ++ [l] :=
    ⟨pre.dropLast, pre.getLast hpre, (List.dropLast_concat_getLast hpre).symm⟩
  have hlt := h4 init l rfl
  have htot : total (init ++ [l]) = total init + l.length := by simp [total]
  rw [htot] at h3
  have hs : stack.isEmpty = false := by rw [h1]; simp
  have hnerest : ∀ s ∈ rest, s ≠ [] := fun s hs => hne s (by rw [h1]; simp [hs])
  have htots : total stack = total init + l.length + total rest := by
    rw [h1, total_append, htot]
  by_cases hex : n < total init + l.length
  · -- the last sequence is split
    have hk : l.length - (total init + l.length - n) = n - total init := by omega
    refine ⟨init ++ [l.take (n - total init)], l.drop (n - total init) :: rest, ?_, ?_, ?_, ?_, ?_⟩
    · intro s hs
      rcases List.mem_cons.1 hs with rfl | hs
      · intro h0
        have := congrArg List.length h0
        simp at this
        omega
      · exact hnerest s hs
    · rw [total_append, total_cons]; simp [total] at *; omega
    · rw [total_cons, htots]; simp; omega
    · intro fuel
      rw [yieldLoop, hs, h2, htot]
      simp only [Bool.false_eq_true, if_false, splitLast, hex, if_true, List.getLast?_concat,
        Option.getD_some, List.dropLast_concat, hk]
      rw [if_pos]
      have : total (init ++ [l.take (n - total init)]) = n := by
        rw [total_append, total_cons]; simp [total] at *; omega
      exact this
    · intro us hus
      have := Cuts.split (n := n) init (l.take (n - total init)) (l.drop (n - total init)) rest us
        (by
          show total init + _ = n
          rw [List.length_take]; omega)
        (by intro h0; have := congrArg List.length h0; rw [List.length_take, List.length_nil] at this; omega)
        (by intro h0; have := congrArg List.length h0; simp at this; omega) hus
      rw [List.take_append_drop] at this
      rw [h1]; simpa using this
  · refine ⟨init ++ [l], rest, hnerest, by omega, by omega, ?_, ?_⟩
    · intro fuel
      rw [yieldLoop, hs, h2, htot]
      simp only [Bool.false_eq_true, if_false, splitLast, hex]
      rw [if_pos (show (List.map List.length (init ++ [l])).sum = n from (show total (init ++ [l]) = n by omega))]
    · intro us hus
      rw [h1]
      exact .whole _ _ _ (show total (init ++ [l]) = n by omega) hus

/-- **C51**: if the number of items is a multiple of `n_items`, the generator yields
subsets of exactly `n_items` items that are consecutive parts of the dataset, and
ends normally. -/
theorem C51_subsets_partial (n : Nat) (hn : 0 < n) (seqs : List (List α)) (hne : ∀ s ∈ seqs, s ≠ [])
    (hdvd : n ∣ (seqs.map List.length).sum) :
    ∃ us, yieldSubsets seqs n = (us, none) ∧ Cuts n seqs us := by
  obtain ⟨k, hk⟩ := hdvd
  change total seqs = n * k at hk
  have key : ∀ (k : Nat) (seqs : List (List α)) (fuel : Nat), (∀ s ∈ seqs, s ≠ []) →
      total seqs = n * k → k < fuel → ∃ us, yieldLoop n fuel seqs = (us, none) ∧ Cuts n seqs us := by
    intro k
    induction k with
    | zero =>
      intro seqs fuel hne ht hf
      have : seqs = [] := by
        cases seqs with
        | nil => rfl
        | cons s seqs =>
          have := List.length_pos_iff.2 (hne s (by simp))
          rw [total_cons] at ht; simp at ht
          simp [ht.1] at this
      subst this
      obtain ⟨f, rfl⟩ : ∃ f, fuel = f + 1 := ⟨fuel - 1, by omega⟩
      exact ⟨[], rfl, .nil⟩
    | succ k ih =>
      intro seqs fuel hne ht hf
      obtain ⟨f, rfl⟩ : ∃ f, fuel = f + 1 := ⟨fuel - 1, by omega⟩
      obtain ⟨sub, rest, h1, h2, h3, h4, h5⟩ := one_subset n hn seqs hne (by
        rw [ht, Nat.mul_succ]; omega)
      obtain ⟨us, g1, g2⟩ := ih rest f h1 (by rw [ht, Nat.mul_succ] at h3; omega) (by omega)
      exact ⟨sub :: us, by rw [h4, g1], h5 us g2⟩
  have hfuel : k < total seqs + 2 := by
    rw [hk]
    have : k ≤ n * k := Nat.le_mul_of_pos_left k hn
    omega
  obtain ⟨us, h1, h2⟩ := key k seqs (total seqs + 2) hne hk hfuel
  refine ⟨us, ?_, h2⟩
  rw [yieldSubsets, if_pos hn]
  exact h1

/-- **C51 does not hold** for other datasets: if the number of items is not a
multiple of `n_items`, the iteration ends with `IndexError` after
`number of items / n_items` subsets, and the remaining items are in none. -/
theorem C51_violated_remainder (n : Nat) (hn : 0 < n) (seqs : List (List α))
    (hne : ∀ s ∈ seqs, s ≠ []) (hdvd : ¬ n ∣ (seqs.map List.length).sum) :
    ∃ us, yieldSubsets seqs n = (us, some .indexError) ∧
      us.length = (seqs.map List.length).sum / n ∧ ∀ u ∈ us, (u.map List.length).sum = n := by
  change ¬ n ∣ total seqs at hdvd
  have key : ∀ (k : Nat) (seqs : List (List α)) (fuel : Nat), (∀ s ∈ seqs, s ≠ []) →
      total seqs / n = k → ¬ n ∣ total seqs → k < fuel →
      ∃ us, yieldLoop n fuel seqs = (us, some .indexError) ∧ us.length = k ∧
        ∀ u ∈ us, total u = n := by
    intro k
    induction k with
    | zero =>
      intro seqs fuel hne hq hd hf
      obtain ⟨f, rfl⟩ : ∃ f, fuel = f + 1 := ⟨fuel - 1, by omega⟩
      have hlt : total seqs < n := by
        by_contra hc
        have := Nat.div_pos (Nat.le_of_not_lt hc) hn
        omega
      have hs : seqs.isEmpty = false := by
        cases seqs with
        | nil => exact absurd (by simp [total]) hd
        | cons a l => rfl
      refine ⟨[], ?_, rfl, by simp⟩
      rw [yieldLoop, hs, popItems_fail n seqs [] 0 (by omega)]
      rfl
    | succ k ih =>
      intro seqs fuel hne hq hd hf
      obtain ⟨f, rfl⟩ : ∃ f, fuel = f + 1 := ⟨fuel - 1, by omega⟩
      have hle : n ≤ total seqs := by
        by_contra hc
        rw [Nat.div_eq_of_lt (by omega)] at hq; omega
      obtain ⟨sub, rest, h1, h2, h3, h4, -⟩ := one_subset n hn seqs hne hle
      have hq' : total rest / n = k := by
        rw [← h3, Nat.add_div_right _ hn] at hq; omega
      have hd' : ¬ n ∣ total rest := by
        intro hx; apply hd; rw [← h3]; exact Nat.dvd_add hx (dvd_refl n)
      obtain ⟨us, g1, g2, g3⟩ := ih rest f h1 hq' hd' (by omega)
      refine ⟨sub :: us, by rw [h4, g1], by simp [g2], ?_⟩
      intro u hu
      rcases List.mem_cons.1 hu with rfl | hu
      · exact h2
      · exact g3 u hu
  obtain ⟨us, h1, h2, h3⟩ := key (total seqs / n) seqs (total seqs + 2) hne rfl hdvd (by
    have := Nat.div_le_self (total seqs) n
    omega)
  refine ⟨us, ?_, h2, h3⟩
  rw [yieldSubsets, if_pos hn]
  exact h1

/-- **C51**: in such a cut, every subset has `n_items` items and the items of the
subsets, concatenated, are the items of the dataset in order. -/
theorem C51_cuts (n : Nat) (seqs : List (List α)) (us : List (List (List α))) (h : Cuts n seqs us) :
    us.flatten.flatten = seqs.flatten ∧ ∀ u ∈ us, (u.map List.length).sum = n := by
  induction h with
  | nil => simp
  | whole sub rest us hs _ ih =>
    refine ⟨by simp [ih.1], ?_⟩
    intro u hu
    rcases List.mem_cons.1 hu with rfl | hu
    · exact hs
    · exact ih.2 u hu
  | split sub a b rest us hs _ _ _ ih =>
    refine ⟨by simp [ih.1], ?_⟩
    intro u hu
    rcases List.mem_cons.1 hu with rfl | hu
    · simpa using hs
    · exact ih.2 u hu

end Cut

/-! ## Non-vacuity -/

example : (addAdvantage (1/2 : ℚ) (1/2) [⟨1, 1, 10, 20⟩, ⟨2, 0, 20, 99⟩]).1 =
    [(1 + 10 - 10 + 1/4 * (2 - 20), 1 + 10 - 10 + 1/4 * (2 - 20) + 10), (-18, 2)] := by decide +kernel
example : Chained [(⟨1, 1, 10, 20⟩ : VTrans ℚ), ⟨2, 0, 20, 99⟩] := ⟨rfl, rfl, trivial⟩
example : yieldSubsets [[1, 2, 3], [4], [5, 6, 7, 8]] 2 =
    ([[[1, 2]], [[3], [4]], [[5, 6]], [[7, 8]]], none) := by decide +kernel
example : yieldSubsets [[1, 2, 3], [4]] 3 = ([[[1, 2, 3]]], some .indexError) := by decide +kernel
example : (limitSequenceLength [[1, 2, 3, 4, 5], [6]] 2) = .ok [[1, 2], [3, 4], [5], [6]] := by
  simp [limitSequenceLength, limitAll, limitOne.eq_def, pyAssert, bind, Except.bind, pure, Except.pure]

end Verif.PPOData
