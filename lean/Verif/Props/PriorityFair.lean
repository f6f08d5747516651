import Mathlib.MeasureTheory.Integral.IntervalIntegral.Basic
import Mathlib.Analysis.SpecialFunctions.Integrals.Basic
import Mathlib.Tactic.Linarith
import Mathlib.Tactic.FieldSimp
import Mathlib.Tactic.Positivity
import Verif.Spec.PriorityFair
import Verif.Props.PrioritizedBuffer
set_option autoImplicit false
set_option linter.unusedSectionVars false

/-! # C159: what the importance weights of prioritized replay make up for -/

namespace Verif.PriorityFair
open Verif.PBuf ListQueue MeasureTheory

/-- A function that is constant between the prefix sums has as its mean the weighted sum of its
values. -/
theorem integral_steps (xs : List ℝ) (hx : ∀ x ∈ xs, 0 ≤ x) (hT : 0 < xs.sum) (φ : ℝ → ℝ)
    (v : ℕ → ℝ)
    (h : ∀ u, 0 ≤ u → u < 1 → ∀ i, prefixSum xs i ≤ u * xs.sum → u * xs.sum < prefixSum xs (i + 1) →
      φ u = v i) (k : ℕ) (hk : k ≤ xs.length) :
    IntervalIntegrable φ volume 0 (prefixSum xs k / xs.sum) ∧
      ∫ u in (0:ℝ)..(prefixSum xs k / xs.sum), φ u
        = ∑ i ∈ Finset.range k, v i * ((xs[i]?.getD 0) / xs.sum) := by
  induction k with
  | zero => simp [prefixSum]
  | succ k ih =>
    obtain ⟨i1, i2⟩ := ih (by omega)
    have hs := prefixSum_succ xs k (by omega)
    have hle : prefixSum xs k ≤ prefixSum xs (k + 1) := prefixSum_mono xs hx (by omega)
    have h0 : 0 ≤ prefixSum xs k := by
      have := prefixSum_mono xs hx (Nat.zero_le k); simpa [prefixSum] using this
    have h1 : prefixSum xs (k + 1) ≤ xs.sum := by
      have := prefixSum_mono xs hx hk; simpa [prefixSum] using this
    have hab : prefixSum xs k / xs.sum ≤ prefixSum xs (k + 1) / xs.sum := by gcongr
    have he : Set.EqOn (fun _ => v k) φ
        (Set.Ioo (prefixSum xs k / xs.sum) (prefixSum xs (k + 1) / xs.sum)) := by
      intro u hu
      obtain ⟨u1, u2⟩ := hu
      have u0 : 0 ≤ u := le_trans (by positivity) u1.le
      have u3 : u < 1 := lt_of_lt_of_le u2 ((div_le_one hT).2 h1)
      exact (h u u0 u3 k ((div_le_iff₀ hT).1 u1.le) ((lt_div_iff₀ hT).1 u2)).symm
    have j1 : IntervalIntegrable φ volume (prefixSum xs k / xs.sum)
        (prefixSum xs (k + 1) / xs.sum) :=
      IntervalIntegrable.congr_uIoo (f := fun _ => v k) intervalIntegrable_const
        (by rw [Set.uIoo_of_le hab]; exact he)
    refine ⟨i1.trans j1, ?_⟩
    rw [← intervalIntegral.integral_add_adjacent_intervals i1 j1, i2, Finset.sum_range_succ,
      ← intervalIntegral.integral_congr_Ioo_of_le hab he, intervalIntegral.integral_const,
      List.getElem?_eq_getElem (by omega), hs]
    simp only [smul_eq_mul, Option.getD_some]
    ring

/-- The sum over positions is the sum over the list. -/
theorem sum_positions {α : Type} (l : List α) (g : α → ℝ) :
    ∑ i ∈ Finset.range l.length, ((l[i]?.map g).getD 0) = (l.map g).sum := by
  induction l with
  | nil => simp
  | cons a l ih =>
    rw [List.length_cons, Finset.sum_range_succ']
    simp [add_comm] at ih ⊢
    exact ih

theorem sum_range_list (F : ℕ → ℝ) (n : ℕ) :
    ((List.range n).map F).sum = ∑ i ∈ Finset.range n, F i := by
  induction n with
  | zero => simp
  | succ n ih => rw [List.range_succ, Finset.sum_range_succ, ← ih]; simp

theorem sum_div_list (l : List ℝ) (c : ℝ) : l.sum / c = (l.map (fun x => x / c)).sum := by
  induction l with
  | nil => simp
  | cons a l ih => rw [List.sum_cons, add_div, ih]; simp

/-- The weighted sum over the entries at some positions. -/
theorem zip_positions {D : Type} (items : List (D × ℝ)) (f : D → ℝ) (W : ℝ → ℝ) (ixs : List ℕ)
    (data : List D) (pri : List ℝ) (hix : ∀ i ∈ ixs, i < items.length)
    (hd : data.map some = ixs.map (fun i => (items.map Prod.fst)[i]?))
    (hp : pri.map some = ixs.map (fun i => (items.map Prod.snd)[i]?)) :
    (List.zipWith (fun w x => w * f x) (pri.map W) data).sum
      = (ixs.map (fun i => ((items[i]?.map (fun x => W x.2 * f x.1)).getD 0))).sum := by
  induction ixs generalizing data pri with
  | nil =>
    have h1 : data = [] := by simpa using hd
    simp [h1]
  | cons i ixs ih =>
    cases data with
    | nil => simp at hd
    | cons x data =>
      cases pri with
      | nil => simp at hp
      | cons q pri =>
        have hil := hix i (by simp)
        simp only [List.map_cons, List.cons.injEq] at hd hp
        have h1 : x = items[i].1 := by simpa [hil] using hd.1
        have h2 : q = items[i].2 := by simpa [hil] using hp.1
        have h3 := ih data pri (fun j hj => hix j (by simp [hj])) hd.2 hp.2
        simp only [List.map_cons, List.zipWith_cons_cons, List.sum_cons, h3, h1, h2]
        simp [hil]

/-- What a draw of one entry gives: some entry, with its share of the priorities as the
probability. -/
theorem one_draw {D : Type} {cap : Option Nat} {wait : Bool} {m0 : ℝ}
    (hc : cap ≠ some 0) (hm : 0 < m0) {b : PBuf D ℝ} {items : List (D × ℝ)} {mx : ℝ}
    (h : PBuf.Hist cap wait m0 b items mx) (hne : items ≠ []) (u : ℝ) (h0 : 0 ≤ u) (h1 : u < 1) :
    ∃ i, ∃ hi : i < items.length, ∃ b',
      b.sample 0 ⟨[], [u]⟩ = .ok ([items[i].1], [items[i].2 / (items.map Prod.snd).sum],
        listMin (items.map Prod.snd) / (items.map Prod.snd).sum, b') ∧
      prefixSum (items.map Prod.snd) i ≤ u * (items.map Prod.snd).sum ∧
      u * (items.map Prod.snd).sum < prefixSum (items.map Prod.snd) (i + 1) := by
  have hi := hist_inv hc hm h
  have hlen := List.length_pos_iff.mpr hne
  obtain ⟨pixs, data, probs, s, pri, e1, e2, e3, e4, e5, e6, e7, e8, e9, e10, e11⟩ :=
    sample_spec b items 0 ⟨[], [u]⟩ hi.inv hi.pos hne hi.flag
      ⟨by simp, by simp, by simpa using ⟨h0, h1⟩, by simp⟩ (by simp; omega)
  match pixs, e3 with
  | [i], _ =>
    have hil : i < items.length := e4 i (by simp)
    have hd : data = [items[i].1] := by
      apply List.map_injective_iff.2 (Option.some_injective D)
      simpa [hil] using e7
    have hp : pri = [items[i].2] := by
      apply List.map_injective_iff.2 (Option.some_injective ℝ)
      simpa [hil] using e8
    have e12 : ListQueue.Draws (items.map Prod.snd) [u] [i] := by simpa [zeroAt] using e11
    rw [hd, e9, hp] at e1
    simp only [List.map_cons, List.map_nil, zero_div, zero_add, sub_zero, one_mul,
      lt_irrefl, if_false] at e1
    exact ⟨i, hil, _, e1, e12.1, e12.2.1⟩

/-- One draw, any way of weighting that depends on the probability alone. -/
theorem one_mean {D : Type} {cap : Option Nat} {wait : Bool} {m0 : ℝ}
    (hc : cap ≠ some 0) (hm : 0 < m0) {b : PBuf D ℝ} {items : List (D × ℝ)} {mx : ℝ}
    (h : PBuf.Hist cap wait m0 b items mx) (hne : items ≠ []) (p : PWE) (f : D → ℝ) (g : ℝ → ℝ)
    (hg : ∀ x ∈ items, ∃ p', p.weights items.length [x.2 / (items.map Prod.snd).sum]
      (listMin (items.map Prod.snd) / (items.map Prod.snd).sum) = .ok ([g x.2], p')) :
    ∃ est : ℝ → ℝ, (∀ u, 0 ≤ u → u < 1 → Weighted b 0 ⟨[], [u]⟩ p f (est u)) ∧
      ∫ u in (0:ℝ)..1, est u
        = (items.map (fun x => g x.2 * f x.1 * (x.2 / (items.map Prod.snd).sum))).sum := by
  have hi := hist_inv hc hm h
  have hbl : b.data.length = items.length := by rw [hi.inv.data]; simp
  have hx : ∀ x ∈ items.map Prod.snd, 0 ≤ x := by
    intro x hx
    obtain ⟨y, hy, rfl⟩ := List.mem_map.1 hx
    exact (hi.pos y hy).le
  have hT : 0 < (items.map Prod.snd).sum := by
    obtain ⟨a, l, rfl⟩ := List.exists_cons_of_ne_nil hne
    rw [List.map_cons, List.sum_cons]
    have := hi.pos a (by simp)
    have h2 : 0 ≤ (l.map Prod.snd).sum := List.sum_nonneg (fun x hx' => hx x (by simp at hx' ⊢; tauto))
    linarith
  set T := (items.map Prod.snd).sum
  let v : ℕ → ℝ := fun i => ((items[i]?.map (fun x => g x.2 * f x.1)).getD 0)
  have key : ∀ u, ∃ e, (0 ≤ u → u < 1 → Weighted b 0 ⟨[], [u]⟩ p f e ∧
      ∀ i, prefixSum (items.map Prod.snd) i ≤ u * T → u * T < prefixSum (items.map Prod.snd) (i + 1) →
        e = v i) := by
    intro u
    by_cases hu : 0 ≤ u ∧ u < 1
    · obtain ⟨i, hil, b', s1, s2, s3⟩ := one_draw hc hm h hne u hu.1 hu.2
      obtain ⟨p', hw⟩ := hg items[i] (List.getElem_mem hil)
      refine ⟨v i, fun _ _ => ⟨⟨_, _, _, _, _, p', s1, by rw [hbl]; exact hw, ?_⟩, ?_⟩⟩
      · simp [v, hil]
      · intro j j1 j2
        rw [interval_unique _ hx _ i j s2 s3 j1 j2]
    · exact ⟨0, fun a b => absurd ⟨a, b⟩ hu⟩
  choose est hest using key
  refine ⟨est, fun u a b => (hest u a b).1, ?_⟩
  have hint := (integral_steps (items.map Prod.snd) hx hT est v
    (fun u a b => (hest u a b).2) items.length (by simp)).2
  have hfull : prefixSum (items.map Prod.snd) items.length = T := by
    simp [prefixSum, T, List.take_of_length_le]
  rw [hfull, div_self hT.ne'] at hint
  rw [hint, ← sum_positions items (fun x => g x.2 * f x.1 * (x.2 / T))]
  refine Finset.sum_congr rfl (fun i hi' => ?_)
  have hil : i < items.length := by simpa using hi'
  simp [v, hil, T]

/-- C159, one draw, weights not normalized: for every reachable buffer, every exponent `beta` and
every quantity `f`, the weighted quantity is on average the mean of `f` in which an entry with the
probability `P` counts `(N * P) ^ (1 - beta)` times as much as in the plain mean. -/
theorem C159_beta {D : Type} (cap : Option Nat) (wait : Bool) (m0 : ℝ)
    (hc : cap ≠ some 0) (hm : 0 < m0) (b : PBuf D ℝ) (items : List (D × ℝ)) (mx : ℝ)
    (h : PBuf.Hist cap wait m0 b items mx) (hne : items ≠ []) (p : PWE) (hn : p.norm = .no)
    (f : D → ℝ) :
    ∃ est : ℝ → ℝ, (∀ u, 0 ≤ u → u < 1 → Weighted b 0 ⟨[], [u]⟩ p f (est u)) ∧
      ∫ u in (0:ℝ)..1, est u
        = (items.map (fun x => (items.length * (x.2 / (items.map Prod.snd).sum)) ^ (1 - p.beta)
            * f x.1)).sum / items.length := by
  obtain ⟨est, e1, e2⟩ := one_mean hc hm h hne p f
    (fun q => (items.length * (q / (items.map Prod.snd).sum)) ^ (-p.beta))
    (fun x _ => ⟨_, by simp only [PWE.weights, hn]; rfl⟩)
  refine ⟨est, e1, ?_⟩
  have hi := hist_inv hc hm h
  have hN : (0:ℝ) < items.length := by exact_mod_cast List.length_pos_iff.mpr hne
  rw [e2, sum_div_list, List.map_map]
  congr 1
  refine List.map_congr_left (fun x hx => ?_)
  have hx2 := hi.pos x hx
  have hT : 0 < (items.map Prod.snd).sum :=
    lt_of_lt_of_le hx2 (List.single_le_sum (fun y hy => by
      obtain ⟨z, hz, rfl⟩ := List.mem_map.1 hy
      exact (hi.pos z hz).le) _ (List.mem_map_of_mem hx))
  have hb : 0 < items.length * (x.2 / (items.map Prod.snd).sum) := by positivity
  simp only [Function.comp]
  rw [show (1 - p.beta) = 1 + (-p.beta) by ring, Real.rpow_add hb, Real.rpow_one]
  field_simp

/-- C159, one draw, weights not normalized, `beta = 1`: on average the weighted quantity is the
plain mean over what is stored, as if the draw were uniform. -/
theorem C159_unbiased {D : Type} (cap : Option Nat) (wait : Bool) (m0 : ℝ)
    (hc : cap ≠ some 0) (hm : 0 < m0) (b : PBuf D ℝ) (items : List (D × ℝ)) (mx : ℝ)
    (h : PBuf.Hist cap wait m0 b items mx) (hne : items ≠ []) (p : PWE) (hn : p.norm = .no)
    (hb : p.beta = 1) (f : D → ℝ) :
    ∃ est : ℝ → ℝ, (∀ u, 0 ≤ u → u < 1 → Weighted b 0 ⟨[], [u]⟩ p f (est u)) ∧
      ∫ u in (0:ℝ)..1, est u = uniformMean items f := by
  obtain ⟨est, e1, e2⟩ := C159_beta cap wait m0 hc hm b items mx h hne p hn f
  exact ⟨est, e1, by rw [e2, hb]; simp [uniformMean]⟩

/-- C159, one draw, `normalize_by_max='memory'`, `beta = 1`: on average the weighted quantity is
the plain mean times one factor in `(0, 1]`, the same for all quantities: the number of entries
times the smallest probability. -/
theorem C159_memory {D : Type} (cap : Option Nat) (wait : Bool) (m0 : ℝ)
    (hc : cap ≠ some 0) (hm : 0 < m0) (b : PBuf D ℝ) (items : List (D × ℝ)) (mx : ℝ)
    (h : PBuf.Hist cap wait m0 b items mx) (hne : items ≠ []) (p : PWE) (hn : p.norm = .memory)
    (hb : p.beta = 1) :
    ∃ c : ℝ, 0 < c ∧ c ≤ 1 ∧ ∀ f : D → ℝ,
      ∃ est : ℝ → ℝ, (∀ u, 0 ≤ u → u < 1 → Weighted b 0 ⟨[], [u]⟩ p f (est u)) ∧
        ∫ u in (0:ℝ)..1, est u = c * uniformMean items f := by
  have hi := hist_inv hc hm h
  have hN : (0:ℝ) < items.length := by exact_mod_cast List.length_pos_iff.mpr hne
  have hlist : items.map Prod.snd ≠ [] := by simpa using hne
  obtain ⟨hmin1, hmin2⟩ := listMin_spec (items.map Prod.snd) hlist
  have hmpos : 0 < listMin (items.map Prod.snd) := by
    obtain ⟨x, hx, hxe⟩ := List.mem_map.mp hmin1
    rw [← hxe]; exact hi.pos x hx
  have hle : items.length * listMin (items.map Prod.snd) ≤ (items.map Prod.snd).sum := by
    have := List.card_nsmul_le_sum (items.map Prod.snd) (listMin (items.map Prod.snd)) hmin2
    simpa using this
  have hT : 0 < (items.map Prod.snd).sum := lt_of_lt_of_le (by positivity) hle
  refine ⟨items.length * (listMin (items.map Prod.snd) / (items.map Prod.snd).sum), by positivity,
    by rw [← mul_div_assoc]; exact (div_le_one hT).2 hle, fun f => ?_⟩
  obtain ⟨est, e1, e2⟩ := one_mean hc hm h hne p f
    (fun q => (q / (items.map Prod.snd).sum /
      (listMin (items.map Prod.snd) / (items.map Prod.snd).sum)) ^ (-p.beta))
    (fun x _ => ⟨_, by simp only [PWE.weights, hn]; rfl⟩)
  refine ⟨est, e1, ?_⟩
  rw [e2, uniformMean, hb, ← mul_div_assoc, ← List.sum_map_mul_left, sum_div_list, List.map_map]
  congr 1
  refine List.map_congr_left (fun x hx => ?_)
  have hx2 := hi.pos x hx
  simp only [Function.comp]
  rw [Real.rpow_neg_one]
  field_simp

/-- C159, one draw, `normalize_by_max='batch'` (or `True`): the weight of a minibatch of one is
always 1, whatever `beta` is, so on average entries count in proportion to their priorities: nothing
is made up for. -/
theorem C159_batch_violated {D : Type} (cap : Option Nat) (wait : Bool) (m0 : ℝ)
    (hc : cap ≠ some 0) (hm : 0 < m0) (b : PBuf D ℝ) (items : List (D × ℝ)) (mx : ℝ)
    (h : PBuf.Hist cap wait m0 b items mx) (hne : items ≠ []) (p : PWE) (hn : p.norm = .batch)
    (f : D → ℝ) :
    ∃ est : ℝ → ℝ, (∀ u, 0 ≤ u → u < 1 → Weighted b 0 ⟨[], [u]⟩ p f (est u)) ∧
      ∫ u in (0:ℝ)..1, est u = priorityMean items f := by
  have hi := hist_inv hc hm h
  have hT : ∀ x ∈ items, 0 < (items.map Prod.snd).sum := fun x hx =>
    lt_of_lt_of_le (hi.pos x hx) (List.single_le_sum (fun y hy => by
      obtain ⟨z, hz, rfl⟩ := List.mem_map.1 hy
      exact (hi.pos z hz).le) _ (List.mem_map_of_mem hx))
  obtain ⟨est, e1, e2⟩ := one_mean hc hm h hne p f (fun _ => 1)
    (fun x hx => by
      have h1 := hi.pos x hx
      have h2 := hT x hx
      have h3 : x.2 / (items.map Prod.snd).sum ≠ 0 := (div_pos h1 h2).ne'
      exact ⟨_, by
        simp only [PWE.weights, hn, List.min?_singleton, List.map_cons, List.map_nil, div_self h3,
          Real.one_rpow]; rfl⟩)
  refine ⟨est, e1, ?_⟩
  rw [e2, priorityMean, sum_div_list, List.map_map]
  congr 1
  refine List.map_congr_left (fun x _ => ?_)
  simp only [Function.comp]
  ring

/-- C159, a minibatch of everything stored, drawn without replacement, weights not normalized,
`beta = 1`: for all draws every entry is there once, yet the entry with the probability `P` is
weighted with `1 / (N * P)`. -/
theorem C159_whole {D : Type} (cap : Option Nat) (wait : Bool) (m0 : ℝ)
    (hc : cap ≠ some 0) (hm : 0 < m0) (b : PBuf D ℝ) (items : List (D × ℝ)) (mx : ℝ)
    (h : PBuf.Hist cap wait m0 b items mx) (hne : items ≠ []) (p : PWE) (hn : p.norm = .no)
    (hb : p.beta = 1) (f : D → ℝ) (us : List ℝ) (hus : ∀ u ∈ us, 0 ≤ u ∧ u < 1)
    (hl : us.length = items.length) :
    Weighted b 0 ⟨[], us⟩ p f
      ((items.map (fun x => (items.map Prod.snd).sum / (items.length * x.2) * f x.1)).sum
        / items.length) := by
  have hi := hist_inv hc hm h
  have hbl : b.data.length = items.length := by rw [hi.inv.data]; simp
  obtain ⟨pixs, data, probs, s, pri, e1, e2, e3, e4, e5, e6, e7, e8, e9, e10, e11⟩ :=
    sample_spec b items 0 ⟨[], us⟩ hi.inv hi.pos hne hi.flag
      ⟨by simp, by simp, hus, by simp⟩ (by simp [hl])
  simp only [List.nil_append] at e3 e4 e7 e8
  have hperm : pixs.Perm (List.range items.length) := by
    refine (List.subperm_of_subset e6 (fun i hi' => List.mem_range.2 (e4 i hi'))).perm_of_length_le ?_
    rw [List.length_range, e3, hl]
  have hdl : data.length = items.length := by
    have := congrArg List.length e7
    simpa [e3, hl] using this
  refine ⟨data, probs, _, _, _, _, e1, by simp only [PWE.weights, hn]; rfl, ?_⟩
  rw [e9, hdl, hbl, List.map_map, zip_positions items f _ pixs data pri e4 e7 e8,
    (hperm.map _).sum_eq,
    sum_range_list, sum_positions]
  refine congrArg (fun l : List ℝ => l.sum / (items.length : ℝ)) (List.map_congr_left (fun x hx => ?_))
  simp only [Function.comp, hb, Real.rpow_neg_one]
  have := hi.pos x hx
  rw [zero_div, zero_add, sub_zero, one_mul, ← mul_div_assoc, inv_div]

/-- One draw with a uniform part: what the draw of the entry `i` gives. -/
theorem draw_entry {D : Type} {cap : Option Nat} {wait : Bool} {m0 : ℝ}
    (hc : cap ≠ some 0) (hm : 0 < m0) {b : PBuf D ℝ} {items : List (D × ℝ)} {mx : ℝ}
    (h : PBuf.Hist cap wait m0 b items mx) (hne : items ≠ []) (ratio : ℝ) (d : PBuf.Draws ℝ)
    (hd : d.Valid ratio items.length) (h1 : d.uniformIxs.length + d.us.length = 1) :
    ∃ i, ∃ hi : i < items.length, ∃ minProb b',
      b.sample ratio d = .ok ([items[i].1],
        [ratio / items.length + (1 - ratio) * items[i].2 / (items.map Prod.snd).sum], minProb, b') ∧
      (∀ j, d.uniformIxs = [j] → i = j) ∧
      ∀ u, d.uniformIxs = [] → d.us = [u] →
        prefixSum (items.map Prod.snd) i ≤ u * (items.map Prod.snd).sum ∧
        u * (items.map Prod.snd).sum < prefixSum (items.map Prod.snd) (i + 1) := by
  have hi := hist_inv hc hm h
  have hlen := List.length_pos_iff.mpr hne
  obtain ⟨pixs, data, probs, s, pri, e1, e2, e3, e4, e5, e6, e7, e8, e9, e10, e11⟩ :=
    sample_spec b items ratio d hi.inv hi.pos hne hi.flag hd (by omega)
  have hl : (d.uniformIxs ++ pixs).length = 1 := by rw [List.length_append, e3, h1]
  obtain ⟨i, hix⟩ := List.length_eq_one_iff.1 hl
  rw [hix] at e4 e7 e8
  have hil : i < items.length := e4 i (by simp)
  have hdd : data = [items[i].1] := by
    apply List.map_injective_iff.2 (Option.some_injective D)
    simpa [hil] using e7
  have hp : pri = [items[i].2] := by
    apply List.map_injective_iff.2 (Option.some_injective ℝ)
    simpa [hil] using e8
  rw [hdd, e9, hp] at e1
  refine ⟨i, hil, _, _, e1, fun j hj => ?_, fun u hu hus => ?_⟩
  · rw [hj] at hix
    simp only [List.singleton_append, List.cons.injEq] at hix
    exact hix.1.symm
  · rw [hu, List.nil_append] at hix
    rw [hu, hus, hix] at e11
    have e12 : ListQueue.Draws (items.map Prod.snd) [u] [i] := by simpa [zeroAt] using e11
    exact ⟨e12.1, e12.2.1⟩

/-- C159, one draw with a uniform part, weights not normalized, `beta = 1`: the entry is drawn
uniformly with probability `uniform_ratio` (`n_uniform` is 1) and otherwise by the priorities; on
average over all of this the weighted quantity is the plain mean over what is stored. -/
theorem C159_mixed {D : Type} (cap : Option Nat) (wait : Bool) (m0 : ℝ)
    (hc : cap ≠ some 0) (hm : 0 < m0) (b : PBuf D ℝ) (items : List (D × ℝ)) (mx : ℝ)
    (h : PBuf.Hist cap wait m0 b items mx) (hne : items ≠ []) (p : PWE) (hn : p.norm = .no)
    (hb : p.beta = 1) (f : D → ℝ) (ratio : ℝ) (hr0 : 0 < ratio) (hr1 : ratio ≤ 1) :
    ∃ (uni : ℕ → ℝ) (est : ℝ → ℝ),
      (∀ i, i < items.length → Weighted b ratio ⟨[i], []⟩ p f (uni i)) ∧
      (∀ u, 0 ≤ u → u < 1 → Weighted b ratio ⟨[], [u]⟩ p f (est u)) ∧
      ratio * ((∑ i ∈ Finset.range items.length, uni i) / items.length)
        + (1 - ratio) * ∫ u in (0:ℝ)..1, est u = uniformMean items f := by
  have hi := hist_inv hc hm h
  have hbl : b.data.length = items.length := by rw [hi.inv.data]; simp
  have hN : (0:ℝ) < items.length := by exact_mod_cast List.length_pos_iff.mpr hne
  have hx : ∀ x ∈ items.map Prod.snd, 0 ≤ x := by
    intro x hx
    obtain ⟨y, hy, rfl⟩ := List.mem_map.1 hx
    exact (hi.pos y hy).le
  have hT : 0 < (items.map Prod.snd).sum := by
    obtain ⟨a, l, rfl⟩ := List.exists_cons_of_ne_nil hne
    exact lt_of_lt_of_le (hi.pos a (by simp)) (List.single_le_sum hx _ (by simp))
  set T := (items.map Prod.snd).sum with hTdef
  -- the weighted quantity for the entry `x`
  let w : D × ℝ → ℝ := fun x => (items.length * (ratio / items.length + (1 - ratio) * x.2 / T))⁻¹ * f x.1
  let v : ℕ → ℝ := fun i => (items[i]?.map w).getD 0
  have hv : ∀ i (hil : i < items.length), v i = w items[i] := fun i hil => by simp [v, hil]
  have hW : ∀ d : PBuf.Draws ℝ, ∀ i, ∀ hil : i < items.length, ∀ minProb b',
      b.sample ratio d = .ok ([items[i].1], [ratio / items.length + (1 - ratio) * items[i].2 / T],
        minProb, b') → Weighted b ratio d p f (v i) := by
    intro d i hil minProb b' e
    refine ⟨_, _, _, _, _, _, e, by simp only [PWE.weights, hn]; rfl, ?_⟩
    simp [hv i hil, w, hbl, hb, Real.rpow_neg_one]
  have huni : ∀ i, i < items.length → Weighted b ratio ⟨[i], []⟩ p f (v i) := by
    intro i hil
    obtain ⟨k, hk, minProb, b', e, e1, -⟩ := draw_entry hc hm h hne ratio ⟨[i], []⟩
      ⟨by simp, by simpa using hil, by simp, fun hr => absurd hr0 hr⟩ rfl
    have hki := e1 i rfl
    subst hki
    exact hW _ k hk minProb b' e
  have key : ∀ u, ∃ e, (0 ≤ u → u < 1 → Weighted b ratio ⟨[], [u]⟩ p f e ∧
      ∀ i, prefixSum (items.map Prod.snd) i ≤ u * T → u * T < prefixSum (items.map Prod.snd) (i + 1) →
        e = v i) := by
    intro u
    by_cases hu : 0 ≤ u ∧ u < 1
    · obtain ⟨i, hil, minProb, b', e, -, e2⟩ := draw_entry hc hm h hne ratio ⟨[], [u]⟩
        ⟨by simp, by simp, by simpa using hu, by simp⟩ rfl
      obtain ⟨s2, s3⟩ := e2 u rfl rfl
      refine ⟨v i, fun _ _ => ⟨hW _ i hil minProb b' e, fun j j1 j2 => ?_⟩⟩
      rw [interval_unique _ hx _ i j s2 s3 j1 j2]
    · exact ⟨0, fun a b => absurd ⟨a, b⟩ hu⟩
  choose est hest using key
  refine ⟨v, est, huni, fun u a b => (hest u a b).1, ?_⟩
  have hint := (integral_steps (items.map Prod.snd) hx hT est v
    (fun u a b => (hest u a b).2) items.length (by simp)).2
  have hfull : prefixSum (items.map Prod.snd) items.length = T := by
    simp [prefixSum, hTdef, List.take_of_length_le]
  rw [hfull, div_self hT.ne'] at hint
  rw [hint, uniformMean, ← sum_positions items (fun x => f x.1), Finset.sum_div, Finset.mul_sum,
    Finset.mul_sum, ← Finset.sum_add_distrib, Finset.sum_div]
  refine Finset.sum_congr rfl (fun i hi' => ?_)
  have hil : i < items.length := by simpa using hi'
  have hpos := hi.pos _ (List.getElem_mem hil)
  have hq : 0 < ratio / items.length + (1 - ratio) * items[i].2 / T := by
    have : 0 ≤ (1 - ratio) * items[i].2 / T :=
      div_nonneg (mul_nonneg (by linarith) hpos.le) hT.le
    have : 0 < ratio / items.length := by positivity
    linarith
  have hfin : ratio * (w items[i] / items.length) + (1 - ratio) * (w items[i] * (items[i].2 / T))
      = f items[i].1 / items.length := by
    have e : ratio * (w items[i] / items.length) + (1 - ratio) * (w items[i] * (items[i].2 / T))
        = w items[i] * (ratio / items.length + (1 - ratio) * items[i].2 / T) := by ring
    rw [e]
    simp only [w]
    have hq' := hq.ne'
    generalize ratio / items.length + (1 - ratio) * items[i].2 / T = q at hq'
    field_simp
  rw [hv i hil]
  simpa [hil] using hfin

/-- A buffer that stores two entries with the priorities 1 and 3. -/
theorem two_entries : ∃ b : PBuf Bool ℝ, Hist (some 2) true 1 b [(true, 1), (false, 3)] 1 := by
  obtain ⟨b1, e1, h1⟩ := (C07_append_popleft (some 2) true (1 : ℝ) (by simp) (by norm_num) _ _ _
    (Hist.init (D := Bool))).1 true none (by simp)
  obtain ⟨b2, e2, h2⟩ := (C07_append_popleft (some 2) true (1 : ℝ) (by simp) (by norm_num) _ _ _
    h1).1 false (some 3) (by simp)
  exact ⟨b2, by simpa [BoundedList.newest] using h2⟩

/-- C159 is false of minibatches of several entries: from a buffer of two entries with the
priorities 1 and 3 a minibatch of two contains both for all draws, but with `beta = 1` and weights
that are not normalized the first entry counts twice and the second two thirds, so that the share of
the first entry comes out as 1 instead of one half. -/
theorem C159_several_violated :
    ∃ b : PBuf Bool ℝ, Hist (some 2) true 1 b [(true, 1), (false, 3)] 1 ∧
      uniformMean [(true, (1:ℝ)), (false, 3)] (fun x => if x then 1 else 0) = 1 / 2 ∧
      ∀ p : PWE, p.norm = .no → p.beta = 1 →
        ∀ u1 u2 : ℝ, 0 ≤ u1 → u1 < 1 → 0 ≤ u2 → u2 < 1 → ∀ v : ℝ,
          Weighted b 0 ⟨[], [u1, u2]⟩ p (fun x => if x then 1 else 0) v ↔ v = 1 := by
  obtain ⟨b, h⟩ := two_entries
  refine ⟨b, h, by simp [uniformMean], fun p hn hb u1 u2 a1 a2 a3 a4 v => ?_⟩
  have hw := C159_whole (some 2) true 1 (by simp) one_pos b _ 1 h (by simp) p hn hb
    (fun x => if x then 1 else 0) [u1, u2]
    (by rintro u hu; simp at hu; rcases hu with rfl | rfl <;> constructor <;> assumption) rfl
  have hv : (([(true, (1:ℝ)), (false, 3)].map (fun x => ([(true, (1:ℝ)), (false, 3)].map Prod.snd).sum
      / (([(true, (1:ℝ)), (false, 3)].length : ℝ) * x.2) * (if x.1 then 1 else 0 : ℝ))).sum
      / (([(true, (1:ℝ)), (false, 3)].length : ℝ))) = 1 := by
    norm_num
  rw [hv] at hw
  constructor
  · rintro ⟨data, probs, minProb, b', ws, p', s1, s2, rfl⟩
    obtain ⟨data2, probs2, minProb2, b2, ws2, p2, t1, t2, t3⟩ := hw
    rw [s1] at t1
    cases t1
    rw [s2] at t2
    cases t2
    exact t3.symm
  · rintro rfl; exact hw

/-- A concrete case: one draw from the buffer above, `beta = 1`, gives one half on average. -/
example (p : PWE) (hn : p.norm = .no) (hb : p.beta = 1) :
    ∃ b : PBuf Bool ℝ, ∃ est : ℝ → ℝ,
      (∀ u, 0 ≤ u → u < 1 → Weighted b 0 ⟨[], [u]⟩ p (fun x => if x then 1 else 0) (est u)) ∧
      ∫ u in (0:ℝ)..1, est u = 1 / 2 := by
  obtain ⟨b, h⟩ := two_entries
  obtain ⟨est, e1, e2⟩ := C159_unbiased (some 2) true 1 (by simp) one_pos b _ 1 h (by simp) p hn hb
    (fun x => if x then 1 else 0)
  exact ⟨b, est, e1, by rw [e2]; simp [uniformMean]⟩

/-- The same with a uniform part. -/
example (p : PWE) (hn : p.norm = .no) (hb : p.beta = 1) :
    ∃ b : PBuf Bool ℝ, ∃ (uni : ℕ → ℝ) (est : ℝ → ℝ),
      (∀ i, i < 2 → Weighted b (1 / 10) ⟨[i], []⟩ p (fun x => if x then 1 else 0) (uni i)) ∧
      (∀ u, 0 ≤ u → u < 1 → Weighted b (1 / 10) ⟨[], [u]⟩ p (fun x => if x then 1 else 0) (est u)) ∧
      1 / 10 * ((∑ i ∈ Finset.range 2, uni i) / 2) + (1 - 1 / 10) * ∫ u in (0:ℝ)..1, est u = 1 / 2 := by
  obtain ⟨b, h⟩ := two_entries
  obtain ⟨uni, est, e1, e2, e3⟩ := C159_mixed (some 2) true 1 (by simp) one_pos b _ 1 h (by simp) p hn hb
    (fun x => if x then 1 else 0) (1 / 10) (by norm_num) (by norm_num)
  refine ⟨b, uni, est, e1, e2, ?_⟩
  simpa [uniformMean] using e3

/-- With `normalize_by_max='batch'` the same draw gives one quarter. -/
example (p : PWE) (hn : p.norm = .batch) :
    ∃ b : PBuf Bool ℝ, ∃ est : ℝ → ℝ,
      (∀ u, 0 ≤ u → u < 1 → Weighted b 0 ⟨[], [u]⟩ p (fun x => if x then 1 else 0) (est u)) ∧
      ∫ u in (0:ℝ)..1, est u = 1 / 4 := by
  obtain ⟨b, h⟩ := two_entries
  obtain ⟨est, e1, e2⟩ := C159_batch_violated (some 2) true 1 (by simp) one_pos b _ 1 h (by simp) p hn
    (fun x => if x then 1 else 0)
  exact ⟨b, est, e1, by rw [e2]; norm_num [priorityMean]⟩

end Verif.PriorityFair
