import Verif.Model.RecurrentEpochs
import Verif.Spec.RecurrentEpochs
import Verif.Props.PPOBook
import Verif.Props.PPOData
import Verif.Props.PPODataset
set_option autoImplicit false
set_option linter.unusedSectionVars false

/-!
# C179: updates with recurrent networks
-/

namespace Verif.RecurrentEpochs
open PPOData (Cuts yieldSubsets limitSequenceLength Dataset St Call Slot Tr observeRows slotsSize datasetSize updateIfReady step run)
variable {α : Type}

/-! ## Passes -/

theorem cuts_piece {n : Nat} {seqs : List (List α)} {us : List (List (List α))} (h : Cuts n seqs us) :
    (∀ s ∈ seqs, s ≠ []) → ∀ u ∈ us, ∀ p ∈ u, p ≠ [] ∧ ∃ q ∈ seqs, p <:+: q := by
  induction h with
  | nil => intro _ u hu; simp at hu
  | whole sub rest us _ _ ih =>
    intro hne u hu p hp
    rcases List.mem_cons.1 hu with rfl | hu
    · exact ⟨hne p (by simp [hp]), p, by simp [hp], List.infix_refl p⟩
    · obtain ⟨h1, q, h2, h3⟩ := ih (fun s hs => hne s (by simp [hs])) u hu p hp
      exact ⟨h1, q, by simp [h2], h3⟩
  | split sub a b rest us _ ha hb _ ih =>
    intro hne u hu p hp
    rcases List.mem_cons.1 hu with rfl | hu
    · rcases List.mem_append.1 hp with hp | hp
      · exact ⟨hne p (by simp [hp]), p, by simp [hp], List.infix_refl p⟩
      · rw [List.mem_singleton.1 hp]
        exact ⟨ha, a ++ b, by simp, (List.prefix_append a b).isInfix⟩
    · obtain ⟨h1, q, h2, h3⟩ := ih (fun s hs => by
        rcases List.mem_cons.1 hs with rfl | hs
        · exact hb
        · exact hne s (by simp [hs])) u hu p hp
      rcases List.mem_cons.1 h2 with rfl | h2
      · exact ⟨h1, a ++ q, by simp, h3.trans (List.suffix_append a q).isInfix⟩
      · exact ⟨h1, q, by simp [h2], h3⟩

theorem total_perm {a b : List (List α)} (h : a.Perm b) : (a.map List.length).sum = (b.map List.length).sum := (h.map _).sum_eq

/-- One epoch. -/
theorem one_pass {n : Nat} (hn : 0 < n) {ds ds' : List (List α)} (hp : ds'.Perm ds) (hne : ∀ s ∈ ds, s ≠ []) (hd : n ∣ (ds.map List.length).sum) :
    ∃ us, yieldSubsets ds' n = (us, none) ∧ us.flatten.flatten.Perm ds.flatten ∧ (∀ u ∈ us, (u.map List.length).sum = n) ∧
      ∀ u ∈ us, ∀ p ∈ u, p ≠ [] ∧ ∃ q ∈ ds, p <:+: q := by
  have hne' : ∀ s ∈ ds', s ≠ [] := fun s hs => hne s (hp.mem_iff.1 hs)
  obtain ⟨us, h1, h2⟩ := PPOData.C51_subsets_partial n hn ds' hne' (by rw [total_perm hp]; exact hd)
  obtain ⟨h3, h4⟩ := PPOData.C51_cuts n ds' us h2
  refine ⟨us, h1, by rw [h3]; exact hp.flatten, h4, fun u hu p hpu => ?_⟩
  obtain ⟨k1, q, k2, k3⟩ := cuts_piece h2 hne' u hu p hpu
  exact ⟨k1, q, hp.mem_iff.1 k2, k3⟩

theorem passes {n : Nat} (hn : 0 < n) (shuffle : Nat → List (List α) → List (List α)) (hs : ∀ i l, (shuffle i l).Perm l) {ds : List (List α)}
    (hne : ∀ s ∈ ds, s ≠ []) (hd : n ∣ (ds.map List.length).sum) (k : Nat) : ∀ (i : Nat) (ds' : List (List α)), ds'.Perm ds →
    ∃ us : List (List (List (List α))), epochs n true shuffle k i ds' = (us.flatten, none) ∧ us.length = k ∧
      ∀ u ∈ us, u.flatten.flatten.Perm ds.flatten ∧ (∀ b ∈ u, (b.map List.length).sum = n) ∧ ∀ b ∈ u, ∀ p ∈ b, p ≠ [] ∧ ∃ q ∈ ds, p <:+: q := by
  induction k with
  | zero => intro i ds' _; exact ⟨[], rfl, rfl, by simp⟩
  | succ k ih =>
    intro i ds' hp
    obtain ⟨u, h1, h2⟩ := one_pass hn ((hs i ds').trans hp) hne hd
    obtain ⟨us, g1, g2, g3⟩ := ih (i + 1) (shuffle i ds') ((hs i ds').trans hp)
    refine ⟨u :: us, ?_, by rw [List.length_cons, g2], ?_⟩
    · simp only [epochs, h1, g1]
      simp
    · intro v hv
      rcases List.mem_cons.1 hv with rfl | hv
      · exact h2
      · exact g3 v hv

theorem infix_flatten {l : List (List α)} {s : List α} (h : s ∈ l) : s <:+: l.flatten := by
  obtain ⟨a, b, rfl⟩ := List.append_of_mem h
  exact ⟨a.flatten, b.flatten, by simp⟩

/-- The cut dataset. -/
theorem limited {n : Nat} {maxLen : Option Nat} {episodes : List (List α)} (h : Sound n maxLen episodes) :
    ∃ ds, cut maxLen episodes = .ok ds ∧ ds.flatten = episodes.flatten ∧
      (∀ s ∈ ds, s ≠ []) ∧ (ds.map List.length).sum = (episodes.map List.length).sum ∧
      ∀ s ∈ ds, (∃ q ∈ episodes, s <:+: q) ∧ ∀ m, maxLen = some m → s.length ≤ m := by
  cases maxLen with
  | none => exact ⟨episodes, rfl, rfl, h.2.2, rfl, fun s hs => ⟨⟨s, hs, List.infix_refl s⟩, fun m hm => by cases hm⟩⟩
  | some m =>
    obtain ⟨pss, h1, h2, h3⟩ := PPOData.C51_limit m (h.2.1 m rfl) episodes h.2.2
    have hfl : pss.flatten.flatten = episodes.flatten := by rw [← h2, List.flatten_flatten]
    refine ⟨pss.flatten, h1, hfl, ?_, ?_, ?_⟩
    · intro s hs
      obtain ⟨ps, hps, hs⟩ := List.mem_flatten.1 hs
      have := ((h3 ps hps).1 s hs).1
      intro e; rw [e] at this; simp at this
    · rw [← List.length_flatten, ← List.length_flatten, hfl]
    · intro s hs
      obtain ⟨ps, hps, hs⟩ := List.mem_flatten.1 hs
      refine ⟨⟨ps.flatten, by rw [← h2]; exact List.mem_map_of_mem hps, infix_flatten hs⟩, fun m' hm => ?_⟩
      cases hm
      exact ((h3 ps hps).1 s hs).2

theorem trpo_passes {n : Nat} {maxLen : Option Nat} {episodes : List (List α)} (h : Sound n maxLen episodes)
    (shuffle : Nat → List (List α) → List (List α)) (hs : ∀ i l, (shuffle i l).Perm l) (hd : n ∣ (episodes.map List.length).sum) (k : Nat) :
    ∃ us : List (List (List (List α))), trpo n k shuffle maxLen episodes = (us.flatten, none) ∧ us.length = k ∧ ∀ u ∈ us, Pass n maxLen episodes u := by
  obtain ⟨ds, h1, h2, h3, h4, h5⟩ := limited h
  obtain ⟨us, g1, g2, g3⟩ := passes h.1 shuffle hs h3 (by rw [h4]; exact hd) k 0 ds (List.Perm.refl ds)
  refine ⟨us, ?_, g2, fun u hu => ?_⟩
  · unfold trpo
    rw [h1]
    exact g1
  · obtain ⟨k1, k2, k3⟩ := g3 u hu
    refine ⟨by rw [← h2]; exact k1, k2, fun b hb p hp => ?_⟩
    obtain ⟨e1, q, e2, e3⟩ := k3 b hb p hp
    obtain ⟨⟨q', f1, f2⟩, f3⟩ := h5 q e2
    exact ⟨e1, ⟨q', f1, e3.trans f2⟩, fun m hm => e3.length_le.trans (f3 m hm)⟩

theorem stdOk_iff (standardize : Bool) (advs : List ℝ) : stdOk standardize advs = true ↔ standardize = true → ∃ x ∈ advs, ∃ y ∈ advs, x ≠ y := by
  have hv : 0 < Real.sqrt (PPODataset.var advs) ↔ ∃ x ∈ advs, ∃ y ∈ advs, x ≠ y := by
    rw [Real.sqrt_pos, (PPODataset.var_nonneg advs).lt_iff_ne, ne_comm, ne_eq, PPODataset.var_eq_zero]
    constructor
    · intro h
      by_contra hc
      push_neg at hc
      refine h ?_
      cases advs with
      | nil => exact ⟨0, by simp⟩
      | cons a l => exact ⟨a, fun x hx => hc x hx a List.mem_cons_self⟩
    · rintro ⟨x, hx, y, hy, hxy⟩ ⟨c, hc⟩
      exact hxy ((hc x hx).trans (hc y hy).symm)
  unfold stdOk
  cases standardize <;> simp [hv]

theorem ppo_trpo (adv : α → ℝ) (standardize : Bool) (n k : Nat) (shuffle : Nat → List (List α) → List (List α)) {maxLen : Option Nat}
    {episodes : List (List α)} (h : Sound n maxLen episodes) (ha : standardize = true → ∃ x ∈ episodes.flatten, ∃ y ∈ episodes.flatten, adv x ≠ adv y) :
    ppo adv standardize n k shuffle maxLen episodes = trpo n k shuffle maxLen episodes := by
  obtain ⟨ds, h1, h2, -⟩ := limited h
  have : stdOk standardize (ds.flatten.map adv) = true := by
    rw [stdOk_iff, h2]
    intro hst
    obtain ⟨x, hx, y, hy, hxy⟩ := ha hst
    exact ⟨adv x, List.mem_map_of_mem hx, adv y, List.mem_map_of_mem hy, hxy⟩
  unfold ppo trpo
  rw [h1]
  simp only [this]

/-- C179: an update of PPO with a recurrent network, for episodes with a multiple of `minibatch_size` transitions, makes exactly `epochs` passes,
whatever the random orders; with `standardize_advantages` not all advantages may be the same. -/
theorem C179_ppo_partial (adv : α → ℝ) (standardize : Bool) (n k : Nat) (shuffle : Nat → List (List α) → List (List α))
    (hs : ∀ i l, (shuffle i l).Perm l) (maxLen : Option Nat) (episodes : List (List α)) (h : Sound n maxLen episodes)
    (ha : standardize = true → ∃ x ∈ episodes.flatten, ∃ y ∈ episodes.flatten, adv x ≠ adv y) (hd : n ∣ (episodes.map List.length).sum) :
    ∃ us : List (List (List (List α))), ppo adv standardize n k shuffle maxLen episodes = (us.flatten, none) ∧ us.length = k ∧
      ∀ u ∈ us, Pass n maxLen episodes u := by
  rw [ppo_trpo adv standardize n k shuffle h ha]
  exact trpo_passes h shuffle hs hd k

/-- C179: the same for TRPO's value function. -/
theorem C179_trpo_partial (n k : Nat) (shuffle : Nat → List (List α) → List (List α)) (hs : ∀ i l, (shuffle i l).Perm l) (maxLen : Option Nat)
    (episodes : List (List α)) (h : Sound n maxLen episodes) (hd : n ∣ (episodes.map List.length).sum) :
    ∃ us : List (List (List (List α))), trpo n k shuffle maxLen episodes = (us.flatten, none) ∧ us.length = k ∧
      ∀ u ∈ us, Pass n maxLen episodes u := trpo_passes h shuffle hs hd k

/-- C179, what a pass means: so each transition is used once in it, in one of `size / n` minibatches. -/
theorem C179_pass [DecidableEq α] {n : Nat} {maxLen : Option Nat} {episodes : List (List α)} {us : List (List (List α))} (h : Pass n maxLen episodes us) :
    us.length * n = (episodes.map List.length).sum ∧ ∀ x, us.flatten.flatten.count x = episodes.flatten.count x := by
  refine ⟨?_, fun x => h.all.count_eq x⟩
  have h1 := h.all.length_eq
  rw [List.length_flatten (L := episodes)] at h1
  rw [← h1]
  have := h.size
  clear h1 h
  induction us with
  | nil => simp
  | cons u us ih =>
    have h2 := this u List.mem_cons_self
    rw [List.length_cons, Nat.succ_mul, ih fun v hv => this v (List.mem_cons_of_mem _ hv), List.flatten_cons, List.flatten_append, List.length_append,
      List.length_flatten (L := u), h2, Nat.add_comm]

theorem fails_remainder {n : Nat} (ok : Bool) {maxLen : Option Nat} {episodes : List (List α)} (h : Sound n maxLen episodes)
    (shuffle : Nat → List (List α) → List (List α)) (hs : ∀ i l, (shuffle i l).Perm l) (hd : ¬ n ∣ (episodes.map List.length).sum) (k : Nat)
    {ds : List (List α)} (hds : cut maxLen episodes = .ok ds) : ok = true →
    ∃ us, epochs n ok shuffle (k + 1) 0 ds = (us, some .indexError) ∧ us.length = (episodes.map List.length).sum / n := by
  rintro rfl
  obtain ⟨ds', h1, -, h3, h4, -⟩ := limited h
  cases hds.symm.trans h1
  obtain ⟨us, g1, g2, -⟩ := PPOData.C51_violated_remainder n h.1 (shuffle 0 ds) (fun s hs' => h3 s ((hs 0 ds).mem_iff.1 hs'))
    (by rw [total_perm (hs 0 ds), h4]; exact hd)
  refine ⟨us, ?_, by rw [g2, total_perm (hs 0 ds), h4]⟩
  simp [epochs, g1]

/-- C179 does not hold if the number of transitions is not a multiple of `minibatch_size`: the update ends with `IndexError` in the first
pass, after all the full minibatches.  Here for PPO. -/
theorem C179_violated_ppo (adv : α → ℝ) (standardize : Bool) (n k : Nat) (shuffle : Nat → List (List α) → List (List α))
    (hs : ∀ i l, (shuffle i l).Perm l) (maxLen : Option Nat) (episodes : List (List α)) (h : Sound n maxLen episodes)
    (ha : standardize = true → ∃ x ∈ episodes.flatten, ∃ y ∈ episodes.flatten, adv x ≠ adv y) (hd : ¬ n ∣ (episodes.map List.length).sum) :
    ∃ us, ppo adv standardize n (k + 1) shuffle maxLen episodes = (us, some .indexError) ∧ us.length = (episodes.map List.length).sum / n := by
  rw [ppo_trpo adv standardize n (k + 1) shuffle h ha]
  obtain ⟨ds, h1, -⟩ := limited h
  unfold trpo
  rw [h1]
  exact fails_remainder true h shuffle hs hd k h1 rfl

/-- The same for TRPO's value function (whose policy has been updated by then). -/
theorem C179_violated_trpo (n k : Nat) (shuffle : Nat → List (List α) → List (List α)) (hs : ∀ i l, (shuffle i l).Perm l) (maxLen : Option Nat)
    (episodes : List (List α)) (h : Sound n maxLen episodes) (hd : ¬ n ∣ (episodes.map List.length).sum) :
    ∃ us, trpo n (k + 1) shuffle maxLen episodes = (us, some .indexError) ∧ us.length = (episodes.map List.length).sum / n := by
  obtain ⟨ds, h1, -⟩ := limited h
  unfold trpo
  rw [h1]
  exact fails_remainder true h shuffle hs hd k h1 rfl

/-- Nor does it hold for PPO with `standardize_advantages` if all advantages are the same: the update ends with `AssertionError` at the first minibatch. -/
theorem C179_violated_equal (adv : α → ℝ) (n k : Nat) (shuffle : Nat → List (List α) → List (List α)) (hs : ∀ i l, (shuffle i l).Perm l)
    (maxLen : Option Nat) (episodes : List (List α)) (h : Sound n maxLen episodes) (c : ℝ) (hc : ∀ x ∈ episodes.flatten, adv x = c)
    (hn : n ≤ (episodes.map List.length).sum) : ppo adv true n (k + 1) shuffle maxLen episodes = ([], some .assertionError) := by
  obtain ⟨ds, h1, h2, h3, h4, -⟩ := limited h
  have hok : stdOk true (ds.flatten.map adv) = false := by
    rw [Bool.eq_false_iff, ne_eq, stdOk_iff, h2]
    intro hx
    obtain ⟨x, hx, y, hy, hxy⟩ := hx rfl
    obtain ⟨x', hx', rfl⟩ := List.mem_map.1 hx
    obtain ⟨y', hy', rfl⟩ := List.mem_map.1 hy
    exact hxy ((hc x' hx').trans (hc y' hy').symm)
  have hne : (yieldSubsets (shuffle 0 ds) n).1 ≠ [] := by
    have hne' : ∀ s ∈ shuffle 0 ds, s ≠ [] := fun s hs' => h3 s ((hs 0 ds).mem_iff.1 hs')
    have ht := total_perm (hs 0 ds)
    by_cases hd : n ∣ ((shuffle 0 ds).map List.length).sum
    · obtain ⟨us, g1, g2⟩ := PPOData.C51_subsets_partial n h.1 (shuffle 0 ds) hne' hd
      rw [g1]
      rintro rfl
      have := (PPOData.C51_cuts n _ _ g2).1
      have h5 := congrArg List.length this
      rw [List.length_flatten (L := shuffle 0 ds), ht, h4] at h5
      simp at h5
      have := h.1
      omega
    · obtain ⟨us, g1, g2, -⟩ := PPOData.C51_violated_remainder n h.1 (shuffle 0 ds) hne' hd
      rw [g1]
      rintro rfl
      rw [ht, h4] at g2
      have := Nat.div_pos hn h.1
      rw [List.length_nil] at g2
      omega
  unfold ppo
  rw [h1]
  simp only [epochs, hok]
  simp [hne]

/-! ## How many transitions an update has -/

variable {O A R : Type}

theorem observe_size (sls : List (Slot O A R)) : ∀ (rows : List (O × R × Bool × Bool)) (i : Nat) (d : Dataset O A R) (sls' : List (Slot O A R)),
    observeRows i sls rows = .ok (d, sls') → rows.length = sls.length → (∀ sl ∈ sls, sl.last.isSome) →
      d.size + slotsSize sls' = slotsSize sls + rows.length ∧ sls'.length = sls.length := by
  induction sls with
  | nil =>
    intro rows i d sls' h hl _
    simp only [observeRows, Except.ok.injEq, Prod.mk.injEq] at h
    obtain ⟨rfl, rfl⟩ := h
    simp only [List.length_nil, List.length_eq_zero_iff] at hl
    subst hl
    simp [Dataset.size, slotsSize]
  | cons sl sls ih =>
    intro rows i d sls' h hl hs
    cases rows with
    | nil => simp at hl
    | cons row rows =>
      simp only [observeRows, bind, Except.bind] at h
      cases h1 : PPOData.observeRow i sl row with
      | error e => rw [h1] at h; cases h
      | ok r =>
        rw [h1] at h
        simp only at h
        cases h2 : observeRows (i + 1) sls rows with
        | error e => rw [h2] at h; cases h
        | ok r' =>
          rw [h2] at h
          simp only [pure, Except.pure, Except.ok.injEq, Prod.mk.injEq] at h
          obtain ⟨rfl, rfl⟩ := h
          obtain ⟨j1, j2⟩ := ih rows (i + 1) r'.1 r'.2 (by rw [h2]) (by simpa using hl) fun x hx => hs x (List.mem_cons_of_mem _ hx)
          have hr : Dataset.size r.1 + r.2.episode.length = sl.episode.length + 1 := by
            have hsl := hs sl List.mem_cons_self
            obtain ⟨e, la⟩ := sl
            cases la with
            | none => cases hsl
            | some la =>
              simp only [PPOData.observeRow] at h1
              split at h1
              · split at h1
                · cases h1
                · cases h1; simp [Dataset.size]
              · cases h1; simp [Dataset.size]
          refine ⟨?_, by simp [j2]⟩
          rw [PPOData.size_append]
          simp only [slotsSize, List.map_cons, List.sum_cons, List.length_cons] at j1 hr ⊢
          omega

theorem flushSlots_length (slots : List (Slot O A R)) : ∀ i, (PPOData.flushSlots i slots).2.length = slots.length := by
  induction slots with
  | nil => intro i; rfl
  | cons sl slots ih =>
    intro i
    simp only [PPOData.flushSlots]
    split <;> simp [ih]

/-- What holds between the rounds. -/
def Between (N : Nat) (s : St O A R) : Prop :=
  N ∣ datasetSize s ∧ s.lastEpisode = [] ∧ ∀ slots, s.batch = some slots → slots.length = N

theorem flush_between {N : Nat} {s : St O A R} (h : Between N s) : Between N { PPOData.flush s with memory := [] } := by
  obtain ⟨h1, h2, h3⟩ := PPOData.flush_size s
  refine ⟨?_, h2, ?_⟩
  · have : datasetSize { PPOData.flush s with memory := [] } = (PPOData.flush s).lastEpisode.length + PPOData.batchSize (PPOData.flush s) := by
      simp [datasetSize, PPOData.batchSize]
    rw [this, h2, h3]; simp
  · intro slots hsl
    change (PPOData.flush s).batch = some slots at hsl
    simp only [PPOData.flush, h.2.1, List.isEmpty_nil, if_true, PPOData.flushBatch] at hsl
    cases hb : s.batch with
    | none => rw [hb] at hsl; simp [hb] at hsl
    | some sl =>
      rw [hb] at hsl
      simp only [Option.some.injEq] at hsl
      rw [← hsl, flushSlots_length]
      exact h.2.2 sl hb

theorem update_between {U N : Nat} (hU : 1 ≤ U) {s : St O A R} (h : Between N s) :
    Between N (updateIfReady U s).1 ∧ ∀ d ∈ (updateIfReady U s).2, d.size = datasetSize s := by
  refine ⟨?_, fun d hd => ((PPOData.update_size U hU s).2 d hd).2⟩
  unfold updateIfReady
  split
  · exact flush_between h
  · exact h

/-- The slots after `batch_act_and_train`. -/
theorem act_between {N : Nat} {s : St O A R} (h : Between N s) {rows : List (O × A)} (hr : rows.length = N) {slots : List (Slot O A R)}
    (hs : PPOData.actSlots s rows = .ok slots) :
    slots.length = N ∧ (∀ sl ∈ slots, sl.last.isSome) ∧ slotsSize slots = PPOData.batchSize s := by
  unfold PPOData.actSlots at hs
  unfold PPOData.batchSize
  cases hb : s.batch with
  | none =>
    rw [hb] at hs
    cases hs
    refine ⟨by simp [hr], ?_, ?_⟩
    · intro sl hsl
      obtain ⟨r, -, rfl⟩ := List.mem_map.1 hsl
      rfl
    · simp [slotsSize, Function.comp_def]
  | some sls =>
    rw [hb] at hs
    have hl := h.2.2 sls hb
    simp only [show (sls.length == rows.length) = true by rw [hl, hr]; simp] at hs
    cases hs
    have hlen : sls.length = rows.length := by rw [hl, hr]
    refine ⟨by simp [hlen, hr], ?_, ?_⟩
    · intro sl hsl
      obtain ⟨i, hi, rfl⟩ := List.getElem_of_mem hsl
      simp
    · simp only [slotsSize]
      congr 1
      apply List.ext_getElem
      · simp [hlen]
      · intro i h1 h2; simp

theorem rounds_size {U N : Nat} (hU : 1 ≤ U) {cs : List (Call O A R)} (hc : Rounds N cs) :
    ∀ (s s' : St O A R) (ds : List (Dataset O A R)), Between N s → run U s cs = .ok (s', ds) → ∀ d ∈ ds, N ∣ d.size := by
  induction hc with
  | nil =>
    intro s s' ds _ hr
    simp only [run, Except.ok.injEq, Prod.mk.injEq] at hr
    simp [← hr.2]
  | act rows hl =>
    intro s s' ds _ hr
    simp only [run, step, bind, Except.bind, pure, Except.pure] at hr
    cases h : PPOData.actSlots s rows with
    | error e => rw [h] at hr; cases hr
    | ok sl => rw [h] at hr; cases hr; simp
  | round rows rows' cs hl hl' _ ih =>
    intro s s' ds hb hr
    rw [run] at hr
    simp only [step, bind, Except.bind, pure, Except.pure] at hr
    cases h : PPOData.actSlots s rows with
    | error e => rw [h] at hr; cases hr
    | ok sl =>
      obtain ⟨a1, a2, a3⟩ := act_between hb hl h
      rw [h] at hr
      simp only [run, step, bind, Except.bind, pure, Except.pure] at hr
      cases h2 : observeRows 0 sl rows' with
      | error e => rw [h2] at hr; cases hr
      | ok r =>
        obtain ⟨o1, o2⟩ := observe_size sl rows' 0 r.1 r.2 (by rw [h2]) (by rw [hl', a1]) a2
        rw [h2] at hr
        simp only at hr
        have hbt : Between N ({ s with memory := s.memory ++ r.1, batch := some r.2 } : St O A R) := by
          refine ⟨?_, hb.2.1, fun slots hsl => by cases hsl; rw [o2, a1]⟩
          have hd := hb.1
          have h3 : datasetSize ({ s with memory := s.memory ++ r.1, batch := some r.2 } : St O A R) = datasetSize s + N := by
            have e1 : datasetSize ({ s with memory := s.memory ++ r.1, batch := some r.2 } : St O A R)
                = Dataset.size s.memory + s.lastEpisode.length + slotsSize r.2 + Dataset.size r.1 := by
              simp only [datasetSize, PPOData.batchSize, List.map_append, List.sum_append, Dataset.size, slotsSize]
              omega
            have e2 : datasetSize s = Dataset.size s.memory + s.lastEpisode.length + PPOData.batchSize s := by
              simp only [datasetSize, PPOData.batchSize, Dataset.size, slotsSize]
            rw [e1, e2]
            omega
          rw [h3]
          exact (Nat.dvd_add_right hd).2 (dvd_refl N)
        obtain ⟨u1, u2⟩ := update_between hU hbt
        cases h4 : run U (updateIfReady U ({ s with memory := s.memory ++ r.1, batch := some r.2 } : St O A R)).1 cs with
        | error e => rw [h4] at hr; cases hr
        | ok q =>
          rw [h4] at hr
          simp only [List.nil_append, Except.ok.injEq, Prod.mk.injEq] at hr
          obtain ⟨-, rfl⟩ := hr
          intro d hd
          rcases List.mem_append.1 hd with hd | hd
          · rw [u2 d hd]; exact hbt.1
          · exact ih _ _ _ u1 h4 d hd

theorem rounds_rows {N : Nat} {cs : List (Call O A R)} (hc : Rounds N cs) : ∀ rows, Call.batchObserve rows ∈ cs → rows.length = N := by
  induction hc with
  | nil => intro rows h; simp at h
  | act r _ => intro rows h; simp at h
  | round r r' cs _ h2 _ ih =>
    intro rows h
    simp only [List.mem_cons, reduceCtorEq, Call.batchObserve.injEq, false_or] at h
    rcases h with rfl | h
    · exact h2
    · exact ih rows h

/-- C179: with one environment every update has exactly `update_interval` transitions. -/
theorem C179_single_size (U : Nat) (hU : 1 ≤ U) (cs : List (Call O A R)) (hc : ∀ rows, Call.batchObserve rows ∉ cs) (s : St O A R)
    (ds : List (Dataset O A R)) (hr : run U St.init cs = .ok (s, ds)) : ∀ d ∈ ds, d.size = U := by
  intro d hd
  have := PPOData.C50_dataset_size U 1 hU (le_refl 1) cs s ds hr (fun rows h => absurd h (hc rows)) d hd
  omega

/-- C179: with `N` environments it has `update_interval` transitions rounded up to a multiple of `N`. -/
theorem C179_vector_size (U N : Nat) (hU : 1 ≤ U) (hN : 1 ≤ N) (cs : List (Call O A R)) (hc : Rounds N cs) (s : St O A R)
    (ds : List (Dataset O A R)) (hr : run U St.init cs = .ok (s, ds)) : ∀ d ∈ ds, d.size = roundUp U N := by
  intro d hd
  obtain ⟨h1, h2⟩ := PPOData.C50_dataset_size U N hU hN cs s ds hr (fun rows h => (rounds_rows hc rows h).le) d hd
  obtain ⟨q, hq⟩ := rounds_size hU hc St.init s ds ⟨by simp [datasetSize, PPOData.batchSize, St.init], rfl, fun _ h => by cases h⟩ hr d hd
  unfold roundUp
  rw [hq]
  congr 1
  rw [hq] at h1 h2
  symm
  rw [Nat.div_eq_iff (by omega)]
  have := Nat.mul_comm N q
  omega

/-- No episode is empty. -/
def Full (d : Dataset O A R) : Prop := ∀ e ∈ d, e.2 ≠ []

theorem full_append {d d' : Dataset O A R} (h : Full d) (h' : Full d') : Full (d ++ d') := by
  intro e he
  rcases List.mem_append.1 he with he | he
  · exact h e he
  · exact h' e he

theorem flushSlots_full (slots : List (Slot O A R)) : ∀ i, Full (PPOData.flushSlots i slots).1 := by
  induction slots with
  | nil => intro i e he; cases he
  | cons sl slots ih =>
    intro i
    simp only [PPOData.flushSlots]
    split
    · exact ih _
    · rename_i h
      intro e he
      rcases List.mem_cons.1 he with rfl | he
      · simpa using h
      · exact ih _ e he

theorem flush_full {s : St O A R} (h : Full s.memory) : Full (PPOData.flush s).memory := by
  have key : ∀ t : St O A R, Full t.memory → Full (PPOData.flushBatch t).memory := by
    intro t ht
    unfold PPOData.flushBatch
    split
    · exact ht
    · exact full_append ht (flushSlots_full _ _)
  apply key
  split
  · exact h
  · rename_i h'
    refine full_append h ?_
    intro e he
    simp only [List.mem_singleton] at he
    subst he
    simpa using h'

theorem update_full (U : Nat) {s : St O A R} (h : Full s.memory) :
    Full (updateIfReady U s).1.memory ∧ ∀ d ∈ (updateIfReady U s).2, Full d := by
  unfold updateIfReady
  split
  · constructor
    · intro e he
      simp at he
    · intro d hd
      simp only [List.mem_singleton] at hd
      subst hd
      exact flush_full h
  · exact ⟨h, fun d hd => by cases hd⟩

theorem observe_full (sls : List (Slot O A R)) : ∀ (rows : List (O × R × Bool × Bool)) (i : Nat) (d : Dataset O A R) (sls' : List (Slot O A R)),
    observeRows i sls rows = .ok (d, sls') → Full d := by
  induction sls with
  | nil =>
    intro rows i d sls' h
    simp only [observeRows, Except.ok.injEq, Prod.mk.injEq] at h
    rw [← h.1]; intro e he; cases he
  | cons sl sls ih =>
    intro rows i d sls' h
    cases rows with
    | nil =>
      simp only [observeRows, Except.ok.injEq, Prod.mk.injEq] at h
      rw [← h.1]; intro e he; cases he
    | cons row rows =>
      simp only [observeRows, bind, Except.bind] at h
      cases h1 : PPOData.observeRow i sl row with
      | error e => rw [h1] at h; cases h
      | ok r =>
        rw [h1] at h
        simp only at h
        cases h2 : observeRows (i + 1) sls rows with
        | error e => rw [h2] at h; cases h
        | ok r' =>
          rw [h2] at h
          simp only [pure, Except.pure, Except.ok.injEq, Prod.mk.injEq] at h
          obtain ⟨rfl, -⟩ := h
          refine full_append ?_ (ih rows (i + 1) r'.1 r'.2 (by rw [h2]))
          unfold PPOData.observeRow at h1
          extract_lets ep at h1
          split at h1
          · split at h1
            · cases h1
            · rename_i hne
              cases h1
              intro e he
              simp only [List.mem_singleton] at he
              subst he
              simpa using hne
          · cases h1; intro e he; cases he

theorem step_full (U : Nat) {s s' : St O A R} {ds : List (Dataset O A R)} (h : Full s.memory) (c : Call O A R)
    (hr : step U s c = .ok (s', ds)) : Full s'.memory ∧ ∀ d ∈ ds, Full d := by
  cases c with
  | act obs reward action =>
    simp only [step, Except.ok.injEq, Prod.mk.injEq] at hr
    obtain ⟨rfl, rfl⟩ := hr
    refine update_full U (s := PPOData.record s obs reward) ?_
    unfold PPOData.record
    split <;> exact h
  | stop state reward done =>
    simp only [step] at hr
    split at hr
    · cases hr
    · rename_i o a _
      have hr' := Except.ok.inj hr
      have := update_full U (flush_full (s := { s with lastEpisode := s.lastEpisode ++ [⟨o, a, reward, state, done⟩], last := none }) h)
      rw [hr'] at this
      exact this
  | batchAct rows =>
    simp only [step, bind, Except.bind, pure, Except.pure] at hr
    split at hr
    · cases hr
    · cases hr; exact ⟨h, fun d hd => by cases hd⟩
  | batchObserve rows =>
    simp only [step, bind, Except.bind, pure, Except.pure] at hr
    split at hr
    · cases hr
    · split at hr
      · cases hr
      · rename_i r hr1
        have hr' := Except.ok.inj hr
        have := update_full U (s := { s with memory := s.memory ++ r.1, batch := some r.2 })
          (full_append h (observe_full _ _ _ _ _ hr1))
        rw [hr'] at this
        exact this

/-- Every episode of every dataset has a transition. -/
theorem run_full (U : Nat) (cs : List (Call O A R)) : ∀ (s s' : St O A R) (ds : List (Dataset O A R)), Full s.memory →
    run U s cs = .ok (s', ds) → ∀ d ∈ ds, Full d := by
  induction cs with
  | nil =>
    intro s s' ds _ hr
    simp only [run, Except.ok.injEq, Prod.mk.injEq] at hr
    simp [← hr.2]
  | cons c cs ih =>
    intro s s' ds h hr
    simp only [run, bind, Except.bind, pure, Except.pure] at hr
    cases h1 : step U s c with
    | error e => rw [h1] at hr; cases hr
    | ok r =>
      rw [h1] at hr
      simp only at hr
      cases h2 : run U r.1 cs with
      | error e => rw [h2] at hr; cases hr
      | ok q =>
        rw [h2] at hr
        simp only [Except.ok.injEq, Prod.mk.injEq] at hr
        obtain ⟨-, rfl⟩ := hr
        obtain ⟨f1, f2⟩ := step_full U h c (s' := r.1) (ds := r.2) h1
        intro d hd
        rcases List.mem_append.1 hd with hd | hd
        · exact f2 d hd
        · exact ih _ _ _ f1 h2 d hd

theorem roundUp_one (U : Nat) : roundUp U 1 = U := by simp [roundUp]

/-- C179: training with `N` environments (or with one, and the methods for one), `update_interval` of `U` and minibatches of `n` transitions.  Whether the
updates make whole passes or end with `IndexError` depends on whether `n` divides `U` rounded up to a multiple of `N` only: it is the same for all
updates, whatever the environments do.  `episodes` is a dataset with what is computed for the transitions, advantages among it. -/
theorem C179_training (adv : α → ℝ) (standardize : Bool) (U N n k : Nat) (hU : 1 ≤ U) (hN : 1 ≤ N) (hn : 0 < n)
    (shuffle : Nat → List (List α) → List (List α)) (hs : ∀ i l, (shuffle i l).Perm l) (maxLen : Option Nat) (hm : ∀ m, maxLen = some m → 0 < m)
    (cs : List (Call O A R)) (hc : Rounds N cs ∨ N = 1 ∧ ∀ rows, Call.batchObserve rows ∉ cs) (s : St O A R)
    (ds : List (Dataset O A R)) (hr : run U St.init cs = .ok (s, ds)) (d : Dataset O A R) (hd : d ∈ ds) (episodes : List (List α))
    (he : episodes.map List.length = d.map fun e => e.2.length)
    (ha : standardize = true → ∃ x ∈ episodes.flatten, ∃ y ∈ episodes.flatten, adv x ≠ adv y) :
    (n ∣ roundUp U N → ∃ us : List (List (List (List α))), ppo adv standardize n k shuffle maxLen episodes = (us.flatten, none) ∧ us.length = k ∧
        ∀ u ∈ us, Pass n maxLen episodes u) ∧
      (¬ n ∣ roundUp U N → ∃ us, ppo adv standardize n (k + 1) shuffle maxLen episodes = (us, some .indexError) ∧ us.length = roundUp U N / n) := by
  have hsz : d.size = roundUp U N := by
    rcases hc with hc | ⟨rfl, hc⟩
    · exact C179_vector_size U N hU hN cs hc s ds hr d hd
    · rw [roundUp_one]
      exact C179_single_size U hU cs hc s ds hr d hd
  have hf := run_full U cs St.init s ds (fun e he => by cases he) hr d hd
  have hsum : (episodes.map List.length).sum = roundUp U N := by rw [he, ← hsz]; rfl
  have hsound : Sound n maxLen episodes := by
    refine ⟨hn, hm, fun q hq => ?_⟩
    have h1 : q.length ∈ episodes.map List.length := List.mem_map.2 ⟨q, hq, rfl⟩
    rw [he] at h1
    obtain ⟨e, h2, h3⟩ := List.mem_map.1 h1
    have h4 := List.length_pos_of_ne_nil (hf e h2)
    exact List.ne_nil_of_length_pos (by omega)
  refine ⟨fun h => C179_ppo_partial adv standardize n k shuffle hs maxLen episodes hsound ha (by rw [hsum]; exact h), fun h => ?_⟩
  rw [← hsum] at h ⊢
  exact C179_violated_ppo adv standardize n k shuffle hs maxLen episodes hsound ha h

/-- The size after `batch_observe_and_train` has recorded a round. -/
theorem observed_size {N : Nat} (s : St O A R) (d : Dataset O A R) (slots : List (Slot O A R))
    (h : d.size + slotsSize slots = PPOData.batchSize s + N) :
    datasetSize ({ s with memory := s.memory ++ d, batch := some slots } : St O A R) = datasetSize s + N := by
  have e1 : datasetSize ({ s with memory := s.memory ++ d, batch := some slots } : St O A R)
      = Dataset.size s.memory + s.lastEpisode.length + slotsSize slots + Dataset.size d := by
    simp only [datasetSize, PPOData.batchSize, List.map_append, List.sum_append, Dataset.size, slotsSize]
    omega
  have e2 : datasetSize s = Dataset.size s.memory + s.lastEpisode.length + PPOData.batchSize s := by
    simp only [datasetSize, PPOData.batchSize, Dataset.size]
  rw [e1, e2]
  omega

theorem used_const {ds : List (Dataset O A R)} {m : Nat} (h : ∀ d ∈ ds, d.size = m) : (ds.map Dataset.size).sum = ds.length * m := by
  induction ds with
  | nil => simp
  | cons d ds ih =>
    rw [List.map_cons, List.sum_cons, h d List.mem_cons_self, ih fun d' h' => h d' (List.mem_cons_of_mem _ h'), List.length_cons, Nat.succ_mul]
    omega

/-- Whether an action's outcome is awaited (`last_state` is not `None`). -/
def waiting (s : St O A R) : Nat := if s.last.isSome then 1 else 0

theorem step_waiting (U : Nat) {s s' : St O A R} {ds : List (Dataset O A R)} {c : Call O A R} (hc : Single [c]) (h : step U s c = .ok (s', ds)) :
    waiting s' = if endsWithAct [c] then 1 else 0 := by
  rcases hc c List.mem_cons_self with ⟨obs, reward, action, rfl⟩ | ⟨state, reward, done, rfl⟩
  · simp only [step, Except.ok.injEq, Prod.mk.injEq] at h
    obtain ⟨rfl, -⟩ := h
    rfl
  · simp only [step] at h
    split at h
    · cases h
    · have hw : ∀ t : St O A R, waiting (PPOData.flush t) = waiting t := by
        intro t
        unfold PPOData.flush PPOData.flushBatch waiting
        split <;> split <;> rfl
      have hw' : ∀ t : St O A R, waiting (updateIfReady U t).1 = waiting t := by
        intro t
        unfold updateIfReady
        split
        · exact hw t
        · rfl
      have h' := congrArg Prod.fst (Except.ok.inj h)
      simp only at h'
      rw [← h', hw', hw]
      rfl

theorem ends_waiting' (U : Nat) (cs : List (Call O A R)) : Single cs → ∀ (s s' : St O A R) (ds : List (Dataset O A R)), cs ≠ [] →
    run U s cs = .ok (s', ds) → waiting s' = if endsWithAct cs then 1 else 0 := by
  induction cs with
  | nil => intro _ s s' ds h; exact absurd rfl h
  | cons c cs ih =>
    intro hc s s' ds _ hr
    have hc' : Single cs := fun c' h => hc c' (List.mem_cons_of_mem _ h)
    simp only [run, bind, Except.bind, pure, Except.pure] at hr
    cases h1 : step U s c with
    | error e => rw [h1] at hr; cases hr
    | ok r =>
      rw [h1] at hr
      simp only at hr
      cases h2 : run U r.1 cs with
      | error e => rw [h2] at hr; cases hr
      | ok q =>
        rw [h2] at hr
        simp only [Except.ok.injEq, Prod.mk.injEq] at hr
        obtain ⟨rfl, rfl⟩ := hr
        cases cs with
        | nil =>
          simp only [run, Except.ok.injEq] at h2
          subst h2
          exact step_waiting U (ds := r.2) (fun c' h => hc c' (by simpa using h)) h1
        | cons c' cs' =>
          rw [ih hc' r.1 q.1 q.2 (by simp) h2]
          have : endsWithAct (c :: c' :: cs') = endsWithAct (c' :: cs') := by
            unfold endsWithAct
            rw [List.getLast?_cons_cons]
          rw [this]

theorem ends_waiting (U : Nat) (cs : List (Call O A R)) (hc : Single cs) (s : St O A R) (ds : List (Dataset O A R))
    (hr : run U St.init cs = .ok (s, ds)) : waiting s = if endsWithAct cs then 1 else 0 := by
  by_cases h : cs = []
  · subst h
    simp only [run, Except.ok.injEq, Prod.mk.injEq] at hr
    rw [← hr.1]
    rfl
  · exact ends_waiting' U cs hc _ _ _ h hr

/-- The transitions in datasets. -/
def used (ds : List (Dataset O A R)) : Nat := (ds.map Dataset.size).sum

theorem used_append (ds ds' : List (Dataset O A R)) : used (ds ++ ds') = used ds + used ds' := by simp [used]

/-- `_update_if_dataset_is_ready` keeps the transitions, and leaves fewer than the interval. -/
theorem update_used (U : Nat) (hU : 1 ≤ U) (s : St O A R) :
    used (updateIfReady U s).2 + datasetSize (updateIfReady U s).1 = datasetSize s ∧ datasetSize (updateIfReady U s).1 < U := by
  obtain ⟨h1, h2, h3⟩ := PPOData.flush_size s
  have h4 : datasetSize { PPOData.flush s with memory := [] } = 0 := by
    have : datasetSize { PPOData.flush s with memory := [] } = (PPOData.flush s).lastEpisode.length + PPOData.batchSize (PPOData.flush s) := by
      simp [datasetSize, PPOData.batchSize]
    rw [this, h2, h3]; rfl
  have h5 := (PPOData.update_size U hU s).2
  unfold updateIfReady at h5 ⊢
  split
  · rename_i hr
    rw [if_pos hr] at h5
    have := (h5 (PPOData.flush s).memory (by simp)).2
    refine ⟨?_, by simp only [h4]; omega⟩
    simp only [h4, used, List.map_cons, List.map_nil, List.sum_cons, List.sum_nil]
    omega
  · rename_i hr
    exact ⟨by simp [used], by simp only; omega⟩

theorem rounds_used {U N : Nat} (hU : 1 ≤ U) {cs : List (Call O A R)} (hc : Rounds N cs) :
    ∀ (s s' : St O A R) (ds : List (Dataset O A R)), Between N s → datasetSize s < U → run U s cs = .ok (s', ds) →
      used ds + datasetSize s' = datasetSize s + N * observes cs ∧ datasetSize s' < U := by
  induction hc with
  | nil =>
    intro s s' ds _ hlt hr
    simp only [run, Except.ok.injEq, Prod.mk.injEq] at hr
    obtain ⟨rfl, rfl⟩ := hr
    simpa [used, observes] using hlt
  | act rows hl =>
    intro s s' ds hb hlt hr
    simp only [run, step, bind, Except.bind, pure, Except.pure] at hr
    cases h : PPOData.actSlots s rows with
    | error e => rw [h] at hr; cases hr
    | ok sl =>
      obtain ⟨-, -, a3⟩ := act_between hb hl h
      rw [h] at hr
      cases hr
      have h3 : datasetSize ({ s with batch := some sl } : St O A R) = datasetSize s := by
        simp only [datasetSize]
        rw [← a3]
        rfl
      simp only [h3, observes, used, List.map_nil, List.sum_nil]
      simpa using hlt
  | round rows rows' cs hl hl' _ ih =>
    intro s s' ds hb _ hr
    rw [run] at hr
    simp only [step, bind, Except.bind, pure, Except.pure] at hr
    cases h : PPOData.actSlots s rows with
    | error e => rw [h] at hr; cases hr
    | ok sl =>
      obtain ⟨a1, a2, a3⟩ := act_between hb hl h
      rw [h] at hr
      simp only [run, step, bind, Except.bind, pure, Except.pure] at hr
      cases h2 : observeRows 0 sl rows' with
      | error e => rw [h2] at hr; cases hr
      | ok r =>
        obtain ⟨o1, o2⟩ := observe_size sl rows' 0 r.1 r.2 (by rw [h2]) (by rw [hl', a1]) a2
        rw [h2] at hr
        simp only at hr
        have h3 := observed_size s r.1 r.2 (N := N) (by omega)
        have hbt : Between N ({ s with memory := s.memory ++ r.1, batch := some r.2 } : St O A R) := by
          refine ⟨?_, hb.2.1, fun slots hsl => by cases hsl; rw [o2, a1]⟩
          rw [h3]
          exact (Nat.dvd_add_right hb.1).2 (dvd_refl N)
        obtain ⟨u1, -⟩ := update_between hU hbt
        obtain ⟨v1, v2⟩ := update_used U hU ({ s with memory := s.memory ++ r.1, batch := some r.2 } : St O A R)
        cases h4 : run U (updateIfReady U ({ s with memory := s.memory ++ r.1, batch := some r.2 } : St O A R)).1 cs with
        | error e => rw [h4] at hr; cases hr
        | ok q =>
          rw [h4] at hr
          simp only [List.nil_append, Except.ok.injEq, Prod.mk.injEq] at hr
          obtain ⟨rfl, rfl⟩ := hr
          obtain ⟨j1, j2⟩ := ih _ _ _ u1 v2 h4
          refine ⟨?_, j2⟩
          rw [used_append]
          have h6 : observes (Call.batchAct rows :: Call.batchObserve rows' :: cs) = observes cs + 1 := by simp [observes]
          rw [h6, Nat.mul_succ]
          omega

theorem roundUp_ge (U N : Nat) (hN : 1 ≤ N) : U ≤ roundUp U N := by
  unfold roundUp
  have h1 := Nat.div_add_mod (U + N - 1) N
  have h2 := Nat.mod_lt (U + N - 1) (show 0 < N by omega)
  omega

/-- C179: after `T` rounds with `N` environments exactly `⌊T N / size⌋` updates have been made, where `size` is the interval rounded up. -/
theorem C179_updates_vector (U N : Nat) (hU : 1 ≤ U) (hN : 1 ≤ N) (cs : List (Call O A R)) (hc : Rounds N cs) (s : St O A R)
    (ds : List (Dataset O A R)) (hr : run U St.init cs = .ok (s, ds)) : ds.length = observes cs * N / roundUp U N := by
  obtain ⟨h1, h2⟩ := rounds_used hU hc St.init s ds ⟨by simp [datasetSize, PPOData.batchSize, St.init], rfl, fun _ h => by cases h⟩
    (by simp [datasetSize, PPOData.batchSize, St.init]; omega) hr
  have h3 := C179_vector_size U N hU hN cs hc s ds hr
  have h0 : datasetSize (St.init : St O A R) = 0 := by simp [datasetSize, PPOData.batchSize, St.init]
  have h4 : used ds = ds.length * roundUp U N := used_const h3
  have h5 := roundUp_ge U N hN
  symm
  rw [Nat.div_eq_iff (by omega)]
  rw [h0, h4] at h1
  have h6 := Nat.mul_comm N (observes cs)
  omega

/-- One call of the methods for one environment. -/
theorem single_used (U : Nat) (hU : 1 ≤ U) (cs : List (Call O A R)) : ∀ (s s' : St O A R) (ds : List (Dataset O A R)), Single cs → datasetSize s < U →
    run U s cs = .ok (s', ds) →
      used ds + datasetSize s' + waiting s' = datasetSize s + waiting s + acts cs ∧ datasetSize s' < U := by
  induction cs with
  | nil =>
    intro s s' ds _ hlt hr
    simp only [run, Except.ok.injEq, Prod.mk.injEq] at hr
    obtain ⟨rfl, rfl⟩ := hr
    simpa [used, acts] using hlt
  | cons c cs ih =>
    intro s s' ds hc hlt hr
    have hc' : Single cs := fun c' h => hc c' (List.mem_cons_of_mem _ h)
    simp only [run, bind, Except.bind, pure, Except.pure] at hr
    cases h1 : step U s c with
    | error e => rw [h1] at hr; cases hr
    | ok r =>
      rw [h1] at hr
      simp only at hr
      cases h2 : run U r.1 cs with
      | error e => rw [h2] at hr; cases hr
      | ok q =>
        rw [h2] at hr
        simp only [Except.ok.injEq, Prod.mk.injEq] at hr
        obtain ⟨rfl, rfl⟩ := hr
        have key : used r.2 + datasetSize r.1 + waiting r.1 = datasetSize s + waiting s + acts [c] ∧ datasetSize r.1 < U := by
          rcases hc c List.mem_cons_self with ⟨obs, reward, action, rfl⟩ | ⟨state, reward, done, rfl⟩
          · simp only [step, Except.ok.injEq] at h1
            subst h1
            obtain ⟨v1, v2⟩ := update_used U hU (PPOData.record s obs reward)
            have e2 : datasetSize (PPOData.record s obs reward) = datasetSize s + waiting s := by
              unfold PPOData.record waiting
              cases s.last with
              | none => rfl
              | some l => simp [datasetSize, PPOData.batchSize]; omega
            refine ⟨?_, v2⟩
            change used (updateIfReady U (PPOData.record s obs reward)).2 + datasetSize (updateIfReady U (PPOData.record s obs reward)).1 + 1 = _ + 1
            omega
          · simp only [step] at h1
            cases hl : s.last with
            | none => rw [hl] at h1; cases h1
            | some l =>
              obtain ⟨o, a⟩ := l
              rw [hl] at h1
              simp only [Except.ok.injEq] at h1
              subst h1
              have e4 : acts [(Call.stop state reward done : Call O A R)] = 0 := rfl
              have e5 : waiting s = 1 := by simp [waiting, hl]
              have hw : ∀ t : St O A R, waiting (PPOData.flush t) = waiting t := by
                intro t
                unfold PPOData.flush PPOData.flushBatch waiting
                split <;> split <;> rfl
              have hw' : ∀ t : St O A R, waiting (updateIfReady U t).1 = waiting t := by
                intro t
                unfold updateIfReady
                split
                · exact hw t
                · rfl
              have hf : ∀ t : St O A R, datasetSize (PPOData.flush t) = datasetSize t := by
                intro t
                obtain ⟨f1, f2, f3⟩ := PPOData.flush_size t
                have : datasetSize (PPOData.flush t) = Dataset.size (PPOData.flush t).memory + (PPOData.flush t).lastEpisode.length
                  + PPOData.batchSize (PPOData.flush t) := rfl
                rw [this, f2, f3, f1]
                rfl
              obtain ⟨v1, v2⟩ := update_used U hU (PPOData.flush { s with lastEpisode := s.lastEpisode ++ [⟨o, a, reward, state, done⟩], last := none })
              refine ⟨?_, v2⟩
              rw [hw', hw, e4, e5]
              rw [hf] at v1
              have e6 : datasetSize ({ s with lastEpisode := s.lastEpisode ++ [⟨o, a, reward, state, done⟩], last := none } : St O A R) = datasetSize s + 1 := by
                simp [datasetSize, PPOData.batchSize]; omega
              have e7 : waiting ({ s with lastEpisode := s.lastEpisode ++ [⟨o, a, reward, state, done⟩], last := none } : St O A R) = 0 := rfl
              rw [e7]
              omega
        obtain ⟨j1, j2⟩ := ih r.1 q.1 q.2 hc' key.2 h2
        refine ⟨?_, j2⟩
        have e8 : acts (c :: cs) = acts [c] + acts cs := by
          unfold acts
          rw [← List.countP_append]
          rfl
        rw [used_append, e8]
        have := key.1
        omega

/-- C179: with one environment exactly `⌊n / update_interval⌋` updates have been made when the outcomes of `n` actions have been seen: that is
every action, but the last if it is neither followed by another nor by the end of the episode. -/
theorem C179_updates_single (U : Nat) (hU : 1 ≤ U) (cs : List (Call O A R)) (hc : Single cs) (s : St O A R)
    (ds : List (Dataset O A R)) (hr : run U St.init cs = .ok (s, ds)) :
    ds.length = (acts cs - if endsWithAct cs then 1 else 0) / U := by
  have h0 : datasetSize (St.init : St O A R) = 0 := by simp [datasetSize, PPOData.batchSize, St.init]
  have h0' : waiting (St.init : St O A R) = 0 := rfl
  obtain ⟨h1, h2⟩ := single_used U hU cs St.init s ds hc (by rw [h0]; omega) hr
  have hb : ∀ rows, Call.batchObserve rows ∉ cs := by
    intro rows h
    rcases hc _ h with ⟨_, _, _, h⟩ | ⟨_, _, _, h⟩ <;> cases h
  have h3 := C179_single_size U hU cs hb s ds hr
  have h4 : used ds = ds.length * U := used_const h3
  have h5 : waiting s = if endsWithAct cs then 1 else 0 := ends_waiting U cs hc s ds hr
  rw [← h5]
  symm
  rw [Nat.div_eq_iff (by omega)]
  rw [h0, h0', h4] at h1
  omega

section Witness

/-- The defaults of the PPO constructor (ppo.py:301-302): with one, two or 16 environments updates make whole passes, … -/
example : 64 ∣ roundUp 2048 1 ∧ 64 ∣ roundUp 2048 2 ∧ 64 ∣ roundUp 2048 16 := by decide

/-- … but with three they fail: 2049 transitions. -/
example : roundUp 2048 3 = 2049 ∧ ¬ 64 ∣ roundUp 2048 3 := by decide

/-- A round with two environments, one of which ends its episode. -/
def exRound : List (Call Nat Nat Nat) :=
  [.batchAct [(1, 0), (2, 0)], .batchObserve [(3, 5, true, false), (4, 6, false, false)],
    .batchAct [(7, 0), (4, 1)], .batchObserve [(8, 5, false, false), (9, 6, false, false)]]

example : observes exRound = 2 ∧ 2 * 2 / roundUp 3 2 = 1 := by decide

/-- One environment: an episode of two steps and the beginning of another. -/
def exSingle : List (Call Nat Nat Nat) := [.act 1 0 7, .act 2 5 8, .stop 3 6 true, .act 4 0 9, .act 5 1 7]

example : Single exSingle ∧ acts exSingle = 4 ∧ endsWithAct exSingle = true := by
  refine ⟨?_, by decide, by decide⟩
  intro c hc
  simp only [exSingle, List.mem_cons, List.not_mem_nil, or_false] at hc
  rcases hc with rfl | rfl | rfl | rfl | rfl <;> simp

/-- Three outcomes have been seen, which with an interval of 2 is one update. -/
example : ((run 2 St.init exSingle).toOption.map fun r => r.2.map Dataset.size) = some [2] := by decide

example : Rounds 2 exRound := .round _ _ _ rfl rfl (.round _ _ _ rfl rfl .nil)

/-- Its update (with an interval of 3) gets 4 transitions. -/
example : ((run 3 St.init exRound).toOption.map fun r => r.2.map Dataset.size) = some [4] := by decide

/-- A sound dataset with two different advantages, which is used in two passes of two minibatches. -/
example : Sound 2 (some 2) [[1, 2, 3], [4]] ∧ 2 ∣ (([[1, 2, 3], [4]] : List (List Nat)).map List.length).sum ∧
    ∃ x ∈ ([[1, 2, 3], [4]] : List (List Nat)).flatten, ∃ y ∈ ([[1, 2, 3], [4]] : List (List Nat)).flatten, (x : ℝ) ≠ y := by
  refine ⟨⟨by decide, fun m h => by cases h; decide, by decide⟩, by decide, 1, by decide, 2, by decide, by norm_num⟩

theorem exCut : cut (some 2) [[1, 2, 3], [4]] = .ok [[1, 2], [3], [4]] := by
  simp [cut, PPOData.limitSequenceLength, PPOData.limitAll, PPOData.limitOne.eq_def, pyAssert, bind, Except.bind, pure, Except.pure]

example : trpo 2 2 (fun _ l => l.reverse) (some 2) [[1, 2, 3], [4]] = ([[[4], [3]], [[1, 2]], [[1, 2]], [[3], [4]]], none) := by
  unfold trpo
  rw [exCut]
  decide +kernel

example : trpo 3 2 (fun _ l => l.reverse) (some 2) [[1, 2, 3], [4]] = ([[[4], [3], [1]]], some .indexError) := by
  unfold trpo
  rw [exCut]
  decide +kernel

end Witness

end Verif.RecurrentEpochs
