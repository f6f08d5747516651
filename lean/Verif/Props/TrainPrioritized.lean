import Mathlib.Tactic.Linarith
import Mathlib.Tactic.NormNum
import Mathlib.Tactic.Positivity
import Verif.Model.TrainPrioritized
import Verif.Props.TrainDQN
import Verif.Props.PrioritizedBuffer
import Verif.Props.PriorityWeights
set_option autoImplicit false
set_option linter.unusedSectionVars false

/-! # C132: a training run of a DQN with prioritized replay -/

namespace Verif.TrainPrioritized
open PBuf (Hist)
variable {θ O A R S H T X : Type}

/-- The constructor arguments of the agent and its buffer are sensible: the weights are those
of `0 ≤ beta0 ≤ 1` with a positive number of `betasteps` (or none); every possible absolute TD error, clipped and
increased by `eps`, is positive; `DQN.__init__` itself asserts `minibatch_size <= replay_start_size`. -/
structure Sensible (cap : Option Nat) (p : PWE) (c : Sched) : Prop where
  cap : cap ≠ some 0
  beta : 0 ≤ p.beta ∧ p.beta ≤ 1
  betaAdd : 0 ≤ p.betaAdd
  eps : ∀ e, 0 ≤ e → 0 < p.clipError e + p.eps
  batch : 0 < c.batchsize ∧ c.batchsize ≤ c.startSize
  interval : 0 < c.interval

/-- The random variates and absolute errors of a batch of `n`. -/
def Inputs (n : Nat) (us errs : List ℝ) : Prop :=
  us.length = n ∧ (∀ u ∈ us, 0 ≤ u ∧ u < 1) ∧ errs.length = n ∧ ∀ e ∈ errs, 0 ≤ e

/-- `beta` after `k` batches. -/
noncomputable def annealed (p : PWE) (k : Nat) : PWE := { p with beta := min 1 (p.beta + k * p.betaAdd) }

/-- A batch as reported: `n` entries, weights and errors, the weights positive and, if they are normalised, at most 1. -/
def GoodBatch (norm : Normalize) (n : Nat) (x : List (List T) × List ℝ × List ℝ) : Prop :=
  x.1.length = n ∧ x.2.1.length = n ∧ x.2.2.length = n ∧ ∀ w ∈ x.2.1, 0 < w ∧ (norm ≠ .no → w ≤ 1)

theorem sample_data {D : Type} {b b1 : PBuf D ℝ} {ratio : ℝ} {d : PBuf.Draws ℝ} {data : List D} {probs : List ℝ} {minProb : ℝ}
    (h : b.sample ratio d = .ok (data, probs, minProb, b1)) : b1.data = b.data := by
  unfold PBuf.sample at h
  split at h
  · cases h
  · cases hi : b.sampleIndices ratio d with
    | error e => rw [hi] at h; cases h
    | ok r =>
      obtain ⟨ixs, pr, mp, b'⟩ := r
      have hb' : b'.data = b.data := by
        unfold PBuf.sampleIndices at hi
        simp only at hi
        split at hi
        · cases hi
        · split at hi
          · cases hi
          · split at hi
            · cases hi
            · split at hi
              · cases hi
              · split at hi
                · cases hi
                · cases hi; rfl
      rw [hi] at h
      simp only at h
      split at h
      · cases h
      · cases h; exact hb'

theorem weights_pwe {p p' : PWE} {len : Nat} {probs ws : List ℝ} {minProb : ℝ} (h : p.weights len probs minProb = .ok (ws, p')) :
    p' = { p with beta := min 1 (p.beta + p.betaAdd) } := by
  obtain ⟨a, b, ba, e, norm, mn, mx⟩ := p
  cases norm <;> simp only [PWE.weights] at h
  · cases h; rfl
  · split at h <;> cases h; rfl
  · cases h; rfl

/-- C132, one batch, on every memory reached by a history of the buffer that holds enough entries: nothing raises, the batch
consists of entries at distinct positions, the weights are those of the probabilities `priority / sum of priorities`, each sampled entry gets the
priority `(clip(error) + eps) ** alpha` of its own error, all others keep theirs, and no entry is
added, removed or moved. -/
theorem C132_round (cap : Option Nat) (hc : cap ≠ some 0) (m : Mem T) (items : List (List T × ℝ)) (mx : ℝ)
    (h : Hist cap true 1 m.buf items mx) (hb : 0 ≤ m.pwe.beta) (n : Nat) (hn : 0 < n) (hlen : n ≤ items.length)
    (us errs : List ℝ) (hin : Inputs n us errs) (heps : ∀ e ∈ errs, 0 < m.pwe.clipError e + m.pwe.eps) :
    ∃ (ixs : List Nat) (entries : List (List T)) (pri ws : List ℝ) (minProb : ℝ) (m' : Mem T) (items' : List (List T × ℝ)),
      round n us errs m = .ok m' ∧ m'.log = m.log ++ [(entries, ws, errs)] ∧ GoodBatch m.pwe.norm n (entries, ws, errs) ∧
      ixs.length = n ∧ ixs.Nodup ∧
      entries.map some = ixs.map (fun i => (items.map Prod.fst)[i]?) ∧
      pri.map some = ixs.map (fun i => (items.map Prod.snd)[i]?) ∧
      m.pwe.weights items.length (pri.map (· / (items.map Prod.snd).sum)) minProb = .ok (ws, m'.pwe) ∧
      m'.pwe = { m.pwe with beta := min 1 (m.pwe.beta + m.pwe.betaAdd) } ∧
      Hist cap true 1 m'.buf items' ((errs.map fun e => (m.pwe.clipError e + m.pwe.eps) ^ m.pwe.alpha).foldl max mx) ∧
      items'.map Prod.fst = items.map Prod.fst ∧ (∀ j, j ∉ ixs → items'[j]? = items[j]?) ∧
      (∀ k (hk : k < ixs.length), (items'.map Prod.snd)[ixs[k]]? = errs[k]?.map fun e => (m.pwe.clipError e + m.pwe.eps) ^ m.pwe.alpha) := by
  obtain ⟨hu1, hu2, he1, he2⟩ := hin
  have hne : items ≠ [] := by rintro rfl; simp at hlen; omega
  have hd : (PBuf.Draws.mk [] us : PBuf.Draws ℝ).Valid 0 items.length := ⟨List.nodup_nil, by simp, hu2, fun _ => rfl⟩
  have hcnt : (PBuf.Draws.mk [] us : PBuf.Draws ℝ).uniformIxs.length + (PBuf.Draws.mk [] us : PBuf.Draws ℝ).us.length ≤ items.length := by
    simpa [hu1] using hlen
  have hps : ∀ q ∈ m.pwe.priorityFromErrors errs, 0 < q := by
    intro q hq
    obtain ⟨e, he, rfl⟩ := List.mem_map.1 hq
    exact Real.rpow_pos_of_pos (heps e he) _
  have hpl : (m.pwe.priorityFromErrors errs).length = (PBuf.Draws.mk [] us : PBuf.Draws ℝ).uniformIxs.length + (PBuf.Draws.mk [] us : PBuf.Draws ℝ).us.length := by
    simp [PWE.priorityFromErrors, he1, hu1]
  obtain ⟨ixs, data, probs, pri, minProb, b1, b2, items', e1, e2, e3, e4, e5, e6, e7, e8, e9, e10⟩ :=
    C07_round cap true 1 hc one_pos m.buf items mx h hne 0 ⟨[], us⟩ hd hcnt _ hps hpl
  obtain ⟨⟨hdata, -, -⟩, -, hpos, -⟩ := C07_aligned cap true 1 hc one_pos m.buf items mx h
  have hb1 : b1.data = m.buf.data := sample_data e1
  have hixl : ixs.length = n := by rw [e3, hpl]; simp [hu1]
  have hdl : data.length = n := by simpa [hixl] using congrArg List.length e4
  have hpril : pri.length = n := by simpa [hixl] using congrArg List.length e5
  have hprobs : probs = pri.map (· / (items.map Prod.snd).sum) := by rw [e6]; apply List.map_congr_left; intro a _; simp
  have hsum : 0 < (items.map Prod.snd).sum := by
    refine List.sum_pos _ ?_ (by simpa using hne)
    intro y hy
    obtain ⟨x, hx, rfl⟩ := List.mem_map.1 hy
    exact hpos x hx
  have hpripos : ∀ q ∈ pri, 0 < q := by
    intro q hq
    have : some q ∈ pri.map some := List.mem_map_of_mem hq
    rw [e5] at this
    obtain ⟨i, -, hi⟩ := List.mem_map.1 this
    have := List.mem_of_getElem? hi
    obtain ⟨x, hx, rfl⟩ := List.mem_map.1 this
    exact hpos x hx
  have hprobpos : ∀ q ∈ probs, 0 < q := by
    rw [hprobs]
    intro q hq
    obtain ⟨y, hy, rfl⟩ := List.mem_map.1 hq
    exact div_pos (hpripos y hy) hsum
  have hlen' : m.buf.data.length = items.length := by rw [hdata]; simp
  obtain ⟨ws, p', hw, hwl, hwp⟩ : ∃ ws p', m.pwe.weights items.length probs minProb = .ok (ws, p') ∧ ws.length = n ∧
      ∀ w ∈ ws, 0 < w ∧ (m.pwe.norm ≠ .no → w ≤ 1) := by
    cases hnorm : m.pwe.norm with
    | no =>
      refine ⟨_, _, by simp only [PWE.weights, hnorm]; rfl, by simp [hprobs, hpril], ?_⟩
      intro w hw
      obtain ⟨q, hq, rfl⟩ := List.mem_map.1 hw
      refine ⟨Real.rpow_pos_of_pos (mul_pos ?_ (hprobpos q hq)) _, by simp⟩
      exact_mod_cast List.length_pos_iff.2 hne
    | batch =>
      obtain ⟨ws, p', h1, h2, h3, -⟩ := C18_batch_weights m.pwe hnorm hb items.length probs minProb
        (by rintro h0; rw [h0] at hprobs; have := congrArg List.length hprobs; simp [hpril] at this; omega) hprobpos
      exact ⟨ws, p', h1, by rw [h2, hprobs]; simp [hpril], fun w hw => ⟨(h3 w hw).1, fun _ => (h3 w hw).2⟩⟩
    | memory =>
      obtain ⟨data', probs', minProb', b', ws, p', h1, h2, h3, h4⟩ := C18_memory_weights cap true 1 hc one_pos m.buf items mx h hne 0
        ⟨le_rfl, zero_le_one⟩ ⟨[], us⟩ hd hcnt m.pwe hnorm hb items.length
      rw [e1] at h1
      cases h1
      exact ⟨ws, p', h2, by simpa [hu1] using h3, fun w hw => ⟨(h4 w hw).1, fun _ => (h4 w hw).2⟩⟩
  have hp' : p' = { m.pwe with beta := min 1 (m.pwe.beta + m.pwe.betaAdd) } := weights_pwe hw
  refine ⟨ixs, data, pri, ws, minProb, ⟨b2, p', m.log ++ [(data, ws, errs)]⟩, items', ?_, rfl, ⟨hdl, hwl, he1, hwp⟩, hixl, (e10 rfl).1, e4, e5, by rw [← hprobs]; exact hw,
    hp', e7, e8, e9, ?_⟩
  · unfold round
    have hpe : p'.priorityFromErrors errs = m.pwe.priorityFromErrors errs := by rw [hp']; rfl
    have hnot : ¬ items.length < n := by omega
    simp only [hlen', hnot, if_false, e1, pure, Except.pure, bind, Except.bind, hb1, hw, hpe, e2]
  · intro k hk
    rw [(e10 rfl).2 k hk]
    simp [PWE.priorityFromErrors]

/-- The memory after some updates: reached by a history of the buffer, with annealed weights and good batches. -/
structure Good (cap : Option Nat) (p : PWE) (n : Nat) (m : Mem T) (items : List (List T × ℝ)) (mx : ℝ) : Prop where
  hist : Hist cap true 1 m.buf items mx
  pwe : m.pwe = annealed p m.log.length
  log : ∀ x ∈ m.log, GoodBatch p.norm n x
  le : ∀ x ∈ items, x.2 ≤ mx

theorem newest_le {cap : Option Nat} {items : List (List T × ℝ)} {mx : ℝ} (h : ∀ x ∈ items, x.2 ≤ mx) (w : List T) :
    ∀ x ∈ BoundedList.newest cap (items ++ [(w, (none : Option ℝ).getD mx)]), x.2 ≤ mx := by
  intro x hx
  have hx : x ∈ items ++ [(w, mx)] := by
    cases cap with
    | none => exact hx
    | some c => exact List.mem_of_mem_drop hx
  rcases List.mem_append.1 hx with hx | hx
  · exact h x hx
  · rw [List.mem_singleton] at hx; subst hx; exact le_rfl

theorem foldl_max_mem {l : List ℝ} : ∀ {mx y : ℝ}, y ∈ l → y ≤ l.foldl max mx := by
  induction l with
  | nil => intro mx y h; cases h
  | cons a l ih =>
    intro mx y h
    rcases List.mem_cons.1 h with rfl | h
    · exact (le_max_right mx y).trans (PBuf.le_foldl_max l _)
    · exact ih h

theorem round_le {items items' : List (List T × ℝ)} {mx : ℝ} {ixs : List Nat} {errs : List ℝ} {n : Nat} {f : ℝ → ℝ} (h : ∀ x ∈ items, x.2 ≤ mx)
    (h1 : items'.map Prod.fst = items.map Prod.fst) (h2 : ixs.length = n) (h3 : errs.length = n) (h4 : ∀ j, j ∉ ixs → items'[j]? = items[j]?)
    (h5 : ∀ k (hk : k < ixs.length), (items'.map Prod.snd)[ixs[k]]? = errs[k]?.map f) :
    ∀ x ∈ items', x.2 ≤ (errs.map f).foldl max mx := by
  intro x hx
  obtain ⟨j, hj⟩ := List.mem_iff_getElem?.1 hx
  by_cases hm : j ∈ ixs
  · obtain ⟨k, hk, rfl⟩ := List.mem_iff_getElem.1 hm
    have := h5 k hk
    rw [List.getElem?_map, hj, List.getElem?_eq_getElem (by omega)] at this
    simp only [Option.map_some, Option.some.injEq] at this
    rw [this]
    exact foldl_max_mem (List.mem_map_of_mem (List.getElem_mem _))
  · rw [h4 j hm] at hj
    exact (h x (List.mem_of_getElem? hj)).trans (PBuf.le_foldl_max _ _)

theorem min_step (a b : ℝ) (hb : 0 ≤ b) : min 1 (min 1 a + b) = min 1 (a + b) := by
  rcases le_total 1 a with h | h
  · rw [min_eq_left h, min_eq_left (by linarith), min_eq_left (by linarith)]
  · rw [min_eq_right h]

theorem rounds_good {cap : Option Nat} {p : PWE} {c : Sched} (hs : Sensible cap p c) (us errs : Nat → List ℝ)
    (hin : ∀ j, Inputs c.batchsize (us j) (errs j)) (i : Nat) : ∀ (j : Nat) (m : Mem T) (items : List (List T × ℝ)) (mx : ℝ),
      Good cap p c.batchsize m items mx → c.batchsize ≤ items.length →
      ∃ m' items' mx' l, rounds c.batchsize us errs j i m = .ok m' ∧ Good cap p c.batchsize m' items' mx' ∧
        items'.map Prod.fst = items.map Prod.fst ∧ m'.log = m.log ++ l ∧ l.map (·.2.2) = (List.range i).map (fun k => errs (j + k)) ∧
        ∀ x ∈ l, ∀ e ∈ x.1, e ∈ items.map Prod.fst := by
  induction i with
  | zero => intro j m items mx h _; exact ⟨m, items, mx, [], rfl, h, rfl, by simp, by simp, by simp⟩
  | succ i ih =>
    intro j m items mx h hl
    obtain ⟨ixs, entries, pri, ws, minProb, m1, items1, e1, e2, e3, e4, e5, e6, e7, e8, e9, e10, e11, e12, e13⟩ :=
      C132_round cap hs.cap m items mx h.hist (by rw [h.pwe]; simp only [annealed]; refine le_min zero_le_one (add_nonneg hs.beta.1 (mul_nonneg (Nat.cast_nonneg _) hs.betaAdd)))
        c.batchsize hs.batch.1 hl (us j) (errs j) (hin j) (by
          intro e he
          rw [h.pwe]
          exact hs.eps e ((hin j).2.2.2 e he))
    have hg : Good cap p c.batchsize m1 items1 _ := ⟨e10, by
      rw [e9, h.pwe, e2]
      simp only [annealed, List.length_append, List.length_singleton, Nat.cast_add, Nat.cast_one]
      rw [min_step _ _ hs.betaAdd]
      congr 2; ring, by
      intro x hx
      rw [e2] at hx
      rcases List.mem_append.1 hx with hx | hx
      · exact h.log x hx
      · rw [List.mem_singleton] at hx
        subst hx
        rw [h.pwe] at e3; exact e3, round_le h.le e11 e4 (hin j).2.2.1 e12 e13⟩
    obtain ⟨m', items', mx', l, f1, f2, f3, f4, f5, f6⟩ := ih (j + 1) m1 items1 _ hg (by
      have := congrArg List.length e11
      simp only [List.length_map] at this
      omega)
    refine ⟨m', items', mx', (entries, ws, errs j) :: l, ?_, f2, f3.trans e11, ?_, ?_, ?_⟩
    · unfold rounds
      rw [e1]; exact f1
    · rw [f4, e2]; simp
    · rw [List.map_cons, f5, List.range_succ_eq_map]
      simp [Function.comp_def, Nat.add_assoc, Nat.add_comm 1]
    · intro x hx e he
      rcases List.mem_cons.1 hx with rfl | hx
      · have : some e ∈ entries.map some := List.mem_map_of_mem he
        rw [e6] at this
        obtain ⟨i, -, hi⟩ := List.mem_map.1 this
        exact List.mem_of_getElem? hi
      · rw [← e11]; exact f6 x hx e he

/-- C132, one call of `update_if_necessary(t)` on such a memory: it never raises; below `replay_start_size` and between the
update intervals it does nothing, and otherwise it makes exactly `n_times_update` batches, of entries that the buffer holds, with the errors of
the model on them; the entries stay. -/
theorem C132_update {cap : Option Nat} {p : PWE} {c : Sched} (hs : Sensible cap p c) (us errs : Nat → List ℝ)
    (hin : ∀ j, Inputs c.batchsize (us j) (errs j)) (t : Nat) (m : Mem T) (items : List (List T × ℝ)) (mx : ℝ)
    (h : Good cap p c.batchsize m items mx) :
    ∃ m' items' mx' l, update c us errs t m = .ok m' ∧ Good cap p c.batchsize m' items' mx' ∧ items'.map Prod.fst = items.map Prod.fst ∧
      m'.log = m.log ++ l ∧ (∀ x ∈ l, ∀ e ∈ x.1, e ∈ items.map Prod.fst) ∧
      (items.length < c.startSize ∨ ¬ c.interval ∣ t → m' = m) ∧
      (c.startSize ≤ items.length → c.interval ∣ t → l.map (·.2.2) = (List.range c.nTimes).map errs) := by
  obtain ⟨⟨hdata, -, -⟩, -, -, -⟩ := C07_aligned cap true 1 hs.cap one_pos m.buf items mx h.hist
  have hlen' : m.buf.data.length = items.length := by rw [hdata]; simp
  unfold update
  by_cases h1 : m.buf.data.length < c.startSize
  · rw [if_pos h1]
    exact ⟨m, items, mx, [], rfl, h, rfl, by simp, by simp, fun _ => rfl, fun h2 => by omega⟩
  · rw [if_neg h1, if_neg (by have := hs.interval; omega)]
    by_cases h2 : t % c.interval = 0
    · rw [if_neg (by simpa using h2)]
      obtain ⟨m', items', mx', l, f1, f2, f3, f4, f5, f6⟩ := rounds_good hs us errs hin c.nTimes 0 m items mx h (by have := hs.batch.2; omega)
      refine ⟨m', items', mx', l, f1, f2, f3, f4, f6, ?_, fun _ _ => by simpa using f5⟩
      rintro (h3 | h3)
      · omega
      · exact absurd (Nat.dvd_of_mod_eq_zero h2) h3
    · rw [if_pos h2]
      exact ⟨m, items, mx, [], rfl, h, rfl, by simp, by simp, fun _ => rfl, fun _ h3 => absurd (Nat.mod_eq_zero_of_dvd h3) h2⟩

/-- The prioritized buffer beside the plain buffer of C121. -/
def Rel (cap : Option Nat) (p : PWE) (n : Nat) (s : St (DQN.Rec O A R H)) (b : ReplayBuffer Nat (DQN.Rec O A R H)) : Prop :=
  s.rb.numSteps = b.numSteps ∧ s.rb.last = b.last ∧ b.memory.Ok ∧ b.memory.maxlen = cap ∧
  ∃ m items mx, s.rb.memory = .ok m ∧ Good cap p n m items mx ∧ items.map Prod.fst = b.memory.iter

theorem push_rel {cap : Option Nat} (hc : cap ≠ some 0) {p : PWE} {n : Nat} (ws : List (List T)) : ∀ (m : Mem T) (items : List (List T × ℝ)) (mx : ℝ) (q : RAQ (List T)),
    q.Ok → q.maxlen = cap → Good cap p n m items mx → items.map Prod.fst = q.iter →
    ∃ m' items' mx', ws.foldl push (.ok m) = .ok m' ∧ Good cap p n m' items' mx' ∧ items'.map Prod.fst = (ws.foldl RAQ.append q).iter := by
  induction ws with
  | nil => intro m items mx q _ _ h2 h3; exact ⟨m, items, mx, rfl, h2, h3⟩
  | cons w ws ih =>
    intro m items mx q h0 h1 h2 h3
    obtain ⟨b', f1, f2⟩ := (C07_append_popleft cap true 1 hc one_pos m.buf items mx h2.hist).1 w none (by simp)
    have ha := RAQ.foldl_append_iter [w] q h0
    simp only [List.foldl_cons, List.foldl_nil] at ha
    have hp : push (.ok m) w = .ok { m with buf := b' } := by
      simp only [push, bind, Except.bind, f1, pure, Except.pure]
    obtain ⟨m', items', mx', g1, g2, g3⟩ := ih { m with buf := b' } _ mx (q.append w) ha.2.2 (ha.2.1.trans h1) ⟨f2, h2.pwe, h2.log, newest_le h2.le w⟩ (by
      rw [TrainDQN.newest_map, List.map_append, h3, ha.1, h1]; rfl)
    exact ⟨m', items', mx', by rw [List.foldl_cons, hp]; exact g1, g2, g3⟩

theorem nstep_rel {cap : Option Nat} (hc : cap ≠ some 0) {p : PWE} {n : Nat} (s : St (DQN.Rec O A R H)) (b : ReplayBuffer Nat (DQN.Rec O A R H))
    (h : Rel cap p n s b) (op : NStep.Op Nat (DQN.Rec O A R H)) (k : Nat) :
    Rel cap p n ⟨s.rb.step push (·.terminal) op, k⟩ (b.step RAQ.append (·.terminal) op) := by
  obtain ⟨h1, h2, h3, h4, m, items, mx, h5, h6, h7⟩ := h
  have ha := RAQ.foldl_append_iter (NStep.emit (·.terminal) b.numSteps (b.last op.env) op) b.memory h3
  rw [NStep.step_eq, NStep.step_eq]
  refine ⟨h1, by rw [h1, h2], ha.2.2, ha.2.1.trans h4, ?_⟩
  simp only [h5, h1, h2]
  exact push_rel hc _ m items mx b.memory h3 h4 h6 h7

theorem buffer_rel {cap : Option Nat} {p : PWE} {c : Sched} (hs : Sensible cap p c) (us errs : Nat → Nat → List ℝ)
    (hin : ∀ k j, Inputs c.batchsize (us k j) (errs k j)) (n : Nat) (l : List (DQN.Ev θ O A R H)) :
    Rel cap p c.batchsize (buffer cap n p c us errs l) (TrainDQN.buffer cap n l) := by
  induction l using List.reverseRecOn with
  | nil =>
    refine ⟨rfl, rfl, RAQ.init_ok cap [], (RAQ.init_iter _ _).2, Mem.init cap p, [], 1, rfl, ⟨.init, ?_, by simp [Mem.init], by simp⟩, ?_⟩
    · simp only [annealed, Mem.init, List.length_nil, Nat.cast_zero, zero_mul, add_zero, min_eq_right hs.beta.2]
    · rw [show (TrainDQN.buffer cap n ([] : List (DQN.Ev θ O A R H))).memory = RAQ.init cap [] from rfl, (RAQ.init_iter _ _).1]
      cases cap <;> simp [BoundedList.newest]
  | append_singleton l e ih =>
    unfold buffer
    rw [List.foldl_append, List.foldl_cons, List.foldl_nil]
    change Rel cap p c.batchsize (step c us errs (buffer cap n p c us errs l) e) _
    have hb : TrainDQN.buffer cap n (l ++ [e]) = (TrainDQN.bufOps [e]).foldl (NStep.step RAQ.append (·.terminal)) (TrainDQN.buffer cap n l) := by
      simp only [TrainDQN.buffer, TrainDQN.bufOps, List.filterMap_append]
      exact List.foldl_append ..
    rw [hb]
    cases e with
    | append i tr => exact nstep_rel hs.cap _ _ ih (.append i tr) _
    | stopEpisode i => exact nstep_rel hs.cap _ _ ih (.stop i) _
    | sync t q => exact ih
    | update t q =>
      obtain ⟨h1, h2, h3, h4, m, items, mx, h5, h6, h7⟩ := ih
      obtain ⟨m', items', mx', lg, f1, f2, f3, -⟩ := C132_update hs (us _) (errs _) (hin _) t m items mx h6
      exact ⟨h1, h2, h3, h4, m', items', mx', by
        simp only [step, h5]; exact f1, f2, f3.trans h7⟩

/-- Appending to the buffer makes no batch. -/
theorem push_log (ws : List (List T)) : ∀ (m m' : Mem T), ws.foldl push (.ok m) = .ok m' → m'.log = m.log := by
  induction ws with
  | nil => intro m m' h; cases h; rfl
  | cons w ws ih =>
    intro m m' h
    rw [List.foldl_cons] at h
    cases hb : m.buf.append w none with
    | error e =>
      have : push (.ok m) w = .error e := by simp only [push, bind, Except.bind, hb]
      rw [this] at h
      have he : ∀ ws : List (List T), ws.foldl push (.error e) = .error e := by
        intro ws
        induction ws with
        | nil => rfl
        | cons a l ih => rw [List.foldl_cons]; exact ih
      rw [he] at h; cases h
    | ok b =>
      have : push (.ok m) w = .ok { m with buf := b } := by simp only [push, bind, Except.bind, hb, pure, Except.pure]
      rw [this] at h
      exact ih { m with buf := b } _ h

/-- Calls of `update_if_necessary`. -/
def isUpdate : DQN.Ev θ O A R H → Bool
  | .update .. => true
  | _ => false

/-- C132: the batches made so far are those of a selection of the updates, in order, each with `n_times_update` batches and its own random variates and errors. -/
theorem C132_batches {cap : Option Nat} {p : PWE} {c : Sched} (hs : Sensible cap p c) (us errs : Nat → Nat → List ℝ)
    (hin : ∀ k j, Inputs c.batchsize (us k j) (errs k j)) (n : Nat) (l : List (DQN.Ev θ O A R H)) :
    ∃ m due, (buffer cap n p c us errs l).rb.memory = .ok m ∧ List.Pairwise (· < ·) due ∧ (∀ k ∈ due, k < l.countP isUpdate) ∧
      m.log.map (·.2.2) = due.flatMap fun k => (List.range c.nTimes).map (errs k) := by
  suffices h : ∃ m due, (buffer cap n p c us errs l).rb.memory = .ok m ∧ List.Pairwise (· < ·) due ∧ (∀ k ∈ due, k < l.countP isUpdate) ∧
      (m.log.map (·.2.2) = due.flatMap fun k => (List.range c.nTimes).map (errs k)) ∧ (buffer cap n p c us errs l).calls = l.countP isUpdate by
    obtain ⟨m, due, h1, h2, h3, h4, -⟩ := h
    exact ⟨m, due, h1, h2, h3, h4⟩
  induction l using List.reverseRecOn with
  | nil => exact ⟨Mem.init cap p, [], rfl, .nil, by simp, by simp [Mem.init], rfl⟩
  | append_singleton l e ih =>
    obtain ⟨m, due, h1, h2, h3, h4, h5⟩ := ih
    have hb : buffer cap n p c us errs (l ++ [e]) = step c us errs (buffer cap n p c us errs l) e := by
      unfold buffer
      rw [List.foldl_append, List.foldl_cons, List.foldl_nil]
    have hrel := buffer_rel hs us errs hin n (l ++ [e])
    obtain ⟨-, -, -, -, m', items', mx', g1, g2, -⟩ := hrel
    have key : ∀ op : NStep.Op Nat (DQN.Rec O A R H), step c us errs (buffer cap n p c us errs l) e =
        ⟨(buffer cap n p c us errs l).rb.step push (·.terminal) op, (buffer cap n p c us errs l).calls⟩ → isUpdate e = false →
        ∃ m due, (buffer cap n p c us errs (l ++ [e])).rb.memory = .ok m ∧ List.Pairwise (· < ·) due ∧ (∀ k ∈ due, k < (l ++ [e]).countP isUpdate) ∧
          (m.log.map (·.2.2) = due.flatMap fun k => (List.range c.nTimes).map (errs k)) ∧ (buffer cap n p c us errs (l ++ [e])).calls = (l ++ [e]).countP isUpdate := by
      intro op hop hu
      refine ⟨m', due, g1, h2, ?_, ?_, ?_⟩
      · intro k hk
        rw [List.countP_append]
        have := h3 k hk
        omega
      · rw [hb, hop, NStep.step_eq] at g1
        simp only [h1] at g1
        rw [push_log _ _ _ g1, h4]
      · rw [hb, hop, List.countP_append]
        simp [h5, hu]
    cases e with
    | append i tr => exact key (.append i tr) rfl rfl
    | stopEpisode i => exact key (.stop i) rfl rfl
    | sync t q =>
      refine ⟨m, due, by rw [hb]; exact h1, h2, ?_, h4, ?_⟩
      · intro k hk
        rw [List.countP_append]
        have := h3 k hk
        omega
      · rw [hb, List.countP_append]
        simpa [step, isUpdate] using h5
    | update t q =>
      obtain ⟨-, -, -, -, m₀, items, mx, f1, f2, -⟩ := buffer_rel hs us errs hin n l
      rw [h1] at f1
      cases f1
      obtain ⟨m'', items'', mx'', lg, k1, -, -, k4, -, k6, k7⟩ := C132_update hs (us (l.countP isUpdate)) (errs (l.countP isUpdate)) (hin _) t m items mx f2
      have hm : (buffer cap n p c us errs (l ++ [DQN.Ev.update t q])).rb.memory = .ok m'' := by
        rw [hb]
        simp only [step, h1, h5]
        exact k1
      have hcalls : (buffer cap n p c us errs (l ++ [DQN.Ev.update t q])).calls = (l ++ [DQN.Ev.update t q]).countP isUpdate := by
        rw [hb, List.countP_append]
        simp [step, isUpdate, h5]
      by_cases hdue : c.startSize ≤ items.length ∧ c.interval ∣ t
      · refine ⟨m'', due ++ [l.countP isUpdate], hm, ?_, ?_, ?_, hcalls⟩
        · rw [List.pairwise_append]
          exact ⟨h2, List.pairwise_singleton _ _, fun a ha b hb => by
            rw [List.mem_singleton.1 hb]; exact h3 a ha⟩
        · intro k hk
          rw [List.countP_append]
          rcases List.mem_append.1 hk with hk | hk
          · have := h3 k hk
            omega
          · rw [List.mem_singleton.1 hk]
            simp [isUpdate]
        · rw [k4, List.map_append, h4, k7 hdue.1 hdue.2, List.flatMap_append]
          simp
      · have : m'' = m := k6 (by
          by_contra hcon
          rw [not_or] at hcon
          exact hdue ⟨by omega, by_contra fun h => hcon.2 h⟩)
        subst this
        refine ⟨m'', due, hm, h2, ?_, h4, hcalls⟩
        intro k hk
        rw [List.countP_append]
        have := h3 k hk
        omega

variable [Zero R] [LinearOrder S]

/-- C132: at every moment of every run of `train_agent` with a DQN and a prioritized replay buffer, whatever the environment, the actions, the
random variates and the TD errors, nothing raises; the buffer holds exactly the entries that belong to the environment's steps
the agent has been told of, in order, or the newest ones of these; its two trees hold one positive priority for each of them; each batch made so far had
`minibatch_size` entries with positive weights, at most 1 if they are normalised; and `beta` has been annealed once per batch. -/
theorem C132_run (c : Train.Cfg S) (hT : c.agentHasT = true) (w : Train.World O A R S X) (d : DQN.Cfg θ O H) (hd : 0 < d.targetInterval)
    (cap : Option Nat) (p : PWE) (u : Sched) (hs : Sensible cap p u) (us errs : Nat → Nat → List ℝ)
    (hin : ∀ k j, Inputs u.batchsize (us k j) (errs k j)) (n : Nat) (hn : 0 < n) (ps : Nat → θ) (p0 : θ)
    (pre post : List (Train.Ev O A R S)) (hrun : (Train.run c w).1 = pre ++ post) :
    ∃ s ev m items, TrainDQN.drive d ps 0 (DQN.init p0) pre = .ok (s, ev) ∧ (buffer cap n p u us errs ev).rb.memory = .ok m ∧
      m.buf.Shows items ∧
      items.map (fun x => x.1.map TrainDQN.stepOf) = BoundedList.newest cap (TrainDQN.entriesOf n (TrainDQN.known pre)) ∧
      (∀ x ∈ items, 0 < x.2 ∧ x.2 ≤ m.buf.maxPriority) ∧
      (∀ x ∈ m.log, GoodBatch p.norm u.batchsize x) ∧
      m.pwe = annealed p m.log.length := by
  obtain ⟨s, ev, e1, e2⟩ := TrainDQN.C121_buffer c hT w d hd cap n hn ps p0 pre post hrun
  obtain ⟨-, -, -, -, m, items, mx, h1, h2, h3⟩ := buffer_rel hs us errs hin n ev
  obtain ⟨a1, a2, a3, -⟩ := C07_aligned cap true 1 hs.cap one_pos m.buf items mx h2.hist
  refine ⟨s, ev, m, items, e1, h1, a1, ?_, ?_, h2.log, h2.pwe⟩
  · rw [← e2]
    unfold TrainDQN.stored ReplayBuffer.entries
    rw [← h3, List.map_map]; rfl
  · intro x hx
    refine ⟨a3 x hx, ?_⟩
    rw [a2]
    exact h2.le x hx

/-- C132: `eps` is needed.  With `eps = 0` (and `alpha > 0`) a batch in which one absolute TD error is exactly `0` ends the run with an
`AssertionError`, on every memory that holds enough entries. -/
theorem C132_eps_needed (cap : Option Nat) (hc : cap ≠ some 0) (m : Mem T) (items : List (List T × ℝ)) (mx : ℝ)
    (h : Hist cap true 1 m.buf items mx) (hb : 0 ≤ m.pwe.beta) (n : Nat) (hn : 0 < n) (hlen : n ≤ items.length)
    (us errs : List ℝ) (hin : Inputs n us errs) (he : m.pwe.eps = 0) (hmin : m.pwe.errorMin = some 0) (hmax : m.pwe.errorMax = some 1)
    (ha : 0 < m.pwe.alpha) (hz : (0 : ℝ) ∈ errs) : round n us errs m = .error .assertionError := by
  obtain ⟨ixs, entries, pri, ws, minProb, m', items', e1, e2, -⟩ := C132_round cap hc m items mx h hb n hn hlen us (errs.map fun _ => 1)
    ⟨hin.1, hin.2.1, by simpa using hin.2.2.1, by simp⟩ (by
      intro e he'
      obtain ⟨a, -, rfl⟩ := List.mem_map.1 he'
      simp [PWE.clipError, hmin, hmax, he])
  unfold round at e1 ⊢
  by_cases hl : m.buf.data.length < n
  · simp only [hl, if_true, bind, Except.bind, throw, throwThe, MonadExceptOf.throw] at e1
    cases e1
  · simp only [hl, if_false, pure, Except.pure, bind, Except.bind] at e1 ⊢
    cases hsamp : m.buf.sample 0 ⟨[], us⟩ with
    | error e => rw [hsamp] at e1; cases e1
    | ok r =>
      obtain ⟨data, probs, mp, b1⟩ := r
      rw [hsamp] at e1
      simp only at e1 ⊢
      cases hw : m.pwe.weights b1.data.length probs mp with
      | error e => rw [hw] at e1; cases e1
      | ok r =>
        obtain ⟨ws', p'⟩ := r
        rw [hw] at e1
        simp only at e1 ⊢
        have hp' := weights_pwe hw
        have hflag : b1.flag = true := by
          unfold PBuf.sample at hsamp
          split at hsamp
          · cases hsamp
          · split at hsamp
            · cases hsamp
            · split at hsamp
              · cases hsamp
              · cases hsamp; rfl
        have : b1.setLast (p'.priorityFromErrors errs) = .error .assertionError := by
          unfold PBuf.setLast
          rw [if_neg (by simp [hflag]), if_pos]
          intro hall
          have := hall ((p'.clipError 0 + p'.eps) ^ p'.alpha) (List.mem_map.2 ⟨0, hz, rfl⟩)
          rw [hp'] at this
          simp only [PWE.clipError, hmin, hmax, he, max_self, add_zero] at this
          rw [min_eq_right zero_le_one, Real.zero_rpow ha.ne'] at this
          exact lt_irrefl _ this
        rw [this]

/-- The default arguments (`prioritized.py:94-97`, `dqn.py:135-149` with a capacity) are sensible. -/
example : Sensible (some (10 ^ 6)) ⟨0.6, 0.4, 0.6 / 200000, 0.01, .batch, some 0, some 1⟩ ⟨32, 1, 50000, 1⟩ :=
  ⟨by simp, by norm_num, by norm_num, by
    intro e he
    have : 0 ≤ min 1 (max 0 e) := le_min zero_le_one (le_max_left 0 e)
    show 0 < min 1 (max 0 e) + 0.01
    linarith, by norm_num, by norm_num⟩

/-- There are inputs for every batch size. -/
example (n : Nat) : Inputs n (List.replicate n 0) (List.replicate n 0) :=
  ⟨by simp, by intro u hu; rw [(List.mem_replicate.1 hu).2]; norm_num, by simp, by intro u hu; rw [(List.mem_replicate.1 hu).2]⟩

end Verif.TrainPrioritized
