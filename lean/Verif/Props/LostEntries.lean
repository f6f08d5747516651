import Verif.Props.OpenBatches
set_option autoImplicit false
set_option linter.unusedSectionVars false

/-! # C180: entries lost when the drawing of a batch is interrupted -/

namespace Verif.OpenBatches
open TrainPrioritized PBuf TreeQueue
open ListQueue (listMin)
open BoundedList (newest)
variable {T : Type}

theorem numPos_le_set (xs : List ℝ) (i : Nat) (p : ℝ) (hp : 0 < p) : numPos xs ≤ numPos (xs.set i p) := by
  unfold numPos
  induction xs generalizing i with
  | nil => simp
  | cons x xs ih =>
    cases i with
    | zero => simp only [List.set_cons_zero, List.countP_cons, decide_eq_true hp, if_true]; split <;> omega
    | succ i => simp only [List.set_cons_succ, List.countP_cons]; have := ih i; omega

theorem numPos_le_assign (ixs : List Nat) : ∀ (ps xs : List ℝ), (∀ p ∈ ps, 0 < p) → numPos xs ≤ numPos (assign xs ixs ps) := by
  induction ixs with
  | nil => intro ps xs _; exact le_rfl
  | cons i ixs ih =>
    intro ps xs hp
    cases ps with
    | nil => exact le_rfl
    | cons p ps =>
      exact (numPos_le_set xs i p (hp p (by simp))).trans (ih ps (xs.set i p) (fun q hq => hp q (by simp [hq])))

/-- A buffer that works, with entries `l` whose weights in the drawing are `xs`, some of them 0. -/
structure Lost (cap : Option Nat) (n : Nat) (m : Mem T) (l : List (List T)) (xs : List ℝ) : Prop where
  data : m.buf.data = l
  sums : Holds List.sum m.buf.sums xs
  len : xs.length = l.length
  mins : ∃ ys, Holds listMin m.buf.mins ys ∧ ys.length = l.length
  nonneg : ∀ x ∈ xs, 0 ≤ x
  wait : m.buf.wait = true
  flag : m.buf.flag = false
  cap : m.buf.capacity = cap
  mpos : 0 < m.buf.maxPriority
  clip : ∀ e, 0 ≤ e → 0 < m.pwe.clipError e + m.pwe.eps
  enough : n ≤ numPos xs

/-- The entry `e` has weight 0 wherever it is. -/
def Absent (e : List T) (l : List (List T)) (xs : List ℝ) : Prop := ∀ i : Nat, l[i]? = some e → xs[i]? = some 0

theorem Lost.push {cap : Option Nat} (hc : cap ≠ some 0) {n : Nat} {m : Mem T} {L : List (List T)} {xs : List ℝ} (h : Lost cap n m (newest cap L) xs)
    (w : List T) :
    ∃ m' xs', TrainPrioritized.push (.ok m) w = .ok m' ∧ Lost cap n m' (newest cap (L ++ [w])) xs' ∧ m'.log = m.log ∧
      ∀ e, e ≠ w → Absent e (newest cap L) xs → Absent e (newest cap (L ++ [w])) xs' := by
  have hx := h.sums
  have hxl := h.len
  obtain ⟨ys, hy, hyl⟩ := h.mins
  have key : ∃ b' d xt, m.buf.append w none = .ok b' ∧ newest cap (L ++ [w]) = d ++ [w] ∧
      Lost cap n { m with buf := b' } (d ++ [w]) (xt ++ [m.buf.maxPriority]) ∧ ∀ e, e ≠ w → Absent e (newest cap L) xs → Absent e (d ++ [w]) (xt ++ [m.buf.maxPriority]) := by
    have habs : ∀ (d : List (List T)) (xt : List ℝ), xt.length = d.length → ∀ e, e ≠ w → Absent e d xt → Absent e (d ++ [w]) (xt ++ [m.buf.maxPriority]) := by
      intro d xt hl e hne ha i hi
      by_cases hid : i < d.length
      · rw [List.getElem?_append_left hid] at hi
        rw [List.getElem?_append_left (by omega)]
        exact ha i hi
      · rw [List.getElem?_append_right (by omega)] at hi
        rcases Nat.eq_zero_or_pos (i - d.length) with h0 | h0
        · rw [h0] at hi; simp at hi; exact absurd hi.symm hne
        · rw [List.getElem?_eq_none (by simp; omega)] at hi; cases hi
    have hcount : ∀ xt : List ℝ, numPos (xt ++ [m.buf.maxPriority]) = numPos xt + 1 := by
      intro xt; unfold numPos; simp [h.mpos]
    unfold PBuf.append PBuf.makeRoom
    rw [h.cap, h.data]
    by_cases hf : cap = some (newest cap L).length
    · rw [if_pos hf]
      have hne : newest cap L ≠ [] := by intro h0; rw [h0] at hf; exact hc hf
      obtain ⟨d0, dt, hd⟩ := List.exists_cons_of_ne_nil hne
      obtain ⟨x0, xt, rfl⟩ : ∃ x0 xt, xs = x0 :: xt := List.exists_cons_of_ne_nil (by rintro rfl; simp [hd] at hxl)
      obtain ⟨y0, yt, rfl⟩ : ∃ y0 yt, ys = y0 :: yt := List.exists_cons_of_ne_nil (by rintro rfl; simp [hd] at hyl)
      obtain ⟨s, s1, s2⟩ := popleft_holds _ _ _ hx
      obtain ⟨q, q1, q2⟩ := popleft_holds _ _ _ hy
      have hdata := h.data
      rw [hd] at hdata
      simp only [PBuf.popleft, hdata, s1, q1]
      obtain ⟨s', s1', s2'⟩ := append_holds sum_law.single s _ ((none : Option ℝ).getD m.buf.maxPriority) s2
      obtain ⟨q', q1', q2'⟩ := append_holds min_law.single q _ ((none : Option ℝ).getD m.buf.maxPriority) q2
      rw [s1']
      simp only
      rw [q1']
      have hxl' : xt.length = dt.length := by simpa [hd] using hxl
      refine ⟨_, dt, xt, rfl, ?_, ⟨rfl, s2', by simp [hxl'], ⟨_, q2', by simp [hd] at hyl ⊢; exact hyl⟩, ?_, h.wait, h.flag, h.cap, h.mpos, h.clip, ?_⟩, ?_⟩
      · obtain ⟨c, rfl⟩ : ∃ c, cap = some c := ⟨_, hf⟩
        have hcl : c = (newest (some c) L).length := by simpa using hf
        have := RAQ.newest_newest (some c) L [w]
        rw [hd] at this hcl
        rw [← this]
        simp only [newest, List.length_cons, List.length_append, List.length_nil] at hcl ⊢
        rw [show dt.length + 1 + 1 - c = 1 by omega]
        rfl
      · intro x hx'
        rcases List.mem_append.1 hx' with hx' | hx'
        · exact h.nonneg x (List.mem_cons_of_mem _ hx')
        · rw [List.mem_singleton.1 hx']; exact h.mpos.le
      · rw [hcount]
        have := h.enough
        unfold numPos at this ⊢
        rw [List.countP_cons] at this
        split at this <;> omega
      · intro e he ha
        refine habs dt xt hxl' e he ?_
        intro i hi
        have := ha (i + 1) (by rw [hd]; simpa using hi)
        simpa using this
    · rw [if_neg hf]
      obtain ⟨s', s1', s2'⟩ := append_holds sum_law.single m.buf.sums _ ((none : Option ℝ).getD m.buf.maxPriority) hx
      obtain ⟨q', q1', q2'⟩ := append_holds min_law.single m.buf.mins _ ((none : Option ℝ).getD m.buf.maxPriority) hy
      simp only
      rw [s1']
      simp only
      rw [q1']
      refine ⟨_, newest cap L, xs, rfl, ?_, ⟨by simp [h.data], s2', by simp [hxl], ⟨_, q2', by simp [hyl]⟩, ?_, h.wait, h.flag, h.cap, h.mpos, h.clip, ?_⟩, ?_⟩
      · rw [← RAQ.newest_newest cap L [w]]
        refine RAQ.newest_of_le _ _ ?_
        rintro c rfl
        have := RAQ.newest_length c L
        have h2 : c ≠ (newest (some c) L).length := by simpa using hf
        simp only [List.length_append, List.length_singleton]
        omega
      · intro x hx'
        rcases List.mem_append.1 hx' with hx' | hx'
        · exact h.nonneg x hx'
        · rw [List.mem_singleton.1 hx']; exact h.mpos.le
      · rw [hcount]; have := h.enough; omega
      · exact habs _ _ hxl
  obtain ⟨b', d, xt, h1, h2, h3, h4⟩ := key
  refine ⟨{ m with buf := b' }, _, ?_, by rw [h2]; exact h3, rfl, by rw [h2]; exact h4⟩
  simp only [TrainPrioritized.push, bind, Except.bind, h1, pure, Except.pure]

theorem weights_ok (p : PWE) (len : Nat) (probs : List ℝ) (mn : ℝ) (h : probs ≠ []) : ∃ ws p', p.weights len probs mn = .ok (ws, p') := by
  unfold PWE.weights
  cases p.norm with
  | no => exact ⟨_, _, rfl⟩
  | memory => exact ⟨_, _, rfl⟩
  | batch =>
    cases hm : probs.min? with
    | none => exact absurd (List.min?_eq_none_iff.1 hm) h
    | some a => exact ⟨_, _, rfl⟩

theorem Lost.round {cap : Option Nat} {n : Nat} (hn : 0 < n) {m : Mem T} {l : List (List T)} {xs : List ℝ} (h : Lost cap n m l xs) (us errs : List ℝ)
    (hin : Inputs n us errs) :
    ∃ m' xs' x, TrainPrioritized.round n us errs m = .ok m' ∧ Lost cap n m' l xs' ∧ m'.log = m.log ++ [x] ∧ x.1.length = n ∧
      ∀ e, Absent e l xs → e ∉ x.1 ∧ Absent e l xs' := by
  obtain ⟨hu1, hu2, he1, he2⟩ := hin
  obtain ⟨ys, hy, hyl⟩ := h.mins
  have hpos : 0 < numPos xs := lt_of_lt_of_le hn h.enough
  have htot : 0 < xs.sum := sum_pos_of_numPos _ h.nonneg hpos
  have hxne : xs ≠ [] := by rintro rfl; simp [numPos] at hpos
  have hyne : ys ≠ [] := by rintro rfl; rw [← h.len] at hyl; exact hxne (List.eq_nil_of_length_eq_zero hyl.symm)
  obtain ⟨ixs, s, p1, p2, p3, p4, p5, -⟩ := prioritizedSample_spec us m.buf.sums xs true h.sums h.nonneg hu2 (by rw [hu1]; exact h.enough)
  simp only [if_true] at p2
  obtain ⟨pri, q1, q2⟩ := mapM_some ixs xs (fun i hi => (p5 i hi).1)
  obtain ⟨data, d1, d2⟩ := mapM_pyGet ixs l (fun i hi => by rw [← h.len]; exact (p5 i hi).1)
  have hsamp : ∃ probs mn, probs ≠ [] ∧ m.buf.sample 0 ⟨[], us⟩ = .ok (data, probs, mn, { m.buf with sums := s, sampled := some (ixs.map Int.ofNat), flag := true }) := by
    refine ⟨pri.map (fun p => 0 / (l.length : ℝ) + (1 - 0) * p / xs.sum), listMin ys / xs.sum, ?_, ?_⟩
    rotate_left
    · unfold PBuf.sample
      rw [h.flag]
      simp only [Bool.and_false, Bool.false_eq_true, if_false]
      unfold PBuf.sampleIndices
      rw [rootValue_holds min_law _ _ hy, if_neg hyne, sum_holds _ _ h.sums]
      simp only [if_neg htot.ne', PBuf.sampleUniform, lt_irrefl, if_false]
      rw [h.wait, p1]
      simp only [List.nil_append]
      rw [q1]
      simp only [h.data]
      rw [d1]
    · intro h0
      have h1 : pri = [] := by simpa using h0
      have := congrArg List.length q2
      rw [h1] at this
      simp [p3, hu1] at this
      omega
  obtain ⟨probs, mn, hpne, hsamp⟩ := hsamp
  obtain ⟨ws, p', hw⟩ := weights_ok m.pwe l.length probs mn hpne
  have hp' := weights_pwe hw
  have hps : ∀ q ∈ p'.priorityFromErrors errs, 0 < q := by
    intro q hq
    obtain ⟨e, he, rfl⟩ := List.mem_map.1 hq
    rw [hp']
    exact Real.rpow_pos_of_pos (h.clip e (he2 e he)) _
  have hpl : ixs.length = (p'.priorityFromErrors errs).length := by simp [PWE.priorityFromErrors, he1, p3, hu1]
  have hz := zeroAt_spec xs ixs
  obtain ⟨s', mn', f1, f2, f3⟩ := setLoop_spec ixs (p'.priorityFromErrors errs)
    ({ m.buf with sums := s, sampled := some (ixs.map Int.ofNat), flag := true } : PBuf (List T) ℝ) _ ys p2 hy
    (by intro i hi; rw [hz.1]; exact (p5 i hi).1) (by intro i hi; rw [hyl, ← h.len]; exact (p5 i hi).1) hpl
  have hassign : assign (zeroAt xs ixs) ixs (p'.priorityFromErrors errs) = assign xs ixs (p'.priorityFromErrors errs) := by
    apply assign_agree _ _ _ _ hpl hz.1
    intro j hj
    rw [hz.2, if_neg (fun hh => hj hh.1)]
  rw [hassign] at f2
  have hset : PBuf.setLast ({ m.buf with sums := s, sampled := some (ixs.map Int.ofNat), flag := true } : PBuf (List T) ℝ) (p'.priorityFromErrors errs)
      = .ok { m.buf with sums := s', mins := mn', maxPriority := (p'.priorityFromErrors errs).foldl max m.buf.maxPriority, flag := false, sampled := some [] } := by
    unfold PBuf.setLast
    simp only [Bool.not_true, Bool.and_false, Bool.false_eq_true, if_false]
    rw [if_neg (not_not.2 hps)]
    simp only [List.length_map]
    rw [if_neg (not_not.2 hpl), f1]
  have hlt : ¬ l.length < n := by
    have h1 : numPos xs ≤ xs.length := List.countP_le_length
    have := h.enough; have := h.len; omega
  refine ⟨⟨{ m.buf with sums := s', mins := mn', maxPriority := (p'.priorityFromErrors errs).foldl max m.buf.maxPriority, flag := false, sampled := some [] }, p',
    m.log ++ [(data, ws, errs)]⟩, _, (data, ws, errs), ?_, ⟨h.data, f2, by rw [assign_length]; exact h.len, ⟨_, f3, by rw [assign_length]; exact hyl⟩, ?_, h.wait, rfl, h.cap,
      h.mpos.trans_le (le_foldl_max _ _), ?_, h.enough.trans (numPos_le_assign _ _ _ hps)⟩, rfl, ?_, ?_⟩
  · unfold TrainPrioritized.round
    simp only [h.data, hlt, if_false, hsamp, pure, Except.pure, bind, Except.bind, hw]
    simp only [h.data] at hset ⊢
    rw [hset]
  · intro x hx
    rcases mem_assign hx with h' | h'
    · exact h.nonneg x h'
    · exact (hps x h').le
  · rw [hp']; exact h.clip
  · have := congrArg List.length d2
    simpa [p3, hu1] using this
  · intro e ha
    have hni : ∀ i ∈ ixs, l[i]? ≠ some e := by
      intro i hi h0
      obtain ⟨a, b⟩ := p5 i hi
      have := ha i h0
      rw [List.getElem?_eq_getElem a] at this
      injection this with this
      rw [this] at b
      exact lt_irrefl _ b
    refine ⟨fun he => ?_, fun i hi => ?_⟩
    · have : some e ∈ data.map some := List.mem_map_of_mem he
      rw [d2] at this
      obtain ⟨i, hi, hi'⟩ := List.mem_map.1 this
      exact hni i hi hi'
    · rw [(assign_nodup ixs _ xs hpl p4 (fun i hi => (p5 i hi).1)).2 i (fun hm => hni i hm hi)]
      exact ha i hi

theorem Lost.rounds {cap : Option Nat} {n : Nat} (hn : 0 < n) (us errs : Nat → List ℝ) (hin : ∀ j, Inputs n (us j) (errs j)) (i : Nat) :
    ∀ (j : Nat) (m : Mem T) (l : List (List T)) (xs : List ℝ), Lost cap n m l xs →
    ∃ m' xs' added, TrainPrioritized.rounds n us errs j i m = .ok m' ∧ Lost cap n m' l xs' ∧ m'.log = m.log ++ added ∧ added.length = i ∧
      (∀ x ∈ added, x.1.length = n) ∧ ∀ e, Absent e l xs → (∀ x ∈ added, e ∉ x.1) ∧ Absent e l xs' := by
  induction i with
  | zero => intro j m l xs h; exact ⟨m, xs, [], rfl, h, by simp, rfl, by simp, fun e he => ⟨by simp, he⟩⟩
  | succ i ih =>
    intro j m l xs h
    obtain ⟨m1, xs1, x, f1, f2, f3, f4, f5⟩ := h.round hn (us j) (errs j) (hin j)
    obtain ⟨m', xs', added, g1, g2, g3, g4, g5, g6⟩ := ih (j + 1) m1 l xs1 f2
    refine ⟨m', xs', x :: added, by simp only [TrainPrioritized.rounds, f1, bind, Except.bind, g1], g2, by rw [g3, f3]; simp, by simp [g4], ?_, fun e he => ?_⟩
    · intro y hy
      rcases List.mem_cons.1 hy with rfl | hy
      · exact f4
      · exact g5 y hy
    · obtain ⟨a1, a2⟩ := f5 e he
      obtain ⟨b1, b2⟩ := g6 e a2
      refine ⟨fun y hy => ?_, b2⟩
      rcases List.mem_cons.1 hy with rfl | hy
      · exact a1
      · exact b1 y hy

theorem Lost.run {cap : Option Nat} {p : PWE} {c : Sched} (hs : Sensible cap p c) (errs : Nat → Nat → List ℝ) (he : AllErrors c.batchsize errs)
    (ops : List (Nat × Op T)) : ∀ (m : Mem T) (L : List (List T)) (xs : List ℝ), AllVariates c.batchsize (ops.map Prod.snd) →
      Lost cap c.batchsize m (newest cap L) xs →
      ∃ m' added, dqnRun c errs (.ok m) ops = .ok m' ∧ m'.buf.data = newest cap (L ++ entriesOf (ops.map Prod.snd)) ∧ m'.log = m.log ++ added ∧
        added.length = due c cap L.length (ops.map Prod.snd) * c.nTimes ∧ (∀ x ∈ added, x.1.length = c.batchsize) ∧
        ∀ e, Absent e (newest cap L) xs → e ∉ entriesOf (ops.map Prod.snd) → ∀ x ∈ added, e ∉ x.1 := by
  induction ops with
  | nil => intro m L xs _ h; exact ⟨m, [], rfl, by simpa [entriesOf] using h.data, by simp, by simp [due], by simp, by simp⟩
  | cons op ops ih =>
    intro m L xs hv h
    have hv' : AllVariates c.batchsize (ops.map Prod.snd) := fun t us hm => hv t us (List.mem_cons_of_mem _ hm)
    obtain ⟨k, op⟩ := op
    cases op with
    | entry w =>
      obtain ⟨m1, xs1, f1, f2, f3, f4⟩ := h.push hs.cap w
      obtain ⟨m', added, g1, g2, g3, g4, g5, g6⟩ := ih m1 (L ++ [w]) xs1 hv' f2
      refine ⟨m', added, ?_, by simpa [entriesOf, List.append_assoc] using g2, by rw [g3, f3], by simpa [due] using g4, g5, fun e ha hn => ?_⟩
      · rw [← g1]
        show dqnRun c errs (TrainPrioritized.push (.ok m) w) ops = _
        rw [f1]
      · have hn' : e ≠ w ∧ e ∉ entriesOf (ops.map Prod.snd) := by simpa [entriesOf] using hn
        exact g6 e (f4 e hn'.1 ha) hn'.2
    | update t us =>
      have hlen : m.buf.data.length = held cap L.length := by rw [h.data, held_length]
      have hi0 : c.interval ≠ 0 := by have := hs.interval; omega
      have hr : dqnRun c errs (.ok m) ((k, .update t us) :: ops) = dqnRun c errs (TrainPrioritized.update c us (errs k) t m) ops := rfl
      by_cases hd : c.startSize ≤ held cap L.length ∧ c.interval ∣ t
      · obtain ⟨m1, xs1, added1, f1, f2, f3, f4, f5, f6⟩ := h.rounds hs.batch.1 us (errs k) (fun j => ⟨(hv t us (by simp) j).1, (hv t us (by simp) j).2, he k j⟩) c.nTimes 0
        have hu : TrainPrioritized.update c us (errs k) t m = .ok m1 := by
          unfold TrainPrioritized.update
          rw [hlen, if_neg (by omega), if_neg hi0, if_neg (by simpa using Nat.mod_eq_zero_of_dvd hd.2)]
          exact f1
        obtain ⟨m', added, g1, g2, g3, g4, g5, g6⟩ := ih m1 L xs1 hv' f2
        refine ⟨m', added1 ++ added, by rw [hr, hu, g1], by simpa [entriesOf] using g2, by rw [g3, f3, List.append_assoc], ?_, ?_, fun e ha hn => ?_⟩
        · simp only [List.length_append, f4, g4, List.map_cons, due, hd, and_self, if_true]
          rw [Nat.add_mul, Nat.one_mul]
        · intro x hx
          rcases List.mem_append.1 hx with hx | hx
          · exact f5 x hx
          · exact g5 x hx
        · have hn' : e ∉ entriesOf (ops.map Prod.snd) := by simpa [entriesOf] using hn
          intro x hx
          rcases List.mem_append.1 hx with hx | hx
          · exact (f6 e ha).1 x hx
          · exact g6 e (f6 e ha).2 hn' x hx
      · have hu : TrainPrioritized.update c us (errs k) t m = .ok m := by
          unfold TrainPrioritized.update
          rw [hlen]
          by_cases h1 : held cap L.length < c.startSize
          · rw [if_pos h1]; rfl
          · rw [if_neg h1, if_neg hi0, if_pos (fun h => hd ⟨by omega, Nat.dvd_of_mod_eq_zero h⟩)]; rfl
        obtain ⟨m', added, g1, g2, g3, g4, g5, g6⟩ := ih m L xs hv' h
        refine ⟨m', added, by rw [hr, hu, g1], by simpa [entriesOf] using g2, g3, by simpa [due, hd] using g4, g5, fun e ha hn => ?_⟩
        exact g6 e ha (by simpa [entriesOf] using hn)

/-- **C180** (violated): a DQN with a `PrioritizedReplayBuffer`, any training before (`ops`), then an exception while a batch is being drawn, after the entries at the
positions `ixs` have been selected, then any further use of the agent (`ops'`).  If enough other entries remain for a batch, training goes on without an error and
with all the batches that are due, but none of them contains an entry that was selected (unless an equal entry is elsewhere in the buffer or is added later). -/
theorem C180_violated_lost {cap : Option Nat} {p : PWE} {c : Sched} (hs : Sensible cap p c) (errs : Nat → Nat → List ℝ)
    (he : AllErrors c.batchsize errs) (ops : List (Nat × Op T)) (hv : AllVariates c.batchsize (ops.map Prod.snd)) (us : List ℝ) (hus : ∀ u ∈ us, 0 ≤ u ∧ u < 1)
    (henough : c.batchsize + us.length ≤ held cap (entriesOf (ops.map Prod.snd)).length) :
    ∃ m m1, ∃ ixs : List Nat, dqnRun c errs (.ok (Mem.init cap p)) ops = .ok m ∧ cutShort us m = .ok m1 ∧ ixs.length = us.length ∧ ixs.Nodup ∧ (∀ i ∈ ixs, i < m.buf.data.length) ∧
      ∀ ops' : List (Nat × Op T), AllVariates c.batchsize (ops'.map Prod.snd) →
        ∃ m' added, dqnRun c errs (.ok m1) ops' = .ok m' ∧ m'.buf.data = newest cap (entriesOf ((ops ++ ops').map Prod.snd)) ∧ m'.log = m1.log ++ added ∧
          added.length = due c cap (entriesOf (ops.map Prod.snd)).length (ops'.map Prod.snd) * c.nTimes ∧ (∀ x ∈ added, x.1.length = c.batchsize) ∧
          ∀ e, (∀ j : Nat, m.buf.data[j]? = some e → j ∈ ixs) → e ∉ entriesOf (ops'.map Prod.snd) → ∀ x ∈ added, e ∉ x.1 := by
  obtain ⟨m, items, mx, f1, f2, f3⟩ := dqn_good hs errs he ops (Mem.init cap p) [] 1 [] hv
    ⟨.init, by simp only [annealed, Mem.init, List.length_nil, Nat.cast_zero, zero_mul, add_zero]; rw [min_eq_right hs.beta.2], by simp [Mem.init], by simp⟩
    (by cases cap <;> simp [newest])
  rw [List.nil_append] at f3
  have hi := hist_inv hs.cap one_pos f2.hist
  have hdata : m.buf.data = newest cap (entriesOf (ops.map Prod.snd)) := by rw [hi.inv.data, f3]
  have hlen : items.length = held cap (entriesOf (ops.map Prod.snd)).length := by rw [← held_length, ← f3]; simp
  have hpos : ∀ x ∈ items.map Prod.snd, 0 < x := by
    intro x hx; obtain ⟨y, hy, rfl⟩ := List.mem_map.1 hx; exact hi.pos y hy
  have hnp : numPos (items.map Prod.snd) = items.length := by rw [numPos_all _ hpos]; simp
  obtain ⟨ixs, s, p1, p2, p3, p4, p5, -⟩ := prioritizedSample_spec us m.buf.sums (items.map Prod.snd) true hi.inv.sums (fun x hx => (hpos x hx).le) hus
    (by rw [hnp]; omega)
  simp only [if_true] at p2
  have hz := zeroAt_spec (items.map Prod.snd) ixs
  have hcut : cutShort us m = .ok { m with buf := { m.buf with sums := s } } := by
    simp only [cutShort, hi.wait, p1, bind, Except.bind, pure, Except.pure]
  have hbeta : m.pwe = annealed p m.log.length := f2.pwe
  have hlost : Lost cap c.batchsize { m with buf := { m.buf with sums := s } } (newest cap (entriesOf (ops.map Prod.snd))) (zeroAt (items.map Prod.snd) ixs) := by
    refine ⟨hdata, p2, by rw [hz.1, ← f3]; simp, ⟨_, hi.inv.mins, by rw [← f3]; simp⟩, zeroAt_nonneg _ (fun x hx => (hpos x hx).le) _, hi.wait, hi.flag, hi.cap,
      by show 0 < m.buf.maxPriority; rw [hi.mx]; exact hi.mpos, ?_, ?_⟩
    · show ∀ e, 0 ≤ e → 0 < m.pwe.clipError e + m.pwe.eps
      rw [hbeta]; exact hs.eps
    · have := numPos_zeroAt ixs (items.map Prod.snd) p4 p5
      omega
  refine ⟨m, _, ixs, f1, hcut, p3, p4, fun i h => ?_, fun ops' hv' => ?_⟩
  · obtain ⟨a, -⟩ := p5 i h
    rw [hi.inv.data]; simpa using a
  · obtain ⟨m', added, g1, g2, g3, g4, g5, g6⟩ := hlost.run hs errs he ops' _ _ _ hv'
    refine ⟨m', added, g1, by rw [g2]; simp [entriesOf, List.filterMap_append], g3, g4, g5, fun e h1 h2 => g6 e (fun i hie => ?_) h2⟩
    rw [← hdata] at hie
    have hm := h1 i hie
    rw [hz.2, if_pos ⟨hm, (p5 i hm).1⟩]

/-- Two entries, the drawing of a batch is interrupted after one of them was selected: there is an entry that no later batch contains. -/
example : ∃ m m1 : Mem Nat, ∃ i, dqnRun ⟨1, 1, 1, 1⟩ (fun _ _ => [0]) (.ok (Mem.init none ⟨0.6, 0.4, 0.6 / 200000, 0.01, .batch, some 0, some 1⟩))
      [(0, .entry [7]), (1, .entry [8])] = .ok m ∧ cutShort [0] m = .ok m1 ∧ i < m.buf.data.length ∧
    ∀ k, ∃ m' added, dqnRun ⟨1, 1, 1, 1⟩ (fun _ _ => [0]) (.ok m1) (List.replicate k (2, .update 0 (fun _ => [0]))) = .ok m' ∧ m'.log = m1.log ++ added ∧
      added.length = k ∧ ∀ e, (∀ j : Nat, m.buf.data[j]? = some e → j = i) → ∀ x ∈ added, e ∉ x.1 := by
  obtain ⟨m, m1, ixs, h1, h2, h3, -, h5, h6⟩ := C180_violated_lost sensible_small (fun _ _ => [0]) (fun _ _ => ⟨rfl, by simp⟩)
    [(0, .entry [7]), (1, .entry [8])] (by intro t us h; simp at h) [0] (by simp) (by simp [entriesOf, held])
  obtain ⟨i, rfl⟩ := List.length_eq_one_iff.1 h3
  refine ⟨m, m1, i, h1, h2, h5 i (by simp), fun k => ?_⟩
  obtain ⟨m', added, g1, -, g3, g4, -, g6⟩ := h6 (List.replicate k (2, .update 0 (fun _ => [0]))) (by
    intro t us h
    simp at h
    rw [h.2.2]; exact variates_zero)
  have hdue : ∀ k, due ⟨1, 1, 1, 1⟩ none 2 (List.replicate k (Op.update (T := Nat) 0 fun _ => [0])) = k := by
    intro k
    induction k with
    | zero => rfl
    | succ k ih => rw [List.replicate_succ, due, ih]; simp [held]; omega
  have hent : entriesOf (List.replicate k (Op.update (T := Nat) 0 fun _ => [0])) = [] := by
    simp [entriesOf, List.filterMap_replicate]
  refine ⟨m', added, g1, g3, ?_, fun e he => g6 e (fun j hj => by simp [he j hj]) (by simp [List.map_replicate, hent])⟩
  rw [g4]
  simpa [entriesOf, List.map_replicate] using hdue k

end Verif.OpenBatches
