import Verif.Spec.OpenBatches
import Verif.Props.TrainPrioritized
import Verif.Proofs.ReplayBuffer
set_option autoImplicit false
set_option linter.unusedSectionVars false

/-! # C180: batches of prioritized replay whose errors are never reported -/

namespace Verif.OpenBatches
open TrainPrioritized PBuf TreeQueue
open ListQueue (listMin)
open BoundedList (newest)
variable {T : Type}

theorem held_length (cap : Option Nat) (l : List (List T)) : (newest cap l).length = held cap l.length := by
  cases cap with
  | none => rfl
  | some c => simp only [newest, held, List.length_drop]; omega

/-- A buffer that waits for priorities: `l` are its entries. -/
structure Stuck (cap : Option Nat) (m : Mem T) (l : List (List T)) : Prop where
  data : m.buf.data = l
  sums : ∃ xs, Holds List.sum m.buf.sums xs ∧ xs.length = l.length
  mins : ∃ ys, Holds listMin m.buf.mins ys ∧ ys.length = l.length
  wait : m.buf.wait = true
  flag : m.buf.flag = true
  cap : m.buf.capacity = cap

theorem Stuck.push {cap : Option Nat} (hc : cap ≠ some 0) {m : Mem T} {L : List (List T)} (h : Stuck cap m (newest cap L)) (w : List T) :
    ∃ m', TrainPrioritized.push (.ok m) w = .ok m' ∧ Stuck cap m' (newest cap (L ++ [w])) ∧ m'.log = m.log := by
  obtain ⟨xs, hx, hxl⟩ := h.sums
  obtain ⟨ys, hy, hyl⟩ := h.mins
  have key : ∃ b' d, m.buf.append w none = .ok b' ∧ newest cap (L ++ [w]) = d ++ [w] ∧ Stuck cap { m with buf := b' } (d ++ [w]) := by
    unfold PBuf.append PBuf.makeRoom
    rw [h.cap, h.data]
    by_cases hf : cap = some (newest cap L).length
    · rw [if_pos hf]
      have hne : newest cap L ≠ [] := by intro h0; rw [h0] at hf; exact hc hf
      obtain ⟨d0, dt, hd⟩ := List.exists_cons_of_ne_nil hne
      obtain ⟨x0, xt, rfl⟩ : ∃ x0 xt, xs = x0 :: xt := List.exists_cons_of_ne_nil (by rintro rfl; simp [hd] at hxl)
      obtain ⟨y0, yt, rfl⟩ : ∃ y0 yt, ys = y0 :: yt := List.exists_cons_of_ne_nil (by rintro rfl; simp [hd] at hyl)
      obtain ⟨s, s1, s2⟩ := popleft_holds _ _ _ hx
      obtain ⟨q, q1, q2⟩ := popleft_holds _ _ _ hy
      have hdata := h.data
      rw [hd] at hdata
      simp only [PBuf.popleft, hdata, s1, q1]
      obtain ⟨s', s1', s2'⟩ := append_holds sum_law.single s _ ((none : Option ℝ).getD m.buf.maxPriority) s2
      obtain ⟨q', q1', q2'⟩ := append_holds min_law.single q _ ((none : Option ℝ).getD m.buf.maxPriority) q2
      rw [s1']
      simp only
      rw [q1']
      refine ⟨_, dt, rfl, ?_, ⟨rfl, ⟨_, s2', ?_⟩, ⟨_, q2', ?_⟩, h.wait, h.flag, h.cap⟩⟩
      · obtain ⟨c, rfl⟩ : ∃ c, cap = some c := ⟨_, hf⟩
        have hcl : c = (newest (some c) L).length := by simpa using hf
        have := RAQ.newest_newest (some c) L [w]
        rw [hd] at this hcl
        rw [← this]
        simp only [newest, List.length_cons, List.length_append, List.length_nil] at hcl ⊢
        rw [show dt.length + 1 + 1 - c = 1 by omega]
        rfl
      · simp [hd] at hxl ⊢; exact hxl
      · simp [hd] at hyl ⊢; exact hyl
    · rw [if_neg hf]
      obtain ⟨s', s1', s2'⟩ := append_holds sum_law.single m.buf.sums _ ((none : Option ℝ).getD m.buf.maxPriority) hx
      obtain ⟨q', q1', q2'⟩ := append_holds min_law.single m.buf.mins _ ((none : Option ℝ).getD m.buf.maxPriority) hy
      simp only
      rw [s1']
      simp only
      rw [q1']
      refine ⟨_, newest cap L, rfl, ?_, ⟨by simp [h.data], ⟨_, s2', by simp [hxl]⟩, ⟨_, q2', by simp [hyl]⟩, h.wait, h.flag, h.cap⟩⟩
      rw [← RAQ.newest_newest cap L [w]]
      refine RAQ.newest_of_le _ _ ?_
      rintro c rfl
      have := RAQ.newest_length c L
      have h2 : c ≠ (newest (some c) L).length := by simpa using hf
      simp only [List.length_append, List.length_singleton]
      omega
  obtain ⟨b', d, h1, h2, h3⟩ := key
  refine ⟨{ m with buf := b' }, ?_, by rw [h2]; exact h3, rfl⟩
  simp only [TrainPrioritized.push, bind, Except.bind, h1, pure, Except.pure]

theorem Stuck.draw {cap : Option Nat} {m : Mem T} {data : List (List T)} (h : Stuck cap m data) (n : Nat) (us : List ℝ) :
    draw n us m = .error .assertionError := by
  unfold OpenBatches.draw
  by_cases hl : m.buf.data.length < n
  · simp only [hl, if_true, bind, Except.bind, throw, throwThe, MonadExceptOf.throw]
  · have : m.buf.sample 0 ⟨[], us⟩ = .error .assertionError := by
      unfold PBuf.sample; rw [h.wait, h.flag]; rfl
    simp only [hl, if_false, pure, Except.pure, bind, Except.bind, this]

theorem Stuck.round {cap : Option Nat} {m : Mem T} {data : List (List T)} (h : Stuck cap m data) (n : Nat) (us errs : List ℝ) :
    TrainPrioritized.round n us errs m = .error .assertionError := by
  unfold TrainPrioritized.round
  by_cases hl : m.buf.data.length < n
  · simp only [hl, if_true, bind, Except.bind, throw, throwThe, MonadExceptOf.throw]
  · have : m.buf.sample 0 ⟨[], us⟩ = .error .assertionError := by
      unfold PBuf.sample; rw [h.wait, h.flag]; rfl
    simp only [hl, if_false, pure, Except.pure, bind, Except.bind, this]

/-- **C180**: reporting the errors of a batch that was left open gives what the uninterrupted update gives. -/
theorem C180_report (n : Nat) (us : List ℝ) (m m1 : Mem T) (h : draw n us m = .ok m1) :
    ∃ entries ws, m1.log = m.log ++ [(entries, ws, [])] ∧
      ∀ errs, TrainPrioritized.round n us errs m = (report errs m1).map (fun m2 => { m2 with log := m.log ++ [(entries, ws, errs)] }) := by
  unfold OpenBatches.draw at h
  unfold TrainPrioritized.round
  by_cases hl : m.buf.data.length < n
  · simp only [hl, if_true, bind, Except.bind, throw, throwThe, MonadExceptOf.throw] at h
    cases h
  · simp only [hl, if_false, pure, Except.pure, bind, Except.bind] at h ⊢
    cases hsamp : m.buf.sample 0 ⟨[], us⟩ with
    | error e => rw [hsamp] at h; cases h
    | ok r =>
      obtain ⟨data, probs, mp, b1⟩ := r
      rw [hsamp] at h
      simp only at h ⊢
      cases hw : m.pwe.weights b1.data.length probs mp with
      | error e => rw [hw] at h; cases h
      | ok r =>
        obtain ⟨ws', p'⟩ := r
        rw [hw] at h
        simp only at h ⊢
        cases h
        refine ⟨data, ws', rfl, fun errs => ?_⟩
        unfold report
        simp only [bind, Except.bind, pure, Except.pure]
        cases b1.setLast (p'.priorityFromErrors errs) <;> rfl

theorem draw_ok {cap : Option Nat} {p : PWE} {c : Sched} (hs : Sensible cap p c) (m : Mem T) (items : List (List T × ℝ)) (mx : ℝ)
    (h : Hist cap true 1 m.buf items mx) (hp : ∃ k, m.pwe = annealed p k) (hlen : c.batchsize ≤ items.length) (us : List ℝ)
    (hus : us.length = c.batchsize ∧ ∀ u ∈ us, 0 ≤ u ∧ u < 1) :
    ∃ m1 x, draw c.batchsize us m = .ok m1 ∧ Stuck cap m1 (items.map Prod.fst) ∧ m1.log = m.log ++ [x] ∧ x.1.length = c.batchsize ∧
      ∀ e ∈ x.1, e ∈ items.map Prod.fst := by
  obtain ⟨k, hk⟩ := hp
  have hbeta : 0 ≤ m.pwe.beta := by
    rw [hk]; exact le_min zero_le_one (add_nonneg hs.beta.1 (mul_nonneg (Nat.cast_nonneg _) hs.betaAdd))
  obtain ⟨ixs, entries, pri, ws, minProb, m', items', e1, e2, e3, -, -, e4, -⟩ := C132_round cap hs.cap m items mx h hbeta c.batchsize hs.batch.1 hlen us
    (List.replicate c.batchsize 0) ⟨hus.1, hus.2, by simp, by intro u hu; rw [(List.mem_replicate.1 hu).2]⟩ (by
      intro e he
      rw [(List.mem_replicate.1 he).2, hk]
      exact hs.eps 0 le_rfl)
  have hi := hist_inv hs.cap one_pos h
  have hne : items ≠ [] := by rintro rfl; have := hs.batch.1; simp at hlen; omega
  obtain ⟨pixs, data, probs, s, pri', f1, -, -, -, -, -, -, -, -, f2, -⟩ := sample_spec m.buf items 0 ⟨[], us⟩ hi.inv hi.pos hne hi.flag
    ⟨List.nodup_nil, by simp, hus.2, fun _ => rfl⟩ (by simpa [hus.1] using hlen)
  have hd : ∃ m1, draw c.batchsize us m = .ok m1 ∧ m1.buf = { m.buf with sums := s, sampled := some (([] ++ pixs).map Int.ofNat), flag := true } := by
    unfold TrainPrioritized.round at e1
    unfold OpenBatches.draw
    by_cases hl : m.buf.data.length < c.batchsize
    · simp only [hl, if_true, bind, Except.bind, throw, throwThe, MonadExceptOf.throw] at e1
      cases e1
    · simp only [hl, if_false, pure, Except.pure, bind, Except.bind, f1] at e1 ⊢
      split at e1
      · cases e1
      · rename_i v hv
        obtain ⟨ws', p'⟩ := v
        exact ⟨_, rfl, rfl⟩
  obtain ⟨m1, hd1, hd2⟩ := hd
  obtain ⟨entries', ws', g1, g2⟩ := C180_report _ _ _ _ hd1
  have hee : entries' = entries := by
    have := g2 (List.replicate c.batchsize 0)
    rw [e1] at this
    cases hr : report (List.replicate c.batchsize 0) m1 with
    | error e => rw [hr] at this; cases this
    | ok m2 =>
      rw [hr] at this
      have h3 := Except.ok.inj this
      rw [h3] at e2
      have := List.append_cancel_left e2
      simp at this
      exact this.1
  refine ⟨m1, _, hd1, ?_, g1, by rw [hee]; exact e3.1, ?_⟩
  · rw [hi.wait] at f2
    refine ⟨by rw [hd2]; exact hi.inv.data, ⟨_, by rw [hd2]; exact f2, ?_⟩, ⟨_, by rw [hd2]; exact hi.inv.mins, by simp⟩, by rw [hd2]; exact hi.wait,
      by rw [hd2], by rw [hd2]; exact hi.cap⟩
    have : ∀ (ix : List Nat) (xs : List ℝ), (zeroAt xs ix).length = xs.length := by
      intro ix
      induction ix with
      | nil => intro xs; rfl
      | cons i ix ih => intro xs; simp only [zeroAt, List.foldl_cons] at ih ⊢; rw [ih]; simp
    simp [this]
  · intro e he
    rw [hee] at he
    have : some e ∈ entries.map some := List.mem_map_of_mem he
    rw [e4] at this
    obtain ⟨i, -, hi'⟩ := List.mem_map.1 this
    exact List.mem_of_getElem? hi'

theorem run_error (c : Sched) (e : PyErr) (ops : List (Op T)) : run c (.error e) ops = .error e := by
  induction ops with
  | nil => rfl
  | cons op ops ih => cases op <;> exact ih

theorem stuck_update {cap : Option Nat} {p : PWE} {c : Sched} (hs : Sensible cap p c) {m : Mem T} {L : List (List T)} (h : Stuck cap m (newest cap L))
    (t : Nat) (us : Nat → List ℝ) :
    OpenBatches.update c us t m = if c.startSize ≤ held cap L.length ∧ c.interval ∣ t ∧ 0 < c.nTimes then .error .assertionError else .ok m := by
  unfold OpenBatches.update
  rw [h.data, held_length, if_neg (c := c.interval = 0) (by have := hs.interval; omega)]
  by_cases h1 : held cap L.length < c.startSize
  · rw [if_pos h1, if_neg (by omega)]; rfl
  · rw [if_neg h1]
    by_cases h2 : t % c.interval ≠ 0
    · rw [if_pos h2, if_neg (fun h => h2 (Nat.mod_eq_zero_of_dvd h.2.1))]; rfl
    · rw [if_neg h2]
      cases hn : c.nTimes with
      | zero => rw [if_neg (by omega)]; rfl
      | succ i =>
        rw [if_pos ⟨by omega, Nat.dvd_of_mod_eq_zero (by omega), by omega⟩]
        simp only [draws, h.draw, bind, Except.bind]

theorem stuck_run {cap : Option Nat} {p : PWE} {c : Sched} (hs : Sensible cap p c) (ops : List (Op T)) : ∀ (m : Mem T) (L : List (List T)),
    Stuck cap m (newest cap L) →
    (due c cap L.length ops * c.nTimes = 0 →
      ∃ m', run c (.ok m) ops = .ok m' ∧ Stuck cap m' (newest cap (L ++ entriesOf ops)) ∧ m'.log = m.log) ∧
    (0 < due c cap L.length ops * c.nTimes → run c (.ok m) ops = .error .assertionError) := by
  induction ops with
  | nil => intro m L h; exact ⟨fun _ => ⟨m, rfl, by simpa [entriesOf] using h, rfl⟩, by simp [due]⟩
  | cons op ops ih =>
    intro m L h
    cases op with
    | entry w =>
      obtain ⟨m', h1, h2, h3⟩ := h.push hs.cap w
      have ih' := ih m' (L ++ [w]) h2
      rw [List.length_append, List.length_singleton] at ih'
      have hr : run c (.ok m) (.entry w :: ops) = run c (.ok m') ops := by
        show run c (TrainPrioritized.push (.ok m) w) ops = _; rw [h1]
      rw [hr]
      refine ⟨fun h0 => ?_, ih'.2⟩
      obtain ⟨m'', g1, g2, g3⟩ := ih'.1 h0
      exact ⟨m'', g1, by simpa [entriesOf, List.append_assoc] using g2, g3.trans h3⟩
    | update t us =>
      have hu := stuck_update hs h t us
      have hr : run c (.ok m) (.update t us :: ops) = run c (OpenBatches.update c us t m) ops := rfl
      rw [hr, hu]
      by_cases hd : c.startSize ≤ held cap L.length ∧ c.interval ∣ t
      · simp only [due, hd, and_self, if_true]
        by_cases hn : 0 < c.nTimes
        · rw [if_pos ⟨trivial, trivial, hn⟩, run_error]
          refine ⟨fun h0 => ?_, fun _ => rfl⟩
          rcases Nat.mul_eq_zero.1 h0 with h0 | h0 <;> omega
        · have hn0 : c.nTimes = 0 := by omega
          rw [if_neg (fun h => hn h.2.2)]
          refine ⟨fun _ => ?_, fun h0 => by rw [hn0] at h0; omega⟩
          exact (ih m L h).1 (by rw [hn0]; omega)
      · rw [if_neg (fun h => hd ⟨h.1, h.2.1⟩)]
        simp only [due, hd, if_false, Nat.zero_add]
        exact ih m L h

theorem fresh_run {cap : Option Nat} {p : PWE} {c : Sched} (hs : Sensible cap p c) (ops : List (Op T)) : ∀ (m : Mem T) (L : List (List T))
    (items : List (List T × ℝ)) (mx : ℝ), AllVariates c.batchsize ops → Hist cap true 1 m.buf items mx → items.map Prod.fst = newest cap L →
    m.pwe = p → m.log = [] →
    (due c cap L.length ops * c.nTimes = 0 → ∃ m', run c (.ok m) ops = .ok m' ∧ m'.buf.data = newest cap (L ++ entriesOf ops) ∧ m'.log = []) ∧
    (due c cap L.length ops * c.nTimes = 1 →
      ∃ m' x, run c (.ok m) ops = .ok m' ∧ m'.buf.data = newest cap (L ++ entriesOf ops) ∧ m'.log = [x] ∧ x.1.length = c.batchsize) ∧
    (2 ≤ due c cap L.length ops * c.nTimes → run c (.ok m) ops = .error .assertionError) := by
  induction ops with
  | nil =>
    intro m L items mx _ h hL _ hl
    refine ⟨fun _ => ⟨m, rfl, ?_, hl⟩, by simp [due], by simp [due]⟩
    rw [(hist_inv hs.cap one_pos h).inv.data, hL]; simp [entriesOf]
  | cons op ops ih =>
    intro m L items mx hv h hL hp hl
    have hv' : AllVariates c.batchsize ops := fun t us hm => hv t us (List.mem_cons_of_mem _ hm)
    cases op with
    | entry w =>
      obtain ⟨b', f1, f2⟩ := (C07_append_popleft cap true 1 hs.cap one_pos m.buf items mx h).1 w none (by simp)
      have hr : run c (.ok m) (.entry w :: ops) = run c (.ok { m with buf := b' }) ops := by
        show run c (TrainPrioritized.push (.ok m) w) ops = _
        simp only [TrainPrioritized.push, bind, Except.bind, f1, pure, Except.pure]
      rw [hr]
      have ih' := ih { m with buf := b' } (L ++ [w]) _ mx hv' f2 (by
        rw [TrainDQN.newest_map, List.map_append, hL, ← RAQ.newest_newest cap L]; rfl) hp hl
      rw [List.length_append, List.length_singleton] at ih'
      simpa [due, entriesOf, List.append_assoc] using ih'
    | update t us =>
      have hr : run c (.ok m) (.update t us :: ops) = run c (OpenBatches.update c us t m) ops := rfl
      have hlen : items.length = held cap L.length := by rw [← held_length, ← hL]; simp
      have hdl : m.buf.data.length = held cap L.length := by rw [(hist_inv hs.cap one_pos h).inv.data, ← hlen]; simp
      have hi0 : c.interval ≠ 0 := by have := hs.interval; omega
      rw [hr]
      by_cases hd : c.startSize ≤ held cap L.length ∧ c.interval ∣ t
      · have hu : OpenBatches.update c us t m = draws c.batchsize us 0 c.nTimes m := by
          unfold OpenBatches.update
          rw [hdl, if_neg (by omega), if_neg hi0, if_neg (by simpa using Nat.mod_eq_zero_of_dvd hd.2)]
        rw [hu]
        simp only [due, hd, and_self, if_true]
        cases hn : c.nTimes with
        | zero =>
          have := ih m L items mx hv' h hL hp hl
          rw [hn] at this
          refine ⟨fun _ => this.1 (by omega), by simp, by simp⟩
        | succ i =>
          obtain ⟨m1, x, d1, d2, d3, d4, -⟩ := draw_ok hs m items mx h ⟨0, by rw [hp]; simp only [annealed, Nat.cast_zero, zero_mul, add_zero]; rw [min_eq_right hs.beta.2]⟩
            (by have := hs.batch.2; omega) (us 0) (hv t us (by simp) 0)
          rw [hL] at d2
          have hdr : draws c.batchsize us 0 (i + 1) m = draws c.batchsize us 1 i m1 := by
            simp only [draws, d1, bind, Except.bind]
          rw [hdr]
          refine ⟨fun h0 => ?_, fun h1 => ?_, fun h2 => ?_⟩
          · rcases Nat.mul_eq_zero.1 h0 with h0 | h0 <;> omega
          · have h3 := Nat.eq_one_of_mul_eq_one_right h1
            have h4 := Nat.eq_one_of_mul_eq_one_left h1
            obtain rfl : i = 0 := by omega
            obtain ⟨m', g1, g2, g3⟩ := (stuck_run hs ops m1 L d2).1 (by rw [show due c cap L.length ops = 0 by omega, Nat.zero_mul])
            exact ⟨m', x, g1, g2.data, by rw [g3, d3, hl]; rfl, d4⟩
          · cases i with
            | zero =>
              exact (stuck_run hs ops m1 L d2).2 (by rw [hn]; omega)
            | succ i =>
              simp only [draws, d2.draw, bind, Except.bind]
              exact run_error _ _ _
      · have hu : OpenBatches.update c us t m = .ok m := by
          unfold OpenBatches.update
          rw [hdl]
          by_cases h1 : held cap L.length < c.startSize
          · rw [if_pos h1]; rfl
          · rw [if_neg h1, if_neg hi0, if_pos (fun h => hd ⟨by omega, Nat.dvd_of_mod_eq_zero h⟩)]; rfl
        rw [hu]
        simp only [due, hd, if_false, Nat.zero_add]
        exact ih m L items mx hv' h hL hp hl

/-- **C180** (violated): an agent that never reports errors (`DDPG`, `TD3`, `SoftActorCritic`, `PGT`) with a `PrioritizedReplayBuffer`, whatever
entries are added and whenever updates are tried: the first batch is drawn as it should be, the second ends the run with an `AssertionError`. -/
theorem C180_violated_unreported {cap : Option Nat} {p : PWE} {c : Sched} (hs : Sensible cap p c) (ops : List (Op T))
    (hv : AllVariates c.batchsize ops) :
    (due c cap 0 ops * c.nTimes = 0 → ∃ m, run c (.ok (Mem.init cap p)) ops = .ok m ∧ m.buf.data = newest cap (entriesOf ops) ∧ m.log = []) ∧
    (due c cap 0 ops * c.nTimes = 1 →
      ∃ m x, run c (.ok (Mem.init cap p)) ops = .ok m ∧ m.buf.data = newest cap (entriesOf ops) ∧ m.log = [x] ∧ x.1.length = c.batchsize) ∧
    (2 ≤ due c cap 0 ops * c.nTimes → run c (.ok (Mem.init cap p)) ops = .error .assertionError) := by
  have := fresh_run hs ops (Mem.init cap p) [] [] 1 hv .init (by cases cap <;> simp [newest]) rfl rfl
  simpa using this

/-! ## A DQN whose update is interrupted -/

theorem dqnRun_error (c : Sched) (errs : Nat → Nat → List ℝ) (e : PyErr) (ops : List (Nat × Op T)) : dqnRun c errs (.error e) ops = .error e := by
  induction ops with
  | nil => rfl
  | cons op ops ih => obtain ⟨k, op⟩ := op; cases op <;> exact ih

/-- The errors that the network computes in the batches of these updates: as many as entries, not negative. -/
def AllErrors (n : Nat) (errs : Nat → Nat → List ℝ) : Prop := ∀ k j, (errs k j).length = n ∧ ∀ e ∈ errs k j, 0 ≤ e

theorem dqn_good {cap : Option Nat} {p : PWE} {c : Sched} (hs : Sensible cap p c) (errs : Nat → Nat → List ℝ) (he : AllErrors c.batchsize errs)
    (ops : List (Nat × Op T)) : ∀ (m : Mem T) (items : List (List T × ℝ)) (mx : ℝ) (L : List (List T)), AllVariates c.batchsize (ops.map Prod.snd) →
      Good cap p c.batchsize m items mx → items.map Prod.fst = newest cap L →
      ∃ m' items' mx', dqnRun c errs (.ok m) ops = .ok m' ∧ Good cap p c.batchsize m' items' mx' ∧
        items'.map Prod.fst = newest cap (L ++ entriesOf (ops.map Prod.snd)) := by
  induction ops with
  | nil => intro m items mx L _ h hL; exact ⟨m, items, mx, rfl, h, by simpa [entriesOf] using hL⟩
  | cons op ops ih =>
    intro m items mx L hv h hL
    have hv' : AllVariates c.batchsize (ops.map Prod.snd) := fun t us hm => hv t us (List.mem_cons_of_mem _ hm)
    obtain ⟨k, op⟩ := op
    cases op with
    | entry w =>
      obtain ⟨b', f1, f2⟩ := (C07_append_popleft cap true 1 hs.cap one_pos m.buf items mx h.hist).1 w none (by simp)
      obtain ⟨m', items', mx', g1, g2, g3⟩ := ih { m with buf := b' } _ mx (L ++ [w]) hv' ⟨f2, h.pwe, h.log, newest_le h.le w⟩ (by
        rw [TrainDQN.newest_map, List.map_append, hL, ← RAQ.newest_newest cap L]; rfl)
      refine ⟨m', items', mx', ?_, g2, by simpa [entriesOf, List.append_assoc] using g3⟩
      rw [← g1]
      show dqnRun c errs (TrainPrioritized.push (.ok m) w) ops = _
      simp only [TrainPrioritized.push, bind, Except.bind, f1, pure, Except.pure]
    | update t us =>
      obtain ⟨m1, items1, mx1, l, f1, f2, f3, -⟩ := C132_update hs us (errs k) (fun j => ⟨(hv t us (by simp) j).1, (hv t us (by simp) j).2, he k j⟩) t m items mx h
      obtain ⟨m', items', mx', g1, g2, g3⟩ := ih m1 items1 mx1 L hv' f2 (f3.trans hL)
      refine ⟨m', items', mx', ?_, g2, by simpa [entriesOf] using g3⟩
      rw [← g1]
      show dqnRun c errs (TrainPrioritized.update c us (errs k) t m) ops = _
      rw [f1]

theorem stuck_dqn {cap : Option Nat} {p : PWE} {c : Sched} (hs : Sensible cap p c) (errs : Nat → Nat → List ℝ) (ops : List (Nat × Op T)) :
    ∀ (m : Mem T) (L : List (List T)), Stuck cap m (newest cap L) →
    (due c cap L.length (ops.map Prod.snd) * c.nTimes = 0 →
      ∃ m', dqnRun c errs (.ok m) ops = .ok m' ∧ Stuck cap m' (newest cap (L ++ entriesOf (ops.map Prod.snd))) ∧ m'.log = m.log) ∧
    (0 < due c cap L.length (ops.map Prod.snd) * c.nTimes → dqnRun c errs (.ok m) ops = .error .assertionError) := by
  induction ops with
  | nil => intro m L h; exact ⟨fun _ => ⟨m, rfl, by simpa [entriesOf] using h, rfl⟩, by simp [due]⟩
  | cons op ops ih =>
    intro m L h
    obtain ⟨k, op⟩ := op
    cases op with
    | entry w =>
      obtain ⟨m', h1, h2, h3⟩ := h.push hs.cap w
      have ih' := ih m' (L ++ [w]) h2
      rw [List.length_append, List.length_singleton] at ih'
      have hr : dqnRun c errs (.ok m) ((k, .entry w) :: ops) = dqnRun c errs (.ok m') ops := by
        show dqnRun c errs (TrainPrioritized.push (.ok m) w) ops = _; rw [h1]
      rw [hr]
      refine ⟨fun h0 => ?_, ih'.2⟩
      obtain ⟨m'', g1, g2, g3⟩ := ih'.1 h0
      exact ⟨m'', g1, by simpa [entriesOf, List.append_assoc] using g2, g3.trans h3⟩
    | update t us =>
      have hu : TrainPrioritized.update c us (errs k) t m = OpenBatches.update c us t m := by
        unfold TrainPrioritized.update OpenBatches.update
        cases c.nTimes with
        | zero => rfl
        | succ i => simp only [rounds, draws, h.draw, h.round, bind, Except.bind]
      have hr : dqnRun c errs (.ok m) ((k, .update t us) :: ops) = dqnRun c errs (TrainPrioritized.update c us (errs k) t m) ops := rfl
      rw [hr, hu, stuck_update hs h t us]
      simp only [List.map_cons]
      by_cases hd : c.startSize ≤ held cap L.length ∧ c.interval ∣ t
      · simp only [due, hd, and_self, if_true]
        by_cases hn : 0 < c.nTimes
        · rw [if_pos ⟨trivial, trivial, hn⟩, dqnRun_error]
          refine ⟨fun h0 => ?_, fun _ => rfl⟩
          rcases Nat.mul_eq_zero.1 h0 with h0 | h0 <;> omega
        · have hn0 : c.nTimes = 0 := by omega
          rw [if_neg (fun h => hn h.2.2)]
          refine ⟨fun _ => ?_, fun h0 => by rw [hn0] at h0; omega⟩
          exact (ih m L h).1 (by rw [hn0]; omega)
      · rw [if_neg (fun h => hd ⟨h.1, h.2.1⟩)]
        simp only [due, hd, if_false, Nat.zero_add]
        exact ih m L h

/-- **C180** (violated): a DQN with a `PrioritizedReplayBuffer`, any training before (`ops`), then an update that an exception ends between drawing a batch and
reporting its errors (after `k` complete batches), then any further use of the agent (`ops'`): no entry is lost and entries can be added, but the next update that is due
raises an `AssertionError`. -/
theorem C180_violated_interrupted {cap : Option Nat} {p : PWE} {c : Sched} (hs : Sensible cap p c) (errs : Nat → Nat → List ℝ)
    (he : AllErrors c.batchsize errs) (ops : List (Nat × Op T)) (hv : AllVariates c.batchsize (ops.map Prod.snd))
    (hstart : c.startSize ≤ held cap (entriesOf (ops.map Prod.snd)).length) (us : Nat → List ℝ) (hus : Variates c.batchsize us) (i k : Nat) (ops' : List (Nat × Op T)) :
    ∃ m m1, dqnRun c errs (.ok (Mem.init cap p)) ops = .ok m ∧ interrupted c us (errs i) k m = .ok m1 ∧
      (due c cap (entriesOf (ops.map Prod.snd)).length (ops'.map Prod.snd) * c.nTimes = 0 →
        ∃ m', dqnRun c errs (.ok m1) ops' = .ok m' ∧ m'.buf.data = newest cap (entriesOf ((ops ++ ops').map Prod.snd)) ∧ m'.log = m1.log) ∧
      (0 < due c cap (entriesOf (ops.map Prod.snd)).length (ops'.map Prod.snd) * c.nTimes → dqnRun c errs (.ok m1) ops' = .error .assertionError) := by
  obtain ⟨m, items, mx, f1, f2, f3⟩ := dqn_good hs errs he ops (Mem.init cap p) [] 1 [] hv
    ⟨.init, by simp only [annealed, Mem.init, List.length_nil, Nat.cast_zero, zero_mul, add_zero]; rw [min_eq_right hs.beta.2], by simp [Mem.init], by simp⟩
    (by cases cap <;> simp [newest])
  rw [List.nil_append] at f3
  have hlen : c.batchsize ≤ items.length := by
    have : items.length = held cap (entriesOf (ops.map Prod.snd)).length := by rw [← held_length, ← f3]; simp
    have := hs.batch.2; omega
  obtain ⟨m0, items0, mx0, l, g1, g2, g3, -⟩ := rounds_good hs us (errs i) (fun j => ⟨(hus j).1, (hus j).2, he i j⟩) k 0 m items mx f2 hlen
  have hlen0 : items0.length = items.length := by simpa using congrArg List.length g3
  obtain ⟨m1, x, d1, d2, -⟩ := draw_ok hs m0 items0 mx0 g2.hist ⟨_, g2.pwe⟩ (by omega) (us k) (hus k)
  rw [g3, f3] at d2
  have key := stuck_dqn hs errs ops' m1 _ d2
  refine ⟨m, m1, f1, by simp only [interrupted, g1, bind, Except.bind, d1], fun h0 => ?_, key.2⟩
  obtain ⟨m', k1, k2, k3⟩ := key.1 h0
  refine ⟨m', k1, ?_, k3⟩
  rw [k2.data]
  simp [entriesOf, List.filterMap_append]

/-- Settings for the examples: batches of one entry, updates at every step. -/
theorem sensible_small : Sensible none ⟨0.6, 0.4, 0.6 / 200000, 0.01, .batch, some 0, some 1⟩ ⟨1, 1, 1, 1⟩ :=
  ⟨by simp, by norm_num, by norm_num, by
    intro e he
    have : 0 ≤ min 1 (max 0 e) := le_min zero_le_one (le_max_left 0 e)
    show 0 < min 1 (max 0 e) + 0.01
    linarith, by norm_num, by norm_num⟩

theorem variates_zero : Variates 1 (fun _ => [0]) := fun _ => ⟨rfl, by simp⟩

/-- Two steps with an update each: the second raises. -/
example : run ⟨1, 1, 1, 1⟩ (.ok (Mem.init none ⟨0.6, 0.4, 0.6 / 200000, 0.01, .batch, some 0, some 1⟩))
    [.entry [7], .update 1 (fun _ => [0]), .entry [8], .update 2 (fun _ => [0])] = .error .assertionError := by
  refine (C180_violated_unreported sensible_small _ ?_).2.2 (by simp [due, held])
  intro t us h
  have : us = fun _ => [0] := by simp at h; rcases h with h | h <;> exact h.2
  rw [this]; exact variates_zero

/-- One step, an update that is interrupted, another step: the next update raises. -/
example : ∃ m m1, dqnRun ⟨1, 1, 1, 1⟩ (fun _ _ => [0]) (.ok (Mem.init none ⟨0.6, 0.4, 0.6 / 200000, 0.01, .batch, some 0, some 1⟩)) [(0, .entry [7])] = .ok m ∧
    interrupted ⟨1, 1, 1, 1⟩ (fun _ => [0]) (fun _ => [0]) 0 m = .ok m1 ∧
    dqnRun ⟨1, 1, 1, 1⟩ (fun _ _ => [0]) (.ok m1) [(1, .entry [8]), (2, .update 2 (fun _ => [0]))] = .error .assertionError := by
  obtain ⟨m, m1, h1, h2, -, h4⟩ := C180_violated_interrupted sensible_small (fun _ _ => [0]) (fun _ _ => ⟨rfl, by simp⟩) [(0, .entry [7])] (by intro t us h; simp at h)
    (by simp [entriesOf, held]) (fun _ => [0]) variates_zero 0 0 [(1, .entry [8]), (2, .update 2 (fun _ => [0]))]
  exact ⟨m, m1, h1, h2, h4 (by simp [entriesOf, due, held])⟩

end Verif.OpenBatches
