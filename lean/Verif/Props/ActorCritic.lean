import Verif.Spec.ActorCritic
import Verif.Props.DQN
set_option autoImplicit false
set_option linter.unusedSectionVars false

/-! # C71, C78: DDPG, TD3 and SoftActorCritic -/

namespace Verif.ActorCritic

open Verif.DQN (except_bind_ok)

variable {B O A R : Type}

@[simp] theorem learns_append (l₁ l₂ : List (Ev O A R)) : learns (l₁ ++ l₂) = learns l₁ ++ learns l₂ := by
  simp [learns]
@[simp] theorem syncTimes_append (l₁ l₂ : List (Ev O A R)) :
    syncTimes (l₁ ++ l₂) = syncTimes l₁ ++ syncTimes l₂ := by simp [syncTimes]
@[simp] theorem bufCalls_append (l₁ l₂ : List (Ev O A R)) :
    bufCalls (l₁ ++ l₂) = bufCalls l₁ ++ bufCalls l₂ := by simp [bufCalls]
@[simp] theorem returned_append (l₁ l₂ : List (Ev O A R)) :
    returned (l₁ ++ l₂) = returned l₁ ++ returned l₂ := by simp [returned]

theorem pair_ok {X Y : Type} {a b : X × Y} : ((pure a : Py (X × Y)) = .ok b) ↔ a = b := by
  simp [pure, Except.pure]

/-! ### Learning schedule -/

theorem delayed_add (d k m n : Nat) : delayed d k (m + n) = delayed d k m ++ delayed d (k + m) n := by
  unfold delayed
  rw [← List.flatMap_append]
  congr 1
  rw [show k + m + 1 = k + 1 + m by omega, List.range'_append_1]

/-- What holds of every part of a run. -/
structure Piece (c : Args) (s s' : St B O A) (ev : List (Ev O A R)) : Prop where
  tLe : s.t ≤ s'.t
  qT : s'.qT = s.qT + (learns ev).count .q
  polT : s'.polT = s.polT + (learns ev).count .policy
  td3 : c.kind = .td3 → learns ev = delayed c.policyUpdateDelay s.qT ((learns ev).count .q)
  sac : c.kind = .sac → learns ev = (List.replicate ((learns ev).count .q)
    ([.q, .policy] ++ (if c.tuneTemperature then [.temperature] else []) ++ [.sync])).flatten
  ddpg : c.kind = .ddpg → (learns ev).filter (· ≠ .sync) =
    (List.replicate ((learns ev).count .q) [.q, .policy]).flatten
  ddpgSync : c.kind = .ddpg →
    syncTimes ev = (List.range' (s.t + 1) (s'.t - s.t)).filter fun t => t % c.targetUpdateInterval == 0
  chosen : ∀ pre b a post, ev = pre ++ .choose b a :: post →
    b = (c.burnin && (s.polT + (learns pre).count .policy == 0))

theorem Piece.nil (c : Args) (s : St B O A) : Piece c s s ([] : List (Ev O A R)) := by
  constructor <;> simp [learns, delayed, syncTimes]

theorem Piece.trans {c : Args} {s s' s'' : St B O A} {e e' : List (Ev O A R)} (h : Piece c s s' e)
    (h' : Piece c s' s'' e') : Piece c s s'' (e ++ e') := by
  constructor
  · exact Nat.le_trans h.tLe h'.tLe
  · rw [h'.qT, h.qT, learns_append, List.count_append]; omega
  · rw [h'.polT, h.polT, learns_append, List.count_append]; omega
  · intro hk
    rw [learns_append, List.count_append, delayed_add, ← h.qT, ← h'.td3 hk, ← h.td3 hk]
  · intro hk
    rw [learns_append, List.count_append, List.replicate_add, List.flatten_append, ← h'.sac hk, ← h.sac hk]
  · intro hk
    rw [learns_append, List.count_append, List.replicate_add, List.flatten_append, ← h'.ddpg hk, ← h.ddpg hk,
      List.filter_append]
  · intro hk
    have h1 := h.tLe
    have h2 := h'.tLe
    rw [syncTimes_append, h.ddpgSync hk, h'.ddpgSync hk, ← List.filter_append]
    congr 1
    rw [show s'.t + 1 = s.t + 1 + (s'.t - s.t) by omega, List.range'_append_1]
    congr 1; omega
  · intro pre b a post he
    rcases List.append_eq_append_iff.1 he with ⟨l, hl, hl'⟩ | ⟨l, hl, hl'⟩
    · rw [h'.chosen l b a post hl', hl, learns_append, List.count_append, h.polT, Nat.add_assoc]
    · cases l with
      | nil =>
        rw [List.nil_append] at hl'
        have := h'.chosen [] b a post hl'.symm
        rw [this, h.polT, hl]
        simp [learns]
      | cons x l =>
        rw [List.cons_append, List.cons.injEq] at hl'
        rw [← hl'.1] at hl
        exact h.chosen pre b a l hl

/-- Events that are not learning events and not choices, without a change of the counters. -/
theorem Piece.quiet {c : Args} {s s' : St B O A} {ev : List (Ev O A R)} (ht : s'.t = s.t) (hq : s'.qT = s.qT)
    (hp : s'.polT = s.polT) (hl : learns ev = []) (hs : syncTimes ev = [])
    (hc : ∀ b a, Ev.choose b a ∉ ev) : Piece c s s' ev := by
  refine ⟨by simp [ht], by simp [hl, hq], by simp [hl, hp], fun _ => by simp [hl, delayed], fun _ => by simp [hl],
    fun _ => by simp [hl], fun _ => by simp [hs, ht], ?_⟩
  intro pre b a post he
  exact absurd (by rw [he]; simp) (hc b a)

theorem update_piece (c : Args) (s s' : St B O A) (ev : List (Ev O A R)) (h : c.update s = .ok (s', ev)) :
    Piece c s s' ev ∧ (learns ev).count .q = 1 := by
  have hch : ∀ (l : List (Ev O A R)) (P : Prop), (∀ b a, Ev.choose b a ∉ l) →
      ∀ pre b a post, l = pre ++ .choose b a :: post → P := by
    intro l P hl pre b a post he
    exact absurd (by rw [he]; simp) (hl b a)
  unfold Args.update at h
  split at h
  · rename_i hk
    simp only [Except.ok.injEq, Prod.mk.injEq] at h
    obtain ⟨rfl, rfl⟩ := h
    refine ⟨⟨Nat.le_refl _, rfl, rfl, fun h => by simp [hk] at h, fun h => by simp [hk] at h, fun _ => rfl, ?_, ?_⟩, rfl⟩
    · intro _; simp [syncTimes]
    · intro pre b a post he; exact hch _ _ (by simp) pre b a post he
  · rename_i hk
    split at h
    · cases h
    · split at h
      · rename_i hd
        simp only [Except.ok.injEq, Prod.mk.injEq] at h
        obtain ⟨rfl, rfl⟩ := h
        refine ⟨⟨Nat.le_refl _, rfl, rfl, fun _ => ?_, fun h => by simp [hk] at h, fun h => by simp [hk] at h,
          fun h => by simp [hk] at h, ?_⟩, rfl⟩
        · show [Learn.q, .policy, .sync] = delayed c.policyUpdateDelay s.qT 1
          simp [delayed, List.range'_one, hd]
        · intro pre b a post he; exact hch _ _ (by simp) pre b a post he
      · rename_i hd
        simp only [Except.ok.injEq, Prod.mk.injEq] at h
        obtain ⟨rfl, rfl⟩ := h
        refine ⟨⟨Nat.le_refl _, rfl, rfl, fun _ => ?_, fun h => by simp [hk] at h, fun h => by simp [hk] at h,
          fun h => by simp [hk] at h, ?_⟩, rfl⟩
        · show [Learn.q] = delayed c.policyUpdateDelay s.qT 1
          simp [delayed, List.range'_one, hd]
        · intro pre b a post he; exact hch _ _ (by simp) pre b a post he
  · rename_i hk
    simp only [Except.ok.injEq, Prod.mk.injEq] at h
    obtain ⟨rfl, rfl⟩ := h
    cases ht : c.tuneTemperature
    · refine ⟨⟨Nat.le_refl _, rfl, rfl, fun h => by simp [hk] at h, fun _ => by simp [ht, learns], fun h => by simp [hk] at h,
        fun h => by simp [hk] at h, ?_⟩, rfl⟩
      intro pre b a post he; exact hch _ _ (by simp) pre b a post he
    · refine ⟨⟨Nat.le_refl _, rfl, rfl, fun h => by simp [hk] at h, fun _ => by simp [ht, learns], fun h => by simp [hk] at h,
        fun h => by simp [hk] at h, ?_⟩, rfl⟩
      intro pre b a post he; exact hch _ _ (by simp) pre b a post he

theorem updates_piece (c : Args) : ∀ (es : List UpdEvent) (s s' : St B O A) (ev : List (Ev O A R)),
    c.updates es s = .ok (s', ev) → Piece c s s' ev ∧ (learns ev).count .q = es.count .update
  | [], s, s', ev, h => by
    simp only [Args.updates, Except.ok.injEq, Prod.mk.injEq] at h
    obtain ⟨rfl, rfl⟩ := h
    exact ⟨Piece.nil c s, rfl⟩
  | .update :: es, s, s', ev, h => by
    simp only [Args.updates] at h
    obtain ⟨⟨s1, e1⟩, h1, h⟩ := except_bind_ok.1 h
    obtain ⟨⟨s2, e2⟩, h2, h⟩ := except_bind_ok.1 h
    rw [pair_ok] at h
    obtain ⟨rfl, rfl⟩ := Prod.mk.inj h
    obtain ⟨p1, c1⟩ := update_piece c _ _ _ h1
    obtain ⟨p2, c2⟩ := updates_piece c es _ _ _ h2
    refine ⟨p1.trans p2, ?_⟩
    rw [learns_append, List.count_append, c1, c2, List.count_cons_self, Nat.add_comm]
  | .sample n :: es, s, s', ev, h => by
    simp only [Args.updates] at h
    obtain ⟨p, c'⟩ := updates_piece c es _ _ _ h
    exact ⟨p, by rw [c', List.count_cons_of_ne (by simp)]⟩
  | .sampleEpisodes n :: es, s, s', ev, h => by
    simp only [Args.updates] at h
    obtain ⟨p, c'⟩ := updates_piece c es _ _ _ h
    exact ⟨p, by rw [c', List.count_cons_of_ne (by simp)]⟩

theorem loop_count (u : UpdaterCfg) : ∀ k, (u.loop k).count .update = k
  | 0 => rfl
  | k + 1 => by
    rw [UpdaterCfg.loop, List.count_append, loop_count u k]
    split <;> simp [Nat.add_comm]

theorem updater_cases (u : UpdaterCfg) (hu : u.episodic = false) (n t : Nat) :
    (¬(u.startSize ≤ n ∧ t % u.interval = 0) ∧ u.updateIfNecessary n 0 t = .ok []) ∨
    (u.interval = 0 ∧ u.updateIfNecessary n 0 t = .error .zeroDivisionError) ∨
    (u.startSize ≤ n ∧ t % u.interval = 0 ∧ u.updateIfNecessary n 0 t = .ok (u.loop u.nTimes)) := by
  unfold UpdaterCfg.updateIfNecessary
  by_cases h1 : n < u.startSize
  · left
    exact ⟨by rintro ⟨h, -⟩; omega, if_pos h1⟩
  · rw [if_neg h1, hu]
    simp only [Bool.false_and, Bool.false_eq_true, if_false]
    by_cases h2 : u.interval = 0
    · right; left; exact ⟨h2, if_pos h2⟩
    · rw [if_neg h2]
      by_cases h3 : (t : Int) % (u.interval : Int) = 0
      · right; right
        refine ⟨by omega, by exact_mod_cast h3, ?_⟩
        rw [if_neg (by simpa using h3)]
      · left
        refine ⟨?_, if_pos h3⟩
        rintro ⟨-, h⟩
        exact h3 (by exact_mod_cast h)

theorem updateIfNecessary_piece (c : Args) (b : Buf B O A R) (s s' : St B O A) (ev : List (Ev O A R))
    (h : c.updateIfNecessary b s = .ok (s', ev)) :
    Piece c s s' ev ∧ s'.t = s.t ∧ (learns ev).count .q =
      if c.replayStartSize ≤ b.len s.buf ∧ s.t % c.updateInterval = 0 then
        (if c.kind = .ddpg then c.nTimesUpdate else 1) else 0 := by
  have hupd : ∀ (es : List UpdEvent) (s s' : St B O A) (ev : List (Ev O A R)), c.updates es s = .ok (s', ev) →
      s'.t = s.t := by
    have h1 : ∀ (s s' : St B O A) (ev : List (Ev O A R)), c.update s = .ok (s', ev) → s'.t = s.t := by
      intro s s' ev h
      unfold Args.update at h
      repeat' split at h
      all_goals first | (cases h; done) | (simp only [Except.ok.injEq, Prod.mk.injEq] at h; rw [← h.1])
    intro es
    induction es with
    | nil => intro s s' ev h; simp only [Args.updates, Except.ok.injEq, Prod.mk.injEq] at h; rw [h.1]
    | cons e es ih =>
      intro s s' ev h
      cases e with
      | update =>
        simp only [Args.updates] at h
        obtain ⟨⟨s1, e1⟩, g1, h⟩ := except_bind_ok.1 h
        obtain ⟨⟨s2, e2⟩, g2, h⟩ := except_bind_ok.1 h
        rw [pair_ok] at h
        obtain ⟨rfl, rfl⟩ := Prod.mk.inj h
        rw [ih _ _ _ g2, h1 _ _ _ g1]
      | sample n => exact ih _ _ _ h
      | sampleEpisodes n => exact ih _ _ _ h
  unfold Args.updateIfNecessary at h
  obtain ⟨es, h1, h2⟩ := except_bind_ok.1 h
  obtain ⟨p, hc⟩ := updates_piece c es _ _ _ h2
  refine ⟨p, hupd _ _ _ _ h2, ?_⟩
  rw [hc]
  rcases updater_cases c.updater rfl (b.len s.buf) s.t with ⟨hn, h'⟩ | ⟨hz, h'⟩ | ⟨hl, hm, h'⟩
  · rw [h'] at h1
    injection h1 with h1
    rw [← h1, if_neg (by exact hn)]
    rfl
  · rw [h'] at h1
    cases h1
  · rw [h'] at h1
    injection h1 with h1
    rw [← h1, loop_count, if_pos (by exact ⟨hl, hm⟩)]
    rfl

/-- The clock ticks and the target networks are synchronised if due. -/
theorem tick_piece (c : Args) (s : St B O A) (ev : List (Ev O A R))
    (h : c.syncIfDue { s with t := s.t + 1 } = .ok ev) : Piece c s { s with t := s.t + 1 } ev := by
  unfold Args.syncIfDue at h
  split at h
  · rename_i hk
    split at h
    · cases h
    · split at h
      · rename_i hd
        injection h with h
        subst h
        refine ⟨Nat.le_succ _, rfl, rfl, fun h => by simp [hk] at h, fun h => by simp [hk] at h, fun _ => rfl,
          fun _ => ?_, ?_⟩
        · have : s.t + 1 - s.t = 1 := by omega
          simp only at hd
          simp [syncTimes, List.range'_one, hd]
        · intro pre b a post he
          exact absurd (by rw [he]; simp : Ev.choose b a ∈ [Ev.sync (s.t + 1)]) (by simp)
      · rename_i hd
        injection h with h
        subst h
        refine ⟨Nat.le_succ _, rfl, rfl, fun h => by simp [hk] at h, fun h => by simp [hk] at h, fun _ => rfl,
          fun _ => ?_, ?_⟩
        · have : s.t + 1 - s.t = 1 := by omega
          simp only at hd
          simp [syncTimes, List.range'_one, hd]
        · intro pre b a post he
          exact absurd he (by simp)
  · rename_i hk
    injection h with h
    subst h
    refine ⟨Nat.le_succ _, rfl, rfl, fun _ => rfl, fun _ => rfl, fun h => absurd h hk, fun h => absurd h hk, ?_⟩
    intro pre b a post he
    exact absurd he (by simp)

theorem choose_piece (c : Args) (s : St B O A) (f : List (Bool → A)) :
    Piece c s s (f.map fun g => (Ev.choose (c.burning s) (g (c.burning s)) : Ev O A R)) := by
  have hl : learns (f.map fun g => (Ev.choose (c.burning s) (g (c.burning s)) : Ev O A R)) = [] := by
    simp [learns]
  refine ⟨Nat.le_refl _, by simp [hl], by simp [hl], fun _ => by simp [hl, delayed], fun _ => by simp [hl],
    fun _ => by simp [hl], fun _ => by simp [syncTimes], ?_⟩
  intro pre b a post he
  have hpre : learns pre = [] := by
    rw [he, learns_append, List.append_eq_nil_iff] at hl
    exact hl.1
  have hb : b = c.burning s := by
    have : Ev.choose b a ∈ f.map fun g => (Ev.choose (c.burning s) (g (c.burning s)) : Ev O A R) := by
      rw [he]; simp
    obtain ⟨g, -, hg⟩ := List.mem_map.1 this
    injection hg with h1 h2
    exact h1.symm
  rw [hb, hpre]
  rfl

theorem actAppend_ok (b : Buf B O A R) (s s' : St B O A) (obs : O) (r : R) (a : A) (ev)
    (h : b.actAppend s obs r a = .ok (s', ev)) :
    s'.t = s.t ∧ s'.qT = s.qT ∧ s'.polT = s.polT ∧ learns ev = [] ∧ syncTimes ev = [] ∧
      (∀ b a, Ev.choose b a ∉ ev) ∧ returned ev = [] := by
  unfold Buf.actAppend at h
  split at h
  · simp only [Except.ok.injEq, Prod.mk.injEq] at h
    obtain ⟨rfl, rfl⟩ := h
    simp [learns, syncTimes, returned]
  · cases h
  · simp only [Except.ok.injEq, Buf.push, Prod.mk.injEq] at h
    obtain ⟨rfl, rfl⟩ := h
    simp [learns, syncTimes, returned]

theorem act_piece (c : Args) (b : Buf B O A R) (s s' : St B O A) (obs : O) (r : R) (f : Bool → A)
    (ev : List (Ev O A R)) (h : c.actAndTrain b s obs r f = .ok (s', ev)) :
    Piece c s s' ev ∧ s'.t = s.t + 1 := by
  unfold Args.actAndTrain at h
  obtain ⟨e1, h1, h⟩ := except_bind_ok.1 h
  obtain ⟨⟨s2, e2⟩, h2, h⟩ := except_bind_ok.1 h
  obtain ⟨⟨s3, e3⟩, h3, h⟩ := except_bind_ok.1 h
  rw [pair_ok] at h
  obtain ⟨rfl, rfl⟩ := Prod.mk.inj h
  have p0 := choose_piece (R := R) (O := O) c s [f]
  have p1 := tick_piece c s e1 h1
  obtain ⟨a1, a2, a3, a4, a5, a6, -⟩ := actAppend_ok b _ _ _ _ _ _ h2
  have p2 : Piece c { s with t := s.t + 1 } { s2 with lastState := some obs, lastAction := some (f (c.burning s)) } e2 :=
    Piece.quiet a1 a2 a3 a4 a5 a6
  obtain ⟨p3, ht, -⟩ := updateIfNecessary_piece c b _ _ _ h3
  have p4 : Piece c s3 s3 (s3.lastAction.toList.map Ev.ret : List (Ev O A R)) :=
    Piece.quiet rfl rfl rfl (by simp [learns]) (by simp [syncTimes]) (by simp)
  refine ⟨?_, by rw [ht]; exact a1⟩
  have := p0.trans (((p1.trans p2).trans p3).trans p4)
  exact this

theorem stop_piece (c : Args) (b : Buf B O A R) (s s' : St B O A) (obs : O) (r : R) (d : Bool)
    (ev : List (Ev O A R)) (h : b.stopEpisodeAndTrain s obs r d = .ok (s', ev)) :
    Piece c s s' ev ∧ s'.t = s.t := by
  unfold Buf.stopEpisodeAndTrain at h
  split at h
  · simp only [Buf.push, Buf.halt, Except.ok.injEq, Prod.mk.injEq] at h
    obtain ⟨rfl, rfl⟩ := h
    exact ⟨Piece.quiet rfl rfl rfl rfl rfl (by simp), rfl⟩
  · cases h

theorem record_piece (c : Args) (b : Buf B O A R) (inp : Obs O R) (i : Nat) (s s' : St B O A)
    (ev : List (Ev O A R)) (h : b.observeRecord inp i s = .ok (s', ev)) : Piece c s s' ev ∧ s'.t = s.t := by
  unfold Buf.observeRecord at h
  obtain ⟨lo, -, h⟩ := except_bind_ok.1 h
  cases lo with
  | none =>
    rw [pair_ok] at h
    obtain ⟨rfl, rfl⟩ := Prod.mk.inj h
    exact ⟨Piece.nil _ _, rfl⟩
  | some o =>
    simp only [Buf.observeAppend] at h
    obtain ⟨a, -, h⟩ := except_bind_ok.1 h
    obtain ⟨r, -, h⟩ := except_bind_ok.1 h
    obtain ⟨o', -, h⟩ := except_bind_ok.1 h
    obtain ⟨d, -, h⟩ := except_bind_ok.1 h
    obtain ⟨rs, -, h⟩ := except_bind_ok.1 h
    simp only [Buf.push, Buf.halt] at h
    split at h
    · rw [pair_ok] at h
      obtain ⟨rfl, rfl⟩ := Prod.mk.inj h
      exact ⟨Piece.quiet rfl rfl rfl rfl rfl (by simp), rfl⟩
    · rw [pair_ok] at h
      obtain ⟨rfl, rfl⟩ := Prod.mk.inj h
      exact ⟨Piece.quiet rfl rfl rfl rfl rfl (by simp), rfl⟩

theorem observe_piece (c : Args) (b : Buf B O A R) (inp : Obs O R) : ∀ (k i : Nat) (s s' : St B O A)
    (ev : List (Ev O A R)), c.observeLoop b inp i k s = .ok (s', ev) → Piece c s s' ev ∧ s'.t = s.t + k
  | 0, i, s, s', ev, h => by
    simp only [Args.observeLoop] at h
    rw [pair_ok] at h
    obtain ⟨rfl, rfl⟩ := Prod.mk.inj h
    exact ⟨Piece.nil _ _, rfl⟩
  | k + 1, i, s, s', ev, h => by
    simp only [Args.observeLoop] at h
    obtain ⟨⟨s1, e1⟩, h1, h⟩ := except_bind_ok.1 h
    obtain ⟨⟨s2, e2⟩, h2, h⟩ := except_bind_ok.1 h
    rw [pair_ok] at h
    obtain ⟨rfl, rfl⟩ := Prod.mk.inj h
    unfold Args.observeStep at h1
    obtain ⟨f1, g1, h1⟩ := except_bind_ok.1 h1
    obtain ⟨⟨s3, e3⟩, g2, h1⟩ := except_bind_ok.1 h1
    obtain ⟨⟨s4, e4⟩, g3, h1⟩ := except_bind_ok.1 h1
    rw [pair_ok] at h1
    obtain ⟨rfl, rfl⟩ := Prod.mk.inj h1
    obtain ⟨p2, t2⟩ := record_piece c b inp i _ _ _ g2
    obtain ⟨p3, t3, -⟩ := updateIfNecessary_piece c b _ _ _ g3
    obtain ⟨p4, t4⟩ := observe_piece c b inp k (i + 1) _ _ _ h2
    refine ⟨(((tick_piece c s f1 g1).trans p2).trans p3).trans p4, ?_⟩
    rw [t4, t3, t2]
    show s.t + 1 + k = _
    omega

theorem run_piece (c : Args) (b : Buf B O A R) : ∀ (l : List (Call O A R)) (s s' : St B O A)
    (ev : List (Ev O A R)), c.run b s l = .ok (s', ev) → Piece c s s' ev ∧ s'.t = s.t + ticks l
  | [], s, s', ev, h => by
    simp only [Args.run] at h
    rw [pair_ok] at h
    obtain ⟨rfl, rfl⟩ := Prod.mk.inj h
    exact ⟨Piece.nil _ _, rfl⟩
  | x :: l, s, s', ev, h => by
    simp only [Args.run] at h
    obtain ⟨⟨s1, e1⟩, h1, h⟩ := except_bind_ok.1 h
    obtain ⟨⟨s2, e2⟩, h2, h⟩ := except_bind_ok.1 h
    rw [pair_ok] at h
    obtain ⟨rfl, rfl⟩ := Prod.mk.inj h
    obtain ⟨p2, t2⟩ := run_piece c b l _ _ _ h2
    have hticks : ticks (x :: l) = ticks [x] + ticks l := by simp [ticks]
    have : Piece c s s1 e1 ∧ s1.t = s.t + ticks [x] := by
      cases x with
      | act o r f => exact act_piece c b _ _ _ _ _ _ h1
      | stop o r d => exact stop_piece c b _ _ _ _ _ _ h1
      | batchAct os fs =>
        simp only [Args.call, Args.batchActAndTrain, Except.ok.injEq, Prod.mk.injEq] at h1
        obtain ⟨rfl, rfl⟩ := h1
        refine ⟨(choose_piece c s fs).trans (Piece.quiet rfl rfl rfl ?_ ?_ ?_), rfl⟩
        · simp [learns]
        · simp [syncTimes]
        · simp
      | batchObserve inp =>
        obtain ⟨p, t⟩ := observe_piece c b inp _ _ _ _ _ h1
        exact ⟨p, by rw [t]; simp [ticks]⟩
    exact ⟨this.1.trans p2, by rw [t2, this.2, hticks]; omega⟩

/-- **C71**: in every history of calls, in any order, TD3's learning events are exactly:
Q-function updates, with a policy update and a synchronisation of the target networks
directly after every update whose number is a multiple of `policy_update_delay`. -/
theorem C71_delay_partial (c : Args) (hk : c.kind = .td3) (b : Buf B O A R) (b0 : B) (l : List (Call O A R))
    (s' : St B O A) (ev : List (Ev O A R)) (h : c.run b (init b0) l = .ok (s', ev)) :
    learns ev = delayed c.policyUpdateDelay 0 ((learns ev).count .q) :=
  (run_piece c b l _ _ _ h).1.td3 hk

theorem delayed_count (d : Nat) (hd : 0 < d) : ∀ n, (delayed d 0 n).count .policy = n / d ∧
    (delayed d 0 n).count .sync = n / d
  | 0 => by simp [delayed]
  | n + 1 => by
    obtain ⟨h1, h2⟩ := delayed_count d hd n
    rw [delayed_add d 0 n 1, List.count_append, List.count_append, h1, h2, Nat.succ_div]
    by_cases hm : d ∣ n + 1
    · have : (n + 1) % d = 0 := Nat.mod_eq_zero_of_dvd hm
      simp [delayed, List.range'_one, this, hm]
    · have : (n + 1) % d ≠ 0 := fun h => hm (Nat.dvd_of_mod_eq_zero h)
      simp [delayed, List.range'_one, this, hm]

/-- **C71**: so after `n` Q-function updates there were `n / policy_update_delay` policy
updates and as many synchronisations. -/
theorem C71_counts_partial (c : Args) (hk : c.kind = .td3) (hd : 0 < c.policyUpdateDelay) (b : Buf B O A R) (b0 : B)
    (l : List (Call O A R)) (s' : St B O A) (ev : List (Ev O A R)) (h : c.run b (init b0) l = .ok (s', ev)) :
    (learns ev).count .policy = (learns ev).count .q / c.policyUpdateDelay ∧
    (learns ev).count .sync = (learns ev).count .q / c.policyUpdateDelay := by
  have e := C71_delay_partial c hk b b0 l s' ev h
  have := delayed_count c.policyUpdateDelay hd ((learns ev).count .q)
  rw [← e] at this
  exact this

/-- **C71** is false as to `n_times_update`: TD3 behaves the same whatever it is; a due
training step makes one update. -/
theorem C71_violated_n_times (c : Args) (hk : c.kind = .td3) (n : Nat) (b : Buf B O A R) :
    (∀ s l, Args.run { c with nTimesUpdate := n } b s l = c.run b s l) ∧
    ∀ (s s' : St B O A) ev, c.updateIfNecessary b s = .ok (s', ev) →
      (learns ev).count .q =
        if c.replayStartSize ≤ b.len s.buf ∧ s.t % c.updateInterval = 0 then 1 else 0 := by
  constructor
  · have hu : (Args.updater { c with nTimesUpdate := n }) = c.updater := by simp [Args.updater, hk]
    have h0 : ∀ (s : St B O A), (Args.update { c with nTimesUpdate := n } s : Py (_ × List (Ev O A R))) = c.update s :=
      fun s => rfl
    have h1 : ∀ es (s : St B O A), (Args.updates { c with nTimesUpdate := n } es s : Py (_ × List (Ev O A R))) =
        c.updates es s := by
      intro es
      induction es with
      | nil => intro s; rfl
      | cons e es ih => intro s; cases e <;> simp only [Args.updates, h0, ih]
    have h2 : ∀ s : St B O A, Args.updateIfNecessary { c with nTimesUpdate := n } b s = c.updateIfNecessary b s := by
      intro s; simp only [Args.updateIfNecessary, hu, h1]
    have h3 : ∀ inp k i (s : St B O A), Args.observeLoop { c with nTimesUpdate := n } b inp i k s =
        c.observeLoop b inp i k s := by
      intro inp k
      induction k with
      | zero => intro i s; rfl
      | succ k ih =>
        intro i s
        simp only [Args.observeLoop, Args.observeStep, h2, ih, Args.syncIfDue]
    intro s l
    induction l generalizing s with
    | nil => rfl
    | cons x l ih =>
      have : Args.call { c with nTimesUpdate := n } b s x = c.call b s x := by
        cases x with
        | act o r f => simp only [Args.call, Args.actAndTrain, h2, Args.syncIfDue, Args.burning]
        | stop o r d => rfl
        | batchAct os fs => rfl
        | batchObserve inp => simp only [Args.call, h3]
      simp only [Args.run, this, ih]
  · intro s s' ev h
    have := (updateIfNecessary_piece c b s s' ev h).2.2
    simpa [hk] using this

/-- **C78**: in every due training step DDPG makes exactly `n_times_update` updates,
TD3 and SoftActorCritic one, and none otherwise. -/
theorem C78_updates (c : Args) (b : Buf B O A R) (s s' : St B O A) (ev : List (Ev O A R))
    (h : c.updateIfNecessary b s = .ok (s', ev)) :
    (learns ev).count .q =
      if c.replayStartSize ≤ b.len s.buf ∧ s.t % c.updateInterval = 0 then
        (if c.kind = .ddpg then c.nTimesUpdate else 1) else 0 :=
  (updateIfNecessary_piece c b s s' ev h).2.2

/-- **C78**: SoftActorCritic's learning events are complete rounds: Q-functions, policy,
temperature if it is tuned, synchronisation. -/
theorem C78_sac_schedule (c : Args) (hk : c.kind = .sac) (b : Buf B O A R) (b0 : B) (l : List (Call O A R))
    (s' : St B O A) (ev : List (Ev O A R)) (h : c.run b (init b0) l = .ok (s', ev)) :
    learns ev = (List.replicate ((learns ev).count .q)
      ([.q, .policy] ++ (if c.tuneTemperature then [.temperature] else []) ++ [.sync])).flatten :=
  (run_piece c b l _ _ _ h).1.sac hk

/-- **C78**: DDPG updates critic and actor alternately, and synchronises its target networks
exactly at the times `1..T` that are multiples of `target_update_interval`, where `T` is the
number of time steps. -/
theorem C78_ddpg_schedule (c : Args) (hk : c.kind = .ddpg) (b : Buf B O A R) (b0 : B) (l : List (Call O A R))
    (s' : St B O A) (ev : List (Ev O A R)) (h : c.run b (init b0) l = .ok (s', ev)) :
    (learns ev).filter (· ≠ .sync) = (List.replicate ((learns ev).count .q) [.q, .policy]).flatten ∧
    syncTimes ev = (List.range' 1 (ticks l)).filter fun t => t % c.targetUpdateInterval == 0 := by
  obtain ⟨p, ht⟩ := run_piece c b l _ _ _ h
  refine ⟨p.ddpg hk, ?_⟩
  rw [p.ddpgSync hk, ht]
  show List.filter _ (List.range' (0 + 1) (0 + ticks l - 0)) = _
  simp

/-- **C78**: an action is taken from the burn-in function exactly when there is one and the
policy has not been updated yet. -/
theorem C78_burnin (c : Args) (b : Buf B O A R) (b0 : B) (l : List (Call O A R)) (s' : St B O A)
    (ev : List (Ev O A R)) (h : c.run b (init b0) l = .ok (s', ev)) (pre : List (Ev O A R)) (burn : Bool) (a : A)
    (post : List (Ev O A R)) (he : ev = pre ++ .choose burn a :: post) :
    burn = true ↔ c.burnin = true ∧ Learn.policy ∉ learns pre := by
  have := (run_piece c b l _ _ _ h).1.chosen pre burn a post he
  rw [this, Bool.and_eq_true]
  show c.burnin = true ∧ (0 + (learns pre).count .policy == 0) = true ↔ _
  rw [Nat.zero_add, beq_iff_eq, List.count_eq_zero]

/-! ### Recording -/

/-- Arguments with which no modulus is zero. -/
structure Good (c : Args) : Prop where
  interval : 0 < c.updateInterval
  target : 0 < c.targetUpdateInterval
  delay : 0 < c.policyUpdateDelay

/-- The parts of the state that updates leave alone. -/
def SameData (s s' : St B O A) : Prop :=
  s'.t = s.t ∧ s'.buf = s.buf ∧ s'.lastState = s.lastState ∧ s'.lastAction = s.lastAction ∧
    s'.batchLastObs = s.batchLastObs ∧ s'.batchLastAction = s.batchLastAction

theorem SameData.trans {s s' s'' : St B O A} (h : SameData s s') (h' : SameData s' s'') : SameData s s'' := by
  obtain ⟨a, b, c, d, e, f⟩ := h
  obtain ⟨a', b', c', d', e', f'⟩ := h'
  exact ⟨a'.trans a, b'.trans b, c'.trans c, d'.trans d, e'.trans e, f'.trans f⟩

theorem update_ok (c : Args) (hc : Good c) (s : St B O A) :
    ∃ s' ev, (c.update s : Py (_ × List (Ev O A R))) = .ok (s', ev) ∧ SameData s s' ∧ bufCalls ev = [] ∧
      returned ev = [] := by
  have hd := hc.delay
  unfold Args.update
  split
  · exact ⟨_, _, rfl, ⟨rfl, rfl, rfl, rfl, rfl, rfl⟩, rfl, rfl⟩
  · rw [if_neg (by omega)]
    split
    · exact ⟨_, _, rfl, ⟨rfl, rfl, rfl, rfl, rfl, rfl⟩, rfl, rfl⟩
    · exact ⟨_, _, rfl, ⟨rfl, rfl, rfl, rfl, rfl, rfl⟩, rfl, rfl⟩
  · refine ⟨_, _, rfl, ⟨rfl, rfl, rfl, rfl, rfl, rfl⟩, ?_, ?_⟩ <;> split <;> rfl

theorem updates_ok (c : Args) (hc : Good c) : ∀ (es : List UpdEvent) (s : St B O A),
    ∃ s' ev, (c.updates es s : Py (_ × List (Ev O A R))) = .ok (s', ev) ∧ SameData s s' ∧ bufCalls ev = [] ∧
      returned ev = []
  | [], s => ⟨s, [], rfl, ⟨rfl, rfl, rfl, rfl, rfl, rfl⟩, rfl, rfl⟩
  | .update :: es, s => by
    obtain ⟨s1, e1, h1, d1, b1, r1⟩ := update_ok (R := R) c hc s
    obtain ⟨s2, e2, h2, d2, b2, r2⟩ := updates_ok c hc es s1
    refine ⟨s2, e1 ++ e2, ?_, d1.trans d2, by simp [b1, b2], by simp [r1, r2]⟩
    simp [Args.updates, h1, h2, bind, Except.bind, pure, Except.pure]
  | .sample _ :: es, s => updates_ok c hc es s
  | .sampleEpisodes _ :: es, s => updates_ok c hc es s

theorem updateIfNecessary_ok (c : Args) (hc : Good c) (b : Buf B O A R) (s : St B O A) :
    ∃ s' ev, c.updateIfNecessary b s = .ok (s', ev) ∧ SameData s s' ∧ bufCalls ev = [] ∧ returned ev = [] := by
  have : ∃ es, c.updater.updateIfNecessary (b.len s.buf) 0 s.t = .ok es := by
    rcases updater_cases c.updater rfl (b.len s.buf) s.t with ⟨-, h'⟩ | ⟨hz, -⟩ | ⟨-, -, h'⟩
    · exact ⟨_, h'⟩
    · have : c.updateInterval = 0 := hz
      have := hc.interval
      omega
    · exact ⟨_, h'⟩
  obtain ⟨es, he⟩ := this
  obtain ⟨s', ev, h, d, hb, hr⟩ := updates_ok (R := R) c hc es s
  refine ⟨s', ev, ?_, d, hb, hr⟩
  simp [Args.updateIfNecessary, he, h, bind, Except.bind]

theorem syncIfDue_ok (c : Args) (hc : Good c) (s : St B O A) :
    ∃ ev, (c.syncIfDue s : Py (List (Ev O A R))) = .ok ev ∧ bufCalls ev = [] ∧ returned ev = [] := by
  have hd := hc.target
  unfold Args.syncIfDue
  split
  · rw [if_neg (by omega)]
    split
    · exact ⟨_, rfl, rfl, rfl⟩
    · exact ⟨_, rfl, rfl, rfl⟩
  · exact ⟨_, rfl, rfl, rfl⟩

theorem run_append (c : Args) (b : Buf B O A R) : ∀ (l₁ l₂ : List (Call O A R)) (s s₁ s₂ : St B O A) (e₁ e₂),
    c.run b s l₁ = .ok (s₁, e₁) → c.run b s₁ l₂ = .ok (s₂, e₂) → c.run b s (l₁ ++ l₂) = .ok (s₂, e₁ ++ e₂)
  | [], l₂, s, s₁, s₂, e₁, e₂, h1, h2 => by
    simp only [Args.run] at h1
    rw [pair_ok] at h1
    obtain ⟨rfl, rfl⟩ := Prod.mk.inj h1
    simpa using h2
  | x :: l, l₂, s, s₁, s₂, e₁, e₂, h1, h2 => by
    simp only [Args.run] at h1
    obtain ⟨⟨s3, e3⟩, g1, h1⟩ := except_bind_ok.1 h1
    obtain ⟨⟨s4, e4⟩, g2, h1⟩ := except_bind_ok.1 h1
    rw [pair_ok] at h1
    obtain ⟨rfl, rfl⟩ := Prod.mk.inj h1
    have := run_append c b l l₂ _ _ _ _ _ g2 h2
    simp [Args.run, g1, this, bind, Except.bind, pure, Except.pure]

theorem run_one (c : Args) (b : Buf B O A R) (s s' : St B O A) (x : Call O A R) (ev)
    (h : c.call b s x = .ok (s', ev)) : c.run b s [x] = .ok (s', ev) := by
  simp [Args.run, h, bind, Except.bind, pure, Except.pure]

/-- No episode is under way. -/
def Idle (s : St B O A) : Prop := s.lastState = none

/-- The last decision of the current episode. -/
def Mid (s : St B O A) (o : O) (a : A) : Prop := s.lastState = some o ∧ s.lastAction = some a

theorem act_any (c : Args) (hc : Good c) (b : Buf B O A R) (s : St B O A) (t : DQN.Turn (Bool → A) O A R)
    (prev : List (DQN.EnvStep O A R))
    (hs : (Idle s ∧ prev = []) ∨ ∃ o a, Mid s o a ∧ prev = [⟨o, a, t.reward, t.obs, false⟩]) :
    ∃ s' ev a', c.call b s (turnCall t) = .ok (s', ev) ∧ Mid s' t.obs a' ∧ returned ev = [a'] ∧
      bufCalls ev = prev.map (.append 0) := by
  obtain ⟨e1, h1, b1, r1⟩ := syncIfDue_ok (R := R) c hc { s with t := s.t + 1 }
  have : ∃ s2 e2, b.actAppend { s with t := s.t + 1 } t.obs t.reward (t.params (c.burning s)) = .ok (s2, e2) ∧
      bufCalls e2 = prev.map (.append 0) ∧ returned e2 = [] := by
    rcases hs with ⟨h, rfl⟩ | ⟨o, a, ⟨h, h'⟩, rfl⟩
    · refine ⟨{ s with t := s.t + 1 }, [], ?_, rfl, rfl⟩
      simp only [Idle] at h
      simp [Buf.actAppend, h]
    · refine ⟨_, _, (by simp only [Buf.actAppend, h, h', Buf.push]; rfl), rfl, rfl⟩
  obtain ⟨s2, e2, h2, b2, r2⟩ := this
  obtain ⟨s3, e3, h3, ⟨-, -, d1, d2, -, -⟩, b3, r3⟩ := updateIfNecessary_ok c hc b
    { s2 with lastState := some t.obs, lastAction := some (t.params (c.burning s)) }
  refine ⟨s3, .choose (c.burning s) (t.params (c.burning s)) :: (e1 ++ e2 ++ e3 ++ s3.lastAction.toList.map .ret),
    t.params (c.burning s), ?_, ⟨d1, d2⟩, ?_, ?_⟩
  · simp [Args.call, turnCall, Args.actAndTrain, h1, h2, h3, bind, Except.bind, pure, Except.pure]
  · rw [show ∀ (x : Ev O A R) l, x :: l = [x] ++ l from fun _ _ => rfl]
    simp only [returned_append, r1, r2, r3, d2]
    simp [returned]
  · rw [show ∀ (x : Ev O A R) l, x :: l = [x] ++ l from fun _ _ => rfl]
    simp only [bufCalls_append, b1, b2, b3, d2]
    simp [bufCalls]

theorem run_turns (c : Args) (hc : Good c) (b : Buf B O A R) : ∀ (ts : List (DQN.Turn (Bool → A) O A R))
    (s : St B O A) (t0 : DQN.Turn (Bool → A) O A R), Mid s t0.obs t0.action →
    ∃ s' ev, c.run b s (ts.map turnCall) = .ok (s', ev) ∧ (returned ev).length = ts.length ∧
      (∃ o a, Mid s' o a) ∧ (returned ev = ts.map (·.action) →
        bufCalls ev = (DQN.innerSteps (t0 :: ts)).map (.append 0) ∧
        Mid s' ((t0 :: ts).getLast (by simp)).obs ((t0 :: ts).getLast (by simp)).action)
  | [], s, t0, hs => ⟨s, [], rfl, rfl, ⟨_, _, hs⟩, fun _ => ⟨rfl, hs⟩⟩
  | t :: ts, s, t0, hs => by
    obtain ⟨s1, e1, a1, h1, m1, r1, b1⟩ := act_any c hc b s t _ (Or.inr ⟨_, _, hs, rfl⟩)
    obtain ⟨s2, e2, h2, l2, m2, k2⟩ := run_turns c hc b ts s1 { t with action := a1 } m1
    refine ⟨s2, e1 ++ e2, run_append c b [turnCall t] _ s s1 s2 e1 e2 (run_one c b _ _ _ _ h1) h2, ?_, m2, ?_⟩
    · rw [returned_append, r1, List.length_append, l2]; simp [Nat.add_comm]
    · intro hr
      rw [returned_append, r1, List.map_cons, List.singleton_append, List.cons.injEq] at hr
      obtain ⟨rfl, hr⟩ := hr
      obtain ⟨k3, k4⟩ := k2 hr
      refine ⟨?_, ?_⟩
      · rw [bufCalls_append, b1, k3]; simp [DQN.innerSteps]
      · simpa using k4

theorem run_episode (c : Args) (hc : Good c) (b : Buf B O A R) (e : DQN.Episode (Bool → A) O A R) (s : St B O A)
    (hs : Idle s) :
    ∃ s' ev, c.run b s (episodeCalls e) = .ok (s', ev) ∧ Idle s' ∧ (returned ev).length = e.turns.length ∧
      (returned ev = e.turns.map (·.action) →
        bufCalls ev = e.steps.map (.append 0) ++ [.stop 0]) := by
  obtain ⟨s1, e1, a1, h1, m1, r1, b1⟩ := act_any c hc b s e.first _ (Or.inl ⟨hs, rfl⟩)
  obtain ⟨s2, e2, h2, l2, ⟨o, a, m2⟩, k2⟩ := run_turns c hc b e.rest s1 { e.first with action := a1 } m1
  have h3 : c.call b s2 (.stop e.finalObs e.finalReward e.done) =
      .ok ({ s2 with lastState := none, lastAction := none,
                     buf := b.stop (b.append s2.buf 0 ⟨o, a, e.finalReward, e.finalObs, some a, e.done⟩) 0 },
        [.append 0 ⟨o, a, e.finalReward, e.finalObs, some a, e.done⟩, .stopEpisode 0]) := by
    simp [Args.call, Buf.stopEpisodeAndTrain, m2.1, m2.2, Buf.push, Buf.halt]
  refine ⟨{ s2 with lastState := none, lastAction := none,
                    buf := b.stop (b.append s2.buf 0 ⟨o, a, e.finalReward, e.finalObs, some a, e.done⟩) 0 },
    (e1 ++ e2) ++ [.append 0 ⟨o, a, e.finalReward, e.finalObs, some a, e.done⟩, .stopEpisode 0], ?_, rfl, ?_, ?_⟩
  · have h12 := run_append c b [turnCall e.first] _ s s1 s2 e1 e2 (run_one c b _ _ _ _ h1) h2
    have := run_append c b _ _ s s2 _ _ _ h12 (run_one c b _ _ _ _ h3)
    simpa [episodeCalls, DQN.Episode.turns] using this
  · simp only [returned_append, r1, List.length_append, l2]
    simp [DQN.Episode.turns, returned, Nat.add_comm]
  · intro hr
    have e3 : returned ([.append 0 ⟨o, a, e.finalReward, e.finalObs, some a, e.done⟩, .stopEpisode 0] :
      List (Ev O A R)) = [] := rfl
    rw [returned_append, returned_append, r1, e3, List.append_nil, DQN.Episode.turns, List.map_cons,
      List.singleton_append, List.cons.injEq] at hr
    obtain ⟨rfl, hr⟩ := hr
    obtain ⟨k3, k4⟩ := k2 hr
    have ho : o = ((e.first :: e.rest).getLast (by simp)).obs := by
      have := m2.1.symm.trans k4.1
      exact Option.some.inj this
    have ha : a = ((e.first :: e.rest).getLast (by simp)).action := by
      have := m2.2.symm.trans k4.2
      exact Option.some.inj this
    rw [bufCalls_append, bufCalls_append, b1, k3, DQN.steps_eq]
    simp [bufCalls, DQN.Episode.turns, ho, ha]

theorem run_partial (c : Args) (hc : Good c) (b : Buf B O A R) (ts : List (DQN.Turn (Bool → A) O A R))
    (s : St B O A) (hs : Idle s) :
    ∃ s' ev, c.run b s (ts.map turnCall) = .ok (s', ev) ∧ (returned ev = ts.map (·.action) →
      bufCalls ev = (DQN.innerSteps ts).map (.append 0)) := by
  cases ts with
  | nil => exact ⟨s, [], rfl, fun _ => rfl⟩
  | cons t ts =>
    obtain ⟨s1, e1, a1, h1, m1, r1, b1⟩ := act_any c hc b s t _ (Or.inl ⟨hs, rfl⟩)
    obtain ⟨s2, e2, h2, -, -, k2⟩ := run_turns c hc b ts s1 { t with action := a1 } m1
    refine ⟨s2, e1 ++ e2, run_append c b [turnCall t] _ s s1 s2 e1 e2 (run_one c b _ _ _ _ h1) h2, ?_⟩
    intro hr
    rw [returned_append, r1, List.map_cons, List.singleton_append, List.cons.injEq] at hr
    obtain ⟨rfl, hr⟩ := hr
    rw [bufCalls_append, b1, (k2 hr).1]
    rfl

theorem run_history (c : Args) (hc : Good c) (b : Buf B O A R) : ∀ (eps : List (DQN.Episode (Bool → A) O A R))
    (s : St B O A), Idle s →
    ∃ s' ev, c.run b s (eps.flatMap episodeCalls) = .ok (s', ev) ∧ Idle s' ∧
      (returned ev).length = (eps.flatMap fun e => e.turns.map (·.action)).length ∧
      (returned ev = eps.flatMap (fun e => e.turns.map (·.action)) →
        bufCalls ev = eps.flatMap (fun e => e.steps.map (.append 0) ++ [.stop 0]))
  | [], s, hs => ⟨s, [], rfl, hs, rfl, fun _ => rfl⟩
  | e :: eps, s, hs => by
    obtain ⟨s1, e1, h1, i1, l1, k1⟩ := run_episode c hc b e s hs
    obtain ⟨s2, e2, h2, i2, l2, k2⟩ := run_history c hc b eps s1 i1
    refine ⟨s2, e1 ++ e2, ?_, i2, ?_, ?_⟩
    · rw [List.flatMap_cons]; exact run_append c b _ _ s s1 s2 e1 e2 h1 h2
    · rw [returned_append, List.length_append, l1, l2, List.flatMap_cons, List.length_append, List.length_map]
    · intro hr
      rw [returned_append, List.flatMap_cons] at hr
      obtain ⟨g1, g2⟩ := List.append_inj hr (by rw [l1, List.length_map])
      rw [bufCalls_append, k1 g1, k2 g2, List.flatMap_cons]

/-- **C78**, single interface: in every history of complete episodes followed by an unfinished
one, no call raises, and if the actions of the history are those that the agent returned,
the replay buffer receives, in order, exactly one `append` per environment step with the
right contents, and a `stop_current_episode` exactly after the last step of each episode. -/
theorem C78_recorded_single (c : Args) (hc : Good c) (b : Buf B O A R) (b0 : B)
    (eps : List (DQN.Episode (Bool → A) O A R)) (cur : List (DQN.Turn (Bool → A) O A R)) :
    ∃ s' ev, c.run b (init b0) (eps.flatMap episodeCalls ++ cur.map turnCall) = .ok (s', ev) ∧
      (returned ev = eps.flatMap (fun e => e.turns.map (·.action)) ++ cur.map (·.action) →
        bufCalls ev = eps.flatMap (fun e => e.steps.map (.append 0) ++ [.stop 0]) ++
          (DQN.innerSteps cur).map (.append 0)) := by
  obtain ⟨s1, e1, h1, i1, l1, k1⟩ := run_history c hc b eps (init b0) rfl
  obtain ⟨s2, e2, h2, k2⟩ := run_partial c hc b cur s1 i1
  refine ⟨s2, e1 ++ e2, run_append c b _ _ _ s1 s2 e1 e2 h1 h2, fun hr => ?_⟩
  rw [returned_append] at hr
  obtain ⟨g1, g2⟩ := List.append_inj hr l1
  rw [bufCalls_append, k1 g1, k2 g2]

/-- The arguments of `batch_observe_and_train` in a round. -/
abbrev obsOf (r : List (DQN.EnvRound (Bool → A) O A R)) : Obs O R :=
  ⟨r.map (·.nextObs), r.map (·.reward), r.map (·.done), r.map (·.reset)⟩

theorem observeRecord_ok (b : Buf B O A R) (r : List (DQN.EnvRound (Bool → A) O A R)) (i : Nat)
    (e : DQN.EnvRound (Bool → A) O A R) (he : r[i]? = some e) (s : St B O A)
    (ho : s.batchLastObs[i]? = some (some e.obs)) (ha : s.batchLastAction[i]? = some e.action) :
    ∃ s' ev, b.observeRecord (obsOf r) i s = .ok (s', ev) ∧ bufCalls ev = e.sends i ∧ returned ev = [] ∧
      (∀ j, i < j → s'.batchLastObs[j]? = s.batchLastObs[j]?) ∧ s'.batchLastAction = s.batchLastAction := by
  simp only [Buf.observeRecord, Buf.observeAppend, DQN.idx, ho, ha, List.getElem?_map, he, Option.map_some,
    bind, Except.bind, pure, Except.pure, Buf.push, Buf.halt]
  by_cases hd : (e.reset || e.done) = true
  · rw [if_pos hd]
    refine ⟨_, _, rfl, ?_, rfl, ?_, rfl⟩
    · rw [Bool.or_comm] at hd
      simp only [DQN.EnvRound.sends, if_pos hd]
      rfl
    · intro j hj; exact List.getElem?_set_ne (by omega)
  · rw [if_neg hd]
    refine ⟨_, _, rfl, ?_, rfl, fun _ _ => rfl, rfl⟩
    rw [Bool.or_comm] at hd
    simp only [DQN.EnvRound.sends, if_neg hd]
    rfl

theorem observeLoop_ok (c : Args) (hc : Good c) (b : Buf B O A R) (r : List (DQN.EnvRound (Bool → A) O A R)) :
    ∀ (suf pre : List (DQN.EnvRound (Bool → A) O A R)) (s : St B O A), r = pre ++ suf →
    (∀ (j : Nat) e, suf[j]? = some e → s.batchLastObs[pre.length + j]? = some (some e.obs)) →
    (∀ (j : Nat) e, suf[j]? = some e → s.batchLastAction[pre.length + j]? = some e.action) →
    ∃ s' ev, c.observeLoop b (obsOf r) pre.length suf.length s = .ok (s', ev) ∧ returned ev = [] ∧
      bufCalls ev = (suf.zipIdx pre.length).flatMap (fun p => p.1.sends p.2) := by
  intro suf
  induction suf with
  | nil => intro pre s _ _ _; exact ⟨s, [], rfl, rfl, rfl⟩
  | cons e suf ih =>
    intro pre s hr ho ha
    have he : r[pre.length]? = some e := by simp [hr]
    obtain ⟨e1, h1, b1, r1⟩ := syncIfDue_ok (R := R) c hc { s with t := s.t + 1 }
    obtain ⟨s2, e2, h2, b2, r2, k2, k3⟩ := observeRecord_ok b r pre.length e he { s with t := s.t + 1 }
      (by simpa using ho 0 e rfl) (by simpa using ha 0 e rfl)
    obtain ⟨s3, e3, h3, ⟨-, -, -, -, d1, d2⟩, b3, r3⟩ := updateIfNecessary_ok c hc b s2
    obtain ⟨s4, e4, h4, r4, b4⟩ := ih (pre ++ [e]) s3 (by simp [hr])
      (by
        intro j e' hj
        have := ho (j + 1) e' (by simpa using hj)
        rw [List.length_append, List.length_singleton, d1, k2 _ (by omega)]
        simpa [Nat.add_assoc, Nat.add_comm 1 j] using this)
      (by
        intro j e' hj
        have := ha (j + 1) e' (by simpa using hj)
        rw [List.length_append, List.length_singleton, d2, k3]
        simpa [Nat.add_assoc, Nat.add_comm 1 j] using this)
    refine ⟨s4, (e1 ++ e2 ++ e3) ++ e4, ?_, by simp [r1, r2, r3, r4], ?_⟩
    · rw [List.length_append, List.length_singleton] at h4
      simp [Args.observeLoop, Args.observeStep, h1, h2, h3, h4, bind, Except.bind, pure, Except.pure]
    · simp [b1, b2, b3, b4, List.zipIdx_cons]

/-- **C78**, batch interface: in every history of rounds with any number of environments no
call raises, and if the actions of the history are those that the agent returned, the replay
buffer receives, round by round and environment by environment, exactly one `append` for
each environment step with the right contents, followed by `stop_current_episode` of that
environment exactly when its episode ended (`done` or `reset`). -/
theorem C78_recorded_batch (c : Args) (hc : Good c) (b : Buf B O A R) :
    ∀ (rounds : List (List (DQN.EnvRound (Bool → A) O A R))) (s : St B O A),
    ∃ s' ev, c.run b s (rounds.flatMap roundCalls) = .ok (s', ev) ∧
      (returned ev).length = (rounds.flatMap fun r => r.map (·.action)).length ∧
      (returned ev = rounds.flatMap (fun r => r.map (·.action)) →
        bufCalls ev = rounds.flatMap (fun r => r.zipIdx.flatMap (fun p => p.1.sends p.2)))
  | [], s => ⟨s, [], rfl, rfl, fun _ => rfl⟩
  | r :: rounds, s => by
    -- whatever is returned, the loop runs
    let acts := r.map fun e => e.params (c.burning s)
    let r' : List (DQN.EnvRound (Bool → A) O A R) := r.map fun e => { e with action := e.params (c.burning s) }
    have hobs : obsOf r' = obsOf r := by simp [obsOf, r']
    obtain ⟨s1, e1, h1, r1, b1⟩ := observeLoop_ok c hc b r' r' []
      (c.batchActAndTrain (R := R) s (r.map (·.obs)) (r.map (·.params))).1 rfl
      (by
        intro j e hj
        simp only [r', List.getElem?_map, Option.map_eq_some_iff] at hj
        obtain ⟨e0, h0, rfl⟩ := hj
        simp [Args.batchActAndTrain, h0])
      (by
        intro j e hj
        simp only [r', List.getElem?_map, Option.map_eq_some_iff] at hj
        obtain ⟨e0, h0, rfl⟩ := hj
        simp [Args.batchActAndTrain, h0])
    rw [hobs] at h1
    obtain ⟨s2, e2, h2, l2, k2⟩ := C78_recorded_batch c hc b rounds s1
    have hev : returned (c.batchActAndTrain (R := R) s (r.map (·.obs)) (r.map (·.params))).2 = acts := by
      simp [Args.batchActAndTrain, returned, acts, List.filterMap_map, Function.comp_def]
    have hbev : bufCalls (c.batchActAndTrain (R := R) s (r.map (·.obs)) (r.map (·.params))).2 = [] := by
      simp [Args.batchActAndTrain, bufCalls]
    refine ⟨s2, ((c.batchActAndTrain s (r.map (·.obs)) (r.map (·.params))).2 ++ e1) ++ e2, ?_, ?_, ?_⟩
    · rw [List.flatMap_cons]
      refine run_append c b _ _ s s1 s2 _ e2 ?_ h2
      have hlen : (obsOf r).obs.length = r'.length := by simp [obsOf, r']
      simp only [List.length_nil] at h1
      simp only [roundCalls, Args.run, Args.call, bind, Except.bind, pure, Except.pure]
      have : c.observeLoop b (obsOf r) 0 (obsOf r).obs.length
        (c.batchActAndTrain (R := R) s (r.map (·.obs)) (r.map (·.params))).1 = .ok (s1, e1) := by
        rw [hlen]; exact h1
      rw [this]
      simp
    · simp only [returned_append, hev, r1, List.length_append, l2, List.flatMap_cons]
      simp [acts]
    · intro hr
      simp only [returned_append, hev, r1, List.append_nil, List.flatMap_cons] at hr
      obtain ⟨g1, g2⟩ := List.append_inj hr (by simp [acts])
      have hrr : r' = r := by
        have : ∀ e ∈ r, e.params (c.burning s) = e.action := by
          simpa [acts, List.map_inj_left] using g1
        simp only [r']
        conv_rhs => rw [← List.map_id r]
        apply List.map_congr_left
        intro e he
        rw [this e he]; rfl
      rw [bufCalls_append, bufCalls_append, hbev, b1, k2 g2, List.flatMap_cons, hrr]
      rfl

/-! ### The contents of the buffer -/

theorem bufferAfter_append (b : Buf B O A R) (x : B) (l l' : List (Ev O A R)) :
    bufferAfter b x (l ++ l') = bufferAfter b (bufferAfter b x l) l' := by
  simp [bufferAfter]

theorem bufferAfter_quiet (b : Buf B O A R) (x : B) (l : List (Ev O A R)) (h : bufCalls l = []) : bufferAfter b x l = x := by
  induction l generalizing x with
  | nil => rfl
  | cons e l ih => cases e <;> first | exact ih x h | cases h

theorem update_buf (c : Args) (s s' : St B O A) (ev : List (Ev O A R)) (h : c.update s = .ok (s', ev)) : s'.buf = s.buf ∧ bufCalls ev = [] := by
  unfold Args.update at h
  cases hk : c.kind <;> simp only [hk] at h
  · injection h with h; injection h with h1 h2; subst h1 h2; exact ⟨rfl, rfl⟩
  · split at h
    · cases h
    · split at h <;> (injection h with h; injection h with h1 h2; subst h1 h2; exact ⟨rfl, rfl⟩)
  · injection h with h; injection h with h1 h2; subst h1 h2
    refine ⟨rfl, ?_⟩
    cases c.tuneTemperature <;> rfl

theorem updates_buf (c : Args) : ∀ (es : List UpdEvent) (s s' : St B O A) (ev : List (Ev O A R)), c.updates es s = .ok (s', ev) →
    s'.buf = s.buf ∧ bufCalls ev = [] := by
  intro es
  induction es with
  | nil => intro s s' ev h; injection h with h; injection h with h1 h2; subst h1 h2; exact ⟨rfl, rfl⟩
  | cons e es ih =>
    intro s s' ev h
    cases e <;> simp only [Args.updates] at h <;> try exact ih s s' ev h
    obtain ⟨⟨s1, e1⟩, h1, h⟩ := except_bind_ok.1 h
    obtain ⟨⟨s2, e2⟩, h2, h⟩ := except_bind_ok.1 h
    simp only [pure, Except.pure, Except.ok.injEq, Prod.mk.injEq] at h
    obtain ⟨rfl, rfl⟩ := h
    have a := update_buf c s s1 e1 h1
    have b := ih s1 s2 e2 h2
    exact ⟨by rw [b.1, a.1], by rw [bufCalls_append, a.2, b.2]; rfl⟩

theorem updateIf_buf (c : Args) (b : Buf B O A R) (s s' : St B O A) (ev : List (Ev O A R)) (h : c.updateIfNecessary b s = .ok (s', ev)) :
    s'.buf = s.buf ∧ bufCalls ev = [] := by
  obtain ⟨es, -, h⟩ := except_bind_ok.1 h
  exact updates_buf c es s s' ev h

theorem syncIf_buf (c : Args) (s : St B O A) (ev : List (Ev O A R)) (h : c.syncIfDue s = .ok ev) : bufCalls ev = [] := by
  unfold Args.syncIfDue at h
  repeat' split at h
  all_goals first | (injection h with h; subst h; rfl) | cases h

theorem actAppend_buf (b : Buf B O A R) (s s' : St B O A) (o : O) (r : R) (a : A) (ev : List (Ev O A R)) (h : b.actAppend s o r a = .ok (s', ev)) :
    s'.buf = bufferAfter b s.buf ev := by
  unfold Buf.actAppend at h
  split at h
  · injection h with h; injection h with h1 h2; subst h1 h2; rfl
  · cases h
  · injection h with h; injection h with h1 h2; subst h1 h2; rfl

theorem observeStep_buf (c : Args) (b : Buf B O A R) (inp : Obs O R) (i : Nat) (s s' : St B O A) (ev : List (Ev O A R))
    (h : c.observeStep b inp i s = .ok (s', ev)) : s'.buf = bufferAfter b s.buf ev := by
  unfold Args.observeStep at h
  obtain ⟨e1, h1, h⟩ := except_bind_ok.1 h
  obtain ⟨⟨s2, e2⟩, h2, h⟩ := except_bind_ok.1 h
  obtain ⟨⟨s3, e3⟩, h3, h⟩ := except_bind_ok.1 h
  simp only [pure, Except.pure, Except.ok.injEq, Prod.mk.injEq] at h
  obtain ⟨rfl, rfl⟩ := h
  have g3 := updateIf_buf c b s2 s3 e3 h3
  rw [bufferAfter_append, bufferAfter_append, bufferAfter_quiet b _ e1 (syncIf_buf c _ e1 h1), bufferAfter_quiet b _ e3 g3.2, g3.1]
  unfold Buf.observeRecord at h2
  obtain ⟨lo, -, h2⟩ := except_bind_ok.1 h2
  cases lo with
  | none => injection h2 with h2; injection h2 with a1 a2; subst a1 a2; rfl
  | some o =>
    simp only [Buf.observeAppend] at h2
    obtain ⟨_, -, h2⟩ := except_bind_ok.1 h2
    obtain ⟨_, -, h2⟩ := except_bind_ok.1 h2
    obtain ⟨_, -, h2⟩ := except_bind_ok.1 h2
    obtain ⟨_, -, h2⟩ := except_bind_ok.1 h2
    obtain ⟨_, -, h2⟩ := except_bind_ok.1 h2
    split at h2 <;> (injection h2 with h2; injection h2 with a1 a2; subst a1 a2; rfl)

theorem observeLoop_buf (c : Args) (b : Buf B O A R) (inp : Obs O R) (k : Nat) : ∀ (i : Nat) (s s' : St B O A) (ev : List (Ev O A R)),
    c.observeLoop b inp i k s = .ok (s', ev) → s'.buf = bufferAfter b s.buf ev := by
  induction k with
  | zero => intro i s s' ev h; injection h with h; injection h with a1 a2; subst a1 a2; rfl
  | succ k ih =>
    intro i s s' ev h
    unfold Args.observeLoop at h
    obtain ⟨⟨s1, e1⟩, h1, h⟩ := except_bind_ok.1 h
    obtain ⟨⟨s2, e2⟩, h2, h⟩ := except_bind_ok.1 h
    simp only [pure, Except.pure, Except.ok.injEq, Prod.mk.injEq] at h
    obtain ⟨rfl, rfl⟩ := h
    rw [bufferAfter_append, ← observeStep_buf c b inp i s s1 e1 h1, ih (i + 1) s1 s2 e2 h2]

theorem call_buf (c : Args) (b : Buf B O A R) (x : Call O A R) (s s' : St B O A) (ev : List (Ev O A R)) (h : c.call b s x = .ok (s', ev)) :
    s'.buf = bufferAfter b s.buf ev := by
  cases x with
  | act o r f =>
    simp only [Args.call, Args.actAndTrain] at h
    obtain ⟨e1, h1, h⟩ := except_bind_ok.1 h
    obtain ⟨⟨s2, e2⟩, h2, h⟩ := except_bind_ok.1 h
    obtain ⟨⟨s3, e3⟩, h3, h⟩ := except_bind_ok.1 h
    simp only [pure, Except.pure, Except.ok.injEq, Prod.mk.injEq] at h
    obtain ⟨rfl, rfl⟩ := h
    have g3 := updateIf_buf c b _ s3 e3 h3
    have g2 := actAppend_buf b _ s2 o r _ e2 h2
    rw [← List.singleton_append, bufferAfter_append, bufferAfter_append, bufferAfter_append, bufferAfter_append,
      bufferAfter_quiet b _ _ (syncIf_buf c _ e1 h1), bufferAfter_quiet b _ e3 g3.2, g3.1]
    rw [bufferAfter_quiet b _ (List.map _ _) (by cases s3.lastAction <;> rfl)]
    exact g2
  | stop o r d =>
    simp only [Args.call, Buf.stopEpisodeAndTrain] at h
    split at h
    · injection h with h; injection h with a1 a2; subst a1 a2; rfl
    · cases h
  | batchAct os fs =>
    injection h with h
    have a1 := congrArg Prod.fst h
    have a2 := congrArg Prod.snd h
    simp only at a1 a2
    subst a1 a2
    refine (bufferAfter_quiet b _ _ ?_).symm
    simp [Args.batchActAndTrain, bufCalls]
  | batchObserve inp => exact observeLoop_buf c b inp _ 0 s s' ev h

/-- **C78**: whatever methods are called, the contents of the replay buffer are what the reported `append` and `stop_current_episode` calls, in this
order, make of the buffer given to the constructor; updates do not change them. -/
theorem C78_buffer (c : Args) (b : Buf B O A R) (b0 : B) (l : List (Call O A R)) (s' : St B O A) (ev : List (Ev O A R))
    (h : c.run b (init b0) l = .ok (s', ev)) : s'.buf = bufferAfter b b0 ev := by
  have key : ∀ (l : List (Call O A R)) (s s' : St B O A) (ev : List (Ev O A R)), c.run b s l = .ok (s', ev) → s'.buf = bufferAfter b s.buf ev := by
    intro l
    induction l with
    | nil => intro s s' ev h; injection h with h; injection h with a1 a2; subst a1 a2; rfl
    | cons x l ih =>
      intro s s' ev h
      unfold Args.run at h
      obtain ⟨⟨s1, e1⟩, h1, h⟩ := except_bind_ok.1 h
      obtain ⟨⟨s2, e2⟩, h2, h⟩ := except_bind_ok.1 h
      simp only [pure, Except.pure, Except.ok.injEq, Prod.mk.injEq] at h
      obtain ⟨rfl, rfl⟩ := h
      rw [bufferAfter_append, ← call_buf c b x s s1 e1 h1, ih s1 s2 e2 h2]
  exact key l (init b0) s' ev h

/-! ### Non-vacuity -/

/-- TD3 with a delay of 2 and burn-in, a buffer that counts. -/
def exTd3 : Args := ⟨.td3, 1, 1, 1, 3, 1, 2, true, false⟩
def exSac : Args := ⟨.sac, 1, 1, 2, 1, 1, 1, true, true⟩
def exDdpg : Args := ⟨.ddpg, 1, 1, 2, 2, 3, 1, false, false⟩
def exBuf : Buf Nat Nat Nat Int := ⟨fun n _ _ => n + 1, fun n _ => n, id⟩
/-- Four decisions; the burn-in function chooses 100, the policy 7. -/
def exEp (as : List Nat) : DQN.Episode (Bool → Nat) Nat Nat Int :=
  { first := ⟨0, 0, fun b => if b then 100 else 7, as[0]!⟩,
    rest := [⟨1, 1, fun b => if b then 100 else 7, as[1]!⟩, ⟨2, 2, fun b => if b then 100 else 7, as[2]!⟩,
      ⟨3, 3, fun b => if b then 100 else 7, as[3]!⟩],
    finalObs := 4, finalReward := 4, done := true }
def exRun (c : Args) (as : List Nat) : List (Ev Nat Nat Int) :=
  ((c.run exBuf (init 0) (episodeCalls (exEp as))).toOption.map (·.2)).getD []

example : Good exTd3 ∧ Good exSac ∧ Good exDdpg := by refine ⟨?_, ?_, ?_⟩ <;> constructor <;> decide
example : learns (exRun exTd3 [0, 0, 0, 0]) = [.q, .q, .policy, .sync, .q] := by decide
example : returned (exRun exTd3 [0, 0, 0, 0]) = [100, 100, 100, 7] := by decide
example : returned (exRun exTd3 [100, 100, 100, 7]) = (exEp [100, 100, 100, 7]).turns.map (·.action) := by decide
example : learns (exRun exSac [0, 0, 0, 0]) = [.q, .policy, .temperature, .sync, .q, .policy, .temperature, .sync] := by
  decide
example : learns (exRun exDdpg [0, 0, 0, 0]) = [.q, .policy, .q, .policy, .sync, .q, .policy, .q, .policy] := by decide
example : syncTimes (exRun exDdpg [0, 0, 0, 0]) = [3] := by decide
example : (bufCalls (exRun exDdpg [7, 7, 7, 7])).length = 5 := by decide
example : ∃ s' ev, exDdpg.updateIfNecessary exBuf ({ init 5 with t := 4 } : St Nat Nat Nat) = .ok (s', ev) ∧
    (learns ev).count .q = 2 := ⟨_, _, rfl, by decide⟩

end Verif.ActorCritic
