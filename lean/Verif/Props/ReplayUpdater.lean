import Verif.Model.ReplayUpdater
set_option autoImplicit false

/-! # C17: `ReplayUpdater` -/

namespace Verif
open UpdEvent

theorem UpdaterCfg.loop_count (c : UpdaterCfg) (k : Nat) : (c.loop k).count .update = k := by
  induction k with
  | zero => rfl
  | succ k ih =>
    unfold loop
    rw [List.count_append, ih]
    cases c.episodic <;> simp <;> omega

theorem UpdaterCfg.loop_requests (c : UpdaterCfg) (k : Nat) : ∀ ev ∈ c.loop k,
    ev = .update ∨ (c.episodic = false ∧ ev = .sample c.batchsize) ∨
      (c.episodic = true ∧ ev = .sampleEpisodes c.batchsize) := by
  induction k with
  | zero => simp [loop]
  | succ k ih =>
    intro ev hev
    unfold loop at hev
    rcases List.mem_append.mp hev with h | h
    · cases he : c.episodic <;> simp [he] at h <;> rcases h with rfl | rfl <;> simp
    · exact ih ev h

/-- C17, the schedule: with a positive `update_interval`, a call performs
exactly `n_times_update` updates when the buffer is large enough (in
transitions, and for episodic updates also in episodes) and the iteration is a
multiple of the interval, and none otherwise; it never raises. -/
theorem C17_schedule (c : UpdaterCfg) (hi : 0 < c.interval) (len nEp : Nat) (t : Int) :
    ∃ evs, c.updateIfNecessary len nEp t = .ok evs ∧
      evs.count .update =
        if c.startSize ≤ len ∧ (c.episodic = true → c.batchsize ≤ nEp) ∧ (c.interval : Int) ∣ t
        then c.nTimes else 0 := by
  unfold UpdaterCfg.updateIfNecessary
  by_cases h1 : len < c.startSize
  · exact ⟨[], by rw [if_pos h1], by rw [if_neg (by omega)]; rfl⟩
  · rw [if_neg h1]
    by_cases h2 : (c.episodic && nEp < c.batchsize) = true
    · refine ⟨[], by rw [if_pos h2], ?_⟩
      simp only [Bool.and_eq_true, decide_eq_true_eq] at h2
      rw [if_neg (by rintro ⟨_, h, _⟩; have := h h2.1; omega)]; rfl
    · rw [if_neg h2, if_neg (by omega)]
      simp only [Bool.and_eq_true, decide_eq_true_eq] at h2
      by_cases h3 : t % (c.interval : Int) = 0
      · refine ⟨c.loop c.nTimes, by rw [if_neg (by simpa using h3)], ?_⟩
        rw [UpdaterCfg.loop_count, if_pos ⟨by omega, fun he =>
          Nat.not_lt.mp (fun hc => h2 ⟨he, hc⟩), Int.dvd_of_emod_eq_zero h3⟩]
      · refine ⟨[], by rw [if_pos h3], ?_⟩
        rw [if_neg (by rintro ⟨_, _, h⟩; exact h3 (Int.emod_eq_zero_of_dvd h))]; rfl

/-- C17, requests: an updater that its constructor accepted never asks for more
transitions or episodes than the buffer holds. -/
theorem C17_never_oversamples (c : UpdaterCfg) (hc : c.mk? = .ok c) (len nEp : Nat) (t : Int)
    (evs : List UpdEvent) (h : c.updateIfNecessary len nEp t = .ok evs) (n : Nat) :
    (.sample n ∈ evs → n ≤ len) ∧ (.sampleEpisodes n ∈ evs → n ≤ nEp) := by
  have hb : c.batchsize ≤ c.startSize := by
    unfold UpdaterCfg.mk? at hc
    split at hc
    · assumption
    · cases hc
  unfold UpdaterCfg.updateIfNecessary at h
  split at h
  · cases h; simp
  · rename_i h1
    split at h
    · cases h; simp
    · rename_i h2
      split at h
      · cases h
      · split at h
        · cases h; simp
        · cases h
          constructor
          · intro hm
            rcases c.loop_requests _ _ hm with h | ⟨_, h⟩ | ⟨_, h⟩ <;> cases h
            omega
          · intro hm
            rcases c.loop_requests _ _ hm with h | ⟨_, h⟩ | ⟨he, h⟩ <;> cases h
            simp only [he, Bool.true_and, decide_eq_true_eq] at h2
            omega

/-- C17, pairing: every update is preceded by its own request. -/
theorem C17_one_request_per_update (c : UpdaterCfg) (len nEp : Nat) (t : Int)
    (evs : List UpdEvent) (h : c.updateIfNecessary len nEp t = .ok evs) :
    ∃ k, evs = (List.replicate k
      [if c.episodic then .sampleEpisodes c.batchsize else .sample c.batchsize, .update]).flatten := by
  have hloop : ∀ k, c.loop k = (List.replicate k
      [if c.episodic then .sampleEpisodes c.batchsize else .sample c.batchsize, .update]).flatten := by
    intro k
    induction k with
    | zero => rfl
    | succ k ih =>
      rw [List.replicate_succ, List.flatten_cons, ← ih, UpdaterCfg.loop]
      cases c.episodic <;> rfl
  unfold UpdaterCfg.updateIfNecessary at h
  split at h
  · cases h; exact ⟨0, rfl⟩
  · split at h
    · cases h; exact ⟨0, rfl⟩
    · split at h
      · cases h
      · split at h
        · cases h; exact ⟨0, rfl⟩
        · cases h; exact ⟨_, hloop _⟩

example : (⟨2, false, 2, 4, 3⟩ : UpdaterCfg).mk? = .ok ⟨2, false, 2, 4, 3⟩ ∧
    (⟨2, false, 2, 4, 3⟩ : UpdaterCfg).updateIfNecessary 4 0 6
      = .ok [.sample 2, .update, .sample 2, .update] ∧
    (⟨2, false, 2, 4, 3⟩ : UpdaterCfg).updateIfNecessary 3 0 6 = .ok [] ∧
    (⟨2, true, 1, 4, 3⟩ : UpdaterCfg).updateIfNecessary 9 1 6 = .ok [] ∧
    (⟨2, true, 1, 4, 3⟩ : UpdaterCfg).updateIfNecessary 9 2 6
      = .ok [.sampleEpisodes 2, .update] := ⟨rfl, rfl, rfl, rfl, rfl⟩

end Verif
