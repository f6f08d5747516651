import Mathlib.Algebra.Field.Rat
import Mathlib.Algebra.Order.Ring.Rat
import Verif.Proofs.PrioritizedEpisodic
set_option autoImplicit false

/-! # C15: `PrioritizedEpisodicReplayBuffer` -/

namespace Verif
open NStep (Op)
open EpisodeList
variable {E T K : Type} [DecidableEq E] [Field K] [LinearOrder K] [IsStrictOrderedRing K]

/-- C15, without loading.  After every history of feeding calls and sampling
rounds (with a positive default priority, if one is given) the stored episodes
are the most recent finished ones that fit into the capacity, the free capacity
is the capacity minus their number of transitions, the transition view holds at
most `capacity` transitions (the newest ones), and the next feeding call does
not raise.
Missing from the full C15: the same after `load`, for which it is false
(`C15_violated_after_load`). -/
theorem C15_capacity_partial (term : T → Bool) (cap : Option Nat) (wait : Bool)
    (prio : Option (List T → K)) (hprio : ∀ f, prio = some f → ∀ ep, 0 < f ep)
    (b : PEpi E T K) (ops : List (Op E T)) (h : PEpi.Reach term cap wait prio b ops) :
    KeptBy cap (EpisodeList.of term ops).1 b.episodic.data ∧
    b.capacityLeft = cap.map (fun c => (c : Int) - total b.episodic.data) ∧
    (∀ c, cap = some c → total b.episodic.data ≤ c ∧ b.memory.len ≤ c) ∧
    b.memory.iter = BoundedList.newest cap (EpisodeList.of term ops).1.flatten ∧
    (∀ op, ∃ b', b.step term op = .ok b') := by
  have hr := PEpi.reach_rep hprio h
  have hk := EpiBuf.keep_keptBy cap (EpisodeList.of term ops).1
  refine ⟨by rw [hr.data]; exact hk, by rw [hr.data]; exact hr.left, ?_, hr.mem, ?_⟩
  · rintro c rfl
    refine ⟨?_, ?_⟩
    · rw [hr.data]; exact Kept.fits hk
    · rw [RAQ.len_eq, hr.mem]; exact RAQ.newest_length c _
  · intro op
    obtain ⟨b', h1, _⟩ := PEpi.step_rep term cap wait prio hprio b _ hr op
    exact ⟨b', h1⟩

-- a reachable buffer after an eviction
example : ∃ b : PEpi Unit Nat ℚ, PEpi.Reach (· == 9) (some 2) true none b
    [.append () 1, .append () 9, .append () 5, .stop ()] ∧ b.episodic.data = [[5]] ∧
    b.capacityLeft = some 1 := by
  obtain ⟨b, hb⟩ : ∃ b : PEpi Unit Nat ℚ, PEpi.Reach (· == 9) (some 2) true none b
      [.append () 1, .append () 9, .append () 5, .stop ()] := by
    obtain ⟨b1, e1⟩ := (C15_capacity_partial (K := ℚ) (· == 9) (some 2) true none (by simp) _ _
      PEpi.Reach.init).2.2.2.2 (.append () 1)
    have r1 := PEpi.Reach.feed _ .init e1
    obtain ⟨b2, e2⟩ := (C15_capacity_partial (· == 9) (some 2) true none (by simp) _ _
      r1).2.2.2.2 (.append () 9)
    have r2 := PEpi.Reach.feed _ r1 e2
    obtain ⟨b3, e3⟩ := (C15_capacity_partial (· == 9) (some 2) true none (by simp) _ _
      r2).2.2.2.2 (.append () 5)
    have r3 := PEpi.Reach.feed _ r2 e3
    obtain ⟨b4, e4⟩ := (C15_capacity_partial (· == 9) (some 2) true none (by simp) _ _
      r3).2.2.2.2 (.stop ())
    exact ⟨b4, PEpi.Reach.feed _ r3 e4⟩
  have hr := PEpi.reach_rep (by simp) hb
  exact ⟨b, hb, by rw [hr.data]; decide, by rw [hr.left]; decide⟩

/-- C15 (partial), saving and loading: a new buffer that loads what another one saved between episodes is that buffer with all of its capacity free; without a
capacity it is that buffer, so that every later history finds it in the same state. -/
theorem C15_load_partial (term : T → Bool) (cap : Option Nat) (wait : Bool)
    (prio : Option (List T → K)) (hprio : ∀ f, prio = some f → ∀ ep, 0 < f ep)
    (b : PEpi E T K) (ops : List (Op E T)) (h : PEpi.Reach term cap wait prio b ops) (hcur : (EpisodeList.of term ops).2 = fun _ => []) :
    (PEpi.init cap wait prio).load b.save = { b with capacityLeft := cap.map Int.ofNat } ∧
    (cap = none → (PEpi.init cap wait prio).load b.save = b) := by
  have hr := PEpi.reach_rep hprio h
  have h1 := hr.cur
  have h2 := hr.prio
  have h3 := hr.left
  rw [hcur] at h1
  obtain ⟨c, e, m, l, d⟩ := b
  simp only at h1 h2 h3
  subst h1 h2
  refine ⟨rfl, fun hc => ?_⟩
  subst hc
  rw [h3]
  rfl

/-- C15 is false after `load`: a buffer of capacity 2 that loads a full buffer
still believes that 2 transitions are free, and a further episode of 2
transitions leaves 4 transitions stored. -/
theorem C15_violated_after_load :
    (do
      let b ← (PEpi.init (some 2) true none : PEpi Unit Nat ℚ).run (· == 9)
        [.append () 1, .append () 9]
      let fresh := (PEpi.init (some 2) true none : PEpi Unit Nat ℚ).load b.save
      let b' ← fresh.run (· == 9) [.append () 3, .append () 9]
      pure (fresh.capacityLeft, b'.episodic.data, b'.capacityLeft) : Py _)
    = .ok (some 2, [[1, 9], [3, 9]], some 0) := by
  decide +kernel

end Verif
