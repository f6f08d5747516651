import Verif.Proofs.SampleNK
import Verif.Proofs.RandomAccessQueue

/-! # C03: `sample_n_k` returns `k` distinct indices -/

namespace Verif
open SampleNK

/-- C03, exceptions: `sample_n_k(n, k)` raises `ValueError` exactly when `k` is
not in `[0, n]`, and never raises anything else, whatever numpy draws. -/
theorem C03_raises_iff (n k : Int) (d : NKDraws) (hd : d.Valid n.toNat k.toNat) (e : PyErr) :
    sampleNK n k d = .raised e ↔ (e = .valueError ∧ ¬ (0 ≤ k ∧ k ≤ n)) := by
  unfold sampleNK
  by_cases h : 0 ≤ k ∧ k ≤ n
  · simp only [h, and_self, not_true_eq_false, if_false, and_false, iff_false]
    split
    · simp
    · split
      · simp
      · rename_i h0 h3
        obtain ⟨_, ⟨h1, h2⟩, h5⟩ := hd
        rcases outer_ok n.toNat k.toNat k.toNat 0 [] ⟨d.first, k.toNat, d.refills⟩ (by omega)
          ⟨h1, h2, by simp, by simp; omega, h5⟩ (by simp) (by simp) with hw | ⟨v, hw, _⟩
        · rw [hw]; simp
        · rw [hw]; simp
  · rw [if_pos h]; simp only [h, not_false_eq_true, and_true, Res.raised.injEq]; exact eq_comm

/-- C03, the sample: whenever the call returns, it returns exactly `k` pairwise
distinct integers in `range(n)`, for every stream of draws. -/
theorem C03_distinct_in_range (n k : Int) (d : NKDraws) (hd : d.Valid n.toNat k.toNat)
    (l : List Nat) (h : sampleNK n k d = .ret l) :
    (l.length : Int) = k ∧ l.Nodup ∧ ∀ x ∈ l, (x : Int) < n := by
  unfold sampleNK at h
  split at h
  · cases h
  · rename_i hk
    split at h
    · rename_i h0; cases h; simp [h0]
    · split at h
      · cases h
        obtain ⟨⟨h1, h2, h3⟩, _⟩ := hd
        exact ⟨by omega, h2, fun x hx => by have := h3 x hx; omega⟩
      · rename_i h0 h3
        obtain ⟨_, ⟨h1, h2⟩, h5⟩ := hd
        rcases outer_ok n.toNat k.toNat k.toNat 0 [] ⟨d.first, k.toNat, d.refills⟩ (by omega)
          ⟨h1, h2, by simp, by simp; omega, h5⟩ (by simp) (by simp) with hw | ⟨v, hw, hwf, hnd⟩
        · simp only [hw] at h; cases h
        · simp only [hw] at h; cases h
          refine ⟨?_, hnd, ?_⟩
          · have := hwf.1; simp only [List.length_take]; omega
          · intro x hx
            have := hwf.2.1 x (List.mem_of_mem_take hx); omega

-- the rejection path (3 is drawn twice), with one refill
example : sampleNK 10 2 ⟨[], [3, 3, 3, 3], [[7, 1]]⟩ = .ret [3, 7] := by
  simp [sampleNK, outer, inner]
example : NKDraws.Valid 10 2 ⟨[5, 4], [3, 3, 3, 3], [[7, 1]]⟩ := by
  simp [NKDraws.Valid]
example : sampleNK 3 4 ⟨[], [], []⟩ = .raised .valueError := by decide +kernel

/-- C03 for `RandomAccessQueue.sample`: on every queue it returns `k` elements
taken at `k` distinct positions; it raises (a `ValueError`) exactly when `k` is
not between `0` and the number of elements. -/
theorem C03_queue_sample {α : Type} (q : RAQ α) (k : Int) (d : NKDraws)
    (hd : d.Valid q.len k.toNat) :
    (∀ l, q.sample k d = .ret l → ∃ ixs : List Nat, (ixs.length : Int) = k ∧ ixs.Nodup ∧
      l.map some = ixs.map (fun i => q.iter[i]?)) ∧
    (∀ e, q.sample k d = .raised e ↔ (e = .valueError ∧ ¬ (0 ≤ k ∧ k ≤ q.iter.length))) := by
  have hraise := C03_raises_iff q.len k d hd
  have key : ∀ ixs : List Nat, (∀ x ∈ ixs, (x : Int) < q.len) →
      ∃ l, ixs.mapM (fun i : Nat => q.getitem i) = .ok l ∧ l.map some = ixs.map (fun i => q.iter[i]?) := by
    intro ixs
    induction ixs with
    | nil => intro _; exact ⟨[], rfl, rfl⟩
    | cons i ixs ih =>
      intro h
      obtain ⟨l, h1, h2⟩ := ih (fun x hx => h x (by simp [hx]))
      have hi := h i (by simp)
      have hi' : i < q.iter.length := by rw [RAQ.len_eq] at hi; omega
      have hg : q.getitem i = .ok q.iter[i] := by
        rw [RAQ.getitem_eq, BoundedList.get, if_pos (by omega)]
        simp [hi']
      refine ⟨q.iter[i] :: l, ?_, ?_⟩
      · rw [List.mapM_cons, hg, h1]; rfl
      · simp [h2, hi']
  constructor
  · intro l hl
    unfold RAQ.sample at hl
    split at hl
    · rename_i ixs hs
      obtain ⟨h1, h2, h3⟩ := C03_distinct_in_range q.len k d hd ixs hs
      obtain ⟨l', h4, h5⟩ := key ixs h3
      rw [h4] at hl; cases hl
      exact ⟨ixs, h1, h2, h5⟩
    · cases hl
    · cases hl
  · intro e
    have hlen : q.len = q.iter.length := RAQ.len_eq q
    rw [← hlen, ← hraise e]
    unfold RAQ.sample
    split
    · rename_i ixs hs
      obtain ⟨h1, h2, h3⟩ := C03_distinct_in_range q.len k d hd ixs hs
      obtain ⟨l', h4, h5⟩ := key ixs h3
      simp [h4, hs]
    · rename_i e' hs; simp [hs]
    · rename_i hs; simp [hs]

example : (RAQ.init (some 3) [5, 6, 7, 8]).sample 2 ⟨[2, 0], [0, 0, 0, 0], []⟩ = .ret [8, 6] := by
  decide +kernel

end Verif
