import Mathlib.Data.Int.Order.Basic
import Verif.Model.AsyncEvaluator
set_option autoImplicit false

/-! # C27: the evaluator shared by processes -/

namespace Verif.AsyncEvaluator
open Evaluator (Stats)
variable {K : Type} [LinearOrder K] {P : Nat}

/-! ## Specification -/

/-- The claimed evaluations, in order: the step `t` of the call. -/
def claims (tr : List (Fin P × Ev K)) : List Nat :=
  tr.filterMap fun e => match e.2 with | .claim t => some t | _ => none

/-- The recorded lines, in order. -/
def records (tr : List (Fin P × Ev K)) : List (Nat × Nat × Stats K) :=
  tr.filterMap fun e => match e.2 with | .record t k s => some (t, k, s) | _ => none

def Ev.isHeader : Ev K → Bool
  | .header => true
  | _ => false

/-- How many headers were written. -/
def headers (tr : List (Fin P × Ev K)) : Nat := tr.countP fun e => e.2.isHeader

/-- The means of the agents saved as `best`, in order. -/
def bests (tr : List (Fin P × Ev K)) : List K :=
  tr.filterMap fun e => match e.2 with | .best m => some m | _ => none

omit [LinearOrder K] in
theorem claims_append (a b : List (Fin P × Ev K)) : claims (a ++ b) = claims a ++ claims b := by
  simp [claims]
omit [LinearOrder K] in
theorem records_append (a b : List (Fin P × Ev K)) : records (a ++ b) = records a ++ records b := by
  simp [records]
omit [LinearOrder K] in
theorem headers_append (a b : List (Fin P × Ev K)) : headers (a ++ b) = headers a + headers b := by
  simp [headers]
omit [LinearOrder K] in
theorem bests_append (a b : List (Fin P × Ev K)) : bests (a ++ b) = bests a ++ bests b := by
  simp [bests]

/-- Before `eval` a process has not needed the header. -/
def Pc.early : Pc K → Bool
  | .idle | .header .. => true
  | _ => false

/-- What holds in every reachable state. -/
structure Inv (c : Cfg) (rnd : K → K) (lo : K) (old : List (Line K)) (tr : List (Fin P × Ev K))
    (s : State P K) : Prop where
  prev : s.g.prev = c.evalInterval * (c.stepOffset / c.evalInterval) + c.evalInterval * (claims tr).length
  claim : ∀ k (h : k < (claims tr).length),
    c.evalInterval * (c.stepOffset / c.evalInterval) + c.evalInterval * (k + 1) ≤ (claims tr)[k]
  noHeader : s.g.wroteHeader = false →
    s.g.file = old ∧ headers tr = 0 ∧ records tr = [] ∧ ∀ p, (s.w p).early = true
  hasHeader : s.g.wroteHeader = true → headers tr = 1 ∧
    s.g.file = .header :: (records tr).map fun r => .score r.1 r.2.1 r.2.2
  fixed : rnd s.g.maxScore = s.g.maxScore
  ge_lo : lo ≤ s.g.maxScore
  ge : ∀ r ∈ records tr, rnd r.2.2.mean ≤ s.g.maxScore ∨ ∃ p, s.w p = .update r.2.2.mean
  mem : s.g.maxScore = lo ∨ ∃ r ∈ records tr, s.g.maxScore = rnd r.2.2.mean
  pending : ∀ p m, s.w p = .update m → ∃ r ∈ records tr, r.2.2.mean = m
  bestLe : ∀ m ∈ bests tr, rnd m ≤ s.g.maxScore
  bestInc : (bests tr).Pairwise fun m m' => rnd m < m'

theorem inv_init (c : Cfg) (rnd : K → K) (lo : K) (hlo : rnd lo = lo) (old : List (Line K)) :
    Inv c rnd lo old [] (init c lo old P) := by
  refine ⟨?_, by simp [claims], fun _ => ⟨rfl, rfl, rfl, fun _ => rfl⟩, fun h => by simp [init] at h,
    hlo, le_refl _, by simp [records], .inl rfl, by simp [init], by simp [bests], by simp [bests]⟩
  have := Nat.div_add_mod c.stepOffset c.evalInterval
  simp only [init, claims, List.filterMap_nil, List.length_nil, Nat.mul_zero, Nat.add_zero]
  omega

/-- A slice that changes neither the shared values nor the lists of events. -/
theorem Inv.quiet {c : Cfg} {rnd : K → K} {lo : K} {old : List (Line K)} {tr : List (Fin P × Ev K)}
    {s : State P K} (h : Inv c rnd lo old tr s) (p : Fin P) (ev : List (Fin P × Ev K)) (pc : Pc K)
    (h1 : claims ev = []) (h2 : records ev = []) (h3 : headers ev = 0) (h4 : bests ev = [])
    (h5 : s.g.wroteHeader = true ∨ pc.early = true)
    (h6 : ∀ m, s.w p = .update m → rnd m ≤ s.g.maxScore)
    (h7 : ∀ m, pc ≠ .update m) :
    Inv c rnd lo old (tr ++ ev) ⟨s.g, Function.update s.w p pc⟩ := by
  have e1 : claims (tr ++ ev) = claims tr := by rw [claims_append, h1, List.append_nil]
  have e2 : records (tr ++ ev) = records tr := by rw [records_append, h2, List.append_nil]
  have e3 : headers (tr ++ ev) = headers tr := by rw [headers_append, h3, Nat.add_zero]
  have e4 : bests (tr ++ ev) = bests tr := by rw [bests_append, h4, List.append_nil]
  refine ⟨by rw [e1]; exact h.prev, ?_, ?_, ?_, h.fixed, h.ge_lo, ?_, by rw [e2]; exact h.mem, ?_,
    by rw [e4]; exact h.bestLe, by rw [e4]; exact h.bestInc⟩
  · intro k hk
    have := h.claim k (by rw [e1] at hk; exact hk)
    simp only [e1]
    exact this
  · intro hw
    obtain ⟨i1, i2, i3, i4⟩ := h.noHeader hw
    rw [e2, e3]
    refine ⟨i1, i2, i3, fun q => ?_⟩
    by_cases hq : q = p
    · subst hq
      simp only [Function.update_self]
      rcases h5 with h5 | h5
      · simp only at hw; rw [h5] at hw; cases hw
      · exact h5
    · simp only [Function.update_of_ne hq]; exact i4 q
  · intro hw
    rw [e2, e3]; exact h.hasHeader hw
  · intro r hr
    rw [e2] at hr
    rcases h.ge r hr with h' | ⟨q, hq⟩
    · exact .inl h'
    · by_cases hqp : q = p
      · subst hqp; exact .inl (h6 _ hq)
      · exact .inr ⟨q, by simp only [Function.update_of_ne hqp]; exact hq⟩
  · intro q m hq
    rw [e2]
    by_cases hqp : q = p
    · subst hqp; simp only [Function.update_self] at hq; exact absurd hq (h7 m)
    · simp only [Function.update_of_ne hqp] at hq; exact h.pending q m hq

theorem Inv.slice {c : Cfg} {rnd : K → K} (hmono : ∀ x y, x ≤ y → rnd x ≤ rnd y)
    (hidem : ∀ x, rnd (rnd x) = rnd x) {lo : K} {old : List (Line K)} {tr : List (Fin P × Ev K)}
    {s : State P K} (h : Inv c rnd lo old tr s) (p : Fin P) (i : Inp K) :
    Inv c rnd lo old (tr ++ (s.slice c rnd p i).1) (s.slice c rnd p i).2 := by
  have hearly : (s.w p).early = false → s.g.wroteHeader = true := by
    intro he
    cases hw : s.g.wroteHeader with
    | true => rfl
    | false => rw [(h.noHeader hw).2.2.2 p] at he; cases he
  unfold State.slice AsyncEvaluator.slice
  cases hpc : s.w p with
  | idle =>
    simp only
    split
    · rename_i hdue
      simp only [List.map_cons, List.map_nil]
      have e1 : claims (tr ++ [(p, Ev.claim i.t)]) = claims tr ++ [i.t] := by simp [claims]
      have e2 : records (tr ++ [(p, Ev.claim (K := K) i.t)]) = records tr := by simp [records]
      have e3 : headers (tr ++ [(p, Ev.claim (K := K) i.t)]) = headers tr := by simp [headers, Ev.isHeader]
      have e4 : bests (tr ++ [(p, Ev.claim (K := K) i.t)]) = bests tr := by simp [bests]
      refine ⟨?_, ?_, ?_, ?_, h.fixed, h.ge_lo, ?_, by rw [e2]; exact h.mem, ?_,
        by rw [e4]; exact h.bestLe, by rw [e4]; exact h.bestInc⟩
      · simp only [e1, List.length_append, List.length_singleton, Nat.mul_add, Nat.mul_one, h.prev]
        omega
      · intro k hk
        simp only [e1] at hk ⊢
        rw [List.getElem_append]
        split
        · exact h.claim k _
        · rename_i hk'
          simp only [List.length_append, List.length_singleton] at hk
          have : k = (claims tr).length := by omega
          rw [h.prev] at hdue
          simp only [List.getElem_singleton, this, Nat.mul_add, Nat.mul_one]
          omega
      · intro hw
        obtain ⟨i1, i2, i3, i4⟩ := h.noHeader hw
        rw [e2, e3]
        refine ⟨i1, i2, i3, fun q => ?_⟩
        by_cases hq : q = p
        · subst hq; simp only [Function.update_self]; rfl
        · simp only [Function.update_of_ne hq]; exact i4 q
      · intro hw; rw [e2, e3]; exact h.hasHeader hw
      · intro r hr
        rw [e2] at hr
        rcases h.ge r hr with h' | ⟨q, hq⟩
        · exact .inl h'
        · by_cases hqp : q = p
          · subst hqp; rw [hpc] at hq; cases hq
          · exact .inr ⟨q, by simp only [Function.update_of_ne hqp]; exact hq⟩
      · intro q m hq
        rw [e2]
        by_cases hqp : q = p
        · subst hqp; simp only [Function.update_self] at hq; cases hq
        · simp only [Function.update_of_ne hqp] at hq; exact h.pending q m hq
    · exact h.quiet p _ _ rfl rfl rfl rfl (.inr rfl) (by simp [hpc]) (by simp)
  | header t e =>
    simp only
    split
    · rename_i hw
      exact h.quiet p _ _ rfl rfl rfl rfl (.inl hw) (by simp [hpc]) (by simp)
    · rename_i hw
      have hw : s.g.wroteHeader = false := by simpa using hw
      split
      · exact h.quiet p _ _ rfl rfl rfl rfl (.inr rfl) (by simp [hpc]) (by simp)
      · obtain ⟨i1, i2, i3, i4⟩ := h.noHeader hw
        simp only [List.map_cons, List.map_nil]
        have e1 : claims (tr ++ [(p, Ev.header (K := K))]) = claims tr := by simp [claims]
        have e2 : records (tr ++ [(p, Ev.header (K := K))]) = records tr := by simp [records]
        have e3 : headers (tr ++ [(p, Ev.header (K := K))]) = headers tr + 1 := by simp [headers, Ev.isHeader]
        have e4 : bests (tr ++ [(p, Ev.header (K := K))]) = bests tr := by simp [bests]
        refine ⟨by rw [e1]; exact h.prev, ?_, ?_, ?_, h.fixed, h.ge_lo, ?_, by rw [e2]; exact h.mem, ?_,
          by rw [e4]; exact h.bestLe, by rw [e4]; exact h.bestInc⟩
        · intro k hk
          have := h.claim k (by rw [e1] at hk; exact hk)
          simp only [e1]; exact this
        · intro hw'; cases hw'
        · intro _
          rw [e2, e3, i2, i3]; exact ⟨rfl, rfl⟩
        · rw [e2, i3]; simp
        · intro q m hq
          rw [e2]
          by_cases hqp : q = p
          · subst hqp; simp only [Function.update_self] at hq; cases hq
          · simp only [Function.update_of_ne hqp] at hq; exact h.pending q m hq
  | eval t e =>
    have hw := hearly (by rw [hpc]; rfl)
    simp only
    split <;> exact h.quiet p _ _ rfl rfl rfl rfl (.inl hw) (by simp [hpc]) (by simp)
  | record t e st =>
    have hw := hearly (by rw [hpc]; rfl)
    simp only
    split
    · exact h.quiet p _ _ rfl rfl rfl rfl (.inl hw) (by simp [hpc]) (by simp)
    · simp only [List.map_cons, List.map_nil]
      have e1 : claims (tr ++ [(p, Ev.record t e st)]) = claims tr := by simp [claims]
      have e2 : records (tr ++ [(p, Ev.record t e st)]) = records tr ++ [(t, e, st)] := by simp [records]
      have e3 : headers (tr ++ [(p, Ev.record t e st)]) = headers tr := by simp [headers, Ev.isHeader]
      have e4 : bests (tr ++ [(p, Ev.record t e st)]) = bests tr := by simp [bests]
      refine ⟨by rw [e1]; exact h.prev, ?_, ?_, ?_, h.fixed, h.ge_lo, ?_, ?_, ?_,
        by rw [e4]; exact h.bestLe, by rw [e4]; exact h.bestInc⟩
      · intro k hk
        have := h.claim k (by rw [e1] at hk; exact hk)
        simp only [e1]; exact this
      · intro hw'; simp only at hw'; rw [hw] at hw'; cases hw'
      · intro _
        obtain ⟨i1, i2⟩ := h.hasHeader hw
        rw [e2, e3]
        exact ⟨i1, by simp [i2]⟩
      · intro r hr
        rw [e2] at hr
        rcases List.mem_append.mp hr with hr | hr
        · rcases h.ge r hr with h' | ⟨q, hq⟩
          · exact .inl h'
          · by_cases hqp : q = p
            · subst hqp; rw [hpc] at hq; cases hq
            · exact .inr ⟨q, by simp only [Function.update_of_ne hqp]; exact hq⟩
        · rw [List.mem_singleton.mp hr]
          exact .inr ⟨p, by simp only [Function.update_self]⟩
      · rw [e2]
        rcases h.mem with h' | ⟨r, hr, h'⟩
        · exact .inl h'
        · exact .inr ⟨r, List.mem_append_left _ hr, h'⟩
      · intro q m hq
        rw [e2]
        by_cases hqp : q = p
        · subst hqp; simp only [Function.update_self] at hq; cases hq
          exact ⟨_, List.mem_append_right _ (List.mem_singleton.mpr rfl), rfl⟩
        · simp only [Function.update_of_ne hqp] at hq
          obtain ⟨r, hr, h'⟩ := h.pending q m hq
          exact ⟨r, List.mem_append_left _ hr, h'⟩
  | update m =>
    have hw := hearly (by rw [hpc]; rfl)
    simp only
    by_cases hm : m > s.g.maxScore
    · simp only [hm, if_true]
      -- the three ends differ only in the events
      have key : ∀ ev : List (Ev K), (∀ e ∈ ev, e = .raised ∨ e = .ret (some m) ∨ e = .best m) →
          (ev.filterMap fun e => match e with | .best m => some m | _ => none) = [] ∨
          (ev.filterMap fun e => match e with | .best m => some m | _ => none) = [m] →
          Inv c rnd lo old (tr ++ ev.map (p, ·))
            ⟨{ s.g with maxScore := rnd m }, Function.update s.w p .idle⟩ := by
        intro ev hev hb
        have hle : s.g.maxScore ≤ rnd m := by rw [← h.fixed]; exact hmono _ _ (le_of_lt hm)
        have e1 : claims (ev.map fun e => (p, e)) = [] := by
          simp only [claims, List.filterMap_map, List.filterMap_eq_nil_iff]
          intro e he; rcases hev e he with rfl | rfl | rfl <;> rfl
        have e2 : records (ev.map fun e => (p, e)) = [] := by
          simp only [records, List.filterMap_map, List.filterMap_eq_nil_iff]
          intro e he; rcases hev e he with rfl | rfl | rfl <;> rfl
        have e3 : headers (ev.map fun e => (p, e)) = 0 := by
          simp only [headers, List.countP_eq_zero, List.mem_map]
          rintro _ ⟨e, he, rfl⟩; rcases hev e he with rfl | rfl | rfl <;> simp [Ev.isHeader]
        have e4 : bests (ev.map fun e => (p, e)) = [] ∨ bests (ev.map fun e => (p, e)) = [m] := by
          simp only [bests, List.filterMap_map]
          exact hb
        have f1 : claims (tr ++ ev.map (p, ·)) = claims tr := by rw [claims_append, e1, List.append_nil]
        have f2 : records (tr ++ ev.map (p, ·)) = records tr := by rw [records_append, e2, List.append_nil]
        have f3 : headers (tr ++ ev.map (p, ·)) = headers tr := by rw [headers_append, e3, Nat.add_zero]
        refine ⟨by rw [f1]; exact h.prev, ?_, ?_, ?_, hidem _, le_trans h.ge_lo hle, ?_, ?_, ?_, ?_, ?_⟩
        · intro k hk
          have := h.claim k (by rw [f1] at hk; exact hk)
          simp only [f1]; exact this
        · intro hw'; simp only at hw'; rw [hw] at hw'; cases hw'
        · intro _; rw [f2, f3]; exact h.hasHeader hw
        · intro r hr
          rw [f2] at hr
          rcases h.ge r hr with h' | ⟨q, hq⟩
          · exact .inl (le_trans h' hle)
          · by_cases hqp : q = p
            · subst hqp; rw [hpc] at hq; cases hq; exact .inl (le_refl _)
            · exact .inr ⟨q, by simp only [Function.update_of_ne hqp]; exact hq⟩
        · rw [f2]
          obtain ⟨r, hr, h'⟩ := h.pending p m hpc
          exact .inr ⟨r, hr, by rw [h']⟩
        · intro q m' hq
          rw [f2]
          by_cases hqp : q = p
          · subst hqp; simp only [Function.update_self] at hq; cases hq
          · simp only [Function.update_of_ne hqp] at hq; exact h.pending q m' hq
        · intro m' hm'
          rw [bests_append] at hm'
          rcases List.mem_append.mp hm' with hm' | hm'
          · exact le_trans (h.bestLe m' hm') hle
          · rcases e4 with e4 | e4
            · rw [e4] at hm'; cases hm'
            · rw [e4] at hm'; rw [List.mem_singleton.mp hm']
        · rw [bests_append, List.pairwise_append]
          refine ⟨h.bestInc, ?_, ?_⟩
          · rcases e4 with e4 | e4 <;> rw [e4] <;> simp
          · intro a ha b hb'
            rcases e4 with e4 | e4
            · rw [e4] at hb'; cases hb'
            · rw [e4] at hb'; rw [List.mem_singleton.mp hb']
              exact lt_of_le_of_lt (h.bestLe a ha) hm
      split
      · split
        · exact key [.raised] (by simp) (.inl rfl)
        · exact key [.best m, .ret (some m)] (by simp) (.inr rfl)
      · exact key [.ret (some m)] (by simp) (.inl rfl)
    · simp only [hm, if_false]
      refine h.quiet p _ _ rfl rfl rfl rfl (.inl hw) ?_ (by simp)
      intro m' hm'
      rw [hpc] at hm'
      cases hm'
      rw [← h.fixed]
      exact hmono _ _ (not_lt.mp hm)

theorem run_inv (c : Cfg) (rnd : K → K) (hmono : ∀ x y, x ≤ y → rnd x ≤ rnd y)
    (hidem : ∀ x, rnd (rnd x) = rnd x) (lo : K) (hlo : rnd lo = lo) (old : List (Line K))
    (sched : List (Fin P × Inp K)) :
    Inv c rnd lo old (run c rnd lo old P sched).1 (run c rnd lo old P sched).2 := by
  have : ∀ (sched : List (Fin P × Inp K)) (tr : List (Fin P × Ev K)) (s : State P K), Inv c rnd lo old tr s →
      Inv c rnd lo old (tr ++ (s.exec c rnd sched).1) (s.exec c rnd sched).2 := by
    intro sched
    induction sched with
    | nil => intro tr s h; simpa [State.exec] using h
    | cons x l ih =>
      intro tr s h
      have := ih _ _ (h.slice hmono hidem x.1 x.2)
      simp only [List.append_assoc] at this
      exact this
  have := this sched [] _ (inv_init (P := P) c rnd lo hlo old)
  rw [List.nil_append] at this
  exact this

/-! ## The properties -/

section
variable (c : Cfg) (rnd : K → K) (hmono : ∀ x y, x ≤ y → rnd x ≤ rnd y)
    (hidem : ∀ x, rnd (rnd x) = rnd x) (lo : K) (hlo : rnd lo = lo) (old : List (Line K))
    (sched : List (Fin P × Inp K))
include hmono hidem hlo

/-- C27: under every schedule each evaluation interval is claimed by one call
only: the `k`-th claim is for the `k`-th interval after the step offset (the
call's step has reached it), and a call made now is told to evaluate exactly
when the next unclaimed interval was reached. -/
theorem C27_claims :
    (∀ k (h : k < (claims (run c rnd lo old P sched).1).length),
      c.evalInterval * (c.stepOffset / c.evalInterval + (k + 1)) ≤ (claims (run c rnd lo old P sched).1)[k]) ∧
    (∀ p i, (run c rnd lo old P sched).2.w p = .idle →
      (claims ((run c rnd lo old P sched).2.slice c rnd p i).1 = [i.t] ↔
        c.evalInterval * (c.stepOffset / c.evalInterval
          + ((claims (run c rnd lo old P sched).1).length + 1)) ≤ i.t) ∧
      (((run c rnd lo old P sched).2.slice c rnd p i).1 = [(p, .ret none)] ↔
        ¬ c.evalInterval * (c.stepOffset / c.evalInterval
          + ((claims (run c rnd lo old P sched).1).length + 1)) ≤ i.t)) := by
  have h := run_inv (P := P) c rnd hmono hidem lo hlo old sched
  constructor
  · intro k hk
    have := h.claim k hk
    rw [Nat.mul_add]
    exact this
  · intro p i hpc
    have hp : c.evalInterval * (c.stepOffset / c.evalInterval
        + ((claims (run c rnd lo old P sched).1).length + 1)) =
        (run c rnd lo old P sched).2.g.prev + c.evalInterval := by
      rw [h.prev]; simp only [Nat.mul_add, Nat.mul_one]; omega
    rw [hp]
    unfold State.slice AsyncEvaluator.slice
    simp only [hpc]
    by_cases hd : i.t ≥ (run c rnd lo old P sched).2.g.prev + c.evalInterval
    · simp only [hd, if_true]
      simp [claims]
    · simp only [hd, if_false]
      simp [claims]

/-- C27: under every schedule, once a line was recorded, the file consists of one
header, written once, followed by the recorded lines in order. -/
theorem C27_header :
    headers (run c rnd lo old P sched).1 ≤ 1 ∧
    ((run c rnd lo old P sched).2.g.file = old ∧ records (run c rnd lo old P sched).1 = [] ∨
      headers (run c rnd lo old P sched).1 = 1 ∧
      (run c rnd lo old P sched).2.g.file =
        .header :: (records (run c rnd lo old P sched).1).map fun r => .score r.1 r.2.1 r.2.2) := by
  have h := run_inv (P := P) c rnd hmono hidem lo hlo old sched
  cases hw : (run c rnd lo old P sched).2.g.wroteHeader with
  | false => obtain ⟨h1, h2, h3, _⟩ := h.noHeader hw; exact ⟨by omega, .inl ⟨h1, h3⟩⟩
  | true => obtain ⟨h1, h2⟩ := h.hasHeader hw; exact ⟨by omega, .inr ⟨h1, h2⟩⟩

/-- C27: under every schedule, when no process is about to update it, `max_score`
is the maximum of the recorded means, rounded to the precision of the shared
value (and of the initial value). -/
theorem C27_max_score (hq : ∀ p m, (run c rnd lo old P sched).2.w p ≠ .update m) :
    (∀ m ∈ lo :: (records (run c rnd lo old P sched).1).map (fun r => rnd r.2.2.mean),
      m ≤ (run c rnd lo old P sched).2.g.maxScore) ∧
    (run c rnd lo old P sched).2.g.maxScore ∈
      lo :: (records (run c rnd lo old P sched).1).map (fun r => rnd r.2.2.mean) := by
  have h := run_inv (P := P) c rnd hmono hidem lo hlo old sched
  constructor
  · intro m hm
    rcases List.mem_cons.mp hm with rfl | hm
    · exact h.ge_lo
    · obtain ⟨r, hr, rfl⟩ := List.mem_map.mp hm
      rcases h.ge r hr with h' | ⟨p, hp⟩
      · exact h'
      · exact absurd hp (hq _ _)
  · rcases h.mem with h' | ⟨r, hr, h'⟩
    · exact List.mem_cons.mpr (.inl h')
    · exact List.mem_cons.mpr (.inr (List.mem_map.mpr ⟨r, hr, h'.symm⟩))

/-- C27: under every schedule `max_score` is never above the recorded maximum,
and every agent saved as `best` is better than all agents saved before. -/
theorem C27_best_increasing :
    (bests (run c rnd lo old P sched).1).Pairwise fun m m' => rnd m < m' :=
  (run_inv (P := P) c rnd hmono hidem lo hlo old sched).bestInc

end

/-! ## A concrete schedule -/

def exCfg : Cfg := ⟨10, 5, true⟩
def exInp (t : Nat) (m : Int) : Inp Int := ⟨t, 1, ⟨m, m, 0, m, m⟩, false⟩

/-- Two processes claim the intervals at 10 and 20; process 1 records first. -/
def exSched : List (Fin 2 × Inp Int) :=
  [(0, exInp 12 3), (1, exInp 21 5), (1, exInp 0 5), (0, exInp 0 3), (0, exInp 0 3), (1, exInp 0 5),
   (1, exInp 0 5), (0, exInp 0 3), (0, exInp 0 3), (1, exInp 0 5), (0, exInp 25 1)]

example : claims (run exCfg id (-1000) [.old] 2 exSched).1 = [12, 21] ∧
    (run exCfg id (-1000) [.old] 2 exSched).2.g =
      ⟨20, 5, true, [.header, .score 21 1 ⟨5, 5, 0, 5, 5⟩, .score 12 1 ⟨3, 3, 0, 3, 3⟩]⟩ ∧
    bests (run exCfg id (-1000) [.old] 2 exSched).1 = [3, 5] ∧
    (∀ p, (run exCfg id (-1000) [.old] 2 exSched).2.w p = .idle) := by decide +kernel

end Verif.AsyncEvaluator
