import Mathlib.Algebra.BigOperators.Group.Finset.Basic
import Mathlib.Algebra.Order.BigOperators.Group.Finset
import Mathlib.Algebra.Order.Group.Int
import Mathlib.Order.Interval.Finset.Basic
import Mathlib.Data.Int.Interval
import Mathlib.Tactic.Linarith
import Mathlib.Tactic.Ring
import Mathlib.Tactic.Positivity
import Mathlib.Tactic.NormNum
import Verif.Model.OldSumTree
set_option autoImplicit false
set_option linter.unusedSectionVars false

/-!
# C114: the deprecated SumTree
-/

namespace Verif.OldSumTree
open Finset

/-! ## Specification -/

/-- An operation on the tree. -/
inductive Op where
  | set (ix : ℤ) (val : ℝ)
  | del (ix : ℤ)

/-- The operations on the tree. -/
noncomputable def run (t : Option Tree) : List Op → Option Tree
  | [] => t
  | .set ix val :: ops => run (setItem t ix val) ops
  | .del ix :: ops => run (delItem t ix) ops

/-- The operations on a map from integers to numbers, zero by default. -/
def runMap (m : ℤ → ℝ) : List Op → ℤ → ℝ
  | [] => m
  | .set ix val :: ops => runMap (Function.update m ix val) ops
  | .del ix :: ops => runMap (Function.update m ix 0) ops

/-- `j` is the index in whose piece of the line `c` lies, if the values of `m` from `lo` on are put side by side. -/
def Chosen (m : ℤ → ℝ) (lo : ℤ) (c : ℝ) (j : ℤ) : Prop :=
  ∑ i ∈ Ico lo j, m i ≤ c ∧ c < ∑ i ∈ Ico lo (j + 1), m i

/-- Drawing without replacement: each index is chosen with what is left. -/
def Draws (lo hi : ℤ) : (ℤ → ℝ) → List ℝ → List ℤ → Prop
  | _, [], [] => True
  | m, u :: us, j :: js => Chosen m lo (u * ∑ i ∈ Ico lo hi, m i) j ∧ Draws lo hi (Function.update m j 0) us js
  | _, _, _ => False

/-! ## The invariant -/

/-- `t` represents the values of `m` at the `2 ^ k` indices from `lo` on. -/
def Rep : Nat → ℤ → Tree → (ℤ → ℝ) → Prop
  | 0, lo, .leaf lo' s, m => lo' = lo ∧ s = m lo
  | k + 1, lo, .node a b s l r, m => a = lo ∧ b = lo + 2 ^ (k + 1) ∧ s = l.s + r.s ∧ Rep k lo l m ∧ Rep k (lo + 2 ^ k) r m
  | _, _, _, _ => False

theorem two_pow_pos (k : Nat) : (0 : ℤ) < 2 ^ k := by positivity

theorem sum_split (m : ℤ → ℝ) (a b c : ℤ) (h : a ≤ b) (h' : b ≤ c) :
    ∑ i ∈ Ico a c, m i = ∑ i ∈ Ico a b, m i + ∑ i ∈ Ico b c, m i := by
  rw [← Ico_union_Ico_eq_Ico h h', sum_union (Ico_disjoint_Ico_consecutive a b c)]

theorem sum_one (m : ℤ → ℝ) (a : ℤ) : ∑ i ∈ Ico a (a + 1), m i = m a := by
  have : Ico a (a + 1) = {a} := by
    ext x; simp only [mem_Ico, mem_singleton]; omega
  rw [this, sum_singleton]

theorem center_eq (k : Nat) (lo : ℤ) : center lo (lo + 2 ^ (k + 1)) = lo + 2 ^ k := by
  unfold center
  rw [pow_succ]
  omega

theorem Rep.bounds {k : Nat} {lo : ℤ} {t : Tree} {m : ℤ → ℝ} (h : Rep k lo t m) : t.lo = lo ∧ t.hi = lo + 2 ^ k := by
  cases k with
  | zero =>
    cases t with
    | leaf a s => obtain ⟨rfl, _⟩ := h; exact ⟨rfl, by simp [Tree.hi]⟩
    | node => exact h.elim
  | succ k =>
    cases t with
    | leaf => exact h.elim
    | node a b s l r => exact ⟨h.1, h.2.1⟩

theorem Rep.sum {k : Nat} : ∀ {lo : ℤ} {t : Tree} {m : ℤ → ℝ}, Rep k lo t m → t.s = ∑ i ∈ Ico lo (lo + 2 ^ k), m i := by
  induction k with
  | zero =>
    intro lo t m h
    cases t with
    | leaf a s => obtain ⟨rfl, rfl⟩ := h; rw [pow_zero, sum_one]; rfl
    | node => exact h.elim
  | succ k ih =>
    intro lo t m h
    cases t with
    | leaf => exact h.elim
    | node a b s l r =>
      obtain ⟨_, _, rfl, hl, hr⟩ := h
      have := two_pow_pos k
      rw [sum_split m lo (lo + 2 ^ k) (lo + 2 ^ (k + 1)) (by omega) (by rw [pow_succ]; omega)]
      rw [show lo + 2 ^ (k + 1) = (lo + 2 ^ k) + 2 ^ k by rw [pow_succ]; ring, ← ih hl, ← ih hr]
      rfl

theorem Rep.congr {k : Nat} : ∀ {lo : ℤ} {t : Tree} {m m' : ℤ → ℝ}, Rep k lo t m →
    (∀ i, lo ≤ i → i < lo + 2 ^ k → m i = m' i) → Rep k lo t m' := by
  induction k with
  | zero =>
    intro lo t m m' h he
    cases t with
    | leaf a s => exact ⟨h.1, by rw [h.2, he lo le_rfl (by simp)]⟩
    | node => exact h.elim
  | succ k ih =>
    intro lo t m m' h he
    cases t with
    | leaf => exact h.elim
    | node a b s l r =>
      obtain ⟨h1, h2, h3, hl, hr⟩ := h
      have := two_pow_pos k
      exact ⟨h1, h2, h3, ih hl fun i a b => he i a (by rw [pow_succ]; omega),
        ih hr fun i a b => he i (by omega) (by rw [pow_succ]; omega)⟩

theorem Rep.read {k : Nat} : ∀ {lo : ℤ} {t : Tree} {m : ℤ → ℝ}, Rep k lo t m → ∀ ix, lo ≤ ix → ix < lo + 2 ^ k →
    OldSumTree.read ix t = m ix := by
  induction k with
  | zero =>
    intro lo t m h ix h1 h2
    cases t with
    | leaf a s =>
      have : ix = lo := by simp at h2; omega
      rw [this]; exact h.2
    | node => exact h.elim
  | succ k ih =>
    intro lo t m h ix h1 h2
    cases t with
    | leaf => exact h.elim
    | node a b s l r =>
      obtain ⟨rfl, rfl, _, hl, hr⟩ := h
      simp only [OldSumTree.read, center_eq]
      split
      · exact ih hl ix h1 (by omega)
      · exact ih hr ix (by omega) (by rw [pow_succ] at h2; omega)

theorem Rep.write {k : Nat} : ∀ {lo : ℤ} {t : Tree} {m : ℤ → ℝ}, Rep k lo t m → ∀ ix (v : ℝ), lo ≤ ix → ix < lo + 2 ^ k →
    Rep k lo (OldSumTree.write ix v t) (Function.update m ix v) := by
  induction k with
  | zero =>
    intro lo t m h ix v h1 h2
    cases t with
    | leaf a s =>
      have : ix = lo := by simp at h2; omega
      subst this
      exact ⟨h.1, by simp⟩
    | node => exact h.elim
  | succ k ih =>
    intro lo t m h ix v h1 h2
    cases t with
    | leaf => exact h.elim
    | node a b s l r =>
      obtain ⟨rfl, rfl, _, hl, hr⟩ := h
      simp only [OldSumTree.write, center_eq]
      split
      · rename_i hlt
        refine ⟨rfl, rfl, rfl, ih hl ix v h1 hlt, hr.congr fun i a b => ?_⟩
        rw [Function.update_of_ne (by omega)]
      · refine ⟨rfl, rfl, rfl, hl.congr fun i a b => ?_, ih hr ix v (by omega) (by rw [pow_succ] at h2; omega)⟩
        rw [Function.update_of_ne (by omega)]

theorem fresh_rep (k : Nat) : ∀ (fuel : Nat) (lo : ℤ), k ≤ fuel → Rep k lo (fresh fuel lo (lo + 2 ^ k)) (fun _ => 0) := by
  induction k with
  | zero =>
    intro fuel lo _
    cases fuel <;> simp [fresh, Rep]
  | succ k ih =>
    intro fuel lo h
    cases fuel with
    | zero => omega
    | succ fuel =>
      have hp := two_pow_pos k
      have hne : ¬ (lo + 2 ^ (k + 1) - lo = 1) := by rw [pow_succ]; omega
      simp only [fresh, if_neg hne, center_eq]
      have h1 := ih fuel lo (by omega)
      have h2 := ih fuel (lo + 2 ^ k) (by omega)
      rw [show lo + 2 ^ k + 2 ^ k = lo + 2 ^ (k + 1) by rw [pow_succ]; ring] at h2
      refine ⟨rfl, rfl, ?_, h1, h2⟩
      rw [h1.sum, h2.sum]
      simp

theorem initDescendant_rep (k : Nat) (lo : ℤ) : Rep k lo (initDescendant lo (lo + 2 ^ k)) (fun _ => 0) := by
  apply fresh_rep
  have : k < 2 ^ k := Nat.lt_two_pow_self
  have h2 : (lo + 2 ^ k - lo).toNat = 2 ^ k := by
    rw [show lo + 2 ^ k - lo = ((2 ^ k : Nat) : ℤ) by push_cast; ring]
    exact Int.toNat_natCast _
  omega

/-- `t` represents the map `m`. -/
def Represents (t : Tree) (m : ℤ → ℝ) : Prop :=
  ∃ k lo, Rep k lo t m ∧ ∀ i, (i < lo ∨ lo + 2 ^ k ≤ i) → m i = 0

theorem growRight_rep {t : Tree} {m : ℤ → ℝ} (h : Represents t m) : Represents (growRight t) m ∧
    t.hi < (growRight t).hi ∧ (growRight t).lo = t.lo := by
  obtain ⟨k, lo, h, h0⟩ := h
  obtain ⟨e1, e2⟩ := h.bounds
  have hp := two_pow_pos k
  have e3 : t.hi * 2 - t.lo = lo + 2 ^ (k + 1) := by rw [e1, e2, pow_succ]; ring
  refine ⟨⟨k + 1, lo, ?_, ?_⟩, ?_, rfl⟩
  · show Rep (k + 1) lo (.node t.lo (t.hi * 2 - t.lo) t.s t (initDescendant t.hi (t.hi * 2 - t.lo))) m
    rw [e3, e1, e2]
    have hf := initDescendant_rep k (lo + 2 ^ k)
    rw [show lo + 2 ^ k + 2 ^ k = lo + 2 ^ (k + 1) by rw [pow_succ]; ring] at hf
    refine ⟨rfl, rfl, ?_, h, hf.congr fun i a _ => (h0 i (Or.inr a)).symm⟩
    rw [hf.sum]; simp
  · intro i hi
    apply h0
    rw [pow_succ] at hi
    omega
  · rw [show (growRight t).hi = t.hi * 2 - t.lo from rfl, e3, e2, pow_succ]
    omega

theorem growLeft_rep {t : Tree} {m : ℤ → ℝ} (h : Represents t m) : Represents (growLeft t) m ∧
    (growLeft t).lo < t.lo ∧ (growLeft t).hi = t.hi := by
  obtain ⟨k, lo, h, h0⟩ := h
  obtain ⟨e1, e2⟩ := h.bounds
  have hp := two_pow_pos k
  have e3 : t.lo * 2 - t.hi = lo - 2 ^ k := by rw [e1, e2]; ring
  have e4 : t.hi = (lo - 2 ^ k) + 2 ^ (k + 1) := by rw [e2, pow_succ]; ring
  refine ⟨⟨k + 1, lo - 2 ^ k, ?_, ?_⟩, ?_, rfl⟩
  · show Rep (k + 1) (lo - 2 ^ k) (.node (t.lo * 2 - t.hi) t.hi t.s (initDescendant (t.lo * 2 - t.hi) t.lo) t) m
    rw [e3, e1, e4]
    have hf := initDescendant_rep k (lo - 2 ^ k)
    rw [show lo - 2 ^ k + 2 ^ k = lo by ring] at hf
    refine ⟨rfl, rfl, ?_, hf.congr fun i _ b => (h0 i (Or.inl (by omega))).symm, ?_⟩
    · rw [hf.sum]; simp
    · rw [show lo - 2 ^ k + 2 ^ k = lo by ring]; exact h
  · intro i hi
    apply h0
    rw [pow_succ] at hi
    omega
  · rw [show (growLeft t).lo = t.lo * 2 - t.hi from rfl, e3, e1]
    omega

theorem allocRight_rep (ix : ℤ) (fuel : Nat) : ∀ {t : Tree} {m : ℤ → ℝ}, Represents t m → ix - t.hi + 1 ≤ fuel →
    Represents (allocRight fuel ix t) m ∧ ix < (allocRight fuel ix t).hi ∧ (allocRight fuel ix t).lo = t.lo := by
  induction fuel with
  | zero => intro t m h hf; exact ⟨h, by simp only [allocRight]; push_cast at hf; omega, rfl⟩
  | succ fuel ih =>
    intro t m h hf
    simp only [allocRight]
    split
    · obtain ⟨a, b, c⟩ := growRight_rep h
      obtain ⟨d, e, f⟩ := ih a (by push_cast at hf; omega)
      exact ⟨d, e, f.trans c⟩
    · exact ⟨h, by omega, rfl⟩

theorem allocLeft_rep (ix : ℤ) (fuel : Nat) : ∀ {t : Tree} {m : ℤ → ℝ}, Represents t m → t.lo - ix ≤ fuel →
    Represents (allocLeft fuel ix t) m ∧ (allocLeft fuel ix t).lo ≤ ix ∧ (allocLeft fuel ix t).hi = t.hi := by
  induction fuel with
  | zero => intro t m h hf; exact ⟨h, by simp only [allocLeft]; push_cast at hf; omega, rfl⟩
  | succ fuel ih =>
    intro t m h hf
    simp only [allocLeft]
    split
    · obtain ⟨a, b, c⟩ := growLeft_rep h
      obtain ⟨d, e, f⟩ := ih a (by push_cast at hf; omega)
      exact ⟨d, e, f.trans c⟩
    · exact ⟨h, by omega, rfl⟩

theorem allocIndex_rep (ix : ℤ) {t : Tree} {m : ℤ → ℝ} (h : Represents t m) :
    Represents (allocIndex ix (some t)) m ∧ (allocIndex ix (some t)).lo ≤ ix ∧ ix < (allocIndex ix (some t)).hi := by
  obtain ⟨a, b, c⟩ := allocRight_rep ix (ix - t.hi + 1).toNat h (by omega)
  obtain ⟨d, e, f⟩ := allocLeft_rep ix ((allocRight (ix - t.hi + 1).toNat ix t).lo - ix).toNat a (by omega)
  exact ⟨d, e, by rw [show (allocIndex ix (some t)).hi = _ from f]; exact b⟩

theorem Represents.write {t : Tree} {m : ℤ → ℝ} (h : Represents t m) (ix : ℤ) (v : ℝ) (h1 : t.lo ≤ ix) (h2 : ix < t.hi) :
    Represents (OldSumTree.write ix v t) (Function.update m ix v) ∧ (OldSumTree.write ix v t).lo = t.lo ∧
      (OldSumTree.write ix v t).hi = t.hi := by
  obtain ⟨k, lo, h, h0⟩ := h
  obtain ⟨e1, e2⟩ := h.bounds
  have hw := h.write ix v (by omega) (by omega)
  obtain ⟨f1, f2⟩ := hw.bounds
  refine ⟨⟨k, lo, hw, fun i hi => ?_⟩, by rw [f1, e1], by rw [f2, e2]⟩
  rw [Function.update_of_ne (by omega)]
  exact h0 i hi

theorem setItem_rep (ix : ℤ) (v : ℝ) {t : Option Tree} {m : ℤ → ℝ}
    (h : match t with | none => m = fun _ => 0 | some t => Represents t m) :
    ∃ t', setItem t ix v = some t' ∧ Represents t' (Function.update m ix v) ∧ t'.lo ≤ ix ∧ ix < t'.hi := by
  cases t with
  | none =>
    simp only at h
    subst h
    refine ⟨_, rfl, ⟨0, ix, ⟨rfl, by simp⟩, fun i hi => ?_⟩, le_rfl, by simp [allocIndex, write, Tree.hi]⟩
    rw [Function.update_of_ne]
    simp at hi
    omega
  | some t =>
    obtain ⟨a, b, c⟩ := allocIndex_rep ix h
    obtain ⟨d, e, f⟩ := a.write ix v b c
    exact ⟨_, rfl, d, by rw [e]; exact b, by rw [f]; exact c⟩

theorem run_rep (ops : List Op) : ∀ (t : Option Tree) (m : ℤ → ℝ),
    (match t with | none => m = fun _ => 0 | some t => Represents t m) →
    (match run t ops with | none => runMap m ops = fun _ => 0 | some t => Represents t (runMap m ops)) := by
  induction ops with
  | nil => intro t m h; exact h
  | cons op ops ih =>
    intro t m h
    cases op with
    | set ix v =>
      obtain ⟨t', e, r, _⟩ := setItem_rep ix v h
      simp only [run, runMap, e]
      exact ih (some t') _ r
    | del ix =>
      obtain ⟨t', e, r, _⟩ := setItem_rep ix 0 h
      simp only [run, runMap, delItem, e]
      exact ih (some t') _ r

theorem run_rep' (ops : List Op) (t : Tree) (h : run none ops = some t) : Represents t (runMap (fun _ => 0) ops) := by
  have := run_rep ops none (fun _ => 0) rfl
  rw [h] at this
  exact this

/-- C114: after any assignments and deletions, with indices of any sign and in any order, an index that can be read has the value that was last
assigned to it (0 if there was none or it was deleted), every index that was assigned last can be read, and all others raise. -/
theorem C114_map (ops : List Op) (ix : ℤ) :
    (∀ v, getItem (run none ops) ix = .ok v → v = runMap (fun _ => 0) ops ix) ∧
    ((∀ v, getItem (run none ops) ix ≠ .ok v) → runMap (fun _ => 0) ops ix = 0) ∧
    ∀ v, getItem (run none (ops ++ [.set ix v])) ix = .ok v := by
  refine ⟨?_, ?_, ?_⟩
  · intro v h
    cases ht : run none ops with
    | none => rw [ht] at h; cases h
    | some t =>
      obtain ⟨k, lo, hr, h0⟩ := run_rep' ops t ht
      obtain ⟨e1, e2⟩ := hr.bounds
      rw [ht] at h
      simp only [getItem] at h
      split at h
      · rename_i hb
        cases h
        exact hr.read ix (by omega) (by omega)
      · cases h
  · intro h
    have hr := run_rep ops none (fun _ => 0) rfl
    cases ht : run none ops with
    | none => rw [ht] at hr; simp only at hr; rw [hr]
    | some t =>
      obtain ⟨k, lo, hr, h0⟩ := run_rep' ops t ht
      obtain ⟨e1, e2⟩ := hr.bounds
      apply h0
      by_contra hb
      apply h (read ix t)
      rw [ht]
      simp only [getItem]
      rw [if_pos (by omega)]
  · intro v
    have e : run none (ops ++ [.set ix v]) = setItem (run none ops) ix v := by
      generalize (none : Option Tree) = t
      induction ops generalizing t with
      | nil => rfl
      | cons op ops ih => cases op <;> simp only [List.cons_append, run, ih]
    obtain ⟨t', e', r, b1, b2⟩ := setItem_rep ix v (run_rep ops none (fun _ => 0) rfl)
    rw [e, e']
    obtain ⟨k, lo, hr, _⟩ := r
    obtain ⟨e1, e2⟩ := hr.bounds
    simp only [getItem, if_pos (And.intro b1 b2)]
    rw [hr.read ix (by omega) (by omega)]
    simp

/-- C114: the tree's total is the sum of all values. -/
theorem C114_sum (ops : List Op) (t : Tree) (h : run none ops = some t) (lo hi : ℤ)
    (hb : ∀ i, runMap (fun _ => 0) ops i ≠ 0 → lo ≤ i ∧ i < hi) : t.s = ∑ i ∈ Ico lo hi, runMap (fun _ => 0) ops i := by
  obtain ⟨k, l, hr, h0⟩ := run_rep' ops t h
  rw [hr.sum]
  have e1 : ∑ i ∈ Ico l (l + 2 ^ k), runMap (fun _ => 0) ops i =
      ∑ i ∈ Ico l (l + 2 ^ k) ∪ Ico lo hi, runMap (fun _ => 0) ops i := by
    apply sum_subset subset_union_left
    intro i _ hi'
    apply h0
    simp only [mem_Ico] at hi'
    omega
  have e2 : ∑ i ∈ Ico lo hi, runMap (fun _ => 0) ops i =
      ∑ i ∈ Ico l (l + 2 ^ k) ∪ Ico lo hi, runMap (fun _ => 0) ops i := by
    apply sum_subset subset_union_right
    intro i _ hi'
    by_contra hne
    have := hb i hne
    simp only [mem_Ico] at hi'
    omega
  rw [e1, e2]

/-! ## Sampling -/

theorem Rep.pick {k : Nat} : ∀ {lo : ℤ} {t : Tree} {m : ℤ → ℝ}, Rep k lo t m → ∀ c : ℝ, 0 ≤ c → c < t.s →
    lo ≤ (OldSumTree.pick c t).1 ∧ (OldSumTree.pick c t).1 < lo + 2 ^ k ∧ (OldSumTree.pick c t).2 = m (OldSumTree.pick c t).1 ∧
      Chosen m lo c (OldSumTree.pick c t).1 := by
  induction k with
  | zero =>
    intro lo t m h c h1 h2
    cases t with
    | leaf a s =>
      obtain ⟨rfl, rfl⟩ := h
      refine ⟨le_rfl, by simp [OldSumTree.pick], rfl, ?_, ?_⟩
      · simpa [OldSumTree.pick] using h1
      · simp only [OldSumTree.pick]; rw [sum_one]; exact h2
    | node => exact h.elim
  | succ k ih =>
    intro lo t m h c h1 h2
    cases t with
    | leaf => exact h.elim
    | node a b s l r =>
      obtain ⟨rfl, rfl, rfl, hl, hr⟩ := h
      have hp := two_pow_pos k
      have hps : (2 : ℤ) ^ (k + 1) = 2 ^ k + 2 ^ k := by rw [pow_succ]; ring
      simp only [OldSumTree.pick]
      split
      · rename_i hlt
        obtain ⟨a1, a2, a3, a4⟩ := ih hl c h1 hlt
        exact ⟨a1, by omega, a3, a4⟩
      · rename_i hlt
        have h2 : c < l.s + r.s := h2
        obtain ⟨a1, a2, a3, a4, a5⟩ := ih hr (c - l.s) (by linarith) (by linarith)
        refine ⟨by omega, by omega, a3, ?_, ?_⟩
        · rw [sum_split m a (a + 2 ^ k) _ (by omega) a1, ← hl.sum]; linarith
        · rw [sum_split m a (a + 2 ^ k) _ (by omega) (by omega), ← hl.sum]; linarith

/-- What is chosen has a positive value. -/
theorem Chosen.pos {m : ℤ → ℝ} {lo : ℤ} {c : ℝ} {j : ℤ} (h : Chosen m lo c j) (hj : lo ≤ j) : 0 < m j := by
  obtain ⟨h1, h2⟩ := h
  rw [sum_split m lo j (j + 1) hj (by omega), sum_one] at h2
  linarith

/-- C114: `prioritized_choice` picks the index in whose piece of `[0, total)` the random number falls - so with probability
proportional to its value - and returns the value divided by the total. -/
theorem C114_choice (ops : List Op) (t : Tree) (h : run none ops = some t) (h0 : 0 < t.s) (u : ℝ) (hu : 0 ≤ u) (hu1 : u < 1) :
    ∃ j, choice t u = .ok (j, runMap (fun _ => 0) ops j / t.s) ∧ Chosen (runMap (fun _ => 0) ops) t.lo (u * t.s) j ∧
      0 < runMap (fun _ => 0) ops j := by
  obtain ⟨k, lo, hr, _⟩ := run_rep' ops t h
  obtain ⟨a1, a2, a3, a4⟩ := hr.pick (u * t.s) (by positivity) (by nlinarith)
  obtain ⟨e1, e2⟩ := hr.bounds
  refine ⟨(pick (u * t.s) t).1, ?_, by rw [e1]; exact a4, a4.pos a1⟩
  unfold choice
  simp only [h0.ne', if_false]
  rw [← a3]

/-- The number of indices with a positive value. -/
noncomputable def positives (m : ℤ → ℝ) (lo hi : ℤ) : Nat := ((Ico lo hi).filter fun i => 0 < m i).card

theorem positives_update {m : ℤ → ℝ} {lo hi j : ℤ} (h1 : lo ≤ j) (h2 : j < hi) (hj : 0 < m j) :
    positives (Function.update m j 0) lo hi + 1 = positives m lo hi := by
  unfold positives
  have : ((Ico lo hi).filter fun i => 0 < Function.update m j 0 i) = ((Ico lo hi).filter fun i => 0 < m i).erase j := by
    ext i
    simp only [mem_filter, mem_Ico, mem_erase]
    by_cases hi : i = j
    · subst hi; simp
    · simp [hi]
  rw [this, card_erase_of_mem (by simp [h1, h2, hj])]
  have : 0 < ((Ico lo hi).filter fun i => 0 < m i).card := card_pos.2 ⟨j, by simp [h1, h2, hj]⟩
  omega

theorem total_pos {m : ℤ → ℝ} {lo hi : ℤ} (hm : ∀ i, 0 ≤ m i) (h : 0 < positives m lo hi) : 0 < ∑ i ∈ Ico lo hi, m i := by
  obtain ⟨j, hj⟩ := card_pos.1 h
  simp only [mem_filter] at hj
  exact sum_pos' (fun i _ => hm i) ⟨j, hj.1, hj.2⟩

theorem draw_spec (k : Nat) (lo : ℤ) (us : List ℝ) : ∀ (t : Tree) (m : ℤ → ℝ), Rep k lo t m → (∀ i, 0 ≤ m i) →
    (∀ u ∈ us, 0 ≤ u ∧ u < 1) → us.length ≤ positives m lo (lo + 2 ^ k) →
    Draws lo (lo + 2 ^ k) m us ((draw t us).2.map (·.1)) ∧ ((draw t us).2.map (·.1)).Nodup ∧
    (∀ p ∈ (draw t us).2, lo ≤ p.1 ∧ p.1 < lo + 2 ^ k ∧ p.2 = m p.1 ∧ 0 < m p.1) ∧
    Rep k lo (draw t us).1 (fun i => if i ∈ (draw t us).2.map (·.1) then 0 else m i) := by
  induction us with
  | nil => intro t m h _ _ _; simpa [draw, Draws] using h
  | cons u us ih =>
    intro t m h hm hu hn
    have hpos : 0 < positives m lo (lo + 2 ^ k) := by simp at hn; omega
    have ht := total_pos hm hpos
    rw [← h.sum] at ht
    obtain ⟨hu0, hu1⟩ := hu u (by simp)
    obtain ⟨a1, a2, a3, a4⟩ := h.pick (u * t.s) (by positivity) (by nlinarith)
    have hj := a4.pos a1
    have hw := h.write _ 0 a1 a2
    obtain ⟨b1, b2, b3, b4⟩ := ih _ _ hw (by
        intro i
        by_cases hi : i = (pick (u * t.s) t).1
        · rw [hi]; simp
        · rw [Function.update_of_ne hi]; exact hm i)
      (fun v hv => hu v (by simp [hv])) (by
        have := positives_update a1 a2 hj
        simp at hn; omega)
    simp only [draw, List.map_cons]
    have hnot : (pick (u * t.s) t).1 ∉ (draw (write (pick (u * t.s) t).1 0 t) us).2.map (·.1) := by
      intro hmem
      obtain ⟨p, hp, he⟩ := List.mem_map.1 hmem
      obtain ⟨_, _, _, c⟩ := b3 p hp
      rw [he] at c
      simp at c
    refine ⟨⟨?_, b1⟩, List.nodup_cons.2 ⟨hnot, b2⟩, ?_, ?_⟩
    · rw [← h.sum]; exact a4
    · intro p hp
      simp only [List.mem_cons] at hp
      rcases hp with rfl | hp
      · exact ⟨a1, a2, a3, hj⟩
      · obtain ⟨c1, c2, c3, c4⟩ := b3 p hp
        have hne : p.1 ≠ (pick (u * t.s) t).1 := by
          intro he
          rw [he] at c4
          simp at c4
        rw [Function.update_of_ne hne] at c3 c4
        exact ⟨c1, c2, c3, c4⟩
    · refine b4.congr fun i _ _ => ?_
      by_cases hi : i = (pick (u * t.s) t).1
      · subst hi; simp
      · rw [Function.update_of_ne hi]
        simp only [List.mem_cons, hi, false_or]

theorem restore_spec (k : Nat) (lo : ℤ) (m : ℤ → ℝ) (ps : List (ℤ × ℝ)) : ∀ (t : Tree) (m' : ℤ → ℝ), Rep k lo t m' →
    (∀ p ∈ ps, lo ≤ p.1 ∧ p.1 < lo + 2 ^ k ∧ p.2 = m p.1) → (∀ i, i ∉ ps.map (·.1) → m' i = m i) →
    Rep k lo (restore t ps) m := by
  induction ps with
  | nil => intro t m' h _ h2; exact h.congr fun i _ _ => h2 i (by simp)
  | cons p ps ih =>
    intro t m' h h1 h2
    obtain ⟨a1, a2, a3⟩ := h1 p (by simp)
    refine ih _ _ (h.write p.1 p.2 a1 a2) (fun q hq => h1 q (by simp [hq])) ?_
    intro i hi
    by_cases hip : i = p.1
    · rw [hip]; simp [a3]
    · rw [Function.update_of_ne hip]
      exact h2 i (by simpa [hip] using hi)

/-- C114: `prioritized_sample(n)` on nonnegative values of which at least `n` are positive draws without replacement: each index is
chosen in proportion to what is left.  It returns distinct indices with their values divided by the total, and afterwards all
values are as before (or, with `remove`, those of the sampled indices are 0). -/
theorem C114_sample (ops : List Op) (t : Tree) (h : run none ops = some t) (us : List ℝ) (remove : Bool)
    (hm : ∀ i, 0 ≤ runMap (fun _ => 0) ops i) (hu : ∀ u ∈ us, 0 ≤ u ∧ u < 1)
    (hn : us.length ≤ positives (runMap (fun _ => 0) ops) t.lo t.hi) :
    ∃ js, (sample t us remove).2 = .ok (js, js.map fun j => runMap (fun _ => 0) ops j / t.s) ∧ js.Nodup ∧
      Draws t.lo t.hi (runMap (fun _ => 0) ops) us js ∧
      ∀ i, t.lo ≤ i → i < t.hi → getItem (some (sample t us remove).1) i =
        .ok (if remove ∧ i ∈ js then 0 else runMap (fun _ => 0) ops i) := by
  obtain ⟨k, lo, hr, h0⟩ := run_rep' ops t h
  obtain ⟨e1, e2⟩ := hr.bounds
  rw [e1, e2] at hn ⊢
  obtain ⟨a1, a2, a3, a4⟩ := draw_spec k lo us t _ hr hm hu hn
  refine ⟨(draw t us).2.map (·.1), ?_, a2, a1, ?_⟩
  · unfold sample
    simp only
    rw [if_neg]
    · congr 2
      rw [List.map_map]
      apply List.map_congr_left
      intro p hp
      simp [(a3 p hp).2.2.1]
    · rintro ⟨hz, hne⟩
      have : us ≠ [] := by
        rintro rfl
        exact hne rfl
      have hlen : 0 < us.length := List.length_pos_iff.2 this
      have := total_pos hm (lt_of_lt_of_le hlen hn)
      rw [← hr.sum, hz] at this
      exact lt_irrefl _ this
  · intro i h1 h2
    cases remove with
    | true =>
      have hb := a4.bounds
      simp only [sample, if_true, getItem, true_and]
      rw [if_pos (by omega), a4.read i h1 h2]
    | false =>
      have hrr := restore_spec k lo _ (draw t us).2 _ _ a4 (fun p hp => ⟨(a3 p hp).1, (a3 p hp).2.1, (a3 p hp).2.2.1⟩)
        (fun i hi => by simp [hi])
      have hb := hrr.bounds
      simp only [sample, getItem, Bool.false_eq_true, if_false, false_and]
      rw [if_pos (by omega), hrr.read i h1 h2]

/-- Five entries with indices of both signs. -/
noncomputable def exampleOps : List Op := [.set 0 1, .set 3 2, .set (-2) 4, .del 3, .set 1 3]

example : runMap (fun _ => 0) exampleOps (-2) = 4 ∧ runMap (fun _ => 0) exampleOps 3 = 0 ∧ runMap (fun _ => 0) exampleOps 1 = 3 := by
  refine ⟨?_, ?_, ?_⟩ <;> simp [exampleOps, runMap, Function.update]

example (i : ℤ) : 0 ≤ runMap (fun _ => 0) exampleOps i := by
  simp only [exampleOps, runMap, Function.update]
  split_ifs <;> norm_num

/-- Two positive entries, from which two can be sampled. -/
example : ∃ t, run none [.set 0 1, .set 1 3] = some t ∧
    2 ≤ positives (runMap (fun _ => 0) [.set 0 1, .set 1 3]) t.lo t.hi := by
  refine ⟨_, rfl, ?_⟩
  show 2 ≤ positives (runMap (fun _ => 0) [.set 0 1, .set 1 3]) 0 2
  unfold positives
  have : (Ico (0 : ℤ) 2).filter (fun i => 0 < runMap (fun _ => 0) [.set 0 1, .set 1 3] i) = {0, 1} := by
    ext i
    simp only [mem_filter, mem_Ico, mem_insert, mem_singleton, runMap, Function.update]
    constructor
    · rintro ⟨h, _⟩; omega
    · rintro (rfl | rfl) <;> norm_num
  rw [this]
  rfl

/-- C114, violated: sampling more entries than have positive values (here 2 from a tree with one entry, of value 1) erases a value:
the second draw finds the entry again, now with value 0, and the values are restored in the order of the draws. -/
theorem C114_violated_oversampling (u v : ℝ) :
    getItem (setItem none 0 1) 0 = .ok 1 ∧
    ∃ t, setItem none 0 1 = some t ∧ (sample t [u, v] false).2 = .ok ([0, 0], [1, 0]) ∧
      getItem (some (sample t [u, v] false).1) 0 = .ok 0 := by
  refine ⟨by simp [getItem, setItem, allocIndex, write, Tree.lo, Tree.hi, read], _, rfl, ?_, ?_⟩
  · simp [sample, draw, pick, write, allocIndex, Tree.s]
  · simp [sample, draw, pick, write, allocIndex, restore, getItem, read, Tree.lo, Tree.hi]

end Verif.OldSumTree
