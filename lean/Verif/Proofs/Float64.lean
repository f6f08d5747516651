import Verif.Model.Float64
import Verif.Proofs.TreeQueueSample
import Mathlib.Algebra.BigOperators.Ring.List
import Mathlib.Algebra.Order.Ring.Rat
import Mathlib.Tactic.Linarith
set_option autoImplicit false
set_option linter.unusedSectionVars false
set_option exponentiation.threshold 1100

/-! Helper lemmas: rounding, and the tree of `prioritized.py` over `float`. -/

namespace Verif
open Node ListQueue TreeQueue Float64

namespace Float64

/-- Rounding errs by at most half a unit of the last place. -/
theorem round_err (n d : Nat) (hd : 0 < d) :
    2 * (round n d * d) ≤ 2 * n + d * 2 ^ exp (n / d) ∧
    2 * n ≤ 2 * (round n d * d) + d * 2 ^ exp (n / d) := by
  unfold round
  simp only
  have hk : 0 < 2 ^ exp (n / d) := Nat.two_pow_pos _
  generalize 2 ^ exp (n / d) = k at *
  have h := Nat.div_add_mod n (d * k)
  have hr := Nat.mod_lt n (Nat.mul_pos hd hk)
  generalize n / (d * k) = q at *
  generalize n % (d * k) = r at *
  have e1 : ∀ z : Nat, z * k * d = d * k * z := fun z => by ring
  rw [e1]
  split
  · have hlt : d * k * (q + 1) = d * k * q + d * k := by ring
    rename_i hc
    constructor <;> omega
  · rename_i hc
    constructor
    · omega
    · push Not at hc
      omega

theorem round_one_err (n : Nat) :
    2 * round n 1 ≤ 2 * n + 2 ^ exp n ∧ 2 * n ≤ 2 * round n 1 + 2 ^ exp n := by
  simpa using round_err n 1 (by omega)

theorem pow_exp_le (n : Nat) (h : exp n ≠ 0) : 2 ^ (52 + exp n) ≤ n := by
  unfold exp at h ⊢
  have hn : n ≠ 0 := by rintro rfl; simp at h
  refine le_trans (Nat.pow_le_pow_right (by omega) ?_) (Nat.log2_self_le hn)
  omega

/-- The relative error of rounding. -/
theorem round_rel (n : Nat) :
    2 ^ 53 * round n 1 ≤ (2 ^ 53 + 1) * n ∧ (2 ^ 53 - 1) * n ≤ 2 ^ 53 * round n 1 := by
  by_cases h : exp n = 0
  · have := round_of_dvd (n := n) (by rw [h]; simp)
    rw [this]
    constructor <;> omega
  · have h1 := pow_exp_le n h
    obtain ⟨h2, h3⟩ := round_one_err n
    rw [Nat.pow_add] at h1
    generalize 2 ^ exp n = k at *
    generalize round n 1 = v at *
    constructor <;> omega

theorem round_zero : round 0 1 = 0 := by decide

theorem round_pos {n : Nat} (h : 0 < n) : 0 < round n 1 := by
  have := (round_rel n).2
  omega

/-- Subtracting from a smaller representable number. -/
theorem round_sub_lt {x s y : Nat} (hx : round x 1 = x) (hs : round s 1 = s) (hxs : x < s)
    (hy : y ≤ x) : round y 1 < y + (s - x) := by
  have d1 : 2 ^ exp y ∣ x := (Nat.pow_dvd_pow 2 (exp_mono hy)).trans (dvd_of_round hx)
  have d2 : 2 ^ exp y ∣ s := (Nat.pow_dvd_pow 2 (exp_mono (by omega))).trans (dvd_of_round hs)
  have d3 : 2 ^ exp y ≤ s - x := Nat.le_of_dvd (by omega) (Nat.dvd_sub d2 d1)
  have := (round_one_err y).1
  omega

/-- `uniform(0, s)` stays below `s`. -/
theorem round_variate_lt {j s : Nat} (hj : j < 2 ^ 53) (hs : 2 ^ 53 ≤ s) :
    round (j * 2 ^ 1021 * s) (2 ^ 1074) < s := by
  have key : ∀ e : Nat, round (j * 2 ^ e * s) (2 ^ (53 + e)) < s := by
    intro e
    have hE : 0 < 2 ^ e := Nat.two_pow_pos e
    have hD := Nat.pow_add 2 53 e
    generalize 2 ^ (53 + e) = D at *
    generalize 2 ^ e = E at *
    have hDp : 0 < D := by rw [hD]; positivity
    have hdiv : j * E * s / D = j * s / 2 ^ 53 := by
      rw [hD, show j * E * s = j * s * E by ring, Nat.mul_div_mul_right _ _ hE]
    have h1 := (round_err (j * E * s) D hDp).1
    rw [hdiv] at h1
    generalize round (j * E * s) D = v at *
    by_contra hv
    rw [not_lt] at hv
    have h2 : 2 * (v * 2 ^ 53) ≤ 2 * (j * s) + 2 ^ 53 * 2 ^ exp (j * s / 2 ^ 53) := by
      rw [hD] at h1
      have : E * (2 * (v * 2 ^ 53)) ≤ E * (2 * (j * s) + 2 ^ 53 * 2 ^ exp (j * s / 2 ^ 53)) := by
        calc _ = 2 * (v * (2 ^ 53 * E)) := by ring
          _ ≤ _ := h1
          _ = _ := by ring
      exact Nat.le_of_mul_le_mul_left this hE
    have h3 : j * s ≤ (2 ^ 53 - 1) * s := Nat.mul_le_mul_right s (by omega)
    have h4 : s * 2 ≤ 2 ^ 53 * 2 ^ exp (j * s / 2 ^ 53) := by omega
    by_cases he : exp (j * s / 2 ^ 53) = 0
    · rw [he] at h4
      omega
    · have h5 := pow_exp_le _ he
      rw [Nat.pow_add] at h5
      have h6 : j * s / 2 ^ 53 < s := by
        rw [Nat.div_lt_iff_lt_mul (by positivity)]
        omega
      omega
  exact key 1021

end Float64

theorem F64.add_zero' (a : F64) : a + 0 = a := by
  apply F64.m_injective
  exact a.rep

/-- The value of one number is the number. -/
theorem f64_sum_single (a : F64) : [a].sum = a := F64.add_zero' a

theorem F64.add_m (a b : F64) : (a + b).m = Float64.round (a.m + b.m) 1 := rfl
theorem F64.sub_m (a b : F64) : (a - b).m = Float64.round (a.m - b.m) 1 := rfl
theorem F64.zero_m : (0 : F64).m = 0 := rfl
theorem F64.lt_iff (a b : F64) : a < b ↔ a.m < b.m := Iff.rfl
theorem F64.le_iff (a b : F64) : a ≤ b ↔ a.m ≤ b.m := Iff.rfl

/-- The units of a slot. -/
def slotM (o : Option F64) : Nat := (o.map F64.m).getD 0

/-- The value of an inner node is the rounded sum of its children. -/
theorem inner_value (nl nr : Node F64) (v : F64) (hv : reduce List.sum nl nr = .inner nl nr v) :
    v.m = Float64.round (slotM nl.value? + slotM nr.value?) 1 := by
  unfold reduce at hv
  rcases h1 : nl.value? with _ | a <;> rcases h2 : nr.value? with _ | b <;>
    simp only [h1, h2, Option.toList_none, Option.toList_some, List.nil_append, List.cons_append,
      Node.inner.injEq, true_and, reduceCtorEq] at hv
  all_goals
    rw [← hv]
    simp only [List.sum_cons, List.sum_nil, F64.add_m, F64.zero_m, Nat.add_zero, Nat.zero_add,
      slotM, Option.map_some, Option.map_none, Option.getD_some, Option.getD_none]
  rw [b.rep]

/-- The units of all slots. -/
def unitSum (h : Nat) (node : Node F64) : Nat := ((slots h node).map slotM).sum

theorem unitSum_nil (h : Nat) : unitSum h (.nil : Node F64) = 0 := by
  simp [unitSum, slots_nil, slotM]

theorem unitSum_inner (h : Nat) (nl nr : Node F64) (v : F64) :
    unitSum (h + 1) (.inner nl nr v) = unitSum h nl + unitSum h nr := by
  simp [unitSum, slots]

/-- The value at the root of a tree of height `h` is the sum of its slots up to the rounding of `h` sums. -/
theorem value_err (h : Nat) (node : Node F64) (hs : Shaped List.sum h node) :
    (2 ^ 53) ^ h * slotM node.value? ≤ (2 ^ 53 + 1) ^ h * unitSum h node ∧
    (2 ^ 53 - 1) ^ h * unitSum h node ≤ (2 ^ 53) ^ h * slotM node.value? := by
  induction h generalizing node with
  | zero =>
    cases node with
    | nil => simp [unitSum, slots, value?]
    | leaf v => simp [unitSum, slots, value?]
    | inner l r v => exact hs.elim
  | succ h ih =>
    cases node with
    | nil => rw [unitSum_nil]; simp [value?, slotM]
    | leaf v => exact hs.elim
    | inner nl nr v =>
      obtain ⟨s1, s2, hv⟩ := hs
      have hm := inner_value nl nr v hv
      obtain ⟨a1, a2⟩ := ih nl s1
      obtain ⟨b1, b2⟩ := ih nr s2
      rw [unitSum_inner]
      obtain ⟨r1, r2⟩ := round_rel (slotM nl.value? + slotM nr.value?)
      rw [← hm] at r1 r2
      have hval : slotM (Node.inner nl nr v).value? = v.m := rfl
      rw [hval]
      generalize slotM nl.value? = A at *
      generalize slotM nr.value? = B at *
      generalize unitSum h nl = X at *
      generalize unitSum h nr = Y at *
      generalize v.m = V at *
      generalize (2 ^ 53 : Nat) = P at *
      constructor
      · calc P ^ (h + 1) * V = P ^ h * (P * V) := by ring
          _ ≤ P ^ h * ((P + 1) * (A + B)) := Nat.mul_le_mul_left _ r1
          _ = (P + 1) * (P ^ h * A + P ^ h * B) := by ring
          _ ≤ (P + 1) * ((P + 1) ^ h * X + (P + 1) ^ h * Y) :=
              Nat.mul_le_mul_left _ (Nat.add_le_add a1 b1)
          _ = _ := by ring
      · calc (P - 1) ^ (h + 1) * (X + Y) = (P - 1) * ((P - 1) ^ h * X + (P - 1) ^ h * Y) := by ring
          _ ≤ (P - 1) * (P ^ h * A + P ^ h * B) := Nat.mul_le_mul_left _ (Nat.add_le_add a2 b2)
          _ = P ^ h * ((P - 1) * (A + B)) := by ring
          _ ≤ P ^ h * (P * V) := Nat.mul_le_mul_left _ r2
          _ = _ := by ring

/-- Sums of multiples of `2 ^ k` units below `2 ^ (53 + k)` are exact. -/
theorem value_exact (k h : Nat) (node : Node F64) (hs : Shaped List.sum h node)
    (hd : ∀ o ∈ slots h node, 2 ^ k ∣ slotM o) (hb : unitSum h node < 2 ^ (53 + k)) :
    slotM node.value? = unitSum h node := by
  induction h generalizing node with
  | zero => simp [unitSum, slots]
  | succ h ih =>
    cases node with
    | nil => rw [unitSum_nil]; simp [value?, slotM]
    | leaf v => exact hs.elim
    | inner nl nr v =>
      obtain ⟨s1, s2, hv⟩ := hs
      have hm := inner_value nl nr v hv
      rw [unitSum_inner] at hb ⊢
      have hd' : ∀ o, (o ∈ slots h nl ∨ o ∈ slots h nr) → 2 ^ k ∣ slotM o := by
        intro o ho
        exact hd o (by simpa [slots, children?] using ho)
      rw [ih nl s1 (fun o ho => hd' o (.inl ho)) (by omega),
        ih nr s2 (fun o ho => hd' o (.inr ho)) (by omega)] at hm
      have hval : slotM (Node.inner nl nr v).value? = v.m := rfl
      rw [hval, hm]
      refine round_of_lt (k := k) ?_ hb
      unfold unitSum
      refine Nat.dvd_add (List.dvd_sum ?_) (List.dvd_sum ?_)
      · intro x hx
        obtain ⟨o, ho, rfl⟩ := List.mem_map.1 hx
        exact hd' o (.inl ho)
      · intro x hx
        obtain ⟨o, ho, rfl⟩ := List.mem_map.1 hx
        exact hd' o (.inr ho)

/-- Selection in a tree whose sums are exact ends at a slot with a positive number. -/
theorem find_exact (k h : Nat) (l : Int) (node : Node F64) (pos : F64) (hs : Shaped List.sum h node)
    (hd : ∀ o ∈ slots h node, 2 ^ k ∣ slotM o) (hb : unitSum h node < 2 ^ (53 + k))
    (hp : pos.m < unitSum h node) :
    ∃ i : Nat, i < 2 ^ h ∧ node.find l (l + 2 ^ h) pos = .ok (l + i) ∧
      ∃ x : F64, (slots h node)[i]? = some (some x) ∧ 0 < x.m := by
  induction h generalizing node l pos with
  | zero =>
    refine ⟨0, by simp, ?_, ?_⟩
    · unfold Node.find; simp
    · cases node with
      | nil => simp [unitSum_nil] at hp
      | leaf v => 
        refine ⟨v, by simp [slots, value?], ?_⟩
        simp [unitSum, slots, value?, slotM] at hp
        omega
      | inner a b c => exact hs.elim
  | succ h ih =>
    cases node with
    | nil => simp [unitSum_nil] at hp
    | leaf v => exact hs.elim
    | inner nl nr v =>
      have hval := value_exact k (h + 1) _ hs hd hb
      obtain ⟨s1, s2, hv⟩ := hs
      rw [unitSum_inner] at hb hp hval
      have hd' : ∀ o, (o ∈ slots h nl ∨ o ∈ slots h nr) → 2 ^ k ∣ slotM o := by
        intro o ho
        exact hd o (by simpa [slots, children?] using ho)
      have hl := value_exact k h nl s1 (fun o ho => hd' o (.inl ho)) (by omega)
      have hlen : (slots h nl).length = 2 ^ h := length_slots h nl
      have hpow : (1 : Int) ≤ 2 ^ h := by exact_mod_cast Nat.one_le_two_pow
      have hmid : (l + (l + 2 ^ (h + 1))) / 2 = l + 2 ^ h := by rw [pow_succ]; omega
      have hlv : (nl.value?.getD 0).m = unitSum h nl := by
        rw [← hl]; cases nl.value? <;> rfl
      have hfind : (Node.inner nl nr v).find l (l + 2 ^ (h + 1)) pos
          = if pos < nl.value?.getD 0 then nl.find l (l + 2 ^ h) pos
            else nr.find (l + 2 ^ h) (l + 2 ^ h + 2 ^ h) (pos - nl.value?.getD 0) := by
        rw [Node.find, if_neg (by rw [pow_succ]; omega), if_neg (by rw [pow_succ]; omega)]
        simp only [hmid]
        rw [show l + 2 ^ (h + 1) = l + 2 ^ h + 2 ^ h by rw [pow_succ]; ring]
      have hsl : slots (h + 1) (Node.inner nl nr v) = slots h nl ++ slots h nr := by
        simp [slots]
      rw [hfind, hsl]
      by_cases hlt : pos < nl.value?.getD 0
      · rw [if_pos hlt]
        rw [F64.lt_iff, hlv] at hlt
        obtain ⟨i, i1, i2, x, i3, i4⟩ := ih l nl pos s1 (fun o ho => hd' o (.inl ho)) (by omega) hlt
        refine ⟨i, by rw [pow_succ]; omega, i2, x, ?_, i4⟩
        rw [List.getElem?_append_left (by omega)]
        exact i3
      · rw [if_neg hlt]
        rw [F64.lt_iff, hlv, not_lt] at hlt
        have hsub : (pos - nl.value?.getD 0).m < unitSum h nr := by
          rw [F64.sub_m, hlv]
          have hrep : Float64.round (unitSum h nl + unitSum h nr) 1 = unitSum h nl + unitSum h nr := by
            rw [← hval]; exact v.rep
          have := round_sub_lt pos.rep hrep hp (y := pos.m - unitSum h nl) (by omega)
          omega
        obtain ⟨i, i1, i2, x, i3, i4⟩ := ih (l + 2 ^ h) nr _ s2 (fun o ho => hd' o (.inr ho))
          (by omega) hsub
        refine ⟨2 ^ h + i, by rw [pow_succ]; omega, ?_, x, ?_, i4⟩
        · rw [i2]; congr 1; push_cast; omega
        · rw [List.getElem?_append_right (by omega), hlen, Nat.add_sub_cancel_left]
          exact i3

/-- The exact total, in units of 2⁻¹⁰⁷⁴. -/
def totalM (xs : List F64) : Nat := (xs.map F64.m).sum

theorem holds_unitSum (h : Nat) (root : Node F64) (l r : Int) (xs : List F64)
    (th : TreeHolds List.sum h root l r xs) : unitSum h root = totalM xs := by
  unfold unitSum totalM
  rw [th.slots]
  simp only [List.map_append, List.map_replicate, List.map_map, List.sum_append, List.sum_replicate,
    slotM, Option.map_none, Option.getD_none, nsmul_zero, Nat.zero_add, Nat.add_zero]
  rfl

theorem holds_dvd (k h : Nat) (root : Node F64) (l r : Int) (xs : List F64)
    (th : TreeHolds List.sum h root l r xs) (hx : ∀ x ∈ xs, 2 ^ k ∣ x.m) :
    ∀ o ∈ slots h root, 2 ^ k ∣ slotM o := by
  intro o ho
  rw [th.slots] at ho
  simp only [List.mem_append, List.mem_replicate, List.mem_map] at ho
  rcases ho with (⟨_, rfl⟩ | ⟨y, hy, rfl⟩) | ⟨_, rfl⟩
  · exact Nat.dvd_zero _
  · exact hx y hy
  · exact Nat.dvd_zero _

/-- Priorities for which the sums are exact and above the subnormal range. -/
structure ExactAt (k : Nat) (xs : List F64) : Prop where
  dvd : ∀ x ∈ xs, 2 ^ k ∣ x.m
  bound : totalM xs < 2 ^ (53 + k)
  normal : ∀ x ∈ xs, x.m = 0 ∨ 2 ^ 53 ≤ x.m

theorem exactAt_set {k : Nat} {xs : List F64} (hx : ExactAt k xs) (i : Nat) : ExactAt k (xs.set i 0) := by
  obtain ⟨h1, h2, h3⟩ := hx
  refine ⟨?_, ?_, ?_⟩
  · intro x h
    rcases List.mem_or_eq_of_mem_set h with h | h
    · exact h1 x h
    · rw [h, F64.zero_m]; exact Nat.dvd_zero _
  · refine lt_of_le_of_lt ?_ h2
    clear h1 h2 h3
    unfold totalM
    induction xs generalizing i with
    | nil => simp
    | cons x xs ih =>
      cases i with
      | zero => simp [F64.zero_m]
      | succ i => simpa using ih i
  · intro x h
    rcases List.mem_or_eq_of_mem_set h with h | h
    · exact h3 x h
    · rw [h, F64.zero_m]; exact .inl rfl

theorem find_exact_holds (k : Nat) (q : TreeQueue F64) (xs : List F64) (hq : Holds List.sum q xs)
    (hx : ExactAt k xs) (hpos : 0 < numPos xs) (j : Nat) (hj : j < 2 ^ 53) :
    ∃ root l r s, q.tree = some (root, l, r) ∧ root.value? = some s ∧ s.m = totalM xs ∧
      ∃ i : Nat, ∃ hi : i < xs.length,
        root.find l r (F64.variate j hj * s) = .ok (i : Int) ∧ 0 < xs[i] := by
  obtain ⟨x, hm, hp⟩ := List.countP_pos_iff.1 hpos
  simp only [decide_eq_true_eq] at hp
  have hne : xs ≠ [] := List.ne_nil_of_mem hm
  have htot : x.m ≤ totalM xs := List.single_le_sum (by simp) _ (List.mem_map_of_mem hm)
  have hbig : 2 ^ 53 ≤ totalM xs := by
    have h0 : 0 < x.m := hp
    rcases hx.normal x hm with h | h <;> omega
  obtain ⟨hlen, ht⟩ := hq
  cases htree : q.tree with
  | none => rw [htree] at ht; exact absurd ht hne
  | some tr =>
    obtain ⟨root, l, r⟩ := tr
    rw [htree] at ht
    obtain ⟨_, h, th, _⟩ := ht
    have hun := holds_unitSum h root l r xs th
    have hd := holds_dvd k h root l r xs th hx.dvd
    have hex := value_exact k h root th.shaped hd (by rw [hun]; exact hx.bound)
    rw [hun] at hex
    cases hv : root.value? with
    | none => rw [hv] at hex; simp [slotM] at hex; omega
    | some s =>
      rw [hv] at hex
      have hs : s.m = totalM xs := hex
      refine ⟨root, l, r, s, rfl, hv, hs, ?_⟩
      have hlt : (F64.variate j hj * s).m < unitSum h root := by
        rw [hun, ← hs]
        exact round_variate_lt hj (by rw [hs]; exact hbig)
      obtain ⟨i, i1, i2, y, i3, i4⟩ := find_exact k h l root _ th.shaped hd
        (by rw [hun]; exact hx.bound) hlt
      have hl := th.hl
      rw [th.slots] at i3
      -- the slot is one of the list
      rcases Nat.lt_or_ge i (-l).toNat with hi | hi
      · rw [List.append_assoc, List.getElem?_append_left (by simpa using hi)] at i3
        simp [List.getElem?_replicate] at i3
      · rw [List.append_assoc, List.getElem?_append_right (by simpa using hi)] at i3
        simp only [List.length_replicate] at i3
        rcases Nat.lt_or_ge (i - (-l).toNat) xs.length with hi' | hi'
        · rw [List.getElem?_append_left (by simpa using hi')] at i3
          simp only [List.getElem?_map, List.getElem?_eq_getElem hi', Option.map_some,
            Option.some.injEq] at i3
          refine ⟨i - (-l).toNat, hi', ?_, ?_⟩
          · rw [th.hr, i2]; congr 1; omega
          · rw [i3]; exact i4
        · rw [List.getElem?_append_right (by simpa using hi')] at i3
          simp [List.getElem?_replicate] at i3

theorem sampleLoop_exact (k : Nat) (us : List F64) (q : TreeQueue F64) (xs : List F64)
    (hq : Holds List.sum q xs) (hx : ExactAt k xs)
    (hu : ∀ u ∈ us, ∃ j hj, u = F64.variate j hj) (hn : us.length ≤ numPos xs) :
    ∃ (ixs : List Nat) (q' : TreeQueue F64),
      SumTree.sampleLoop us q = .ok (ixs.map Int.ofNat, ixs.map (fun i => xs[i]?), q') ∧
      Holds List.sum q' (zeroAt xs ixs) ∧ ixs.length = us.length ∧ ixs.Nodup ∧
      (∀ i ∈ ixs, ∃ h : i < xs.length, 0 < xs[i]) := by
  induction us generalizing q xs with
  | nil => exact ⟨[], q, rfl, by simpa [zeroAt] using hq, rfl, by simp, by simp⟩
  | cons u us ih =>
    obtain ⟨j, hj, rfl⟩ := hu u (by simp)
    obtain ⟨root, l, r, s, ht, hval, _, i, hi, hfind, hxi⟩ :=
      find_exact_holds k q xs hq hx (by simp at hn; omega) j hj
    obtain ⟨q1, hw, hq1⟩ := write_holds List.sum q xs i 0 hq hi
    have hcount := numPos_set xs i hi hxi
    obtain ⟨ixs, q', e1, e2, e3, e4, e5⟩ := ih q1 (xs.set i 0) hq1 (exactAt_set hx i)
      (fun v hv => hu v (by simp [hv])) (by simp at hn; omega)
    have hnot : i ∉ ixs := by
      intro hmem
      obtain ⟨h1, h2⟩ := e5 i hmem
      simp at h2
    refine ⟨i :: ixs, q', ?_, ?_, by simp [e3], by simp [hnot, e4], ?_⟩
    · simp only [SumTree.sampleLoop, ht, hval, hfind]
      rw [hw]
      simp only [e1, List.map_cons, List.getElem?_eq_getElem hi]
      congr 3
      · congr 1
        apply List.map_congr_left
        intro j hj
        rw [List.getElem?_set_ne (by rintro rfl; exact hnot hj)]
    · simpa [zeroAt] using e2
    · intro j hj
      rcases List.mem_cons.1 hj with rfl | hj
      · exact ⟨hi, hxi⟩
      · obtain ⟨h1, h2⟩ := e5 j hj
        have hne : i ≠ j := by rintro rfl; exact hnot hj
        rw [List.getElem_set_ne hne] at h2
        exact ⟨by simpa using h1, h2⟩

/-! ### The number of slots of the tree -/

section Width
variable {V : Type _}

/-- The number of slots. -/
def width (q : TreeQueue V) : Int :=
  match q.tree with
  | none => 0
  | some (_, l, r) => r - l

theorem write_width (op : List V → V) (q q' : TreeQueue V) (i : Int) (v x : Option V)
    (h : q.write op i v = .ok (x, q')) : width q' = width q := by
  unfold TreeQueue.write at h
  split at h
  · simp at h
  · rename_i root l r ht
    split at h
    · simp at h
    · simp only [Except.ok.injEq, Prod.mk.injEq] at h
      rw [← h.2]
      simp [width, ht]

theorem grow_width (op : List V → V) (q : TreeQueue V) (xs : List V) (hq : Holds op q xs) :
    width q.grow = width q ∨ width q.grow ≤ 4 * xs.length := by
  obtain ⟨hlen, ht⟩ := hq
  unfold grow
  split
  · rename_i root l r hsome
    rw [hsome] at ht
    obtain ⟨hne, h, th, c0, c1⟩ := ht
    have hr := th.hr
    split
    · rename_i hfull
      split
      · right
        simp only [width]
        rw [hlen] at hfull
        cases h with
        | zero => have := c0 rfl; simp at hr; omega
        | succ h' =>
          have := c1 h' rfl
          rw [pow_succ] at hr
          omega
      · exact .inl rfl
    · exact .inl rfl
  · exact .inl rfl

theorem step_width (op : List V → V) (q : TreeQueue V) (xs : List V) (hq : Holds op q xs)
    (o : TreeQueue.Op V) :
    width (q.step op o).1 ≤ width q ∨ width (q.step op o).1 ≤ 4 * (ListQueue.step xs o).1.length := by
  cases o with
  | append v =>
    simp only [TreeQueue.step, ListQueue.step, List.length_append, List.length_singleton]
    rcases h : q.append op v with e | q'
    · exact .inl le_rfl
    · unfold TreeQueue.append at h
      split at h
      · simp only [Except.ok.injEq] at h
        rw [← h]
        right
        simp only [width]
        push_cast
        omega
      · split at h
        · simp at h
        · rename_i q1 hw
          simp only [Except.ok.injEq] at h
          have h1 := write_width _ _ _ _ _ _ hw
          have h2 : width q' = width q1 := by rw [← h]; rfl
          simp only
          rw [h2, h1]
          rcases grow_width op q xs hq with h3 | h3
          · exact .inl h3.le
          · right; push_cast; omega
        · simp at h
  | popleft =>
    left
    simp only [TreeQueue.step]
    have hw0 : 0 ≤ width q := by
      obtain ⟨_, ht⟩ := hq
      unfold width
      split at ht
      · rename_i h; rw [h]
      · rename_i h; rw [h]
        obtain ⟨_, h, th, _⟩ := ht
        have := th.hr
        have hp : (0 : Int) < 2 ^ h := by positivity
        simp only
        omega
    rcases h : q.popleft op with e | ⟨x, q'⟩
    · exact le_rfl
    · unfold TreeQueue.popleft at h
      split at h
      · simp at h
      · split at h
        · simp at h
        · rename_i ret q1 hw
          have h1 := write_width _ _ _ _ _ _ hw
          split at h
          · simp only [Except.ok.injEq, Prod.mk.injEq] at h
            rw [← h.2]
            simpa [width] using hw0
          · split at h
            · simp at h
            · rename_i root l r ht
              have h1 : r - l = width q := by rw [← h1]; simp only [width, ht]
              split at h
              · simp at h
              · rename_i t hs
                simp only [Except.ok.injEq, Prod.mk.injEq] at h
                rw [← h.2]
                unfold shrink at hs
                split at hs
                · split at hs
                  · simp only [Except.ok.injEq] at hs
                    rw [← hs]
                    rw [← h1] at hw0 ⊢
                    simp only [width]
                    omega
                  · simp at hs
                · simp only [Except.ok.injEq] at hs
                  rw [← hs]
                  rw [← h1]
                  simp only [width]
                  omega
  | setitem ix v =>
    left
    simp only [TreeQueue.step]
    rcases h : q.setitem op ix v with e | q'
    · exact le_rfl
    · unfold TreeQueue.setitem at h
      split at h
      · split at h
        · simp at h
        · rename_i q1 hw
          simp only [Except.ok.injEq] at h
          rw [← h]
          exact (write_width _ _ _ _ _ _ hw).le
      · simp at h

theorem run_width (op : List V → V) (law : ∀ a, op [a] = a) (N : Nat) (ops : List (TreeQueue.Op V))
    (q : TreeQueue V) (xs : List V) (hq : Holds op q xs) (hw : width q ≤ 4 * N)
    (hN : ∀ k, (ListQueue.run xs (ops.take k)).1.length ≤ N) :
    width (q.run op ops).1 ≤ 4 * N := by
  induction ops generalizing q xs with
  | nil => exact hw
  | cons o os ih =>
    have h1 := hN 1
    simp only [List.take_succ_cons, List.take_zero, ListQueue.run] at h1
    have hs := step_holds law q xs o hq
    refine ih (q.step op o).1 (ListQueue.step xs o).1 hs.1 ?_ ?_
    · rcases step_width op q xs hq o with h | h
      · exact h.trans hw
      · refine h.trans ?_
        have : ((ListQueue.step xs o).1.length : Int) ≤ N := by exact_mod_cast h1
        omega
    · intro k
      exact hN (k + 1)

end Width

end Verif
