import Verif.Proofs.Float64
set_option autoImplicit false
set_option linter.unusedSectionVars false
set_option exponentiation.threshold 1100

/-! Helper lemmas: with a variate not next to 1, selection over `float` ends at an element of the queue. -/

namespace Verif
open Node ListQueue TreeQueue Float64

namespace Float64

/-- Rounding is monotone below a representable number. -/
theorem le_round {a n : Nat} (ha : round a 1 = a) (h : a ≤ n) : a ≤ round n 1 := by
  by_cases he : exp n = 0
  · rw [round_of_dvd (n := n) (by rw [he]; simp)]; exact h
  · have hpow := pow_exp_le n he
    have hfl : n / 2 ^ exp n * 2 ^ exp n ≤ round n 1 := by
      unfold round
      simp only [Nat.div_one, Nat.one_mul]
      refine Nat.mul_le_mul_right _ ?_
      split <;> omega
    refine le_trans ?_ hfl
    have key : ∀ z, 2 ^ exp n ∣ z → z ≤ n → z ≤ n / 2 ^ exp n * 2 ^ exp n := by
      rintro z ⟨c, rfl⟩ hz
      rw [Nat.mul_comm (n / _)]
      refine Nat.mul_le_mul_left _ ?_
      rw [Nat.le_div_iff_mul_le (Nat.two_pow_pos _)]
      rwa [Nat.mul_comm]
    rcases Nat.lt_or_ge a (2 ^ (52 + exp n)) with hlt | hge
    · exact hlt.le.trans (key _ (Nat.pow_dvd_pow 2 (by omega)) hpow)
    · refine key a ?_ h
      have h1 : exp n ≤ exp a := by
        have h0 : a ≠ 0 := by have := Nat.two_pow_pos (52 + exp n); omega
        have := (Nat.le_log2 h0).2 hge
        unfold exp at this ⊢
        omega
      exact (Nat.pow_dvd_pow 2 h1).trans (dvd_of_round ha)

/-- `uniform(0, s)` with the variate `j / 2⁵³`. -/
theorem round_variate_le {j s : Nat} (hj : j < 2 ^ 53) (hs : 2 ^ 53 ≤ s) :
    2 ^ 53 * round (j * 2 ^ 1021 * s) (2 ^ 1074) ≤ (j + 1) * s := by
  have key : ∀ e : Nat, 2 ^ 53 * round (j * 2 ^ e * s) (2 ^ (53 + e)) ≤ (j + 1) * s := by
    intro e
    have hE : 0 < 2 ^ e := Nat.two_pow_pos e
    have hD := Nat.pow_add 2 53 e
    generalize 2 ^ (53 + e) = D at *
    generalize 2 ^ e = E at *
    have hDp : 0 < D := by rw [hD]; positivity
    have hdiv : j * E * s / D = j * s / 2 ^ 53 := by
      rw [hD, show j * E * s = j * s * E by ring, Nat.mul_div_mul_right _ _ hE]
    have h1 := (round_err (j * E * s) D hDp).1
    rw [hdiv] at h1
    generalize round (j * E * s) D = v at *
    have h2 : 2 * (v * 2 ^ 53) ≤ 2 * (j * s) + 2 ^ 53 * 2 ^ exp (j * s / 2 ^ 53) := by
      rw [hD] at h1
      have : E * (2 * (v * 2 ^ 53)) ≤ E * (2 * (j * s) + 2 ^ 53 * 2 ^ exp (j * s / 2 ^ 53)) := by
        calc _ = 2 * (v * (2 ^ 53 * E)) := by ring
          _ ≤ _ := h1
          _ = _ := by ring
      exact Nat.le_of_mul_le_mul_left this hE
    have h3 : 2 ^ 53 * 2 ^ exp (j * s / 2 ^ 53) ≤ 2 * s := by
      by_cases he : exp (j * s / 2 ^ 53) = 0
      · rw [he]; omega
      · have h5 := pow_exp_le _ he
        rw [Nat.pow_add] at h5
        have h6 : j * s / 2 ^ 53 ≤ s := by
          refine Nat.div_le_of_le_mul ?_
          exact Nat.mul_le_mul_right s hj.le
        omega
    have h4 : (j + 1) * s = j * s + s := by ring
    omega
  exact key 1021

end Float64

/-- Slot `i` is occupied. -/
def Occ {V : Type _} (s : List (Option V)) (i : Nat) : Prop := ∃ x, s[i]? = some (some x)

/-- Between two occupied slots there is no empty one. -/
def Convex {V : Type _} (s : List (Option V)) : Prop := ∀ i j k, i ≤ j → j ≤ k → Occ s i → Occ s k → Occ s j

/-- After an occupied slot there is no empty one. -/
def UpClosed {V : Type _} (s : List (Option V)) : Prop := ∀ i j, i ≤ j → j < s.length → Occ s i → Occ s j

section
variable {V : Type _} (s t : List (Option V))

theorem occ_left {i : Nat} (h : i < s.length) : Occ (s ++ t) i ↔ Occ s i := by
  unfold Occ; rw [List.getElem?_append_left h]

theorem occ_right (i : Nat) : Occ (s ++ t) (s.length + i) ↔ Occ t i := by
  unfold Occ; rw [List.getElem?_append_right (by omega), Nat.add_sub_cancel_left]

theorem occ_lt {i : Nat} (h : Occ s i) : i < s.length := by
  obtain ⟨x, hx⟩ := h
  by_contra hc
  rw [List.getElem?_eq_none (by omega)] at hx
  simp at hx

theorem convex_left (h : Convex (s ++ t)) : Convex s := by
  intro i j k h1 h2 hi hk
  have hk' := occ_lt s hk
  rw [← occ_left s t (by omega)] at hi hk ⊢
  exact h i j k h1 h2 hi hk

theorem convex_right (h : Convex (s ++ t)) : Convex t := by
  intro i j k h1 h2 hi hk
  rw [← occ_right s t] at hi hk ⊢
  exact h _ _ _ (by omega) (by omega) hi hk

theorem upClosed_of_convex (h : Convex (s ++ t)) {k : Nat} (hk : Occ t k) : UpClosed s := by
  intro i j h1 h2 hi
  rw [← occ_right s t] at hk
  rw [← occ_left s t (by omega)] at hi ⊢
  exact h i j _ h1 (by omega) hi hk

theorem upClosed_left (h : UpClosed (s ++ t)) : UpClosed s := by
  intro i j h1 h2 hi
  rw [← occ_left s t (by omega)] at hi ⊢
  exact h i j h1 (by simp; omega) hi

theorem upClosed_right (h : UpClosed (s ++ t)) : UpClosed t := by
  intro i j h1 h2 hi
  rw [← occ_right s t] at hi ⊢
  exact h _ _ (by omega) (by simp; omega) hi

theorem value_none {op : List V → V} (h : Nat) (node : Node V) (hs : Shaped op h node)
    (hn : ∀ i, ¬ Occ (slots h node) i) : node.value? = none := by
  induction h generalizing node with
  | zero =>
    cases node with
    | nil => rfl
    | leaf v => exact absurd ⟨v, rfl⟩ (hn 0)
    | inner l r v => exact hs.elim
  | succ h ih =>
    cases node with
    | nil => rfl
    | leaf v => exact hs.elim
    | inner nl nr v =>
      obtain ⟨s1, s2, hv⟩ := hs
      have hsl : slots (h + 1) (Node.inner nl nr v) = slots h nl ++ slots h nr := by
        simp [slots]
      rw [hsl] at hn
      have e1 := ih nl s1 (fun i hi => hn i ((occ_left _ _ (occ_lt _ hi)).2 hi))
      have e2 := ih nr s2 (fun i hi => hn _ ((occ_right _ _ i).2 hi))
      simp [reduce, e1, e2] at hv

end

theorem find_inner (h : Nat) (l : Int) (nl nr : Node F64) (v pos : F64) :
    (Node.inner nl nr v).find l (l + 2 ^ (h + 1)) pos
      = if pos < nl.value?.getD 0 then nl.find l (l + 2 ^ h) pos
        else nr.find (l + 2 ^ h) (l + 2 ^ h + 2 ^ h) (pos - nl.value?.getD 0) := by
  have hpow : (1 : Int) ≤ 2 ^ h := by exact_mod_cast Nat.one_le_two_pow
  have hmid : (l + (l + 2 ^ (h + 1))) / 2 = l + 2 ^ h := by rw [pow_succ]; omega
  rw [Node.find, if_neg (by rw [pow_succ]; omega), if_neg (by rw [pow_succ]; omega)]
  simp only [hmid]
  rw [show l + 2 ^ (h + 1) = l + 2 ^ h + 2 ^ h by rw [pow_succ]; ring]

theorem getD_m (o : Option F64) : (o.getD 0).m = slotM o := by cases o <;> rfl

/-- In a tree without empty slots after occupied ones, selection ends at an occupied slot. -/
theorem find_upClosed (h : Nat) (l : Int) (node : Node F64) (pos : F64) (hs : Shaped List.sum h node)
    (hu : UpClosed (slots h node)) (i0 : Nat) (ho : Occ (slots h node) i0) :
    ∃ i : Nat, node.find l (l + 2 ^ h) pos = .ok (l + i) ∧ Occ (slots h node) i := by
  induction h generalizing node l pos i0 with
  | zero =>
    have := occ_lt _ ho
    rw [length_slots] at this
    refine ⟨0, by unfold Node.find; simp, ?_⟩
    simp at this
    rwa [this] at ho
  | succ h ih =>
    cases node with
    | nil =>
      obtain ⟨x, hx⟩ := ho
      rw [slots_nil, List.getElem?_replicate] at hx
      split at hx <;> simp at hx
    | leaf v => exact hs.elim
    | inner nl nr v =>
      obtain ⟨s1, s2, hv⟩ := hs
      have hsl : slots (h + 1) (Node.inner nl nr v) = slots h nl ++ slots h nr := by
        simp [slots]
      rw [hsl] at hu ho ⊢
      have hl := length_slots h nl
      have hr := length_slots h nr
      rw [find_inner]
      by_cases hlt : pos < nl.value?.getD 0
      · rw [if_pos hlt]
        have hex : ∃ i, Occ (slots h nl) i := by
          by_contra hc
          push Not at hc
          rw [value_none h nl s1 hc] at hlt
          exact absurd hlt (by rw [F64.lt_iff]; simp [F64.zero_m])
        obtain ⟨i1, hi1⟩ := hex
        obtain ⟨i, e1, e2⟩ := ih l nl pos s1 (upClosed_left _ _ hu) i1 hi1
        exact ⟨i, e1, (occ_left _ _ (occ_lt _ e2)).2 e2⟩
      · rw [if_neg hlt]
        have hex : ∃ i, Occ (slots h nr) i := by
          have hi0 := occ_lt _ ho
          rw [List.length_append, hl, hr] at hi0
          have hp := Nat.two_pow_pos h
          rcases Nat.lt_or_ge i0 (2 ^ h) with hlt' | hge
          · exact ⟨0, (occ_right _ _ 0).1 (hu i0 _ (by omega) (by simp; omega) ho)⟩
          · refine ⟨i0 - 2 ^ h, (occ_right (slots h nl) _ _).1 ?_⟩
            rw [hl, Nat.add_sub_cancel' hge]
            exact ho
        obtain ⟨i1, hi1⟩ := hex
        obtain ⟨i, e1, e2⟩ := ih (l + 2 ^ h) nr _ s2 (upClosed_right _ _ hu) i1 hi1
        refine ⟨2 ^ h + i, ?_, ?_⟩
        · rw [e1]; congr 1; push_cast; omega
        · rw [← hl]; exact (occ_right _ _ i).2 e2

/-- Selection with some distance from the total ends at an occupied slot. -/
theorem find_slack (h c : Nat) (l : Int) (node : Node F64) (pos : F64) (hs : Shaped List.sum h node)
    (hcv : Convex (slots h node)) (hc : 2 * h + 1 ≤ c) (hc' : c ≤ 2 ^ 53) (hv0 : 0 < slotM node.value?)
    (hp : 2 ^ 53 * pos.m ≤ (2 ^ 53 - c) * slotM node.value?) :
    ∃ i : Nat, node.find l (l + 2 ^ h) pos = .ok (l + i) ∧ Occ (slots h node) i := by
  induction h generalizing node l pos c with
  | zero =>
    refine ⟨0, by unfold Node.find; simp, ?_⟩
    cases node with
    | nil => simp [value?, slotM] at hv0
    | leaf v => exact ⟨v, rfl⟩
    | inner a b v => exact hs.elim
  | succ h ih =>
    cases node with
    | nil => simp [value?, slotM] at hv0
    | leaf v => exact hs.elim
    | inner nl nr v =>
      obtain ⟨s1, s2, hv⟩ := hs
      have hm := inner_value nl nr v hv
      have hval : slotM (Node.inner nl nr v).value? = v.m := rfl
      rw [hval] at hv0 hp
      have hsl : slots (h + 1) (Node.inner nl nr v) = slots h nl ++ slots h nr := by
        simp [slots]
      rw [hsl] at hcv ⊢
      have hl := length_slots h nl
      rw [find_inner]
      have hrep : Float64.round (slotM nl.value?) 1 = slotM nl.value? := by
        cases nl.value? with
        | none => exact Float64.round_zero
        | some x => exact x.rep
      have hlt_iff : pos < nl.value?.getD 0 ↔ pos.m < slotM nl.value? := by
        rw [F64.lt_iff, getD_m]
      have hr0 : slotM nr.value? = 0 → v.m = slotM nl.value? := fun h0 => by
        rw [hm, h0, Nat.add_zero, hrep]
      by_cases hlt : pos < nl.value?.getD 0
      · rw [if_pos hlt]
        have hlt' := hlt_iff.1 hlt
        by_cases hex : ∃ k, Occ (slots h nr) k
        · obtain ⟨k, hk⟩ := hex
          have hex : ∃ i, Occ (slots h nl) i := by
            by_contra hc
            push Not at hc
            rw [value_none h nl s1 hc] at hlt'
            simp [slotM] at hlt'
          obtain ⟨i1, hi1⟩ := hex
          obtain ⟨i, e1, e2⟩ := find_upClosed h l nl pos s1 (upClosed_of_convex _ _ hcv hk) i1 hi1
          exact ⟨i, e1, (occ_left _ _ (occ_lt _ e2)).2 e2⟩
        · push Not at hex
          have hvl := hr0 (by rw [value_none h nr s2 hex]; rfl)
          obtain ⟨i, e1, e2⟩ := ih c l nl pos s1 (convex_left _ _ hcv) (by omega) hc'
            (by rw [← hvl]; exact hv0) (by rw [← hvl]; exact hp)
          exact ⟨i, e1, (occ_left _ _ (occ_lt _ e2)).2 e2⟩
      · rw [if_neg hlt]
        rw [hlt_iff, not_lt] at hlt
        have hrpos : 0 < slotM nr.value? := by
          rcases Nat.eq_zero_or_pos (slotM nr.value?) with h0 | h0
          · exfalso
            have hvl := hr0 h0
            rw [hvl] at hp hv0
            have : (2 ^ 53 - c) * slotM nl.value? ≤ (2 ^ 53 - 1) * slotM nl.value? :=
              Nat.mul_le_mul_right _ (by omega)
            omega
          · exact h0
        have hslack : 2 ^ 53 * (pos - nl.value?.getD 0).m ≤ (2 ^ 53 - (c - 2)) * slotM nr.value? := by
          rw [F64.sub_m, getD_m]
          obtain ⟨r1, -⟩ := round_rel (slotM nl.value? + slotM nr.value?)
          rw [← hm] at r1
          obtain ⟨q1, -⟩ := round_rel (pos.m - slotM nl.value?)
          generalize Float64.round (pos.m - slotM nl.value?) 1 = D at *
          generalize slotM nl.value? = A at *
          generalize slotM nr.value? = B at *
          generalize pos.m = X at *
          generalize v.m = W at *
          obtain ⟨Y, rfl⟩ := Nat.exists_eq_add_of_le hlt
          rw [Nat.add_sub_cancel_left] at q1
          clear hm hval hv hsl hcv hl hrep hlt_iff hr0 hlt ih s1 s2
          have hP : (2 ^ 53 : Nat) = 9007199254740992 := by norm_num
          rw [hP] at *
          obtain ⟨e, rfl⟩ := Nat.exists_eq_add_of_le (show 3 ≤ c by omega)
          -- everything over the integers
          have hc2 : ((9007199254740992 - (3 + e) : Nat) : Int) = 9007199254740992 - (3 + e) := by
            rw [Nat.cast_sub (by omega)]; push_cast; ring
          have hc3 : ((9007199254740992 - (3 + e - 2) : Nat) : Int) = 9007199254740992 - (1 + e) := by
            rw [Nat.cast_sub (by omega)]
            have : 3 + e - 2 = 1 + e := by omega
            rw [this]; push_cast; ring
          have p1 : (9007199254740992 : Int) * (A + Y) ≤ (9007199254740992 - (3 + e)) * W := by
            rw [← hc2]; exact_mod_cast hp
          have p2 : (9007199254740992 : Int) * W ≤ (9007199254740992 + 1) * (A + B) := by exact_mod_cast r1
          have p3 : (9007199254740992 : Int) * D ≤ (9007199254740992 + 1) * Y := by exact_mod_cast q1
          have goal : (9007199254740992 : Int) * D ≤ (9007199254740992 - (1 + e)) * B := by
            have hA : (0 : Int) ≤ A := by positivity
            have hB : (0 : Int) ≤ B := by positivity
            have he : (0 : Int) ≤ e := by positivity
            have hce : (0 : Int) ≤ 9007199254740992 - (3 + e) := by
              have : 3 + e ≤ 9007199254740992 := hc'
              have : (3 + e : Int) ≤ 9007199254740992 := by exact_mod_cast this
              linarith
            -- (A + Y) ≤ (1 - (2 + e)/P) (A + B)
            have s1 : (9007199254740992 : Int) * (A + Y) ≤ (9007199254740992 - (2 + e)) * (A + B) := by
              have h1 : (9007199254740992 : Int) * (9007199254740992 * (A + Y))
                  ≤ (9007199254740992 - (3 + e)) * ((9007199254740992 + 1) * (A + B)) := by
                calc (9007199254740992 : Int) * (9007199254740992 * (A + Y))
                    ≤ 9007199254740992 * ((9007199254740992 - (3 + e)) * W) := by
                      exact mul_le_mul_of_nonneg_left p1 (by norm_num)
                  _ = (9007199254740992 - (3 + e)) * (9007199254740992 * W) := by ring
                  _ ≤ _ := mul_le_mul_of_nonneg_left p2 hce
              have h2 : (9007199254740992 - (3 + e)) * ((9007199254740992 + 1) * ((A : Int) + B))
                  ≤ 9007199254740992 * ((9007199254740992 - (2 + e)) * (A + B)) := by
                have : 9007199254740992 * ((9007199254740992 - (2 + e)) * ((A : Int) + B))
                    - (9007199254740992 - (3 + e)) * ((9007199254740992 + 1) * (A + B)) = (3 + e) * (A + B) := by ring
                have h3 : (0 : Int) ≤ (3 + e) * (A + B) := by positivity
                linarith
              exact le_of_mul_le_mul_left (h1.trans h2) (by norm_num)
            have s2 : (9007199254740992 : Int) * Y ≤ (9007199254740992 - (2 + e)) * B := by
              have h3 : (0 : Int) ≤ (2 + e) * A := by positivity
              linarith
            have h1 : (9007199254740992 : Int) * (9007199254740992 * D)
                ≤ (9007199254740992 + 1) * ((9007199254740992 - (2 + e)) * B) := by
              calc (9007199254740992 : Int) * (9007199254740992 * D)
                  ≤ 9007199254740992 * ((9007199254740992 + 1) * Y) := mul_le_mul_of_nonneg_left p3 (by norm_num)
                _ = (9007199254740992 + 1) * (9007199254740992 * Y) := by ring
                _ ≤ _ := mul_le_mul_of_nonneg_left s2 (by norm_num)
            have h2 : (9007199254740992 + 1) * ((9007199254740992 - (2 + e)) * (B : Int))
                ≤ 9007199254740992 * ((9007199254740992 - (1 + e)) * B) := by
              have : 9007199254740992 * ((9007199254740992 - (1 + e)) * (B : Int))
                  - (9007199254740992 + 1) * ((9007199254740992 - (2 + e)) * B) = (2 + e) * B := by ring
              have h3 : (0 : Int) ≤ (2 + e) * B := by positivity
              linarith
            exact le_of_mul_le_mul_left (h1.trans h2) (by norm_num)
          rw [← hc3] at goal
          exact_mod_cast goal
        obtain ⟨i, e1, e2⟩ := ih (c - 2) (l + 2 ^ h) nr _ s2 (convex_right _ _ hcv) (by omega) (by omega)
          hrpos hslack
        refine ⟨2 ^ h + i, ?_, ?_⟩
        · rw [e1]; congr 1; push_cast; omega
        · rw [← hl]; exact (occ_right _ _ i).2 e2

/-- A node's value is at least each of its slots. -/
theorem value_ge (h : Nat) (node : Node F64) (hs : Shaped List.sum h node) (i : Nat) (x : F64)
    (hx : (slots h node)[i]? = some (some x)) : x.m ≤ slotM node.value? := by
  induction h generalizing node i with
  | zero =>
    cases node with
    | nil => rw [slots_nil, List.getElem?_replicate] at hx; split at hx <;> simp at hx
    | leaf v =>
      simp only [slots, value?] at hx
      cases i with
      | zero => simp at hx; rw [hx]; simp [value?, slotM]
      | succ i => simp at hx
    | inner a b v => exact hs.elim
  | succ h ih =>
    cases node with
    | nil => rw [slots_nil, List.getElem?_replicate] at hx; split at hx <;> simp at hx
    | leaf v => exact hs.elim
    | inner nl nr v =>
      obtain ⟨s1, s2, hv⟩ := hs
      have hm := inner_value nl nr v hv
      have hval : slotM (Node.inner nl nr v).value? = v.m := rfl
      have hsl : slots (h + 1) (Node.inner nl nr v) = slots h nl ++ slots h nr := by
        simp [slots]
      rw [hsl] at hx
      rw [hval, hm]
      refine Float64.le_round x.rep ?_
      rcases Nat.lt_or_ge i (slots h nl).length with hi | hi
      · rw [List.getElem?_append_left hi] at hx
        have := ih nl s1 i hx
        omega
      · rw [List.getElem?_append_right hi] at hx
        have := ih nr s2 _ hx
        omega

theorem occ_holds (h : Nat) (root : Node F64) (l r : Int) (xs : List F64)
    (th : TreeHolds List.sum h root l r xs) (i : Nat) :
    Occ (slots h root) i ↔ (-l).toNat ≤ i ∧ i < (-l).toNat + xs.length := by
  unfold Occ
  rw [th.slots, List.append_assoc]
  rcases Nat.lt_or_ge i (-l).toNat with hi | hi
  · rw [List.getElem?_append_left (by simpa using hi)]
    simp only [List.getElem?_replicate, hi, if_true]
    constructor
    · rintro ⟨x, hx⟩; simp at hx
    · intro h; omega
  · rw [List.getElem?_append_right (by simpa using hi)]
    simp only [List.length_replicate]
    rcases Nat.lt_or_ge (i - (-l).toNat) xs.length with hi' | hi'
    · rw [List.getElem?_append_left (by simpa using hi')]
      simp only [List.getElem?_map, List.getElem?_eq_getElem hi', Option.map_some]
      constructor
      · intro _; omega
      · intro _; exact ⟨_, rfl⟩
    · rw [List.getElem?_append_right (by simpa using hi')]
      constructor
      · rintro ⟨x, hx⟩
        rw [List.getElem?_replicate] at hx
        split at hx <;> simp at hx
      · intro h; omega

/-- One draw with the variate `j / 2⁵³`. -/
theorem find_range_holds (q : TreeQueue F64) (xs : List F64) (hq : Holds List.sum q xs)
    (hnorm : ∃ x ∈ xs, 2 ^ 53 ≤ x.m) (hw : width q ≤ 2 ^ 62) (j : Nat) (hj : j < 2 ^ 53) (hj' : j + 126 ≤ 2 ^ 53) :
    ∃ root l r s, q.tree = some (root, l, r) ∧ root.value? = some s ∧
      ∃ i : Nat, i < xs.length ∧ root.find l r (F64.variate j hj * s) = .ok (i : Int) := by
  obtain ⟨x, hm, hx⟩ := hnorm
  have hne : xs ≠ [] := List.ne_nil_of_mem hm
  obtain ⟨hlen, ht⟩ := hq
  cases htree : q.tree with
  | none => rw [htree] at ht; exact absurd ht hne
  | some tr =>
    obtain ⟨root, l, r⟩ := tr
    rw [htree] at ht
    obtain ⟨_, h, th, _⟩ := ht
    have hh : h ≤ 62 := by
      simp only [width, htree, th.hr] at hw
      have : (2 : Int) ^ h ≤ 2 ^ 62 := by omega
      have : 2 ^ h ≤ 2 ^ 62 := by exact_mod_cast this
      exact (Nat.pow_le_pow_iff_right (by omega)).1 this
    obtain ⟨k, hk, hkx⟩ := List.getElem_of_mem hm
    have hocc := (occ_holds h root l r xs th ((-l).toNat + k)).2 ⟨by omega, by omega⟩
    have hge : 2 ^ 53 ≤ slotM root.value? := by
      refine hx.trans (value_ge h root th.shaped ((-l).toNat + k) x ?_)
      rw [th.slots, List.append_assoc, List.getElem?_append_right (by simp), List.length_replicate,
        Nat.add_sub_cancel_left, List.getElem?_append_left (by simpa using hk), List.getElem?_map,
        List.getElem?_eq_getElem hk, hkx]
      rfl
    cases hv : root.value? with
    | none => rw [hv] at hge; simp [slotM] at hge
    | some s =>
      have hs : slotM root.value? = s.m := by rw [hv]; rfl
      refine ⟨root, l, r, s, rfl, hv, ?_⟩
      have hconv : Convex (slots h root) := by
        intro a b c h1 h2 ha hc
        rw [occ_holds h root l r xs th] at ha hc ⊢
        omega
      have hp : 2 ^ 53 * (F64.variate j hj * s).m ≤ (2 ^ 53 - (2 ^ 53 - (j + 1))) * slotM root.value? := by
        rw [hs, show 2 ^ 53 - (2 ^ 53 - (j + 1)) = j + 1 by omega]
        exact Float64.round_variate_le hj (by rw [← hs]; exact hge)
      obtain ⟨i, e1, e2⟩ := find_slack h (2 ^ 53 - (j + 1)) l root (F64.variate j hj * s) th.shaped hconv
        (by omega) (by omega) (by omega) hp
      rw [occ_holds h root l r xs th] at e2
      have hl := th.hl
      refine ⟨i - (-l).toNat, by omega, ?_⟩
      rw [th.hr, e1]
      congr 1
      omega

theorem countP_set_le (p : F64 → Bool) (xs : List F64) (i : Nat) (v : F64) :
    xs.countP p ≤ (xs.set i v).countP p + 1 := by
  induction xs generalizing i with
  | nil => simp
  | cons x xs ih =>
    cases i with
    | zero => simp only [List.set_cons_zero, List.countP_cons]; split <;> split <;> omega
    | succ i =>
      have := ih i
      simp only [List.set_cons_succ, List.countP_cons]
      omega

theorem sampleLoop_range (us : List F64) (q : TreeQueue F64) (xs : List F64)
    (hq : Holds List.sum q xs) (hw : width q ≤ 2 ^ 62)
    (hu : ∀ u ∈ us, ∃ j hj, u = F64.variate j hj ∧ j + 126 ≤ 2 ^ 53)
    (hn : us.length ≤ xs.countP (fun x => decide (2 ^ 53 ≤ x.m))) :
    ∃ (ixs : List Nat) (ps : List F64) (q' : TreeQueue F64) (ys : List F64),
      SumTree.sampleLoop us q = .ok (ixs.map Int.ofNat, ps.map some, q') ∧
      Holds List.sum q' ys ∧ ys.length = xs.length ∧ ixs.length = us.length ∧ ps.length = us.length ∧
      (∀ i ∈ ixs, i < xs.length) := by
  induction us generalizing q xs with
  | nil => exact ⟨[], [], q, xs, rfl, hq, rfl, rfl, rfl, by simp⟩
  | cons u us ih =>
    obtain ⟨j, hj, rfl, hj'⟩ := hu u (by simp)
    have hnorm : ∃ x ∈ xs, 2 ^ 53 ≤ x.m := by
      have : 0 < xs.countP (fun x => decide (2 ^ 53 ≤ x.m)) := by simp only [List.length_cons] at hn; omega
      obtain ⟨x, h1, h2⟩ := List.countP_pos_iff.1 this
      exact ⟨x, h1, by simpa using h2⟩
    obtain ⟨root, l, r, s, ht, hval, i, hi, hfind⟩ := find_range_holds q xs hq hnorm hw j hj hj'
    obtain ⟨q1, hwr, hq1⟩ := write_holds List.sum q xs i 0 hq hi
    obtain ⟨ixs, ps, q', ys, e1, e2, e3, e4, e5, e6⟩ := ih q1 (xs.set i 0) hq1
      (by rw [write_width _ _ _ _ _ _ hwr]; exact hw) (fun v hv => hu v (by simp [hv]))
      (by
        have := countP_set_le (fun x => decide (2 ^ 53 ≤ x.m)) xs i 0
        simp only [List.length_cons] at hn
        omega)
    refine ⟨i :: ixs, xs[i] :: ps, q', ys, ?_, e2, by simpa using e3, by simp [e4], by simp [e5], ?_⟩
    · simp only [SumTree.sampleLoop, ht, hval, hfind]
      rw [hwr]
      simp only [e1, List.map_cons]
      rfl
    · intro k hk
      rcases List.mem_cons.1 hk with rfl | hk
      · exact hi
      · simpa using e6 k hk

theorem restoreLoop_range (ixs : List Nat) (ps : List F64) (q : TreeQueue F64) (xs : List F64)
    (hq : Holds List.sum q xs) (hl : ps.length = ixs.length) (hi : ∀ i ∈ ixs, i < xs.length) :
    ∃ q' ys, SumTree.restoreLoop ((ixs.map Int.ofNat).zip (ps.map some)) q = .ok q' ∧
      Holds List.sum q' ys ∧ ys.length = xs.length := by
  induction ixs generalizing ps q xs with
  | nil => exact ⟨q, xs, by simp [SumTree.restoreLoop], hq, rfl⟩
  | cons i ixs ih =>
    cases ps with
    | nil => simp at hl
    | cons p ps =>
      obtain ⟨q1, hw, hq1⟩ := write_holds List.sum q xs i p hq (hi i (by simp))
      obtain ⟨q', ys, e1, e2, e3⟩ := ih ps q1 (xs.set i p) hq1 (by simpa using hl)
        (fun j hj => by simpa using hi j (by simp [hj]))
      refine ⟨q', ys, ?_, e2, by simpa using e3⟩
      simp only [List.map_cons, List.zip_cons_cons, SumTree.restoreLoop, Int.ofNat_eq_natCast]
      rw [hw]
      exact e1

end Verif
