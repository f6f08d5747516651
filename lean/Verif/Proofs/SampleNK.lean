import Verif.Model.SampleNK

namespace Verif.SampleNK

/-- Loop variables are well formed: sizes and ranges. -/
def Wf (n k : Nat) (v : Vars) : Prop :=
  v.result.length = 2 * k ∧ (∀ x ∈ v.result, x < n) ∧ k ≤ v.j ∧ v.j < 2 * k ∧
  ∀ r ∈ v.refills, r.length = k ∧ ∀ x ∈ r, x < n

theorem inner_ok (n k i : Nat) (sel : List Nat) (x : Nat) (v : Vars) (hi : i < k)
    (hw : Wf n k v) (hx : v.result[i]? = some x) :
    inner k i sel x v = .waiting ∨
    ∃ y v', inner k i sel x v = .ret (y, v') ∧ Wf n k v' ∧ y ∉ sel ∧
      v'.result[i]? = some y ∧ v'.result.take i = v.result.take i := by
  fun_induction inner k i sel x v with
  | case1 x v hsel hj hnone =>
    obtain ⟨h1, _, _, h4, _⟩ := hw
    rw [List.getElem?_eq_none_iff] at hnone; omega
  | case2 => left; rfl
  | case3 x v hsel hj y hy result hjk r rs hr ih =>
    obtain ⟨h1, h2, h3, h4, h5⟩ := hw
    have hyn : y < n := h2 y (List.mem_of_getElem? hy)
    have hr5 := h5 r (by simp [hr])
    have ha : Wf n k ⟨result.take k ++ r, k, rs⟩ := by
      refine ⟨by simp [result, h1, hr5.1]; omega, ?_, by simp, by simp; omega,
        fun r' hr' => h5 r' (by simp [hr, hr'])⟩
      intro z hz
      simp only [List.mem_append] at hz
      rcases hz with hz | hz
      · rcases List.mem_or_eq_of_mem_set (List.mem_of_mem_take hz) with h | h
        · exact h2 z h
        · omega
      · exact hr5.2 z hz
    have hb : (result.take k ++ r)[i]? = some y := by
      simp only [result]
      rw [List.getElem?_append_left (by simp [h1]; omega), List.getElem?_take_of_lt hi,
        List.getElem?_set_self (by omega)]
    rcases ih ha hb with h | ⟨y', v', e1, e2, e3, e4, e5⟩
    · left; exact h
    · right
      refine ⟨y', v', e1, e2, e3, e4, ?_⟩
      rw [e5]
      simp only [result]
      rw [List.take_append_of_le_length (by simp [h1]; omega), List.take_take]
      rw [Nat.min_eq_left (by omega), List.take_set_of_le (by omega)]
  | case4 x v hsel hj y hy result hjk ih =>
    obtain ⟨h1, h2, h3, h4, h5⟩ := hw
    have hyn : y < n := h2 y (List.mem_of_getElem? hy)
    have ha : Wf n k ⟨result, v.j + 1, v.refills⟩ := by
      refine ⟨by simp [result, h1], ?_, by simp; omega, by simp; omega, h5⟩
      intro z hz
      rcases List.mem_or_eq_of_mem_set hz with h | h
      · exact h2 z h
      · omega
    have hb : result[i]? = some y := by
      simp only [result]
      rw [List.getElem?_set_self (by omega)]
    rcases ih ha hb with h | ⟨y', v', e1, e2, e3, e4, e5⟩
    · left; exact h
    · right
      refine ⟨y', v', e1, e2, e3, e4, ?_⟩
      rw [e5]
      simp only [result]
      rw [List.take_set_of_le (by omega)]
  | case5 x v hsel hj =>
    exact absurd hw.2.2.2.1 hj
  | case6 x v hsel =>
    right; exact ⟨x, v, rfl, hw, hsel, hx, rfl⟩

theorem outer_ok (n k m i : Nat) (sel : List Nat) (v : Vars) (hm : i + m = k)
    (hw : Wf n k v) (hsel : ∀ x, x ∈ sel ↔ x ∈ v.result.take i)
    (hnd : (v.result.take i).Nodup) :
    outer k m i sel v = .waiting ∨
    ∃ v', outer k m i sel v = .ret v' ∧ Wf n k v' ∧ (v'.result.take k).Nodup := by
  induction m generalizing i sel v with
  | zero =>
    right
    refine ⟨v, rfl, hw, ?_⟩
    have : i = k := by omega
    rw [← this]; exact hnd
  | succ m ih =>
    have hlen := hw.1
    have hik : i < v.result.length := by omega
    simp only [outer, List.getElem?_eq_getElem hik]
    rcases inner_ok n k i sel _ v (by omega) hw (List.getElem?_eq_getElem hik) with
      h | ⟨y, v', e1, e2, e3, e4, e5⟩
    · left; rw [h]
    · rw [e1]
      simp only
      have htake : v'.result.take (i + 1) = v.result.take i ++ [y] := by
        rw [List.take_add_one, e4, e5]; rfl
      apply ih (i + 1) (y :: sel) v' (by omega) e2
      · intro z
        rw [htake]
        simp only [List.mem_cons, List.mem_append, List.mem_singleton, List.not_mem_nil, or_false, hsel z]
        exact or_comm
      · rw [htake, List.nodup_append]
        refine ⟨hnd, by simp, ?_⟩
        intro a ha b hb hab
        simp only [List.mem_cons, List.not_mem_nil, or_false] at hb
        rw [hab, hb] at ha
        exact e3 ((hsel y).2 ha)

end Verif.SampleNK
