import Mathlib.Tactic.Linarith
import Mathlib.Tactic.FieldSimp
import Mathlib.Tactic.Positivity
import Verif.Model.PriorityWeights
import Verif.Proofs.PrioritizedBuffer
set_option autoImplicit false

/-! # C18: importance weights of prioritized replay -/

namespace Verif
open PWE

theorem rpow_neg_le_one {x b : ℝ} (hx : 1 ≤ x) (hb : 0 ≤ b) : 0 < x ^ (-b) ∧ x ^ (-b) ≤ 1 :=
  ⟨Real.rpow_pos_of_pos (by linarith) _, Real.rpow_le_one_of_one_le_of_nonpos hx (by linarith)⟩

/-- C18, `normalize_by_max='batch'`: for every non-empty batch of positive
probabilities every weight is in `(0, 1]`, and a sample of minimal probability
gets weight exactly 1. -/
theorem C18_batch_weights (p : PWE) (hn : p.norm = .batch) (hb : 0 ≤ p.beta) (len : Nat)
    (probs : List ℝ) (minProb : ℝ) (hne : probs ≠ []) (hpos : ∀ q ∈ probs, 0 < q) :
    ∃ ws p', p.weights len probs minProb = .ok (ws, p') ∧ ws.length = probs.length ∧
      (∀ w ∈ ws, 0 < w ∧ w ≤ 1) ∧
      (∀ i (h : i < probs.length), (∀ q ∈ probs, probs[i] ≤ q) → ws[i]? = some 1) := by
  obtain ⟨m, hm⟩ : ∃ m, probs.min? = some m := by
    cases h : probs.min? with
    | none => exact absurd (List.min?_eq_none_iff.mp h) hne
    | some m => exact ⟨m, rfl⟩
  have hmm := List.min?_eq_some_iff.mp hm
  have hm0 : 0 < m := hpos m hmm.1
  refine ⟨_, _, by simp only [weights, hn, hm]; rfl, by simp, ?_, ?_⟩
  · intro w hw
    obtain ⟨q, hq, rfl⟩ := List.mem_map.mp hw
    exact rpow_neg_le_one ((one_le_div hm0).mpr (hmm.2 q hq)) hb
  · intro i hi hmin
    have : probs[i] = m := le_antisymm (hmin m hmm.1) (hmm.2 _ (List.getElem_mem hi))
    rw [List.getElem?_map, List.getElem?_eq_getElem hi, Option.map_some, this, div_self hm0.ne',
      Real.one_rpow]

/-- C18, `normalize_by_max='memory'`, for a sample drawn from the buffer itself:
on every reachable buffer, for all random choices and every `uniform_ratio` in
`[0, 1]`, the weights computed from what `sample` returns are in `(0, 1]`. -/
theorem C18_memory_weights {D : Type} (cap : Option Nat) (wait : Bool) (m0 : ℝ)
    (hc : cap ≠ some 0) (hm : 0 < m0) (b : PBuf D ℝ) (items : List (D × ℝ)) (mx : ℝ)
    (h : PBuf.Hist cap wait m0 b items mx) (hne : items ≠ []) (ratio : ℝ)
    (hr : 0 ≤ ratio ∧ ratio ≤ 1) (d : PBuf.Draws ℝ) (hd : d.Valid ratio items.length)
    (hl : d.uniformIxs.length + d.us.length ≤ items.length) (p : PWE) (hn : p.norm = .memory)
    (hb : 0 ≤ p.beta) (len : Nat) :
    ∃ data probs minProb b' ws p', b.sample ratio d = .ok (data, probs, minProb, b') ∧
      p.weights len probs minProb = .ok (ws, p') ∧
      ws.length = d.uniformIxs.length + d.us.length ∧ ∀ w ∈ ws, 0 < w ∧ w ≤ 1 := by
  have hi := PBuf.hist_inv hc hm h
  obtain ⟨pixs, data, probs, pri, b1, b2, e1, e2, e3, e4, e5, e6, e7, e8, e9, e10, e11⟩ :=
    hi.round hne ratio d hd hl (List.replicate (d.uniformIxs.length + d.us.length) 1)
      (by intro q hq; rw [(List.mem_replicate.mp hq).2]; exact one_pos) (by simp)
  refine ⟨data, probs, _, b1, _, _, e1, by simp only [weights, hn]; rfl, ?_, ?_⟩
  · have h1 := congrArg List.length e9
    simp only [List.length_map] at h1
    rw [List.length_map, e10, List.length_map, h1, e5, List.length_replicate]
  · intro w hw
    obtain ⟨q, hq, rfl⟩ := List.mem_map.mp hw
    -- the smallest priority
    have hlist : items.map Prod.snd ≠ [] := by simpa using hne
    obtain ⟨hmin1, hmin2⟩ := listMin_spec (items.map Prod.snd) hlist
    have hmpos : 0 < ListQueue.listMin (items.map Prod.snd) := by
      obtain ⟨x, hx, hxe⟩ := List.mem_map.mp hmin1
      rw [← hxe]; exact hi.pos x hx
    rw [e10] at hq
    obtain ⟨y, hy, rfl⟩ := List.mem_map.mp hq
    have hy2 : y ∈ items.map Prod.snd := by
      have : some y ∈ pri.map some := List.mem_map_of_mem hy
      rw [e9] at this
      obtain ⟨i, _, hi2⟩ := List.mem_map.mp this
      exact List.mem_of_getElem? hi2
    have hmy := hmin2 y hy2
    have hlenpos : (0 : ℝ) < items.length := by exact_mod_cast List.length_pos_iff.mpr hne
    have hdiv : ListQueue.listMin (items.map Prod.snd) / (items.map Prod.snd).sum
        ≤ y / (items.map Prod.snd).sum := by gcongr
    have hdpos : 0 < ListQueue.listMin (items.map Prod.snd) / (items.map Prod.snd).sum := by positivity
    apply rpow_neg_le_one _ hb
    by_cases hr0 : 0 < ratio
    · rw [if_pos hr0]
      have hmp : 0 < ratio / items.length +
          (1 - ratio) * (ListQueue.listMin (items.map Prod.snd) / (items.map Prod.snd).sum) := by
        have := mul_nonneg (sub_nonneg.mpr hr.2) hdpos.le
        have := div_pos hr0 hlenpos
        linarith
      rw [one_le_div hmp, mul_div_assoc]
      have := mul_le_mul_of_nonneg_left hdiv (sub_nonneg.mpr hr.2)
      linarith
    · have : ratio = 0 := le_antisymm (not_lt.mp hr0) hr.1
      rw [if_neg hr0, this, one_le_div hdpos]
      simpa using hdiv

/-- One call changes nothing but `beta`. -/
theorem weights_next (p p' : PWE) (len : Nat) (probs : List ℝ) (minProb : ℝ) (ws : List ℝ)
    (h : p.weights len probs minProb = .ok (ws, p')) :
    p'.beta = min 1 (p.beta + p.betaAdd) ∧ p'.betaAdd = p.betaAdd := by
  unfold weights at h
  cases hn : p.norm <;> simp only [hn] at h
  · cases h; exact ⟨rfl, rfl⟩
  · cases hm : probs.min? <;> simp only [hm] at h
    · cases h
    · cases h; exact ⟨rfl, rfl⟩
  · cases h; exact ⟨rfl, rfl⟩

/-- C18, `beta`: for every `beta0` in `[0, 1]` and `betasteps` (a positive
number or `None`) that the constructor accepts, after any calls of
`weights_from_probabilities` `beta` is the linear schedule capped at 1, whatever the
arguments of the calls; it is in `[0, 1]`, one more call never decreases it, and it is 1
once `betasteps` calls have been made. -/
theorem C18_beta (alpha beta0 : ℝ) (steps : Option ℝ) (eps : ℝ) (norm : Normalize)
    (emin emax : Option ℝ) (hs : ∀ s, steps = some s → 0 < s) (p : PWE)
    (hp : PWE.mk? alpha beta0 steps eps norm emin emax = .ok p)
    (calls : List (Nat × List ℝ × ℝ)) (p' : PWE) (hc : p.runCalls calls = .ok p') :
    p'.beta = min 1 (beta0 + calls.length * (match steps with
      | none => 0 | some s => (1 - beta0) / s)) ∧
    0 ≤ p'.beta ∧ p'.beta ≤ 1 ∧
    (∀ len probs minProb ws p'', p'.weights len probs minProb = .ok (ws, p'') → p'.beta ≤ p''.beta) ∧
    (∀ s, steps = some s → s ≤ calls.length → p'.beta = 1) := by
  obtain ⟨hb0, hb1, hbeta, hadd⟩ : 0 ≤ beta0 ∧ beta0 ≤ 1 ∧ p.beta = beta0 ∧
      p.betaAdd = (match steps with | none => 0 | some s => (1 - beta0) / s) := by
    unfold PWE.mk? at hp
    split at hp
    · cases hp
    · split at hp
      · cases hp
      · rename_i h
        rw [not_not] at h
        cases steps with
        | none => cases hp; exact ⟨h.1, h.2, rfl, rfl⟩
        | some s =>
          simp only at hp
          rw [if_neg (hs s rfl).ne'] at hp
          cases hp; exact ⟨h.1, h.2, rfl, rfl⟩
  have haddnn : 0 ≤ p.betaAdd := by
    rw [hadd]
    cases steps with
    | none => exact le_rfl
    | some s => exact div_nonneg (by linarith) (hs s rfl).le
  rw [← hadd]
  have hclosed : ∀ (calls : List (Nat × List ℝ × ℝ)) (q : PWE), q.runCalls calls = .ok p' → q.beta ≤ 1 →
      0 ≤ q.betaAdd → p'.beta = min 1 (q.beta + calls.length * q.betaAdd) ∧ p'.betaAdd = q.betaAdd := by
    intro calls
    induction calls with
    | nil =>
      intro q h hq _
      cases h
      simp [hq]
    | cons c cs ih =>
      intro q h hq hq0
      simp only [runCalls] at h
      cases hw : q.weights c.1 c.2.1 c.2.2 with
      | error e => rw [hw] at h; cases h
      | ok r =>
        rw [hw] at h
        obtain ⟨h1, h2⟩ := weights_next q r.2 _ _ _ r.1 hw
        obtain ⟨h3, h4⟩ := ih r.2 h (by rw [h1]; exact min_le_left _ _) (by rw [h2]; exact hq0)
        refine ⟨?_, h4.trans h2⟩
        rw [h3, h1, h2]
        have : 0 ≤ (cs.length : ℝ) * q.betaAdd := by positivity
        push_cast [List.length_cons]
        rcases le_total 1 (q.beta + q.betaAdd) with h | h
        · rw [min_eq_left h, min_eq_left (by linarith), min_eq_left (by nlinarith)]
        · rw [min_eq_right h]; congr 1; ring
  obtain ⟨hk, hk'⟩ := hclosed calls p hc (by rw [hbeta]; exact hb1) haddnn
  rw [hbeta] at hk
  have hkk : 0 ≤ (calls.length : ℝ) * p.betaAdd := by positivity
  have hle : p'.beta ≤ 1 := by rw [hk]; exact min_le_left _ _
  refine ⟨hk, ?_, hle, ?_, ?_⟩
  · rw [hk]; exact le_min zero_le_one (by linarith)
  · intro len probs minProb ws p'' h
    rw [(weights_next p' p'' _ _ _ _ h).1, hk']
    exact le_min hle (by linarith)
  · rintro s rfl hsk
    rw [hk, hadd]
    apply min_eq_left
    have hs0 := hs s rfl
    have : (1 - beta0) ≤ calls.length * ((1 - beta0) / s) := by
      rw [mul_div_assoc', le_div_iff₀ hs0]
      nlinarith
    linarith

/-- C18, the values: in all three modes the weight of a sample of probability `q` is
`(q / r) ^ -beta` with one reference probability `r` for all samples: that of a uniform
sample, `1 / len(memory)`, without normalisation, the smallest one of the batch with
`'batch'`, and the smallest one of the memory with `'memory'`. -/
theorem C18_values (p : PWE) (len : Nat) (probs : List ℝ) (minProb : ℝ) (hlen : 0 < len)
    (hpos : ∀ q ∈ probs, 0 < q) (hmin : 0 < minProb) (ws : List ℝ) (p' : PWE)
    (h : p.weights len probs minProb = .ok (ws, p')) :
    ∃ r : ℝ, (p.norm = .no → r = 1 / len) ∧ (p.norm = .memory → r = minProb) ∧
      (p.norm = .batch → r ∈ probs ∧ ∀ q ∈ probs, r ≤ q) ∧
      ws.length = probs.length ∧ ∀ (i : Nat) (hi : i < probs.length) (hi' : i < ws.length),
        0 < ws[i] ∧ ws[i] * (probs[i] / r) ^ p.beta = 1 := by
  have key : ∀ (r : ℝ), 0 < r → ∀ (i : Nat) (hi : i < probs.length),
      0 < (probs[i] / r) ^ (-p.beta) ∧ (probs[i] / r) ^ (-p.beta) * (probs[i] / r) ^ p.beta = 1 := by
    intro r hr i hi
    have : 0 < probs[i] / r := div_pos (hpos _ (List.getElem_mem hi)) hr
    refine ⟨Real.rpow_pos_of_pos this _, ?_⟩
    rw [Real.rpow_neg this.le, inv_mul_cancel₀ (Real.rpow_pos_of_pos this _).ne']
  unfold weights at h
  cases hn : p.norm <;> simp only [hn] at h
  · cases h
    refine ⟨1 / len, fun _ => rfl, (by simp), (by simp), by simp, ?_⟩
    intro i hi hi'
    have hl : (0 : ℝ) < len := by exact_mod_cast hlen
    have := key (1 / len) (by positivity) i hi
    have he : probs[i] / (1 / (len : ℝ)) = len * probs[i] := by field_simp
    rw [he] at this ⊢
    simpa using this
  · cases hm : probs.min? with
    | none => simp only [hm] at h; cases h
    | some m =>
      simp only [hm] at h
      cases h
      have hmm := List.min?_eq_some_iff.mp hm
      refine ⟨m, (by simp), (by simp), fun _ => hmm, by simp, ?_⟩
      intro i hi hi'
      simpa using key m (hpos m hmm.1) i hi
  · cases h
    refine ⟨minProb, (by simp), fun _ => rfl, (by simp), by simp, ?_⟩
    intro i hi hi'
    simpa using key minProb hmin i hi

/-- C18, priorities: with `eps > 0` and a non-negative `error_min` (the defaults
of `PrioritizedReplayBuffer`), or non-negative errors, and a non-negative
`error_max`, every priority computed from errors is positive, as
`set_last_priority` requires. -/
theorem C18_priorities_positive (p : PWE) (heps : 0 < p.eps) (errors : List ℝ)
    (hmin : (∃ m, p.errorMin = some m ∧ 0 ≤ m) ∨ ∀ d ∈ errors, 0 ≤ d)
    (hmax : ∀ m, p.errorMax = some m → 0 ≤ m) :
    (p.priorityFromErrors errors).length = errors.length ∧
    ∀ q ∈ p.priorityFromErrors errors, 0 < q := by
  refine ⟨by simp [priorityFromErrors], ?_⟩
  intro q hq
  obtain ⟨d, hd, rfl⟩ := List.mem_map.mp hq
  apply Real.rpow_pos_of_pos
  have h1 : 0 ≤ (match p.errorMin with | none => d | some m => max m d) := by
    rcases hmin with ⟨m, hm, hm0⟩ | hnn
    · rw [hm]; exact le_max_of_le_left hm0
    · cases p.errorMin with
      | none => exact hnn d hd
      | some m => exact le_max_of_le_right (hnn d hd)
  have h2 : 0 ≤ p.clipError d := by
    unfold clipError
    cases hx : p.errorMax with
    | none => exact h1
    | some m => exact le_min (hmax m hx) h1
  linarith

/-- C18, priorities: a larger error never gets a smaller priority, and errors between the
bounds are not changed by them: there the priority is `(error + eps) ^ alpha`. -/
theorem C18_priorities_monotone (p : PWE) (heps : 0 < p.eps) (ha : 0 ≤ p.alpha)
    (hmax : ∀ m, p.errorMax = some m → 0 ≤ m) (errors : List ℝ)
    (hnn : ∀ d ∈ errors, 0 ≤ d) (i j : Nat) (hi : i < errors.length) (hj : j < errors.length)
    (x y : ℝ) (hx : (p.priorityFromErrors errors)[i]? = some x)
    (hy : (p.priorityFromErrors errors)[j]? = some y) :
    (errors[i] ≤ errors[j] → x ≤ y) ∧
    ((∀ m, p.errorMin = some m → m ≤ errors[i]) → (∀ m, p.errorMax = some m → errors[i] ≤ m) →
      x = (errors[i] + p.eps) ^ p.alpha) := by
  simp only [priorityFromErrors, List.getElem?_map, List.getElem?_eq_getElem hi, Option.map_some,
    List.getElem?_eq_getElem hj, Option.some.injEq] at hx hy
  have hc0 : ∀ d, 0 ≤ d → 0 ≤ p.clipError d := by
    intro d hd
    have h1 : 0 ≤ (match p.errorMin with | none => d | some m => max m d) := by
      cases p.errorMin with
      | none => exact hd
      | some m => exact le_max_of_le_right hd
    unfold clipError
    cases hx : p.errorMax with
    | none => exact h1
    | some m => exact le_min (hmax m hx) h1
  subst hx hy
  constructor
  · intro hij
    apply Real.rpow_le_rpow (by have := hc0 _ (hnn _ (List.getElem_mem hi)); linarith) _ ha
    have hcm : p.clipError errors[i] ≤ p.clipError errors[j] := by
      unfold clipError
      cases p.errorMin <;> cases p.errorMax <;> simp only
      · exact hij
      · exact min_le_min le_rfl hij
      · exact max_le_max le_rfl hij
      · exact min_le_min le_rfl (max_le_max le_rfl hij)
    linarith
  · intro h1 h2
    have : p.clipError errors[i] = errors[i] := by
      unfold clipError
      cases hm : p.errorMin <;> cases hM : p.errorMax <;> simp only
      · exact min_eq_right (h2 _ hM)
      · exact max_eq_right (h1 _ hm)
      · rw [max_eq_right (h1 _ hm)]; exact min_eq_right (h2 _ hM)
    rw [this]

-- the defaults of `PrioritizedReplayBuffer` are accepted, and the schedule is not constant
example : ∃ p, PWE.mk? (3/5) (2/5) (some 200000) (1/100) .batch (some 0) (some 1) = .ok p ∧
    p.beta = 2/5 ∧ p.betaAdd = 3/1000000 := by
  refine ⟨⟨3/5, 2/5, (1 - 2/5)/200000, 1/100, .batch, some 0, some 1⟩, ?_, rfl, ?_⟩
  · unfold PWE.mk?
    rw [if_neg (by norm_num), if_neg (by norm_num)]
    simp only
    rw [if_neg (by norm_num)]
  · norm_num
example : ([1/4, 1/2] : List ℝ) ≠ [] ∧ ∀ q ∈ ([1/4, 1/2] : List ℝ), 0 < q := by
  constructor
  · simp
  · intro q hq; simp at hq; rcases hq with rfl | rfl <;> norm_num

end Verif
