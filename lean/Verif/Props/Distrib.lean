import Mathlib.Tactic.Ring
import Mathlib.Tactic.Linarith
import Mathlib.Tactic.FieldSimp
import Mathlib.Tactic.Positivity
import Mathlib.Algebra.BigOperators.Fin
import Mathlib.Algebra.BigOperators.Field
import Mathlib.Algebra.Order.BigOperators.Group.Finset
import Mathlib.Data.Fin.VecNotation
import Verif.Spec.Distrib
set_option autoImplicit false

/-! # C66, C67, C68, C76: categorical and Gaussian distributions, mellowmax -/

namespace Verif.Distrib

open Real

variable {n : Nat}

/-! ### Softmax -/

theorem sum_exp_pos (x : Fin n → ℝ) (i : Fin n) : 0 < ∑ j, exp (x j) :=
  Finset.sum_pos (fun j _ => exp_pos _) ⟨i, Finset.mem_univ _⟩

theorem softmax_pos (x : Fin n → ℝ) (i : Fin n) : 0 < softmax x i := div_pos (exp_pos _) (sum_exp_pos x i)

theorem softmax_sum (x : Fin n → ℝ) (hn : 0 < n) : ∑ i, softmax x i = 1 := by
  unfold softmax
  rw [← Finset.sum_div, div_self (sum_exp_pos x ⟨0, hn⟩).ne']

theorem softmax_isProb (x : Fin n → ℝ) (hn : 0 < n) : IsProb (softmax x) :=
  ⟨fun i => (softmax_pos x i).le, softmax_sum x hn⟩

theorem log_softmax (x : Fin n → ℝ) (i : Fin n) : logSoftmax x i = log (softmax x i) := by
  rw [softmax, log_div (exp_pos _).ne' (sum_exp_pos x i).ne', log_exp, logSoftmax]

/-- Gibbs' inequality. -/
theorem gibbs (p q : Fin n → ℝ) (hp : IsProb p) (hq : IsProb q) (hpos : ∀ i, 0 < p i → 0 < q i) :
    0 ≤ ∑ i, p i * (log (p i) - log (q i)) := by
  have : ∀ i, p i - q i ≤ p i * (log (p i) - log (q i)) := by
    intro i
    rcases (hp.1 i).eq_or_lt with h | h
    · rw [← h]; have := hq.1 i; linarith
    · have hqi := hpos i h
      have h1 := log_le_sub_one_of_pos (div_pos hqi h)
      rw [log_div hqi.ne' h.ne'] at h1
      have h2 : p i * (q i / p i) = q i := by field_simp
      nlinarith
  calc (0 : ℝ) = ∑ i, (p i - q i) := by rw [Finset.sum_sub_distrib, hp.2, hq.2, sub_self]
    _ ≤ _ := Finset.sum_le_sum fun i _ => this i

/-- Equality in Gibbs' inequality forces equal distributions. -/
theorem gibbs_eq (p q : Fin n → ℝ) (hp : IsProb p) (hq : IsProb q) (hq0 : ∀ i, 0 < q i)
    (hp0 : ∀ i, 0 < p i) (h0 : ∑ i, p i * (log (p i) - log (q i)) = 0) : p = q := by
  by_contra hne
  obtain ⟨k, hk⟩ : ∃ k, p k ≠ q k := by
    by_contra h; push Not at h; exact hne (funext h)
  have hle : ∀ i, p i - q i ≤ p i * (log (p i) - log (q i)) := by
    intro i
    have h1 := log_le_sub_one_of_pos (div_pos (hq0 i) (hp0 i))
    rw [log_div (hq0 i).ne' (hp0 i).ne'] at h1
    have h2 : p i * (q i / p i) = q i := by have := (hp0 i).ne'; field_simp
    nlinarith [hp0 i]
  have hlt : p k - q k < p k * (log (p k) - log (q k)) := by
    have h1 := log_lt_sub_one_of_pos (div_pos (hq0 k) (hp0 k)) (by
      intro h; rw [div_eq_one_iff_eq (hp0 k).ne'] at h; exact hk h.symm)
    rw [log_div (hq0 k).ne' (hp0 k).ne'] at h1
    have h2 : p k * (q k / p k) = q k := by have := (hp0 k).ne'; field_simp
    nlinarith [hp0 k]
  have : (0 : ℝ) < ∑ i, p i * (log (p i) - log (q i)) :=
    calc (0 : ℝ) = ∑ i, (p i - q i) := by rw [Finset.sum_sub_distrib, hp.2, hq.2, sub_self]
      _ < _ := Finset.sum_lt_sum (fun i _ => hle i) ⟨k, Finset.mem_univ _, hlt⟩
  exact this.ne' h0

/-! ### C66 -/

/-- The distribution the constructor returns. -/
theorem softmaxDist_ok {logits : Fin n → ℝ} {beta minProb : ℝ} {d : Categorical n}
    (h : softmaxDist logits beta minProb = .ok d) :
    minProb * n ≤ 1 ∧ d = ⟨softmaxProb logits beta minProb, softmaxLogProb logits beta minProb⟩ := by
  unfold softmaxDist at h
  split at h
  · injection h with h; exact ⟨by assumption, h.symm⟩
  · cases h

theorem softmaxProb_pos (logits : Fin n → ℝ) (beta minProb : ℝ) (hm : minProb * n ≤ 1) (i : Fin n) :
    0 < softmaxProb logits beta minProb i := by
  unfold softmaxProb
  split
  · rename_i h
    have := mul_nonneg (softmax_pos (fun j => beta * logits j) i).le (sub_nonneg.2 hm)
    linarith
  · exact softmax_pos _ i

/-- **C66**: the constructor accepts exactly `min_prob * n <= 1`; the probabilities are
positive, at least `min_prob` and sum to one, and `all_log_prob` are their logarithms. -/
theorem C66_probabilities (logits : Fin n → ℝ) (beta minProb : ℝ) (hn : 0 < n) :
    (minProb * n ≤ 1 → ∃ d, softmaxDist logits beta minProb = .ok d) ∧
    (¬minProb * n ≤ 1 → softmaxDist logits beta minProb = .error .assertionError) ∧
    ∀ d, softmaxDist logits beta minProb = .ok d →
      IsProb d.allProb ∧ (∀ i, 0 < d.allProb i) ∧ (∀ i, minProb ≤ d.allProb i) ∧
      (∀ i, d.allLogProb i = log (d.allProb i)) := by
  refine ⟨fun h => ⟨_, by rw [softmaxDist, if_pos h]⟩, fun h => by rw [softmaxDist, if_neg h], ?_⟩
  intro d hd
  obtain ⟨hm, rfl⟩ := softmaxDist_ok hd
  have hpos := softmaxProb_pos logits beta minProb hm
  refine ⟨⟨fun i => (hpos i).le, ?_⟩, hpos, ?_, ?_⟩
  · show ∑ i, softmaxProb logits beta minProb i = 1
    unfold softmaxProb
    split
    · rw [Finset.sum_add_distrib, ← Finset.sum_mul, softmax_sum _ hn]
      simp; ring
    · exact softmax_sum _ hn
  · intro i
    show minProb ≤ softmaxProb logits beta minProb i
    by_cases h : 0 < minProb
    · rw [softmaxProb, if_pos h]
      have := mul_nonneg (softmax_pos (fun j => beta * logits j) i).le (sub_nonneg.2 hm)
      linarith
    · exact (not_lt.1 h).trans (hpos i).le
  · intro i
    show softmaxLogProb logits beta minProb i = log (softmaxProb logits beta minProb i)
    unfold softmaxLogProb
    split
    · rfl
    · rename_i h
      rw [log_softmax, softmaxProb, if_neg h]

/-- **C66**: for positive `beta` the order of the logits is the order of the probabilities,
strictly unless `min_prob * n = 1`. -/
theorem C66_order (logits : Fin n → ℝ) (beta minProb : ℝ) (hb : 0 < beta) (d : Categorical n)
    (hd : softmaxDist logits beta minProb = .ok d) (i j : Fin n) :
    (logits i ≤ logits j → d.allProb i ≤ d.allProb j) ∧
    (minProb * n < 1 → logits i < logits j → d.allProb i < d.allProb j) := by
  obtain ⟨hm, rfl⟩ := softmaxDist_ok hd
  have hs := sum_exp_pos (fun j => beta * logits j) i
  have hle : logits i ≤ logits j → softmax (fun j => beta * logits j) i ≤ softmax (fun j => beta * logits j) j :=
    fun h => div_le_div_of_nonneg_right (exp_le_exp.2 (mul_le_mul_of_nonneg_left h hb.le)) hs.le
  have hlt : logits i < logits j → softmax (fun j => beta * logits j) i < softmax (fun j => beta * logits j) j :=
    fun h => div_lt_div_of_pos_right (exp_lt_exp.2 (mul_lt_mul_of_pos_left h hb)) hs
  constructor
  · intro h
    show softmaxProb logits beta minProb i ≤ softmaxProb logits beta minProb j
    unfold softmaxProb
    split
    · have := mul_le_mul_of_nonneg_right (hle h) (sub_nonneg.2 hm)
      linarith
    · exact hle h
  · intro hm' h
    show softmaxProb logits beta minProb i < softmaxProb logits beta minProb j
    unfold softmaxProb
    split
    · have := mul_lt_mul_of_pos_right (hlt h) (sub_pos.2 hm')
      linarith
    · exact hlt h

/-- **C66**: KL between two softmax distributions, of any parameters, is nonnegative and
zero exactly when their probabilities agree; the entropy is the Shannon entropy and lies
between zero and `log n`. -/
theorem C66_kl_entropy (l1 l2 : Fin n → ℝ) (b1 b2 m1 m2 : ℝ) (hn : 0 < n) (d e : Categorical n)
    (hd : softmaxDist l1 b1 m1 = .ok d) (he : softmaxDist l2 b2 m2 = .ok e) :
    0 ≤ d.kl e ∧ (d.kl e = 0 ↔ d.allProb = e.allProb) ∧
    d.entropy = shannon d.allProb ∧ 0 ≤ d.entropy ∧ d.entropy ≤ log n := by
  obtain ⟨-, -, h1⟩ := C66_probabilities l1 b1 m1 hn
  obtain ⟨-, -, h2⟩ := C66_probabilities l2 b2 m2 hn
  obtain ⟨p1, q1, -, g1⟩ := h1 d hd
  obtain ⟨p2, q2, -, g2⟩ := h2 e he
  have hkl : d.kl e = ∑ i, d.allProb i * (log (d.allProb i) - log (e.allProb i)) := by
    simp only [Categorical.kl, g1, g2]
  have hent : d.entropy = shannon d.allProb := by simp only [Categorical.entropy, shannon, g1]
  refine ⟨hkl ▸ gibbs _ _ p1 p2 fun i _ => q2 i, ⟨fun h => ?_, fun h => ?_⟩, hent, ?_, ?_⟩
  · rw [hkl] at h; exact gibbs_eq _ _ p1 p2 q2 q1 h
  · rw [hkl, h]; simp
  · rw [hent, shannon, neg_nonneg]
    refine Finset.sum_nonpos fun i _ => mul_nonpos_of_nonneg_of_nonpos (q1 i).le (log_nonpos (q1 i).le ?_)
    rw [← p1.2]
    exact Finset.single_le_sum (fun j _ => (q1 j).le) (Finset.mem_univ i)
  · have hn' : (0 : ℝ) < n := by exact_mod_cast hn
    have := gibbs d.allProb (fun _ => 1 / (n : ℝ)) p1 ⟨fun _ => by positivity, by
      rw [Finset.sum_const, Finset.card_univ, Fintype.card_fin, nsmul_eq_mul]; field_simp⟩ (fun _ _ => by positivity)
    simp only [one_div, log_inv, sub_neg_eq_add, mul_add, Finset.sum_add_distrib] at this
    rw [← Finset.sum_mul, p1.2, one_mul] at this
    rw [hent, shannon]; linarith

example : ∃ d, softmaxDist ![1, 2, (3 : ℝ)] 2 0.1 = .ok d :=
  (C66_probabilities ![1, 2, (3 : ℝ)] 2 0.1 (by norm_num)).1 (by norm_num)

/-! ### C67 -/

theorem kl_term (pm pv qm qv : ℝ) (hp : 0 < pv) (hq : 0 < qv) :
    0 ≤ log qv - log pv + (pv + (pm - qm) ^ 2) / qv - 1 ∧
    (log qv - log pv + (pv + (pm - qm) ^ 2) / qv - 1 = 0 ↔ pm = qm ∧ pv = qv) := by
  have e : log qv - log pv = -log (pv / qv) := by rw [log_div hp.ne' hq.ne']; ring
  have e2 : (pv + (pm - qm) ^ 2) / qv = pv / qv + (pm - qm) ^ 2 / qv := add_div ..
  have hs : 0 ≤ (pm - qm) ^ 2 / qv := div_nonneg (sq_nonneg _) hq.le
  have hl := log_le_sub_one_of_pos (div_pos hp hq)
  rw [e, e2]
  refine ⟨by linarith, ⟨fun h => ?_, ?_⟩⟩
  · have h1 : (pm - qm) ^ 2 / qv = 0 := by linarith
    have h2 : pv / qv = 1 := by
      by_contra hne
      have := log_lt_sub_one_of_pos (div_pos hp hq) hne
      linarith
    rw [div_eq_zero_iff] at h1
    refine ⟨?_, (div_eq_one_iff_eq hq.ne').1 h2⟩
    rcases h1 with h1 | h1
    · have := pow_eq_zero_iff (two_ne_zero) |>.1 h1; linarith
    · exact absurd h1 hq.ne'
  · rintro ⟨rfl, rfl⟩
    rw [div_self hp.ne', log_one]; simp

/-- **C67**: for all means and positive variances the KL divergence is nonnegative, and zero
exactly when means and variances agree. -/
theorem C67_kl (p q : Gaussian n) (hp : ∀ i, 0 < p.var i) (hq : ∀ i, 0 < q.var i) :
    0 ≤ p.kl q ∧ (p.kl q = 0 ↔ p = q) := by
  have hterm : ∀ i, 0 ≤ q.lnVar i - p.lnVar i + (p.var i + (p.mean i - q.mean i) ^ 2) / q.var i - 1 ∧
      (q.lnVar i - p.lnVar i + (p.var i + (p.mean i - q.mean i) ^ 2) / q.var i - 1 = 0 ↔
        p.mean i = q.mean i ∧ p.var i = q.var i) :=
    fun i => kl_term (p.mean i) (p.var i) (q.mean i) (q.var i) (hp i) (hq i)
  have hsum : 0 ≤ ∑ i, (q.lnVar i - p.lnVar i + (p.var i + (p.mean i - q.mean i) ^ 2) / q.var i - 1) :=
    Finset.sum_nonneg fun i _ => (hterm i).1
  refine ⟨mul_nonneg (by norm_num) hsum, ⟨fun h => ?_, ?_⟩⟩
  · have h0 : ∑ i, (q.lnVar i - p.lnVar i + (p.var i + (p.mean i - q.mean i) ^ 2) / q.var i - 1) = 0 := by
      have : (0.5 : ℝ) ≠ 0 := by norm_num
      exact (mul_eq_zero.1 h).resolve_left this
    rw [Finset.sum_eq_zero_iff_of_nonneg fun i _ => (hterm i).1] at h0
    obtain ⟨pm, pv⟩ := p
    obtain ⟨qm, qv⟩ := q
    have hall := fun i => (hterm i).2.1 (h0 i (Finset.mem_univ _))
    congr
    · exact funext fun i => (hall i).1
    · exact funext fun i => (hall i).2
  · rintro rfl
    have : ∀ i, p.lnVar i - p.lnVar i + (p.var i + (p.mean i - p.mean i) ^ 2) / p.var i - 1 = 0 := fun i =>
      ((hterm i).2.2 ⟨rfl, rfl⟩)
    rw [Gaussian.kl, Finset.sum_congr rfl fun i _ => this i, Finset.sum_const_zero, mul_zero]

example : (∀ i, 0 < (⟨![0, 1], ![1, 2]⟩ : Gaussian 2).var i) ∧
    (⟨![0, 1], ![1, 2]⟩ : Gaussian 2).kl ⟨![0, 3], ![1, 2]⟩ = 1 := by
  constructor
  · intro i; fin_cases i <;> simp
  · simp [Gaussian.kl, Gaussian.lnVar, Fin.sum_univ_two]; norm_num

/-! ### C68 -/

theorem lse_mono (x y : Fin n → ℝ) (hn : 0 < n) (h : ∀ i, x i ≤ y i) :
    log (∑ i, exp (x i)) ≤ log (∑ i, exp (y i)) :=
  log_le_log (sum_exp_pos x ⟨0, hn⟩) (Finset.sum_le_sum fun i _ => exp_le_exp.2 (h i))

theorem lse_shift (x : Fin n → ℝ) (hn : 0 < n) (c : ℝ) :
    log (∑ i, exp (x i + c)) = log (∑ i, exp (x i)) + c := by
  simp only [exp_add]
  rw [← Finset.sum_mul, log_mul (sum_exp_pos x ⟨0, hn⟩).ne' (exp_pos c).ne', log_exp]

theorem mellowmax_mono (x y : Fin n → ℝ) (omega : ℝ) (hn : 0 < n) (ho : 0 < omega) (h : ∀ i, x i ≤ y i) :
    mellowmax x omega ≤ mellowmax y omega := by
  unfold mellowmax
  refine div_le_div_of_nonneg_right ?_ ho.le
  have := lse_mono (fun i => omega * x i) (fun i => omega * y i) hn fun i => mul_le_mul_of_nonneg_left (h i) ho.le
  linarith

theorem mellowmax_shift (x : Fin n → ℝ) (omega c : ℝ) (hn : 0 < n) (ho : 0 < omega) :
    mellowmax (fun i => x i + c) omega = mellowmax x omega + c := by
  unfold mellowmax
  have : (fun i => exp (omega * (x i + c))) = fun i => exp (omega * x i + omega * c) := by
    funext i; rw [mul_add]
  rw [this, lse_shift (fun i => omega * x i) hn]
  field_simp; ring

theorem mellowmax_const (c omega : ℝ) (hn : 0 < n) (ho : 0 < omega) :
    mellowmax (fun _ : Fin n => c) omega = c := by
  unfold mellowmax
  have hn' : (n : ℝ) ≠ 0 := by positivity
  rw [Finset.sum_const, Finset.card_univ, Fintype.card_fin, nsmul_eq_mul, log_mul hn' (exp_pos _).ne', log_exp]
  field_simp; ring

/-- **C68**: mellowmax lies between any lower and any upper bound of the values, hence
between their minimum and maximum. -/
theorem C68_bounds (x : Fin n → ℝ) (omega lo hi : ℝ) (hn : 0 < n) (ho : 0 < omega)
    (hlo : ∀ i, lo ≤ x i) (hhi : ∀ i, x i ≤ hi) : lo ≤ mellowmax x omega ∧ mellowmax x omega ≤ hi := by
  constructor
  · rw [← mellowmax_const (n := n) lo omega hn ho]; exact mellowmax_mono _ _ _ hn ho hlo
  · rw [← mellowmax_const (n := n) hi omega hn ho]; exact mellowmax_mono _ _ _ hn ho hhi

/-- **C68**: it is a non-expansion in the maximum norm. -/
theorem C68_non_expansion (x y : Fin n → ℝ) (omega c : ℝ) (hn : 0 < n) (ho : 0 < omega)
    (h : ∀ i, |x i - y i| ≤ c) : |mellowmax x omega - mellowmax y omega| ≤ c := by
  have h1 := mellowmax_mono x (fun i => y i + c) omega hn ho fun i => by have := (abs_le.1 (h i)).2; linarith
  have h2 := mellowmax_mono y (fun i => x i + c) omega hn ho fun i => by have := (abs_le.1 (h i)).1; linarith
  rw [mellowmax_shift _ _ _ hn ho] at h1 h2
  rw [abs_le]; constructor <;> linarith

/-- **C68**: it is monotone, and it is the limit between mean and maximum: at least the mean
of the values. -/
theorem C68_at_least_mean (x : Fin n → ℝ) (omega : ℝ) (hn : 0 < n) (ho : 0 < omega) :
    (∑ i, x i) / n ≤ mellowmax x omega := by
  have hn' : (0 : ℝ) < n := by exact_mod_cast hn
  -- `exp (ω x_i - ω m) >= 1 + ω (x_i - m)` for the mean `m`
  set m := (∑ i, x i) / n with hm
  have hsum : (n : ℝ) ≤ ∑ i, exp (omega * (x i - m)) := by
    calc (n : ℝ) = ∑ i : Fin n, (omega * (x i - m) + 1) := by
          rw [Finset.sum_add_distrib, ← Finset.mul_sum, Finset.sum_sub_distrib]
          simp only [Finset.sum_const, Finset.card_univ, Fintype.card_fin, nsmul_eq_mul, mul_one]
          rw [hm]; field_simp; ring
      _ ≤ _ := Finset.sum_le_sum fun i _ => add_one_le_exp _
  have h1 : log n ≤ log (∑ i, exp (omega * (x i - m))) := log_le_log hn' hsum
  have h2 : 0 ≤ mellowmax (fun i => x i + -m) omega := by
    unfold mellowmax
    refine div_nonneg ?_ ho.le
    simp only [← sub_eq_add_neg]
    linarith
  rw [mellowmax_shift _ _ _ hn ho] at h2
  linarith

example : mellowmax ![0, log 3] 1 = log 2 := by
  simp [mellowmax, Fin.sum_univ_two]
  rw [exp_log (by norm_num), ← log_div (by norm_num) (by norm_num)]
  norm_num

/-! ### C76 -/

/-- The softmax of the values has at least their mellowmax as expectation. -/
theorem expect_softmax_ge (x : Fin n → ℝ) (hn : 0 < n) : mellowmax x 1 ≤ expect (softmax x) x := by
  have hn' : (0 : ℝ) < n := by exact_mod_cast hn
  have hp := softmax_isProb x hn
  have := gibbs (softmax x) (fun _ => 1 / (n : ℝ)) hp ⟨fun _ => by positivity, by
      rw [Finset.sum_const, Finset.card_univ, Fintype.card_fin, nsmul_eq_mul]; field_simp⟩ (fun _ _ => by positivity)
  have hl : ∀ i, log (softmax x i) = x i - log (∑ j, exp (x j)) := fun i => by rw [← log_softmax, logSoftmax]
  simp only [hl, one_div, log_inv, sub_neg_eq_add] at this
  have e : ∑ i, softmax x i * (x i - log (∑ j, exp (x j)) + log n) =
      expect (softmax x) x - (log (∑ j, exp (x j)) - log n) := by
    have : ∀ i, softmax x i * (x i - log (∑ j, exp (x j)) + log n) =
        softmax x i * x i - softmax x i * (log (∑ j, exp (x j)) - log n) := fun i => by ring
    simp only [this]
    rw [Finset.sum_sub_distrib, ← Finset.sum_mul, hp.2, one_mul, expect]
  rw [e] at this
  simp only [mellowmax, one_mul, div_one]
  linarith

/-- The root function increases. -/
theorem rootFn_mono (adv : Fin n → ℝ) {y y' : ℝ} (h : y ≤ y') : rootFn adv y ≤ rootFn adv y' := by
  refine Finset.sum_le_sum fun i _ => ?_
  rcases le_total 0 (adv i) with ha | ha
  · exact mul_le_mul_of_nonneg_right (exp_le_exp.2 (mul_le_mul_of_nonneg_right h ha)) ha
  · exact mul_le_mul_of_nonpos_right (exp_le_exp.2 (mul_le_mul_of_nonpos_right h ha)) ha

theorem rootFn_cont (adv : Fin n → ℝ) : Continuous (rootFn adv) := by
  unfold rootFn
  fun_prop

/-- A root of the root function is exactly an inverse temperature at which the softmax
expectation is the number subtracted. -/
theorem root_iff (x : Fin n → ℝ) (m y : ℝ) (hn : 0 < n) :
    rootFn (fun i => x i - m) y = (∑ i, exp (y * x i)) * exp (-(y * m)) *
      (expect (softmax fun i => y * x i) x - m) := by
  have hs := (sum_exp_pos (fun i => y * x i) ⟨0, hn⟩).ne'
  have e1 : rootFn (fun i => x i - m) y = exp (-(y * m)) * ∑ i, exp (y * x i) * (x i - m) := by
    rw [rootFn, Finset.mul_sum]
    refine Finset.sum_congr rfl fun i _ => ?_
    rw [mul_sub y, sub_eq_add_neg (y * x i), exp_add]; ring
  have e2 : (∑ i, exp (y * x i)) * expect (softmax fun i => y * x i) x = ∑ i, exp (y * x i) * x i := by
    rw [expect, Finset.mul_sum]
    refine Finset.sum_congr rfl fun i _ => ?_
    rw [softmax]; field_simp
  have e3 : ∑ i, exp (y * x i) * (x i - m) = (∑ i, exp (y * x i)) * (expect (softmax fun i => y * x i) x - m) := by
    rw [mul_sub, e2, Finset.sum_mul, ← Finset.sum_sub_distrib]
    refine Finset.sum_congr rfl fun i _ => by ring
  rw [e1, e3]; ring

theorem root_sign (x : Fin n → ℝ) (m y : ℝ) (hn : 0 < n) :
    (rootFn (fun i => x i - m) y = 0 ↔ expect (softmax fun i => y * x i) x = m) ∧
    (0 ≤ rootFn (fun i => x i - m) y ↔ m ≤ expect (softmax fun i => y * x i) x) := by
  have hpos : 0 < (∑ i, exp (y * x i)) * exp (-(y * m)) := mul_pos (sum_exp_pos _ ⟨0, hn⟩) (exp_pos _)
  rw [root_iff x m y hn]
  constructor
  · rw [mul_eq_zero, or_iff_right hpos.ne', sub_eq_zero]
  · rw [mul_nonneg_iff_of_pos_left hpos, sub_nonneg]

/-- **C76** (partial): whatever the values, the bracket `[beta_min, beta_max]` containing
`[0, 1]` always brackets a root, so the distribution returned has exactly the mellowmax
with `omega = 1` as its expectation.  Missing: any other `omega` (`C76_violated`). -/
theorem C76_expectation_partial (brent : Brent) (hb : BrentOk brent) (x : Fin n → ℝ) (omega lo hi : ℝ) (hn : 0 < n)
    (hlo : lo ≤ 0) (hhi : 1 ≤ hi) :
    IsProb (maxEnt brent x omega lo hi) ∧ expect (maxEnt brent x omega lo hi) x = mellowmax x 1 := by
  have h0 : rootFn (fun i => x i - mellowmax x 1) 0 ≤ 0 := by
    simp only [rootFn, zero_mul, exp_zero, one_mul]
    rw [Finset.sum_sub_distrib, Finset.sum_const, Finset.card_univ, Fintype.card_fin, nsmul_eq_mul]
    have := C68_at_least_mean x 1 hn one_pos
    have hn' : (0 : ℝ) < n := by exact_mod_cast hn
    rw [div_le_iff₀ hn'] at this
    linarith
  have h1 : 0 ≤ rootFn (fun i => x i - mellowmax x 1) 1 := by
    rw [(root_sign x _ 1 hn).2]
    simp only [one_mul]
    exact expect_softmax_ge x hn
  have ha := (rootFn_mono (fun i => x i - mellowmax x 1) hlo).trans h0
  have hb' := h1.trans (rootFn_mono (fun i => x i - mellowmax x 1) hhi)
  obtain ⟨r, hr, -, -, hroot⟩ := hb _ lo hi (rootFn_cont _) (by linarith) (mul_nonpos_of_nonpos_of_nonneg ha hb')
  have e : maxEnt brent x omega lo hi = softmax fun i => r * x i := by
    funext i
    simp only [maxEnt, maxEntBeta, hr, Option.getD_some]
  rw [e]
  exact ⟨softmax_isProb _ hn, (root_sign x _ r hn).1.1 hroot⟩

/-- **C76** (partial): among all distributions with the same expectation, the one returned
has the largest entropy. -/
theorem C76_maximum_entropy_partial (brent : Brent) (x : Fin n → ℝ) (omega lo hi : ℝ) (hn : 0 < n) (p : Fin n → ℝ)
    (hp : IsProb p) (he : expect p x = expect (maxEnt brent x omega lo hi) x) :
    shannon p ≤ shannon (maxEnt brent x omega lo hi) := by
  generalize hβ : maxEntBeta brent x omega lo hi = r
  have e : maxEnt brent x omega lo hi = softmax fun i => r * x i := by
    funext i; simp only [maxEnt, hβ]
  rw [e] at he ⊢
  set q := softmax fun i => r * x i with hq
  have hqp : IsProb q := softmax_isProb _ hn
  have hl : ∀ i, log (q i) = r * x i - log (∑ j, exp (r * x j)) := fun i => by
    rw [hq, ← log_softmax, logSoftmax]
  have hcross : ∀ p : Fin n → ℝ, IsProb p → ∑ i, p i * log (q i) = r * expect p x - log (∑ j, exp (r * x j)) := by
    intro p hp
    have : ∀ i, p i * log (q i) = r * (p i * x i) - p i * log (∑ j, exp (r * x j)) := fun i => by rw [hl]; ring
    simp only [this]
    rw [Finset.sum_sub_distrib, ← Finset.mul_sum, ← Finset.sum_mul, hp.2, one_mul, expect]
  have hg := gibbs p q hp hqp fun i _ => softmax_pos _ i
  simp only [mul_sub, Finset.sum_sub_distrib] at hg
  rw [hcross p hp, he, ← hcross q hqp] at hg
  unfold shannon
  linarith

/-- **C76** (partial): `MellowmaxDistribution` has positive probabilities that sum to one, `all_log_prob` are their
logarithms, the entropy is that of Shannon and the expectation of the values is their mellowmax with `omega = 1`. -/
theorem C76_distribution_partial (brent : Brent) (hb : BrentOk brent) (x : Fin n → ℝ) (omega : ℝ) (hn : 0 < n) :
    IsProb (mellowmaxDist brent x omega).allProb ∧ (∀ i, 0 < (mellowmaxDist brent x omega).allProb i) ∧
    (∀ i, (mellowmaxDist brent x omega).allLogProb i = log ((mellowmaxDist brent x omega).allProb i)) ∧
    (mellowmaxDist brent x omega).entropy = shannon (mellowmaxDist brent x omega).allProb ∧
    expect (mellowmaxDist brent x omega).allProb x = mellowmax x 1 := by
  obtain ⟨h1, h2⟩ := C76_expectation_partial brent hb x 1 (-10) 10 hn (by norm_num) (by norm_num)
  exact ⟨h1, fun i => by simp only [mellowmaxDist, maxEnt]; exact softmax_pos _ i, fun _ => rfl, rfl, h2⟩

/-- **C76** is false for `omega` other than one: with the values `(0, log 3)` the
expectation is `log 2` whatever `omega`, while mellowmax with `omega = 8`, the default of
`MellowmaxDistribution`, is `log 3281 / 8`; so both the function and the distribution
class ignore `omega`. -/
theorem C76_violated (brent : Brent) (hb : BrentOk brent) :
    expect (maxEnt brent ![0, log 3] 8 (-10) 10) ![0, log 3] ≠ mellowmax ![0, log 3] 8 ∧
    expect (mellowmaxDist brent ![0, log 3] 8).allProb ![0, log 3] ≠ mellowmax ![0, log 3] 8 := by
  have m1 : mellowmax ![0, log 3] 1 = log 2 := by
    simp [mellowmax, Fin.sum_univ_two]
    rw [exp_log (by norm_num), ← log_div (by norm_num) (by norm_num)]
    norm_num
  have m8 : mellowmax ![0, log 3] 8 = log 3281 / 8 := by
    have : (8 : ℝ) * log 3 = log (3 ^ 8) := by rw [log_pow]; norm_num
    simp only [mellowmax, Fin.sum_univ_two, Matrix.cons_val_zero, Matrix.cons_val_one, mul_zero, exp_zero,
      Matrix.cons_val_fin_one, this]
    rw [exp_log (by norm_num), ← log_div (by norm_num) (by norm_num)]
    norm_num
  have hne : log 2 ≠ log 3281 / 8 := by
    intro h
    have h' : log (2 ^ 8) = log 3281 := by rw [log_pow]; push_cast; linarith
    have := log_injOn_pos (Set.mem_Ioi.2 (by norm_num)) (Set.mem_Ioi.2 (by norm_num)) h'
    norm_num at this
  constructor
  · rw [(C76_expectation_partial brent hb _ 8 (-10) 10 (by norm_num) (by norm_num) (by norm_num)).2, m1, m8]
    exact hne
  · show expect (maxEnt brent ![0, log 3] 1 (-10) 10) ![0, log 3] ≠ _
    rw [(C76_expectation_partial brent hb _ 1 (-10) 10 (by norm_num) (by norm_num) (by norm_num)).2, m1, m8]
    exact hne

example : ∃ brent, BrentOk brent := brent_exists

end Verif.Distrib
