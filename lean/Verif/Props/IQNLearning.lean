import Mathlib.MeasureTheory.Integral.Bochner.Basic
import Mathlib.MeasureTheory.Integral.IntervalIntegral.FundThmCalculus
import Mathlib.Analysis.SpecialFunctions.Integrals.Basic
import Mathlib.Analysis.SpecialFunctions.Log.Deriv
import Mathlib.Analysis.SpecificLimits.Normed
import Mathlib.Analysis.Complex.ExponentialBounds
import Mathlib.Probability.StrongLaw
import Mathlib.Probability.Independence.InfinitePi
import Mathlib.Tactic.Linarith
import Mathlib.Tactic.NormNum
import Mathlib.Tactic.Positivity
import Mathlib.Tactic.FieldSimp
import Verif.Props.IQNUpdate
import Verif.Props.ResidualDQN
set_option autoImplicit false
set_option linter.unusedSectionVars false

/-! # C167: which values IQN learns -/

namespace Verif.IQNLearning
open ActionValue MDP IQNUpdate MeasureTheory Filter Topology
variable {S : Type}

/-! ## Specification -/

/-- The expected loss of the prediction `y` at the threshold `tau` when the target has the distribution `μ`. -/
noncomputable def risk (μ : Measure ℝ) (tau y : ℝ) : ℝ := ∫ t, IQN.eltwise 1 y t tau ∂μ

/-- A network that gives the action values `z s tau` for the state `s` and the threshold `tau`. -/
def net (z : S → ℝ → List ℝ) : List S → Mat → Py Ten := fun xs taus => .ok (List.zipWith (fun x r => r.map (z x)) xs taus)

/-- The thresholds of a list are between 0 and 1, and there is one. -/
def Thresholds (l : List ℝ) : Prop := l ≠ [] ∧ ∀ tau ∈ l, 0 < tau ∧ tau < 1

/-- `t` is among the targets that the agent may compute for the transition with the outcome `o`: `zg` gives the values by which the action is chosen, `zt` those of the target network,
and `draws s` says which thresholds may be drawn for the choice in the state `s`. -/
def Target (nA : Nat) (gamma : ℝ) (draws : S → List ℝ → Prop) (zg zt : S → ℝ → List ℝ) (s : S) (a : Nat) (o : Outcome S ℝ) (t : ℝ) : Prop :=
  ∃ tilde prime b row, draws o.next tilde ∧ Thresholds tilde ∧ Thresholds prime ∧ batchExperiences id gamma [[transition s a o]] = .ok b ∧
    targetValues nA (net zg) (net zt) b [tilde] [prime] = .ok [row] ∧ t ∈ row

/-- The network `z` is fully trained: with targets from the networks `zg` and `zt`, whatever distribution they have, its value minimises the expected loss at every threshold. -/
def Trained (env : Env S ℝ) (gamma : ℝ) (draws : S → List ℝ → Prop) (zg zt z : S → ℝ → List ℝ) : Prop :=
  ∀ s a, a < env.nA → ∃ μ : Outcome S ℝ → Measure ℝ,
    (∀ x ∈ env.outcomes s a, IsProbabilityMeasure (μ x.2) ∧ ∀ᵐ t ∂(μ x.2), Target env.nA gamma draws zg zt s a x.2 t) ∧
    ∀ tau, 0 < tau → tau < 1 → ∀ y, expect (env.outcomes s a) (fun o => risk (μ o) tau (evaluate (z s tau) a)) ≤ expect (env.outcomes s a) (fun o => risk (μ o) tau y)

/-- All values of the network are between `-B` and `B`. -/
def Bounded (nA : Nat) (B : ℝ) (z : S → ℝ → List ℝ) : Prop := ∀ s tau, 0 < tau → tau < 1 → ∀ a, a < nA → |evaluate (z s tau) a| ≤ B

/-- All values of the network are within `e` of those of the table. -/
def Near (nA : Nat) (e : ℝ) (Qs : S → List ℝ) (z : S → ℝ → List ℝ) : Prop :=
  ∀ s tau, 0 < tau → tau < 1 → ∀ a, a < nA → |evaluate (z s tau) a - evaluate (Qs s) a| ≤ e

/-! ## Proofs -/

theorem net_computes (z : S → ℝ → List ℝ) : Computes (net z) z := fun _ _ _ _ => rfl

theorem huber_lt {y y' t : ℝ} (h : |y - t| < |y' - t|) : IQN.huber 1 y t < IQN.huber 1 y' t := by
  have h0 := abs_nonneg (y - t)
  unfold IQN.huber
  rw [← abs_mul_abs_self (y - t), ← abs_mul_abs_self (y' - t)]
  split_ifs <;> nlinarith

theorem huber_nonneg (y t : ℝ) : 0 ≤ IQN.huber 1 y t := by
  unfold IQN.huber
  split_ifs
  · exact div_nonneg (mul_self_nonneg _) zero_le_two
  · linarith

theorem huber_le (y t : ℝ) : IQN.huber 1 y t ≤ |y - t| := by
  have h0 := abs_nonneg (y - t)
  unfold IQN.huber
  rw [← abs_mul_abs_self (y - t)]
  split_ifs <;> nlinarith

theorem eltwise_bound {tau : ℝ} (h0 : 0 < tau) (h1 : tau < 1) (y t : ℝ) : |IQN.eltwise 1 y t tau| ≤ |y - t| := by
  unfold IQN.eltwise
  rw [abs_of_nonneg (mul_nonneg (abs_nonneg _) (huber_nonneg _ _))]
  have hw : |tau - if 0 < t - y then 1 else 0| ≤ 1 := by split_ifs <;> rw [abs_le] <;> constructor <;> linarith
  exact (mul_le_of_le_one_left (huber_nonneg _ _) hw).trans (huber_le _ _)

/-- Towards the targets the loss gets smaller. -/
theorem eltwise_lt_left {tau : ℝ} (h1 : tau < 1) {y a t : ℝ} (hy : y < a) (ha : a ≤ t) : IQN.eltwise 1 a t tau < IQN.eltwise 1 y t tau := by
  have hh : IQN.huber 1 a t < IQN.huber 1 y t := huber_lt (by rw [abs_of_nonpos (by linarith), abs_of_nonpos (by linarith)]; linarith)
  unfold IQN.eltwise
  rw [if_pos (show 0 < t - y by linarith), abs_of_neg (show tau - 1 < 0 by linarith)]
  rcases ha.lt_or_eq with h | h
  · rw [if_pos (show 0 < t - a by linarith), abs_of_neg (show tau - 1 < 0 by linarith)]
    exact mul_lt_mul_of_pos_left hh (by linarith)
  · have : IQN.huber 1 a t = 0 := by simp [IQN.huber, h]
    rw [this] at hh ⊢
    rw [mul_zero]
    exact mul_pos (by linarith) hh

theorem eltwise_lt_right {tau : ℝ} (h0 : 0 < tau) {y b t : ℝ} (hy : b < y) (hb : t ≤ b) : IQN.eltwise 1 b t tau < IQN.eltwise 1 y t tau := by
  have hh : IQN.huber 1 b t < IQN.huber 1 y t := huber_lt (by rw [abs_of_nonneg (by linarith), abs_of_nonneg (by linarith)]; linarith)
  unfold IQN.eltwise
  rw [if_neg (show ¬ 0 < t - y by linarith), if_neg (show ¬ 0 < t - b by linarith), sub_zero, abs_of_pos h0]
  exact mul_lt_mul_of_pos_left hh h0

theorem eltwise_measurable (y tau : ℝ) : Measurable fun t => IQN.eltwise 1 y t tau := by
  unfold IQN.eltwise IQN.huber
  have m1 : MeasurableSet {t : ℝ | 0 < t - y} := measurableSet_lt measurable_const (measurable_id.sub_const y)
  have m2 : Measurable fun t : ℝ => |y - t| := continuous_abs.measurable.comp (measurable_const.sub measurable_id)
  have m3 : MeasurableSet {t : ℝ | |y - t| ≤ 1} := measurableSet_le m2 measurable_const
  refine Measurable.mul (continuous_abs.measurable.comp (measurable_const.sub (Measurable.ite m1 measurable_const measurable_const))) (Measurable.ite m3 ?_ ?_)
  · exact ((measurable_const.sub measurable_id).mul (measurable_const.sub measurable_id)).div_const 2
  · exact (m2.sub_const _).const_mul 1

theorem eltwise_integrable (μ : Measure ℝ) [IsProbabilityMeasure μ] {lo hi : ℝ} (hμ : ∀ᵐ t ∂μ, lo ≤ t ∧ t ≤ hi) {tau : ℝ} (h0 : 0 < tau) (h1 : tau < 1) (y : ℝ) :
    Integrable (fun t => IQN.eltwise 1 y t tau) μ := by
  refine Integrable.of_bound (eltwise_measurable y tau).aestronglyMeasurable (|y| + (|lo| + |hi|)) (hμ.mono fun t ht => ?_)
  rw [Real.norm_eq_abs]
  refine (eltwise_bound h0 h1 y t).trans ((abs_sub _ _).trans (add_le_add le_rfl ?_))
  rw [abs_le]
  constructor
  · linarith [ht.1, neg_abs_le lo, abs_nonneg hi]
  · linarith [ht.2, le_abs_self hi, abs_nonneg lo]

theorem risk_lt (μ : Measure ℝ) [IsProbabilityMeasure μ] {lo hi : ℝ} (hμ : ∀ᵐ t ∂μ, lo ≤ t ∧ t ≤ hi) {tau : ℝ} (h0 : 0 < tau) (h1 : tau < 1) (y y' : ℝ)
    (h : ∀ t, lo ≤ t → t ≤ hi → IQN.eltwise 1 y t tau < IQN.eltwise 1 y' t tau) : risk μ tau y < risk μ tau y' := by
  have i1 := eltwise_integrable μ hμ h0 h1 y
  have i2 := eltwise_integrable μ hμ h0 h1 y'
  have hae : ∀ᵐ t ∂μ, 0 < IQN.eltwise 1 y' t tau - IQN.eltwise 1 y t tau := hμ.mono fun t ht => sub_pos.2 (h t ht.1 ht.2)
  have : 0 < ∫ t, (IQN.eltwise 1 y' t tau - IQN.eltwise 1 y t tau) ∂μ := by
    rw [integral_pos_iff_support_of_nonneg_ae (hae.mono fun t ht => ht.le) (i2.sub i1)]
    refine pos_iff_ne_zero.2 fun hz => ?_
    obtain ⟨t, h1, h2⟩ := (hae.and (measure_eq_zero_iff_ae_notMem.1 hz)).exists
    exact h2 (Function.mem_support.2 h1.ne')
  rw [integral_sub i2 i1] at this
  unfold risk
  linarith

theorem expect_lt {α : Type} (l : List (ℝ × α)) (hl : IsDist l) (f g : α → ℝ) (h : ∀ x ∈ l, f x.2 < g x.2) : expect l f < expect l g := by
  have key : ∀ l : List (ℝ × α), (∀ x ∈ l, 0 ≤ x.1) → (∀ x ∈ l, f x.2 < g x.2) → expect l f ≤ expect l g ∧ ((l.map Prod.fst).sum ≠ 0 → expect l f < expect l g) := by
    intro l
    induction l with
    | nil => intro _ _; simp [expect]
    | cons x l ih =>
      intro h0 hlt
      obtain ⟨i1, i2⟩ := ih (fun y hy => h0 y (List.mem_cons_of_mem _ hy)) fun y hy => hlt y (List.mem_cons_of_mem _ hy)
      have p0 := h0 x List.mem_cons_self
      have q0 := hlt x List.mem_cons_self
      unfold expect at *
      simp only [List.map_cons, List.sum_cons]
      refine ⟨add_le_add (mul_le_mul_of_nonneg_left q0.le p0) i1, fun hs => ?_⟩
      rcases p0.lt_or_eq with hp | hp
      · exact add_lt_add_of_lt_of_le (mul_lt_mul_of_pos_left q0 hp) i1
      · rw [← hp] at hs ⊢
        simpa using i2 (by simpa using hs)
  exact (key l hl.1 h).2 (by rw [hl.2]; exact one_ne_zero)

/-- What a target is. -/
theorem target_eq {nA : Nat} (hn : 0 < nA) {gamma : ℝ} {draws : S → List ℝ → Prop} {zg zt : S → ℝ → List ℝ} {s : S} {a : Nat} {o : Outcome S ℝ} {t : ℝ}
    (h : Target nA gamma draws zg zt s a o t) :
    ∃ tilde tau, draws o.next tilde ∧ Thresholds tilde ∧ (0 < tau ∧ tau < 1) ∧ IsGreedy nA (zg o.next) tilde (greedy (quantileQ nA (tilde.map (zg o.next)))) ∧
      t = o.reward + if o.done then 0 else gamma * evaluate (zt o.next tau) (greedy (quantileQ nA (tilde.map (zg o.next)))) := by
  obtain ⟨tilde, prime, b, row, hd, ht, hp, hb, hr, hmem⟩ := h
  have hb' : batchExperiences id gamma [[transition s a o]] = .ok ⟨[s], [a], [expReward gamma [transition s a o]], [o.next], [if o.done then 1 else 0], [gamma], none⟩ := by
    obtain ⟨b', hb'⟩ : ∃ b', batchExperiences id gamma [[transition s a o]] = .ok b' := ⟨_, rfl⟩
    rw [hb']
    cases hb'
    simp [transition]
  rw [hb'] at hb
  have hb := Except.ok.inj hb
  subst hb
  simp only [targetValues, net, Bind.bind, Except.bind, List.zipWith_cons_cons, List.zipWith_nil_right, List.map_cons, List.map_nil, Except.ok.injEq, List.cons.injEq, and_true] at hr
  rw [← hr] at hmem
  simp only [evaluateQuantiles, List.map_map, List.mem_map, Function.comp] at hmem
  obtain ⟨tau, htau, rfl⟩ := hmem
  refine ⟨tilde, tau, hd, ht, hp.2 tau htau, greedy_isGreedy nA hn _ tilde, ?_⟩
  have hrew : expReward gamma [transition s a o] = o.reward := by simp [expReward, transition]
  rw [hrew]
  cases o.done <;> simp [evaluate]

/-- C167: a trained value lies between the smallest and the largest target, at every threshold. -/
theorem C167_between (env : Env S ℝ) (he : env.Valid) (gamma : ℝ) (draws : S → List ℝ → Prop) (zg zt z : S → ℝ → List ℝ) (hz : Trained env gamma draws zg zt z)
    (s : S) (a : Nat) (ha : a < env.nA) (lo hi : ℝ) (hb : ∀ x ∈ env.outcomes s a, ∀ t, Target env.nA gamma draws zg zt s a x.2 t → lo ≤ t ∧ t ≤ hi)
    (tau : ℝ) (h0 : 0 < tau) (h1 : tau < 1) : lo ≤ evaluate (z s tau) a ∧ evaluate (z s tau) a ≤ hi := by
  obtain ⟨μ, hμ, hmin⟩ := hz s a ha
  have hae : ∀ x ∈ env.outcomes s a, ∀ᵐ t ∂(μ x.2), lo ≤ t ∧ t ≤ hi := fun x hx => (hμ x hx).2.mono fun t ht => hb x hx t ht
  by_contra hcon
  rcases not_and_or.1 hcon with h | h
  · refine absurd (hmin tau h0 h1 lo) (not_le.2 (expect_lt _ (he s a ha) _ _ fun x hx => ?_))
    have := (hμ x hx).1
    exact risk_lt _ (hae x hx) h0 h1 _ _ fun t h2 _ => eltwise_lt_left h1 (not_le.1 h) h2
  · refine absurd (hmin tau h0 h1 hi) (not_le.2 (expect_lt _ (he s a ha) _ _ fun x hx => ?_))
    have := (hμ x hx).1
    exact risk_lt _ (hae x hx) h0 h1 _ _ fun t _ h2 => eltwise_lt_right h0 (not_le.1 h) h2

theorem mean_between {z : ℝ → List ℝ} {a : Nat} {lo hi : ℝ} (h : ∀ tau, 0 < tau → tau < 1 → lo ≤ evaluate (z tau) a ∧ evaluate (z tau) a ≤ hi) (l : List ℝ) (hl : Thresholds l) :
    lo ≤ meanAt z l a ∧ meanAt z l a ≤ hi := by
  have hpos : (0 : ℝ) < l.length := by exact_mod_cast List.length_pos_of_ne_nil hl.1
  have h1 : ∀ tau ∈ l, lo ≤ ((z tau)[a]?).getD 0 ∧ ((z tau)[a]?).getD 0 ≤ hi := fun tau ht => h tau (hl.2 tau ht).1 (hl.2 tau ht).2
  unfold meanAt
  rw [le_div_iff₀ hpos, div_le_iff₀ hpos]
  clear hl hpos
  induction l with
  | nil => simp
  | cons x l ih =>
    obtain ⟨i1, i2⟩ := ih fun tau ht => h1 tau (List.mem_cons_of_mem _ ht)
    have := h1 x List.mem_cons_self
    simp only [List.map_cons, List.sum_cons, List.length_cons, Nat.cast_add, Nat.cast_one]
    constructor <;> nlinarith [this.1, this.2]

section
variable [DecidableEq S] {env : Env S ℝ} (hd : TabularDQN.Deterministic env) {gamma B : ℝ} (hg0 : 0 ≤ gamma) {Qs : S → List ℝ} (hQs : Table env B Qs)
  (hs : ∀ s a, a < env.nA → evaluate (Qs s) a = backup env gamma (fun s => maxQ (Qs s)) s a)
include hd hg0 hQs hs

/-- One iteration, when the target network's values of the actions that may be chosen are known. -/
theorem step {draws : S → List ℝ → Prop} {zg zt z : S → ℝ → List ℝ} (hz : Trained env gamma draws zg zt z) {lo hi : ℝ} (hlo : lo ≤ 0) (hhi : 0 ≤ hi)
    (h : ∀ s l g tau, draws s l → Thresholds l → IsGreedy env.nA (zg s) l g → 0 < tau → tau < 1 →
      maxQ (Qs s) + lo ≤ evaluate (zt s tau) g ∧ evaluate (zt s tau) g ≤ maxQ (Qs s) + hi) :
    ∀ s tau, 0 < tau → tau < 1 → ∀ a, a < env.nA → evaluate (Qs s) a + gamma * lo ≤ evaluate (z s tau) a ∧ evaluate (z s tau) a ≤ evaluate (Qs s) a + gamma * hi := by
  intro s tau h0 h1 a ha
  refine C167_between env (TabularDQN.deterministic_valid hd) gamma draws zg zt z hz s a ha _ _ (fun x hx t ht => ?_) tau h0 h1
  obtain ⟨l, tau', hdr, hl, ⟨t0, t1⟩, hg, rfl⟩ := target_eq hQs.1 ht
  obtain ⟨o, ho⟩ := hd s a ha
  rw [ho] at hx
  have hx := List.mem_singleton.1 hx
  subst hx
  have hb : evaluate (Qs s) a = o.reward + if o.done then 0 else gamma * maxQ (Qs o.next) := by rw [hs s a ha]; simp [backup, ho, expect]
  rw [hb]
  have k1 := mul_nonneg hg0 hhi
  have k2 := mul_nonneg hg0 (neg_nonneg.2 hlo)
  cases hdone : o.done with
  | true => simp only [if_true]; constructor <;> linarith
  | false =>
    simp only [Bool.false_eq_true, if_false]
    obtain ⟨e1, e2⟩ := h _ l _ tau' hdr hl hg t0 t1
    have := mul_le_mul_of_nonneg_left e1 hg0
    have := mul_le_mul_of_nonneg_left e2 hg0
    constructor <;> linarith

/-- C167: in an environment without chance, training never leaves values too high: whatever thresholds are drawn, and whatever network chooses the actions of the targets, the
values above the optimal ones shrink by the factor `gamma` in each iteration. -/
theorem C167_not_above (draws : ℕ → S → List ℝ → Prop) (zg z : ℕ → S → ℝ → List ℝ) (hB : ∀ k, ∃ Bk, Bounded env.nA Bk (z k)) (hz : ∀ k, Trained env gamma (draws k) (zg k) (z k) (z (k + 1)))
    (e : ℝ) (he : 0 ≤ e) (h0 : ∀ s tau, 0 < tau → tau < 1 → ∀ a, a < env.nA → evaluate (z 0 s tau) a ≤ evaluate (Qs s) a + e) (k : ℕ) :
    ∀ s tau, 0 < tau → tau < 1 → ∀ a, a < env.nA → evaluate (z k s tau) a ≤ evaluate (Qs s) a + gamma ^ k * e := by
  induction k with
  | zero => simpa using h0
  | succ k ih =>
    obtain ⟨Bk, hBk⟩ := hB k
    intro s tau t0 t1 a ha
    have := (step hd hg0 hQs hs (hz k) (lo := -(|Bk| + |B|)) (hi := gamma ^ k * e) (neg_nonpos.2 (by positivity)) (by positivity)
      (fun s l g tau _ _ hg t0 t1 => ⟨?_, ?_⟩) s tau t0 t1 a ha).2
    · rw [pow_succ', mul_assoc]; exact this
    · have h1 := (abs_le.1 (hBk s tau t0 t1 g hg.1)).1
      have h2 := (abs_le.1 (max_bound env B Qs hQs s)).2
      linarith [le_abs_self Bk, le_abs_self B]
    · exact (ih s tau t0 t1 g hg.1).trans (by linarith [evaluate_le env B Qs hQs s g hg.1])

omit hd hg0 hs in
/-- What a choice by the mean over thresholds may lose. -/
theorem greedy_near {z : S → ℝ → List ℝ} {e : ℝ} (hz : Near env.nA e Qs z) {s : S} {l : List ℝ} (hl : Thresholds l) {g : Nat} (hg : IsGreedy env.nA (z s) l g) :
    maxQ (Qs s) ≤ evaluate (Qs s) g + 2 * e := by
  have hlt := greedy_lt env B Qs hQs s
  have b : ∀ a, a < env.nA → evaluate (Qs s) a - e ≤ meanAt (z s) l a ∧ meanAt (z s) l a ≤ evaluate (Qs s) a + e := fun a ha =>
    mean_between (fun tau t0 t1 => by have := abs_le.1 (hz s tau t0 t1 a ha); constructor <;> linarith [this.1, this.2]) l hl
  have h1 := (b g hg.1).2
  have h2 := (b _ hlt).1
  have h3 := hg.2 _ hlt
  have : maxQ (Qs s) = evaluate (Qs s) (greedy (Qs s)) := rfl
  linarith

omit hd hg0 hs in
theorem near_of_bounds {z : S → ℝ → List ℝ} {e : ℝ} (h : ∀ s tau, 0 < tau → tau < 1 → ∀ a, a < env.nA → evaluate (Qs s) a + -e ≤ evaluate (z s tau) a ∧ evaluate (z s tau) a ≤ evaluate (Qs s) a + e) :
    Near env.nA e Qs z := fun s tau t0 t1 a ha => by
  have := h s tau t0 t1 a ha
  rw [abs_le]; constructor <;> linarith [this.1, this.2]

/-- C167: in an environment without chance, a network that is closer to the optimal values than half the distance between the best and any worse action gets closer by the factor `gamma` in each
iteration, whatever thresholds are drawn. -/
theorem C167_close (draws : ℕ → S → List ℝ → Prop) (z : ℕ → S → ℝ → List ℝ) (hz : ∀ k, Trained env gamma (draws k) (z k) (z k) (z (k + 1))) (hg1 : gamma ≤ 1)
    (c e : ℝ) (he : 0 ≤ e) (hc : 2 * e < c) (hgap : ∀ s a, a < env.nA → evaluate (Qs s) a ≠ maxQ (Qs s) → evaluate (Qs s) a + c ≤ maxQ (Qs s))
    (h0 : Near env.nA e Qs (z 0)) (k : ℕ) : Near env.nA (gamma ^ k * e) Qs (z k) := by
  induction k with
  | zero => simpa using h0
  | succ k ih =>
    have hk : gamma ^ k * e ≤ e := mul_le_of_le_one_left he (pow_le_one₀ hg0 hg1)
    have hp : 0 ≤ gamma ^ k * e := by positivity
    refine near_of_bounds hQs fun s tau t0 t1 a ha => ?_
    have := step hd hg0 hQs hs (hz k) (lo := -(gamma ^ k * e)) (hi := gamma ^ k * e) (by linarith) hp (fun s l g tau _ hl hg t0 t1 => ?_) s tau t0 t1 a ha
    · rw [mul_neg] at this
      rw [pow_succ', mul_assoc]
      exact this
    · have h1 := greedy_near hQs ih hl hg
      have h2 : evaluate (Qs s) g = maxQ (Qs s) := by
        by_contra hne
        linarith [hgap s g hg.1 hne]
      have h3 := abs_le.1 (ih s tau t0 t1 g hg.1)
      rw [h2] at h3
      constructor <;> linarith [h3.1, h3.2]

/-- C167: in an environment without chance, with a discount factor below `1/3`, the values converge to the optimal ones from any start, whatever thresholds are drawn. -/
theorem C167_small_discount (draws : ℕ → S → List ℝ → Prop) (z : ℕ → S → ℝ → List ℝ) (hz : ∀ k, Trained env gamma (draws k) (z k) (z k) (z (k + 1)))
    (e : ℝ) (he : 0 ≤ e) (h0 : Near env.nA e Qs (z 0)) (k : ℕ) : Near env.nA ((3 * gamma) ^ k * e) Qs (z k) := by
  induction k with
  | zero => simpa using h0
  | succ k ih =>
    have hp : 0 ≤ (3 * gamma) ^ k * e := by positivity
    refine near_of_bounds hQs fun s tau t0 t1 a ha => ?_
    have := step hd hg0 hQs hs (hz k) (lo := -(3 * ((3 * gamma) ^ k * e))) (hi := 3 * ((3 * gamma) ^ k * e)) (by linarith) (by linarith) (fun s l g tau _ hl hg t0 t1 => ?_) s tau t0 t1 a ha
    · have e1 : (3 * gamma) ^ (k + 1) * e = gamma * (3 * ((3 * gamma) ^ k * e)) := by ring
      rw [e1, ← mul_neg]
      exact this
    · have h1 := greedy_near hQs ih hl hg
      have h2 := evaluate_le env B Qs hQs s g hg.1
      have h3 := abs_le.1 (ih s tau t0 t1 g hg.1)
      constructor <;> linarith [h3.1, h3.2]

/-- C167: in an environment without chance, if the thresholds for the choice are drawn once for every iteration and state, the values converge to the optimal ones from any start: the
spread of the values over the thresholds shrinks by the factor `gamma` in each iteration, and the error is at most `gamma ^ k * (e + k * d)` after `k`. -/
theorem C167_fixed (taus : ℕ → S → List ℝ) (z : ℕ → S → ℝ → List ℝ) (hz : ∀ k, Trained env gamma (fun s l => l = taus k s) (z k) (z k) (z (k + 1)))
    (e d : ℝ) (he : 0 ≤ e) (hdd : 0 ≤ d) (h0 : Near env.nA e Qs (z 0))
    (hspread : ∀ s a, a < env.nA → ∀ tau tau', 0 < tau → tau < 1 → 0 < tau' → tau' < 1 → |evaluate (z 0 s tau) a - evaluate (z 0 s tau') a| ≤ d) (k : ℕ) :
    (∀ s a, a < env.nA → ∀ tau tau', 0 < tau → tau < 1 → 0 < tau' → tau' < 1 → |evaluate (z k s tau) a - evaluate (z k s tau') a| ≤ gamma ^ k * d) ∧
    Near env.nA (gamma ^ k * (e + k * d)) Qs (z k) := by
  induction k with
  | zero => simpa using ⟨hspread, h0⟩
  | succ k ih =>
    obtain ⟨i1, i2⟩ := ih
    have hp : 0 ≤ gamma ^ k * (e + k * d) := by positivity
    have hq : 0 ≤ gamma ^ k * d := by positivity
    constructor
    · intro s a ha
      obtain ⟨o, ho⟩ := hd s a ha
      -- all targets have the same next action
      have key : ∃ m, ∀ t, Target env.nA gamma (fun s l => l = taus k s) (z k) (z k) s a o t → m ≤ t ∧ t ≤ m + gamma * (gamma ^ k * d) := by
        by_cases hdone : o.done = true
        · refine ⟨o.reward, fun t ht => ?_⟩
          obtain ⟨l, tau', -, -, -, -, rfl⟩ := target_eq hQs.1 ht
          rw [hdone, if_pos rfl]
          have := mul_nonneg hg0 hq
          constructor <;> linarith
        · by_cases hl : Thresholds (taus k o.next)
          · set g := greedy (quantileQ env.nA ((taus k o.next).map (z k o.next))) with hgdef
            have hg := (greedy_isGreedy env.nA hQs.1 (z k o.next) (taus k o.next)).1
            -- the smallest value over the thresholds
            let V : Set ℝ := {v | ∃ tau, 0 < tau ∧ tau < 1 ∧ v = evaluate (z k o.next tau) g}
            have hne : V.Nonempty := ⟨_, 1 / 2, by norm_num, by norm_num, rfl⟩
            have hbd : BddBelow V := ⟨evaluate (z k o.next (1 / 2)) g - gamma ^ k * d, by
              rintro v ⟨tau, t0, t1, rfl⟩
              have := (abs_le.1 (i1 o.next g hg (1 / 2) tau (by norm_num) (by norm_num) t0 t1)).2
              linarith⟩
            refine ⟨o.reward + gamma * sInf V, fun t ht => ?_⟩
            obtain ⟨l, tau', rfl, -, ⟨t0, t1⟩, -, rfl⟩ := target_eq hQs.1 ht
            rw [if_neg hdone, ← hgdef]
            have e1 : sInf V ≤ evaluate (z k o.next tau') g := csInf_le hbd ⟨tau', t0, t1, rfl⟩
            have e2 : evaluate (z k o.next tau') g - gamma ^ k * d ≤ sInf V := le_csInf hne (by
              rintro v ⟨tau, u0, u1, rfl⟩
              have := (abs_le.1 (i1 o.next g hg tau' tau t0 t1 u0 u1)).2
              linarith)
            have := mul_le_mul_of_nonneg_left e1 hg0
            have := mul_le_mul_of_nonneg_left e2 hg0
            constructor <;> linarith
          · refine ⟨0, fun t ht => ?_⟩
            obtain ⟨l, tau', rfl, hl', -⟩ := target_eq hQs.1 ht
            exact absurd hl' hl
      obtain ⟨m, hm⟩ := key
      intro tau tau' t0 t1 t0' t1'
      have hb : ∀ x ∈ env.outcomes s a, ∀ t, Target env.nA gamma (fun s l => l = taus k s) (z k) (z k) s a x.2 t → m ≤ t ∧ t ≤ m + gamma * (gamma ^ k * d) := by
        rw [ho]
        intro x hx
        rw [List.mem_singleton.1 hx]
        exact hm
      have a1 := C167_between env (TabularDQN.deterministic_valid hd) gamma _ _ _ _ (hz k) s a ha _ _ hb tau t0 t1
      have a2 := C167_between env (TabularDQN.deterministic_valid hd) gamma _ _ _ _ (hz k) s a ha _ _ hb tau' t0' t1'
      rw [pow_succ', mul_assoc, abs_le]
      constructor <;> linarith [a1.1, a1.2, a2.1, a2.2]
    · refine near_of_bounds hQs fun s tau t0 t1 a ha => ?_
      have := step hd hg0 hQs hs (hz k) (lo := -(gamma ^ k * (e + k * d) + gamma ^ k * d)) (hi := gamma ^ k * (e + k * d) + gamma ^ k * d) (by linarith) (by linarith)
        (fun s l g tau _ hl hg t0 t1 => ?_) s tau t0 t1 a ha
      · have e1 : gamma ^ (k + 1) * (e + (k + 1 : ℕ) * d) = gamma * (gamma ^ k * (e + k * d) + gamma ^ k * d) := by push_cast; ring
        rw [e1, ← mul_neg]
        exact this
      · have hlt := greedy_lt env B Qs hQs s
        have b1 := (mean_between (z := z k s) (a := greedy (Qs s)) (lo := maxQ (Qs s) - gamma ^ k * (e + k * d)) (hi := maxQ (Qs s) + gamma ^ k * (e + k * d))
          (fun tau t0 t1 => by have h := abs_le.1 (i2 s tau t0 t1 _ hlt); unfold maxQ; constructor <;> linarith [h.1, h.2]) l hl).1
        have b2 := (mean_between (z := z k s) (a := g) (lo := evaluate (z k s tau) g - gamma ^ k * d) (hi := evaluate (z k s tau) g + gamma ^ k * d)
          (fun tau' t0' t1' => by have h := abs_le.1 (i1 s g hg.1 tau tau' t0 t1 t0' t1'); constructor <;> linarith [h.1, h.2]) l hl).2
        have b3 := hg.2 _ hlt
        have b4 := (abs_le.1 (i2 s tau t0 t1 g hg.1)).2
        have b5 := evaluate_le env B Qs hQs s g hg.1
        constructor <;> linarith

end

/-- C167: when the values are near the optimal ones, everywhere as close as one likes, after finitely many iterations every choice by the mean over thresholds, whatever they are, is optimal. -/
theorem C167_choices {env : Env S ℝ} {B : ℝ} {Qs : S → List ℝ} (hQs : Table env B Qs) (z : ℕ → S → ℝ → List ℝ) (e : ℕ → ℝ) (he : Tendsto e atTop (𝓝 0))
    (hz : ∀ k, Near env.nA (e k) Qs (z k)) (s : S) :
    ∀ᶠ k in atTop, ∀ l, Thresholds l → ∀ g, IsGreedy env.nA (z k s) l g → evaluate (Qs s) g = maxQ (Qs s) := by
  classical
  have key : ∀ a ∈ Finset.range env.nA, ∀ᶠ k in atTop, evaluate (Qs s) a ≠ maxQ (Qs s) → evaluate (Qs s) a + 2 * e k < maxQ (Qs s) := by
    intro a ha
    by_cases h : evaluate (Qs s) a = maxQ (Qs s)
    · exact Eventually.of_forall fun k hne => absurd h hne
    · have hlt : evaluate (Qs s) a < maxQ (Qs s) := lt_of_le_of_ne (evaluate_le env B Qs hQs s a (Finset.mem_range.1 ha)) h
      refine (he.eventually (eventually_lt_nhds (show 0 < (maxQ (Qs s) - evaluate (Qs s) a) / 2 by linarith))).mono fun k hk _ => ?_
      linarith
  refine ((Filter.eventually_all_finset _).2 key).mono fun k hk l hl g hg => ?_
  by_contra hne
  have h1 := hk g (Finset.mem_range.2 hg.1) hne
  have h2 := greedy_near hQs (hz k) hl hg
  linarith

theorem fixed_tendsto {gamma : ℝ} (hg0 : 0 ≤ gamma) (hg1 : gamma < 1) (e d : ℝ) : Tendsto (fun k : ℕ => gamma ^ k * (e + k * d)) atTop (𝓝 0) := by
  have h1 := (tendsto_pow_atTop_nhds_zero_of_lt_one hg0 hg1).mul_const e
  have h2 := (tendsto_self_mul_const_pow_of_lt_one hg0 hg1).mul_const d
  have := h1.add h2
  rw [zero_mul, zero_mul, add_zero] at this
  refine this.congr fun k => by ring

/-- C167, in an environment without chance, with thresholds for the choice that are drawn once for every iteration and state: the values at all thresholds converge to the optimal ones, and
eventually every choice is optimal. -/
theorem C167_converges [DecidableEq S] {env : Env S ℝ} (hd : TabularDQN.Deterministic env) {gamma B : ℝ} (hg0 : 0 ≤ gamma) (hg1 : gamma < 1) {Qs : S → List ℝ} (hQs : Table env B Qs)
    (hs : ∀ s a, a < env.nA → evaluate (Qs s) a = backup env gamma (fun s => maxQ (Qs s)) s a) (taus : ℕ → S → List ℝ) (z : ℕ → S → ℝ → List ℝ)
    (hz : ∀ k, Trained env gamma (fun s l => l = taus k s) (z k) (z k) (z (k + 1))) (Bz : ℝ) (h0 : Bounded env.nA Bz (z 0)) :
    Optimal env gamma B (fun s => maxQ (Qs s)) (fun s => greedy (Qs s)) ∧
    (∀ ε, 0 < ε → ∀ᶠ k in atTop, Near env.nA ε Qs (z k)) ∧
    ∀ s, ∀ᶠ k in atTop, ∀ l, Thresholds l → ∀ g, IsGreedy env.nA (z k s) l g → evaluate (Qs s) g = maxQ (Qs s) := by
  have hn : Near env.nA (|Bz| + |B|) Qs (z 0) := fun s tau t0 t1 a ha => by
    refine (abs_sub _ _).trans (add_le_add ((h0 s tau t0 t1 a ha).trans (le_abs_self _)) (le_trans ?_ (le_abs_self _)))
    have hl := (hQs.2 s).1
    unfold evaluate
    rw [List.getElem?_eq_getElem (by rw [hl]; exact ha)]
    exact (hQs.2 s).2 _ (List.getElem_mem _)
  have hsp : ∀ s a, a < env.nA → ∀ tau tau', 0 < tau → tau < 1 → 0 < tau' → tau' < 1 → |evaluate (z 0 s tau) a - evaluate (z 0 s tau') a| ≤ 2 * |Bz| := fun s a ha tau tau' t0 t1 u0 u1 => by
    have h1 := h0 s tau t0 t1 a ha
    have h2 := h0 s tau' u0 u1 a ha
    have := abs_sub (evaluate (z 0 s tau) a) (evaluate (z 0 s tau') a)
    linarith [le_abs_self Bz]
  have hk := fun k => (C167_fixed hd hg0 hQs hs taus z hz (|Bz| + |B|) (2 * |Bz|) (by positivity) (by positivity) hn hsp k).2
  have ht := fixed_tendsto hg0 hg1 (|Bz| + |B|) (2 * |Bz|)
  refine ⟨(ResidualDQN.solves_of_equation (TabularDQN.deterministic_valid hd) gamma B hg0 Qs hQs hs).2, fun ε hε => ?_, C167_choices hQs z _ ht hk⟩
  exact (ht.eventually (eventually_lt_nhds hε)).mono fun k hlt s tau t0 t1 a ha => (hk k s tau t0 t1 a ha).trans hlt.le

/-! ## Chance -/

/-- One decision: a sure reward of `3/10`, or a lottery with the reward 1 with probability `1/4` and otherwise none. -/
noncomputable def lottery : Env Unit ℝ where
  nA := 2
  outcomes _ a := if a = 0 then [(1, ⟨3 / 10, (), true⟩)] else [(1 / 4, ⟨1, (), true⟩), (3 / 4, ⟨0, (), true⟩)]

theorem lottery_valid : lottery.Valid := fun s a _ => by
  by_cases h : a = 0 <;> simp [lottery, h, IsDist] <;> norm_num

theorem lottery_target {gamma : ℝ} {draws : Unit → List ℝ → Prop} {zg zt : Unit → ℝ → List ℝ} {s : Unit} {a : Nat} {r t : ℝ}
    (h : Target 2 gamma draws zg zt s a ⟨r, (), true⟩ t) : t = r := by
  obtain ⟨_, _, -, -, -, -, rfl⟩ := target_eq (by norm_num) h
  simp

theorem eltwise_one {y : ℝ} (h0 : 0 ≤ y) (h1 : y ≤ 1) {tau : ℝ} (t0 : 0 < tau) (t1 : tau < 1) : IQN.eltwise 1 y 1 tau = (1 - tau) * ((1 - y) * (1 - y) / 2) := by
  unfold IQN.eltwise IQN.huber
  rw [if_pos (show |y - 1| ≤ 1 by rw [abs_le]; constructor <;> linarith)]
  rcases h1.lt_or_eq with h | h
  · rw [if_pos (by linarith), abs_of_neg (by linarith)]; ring
  · subst h; simp

theorem eltwise_zero {y : ℝ} (h0 : 0 ≤ y) (h1 : y ≤ 1) {tau : ℝ} (t0 : 0 < tau) (t1 : tau < 1) : IQN.eltwise 1 y 0 tau = tau * (y * y / 2) := by
  unfold IQN.eltwise IQN.huber
  rw [if_pos (show |y - 0| ≤ 1 by rw [abs_le]; constructor <;> linarith), if_neg (by linarith), sub_zero, sub_zero, abs_of_pos t0]

theorem risk_const (μ : Measure ℝ) [IsProbabilityMeasure μ] {r : ℝ} (h : ∀ᵐ t ∂μ, t = r) (tau y : ℝ) : risk μ tau y = IQN.eltwise 1 y r tau := by
  unfold risk
  rw [integral_congr_ae (h.mono fun t ht => by simp only [ht] : (fun t => IQN.eltwise 1 y t tau) =ᵐ[μ] fun _ => IQN.eltwise 1 y r tau)]
  simp

/-- The expected loss of the lottery. -/
noncomputable def lotteryRisk (tau y : ℝ) : ℝ := 1 / 4 * IQN.eltwise 1 y 1 tau + 3 / 4 * IQN.eltwise 1 y 0 tau

theorem lotteryRisk_eq {y : ℝ} (h0 : 0 ≤ y) (h1 : y ≤ 1) {tau : ℝ} (t0 : 0 < tau) (t1 : tau < 1) :
    lotteryRisk tau y = lotteryRisk tau ((1 - tau) / (1 + 2 * tau)) + (1 + 2 * tau) / 8 * (y - (1 - tau) / (1 + 2 * tau)) ^ 2 := by
  have hp : 0 < 1 + 2 * tau := by linarith
  have u0 : 0 ≤ (1 - tau) / (1 + 2 * tau) := div_nonneg (by linarith) hp.le
  have u1 : (1 - tau) / (1 + 2 * tau) ≤ 1 := by rw [div_le_one hp]; linarith
  unfold lotteryRisk
  rw [eltwise_one h0 h1 t0 t1, eltwise_zero h0 h1 t0 t1, eltwise_one u0 u1 t0 t1, eltwise_zero u0 u1 t0 t1]
  field_simp
  ring

theorem lotteryRisk_min {tau : ℝ} (t0 : 0 < tau) (t1 : tau < 1) (y : ℝ) : lotteryRisk tau ((1 - tau) / (1 + 2 * tau)) ≤ lotteryRisk tau y := by
  have hin : ∀ y, 0 ≤ y → y ≤ 1 → lotteryRisk tau ((1 - tau) / (1 + 2 * tau)) ≤ lotteryRisk tau y := fun y h0 h1 => by
    rw [lotteryRisk_eq h0 h1 t0 t1]
    have : 0 ≤ (1 + 2 * tau) / 8 * (y - (1 - tau) / (1 + 2 * tau)) ^ 2 := by positivity
    linarith
  rcases lt_or_ge y 0 with h | h
  · have h1 := eltwise_lt_left t1 h (le_refl 0)
    have h2 := eltwise_lt_left t1 h zero_le_one
    refine (hin 0 le_rfl zero_le_one).trans ?_
    unfold lotteryRisk
    linarith
  · rcases lt_or_ge 1 y with h' | h'
    · have h1 := eltwise_lt_right t0 h' (le_refl 1)
      have h2 := eltwise_lt_right t0 h' zero_le_one
      refine (hin 1 zero_le_one le_rfl).trans ?_
      unfold lotteryRisk
      linarith
    · exact hin y h h'

/-- The values that a trained network has. -/
theorem lottery_values {gamma : ℝ} {draws : Unit → List ℝ → Prop} {zg zt z : Unit → ℝ → List ℝ} (hz : Trained lottery gamma draws zg zt z) {tau : ℝ} (t0 : 0 < tau) (t1 : tau < 1) :
    evaluate (z () tau) 0 = 3 / 10 ∧ evaluate (z () tau) 1 = (1 - tau) / (1 + 2 * tau) := by
  constructor
  · have := C167_between lottery lottery_valid gamma draws zg zt z hz () 0 (by norm_num [lottery]) (3 / 10) (3 / 10) (fun x hx t ht => by
      simp only [lottery, if_true, List.mem_singleton] at hx
      subst hx
      have := lottery_target ht
      subst this; simp) tau t0 t1
    exact le_antisymm this.2 this.1
  · have hb := C167_between lottery lottery_valid gamma draws zg zt z hz () 1 (by norm_num [lottery]) 0 1 (fun x hx t ht => by
      simp only [lottery, one_ne_zero, if_false, List.mem_cons, List.not_mem_nil, or_false] at hx
      rcases hx with rfl | rfl
      · have := lottery_target ht
        subst this; simp
      · have := lottery_target ht
        subst this; simp) tau t0 t1
    obtain ⟨μ, hμ, hmin⟩ := hz () 1 (by norm_num [lottery])
    have e : ∀ y, expect (lottery.outcomes () 1) (fun o => risk (μ o) tau y) = lotteryRisk tau y := fun y => by
      have m1 := hμ (1 / 4, ⟨1, (), true⟩) (by simp [lottery])
      have m2 := hμ (3 / 4, ⟨0, (), true⟩) (by simp [lottery])
      have := m1.1
      have := m2.1
      have r1 := risk_const (μ ⟨1, (), true⟩) (m1.2.mono fun t ht => lottery_target ht) tau y
      have r2 := risk_const (μ ⟨0, (), true⟩) (m2.2.mono fun t ht => lottery_target ht) tau y
      simp [lottery, expect, r1, r2, lotteryRisk]
    have h := hmin tau t0 t1 ((1 - tau) / (1 + 2 * tau))
    rw [e, e, lotteryRisk_eq hb.1 hb.2 t0 t1] at h
    have hp : 0 < (1 + 2 * tau) / 8 := by linarith
    have : (evaluate (z () tau) 1 - (1 - tau) / (1 + 2 * tau)) ^ 2 ≤ 0 := by
      by_contra hc
      have := mul_pos hp (not_le.1 hc)
      linarith
    exact sub_eq_zero.1 (pow_eq_zero_iff two_ne_zero |>.1 (le_antisymm this (sq_nonneg _)))

/-- Such a network exists: the example for the theorems below. -/
theorem lottery_trained (gamma : ℝ) (zg zt : Unit → ℝ → List ℝ) : Trained lottery gamma (fun _ _ => True) zg zt (fun _ tau => [3 / 10, (1 - tau) / (1 + 2 * tau)]) := by
  have ht : ∀ a r, Target 2 gamma (fun _ _ => True) zg zt () a ⟨r, (), true⟩ r := fun a r => by
    refine ⟨[1 / 2], [1 / 2], ⟨[()], [a], [expReward gamma [transition () a ⟨r, (), true⟩]], [()], [1], [gamma ^ 1], none⟩, [r], trivial, ⟨by simp, by simp; norm_num⟩, ⟨by simp, by simp; norm_num⟩, ?_, ?_, by simp⟩
    · obtain ⟨b', hb'⟩ : ∃ b', batchExperiences id gamma [[transition () a (⟨r, (), true⟩ : Outcome Unit ℝ)]] = .ok b' := ⟨_, rfl⟩
      rw [hb']
      cases hb'
      simp [transition]
    · simp [targetValues, net, Bind.bind, Except.bind, evaluateQuantiles, expReward, transition]
  intro s a ha
  refine ⟨fun o => Measure.dirac o.reward, fun x hx => ⟨inferInstance, ?_⟩, fun tau t0 t1 y => ?_⟩
  · rw [ae_dirac_eq]
    refine Filter.eventually_pure.2 ?_
    by_cases h : a = 0
    · simp only [lottery, h, if_true, List.mem_singleton] at hx
      subst hx; exact ht a _
    · simp only [lottery, h, if_false, List.mem_cons, List.not_mem_nil, or_false] at hx
      rcases hx with rfl | rfl <;> exact ht a _
  · have hr : ∀ (r y : ℝ), risk (Measure.dirac r) tau y = IQN.eltwise 1 y r tau := fun r y =>
      risk_const _ (by rw [ae_dirac_eq]; exact Filter.eventually_pure.2 rfl) tau y
    have hlt : a < 2 := ha
    interval_cases a
    · have h := (IQN.C65_zero_iff (1 : ℝ) (3 / 10) (3 / 10) tau one_pos t0 t1).2.2 rfl
      have h' := (IQN.C65_zero_iff (1 : ℝ) y (3 / 10) tau one_pos t0 t1).1
      simpa [lottery, expect, hr, evaluate, h] using h'
    · simpa [lottery, expect, hr, evaluate, lotteryRisk] using lotteryRisk_min t0 t1 y

theorem log_three : 16 / 15 < Real.log 3 := by
  rw [Real.lt_log_iff_exp_lt (by norm_num)]
  have h1 := Real.exp_one_lt_d9
  have h2 := Real.add_one_le_exp (-(1 / 15 : ℝ))
  have h3 : Real.exp (16 / 15) * Real.exp (-(1 / 15)) = Real.exp 1 := by rw [← Real.exp_add]; norm_num
  have h4 := Real.exp_pos (16 / 15)
  nlinarith

theorem curve_integral : ∫ tau in Set.Ioo (0 : ℝ) 1, (1 - tau) / (1 + 2 * tau) = 3 / 4 * Real.log 3 - 1 / 2 := by
  rw [← integral_Ioc_eq_integral_Ioo, ← intervalIntegral.integral_of_le zero_le_one]
  have hpos : ∀ x ∈ Set.uIcc (0 : ℝ) 1, 0 < 1 + 2 * x := fun x hx => by
    rw [Set.uIcc_of_le zero_le_one] at hx
    linarith [hx.1]
  rw [intervalIntegral.integral_eq_sub_of_hasDerivAt (f := fun x => 3 / 4 * Real.log (1 + 2 * x) - x / 2)]
  · norm_num
  · intro x hx
    have h := hpos x hx
    have h1 : HasDerivAt (fun x : ℝ => 1 + 2 * x) 2 x := by simpa using ((hasDerivAt_id x).const_mul 2).const_add 1
    have h2 := ((h1.log h.ne').const_mul (3 / 4)).sub ((hasDerivAt_id x).div_const 2)
    refine h2.congr_deriv ?_
    field_simp
    ring
  · refine ContinuousOn.intervalIntegrable (ContinuousOn.div (by fun_prop) (by fun_prop) fun x hx => (hpos x hx).ne')

/-- C167, violated: when rewards are random, the values that IQN is trained to are not the expected returns. For a lottery that pays 1 with probability `1/4`, the average of a trained network's
value over all thresholds is `(3/4) log 3 - 1/2`, more than `0.3`: with the default threshold 1 of the Huber loss and rewards in [0, 1], the loss is quadratic, and its minimisers are not quantiles. -/
theorem C167_violated_value (gamma : ℝ) (draws : Unit → List ℝ → Prop) (zg zt z : Unit → ℝ → List ℝ) (hz : Trained lottery gamma draws zg zt z) :
    ∫ tau in Set.Ioo (0 : ℝ) 1, evaluate (z () tau) 1 = 3 / 4 * Real.log 3 - 1 / 2 ∧ 3 / 10 < 3 / 4 * Real.log 3 - 1 / 2 ∧
    ∫ tau in Set.Ioo (0 : ℝ) 1, evaluate (z () tau) 0 = 3 / 10 ∧
    backup lottery gamma (fun _ => 0) () 1 = 1 / 4 ∧ backup lottery gamma (fun _ => 0) () 0 = 3 / 10 := by
  refine ⟨?_, by linarith [log_three], ?_, by simp [backup, lottery, expect], by simp [backup, lottery, expect]⟩
  · rw [← curve_integral]
    exact setIntegral_congr_fun measurableSet_Ioo fun tau ht => (lottery_values hz ht.1 ht.2).2
  · rw [setIntegral_congr_fun measurableSet_Ioo fun tau ht => (lottery_values hz ht.1 ht.2).1]
    simp

/-- C167, violated: it prefers the worse action. With enough independent uniform thresholds, a trained network's choice is almost surely the lottery, which returns `1/4` on average,
although the sure reward is `3/10`. -/
theorem C167_violated_choice (gamma : ℝ) (draws : Unit → List ℝ → Prop) (zg zt z : Unit → ℝ → List ℝ) (hz : Trained lottery gamma draws zg zt z)
    {Ω : Type} [MeasurableSpace Ω] (P : Measure Ω) [IsProbabilityMeasure P] (U : ℕ → Ω → ℝ) (hm : ∀ i, Measurable (U i))
    (hU : ∀ i, P.map (U i) = volume.restrict (Set.Ioo 0 1)) (hi : Pairwise (Function.onFun (fun X Y => ProbabilityTheory.IndepFun X Y P) U)) :
    (∀ᵐ ω ∂P, ∀ᶠ n : ℕ in atTop, greedyActions 2 n false false (net z) [()] [(List.range n).map fun i => U i ω] = .ok [1]) ∧
    (∀ n h, ret lottery gamma (fun _ _ => [(1, 1)]) (n + 1) h () = 1 / 4) ∧ ∀ n h, ret lottery gamma (fun _ _ => [(1, 0)]) (n + 1) h () = 3 / 10 := by
  refine ⟨?_, fun n h => by simp [ret, lottery, expect], fun n h => by simp [ret, lottery, expect]⟩
  let c : ℝ → ℝ := fun tau => (1 - tau) / (1 + 2 * tau)
  have hc : Measurable c := (measurable_const.sub measurable_id).div (measurable_const.add (measurable_id.const_mul 2))
  have hin : ∀ i, ∀ᵐ ω ∂P, 0 < U i ω ∧ U i ω < 1 := fun i => by
    have h1 : ∀ᵐ x ∂(P.map (U i)), x ∈ Set.Ioo (0 : ℝ) 1 := by rw [hU i]; exact ae_restrict_mem measurableSet_Ioo
    exact ae_of_ae_map (hm i).aemeasurable h1
  have hcb : ∀ x, 0 < x → x < 1 → ‖c x‖ ≤ 1 := fun x h0 h1 => by
    have hp : 0 < 1 + 2 * x := by linarith
    rw [Real.norm_eq_abs, abs_of_nonneg (div_nonneg (by linarith) hp.le), div_le_one hp]
    linarith
  have hint : Integrable (fun ω => c (U 0 ω)) P :=
    Integrable.of_bound (hc.comp (hm 0)).aestronglyMeasurable 1 ((hin 0).mono fun ω h => hcb _ h.1 h.2)
  have hident : ∀ i, ProbabilityTheory.IdentDistrib (fun ω => c (U i ω)) (fun ω => c (U 0 ω)) P P := fun i =>
    (ProbabilityTheory.IdentDistrib.mk (hm i).aemeasurable (hm 0).aemeasurable ((hU i).trans (hU 0).symm)).comp hc
  have hindep : Pairwise (Function.onFun (fun X Y => ProbabilityTheory.IndepFun X Y P) fun i ω => c (U i ω)) := fun i j hij => (hi hij).comp hc hc
  have hlaw := ProbabilityTheory.strong_law_ae_real (fun i ω => c (U i ω)) hint hindep hident
  have hmean : ∫ ω, c (U 0 ω) ∂P = 3 / 4 * Real.log 3 - 1 / 2 := by
    rw [← integral_map (hm 0).aemeasurable hc.aestronglyMeasurable, hU 0, curve_integral]
  filter_upwards [hlaw, ae_all_iff.2 hin] with ω hω hω'
  have hω : Tendsto (fun n : ℕ => (∑ i ∈ Finset.range n, c (U i ω)) / n) atTop (𝓝 (∫ ω, c (U 0 ω) ∂P)) := hω
  rw [hmean] at hω
  filter_upwards [hω.eventually (eventually_gt_nhds (show (3 / 10 : ℝ) < 3 / 4 * Real.log 3 - 1 / 2 by linarith [log_three])), eventually_gt_atTop 0] with n hn hn0
  obtain ⟨acts, h1, h2, h3⟩ := C108_act 2 (by norm_num) n false false rfl (net z) z (net_computes z) [()] [(List.range n).map fun i => U i ω] ⟨rfl, by simp⟩
  obtain ⟨a, ha, hga⟩ := h3 0 () _ rfl rfl
  have hl : acts = [a] := by
    match acts, h2, ha with
    | [b], _, ha => simpa using ha
  rw [h1, hl]
  have hpos : (0 : ℝ) < n := by exact_mod_cast hn0
  have m0 : meanAt (z ()) ((List.range n).map fun i => U i ω) 0 = 3 / 10 := by
    have : (((List.range n).map fun i => U i ω).map fun tau => ((z () tau)[0]?).getD 0) = (List.range n).map fun _ => (3 / 10 : ℝ) := by
      rw [List.map_map]
      exact List.map_congr_left fun i _ => (lottery_values hz (hω' i).1 (hω' i).2).1
    unfold meanAt
    rw [this]
    simp
    field_simp
  have m1 : meanAt (z ()) ((List.range n).map fun i => U i ω) 1 = (∑ i ∈ Finset.range n, c (U i ω)) / n := by
    have : (((List.range n).map fun i => U i ω).map fun tau => ((z () tau)[1]?).getD 0) = (List.range n).map fun i => c (U i ω) := by
      rw [List.map_map]
      exact List.map_congr_left fun i _ => (lottery_values hz (hω' i).1 (hω' i).2).2
    unfold meanAt
    rw [this, List.length_map, List.length_range]
    congr 1
  have ha2 := hga.1
  have hge := hga.2 1 (by norm_num)
  have : a = 1 := by
    interval_cases a
    · rw [m0, m1] at hge
      linarith
    · rfl
  rw [this]

/-! ## The loss of the code -/

/-- C167: the expected loss of a transition, when each of its targets has the distribution `μ`, is the sum of the expected losses at its thresholds. So a network that minimises the expected loss of the code
for all thresholds minimises `risk` at each. -/
theorem C167_loss {Ω : Type} [MeasurableSpace Ω] (P : Measure Ω) [IsProbabilityMeasure P] (μ : Measure ℝ) [IsProbabilityMeasure μ] (lo hi : ℝ) (hμ : ∀ᵐ t ∂μ, lo ≤ t ∧ t ≤ hi)
    (n : ℕ) (hn : 0 < n) (T : ℕ → Ω → ℝ) (hT : ∀ j, Measurable (T j)) (hlaw : ∀ j, P.map (T j) = μ) (y taus : List ℝ) (hl : y.length = taus.length) (ht : ∀ tau ∈ taus, 0 < tau ∧ tau < 1) (sumMode : Bool) :
    ∫ ω, (computeLoss sumMode [y] [taus] [(List.range n).map fun j => T j ω] none).2 ∂P = (List.zipWith (fun yi tau => risk μ tau yi) y taus).sum := by
  have hI : ∀ yi tau, 0 < tau → tau < 1 → ∀ j, Integrable (fun ω => IQN.eltwise 1 yi (T j ω) tau) P ∧ ∫ ω, IQN.eltwise 1 yi (T j ω) tau ∂P = risk μ tau yi := fun yi tau t0 t1 j => by
    have h1 := eltwise_integrable μ hμ t0 t1 yi
    rw [← hlaw j] at h1
    refine ⟨(integrable_map_measure (eltwise_measurable yi tau).aestronglyMeasurable (hT j).aemeasurable).1 h1, ?_⟩
    rw [risk, ← hlaw j, integral_map (hT j).aemeasurable (eltwise_measurable yi tau).aestronglyMeasurable]
  have hM : ∀ yi tau, 0 < tau → tau < 1 → Integrable (fun ω => IQN.mean (((List.range n).map fun j => T j ω).map fun tj => IQN.eltwise 1 yi tj tau)) P ∧
      ∫ ω, IQN.mean (((List.range n).map fun j => T j ω).map fun tj => IQN.eltwise 1 yi tj tau) ∂P = risk μ tau yi := fun yi tau t0 t1 => by
    have e : ∀ ω, IQN.mean (((List.range n).map fun j => T j ω).map fun tj => IQN.eltwise 1 yi tj tau) = (∑ j ∈ Finset.range n, IQN.eltwise 1 yi (T j ω) tau) / n := fun ω => by
      unfold IQN.mean
      rw [List.map_map, List.length_map, List.length_range]
      congr 1
    simp only [e]
    have hs := integrable_finsetSum (Finset.range n) fun j _ => (hI yi tau t0 t1 j).1
    refine ⟨hs.div_const _, ?_⟩
    rw [integral_div, integral_finsetSum _ fun j _ => (hI yi tau t0 t1 j).1, Finset.sum_congr rfl fun j _ => (hI yi tau t0 t1 j).2]
    have : (n : ℝ) ≠ 0 := by exact_mod_cast hn.ne'
    simp
    field_simp
  have hS : ∀ (y taus : List ℝ), y.length = taus.length → (∀ tau ∈ taus, 0 < tau ∧ tau < 1) →
      Integrable (fun ω => ((IQN.eltwiseRow 1 y taus ((List.range n).map fun j => T j ω)).map IQN.mean).sum) P ∧
      ∫ ω, ((IQN.eltwiseRow 1 y taus ((List.range n).map fun j => T j ω)).map IQN.mean).sum ∂P = (List.zipWith (fun yi tau => risk μ tau yi) y taus).sum := by
    intro y
    induction y with
    | nil => intro taus _ _; simp [IQN.eltwiseRow]
    | cons yi y ih =>
      intro taus hl ht
      cases taus with
      | nil => simp at hl
      | cons tau taus =>
        obtain ⟨i1, i2⟩ := ih taus (by simpa using hl) fun x hx => ht x (List.mem_cons_of_mem _ hx)
        obtain ⟨j1, j2⟩ := hM yi tau (ht tau List.mem_cons_self).1 (ht tau List.mem_cons_self).2
        unfold IQN.eltwiseRow at i1 i2 ⊢
        simp only [List.zipWith_cons_cons, List.map_cons, List.sum_cons]
        exact ⟨j1.add i1, by rw [integral_add j1 i1, i2, j2]⟩
  have := (hS y taus hl ht).2
  cases sumMode <;> simpa [computeLoss, eltwiseLoss, IQN.valueLoss] using this

/-! ## The hypotheses are met -/

/-- Independent uniform thresholds exist. -/
example (gamma : ℝ) : ∃ (Ω : Type) (_ : MeasurableSpace Ω) (P : Measure Ω) (U : ℕ → Ω → ℝ), IsProbabilityMeasure P ∧
    ∀ᵐ ω ∂P, ∀ᶠ n : ℕ in atTop, greedyActions 2 n false false (net fun (_ : Unit) tau => [3 / 10, (1 - tau) / (1 + 2 * tau)]) [()] [(List.range n).map fun i => U i ω] = .ok [1] := by
  have hp : IsProbabilityMeasure (volume.restrict (Set.Ioo (0 : ℝ) 1)) := ⟨by simp⟩
  refine ⟨ℕ → ℝ, inferInstance, Measure.infinitePi fun _ => volume.restrict (Set.Ioo (0 : ℝ) 1), fun i ω => ω i, inferInstance, ?_⟩
  refine (C167_violated_choice gamma _ (fun _ _ => []) (fun _ _ => []) _ (lottery_trained gamma _ _) _ _ (fun i => measurable_pi_apply i) (fun i => ?_) fun i j hij => ?_).1
  · exact Measure.infinitePi_map_eval _ i
  · exact (ProbabilityTheory.iIndepFun_infinitePi (P := fun _ : ℕ => volume.restrict (Set.Ioo (0 : ℝ) 1)) (X := fun _ x => x) (fun _ => measurable_id)).indepFun hij

/-- One state and one action, with the reward 1 for ever. -/
def loop : Env Unit ℝ where
  nA := 1
  outcomes _ _ := [(1, ⟨1, (), false⟩)]

/-- The values of the iterations from 0, with the discount factor `1/2`. -/
noncomputable def loopNet (k : ℕ) : Unit → ℝ → List ℝ := fun _ _ => [2 - 2 * (1 / 2) ^ k]

theorem loop_trained (k : ℕ) : Trained loop (1 / 2) (fun _ l => l = [1 / 2]) (loopNet k) (loopNet k) (loopNet (k + 1)) := by
  intro s a ha
  have ha' : a = 0 := by simp [loop] at ha; exact ha
  subst ha'
  have ev : (2 : ℝ) - 2 * (1 / 2) ^ (k + 1) = 1 + 1 / 2 * (2 - 2 * (1 / 2) ^ k) := by ring
  refine ⟨fun _ => Measure.dirac (2 - 2 * (1 / 2) ^ (k + 1)), fun x hx => ⟨inferInstance, ?_⟩, fun tau t0 t1 y => ?_⟩
  · rw [ae_dirac_eq]
    refine Filter.eventually_pure.2 ?_
    have hx := List.mem_singleton.1 hx
    subst hx
    refine ⟨[1 / 2], [1 / 2], _, [2 - 2 * (1 / 2) ^ (k + 1)], rfl, ⟨by simp, by simp; norm_num⟩, ⟨by simp, by simp; norm_num⟩, rfl, ?_, by simp⟩
    simp [targetValues, net, Bind.bind, Except.bind, evaluateQuantiles, expReward, transition, loop, loopNet, quantileQ, greedy, argmaxFrom, List.range_succ]
    ring
  · have hr : ∀ (r y : ℝ), risk (Measure.dirac r) tau y = IQN.eltwise 1 y r tau := fun r y =>
      risk_const _ (by rw [ae_dirac_eq]; exact Filter.eventually_pure.2 rfl) tau y
    have h := (IQN.C65_zero_iff (1 : ℝ) (2 - 2 * (1 / 2) ^ (k + 1)) (2 - 2 * (1 / 2) ^ (k + 1)) tau one_pos t0 t1).2.2 rfl
    have h' := (IQN.C65_zero_iff (1 : ℝ) y (2 - 2 * (1 / 2) ^ (k + 1)) tau one_pos t0 t1).1
    simp only [loop, expect, List.map_cons, List.map_nil, List.sum_cons, List.sum_nil, hr, one_mul, add_zero, loopNet, evaluate, List.getElem?_cons_zero, Option.getD_some, h]
    exact h'

example (ε : ℝ) (hε : 0 < ε) : ∀ᶠ k in atTop, Near 1 ε (fun _ => [2]) (loopNet k) :=
  (C167_converges (env := loop) (B := 2) (fun s a ha => ⟨_, rfl⟩) (by norm_num : (0 : ℝ) ≤ 1 / 2) (by norm_num) (Qs := fun _ => [2]) ⟨by norm_num [loop], fun s => ⟨rfl, by simp⟩⟩
    (fun s a ha => by
      have : a = 0 := by simp [loop] at ha; exact ha
      subst this
      simp [evaluate, backup, expect, loop, maxQ, greedy, argmaxFrom]
      norm_num) (fun _ _ => [1 / 2]) loopNet loop_trained 2 (fun s tau _ _ a ha => by
      have : a = 0 := by simp [loop] at ha; exact ha
      subst this
      simp [loopNet, evaluate])).2.1 ε hε

end Verif.IQNLearning
