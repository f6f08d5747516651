import Mathlib.Algebra.Field.Rat
import Mathlib.Algebra.Order.Ring.Rat
import Mathlib.Algebra.BigOperators.Ring.List
import Mathlib.Tactic.Ring
import Mathlib.Tactic.LinearCombination
import Mathlib.Tactic.Linarith
import Mathlib.Tactic.FieldSimp
import Verif.Spec.ACER
set_option autoImplicit false
set_option linter.unusedSectionVars false

/-! # C52, C72, C73: the losses of ACER -/

namespace Verif.ACER
variable {K : Type} [Field K] [LinearOrder K] [IsStrictOrderedRing K]

/-! ## Flat vectors -/

theorem zipWith_flatten {α β γ : Type} (f : α → β → γ) : ∀ (a : List (List α)) (b : List (List β)),
    a.map List.length = b.map List.length →
    (List.zipWith (List.zipWith f) a b).flatten = List.zipWith f a.flatten b.flatten
  | [], [], _ => rfl
  | [], _ :: _, h => by simp at h
  | _ :: _, [], h => by simp at h
  | x :: a, y :: b, h => by
    simp only [List.map_cons, List.cons.injEq] at h
    rw [List.zipWith_cons_cons, List.flatten_cons, zipWith_flatten f a b h.2, List.flatten_cons,
      List.flatten_cons, List.zipWith_append h.1]

theorem dots_eq (a b : List (List K)) (h : SameShape a b) : dots a b = inner a b := by
  have : dots a b = (List.zipWith (List.zipWith (· * ·)) a b).flatten.sum := by
    rw [dots, List.sum_flatten]
    congr 1
    rw [List.map_zipWith]
    rfl
  rw [this, zipWith_flatten _ _ _ h]
  rfl

/-- Sums over pairs. -/
theorem inner_sq (c d : K) : ∀ (a b : List K),
    a.length = b.length →
    (List.zipWith (fun x y => (c * x - d * y) ^ 2) a b).sum =
      c ^ 2 * (List.zipWith (· * ·) a a).sum - 2 * c * d * (List.zipWith (· * ·) a b).sum +
        d ^ 2 * (List.zipWith (· * ·) b b).sum
  | [], [], _ => by simp
  | [], _ :: _, h => by simp at h
  | _ :: _, [], h => by simp at h
  | x :: a, y :: b, h => by
    have ih := inner_sq c d a b (by simpa using h)
    simp only [List.zipWith_cons_cons, List.sum_cons]
    rw [ih]; ring

theorem sq_sum_nonneg (f : K → K → K) : ∀ (a b : List K), 0 ≤ (List.zipWith (fun x y => (f x y) ^ 2) a b).sum
  | [], _ => by simp
  | _ :: _, [] => by simp
  | x :: a, y :: b => by
    have := sq_sum_nonneg f a b
    have h2 := sq_nonneg (f x y)
    simp only [List.zipWith_cons_cons, List.sum_cons]
    linarith

theorem self_nonneg (a : List K) : 0 ≤ (List.zipWith (· * ·) a a).sum := by
  have := sq_sum_nonneg (fun x _ => x) a a
  simpa [List.zipWith_self, sq] using this

theorem self_zero : ∀ (k : List K), (List.zipWith (· * ·) k k).sum = 0 → ∀ x ∈ k, x = 0
  | [], _ => by simp
  | x :: k, h => by
    have h1 := self_nonneg k
    have h2 := mul_self_nonneg x
    simp only [List.zipWith_cons_cons, List.sum_cons] at h
    have h3 : x * x = 0 := by linarith
    have h4 : (List.zipWith (· * ·) k k).sum = 0 := by linarith
    intro y hy
    rcases List.mem_cons.1 hy with rfl | hy
    · exact mul_self_eq_zero.1 h3
    · exact self_zero k h4 y hy

theorem zero_dot : ∀ (k w : List K), (∀ x ∈ k, x = 0) → (List.zipWith (· * ·) k w).sum = 0
  | [], _, _ => by simp
  | _ :: _, [], _ => by simp
  | x :: k, y :: w, h => by
    simp only [List.zipWith_cons_cons, List.sum_cons]
    rw [zero_dot k w (fun x hx => h x (List.mem_cons_of_mem _ hx)), h x (List.mem_cons_self ..)]
    ring

/-- The Cauchy-Schwarz inequality. -/
theorem cauchy (k x : List K) (h : k.length = x.length) :
    (List.zipWith (· * ·) k x).sum ^ 2 ≤ (List.zipWith (· * ·) k k).sum * (List.zipWith (· * ·) x x).sum := by
  set kk := (List.zipWith (· * ·) k k).sum with hkk
  set kx := (List.zipWith (· * ·) k x).sum with hkx
  rcases (self_nonneg k).lt_or_eq with hpos | hzero
  · rw [← hkk] at hpos
    have h1 := inner_sq kx kk k x h
    have h2 := sq_sum_nonneg (fun x y => kx * x - kk * y) k x
    rw [h1] at h2
    rw [← hkk, ← hkx] at h2
    have h3 : 0 ≤ kk * (kk * (List.zipWith (· * ·) x x).sum - kx ^ 2) := by linarith
    have := nonneg_of_mul_nonneg_right h3 hpos
    linarith
  · have : kx = 0 := zero_dot k x (self_zero k hzero.symm)
    rw [this, ← hkk] at *
    rw [← hzero]; simp

theorem dot_sub (f : K) : ∀ (k g : List K), k.length = g.length →
    (List.zipWith (· * ·) k (List.zipWith (fun kp gp => gp - f * kp) k g)).sum =
      (List.zipWith (· * ·) k g).sum - f * (List.zipWith (· * ·) k k).sum
  | [], [], _ => by simp
  | [], _ :: _, h => by simp at h
  | _ :: _, [], h => by simp at h
  | x :: k, y :: g, h => by
    have ih := dot_sub f k g (by simpa using h)
    simp only [List.zipWith_cons_cons, List.sum_cons]
    rw [ih]; ring

theorem dist_step (f : K) : ∀ (k g : List K), k.length = g.length →
    (List.zipWith (fun x y => (x - y) ^ 2) (List.zipWith (fun kp gp => gp - f * kp) k g) g).sum =
      f ^ 2 * (List.zipWith (· * ·) k k).sum
  | [], [], _ => by simp
  | [], _ :: _, h => by simp at h
  | _ :: _, [], h => by simp at h
  | x :: k, y :: g, h => by
    have ih := dist_step f k g (by simpa using h)
    simp only [List.zipWith_cons_cons, List.sum_cons]
    rw [ih]; ring

theorem dot_diff : ∀ (k g w : List K), k.length = g.length → w.length = g.length →
    (List.zipWith (· * ·) k (List.zipWith (fun x y => x - y) w g)).sum =
      (List.zipWith (· * ·) k w).sum - (List.zipWith (· * ·) k g).sum
  | [], [], [], _, _ => by simp
  | x :: k, y :: g, z :: w, h, h' => by
    have ih := dot_diff k g w (by simpa using h) (by simpa using h')
    simp only [List.zipWith_cons_cons, List.sum_cons]
    rw [ih]; ring
  | [], _ :: _, _, h, _ => by simp at h
  | _ :: _, [], _, h, _ => by simp at h
  | [], [], _ :: _, _, h => by simp at h
  | _ :: _, _ :: _, [], _, h => by simp at h

theorem flatten_length {a b : List (List K)} (h : SameShape a b) :
    a.flatten.length = b.flatten.length := by
  rw [List.length_flatten, List.length_flatten, h]

theorem direction_flatten (k g : List (List K)) (delta : K) (h : SameShape k g) :
    (direction k g delta).flatten =
      List.zipWith (fun kp gp => gp - kFactor k g delta * kp) k.flatten g.flatten :=
  zipWith_flatten _ _ _ h

/-- **C52**: the direction satisfies the constraint. -/
theorem C52_constraint (k g : List (List K)) (delta : K) (h : SameShape k g) (hd : 0 ≤ delta) :
    inner k (direction k g delta) ≤ delta := by
  rw [inner, direction_flatten k g delta h, dot_sub _ _ _ (flatten_length h)]
  rw [← inner, ← inner, kFactor, dots_eq k k rfl, dots_eq k g h]
  have hn : 0 ≤ inner k k := self_nonneg _
  split
  · rename_i hpos
    rcases max_cases 0 ((inner k g - delta) / inner k k) with ⟨h1, h2⟩ | ⟨h1, h2⟩
    · rw [h1]
      rw [div_le_iff₀ hpos] at h2
      linarith
    · rw [h1, div_mul_cancel₀ _ hpos.ne']
      linarith
  · rename_i hz
    have : inner k k = 0 := le_antisymm (not_lt.1 hz) hn
    have h0 : inner k g = 0 := zero_dot _ _ (self_zero _ this)
    rw [h0]; linarith

/-- **C52**: no vector that satisfies the constraint is closer to `g`. -/
theorem C52_closest (k g w : List (List K)) (delta : K) (h : SameShape k g) (hw : SameShape w g)
    (hc : inner k w ≤ delta) : dist2 (direction k g delta) g ≤ dist2 w g := by
  have hl := flatten_length h
  have hlw := flatten_length hw
  have hw0 : 0 ≤ dist2 w g := sq_sum_nonneg (fun x y => x - y) _ _
  rw [dist2, direction_flatten k g delta h, dist_step _ _ _ hl, ← inner]
  rw [kFactor, dots_eq k k rfl, dots_eq k g h]
  split
  · rename_i hpos
    rcases max_cases 0 ((inner k g - delta) / inner k k) with ⟨h1, h2⟩ | ⟨h1, h2⟩
    · rw [h1]; simpa using hw0
    · rw [h1]
      have hnum : 0 < inner k g - delta := by
        by_contra hcon
        exact absurd h2 (not_lt.2 (div_nonpos_of_nonpos_of_nonneg (not_lt.1 hcon) hpos.le))
      have hcs := cauchy k.flatten (List.zipWith (fun x y => x - y) w.flatten g.flatten) (by
        simp [hlw, hl])
      rw [dot_diff _ _ _ hl hlw] at hcs
      have hd2 : (List.zipWith (· * ·) (List.zipWith (fun x y => x - y) w.flatten g.flatten)
          (List.zipWith (fun x y => x - y) w.flatten g.flatten)).sum = dist2 w g := by
        rw [List.zipWith_self, List.map_zipWith, dist2]
        congr 1
        congr 1
        funext x y; ring
      rw [hd2] at hcs
      change (inner k w - inner k g) ^ 2 ≤ inner k k * dist2 w g at hcs
      have hle : (inner k g - delta) ^ 2 ≤ (inner k w - inner k g) ^ 2 := by
        nlinarith
      have : ((inner k g - delta) / inner k k) ^ 2 * inner k k = (inner k g - delta) ^ 2 / inner k k := by
        field_simp
      rw [this, div_le_iff₀ hpos]
      linarith
  · simpa using hw0

/-- **C52**: `g` itself is returned if it satisfies the constraint. -/
theorem C52_unconstrained (k g : List (List K)) (delta : K) (h : SameShape k g)
    (hc : inner k g ≤ delta) : direction k g delta = g := by
  have hf : kFactor k g delta = 0 := by
    rw [kFactor, dots_eq k k rfl, dots_eq k g h]
    split
    · rename_i hpos
      apply max_eq_left
      exact div_nonpos_of_nonpos_of_nonneg (by linarith) hpos.le
    · rfl
  rw [direction, hf]
  have : (fun kp gp : K => gp - 0 * kp) = fun _ gp => gp := by funext a b; ring
  rw [this]
  clear hc hf
  induction k generalizing g with
  | nil => cases g with
    | nil => rfl
    | cons _ _ => simp [SameShape] at h
  | cons x k ih => cases g with
    | nil => simp [SameShape] at h
    | cons y g =>
      simp only [SameShape, List.map_cons, List.cons.injEq] at h
      rw [List.zipWith_cons_cons, ih g h.2]
      congr 1
      exact List.ext_getElem (by simp [h.1]) (by simp)

/-- A constraint that is active: the direction is neither `g` nor zero. -/
example : direction [[1, 0], [2]] [[3, 1], [1]] (1 : ℚ) = [[3 - 4/5, 1], [1 - 8/5]] := by decide +kernel
example : SameShape [[1, 0], [2]] [[3, 1], [(1 : ℚ)]] ∧ ¬ inner [[1, 0], [2]] [[3, 1], [(1 : ℚ)]] ≤ 1 := by
  constructor
  · rfl
  · decide +kernel

/-! ## Bias correction -/

theorem correction_one (big c : K) (hc : 0 ≤ c) (a : Act K) (hp : 0 ≤ a.pi) (hm : 0 ≤ a.mu) :
    (if a.mu = 0 then 0 else a.mu * min c (a.pi / a.mu)) +
      max (1 - c * fullImportance big a.mu a.pi) 0 * a.pi = a.pi := by
  obtain ⟨pi, mu, f, adv⟩ := a
  simp only at hp hm ⊢
  rcases hp.lt_or_eq with hp | hp
  · simp only [fullImportance, hp.ne', if_false]
    have h2 : max (1 - c * (mu / pi)) 0 * pi = max (pi - c * mu) 0 := by
      rw [max_mul_of_nonneg _ _ hp.le, zero_mul]
      congr 1
      field_simp
    rw [h2]
    rcases hm.lt_or_eq with hm | hm
    · rw [if_neg hm.ne']
      have h1 : mu * min c (pi / mu) = min (c * mu) pi := by
        rw [mul_min_of_nonneg _ _ hm.le, mul_div_cancel₀ _ hm.ne', mul_comm]
      rw [h1]
      rcases le_total (c * mu) pi with h | h
      · rw [min_eq_left h, max_eq_left (by linarith)]; ring
      · rw [min_eq_right h, max_eq_right (by linarith)]; ring
    · subst hm
      simp [hp.le]
  · subst hp
    simp only [zero_div, mul_zero, add_zero]
    split
    · rfl
    · rw [min_eq_right hc, mul_zero]

/-- What `truncatedTerm` contributes in expectation over an action drawn from the
behaviour policy (actions of probability zero are never drawn). -/
def expectedTruncated (c : K) (as : List (Act K)) : K :=
  (as.map (fun a => if a.mu = 0 then 0 else a.mu * -(min c (a.pi / a.mu) * a.f * a.adv))).sum

/-- `expectedTruncated` is the expectation of the term of the code. -/
theorem expectedTruncated_eq (c : K) (a : Act K) (h : a.mu ≠ 0) :
    truncatedTerm (some c) a = .ok (-(min c (a.pi / a.mu) * a.f * a.adv)) := by
  simp [truncatedTerm, importance, h, bind, Except.bind, pure, Except.pure]

/-- **C72**: the truncated importance-weighted term in expectation over the behaviour
policy, plus the correction, is the on-policy gradient, for every truncation threshold. -/
theorem C72_full (big c : K) (hc : 0 ≤ c) (as : List (Act K)) (hp : ∀ a ∈ as, 0 ≤ a.pi)
    (hm : ∀ a ∈ as, 0 ≤ a.mu) :
    expectedTruncated c as + fullCorrection big c as = -(as.map (fun a => a.pi * a.f * a.adv)).sum := by
  induction as with
  | nil => simp [expectedTruncated, fullCorrection]
  | cons a as ih =>
    have ih := ih (fun a ha => hp a (List.mem_cons_of_mem _ ha)) (fun a ha => hm a (List.mem_cons_of_mem _ ha))
    have h1 := correction_one big c hc a (hp a (List.mem_cons_self ..)) (hm a (List.mem_cons_self ..))
    simp only [expectedTruncated, fullCorrection, List.map_cons, List.sum_cons] at ih ⊢
    have h2 : (if a.mu = 0 then 0 else a.mu * -(min c (a.pi / a.mu) * a.f * a.adv)) =
        -(if a.mu = 0 then 0 else a.mu * min c (a.pi / a.mu)) * a.f * a.adv := by
      split
      · simp
      · ring
    rw [h2]
    linear_combination ih - a.f * a.adv * h1

/-- **C72**: without truncation the importance-weighted term alone has that
expectation, if the behaviour policy can take every action the policy can. -/
theorem C72_untruncated (as : List (Act K)) (hs : ∀ a ∈ as, a.mu = 0 → a.pi = 0) :
    ∃ ts : List K, ts.length = as.length ∧
      (∀ (i : Nat) (a : Act K) (t : K), as[i]? = some a → ts[i]? = some t → a.mu ≠ 0 →
        truncatedTerm none a = .ok t) ∧
      (List.zipWith (fun a t => a.mu * t) as ts).sum = -(as.map (fun a => a.pi * a.f * a.adv)).sum := by
  refine ⟨as.map (fun a => -(a.pi / a.mu * a.f * a.adv)), by simp, ?_, ?_⟩
  · intro i a t h1 h2 h3
    rw [List.getElem?_map, h1] at h2
    simp only [Option.map_some, Option.some.injEq] at h2
    subst h2
    simp [truncatedTerm, importance, h3, bind, Except.bind, pure, Except.pure]
  · induction as with
    | nil => simp
    | cons a as ih =>
      have ih := ih (fun a ha => hs a (List.mem_cons_of_mem _ ha))
      simp only [List.map_cons, List.zipWith_cons_cons, List.sum_cons]
      rw [ih]
      by_cases h : a.mu = 0
      · rw [hs a (List.mem_cons_self ..) h, h]; ring
      · field_simp
        ring

/-- **C72**: the sampled correction never raises for an action the policy can take, and
its expectation over the policy is the full correction. -/
theorem C72_sample (big c : K) (hc : 0 ≤ c) (as : List (Act K)) (hp : ∀ a ∈ as, 0 ≤ a.pi)
    (hm : ∀ a ∈ as, 0 ≤ a.mu) :
    ∃ ts : List K, ts.length = as.length ∧
      (∀ (i : Nat) (a : Act K) (t : K), as[i]? = some a → ts[i]? = some t → a.pi ≠ 0 →
        sampleCorrection c a = .ok t) ∧
      (List.zipWith (fun a t => a.pi * t) as ts).sum = fullCorrection big c as := by
  refine ⟨as.map (fun a => -(max 0 (1 - c * (a.mu / a.pi)) * a.f * a.adv)), by simp, ?_, ?_⟩
  · intro i a t h1 h2 h3
    rw [List.getElem?_map, h1] at h2
    simp only [Option.map_some, Option.some.injEq] at h2
    subst h2
    have hpa := hp a (List.mem_of_getElem? h1)
    have hma := hm a (List.mem_of_getElem? h1)
    simp only [sampleCorrection, importance, h3, if_false, bind, Except.bind, pure, Except.pure, pyAssert]
    split
    · rename_i hlt
      have : 1 ≤ c * (a.mu / a.pi) := by
        have := mul_le_mul_of_nonneg_left hlt.2 hc
        rwa [mul_one_div_cancel hlt.1.ne'] at this
      rw [max_eq_left (by linarith)]; simp
    · rw [if_pos]
      have : 0 ≤ c * (a.mu / a.pi) := mul_nonneg hc (div_nonneg hma hpa)
      simpa using this
  · induction as with
    | nil => simp [fullCorrection]
    | cons a as ih =>
      have ih := ih (fun a ha => hp a (List.mem_cons_of_mem _ ha)) (fun a ha => hm a (List.mem_cons_of_mem _ ha))
      simp only [fullCorrection, List.map_cons, List.zipWith_cons_cons, List.sum_cons] at ih ⊢
      rw [ih]
      by_cases h : a.pi = 0
      · simp [h]
      · simp only [fullImportance, h, if_false, max_comm]
        ring

example : expectedTruncated (2 : ℚ) [⟨1/2, 1/10, 3, 1⟩, ⟨1/2, 9/10, 1, -2⟩] +
    fullCorrection 1000 2 [⟨1/2, 1/10, 3, 1⟩, ⟨1/2, 9/10, 1, -2⟩] = -(1/2) ∧
    fullCorrection 1000 (2 : ℚ) [⟨1/2, 1/10, 3, 1⟩, ⟨1/2, 9/10, 1, -2⟩] = -(9/10) := by decide +kernel

/-! ## Retrace -/

theorem traced_cons (gamma c0 d : K) (c : K) (cs ds : List K) :
    traced gamma (c0 :: c :: cs) (d :: ds) = d + gamma * c * traced gamma (c :: cs) ds := by
  simp only [traced, List.length_cons, List.range_succ_eq_map, List.map_cons, List.sum_cons,
    List.map_map, Function.comp_def, List.drop_succ_cons, List.drop_zero]
  rw [← List.sum_map_mul_left]
  congr 1
  · simp
  · congr 1
    apply List.map_congr_left
    intro j _
    simp only [List.take_succ_cons, List.prod_cons, List.getD_cons_succ,
      Nat.succ_eq_add_one, pow_succ]
    ring

/-- The value carried out of the loop is `c (Q_ret - Q) + v` of its first step. -/
theorem loop_cons (gamma R : K) (s : Step K) (ss : List (Step K)) :
    targets gamma R (s :: ss) = ⟨s.r + gamma * (loop gamma R ss).1.1, s.r + gamma * (loop gamma R ss).1.2⟩ ::
      targets gamma R ss := rfl

/-- **C73**: the regression target of every step is the Retrace target: `Q` plus the
discounted sum of the later temporal difference errors, each cut by the product of the
trace coefficients of the steps in between (its own excluded); the advantage target is
the same without cutting. -/
theorem C73_retrace (gamma R : K) (ss : List (Step K)) (i : Nat) (s : Step K) (h : ss[i]? = some s) :
    ∃ t, (targets gamma R ss)[i]? = some t ∧
      t.qRet = s.q + traced gamma ((ss.drop i).map (·.c)) (tdErrors gamma R (ss.drop i)) ∧
      t.qOpc = s.q + traced gamma ((ss.drop i).map (fun _ => 1)) (tdErrors gamma R (ss.drop i)) := by
  have key : ∀ (ss : List (Step K)) (s : Step K),
      s.r + gamma * (loop gamma R ss).1.1 =
        s.q + traced gamma ((s :: ss).map (·.c)) (tdErrors gamma R (s :: ss)) ∧
      s.r + gamma * (loop gamma R ss).1.2 =
        s.q + traced gamma ((s :: ss).map (fun _ => 1)) (tdErrors gamma R (s :: ss)) := by
    intro ss
    induction ss with
    | nil => intro s; simp [loop, tdErrors, traced]
    | cons s' ss ih =>
      intro s
      obtain ⟨h1, h2⟩ := ih s'
      simp only [List.map_cons, tdErrors] at h1 h2 ⊢
      rw [traced_cons, traced_cons]
      simp only [loop]
      constructor
      · rw [h1]; ring
      · rw [h2]; ring
  induction ss generalizing i with
  | nil => simp at h
  | cons s0 ss ih =>
    cases i with
    | zero =>
      simp only [List.getElem?_cons_zero, Option.some.injEq] at h
      subst h
      refine ⟨_, by rw [loop_cons]; rfl, ?_, ?_⟩
      · exact (key ss s0).1
      · exact (key ss s0).2
    | succ i =>
      rw [List.getElem?_cons_succ] at h
      obtain ⟨t, h1, h2, h3⟩ := ih i h
      exact ⟨t, by rw [loop_cons]; simpa using h1, h2, h3⟩

/-- **C73**: on-policy (all coefficients one) and with values `v = Q` the target is the
discounted return bootstrapped with `R`. -/
theorem C73_on_policy (gamma R : K) (ss : List (Step K)) (hc : ∀ s ∈ ss, s.c = 1 ∧ s.v = s.q) :
    (loop gamma R ss).1.1 = ss.foldr (fun s acc => s.r + gamma * acc) R := by
  induction ss with
  | nil => rfl
  | cons s ss ih =>
    have ih := ih (fun s hs => hc s (List.mem_cons_of_mem _ hs))
    obtain ⟨h1, h2⟩ := hc s (List.mem_cons_self ..)
    simp only [loop, List.foldr_cons, h1, h2, ih]
    ring

/-- **C73**: the trace coefficient of a discrete policy is the importance weight cut at
one, so between zero and one. -/
theorem C73_coef (rho : K) (h : 0 ≤ rho) : 0 ≤ traceCoef rho ∧ traceCoef rho ≤ 1 ∧
    (rho ≤ 1 → traceCoef rho = rho) :=
  ⟨le_min zero_le_one h, min_le_left _ _, fun h => min_eq_right h⟩

example : (targets (1/2) 4 [⟨1, 1, 2, 1/2⟩, ⟨2, 3, 1, 1/3⟩, (⟨3, 5, 1, 1⟩ : Step ℚ)]).map (·.qRet) =
    [1 + (1/2) * ((1/3) * (2 + (1/2) * (1 * (3 + (1/2) * 4 - 1) + 5) - 1) + 3),
      2 + (1/2) * (1 * (3 + (1/2) * 4 - 1) + 5), 3 + (1/2) * 4] := by decide +kernel

/-- **C73**: the advantage of every step is the Retrace target, or with `use_Q_opc` the same
target without cutting, minus the value. -/
theorem C73_advantages (useOpc : Bool) (gamma R : K) (ss : List (Step K)) (i : Nat) (s : Step K)
    (h : ss[i]? = some s) :
    (advantages useOpc gamma R ss)[i]? = some (s.q +
      traced gamma (if useOpc then (ss.drop i).map (fun _ => 1) else (ss.drop i).map (·.c))
        (tdErrors gamma R (ss.drop i)) - s.v) := by
  obtain ⟨t, h1, h2, h3⟩ := C73_retrace gamma R ss i s h
  simp only [advantages, List.getElem?_zipWith, h, h1, Option.some.injEq]
  cases useOpc
  · simp [h2]
  · simp [h3]

/-- **C73**: the loss is half the sum of squared distances of the `Q` values to the Retrace targets. -/
theorem C73_loss (gamma R : K) (ss : List (Step K)) :
    qLoss gamma R ss = ((List.range ss.length).map fun i =>
      (traced gamma ((ss.drop i).map (·.c)) (tdErrors gamma R (ss.drop i))) ^ 2 / 2).sum := by
  unfold qLoss
  congr 1
  have hlen : (targets gamma R ss).length = ss.length := by
    unfold targets
    induction ss with
    | nil => rfl
    | cons s ss ih => simp [loop, ih]
  apply List.ext_getElem?
  intro i
  by_cases hi : i < ss.length
  · obtain ⟨t, h1, h2, _⟩ := C73_retrace gamma R ss i ss[i] (List.getElem?_eq_getElem hi)
    simp only [List.getElem?_zipWith, h1, List.getElem?_eq_getElem hi, List.getElem?_map]
    rw [List.getElem?_range hi]
    simp only [h2, Option.map_some]
    congr 2
    ring
  · rw [List.getElem?_eq_none (by simp [hlen]; omega), List.getElem?_eq_none (by simp; omega)]

example : advantages false (1/2) 4 [⟨1, 1, 2, 1/2⟩, (⟨2, 3, 1, 1/3⟩ : Step ℚ)] = [1 + (1/2) * (1/3 * (4 - 1) + 3) - 1, 4 - 3] ∧
    advantages true (1/2) 4 [⟨1, 1, 2, 1/2⟩, (⟨2, 3, 1, 1/3⟩ : Step ℚ)] = [1 + (1/2) * ((4 - 1) + 3) - 1, 4 - 3] := by
  decide +kernel

/-- **C72**: where no importance weight exceeds the truncation threshold the correction
vanishes, summed over the actions and for every sampled action. -/
theorem C72_vanishes (big c : K) (as : List (Act K)) (hp : ∀ a ∈ as, 0 ≤ a.pi)
    (hw : ∀ a ∈ as, a.pi ≤ c * a.mu) :
    fullCorrection big c as = 0 ∧
      ∀ a ∈ as, 0 < a.pi → sampleCorrection c a = .ok 0 := by
  have key : ∀ a ∈ as, 0 < a.pi → 1 ≤ c * (a.mu / a.pi) := by
    intro a ha h0
    rw [← mul_div_assoc, le_div_iff₀ h0, one_mul]
    exact hw a ha
  constructor
  · have : as.map (fun a => max (1 - c * fullImportance big a.mu a.pi) 0 * a.pi * a.f * a.adv) =
        as.map (fun _ => (0 : K)) := by
      apply List.map_congr_left
      intro a ha
      rcases (hp a ha).eq_or_lt with h0 | h0
      · rw [← h0]; simp
      · have := key a ha h0
        rw [fullImportance, if_neg h0.ne', max_eq_right (by linarith)]; simp
    simp [fullCorrection, this]
  · intro a ha h0
    have h1 := key a ha h0
    simp only [sampleCorrection, importance, h0.ne', if_false, bind, Except.bind, pure, Except.pure, pyAssert]
    split
    · rfl
    · rw [max_eq_left (by linarith)]; simp

/-- The hypotheses of `C72_vanishes` are met with two actions. -/
example : fullCorrection (10 : ℚ) 2 [⟨1/3, 1/4, 1, 5⟩, ⟨2/3, 3/4, 2, -1⟩] = 0 :=
  (C72_vanishes 10 2 _ (by norm_num) (by norm_num)).1

end Verif.ACER
