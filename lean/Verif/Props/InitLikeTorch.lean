import Mathlib.MeasureTheory.Integral.IntervalIntegral.FundThmCalculus
import Mathlib.Analysis.SpecialFunctions.Integrals.Basic
import Mathlib.Algebra.Order.BigOperators.Ring.Finset
import Mathlib.Tactic.Linarith
import Mathlib.Tactic.FieldSimp
import Mathlib.Tactic.Ring
import Verif.Model.InitLikeTorch

/-! # C153: `init_like_torch` gives every linear and convolutional layer fresh weights of the documented size -/

set_option autoImplicit false
set_option linter.unusedSectionVars false

namespace Verif.InitLikeTorch

/-! ## Specification -/

mutual
/-- The links at and below a link, parents first. -/
def Link.all : Link → List Kind
  | .node k cs => k :: cs.all
/-- The links of several. -/
def Links.all : Links → List Kind
  | .nil => []
  | .cons l ls => l.all ++ ls.all
end

/-- The number of inputs of a unit of a layer, and its parameters: weights first. -/
def Kind.layer : Kind → Option (ℕ × List ℝ × Option (List ℝ))
  | .linear _ nIn W b => some (nIn, W, b)
  | .conv _ nIn kh kw W b => some (nIn * kh * kw, W, b)
  | .other _ => none

/-- The entries of a layer times the square root of the number of inputs. -/
noncomputable def Kind.scaled (k : Kind) : List ℝ :=
  match k.layer with
  | none => []
  | some (n, W, b) => (W ++ b.getD []).map fun x => x * Real.sqrt n

/-- The shapes of two layers are the same; anything else is the same altogether. -/
def SameShape : Kind → Kind → Prop
  | .linear o i W b, .linear o' i' W' b' => o = o' ∧ i = i' ∧ W.length = W'.length ∧ b.map List.length = b'.map List.length
  | .conv o i kh kw W b, .conv o' i' kh' kw' W' b' => o = o' ∧ i = i' ∧ kh = kh' ∧ kw = kw' ∧ W.length = W'.length ∧ b.map List.length = b'.map List.length
  | .other p, .other p' => p = p'
  | _, _ => False

/-- Units have inputs. -/
def Kind.HasInputs (k : Kind) : Prop := ∀ n W b, k.layer = some (n, W, b) → 0 < n

/-! ## Proofs -/

theorem uniform_length (u : ℕ → ℝ) (k : ℕ) (lo hi : ℝ) (n : ℕ) : (uniform u k lo hi n).length = n := by simp [uniform]

theorem uniform_scaled (u : ℕ → ℝ) (k n N : ℕ) (hN : 0 < N) :
    ((uniform u k (-(1 / Real.sqrt N)) (1 / Real.sqrt N) n).map fun x => x * Real.sqrt N) = (List.range n).map fun i => 2 * u (k + i) - 1 := by
  have h : Real.sqrt N ≠ 0 := (Real.sqrt_pos.2 (by exact_mod_cast hN)).ne'
  simp only [uniform, List.map_map, Function.comp_def]
  refine List.map_congr_left fun i _ => ?_
  field_simp
  ring

theorem range_add (f : ℕ → ℝ) (a b c : ℕ) : ((List.range a).map fun i => f (c + i)) ++ ((List.range b).map fun i => f (c + a + i)) = (List.range (a + b)).map fun i => f (c + i) := by
  rw [List.range_add, List.map_append, List.map_map]
  simp [Function.comp_def, Nat.add_assoc]

/-- One link. -/
theorem one_spec (u : ℕ → ℝ) (k : ℕ) (a : Kind) (ha : a.HasInputs) :
    SameShape a (initOne u k a).1 ∧ (initOne u k a).2 = k + a.scaled.length ∧ (initOne u k a).1.scaled = (List.range a.scaled.length).map fun i => 2 * u (k + i) - 1 := by
  have key : ∀ N : ℕ, 0 < N → ∀ (W : List ℝ) (b : Option (List ℝ)),
      (uniform u k (-(1 / Real.sqrt N)) (1 / Real.sqrt N) W.length ++ (initBias u (k + W.length) (1 / Real.sqrt N) b).1.getD []).map (fun x => x * Real.sqrt N) =
        (List.range (W ++ b.getD []).length).map (fun i => 2 * u (k + i) - 1) ∧
      (initBias u (k + W.length) (1 / Real.sqrt N) b).2 = k + (W ++ b.getD []).length ∧
      b.map List.length = (initBias u (k + W.length) (1 / Real.sqrt N) b).1.map List.length := by
    intro N hN W b
    cases b with
    | none => exact ⟨by simpa [initBias, -one_div] using uniform_scaled u k W.length N hN, by simp [initBias], rfl⟩
    | some b =>
      refine ⟨?_, by simp [initBias, Nat.add_assoc], by simp [initBias, uniform_length]⟩
      simp only [initBias, Option.getD_some, List.map_append, uniform_scaled u _ _ N hN, List.length_append]
      exact range_add (fun i => 2 * u i - 1) _ _ _
  cases a with
  | other p => simp [initOne, SameShape, Kind.scaled, Kind.layer]
  | linear o i W b =>
    obtain ⟨h1, h2, h3⟩ := key i (ha _ _ _ rfl) W b
    refine ⟨⟨rfl, rfl, (uniform_length _ _ _ _ _).symm, h3⟩, ?_, ?_⟩
    · simpa [initOne, Kind.scaled, Kind.layer] using h2
    · simpa [initOne, Kind.scaled, Kind.layer] using h1
  | conv o i kh kw W b =>
    obtain ⟨h1, h2, h3⟩ := key (i * kh * kw) (ha _ _ _ rfl) W b
    refine ⟨⟨rfl, rfl, rfl, rfl, (uniform_length _ _ _ _ _).symm, h3⟩, ?_, ?_⟩
    · simpa [initOne, Kind.scaled, Kind.layer] using h2
    · simpa [initOne, Kind.scaled, Kind.layer] using h1

/-- What is to be shown for several links. -/
def Good (u : ℕ → ℝ) (k : ℕ) (as bs : List Kind) (k' : ℕ) : Prop :=
  List.Forall₂ SameShape as bs ∧ k' = k + (as.flatMap Kind.scaled).length ∧ bs.flatMap Kind.scaled = (List.range (as.flatMap Kind.scaled).length).map fun i => 2 * u (k + i) - 1

theorem Good.append {u : ℕ → ℝ} {k k1 k2 : ℕ} {as bs cs ds : List Kind} (h : Good u k as bs k1) (h' : Good u k1 cs ds k2) : Good u k (as ++ cs) (bs ++ ds) k2 := by
  obtain ⟨a1, a2, a3⟩ := h
  obtain ⟨b1, b2, b3⟩ := h'
  refine ⟨List.rel_append a1 b1, ?_, ?_⟩
  · rw [List.flatMap_append, List.length_append]; omega
  · rw [List.flatMap_append, List.flatMap_append, a3, b3, a2, List.length_append]
    exact range_add (fun i => 2 * u i - 1) _ _ _

mutual
theorem link_good (u : ℕ → ℝ) : ∀ (l : Link) (k : ℕ), (∀ a ∈ l.all, a.HasInputs) → Good u k l.all (initLink u k l).1.all (initLink u k l).2
  | .node kind cs, k, h => by
    obtain ⟨h1, h2, h3⟩ := one_spec u k kind (h _ (by simp [Link.all]))
    have g1 : Good u k [kind] [(initOne u k kind).1] (initOne u k kind).2 := ⟨.cons h1 .nil, by simpa using h2, by simpa using h3⟩
    exact g1.append (links_good u cs (initOne u k kind).2 fun a ha => h a (by simp [Link.all, ha]))
theorem links_good (u : ℕ → ℝ) : ∀ (ls : Links) (k : ℕ), (∀ a ∈ ls.all, a.HasInputs) → Good u k ls.all (initLinks u k ls).1.all (initLinks u k ls).2
  | .nil, k, _ => ⟨.nil, rfl, rfl⟩
  | .cons l ls, k, h =>
    (link_good u l k fun a ha => h a (by simp [Links.all, ha])).append (links_good u ls (initLink u k l).2 fun a ha => h a (by simp [Links.all, ha]))
end

/-! ## The theorems -/

/-- **C153**: the links and their shapes stay, a layer without bias stays without, links other than linear and convolutional layers keep their parameters, and the entries of all layers of the
network, one after the other and times the square root of the number of inputs of the layer, are `2 u - 1` for the random numbers `u` in order: each is used once. -/
theorem C153_entries (u : ℕ → ℝ) (l : Link) (h : ∀ a ∈ l.all, a.HasInputs) :
    List.Forall₂ SameShape l.all (initLikeTorch u l).all ∧
    (initLikeTorch u l).all.flatMap Kind.scaled = (List.range (l.all.flatMap Kind.scaled).length).map fun i => 2 * u i - 1 := by
  obtain ⟨h1, -, h3⟩ := link_good u l 0 h
  refine ⟨h1, ?_⟩
  simp only [Nat.zero_add] at h3
  exact h3

theorem forall₂_right {α β : Type} {R : α → β → Prop} {P : α → Prop} {Q : β → Prop} (hPQ : ∀ a b, R a b → P a → Q b) {as : List α} {bs : List β} (h : List.Forall₂ R as bs) (hP : ∀ a ∈ as, P a) :
    ∀ b ∈ bs, Q b := by
  induction h with
  | nil => simp
  | cons h1 _ ih =>
    intro b hb
    rcases List.mem_cons.1 hb with rfl | hb
    · exact hPQ _ _ h1 (hP _ (by simp))
    · exact ih (fun a ha => hP a (by simp [ha])) b hb

/-- **C153**: all weights and biases of a layer with `n` inputs per unit are at least `-1 / sqrt n` and below `1 / sqrt n`. -/
theorem C153_bounds (u : ℕ → ℝ) (hu : ∀ i, 0 ≤ u i ∧ u i < 1) (l : Link) (h : ∀ a ∈ l.all, a.HasInputs) :
    ∀ a ∈ (initLikeTorch u l).all, ∀ n W b, a.layer = some (n, W, b) → ∀ x ∈ W ++ b.getD [], -(1 / Real.sqrt n) ≤ x ∧ x < 1 / Real.sqrt n := by
  obtain ⟨h1, h2⟩ := C153_entries u l h
  intro a ha n W b hl x hx
  have hn : 0 < n := by
    refine forall₂_right (P := Kind.HasInputs) (Q := Kind.HasInputs) (fun a b hab hp => ?_) h1 h a ha _ _ _ hl
    intro n W c hb
    cases a <;> cases b <;> simp only [SameShape] at hab
    · simp only [Kind.layer, Option.some.injEq, Prod.mk.injEq] at hb
      rw [← hb.1, ← hab.2.1]; exact hp _ _ _ rfl
    · simp only [Kind.layer, Option.some.injEq, Prod.mk.injEq] at hb
      rw [← hb.1, ← hab.2.1, ← hab.2.2.1, ← hab.2.2.2.1]; exact hp _ _ _ rfl
    · simp [Kind.layer] at hb
  have hs : 0 < Real.sqrt n := Real.sqrt_pos.2 (by exact_mod_cast hn)
  have hm : x * Real.sqrt n ∈ (initLikeTorch u l).all.flatMap Kind.scaled := by
    refine List.mem_flatMap.2 ⟨a, ha, ?_⟩
    simp only [Kind.scaled, hl]
    exact List.mem_map_of_mem hx
  rw [h2] at hm
  obtain ⟨i, -, hi⟩ := List.mem_map.1 hm
  have := hu i
  constructor
  · rw [← neg_div, div_le_iff₀ hs]; linarith
  · rw [lt_div_iff₀ hs]; linarith

/-- **C153**: for a uniform random number an entry has the mean 0 and the variance `1 / (3 n)`. -/
theorem C153_moments (n : ℕ) (hn : 0 < n) :
    (∫ u in (0 : ℝ)..1, (2 * u - 1) / Real.sqrt n) = (0 : ℝ) ∧ (∫ u in (0 : ℝ)..1, ((2 * u - 1) / Real.sqrt n) ^ 2) = 1 / (3 * (n : ℝ)) := by
  have hs : Real.sqrt n ^ 2 = n := Real.sq_sqrt (Nat.cast_nonneg n)
  constructor
  · rw [intervalIntegral.integral_div]
    have : (∫ u in (0 : ℝ)..1, (2 * u - 1)) = (0 : ℝ) := by
      rw [intervalIntegral.integral_sub (Continuous.intervalIntegrable (by fun_prop) _ _) (by simp), intervalIntegral.integral_const_mul, integral_id]
      simp
    rw [this, zero_div]
  · have e : ∀ u : ℝ, ((2 * u - 1) / Real.sqrt n) ^ 2 = (4 * u ^ 2 - 4 * u + 1) / n := fun u => by rw [div_pow, hs]; ring
    simp only [e]
    rw [intervalIntegral.integral_div]
    have : (∫ u in (0 : ℝ)..1, (4 * u ^ 2 - 4 * u + 1)) = 1 / 3 := by
      rw [intervalIntegral.integral_add (Continuous.intervalIntegrable (by fun_prop) _ _) (by simp), intervalIntegral.integral_sub (Continuous.intervalIntegrable (by fun_prop) _ _) (Continuous.intervalIntegrable (by fun_prop) _ _)]
      rw [intervalIntegral.integral_const_mul, intervalIntegral.integral_const_mul, integral_id, integral_pow]
      norm_num
    rw [this]
    field_simp

/-- **C153**: an initialised linear layer with `n` inputs maps an input to outputs of at most its Euclidean norm plus `1 / sqrt n`. -/
theorem C153_output (nOut n : ℕ) (hn : 0 < n) (W : List ℝ) (b : Option (List ℝ)) (hb : ∀ x ∈ W ++ b.getD [], -(1 / Real.sqrt n) ≤ x ∧ x < 1 / Real.sqrt n) (x : ℕ → ℝ) :
    ∀ y ∈ linearCall nOut n W b x, |y| ≤ Real.sqrt (∑ i ∈ Finset.range n, x i ^ 2) + 1 / Real.sqrt n := by
  intro y hy
  obtain ⟨j, -, rfl⟩ := List.mem_map.1 hy
  have hs : 0 < Real.sqrt n := Real.sqrt_pos.2 (by exact_mod_cast hn)
  have hget : ∀ (l : List ℝ) (i : ℕ), (∀ x ∈ l, x ∈ W ++ b.getD []) → |l.getD i 0| ≤ 1 / Real.sqrt n := by
    intro l i hl
    by_cases hi : i < l.length
    · rw [List.getD_eq_getElem?_getD, List.getElem?_eq_getElem hi, Option.getD_some]
      have := hb _ (hl _ (List.getElem_mem hi))
      exact abs_le.2 ⟨this.1, this.2.le⟩
    · rw [List.getD_eq_getElem?_getD, List.getElem?_eq_none (by omega)]; simp
  refine (abs_add_le _ _).trans (add_le_add ?_ ?_)
  · have e : ((List.range n).map fun i => W.getD (j * n + i) 0 * x i).sum = ∑ i ∈ Finset.range n, W.getD (j * n + i) 0 * x i := by
      rfl
    rw [e]
    refine Real.abs_le_sqrt ((Finset.sum_mul_sq_le_sq_mul_sq _ _ _).trans ?_)
    have h1 : ∑ i ∈ Finset.range n, W.getD (j * n + i) 0 ^ 2 ≤ 1 := by
      have hn' : (0 : ℝ) < n := by exact_mod_cast hn
      calc ∑ i ∈ Finset.range n, W.getD (j * n + i) 0 ^ 2 ≤ ∑ _i ∈ Finset.range n, 1 / (n : ℝ) := Finset.sum_le_sum fun i _ => by
            have := sq_le_sq' (neg_le_of_abs_le (hget W (j * n + i) fun x hx => by simp [hx])) (le_of_abs_le (hget W (j * n + i) fun x hx => by simp [hx]))
            rwa [div_pow, one_pow, Real.sq_sqrt hn'.le] at this
        _ = 1 := by rw [Finset.sum_const, Finset.card_range, nsmul_eq_mul]; field_simp
    have h2 : 0 ≤ ∑ i ∈ Finset.range n, x i ^ 2 := Finset.sum_nonneg fun i _ => sq_nonneg _
    nlinarith
  · cases b with
    | none => simp
    | some b => exact hget b j fun x hx => by simp [hx]

/-! ## A case -/

/-- A convolution without bias, a normalisation with two parameters, and a linear layer with four inputs and one output. -/
def exLink : Link :=
  .node (.other []) (.cons (.node (.conv 1 1 2 2 [9, 9, 9, 9] none) .nil) (.cons (.node (.other []) (.cons (.node (.other [5, 6]) .nil) .nil)) (.cons (.node (.linear 1 4 [0, 0, 0, 0] (some [7])) .nil) .nil)))

theorem exLink_inputs : ∀ a ∈ exLink.all, a.HasInputs := by
  intro a ha n W b h
  simp only [exLink, Link.all, Links.all, List.cons_append, List.nil_append, List.append_nil, List.mem_cons, List.not_mem_nil, or_false] at ha
  rcases ha with rfl | rfl | rfl | rfl | rfl <;> simp only [Kind.layer, reduceCtorEq, Option.some.injEq, Prod.mk.injEq] at h
  · omega
  · omega

/-- The hypotheses of the theorems are met: nine random numbers are used, and inputs of norm 1 give outputs of at most 3/2. -/
example (u : ℕ → ℝ) (hu : ∀ i, 0 ≤ u i ∧ u i < 1) : ((initLikeTorch u exLink).all.flatMap Kind.scaled).length = 9 ∧ ∃ W b, Kind.linear 1 4 W b ∈ (initLikeTorch u exLink).all ∧
    ∀ x : ℕ → ℝ, ∑ i ∈ Finset.range 4, x i ^ 2 = 1 → ∀ y ∈ linearCall 1 4 W b x, |y| ≤ 3 / 2 := by
  refine ⟨by rw [(C153_entries u exLink exLink_inputs).2]; simp [exLink, Link.all, Links.all, Kind.scaled, Kind.layer], ?_⟩
  obtain ⟨W, b, hm⟩ : ∃ W b, Kind.linear 1 4 W b ∈ (initLikeTorch u exLink).all :=
    ⟨_, _, by simp only [initLikeTorch, exLink, initLink, initLinks, initOne, Link.all, Links.all, List.cons_append, List.nil_append, List.append_nil]; simp; exact ⟨rfl, rfl⟩⟩
  refine ⟨W, b, hm, fun x hx y hy => ?_⟩
  have := C153_output 1 4 (by norm_num) W b (C153_bounds u hu exLink exLink_inputs _ hm 4 W b rfl) x y hy
  have h4 : Real.sqrt ((4 : ℕ) : ℝ) = 2 := by rw [show ((4 : ℕ) : ℝ) = 2 ^ 2 by norm_num]; exact Real.sqrt_sq (by norm_num)
  rw [hx, h4, Real.sqrt_one] at this
  linarith

end Verif.InitLikeTorch
