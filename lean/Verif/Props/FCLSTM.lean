import Verif.Model.FCLSTM
import Verif.Props.Distrib
import Verif.Props.FCNets

/-!
C147: the ready-made recurrent networks, and those for discrete actions and state values.
-/

set_option autoImplicit false
set_option linter.unusedSectionVars false

namespace Verif.FCLSTM
open FCNets

noncomputable section

/-! ### Specification -/

/-- The state of a row: after a reset, or of the size of the LSTM with outputs between -1 and 1. -/
def Ok (m : Nat) : State → Prop
  | none => True
  | some (c, h) => c.length = m ∧ h.length = m ∧ ∀ v ∈ h, |v| < 1

/-- The initial state: zeros. -/
def zeros (m : Nat) : List ℝ × List ℝ := (List.replicate m 0, List.replicate m 0)

/-- The sum of the absolute weights of an output. -/
def weight (row : List ℝ) : ℝ := (row.map fun w => |w|).sum

/-! ### The cell -/

theorem sigmoid_mem (x : ℝ) : 0 < sigmoid x ∧ sigmoid x < 1 := by
  have := Real.exp_pos (-x)
  unfold sigmoid
  constructor
  · positivity
  · rw [div_lt_one (by positivity)]; linarith

theorem tanh_abs (x : ℝ) : |Real.tanh x| < 1 := abs_lt.2 ⟨Real.neg_one_lt_tanh x, Real.tanh_lt_one x⟩

theorem cell_ok (m : Nat) (st : State) (z : List ℝ) : Ok m (some (cell m st z)) := by
  refine ⟨by simp [cell], by simp [cell], fun v hv => ?_⟩
  simp only [cell, List.mem_map, List.mem_range] at hv
  obtain ⟨j, -, rfl⟩ := hv
  rw [abs_mul, abs_of_pos (sigmoid_mem _).1]
  exact mul_lt_one_of_nonneg_of_lt_one_left (sigmoid_mem _).1.le (sigmoid_mem _).2 (tanh_abs _).le

theorem lateral_shape {l : LSTM} {n m : Nat} (h : l.HasShape n m) :
    (⟨l.lateral, List.replicate l.lateral.length 0⟩ : Lin).HasShape (m, 4 * m) :=
  ⟨h.2.1, by simp [h.2.1], h.2.2⟩

theorem gates_some {l : LSTM} {n m : Nat} (h : l.HasShape n m) (st : State) (hst : Ok m st) (x : List ℝ) (hx : x.length = n) :
    ∃ z, l.gates st x = some z ∧ z.length = 4 * m := by
  obtain ⟨e1, e2⟩ := apply_eq l.upward _ h.1 x hx
  unfold LSTM.gates
  rw [e1]
  match st, hst with
  | none, _ => exact ⟨_, rfl, e2⟩
  | some (c, y), hst =>
    obtain ⟨e3, e4⟩ := apply_eq _ _ (lateral_shape h) y hst.2.1
    simp only [e3]
    exact ⟨_, rfl, by simp only [List.length_zipWith]; rw [e2, e4]; simp⟩

theorem zipWith_zero (row : List ℝ) (k : Nat) : (List.zipWith (fun w v => w * v) row (List.replicate k (0 : ℝ))).sum = 0 := by
  induction row generalizing k with
  | nil => simp
  | cons w row ih =>
    cases k with
    | zero => simp
    | succ k => simp [List.replicate_succ, ih]

theorem affine_zero (W : List (List ℝ)) (k : Nat) :
    affine (List.replicate k 0) ⟨W, List.replicate W.length 0⟩ = List.replicate W.length 0 := by
  unfold affine
  induction W with
  | nil => rfl
  | cons row W ih =>
    simp only [zipWith_zero] at ih
    simp only [List.length_cons, List.replicate_succ, List.zipWith_cons_cons, zipWith_zero, add_zero, ih]

theorem zipWith_add_zero (z : List ℝ) : List.zipWith (· + ·) z (List.replicate z.length (0 : ℝ)) = z := by
  induction z with
  | nil => rfl
  | cons a z ih => simp only [List.length_cons, List.replicate_succ, List.zipWith_cons_cons, add_zero, ih]

/-- The state `None` acts as zeros: there is no bias on the way from the state to the gates. -/
theorem lstm_none {l : LSTM} {n m : Nat} (h : l.HasShape n m) (x : List ℝ) (hx : x.length = n) :
    l.call m none x = l.call m (some (zeros m)) x := by
  obtain ⟨e1, e2⟩ := apply_eq l.upward _ h.1 x hx
  obtain ⟨e3, -⟩ := apply_eq _ _ (lateral_shape h) (List.replicate m 0) (by simp)
  have e : l.gates none x = l.gates (some (zeros m)) x := by
    unfold LSTM.gates zeros
    simp only [e1, e3, affine_zero]
    rw [h.2.1]
    have e4 := zipWith_add_zero (affine x l.upward)
    rw [e2] at e4
    rw [e4]
  unfold LSTM.call
  rw [e]
  rfl

/-! ### The networks -/

section
variable {n : Net} {nIn nHidden nLayers outSize : Nat} (hn : n.HasShape nIn nHidden nLayers outSize) {σ : Nonlin}
  (hσ : ∀ y, (σ y).length = y.length)
include hn hσ

theorem net_some (st : State) (hst : Ok nHidden st) (x : List ℝ) (hx : x.length = nIn) :
    ∃ s o, n.call nHidden σ st x = some (some s, o) ∧ Ok nHidden (some s) ∧ o = affine s.2 n.out ∧ o.length = outSize := by
  obtain ⟨h1, h2, -, -⟩ := C96_mlp n.fc _ _ _ hn.1 σ hσ x hx
  obtain ⟨z, h3, -⟩ := gates_some hn.2.1 st hst (σ (network σ n.fc.hidden n.fc.output x)) (by rw [hσ, h2])
  have hok := cell_ok nHidden st z
  obtain ⟨e1, e2⟩ := apply_eq n.out _ hn.2.2 (cell nHidden st z).2 hok.2.1
  refine ⟨cell nHidden st z, _, ?_, hok, rfl, e2⟩
  unfold Net.call LSTM.call
  simp only [h1, h3, e1]

/-- **C147**: for all weights, all numbers of hidden layers and every sequence of inputs of the right size since the last reset, the network
accepts all of them and gives one output of the configured size for each. -/
theorem C147_accepts (xs : List (List ℝ)) (hxs : ∀ x ∈ xs, x.length = nIn) : ∀ st, Ok nHidden st →
    ∃ os, run (n.call nHidden σ) st xs = some os ∧ os.length = xs.length ∧ ∀ o ∈ os, o.length = outSize := by
  induction xs with
  | nil => intro st _; exact ⟨[], rfl, rfl, by simp⟩
  | cons x xs ih =>
    intro st hst
    obtain ⟨s, o, h1, h2, -, h3⟩ := net_some hn hσ st hst x (hxs x (by simp))
    obtain ⟨os, h4, h5, h6⟩ := ih (fun y hy => hxs y (List.mem_cons_of_mem _ hy)) (some s) h2
    refine ⟨o :: os, by simp only [run, h1, h4], by simp [h5], fun y hy => ?_⟩
    rcases List.mem_cons.1 hy with rfl | hy
    · exact h3
    · exact h6 y hy

end

theorem dot_bound : ∀ (row h : List ℝ), (∀ v ∈ h, |v| < 1) → |(List.zipWith (fun w v => w * v) row h).sum| ≤ weight row
  | [], _, _ => by simp [weight]
  | w :: row, [], _ => by
    have : 0 ≤ weight (w :: row) := List.sum_nonneg fun x hx => by obtain ⟨y, -, rfl⟩ := List.mem_map.1 hx; exact abs_nonneg y
    simpa using this
  | w :: row, v :: h, hv => by
    have h1 := dot_bound row h fun u hu => hv u (List.mem_cons_of_mem _ hu)
    have h2 : |w * v| ≤ |w| := by
      rw [abs_mul]
      exact mul_le_of_le_one_right (abs_nonneg w) (hv v (by simp)).le
    simp only [List.zipWith_cons_cons, List.sum_cons]
    calc |w * v + (List.zipWith (fun w v => w * v) row h).sum| ≤ |w * v| + |(List.zipWith (fun w v => w * v) row h).sum| := abs_add_le _ _
      _ ≤ |w| + weight row := add_le_add h2 h1
      _ = weight (w :: row) := by simp [weight]

section
variable {n : Net} {nIn nHidden nLayers outSize : Nat} (hn : n.HasShape nIn nHidden nLayers outSize) {σ : Nonlin}
  (hσ : ∀ y, (σ y).length = y.length)
include hn hσ

/-- **C147**: whatever has been fed and however long, each output stays within the sum of the absolute weights of the last layer around its
bias: these networks cannot give larger values before their last layer is changed. -/
theorem C147_bounded (xs : List (List ℝ)) (hxs : ∀ x ∈ xs, x.length = nIn) : ∀ st, Ok nHidden st → ∀ os,
    run (n.call nHidden σ) st xs = some os → ∀ o ∈ os, ∀ (i : Nat) (v b : ℝ) (row : List ℝ), o[i]? = some v → n.out.W[i]? = some row →
      n.out.b[i]? = some b → |v - b| ≤ weight row := by
  induction xs with
  | nil => intro st _ os h; cases h; simp
  | cons x xs ih =>
    intro st hst os h
    obtain ⟨s, o, h1, h2, h3, -⟩ := net_some hn hσ st hst x (hxs x (by simp))
    obtain ⟨os', h4, -, -⟩ := C147_accepts hn hσ xs (fun y hy => hxs y (List.mem_cons_of_mem _ hy)) (some s) h2
    simp only [run, h1, h4] at h
    cases h
    intro y hy i v b row e1 e2 e3
    rcases List.mem_cons.1 hy with rfl | hy
    · rw [h3] at e1
      simp only [affine, List.getElem?_zipWith, e2, e3] at e1
      cases e1
      rw [add_sub_cancel_right]
      exact dot_bound row s.2 h2.2.2
    · exact ih (fun y hy => hxs y (List.mem_cons_of_mem _ hy)) (some s) h2 os' h4 y hy i v b row e1 e2 e3

/-- The network as a recurrent function of rows. -/
def Net.fn (n : Net) (nHidden : Nat) (σ : Nonlin) : RecDDPG.Fn (List ℝ × List ℝ) (List ℝ) (List ℝ) where
  zero := zeros nHidden
  step s x := ((n.call nHidden σ (some s) x).map fun r => (r.1.getD s, r.2)).getD (s, [])

/-- **C147**: the network is a recurrent function of rows as C82 assumes: each call is one step on the state of the row, which after a reset is that
of all zeros. -/
theorem C147_step (st : State) (hst : Ok nHidden st) (x : List ℝ) (hx : x.length = nIn) :
    n.call nHidden σ st x =
      some (some ((n.fn nHidden σ).step (st.getD (zeros nHidden)) x).1, ((n.fn nHidden σ).step (st.getD (zeros nHidden)) x).2) := by
  have key : ∀ s : List ℝ × List ℝ, Ok nHidden (some s) →
      n.call nHidden σ (some s) x = some (some ((n.fn nHidden σ).step s x).1, ((n.fn nHidden σ).step s x).2) := fun s hs => by
    obtain ⟨s', o, h1, -⟩ := net_some hn hσ (some s) hs x hx
    simp only [Net.fn, h1, Option.map_some, Option.getD_some]
  match st, hst with
  | some s, hst => exact key s hst
  | none, _ =>
    have hz : Ok nHidden (some (zeros nHidden)) := ⟨by simp, by simp, fun v hv => by
      have : v = 0 := List.eq_of_mem_replicate hv
      simp [this]⟩
    rw [Option.getD_none, ← key _ hz]
    obtain ⟨h1, h2, -, -⟩ := C96_mlp n.fc _ _ _ hn.1 σ hσ x hx
    unfold Net.call
    simp only [h1]
    rw [lstm_none hn.2.1 _ (by rw [hσ, h2])]

end

/-- **C147**: `FCLSTMDeterministicPolicy` with bounds gives, for all weights and every sequence of inputs, actions of the right size strictly inside the bounds. -/
theorem C147_policy (n : Net) (nIn nHidden nLayers actionSize : Nat) (hn : n.HasShape nIn nHidden nLayers actionSize) (σ : Nonlin)
    (hσ : ∀ y, (σ y).length = y.length) (low high : List ℝ) (hl : low.length = actionSize) (hh : high.length = actionSize)
    (xs : List (List ℝ)) (hxs : ∀ x ∈ xs, x.length = nIn) : ∀ st, Ok nHidden st →
    ∃ as, run (policyCall n nHidden σ (some (low, high))) st xs = some as ∧ as.length = xs.length ∧ ∀ a ∈ as, a.length = actionSize ∧
      ∀ (i : Nat) (l h v : ℝ), low[i]? = some l → high[i]? = some h → l < h → a[i]? = some v → l < v ∧ v < h := by
  induction xs with
  | nil => intro st _; exact ⟨[], rfl, rfl, by simp⟩
  | cons x xs ih =>
    intro st hst
    obtain ⟨s, o, h1, h2, -, h3⟩ := net_some hn hσ st hst x (hxs x (by simp))
    obtain ⟨as, h4, h5, h6⟩ := ih (fun y hy => hxs y (List.mem_cons_of_mem _ hy)) (some s) h2
    refine ⟨boundByTanh o low high :: as, by simp only [run, policyCall, h1, filtered, h4], by simp [h5], fun y hy => ?_⟩
    rcases List.mem_cons.1 hy with rfl | hy
    · exact ⟨by simp [boundByTanh, h3, hl, hh], fun i l h v e1 e2 e3 e4 => boundByTanh_mem _ low high i v l h e1 e2 e3 e4⟩
    · exact h6 y hy

/-- **C147**: `FCLSTMSAQFunction` accepts states and actions of the configured sizes, and its value stays within the sum of the absolute weights around the bias. -/
theorem C147_saq (n : Net) (nObs nAction nHidden nLayers : Nat) (hn : n.HasShape (nObs + nAction) nHidden nLayers 1) (σ : Nonlin)
    (hσ : ∀ y, (σ y).length = y.length) (st : State) (hst : Ok nHidden st) (x a : List ℝ) (hx : x.length = nObs) (ha : a.length = nAction) :
    ∃ s v row b, saqCall n nHidden σ st x a = some (some s, [v]) ∧ Ok nHidden (some s) ∧ n.out.W = [row] ∧ n.out.b = [b] ∧ |v - b| ≤ weight row := by
  obtain ⟨s, o, h1, h2, h3, h4⟩ := net_some hn hσ st hst (x ++ a) (by simp [hx, ha])
  obtain ⟨v, rfl⟩ := List.length_eq_one_iff.1 h4
  obtain ⟨row, hr⟩ := List.length_eq_one_iff.1 hn.2.2.1
  obtain ⟨b, hb⟩ := List.length_eq_one_iff.1 hn.2.2.2.1
  refine ⟨s, v, row, b, h1, h2, hr, hb, ?_⟩
  simp only [affine, hr, hb, List.zipWith_cons_cons, List.zipWith_nil_left] at h3
  cases h3
  rw [add_sub_cancel_right]
  exact dot_bound row s.2 h2.2.2

theorem relu_length (y : List ℝ) : (relu y).length = y.length := by simp [relu]

/-- **C147**: `FCLSTMStateQFunction` gives one value per action at every step of every sequence. -/
theorem C147_state_q (n : Net) (nObs nHidden nLayers nActions : Nat) (hn : n.HasShape nObs nHidden nLayers nActions)
    (xs : List (List ℝ)) (hxs : ∀ x ∈ xs, x.length = nObs) :
    ∃ os, run (stateQCall n nHidden) none xs = some os ∧ os.length = xs.length ∧ ∀ o ∈ os, o.length = nActions :=
  C147_accepts hn relu_length xs hxs none trivial

/-- **C147**: `FCSoftmaxPolicy` gives, for all weights and every input, a distribution over the actions whose probabilities are positive, at least
`min_prob` and sum to one, and the same call raises `AssertionError` exactly when `min_prob` times the number of actions exceeds one. -/
theorem C147_softmax_policy (m : MLP) (nIn nHidden nLayers nActions : Nat) (hpos : 0 < nActions)
    (hm : m.HasShape nIn nActions (List.replicate nLayers nHidden)) (σ : Nonlin) (hσ : ∀ y, (σ y).length = y.length) (beta minProb : ℝ)
    (x : List ℝ) (hx : x.length = nIn) :
    ∃ y, network σ m.hidden m.output x = y ∧ y.length = nActions ∧
      if minProb * nActions ≤ 1 then ∃ d, softmaxPolicyCall m σ nActions beta minProb x = some (.ok d) ∧
        Distrib.softmaxDist (fun i : Fin nActions => y.getD i 0) beta minProb = .ok d ∧ Distrib.IsProb d.allProb ∧
        ∀ i, 0 < d.allProb i ∧ minProb ≤ d.allProb i ∧ d.allLogProb i = Real.log (d.allProb i)
      else softmaxPolicyCall m σ nActions beta minProb x = some (.error .assertionError) := by
  obtain ⟨h1, h2, -, -⟩ := C96_mlp m _ _ _ hm σ hσ x hx
  refine ⟨_, rfl, h2, ?_⟩
  obtain ⟨p1, p2, p3⟩ := Distrib.C66_probabilities (fun i : Fin nActions => (network σ m.hidden m.output x).getD i 0) beta minProb hpos
  split
  · rename_i h
    obtain ⟨d, hd⟩ := p1 h
    obtain ⟨q1, q2, q3, q4⟩ := p3 d hd
    exact ⟨d, by simp only [softmaxPolicyCall, h1, hd], hd, q1, fun i => ⟨q2 i, q3 i, q4 i⟩⟩
  · rename_i h
    simp only [softmaxPolicyCall, h1, p2 h]

/-- **C147**: `FCVFunction` gives one value for every input. -/
theorem C147_v (m : MLP) (nIn nHidden nLayers : Nat) (hm : m.HasShape nIn 1 (List.replicate nLayers nHidden)) (σ : Nonlin)
    (hσ : ∀ y, (σ y).length = y.length) (x : List ℝ) (hx : x.length = nIn) : ∃ v, vCall m σ x = some [v] := by
  obtain ⟨h1, h2, -, -⟩ := C96_mlp m _ _ _ hm σ hσ x hx
  obtain ⟨v, hv⟩ := List.length_eq_one_iff.1 h2
  exact ⟨v, by rw [vCall, h1, hv]⟩

/-- **C147**: the cell forgets: two histories that differ in a cell of a unit, but not in the last outputs, come strictly nearer to each other with every further input. -/
theorem C147_forgets (l : LSTM) (m : Nat) (c₁ c₂ h x : List ℝ) (s₁ s₂ : List ℝ × List ℝ) (h₁ : l.call m (some (c₁, h)) x = some s₁)
    (h₂ : l.call m (some (c₂, h)) x = some s₂) (j : Nat) (hj : j < m) (hne : c₁.getD j 0 ≠ c₂.getD j 0) :
    |s₁.1.getD j 0 - s₂.1.getD j 0| < |c₁.getD j 0 - c₂.getD j 0| ∧ s₁.1.getD j 0 ≠ s₂.1.getD j 0 := by
  have hg : l.gates (some (c₁, h)) x = l.gates (some (c₂, h)) x := by
    unfold LSTM.gates; cases l.upward.apply x <;> rfl
  unfold LSTM.call at h₁ h₂
  rw [hg] at h₁
  cases hz : l.gates (some (c₂, h)) x with
  | none => rw [hz] at h₂; simp at h₂
  | some z =>
    rw [hz] at h₁ h₂
    simp only [Option.some.injEq] at h₁ h₂
    obtain ⟨p, q⟩ := sigmoid_mem (z.getD (4 * j + 2) 0)
    have e : s₁.1.getD j 0 - s₂.1.getD j 0 = sigmoid (z.getD (4 * j + 2) 0) * (c₁.getD j 0 - c₂.getD j 0) := by
      rw [← h₁, ← h₂]
      simp only [cell, List.getD_eq_getElem?_getD, List.getElem?_map, List.getElem?_range hj, Option.map_some, Option.getD_some]
      ring
    have hpos : 0 < |c₁.getD j 0 - c₂.getD j 0| := abs_pos.2 (sub_ne_zero.2 hne)
    constructor
    · rw [e, abs_mul, abs_of_pos p]; nlinarith
    · rw [← sub_ne_zero, e]; exact mul_ne_zero p.ne' (sub_ne_zero.2 hne)

/-- **C147**: `FCLSTMStateQFunction` rectifies: observations whose features are equal, except for features that are not positive, give the same values and the same state. -/
theorem C147_state_q_rectified (n : Net) (nHidden : Nat) (st : State) (x x' y y' : List ℝ) (h : n.fc.call relu x = some y) (h' : n.fc.call relu x' = some y')
    (hy : List.Forall₂ (fun u v => u = v ∨ u ≤ 0 ∧ v ≤ 0) y y') : stateQCall n nHidden st x = stateQCall n nHidden st x' := by
  have e : relu y = relu y' := by
    clear h h'
    induction hy with
    | nil => rfl
    | cons huv _ ih =>
      simp only [relu, List.map_cons] at ih ⊢
      rw [ih]
      rcases huv with rfl | ⟨hu, hv⟩
      · rfl
      · rw [max_eq_right hu, max_eq_right hv]
  unfold stateQCall Net.call
  rw [h, h']
  simp only [e]

/-! ### A case -/

/-- One input, one unit, one output of weight 2 and bias 1. -/
def exNet : Net := ⟨⟨[], ⟨[[1]], [0]⟩⟩, ⟨⟨[[1], [1], [1], [1]], [0, 0, 0, 0]⟩, [[1], [1], [1], [1]]⟩, ⟨[[2]], [1]⟩⟩

theorem exNet_shape : exNet.HasShape 1 1 0 1 := by
  refine ⟨⟨.nil, ?_⟩, ⟨?_, ?_⟩, ?_⟩ <;> simp [exNet, Lin.HasShape, outputShape]

/-- The hypotheses of `C147_accepts` and `C147_bounded` are met: whatever the inputs, the outputs are between -1 and 3. -/
example (xs : List ℝ) : ∃ os, run (stateQCall exNet 1) none (xs.map fun x => [x]) = some os ∧ os.length = xs.length ∧
    ∀ o ∈ os, ∃ v, o = [v] ∧ |v - 1| ≤ 2 := by
  have hx : ∀ x ∈ xs.map fun x => [x], x.length = 1 := fun x h => by obtain ⟨y, -, rfl⟩ := List.mem_map.1 h; rfl
  obtain ⟨os, h1, h2, h3⟩ := C147_state_q exNet 1 1 0 1 exNet_shape _ hx
  refine ⟨os, h1, by simpa using h2, fun o ho => ?_⟩
  obtain ⟨v, rfl⟩ := List.length_eq_one_iff.1 (h3 o ho)
  refine ⟨v, rfl, ?_⟩
  have := C147_bounded exNet_shape relu_length _ hx none trivial os h1 [v] ho 0 v 1 [2] rfl rfl rfl
  simpa [weight] using this

/-- The hypotheses of `C147_forgets` are met: two cells of one unit, the input 1. -/
example : ∃ s₁ s₂, exNet.lstm.call 1 (some ([3], [0])) [1] = some s₁ ∧ exNet.lstm.call 1 (some ([5], [0])) [1] = some s₂ ∧
    |s₁.1.getD 0 0 - s₂.1.getD 0 0| < 2 := by
  refine ⟨_, _, rfl, rfl, ?_⟩
  have := (C147_forgets exNet.lstm 1 [3] [5] [0] [1] _ _ rfl rfl 0 one_pos (by norm_num)).1
  norm_num at this ⊢
  exact this

/-- The hypotheses of `C147_state_q_rectified` are met: negative observations cannot be told apart by this network. -/
example : stateQCall exNet 1 none [-1] = stateQCall exNet 1 none [-7] :=
  C147_state_q_rectified exNet 1 none [-1] [-7] [-1] [-7] (by simp [exNet, MLP.call, hiddenCall, Lin.apply]) (by simp [exNet, MLP.call, hiddenCall, Lin.apply]) (.cons (.inr (by norm_num)) .nil)

end

end Verif.FCLSTM
