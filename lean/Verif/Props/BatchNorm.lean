import Verif.Spec.BatchNorm
import Mathlib.Algebra.CharZero.Defs
import Mathlib.Algebra.Field.Rat
import Mathlib.Algebra.Order.Ring.Rat
import Mathlib.Tactic.Ring
import Mathlib.Tactic.FieldSimp
import Mathlib.Tactic.NormNum
set_option autoImplicit false
set_option linter.unusedSectionVars false

/-! # C127: networks with batch normalisation, and the mode in which agents act -/

namespace Verif.BatchNorm
variable {K : Type} [Field K]

/-! ## Test mode -/

/-- A row through the hidden layers in test mode. -/
def hiddenRow (c : Const K) (σ : Row K → Row K) : List (LinearBN K) → Row K → Row K
  | [], x => x
  | l :: ls, x => hiddenRow c σ ls (σ (testRow c l.bn (l.linear.row x)))

theorem hiddenCall_test (c : Const K) (σ : Row K → Row K) : ∀ (ls : List (LinearBN K)) (xs : List (Row K)),
    hiddenCall c σ false ls xs = (xs.map (hiddenRow c σ ls), ls)
  | [], xs => by simp only [hiddenCall, hiddenRow, List.map_id_fun']; rfl
  | l :: ls, xs => by
    simp only [hiddenCall, LinearBN.call, bnCall, Bool.false_eq_true, if_false, hiddenCall_test c σ ls, List.map_map]
    rfl

/-- A row through an optional batch normalisation in test mode. -/
def optRow (c : Const K) : Option (List (Feature K)) → Row K → Row K
  | none, x => x
  | some bn, x => testRow c bn x

theorem optCall_test (c : Const K) (bn : Option (List (Feature K))) (xs : List (Row K)) :
    optCall c false bn xs = (xs.map (optRow c bn), bn) := by
  cases bn with
  | none =>
    have : xs.map (optRow c none) = xs := List.map_id xs
    rw [this]; rfl
  | some bn => rfl

/-- A row through an MLPBN in test mode. -/
def mlpRow (c : Const K) (σ : Row K → Row K) (m : MLPBN K) (x : Row K) : Row K :=
  optRow c m.outputBN (m.output.row (hiddenRow c σ m.hidden (optRow c m.inputBN x)))

theorem call_test (c : Const K) (σ : Row K → Row K) (m : MLPBN K) (xs : List (Row K)) :
    m.call c σ false xs = .ok (xs.map (mlpRow c σ m), m) := by
  simp only [MLPBN.call, Bool.false_and, Bool.false_eq_true, if_false, optCall_test, hiddenCall_test, List.map_map]
  rfl

/-- **C127.** In test mode the output of an MLPBN for a row of a batch (of any size, one included) depends on this row alone, and the network does not change. -/
theorem C127_mlp_bn (c : Const K) (σ : Row K → Row K) : Rowwise (fun train (m : MLPBN K) => m.call c σ train) :=
  ⟨_, call_test c σ⟩

/-- **C127.** So it is with FCBNSAQFunction, … -/
theorem C127_saq (c : Const K) (σ : Row K → Row K) : Rowwise (fun train (m : MLPBN K) => saqCall c σ train m) := by
  refine ⟨fun m x => mlpRow c σ m (x.1 ++ x.2), fun m xs => ?_⟩
  simp only [saqCall, call_test, List.map_map]
  rfl

theorem zipWith_both {X Y Z W : Type} (f : Y → Z → W) (g : X → Y) (h : X → Z) (xs : List X) :
    List.zipWith f (xs.map g) (xs.map h) = xs.map fun x => f (g x) (h x) := by
  induction xs with
  | nil => rfl
  | cons x xs ih => simp [ih]

/-- **C127.** … with FCBNLateActionSAQFunction, … -/
theorem C127_late (c : Const K) (σ mlp : Row K → Row K) : Rowwise (fun train (m : MLPBN K) => lateCall c σ mlp train m) := by
  refine ⟨fun m x => mlp (σ (mlpRow c σ m x.1) ++ x.2), fun m xs => ?_⟩
  simp only [lateCall, call_test, bind, Except.bind, pure, Except.pure, List.map_map]
  rw [zipWith_both]
  rfl

/-- **C127.** … and with FCBNDeterministicPolicy. -/
theorem C127_policy (c : Const K) (σ filter : Row K → Row K) : Rowwise (fun train (m : MLPBN K) => policyCall c σ filter train m) := by
  refine ⟨fun m x => filter (mlpRow c σ m x), fun m xs => ?_⟩
  simp only [policyCall, call_test, bind, Except.bind, pure, Except.pure, List.map_map]
  rfl

/-- **C127.** In test mode each feature is normalised with its running mean and running variance. -/
theorem C127_test_values (c : Const K) (bn : List (Feature K)) (xs : List (Row K)) :
    bnCall c false bn xs = (xs.map fun x =>
      (List.zip bn x).map fun e => e.1.gamma * (e.2 - e.1.avgMean) / c.sqrt (e.1.avgVar + c.eps) + e.1.beta, bn) := by
  simp only [bnCall, Bool.false_eq_true, if_false]
  congr 2
  funext x
  simp only [testRow, List.zip, List.map_zipWith, normalize]

/-! ## Training mode -/

/-- **C127.** When the running averages are those of the batch, the two modes compute the same. -/
theorem C127_modes_agree (c : Const K) (bn : List (Feature K)) (xs : List (Row K)) (hlen : ∀ x ∈ xs, x.length = bn.length)
    (h : ∀ j (hj : j < bn.length), bn[j].avgMean = mean (col xs j) ∧ bn[j].avgVar = var (col xs j)) :
    (bnCall c true bn xs).1 = (bnCall c false bn xs).1 := by
  simp only [bnCall, if_true, Bool.false_eq_true, if_false, trainRows]
  apply List.map_congr_left
  intro x hx
  apply List.ext_getElem
  · simp [testRow, hlen x hx]
  · intro j h1 h2
    have hj : j < bn.length := by simpa using h1
    have hj' : j < x.length := by rw [hlen x hx]; exact hj
    simp [testRow, h j hj, List.getD_eq_getElem?_getD, hj']

/-- **C127.** In training mode a batch of one row is refused with an AssertionError. -/
theorem C127_single_raises (c : Const K) (σ : Row K → Row K) (m : MLPBN K) (x : Row K) :
    m.call c σ true [x] = .error .assertionError := rfl

/-- **C127.** In training mode a batch of at least two rows is accepted. -/
theorem C127_batch_accepted (c : Const K) (σ : Row K → Row K) (m : MLPBN K) (xs : List (Row K)) (h : 2 ≤ xs.length) :
    ∃ r, m.call c σ true xs = .ok r := by
  have : decide (1 < xs.length) = true := decide_eq_true (by omega)
  simp [MLPBN.call, this]

theorem sum_sub_const (l : List K) (m : K) : (l.map (· - m)).sum = l.sum - (l.length : K) * m := by
  induction l with
  | nil => simp
  | cons a l ih => simp [ih]; ring

theorem sum_map_affine (l : List K) (a b : K) : (l.map fun x => a * x + b).sum = a * l.sum + (l.length : K) * b := by
  induction l with
  | nil => simp
  | cons x l ih => simp [ih]; ring

/-- **C127.** In training mode the mean of a feature over the batch is, after normalisation, the parameter `beta` of the feature, whatever it was before. -/
theorem C127_centred [CharZero K] (c : Const K) (f : Feature K) (column : List K) (hne : column ≠ []) :
    mean (column.map (normalize c f (mean column) (var column))) = f.beta := by
  have hn : (column.length : K) ≠ 0 := by
    rw [Ne, Nat.cast_eq_zero, List.length_eq_zero_iff]; exact hne
  have e : column.map (normalize c f (mean column) (var column)) =
      (column.map (· - mean column)).map fun y => (f.gamma / c.sqrt (var column + c.eps)) * y + f.beta := by
    rw [List.map_map]
    apply List.map_congr_left
    intro x _
    simp only [normalize, Function.comp]
    ring
  have z : (column.map (· - mean column)).sum = 0 := by
    rw [sum_sub_const, mean]
    field_simp
    ring
  rw [mean, List.length_map, e, sum_map_affine, z, List.length_map]
  field_simp
  ring

theorem var_affine (f : Feature K) (column : List K) (s : K) :
    var (column.map (fun x => s * (x - mean column) + f.beta)) = s ^ 2 * var column ∨ (column.length : K) = 0 := by
  by_cases hn : (column.length : K) = 0
  · exact .inr hn
  · refine .inl ?_
    have hm : mean (column.map (fun x => s * (x - mean column) + f.beta)) = f.beta := by
      have e : column.map (fun x => s * (x - mean column) + f.beta) = (column.map (· - mean column)).map fun y => s * y + f.beta := by
        rw [List.map_map]; rfl
      have z : (column.map (· - mean column)).sum = 0 := by
        rw [sum_sub_const, mean]; field_simp; ring
      rw [mean, List.length_map, e, sum_map_affine, z, List.length_map]
      field_simp; ring
    rw [var, List.length_map, List.map_map, hm, var]
    have e2 : (fun x => (x - f.beta) * (x - f.beta)) ∘ (fun x => s * (x - mean column) + f.beta) =
        fun x => s ^ 2 * ((x - mean column) * (x - mean column)) := by
      funext x; simp only [Function.comp]; ring
    have e3 : ∀ l : List K, (l.map fun x => s ^ 2 * ((x - mean column) * (x - mean column))).sum =
        s ^ 2 * (l.map fun x => (x - mean column) * (x - mean column)).sum := by
      intro l
      induction l with
      | nil => simp
      | cons a l ih => simp only [List.map_cons, List.sum_cons, ih]; ring
    rw [e2, e3]
    ring

/-- **C127.** And its variance is `gamma ^ 2`, up to the small constant `eps`, when the square root is one. -/
theorem C127_scaled [CharZero K] (c : Const K) (f : Feature K) (column : List K) (hne : column ≠ [])
    (hs : c.sqrt (var column + c.eps) ^ 2 = var column + c.eps) :
    var (column.map (normalize c f (mean column) (var column))) = f.gamma ^ 2 * (var column / (var column + c.eps)) := by
  have hn : (column.length : K) ≠ 0 := by
    rw [Ne, Nat.cast_eq_zero, List.length_eq_zero_iff]; exact hne
  have e : column.map (normalize c f (mean column) (var column)) =
      column.map (fun x => (f.gamma / c.sqrt (var column + c.eps)) * (x - mean column) + f.beta) := by
    apply List.map_congr_left
    intro x _
    simp only [normalize]
    ring
  rw [e, (var_affine f column _).resolve_right hn, div_pow, hs]
  ring

/-- The same feature after several batches in training mode. -/
def Feature.updates (c : Const K) (f : Feature K) : List (List K) → Feature K
  | [] => f
  | column :: l => (f.update c column).updates c l

/-- **C127.** Training mode changes nothing but the running averages, and the running mean is the exponential average of the means of the batches. -/
theorem C127_running (c : Const K) : ∀ (columns : List (List K)) (f : Feature K),
    (f.updates c columns).gamma = f.gamma ∧ (f.updates c columns).beta = f.beta ∧
      (f.updates c columns).avgMean = runningMean c.decay f.avgMean (columns.map mean) ∧
      (f.updates c columns).avgVar = runningMean c.decay f.avgVar
        (columns.map fun l => var l * ((l.length : K) / ((max (l.length - 1) 1 : Nat) : K)))
  | [], _ => ⟨rfl, rfl, rfl, rfl⟩
  | column :: l, f => C127_running c l (f.update c column)

/-! ## Acting -/

variable {N N' X Y Z A : Type}

theorem hiddenCall_linear (c : Const K) (σ : Row K → Row K) (train : Bool) : ∀ (ls : List (LinearBN K)) (xs : List (Row K)),
    (hiddenCall c σ train ls xs).2.map LinearBN.linear = ls.map LinearBN.linear
  | [], _ => rfl
  | l :: ls, xs => by
    simp only [hiddenCall, List.map_cons, hiddenCall_linear c σ train ls]
    rfl

/-- **C127.** A call in training mode keeps all weights; the statistics of the batch normalisation of the input move towards the mean and
the unbiased variance of the columns of the batch, and those of the output towards those of some columns of the outputs before
normalisation, of which the outputs are the normalisation. -/
theorem C127_training_network (c : Const K) (σ : Row K → Row K) (m m' : MLPBN K) (xs ys : List (Row K))
    (h : m.call c σ true xs = .ok (ys, m')) :
    m'.output = m.output ∧ m'.hidden.map LinearBN.linear = m.hidden.map LinearBN.linear ∧
    m'.inputBN = m.inputBN.map (fun bn => bn.mapIdx fun j f =>
      ⟨f.gamma, f.beta, c.decay * f.avgMean + (1 - c.decay) * mean (col xs j),
        c.decay * f.avgVar + (1 - c.decay) *
          (var (col xs j) * ((xs.length : K) / ((max (xs.length - 1) 1 : Nat) : K)))⟩) ∧
    ∃ zs : List (Row K),
      (m.outputBN = none → ys = zs ∧ m'.outputBN = none) ∧
      ∀ bn, m.outputBN = some bn →
        ys = (zs.map fun z => bn.mapIdx fun j f =>
          f.gamma * (z.getD j 0 - mean (col zs j)) / c.sqrt (var (col zs j) + c.eps) + f.beta) ∧
        m'.outputBN = some (bn.mapIdx fun j f =>
          ⟨f.gamma, f.beta, c.decay * f.avgMean + (1 - c.decay) * mean (col zs j),
            c.decay * f.avgVar + (1 - c.decay) *
              (var (col zs j) * ((zs.length : K) / ((max (zs.length - 1) 1 : Nat) : K)))⟩) := by
  simp only [MLPBN.call] at h
  split at h
  · cases h
  · cases h
    refine ⟨rfl, hiddenCall_linear c σ true _ _, ?_,
      (hiddenCall c σ true m.hidden (optCall c true m.inputBN xs).1).1.map m.output.row, fun e => ?_, fun bn e => ?_⟩
    · cases m.inputBN with
      | none => rfl
      | some bn => simp [optCall, bnCall, Feature.update, col]
    · rw [e]; exact ⟨rfl, rfl⟩
    · rw [e]
      simp [optCall, bnCall, Feature.update, col, trainRows, normalize]

theorem dot_zero (w : List K) (k : Nat) : (List.zipWith (fun u v => u * v) w (List.replicate k (0 : K))).sum = 0 := by
  induction w generalizing k with
  | nil => simp
  | cons a w ih =>
    cases k with
    | zero => simp
    | succ k => simp [List.replicate_succ, ih]

/-- **C127.** A row of zeros comes out of a linear layer as the bias. -/
theorem C127_linear_bias (l : Lin K) (hl : l.W.length = l.b.length) (k : Nat) : l.row (List.replicate k 0) = l.b := by
  apply List.ext_getElem
  · simp [Lin.row, hl]
  · intro j h1 h2
    simp [Lin.row, dot_zero]

/-- **C127.** DQN and its variants, TD3, SAC, PPO and TRPO (as well as DDPG and PGT, below) act in test mode whatever the mode of the program is: acting does not change the network, and what the
network says about an observation does not depend on the other observations of the batch. -/
theorem C127_act_partial (k : Kind) (hk : k.inTestMode) (net : Net N X Y) (hn : Rowwise net) (train : Bool) (n : N) :
    ∃ out : X → Y, ∀ obs : List X, actOne k net train n obs = .ok (obs.map out, n) := by
  obtain ⟨row, hrow⟩ := hn
  have : actingMode k train = false := by cases k <;> first | rfl | exact hk.elim
  exact ⟨row n, fun obs => by rw [actOne, this, hrow]⟩

/-- **C127.** DDPG and PGT, which also call the Q-function. -/
theorem C127_act_two (k : Kind) (hk : k = .ddpg ∨ k = .pgt) (policy : Net N X Y) (q : Net N' (X × A) Z) (hp : Rowwise policy) (hq : Rowwise q)
    (choose : Y → Nat → A) (train : Bool) (n : N) (n' : N') :
    ∃ out : X → Y, ∀ (obs : List X) (us : List Nat), us.length = obs.length →
      actTwo k policy q choose train n n' obs us = .ok (List.zipWith (fun o u => choose (out o) u) obs us, n, n') := by
  obtain ⟨row, hrow⟩ := hp
  obtain ⟨row', hrow'⟩ := hq
  have : actingMode k train = false := by rcases hk with rfl | rfl <;> rfl
  refine ⟨row n, fun obs us _ => ?_⟩
  simp only [actTwo, this, hrow, hrow', bind, Except.bind, pure, Except.pure, List.zipWith_map_left]

/-- **C127 is violated** by A2C, A3C, ACER, PCL, REINFORCE and NSQ: their `act` calls the network in the mode of the program, which is training by
default, so that with an MLPBN, of any sizes and parameters, no action can be chosen. -/
theorem C127_act_violated (k : Kind) (hk : ¬ k.inTestMode) (c : Const K) (σ : Row K → Row K) (m : MLPBN K) (obs : Row K) :
    actOne k (fun train (m : MLPBN K) => m.call c σ train) true m [obs] = .error .assertionError := by
  have : actingMode k true = true := by cases k <;> first | rfl | exact (hk trivial).elim
  rw [actOne, this]
  rfl

/-! ## Concrete cases -/

/-- The identity as the "square root" keeps the numbers rational. -/
def exConst : Const ℚ := ⟨9 / 10, 1, id⟩

def exNet : MLPBN ℚ := ⟨some [⟨1, 0, 0, 1⟩], [], ⟨[[2]], [5]⟩, none⟩

example : (exNet.call exConst id false [[4], [8]]).toOption = some ([[9], [13]], exNet) ∧
    (exNet.call exConst id false [[4], [100]]).toOption = some ([[9], [105]], exNet) := by decide +kernel

/-- With A2C, evaluation of two environments changes the network, and the output for the observation 4 depends on the other one. -/
example : ((actOne .a2c (fun train (m : MLPBN ℚ) => m.call exConst id train) true exNet [[4], [8]]).toOption.map Prod.snd) ≠ some exNet ∧
    ((actOne .a2c (fun train (m : MLPBN ℚ) => m.call exConst id train) true exNet [[4], [8]]).toOption.map fun r => r.1[0]?) ≠
      ((actOne .a2c (fun train (m : MLPBN ℚ) => m.call exConst id train) true exNet [[4], [100]]).toOption.map fun r => r.1[0]?) := by
  decide +kernel

example : ∃ ys m', exNet.call exConst id true [[4], [8]] = .ok (ys, m') ∧ m'.output = exNet.output := by
  obtain ⟨r, h⟩ := C127_batch_accepted exConst id exNet [[4], [8]] (by simp)
  exact ⟨r.1, r.2, h, (C127_training_network exConst id exNet r.2 _ r.1 h).1⟩

example := C127_act_partial .dqn trivial _ (C127_mlp_bn exConst id) true exNet

example := C127_act_two .ddpg (.inl rfl) _ _ (C127_policy exConst id id) (C127_saq exConst id) (fun (y : Row ℚ) _ => y) true exNet exNet

example := C127_centred exConst ⟨3, 7, 0, 1⟩ [4, 8, 9] (by simp)

/-- The square root of the variance 4. -/
example := C127_scaled (⟨9 / 10, 0, fun _ => 2⟩ : Const ℚ) ⟨3, 7, 0, 1⟩ [4, 8] (by simp) (by norm_num [var, mean])

example : (bnCall exConst true [⟨1, 0, 6, 4⟩] [[4], [8]]).1 = (bnCall exConst false [⟨1, 0, 6, 4⟩] [[4], [8]]).1 :=
  C127_modes_agree exConst [⟨1, 0, 6, 4⟩] [[4], [8]] (by simp) (by
    intro j hj
    have : j = 0 := by simpa using hj
    subst this
    norm_num [mean, var, col])

example := C127_act_violated .a3c (fun h => h) exConst id exNet [4]

/-- **C127.** The columns that the statistics are of: the entry `i` of the column `j` is the feature `j` of the row `i`. -/
theorem C127_columns (xs : List (Row K)) (i j : Nat) (x : Row K) (hx : xs[i]? = some x) (y : K) (hy : x[j]? = some y) :
    (col xs j)[i]? = some y ∧ (col xs j).length = xs.length := by
  simp [col, hx, List.getD_eq_getElem?_getD, hy]

end Verif.BatchNorm
