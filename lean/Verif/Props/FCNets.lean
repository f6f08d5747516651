import Mathlib.Tactic.Linarith
import Mathlib.Tactic.Ring
import Mathlib.Tactic.Positivity
import Mathlib.Tactic.NormNum
import Mathlib.Data.List.Forall2
import Mathlib.Analysis.SpecialFunctions.Arsinh
import Mathlib.Analysis.SpecialFunctions.Artanh
import Verif.Model.FCNets

/-!
C96: fully connected networks accept every input of the right size, have the configured depth, and bounded policies
stay in their bounds, for all values of the weights.
-/

set_option autoImplicit false
set_option linter.unusedSectionVars false

namespace Verif.FCNets

noncomputable section

/-! ### Specification -/

/-- `W x + b`. -/
def affine (x : List ℝ) (l : Lin) : List ℝ :=
  List.zipWith (fun row b => (List.zipWith (fun w v => w * v) row x).sum + b) l.W l.b

/-- A network: layers with a nonlinearity after each, then an output layer. -/
def network (σ : Nonlin) (hidden : List Lin) (out : Lin) (x : List ℝ) : List ℝ :=
  affine (hidden.foldl (fun h l => σ (affine h l)) x) out

/-- Layers of these shapes can be composed, from inputs of size `n` to outputs of size `m`. -/
def Connects : Nat → List Shape → Nat → Prop
  | n, [], m => n = m
  | n, s :: ss, m => s.1 = n ∧ Connects s.2 ss m

/-! ### Proofs -/

theorem apply_eq (l : Lin) (s : Shape) (h : l.HasShape s) (x : List ℝ) (hx : x.length = s.1) :
    l.apply x = some (affine x l) ∧ (affine x l).length = s.2 := by
  obtain ⟨h1, h2, h3⟩ := h
  refine ⟨?_, by simp [affine, h1, h2]⟩
  unfold Lin.apply
  rw [if_pos]
  · rfl
  · rw [List.all_eq_true]
    intro row hr
    simp [h3 row hr, hx]

theorem hiddenCall_eq (σ : Nonlin) (hσ : ∀ y, (σ y).length = y.length) : ∀ (ls : List Lin) (ss : List Shape) (n m : Nat) (x : List ℝ),
    List.Forall₂ Lin.HasShape ls ss → Connects n ss m → x.length = n →
    hiddenCall σ ls x = some (ls.foldl (fun h l => σ (affine h l)) x) ∧
    (ls.foldl (fun h l => σ (affine h l)) x).length = m
  | [], _, n, m, x, hf, hc, hx => by
    cases hf
    have : n = m := hc
    exact ⟨rfl, by simp [hx, this]⟩
  | l :: ls, _, n, m, x, hf, hc, hx => by
    cases hf with
    | @cons _ s _ ss hl hls =>
      obtain ⟨h1, h2⟩ := hc
      obtain ⟨e1, e2⟩ := apply_eq l s hl x (by rw [hx, h1])
      simp only [hiddenCall, e1, List.foldl_cons]
      exact hiddenCall_eq σ hσ ls ss s.2 m _ hls h2 (by rw [hσ, e2])

theorem connects_zip : ∀ (h : Nat) (hs : List Nat), ∃ m, (h :: hs).getLast? = some m ∧ Connects h (List.zip (h :: hs) hs) m
  | h, [] => ⟨h, rfl, rfl⟩
  | h, h' :: hs => by
    obtain ⟨m, h1, h2⟩ := connects_zip h' hs
    exact ⟨m, by simpa using h1, rfl, h2⟩

theorem connects_hidden (inSize : Nat) (hidden : List Nat) :
    ∃ m, Connects inSize (hiddenShapes inSize hidden) m ∧ ∀ outSize, outputShape inSize outSize hidden = (m, outSize) := by
  cases hidden with
  | nil => exact ⟨inSize, rfl, fun _ => rfl⟩
  | cons h hs =>
    obtain ⟨m, h1, h2⟩ := connects_zip h hs
    exact ⟨m, ⟨rfl, h2⟩, fun o => by simp [outputShape, h1]⟩

theorem hiddenShapes_length (inSize : Nat) (hidden : List Nat) : (hiddenShapes inSize hidden).length = hidden.length := by
  cases hidden with
  | nil => rfl
  | cons h hs => simp [hiddenShapes]

/-- **C96.** An MLP: for all sizes, all parameters of the constructed shapes, every nonlinearity that keeps sizes and every
input of the input size, it computes the layers in order with the nonlinearity after each of as many hidden layers as
sizes were given, and returns as many numbers as configured. -/
theorem C96_mlp (m : MLP) (inSize outSize : Nat) (hidden : List Nat) (hm : m.HasShape inSize outSize hidden) (σ : Nonlin)
    (hσ : ∀ y, (σ y).length = y.length) (x : List ℝ) (hx : x.length = inSize) :
    m.call σ x = some (network σ m.hidden m.output x) ∧ (network σ m.hidden m.output x).length = outSize ∧
    m.hidden.length = hidden.length ∧
    (m.hidden.map fun l => l.b.length) = hidden := by
  obtain ⟨k, hc, ho⟩ := connects_hidden inSize hidden
  obtain ⟨hf, hout⟩ := hm
  obtain ⟨e1, e2⟩ := hiddenCall_eq σ hσ m.hidden _ inSize k x hf hc hx
  rw [ho] at hout
  obtain ⟨e3, e4⟩ := apply_eq m.output _ hout _ e2
  refine ⟨by simp only [MLP.call, e1, e3]; rfl, e4, by rw [hf.length_eq, hiddenShapes_length], ?_⟩
  have key : ∀ (ls : List Lin) (ss : List Shape), List.Forall₂ Lin.HasShape ls ss →
      (ls.map fun l => l.b.length) = ss.map (·.2) := by
    intro ls ss h
    induction h with
    | nil => rfl
    | cons hl _ ih => rw [List.map_cons, List.map_cons, ih, hl.2.1]
  rw [key _ _ hf]
  cases hidden with
  | nil => rfl
  | cons h hs =>
    show h :: (List.zip (h :: hs) hs).map (·.2) = h :: hs
    congr 1
    exact List.map_snd_zip (by simp)

/-- **C96.** The Q-functions of a state and an action return one number for every state and every action of the right
sizes; the one with late actions computes its first layer from the state alone. -/
theorem C96_q (σ : Nonlin) (hσ : ∀ y, (σ y).length = y.length) (nObs nAction nHidden nLayers : Nat) (state action : List ℝ)
    (hs : state.length = nObs) (ha : action.length = nAction) :
    (∀ m, saqShape m nObs nAction nHidden nLayers →
      ∃ q, saqCall m σ state action = some [q] ∧ [q] = network σ m.hidden m.output (state ++ action) ∧
        m.hidden.length = nLayers) ∧
    (∀ obs m, lateShape obs m nObs nAction nHidden nLayers →
      ∃ q, lateCall obs m σ state action = some [q] ∧
        [q] = network σ m.hidden m.output (σ (affine state obs.output) ++ action) ∧
        m.hidden.length + 1 = nLayers) := by
  refine ⟨fun m hm => ?_, fun obs m hm => ?_⟩
  · obtain ⟨h1, h2, h3, _⟩ := C96_mlp m _ _ _ hm σ hσ (state ++ action) (by simp [hs, ha])
    obtain ⟨q, hq⟩ := List.length_eq_one_iff.1 h2
    exact ⟨q, by rw [saqCall, h1, hq], hq.symm, by simpa using h3⟩
  · obtain ⟨hl, ho, hm⟩ := hm
    obtain ⟨g1, g2, g3, _⟩ := C96_mlp obs _ _ _ ho σ hσ state hs
    have hnil : obs.hidden = [] := List.eq_nil_of_length_eq_zero (by simpa using g3)
    have hnet : network σ obs.hidden obs.output state = affine state obs.output := by rw [hnil]; rfl
    rw [hnet] at g1 g2
    obtain ⟨h1, h2, h3, _⟩ := C96_mlp m _ _ _ hm σ hσ (σ (affine state obs.output) ++ action) (by simp [hσ, g2, ha])
    obtain ⟨q, hq⟩ := List.length_eq_one_iff.1 h2
    refine ⟨q, by simp only [lateCall, g1, h1, hq], hq.symm, ?_⟩
    rw [h3]; simp; omega

theorem bound_component (v l h : ℝ) (hlh : l < h) :
    l < Real.tanh v * ((h - l) / 2) + (h + l) / 2 ∧ Real.tanh v * ((h - l) / 2) + (h + l) / 2 < h := by
  have h1 := Real.neg_one_lt_tanh v
  have h2 := Real.tanh_lt_one v
  have h3 : 0 < (h - l) / 2 := by linarith
  constructor <;> nlinarith

theorem boundByTanh_mem (x low high : List ℝ) (i : Nat) (a l h : ℝ) (hl : low[i]? = some l) (hh : high[i]? = some h)
    (hlh : l < h) (ha : (boundByTanh x low high)[i]? = some a) : l < a ∧ a < h := by
  unfold boundByTanh at ha
  rw [List.getElem?_zipWith] at ha
  rcases hx : x[i]? with _ | v
  · simp [hx] at ha
  · have hz : (List.zip low high)[i]? = some (l, h) := by
      rw [List.getElem?_zip_eq_some]; exact ⟨hl, hh⟩
    simp only [hx, hz, Option.some.injEq] at ha
    subst ha
    exact bound_component v l h hlh

/-- **C96.** A deterministic policy with bounds returns, for all weights and every input, an action of the right size
strictly inside the bounds; without bounds it returns the network's output. -/
theorem C96_deterministic (m : MLP) (nIn nHidden nLayers actionSize : Nat)
    (hm : m.HasShape nIn actionSize (List.replicate nLayers nHidden)) (σ : Nonlin) (hσ : ∀ y, (σ y).length = y.length)
    (x : List ℝ) (hx : x.length = nIn) (low high : List ℝ) (hl : low.length = actionSize) (hh : high.length = actionSize) :
    deterministicCall m σ none x = some (network σ m.hidden m.output x) ∧
    ∃ a, deterministicCall m σ (some (low, high)) x = some a ∧ a.length = actionSize ∧
      ∀ (i : Nat) (l h v : ℝ), low[i]? = some l → high[i]? = some h → l < h → a[i]? = some v → l < v ∧ v < h := by
  obtain ⟨h1, h2, _, _⟩ := C96_mlp m _ _ _ hm σ hσ x hx
  refine ⟨by simp only [deterministicCall, h1, filtered], boundByTanh (network σ m.hidden m.output x) low high,
    by simp only [deterministicCall, h1, filtered], ?_, ?_⟩
  · simp [boundByTanh, h2, hl, hh]
  · intro i l h v e1 e2 e3 e4
    exact boundByTanh_mem _ low high i v l h e1 e2 e3 e4

theorem connects_gaussian (nIn nHidden nLayers : Nat) :
    Connects nIn (gaussianHidden nIn nHidden nLayers) (gaussianFeatures nIn nHidden nLayers) := by
  unfold gaussianHidden gaussianFeatures
  split
  · refine ⟨rfl, ?_⟩
    have : ∀ k, Connects nHidden (List.replicate k (nHidden, nHidden)) nHidden := by
      intro k
      induction k with
      | zero => rfl
      | succ k ih => exact ⟨rfl, ih⟩
    exact this _
  · rfl

theorem softplus_pos (x : ℝ) : 0 < softplus x := Real.log_pos (by have := Real.exp_pos x; linarith)

/-- **C96.** A Gaussian policy returns, for all weights and every input, a mean and variances of the action's size; the
mean is strictly inside the bounds if there are any, the variances are greater than `min_var`, and with
`var_type='spherical'` they are all equal. The number of hidden layers is the configured one. -/
theorem C96_gaussian (g : Gaussian) (nIn actionSize nLayers nHidden : Nat) (vt : VarType)
    (hg : g.HasShape nIn actionSize nLayers nHidden vt) (σ : Nonlin) (hσ : ∀ y, (σ y).length = y.length) (minVar : ℝ)
    (x : List ℝ) (hx : x.length = nIn) (bound : Option (List ℝ × List ℝ))
    (hb : ∀ low high, bound = some (low, high) → low.length = actionSize ∧ high.length = actionSize) :
    g.hidden.length = nLayers ∧
    ∃ mean var, g.call σ bound minVar x = some (mean, var) ∧ mean.length = actionSize ∧ var.length = actionSize ∧
      (bound = none → mean = network σ g.hidden g.mean x) ∧
      (∀ low high, bound = some (low, high) → ∀ (i : Nat) (l h v : ℝ), low[i]? = some l → high[i]? = some h → l < h →
        mean[i]? = some v → l < v ∧ v < h) ∧
      (∀ v ∈ var, minVar < v) ∧
      (vt = .spherical → ∀ v ∈ var, ∀ w ∈ var, v = w) := by
  obtain ⟨hf, hm, hv⟩ := hg
  have hlen : g.hidden.length = nLayers := by
    rw [hf.length_eq]
    unfold gaussianHidden
    split
    · simp; omega
    · simp; omega
  refine ⟨hlen, ?_⟩
  obtain ⟨e1, e2⟩ := hiddenCall_eq σ hσ g.hidden _ nIn _ x hf (connects_gaussian nIn nHidden nLayers) hx
  obtain ⟨m1, m2⟩ := apply_eq g.mean _ hm _ e2
  obtain ⟨v1, v2⟩ := apply_eq g.var _ hv _ e2
  set f := g.hidden.foldl (fun h l => σ (affine h l)) x with hfdef
  let mean : List ℝ := filtered bound (affine f g.mean)
  have hmean : mean.length = actionSize := by
    rcases hbo : bound with _ | ⟨low, high⟩
    · simp only [mean, hbo]; exact m2
    · simp only [mean, hbo, filtered]
      obtain ⟨hl, hh⟩ := hb low high hbo
      simp only [boundByTanh, List.length_zipWith, List.length_zip, m2, hl, hh]
      omega
  -- broadcasting
  have hbc : ∃ w, broadcast ((affine f g.var).map softplus) actionSize = some w ∧ w.length = actionSize ∧
      (∀ v ∈ w, 0 < v) ∧ (vt = .spherical → ∀ v ∈ w, ∀ w' ∈ w, v = w') := by
    have hlen' : ((affine f g.var).map softplus).length = varSize actionSize vt := by simpa using v2
    have hpos : ∀ v ∈ (affine f g.var).map softplus, 0 < v := by
      intro v hv
      obtain ⟨u, _, rfl⟩ := List.mem_map.1 hv
      exact softplus_pos u
    generalize (affine f g.var).map softplus = z at hlen' hpos
    by_cases h1 : z.length = 1
    · obtain ⟨a, rfl⟩ := List.length_eq_one_iff.1 h1
      refine ⟨List.replicate actionSize a, rfl, by simp, ?_, ?_⟩
      · intro v hv
        rw [(List.mem_replicate.1 hv).2]
        exact hpos a (by simp)
      · intro _ v hv w hw
        rw [(List.mem_replicate.1 hv).2, (List.mem_replicate.1 hw).2]
    · have hvt : vt = .diagonal := by
        cases vt with
        | spherical => exact absurd hlen' h1
        | diagonal => rfl
      subst hvt
      refine ⟨z, ?_, hlen', hpos, fun h => by simp at h⟩
      unfold broadcast
      split
      · exact absurd rfl h1
      · exact if_pos hlen'
  obtain ⟨w, w1, w2, w3, w4⟩ := hbc
  refine ⟨mean, w.map (· + minVar), ?_, hmean, by simpa using w2, ?_, ?_, ?_, ?_⟩
  · unfold Gaussian.call
    rw [e1]
    simp only
    rw [m1, v1]
    simp only
    have : filtered bound (affine f g.mean) = mean := rfl
    rw [this, hmean, w1]
  · intro h
    simp only [mean, h, filtered]
    rfl
  · intro low high h i l hi v p1 p2 p3 p4
    simp only [mean, h, filtered] at p4
    exact boundByTanh_mem _ low high i v l hi p1 p2 p3 p4
  · intro v hv
    obtain ⟨u, hu, rfl⟩ := List.mem_map.1 hv
    have := w3 u hu
    linarith
  · intro h v hv w' hw'
    obtain ⟨u, hu, rfl⟩ := List.mem_map.1 hv
    obtain ⟨u', hu', rfl⟩ := List.mem_map.1 hw'
    rw [w4 h u hu u' hu']

/-- **C96.** The mean networks of the policies with state-independent and with fixed covariance fit together for all
sizes; with at least one hidden layer they have the configured number of hidden layers. -/
theorem C96_mean_networks (nIn actionSize nLayers nHidden : Nat) :
    Connects nIn (independentShapes nIn actionSize nLayers nHidden) actionSize ∧
    Connects nIn (fixedShapes nIn actionSize nLayers nHidden) actionSize ∧
    (fixedShapes nIn actionSize nLayers nHidden).length = nLayers + 1 ∧
    (1 ≤ nLayers → (independentShapes nIn actionSize nLayers nHidden).length = nLayers + 1 ∧
      independentShapes nIn actionSize nLayers nHidden = fixedShapes nIn actionSize nLayers nHidden) := by
  have key : ∀ k, Connects nHidden (List.replicate k (nHidden, nHidden) ++ [(nHidden, actionSize)]) actionSize := by
    intro k
    induction k with
    | zero => exact ⟨rfl, rfl⟩
    | succ k ih => exact ⟨rfl, ih⟩
  refine ⟨⟨rfl, key _⟩, ?_, ?_, fun h => ⟨?_, ?_⟩⟩
  · unfold fixedShapes
    split
    · exact ⟨rfl, key _⟩
    · exact ⟨rfl, rfl⟩
  · unfold fixedShapes
    split
    · simp; omega
    · simp; omega
  · simp [independentShapes]; omega
  · unfold independentShapes fixedShapes
    rw [if_pos (by omega)]

/-- **C96**, violated: FCGaussianPolicyWithStateIndependentCovariance with no hidden layers (the default) has one, the
network for `n_hidden_layers=1`. -/
theorem C96_violated_no_hidden (nIn actionSize nHidden : Nat) :
    (independentShapes nIn actionSize 0 nHidden).length = 2 ∧
    independentShapes nIn actionSize 0 nHidden = independentShapes nIn actionSize 1 nHidden ∧
    (fixedShapes nIn actionSize 0 nHidden).length = 1 := by
  refine ⟨rfl, rfl, rfl⟩

/-- **C96.** The variance of state-independent policies: positive whenever `var_func` is, of the action's size. -/
theorem C96_independent_var (varFunc : ℝ → ℝ) (hpos : ∀ x, 0 < varFunc x) (actionSize : Nat) (vt : VarType) (param : List ℝ)
    (hp : param.length = varSize actionSize vt) :
    ∃ v, independentVar varFunc param actionSize = some v ∧ v.length = actionSize ∧ ∀ y ∈ v, 0 < y := by
  unfold independentVar
  have hlen' : (param.map varFunc).length = varSize actionSize vt := by simpa using hp
  have hpos' : ∀ v ∈ param.map varFunc, 0 < v := by
    intro v hv
    obtain ⟨u, _, rfl⟩ := List.mem_map.1 hv
    exact hpos u
  generalize param.map varFunc = z at hlen' hpos'
  by_cases h1 : z.length = 1
  · obtain ⟨a, rfl⟩ := List.length_eq_one_iff.1 h1
    refine ⟨List.replicate actionSize a, rfl, by simp, ?_⟩
    intro v hv
    rw [(List.mem_replicate.1 hv).2]
    exact hpos' a (by simp)
  · have hvt : vt = .diagonal := by
      cases vt with
      | spherical => exact absurd hlen' h1
      | diagonal => rfl
    subst hvt
    refine ⟨z, ?_, hlen', hpos'⟩
    unfold broadcast
    split
    · exact absurd rfl h1
    · exact if_pos hlen'

/-- A network with sizes 2, 1, 1. -/
def exMLP : MLP := ⟨[⟨[[1, -1]], [0]⟩], ⟨[[2]], [1]⟩⟩

example : exMLP.HasShape 2 1 [1] := by
  refine ⟨.cons ⟨rfl, rfl, by simp⟩ .nil, rfl, rfl, by simp [exMLP, outputShape]⟩

example : exMLP.call (fun y => y.map fun v => max v 0) [3, 1] = some [5] := by
  simp [exMLP, MLP.call, hiddenCall, Lin.apply]; norm_num

example : exMLP.call (fun y => y) [3, 1, 7] = none := by simp [exMLP, MLP.call, hiddenCall, Lin.apply]

end

end Verif.FCNets
