import Verif.Proofs.PolicyGradient
import Verif.Spec.PolicyGradientAgents
import Verif.Props.Reinforce
import Verif.Props.NStep
import Verif.Props.A2C
import Mathlib.Analysis.SpecialFunctions.ExpDeriv
import Mathlib.Tactic.Positivity
set_option autoImplicit false
set_option linter.unusedSectionVars false

/-! # C103: the policy losses of REINFORCE, A3C, A2C and PGT have the policy gradient as
their expected gradient -/

namespace Verif.PolicyGradient

section
variable {Ω O A : Type} [Fintype Ω] [Fintype A] {E : Type} [NormedAddCommGroup E] [NormedSpace ℝ E]

/-! ### The losses of one rollout -/

/-- Minus the weighted log probabilities. -/
noncomputable def logSum (γ : ℝ) (pi : E → List O → A → ℝ) (b : List O → ℝ) (endValue : ℝ) (θ : E) :
    List (Step O A) → ℝ
  | [] => 0
  | s :: l => -(ret γ endValue (s :: l) - b s.hist) * Real.log (pi θ s.hist s.act) + logSum γ pi b endValue θ l

/-- The entropies. -/
def entSum (ent : E → List O → ℝ) (θ : E) (l : List (Step O A)) : ℝ := (l.map fun s => ent θ s.hist).sum

theorem hasFDerivAt_logSum (γ : ℝ) (pi : E → List O → A → ℝ) (ent : E → List O → ℝ) (θ₀ : E) (hs : Smooth pi ent θ₀)
    (b : List O → ℝ) (ev : ℝ) : ∀ l : List (Step O A),
    HasFDerivAt (fun θ => logSum γ pi b ev θ l) (-scoreSum γ pi θ₀ b ev l) θ₀
  | [] => by simpa [logSum, scoreSum] using hasFDerivAt_const (0 : ℝ) θ₀
  | s :: l => by
    have h1 := (fderiv_log hs s.hist s.act).differentiableAt.hasFDerivAt.const_mul (-(ret γ ev (s :: l) - b s.hist))
    have h2 := h1.fun_add (hasFDerivAt_logSum γ pi ent θ₀ hs b ev l)
    refine h2.congr_fderiv ?_
    simp only [scoreSum, neg_add, neg_smul]

theorem hasFDerivAt_entSum {pi : E → List O → A → ℝ} {ent : E → List O → ℝ} {θ₀ : E} (hs : Smooth pi ent θ₀) :
    ∀ l : List (Step O A), HasFDerivAt (fun θ => entSum ent θ l)
      ((l.map fun s => fderiv ℝ (fun θ => ent θ s.hist) θ₀).sum) θ₀
  | [] => by simpa [entSum] using hasFDerivAt_const (0 : ℝ) θ₀
  | s :: l => by
    have := (hs.ent s.hist).hasFDerivAt.fun_add (hasFDerivAt_entSum hs l)
    simpa [entSum] using this

/-! ### The rollouts that occur -/

theorem Occurs.starts : ∀ {w : World Ω O A} {h : List O} {q : Path O A}, Occurs w h q → w.Starts → q.steps ≠ []
  | .node .., _, _, ⟨a, ω, q', _, rfl⟩, _ => by simp [Path.cons]

theorem Occurs.unbroken : ∀ {w : World Ω O A} {h : List O} {q : Path O A}, Occurs w h q → w.Unbroken →
    ∀ s ∈ q.steps, s.ended = false
  | .leaf .., _, _, rfl, _ => by simp
  | .node .., _, _, ⟨a, ω, q', h, rfl⟩, hu => by
    intro s hs
    rcases List.mem_cons.1 hs with rfl | hs
    · exact (hu a ω).1
    · exact h.unbroken (hu a ω).2 s hs

theorem Occurs.complete : ∀ {w : World Ω O A} {h : List O} {q : Path O A}, Occurs w h q → w.Complete → q.done = true
  | .leaf .., _, _, rfl, hc => hc
  | .node .., _, _, ⟨a, ω, q', h, rfl⟩, hc => h.complete (hc a ω)

theorem Occurs.atMost : ∀ {n : Nat} {w : World Ω O A} {h : List O} {q : Path O A}, Occurs w h q → w.AtMost n →
    q.steps.length ≤ n
  | n, .leaf .., _, _, rfl, _ => by simp
  | 0, .node .., _, _, _, hn => hn.elim
  | n + 1, .node .., _, _, ⟨a, ω, q', h, rfl⟩, hn => Nat.succ_le_succ (h.atMost (hn a ω))

theorem Occurs.exactly : ∀ {n : Nat} {w : World Ω O A} {h : List O} {q : Path O A}, Occurs w h q → w.Exactly n →
    q.steps.length = n
  | 0, .leaf .., _, _, rfl, _ => rfl
  | _ + 1, .leaf .., _, _, _, hn => hn.elim
  | 0, .node .., _, _, _, hn => hn.elim
  | n + 1, .node .., _, _, ⟨a, ω, q', h, rfl⟩, hn => congrArg Nat.succ (h.exactly (hn a ω))

/-! ### REINFORCE -/

/-- The actions of an episode as REINFORCE sees them. -/
noncomputable def actsOf (pi : E → List O → A → ℝ) (ent : E → List O → ℝ) (θ : E) :
    ℝ → List (Step O A) → List (Reinforce.Act ℝ)
  | _, [] => []
  | r, s :: l => ⟨r, Real.log (pi θ s.hist s.act), ent θ s.hist⟩ :: actsOf pi ent θ s.reward l

/-- The reward at the end of an episode. -/
def finalOf : ℝ → List (Step O A) → ℝ
  | r, [] => r
  | _, s :: l => finalOf s.reward l

theorem see_calls (pi : E → List O → A → ℝ) (ent : E → List O → ℝ) (θ : E) : ∀ (l : List (Step O A)) (r : ℝ)
    (v : Reinforce.View ℝ), (reinforceCalls pi ent θ true r l).foldl Reinforce.View.see v =
      ⟨v.episodes ++ [⟨v.current ++ actsOf pi ent θ r l, finalOf r l⟩], []⟩
  | [], r, v => by simp [reinforceCalls, Reinforce.View.see, actsOf, finalOf]
  | s :: l, r, v => by
    simp only [reinforceCalls, List.foldl_cons, see_calls pi ent θ l, Reinforce.View.see, actsOf, finalOf,
      List.append_assoc, List.singleton_append]

theorem see_all (pi : E → List O → A → ℝ) (ent : E → List O → ℝ) (θ : E) (r₀ : ℝ) : ∀ (qs : List (Path O A)),
    (∀ q ∈ qs, q.done = true) → ∀ eps, (reinforceAll pi ent θ r₀ qs).foldl Reinforce.View.see ⟨eps, []⟩ =
      ⟨eps ++ qs.map fun q => ⟨actsOf pi ent θ r₀ q.steps, finalOf r₀ q.steps⟩, []⟩
  | [], _, eps => by simp [reinforceAll]
  | q :: qs, h, eps => by
    have hq := h q (by simp)
    have ih := see_all pi ent θ r₀ qs fun q hq => h q (by simp [hq])
    simp only [reinforceAll] at ih
    simp only [reinforceAll, List.flatMap_cons, List.foldl_append, hq, see_calls, ih]
    simp

theorem acts_sum (pi : E → List O → A → ℝ) (ent : E → List O → ℝ) (θ : E) : ∀ (l : List (Step O A)) (r : ℝ),
    (∀ s ∈ l, s.ended = false) →
    ((actsOf pi ent θ r l).map Reinforce.Act.reward).sum + finalOf r l = r + ret 1 0 l
  | [], r, _ => by simp [actsOf, finalOf, ret]
  | s :: l, r, h => by
    have ih := acts_sum pi ent θ l s.reward fun s' hs => h s' (by simp [hs])
    have := h s (by simp)
    simp only [actsOf, finalOf, ret, List.map_cons, List.sum_cons, this, Bool.false_eq_true, if_false, one_mul, ← ih]
    ring

theorem acts_loss (beta : ℝ) (pi : E → List O → A → ℝ) (ent : E → List O → ℝ) (θ : E) :
    ∀ (l : List (Step O A)) (r : ℝ), (∀ s ∈ l, s.ended = false) →
    Reinforce.actsLoss beta (finalOf r l) (actsOf pi ent θ r l) =
      logSum 1 pi (fun _ => 0) 0 θ l - beta * entSum ent θ l
  | [], r, _ => by simp [actsOf, Reinforce.actsLoss, logSum, entSum]
  | s :: l, r, h => by
    have ih := acts_loss beta pi ent θ l s.reward fun s' hs => h s' (by simp [hs])
    have hsum := acts_sum pi ent θ l s.reward fun s' hs => h s' (by simp [hs])
    have := h s (by simp)
    simp only [actsOf, finalOf, Reinforce.actsLoss, ih, hsum, logSum, ret, entSum, List.map_cons, List.sum_cons, this,
      Bool.false_eq_true, if_false]
    ring

theorem actsOf_ne_nil (pi : E → List O → A → ℝ) (ent : E → List O → ℝ) (θ : E) (r : ℝ) (l : List (Step O A))
    (h : l ≠ []) : actsOf pi ent θ r l ≠ [] := by
  cases l with
  | nil => exact absurd rfl h
  | cons s l => simp [actsOf]

theorem reinforce_run (c : Reinforce.Cfg ℝ) (hn : 1 ≤ c.batchsize) (pi : E → List O → A → ℝ) (ent : E → List O → ℝ)
    (r₀ : ℝ) (qs : List (Path O A)) (hlen : qs.length = c.batchsize) (hd : ∀ q ∈ qs, q.done = true)
    (hne : ∀ q ∈ qs, q.steps ≠ []) (hu : ∀ q ∈ qs, ∀ s ∈ q.steps, s.ended = false) (θ : E) :
    ∃ s, Reinforce.run c Reinforce.St.init (reinforceAll pi ent θ r₀ qs) = .ok (s,
      [(qs.map fun q => logSum 1 pi (fun _ => 0) 0 θ q.steps - c.beta * entSum ent θ q.steps).sum / c.batchsize]) := by
  have hview : Reinforce.view (reinforceAll pi ent θ r₀ qs) =
      ⟨qs.map fun q => ⟨actsOf pi ent θ r₀ q.steps, finalOf r₀ q.steps⟩, []⟩ := by
    have := see_all pi ent θ r₀ qs hd []
    simpa [Reinforce.view] using this
  obtain ⟨s, hs⟩ := Reinforce.C54_updates c hn (reinforceAll pi ent θ r₀ qs) (by
    intro ep hep
    rw [hview] at hep
    obtain ⟨q, hq, rfl⟩ := List.mem_map.1 hep
    exact actsOf_ne_nil pi ent θ r₀ q.steps (hne q hq))
  refine ⟨s, ?_⟩
  rw [hs, hview]
  have h1 : (qs.map fun q => (⟨actsOf pi ent θ r₀ q.steps, finalOf r₀ q.steps⟩ : Reinforce.Episode ℝ)).length /
      c.batchsize = 1 := by
    rw [List.length_map, hlen, Nat.div_self (by omega)]
  have h2 : List.map (fun q => Reinforce.actsLoss c.beta (finalOf r₀ q.steps) (actsOf pi ent θ r₀ q.steps)) qs =
      qs.map fun q => logSum 1 pi (fun _ => 0) 0 θ q.steps - c.beta * entSum ent θ q.steps :=
    List.map_congr_left fun q hq => acts_loss c.beta pi ent θ q.steps r₀ (hu q hq)
  rw [h1]
  simp only [List.range_one, List.map_cons, List.map_nil, Reinforce.batchLoss, Nat.zero_mul, List.drop_zero, ← hlen]
  rw [List.take_of_length_le (by simp), List.map_map]
  simp only [Function.comp_def]
  rw [h2]

theorem forall_occurs {P : World Ω O A → Prop} {Q : Path O A → Prop}
    (H : ∀ w q, Occurs w [] q → P w → Q q) : ∀ {ws : List (World Ω O A)} {qs : List (Path O A)},
    List.Forall₂ (fun w q => Occurs w [] q) ws qs → (∀ w ∈ ws, P w) → ∀ q ∈ qs, Q q
  | _, _, .nil, _ => by simp
  | _, _, .cons h hs, hp => by
    intro q hq
    rcases List.mem_cons.1 hq with rfl | hq
    · exact H _ _ h (hp _ (by simp))
    · exact forall_occurs H hs (fun w hw => hp w (by simp [hw])) q hq

theorem hasFDerivAt_listSum {X : Type} (f : X → E → ℝ) (f' : X → (E →L[ℝ] ℝ)) (θ₀ : E) : ∀ l : List X,
    (∀ x ∈ l, HasFDerivAt (f x) (f' x) θ₀) → HasFDerivAt (fun θ => (l.map fun x => f x θ).sum) ((l.map f').sum) θ₀
  | [], _ => by simpa using hasFDerivAt_const (0 : ℝ) θ₀
  | x :: l, h => by
    have := (h x (by simp)).fun_add (hasFDerivAt_listSum f f' θ₀ l fun y hy => h y (by simp [hy]))
    simpa using this

/-- **C103**, REINFORCE: `batchsize` independent complete episodes make exactly one update; on
average its gradient is minus the gradient of the expected sum of rewards of an episode,
minus `beta` times the expected sum of the entropy gradients. -/
theorem C103_reinforce (c : Reinforce.Cfg ℝ) (hn : 1 ≤ c.batchsize) (pi : E → List O → A → ℝ)
    (ent : E → List O → ℝ) (θ₀ : E) (hs : Smooth pi ent θ₀) (r₀ : ℝ) (w : World Ω O A) (hw : w.Stochastic)
    (hu : w.Unbroken) (hc : w.Complete) (hst : w.Starts) :
    (∀ qs, List.Forall₂ (fun w q => Occurs w [] q) (List.replicate c.batchsize w) qs → ∀ θ,
      ∃ s, Reinforce.run c Reinforce.St.init (reinforceAll pi ent θ r₀ qs) =
        .ok (s, [reinforceLoss c pi ent r₀ qs θ])) ∧
    expectAll (pi θ₀) (List.replicate c.batchsize w) (fun qs => fderiv ℝ (reinforceLoss c pi ent r₀ qs) θ₀) =
      -fderiv ℝ (fun θ => value 1 (pi θ) w []) θ₀ - c.beta • entropyGradient pi ent θ₀ w := by
  have hmem : ∀ w' ∈ List.replicate c.batchsize w, w' = w := fun w' h => List.eq_of_mem_replicate h
  have hrun : ∀ qs, List.Forall₂ (fun w q => Occurs w [] q) (List.replicate c.batchsize w) qs → ∀ θ,
      ∃ s, Reinforce.run c Reinforce.St.init (reinforceAll pi ent θ r₀ qs) = .ok (s,
        [(qs.map fun q => logSum 1 pi (fun _ => 0) 0 θ q.steps - c.beta * entSum ent θ q.steps).sum / c.batchsize]) := by
    intro qs hqs θ
    refine reinforce_run c hn pi ent r₀ qs ?_ ?_ ?_ ?_ θ
    · rw [← hqs.length_eq, List.length_replicate]
    · exact forall_occurs (P := World.Complete) (fun w q h hc => h.complete hc) hqs fun w' h' => hmem w' h' ▸ hc
    · exact forall_occurs (P := World.Starts) (fun w q h hc => h.starts hc) hqs fun w' h' => hmem w' h' ▸ hst
    · exact forall_occurs (P := World.Unbroken) (fun w q h hc => h.unbroken hc) hqs fun w' h' => hmem w' h' ▸ hu
  have hloss : ∀ qs, List.Forall₂ (fun w q => Occurs w [] q) (List.replicate c.batchsize w) qs →
      reinforceLoss c pi ent r₀ qs = fun θ =>
        (qs.map fun q => logSum 1 pi (fun _ => 0) 0 θ q.steps - c.beta * entSum ent θ q.steps).sum / c.batchsize := by
    intro qs hqs
    funext θ
    obtain ⟨s, h⟩ := hrun qs hqs θ
    simp only [reinforceLoss, h, List.sum_cons, List.sum_nil, add_zero]
  refine ⟨fun qs hqs θ => ?_, ?_⟩
  · obtain ⟨s, h⟩ := hrun qs hqs θ
    exact ⟨s, by rw [h, hloss qs hqs]⟩
  · let g : Path O A → (E →L[ℝ] ℝ) := fun q => (-1 : ℝ) • scoreSum 1 pi θ₀ (fun _ => 0) q.endValue q.steps +
      (-c.beta) • (q.steps.map fun s => fderiv ℝ (fun θ => ent θ s.hist) θ₀).sum
    rw [expectAll_congr (pi θ₀) _ _ (fun qs => (c.batchsize : ℝ)⁻¹ • (qs.map g).sum) ?_]
    · have e1 := expectAll_map (pi θ₀) (LinearMap.lsmul ℝ (E →L[ℝ] ℝ) (c.batchsize : ℝ)⁻¹)
        (List.replicate c.batchsize w) (fun qs => (qs.map g).sum)
      simp only [LinearMap.lsmul_apply] at e1
      rw [e1, expectAll_sum (pi θ₀) (hs.sum θ₀) g _ fun w' h' => hmem w' h' ▸ hw, List.map_replicate,
        List.sum_replicate, ← Nat.cast_smul_eq_nsmul ℝ, smul_smul, inv_mul_cancel₀ (by positivity), one_smul]
      have e2 := expect_map (pi θ₀) (LinearMap.lsmul ℝ (E →L[ℝ] ℝ) (-1 : ℝ)) w []
        (fun q => scoreSum 1 pi θ₀ (fun _ => 0) q.endValue q.steps)
      have e3 := expect_map (pi θ₀) (LinearMap.lsmul ℝ (E →L[ℝ] ℝ) (-c.beta)) w []
        (fun q => (q.steps.map fun s => fderiv ℝ (fun θ => ent θ s.hist) θ₀).sum)
      simp only [LinearMap.lsmul_apply] at e2 e3
      simp only [g]
      rw [expect_add, e2, e3, expect_score 1 pi ent θ₀ hs _ w [] hw, (hasFDerivAt_value pi ent θ₀ hs w [] hw hu).fderiv,
        neg_one_smul, neg_smul, ← sub_eq_add_neg]
      rfl
    · intro qs hqs
      rw [hloss qs hqs]
      have hd := forall_occurs (P := World.Complete) (fun w q h hc => h.complete hc) hqs fun w' h' => hmem w' h' ▸ hc
      have := (hasFDerivAt_listSum (fun (q : Path O A) θ => logSum 1 pi (fun _ => 0) 0 θ q.steps -
        c.beta * entSum ent θ q.steps) g θ₀ qs fun q hq => ?_).mul_const ((c.batchsize : ℝ)⁻¹)
      · simpa only [div_eq_mul_inv] using this.fderiv
      · have h1 := hasFDerivAt_logSum 1 pi ent θ₀ hs (fun _ => 0) q.endValue q.steps
        have h2 := (hasFDerivAt_entSum hs q.steps).const_mul c.beta
        have h0 : q.endValue = 0 := by simp [Path.endValue, hd q hq]
        rw [h0] at h1
        refine (h1.fun_sub h2).congr_fderiv ?_
        ext x
        simp [g, h0, sub_eq_add_neg]

/-! ### A3C -/

theorem ret_discounted (γ ev : ℝ) (pi : E → List O → A → ℝ) (ent : E → List O → ℝ) (v : List O → ℝ) (θ : E) :
    ∀ l : List (Step O A), (∀ s ∈ l, s.ended = false) →
    ret γ ev l = discounted γ ((l.map fun s => (⟨v s.hist, outAt pi ent v θ s, s.reward⟩ :
      NStepAgent.Step Out ℝ)).map (·.reward)) + γ ^ l.length * ev
  | [], _ => by simp [ret, discounted]
  | s :: l, h => by
    have ih := ret_discounted γ ev pi ent v θ l fun s' hs => h s' (by simp [hs])
    simp only [ret, h s (by simp), Bool.false_eq_true, if_false, ih, List.map_cons, discounted, List.length_cons, pow_succ]
    ring

theorem a3cLoop_eq (beta : ℝ) (items : List (Out × ℝ)) :
    a3cLoop beta items = (items.map fun x => -(x.2 - x.1.v) * x.1.logp - beta * x.1.ent).sum := by
  have : ∀ (l : List (Out × ℝ)) (acc : ℝ),
      l.foldl (fun acc x => acc - x.1.logp * (x.2 - x.1.v) - beta * x.1.ent) acc =
      acc + (l.map fun x => -(x.2 - x.1.v) * x.1.logp - beta * x.1.ent).sum := by
    intro l
    induction l with
    | nil => intro acc; simp
    | cons x l ih => intro acc; simp only [List.foldl_cons, ih, List.map_cons, List.sum_cons]; ring
  simpa [a3cLoop] using this items 0

theorem a3c_items (γ ev beta : ℝ) (pi : E → List O → A → ℝ) (ent : E → List O → ℝ) (v : List O → ℝ) (θ : E) :
    ∀ l : List (Step O A), (∀ s ∈ l, s.ended = false) →
    ((NStepAgent.returnsOf γ ev (l.map fun s => (⟨v s.hist, outAt pi ent v θ s, s.reward⟩ :
      NStepAgent.Step Out ℝ))).map fun x => -(x.2 - x.1.v) * x.1.logp - beta * x.1.ent).sum =
      logSum γ pi v ev θ l - beta * entSum ent θ l
  | [], _ => by simp [NStepAgent.returnsOf, logSum, entSum]
  | s :: l, h => by
    have ih := a3c_items γ ev beta pi ent v θ l fun s' hs => h s' (by simp [hs])
    have hr := ret_discounted γ ev pi ent v θ (s :: l) h
    simp only [List.map_cons, List.length_cons] at hr
    simp only [List.map_cons, NStepAgent.returnsOf, List.sum_cons, ih, logSum, entSum, List.length_cons, List.length_map,
      ← hr]
    show -(ret γ ev (s :: l) - v s.hist) * Real.log (pi θ s.hist s.act) - beta * ent θ s.hist + _ = _
    ring

theorem a3c_run (γ : ℝ) (tMax : Nat) (pi : E → List O → A → ℝ) (ent : E → List O → ℝ) (v : List O → ℝ) (r₀ : ℝ)
    (q : Path O A) (hne : q.steps ≠ []) (hlen : q.steps.length ≤ tMax) (θ : E) :
    ∃ s, NStepAgent.run γ tMax NStepAgent.St.init (a3cCalls pi ent v r₀ q θ) = .ok (s,
      [(NStepAgent.returnsOf γ q.endValue (q.steps.map fun s => (⟨v s.hist, outAt pi ent v θ s, s.reward⟩ :
        NStepAgent.Step Out ℝ))).reverse]) := by
  have hpos : 1 ≤ q.steps.length := by
    have := List.length_pos_iff.2 hne
    omega
  obtain ⟨us, s, h1, -, h3⟩ := NStepAgent.C47_episode γ tMax (by omega) NStepAgent.St.init rfl
    ⟨q.steps.map fun s => ⟨v s.hist, outAt pi ent v θ s, s.reward⟩, q.done, q.boot⟩ (by simpa using hne) r₀
  refine ⟨s, ?_⟩
  have : us = [(q.steps.map fun s => (⟨v s.hist, outAt pi ent v θ s, s.reward⟩ : NStepAgent.Step Out ℝ), q.endValue)] := by
    generalize hl : (q.steps.map fun s => (⟨v s.hist, outAt pi ent v θ s, s.reward⟩ : NStepAgent.Step Out ℝ)) = l at h1
    have hlen' : l.length ≤ tMax := by rw [← hl, List.length_map]; exact hlen
    cases h1 with
    | last _ _ => rfl
    | more c s rest us hc hr => simp at hlen'; omega
  rw [a3cCalls, h3, this]
  rfl

/-- **C103**, A3C: for every rollout of at most `t_max` steps the agent makes exactly one
update; with any value function as baseline and for bootstrapping, and without rescaling
by the length of the rollout, the average gradient of the policy loss is `-pi_loss_coef`
times the policy gradient plus `beta` times the expected entropy gradients. -/
theorem C103_a3c (c : A3CCfg) (γ : ℝ) (hk : c.keepLossScaleSame = false) (hnm : c.normalizeGradByTMax = false)
    (pi : E → List O → A → ℝ) (ent : E → List O → ℝ) (θ₀ : E) (hs : Smooth pi ent θ₀) (v : List O → ℝ) (r₀ : ℝ)
    (w : World Ω O A) (hw : w.Stochastic) (hu : w.Unbroken) (hst : w.Starts) (hm : w.AtMost c.tMax) :
    (∀ q, Occurs w [] q → ∀ θ, ∃ s items, NStepAgent.run γ c.tMax NStepAgent.St.init (a3cCalls pi ent v r₀ q θ) =
      .ok (s, [items]) ∧ a3cLoss c γ pi ent v r₀ q θ = a3cPiLoss c items) ∧
    expect (pi θ₀) w [] (fun q => fderiv ℝ (a3cLoss c γ pi ent v r₀ q) θ₀) =
      -c.piLossCoef • (policyGradient γ pi θ₀ w [] + c.beta • entropyGradient pi ent θ₀ w) := by
  have hrun := fun q (hq : Occurs w [] q) (θ : E) =>
    a3c_run γ c.tMax pi ent v r₀ q (hq.starts hst) (hq.atMost hm) θ
  have hpl : ∀ items, a3cPiLoss c items = a3cLoop c.beta items * c.piLossCoef := by
    intro items
    simp only [a3cPiLoss, hk, hnm, Bool.false_and, Bool.false_eq_true, if_false]
    split
    · rfl
    · rename_i h
      rw [not_not.1 h, mul_one]
  have hloss : ∀ q, Occurs w [] q → a3cLoss c γ pi ent v r₀ q = fun θ =>
      (logSum γ pi v q.endValue θ q.steps - c.beta * entSum ent θ q.steps) * c.piLossCoef := by
    intro q hq
    funext θ
    obtain ⟨s, h⟩ := hrun q hq θ
    simp only [a3cLoss, h, List.map_cons, List.map_nil, List.sum_cons, List.sum_nil, add_zero, hpl, a3cLoop_eq,
      List.map_reverse, List.sum_reverse]
    rw [a3c_items γ q.endValue c.beta pi ent v θ q.steps (hq.unbroken hu)]
  refine ⟨fun q hq θ => ?_, ?_⟩
  · obtain ⟨s, h⟩ := hrun q hq θ
    exact ⟨s, _, h, by simp [a3cLoss, h]⟩
  · rw [expect_congr' (pi θ₀) w [] _ (fun q => (-c.piLossCoef) • (scoreSum γ pi θ₀ v q.endValue q.steps +
      c.beta • (q.steps.map fun s => fderiv ℝ (fun θ => ent θ s.hist) θ₀).sum)) ?_]
    · have e1 := expect_map (pi θ₀) (LinearMap.lsmul ℝ (E →L[ℝ] ℝ) (-c.piLossCoef)) w []
        (fun q => scoreSum γ pi θ₀ v q.endValue q.steps +
          c.beta • (q.steps.map fun s => fderiv ℝ (fun θ => ent θ s.hist) θ₀).sum)
      have e2 := expect_map (pi θ₀) (LinearMap.lsmul ℝ (E →L[ℝ] ℝ) c.beta) w []
        (fun q => (q.steps.map fun s => fderiv ℝ (fun θ => ent θ s.hist) θ₀).sum)
      simp only [LinearMap.lsmul_apply] at e1 e2
      rw [e1, expect_add, e2, expect_score γ pi ent θ₀ hs v w [] hw]
      rfl
    · intro q hq
      rw [hloss q hq]
      have h1 := hasFDerivAt_logSum γ pi ent θ₀ hs v q.endValue q.steps
      have h2 := (hasFDerivAt_entSum hs q.steps).const_mul c.beta
      rw [((h1.fun_sub h2).mul_const c.piLossCoef).fderiv]
      ext x
      simp
      ring

/-- **C103**, A3C's options for the scale of the loss: the policy loss of an update with `k` steps, `1 ≤ k ≤ t_max`, is the sum of the steps' losses.
With `keep_loss_scale_same` it is `t_max` times their average, whatever `k` is; with `normalize_grad_by_t_max` it is their average (despite the name, the
divisor is `k` and not `t_max`); with both it is the former divided by `k`. -/
theorem C103_a3c_scale (c : A3CCfg) (items : List (Out × ℝ)) (h1 : items ≠ []) (h2 : items.length ≤ c.tMax) :
    let losses := items.map fun x => c.piLossCoef * (-(x.2 - x.1.v) * x.1.logp - c.beta * x.1.ent)
    a3cPiLoss c items =
      match c.keepLossScaleSame, c.normalizeGradByTMax with
      | false, false => losses.sum
      | true, false => c.tMax * (losses.sum / losses.length)
      | false, true => losses.sum / losses.length
      | true, true => c.tMax * (losses.sum / losses.length) / losses.length := by
  have hl : (items.length : ℝ) ≠ 0 := by
    have := List.length_pos_iff.2 h1
    exact_mod_cast this.ne'
  have hb : (if c.piLossCoef ≠ 1 then a3cLoop c.beta items * c.piLossCoef else a3cLoop c.beta items) =
      (items.map fun x => c.piLossCoef * (-(x.2 - x.1.v) * x.1.logp - c.beta * x.1.ent)).sum := by
    rw [List.sum_map_mul_left, ← a3cLoop_eq]
    split
    · rw [mul_comm]
    · rename_i h
      rw [not_not.1 h, one_mul]
  have hk : ∀ l : ℝ, (if items.length < c.tMax then l * (c.tMax / items.length) else l) = c.tMax * (l / items.length) := by
    intro l
    split
    · ring
    · rw [show c.tMax = items.length by omega]
      field_simp
  simp only [a3cPiLoss, hb, List.length_map]
  cases c.keepLossScaleSame <;> cases c.normalizeGradByTMax <;>
    simp only [Bool.false_and, Bool.true_and, decide_eq_true_eq, Bool.false_eq_true, if_false, if_true, hk]

/-- A segment of one step with `t_max = 5`. -/
example : let c : A3CCfg := ⟨0, 1, true, false, 5⟩
    a3cPiLoss c [(⟨2, 0, 1⟩, 4)] = -30 := by
  intro c
  rw [C103_a3c_scale _ _ (by simp) (by simp [c])]
  norm_num [c]

/-- **C103**: undiscounted, the policy gradient is the gradient of the expected return (rewards
of the rollout plus the value of its end). -/
theorem C103_undiscounted (pi : E → List O → A → ℝ) (ent : E → List O → ℝ) (θ₀ : E) (hs : Smooth pi ent θ₀)
    (w : World Ω O A) (hw : w.Stochastic) (hu : w.Unbroken) :
    policyGradient 1 pi θ₀ w [] = fderiv ℝ (fun θ => value 1 (pi θ) w []) θ₀ :=
  (hasFDerivAt_value pi ent θ₀ hs w [] hw hu).fderiv.symm

/-! ### A2C -/

theorem a2cSteps_length (v : List O → ℝ) (ev : ℝ) : ∀ l : List (Step O A), (a2cSteps v ev l).length = l.length
  | [] => rfl
  | [s] => rfl
  | s :: s' :: l => by simp [a2cSteps, a2cSteps_length v ev (s' :: l)]

theorem a2cSteps_end (v : List O → ℝ) (ev : ℝ) : ∀ l : List (Step O A), l ≠ [] →
    A2C.endValue (a2cSteps v ev l) = ev
  | [], h => absurd rfl h
  | [s], _ => rfl
  | s :: s' :: l, _ => by
    have ih := a2cSteps_end v ev (s' :: l) (by simp)
    have hne : a2cSteps v ev (s' :: l) ≠ [] := by
      intro h
      have := a2cSteps_length v ev (s' :: l)
      simp [h] at this
    obtain ⟨x, l', hl⟩ := List.exists_cons_of_ne_nil hne
    rw [hl] at ih
    simp only [a2cSteps, hl]
    simpa [A2C.endValue, List.getLast?_cons_cons] using ih

theorem ret_cons (γ boot : ℝ) (s : A2C.Step ℝ) (l : List (A2C.Step ℝ)) :
    A2C.ret γ boot (s :: l) = s.reward + if s.ended then 0 else γ * A2C.ret γ boot l := by
  unfold A2C.ret
  cases h : s.ended
  · simp only [A2C.untilEnd, h, Bool.false_eq_true, if_false, List.map_cons, discounted, List.any_cons, Bool.false_or,
      List.length_cons, pow_succ]
    split <;> ring
  · simp [A2C.untilEnd, h, discounted]

theorem a2c_ret (γ ev : ℝ) (v : List O → ℝ) : ∀ l : List (Step O A),
    A2C.ret γ ev (a2cSteps v ev l) = ret γ ev l
  | [] => by simp [a2cSteps, A2C.ret, A2C.untilEnd, discounted, ret]
  | [s] => by
    simp only [a2cSteps, ret_cons, ret, A2C.Step.ended, Bool.or_false]
    simp [A2C.ret, A2C.untilEnd, discounted]
  | s :: s' :: l => by
    simp only [a2cSteps, ret_cons, A2C.Step.ended, Bool.or_false]
    rw [a2c_ret γ ev v (s' :: l)]
    rfl

theorem a2c_sum (γ ev : ℝ) (pi : E → List O → A → ℝ) (ent : E → List O → ℝ) (v : List O → ℝ) (θ : E) :
    ∀ l : List (Step O A),
    (((l.map (outAt pi ent v θ)).zip (A2C.targets γ none ev (a2cSteps v ev l))).map
      fun x => (x.2 - x.1.v) * x.1.logp).sum = -logSum γ pi v ev θ l
  | [] => by simp [a2cSteps, A2C.targets, logSum]
  | [s] => by
    have := a2c_ret γ ev v [s]
    simp only [a2cSteps] at this
    simp [a2cSteps, A2C.targets, A2C.target, logSum, this, outAt]
    ring
  | s :: s' :: l => by
    have ih := a2c_sum γ ev pi ent v θ (s' :: l)
    have := a2c_ret γ ev v (s :: s' :: l)
    simp only [a2cSteps] at this
    rw [List.map_cons, a2cSteps, A2C.targets, List.zip_cons_cons, List.map_cons, List.sum_cons, ih, logSum.eq_2 γ pi v ev θ s,
      A2C.target, this, outAt]
    ring

theorem targets_length (γ boot : ℝ) : ∀ l : List (A2C.Step ℝ), (A2C.targets γ none boot l).length = l.length
  | [] => rfl
  | _ :: l => by simp [A2C.targets, targets_length γ boot l]

theorem a2c_returns (γ : ℝ) (n : Nat) (hn : 1 ≤ n) (v : List O → ℝ) (q : Path O A) (hq : q.steps.length = n) :
    ∃ s, A2C.run γ none n A2C.St.init ((a2cSteps v q.endValue q.steps).flatMap A2C.Step.calls) =
      .ok (s, [A2C.targets γ none q.endValue (a2cSteps v q.endValue q.steps)]) := by
  obtain ⟨s, h⟩ := A2C.C48_history γ none n hn [a2cSteps v q.endValue q.steps]
    (by simp [a2cSteps_length, hq]) [] hn
  refine ⟨s, ?_⟩
  have hne : q.steps ≠ [] := by intro h; simp [h] at hq; omega
  simpa [a2cSteps_end v q.endValue q.steps hne] using h

theorem sum_const_length {X : Type} (f : X → Nat) (n : Nat) : ∀ l : List X, (∀ x ∈ l, f x = n) →
    (l.map f).sum = l.length * n
  | [], _ => by simp
  | x :: l, h => by
    simp only [List.map_cons, List.sum_cons, h x (by simp), sum_const_length f n l fun y hy => h y (by simp [hy]),
      List.length_cons]
    ring

/-- **C103**, A2C (without GAE): with any number of processes that make `update_steps` steps
each, each process makes one update, whose returns are cut at episode ends, and the average
gradient of the policy part of the loss is minus the mean, over all steps, of
`pi_loss_coef` times the policy gradient and `entropy_coeff` times the entropy gradients. -/
theorem C103_a2c (c : A2CCfg) (γ : ℝ) (n : Nat) (hn : 1 ≤ n) (pi : E → List O → A → ℝ) (ent : E → List O → ℝ)
    (θ₀ : E) (hs : Smooth pi ent θ₀) (v : List O → ℝ) (ws : List (World Ω O A)) (hw : ∀ w ∈ ws, w.Stochastic)
    (hx : ∀ w ∈ ws, w.Exactly n) :
    (∀ q, q.steps.length = n → ∃ s : A2C.St ℝ, A2C.run γ none n A2C.St.init
      ((a2cSteps v q.endValue (q.steps : List (Step O A))).flatMap A2C.Step.calls) = .ok (s, [a2cReturns γ n v q])) ∧
    expectAll (pi θ₀) ws (fun qs => fderiv ℝ (a2cLoss c γ n pi ent v qs) θ₀) =
      -((ws.length * n : ℝ)⁻¹ • (c.piLossCoef • (ws.map fun w => policyGradient γ pi θ₀ w []).sum +
        c.entropyCoeff • (ws.map fun w => entropyGradient pi ent θ₀ w).sum)) := by
  have hret : ∀ q : Path O A, q.steps.length = n →
      a2cReturns γ n v q = A2C.targets γ none q.endValue (a2cSteps v q.endValue q.steps) := by
    intro q hq
    obtain ⟨s, h⟩ := a2c_returns γ n hn v q hq
    simp [a2cReturns, h]
  constructor
  · intro q hq
    obtain ⟨s, h⟩ := a2c_returns γ n hn v q hq
    exact ⟨s, by rw [h, hret q hq]⟩
  · let g : Path O A → (E →L[ℝ] ℝ) := fun q => c.piLossCoef • scoreSum γ pi θ₀ v q.endValue q.steps +
      c.entropyCoeff • (q.steps.map fun s => fderiv ℝ (fun θ => ent θ s.hist) θ₀).sum
    rw [expectAll_congr (pi θ₀) ws _ (fun qs => -(ws.length * n : ℝ)⁻¹ • (qs.map g).sum) ?_]
    · have e1 := expectAll_map (pi θ₀) (LinearMap.lsmul ℝ (E →L[ℝ] ℝ) (-(ws.length * n : ℝ)⁻¹)) ws
        (fun qs => (qs.map g).sum)
      simp only [LinearMap.lsmul_apply] at e1
      rw [e1, expectAll_sum (pi θ₀) (hs.sum θ₀) g ws hw, neg_smul]
      congr 2
      have : ∀ w ∈ ws, expect (pi θ₀) w [] g = c.piLossCoef • policyGradient γ pi θ₀ w [] +
          c.entropyCoeff • entropyGradient pi ent θ₀ w := by
        intro w hw'
        have e2 := expect_map (pi θ₀) (LinearMap.lsmul ℝ (E →L[ℝ] ℝ) c.piLossCoef) w []
          (fun q => scoreSum γ pi θ₀ v q.endValue q.steps)
        have e3 := expect_map (pi θ₀) (LinearMap.lsmul ℝ (E →L[ℝ] ℝ) c.entropyCoeff) w []
          (fun q => (q.steps.map fun s => fderiv ℝ (fun θ => ent θ s.hist) θ₀).sum)
        simp only [LinearMap.lsmul_apply] at e2 e3
        simp only [g]
        rw [expect_add, e2, e3, expect_score γ pi ent θ₀ hs v w [] (hw w hw')]
        rfl
      rw [List.map_congr_left this, List.sum_map_add, List.smul_sum, List.smul_sum, List.map_map, List.map_map]
      rfl
    · intro qs hqs
      have hlen := forall_occurs (P := World.Exactly n) (Q := fun q => q.steps.length = n)
        (fun w q h hc => h.exactly hc) hqs hx
      have hloss : a2cLoss c γ n pi ent v qs = fun θ => -(ws.length * n : ℝ)⁻¹ *
          (qs.map fun q => -c.piLossCoef * logSum γ pi v q.endValue θ q.steps +
            c.entropyCoeff * entSum ent θ q.steps).sum := by
        funext θ
        have hz : ∀ q ∈ qs, ((q.steps.map (outAt pi ent v θ)).zip (a2cReturns γ n v q)).length = n := by
          intro q hq
          rw [List.length_zip, hret q (hlen q hq), targets_length, a2cSteps_length, List.length_map, hlen q hq,
            Nat.min_self]
        have h1 : ∀ (f : Out × ℝ → ℝ), mean2 ((qs.map fun q => (q.steps.map (outAt pi ent v θ)).zip
            (a2cReturns γ n v q)).map fun col => col.map f) =
            (qs.map fun q => (((q.steps.map (outAt pi ent v θ)).zip (a2cReturns γ n v q)).map f).sum).sum *
              (ws.length * n : ℝ)⁻¹ := by
          intro f
          simp only [mean2, List.map_map, Function.comp_def, List.length_map]
          rw [sum_const_length _ n qs hz, hqs.length_eq, div_eq_mul_inv, Nat.cast_mul]
        have h2 : (qs.map fun q => (((q.steps.map (outAt pi ent v θ)).zip (a2cReturns γ n v q)).map
            fun x => (x.2 - x.1.v) * x.1.logp).sum) = qs.map fun q => -logSum γ pi v q.endValue θ q.steps :=
          List.map_congr_left fun q hq => by
            rw [hret q (hlen q hq)]; exact a2c_sum γ q.endValue pi ent v θ q.steps
        have h3 : (qs.map fun q => (((q.steps.map (outAt pi ent v θ)).zip (a2cReturns γ n v q)).map
            fun x => x.1.ent).sum) = qs.map fun q => entSum ent θ q.steps :=
          List.map_congr_left fun q hq => by
            have hl : (q.steps.map (outAt pi ent v θ)).length ≤ (a2cReturns γ n v q).length := by
              rw [hret q (hlen q hq), targets_length, a2cSteps_length, List.length_map]
            have : (((q.steps.map (outAt pi ent v θ)).zip (a2cReturns γ n v q)).map fun x => x.1.ent) =
                (((q.steps.map (outAt pi ent v θ)).zip (a2cReturns γ n v q)).map Prod.fst).map Out.ent := by
              rw [List.map_map]; rfl
            rw [this, List.map_fst_zip hl, List.map_map]
            rfl
        simp only [a2cLoss, a2cPolicyLoss, a2cActionLoss, h1, h2, h3, List.sum_map_add]
        have h4 : ∀ (k : ℝ) (f : Path O A → ℝ), (qs.map fun q => k * f q).sum = k * (qs.map f).sum :=
          fun k f => List.sum_map_mul_left qs f k
        have h5 := h4 (-1) (fun q => logSum γ pi v q.endValue θ q.steps)
        simp only [neg_mul, one_mul] at h5
        rw [h4, h4, h5]
        ring
      rw [hloss]
      have := (hasFDerivAt_listSum (fun (q : Path O A) θ => -c.piLossCoef * logSum γ pi v q.endValue θ q.steps +
        c.entropyCoeff * entSum ent θ q.steps) g θ₀ qs fun q hq => ?_).const_mul (-(ws.length * n : ℝ)⁻¹)
      · exact this.fderiv
      · have h1 := (hasFDerivAt_logSum γ pi ent θ₀ hs v q.endValue q.steps).const_mul (-c.piLossCoef)
        have h2 := (hasFDerivAt_entSum hs q.steps).const_mul c.entropyCoeff
        refine (h1.fun_add h2).congr_fderiv ?_
        simp only [g, neg_smul, smul_neg, neg_neg]

end

/-! ### PGT -/

section
variable {S A : Type} [Fintype A] [DecidableEq A] {E : Type} [NormedAddCommGroup E] [NormedSpace ℝ E]

/-- Independent draws: the mean of a function of one of them. -/
theorem mean_one {ι : Type} [Fintype ι] [DecidableEq ι] {F : Type} [AddCommGroup F] [Module ℝ F]
    (wt : ι → A → ℝ) (hwt : ∀ i, ∑ a, wt i a = 1) (i : ι) (g : A → F) :
    ∑ as : ι → A, (∏ j, wt j (as j)) • g (as i) = ∑ a, wt i a • g a := by
  have hfib : ∀ a, ∑ as : ι → A, (if as i = a then ∏ j, wt j (as j) else 0) = wt i a := by
    intro a
    let wt' : ι → A → ℝ := fun j b => if j = i then (if b = a then wt j b else 0) else wt j b
    have h1 : ∀ as : ι → A, (if as i = a then ∏ j, wt j (as j) else 0) = ∏ j, wt' j (as j) := by
      intro as
      split
      · rename_i h
        refine Finset.prod_congr rfl fun j _ => ?_
        by_cases hj : j = i
        · subst hj; simp [wt', h]
        · simp [wt', hj]
      · rename_i h
        exact (Finset.prod_eq_zero (Finset.mem_univ i) (by simp [wt', h])).symm
    simp only [h1]
    rw [← Fintype.piFinset_univ, ← Finset.prod_univ_sum]
    rw [Finset.prod_eq_single i]
    · simp [wt']
    · intro j _ hj
      simp [wt', hj, hwt]
    · simp
  have h2 : ∀ as : ι → A, (∏ j, wt j (as j)) • g (as i) =
      ∑ a, (if as i = a then ∏ j, wt j (as j) else 0) • g a := by
    intro as
    rw [Finset.sum_eq_single (as i)]
    · simp
    · intro b _ hb; simp [Ne.symm hb]
    · simp
  simp only [h2]
  rw [Finset.sum_comm]
  simp only [← Finset.sum_smul, hfib]

/-- **C103**, PGT: the actions being sampled independently from the policy in each state of
the minibatch, the average gradient of the actor loss is the gradient of minus the mean
of the expected Q-values and of `beta` times the entropies, whatever the Q-function (which
is not changed by the actor update) and whatever the most probable actions. -/
theorem C103_pgt {n : Nat} (pi : E → S → A → ℝ) (ent : E → S → ℝ) (θ₀ : E) (hs : Smooth pi ent θ₀)
    (q : S → A → ℝ) (mp : S → A) (beta : ℝ) (states : Fin n → S) :
    ∑ acts : Fin n → A, (∏ i, pi θ₀ (states i) (acts i)) •
      fderiv ℝ (fun θ => pgtActorLoss q mp beta states acts (fun s a => Real.log (pi θ s a)) (ent θ)) θ₀ =
    fderiv ℝ (fun θ => -(∑ i, ((∑ a, pi θ (states i) a * q (states i) a) + beta * ent θ (states i))) / n) θ₀ := by
  have hsum : ∀ i, ∑ a, pi θ₀ (states i) a = 1 := fun i => hs.sum θ₀ (states i)
  let D : Fin n → A → (E →L[ℝ] ℝ) := fun i a =>
    (q (states i) a - q (states i) (mp (states i))) • fderiv ℝ (fun θ => Real.log (pi θ (states i) a)) θ₀ +
      beta • fderiv ℝ (fun θ => ent θ (states i)) θ₀
  have hL : ∀ acts : Fin n → A,
      fderiv ℝ (fun θ => pgtActorLoss q mp beta states acts (fun s a => Real.log (pi θ s a)) (ent θ)) θ₀ =
      -(n : ℝ)⁻¹ • ∑ i, D i (acts i) := by
    intro acts
    have h1 : HasFDerivAt (fun θ => ∑ i, ((q (states i) (acts i) - q (states i) (mp (states i))) *
        Real.log (pi θ (states i) (acts i)) + beta * ent θ (states i))) (∑ i, D i (acts i)) θ₀ :=
      HasFDerivAt.fun_sum fun i _ =>
        ((fderiv_log hs (states i) (acts i)).differentiableAt.hasFDerivAt.const_mul _).add
          ((hs.ent (states i)).hasFDerivAt.const_mul beta)
    have h2 := h1.const_mul (-(n : ℝ)⁻¹)
    rw [← h2.fderiv]
    congr 1
    funext θ
    simp only [pgtActorLoss]
    ring
  have hR : fderiv ℝ (fun θ => -(∑ i, ((∑ a, pi θ (states i) a * q (states i) a) + beta * ent θ (states i))) / n) θ₀ =
      -(n : ℝ)⁻¹ • ∑ i, (fderiv ℝ (fun θ => ∑ a, pi θ (states i) a * q (states i) a) θ₀ +
        beta • fderiv ℝ (fun θ => ent θ (states i)) θ₀) := by
    have h1 : HasFDerivAt (fun θ => ∑ i, ((∑ a, pi θ (states i) a * q (states i) a) + beta * ent θ (states i)))
        (∑ i, (fderiv ℝ (fun θ => ∑ a, pi θ (states i) a * q (states i) a) θ₀ +
        beta • fderiv ℝ (fun θ => ent θ (states i)) θ₀)) θ₀ :=
      HasFDerivAt.fun_sum fun i _ =>
        (fderiv_mean hs (states i) (q (states i))).differentiableAt.hasFDerivAt.add
          ((hs.ent (states i)).hasFDerivAt.const_mul beta)
    have h2 := h1.const_mul (-(n : ℝ)⁻¹)
    rw [← h2.fderiv]
    congr 1
    funext θ
    ring
  simp only [hL, hR]
  simp only [smul_comm _ (-(n : ℝ)⁻¹), ← Finset.smul_sum]
  congr 1
  simp only [Finset.smul_sum]
  rw [Finset.sum_comm]
  refine Finset.sum_congr rfl fun i _ => ?_
  rw [mean_one (fun j a => pi θ₀ (states j) a) hsum i (D i)]
  simp only [D, smul_add, Finset.sum_add_distrib]
  rw [mean_score hs (states i) (q (states i)), ← Finset.sum_smul, hsum i, one_smul]

end

/-! ### A case -/

/-- A policy with one parameter over two actions. -/
noncomputable def examplePi (θ : ℝ) (_ : List Bool) (a : Bool) : ℝ :=
  if a then Real.exp θ / (1 + Real.exp θ) else 1 / (1 + Real.exp θ)

theorem example_smooth : Smooth examplePi (fun θ _ => θ * θ) 0 where
  diff x a := by
    have h : (1 : ℝ) + Real.exp 0 ≠ 0 := by positivity
    cases a
    · simp only [examplePi, Bool.false_eq_true, if_false]
      exact (differentiableAt_const _).div ((differentiableAt_const _).add Real.differentiableAt_exp) h
    · simp only [examplePi, if_true]
      exact Real.differentiableAt_exp.div ((differentiableAt_const _).add Real.differentiableAt_exp) h
  pos x a := by cases a <;> simp only [examplePi, Bool.false_eq_true, if_false, if_true] <;> positivity
  sum θ x := by
    have h : (1 : ℝ) + Real.exp θ ≠ 0 := by positivity
    simp only [examplePi, Fintype.sum_bool, if_true, Bool.false_eq_true, if_false]
    field_simp
    ring
  ent x := differentiableAt_id.mul differentiableAt_id

/-- Two steps: the second is only taken after the action `true` with probability one half; it
pays 5 for the action `true`. -/
noncomputable def exampleWorld : World Bool Bool Bool :=
  .node false (fun _ _ => 1 / 2) (fun a _ => if a then 0 else 1) (fun _ _ => false) fun a ω =>
    if a && ω then .node true (fun _ _ => 1 / 2) (fun a _ => if a then 5 else 0) (fun _ _ => false) fun _ _ => .leaf true 7
    else .leaf true 7

example : exampleWorld.Stochastic ∧ exampleWorld.Unbroken ∧ exampleWorld.Complete ∧ exampleWorld.Starts ∧
    exampleWorld.AtMost 2 := by
  refine ⟨⟨fun a => by simp, fun a ω => ?_⟩, fun a ω => ⟨rfl, ?_⟩, fun a ω => ?_, trivial, fun a ω => ?_⟩ <;>
    cases a <;> cases ω <;>
    simp [World.Stochastic, World.Unbroken, World.Complete, World.AtMost]

/-- The value of this world, and so the gradient that REINFORCE follows, is not trivial: with
`q` the probability of `true`, it is `(1 - q) + 5 q² / 2`. -/
example (θ : ℝ) : value 1 (examplePi θ) exampleWorld [] =
    (1 - examplePi θ [] true) + 5 / 2 * examplePi θ [] true ^ 2 := by
  have h : (1 : ℝ) + Real.exp θ ≠ 0 := by positivity
  simp [value, exampleWorld, expect, ret, Path.cons, Path.endValue, examplePi]
  field_simp
  ring

end Verif.PolicyGradient
