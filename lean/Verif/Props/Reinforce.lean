import Mathlib.Algebra.Field.Rat
import Mathlib.Algebra.BigOperators.Ring.List
import Mathlib.Tactic.Ring
import Mathlib.Tactic.LinearCombination
import Verif.Spec.Reinforce
set_option autoImplicit false
set_option linter.unusedSectionVars false

/-! # C54: REINFORCE -/

namespace Verif.Reinforce
variable {K : Type} [Field K]

theorem cumsum_append (acc : K) : ∀ (xs ys : List K),
    cumsum acc (xs ++ ys) = cumsum acc xs ++ cumsum (acc + xs.sum) ys
  | [], ys => by simp [cumsum]
  | x :: xs, ys => by
    simp only [List.cons_append, cumsum, cumsum_append (acc + x) xs ys, List.sum_cons]
    rw [add_assoc]

theorem returns_cons (r0 r : K) (rs : List K) :
    returns (r0 :: r :: rs) = (r :: rs).sum :: returns (r :: rs) := by
  simp only [returns, List.drop_succ_cons, List.drop_zero, List.reverse_cons, cumsum_append, cumsum,
    List.reverse_append, List.sum_reverse, zero_add, List.sum_cons]
  simp [add_comm]

/-- The sequences of a complete episode. -/
def epSeq (ep : Episode K) : Seq K :=
  ⟨ep.acts.map Act.reward ++ [ep.final], ep.acts.map Act.logp, ep.acts.map Act.ent⟩

/-- The sequences of the current episode. -/
def curSeq (as : List (Act K)) : Seq K := ⟨as.map Act.reward, as.map Act.logp, as.map Act.ent⟩

theorem seqLosses_sum (beta final : K) : ∀ as : List (Act K),
    (List.zipWith (fun (R : K) (le : K × K) => -R * le.1 - beta * le.2)
      (returns (as.map Act.reward ++ [final])) (List.zip (as.map Act.logp) (as.map Act.ent))).sum =
      actsLoss beta final as
  | [] => by simp [actsLoss]
  | [a] => by simp [returns, cumsum, actsLoss]
  | a :: a' :: as => by
    have ih := seqLosses_sum beta final (a' :: as)
    simp only [List.map_cons, List.cons_append, List.zip_cons_cons] at ih ⊢
    rw [returns_cons, List.zipWith_cons_cons, List.sum_cons, ih]
    conv_rhs => rw [actsLoss]
    simp only [List.sum_cons, List.sum_append, List.map_cons, List.sum_nil]
    ring

theorem returns_length (l : List K) : (returns l).length = l.length - 1 := by
  have : ∀ (l : List K) (acc : K), (cumsum acc l).length = l.length := by
    intro l
    induction l with
    | nil => intro acc; rfl
    | cons x l ih => intro acc; simp [cumsum, ih]
  simp [returns, this]

theorem seqLosses_ep (beta : K) (ep : Episode K) : ∃ ls, seqLosses beta (epSeq ep) = .ok ls ∧
    ls.sum = actsLoss beta ep.final ep.acts ∧ ls.length = ep.acts.length := by
  refine ⟨_, ?_, seqLosses_sum beta ep.final ep.acts, ?_⟩
  · simp only [seqLosses, epSeq]
    rw [pyAssert, if_pos (by simp)]
  · simp [returns_length]

theorem mapM_seqLosses (beta : K) : ∀ eps : List (Episode K), ∃ lss,
    (eps.map epSeq).mapM (seqLosses beta) = .ok lss ∧
    lss.flatten.sum = (eps.map (fun ep => actsLoss beta ep.final ep.acts)).sum ∧
    lss.flatten.length = (eps.map (fun ep => ep.acts.length)).sum
  | [] => ⟨[], rfl, rfl, rfl⟩
  | ep :: eps => by
    obtain ⟨lss, h1, h2, h3⟩ := mapM_seqLosses beta eps
    obtain ⟨ls, g1, g2, g3⟩ := seqLosses_ep beta ep
    refine ⟨ls :: lss, ?_, ?_, ?_⟩
    · rw [List.map_cons, List.mapM_cons, g1, h1]; rfl
    · simp [g2, ← h2]
    · simp only [List.flatten_cons, List.length_append, g3, h3, List.map_cons, List.sum_cons]

/-- The sum of the losses of some episodes. -/
def lossSum (beta : K) (eps : List (Episode K)) : K :=
  (eps.map (fun ep => actsLoss beta ep.final ep.acts)).sum

theorem accumulate_eq (c : Cfg K) (wait : List (Episode K)) (ep : Episode K) (n : Nat) (acc : K)
    (h : ep.acts ≠ []) :
    accumulateGrad c ⟨wait.map epSeq, epSeq ep, n, acc⟩ =
      .ok ⟨[], Seq.empty, n + 1, (if n = 0 then 0 else acc) + lossSum c.beta (wait ++ [ep]) / (c.batchsize : K)⟩ := by
  obtain ⟨lss, h1, h2, h3⟩ := mapM_seqLosses c.beta (wait ++ [ep])
  have h4 : lss.flatten ≠ [] := by
    intro h0
    rw [h0] at h3
    have : ep.acts.length = 0 := by
      simp at h3
      omega
    exact h (List.length_eq_zero_iff.1 this)
  have h5 : sumArrays lss.flatten = .ok lss.flatten.sum := by
    cases hh : lss.flatten with
    | nil => exact absurd hh h4
    | cons x xs => rfl
  rw [List.map_append, List.map_singleton] at h1
  simp only [accumulateGrad, h1, bind, Except.bind, h5, pure, Except.pure, h2, lossSum]

/-! ## The invariant -/

/-- The episodes that wait for an update. -/
def waiting (n : Nat) (eps : List (Episode K)) : List (Episode K) := eps.drop (eps.length / n * n)

/-- The state agrees with what has happened. -/
structure Inv (c : Cfg K) (s : St K) (v : View K) : Prop where
  last : s.last = curSeq v.current
  batch : c.separately = false → s.ended = (waiting c.batchsize v.episodes).map epSeq ∧ s.nBackward = 0
  sep : c.separately = true → s.ended = [] ∧ s.nBackward = (waiting c.batchsize v.episodes).length ∧
    (s.nBackward ≠ 0 → s.acc = lossSum c.beta (waiting c.batchsize v.episodes) / (c.batchsize : K))

/-- The updates that should have been made. -/
def updates (c : Cfg K) (eps : List (Episode K)) : List K :=
  (List.range (eps.length / c.batchsize)).map (batchLoss c.beta c.batchsize eps)

theorem waiting_length (n : Nat) (eps : List (Episode K)) : (waiting n eps).length = eps.length % n := by
  rw [waiting, List.length_drop]
  have := Nat.div_add_mod eps.length n
  rw [Nat.mul_comm] at this
  omega

/-- A complete episode that completes no batch. -/
theorem snoc_wait (c : Cfg K) (hn : 1 ≤ c.batchsize) (eps : List (Episode K)) (ep : Episode K)
    (h : (waiting c.batchsize eps).length + 1 ≠ c.batchsize) :
    waiting c.batchsize (eps ++ [ep]) = waiting c.batchsize eps ++ [ep] ∧
    updates c (eps ++ [ep]) = updates c eps := by
  rw [waiting_length] at h
  have hlt := Nat.mod_lt eps.length hn
  have hdm := Nat.div_add_mod eps.length c.batchsize
  have hdiv : (eps.length + 1) / c.batchsize = eps.length / c.batchsize := by
    rw [Nat.div_eq_iff (by omega)]
    generalize eps.length / c.batchsize = q at *
    rw [Nat.mul_comm] at hdm
    constructor <;> omega
  constructor
  · rw [waiting, List.length_append, List.length_singleton, hdiv, waiting, List.drop_append_of_le_length]
    exact Nat.div_mul_le_self _ _
  · rw [updates, updates, List.length_append, List.length_singleton, hdiv]
    apply List.map_congr_left
    intro k hk
    have hk := List.mem_range.1 hk
    rw [batchLoss, batchLoss]
    have hb : (k + 1) * c.batchsize ≤ eps.length :=
      le_trans (Nat.mul_le_mul_right _ hk) (Nat.div_mul_le_self _ _)
    rw [Nat.add_mul, Nat.one_mul] at hb
    rw [List.drop_append_of_le_length (by omega), List.take_append_of_le_length (by simp; omega)]

/-- A complete episode that completes a batch. -/
theorem snoc_update (c : Cfg K) (hn : 1 ≤ c.batchsize) (eps : List (Episode K)) (ep : Episode K)
    (h : (waiting c.batchsize eps).length + 1 = c.batchsize) :
    waiting c.batchsize (eps ++ [ep]) = [] ∧
    updates c (eps ++ [ep]) = updates c eps ++
      [lossSum c.beta (waiting c.batchsize eps ++ [ep]) / (c.batchsize : K)] := by
  have h0 := h
  rw [waiting_length] at h
  have hdm := Nat.div_add_mod eps.length c.batchsize
  rw [Nat.mul_comm] at hdm
  have hdiv : (eps.length + 1) / c.batchsize = eps.length / c.batchsize + 1 := by
    rw [Nat.div_eq_iff (by omega), Nat.add_mul, Nat.one_mul]
    generalize eps.length / c.batchsize * c.batchsize = q at *
    constructor <;> omega
  have hle : eps.length / c.batchsize * c.batchsize ≤ eps.length := Nat.div_mul_le_self _ _
  constructor
  · rw [waiting, List.length_append, List.length_singleton, hdiv, Nat.add_mul, Nat.one_mul,
      List.drop_eq_nil_iff]
    simp only [List.length_append, List.length_singleton]
    omega
  · rw [updates, updates, List.length_append, List.length_singleton, hdiv, List.range_succ, List.map_append,
      List.map_singleton]
    congr 1
    · apply List.map_congr_left
      intro k hk
      have hk := List.mem_range.1 hk
      rw [batchLoss, batchLoss]
      have hb : (k + 1) * c.batchsize ≤ eps.length :=
        le_trans (Nat.mul_le_mul_right _ hk) (Nat.div_mul_le_self _ _)
      rw [Nat.add_mul, Nat.one_mul] at hb
      rw [List.drop_append_of_le_length (by omega), List.take_append_of_le_length (by simp; omega)]
    · rw [batchLoss, List.drop_append_of_le_length hle, ← waiting]
      rw [List.take_of_length_le (by simp; omega)]
      rfl

theorem step_inv (c : Cfg K) (hn : 1 ≤ c.batchsize) (s : St K) (v : View K) (x : Call K)
    (h : Inv c s v) (hl : ∀ ep ∈ (v.see x).episodes, ep.acts ≠ []) :
    ∃ s' us, step c s x = .ok (s', us) ∧ Inv c s' (v.see x) ∧
      updates c (v.see x).episodes = updates c v.episodes ++ us := by
  obtain ⟨ended, last, nb, acc⟩ := s
  obtain ⟨eps, cur⟩ := v
  obtain ⟨hlast, hb, hs⟩ := h
  simp only at hlast hb hs
  subst hlast
  cases x with
  | act r l e =>
    refine ⟨_, _, rfl, ⟨?_, hb, hs⟩, by simp [View.see]⟩
    simp [View.see, curSeq]
  | stop r done =>
    cases done with
    | false =>
      exact ⟨_, _, rfl, ⟨rfl, hb, hs⟩, by simp [View.see]⟩
    | true =>
      have hne : cur ≠ [] := hl ⟨cur, r⟩ (by simp [View.see])
      have hep : ({ (curSeq cur) with rewards := (curSeq cur).rewards ++ [r] } : Seq K) = epSeq ⟨cur, r⟩ := rfl
      simp only [step, if_true, View.see, hep, stopDone]
      cases hsep : c.separately with
      | true =>
        obtain ⟨h1, h2, h3⟩ := hs hsep
        have hacc := accumulate_eq c [] ⟨cur, r⟩ nb acc hne
        simp only [List.map_nil, List.nil_append] at hacc
        simp only [if_true, h1, hacc, bind, Except.bind]
        -- the accumulated loss is that of all waiting episodes
        have hsum : (if nb = 0 then 0 else acc) + lossSum c.beta [⟨cur, r⟩] / (c.batchsize : K) =
            lossSum c.beta (waiting c.batchsize eps ++ [⟨cur, r⟩]) / (c.batchsize : K) := by
          by_cases hnb : nb = 0
          · have : waiting c.batchsize eps = [] := List.length_eq_zero_iff.1 (by omega)
            simp [hnb, this]
          · rw [if_neg hnb, h3 hnb]
            simp only [lossSum, List.map_append, List.sum_append]
            rw [add_div]
        rw [hsum]
        by_cases hfull : nb + 1 = c.batchsize
        · obtain ⟨g1, g2⟩ := snoc_update c hn eps ⟨cur, r⟩ (by omega)
          simp only [hfull, if_true, pure, Except.pure]
          refine ⟨_, _, rfl, ⟨rfl, by simp [hsep], fun _ => ?_⟩, g2⟩
          simp only [g1]
          exact ⟨trivial, rfl, by simp⟩
        · obtain ⟨g1, g2⟩ := snoc_wait c hn eps ⟨cur, r⟩ (by omega)
          simp only [hfull, if_false, pure, Except.pure]
          refine ⟨_, _, rfl, ⟨rfl, by simp [hsep], fun _ => ?_⟩, by simpa using g2⟩
          simp only [g1]
          exact ⟨trivial, by simp [h2], by simp⟩
      | false =>
        obtain ⟨h1, h2⟩ := hb hsep
        have hlen : ended.length = (waiting c.batchsize eps).length := by rw [h1]; simp
        by_cases hfull : ended.length + 1 = c.batchsize
        · obtain ⟨g1, g2⟩ := snoc_update c hn eps ⟨cur, r⟩ (by omega)
          have hacc := accumulate_eq c (waiting c.batchsize eps) ⟨cur, r⟩ 0 acc hne
          subst h2
          simp only [Bool.false_eq_true, if_false, hfull, if_true, batchUpdate, pyAssert, beq_self_eq_true]
          rw [h1, hacc]
          simp only [if_true, zero_add, bind, Except.bind, pure, Except.pure]
          refine ⟨_, _, rfl, ⟨rfl, fun _ => ?_, by simp [hsep]⟩, g2⟩
          simp only [g1]
          exact ⟨rfl, trivial⟩
        · obtain ⟨g1, g2⟩ := snoc_wait c hn eps ⟨cur, r⟩ (by omega)
          simp only [Bool.false_eq_true, if_false, hfull, pure, Except.pure]
          refine ⟨_, _, rfl, ⟨rfl, fun _ => ?_, by simp [hsep]⟩, by simpa using g2⟩
          simp only [g1]
          exact ⟨by simp [h1], h2⟩

theorem episodes_mono (v : View K) (cs : List (Call K)) :
    ∀ ep ∈ v.episodes, ep ∈ (cs.foldl View.see v).episodes := by
  induction cs generalizing v with
  | nil => exact fun ep h => h
  | cons x cs ih =>
    intro ep hep
    apply ih
    cases x with
    | act r l e => exact hep
    | stop r d => cases d <;> simp [View.see, hep]

theorem run_inv (c : Cfg K) (hn : 1 ≤ c.batchsize) : ∀ (cs : List (Call K)) (s : St K) (v : View K),
    Inv c s v → (∀ ep ∈ (cs.foldl View.see v).episodes, ep.acts ≠ []) →
    ∃ s' us, run c s cs = .ok (s', us) ∧ Inv c s' (cs.foldl View.see v) ∧
      updates c (cs.foldl View.see v).episodes = updates c v.episodes ++ us
  | [], s, v, h, _ => ⟨s, [], rfl, h, by simp⟩
  | x :: cs, s, v, h, hl => by
    obtain ⟨s1, u1, h1, h2, h3⟩ := step_inv c hn s v x h (fun ep hep => hl ep (episodes_mono _ cs ep hep))
    obtain ⟨s2, u2, g1, g2, g3⟩ := run_inv c hn cs s1 (v.see x) h2 hl
    refine ⟨s2, u1 ++ u2, ?_, g2, ?_⟩
    · simp only [run, h1, g1, bind, Except.bind, pure, Except.pure]
    · rw [List.foldl_cons, g3, h3, List.append_assoc]

/-- **C54**: for every history in which no complete episode is empty nothing raises,
and, in both gradient modes, the updates are exactly one for each `batchsize` complete
episodes in order, with the loss of these episodes; episodes that ended without `done`
do not occur in it. -/
theorem C54_updates (c : Cfg K) (hn : 1 ≤ c.batchsize) (cs : List (Call K)) (hl : Legal cs) :
    ∃ s, run c St.init cs = .ok (s, (List.range ((view cs).episodes.length / c.batchsize)).map
      (batchLoss c.beta c.batchsize (view cs).episodes)) := by
  have h0 : Inv c (St.init : St K) ⟨[], []⟩ :=
    ⟨rfl, fun _ => ⟨by simp [waiting, St.init], rfl⟩,
      fun _ => ⟨rfl, by simp [waiting, St.init], by simp [St.init]⟩⟩
  obtain ⟨s', us, h1, -, h3⟩ := run_inv c hn cs St.init ⟨[], []⟩ h0 hl
  refine ⟨s', ?_⟩
  rw [h1]
  congr 2
  have : updates c ([] : List (Episode K)) = [] := by simp [updates]
  rw [this, List.nil_append] at h3
  exact h3.symm

/-- **C54**: accumulating gradients episode by episode makes the same updates, after the
same calls. -/
theorem C54_same_modes (beta : K) (n : Nat) (hn : 1 ≤ n) (cs : List (Call K)) (hl : Legal cs) (k : Nat) :
    ∃ s₁ s₂ us, run ⟨beta, n, false⟩ St.init (cs.take k) = .ok (s₁, us) ∧
      run ⟨beta, n, true⟩ St.init (cs.take k) = .ok (s₂, us) := by
  have hl' : Legal (cs.take k) := by
    intro ep hep
    apply hl ep
    have : (view cs).episodes = ((cs.drop k).foldl View.see (view (cs.take k))).episodes := by
      rw [view, view, ← List.foldl_append, List.take_append_drop]
    rw [this]
    exact episodes_mono _ _ ep hep
  obtain ⟨s1, h1⟩ := C54_updates ⟨beta, n, false⟩ hn (cs.take k) hl'
  obtain ⟨s2, h2⟩ := C54_updates ⟨beta, n, true⟩ hn (cs.take k) hl'
  exact ⟨s1, s2, _, h1, h2⟩

/-- Three episodes, the second of which is cut; a batch of two. -/
def exampleCalls : List (Call ℚ) :=
  [.act 0 (-1) 1, .act 1 (-2) 1, .stop 2 true, .act 0 (-9) 1, .stop 7 false, .act 5 (-3) 1, .stop 4 true]

example : Legal exampleCalls ∧ (view exampleCalls).episodes.length = 2 := by
  constructor
  · intro ep hep
    simp [exampleCalls, view, View.see] at hep
    rcases hep with rfl | rfl <;> simp
  · rfl

/-- The first action is followed by the rewards `1 + 2`, the second by `2`, the third by `4`. -/
example : (run ⟨0, 2, false⟩ St.init exampleCalls).toOption.map (·.2) =
    some [(3 * 1 + 2 * 2 + 4 * 3) / 2] := by decide +kernel

theorem run_stops (c : Cfg K) (hc : c.separately = false) (rs : List K) : ∀ s : St K, s.last = Seq.empty → (∀ q ∈ s.ended, q.logps = [] ∧ q.ents = [] ∧ q.rewards.length = 1) →
    s.ended.length + rs.length < c.batchsize →
    ∃ s', run c s (rs.map fun r => .stop r true) = .ok (s', []) ∧ s'.last = Seq.empty ∧ s'.nBackward = s.nBackward ∧
      (∀ q ∈ s'.ended, q.logps = [] ∧ q.ents = [] ∧ q.rewards.length = 1) ∧ s'.ended.length = s.ended.length + rs.length := by
  induction rs with
  | nil => intro s h1 h2 _; exact ⟨s, rfl, h1, rfl, h2, rfl⟩
  | cons r rs ih =>
    intro s h1 h2 h3
    rw [List.length_cons] at h3
    obtain ⟨s', e1, e2, e3, e4, e5⟩ := ih ⟨s.ended ++ [{ s.last with rewards := s.last.rewards ++ [r] }], Seq.empty, s.nBackward, s.acc⟩ rfl (by
      intro q hq
      rcases List.mem_append.1 hq with hq | hq
      · exact h2 q hq
      · rw [List.mem_singleton] at hq
        subst hq
        simp [h1, Seq.empty]) (by simp; omega)
    refine ⟨s', ?_, e2, e3, e4, by rw [e5]; simp; omega⟩
    have hne : ¬ s.ended.length + 1 = c.batchsize := by omega
    simp only [List.map_cons, run, step, if_true, stopDone, hc, Bool.false_eq_true, if_false, hne, pure, Except.pure, bind, Except.bind, e1, List.nil_append]

theorem losses_empty (beta : K) (l : List (Seq K)) (h : ∀ q ∈ l, q.logps = [] ∧ q.ents = [] ∧ q.rewards.length = 1) :
    l.mapM (seqLosses beta) = .ok (l.map fun _ => []) := by
  induction l with
  | nil => rfl
  | cons q l ih =>
    obtain ⟨h1, h2, h3⟩ := h q List.mem_cons_self
    have hq : seqLosses beta q = .ok [] := by
      simp [seqLosses, pyAssert, h1, h2, h3]
    rw [List.mapM_cons, hq, ih (fun q hq => h q (List.mem_cons_of_mem _ hq))]
    rfl

/-- **C54**: a batch all of whose episodes end before the first action cannot be learned from: the update raises, in both modes and for every batch size. -/
theorem C54_empty (c : Cfg K) (hn : 1 ≤ c.batchsize) (rs : List K) (hrs : rs.length = c.batchsize) :
    ∃ e, run c St.init (rs.map fun r => .stop r true) = .error e := by
  cases hc : c.separately with
  | true =>
    cases rs with
    | nil => simp at hrs; omega
    | cons r rs =>
      refine ⟨.indexError, ?_⟩
      simp [run, step, stopDone, hc, accumulateGrad, St.init, Seq.empty, seqLosses, pyAssert, sumArrays, bind, Except.bind, pure, Except.pure]
  | false =>
    rcases List.eq_nil_or_concat rs with rfl | ⟨l, r, rfl⟩
    · simp at hrs; omega
    · rw [List.concat_eq_append] at hrs ⊢
      rw [List.length_append, List.length_singleton] at hrs
      obtain ⟨s', e1, e2, e3, e4, e5⟩ := run_stops c hc l St.init rfl (by simp [St.init]) (by simp [St.init]; omega)
      have happ : ∀ (cs : List (Call K)) (s s1 : St K) (us : List K) (x : Call K) (e : PyErr), run c s cs = .ok (s1, us) → step c s1 x = .error e → run c s (cs ++ [x]) = .error e := by
        intro cs
        induction cs with
        | nil => intro s s1 us x e h1 h2; cases h1; simp only [List.nil_append, run, h2, bind, Except.bind]
        | cons y cs ih =>
          intro s s1 us x e h1 h2
          cases hy : step c s y with
          | error z => simp only [run, hy, bind, Except.bind] at h1; cases h1
          | ok z =>
            cases hz : run c z.1 cs with
            | error z' => simp only [run, hy, hz, bind, Except.bind] at h1; cases h1
            | ok z' =>
              simp only [run, hy, hz, bind, Except.bind, pure, Except.pure] at h1
              cases h1
              simp only [List.cons_append, run, hy, bind, Except.bind, ih _ _ _ _ _ hz h2]
      refine ⟨.indexError, ?_⟩
      rw [List.map_append]
      refine happ _ _ _ _ _ _ e1 ?_
      have h0 : (St.init : St K).ended.length = 0 := rfl
      have hb : s'.ended.length + 1 = c.batchsize := by omega
      have hnb : s'.nBackward = 0 := e3
      have hl : (s'.ended ++ [({ s'.last with rewards := s'.last.rewards ++ [r] } : Seq K)]).mapM (seqLosses c.beta) = .ok ((s'.ended ++ [({ s'.last with rewards := s'.last.rewards ++ [r] } : Seq K)]).map fun _ => []) := by
        apply losses_empty
        intro q hq
        rcases List.mem_append.1 hq with hq | hq
        · exact e4 q hq
        · rw [List.mem_singleton] at hq
          subst hq
          simp [e2, Seq.empty]
      simp only [step, if_true, stopDone, hc, Bool.false_eq_true, if_false, hb, batchUpdate, pyAssert, beq_self_eq_true, hnb, accumulateGrad, hl, bind, Except.bind]
      have : ((s'.ended ++ [({ s'.last with rewards := s'.last.rewards ++ [r] } : Seq K)]).map fun _ => ([] : List K)).flatten = [] := by simp
      rw [this]; rfl

end Verif.Reinforce
