import Mathlib.Data.List.Chain
import Mathlib.Tactic.ByContra
import Mathlib.Tactic.Linarith
import Mathlib.Tactic.NormNum
import Mathlib.Tactic.Positivity
import Mathlib.Tactic.FieldSimp
import Verif.Model.PPODataset
import Verif.Model.EmpiricalNorm
import Verif.Props.DQN
import Verif.Props.PPOData
import Mathlib.Analysis.Real.Sqrt
set_option autoImplicit false
set_option linter.unusedSectionVars false

/-! # C109: the data PPO and TRPO learn from -/

namespace Verif.PPODataset
variable {O F A D S : Type}

/-! ### Specification -/

/-- The recurrent state after a sequence of inputs. -/
def stateAfter {Y : Type} (cell : S → F → S × Y) (s : S) (xs : List F) : S := xs.foldl (fun s x => (cell s x).1) s

/-- Consecutive transitions of an episode, recorded while the recurrent network `cell` was acting on observations prepared
by `p`: the recurrent states are those the network went through, and each transition starts where the one before led. -/
structure Recorded {Y : Type} (cell : S → F → S × Y) (p : O → F) (ep : List (Tr O A S)) : Prop where
  next : ∀ t ∈ ep, t.nextRecurrentState = (cell t.recurrentState (p t.state)).1
  chain : ep.IsChain fun t t' => t'.recurrentState = t.nextRecurrentState ∧ t'.state = t.nextState

/-! ### Predictions -/

theorem annotate_append {ts ts' : List (Tr O A S)} : ∀ {ls vs ws ls' vs' ws' : List ℝ}, ls.length = ts.length →
    vs.length = ts.length → ws.length = ts.length →
    annotate (ts ++ ts') (ls ++ ls') (vs ++ vs') (ws ++ ws') = annotate ts ls vs ws ++ annotate ts' ls' vs' ws' := by
  induction ts with
  | nil =>
    intro ls vs ws ls' vs' ws' h1 h2 h3
    rw [List.length_nil, List.length_eq_zero_iff] at h1 h2 h3
    subst h1 h2 h3
    rfl
  | cons t ts ih =>
    intro ls vs ws ls' vs' ws' h1 h2 h3
    obtain ⟨l, ls, rfl⟩ := List.exists_cons_of_length_eq_add_one h1
    obtain ⟨v, vs, rfl⟩ := List.exists_cons_of_length_eq_add_one h2
    obtain ⟨w, ws, rfl⟩ := List.exists_cons_of_length_eq_add_one h3
    simp only [List.cons_append, annotate]
    rw [ih (by simpa using h1) (by simpa using h2) (by simpa using h3)]

theorem annotate_length {ts : List (Tr O A S)} : ∀ {ls vs ws : List ℝ}, ls.length = ts.length →
    vs.length = ts.length → ws.length = ts.length → (annotate ts ls vs ws).length = ts.length := by
  induction ts with
  | nil => intros; rfl
  | cons t ts ih =>
    intro ls vs ws h1 h2 h3
    obtain ⟨l, ls, rfl⟩ := List.exists_cons_of_length_eq_add_one h1
    obtain ⟨v, vs, rfl⟩ := List.exists_cons_of_length_eq_add_one h2
    obtain ⟨w, ws, rfl⟩ := List.exists_cons_of_length_eq_add_one h3
    simp only [annotate, List.length_cons]
    rw [ih (by simpa using h1) (by simpa using h2) (by simpa using h3)]

theorem annotate_get {ts : List (Tr O A S)} : ∀ {ls vs ws : List ℝ} (j : Nat) (t : Tr O A S) (l v w : ℝ), ts[j]? = some t →
    ls[j]? = some l → vs[j]? = some v → ws[j]? = some w → (annotate ts ls vs ws)[j]? = some ⟨t, l, v, w⟩ := by
  induction ts with
  | nil => intro ls vs ws j t l v w h; simp at h
  | cons t ts ih =>
    intro ls vs ws j t' l v w h h1 h2 h3
    cases ls with
    | nil => simp at h1
    | cons l0 ls =>
      cases vs with
      | nil => simp at h2
      | cons v0 vs =>
        cases ws with
        | nil => simp at h3
        | cons w0 ws =>
          cases j with
          | zero => simp only [List.getElem?_cons_zero, Option.some.injEq] at h h1 h2 h3; subst h h1 h2 h3; rfl
          | succ j =>
            simp only [List.getElem?_cons_succ] at h h1 h2 h3
            simp only [annotate, List.getElem?_cons_succ]
            exact ih j t' l v w h h1 h2 h3

/-- One episode with its predictions `ys` and `zs`. -/
def annEp (logProb : D → A → ℝ) (ep : List (Tr O A S)) (ys zs : List (D × ℝ)) : List (Ann O A S) :=
  annotate ep (List.zipWith logProb (ys.map fun y => y.1) (ep.map fun b => b.action)) (ys.map fun y => y.2)
    (zs.map fun y => y.2)

theorem regroup_flat (logProb : D → A → ℝ) (u w : List (Tr O A S) → List (D × ℝ)) :
    ∀ (eps : List (List (Tr O A S))), (∀ ep ∈ eps, (u ep).length = ep.length ∧ (w ep).length = ep.length) →
    regroup (eps.map List.length) (annEp logProb eps.flatten (eps.map u).flatten (eps.map w).flatten) =
      eps.map fun ep => annEp logProb ep (u ep) (w ep)
  | [], _ => rfl
  | ep :: eps, h => by
    obtain ⟨h1, h2⟩ := h ep List.mem_cons_self
    have e : annEp logProb (ep :: eps).flatten ((ep :: eps).map u).flatten ((ep :: eps).map w).flatten =
        annEp logProb ep (u ep) (w ep) ++ annEp logProb eps.flatten (eps.map u).flatten (eps.map w).flatten := by
      unfold annEp
      simp only [List.flatten_cons, List.map_cons, List.map_append]
      rw [List.zipWith_append (by simp [h1]), annotate_append (by simp [h1]) (by simp [h1]) (by simp [h2])]
    have hl : (annEp logProb ep (u ep) (w ep)).length = ep.length :=
      annotate_length (by simp [h1]) (by simp [h1]) (by simp [h2])
    rw [e, List.map_cons, regroup, List.take_left' hl, List.drop_left' hl,
      regroup_flat logProb u w eps fun x hx => h x (List.mem_cons_of_mem _ hx), List.map_cons]

theorem annEp_map (logProb : D → A → ℝ) (f g : Tr O A S → D × ℝ) : ∀ ep : List (Tr O A S),
    annEp logProb ep (ep.map f) (ep.map g) = ep.map fun t => ⟨t, logProb (f t).1 t.action, (f t).2, (g t).2⟩
  | [] => rfl
  | t :: ep => by
    have ih := annEp_map logProb f g ep
    unfold annEp at ih ⊢
    simp only [List.map_cons, List.zipWith_cons_cons, annotate, ih]

/-- **C109**: without recurrence, every transition of every episode gets the log probability of its own action and the value
of its own state, and the value of its own next state, all as the current network gives them. -/
theorem C109_plain (phi : O → F) (norm : Option (F → F)) (net : F → D × ℝ) (logProb : D → A → ℝ)
    (episodes : List (List (Tr O A S))) :
    addPlain phi norm net logProb episodes = episodes.map fun ep => ep.map fun t =>
      { tr := t, logProb := logProb (net (pre phi norm t.state)).1 t.action, vPred := (net (pre phi norm t.state)).2,
        nextVPred := (net (pre phi norm t.nextState)).2 } := by
  have h := regroup_flat logProb (fun ep : List (Tr O A S) => ep.map fun t => net (pre phi norm t.state))
    (fun ep => ep.map fun t => net (pre phi norm t.nextState)) episodes fun ep _ => by simp
  simp only [annEp_map] at h
  rw [← h]
  unfold addPlain annEp
  simp only [List.map_map, ← List.map_flatten]
  rfl

theorem forwardSeq_length {Y : Type} (cell : S → F → S × Y) : ∀ (xs : List F) (s : S), (forwardSeq cell s xs).length = xs.length
  | [], _ => rfl
  | x :: xs, s => by rw [forwardSeq, List.length_cons, forwardSeq_length cell xs, List.length_cons]

theorem forwardSeq_get {Y : Type} (cell : S → F → S × Y) : ∀ (xs : List F) (s : S) (j : Nat) (x : F), xs[j]? = some x →
    (forwardSeq cell s xs)[j]? = some (cell (stateAfter cell s (xs.take j)) x).2
  | [], _, j, x, h => by simp at h
  | x :: xs, s, 0, x', h => by
    simp only [List.getElem?_cons_zero, Option.some.injEq] at h
    subst h
    rfl
  | x :: xs, s, j + 1, x', h => by
    rw [forwardSeq, List.getElem?_cons_succ, forwardSeq_get cell xs _ j x' (by simpa using h), List.take_succ_cons]
    rfl

theorem mapM_first {α : Type} : ∀ (eps : List (List α)), (∀ ep ∈ eps, ep ≠ []) →
    ∃ l, (eps.mapM fun ep => pyGet ep 0) = .ok l ∧ eps.map List.head? = l.map some
  | [], _ => ⟨[], rfl, rfl⟩
  | ep :: eps, h => by
    obtain ⟨l, h1, h2⟩ := mapM_first eps fun x hx => h x (List.mem_cons_of_mem _ hx)
    cases ep with
    | nil => exact absurd rfl (h [] List.mem_cons_self)
    | cons t ep =>
      refine ⟨t :: l, ?_, by simp [h2]⟩
      have : pyGet (t :: ep) 0 = .ok t := by simp [pyGet, pyIndex]
      simp only [List.mapM_cons, this, h1, bind, Except.bind, pure, Except.pure]

/-- A sequence run from the recurrent state found in its first element. -/
def fromFirst {α Y : Type} (cell : S → F → S × Y) (rs : α → S) (f : List α → List F) : List α → List Y
  | [] => []
  | t :: ep => forwardSeq cell (rs t) (f (t :: ep))

theorem nStep_eq {α Y : Type} (cell : S → F → S × Y) (rs : α → S) (f : List α → List F) : ∀ (eps : List (List α)) (l : List α),
    eps.map List.head? = l.map some →
    nStepForward cell (l.map rs) (eps.map f) =
      (eps.map (fromFirst cell rs f)).flatten
  | [], [], _ => rfl
  | [], _ :: _, h => by simp at h
  | _ :: _, [], h => by simp at h
  | ep :: eps, t :: l, h => by
    simp only [List.map_cons, List.cons.injEq] at h
    have ih := nStep_eq cell rs f eps l h.2
    unfold nStepForward at ih ⊢
    simp only [List.map_cons, List.zipWith_cons_cons, List.flatten_cons, ih]
    cases ep with
    | nil => simp at h
    | cons a ep => simp only [List.head?_cons, Option.some.injEq] at h; rw [← h.1]; rfl

/-- What `addRecurrent` computes for an episode that starts with `t0`. -/
def recEp (phi : O → F) (norm : Option (F → F)) (cell : S → F → S × (D × ℝ)) (logProb : D → A → ℝ) (ep : List (Tr O A S)) :
    List (Ann O A S) :=
  annEp logProb ep
    (fromFirst cell (fun t => t.recurrentState) (fun ep => ep.map fun t => pre phi norm t.state) ep)
    (fromFirst cell (fun t => t.nextRecurrentState) (fun ep => ep.map fun t => pre phi norm t.nextState) ep)

theorem addRecurrent_eq (phi : O → F) (norm : Option (F → F)) (cell : S → F → S × (D × ℝ)) (logProb : D → A → ℝ)
    (episodes : List (List (Tr O A S))) (hne : ∀ ep ∈ episodes, ep ≠ []) :
    addRecurrent phi norm cell logProb episodes = .ok (episodes.map (recEp phi norm cell logProb)) := by
  obtain ⟨l, h1, h2⟩ := mapM_first episodes hne
  have e1 := nStep_eq cell (fun t : Tr O A S => t.recurrentState) (fun ep => ep.map fun t => pre phi norm t.state) episodes l h2
  have e2 := nStep_eq cell (fun t : Tr O A S => t.nextRecurrentState) (fun ep => ep.map fun t => pre phi norm t.nextState)
    episodes l h2
  unfold addRecurrent
  rw [h1]
  show Except.ok (regroup _ (annotate _ _ _ _)) = _
  rw [e1, e2]
  congr 1
  refine regroup_flat logProb
    (fromFirst cell (fun t : Tr O A S => t.recurrentState) fun ep => ep.map fun t => pre phi norm t.state)
    (fromFirst cell (fun t : Tr O A S => t.nextRecurrentState) fun ep => ep.map fun t => pre phi norm t.nextState) episodes fun ep hep => ?_
  cases ep with
  | nil => exact absurd rfl (hne [] hep)
  | cons t ep => exact ⟨by simp [fromFirst, forwardSeq_length], by simp [fromFirst, forwardSeq_length]⟩

/-- **C109**: with a recurrent network, every transition gets the log probability of its own action and the value of its own
state after the states before it in its episode, starting from the recurrent state recorded with the episode's first
transition; and likewise the value of its next state. -/
theorem C109_recurrent (phi : O → F) (norm : Option (F → F)) (cell : S → F → S × (D × ℝ)) (logProb : D → A → ℝ)
    (episodes : List (List (Tr O A S))) (hne : ∀ ep ∈ episodes, ep ≠ []) :
    ∃ out, addRecurrent phi norm cell logProb episodes = .ok out ∧ out.length = episodes.length ∧
      ∀ (i : Nat) ep t0, episodes[i]? = some ep → ep[0]? = some t0 → ∃ ep', out[i]? = some ep' ∧ ep'.length = ep.length ∧
        ∀ (j : Nat) t, ep[j]? = some t → ∃ b, ep'[j]? = some b ∧ b.tr = t ∧
          (let y := (cell (stateAfter cell t0.recurrentState ((ep.take j).map fun t => pre phi norm t.state))
              (pre phi norm t.state)).2
           b.logProb = logProb y.1 t.action ∧ b.vPred = y.2) ∧
          b.nextVPred = (cell (stateAfter cell t0.nextRecurrentState ((ep.take j).map fun t => pre phi norm t.nextState))
            (pre phi norm t.nextState)).2.2 := by
  refine ⟨_, addRecurrent_eq phi norm cell logProb episodes hne, by simp, ?_⟩
  intro i ep t0 hi h0
  refine ⟨_, by rw [List.getElem?_map, hi]; rfl, ?_, ?_⟩
  · cases ep with
    | nil => simp at h0
    | cons t ep => 
      exact annotate_length (by simp [fromFirst, forwardSeq_length]) (by simp [fromFirst, forwardSeq_length])
        (by simp [fromFirst, forwardSeq_length])
  · intro j t hj
    have hh : ∃ ep', ep = t0 :: ep' := by
      cases ep with
      | nil => simp at h0
      | cons a ep => simp at h0; exact ⟨ep, by rw [h0]⟩
    obtain ⟨ep', hh⟩ := hh
    have g1 := forwardSeq_get cell (ep.map fun t => pre phi norm t.state) t0.recurrentState j (pre phi norm t.state)
      (by rw [List.getElem?_map, hj]; rfl)
    have g2 := forwardSeq_get cell (ep.map fun t => pre phi norm t.nextState) t0.nextRecurrentState j (pre phi norm t.nextState)
      (by rw [List.getElem?_map, hj]; rfl)
    rw [← List.map_take] at g1 g2
    subst hh
    unfold recEp annEp
    simp only [fromFirst]
    refine ⟨_, annotate_get j t _ _ _ hj ?_ ?_ ?_, rfl, ⟨rfl, rfl⟩, rfl⟩
    · rw [List.getElem?_zipWith, List.getElem?_map, g1, List.getElem?_map, hj]; rfl
    · rw [List.getElem?_map, g1]; rfl
    · rw [List.getElem?_map, g2]; rfl

/-! ### Predictions are those made while acting -/

theorem recorded_states {Y : Type} (cell : S → F → S × Y) (p : O → F) : ∀ (ep : List (Tr O A S)) (t0 : Tr O A S),
    ep[0]? = some t0 → Recorded cell p ep → ∀ (j : Nat) t, ep[j]? = some t →
    stateAfter cell t0.recurrentState ((ep.take j).map fun t => p t.state) = t.recurrentState ∧
    stateAfter cell t0.nextRecurrentState ((ep.take j).map fun t => p t.nextState) = t.nextRecurrentState
  | [], t0, h0, _, j, t, _ => by simp at h0
  | a :: ep, t0, h0, hr, 0, t, h => by
    simp only [List.getElem?_cons_zero, Option.some.injEq] at h h0
    subst h h0
    exact ⟨rfl, rfl⟩
  | a :: ep, t0, h0, hr, j + 1, t, h => by
    simp only [List.getElem?_cons_zero, Option.some.injEq] at h0
    subst h0
    cases ep with
    | nil => simp at h
    | cons b ep =>
      have hc := List.isChain_cons_cons.1 hr.chain
      have hr' : Recorded cell p (b :: ep) := ⟨fun t ht => hr.next t (List.mem_cons_of_mem _ ht), hc.2⟩
      obtain ⟨i1, i2⟩ := recorded_states cell p (b :: ep) b rfl hr' j t (by simpa using h)
      have n1 := hr.next a List.mem_cons_self
      have n2 := hr.next b (by simp)
      constructor
      · rw [← i1, hc.1.1, n1, List.take_succ_cons, List.map_cons]
        rfl
      · rw [← i2, n2, hc.1.1, hc.1.2, List.take_succ_cons, List.map_cons]
        rfl

theorem recEp_recorded (phi : O → F) (norm : Option (F → F)) (cell : S → F → S × (D × ℝ)) (logProb : D → A → ℝ)
    (ep : List (Tr O A S)) (hr : Recorded cell (pre phi norm) ep) :
    recEp phi norm cell logProb ep = ep.map fun t =>
      let y := (cell t.recurrentState (pre phi norm t.state)).2
      { tr := t, logProb := logProb y.1 t.action, vPred := y.2,
        nextVPred := (cell t.nextRecurrentState (pre phi norm t.nextState)).2.2 } := by
  cases ep with
  | nil => rfl
  | cons t0 ep =>
    have e1 : forwardSeq cell t0.recurrentState ((t0 :: ep).map fun t => pre phi norm t.state) =
        (t0 :: ep).map fun t => (cell t.recurrentState (pre phi norm t.state)).2 := by
      apply List.ext_getElem?
      intro j
      rcases hj : (t0 :: ep)[j]? with _ | t
      · rw [List.getElem?_map, hj]
        rw [List.getElem?_eq_none_iff] at hj
        rw [Option.map_none, List.getElem?_eq_none_iff, forwardSeq_length]
        simpa using hj
      · rw [forwardSeq_get cell _ _ j (pre phi norm t.state) (by rw [List.getElem?_map, hj]; rfl), ← List.map_take,
          (recorded_states cell (pre phi norm) (t0 :: ep) t0 rfl hr j t hj).1, List.getElem?_map, hj]
        rfl
    have e2 : forwardSeq cell t0.nextRecurrentState ((t0 :: ep).map fun t => pre phi norm t.nextState) =
        (t0 :: ep).map fun t => (cell t.nextRecurrentState (pre phi norm t.nextState)).2 := by
      apply List.ext_getElem?
      intro j
      rcases hj : (t0 :: ep)[j]? with _ | t
      · rw [List.getElem?_map, hj]
        rw [List.getElem?_eq_none_iff] at hj
        rw [Option.map_none, List.getElem?_eq_none_iff, forwardSeq_length]
        simpa using hj
      · rw [forwardSeq_get cell _ _ j (pre phi norm t.nextState) (by rw [List.getElem?_map, hj]; rfl), ← List.map_take,
          (recorded_states cell (pre phi norm) (t0 :: ep) t0 rfl hr j t hj).2, List.getElem?_map, hj]
        rfl
    unfold recEp
    simp only [fromFirst]
    rw [e1, e2, annEp_map]

/-- **C109**: for episodes recorded while the same network was acting, log probabilities and values are exactly those it gave
when it selected the actions, and the value of a next state is the value of the following transition's state. -/
theorem C109_behaviour (phi : O → F) (norm : Option (F → F)) (cell : S → F → S × (D × ℝ)) (logProb : D → A → ℝ)
    (episodes : List (List (Tr O A S))) (hne : ∀ ep ∈ episodes, ep ≠ [])
    (hr : ∀ ep ∈ episodes, Recorded cell (pre phi norm) ep) :
    ∃ out, addRecurrent phi norm cell logProb episodes = .ok out ∧
      out = (episodes.map fun ep => ep.map fun t =>
        { tr := t, logProb := logProb (cell t.recurrentState (pre phi norm t.state)).2.1 t.action,
          vPred := (cell t.recurrentState (pre phi norm t.state)).2.2,
          nextVPred := (cell t.nextRecurrentState (pre phi norm t.nextState)).2.2 }) ∧
      ∀ ep ∈ out, ep.IsChain fun b b' => b.nextVPred = b'.vPred := by
  have e : episodes.map (recEp phi norm cell logProb) = episodes.map fun ep => ep.map fun t =>
        { tr := t, logProb := logProb (cell t.recurrentState (pre phi norm t.state)).2.1 t.action,
          vPred := (cell t.recurrentState (pre phi norm t.state)).2.2,
          nextVPred := (cell t.nextRecurrentState (pre phi norm t.nextState)).2.2 } :=
    List.map_congr_left fun ep hep => recEp_recorded phi norm cell logProb ep (hr ep hep)
  refine ⟨_, addRecurrent_eq phi norm cell logProb episodes hne, e, ?_⟩
  rw [e]
  intro ep' hep'
  obtain ⟨ep, hep, rfl⟩ := List.mem_map.1 hep'
  rw [List.isChain_map]
  refine (hr ep hep).chain.imp fun t t' h => ?_
  show (cell t.nextRecurrentState (pre phi norm t.nextState)).2.2 = (cell t'.recurrentState (pre phi norm t'.state)).2.2
  rw [h.1, h.2]

/-! ### Advantages -/

/-- **C109**: an advantage is the discounted sum, with factor `gamma * lambd`, of the temporal difference errors from that
transition to the end of its episode, and the value target is the advantage plus the predicted value; no transition is
dropped, repeated or moved. -/
theorem C109_advantages (gamma lambd : ℝ) (episodes : List (List (Ann O A S))) :
    (addAdvantages gamma lambd episodes).map (fun ep => ep.map fun b => b.ann) = episodes ∧
    ∀ (i : Nat) ep, episodes[i]? = some ep → ∃ out, (addAdvantages gamma lambd episodes)[i]? = some out ∧
      ∀ (j : Nat) b, ep[j]? = some b → ∃ adv, out[j]? = some ⟨b, adv, adv + b.vPred⟩ ∧
        adv = discounted (gamma * lambd) ((ep.drop j).map fun b =>
          b.tr.reward + gamma * b.tr.nonterminal * b.nextVPred - b.vPred) := by
  constructor
  · unfold addAdvantages
    rw [List.map_map]
    conv_rhs => rw [← List.map_id episodes]
    refine List.map_congr_left fun ep _ => ?_
    have hl : (PPOData.addAdvantage gamma lambd (ep.map Ann.toV)).1.length = ep.length := by
      rw [(PPOData.C49_gae gamma lambd (ep.map Ann.toV)).1, List.length_map]
    have key : ∀ (l : List (Ann O A S)) (m : List (ℝ × ℝ)), m.length = l.length →
        (List.zipWith (fun a r => (⟨a, r.1, r.2⟩ : Full O A S)) l m).map (fun b => b.ann) = l := by
      intro l
      induction l with
      | nil => intros; rfl
      | cons a l ih =>
        intro m hm
        obtain ⟨x, m, rfl⟩ := List.exists_cons_of_length_eq_add_one hm
        rw [List.zipWith_cons_cons, List.map_cons, ih m (by simpa using hm)]
    exact key ep _ hl
  · intro i ep hi
    refine ⟨_, by unfold addAdvantages; rw [List.getElem?_map, hi]; rfl, ?_⟩
    intro j b hj
    obtain ⟨adv, h1, h2⟩ := (PPOData.C49_gae gamma lambd (ep.map Ann.toV)).2 j b.toV (by rw [List.getElem?_map, hj]; rfl)
    refine ⟨adv, ?_, ?_⟩
    · rw [List.getElem?_zipWith, hj, h1]
      rfl
    · rw [h2, ← List.map_drop, List.map_map]
      rfl

/-- **C109**: the dataset of a network without recurrence: every transition of every episode once, in order, with the
network's predictions for it. -/
theorem C109_dataset (phi : O → F) (norm : Option (F → F)) (net : F → D × ℝ) (logProb : D → A → ℝ) (gamma lambd : ℝ)
    (episodes : List (List (Tr O A S))) :
    (makeDataset phi norm net logProb gamma lambd episodes).map (fun b => b.ann) = episodes.flatten.map fun t =>
      { tr := t, logProb := logProb (net (pre phi norm t.state)).1 t.action, vPred := (net (pre phi norm t.state)).2,
        nextVPred := (net (pre phi norm t.nextState)).2 } := by
  unfold makeDataset
  have h := (C109_advantages gamma lambd (addPlain phi norm net logProb episodes)).1
  rw [List.map_flatten, h, C109_plain, ← List.map_flatten]

/-- **C109**: as long as neither the network nor the normalizer has changed, the log probabilities computed in an update for
any minibatch of the dataset are the ones stored in it: all probability ratios are one. -/
theorem C109_ratio_one (phi : O → F) (norm : Option (F → F)) (net : F → D × ℝ) (logProb : D → A → ℝ) (gamma lambd : ℝ)
    (episodes : List (List (Tr O A S))) (batch : List (Full O A S))
    (hb : ∀ b ∈ batch, b ∈ makeDataset phi norm net logProb gamma lambd episodes) :
    updateLogProbs phi norm net logProb batch = batch.map fun b => b.ann.logProb := by
  have hg : ∀ b ∈ batch, b.ann.logProb = logProb (net (pre phi norm b.ann.tr.state)).1 b.ann.tr.action := by
    intro b h
    have hm : b.ann ∈ (makeDataset phi norm net logProb gamma lambd episodes).map fun b => b.ann :=
      List.mem_map_of_mem (f := fun b : Full O A S => b.ann) (hb b h)
    rw [C109_dataset] at hm
    obtain ⟨t, -, ht⟩ := List.mem_map.1 hm
    rw [← ht]
  clear hb
  unfold updateLogProbs
  induction batch with
  | nil => rfl
  | cons b batch ih =>
    have ih := ih fun x hx => hg x (List.mem_cons_of_mem _ hx)
    simp only [List.map_cons, List.zipWith_cons_cons] at ih ⊢
    rw [ih, ← hg b List.mem_cons_self]

theorem recorded_infix {Y : Type} {cell : S → F → S × Y} {p : O → F} {ep ep' : List (Tr O A S)} (h : Recorded cell p ep)
    (hi : ep' <:+: ep) : Recorded cell p ep' := ⟨fun t ht => h.next t (hi.subset ht), h.chain.infix hi⟩

theorem fromFirst_recorded {Y : Type} (cell : S → F → S × Y) (p : O → F) : ∀ (ep : List (Full O A S)),
    Recorded cell p (ep.map fun b => b.ann.tr) →
    fromFirst cell (fun b : Full O A S => b.ann.tr.recurrentState) (fun ep => ep.map fun b => p b.ann.tr.state) ep =
      ep.map fun b => (cell b.ann.tr.recurrentState (p b.ann.tr.state)).2
  | [], _ => rfl
  | b0 :: ep, hr => by
    apply List.ext_getElem?
    intro j
    simp only [fromFirst]
    rcases hj : (b0 :: ep)[j]? with _ | b
    · rw [List.getElem?_map, hj]
      rw [List.getElem?_eq_none_iff] at hj
      rw [Option.map_none, List.getElem?_eq_none_iff, forwardSeq_length]
      simpa using hj
    · rw [forwardSeq_get cell _ _ j (p b.ann.tr.state) (by rw [List.getElem?_map, hj]; rfl)]
      have := (recorded_states cell p _ b0.ann.tr rfl hr j b.ann.tr (by rw [List.getElem?_map, hj]; rfl)).1
      rw [← List.map_take, List.map_map] at this
      rw [← List.map_take]
      have this' : stateAfter cell b0.ann.tr.recurrentState (List.map (fun b => p b.ann.tr.state) (List.take j (b0 :: ep))) =
        b.ann.tr.recurrentState := this
      rw [this', List.getElem?_map, hj]
      rfl

theorem infix_flatten {α : Type} {l : List α} {L : List (List α)} (h : l ∈ L) : l <:+: L.flatten := by
  obtain ⟨L1, L2, rfl⟩ := List.append_of_mem h
  exact ⟨L1.flatten, L2.flatten, by simp⟩

/-- The dataset of a recurrent network, before sequences are cut. -/
theorem fullEps_spec (phi : O → F) (norm : Option (F → F)) (cell : S → F → S × (D × ℝ)) (logProb : D → A → ℝ)
    (gamma lambd : ℝ) (episodes : List (List (Tr O A S))) (hr : ∀ ep ∈ episodes, Recorded cell (pre phi norm) ep) :
    (addAdvantages gamma lambd (episodes.map (recEp phi norm cell logProb))).map (fun ep => ep.map fun b => b.ann.tr) = episodes ∧
    ∀ ep ∈ addAdvantages gamma lambd (episodes.map (recEp phi norm cell logProb)),
      Recorded cell (pre phi norm) (ep.map fun b => b.ann.tr) ∧ ∀ b ∈ ep,
        b.ann.logProb = logProb (cell b.ann.tr.recurrentState (pre phi norm b.ann.tr.state)).2.1 b.ann.tr.action := by
  have e : episodes.map (recEp phi norm cell logProb) = episodes.map fun ep => ep.map fun t =>
        { tr := t, logProb := logProb (cell t.recurrentState (pre phi norm t.state)).2.1 t.action,
          vPred := (cell t.recurrentState (pre phi norm t.state)).2.2,
          nextVPred := (cell t.nextRecurrentState (pre phi norm t.nextState)).2.2 } :=
    List.map_congr_left fun ep hep => recEp_recorded phi norm cell logProb ep (hr ep hep)
  have ha := (C109_advantages gamma lambd (episodes.map (recEp phi norm cell logProb))).1
  have ht : (addAdvantages gamma lambd (episodes.map (recEp phi norm cell logProb))).map
      (fun ep => ep.map fun b => b.ann.tr) = episodes := by
    have := congrArg (List.map (List.map fun a : Ann O A S => a.tr)) ha
    rw [List.map_map] at this
    have e2 : (List.map (List.map fun a : Ann O A S => a.tr)) (episodes.map (recEp phi norm cell logProb)) = episodes := by
      rw [e, List.map_map]
      conv_rhs => rw [← List.map_id episodes]
      refine List.map_congr_left fun ep _ => ?_
      simp [Function.comp_def]
    rw [e2] at this
    refine Eq.trans (List.map_congr_left fun ep _ => ?_) this
    simp [Function.comp_def]
  refine ⟨ht, ?_⟩
  intro ep hep
  constructor
  · refine hr _ ?_
    rw [← ht]
    exact List.mem_map_of_mem (f := fun ep : List (Full O A S) => ep.map fun b => b.ann.tr) hep
  · intro b hb
    have h1 : (ep.map fun b => b.ann) ∈ episodes.map (recEp phi norm cell logProb) := by
      rw [← ha]
      exact List.mem_map_of_mem (f := fun ep : List (Full O A S) => ep.map fun b => b.ann) hep
    rw [e] at h1
    obtain ⟨ep0, -, h2⟩ := List.mem_map.1 h1
    have h3 : b.ann ∈ ep.map fun b => b.ann := List.mem_map_of_mem (f := fun b : Full O A S => b.ann) hb
    rw [← h2] at h3
    obtain ⟨t, -, h4⟩ := List.mem_map.1 h3
    rw [← h4]

/-- **C109**: the dataset of a recurrent network holds every transition once, in order, in sequences no longer than the
limit; and as long as neither the network nor the normalizer has changed, the log probabilities computed in an update for any
minibatch of pieces of these sequences are the stored ones, although the network is then run from the recurrent state
recorded with the first transition of each piece and not from the start of the episode. -/
theorem C109_ratio_one_recurrent (phi : O → F) (norm : Option (F → F)) (cell : S → F → S × (D × ℝ)) (logProb : D → A → ℝ)
    (gamma lambd : ℝ) (maxLen : Option Nat) (hm : ∀ m, maxLen = some m → 0 < m) (episodes : List (List (Tr O A S)))
    (hne : ∀ ep ∈ episodes, ep ≠ []) (hr : ∀ ep ∈ episodes, Recorded cell (pre phi norm) ep) :
    ∃ ds, makeDatasetRecurrent phi norm cell logProb gamma lambd maxLen episodes = .ok ds ∧
      ds.flatten.map (fun b => b.ann.tr) = episodes.flatten ∧
      (∀ m, maxLen = some m → ∀ q ∈ ds, q.length ≤ m) ∧
      ∀ batch : List (List (Full O A S)), (∀ p ∈ batch, p ≠ [] ∧ ∃ q ∈ ds, p <:+: q) →
        updateLogProbsRecurrent phi norm cell logProb batch = .ok (batch.flatten.map fun b => b.ann.logProb) := by
  obtain ⟨ht, hg⟩ := fullEps_spec phi norm cell logProb gamma lambd episodes hr
  generalize hE : addAdvantages gamma lambd (episodes.map (recEp phi norm cell logProb)) = eps at ht hg
  have hadd := addRecurrent_eq phi norm cell logProb episodes hne
  have hneE : ∀ s ∈ eps, s ≠ [] := by
    intro s hs e
    subst e
    refine hne [] ?_ rfl
    rw [← ht]
    exact List.mem_map_of_mem (f := fun ep : List (Full O A S) => ep.map fun b => b.ann.tr) hs
  have hfl : eps.flatten.map (fun b => b.ann.tr) = episodes.flatten := by
    rw [List.map_flatten, ht]
  have hds : ∃ ds, makeDatasetRecurrent phi norm cell logProb gamma lambd maxLen episodes = .ok ds ∧
      ds.flatten = eps.flatten ∧ (∀ m, maxLen = some m → ∀ q ∈ ds, q.length ≤ m) ∧ ∀ q ∈ ds, ∃ ep ∈ eps, q <:+: ep := by
    unfold makeDatasetRecurrent
    rw [hadd]
    show ∃ ds, (match maxLen with
      | some m => PPOData.limitSequenceLength (addAdvantages gamma lambd (episodes.map (recEp phi norm cell logProb))) m
      | none => .ok (addAdvantages gamma lambd (episodes.map (recEp phi norm cell logProb)))) = .ok ds ∧ _
    rw [hE]
    cases maxLen with
    | none => exact ⟨eps, rfl, rfl, by simp, fun q hq => ⟨q, hq, List.infix_rfl⟩⟩
    | some m =>
      obtain ⟨pss, h1, h2, h3⟩ := PPOData.C51_limit m (hm m rfl) eps hneE
      refine ⟨pss.flatten, h1, ?_, ?_, ?_⟩
      · rw [← h2, List.flatten_flatten]
      · intro m' e q hq
        cases e
        obtain ⟨ps, hps, hq⟩ := List.mem_flatten.1 hq
        exact ((h3 ps hps).1 q hq).2
      · intro q hq
        obtain ⟨ps, hps, hq⟩ := List.mem_flatten.1 hq
        refine ⟨ps.flatten, ?_, infix_flatten hq⟩
        rw [← h2]
        exact List.mem_map_of_mem (f := List.flatten) hps
  obtain ⟨ds, h1, h2, h3, h4⟩ := hds
  refine ⟨ds, h1, by rw [h2, hfl], h3, ?_⟩
  intro batch hb
  have hb' : ∀ p ∈ batch, p ≠ [] ∧ Recorded cell (pre phi norm) (p.map fun b => b.ann.tr) ∧ ∀ b ∈ p,
      b.ann.logProb = logProb (cell b.ann.tr.recurrentState (pre phi norm b.ann.tr.state)).2.1 b.ann.tr.action := by
    intro p hp
    obtain ⟨hp0, q, hq, hpq⟩ := hb p hp
    obtain ⟨ep, hep, hqe⟩ := h4 q hq
    have hpe := hpq.trans hqe
    exact ⟨hp0, recorded_infix (hg ep hep).1 (hpe.map _), fun b hbp => (hg ep hep).2 b (hpe.subset hbp)⟩
  clear hb
  obtain ⟨l, g1, g2⟩ := mapM_first batch fun p hp => (hb' p hp).1
  unfold updateLogProbsRecurrent
  rw [g1]
  show Except.ok _ = _
  rw [nStep_eq cell (fun b : Full O A S => b.ann.tr.recurrentState) (fun ep => ep.map fun b => pre phi norm b.ann.tr.state)
    batch l g2]
  congr 1
  have : batch.map (fromFirst cell (fun b : Full O A S => b.ann.tr.recurrentState)
      fun ep => ep.map fun b => pre phi norm b.ann.tr.state) =
      batch.map fun ep => ep.map fun b => (cell b.ann.tr.recurrentState (pre phi norm b.ann.tr.state)).2 :=
    List.map_congr_left fun p hp => fromFirst_recorded cell (pre phi norm) p (hb' p hp).2.1
  rw [this, ← List.map_flatten]
  have hall : ∀ b ∈ batch.flatten,
      b.ann.logProb = logProb (cell b.ann.tr.recurrentState (pre phi norm b.ann.tr.state)).2.1 b.ann.tr.action := by
    intro b h
    obtain ⟨p, hp, hbp⟩ := List.mem_flatten.1 h
    exact (hb' p hp).2.2 b hbp
  clear this hb' g1 g2
  generalize batch.flatten = bs at hall
  induction bs with
  | nil => rfl
  | cons b bs ih =>
    have ih := ih fun x hx => hall x (List.mem_cons_of_mem _ hx)
    simp only [List.map_cons, List.zipWith_cons_cons] at ih ⊢
    rw [ih, ← hall b List.mem_cons_self]

/-! ### Explained variance -/

theorem var_nonneg (xs : List ℝ) : 0 ≤ var xs := by
  unfold var mean
  refine div_nonneg (List.sum_nonneg fun x hx => ?_) (by positivity)
  obtain ⟨y, -, rfl⟩ := List.mem_map.1 hx
  positivity

theorem mean_const (c : ℝ) (xs : List ℝ) (hx : xs ≠ []) (h : ∀ x ∈ xs, x = c) : mean xs = c := by
  have : xs = List.replicate xs.length c := List.eq_replicate_of_mem h
  unfold mean
  rw [this, List.sum_replicate, List.length_replicate, nsmul_eq_mul]
  have : (xs.length : ℝ) ≠ 0 := by
    simpa using hx
  field_simp

theorem var_eq_zero (xs : List ℝ) : var xs = 0 ↔ ∃ c, ∀ x ∈ xs, x = c := by
  by_cases hx : xs = []
  · subst hx
    exact ⟨fun _ => ⟨0, by simp⟩, fun _ => by simp [var, mean]⟩
  have hl : (xs.length : ℝ) ≠ 0 := by simpa using hx
  constructor
  · intro h
    refine ⟨mean xs, fun x hxm => ?_⟩
    unfold var at h
    generalize hm : mean xs = m at h ⊢
    unfold mean at h
    rw [List.length_map, div_eq_zero_iff] at h
    have h0 : (xs.map fun x => (x - m) ^ 2).sum = 0 := h.resolve_right hl
    have hle := List.single_le_sum (l := xs.map fun x => (x - m) ^ 2) (by
      intro y hy
      obtain ⟨z, -, rfl⟩ := List.mem_map.1 hy
      positivity) _ (List.mem_map_of_mem (f := fun x => (x - m) ^ 2) hxm)
    rw [h0] at hle
    have : (x - m) ^ 2 = 0 := le_antisymm hle (by positivity)
    have := pow_eq_zero_iff (two_ne_zero) |>.1 this
    linarith
  · rintro ⟨c, h⟩
    have hm := mean_const c xs hx h
    unfold var
    rw [hm]
    refine mean_const 0 _ (by simpa using hx) ?_
    intro y hy
    obtain ⟨x, hx, rfl⟩ := List.mem_map.1 hy
    rw [h x hx]
    simp

theorem zip_sub (l : List (Full O A S)) : List.zipWith (· - ·) (l.map fun tr => tr.vTeacher) (l.map fun tr => tr.ann.vPred) =
    l.map fun b => b.vTeacher - b.ann.vPred := by
  induction l with
  | nil => rfl
  | cons a l ih => simp only [List.map_cons, List.zipWith_cons_cons, ih]

theorem var_shift (c : ℝ) (xs : List ℝ) (hx : xs ≠ []) : var (xs.map fun x => x - c) = var xs := by
  have hl : (xs.length : ℝ) ≠ 0 := by simpa using hx
  have hs : ∀ l : List ℝ, (l.map fun x => x - c).sum = l.sum - l.length * c := by
    intro l
    induction l with
    | nil => simp
    | cons a l ih =>
      simp only [List.map_cons, List.sum_cons, ih, List.length_cons, Nat.cast_add, Nat.cast_one]
      ring
  have hm : mean (xs.map fun x => x - c) = mean xs - c := by
    unfold mean
    rw [hs, List.length_map]
    field_simp
  unfold var
  rw [hm, List.map_map]
  congr 1
  refine List.map_congr_left fun x _ => ?_
  show (x - c - (mean xs - c)) ^ 2 = (x - mean xs) ^ 2
  ring

/-- **C109**: the reported explained variance is not a number exactly if all value targets are equal; otherwise it is at most
one, it is one exactly if predictions differ from targets by a constant, and it is zero if all predictions are equal. -/
theorem C109_explained (l : List (Full O A S)) :
    (explainedVariance l = none ↔ ∃ c, ∀ b ∈ l, b.vTeacher = c) ∧
    ∀ e, explainedVariance l = some e → e ≤ 1 ∧ (e = 1 ↔ ∃ c, ∀ b ∈ l, b.vTeacher - b.ann.vPred = c) ∧
      ((∃ c, ∀ b ∈ l, b.ann.vPred = c) → e = 0) := by
  have h0 : var (l.map fun tr => tr.vTeacher) = 0 ↔ ∃ c, ∀ b ∈ l, b.vTeacher = c := by
    rw [var_eq_zero]
    simp
  unfold explainedVariance
  simp only
  rw [zip_sub]
  constructor
  · rw [← h0]
    split
    · rename_i h; simp [h]
    · rename_i h; simp [h]
  · intro e he
    split at he
    · simp at he
    · rename_i hv
      have hp : 0 < var (l.map fun tr => tr.vTeacher) := lt_of_le_of_ne (var_nonneg _) (Ne.symm hv)
      have hne : l ≠ [] := by
        rintro rfl
        exact hv (by simp [var, mean])
      obtain rfl : _ = e := Option.some.inj he
      refine ⟨?_, ?_, ?_⟩
      · have := div_nonneg (var_nonneg (l.map fun b => b.vTeacher - b.ann.vPred)) hp.le
        linarith
      · have e1 : (∃ c, ∀ b ∈ l, b.vTeacher - b.ann.vPred = c) ↔ var (l.map fun b => b.vTeacher - b.ann.vPred) = 0 := by
          rw [var_eq_zero]
          simp
        rw [e1]
        constructor
        · intro h
          have : var (l.map fun b => b.vTeacher - b.ann.vPred) / var (l.map fun tr => tr.vTeacher) = 0 := by linarith
          exact (div_eq_zero_iff.1 this).resolve_right hv
        · intro h
          rw [h]
          simp
      · rintro ⟨c, hc⟩
        have : (l.map fun b => b.vTeacher - b.ann.vPred) = (l.map fun tr => tr.vTeacher).map fun x => x - c := by
          rw [List.map_map]
          refine List.map_congr_left fun b hb => ?_
          simp [hc b hb]
        rw [this, var_shift c _ (by simpa using hne), div_self hv]
        simp

/-! ### Recording -/

/-- The calls of a training loop for one environment: an action is selected for the observation last received (any
observation at the start of an episode), then its outcome is observed. -/
def Follows : Bool → Option O → List (Event O A) → Prop
  | _, _, [] => True
  | waiting, expected, .select o _ :: es =>
    waiting = false ∧ (∀ e, expected = some e → o = e) ∧ Follows true none es
  | waiting, _, .observe _ o _ ended :: es => waiting = true ∧ Follows false (if ended then none else some o) es
  | waiting, expected, .update :: es => waiting = false ∧ Follows waiting expected es

/-- The invariant of a slot. -/
structure SlotOk (phi : O → F) (norm : Nat → Option (F → F)) {Y : Type} (cell : Nat → S → F → S × Y) (k : Nat)
    (waiting : Bool) (expected : Option O) (s : Slot O A S) : Prop where
  tags : ∀ x ∈ s.episode, x.1 = k
  recorded : Recorded (cell k) (pre phi (norm k)) (s.episode.map fun x => x.2)
  none : s.last = none → waiting = false ∧ ∀ x, s.episode.getLast? = some x →
    s.recurrentState = x.2.nextRecurrentState ∧ expected = some x.2.nextState
  some : ∀ tag o a rs rs', s.last = some (tag, o, a, rs, rs') → waiting = true ∧ tag = k ∧
    rs' = (cell k rs (pre phi (norm k) o)).1 ∧ s.recurrentState = rs' ∧
    ∀ x, s.episode.getLast? = Option.some x → rs = x.2.nextRecurrentState ∧ o = x.2.nextState

theorem recorded_snoc {Y : Type} {cell : S → F → S × Y} {p : O → F} {ep : List (Tr O A S)} {t : Tr O A S}
    (h : Recorded cell p ep) (h1 : t.nextRecurrentState = (cell t.recurrentState (p t.state)).1)
    (h2 : ∀ x, ep.getLast? = some x → t.recurrentState = x.nextRecurrentState ∧ t.state = x.nextState) :
    Recorded cell p (ep ++ [t]) := by
  constructor
  · intro x hx
    rcases List.mem_append.1 hx with hx | hx
    · exact h.next x hx
    · rw [List.mem_singleton] at hx
      subst hx
      exact h1
  · rw [List.isChain_append]
    refine ⟨h.chain, List.isChain_singleton _, ?_⟩
    intro x hx y hy
    simp only [List.head?_cons, Option.mem_def, Option.some.injEq] at hy hx
    subst hy
    exact h2 x hx

theorem fragments_run (phi : O → F) (norm : Nat → Option (F → F)) {Y : Type} (cell : Nat → S → F → S × Y) (zero : S) :
    ∀ (es : List (Event O A)) (k : Nat) (s : Slot O A S) (waiting : Bool) (expected : Option O)
      (out : List (Nat × List (Nat × Tr O A S))), SlotOk phi norm cell k waiting expected s → Follows waiting expected es →
      Slot.run phi norm cell zero k s es = .ok out → ∀ x ∈ out, x.2 ≠ [] ∧ (∀ y ∈ x.2, y.1 = x.1) ∧
        Recorded (cell x.1) (pre phi (norm x.1)) (x.2.map fun y => y.2)
  | [], k, s, w, ex, out, _, _, h => by
    simp only [Slot.run, Except.ok.injEq] at h
    subst h
    simp
  | e :: es, k, s, w, ex, out, hs, hf, h => by
    rw [Slot.run] at h
    obtain ⟨r, hr, h⟩ := DQN.except_bind_ok.1 h
    obtain ⟨rest, hrest, h⟩ := DQN.except_bind_ok.1 h
    simp only [Except.ok.injEq] at h
    subst h
    cases e with
    | select o a =>
      simp only [Slot.step, Except.ok.injEq] at hr
      subst hr
      obtain ⟨hw, hex, hf⟩ := hf
      have hl : s.last = none := by
        rcases hl : s.last with _ | ⟨tag, o', a', rs, rs'⟩
        · rfl
        · have := (hs.some tag o' a' rs rs' hl).1
          rw [hw] at this
          simp at this
      obtain ⟨-, hn⟩ := hs.none hl
      have := fragments_run phi norm cell zero es k _ true none rest (by
        refine ⟨hs.tags, hs.recorded, by simp, ?_⟩
        intro tag o' a' rs rs' he
        simp only [Option.some.injEq, Prod.mk.injEq] at he
        obtain ⟨rfl, rfl, rfl, rfl, rfl⟩ := he
        refine ⟨rfl, rfl, rfl, rfl, ?_⟩
        intro x hx
        exact ⟨(hn x hx).1, hex _ (hn x hx).2⟩) hf hrest
      simpa using this
    | observe reward o done ended =>
      obtain ⟨hw, hf⟩ := hf
      rcases hl : s.last with _ | ⟨tag, o', a', rs, rs'⟩
      · simp [Slot.step, hl] at hr
      · obtain ⟨-, htag, hrs, hst, hlast⟩ := hs.some tag o' a' rs rs' hl
        have hrec : Recorded (cell k) (pre phi (norm k)) ((s.episode ++
            [(tag, (⟨o', a', reward, o, if done then 0 else 1, rs, rs'⟩ : Tr O A S))]).map fun x => x.2) := by
          rw [List.map_append]
          refine recorded_snoc hs.recorded hrs ?_
          intro x hx
          rw [List.getLast?_map] at hx
          obtain ⟨y, hy, rfl⟩ := Option.map_eq_some_iff.1 hx
          exact hlast y hy
        have htags : ∀ x ∈ s.episode ++ [(tag, (⟨o', a', reward, o, if done then 0 else 1, rs, rs'⟩ : Tr O A S))], x.1 = k := by
          intro x hx
          rcases List.mem_append.1 hx with hx | hx
          · exact hs.tags x hx
          · rw [List.mem_singleton] at hx
            subst hx
            exact htag
        cases ended with
        | true =>
          simp only [Slot.step, hl, if_true, Except.ok.injEq] at hr
          subst hr
          have := fragments_run phi norm cell zero es k ⟨[], none, zero⟩ false none rest
            ⟨by simp, ⟨by simp, .nil⟩, by simp, by simp⟩ hf hrest
          intro x hx
          rcases List.mem_append.1 hx with hx | hx
          · simp only [List.map_cons, List.map_nil, List.mem_singleton] at hx
            subst hx
            exact ⟨by simp, htags, hrec⟩
          · exact this x hx
        | false =>
          simp only [Slot.step, hl, Bool.false_eq_true, if_false, Except.ok.injEq] at hr
          subst hr
          have := fragments_run phi norm cell zero es k _ false (some o) rest (by
            refine ⟨htags, hrec, ?_, by simp⟩
            intro _
            refine ⟨rfl, ?_⟩
            intro x hx
            simp only [List.getLast?_append, List.getLast?_singleton, Option.some_or, Option.some.injEq] at hx
            subst hx
            exact ⟨hst, rfl⟩) hf hrest
          simpa using this
    | update =>
      obtain ⟨hw, hf⟩ := hf
      rcases hl : s.last with _ | p
      · simp only [Slot.step, hl, Except.ok.injEq] at hr
        subst hr
        have := fragments_run phi norm cell zero es (k + 1) _ w ex rest
          ⟨by simp, ⟨by simp, .nil⟩, fun _ => ⟨hw, by simp⟩, by simp [hl]⟩ hf hrest
        intro x hx
        rcases List.mem_append.1 hx with hx | hx
        · by_cases he : s.episode = []
          · simp [he] at hx
          · simp only [he, if_false, List.map_cons, List.map_nil, List.mem_singleton] at hx
            subst hx
            exact ⟨he, hs.tags, hs.recorded⟩
        · exact this x hx
      · simp [Slot.step, hl] at hr

/-- **C109**: every fragment of an episode that is used in an update, in any history of training, is a non-empty sequence of
consecutive transitions whose actions were all selected by the network as it was after the update before, with the
recurrent states that network went through.  So `C109_behaviour` and `C109_ratio_one_recurrent` apply to every update. -/
theorem C109_fragments (phi : O → F) (norm : Nat → Option (F → F)) {Y : Type} (cell : Nat → S → F → S × Y) (zero : S)
    (es : List (Event O A)) (hf : Follows false none es) (out : List (Nat × List (Nat × Tr O A S)))
    (h : Slot.run phi norm cell zero 0 ⟨[], none, zero⟩ es = .ok out) (updates : Nat) (fragment : List (Nat × Tr O A S))
    (hx : (updates, fragment) ∈ out) :
    fragment ≠ [] ∧ (∀ x ∈ fragment, x.1 = updates) ∧
      Recorded (cell updates) (pre phi (norm updates)) (fragment.map fun x => x.2) :=
  fragments_run phi norm cell zero es 0 ⟨[], none, zero⟩ false none out ⟨by simp, ⟨by simp, .nil⟩, by simp, by simp⟩ hf h _ hx

/-! ### On-policy data -/

section OnPolicy
open PPOData (St Call Dataset run step record updateIfReady flush flushBatch flushSlots observeRow observeRows actSlots)
variable {R : Type}

/-- In the calls, every action is paired with the number of updates made before it was selected: for `act_and_train` that
includes an update made by the same call, as that comes before the selection. -/
def Stamped (interval : Nat) : Nat → St O (Nat × A) R → List (Call O (Nat × A) R) → Prop
  | _, _, [] => True
  | k, s, c :: cs => (∀ s' ds, step interval s c = .ok (s', ds) → Stamped interval (k + ds.length) s' cs) ∧
    match c with
    | .act obs reward action => action.1 = k + (updateIfReady interval (record s obs reward)).2.length
    | .batchAct rows => ∀ row ∈ rows, row.2.1 = k
    | _ => True

/-- Only the interface for one environment is used. -/
def SingleOnly : Call O (Nat × A) R → Prop
  | .act .. | .stop .. => True
  | _ => False

/-- Only the interface for `n` environments is used. -/
def BatchOnly (n : Nat) : Call O (Nat × A) R → Prop
  | .batchAct rows => rows.length = n
  | .batchObserve rows => rows.length = n
  | _ => False

/-- All transitions of a dataset have actions stamped `k`. -/
def AllTag (k : Nat) (d : Dataset O (Nat × A) R) : Prop := ∀ e ∈ d, ∀ t ∈ e.2, t.action.1 = k

/-- Everything recorded is stamped `k`. -/
structure Ep (k : Nat) (s : St O (Nat × A) R) : Prop where
  memory : AllTag k s.memory
  lastEpisode : ∀ t ∈ s.lastEpisode, t.action.1 = k
  batch : ∀ slots, s.batch = some slots → ∀ sl ∈ slots, ∀ t ∈ sl.episode, t.action.1 = k

theorem flushSlots_tag (k : Nat) : ∀ (slots : List (PPOData.Slot O (Nat × A) R)) (i : Nat),
    (∀ sl ∈ slots, ∀ t ∈ sl.episode, t.action.1 = k) →
    AllTag k (flushSlots i slots).1 ∧ (∀ sl ∈ (flushSlots i slots).2, sl.episode = []) ∧
      (flushSlots i slots).2.map (fun sl => sl.last) = slots.map fun sl => sl.last
  | [], i, _ => ⟨by simp [AllTag, flushSlots], by simp [flushSlots], rfl⟩
  | sl :: slots, i, h => by
    obtain ⟨h1, h2, h3⟩ := flushSlots_tag k slots (i + 1) fun x hx => h x (List.mem_cons_of_mem _ hx)
    rw [flushSlots]
    by_cases he : sl.episode.isEmpty
    · simp only [he, if_true]
      refine ⟨h1, ?_, by simp [h3]⟩
      intro x hx
      rcases List.mem_cons.1 hx with rfl | hx
      · simpa using he
      · exact h2 x hx
    · simp only [he, Bool.false_eq_true, if_false]
      refine ⟨?_, ?_, by simp [h3]⟩
      · intro e hx
        rcases List.mem_cons.1 hx with rfl | hx
        · exact h sl List.mem_cons_self
        · exact h1 e hx
      · intro x hx
        rcases List.mem_cons.1 hx with rfl | hx
        · rfl
        · exact h2 x hx

theorem flush_tag (k : Nat) (s : St O (Nat × A) R) (h : Ep k s) :
    AllTag k (flush s).memory ∧ (flush s).lastEpisode = [] ∧ (flush s).last = s.last ∧
      (∀ slots, (flush s).batch = some slots → ∀ sl ∈ slots, sl.episode = []) ∧
      (flush s).batch.map (fun l => l.map fun sl => sl.last) = s.batch.map fun l => l.map fun sl => sl.last := by
  obtain ⟨mem, le, la, ba⟩ := s
  have hm : AllTag k (if le.isEmpty then (⟨mem, le, la, ba⟩ : St O (Nat × A) R)
      else ⟨mem ++ [(none, le)], [], la, ba⟩).memory := by
    by_cases he : le.isEmpty
    · rw [if_pos he]; exact h.memory
    · rw [if_neg he]
      intro e hx
      rcases List.mem_append.1 hx with hx | hx
      · exact h.memory e hx
      · rw [List.mem_singleton] at hx
        subst hx
        exact h.lastEpisode
  have hle : (if le.isEmpty then (⟨mem, le, la, ba⟩ : St O (Nat × A) R)
      else ⟨mem ++ [(none, le)], [], la, ba⟩).lastEpisode = [] := by
    by_cases he : le.isEmpty
    · rw [if_pos he]; simpa using he
    · rw [if_neg he]
  have hla : (if le.isEmpty then (⟨mem, le, la, ba⟩ : St O (Nat × A) R)
      else ⟨mem ++ [(none, le)], [], la, ba⟩).last = la := by split <;> rfl
  have hba : (if le.isEmpty then (⟨mem, le, la, ba⟩ : St O (Nat × A) R)
      else ⟨mem ++ [(none, le)], [], la, ba⟩).batch = ba := by split <;> rfl
  unfold flush
  simp only
  generalize (if le.isEmpty then (⟨mem, le, la, ba⟩ : St O (Nat × A) R)
      else ⟨mem ++ [(none, le)], [], la, ba⟩) = s1 at hm hle hla hba ⊢
  obtain ⟨mem1, le1, la1, ba1⟩ := s1
  simp only at hm hle hla hba
  subst hle hla hba
  cases ba1 with
  | none => exact ⟨hm, rfl, rfl, by simp [flushBatch], rfl⟩
  | some slots =>
    obtain ⟨h1, h2, h3⟩ := flushSlots_tag k slots 0 (h.batch slots rfl)
    refine ⟨?_, rfl, rfl, ?_, ?_⟩
    · intro e hx
      rcases List.mem_append.1 hx with hx | hx
      · exact hm e hx
      · exact h1 e hx
    · intro sl hsl
      simp only [flushBatch, Option.some.injEq] at hsl
      subst hsl
      exact h2
    · simp only [flushBatch, Option.map_some, h3]

theorem update_tag (interval k : Nat) (s : St O (Nat × A) R) (h : Ep k s) :
    (∀ (i : Nat) d, (updateIfReady interval s).2[i]? = some d → AllTag (k + i) d) ∧
      Ep (k + (updateIfReady interval s).2.length) (updateIfReady interval s).1 ∧
      (updateIfReady interval s).1.last = s.last ∧
      (updateIfReady interval s).1.batch.map (fun l => l.map fun sl => sl.last) = s.batch.map fun l => l.map fun sl => sl.last := by
  unfold updateIfReady
  split
  · obtain ⟨h1, h2, h3, h4, h5⟩ := flush_tag k s h
    refine ⟨?_, ⟨by simp [AllTag], by simp [h2], ?_⟩, h3, h5⟩
    · intro i d hd
      cases i with
      | zero =>
        simp only [List.getElem?_cons_zero, Option.some.injEq] at hd
        subst hd
        exact h1
      | succ i => simp at hd
    · intro slots hs sl hsl t ht
      rw [h4 slots hs sl hsl] at ht
      simp at ht
  · exact ⟨by simp, h, rfl, rfl⟩

theorem tags_append {k : Nat} {ds ds' : List (Dataset O (Nat × A) R)}
    (h : ∀ (i : Nat) d, ds[i]? = some d → AllTag (k + i) d)
    (h' : ∀ (i : Nat) d, ds'[i]? = some d → AllTag (k + ds.length + i) d) :
    ∀ (i : Nat) d, (ds ++ ds')[i]? = some d → AllTag (k + i) d := by
  intro i d hd
  by_cases hi : i < ds.length
  · rw [List.getElem?_append_left hi] at hd
    exact h i d hd
  · rw [List.getElem?_append_right (by omega)] at hd
    have := h' _ d hd
    rwa [show k + ds.length + (i - ds.length) = k + i by omega] at this

theorem onPolicy_single (interval : Nat) : ∀ (cs : List (Call O (Nat × A) R)) (k : Nat) (s s' : St O (Nat × A) R)
    (ds : List (Dataset O (Nat × A) R)), (∀ c ∈ cs, SingleOnly c) → Ep k s → (∀ p, s.last = some p → p.2.1 = k) →
    Stamped interval k s cs → run interval s cs = .ok (s', ds) → ∀ (i : Nat) d, ds[i]? = some d → AllTag (k + i) d
  | [], k, s, s', ds, _, _, _, _, h => by
    simp only [run, Except.ok.injEq, Prod.mk.injEq] at h
    obtain ⟨-, rfl⟩ := h
    simp
  | c :: cs, k, s, s', ds, hc, hep, hlast, hst, h => by
    rw [run] at h
    obtain ⟨r, hr, h⟩ := DQN.except_bind_ok.1 h
    obtain ⟨r', hr', h⟩ := DQN.except_bind_ok.1 h
    simp only [pure, Except.pure, Except.ok.injEq, Prod.mk.injEq] at h
    obtain ⟨rfl, rfl⟩ := h
    obtain ⟨hst1, hst2⟩ := hst
    have hcs : ∀ c ∈ cs, SingleOnly c := fun x hx => hc x (List.mem_cons_of_mem _ hx)
    cases c with
    | act obs reward action =>
      simp only at hst2
      have hst1 := hst1 r.1 r.2 hr
      simp only [step, Except.ok.injEq] at hr
      have hrec : Ep k (record s obs reward) := by
        unfold record
        rcases hl : s.last with _ | ⟨o, a⟩
        · exact hep
        · refine ⟨hep.memory, ?_, hep.batch⟩
          intro t ht
          rcases List.mem_append.1 ht with ht | ht
          · exact hep.lastEpisode t ht
          · rw [List.mem_singleton] at ht
            subst ht
            exact hlast (o, a) hl
      obtain ⟨u1, u2, u3, u4⟩ := update_tag interval k _ hrec
      rw [← hr] at hst1 hr'
      rw [← hr]
      refine tags_append u1 ?_
      refine onPolicy_single interval cs _ { (updateIfReady interval (record s obs reward)).1 with last := some (obs, action) }
        r'.1 r'.2 hcs ⟨u2.memory, u2.lastEpisode, u2.batch⟩ ?_ hst1 hr'
      intro p hp
      simp only [Option.some.injEq] at hp
      subst hp
      exact hst2
    | stop state reward done =>
      have hst1 := hst1 r.1 r.2 hr
      rcases hl : s.last with _ | ⟨o, a⟩
      · simp [step, hl] at hr
      · simp only [step, hl, Except.ok.injEq] at hr
        have h1 : Ep k { s with lastEpisode := s.lastEpisode ++ [⟨o, a, reward, state, done⟩], last := none } := by
          refine ⟨hep.memory, ?_, hep.batch⟩
          intro t ht
          rcases List.mem_append.1 ht with ht | ht
          · exact hep.lastEpisode t ht
          · rw [List.mem_singleton] at ht
            subst ht
            exact hlast (o, a) hl
        obtain ⟨f1, f2, f3, f4, -⟩ := flush_tag k _ h1
        have h2 : Ep k (flush { s with lastEpisode := s.lastEpisode ++ [⟨o, a, reward, state, done⟩], last := none }) :=
          ⟨f1, by simp [f2], fun slots hs sl hsl t ht => by rw [f4 slots hs sl hsl] at ht; simp at ht⟩
        obtain ⟨u1, u2, u3, u4⟩ := update_tag interval k _ h2
        rw [← hr] at hst1 hr'
        rw [← hr]
        refine tags_append u1 ?_
        refine onPolicy_single interval cs _ _ r'.1 r'.2 hcs u2 ?_ hst1 hr'
        intro p hp
        rw [u3, f3] at hp
        simp at hp
    | batchAct rows => exact absurd (hc _ List.mem_cons_self) (by simp [SingleOnly])
    | batchObserve rows => exact absurd (hc _ List.mem_cons_self) (by simp [SingleOnly])

theorem close_tag (k i : Nat) (ep : List (PPOData.Tr O (Nat × A) R)) (c : Bool)
    (r : Dataset O (Nat × A) R × PPOData.Slot O (Nat × A) R) (hep : ∀ t ∈ ep, t.action.1 = k)
    (h : (if c then if ep.isEmpty then (.error .assertionError : Py _) else .ok ([(some i, ep)], ⟨[], none⟩)
      else .ok ([], ⟨ep, none⟩)) = .ok r) :
    AllTag k r.1 ∧ r.2.last = none ∧ ∀ t ∈ r.2.episode, t.action.1 = k := by
  cases c with
  | true =>
    by_cases he : ep.isEmpty
    · simp [he] at h
    · simp only [he, if_true, Bool.false_eq_true, if_false, Except.ok.injEq] at h
      subst h
      refine ⟨?_, rfl, by simp⟩
      intro e he
      rw [List.mem_singleton] at he
      subst he
      exact hep
  | false =>
    simp only [Bool.false_eq_true, if_false, Except.ok.injEq] at h
    subst h
    exact ⟨by simp [AllTag], rfl, hep⟩

theorem observeRows_tag (k : Nat) : ∀ (slots : List (PPOData.Slot O (Nat × A) R)) (rows : List (O × R × Bool × Bool)) (i : Nat)
    (r : Dataset O (Nat × A) R × List (PPOData.Slot O (Nat × A) R)), slots.length = rows.length →
    (∀ sl ∈ slots, (∀ t ∈ sl.episode, t.action.1 = k) ∧ ∀ p, sl.last = some p → p.2.1 = k) →
    observeRows i slots rows = .ok r →
    AllTag k r.1 ∧ r.2.length = slots.length ∧ ∀ sl ∈ r.2, sl.last = none ∧ ∀ t ∈ sl.episode, t.action.1 = k
  | [], rows, i, r, _, _, h => by
    simp only [observeRows, Except.ok.injEq] at h
    subst h
    exact ⟨by simp [AllTag], rfl, by simp⟩
  | sl :: slots, [], i, r, hl, _, _ => by simp at hl
  | sl :: slots, row :: rows, i, r, hl, ht, h => by
    rw [observeRows] at h
    obtain ⟨r1, hr1, h⟩ := DQN.except_bind_ok.1 h
    obtain ⟨r2, hr2, h⟩ := DQN.except_bind_ok.1 h
    simp only [pure, Except.pure, Except.ok.injEq] at h
    subst h
    obtain ⟨i1, i2, i3⟩ := observeRows_tag k slots rows (i + 1) r2 (by simpa using hl)
      (fun x hx => ht x (List.mem_cons_of_mem _ hx)) hr2
    obtain ⟨t1, t2⟩ := ht sl List.mem_cons_self
    have hrow : AllTag k r1.1 ∧ r1.2.last = none ∧ ∀ t ∈ r1.2.episode, t.action.1 = k := by
      rcases hla : sl.last with _ | ⟨o, a⟩
      · simp only [observeRow, hla] at hr1
        exact close_tag k i _ _ r1 t1 hr1
      · simp only [observeRow, hla] at hr1
        refine close_tag k i _ _ r1 ?_ hr1
        intro t ht
        rcases List.mem_append.1 ht with ht | ht
        · exact t1 t ht
        · rw [List.mem_singleton] at ht
          subst ht
          exact t2 (o, a) hla
    refine ⟨?_, by simp [i2], ?_⟩
    · intro e he
      rcases List.mem_append.1 he with he | he
      · exact hrow.1 e he
      · exact i1 e he
    · intro x hx
      rcases List.mem_cons.1 hx with rfl | hx
      · exact hrow.2
      · exact i3 x hx

theorem onPolicy_batch (interval n : Nat) : ∀ (cs : List (Call O (Nat × A) R)) (k : Nat) (s s' : St O (Nat × A) R)
    (ds : List (Dataset O (Nat × A) R)), (∀ c ∈ cs, BatchOnly n c) → Ep k s →
    (∀ slots, s.batch = some slots → slots.length = n ∧ ∀ sl ∈ slots, ∀ p, sl.last = some p → p.2.1 = k) →
    Stamped interval k s cs → run interval s cs = .ok (s', ds) → ∀ (i : Nat) d, ds[i]? = some d → AllTag (k + i) d
  | [], k, s, s', ds, _, _, _, _, h => by
    simp only [run, Except.ok.injEq, Prod.mk.injEq] at h
    obtain ⟨-, rfl⟩ := h
    simp
  | c :: cs, k, s, s', ds, hc, hep, hlast, hst, h => by
    rw [run] at h
    obtain ⟨r, hr, h⟩ := DQN.except_bind_ok.1 h
    obtain ⟨r', hr', h⟩ := DQN.except_bind_ok.1 h
    simp only [pure, Except.pure, Except.ok.injEq, Prod.mk.injEq] at h
    obtain ⟨rfl, rfl⟩ := h
    obtain ⟨hst0, hst2⟩ := hst
    have hcs : ∀ c ∈ cs, BatchOnly n c := fun x hx => hc x (List.mem_cons_of_mem _ hx)
    have hn := hc _ List.mem_cons_self
    cases c with
    | act obs reward action => exact absurd hn (by simp [BatchOnly])
    | stop state reward done => exact absurd hn (by simp [BatchOnly])
    | batchAct rows =>
      have hst1 := hst0 r.1 r.2 hr
      simp only at hst2
      simp only [BatchOnly] at hn
      simp only [step] at hr
      obtain ⟨slots, hsl, hr⟩ := DQN.except_bind_ok.1 hr
      simp only [pure, Except.pure, Except.ok.injEq] at hr
      subst hr
      have key : slots.length = n ∧ ∀ sl ∈ slots, (∀ t ∈ sl.episode, t.action.1 = k) ∧ ∀ p, sl.last = some p → p.2.1 = k := by
        unfold actSlots at hsl
        rcases hb : s.batch with _ | old
        · rw [hb] at hsl
          simp only [Except.ok.injEq] at hsl
          subst hsl
          refine ⟨by simpa using hn, ?_⟩
          intro sl hx
          obtain ⟨row, hrow, rfl⟩ := List.mem_map.1 hx
          refine ⟨by simp, ?_⟩
          intro p hp
          simp only [Option.some.injEq] at hp
          subst hp
          exact hst2 row hrow
        · rw [hb] at hsl
          by_cases hlen : old.length = rows.length
          · simp only [pyAssert, hlen, beq_self_eq_true, if_true, Except.ok.injEq] at hsl
            subst hsl
            refine ⟨by simp [hlen, hn], ?_⟩
            intro sl hx
            obtain ⟨j, hj, hx⟩ := List.mem_iff_getElem.1 hx
            rw [List.getElem_zipWith] at hx
            subst hx
            have hj' : j < old.length ∧ j < rows.length := by simpa using hj
            refine ⟨hep.batch old hb old[j] (List.getElem_mem hj'.1), ?_⟩
            intro p hp
            simp only [Option.some.injEq] at hp
            subst hp
            exact hst2 _ (List.getElem_mem hj'.2)
          · simp [pyAssert, hlen] at hsl
      refine tags_append (by simp) ?_
      refine onPolicy_batch interval n cs _ { s with batch := some slots } r'.1 r'.2 hcs ⟨hep.memory, hep.lastEpisode, ?_⟩ ?_ hst1 hr'
      · intro l hl sl hx
        simp only [Option.some.injEq] at hl
        subst hl
        exact (key.2 sl hx).1
      · intro l hl
        simp only [Option.some.injEq] at hl
        subst hl
        exact ⟨key.1, fun sl hx => (key.2 sl hx).2⟩
    | batchObserve rows =>
      have hst1 := hst0 r.1 r.2 hr
      simp only [BatchOnly] at hn
      rcases hb : s.batch with _ | slots
      · simp [step, hb] at hr
      · simp only [step, hb] at hr
        obtain ⟨ro, hro, hr⟩ := DQN.except_bind_ok.1 hr
        simp only [pure, Except.pure, Except.ok.injEq] at hr
        obtain ⟨o1, o2, o3⟩ := observeRows_tag k slots rows 0 ro (by rw [(hlast slots hb).1, hn])
          (fun sl hx => ⟨hep.batch slots hb sl hx, (hlast slots hb).2 sl hx⟩) hro
        have h2 : Ep k { s with memory := s.memory ++ ro.1, batch := some ro.2 } := by
          refine ⟨?_, hep.lastEpisode, ?_⟩
          · intro e he
            rcases List.mem_append.1 he with he | he
            · exact hep.memory e he
            · exact o1 e he
          · intro l hl sl hx
            simp only [Option.some.injEq] at hl
            subst hl
            exact (o3 sl hx).2
        obtain ⟨u1, u2, u3, u4⟩ := update_tag interval k _ h2
        rw [← hr] at hst1 hr'
        rw [← hr]
        refine tags_append u1 ?_
        refine onPolicy_batch interval n cs _ _ r'.1 r'.2 hcs u2 ?_ hst1 hr'
        intro l hl
        rw [hl] at u4
        simp only [Option.map_some, Option.some.injEq] at u4
        constructor
        · have := congrArg List.length u4
          simp only [List.length_map] at this
          rw [this, o2, (hlast slots hb).1]
        · intro sl hx p hp
          have : sl.last ∈ l.map fun sl => sl.last := List.mem_map_of_mem (f := fun sl : PPOData.Slot O (Nat × A) R => sl.last) hx
          rw [u4] at this
          obtain ⟨sl', hs', he⟩ := List.mem_map.1 this
          rw [(o3 sl' hs').1] at he
          rw [← he] at hp
          simp at hp

/-- **C109**: training is on-policy: in any history of calls of one of the two interfaces, the `i`-th update uses only
transitions whose actions were selected after exactly `i` updates. -/
theorem C109_on_policy (interval n : Nat) (cs : List (Call O (Nat × A) R))
    (hc : (∀ c ∈ cs, SingleOnly c) ∨ ∀ c ∈ cs, BatchOnly n c) (hst : Stamped interval 0 St.init cs)
    (s : St O (Nat × A) R) (ds : List (Dataset O (Nat × A) R)) (h : run interval St.init cs = .ok (s, ds))
    (i : Nat) (d : Dataset O (Nat × A) R) (hd : ds[i]? = some d) : ∀ e ∈ d, ∀ t ∈ e.2, t.action.1 = i := by
  have he : Ep 0 (St.init : St O (Nat × A) R) := ⟨by simp [AllTag, St.init], by simp [St.init], by simp [St.init]⟩
  rcases hc with hc | hc
  · have := onPolicy_single interval cs 0 St.init s ds hc he (by simp [St.init]) hst h i d hd
    rwa [Nat.zero_add] at this
  · have := onPolicy_batch interval n cs 0 St.init s ds hc he (by simp [St.init]) hst h i d hd
    rwa [Nat.zero_add] at this

end OnPolicy

/-! ### The normalizer -/

/-- The normalizer of observations as the agents use it while acting and in updates, `obs_normalizer(x, update=False)`. -/
noncomputable def normalizer (c : EmpNorm.Config ℝ) (s : EmpNorm.State ℝ Unit) (x : ℝ) : ℝ :=
  (((EmpNorm.call ⟨fun v => (Real.sqrt v)⁻¹, Real.sqrt⟩ c s [fun _ => x] false).2.head?.map fun v => v ())).getD x

/-- **C109**: the condition on the normalizer in `C109_ratio_one` matters: both agents let the normalizer experience the
dataset after the log probabilities are stored and before the first minibatch, and then ratios differ from one before the
network has changed. -/
theorem C109_normalizer_moves_ratio :
    ∃ (c : EmpNorm.Config ℝ) (net : ℝ → ℝ × ℝ) (logProb : ℝ → ℝ → ℝ) (t : Tr ℝ ℝ Unit),
      let before : EmpNorm.State ℝ Unit := EmpNorm.init
      let dataset := makeDataset id (some (normalizer c before)) net logProb 1 1 [[t]]
      let after := EmpNorm.experience c before (dataset.map fun b _ => b.ann.tr.state)
      updateLogProbs id (some (normalizer c after)) net logProb dataset ≠ dataset.map fun b => b.ann.logProb := by
  refine ⟨⟨0, none, none⟩, fun x => (x, 0), fun d a => -(a - d) ^ 2, ⟨2, 0, 0, 2, 0, (), ()⟩, ?_⟩
  simp [makeDataset, addPlain, addAdvantages, annotate, regroup, PPOData.addAdvantage, Ann.toV, pre, updateLogProbs, normalizer,
    EmpNorm.call, EmpNorm.stdInverse, EmpNorm.init, EmpNorm.experience, EmpNorm.full, EmpNorm.clipTo, EmpNorm.batchMean,
    EmpNorm.batchVar]

/-! ### Examples -/

/-- A recurrent network that sums its inputs: the hypotheses of the theorems about recurrent networks are met by an episode
of two transitions. -/
example : Recorded (fun s x => (s + x, (s + x, s))) (pre id none)
    [(⟨1, 5, 0, 2, 1, 0, 1⟩ : Tr ℝ ℝ ℝ), ⟨2, 6, 1, 3, 0, 1, 3⟩] := by
  constructor
  · simp only [List.mem_cons, List.not_mem_nil, or_false, pre]
    rintro t (rfl | rfl) <;> norm_num
  · simp

/-- Two episodes cut by an update: the fragments. -/
example : ∃ out, Slot.run (O := ℕ) (F := ℕ) (A := ℕ) (S := ℕ) id (fun _ => none) (fun k s x => (s + x + k, ())) 0 0 ⟨[], none, 0⟩
    [.select 1 7, .observe 0 2 false false, .update, .select 2 8, .observe 1 3 false false, .select 3 9,
      .observe 1 4 true true, .update] = .ok out ∧
    out.map (fun x => (x.1, x.2.map fun y => (y.1, y.2.state, y.2.recurrentState, y.2.nextRecurrentState))) =
      [(0, [(0, 1, 0, 1)]), (1, [(1, 2, 1, 4), (1, 3, 4, 8)])] := ⟨_, rfl, rfl⟩

example : Follows (O := ℕ) (A := ℕ) false none [.select 1 7, .observe 0 2 false false, .update, .select 2 8,
    .observe 1 3 false false, .select 3 9, .observe 1 4 true true, .update] := by
  simp [Follows]

/-- Stamped calls of the interface for several environments, with an update every two transitions. -/
example : Stamped 2 0 PPOData.St.init [(.batchAct [(10, (0, 5)), (20, (0, 6))] : PPOData.Call Nat (Nat × Nat) Nat),
    .batchObserve [(11, 1, false, false), (21, 1, false, false)], .batchAct [(11, (1, 7)), (21, (1, 8))],
    .batchObserve [(12, 1, true, false), (22, 1, false, false)]] := by
  refine ⟨fun s ds h => ?_, by simp⟩
  simp only [PPOData.step, PPOData.actSlots, PPOData.St.init, List.map, bind, Except.bind, pure, Except.pure, Except.ok.injEq,
    Prod.mk.injEq] at h
  obtain ⟨rfl, rfl⟩ := h
  refine ⟨fun s ds h => ?_, trivial⟩
  simp only [PPOData.step, PPOData.observeRows, PPOData.observeRow, bind, Except.bind, pure, Except.pure, Bool.or_self,
    Bool.false_eq_true, if_false, List.nil_append, List.append_nil, Except.ok.injEq] at h
  obtain ⟨rfl, rfl⟩ := Prod.mk.inj h.symm
  refine ⟨fun s ds h => ?_, by decide⟩
  have e := Except.ok.inj (show Except.ok _ = Except.ok (s, ds) from h)
  obtain ⟨rfl, rfl⟩ := Prod.mk.inj e.symm
  exact ⟨fun _ _ _ => trivial, trivial⟩

end Verif.PPODataset
