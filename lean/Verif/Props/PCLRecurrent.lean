import Verif.Spec.PCLRecurrent
import Verif.Props.PCL
set_option autoImplicit false
set_option linter.unusedSectionVars false

/-! # C126: the replay update of PCL with a recurrent model -/

namespace Verif.PCLRecurrent
open PCL (Tr Cfg Col column losses sortEpisodes Contiguous Descending episodeLoss)
variable {H O A K : Type} [Field K]

theorem hiddenAt_zero (m : Net H O A K) (tr : Tr O A K) (ep : List (Tr O A K)) : hiddenAt m (tr :: ep) 0 = m.cell m.h0 tr.state := rfl

theorem hiddenAt_succ (m : Net H O A K) (ep : List (Tr O A K)) (t : Nat) (tr : Tr O A K) (h : ep[t]? = some tr) :
    hiddenAt m ep (t + 1) = m.cell (hiddenAt m ep t) tr.nextState := by
  have ht : ep.take (t + 1) = ep.take t ++ [tr] := by
    rw [List.take_add_one, h]; rfl
  simp [hiddenAt, seen, ht, List.foldl_append]

theorem alone_get (m : Net H O A K) (ep : List (Tr O A K)) (t : Nat) :
    (alone m ep)[t]? = (ep[t]?).map fun tr => ⟨hiddenAt m ep t, tr.action, tr.reward, hiddenAt m ep (t + 1), tr.terminal⟩ := by
  simp [alone]

theorem alone_length (m : Net H O A K) (ep : List (Tr O A K)) : (alone m ep).length = ep.length := by simp [alone]

/-- **C126.** In a contiguous episode the model has read, before it gives its value and distribution at time `t`, exactly
the states of the episode up to this time. -/
theorem C126_seen (ep : List (Tr O A K)) (hc : Contiguous ep) (t : Nat) (ht : t < ep.length) :
    seen ep t = (ep.take (t + 1)).map Tr.state := by
  induction t with
  | zero => cases ep with
    | nil => simp at ht
    | cons a ep => simp [seen]
  | succ t ih =>
    have h1 : ep[t]? = some ep[t] := List.getElem?_eq_getElem (by omega)
    have h2 : ep[t + 1]? = some ep[t + 1] := List.getElem?_eq_getElem ht
    have e : seen ep (t + 1) = seen ep t ++ [ep[t].nextState] := by
      have e' : ep.take (t + 1) = ep.take t ++ [ep[t]] := by rw [List.take_add_one, h1]; rfl
      simp only [seen, e', List.map_append, List.append_assoc, List.map_cons, List.map_nil]
    rw [e, ih (by omega), List.take_add_one (i := t + 1), h2, List.map_append]
    have := List.isChain_iff_getElem.1 hc t ht
    simp [this]

/-! ## Columns -/

/-- What a transition has besides states. -/
def erase {X : Type} (tr : Tr X A K) : A × K × Bool := (tr.action, tr.reward, tr.terminal)

theorem column_erase (m : Net H O A K) (t : Nat) : ∀ eps : List (List (Tr O A K)),
    (column t (eps.map (alone m))).map erase = (column t eps).map erase
  | [] => rfl
  | e :: eps => by
    rw [List.map_cons]
    simp only [column, alone_get]
    cases h : e[t]? with
    | none => rfl
    | some tr => simp [column_erase m t eps, erase]

theorem column_length (m : Net H O A K) (t : Nat) (eps : List (List (Tr O A K))) :
    (column t (eps.map (alone m))).length = (column t eps).length := by
  have := congrArg List.length (column_erase m t eps)
  simpa using this

theorem column_shrinks {X : Type} (t : Nat) : ∀ eps : List (List (Tr X A K)), (column (t + 1) eps).length ≤ (column t eps).length
  | [] => Nat.le_refl _
  | e :: eps => by
    simp only [column]
    cases h : e[t + 1]? with
    | none => simp
    | some tr =>
      have ht : t < e.length := by
        have := (List.getElem?_eq_some_iff.1 h).1
        omega
      rw [List.getElem?_eq_getElem ht]
      simpa using column_shrinks t eps

theorem column_first (m : Net H O A K) : ∀ eps : List (List (Tr O A K)),
    ((column 0 eps).map Tr.state).map (m.cell m.h0) = (column 0 (eps.map (alone m))).map Tr.state
  | [] => rfl
  | e :: eps => by
    rw [List.map_cons]
    simp only [column, alone_get]
    cases e with
    | nil => rfl
    | cons tr e => simp [← column_first m eps, hiddenAt_zero]

theorem column_state_next (m : Net H O A K) (t : Nat) : ∀ eps : List (List (Tr O A K)),
    List.zipWith m.cell ((column t (eps.map (alone m))).map Tr.state) ((column t eps).map Tr.nextState) =
      (column t (eps.map (alone m))).map Tr.nextState
  | [] => rfl
  | e :: eps => by
    rw [List.map_cons]
    simp only [column, alone_get]
    cases h : e[t]? with
    | none => rfl
    | some tr => simp [column_state_next m t eps, hiddenAt_succ m e t tr h]

theorem column_next_next (m : Net H O A K) (t : Nat) : ∀ eps : List (List (Tr O A K)),
    List.zipWith m.cell ((column t (eps.map (alone m))).map Tr.nextState) ((column (t + 1) eps).map Tr.nextState) =
      (column (t + 1) (eps.map (alone m))).map Tr.nextState
  | [] => rfl
  | e :: eps => by
    rw [List.map_cons]
    simp only [column, alone_get]
    cases h : e[t + 1]? with
    | none => simp
    | some tr =>
      have ht : t < e.length := by
        have := (List.getElem?_eq_some_iff.1 h).1
        omega
      rw [List.getElem?_eq_getElem ht]
      simp [column_next_next m t eps, hiddenAt_succ m e (t + 1) tr h]

theorem zip_take {α β γ : Type} (f : α → β → γ) : ∀ (l : List α) (k : List β), List.zipWith f l k = List.zipWith f (l.take k.length) k
  | [], k => by simp
  | a :: l, [] => by simp
  | a :: l, b :: k => by simp [← zip_take f l k]

/-- The column computed from rows and the batch is that of the lone episodes. -/
theorem col_eq (m : Net H O A K) (eps : List (List (Tr O A K))) (t : Nat) (next : Option (List H)) (rows : List H)
    (hrows : rows = PCL.colStates next (column t (eps.map (alone m)))) :
    (⟨rows.map m.V,
      List.zipWith (fun x (tr : Tr O A K) => m.V x * (if tr.terminal then 0 else 1)) ((column t (eps.map (alone m))).map Tr.nextState) (column t eps),
      (column t eps).map Tr.reward, List.zipWith (fun x (tr : Tr O A K) => m.logp x tr.action) rows (column t eps)⟩ : Col K) =
      (PCL.mkCol m.V m.logp next (column t (eps.map (alone m)))).1 := by
  have he := column_erase m t eps
  have z1 : ∀ (l : List H), List.zipWith (fun x (tr : Tr O A K) => m.V x * (if tr.terminal then 0 else 1)) l (column t eps) =
      List.zipWith (fun x (e : A × K × Bool) => m.V x * (if e.2.2 then 0 else 1)) l ((column t eps).map erase) := by
    intro l; rw [List.zipWith_map_right]; rfl
  have z2 : ∀ (l : List H), List.zipWith (fun x (tr : Tr O A K) => m.logp x tr.action) l (column t eps) =
      List.zipWith (fun x (e : A × K × Bool) => m.logp x e.1) l ((column t eps).map erase) := by
    intro l; rw [List.zipWith_map_right]; rfl
  have z3 : (column t eps).map Tr.reward = ((column t eps).map erase).map (·.2.1) := by rw [List.map_map]; rfl
  rw [z1, z2, z3, ← he, hrows]
  simp only [PCL.mkCol, List.zipWith_map_right, List.zipWith_map_left, List.map_map]
  congr 1
  exact List.zipWith_self

theorem cols_eq (m : Net H O A K) (eps : List (List (Tr O A K))) : ∀ (n t : Nat) (hh : List H),
    hh.take (column t eps).length = (column t (eps.map (alone m))).map Tr.nextState →
    cols m eps (t + 1) n (some hh) (some ((column t (eps.map (alone m))).map Tr.nextState)) =
      .ok (PCL.cols m.V m.logp (eps.map (alone m)) (t + 1) n (some ((column t (eps.map (alone m))).map Tr.nextState)))
  | 0, t, hh, _ => rfl
  | n + 1, t, hh, hi => by
    have hs := column_shrinks t eps
    have hlen : (column t eps).length ≤ hh.length := by
      have := congrArg List.length hi
      rw [List.length_map, column_length, List.length_take] at this
      omega
    have hcall : m.call (some hh) ((column (t + 1) eps).map Tr.nextState) =
        .ok ((column (t + 1) (eps.map (alone m))).map Tr.nextState ++ hh.drop (column (t + 1) eps).length) := by
      have : ¬ hh.length < ((column (t + 1) eps).map Tr.nextState).length := by rw [List.length_map]; omega
      simp only [Net.call, if_neg this, List.length_map]
      rw [if_neg (by omega), ← column_next_next m t eps, ← hi, zip_take m.cell hh, zip_take m.cell (hh.take (column t eps).length), List.take_take, List.length_map, Nat.min_eq_left hs]
    have htake : ((column (t + 1) (eps.map (alone m))).map Tr.nextState ++ hh.drop (column (t + 1) eps).length).take
        (column (t + 1) eps).length = (column (t + 1) (eps.map (alone m))).map Tr.nextState := by
      apply List.take_left'
      rw [List.length_map, column_length]
    simp only [cols, current, hcall, htake, bind, Except.bind, pure, Except.pure, PCL.cols]
    rw [cols_eq m eps n (t + 1) _ htake]
    simp only
    rw [col_eq m eps (t + 1) (some ((column t (eps.map (alone m))).map Tr.nextState)) _ (by
      simp only [PCL.colStates, column_length])]
    rfl

theorem cols_first (m : Net H O A K) (eps : List (List (Tr O A K))) (n : Nat) :
    cols m eps 0 n none none = .ok (PCL.cols m.V m.logp (eps.map (alone m)) 0 n none) := by
  cases n with
  | zero => rfl
  | succ n =>
    have h1 : m.call none ((column 0 eps).map Tr.state) = .ok ((column 0 (eps.map (alone m))).map Tr.state) := by
      rw [← column_first]; rfl
    have hl : ((column 0 (eps.map (alone m))).map Tr.state).length = (column 0 eps).length := by
      rw [List.length_map, column_length]
    have hl' : ((column 0 (eps.map (alone m))).map Tr.nextState).length = (column 0 eps).length := by
      rw [List.length_map, column_length]
    have h2 : m.call (some ((column 0 (eps.map (alone m))).map Tr.state)) ((column 0 eps).map Tr.nextState) =
        .ok ((column 0 (eps.map (alone m))).map Tr.nextState) := by
      have : ¬ ((column 0 (eps.map (alone m))).map Tr.state).length < ((column 0 eps).map Tr.nextState).length := by
        rw [hl, List.length_map]; omega
      simp only [Net.call, if_neg this, column_state_next]
      rw [List.drop_eq_nil_of_le (by rw [hl, List.length_map]), List.append_nil]
    have t1 : ((column 0 (eps.map (alone m))).map Tr.state).take (column 0 eps).length = (column 0 (eps.map (alone m))).map Tr.state :=
      List.take_of_length_le (by rw [hl])
    have t2 : ((column 0 (eps.map (alone m))).map Tr.nextState).take (column 0 eps).length = (column 0 (eps.map (alone m))).map Tr.nextState :=
      List.take_of_length_le (by rw [hl'])
    simp only [cols, current, h1, h2, t1, t2, bind, Except.bind, pure, Except.pure, PCL.cols]
    rw [cols_eq m eps n 0 _ t2]
    simp only
    have hc := col_eq m eps 0 none ((column 0 (eps.map (alone m))).map Tr.state) rfl
    rw [hc]
    rfl

theorem alone_contiguous (m : Net H O A K) (ep : List (Tr O A K)) : Contiguous (alone m ep) := by
  refine List.isChain_iff_getElem.2 fun i hi => ?_
  simp [alone]

theorem losses_lengths {X Y : Type} (c : Cfg K) (cs : List (Col K)) : ∀ (eps : List (List (Tr X A K))) (eps' : List (List (Tr Y A K))) (i : Nat),
    eps.map List.length = eps'.map List.length → losses c cs i eps = losses c cs i eps'
  | [], [], i, _ => rfl
  | [], e' :: l', i, h => by simp at h
  | e :: l, [], i, h => by simp at h
  | e :: l, e' :: l', i, h => by
    simp only [List.map_cons, List.cons.injEq] at h
    simp only [losses, h.1, losses_lengths c cs l l' (i + 1) h.2]

/-- **C126.** With a recurrent model (a stack of LSTMs, say), for every batch of episodes of any lengths, no exception is raised, and
the loss of PCL's replay update is the weighted sum of the path consistency losses of the episodes, longest first, in each of which the values and
log probabilities are those of the model after a reset and the observations of this episode alone up to the time in question: neither the other episodes of the
batch nor what the model had seen before play a role.  Afterwards the memory of the model is as it was before. -/
theorem C126_replay (c : Cfg K) (m : Net H O A K) (batchsize : Nat) (hr : 1 ≤ c.rolloutLen) (kept : Option (List H))
    (eps : List (List (Tr O A K))) (weights : List K) (h0 : eps ≠ []) (hne : ∀ ep ∈ eps, ep ≠ []) :
    ∃ order : List (List (Tr O A K)), order.Perm eps ∧ order.Pairwise (fun a b => b.length ≤ a.length) ∧
      replayLoss c m batchsize kept eps weights =
        .ok ((List.zipWith (· * ·) weights (order.map fun ep => episodeLoss c m.V m.logp (alone m ep))).sum / (batchsize : K), kept) := by
  have hp := PCL.sort_perm eps
  have hd := PCL.sort_descending eps
  refine ⟨sortEpisodes eps, hp, hd, ?_⟩
  obtain ⟨first, rest, hs⟩ : ∃ f r, sortEpisodes eps = f :: r := by
    cases hh : sortEpisodes eps with
    | nil => rw [hh] at hp; exact absurd hp.symm.eq_nil h0
    | cons f r => exact ⟨f, r, rfl⟩
  have hd' : Descending ((sortEpisodes eps).map (alone m)) := by
    unfold Descending
    rw [List.pairwise_map]
    simp only [alone_length]
    exact hd
  have hl := PCL.losses_eq c m.V m.logp hr ((sortEpisodes eps).map (alone m)) first.length hd' (by
      intro ep hep
      obtain ⟨e, he, rfl⟩ := List.mem_map.1 hep
      rw [alone_length]
      rw [hs] at he hd
      rcases List.mem_cons.1 he with rfl | he
      · exact le_refl _
      · exact (List.pairwise_cons.1 hd).1 e he)
    (by
      intro ep hep
      obtain ⟨e, he, rfl⟩ := List.mem_map.1 hep
      exact alone_contiguous m e)
    (by
      intro ep hep
      obtain ⟨e, he, rfl⟩ := List.mem_map.1 hep
      intro h
      have := congrArg List.length h
      rw [alone_length] at this
      exact hne e (hp.mem_iff.1 he) (List.length_eq_zero_iff.1 this))
    ((sortEpisodes eps).map (alone m)) 0 rfl
  have hg : pyGet (sortEpisodes eps) 0 = .ok first := by
    apply PCL.pyGet_nat (i := 0); rw [hs]; rfl
  have hll := losses_lengths c (PCL.cols m.V m.logp ((sortEpisodes eps).map (alone m)) 0 first.length none) (sortEpisodes eps)
    ((sortEpisodes eps).map (alone m)) 0 (by
      rw [List.map_map]; apply List.map_congr_left; intro e _; simp [alone_length])
  simp only [replayLoss, hg, cols_first, hll, hl, bind, Except.bind, pure, Except.pure, List.map_map]
  rfl

/-- **C126.** A model without memory is a special case, in which the loss is that of C74. -/
theorem C126_feed_forward (V : O → K) (logp : O → A → K) (h0 : O) (ep : List (Tr O A K)) (hc : Contiguous ep) :
    alone ⟨h0, fun _ o => o, V, logp⟩ ep = ep := by
  apply List.ext_getElem?
  intro t
  rw [alone_get]
  cases h : ep[t]? with
  | none => rfl
  | some tr =>
    have hl := (List.getElem?_eq_some_iff.1 h).1
    have e1 := hiddenAt_succ (⟨h0, fun _ o => o, V, logp⟩ : Net O O A K) ep t tr h
    have e0 : hiddenAt (⟨h0, fun _ o => o, V, logp⟩ : Net O O A K) ep t = tr.state := by
      cases t with
      | zero =>
        cases ep with
        | nil => simp at h
        | cons a ep =>
          simp only [List.getElem?_cons_zero, Option.some.injEq] at h
          rw [hiddenAt_zero, h]
      | succ t =>
        have h1 : ep[t]? = some ep[t] := List.getElem?_eq_getElem (by omega)
        rw [hiddenAt_succ _ ep t _ h1]
        have := List.isChain_iff_getElem.1 hc t hl
        rw [List.getElem?_eq_getElem hl] at h
        rw [this, Option.some.inj h]
    rw [Option.map_some, e0, e1]

/-! ## A concrete case -/

/-- A model that sums what it has seen, and two episodes of different lengths. -/
def exNet : Net ℚ ℚ ℚ ℚ := ⟨0, fun h o => h + o, id, fun h a => h * a⟩

def exShort : List (Tr ℚ ℚ ℚ) := [⟨1, 2, 3, 4, true⟩]

def exLong : List (Tr ℚ ℚ ℚ) := [⟨10, 1, 5, 20, false⟩, ⟨20, 1, 6, 30, false⟩]

example := C126_replay (K := ℚ) ⟨1, 1, 1, 0, 1, false⟩ exNet 2 (by decide) (some [7]) [exShort, exLong] [1, 1] (by simp) (by simp [exShort, exLong])

/-- The sums 10, 30, 60 of the long episode and 1, 5 of the short one. -/
example : ((alone exNet exLong).map fun tr => (tr.state, tr.nextState)) = [(10, 30), (30, 60)] ∧
    ((alone exNet exShort).map fun tr => (tr.state, tr.nextState)) = [(1, 5)] := by decide +kernel

/-- The loop over times on these, longest first: the second row ends after the first time. -/
example : ((cols exNet [exLong, exShort] 0 2 none none).toOption.map fun cs => cs.map fun c => (c.values, c.nextValues, c.logps)) =
    some [([10, 1], [30, 0], [10, 2]), ([30], [60], [30])] := by decide +kernel

end Verif.PCLRecurrent
