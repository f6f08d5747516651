import Verif.Proofs.RecurrentDDPG
import Mathlib.Algebra.Ring.Int.Defs

set_option autoImplicit false
set_option linter.unusedSectionVars false

/-! # C82: the update of a recurrent DDPG agent from sampled episodes -/

namespace Verif.RecDDPG
variable {F A R S Hq Hp : Type} [CommRing R]

/-- What the Q-function has seen before step `i` of an episode: the earlier states and
actions. -/
def seen (phi : S → F) (ep : List (Transition S A R)) (i : Nat) : List (F × A) :=
  (ep.take i).map fun t => (phi t.state, t.action)

/-- What the target Q-function has seen before it is evaluated for step `i`: the first state
and action, then the next states and next actions of the earlier steps. -/
def seenNext (phi : S → F) (ep : List (Transition S A R)) (i : Nat) : List (F × A) :=
  (ep.take 1).map (fun t => (phi t.state, t.action)) ++
    (ep.take i).filterMap fun t => t.nextAction.map fun a => (phi t.nextState, a)

/-- What the target policy has seen before: the first state, then the earlier next states. -/
def seenNextStates (phi : S → F) (ep : List (Transition S A R)) (i : Nat) : List F :=
  (ep.take 1).map (fun t => phi t.state) ++ (ep.take i).map fun t => phi t.nextState

/-- The prediction for step `i`: the value of its state and action given the earlier ones. -/
def prediction (m : Models F A R Hq Hp) (phi : S → F) (ep : List (Transition S A R)) (i : Nat)
    (t : Transition S A R) : R :=
  m.q.out (seen phi ep i) (phi t.state, t.action)

/-- The target for step `i`: the target policy's action for the next state, valued by the
target Q-function, both given what they have seen. -/
def target (m : Models F A R Hq Hp) (phi : S → F) (gamma : R) (ep : List (Transition S A R)) (i : Nat)
    (t : Transition S A R) : R :=
  let next := m.targetQ.out (seenNext phi ep i)
    (phi t.nextState, m.targetPolicy.out (seenNextStates phi ep i) (phi t.nextState))
  t.reward + if t.terminal then 0 else gamma * next

theorem take_succ_getD {α : Type} (e : List α) (i : Nat) (d : α) (h : i < e.length) :
    e.take (i + 1) = e.take i ++ [e.getD i d] := by
  rw [List.take_add_one, List.getElem?_eq_getElem h]
  simp [List.getD, List.getElem?_eq_getElem h]

theorem zip_map_map {α β γ : Type} (l : List α) (f : α → β) (g : α → γ) :
    (l.map f).zip (l.map g) = l.map fun x => (f x, g x) := by
  induction l with
  | nil => rfl
  | cons a l ih => simp [ih]

theorem getD_mem {α : Type} (e : List α) (i : Nat) (d : α) (h : i < e.length) : e.getD i d ∈ e := by
  simp only [List.getD, List.getElem?_eq_getElem h, Option.getD_some]
  exact List.getElem_mem h

/-- The state before step `i`. -/
def stAt (m : Models F A R Hq Hp) (phi : S → F) (eps : List (List (Transition S A R))) (i : Nat) :
    CriticSt Hq Hp :=
  ⟨if i = 0 then none else some (eps.map fun e => m.q.after (seen phi e i)),
    some (eps.map fun e => m.targetQ.after (seenNext phi e i)),
    some (eps.map fun e => m.targetPolicy.after (seenNextStates phi e i))⟩

/-- The results for step `i`. -/
def resultAt (m : Models F A R Hq Hp) (phi : S → F) (gamma : R) (eps : List (List (Transition S A R)))
    (i : Nat) : List R × List R :=
  (eps.filterMap fun e => (e[i]?).map (target m phi gamma e i),
    eps.filterMap fun e => (e[i]?).map (prediction m phi e i))

/-- The batch of step `i`. -/
def batchAt (phi : S → F) (gamma : R) (eps : List (List (Transition S A R))) (i : Nat) : ExpBatch F A R :=
  let trs := eps.filterMap fun e => e[i]?
  { batchOf phi trs with discount := trs.map fun _ => gamma }

variable (m : Models F A R Hq Hp) (phi : S → F) (gamma : R)

theorem seen_step (e : List (Transition S A R)) (i : Nat) (d : Transition S A R) (h : i < e.length) :
    seen phi e (i + 1) = seen phi e i ++ [(phi (e.getD i d).state, (e.getD i d).action)] := by
  simp [seen, take_succ_getD e i d h]

theorem seen_done (e : List (Transition S A R)) (i : Nat) (h : e.length ≤ i) :
    seen phi e (i + 1) = seen phi e i := by
  simp [seen, List.take_of_length_le h, List.take_of_length_le (Nat.le_succ_of_le h)]

theorem seenNextStates_step (e : List (Transition S A R)) (i : Nat) (d : Transition S A R)
    (h : i < e.length) :
    seenNextStates phi e (i + 1) = seenNextStates phi e i ++ [phi (e.getD i d).nextState] := by
  simp [seenNextStates, take_succ_getD e i d h]

theorem seenNextStates_done (e : List (Transition S A R)) (i : Nat) (h : e.length ≤ i) :
    seenNextStates phi e (i + 1) = seenNextStates phi e i := by
  simp [seenNextStates, List.take_of_length_le h, List.take_of_length_le (Nat.le_succ_of_le h)]

theorem seenNext_step (e : List (Transition S A R)) (i : Nat) (d : Transition S A R) (a : A)
    (h : i < e.length) (ha : (e.getD i d).nextAction = some a) :
    seenNext phi e (i + 1) = seenNext phi e i ++ [(phi (e.getD i d).nextState, a)] := by
  unfold seenNext
  rw [take_succ_getD e i d h, List.filterMap_append, List.append_assoc]
  simp only [List.filterMap_cons, ha, Option.map_some, List.filterMap_nil]

theorem seenNext_done (e : List (Transition S A R)) (i : Nat) (h : e.length ≤ i) :
    seenNext phi e (i + 1) = seenNext phi e i := by
  simp [seenNext, List.take_of_length_le h, List.take_of_length_le (Nat.le_succ_of_le h)]

theorem criticStep_at (eps : List (List (Transition S A R))) (hd : Desc eps) (h0 : ∀ e ∈ eps, e ≠ [])
    (hn : ∀ e ∈ eps, ∀ t ∈ e, t.nextAction ≠ none) (d : Transition S A R) (a0 : A) (i : Nat) :
    criticStep m gamma (stAt m phi eps i) (batchAt phi gamma eps i) =
      .ok (stAt m phi eps (i + 1), resultAt m phi gamma eps i) := by
  obtain ⟨alive, dead, rfl, h1, h2⟩ := split_desc eps hd i
  have hdead0 : i = 0 → dead = [] := by
    rintro rfl
    apply List.eq_nil_iff_forall_not_mem.2
    intro e he
    exact h0 e (by simp [he]) (List.length_eq_zero_iff.1 (Nat.le_zero.1 (h2 e he)))
  have htrs : (alive ++ dead).filterMap (fun e => e[i]?) = alive.map fun e => e.getD i d := by
    have := filterMap_split i alive dead d (fun _ t => t) h1 h2
    simpa using this
  have hna : ∀ e ∈ alive, (e.getD i d).nextAction = some ((e.getD i d).nextAction.getD a0) := by
    intro e he
    have := hn e (by simp [he]) _ (getD_mem e i d (h1 e he))
    cases h : (e.getD i d).nextAction with
    | none => exact absurd h this
    | some a => rfl
  have hbatch : batchAt phi gamma (alive ++ dead) i =
      { state := alive.map fun e => phi (e.getD i d).state
        action := alive.map fun e => (e.getD i d).action
        reward := alive.map fun e => (e.getD i d).reward
        nextState := alive.map fun e => phi (e.getD i d).nextState
        terminal := alive.map fun e => if (e.getD i d).terminal then 1 else 0
        discount := alive.map fun _ => gamma
        nextAction := some (alive.map fun e => (e.getD i d).nextAction.getD a0) } := by
    unfold batchAt batchOf
    rw [htrs]
    simp only [List.map_map]
    congr 2
    clear htrs hn h0 hd h1 hdead0
    induction alive with
    | nil => rfl
    | cons e alive ih =>
      rw [List.map_cons, List.filterMap_cons_some (hna e (by simp)), List.map_cons,
        ih (fun x hx => hna x (by simp [hx]))]
  rw [hbatch]
  unfold criticStep
  simp only [stAt, nextActions]
  -- the target policy
  rw [m.targetPolicy.call_hist alive dead (fun e => seenNextStates phi e i) (fun e => seenNextStates phi e (i + 1))
    (fun e => phi (e.getD i d).nextState) _ (.inl rfl) (by simp)
    (fun e he => seenNextStates_step phi e i d (h1 e he)) (fun e he => seenNextStates_done phi e i (h2 e he)),
    bind_ok]
  simp only []
  -- the target Q-function is evaluated
  rw [zip_map_map]
  rw [m.targetQ.call_hist alive dead (fun e => seenNext phi e i)
    (fun e => if i < e.length then seenNext phi e i ++ [(phi (e.getD i d).nextState,
      m.targetPolicy.out (seenNextStates phi e i) (phi (e.getD i d).nextState))] else seenNext phi e i)
    (fun e => (phi (e.getD i d).nextState,
      m.targetPolicy.out (seenNextStates phi e i) (phi (e.getD i d).nextState))) _ (.inl rfl) (by simp)
    (fun e he => by rw [if_pos (h1 e he)]) (fun e he => by rw [if_neg (by have := h2 e he; omega)]),
    bind_ok]
  simp only [restore, bind_ok]
  -- and reads the next action
  rw [zip_map_map]
  rw [m.targetQ.call_hist alive dead (fun e => seenNext phi e i) (fun e => seenNext phi e (i + 1))
    (fun e => (phi (e.getD i d).nextState, (e.getD i d).nextAction.getD a0)) _ (.inl rfl) (by simp)
    (fun e he => seenNext_step phi e i d _ (h1 e he) (hna e he)) (fun e he => seenNext_done phi e i (h2 e he)),
    bind_ok]
  -- the Q-function
  rw [zip_map_map]
  rw [m.q.call_hist alive dead (fun e => seen phi e i) (fun e => seen phi e (i + 1))
    (fun e => (phi (e.getD i d).state, (e.getD i d).action)) _
    (by
      by_cases hi : i = 0
      · right
        subst hi
        exact ⟨by simp, fun e _ => by simp [seen]⟩
      · left; rw [if_neg hi])
    (by
      by_cases hi : i = 0
      · exact fun _ => hdead0 hi
      · rw [if_neg hi]; simp)
    (fun e he => seen_step phi e i d (h1 e he)) (fun e he => seen_done phi e i (h2 e he)),
    bind_ok]
  show Except.ok _ = Except.ok _
  congr 2
  unfold resultAt
  rw [filterMap_split i alive dead d (fun e => target m phi gamma e i) h1 h2,
    filterMap_split i alive dead d (fun e => prediction m phi e i) h1 h2]
  congr 1
  clear htrs hn h0 hd hna hbatch hdead0 h1
  induction alive with
  | nil => rfl
  | cons e alive ih =>
    simp only [List.map_cons, List.zipWith_cons_cons, ih]
    congr 1
    unfold target
    cases (e.getD i d).terminal <;> simp

theorem criticLoop_at (eps : List (List (Transition S A R))) (hd : Desc eps) (h0 : ∀ e ∈ eps, e ≠ [])
    (hn : ∀ e ∈ eps, ∀ t ∈ e, t.nextAction ≠ none) (d : Transition S A R) (a0 : A) (n i : Nat) :
    criticLoop m gamma (stAt m phi eps i) ((List.range' i n).map (batchAt phi gamma eps)) =
      .ok ((List.range' i n).map (resultAt m phi gamma eps)) := by
  induction n generalizing i with
  | zero => rfl
  | succ n ih =>
    simp only [List.range'_succ, List.map_cons, criticLoop]
    rw [criticStep_at m phi gamma eps hd h0 hn d a0, bind_ok, ih, bind_ok]
    rfl

theorem inputBatches_at (eps : List (List (Transition S A R))) (hd : Desc eps)
    (hn : ∀ e ∈ eps, ∀ t ∈ e, t.nextAction ≠ none) (d : Transition S A R) (e : List (Transition S A R))
    (rest : List (List (Transition S A R))) (he : eps = e :: rest) :
    inputBatches phi gamma eps = .ok ((List.range e.length).map (batchAt phi gamma eps)) := by
  unfold inputBatches
  have : pyGet eps 0 = .ok e := by rw [he]; exact pyGet_zero e rest
  rw [this, bind_ok]
  apply mapM_ok
  intro i _
  obtain ⟨alive, dead, rfl, h1, h2⟩ := split_desc eps hd i
  rw [column_split i alive dead d h1 h2]
  have htrs : (alive ++ dead).filterMap (fun e => e[i]?) = alive.map fun e => e.getD i d := by
    have := filterMap_split i alive dead d (fun _ t => t) h1 h2
    simpa using this
  have := batchExperiences_single phi gamma (alive.map fun e => e.getD i d) (by
    intro t ht
    obtain ⟨e, he, rfl⟩ := List.mem_map.1 ht
    exact hn e (by simp [he]) _ (getD_mem e i d (h1 e he)))
  rw [List.map_map] at this
  unfold batchAt
  rw [htrs]
  exact this

/-- The greatest length of the episodes. -/
def Longest (n : Nat) (episodes : List (List (Transition S A R))) : Prop :=
  (∃ e ∈ episodes, e.length = n) ∧ ∀ e ∈ episodes, e.length ≤ n

theorem sorted_facts (episodes : List (List (Transition S A R))) (hne : episodes ≠ [])
    (h0 : ∀ e ∈ episodes, e ≠ []) (n : Nat) (hlong : Longest n episodes) :
    ∃ e rest, sortEpisodes episodes = e :: rest ∧ e.length = n ∧ n ≠ 0 ∧
      ∀ x ∈ sortEpisodes episodes, x ∈ episodes := by
  have hp := sortEpisodes_perm episodes
  have hd := sortEpisodes_desc episodes
  cases hs : sortEpisodes episodes with
  | nil =>
    rw [hs] at hp
    exact absurd hp.symm.eq_nil hne
  | cons e rest =>
    rw [hs] at hp hd
    have hmem : e ∈ episodes := hp.mem_iff.1 (by simp)
    have hle := hlong.2 e hmem
    obtain ⟨x, hx, hxn⟩ := hlong.1
    have hx' : x ∈ e :: rest := hp.mem_iff.2 hx
    have : n ≤ e.length := by
      rcases List.mem_cons.1 hx' with rfl | hx'
      · omega
      · rw [← hxn]; exact (List.pairwise_cons.1 hd).1 x hx'
    refine ⟨e, rest, rfl, by omega, ?_, fun x hx => hp.mem_iff.1 hx⟩
    have : e.length ≠ 0 := fun h => h0 e hmem (List.length_eq_zero_iff.1 h)
    omega

/-- The critic update, for every batch of non-empty (sub)episodes of any lengths whose steps
carry their next actions: there is an order of the episodes such that the `i`-th loss compares,
for the episodes with an `i`-th step in that order, the targets with the predictions; each
depends on its own episode only and on what the models are documented to have seen. -/
theorem C82_critic (episodes : List (List (Transition S A R))) (hne : episodes ≠ [])
    (h0 : ∀ e ∈ episodes, e ≠ []) (hn : ∀ e ∈ episodes, ∀ t ∈ e, t.nextAction ≠ none) (n : Nat)
    (hlong : Longest n episodes) :
    ∃ order : List (List (Transition S A R)), order.Perm episodes ∧
      criticUpdate m phi gamma episodes = .ok ((List.range n).map fun i =>
        (order.filterMap fun e => (e[i]?).map (target m phi gamma e i),
          order.filterMap fun e => (e[i]?).map (prediction m phi e i))) := by
  refine ⟨sortEpisodes episodes, sortEpisodes_perm episodes, ?_⟩
  obtain ⟨e, rest, hs, hlen, hn0, hmem⟩ := sorted_facts episodes hne h0 n hlong
  have hd := sortEpisodes_desc episodes
  have h0' : ∀ x ∈ sortEpisodes episodes, x ≠ [] := fun x hx => h0 x (hmem x hx)
  have hn' : ∀ x ∈ sortEpisodes episodes, ∀ t ∈ x, t.nextAction ≠ none := fun x hx => hn x (hmem x hx)
  have he : e ∈ sortEpisodes episodes := by rw [hs]; simp
  obtain ⟨d, l, hdl⟩ := List.exists_cons_of_ne_nil (h0' e he)
  have hdn := hn' e he d (by rw [hdl]; simp)
  obtain ⟨a0, ha0⟩ := Option.ne_none_iff_exists'.1 hdn
  unfold criticUpdate
  rw [inputBatches_at phi gamma (sortEpisodes episodes) hd hn' d e rest hs, bind_ok]
  have hfirst : pyGet ((List.range e.length).map (batchAt phi gamma (sortEpisodes episodes))) 0 =
      .ok (batchAt phi gamma (sortEpisodes episodes) 0) := by
    obtain ⟨k, hk⟩ := Nat.exists_eq_succ_of_ne_zero (hlen ▸ hn0)
    rw [hk, List.range_succ_eq_map, List.map_cons]
    exact pyGet_zero _ _
  rw [hfirst, bind_ok]
  have hlen0 : ∀ x ∈ sortEpisodes episodes, 0 < x.length := fun x hx =>
    List.length_pos_iff.2 (h0' x hx)
  have htrs : (sortEpisodes episodes).filterMap (fun x => x[0]?) =
      (sortEpisodes episodes).map fun x => x.getD 0 d := by
    have := filterMap_split 0 (sortEpisodes episodes) [] d (fun _ t => t) hlen0 (by simp)
    simpa using this
  have hstate : (batchAt phi gamma (sortEpisodes episodes) 0).state =
      (sortEpisodes episodes).map fun x => phi (x.getD 0 d).state := by
    simp only [batchAt, batchOf, htrs, List.map_map]; rfl
  have haction : (batchAt phi gamma (sortEpisodes episodes) 0).action =
      (sortEpisodes episodes).map fun x => (x.getD 0 d).action := by
    simp only [batchAt, batchOf, htrs, List.map_map]; rfl
  have hone : ∀ x ∈ sortEpisodes episodes, x.take 1 = [x.getD 0 d] := fun x hx => by
    rw [take_succ_getD x 0 d (hlen0 x hx)]; rfl
  have c1 := m.targetQ.call_hist (sortEpisodes episodes) [] (fun _ => []) (fun x => seenNext phi x 0)
    (fun x => (phi (x.getD 0 d).state, (x.getD 0 d).action)) none (.inr ⟨rfl, fun _ _ => rfl⟩) (fun _ => rfl)
    (fun x hx => by simp [seenNext, hone x hx]) (by simp)
  have c2 := m.targetPolicy.call_hist (sortEpisodes episodes) [] (fun _ => []) (fun x => seenNextStates phi x 0)
    (fun x => phi (x.getD 0 d).state) none (.inr ⟨rfl, fun _ _ => rfl⟩) (fun _ => rfl)
    (fun x hx => by simp [seenNextStates, hone x hx]) (by simp)
  rw [List.append_nil] at c1 c2
  rw [hstate, haction, zip_map_map, c1, bind_ok, c2, bind_ok]
  have := criticLoop_at m phi gamma (sortEpisodes episodes) hd h0' hn' d a0 e.length 0
  rw [← List.range_eq_range'] at this
  rw [← hlen]
  exact this

/-! ### The actor update -/

/-- What the policy has seen before step `i`. -/
def seenStates (phi : S → F) (ep : List (Transition S A R)) (i : Nat) : List F :=
  (ep.take i).map fun t => phi t.state

/-- The value that the actor update maximises for step `i`: that of the policy's action, given
the earlier states and the earlier states and actions. -/
def actorValue (m : Models F A R Hq Hp) (phi : S → F) (ep : List (Transition S A R)) (i : Nat)
    (t : Transition S A R) : R :=
  m.q.out (seen phi ep i) (phi t.state, m.policy.out (seenStates phi ep i) (phi t.state))

/-- What the Q-function has really seen before step `i ≥ 1` of the actor update: the first
state with the policy's action too. -/
def seenTwice (m : Models F A R Hq Hp) (phi : S → F) (ep : List (Transition S A R)) (i : Nat) : List (F × A) :=
  if i = 0 then [] else
    (ep.take 1).map (fun t => (phi t.state, m.policy.out [] (phi t.state))) ++ seen phi ep i

/-- The value that is really maximised. -/
def realValue (m : Models F A R Hq Hp) (phi : S → F) (ep : List (Transition S A R)) (i : Nat)
    (t : Transition S A R) : R :=
  m.q.out (seenTwice m phi ep i) (phi t.state, m.policy.out (seenStates phi ep i) (phi t.state))

theorem seenStates_step (e : List (Transition S A R)) (i : Nat) (d : Transition S A R) (h : i < e.length) :
    seenStates phi e (i + 1) = seenStates phi e i ++ [phi (e.getD i d).state] := by
  simp [seenStates, take_succ_getD e i d h]

theorem seenStates_done (e : List (Transition S A R)) (i : Nat) (h : e.length ≤ i) :
    seenStates phi e (i + 1) = seenStates phi e i := by
  simp [seenStates, List.take_of_length_le h, List.take_of_length_le (Nat.le_succ_of_le h)]

/-- The states before step `i` of the actor update. -/
def actAt (eps : List (List (Transition S A R))) (i : Nat) : Option (List Hq) × Option (List Hp) :=
  if i = 0 then (none, none) else
    (some (eps.map fun e => m.q.after (seenTwice m phi e i)),
      some (eps.map fun e => m.policy.after (seenStates phi e i)))

theorem actorStep_at (eps : List (List (Transition S A R))) (hd : Desc eps) (h0 : ∀ e ∈ eps, e ≠ [])
    (d : Transition S A R) (i : Nat) :
    actorStep m (actAt m phi eps i) (batchAt phi gamma eps i) =
      .ok (actAt m phi eps (i + 1), eps.filterMap fun e => (e[i]?).map (realValue m phi e i)) := by
  obtain ⟨alive, dead, rfl, h1, h2⟩ := split_desc eps hd i
  have hdead0 : i = 0 → dead = [] := by
    rintro rfl
    apply List.eq_nil_iff_forall_not_mem.2
    intro e he
    exact h0 e (by simp [he]) (List.length_eq_zero_iff.1 (Nat.le_zero.1 (h2 e he)))
  have htrs : (alive ++ dead).filterMap (fun e => e[i]?) = alive.map fun e => e.getD i d := by
    have := filterMap_split i alive dead d (fun _ t => t) h1 h2
    simpa using this
  have hstate : (batchAt phi gamma (alive ++ dead) i).state = alive.map fun e => phi (e.getD i d).state := by
    simp only [batchAt, batchOf, htrs, List.map_map]; rfl
  have haction : (batchAt phi gamma (alive ++ dead) i).action = alive.map fun e => (e.getD i d).action := by
    simp only [batchAt, batchOf, htrs, List.map_map]; rfl
  unfold actorStep
  rw [hstate, haction]
  rw [m.policy.call_hist alive dead (fun e => seenStates phi e i) (fun e => seenStates phi e (i + 1))
    (fun e => phi (e.getD i d).state) _
    (by
      by_cases hi : i = 0
      · right; subst hi; exact ⟨rfl, fun e _ => by simp [seenStates]⟩
      · left; simp only [actAt, if_neg hi])
    (by
      by_cases hi : i = 0
      · exact fun _ => hdead0 hi
      · simp only [actAt, if_neg hi]; simp)
    (fun e he => seenStates_step phi e i d (h1 e he)) (fun e he => seenStates_done phi e i (h2 e he)), bind_ok]
  simp only []
  rw [zip_map_map, zip_map_map]
  rw [filterMap_split i alive dead d (fun e => realValue m phi e i) h1 h2]
  by_cases hi : i = 0
  · subst hi
    have hdd := hdead0 rfl
    subst hdd
    simp only [List.append_nil] at *
    have hone : ∀ x ∈ alive, x.take 1 = [x.getD 0 d] := fun x hx => by
      rw [take_succ_getD x 0 d (h1 x hx)]; rfl
    have c1 := m.q.call_hist alive [] (fun _ => [])
      (fun e => [(phi (e.getD 0 d).state, m.policy.out (seenStates phi e 0) (phi (e.getD 0 d).state))])
      (fun e => (phi (e.getD 0 d).state, m.policy.out (seenStates phi e 0) (phi (e.getD 0 d).state)))
      none (.inr ⟨rfl, fun _ _ => rfl⟩) (fun _ => rfl) (fun e _ => rfl) (by simp)
    have c2 := m.q.call_hist alive []
      (fun e => [(phi (e.getD 0 d).state, m.policy.out (seenStates phi e 0) (phi (e.getD 0 d).state))])
      (fun e => seenTwice m phi e 1)
      (fun e => (phi (e.getD 0 d).state, (e.getD 0 d).action))
      _ (.inl rfl) (fun h => by simp at h)
      (fun e he => by simp [seenTwice, seen, seenStates, hone e he]) (by simp)
    rw [List.append_nil] at c1 c2
    simp only [actAt, if_true]
    rw [c1, bind_ok]
    simp only [restore]
    rw [c2, bind_ok]
    rfl
  · simp only [actAt, if_neg hi, if_neg (Nat.succ_ne_zero i)]
    rw [m.q.call_hist alive dead (fun e => seenTwice m phi e i)
      (fun e => if i < e.length then seenTwice m phi e i ++ [(phi (e.getD i d).state,
        m.policy.out (seenStates phi e i) (phi (e.getD i d).state))] else seenTwice m phi e i)
      (fun e => (phi (e.getD i d).state, m.policy.out (seenStates phi e i) (phi (e.getD i d).state)))
      _ (.inl rfl) (by simp)
      (fun e he => by rw [if_pos (h1 e he)]) (fun e he => by rw [if_neg (by have := h2 e he; omega)]), bind_ok]
    simp only [restore]
    rw [m.q.call_hist alive dead (fun e => seenTwice m phi e i) (fun e => seenTwice m phi e (i + 1))
      (fun e => (phi (e.getD i d).state, (e.getD i d).action)) _ (.inl rfl) (by simp)
      (fun e he => by
        simp only [seenTwice, if_neg hi, if_neg (Nat.succ_ne_zero i), seen_step phi e i d (h1 e he),
          List.append_assoc])
      (fun e he => by
        simp only [seenTwice, if_neg hi, if_neg (Nat.succ_ne_zero i), seen_done phi e i (h2 e he)]),
      bind_ok]
    rfl

theorem actorLoop_at (eps : List (List (Transition S A R))) (hd : Desc eps) (h0 : ∀ e ∈ eps, e ≠ [])
    (d : Transition S A R) (n i : Nat) :
    actorLoop m (actAt m phi eps i) ((List.range' i n).map (batchAt phi gamma eps)) =
      .ok ((List.range' i n).map fun i => eps.filterMap fun e => (e[i]?).map (realValue m phi e i)) := by
  induction n generalizing i with
  | zero => rfl
  | succ n ih =>
    simp only [List.range'_succ, List.map_cons, actorLoop]
    rw [actorStep_at m phi gamma eps hd h0 d, bind_ok, ih, bind_ok]
    rfl

/-- The actor update, exactly: the policy's histories are as documented, but from the second
step on the Q-function has read the first state twice, because the initial state that was to be
kept while the policy's action was valued is not restored. -/
theorem C82_actor_exact (episodes : List (List (Transition S A R))) (hne : episodes ≠ [])
    (h0 : ∀ e ∈ episodes, e ≠ []) (hn : ∀ e ∈ episodes, ∀ t ∈ e, t.nextAction ≠ none) (n : Nat)
    (hlong : Longest n episodes) :
    ∃ order : List (List (Transition S A R)), order.Perm episodes ∧
      actorUpdate m phi gamma episodes = .ok ((List.range n).map fun i =>
        order.filterMap fun e => (e[i]?).map (realValue m phi e i)) := by
  refine ⟨sortEpisodes episodes, sortEpisodes_perm episodes, ?_⟩
  obtain ⟨e, rest, hs, hlen, hn0, hmem⟩ := sorted_facts episodes hne h0 n hlong
  have hd := sortEpisodes_desc episodes
  have h0' : ∀ x ∈ sortEpisodes episodes, x ≠ [] := fun x hx => h0 x (hmem x hx)
  have hn' : ∀ x ∈ sortEpisodes episodes, ∀ t ∈ x, t.nextAction ≠ none := fun x hx => hn x (hmem x hx)
  have he : e ∈ sortEpisodes episodes := by rw [hs]; simp
  obtain ⟨d, l, hdl⟩ := List.exists_cons_of_ne_nil (h0' e he)
  unfold actorUpdate
  rw [inputBatches_at phi gamma (sortEpisodes episodes) hd hn' d e rest hs, bind_ok]
  have := actorLoop_at m phi gamma (sortEpisodes episodes) hd h0' d e.length 0
  rw [← List.range_eq_range'] at this
  rw [← hlen]
  exact this

/-- So episodes of one step are as documented.  Longer ones are not: see
`C82_violated_actor`. -/
theorem C82_actor_partial (episodes : List (List (Transition S A R))) (hne : episodes ≠ [])
    (h0 : ∀ e ∈ episodes, e ≠ []) (hn : ∀ e ∈ episodes, ∀ t ∈ e, t.nextAction ≠ none)
    (hlong : Longest 1 episodes) :
    ∃ order : List (List (Transition S A R)), order.Perm episodes ∧
      actorUpdate m phi gamma episodes = .ok ((List.range 1).map fun i =>
        order.filterMap fun e => (e[i]?).map (actorValue m phi e i)) := by
  obtain ⟨order, h1, h2⟩ := C82_actor_exact m phi gamma episodes hne h0 hn 1 hlong
  refine ⟨order, h1, ?_⟩
  rw [h2]
  rfl

/-- A Q-function that counts its inputs, and a policy. -/
def exModels : Models Int Int Int Int Int :=
  { q := ⟨0, fun h x => (h + 1, 100 * h + 10 * x.1 + x.2)⟩
    policy := ⟨0, fun h x => (h + x, h + x)⟩
    targetQ := ⟨0, fun h x => (h + x.2, h + x.1 + x.2)⟩
    targetPolicy := ⟨0, fun h x => (h + x, 2 * (h + x))⟩ }

/-- Two episodes, the longer one second. -/
def exEpisodes : List (List (Transition Int Int Int)) :=
  [[⟨7, 1, 50, 8, some 2, true⟩], [⟨1, 3, 10, 2, some 4, false⟩, ⟨2, 4, 20, 3, some 5, false⟩]]

theorem exEpisodes_sorted : sortEpisodes exEpisodes = exEpisodes.reverse := by
  simp [sortEpisodes, exEpisodes, List.mergeSort, List.MergeSort.Internal.splitInTwo, List.merge]

/-- The value of the second step should be computed by a Q-function that has read one input; it
has read two. -/
theorem C82_violated_actor :
    (exEpisodes.map fun e => (e[1]?).map (actorValue exModels id e 1)) = [none, some 123] ∧
    actorUpdate exModels id 10 exEpisodes = .ok [[11, 77], [223]] := by
  constructor
  · decide +kernel
  · unfold actorUpdate
    rw [exEpisodes_sorted]
    decide +kernel

/-- With transitions recorded by batch training, which stores no next actions (ddpg.py:428), the
critic update raises `KeyError`. -/
theorem C82_violated_batch_training :
    criticUpdate exModels id 10 [[⟨7, 1, 50, 8, none, true⟩]] = .error .keyError := by
  decide +kernel

-- the hypotheses are met, and the result is not trivial
example : exEpisodes ≠ [] ∧ (∀ e ∈ exEpisodes, e ≠ []) ∧
    (∀ e ∈ exEpisodes, ∀ t ∈ e, t.nextAction ≠ none) ∧ Longest 2 exEpisodes := by
  refine ⟨by decide, by decide, ?_, ?_⟩
  · intro e he t ht
    simp only [exEpisodes, List.mem_cons, List.not_mem_nil, or_false] at he
    rcases he with rfl | rfl <;> simp only [List.mem_cons, List.not_mem_nil, or_false] at ht
    · subst ht; simp
    · rcases ht with rfl | rfl <;> simp
  · refine ⟨⟨_, List.mem_cons_of_mem _ (List.mem_cons_self ..), rfl⟩, ?_⟩
    intro e he
    simp only [exEpisodes, List.mem_cons, List.not_mem_nil, or_false] at he
    rcases he with rfl | rfl <;> simp
example : criticUpdate exModels id 10 exEpisodes =
    .ok [([120, 50], [13, 71]), ([240], [124])] := by
  unfold criticUpdate
  rw [exEpisodes_sorted]
  decide +kernel

end Verif.RecDDPG
