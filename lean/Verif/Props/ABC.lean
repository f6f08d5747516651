import Mathlib.Tactic.Linarith
import Mathlib.Tactic.Ring
import Mathlib.Tactic.FieldSimp
import Mathlib.Tactic.Positivity
import Mathlib.Tactic.NormNum
import Mathlib.Algebra.Order.BigOperators.Group.List
import Verif.Model.ABC
import Verif.Props.ActionValue

/-!
C94: the toy environment ABC.
-/

set_option autoImplicit false
set_option linter.unusedSectionVars false

namespace Verif.ABC

/-! ### Specification -/

/-- The observation of a state in an episode with an offset: one-hot of length `size + 2`. -/
def oneHot (c : Config) (i : Nat) : List Nat := (List.range (c.size + 2)).map fun j => if j = i then 1 else 0

/-- The first `i + 1` actions are the correct ones, `0, 1, …, i`. -/
def Correct (as : List Nat) (i : Nat) : Prop := ∀ j, j ≤ i → as[j]? = some j

/-- The state an episode without end has reached. -/
def progress (size : Nat) : List Nat → Nat → Nat
  | [], k => k
  | a :: as, k => progress size as (if a = k then (k + 1) % size else k)

/-- The number of correct actions (those that name the present state). -/
def hits (size : Nat) : List Nat → Nat → Nat
  | [], _ => 0
  | a :: as, k => if a = k then hits size as ((k + 1) % size) + 1 else hits size as k

/-- The sum of the rewards. -/
def total (outs : List Out) : Nat := (outs.map Out.reward).sum

/-! ### Observations -/

theorem observe_eq (c : Config) (k o : Nat) (hk : k ≤ c.size) (ho : o ≤ 1) :
    observe c ⟨k, some o⟩ = some (oneHot c (k + o)) := by
  have h : k + o < c.size + 2 := by omega
  unfold observe oneHot
  simp only [Option.getD_some]
  rw [if_pos h]
  congr 1
  apply List.ext_getElem?
  intro i
  by_cases hi : i < c.size + 2
  · by_cases he : k + o = i
    · subst he; simp [hi]
    · have : ¬ i = k + o := fun h => he h.symm
      simp [hi, he, this]
  · have : ¬ (k + o = i) := by omega
    simp [hi, this]

/-- **C94.** Every reset, in every configuration and after any history, starts in state 0 and shows it with an offset of
0 or 1; the offset is 0 in fully observable environments. -/
theorem C94_reset (c : Config) (random : Nat) (hr : random < 2) (s : S) :
    ∃ o, o ≤ 1 ∧ (reset c random s).1 = ⟨0, some o⟩ ∧ (reset c random s).2 = some (oneHot c o) ∧
      (c.partiallyObservable = false → o = 0) := by
  unfold reset
  refine ⟨if c.partiallyObservable then if c.deterministic then (s.offset.getD 0 + 1) % 2 else random else 0, ?_, rfl, ?_, ?_⟩
  · split
    · split
      · omega
      · omega
    · omega
  · simp only
    rw [observe_eq c 0 _ (Nat.zero_le _)]
    · simp
    · split
      · split
        · omega
        · omega
      · omega
  · intro h; simp [h]

/-- A history of episodes: the actions of each. -/
def episodes (c : Config) (random : Nat → Nat) : Nat → S → List (List Nat) → S
  | _, s, [] => s
  | n, s, as :: rest => episodes c random (n + 1) (steps c (reset c (random n) s).1 as).1 rest

theorem steps_offset (c : Config) : ∀ (as : List Nat) (s : S), (steps c s as).1.offset = s.offset
  | [], _ => rfl
  | a :: as, s => by
    show (steps c (step c s a).1 as).1.offset = s.offset
    rw [steps_offset c as]
    unfold step
    split
    · split
      · split <;> rfl
      · rfl
    · split <;> rfl

/-- **C94.** In the deterministic partially observable environment the episodes alternate: counted from 0, even ones are
shifted and odd ones are not, whatever happens in them. -/
theorem C94_alternate (c : Config) (hp : c.partiallyObservable = true) (hd : c.deterministic = true) (random : Nat → Nat)
    (past : List (List Nat)) (n : Nat) (k : Nat) :
    (reset c n (episodes c random 0 ⟨k, none⟩ past)).1.offset = some (if past.length % 2 = 0 then 1 else 0) := by
  have key : ∀ (past : List (List Nat)) (n : Nat) (s : S), (s.offset.getD 0) < 2 →
      ((episodes c random n s past).offset.getD 0) = (s.offset.getD 0 + past.length) % 2 := by
    intro past
    induction past with
    | nil => intro n s hs; simp [episodes, Nat.mod_eq_of_lt hs]
    | cons as rest ih =>
      intro n s hs
      have e : (steps c (reset c (random n) s).1 as).1.offset = some ((s.offset.getD 0 + 1) % 2) := by
        rw [steps_offset]; simp [reset, hp, hd]
      rw [episodes, ih]
      · rw [e]; simp [List.length_cons]; omega
      · rw [e]; simp; omega
  have h := key past 0 ⟨k, none⟩ (by simp)
  simp only [reset, hp, hd, if_true, h]
  congr 1
  simp
  split <;> omega

/-! ### Episodes that end -/

theorem steps_terminal (c : Config) (he : c.episodic = true) (o : Nat) (ho : o ≤ 1) : ∀ as : List Nat, (∀ a ∈ as, a < c.size) →
    ∀ i, i < as.length → (steps c ⟨c.size, some o⟩ as).2[i]? = some ⟨some (oneHot c (c.size + o)), 0, true⟩
  | [], _, i, hi => by simp at hi
  | a :: as, h, i, hi => by
    have ha : a ≠ c.size := by have := h a (by simp); omega
    have hs : step c ⟨c.size, some o⟩ a = (⟨c.size, some o⟩, ⟨some (oneHot c (c.size + o)), 0, true⟩) := by
      unfold step
      simp [ha, he, observe_eq c c.size o (Nat.le_refl _) ho]
    simp only [steps, hs]
    cases i with
    | zero => rfl
    | succ i =>
      simp only [List.getElem?_cons_succ]
      exact steps_terminal c he o ho as (fun a' h' => h a' (by simp [h'])) i (by simpa using hi)

theorem steps_episode (c : Config) (he : c.episodic = true) (o : Nat) (ho : o ≤ 1) : ∀ (as : List Nat) (k : Nat), k < c.size →
    (∀ a ∈ as, a < c.size) → ∀ i, i < as.length →
    ((∀ j, j ≤ i → as[j]? = some (k + j)) → k + i < c.size ∧ (steps c ⟨k, some o⟩ as).2[i]? = some
      ⟨some (oneHot c (k + i + 1 + o)), if k + i + 1 = c.size then 1 else 0, decide (k + i + 1 = c.size)⟩) ∧
    (¬ (∀ j, j ≤ i → as[j]? = some (k + j)) →
      (steps c ⟨k, some o⟩ as).2[i]? = some ⟨some (oneHot c (c.size + o)), 0, true⟩)
  | [], _, _, _, i, hi => by simp at hi
  | a :: as, k, hk, h, i, hi => by
    have hrest : ∀ a' ∈ as, a' < c.size := fun a' h' => h a' (by simp [h'])
    by_cases hak : a = k
    · subst hak
      by_cases hl : a + 1 = c.size
      · have hs : step c ⟨a, some o⟩ a = (⟨c.size, some o⟩, ⟨some (oneHot c (c.size + o)), 1, true⟩) := by
          unfold step
          simp [hl, he, observe_eq c c.size o (Nat.le_refl _) ho]
        simp only [steps, hs]
        cases i with
        | zero =>
          refine ⟨fun _ => ⟨by omega, by simp [hl]⟩, fun hn => ?_⟩
          exact absurd (fun j hj => by obtain rfl : j = 0 := by omega
                                       simp) hn
        | succ i =>
          have ht := steps_terminal c he o ho as hrest i (by simpa using hi)
          refine ⟨fun hc => ?_, fun _ => by simpa using ht⟩
          exfalso
          have h1 := hc 1 (by omega)
          simp only [List.getElem?_cons_succ] at h1
          have := hrest _ (List.mem_of_getElem? h1)
          omega
      · have hs : step c ⟨a, some o⟩ a = (⟨a + 1, some o⟩, ⟨some (oneHot c (a + 1 + o)), 0, false⟩) := by
          unfold step
          simp [hl, observe_eq c (a + 1) o (by omega) ho]
        simp only [steps, hs]
        cases i with
        | zero =>
          refine ⟨fun _ => ⟨by omega, by simp [hl]⟩, fun hn => ?_⟩
          exact absurd (fun j hj => by obtain rfl : j = 0 := by omega
                                       simp) hn
        | succ i =>
          obtain ⟨h1, h2⟩ := steps_episode c he o ho as (a + 1) (by omega) hrest i (by simpa using hi)
          have hiff : (∀ j, j ≤ i + 1 → (a :: as)[j]? = some (a + j)) ↔ (∀ j, j ≤ i → as[j]? = some (a + 1 + j)) := by
            constructor
            · intro hc j hj
              have := hc (j + 1) (by omega)
              simp only [List.getElem?_cons_succ] at this
              rw [this]; congr 1; omega
            · intro hc j hj
              cases j with
              | zero => simp
              | succ j =>
                simp only [List.getElem?_cons_succ]
                rw [hc j (by omega)]; congr 1; omega
          rw [hiff]
          refine ⟨fun hc => ?_, fun hc => by simpa using h2 hc⟩
          obtain ⟨g1, g2⟩ := h1 hc
          have e1 : a + 1 + i = a + (i + 1) := by omega
          rw [e1] at g1 g2
          exact ⟨g1, by simpa using g2⟩
    · have hs : step c ⟨k, some o⟩ a = (⟨c.size, some o⟩, ⟨some (oneHot c (c.size + o)), 0, true⟩) := by
        unfold step
        simp [hak, he, observe_eq c c.size o (Nat.le_refl _) ho]
      have hno : ¬ (∀ j, j ≤ i → (a :: as)[j]? = some (k + j)) := by
        intro hc
        have := hc 0 (by omega)
        simp at this
        exact hak this
      refine ⟨fun hc => absurd hc hno, fun _ => ?_⟩
      simp only [steps, hs]
      cases i with
      | zero => rfl
      | succ i =>
        simp only [List.getElem?_cons_succ]
        exact steps_terminal c he o ho as hrest i (by simpa using hi)

/-- **C94.** Episodic: for every reset and every sequence of valid actions (also beyond the end), the result of the
`i`-th step: while all actions so far were correct, the next state is shown, without reward or end before the goal
and with reward 1 and the end at the goal; after a wrong action or after the goal, the terminal state, no
reward and the end. -/
theorem C94_episodic (c : Config) (he : c.episodic = true) (hn : 0 < c.size) (random : Nat) (hr : random < 2) (s : S)
    (as : List Nat) (h : ∀ a ∈ as, a < c.size) :
    ∃ o, o ≤ 1 ∧ (reset c random s).2 = some (oneHot c o) ∧ ∀ i, i < as.length →
      (Correct as i → (steps c (reset c random s).1 as).2[i]? = some
        ⟨some (oneHot c (i + 1 + o)), if i + 1 = c.size then 1 else 0, decide (i + 1 = c.size)⟩) ∧
      (¬ Correct as i → (steps c (reset c random s).1 as).2[i]? = some ⟨some (oneHot c (c.size + o)), 0, true⟩) := by
  obtain ⟨o, ho, h1, h2, _⟩ := C94_reset c random hr s
  refine ⟨o, ho, h2, fun i hi => ?_⟩
  rw [h1]
  have key := steps_episode c he o ho as 0 hn h i hi
  simp only [Nat.zero_add] at key
  exact ⟨fun hc => (key.1 hc).2, key.2⟩

theorem total_terminal (c : Config) (he : c.episodic = true) (o : Option Nat) : ∀ as : List Nat, (∀ a ∈ as, a < c.size) →
    total (steps c ⟨c.size, o⟩ as).2 = 0
  | [], _ => rfl
  | a :: as, h => by
    have ha : a ≠ c.size := by have := h a (by simp); omega
    have ih := total_terminal c he o as (fun a' h' => h a' (by simp [h']))
    unfold total at ih ⊢
    simp only [steps, step, ha, if_false, he, if_true, List.map_cons, List.sum_cons, ih]

theorem total_episode (c : Config) (he : c.episodic = true) (o : Option Nat) : ∀ (as : List Nat) (k : Nat), k < c.size →
    (∀ a ∈ as, a < c.size) →
    total (steps c ⟨k, o⟩ as).2 = if as.take (c.size - k) = (List.range (c.size - k)).map (k + ·) then 1 else 0
  | [], k, hk, _ => by
    have : (List.range (c.size - k)).map (k + ·) ≠ [] := by simp; omega
    simp [steps, total, this.symm]
  | a :: as, k, hk, h => by
    have hrest : ∀ a' ∈ as, a' < c.size := fun a' h' => h a' (by simp [h'])
    obtain ⟨m, hm⟩ : ∃ m, c.size - k = m + 1 := ⟨c.size - k - 1, by omega⟩
    rw [hm, List.range_succ_eq_map, List.map_cons, List.map_map, List.take_succ_cons]
    simp only [List.cons.injEq, Nat.add_zero]
    by_cases hak : a = k
    · subst hak
      by_cases hl : a + 1 = c.size
      · have hm0 : m = 0 := by omega
        subst hm0
        have ht := total_terminal c he o as hrest
        unfold total at ht ⊢
        simp [steps, step, hl, he, ht]
      · have ih := total_episode c he o as (a + 1) (by omega) hrest
        have hm' : c.size - (a + 1) = m := by omega
        rw [hm'] at ih
        have e : (List.range m).map ((fun x => a + x) ∘ Nat.succ) = (List.range m).map (fun x => a + 1 + x) := by
          apply List.map_congr_left; intro x _; simp; omega
        rw [e]
        unfold total at ih ⊢
        simp only [steps, step, hl, if_true, if_false, List.map_cons, List.sum_cons, ih, Nat.zero_add, true_and]
    · have ht := total_terminal c he o as hrest
      have hf : ¬ (a = k ∧ List.take m as = List.map ((fun x => k + x) ∘ Nat.succ) (List.range m)) := fun hh => hak hh.1
      rw [if_neg hf]
      unfold total at ht ⊢
      simp only [steps, step, hak, if_false, he, if_true, List.map_cons, List.sum_cons, ht]

/-- **C94.** The sum of the rewards of an episode is 1 exactly when its first `size` actions are `0, 1, …, size - 1`, and
otherwise 0. -/
theorem C94_return (c : Config) (he : c.episodic = true) (hn : 0 < c.size) (random : Nat) (s : S) (as : List Nat)
    (h : ∀ a ∈ as, a < c.size) :
    total (steps c (reset c random s).1 as).2 = if as.take c.size = List.range c.size then 1 else 0 := by
  have := total_episode c he (reset c random s).1.offset as 0 hn h
  have e : (reset c random s).1 = ⟨0, (reset c random s).1.offset⟩ := rfl
  rw [e]
  simpa using this

/-! ### Episodes without end -/

theorem steps_continuing (c : Config) (he : c.episodic = false) (o : Option Nat) : ∀ (as : List Nat) (k : Nat), k < c.size →
    (steps c ⟨k, o⟩ as).1 = ⟨progress c.size as k, o⟩ ∧ progress c.size as k < c.size ∧
    (∀ out ∈ (steps c ⟨k, o⟩ as).2, out.done = false) ∧
    total (steps c ⟨k, o⟩ as).2 = (k + hits c.size as k) / c.size ∧
    progress c.size as k = (k + hits c.size as k) % c.size
  | [], k, hk => ⟨rfl, hk, by simp [steps], by simp [steps, total, hits, Nat.div_eq_of_lt hk],
      by simp [progress, hits, Nat.mod_eq_of_lt hk]⟩
  | a :: as, k, hk => by
    by_cases hak : a = k
    · subst hak
      by_cases hl : a + 1 = c.size
      · have hmod : (a + 1) % c.size = 0 := by rw [hl]; exact Nat.mod_self _
        obtain ⟨h1, h2, h3, h4, h5⟩ := steps_continuing c he o as 0 (by omega)
        have hs : step c ⟨a, o⟩ a = (⟨0, o⟩, ⟨observe c ⟨0, o⟩, 1, false⟩) := by simp [step, hl, he]
        simp only [steps, hs, progress, hits, if_true, hmod]
        refine ⟨h1, h2, ?_, ?_, ?_⟩
        · intro out hout
          rcases List.mem_cons.1 hout with h | h
          · rw [h]
          · exact h3 out h
        · have e : a + (hits c.size as 0 + 1) = (0 + hits c.size as 0) + c.size := by omega
          rw [e, Nat.add_div_right _ (by omega)]
          unfold total at h4 ⊢
          simp only [List.map_cons, List.sum_cons, h4]
          omega
        · have e : a + (hits c.size as 0 + 1) = (0 + hits c.size as 0) + c.size := by omega
          rw [e, Nat.add_mod_right]; exact h5
      · have hmod : (a + 1) % c.size = a + 1 := Nat.mod_eq_of_lt (by omega)
        obtain ⟨h1, h2, h3, h4, h5⟩ := steps_continuing c he o as (a + 1) (by omega)
        have hs : step c ⟨a, o⟩ a = (⟨a + 1, o⟩, ⟨observe c ⟨a + 1, o⟩, 0, false⟩) := by simp [step, hl]
        simp only [steps, hs, progress, hits, if_true, hmod]
        have e : a + (hits c.size as (a + 1) + 1) = a + 1 + hits c.size as (a + 1) := by omega
        refine ⟨h1, h2, ?_, ?_, ?_⟩
        · intro out hout
          rcases List.mem_cons.1 hout with h | h
          · rw [h]
          · exact h3 out h
        · rw [e]
          unfold total at h4 ⊢
          simp only [List.map_cons, List.sum_cons, h4, Nat.zero_add]
        · rw [e]; exact h5
    · obtain ⟨h1, h2, h3, h4, h5⟩ := steps_continuing c he o as k hk
      have hs : step c ⟨k, o⟩ a = (⟨k, o⟩, ⟨observe c ⟨k, o⟩, 0, false⟩) := by simp [step, hak, he]
      simp only [steps, hs, progress, hits, hak, if_false]
      refine ⟨h1, h2, ?_, ?_, h5⟩
      · intro out hout
        rcases List.mem_cons.1 hout with h | h
        · rw [h]
        · exact h3 out h
      · unfold total at h4 ⊢
        simp only [List.map_cons, List.sum_cons, h4, Nat.zero_add]

theorem hits_le (size : Nat) : ∀ (as : List Nat) (k : Nat), hits size as k ≤ as.length
  | [], _ => Nat.le_refl _
  | a :: as, k => by
    simp only [hits, List.length_cons]
    split
    · have := hits_le size as ((k + 1) % size); omega
    · have := hits_le size as k; omega

theorem hits_cycle (size : Nat) (hn : 0 < size) : ∀ (n k : Nat),
    hits size ((List.range n).map fun t => (k + t) % size) (k % size) = n
  | 0, _ => rfl
  | n + 1, k => by
    rw [List.range_succ_eq_map, List.map_cons, List.map_map]
    have e : ((List.range n).map ((fun t => (k + t) % size) ∘ Nat.succ)) = (List.range n).map fun t => (k + 1 + t) % size := by
      apply List.map_congr_left; intro x _; simp only [Function.comp]; congr 1; omega
    rw [e]
    simp only [hits, Nat.add_zero, if_true]
    have : (k % size + 1) % size = (k + 1) % size := by simp [Nat.add_mod]
    rw [this, hits_cycle size hn n (k + 1)]

/-- **C94.** Not episodic: no step ends the episode; the state is the number of correct actions modulo the size, and
one reward has been paid for every `size` correct actions: at most one per `size` steps, which the
actions `0, 1, …, size - 1, 0, 1, …` achieve. -/
theorem C94_continuing (c : Config) (he : c.episodic = false) (hn : 0 < c.size) (random : Nat) (s : S) (as : List Nat) :
    let r := steps c (reset c random s).1 as
    (∀ out ∈ r.2, out.done = false) ∧
    r.1.state = hits c.size as 0 % c.size ∧
    total r.2 = hits c.size as 0 / c.size ∧
    total r.2 ≤ as.length / c.size ∧
    (as = (List.range as.length).map (· % c.size) → total r.2 = as.length / c.size) := by
  intro r
  obtain ⟨h1, h2, h3, h4, h5⟩ := steps_continuing c he (reset c random s).1.offset as 0 hn
  rw [Nat.zero_add] at h4 h5
  refine ⟨h3, ?_, h4, ?_, ?_⟩
  · have : r.1 = ⟨progress c.size as 0, (reset c random s).1.offset⟩ := h1
    rw [this]; exact h5
  · have e : total r.2 = hits c.size as 0 / c.size := h4
    rw [e]
    exact Nat.div_le_div_right (hits_le c.size as 0)
  · intro hcyc
    have e : total r.2 = hits c.size as 0 / c.size := h4
    rw [e]
    have := hits_cycle c.size hn as.length 0
    simp only [Nat.zero_add, Nat.zero_mod] at this
    rw [← hcyc] at this
    rw [this]

/-- **C94.** Observations distinguish the states of one episode, and have one entry 1. -/
theorem C94_observations (c : Config) (i j o : Nat) (hi : i ≤ c.size) (_hj : j ≤ c.size) (ho : o ≤ 1) :
    (oneHot c (i + o)).length = c.size + 2 ∧ (oneHot c (i + o)).sum = 1 ∧ (oneHot c (i + o))[i + o]? = some 1 ∧
    (oneHot c (i + o) = oneHot c (j + o) → i = j) := by
  have hlt : i + o < c.size + 2 := by omega
  refine ⟨by simp [oneHot], ?_, by simp [oneHot, hlt], ?_⟩
  · have key : ∀ n m : Nat, ((List.range n).map fun j => if j = m then 1 else 0).sum = if m < n then 1 else 0 := by
      intro n m
      induction n with
      | zero => simp
      | succ n ih =>
        rw [List.range_succ, List.map_append, List.sum_append, ih]
        simp only [List.map_cons, List.map_nil, List.sum_cons, List.sum_nil]
        split <;> split <;> split <;> omega
    unfold oneHot
    rw [key, if_pos hlt]
  · intro h
    have h1 : (oneHot c (i + o))[i + o]? = some 1 := by simp [oneHot, hlt]
    rw [h] at h1
    simp [oneHot, hlt] at h1
    omega

/-! ### Continuous actions -/

theorem clip_mem (x : ℝ) : -1 ≤ clip x ∧ clip x ≤ 1 := by
  unfold clip
  exact ⟨le_min (le_max_right _ _) (by norm_num), min_le_right _ _⟩

/-- **C94.** With continuous actions: the deterministic environment takes an action with a maximal clipped logit; the
random one takes action `i` with the softmax probability of the clipped logits, these sum to one, and each is at
least `1/(size · e²)`, whatever the action vector. -/
theorem C94_continuous (action : List ℝ) (hne : action ≠ []) :
    (∃ x, action[innerGreedy action]? = some x ∧ ∀ y ∈ action, clip y ≤ clip x) ∧
    (innerProb action).length = action.length ∧ (innerProb action).sum = 1 ∧
    ∀ (i : Nat) (x : ℝ), action[i]? = some x → ∃ p, (innerProb action)[i]? = some p ∧
      p = Real.exp (clip x) / (action.map fun y => Real.exp (clip y)).sum ∧
      1 / (action.length * Real.exp 2) ≤ p := by
  have hlen : 0 < action.length := List.length_pos_iff.2 hne
  have hes : (action.map clip).map Real.exp = action.map fun y => Real.exp (clip y) := by simp [List.map_map, Function.comp_def]
  have hsum_le : (action.map fun y => Real.exp (clip y)).sum ≤ action.length * Real.exp 1 := by
    have : ∀ l : List ℝ, (l.map fun y => Real.exp (clip y)).sum ≤ l.length * Real.exp 1 := by
      intro l
      induction l with
      | nil => simp
      | cons y l ih =>
        have := Real.exp_le_exp.2 (clip_mem y).2
        simp only [List.map_cons, List.sum_cons, List.length_cons]
        push_cast
        linarith
    exact this action
  have hsum_pos : 0 < (action.map fun y => Real.exp (clip y)).sum := by
    obtain ⟨y, l, rfl⟩ := List.exists_cons_of_ne_nil hne
    simp only [List.map_cons, List.sum_cons]
    have h2 : 0 ≤ (l.map fun y => Real.exp (clip y)).sum :=
      List.sum_nonneg (by intro z hz; obtain ⟨w, _, rfl⟩ := List.mem_map.1 hz; exact (Real.exp_pos _).le)
    have := Real.exp_pos (clip y)
    linarith
  refine ⟨?_, by simp [innerProb], ?_, ?_⟩
  · obtain ⟨v, hv, hmax, -⟩ := ActionValue.C64_greedy (action.map clip) (by simpa using hne)
    rw [List.getElem?_map] at hv
    obtain ⟨x, hx, rfl⟩ := Option.map_eq_some_iff.1 hv
    exact ⟨x, hx, fun y hy => hmax.2 _ (List.mem_map.2 ⟨y, hy, rfl⟩)⟩
  · unfold innerProb
    rw [hes]
    have key : ∀ (l : List ℝ) (d : ℝ), (l.map (· / d)).sum = l.sum / d := by
      intro l d
      induction l with
      | nil => simp
      | cons y l ih => simp only [List.map_cons, List.sum_cons, ih]; ring
    simp only
    rw [key, div_self hsum_pos.ne']
  · intro i x hx
    refine ⟨_, ?_, rfl, ?_⟩
    · unfold innerProb
      rw [hes]
      simp [hx]
    · rw [div_le_div_iff₀ (by positivity) hsum_pos]
      have h1 : Real.exp (-1) ≤ Real.exp (clip x) := Real.exp_le_exp.2 (clip_mem x).1
      have h2 : Real.exp (-1) * Real.exp 2 = Real.exp 1 := by rw [← Real.exp_add]; norm_num
      calc 1 * (action.map fun y => Real.exp (clip y)).sum ≤ action.length * Real.exp 1 := by linarith
        _ = Real.exp (-1) * (action.length * Real.exp 2) := by rw [← h2]; ring
        _ ≤ Real.exp (clip x) * (action.length * Real.exp 2) :=
          mul_le_mul_of_nonneg_right h1 (by positivity)

/-- Size 3, episodic. -/
def exConfig : Config := ⟨3, true, false, false⟩

example : (steps exConfig (reset exConfig 0 ⟨9, none⟩).1 [0, 1, 2]).2.map (fun o => (o.reward, o.done)) =
    [(0, false), (0, false), (1, true)] ∧
    total (steps exConfig (reset exConfig 0 ⟨9, none⟩).1 [0, 2, 2]).2 = 0 ∧
    total (steps { exConfig with episodic := false } (reset exConfig 0 ⟨9, none⟩).1 [0, 2, 1, 2, 0]).2 = 1 := by decide +kernel

example : ∃ as : List Nat, as.length = 3 ∧ (∀ a ∈ as, a < exConfig.size) ∧ as.take exConfig.size = List.range exConfig.size :=
  ⟨[0, 1, 2], by decide +kernel⟩

end Verif.ABC
