import Mathlib.Algebra.BigOperators.Group.Finset.Basic
import Mathlib.Algebra.BigOperators.Group.Finset.Piecewise
import Mathlib.Algebra.Order.BigOperators.Group.Finset
import Mathlib.Tactic.Linarith
import Verif.Model.VectorLife
set_option autoImplicit false
set_option linter.unusedSectionVars false

/-!
# C113: the life of a vector environment
-/

namespace Verif.VectorLife

variable {S A V : Type}

/-! ## Specification -/

/-- All workers run, all pipes are empty, and no call is being made. -/
def Idle (c : Multi S A V) : Prop :=
  c.closed = false ∧ c.todo = [] ∧
  ∀ i, i < c.num → (c.workers i).exited = false ∧ (c.workers i).inq = [] ∧ (c.workers i).outq = []

/-- A call that has begun returns under every schedule, and then `P` holds: the number of moves is bounded, and as
long as it has not returned some process can move. -/
def Returns (E : Env S A V) (c : Multi S A V) (P : Multi S A V → Prop) : Prop :=
  ∃ bound, ∀ sched c', c.moves E sched = some c' →
    sched.length ≤ bound ∧ (c'.todo = [] → P c') ∧ (c'.todo ≠ [] → ∃ x, (c'.move E x).isSome)

/-- A call that has begun never returns, whatever the schedule. -/
def Hangs (E : Env S A V) (c : Multi S A V) : Prop :=
  ∀ sched c', c.moves E sched = some c' → c'.todo ≠ []

/-- In `c'` the environments have handled the requests `f` once, and the replies have been read, in order. -/
def Served (E : Env S A V) (f : Nat → Option (Req A)) (c c' : Multi S A V) : Prop :=
  Idle c' ∧ c'.num = c.num ∧
  (∀ i, i < c.num → f i = none → (c'.workers i).env = (c.workers i).env) ∧
  (∀ i r, i < c.num → f i = some r → (E (c.workers i).env r).map (·.1) = some (c'.workers i).env) ∧
  c'.got.map some = ((List.range c.num).filter fun i => (f i).isSome).map fun i =>
    (f i).bind fun r => (E (c.workers i).env r).map (·.2)

/-! ## Moves -/

theorem moves_inv (E : Env S A V) (P : Multi S A V → Prop) (hP : ∀ c x c', P c → c.move E x = some c' → P c')
    (sched : List Who) : ∀ c c', P c → c.moves E sched = some c' → P c' := by
  induction sched with
  | nil => intro c c' h hm; simp only [Multi.moves, Option.some.injEq] at hm; subst hm; exact h
  | cons x l ih =>
    intro c c' h hm
    simp only [Multi.moves, Option.bind_eq_some_iff] at hm
    obtain ⟨c1, h1, h2⟩ := hm
    exact ih c1 c' (hP c x c1 h h1) h2

theorem move_num (E : Env S A V) (c c' : Multi S A V) (x : Who) (h : c.move E x = some c') : c'.num = c.num := by
  cases x with
  | parent =>
    simp only [Multi.move, Multi.parent] at h
    split at h
    · cases h
    · cases h; rfl
    · split at h <;> cases h; rfl
    · split at h <;> cases h; rfl
  | worker i =>
    simp only [Multi.move] at h
    split at h
    · simp only [Option.map_eq_some_iff] at h
      obtain ⟨w, _, rfl⟩ := h
      rfl
    · cases h

theorem move_closed (E : Env S A V) (c c' : Multi S A V) (x : Who) (h : c.move E x = some c') :
    c'.closed = c.closed := by
  cases x with
  | parent =>
    simp only [Multi.move, Multi.parent] at h
    split at h
    · cases h
    · cases h; rfl
    · split at h <;> cases h; rfl
    · split at h <;> cases h; rfl
  | worker i =>
    simp only [Multi.move] at h
    split at h
    · simp only [Option.map_eq_some_iff] at h
      obtain ⟨w, _, rfl⟩ := h
      rfl
    · cases h

/-- What is left to be done by anybody. -/
def work (c : Multi S A V) : Nat := 2 * c.todo.length + ∑ i ∈ Finset.range c.num, (c.workers i).inq.length

theorem Worker.move_inq (E : Env S A V) (w w' : Worker S A V) (h : w.move E = some w') :
    w'.inq.length + 1 = w.inq.length := by
  unfold Worker.move at h
  split at h
  · cases h
  · split at h
    · cases h
    · rename_i q hq; cases h; simp [hq]
    · rename_i r q hq
      split at h <;> cases h <;> simp [hq]

theorem move_work (E : Env S A V) (c c' : Multi S A V) (x : Who) (h : c.move E x = some c') :
    work c' + 1 ≤ work c := by
  cases x with
  | parent =>
    simp only [Multi.move, Multi.parent] at h
    split at h
    · cases h
    · rename_i i cmd t ht
      cases h
      simp only [work, ht, List.length_cons]
      have : ∑ k ∈ Finset.range c.num,
          ((Function.update c.workers i { c.workers i with inq := (c.workers i).inq ++ [cmd] }) k).inq.length ≤
          ∑ k ∈ Finset.range c.num, ((c.workers k).inq.length + if k = i then 1 else 0) := by
        apply Finset.sum_le_sum
        intro k _
        by_cases hk : k = i
        · subst hk; simp
        · simp [hk]
      rw [Finset.sum_add_distrib] at this
      have h2 : (∑ k ∈ Finset.range c.num, if k = i then 1 else 0) ≤ 1 := by
        rw [Finset.sum_ite_eq']
        split <;> simp
      linarith
    · rename_i i t ht
      split at h
      · cases h
      · rename_i v q hq
        cases h
        simp only [work, ht, List.length_cons]
        have : ∀ k, ((Function.update c.workers i { c.workers i with outq := q }) k).inq.length = (c.workers k).inq.length := by
          intro k
          by_cases hk : k = i
          · subst hk; simp
          · simp [Function.update_of_ne hk]
        simp only [this]
        omega
    · rename_i i t ht
      split at h
      · cases h
        simp only [work, ht, List.length_cons]
        omega
      · cases h
  | worker i =>
    simp only [Multi.move] at h
    split at h
    · rename_i hi
      simp only [Option.map_eq_some_iff] at h
      obtain ⟨w, hw, rfl⟩ := h
      have hm := Worker.move_inq E _ _ hw
      simp only [work]
      have : ∑ k ∈ Finset.range c.num, ((Function.update c.workers i w) k).inq.length <
          ∑ k ∈ Finset.range c.num, (c.workers k).inq.length := by
        apply Finset.sum_lt_sum
        · intro k _
          by_cases hk : k = i
          · subst hk; simp; omega
          · simp [Function.update_of_ne hk]
        · exact ⟨i, by simpa using hi, by simp; omega⟩
      omega
    · cases h

theorem moves_work (E : Env S A V) (sched : List Who) : ∀ c c' : Multi S A V, c.moves E sched = some c' →
    sched.length + work c' ≤ work c := by
  induction sched with
  | nil => intro c c' h; simp only [Multi.moves, Option.some.injEq] at h; subst h; simp
  | cons x l ih =>
    intro c c' h
    simp only [Multi.moves, Option.bind_eq_some_iff] at h
    obtain ⟨c1, h1, h2⟩ := h
    have := ih c1 c' h2
    have := move_work E c c1 x h1
    simp only [List.length_cons]
    omega

theorem Returns.of {E : Env S A V} {c : Multi S A V} {P : Multi S A V → Prop}
    (h : ∀ sched c', c.moves E sched = some c' → (c'.todo = [] → P c') ∧ (c'.todo ≠ [] → ∃ x, (c'.move E x).isSome)) :
    Returns E c P :=
  ⟨work c, fun sched c' hm => ⟨le_trans (Nat.le_add_right _ _) (moves_work E _ _ _ hm), h sched c' hm⟩⟩

/-! ## Close -/

/-- How often a worker's environment is closed. -/
def CloseInv (w0 w : Worker S A V) : Prop :=
  w.closes = w0.closes + (if w.exited && !w0.exited then 1 else 0) ∧ (w0.exited = true → w.exited = true)

theorem CloseInv.refl (w : Worker S A V) : CloseInv w w := by
  refine ⟨?_, id⟩
  cases w.exited <;> simp

theorem CloseInv.move (E : Env S A V) {w0 w w' : Worker S A V} (h : CloseInv w0 w) (hm : w.move E = some w') :
    CloseInv w0 w' := by
  unfold Worker.move at hm
  obtain ⟨h1, h2⟩ := h
  by_cases he : w.exited = true
  · simp [he] at hm
  · have he0 : w0.exited = false := by
      cases h0 : w0.exited with
      | false => rfl
      | true => exact absurd (h2 h0) he
    have he' : w.exited = false := by simpa using he
    simp only [he', he0, Bool.false_and, Bool.false_eq_true, if_false] at h1 hm
    split at hm
    · cases hm
    · cases hm
      exact ⟨by simp [he0, h1], by simp⟩
    · split at hm
      · cases hm
        exact ⟨by simp [he0, h1], by simp⟩
      · cases hm
        exact ⟨by simp [h1], by simp [he0]⟩

/-- The state during `close`. -/
structure Closing (c0 c : Multi S A V) : Prop where
  num : c.num = c0.num
  todo : ∃ (s j : List Nat), c.todo = s.map (fun i => .send i .close) ++ j.map .join ∧
    (∀ i, i ∈ j → i < c.num) ∧
    (∀ i, i < c.num → i ∈ s ∨ .close ∈ (c.workers i).inq ∨ (c.workers i).exited = true) ∧
    (∀ i, i < c.num → i ∈ j ∨ (c.workers i).exited = true)
  closes : ∀ i, CloseInv (c0.workers i) (c.workers i)

theorem Closing.move (E : Env S A V) {c0 c c' : Multi S A V} (h : Closing c0 c) {x : Who} (hm : c.move E x = some c') :
    Closing c0 c' := by
  obtain ⟨s, j, ht, hj, hs, hjj⟩ := h.todo
  have hn := move_num E _ _ _ hm
  refine ⟨hn.trans h.num, ?_, ?_⟩
  · rw [hn]
    cases x with
    | parent =>
      simp only [Multi.move, Multi.parent, ht] at hm
      cases s with
      | cons i s =>
        simp only [List.map_cons, List.cons_append] at hm
        cases hm
        refine ⟨s, j, rfl, hj, ?_, ?_⟩
        · intro k hk
          by_cases hki : k = i
          · subst hki; right; left; simp
          · simp only [Function.update_of_ne hki]
            rcases hs k hk with h1 | h1
            · left
              simp only [List.mem_cons] at h1
              exact h1.resolve_left hki
            · right; exact h1
        · intro k hk
          by_cases hki : k = i
          · subst hki; simpa using hjj k hk
          · simpa only [Function.update_of_ne hki] using hjj k hk
      | nil =>
        cases j with
        | nil => simp at hm
        | cons i j =>
          simp only [List.map_nil, List.nil_append, List.map_cons] at hm
          split at hm
          · rename_i he
            cases hm
            refine ⟨[], j, rfl, fun k hk => hj k (by simp [hk]), hs, ?_⟩
            intro k hk
            rcases hjj k hk with h1 | h1
            · simp only [List.mem_cons] at h1
              rcases h1 with rfl | h1
              · right; exact he
              · left; exact h1
            · right; exact h1
          · cases hm
    | worker i =>
      simp only [Multi.move] at hm
      split at hm
      · simp only [Option.map_eq_some_iff] at hm
        obtain ⟨w, hw, rfl⟩ := hm
        refine ⟨s, j, ht, hj, ?_, ?_⟩
        · intro k hk
          by_cases hki : k = i
          · subst hki
            simp only [Function.update_self]
            rcases hs k hk with h1 | h1 | h1
            · left; exact h1
            · right
              unfold Worker.move at hw
              split at hw
              · cases hw
              · split at hw
                · cases hw
                · cases hw; right; rfl
                · rename_i r q hq
                  rw [hq] at h1
                  simp only [List.mem_cons, reduceCtorEq, false_or] at h1
                  split at hw
                  · cases hw; right; rfl
                  · cases hw; left; exact h1
            · exfalso
              simp [Worker.move, h1] at hw
          · simp only [Function.update_of_ne hki]
            exact hs k hk
        · intro k hk
          by_cases hki : k = i
          · subst hki
            simp only [Function.update_self]
            rcases hjj k hk with h1 | h1
            · left; exact h1
            · exfalso
              simp [Worker.move, h1] at hw
          · simp only [Function.update_of_ne hki]
            exact hjj k hk
      · cases hm
  · intro k
    cases x with
    | parent =>
      simp only [Multi.move, Multi.parent] at hm
      split at hm
      · cases hm
      · rename_i i cmd t ht
        cases hm
        by_cases hki : k = i
        · subst hki; simpa [CloseInv] using h.closes k
        · simpa only [Function.update_of_ne hki] using h.closes k
      · rename_i i t ht
        split at hm
        · cases hm
        · cases hm
          by_cases hki : k = i
          · subst hki; simpa [CloseInv] using h.closes k
          · simpa only [Function.update_of_ne hki] using h.closes k
      · split at hm <;> cases hm
        exact h.closes k
    | worker i =>
      simp only [Multi.move] at hm
      split at hm
      · simp only [Option.map_eq_some_iff] at hm
        obtain ⟨w, hw, rfl⟩ := hm
        by_cases hki : k = i
        · subst hki
          simp only [Function.update_self]
          exact (h.closes k).move E hw
        · simpa only [Function.update_of_ne hki] using h.closes k
      · cases hm

/-- C113: `close` of an environment that is not closed returns under every schedule, in whatever state the workers
and pipes are: with environments that have raised, with unread replies, or with commands that have not been handled (as after an
interrupted call).  Then all workers have exited, and each environment that was open has been closed, exactly
once. -/
theorem C113_close (E : Env S A V) (c : Multi S A V) (hc : c.closed = false) :
    ∃ c1, c.begin .close = .ok c1 ∧ Returns E c1 fun c' =>
      c'.closed = true ∧ ∀ i, i < c.num → (c'.workers i).exited = true ∧
        (c'.workers i).closes = (c.workers i).closes + if (c.workers i).exited then 0 else 1 := by
  refine ⟨_, by simp [Multi.begin, hc, plan]; rfl, ?_⟩
  refine Returns.of fun sched c' hm => ⟨?_, ?_⟩
  all_goals
    have hinv : Closing c c' := by
      refine moves_inv E (Closing c) (fun _ _ _ => fun h hm => h.move E hm) sched _ _ ?_ hm
      refine ⟨rfl, ⟨List.range c.num, List.range c.num, rfl, fun i h => by simpa using h, ?_, ?_⟩, fun i => CloseInv.refl _⟩
      · intro i hi; left; simpa using hi
      · intro i hi; left; simpa using hi
    obtain ⟨s, j, ht, hj, hs, hjj⟩ := hinv.todo
  · intro h0
    have hs0 : s = [] ∧ j = [] := by
      rw [ht] at h0
      simpa using h0
    have hcl : c'.closed = true :=
      moves_inv E (fun c => c.closed = true) (fun a x b h hm => (move_closed E a b x hm).trans h) sched _ _ rfl hm
    refine ⟨hcl, ?_⟩
    intro i hi
    have he : (c'.workers i).exited = true := by
      rcases hjj i (by rw [hinv.num]; exact hi) with h1 | h1
      · rw [hs0.2] at h1; simp at h1
      · exact h1
    refine ⟨he, ?_⟩
    have := (hinv.closes i).1
    rw [this, he]
    cases (c.workers i).exited <;> simp
  · intro h0
    cases s with
    | cons i s => exact ⟨.parent, by simp [Multi.move, Multi.parent, ht]⟩
    | nil =>
      cases j with
      | nil => simp [ht] at h0
      | cons i j =>
        have hi := hj i (by simp)
        by_cases he : (c'.workers i).exited = true
        · exact ⟨.parent, by simp [Multi.move, Multi.parent, ht, he]⟩
        · refine ⟨.worker i, ?_⟩
          rcases hs i hi with h1 | h1 | h1
          · simp at h1
          · simp only [Multi.move, if_pos hi, Option.isSome_map, Worker.move, he, if_false, Bool.false_eq_true]
            cases hq : (c'.workers i).inq with
            | nil => rw [hq] at h1; simp at h1
            | cons a q =>
              cases a with
              | close => rfl
              | req r =>
                simp only
                cases E (c'.workers i).env r <;> rfl
          · exact absurd h1 he

/-- C113: a closed environment refuses every call, and nothing is sent. -/
theorem C113_closed (c : Multi S A V) (hc : c.closed = true) (call : Call A) :
    c.begin call = .error .assertionError := by
  simp [Multi.begin, hc]; rfl

/-- C113: in every history an environment's `close` has been called once if its worker has exited, and never
otherwise: whatever moves are made, from the start on. -/
theorem C113_closed_once (E : Env S A V) (c c' : Multi S A V) (sched : List Who)
    (h0 : ∀ i, (c.workers i).closes = if (c.workers i).exited then 1 else 0) (hm : c.moves E sched = some c') (i : Nat) :
    (c'.workers i).closes = if (c'.workers i).exited then 1 else 0 := by
  refine moves_inv E (fun c => ∀ i, (c.workers i).closes = if (c.workers i).exited then 1 else 0) ?_ sched c c' h0 hm i
  intro c x c' h hm k
  cases x with
  | parent =>
    simp only [Multi.move, Multi.parent] at hm
    split at hm
    · cases hm
    · rename_i i cmd t ht
      cases hm
      by_cases hki : k = i
      · subst hki; simpa using h k
      · simpa only [Function.update_of_ne hki] using h k
    · rename_i i t ht
      split at hm
      · cases hm
      · cases hm
        by_cases hki : k = i
        · subst hki; simpa using h k
        · simpa only [Function.update_of_ne hki] using h k
    · split at hm <;> cases hm
      exact h k
  | worker i =>
    simp only [Multi.move] at hm
    split at hm
    · simp only [Option.map_eq_some_iff] at hm
      obtain ⟨w, hw, rfl⟩ := hm
      by_cases hki : k = i
      · subst hki
        simp only [Function.update_self]
        have hk := h k
        unfold Worker.move at hw
        split at hw
        · cases hw
        · rename_i he
          simp only [he, if_false, Bool.false_eq_true] at hk
          split at hw
          · cases hw
          · cases hw; simp [hk]
          · split at hw
            · cases hw; simp [hk]
            · cases hw; simp [hk, he]
      · simpa only [Function.update_of_ne hki] using h k
    · cases hm

/-! ## Requests -/

/-- A worker that has handled its request. -/
def processed (E : Env S A V) (w : Worker S A V) (r : Req A) : Worker S A V :=
  match E w.env r with
  | none => { w with exited := true, closes := w.closes + 1 }
  | some (s, v) => { w with env := s, outq := [v] }

/-- The state during a call that sends the requests `f` and reads from the workers `q`. -/
structure Asking (E : Env S A V) (f : Nat → Option (Req A)) (q : List Nat) (c0 c : Multi S A V) : Prop where
  num : c.num = c0.num
  closed : c.closed = c0.closed
  ex : ∃ (s : List (Nat × Req A)) (r rd : List Nat),
    c.todo = s.map (fun x => .send x.1 (.req x.2)) ++ r.map .recv ∧ q = rd ++ r ∧ (s ≠ [] → rd = []) ∧
    (s.map (·.1)).Nodup ∧ (∀ x ∈ s, f x.1 = some x.2) ∧
    (∀ i, f i = none → c.workers i = c0.workers i) ∧
    (∀ x ∈ s, c.workers x.1 = c0.workers x.1) ∧
    (∀ i x, f i = some x → (i, x) ∉ s → i ∉ rd →
      c.workers i = { c0.workers i with inq := [.req x] } ∨ c.workers i = processed E (c0.workers i) x) ∧
    (∀ i ∈ rd, ∃ x st v, f i = some x ∧ E (c0.workers i).env x = some (st, v) ∧
      c.workers i = { c0.workers i with env := st }) ∧
    c.got.map some = rd.map fun i => (f i).bind fun r => (E (c0.workers i).env r).map (·.2)

theorem Asking.move (E : Env S A V) {f : Nat → Option (Req A)} {q : List Nat} {c0 c c' : Multi S A V}
    (hq : q.Nodup) (hf : ∀ i, c0.num ≤ i → f i = none)
    (h0 : ∀ i, i < c0.num → (c0.workers i).exited = false ∧ (c0.workers i).inq = [] ∧ (c0.workers i).outq = [])
    (hqn : ∀ i ∈ q, i < c0.num)
    (h : Asking E f q c0 c) {x : Who} (hm : c.move E x = some c') : Asking E f q c0 c' := by
  obtain ⟨s, r, rd, ht, hqq, hsrd, hnd, hsf, h1, h2, h3, h4, hg⟩ := h.ex
  have hfn : ∀ i y, f i = some y → i < c0.num := by
    intro i y hy
    by_contra hlt
    rw [hf i (by omega)] at hy; cases hy
  refine ⟨(move_num E _ _ _ hm).trans h.num, (move_closed E _ _ _ hm).trans h.closed, ?_⟩
  cases x with
  | parent =>
    simp only [Multi.move, Multi.parent, ht] at hm
    cases s with
    | cons x s =>
      obtain ⟨i, y⟩ := x
      simp only [List.map_cons, List.cons_append] at hm
      cases hm
      simp only [List.map_cons, List.nodup_cons] at hnd
      have hrd := hsrd (by simp)
      subst hrd
      have hi : c.workers i = c0.workers i := h2 (i, y) (by simp)
      have hfi : f i = some y := hsf (i, y) (by simp)
      refine ⟨s, r, [], rfl, hqq, fun _ => rfl, hnd.2, fun x hx => hsf x (by simp [hx]), ?_, ?_, ?_, by simp, hg⟩
      · intro k hk
        have : k ≠ i := by rintro rfl; rw [hfi] at hk; cases hk
        simp only [Function.update_of_ne this]
        exact h1 k hk
      · intro x hx
        have : x.1 ≠ i := by
          rintro hxi
          exact hnd.1 (hxi ▸ List.mem_map_of_mem hx)
        simp only [Function.update_of_ne this]
        exact h2 x (by simp [hx])
      · intro k z hk hks _
        by_cases hki : k = i
        · subst hki
          rw [hfi] at hk; cases hk
          left
          simp [hi, (h0 k (hfn k _ hfi)).2.1]
        · simp only [Function.update_of_ne hki]
          exact h3 k z hk (by simp [hki, hks]) (by simp)
    | nil =>
      cases r with
      | nil => simp at hm
      | cons i r =>
        simp only [List.map_nil, List.nil_append, List.map_cons] at hm
        split at hm
        · cases hm
        · rename_i v qq hout
          cases hm
          have hiq : i ∈ q := by rw [hqq]; simp
          have hird : i ∉ rd := by
            rw [hqq, List.nodup_append] at hq
            intro hi
            exact hq.2.2 i hi i (by simp) rfl
          obtain ⟨e1, e2, e3⟩ := h0 i (hqn i hiq)
          -- worker `i` has a reply
          cases hfi : f i with
          | none =>
            rw [h1 i hfi, e3] at hout; cases hout
          | some y =>
            rcases h3 i y hfi (by simp) hird with hw | hw
            · rw [hw] at hout
              simp only at hout
              rw [e3] at hout; cases hout
            · cases hE : E (c0.workers i).env y with
              | none =>
                rw [hw] at hout
                simp only [processed, hE] at hout
                rw [e3] at hout; cases hout
              | some sv =>
                obtain ⟨st, v'⟩ := sv
                rw [hw] at hout
                simp only [processed, hE, List.cons.injEq] at hout
                obtain ⟨rfl, rfl⟩ := hout
                refine ⟨[], r, rd ++ [i], rfl, by simp [hqq], by simp, by simp, by simp, ?_, by simp, ?_, ?_, ?_⟩
                · intro k hk
                  have : k ≠ i := by rintro rfl; rw [hfi] at hk; cases hk
                  simp only [Function.update_of_ne this]
                  exact h1 k hk
                · intro k z hk _ hkr
                  simp only [List.mem_append, List.mem_singleton, not_or] at hkr
                  simp only [Function.update_of_ne hkr.2]
                  exact h3 k z hk (by simp) hkr.1
                · intro k hk
                  simp only [List.mem_append, List.mem_singleton] at hk
                  by_cases hki : k = i
                  · subst hki
                    refine ⟨y, st, v', hfi, hE, ?_⟩
                    simp [hw, processed, hE, e3]
                  · simp only [Function.update_of_ne hki]
                    exact h4 k (hk.resolve_right hki)
                · simp [hg, hfi, hE]
  | worker i =>
    simp only [Multi.move] at hm
    split at hm
    · rename_i hi
      rw [h.num] at hi
      simp only [Option.map_eq_some_iff] at hm
      obtain ⟨w, hw, rfl⟩ := hm
      obtain ⟨e1, e2, e3⟩ := h0 i hi
      -- only a worker with a request moves
      have hmv : ∃ y, f i = some y ∧ (i, y) ∉ s ∧ i ∉ rd ∧ w = processed E (c0.workers i) y := by
        cases hfi : f i with
        | none => rw [h1 i hfi] at hw; simp [Worker.move, e1, e2] at hw
        | some y =>
          by_cases hs : (i, y) ∈ s
          · rw [h2 _ hs] at hw; simp [Worker.move, e1, e2] at hw
          · by_cases hr : i ∈ rd
            · obtain ⟨_, st, v, _, _, h5⟩ := h4 i hr
              rw [h5] at hw; simp [Worker.move, e1, e2] at hw
            · refine ⟨y, rfl, hs, hr, ?_⟩
              rcases h3 i y hfi hs hr with h5 | h5
              · rw [h5] at hw
                cases hE : E (c0.workers i).env y with
                | none =>
                  simp only [Worker.move, e1, hE, Bool.false_eq_true, if_false, Option.some.injEq] at hw
                  rw [← hw]
                  simp [processed, hE, e2]
                | some sv =>
                  obtain ⟨st, v⟩ := sv
                  simp only [Worker.move, e1, hE, Bool.false_eq_true, if_false, Option.some.injEq] at hw
                  rw [← hw]
                  simp [processed, hE, e1, e2, e3]
              · exfalso
                rw [h5] at hw
                cases hE : E (c0.workers i).env y with
                | none => simp [processed, hE, Worker.move] at hw
                | some sv => simp [processed, hE, Worker.move, e1, e2] at hw
      obtain ⟨y, hfi, hs, hr, rfl⟩ := hmv
      refine ⟨s, r, rd, ht, hqq, hsrd, hnd, hsf, ?_, ?_, ?_, ?_, hg⟩
      · intro k hk
        have : k ≠ i := by rintro rfl; rw [hfi] at hk; cases hk
        simp only [Function.update_of_ne this]
        exact h1 k hk
      · intro z hz
        have : z.1 ≠ i := by
          rintro hzi
          have := hsf z hz
          rw [hzi, hfi] at this
          cases this
          exact hs (hzi ▸ hz)
        simp only [Function.update_of_ne this]
        exact h2 z hz
      · intro k z hk hks hkr
        by_cases hki : k = i
        · subst hki
          rw [hfi] at hk; cases hk
          right; simp
        · simp only [Function.update_of_ne hki]
          exact h3 k z hk hks hkr
      · intro k hk
        have : k ≠ i := by rintro rfl; exact hr hk
        simp only [Function.update_of_ne this]
        exact h4 k hk
    · cases hm

/-- The beginning of such a call. -/
theorem asking_begin (E : Env S A V) (f : Nat → Option (Req A)) (q : List Nat) (c0 : Multi S A V)
    (hf : ∀ i, c0.num ≤ i → f i = none) :
    Asking E f q c0 { c0 with todo := sends c0.num f ++ q.map .recv, got := [] } := by
  refine ⟨rfl, rfl, (List.range c0.num).filterMap (fun i => (f i).map fun r => (i, r)), q, [], ?_, rfl, fun _ => rfl,
    ?_, ?_, fun _ _ => rfl, fun _ _ => rfl, ?_, by simp, rfl⟩
  · simp only [sends, List.map_filterMap]
    congr 2
    funext i
    cases f i <;> rfl
  · have : (List.map (·.1) ((List.range c0.num).filterMap fun i => (f i).map fun r => (i, r))).Sublist (List.range c0.num) := by
      generalize List.range c0.num = l
      induction l with
      | nil => simp
      | cons a l ih =>
        simp only [List.filterMap_cons]
        cases f a with
        | none => exact ih.cons a
        | some r => simpa using ih
    exact this.nodup List.nodup_range
  · intro x hx
    simp only [List.mem_filterMap, Option.map_eq_some_iff] at hx
    obtain ⟨i, _, r, hr, rfl⟩ := hx
    exact hr
  · intro i x hi hs
    exfalso
    apply hs
    simp only [List.mem_filterMap, Option.map_eq_some_iff]
    refine ⟨i, ?_, x, hi, rfl⟩
    rw [List.mem_range]
    by_contra hlt
    rw [hf i (by omega)] at hi; cases hi

/-- A call that reads from the workers it has sent to returns if no environment raises. -/
theorem request_returns (E : Env S A V) (f : Nat → Option (Req A)) (c0 : Multi S A V) (hi : Idle c0)
    (hf : ∀ i, c0.num ≤ i → f i = none)
    (hE : ∀ i r, f i = some r → (E (c0.workers i).env r).isSome) :
    Returns E { c0 with todo := sends c0.num f ++ reads c0.num (fun i => (f i).isSome), got := [] } (Served E f c0) := by
  obtain ⟨hc, _, h0⟩ := hi
  have hfn : ∀ i y, f i = some y → i < c0.num := by
    intro i y hy
    by_contra hlt
    rw [hf i (by omega)] at hy; cases hy
  have hqn : ∀ i ∈ (List.range c0.num).filter (fun i => (f i).isSome), i < c0.num := by
    intro i h; simp at h; exact h.1
  have hqd : ((List.range c0.num).filter (fun i => (f i).isSome)).Nodup := List.nodup_range.filter _
  refine Returns.of fun sched c' hm => ⟨?_, ?_⟩
  all_goals
    have hinv := moves_inv E (Asking E f _ c0) (fun _ _ _ => fun h hm => h.move E hqd hf h0 hqn hm) sched _ _
      (asking_begin E f _ c0 hf) hm
    obtain ⟨s, r, rd, ht, hqq, hsrd, hnd, hsf, h1, h2, h3, h4, hg⟩ := hinv.ex
  · intro htd
    have hs0 : s = [] ∧ r = [] := by
      rw [ht] at htd
      simpa using htd
    obtain ⟨rfl, rfl⟩ := hs0
    simp only [List.append_nil] at hqq
    subst hqq
    have hmem : ∀ i y, f i = some y → i ∈ (List.range c0.num).filter (fun i => (f i).isSome) := by
      intro i y hy
      simp [hfn i y hy, hy]
    refine ⟨⟨hinv.closed.trans hc, htd, ?_⟩, hinv.num, ?_, ?_, hg⟩
    · intro i hi
      rw [hinv.num] at hi
      obtain ⟨e1, e2, e3⟩ := h0 i hi
      cases hfi : f i with
      | none => rw [h1 i hfi]; exact ⟨e1, e2, e3⟩
      | some y =>
        obtain ⟨_, st, v, _, _, h5⟩ := h4 i (hmem i y hfi)
        rw [h5]; exact ⟨e1, e2, e3⟩
    · intro i _ hfi
      rw [h1 i hfi]
    · intro i y _ hfi
      obtain ⟨y', st, v, hy, h6, h5⟩ := h4 i (hmem i y hfi)
      rw [hfi] at hy; cases hy
      rw [h5, h6]; rfl
  · intro htd
    cases s with
    | cons x s => exact ⟨.parent, by simp [Multi.move, Multi.parent, ht]⟩
    | nil =>
      cases r with
      | nil => simp [ht] at htd
      | cons i r =>
        have hiq : i ∈ (List.range c0.num).filter (fun i => (f i).isSome) := by rw [hqq]; simp
        have hird : i ∉ rd := by
          rw [hqq, List.nodup_append] at hqd
          intro hi
          exact hqd.2.2 i hi i (by simp) rfl
        have hin := hqn i hiq
        obtain ⟨e1, e2, e3⟩ := h0 i hin
        have : (f i).isSome := by simp at hiq; exact hiq.2
        obtain ⟨y, hfi⟩ := Option.isSome_iff_exists.1 this
        rcases h3 i y hfi (by simp) hird with h5 | h5
        · refine ⟨.worker i, ?_⟩
          simp only [Multi.move, hinv.num, if_pos hin, h5, Option.isSome_map, Worker.move, e1, Bool.false_eq_true, if_false]
          cases E (c0.workers i).env y <;> rfl
        · refine ⟨.parent, ?_⟩
          obtain ⟨sv, hsv⟩ := Option.isSome_iff_exists.1 (hE i y hfi)
          simp [Multi.move, Multi.parent, ht, h5, processed, hsv]

/-- A call that reads from a worker that was not sent to, or whose environment raises, hangs. -/
theorem request_hangs (E : Env S A V) (f : Nat → Option (Req A)) (q : List Nat) (c0 : Multi S A V) (hi : Idle c0)
    (hf : ∀ i, c0.num ≤ i → f i = none) (hq : q.Nodup) (hqn : ∀ i ∈ q, i < c0.num) (i : Nat) (hiq : i ∈ q)
    (hbad : ∀ r, f i = some r → E (c0.workers i).env r = none) :
    Hangs E { c0 with todo := sends c0.num f ++ q.map .recv, got := [] } := by
  obtain ⟨_, _, h0⟩ := hi
  intro sched c' hm htd
  have hinv := moves_inv E (Asking E f _ c0) (fun _ _ _ => fun h hm => h.move E hq hf h0 hqn hm) sched _ _
    (asking_begin E f _ c0 hf) hm
  obtain ⟨s, r, rd, ht, hqq, _, _, _, _, _, _, h4, _⟩ := hinv.ex
  have hs0 : s = [] ∧ r = [] := by
    rw [ht] at htd
    simpa using htd
  rw [hs0.2, List.append_nil] at hqq
  obtain ⟨x, st, v, h5, h6, _⟩ := h4 i (hqq ▸ hiq)
  rw [hbad x h5] at h6; cases h6

/-- The seeds that `arg` stands for. -/
def seedFor (arg : SeedArg) (i : Nat) : Option Int :=
  match arg with
  | .int k => some k
  | .list l => l[i]?
  | _ => none

/-- The argument is accepted: nothing, one number, or as many as there are environments. -/
def Accepted (n : Nat) : SeedArg → Prop
  | .none => True
  | .int _ => True
  | .list l => l.length = n
  | .other => False

theorem seedsOf_eq (n : Nat) (arg : SeedArg) (h : Accepted n arg) : ∃ l, seedsOf n arg = .ok l ∧ l.length = n ∧
    ∀ i, i < n → l[i]? = some (seedFor arg i) := by
  cases arg with
  | none => exact ⟨_, rfl, by simp, fun i hi => by simp [seedFor, hi]⟩
  | int k => exact ⟨_, rfl, by simp, fun i hi => by simp [seedFor, hi]⟩
  | list l =>
    simp only [Accepted] at h
    refine ⟨l.map some, by simp [seedsOf, h], by simpa using h, fun i hi => ?_⟩
    simp only [List.getElem?_map, seedFor]
    rw [List.getElem?_eq_getElem (by omega)]
    rfl
  | other => exact h.elim

theorem reads_congr (n : Nat) (f g : Nat → Bool) (h : ∀ i, i < n → f i = g i) :
    (reads n f : List (Act A)) = reads n g := by
  unfold reads
  congr 1
  apply List.filter_congr
  intro i hi
  exact h i (by simpa using hi)

theorem sends_congr (n : Nat) (f g : Nat → Option (Req A)) (h : ∀ i, i < n → f i = g i) : sends n f = sends n g := by
  unfold sends
  apply List.filterMap_congr
  intro i hi
  rw [h i (by simpa using hi)]

/-- C113: `seed` gives every environment its own seed, once, and returns their answers in order, under every
schedule. -/
theorem C113_seed (E : Env S A V) (c : Multi S A V) (hi : Idle c) (arg : SeedArg) (ha : Accepted c.num arg)
    (hE : ∀ i, i < c.num → (E (c.workers i).env (.seed (seedFor arg i))).isSome) :
    ∃ c1, c.begin (.seed arg) = .ok c1 ∧
      Returns E c1 (Served E (fun i => if i < c.num then some (.seed (seedFor arg i)) else none) c) := by
  obtain ⟨l, h1, h2, h3⟩ := seedsOf_eq c.num arg ha
  have := request_returns E (fun i => if i < c.num then some (.seed (seedFor arg i)) else none) c hi
    (fun i h => by simp; omega) (fun i r hr => by
      simp only [Option.ite_none_right_eq_some, Option.some.injEq] at hr
      obtain ⟨a, rfl⟩ := hr
      exact hE i a)
  refine ⟨_, ?_, this⟩
  have e1 : sends c.num (fun i => (l[i]?).map Req.seed) =
      (sends c.num (fun i => if i < c.num then some (.seed (seedFor arg i)) else none) : List (Act A)) :=
    sends_congr _ _ _ fun i hi => by simp [h3 i hi, hi]
  have e2 : (reads c.num (fun _ => true) : List (Act A)) =
      reads c.num (fun i => (if i < c.num then some (Req.seed (A := A) (seedFor arg i)) else none).isSome) :=
    reads_congr _ _ _ fun i hi => by simp [hi]
  simp only [Multi.begin, hi.1, plan, h1, ← e1, ← e2]
  rfl

/-- C113: a list of the wrong length and anything else are refused before anything is sent. -/
theorem C113_seed_refused (c : Multi S A V) (hc : c.closed = false) (arg : SeedArg) (ha : ¬ Accepted c.num arg) :
    ∃ e, (c.begin (.seed arg)) = .error e ∧ (e = .valueError ∨ e = .typeError) := by
  cases arg with
  | none => exact absurd trivial ha
  | int k => exact absurd trivial ha
  | list l =>
    simp only [Accepted] at ha
    exact ⟨.valueError, by simp [Multi.begin, hc, plan, seedsOf, ha]; rfl, Or.inl rfl⟩
  | other => exact ⟨.typeError, by simp [Multi.begin, hc, plan, seedsOf]; rfl, Or.inr rfl⟩

/-- C113: `step` with an action for every environment returns under every schedule if no environment raises. -/
theorem C113_step (E : Env S A V) (c : Multi S A V) (hi : Idle c) (actions : List A) (ha : actions.length = c.num)
    (hE : ∀ i a, actions[i]? = some a → (E (c.workers i).env (.step a)).isSome) :
    ∃ c1, c.begin (.step actions) = .ok c1 ∧ Returns E c1 (Served E (fun i => (actions[i]?).map .step) c) := by
  have := request_returns E (fun i => (actions[i]?).map .step) c hi
    (fun i h => by simp; omega) (fun i r hr => by
      simp only [Option.map_eq_some_iff] at hr
      obtain ⟨a, ha, rfl⟩ := hr
      exact hE i a ha)
  refine ⟨_, ?_, this⟩
  have e2 : (reads c.num (fun _ => true) : List (Act A)) =
      reads c.num (fun i => ((actions[i]?).map Req.step).isSome) :=
    reads_congr _ _ _ fun i hi => by simp; omega
  simp only [Multi.begin, hi.1, plan, ← e2]
  rfl

/-- C113: `reset` with any mask returns under every schedule if no environment raises. -/
theorem C113_reset (E : Env S A V) (c : Multi S A V) (hi : Idle c) (mask : List Bool) (hm : mask.length = c.num)
    (hE : ∀ i, mask[i]? = some false → (E (c.workers i).env .reset).isSome) :
    ∃ c1, c.begin (.reset mask) = .ok c1 ∧
      Returns E c1 (Served E (fun i => if mask[i]? = some false then some .reset else none) c) := by
  have e : (resetReq mask : Nat → Option (Req A)) = fun i => if mask[i]? = some false then some .reset else none := by
    funext i
    unfold resetReq
    split
    · rename_i h; simp [h]
    · rename_i h; rw [if_neg]; intro h'; exact h h'
  have := request_returns E (fun i => if mask[i]? = some false then some .reset else none) c hi
    (fun i h => by
      have : mask[i]? = none := by simp; omega
      simp [this]) (fun i r hr => by
      simp only [Option.ite_none_right_eq_some, Option.some.injEq] at hr
      obtain ⟨a, rfl⟩ := hr
      exact hE i a)
  refine ⟨_, ?_, this⟩
  simp only [Multi.begin, hi.1, plan, e]
  rfl

/-- A new vector environment is idle. -/
theorem init_idle (envs : List S) (d : S) : Idle (Multi.init envs d : Multi S A V) :=
  ⟨rfl, rfl, fun _ _ => ⟨rfl, rfl, rfl⟩⟩

/-- Three environments (counters) that accept everything: seeded with a list, they have their seeds. -/
example : ∃ c1, (Multi.init [10, 20, 30] 0 : Multi Int Int Int).begin (.seed (.list [1, 2, 3])) = .ok c1 ∧
    ∃ c2, c1.moves (fun s r => match r with | .seed (some k) => some (k, s) | _ => some (s, s))
      [.parent, .worker 0, .parent, .parent, .worker 2, .parent, .worker 1, .parent, .parent] = some c2 ∧
      c2.todo = [] ∧ c2.got = [10, 20, 30] ∧ (c2.workers 0).env = 1 ∧ (c2.workers 2).env = 3 := by
  refine ⟨_, rfl, _, rfl, rfl, rfl, rfl, rfl⟩

/-! ## What goes wrong -/

/-- C113, violated: if an environment raises in `step`, its worker exits (and closes it), but the parent is never
told: `step` never returns and raises nothing, whatever the schedule. -/
theorem C113_violated_env_raises (E : Env S A V) (c : Multi S A V) (hi : Idle c) (actions : List A)
    (i : Nat) (hin : i < c.num) (a : A) (ha : actions[i]? = some a) (hE : E (c.workers i).env (.step a) = none) :
    ∃ c1, c.begin (.step actions) = .ok c1 ∧ Hangs E c1 := by
  have := request_hangs E (fun i => if i < c.num then (actions[i]?).map .step else none) (List.range c.num) c hi
    (fun i h => by simp; omega) List.nodup_range (fun i h => by simpa using h) i (by simpa using hin)
    (fun r hr => by
      simp only [hin, if_true, ha, Option.map_some, Option.some.injEq] at hr
      subst hr; exact hE)
  refine ⟨_, ?_, this⟩
  have e : sends c.num (fun i => (actions[i]?).map Req.step) =
      sends c.num (fun i => if i < c.num then (actions[i]?).map .step else none) :=
    sends_congr _ _ _ fun i hi => by simp [hi]
  have e2 : (reads c.num (fun _ => true) : List (Act A)) = (List.range c.num).map .recv := by
    simp [reads]
  simp only [Multi.begin, hi.1, plan, ← e, e2]
  rfl

/-- C113, violated: `step` with too few actions never returns (`SerialVectorEnv` steps the first environments). -/
theorem C113_violated_few_actions (E : Env S A V) (c : Multi S A V) (hi : Idle c) (actions : List A)
    (ha : actions.length < c.num) : ∃ c1, c.begin (.step actions) = .ok c1 ∧ Hangs E c1 := by
  have := request_hangs E (fun i => (actions[i]?).map .step) (List.range c.num) c hi
    (fun i h => by simp; omega) List.nodup_range (fun i h => by simpa using h) actions.length (by simpa using ha)
    (fun r hr => by simp at hr)
  refine ⟨_, ?_, this⟩
  have e2 : (reads c.num (fun _ => true) : List (Act A)) = (List.range c.num).map .recv := by
    simp [reads]
  simp only [Multi.begin, hi.1, plan, e2]
  rfl

/-- C113, violated: after a call was interrupted (`KeyboardInterrupt` while waiting) and the exception caught, the next call
reads the old replies: here an environment answers each step with the action itself; `step([5])` is interrupted,
and `step([7])` returns 5. -/
theorem C113_violated_interrupted :
    let E : Env Unit Int Int := fun s r => match r with | .step a => some (s, a) | _ => some (s, 0)
    ∃ c1, (Multi.init [()] ()).begin (.step [5]) = .ok c1 ∧ ∃ c2, c1.moves E [.parent] = some c2 ∧
    ∃ c3, c2.interrupt.begin (.step [7]) = .ok c3 ∧ ∃ c4, c3.moves E [.parent, .worker 0, .worker 0, .parent] = some c4 ∧
      c4.todo = [] ∧ c4.got = [5] := by
  intro E
  refine ⟨_, rfl, _, rfl, _, rfl, _, rfl, rfl, rfl⟩

/-- What holds: `SerialVectorEnv.seed` with a list of the right length gives the environments the same seeds. -/
theorem C113_serial_seed (E : Env S A V) (envs : List S) (l : List Int) (hl : l.length = envs.length) (i : Nat) (s : S)
    (hs : envs[i]? = some s) :
    ∃ r, serialSeed E envs (.list l) = .ok r ∧ r.length = envs.length ∧
      r[i]? = some ((E s (.seed (seedFor (.list l) i))).map (·.1)) := by
  refine ⟨_, rfl, by simp [hl], ?_⟩
  have hi : i < envs.length := by
    by_contra h
    rw [List.getElem?_eq_none (by omega)] at hs
    cases hs
  rw [List.getElem?_append_left (by simp [hl, hi])]
  have hz : (envs.zip l)[i]? = some (s, l[i]'(by omega)) := by
    rw [List.getElem?_zip_eq_some]
    exact ⟨hs, by rw [List.getElem?_eq_getElem]⟩
  rw [List.getElem?_map, hz]
  simp only [Option.map_some, seedFor]
  rw [List.getElem?_eq_getElem (by omega)]

/-- C113, violated: `SerialVectorEnv.seed` raises `TypeError` where `MultiprocessVectorEnv.seed` accepts (no argument's
value, or one number), and accepts lists of the wrong length, leaving the last environments unseeded. -/
theorem C113_violated_serial_seed (E : Env S A V) (envs : List S) (k : Int) (s : S) :
    serialSeed E envs .none = .error .typeError ∧ serialSeed E envs (.int k) = .error .typeError ∧
    Accepted envs.length .none ∧ Accepted envs.length (.int k) ∧
    (∃ r, serialSeed E (envs ++ [s]) (.list (List.replicate envs.length k)) = .ok r ∧ r.getLast? = some (some s)) ∧
    ¬ Accepted (envs ++ [s]).length (.list (List.replicate envs.length k)) := by
  refine ⟨rfl, rfl, trivial, trivial, ⟨_, rfl, ?_⟩, ?_⟩
  · simp
  · simp [Accepted]

/-- C113: the spaces of both vector environments are those of the first environment. -/
theorem C113_spaces (env : Attrs V) :
    (serialAttrs env).actionSpace = env.actionSpace ∧ (serialAttrs env).observationSpace = env.observationSpace ∧
    (multiAttrs env).actionSpace = env.actionSpace ∧ (multiAttrs env).observationSpace = env.observationSpace := ⟨rfl, rfl, rfl, rfl⟩

/-- C113, violated: `SerialVectorEnv.spec` is the observation space; `MultiprocessVectorEnv.spec` is the spec. -/
theorem C113_violated_serial_spec (env : Attrs V) :
    (serialAttrs env).spec = env.observationSpace ∧ (multiAttrs env).spec = env.spec := ⟨rfl, rfl⟩

/-! ### Concrete cases: three environments that count, and raise on the action 0 -/

private def countE : Env Int Int Int := fun s r =>
  match r with
  | .step a => if a = 0 then none else some (s + a, s)
  | .reset => some (0, s)
  | .seed (some k) => some (k, s)
  | _ => some (s, s)

private theorem count_idle : Idle (Multi.init [10, 20, 30] 0 : Multi Int Int Int) :=
  ⟨rfl, rfl, fun _ _ => ⟨rfl, rfl, rfl⟩⟩

example := C113_close countE (Multi.init [10, 20, 30] 0) rfl

example (call : Call Int) := C113_closed ({ Multi.init [10, 20, 30] 0 with closed := true } : Multi Int Int Int) rfl call

example (sched : List Who) (c' : Multi Int Int Int) (h : (Multi.init [10, 20, 30] 0).moves countE sched = some c') :=
  C113_closed_once countE _ c' sched (fun _ => rfl) h

example := C113_seed countE (Multi.init [10, 20, 30] 0) count_idle (.int 7) trivial (fun _ _ => rfl)

example := C113_seed_refused (Multi.init [10, 20, 30] 0 : Multi Int Int Int) rfl (.list [1, 2])
  (by show ¬ (2 = 3); omega)

example := C113_step countE (Multi.init [10, 20, 30] 0) count_idle [1, 2, 3] rfl (by
  intro i a h
  match i, h with
  | 0, h => cases h; rfl
  | 1, h => cases h; rfl
  | 2, h => cases h; rfl)

example := C113_reset countE (Multi.init [10, 20, 30] 0) count_idle [false, true, false] rfl (fun _ _ => rfl)

example := C113_violated_env_raises countE (Multi.init [10, 20, 30] 0) count_idle [1, 0, 3] 1 (by show 1 < 3; omega) 0 rfl rfl

example := C113_violated_few_actions countE (Multi.init [10, 20, 30] 0) count_idle [1, 2] (by show 2 < 3; omega)

example := C113_serial_seed countE [10, 20, 30] [4, 5, 6] rfl 1 20 rfl

/-- **C113**: after an interrupted call the parent makes no further move until the next call, whatever the workers do. -/
theorem C113_interrupted_rests (E : Env S A V) (c c' : Multi S A V) (l : List Nat) (h : c.interrupt.moves E (l.map .worker) = some c') : c'.move E .parent = none := by
  have key : ∀ (l : List Nat) (c c' : Multi S A V), c.todo = [] → c.moves E (l.map .worker) = some c' → c'.todo = [] := by
    intro l
    induction l with
    | nil => intro c c' hc h; simp only [List.map_nil, Multi.moves, Option.some.injEq] at h; rw [← h]; exact hc
    | cons i l ih =>
      intro c c' hc h
      simp only [List.map_cons, Multi.moves, Option.bind_eq_some_iff] at h
      obtain ⟨d, hd, h⟩ := h
      refine ih d c' ?_ h
      simp only [Multi.move] at hd
      split at hd
      · obtain ⟨w, -, rfl⟩ := Option.map_eq_some_iff.1 hd
        exact hc
      · exact absurd hd (by simp)
  have := key l _ c' rfl h
  simp [Multi.move, Multi.parent, this]

example : (Multi.interrupt (Multi.init [()] ()) : Multi Unit Int Int).moves (fun s _ => some (s, 0)) ([].map .worker) = some (Multi.interrupt (Multi.init [()] ())) := rfl

end Verif.VectorLife
