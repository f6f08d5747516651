import Mathlib.Data.List.Nodup
import Mathlib.Data.List.Range
import Mathlib.Logic.Function.Basic
import Verif.Spec.VectorEnv
set_option autoImplicit false

/-! # C32, C33: vector environments -/

namespace Verif.VectorEnv
variable {S O A I : Type}

/-! ## SerialVectorEnv -/

theorem serial_step (dyn : Env S O A I) (v : Serial S O) (actions : List A) (h : actions.length = v.envs.length)
    (i : Nat) (s : S) (o : Option O) (hs : v.envs[i]? = some s) :
    (v.step dyn actions).1.envs[i]? = some (((Op.step actions).at i).call dyn (s, o)).1.1 ∧
    (v.step dyn actions).1.last[i]? = some (((Op.step actions).at i).call dyn (s, o)).1.2 ∧
    (v.step dyn actions).2.at i = some (((Op.step actions).at i).call dyn (s, o)).2 := by
  have hi : i < v.envs.length := (List.getElem?_eq_some_iff.mp hs).1
  obtain ⟨a, ha⟩ : ∃ a, actions[i]? = some a := ⟨actions[i], List.getElem?_eq_getElem (by omega)⟩
  have hr : (stepAll dyn v.envs actions)[i]? = some (dyn.step s a) := by
    have : (v.envs.zip actions)[i]? = some (s, a) := List.getElem?_zip_eq_some.mpr ⟨hs, ha⟩
    simp [stepAll, this]
  have hl : (stepAll dyn v.envs actions).length = v.envs.length := by simp [stepAll, h]
  refine ⟨?_, ?_, ?_⟩
  · simp only [Serial.step, Op.at, ha, EOp.call]
    rw [List.getElem?_append_left (by simp [hl, hi]), List.getElem?_map, hr]; rfl
  · simp [Serial.step, Op.at, ha, EOp.call, hr]
  · simp [Serial.step, Op.at, ha, EOp.call, hr, Out.at]

theorem maskOf_at (n : Nat) (mask : Option (List Bool)) (h : (Op.reset mask : Op A).width n) (i : Nat) (hi : i < n) :
    ∃ m, (maskOf n mask)[i]? = some m ∧ (Op.reset mask : Op A).at i = if m then .keep else .reset := by
  cases mask with
  | none => exact ⟨false, by simp [maskOf, hi], by simp [Op.at]⟩
  | some l =>
    simp only [Op.width] at h
    obtain ⟨m, hm⟩ : ∃ m, l[i]? = some m := ⟨l[i], List.getElem?_eq_getElem (by omega)⟩
    refine ⟨m, by simpa [maskOf] using hm, ?_⟩
    cases m <;> simp [Op.at, hm]

theorem maskOf_length (n : Nat) (mask : Option (List Bool)) (h : (Op.reset mask : Op A).width n) :
    (maskOf n mask).length = n := by
  cases mask with
  | none => simp [maskOf]
  | some l => exact h

theorem serial_reset (dyn : Env S O A I) (v : Serial S O) (mask : Option (List Bool))
    (h : (Op.reset mask : Op A).width v.envs.length) (hlast : v.last.length = v.envs.length)
    (i : Nat) (s : S) (o : Option O) (hs : v.envs[i]? = some s) (ho : v.last[i]? = some o) :
    (v.reset dyn mask).1.envs[i]? = some (((Op.reset mask).at i).call dyn (s, o)).1.1 ∧
    (v.reset dyn mask).1.last[i]? = some (((Op.reset mask).at i).call dyn (s, o)).1.2 ∧
    (v.reset dyn mask).2.at i = some (((Op.reset mask).at i).call dyn (s, o)).2 := by
  have hi : i < v.envs.length := (List.getElem?_eq_some_iff.mp hs).1
  obtain ⟨m, hm, hat⟩ := maskOf_at (A := A) _ mask h i hi
  have hl := maskOf_length (A := A) _ mask h
  have hr : (resetAll dyn (maskOf v.envs.length mask) v.envs v.last)[i]? = some (resetOne dyn m s o) := by
    have : ((maskOf v.envs.length mask).zip (v.envs.zip v.last))[i]? = some (m, s, o) :=
      List.getElem?_zip_eq_some.mpr ⟨hm, List.getElem?_zip_eq_some.mpr ⟨hs, ho⟩⟩
    simp [resetAll, this]
  have hlen : (resetAll dyn (maskOf v.envs.length mask) v.envs v.last).length = v.envs.length := by
    simp [resetAll, hl, hlast]
  have hone : ((Op.reset mask : Op A).at i).call dyn (s, o) = (resetOne dyn m s o, .obs (resetOne dyn m s o).2) := by
    rw [hat]
    cases m <;> rfl
  rw [hone]
  refine ⟨?_, ?_, ?_⟩
  · simp only [Serial.reset]
    rw [List.getElem?_append_left (by simp [hlen, hi]), List.getElem?_map, hr]; rfl
  · simp [Serial.reset, hr]
  · simp [Serial.reset, hr, Out.at]

theorem serial_call (dyn : Env S O A I) (v : Serial S O) (op : Op A)
    (h : op.width v.envs.length) (hlast : v.last.length = v.envs.length)
    (i : Nat) (s : S) (o : Option O) (hs : v.envs[i]? = some s) (ho : v.last[i]? = some o) :
    (v.call dyn op).1.envs[i]? = some ((op.at i).call dyn (s, o)).1.1 ∧
    (v.call dyn op).1.last[i]? = some ((op.at i).call dyn (s, o)).1.2 ∧
    (v.call dyn op).2.at i = some ((op.at i).call dyn (s, o)).2 := by
  cases op with
  | step actions => exact serial_step dyn v actions h i s o hs
  | reset mask => exact serial_reset dyn v mask h hlast i s o hs ho

theorem serial_lengths (dyn : Env S O A I) (v : Serial S O) (op : Op A)
    (h : op.width v.envs.length) (hlast : v.last.length = v.envs.length) :
    (v.call dyn op).1.envs.length = v.envs.length ∧ (v.call dyn op).1.last.length = v.envs.length := by
  cases op with
  | step actions =>
    simp only [Op.width] at h
    simp [Serial.call, Serial.step, stepAll, h]
  | reset mask =>
    have := maskOf_length (A := A) _ mask h
    simp [Serial.call, Serial.reset, resetAll, this, hlast]

theorem serial_run (dyn : Env S O A I) (ops : List (Op A)) : ∀ (v : Serial S O),
    (∀ op ∈ ops, op.width v.envs.length) → v.last.length = v.envs.length →
    ∀ (i : Nat) (s : S) (o : Option O), v.envs[i]? = some s → v.last[i]? = some o →
    (v.run dyn ops).1.envs[i]? = some (EOp.run dyn (s, o) (ops.map (Op.at i))).1.1 ∧
    (v.run dyn ops).2.map (Out.at i) = (EOp.run dyn (s, o) (ops.map (Op.at i))).2.map some := by
  induction ops with
  | nil => intro v _ _ i s o hs _; exact ⟨hs, rfl⟩
  | cons op ops ih =>
    intro v h hlast i s o hs ho
    have h0 := h op List.mem_cons_self
    obtain ⟨h1, h2, h3⟩ := serial_call dyn v op h0 hlast i s o hs ho
    obtain ⟨l1, l2⟩ := serial_lengths dyn v op h0 hlast
    obtain ⟨i1, i2⟩ := ih (v.call dyn op).1
      (fun x hx => by rw [l1]; exact h x (List.mem_cons_of_mem _ hx)) (by omega) i _ _ h1 h2
    refine ⟨i1, ?_⟩
    simp only [Serial.run, List.map_cons, EOp.run, h3]
    rw [i2]

/-- C32.  For every history of calls (each with an entry per environment), the
vector environment behaves as the product of its environments: environment `i`
sees exactly the actions and resets meant for it, and position `i` of the results
is what it shows – its last observation when it is not to be reset. -/
theorem C32_product (dyn : Env S O A I) (envs : List S) (ops : List (Op A))
    (hw : ∀ op ∈ ops, op.width envs.length) (i : Nat) (s : S) (hi : envs[i]? = some s) :
    ((Serial.init envs).run dyn ops).1.envs[i]? = some (EOp.run dyn (s, none) (ops.map (Op.at i))).1.1 ∧
    ((Serial.init envs).run dyn ops).2.map (Out.at i) =
      (EOp.run dyn (s, none) (ops.map (Op.at i))).2.map some := by
  have hlt : i < envs.length := (List.getElem?_eq_some_iff.mp hi).1
  exact serial_run dyn ops (Serial.init envs) hw (by simp [Serial.init]) i s none hi
    (by simp [Serial.init, hlt])

/-- C32: nothing else is in the results: each has one entry per environment. -/
theorem C32_lengths (dyn : Env S O A I) (v : Serial S O) (op : Op A)
    (h : op.width v.envs.length) (hlast : v.last.length = v.envs.length) (i : Nat) (hi : v.envs.length ≤ i) :
    (v.call dyn op).2.at i = none := by
  cases op with
  | step actions =>
    simp only [Op.width] at h
    simp [Serial.call, Serial.step, stepAll, h, Out.at, hi]
  | reset mask =>
    have hl := maskOf_length (A := A) _ mask h
    simp [Serial.call, Serial.reset, resetAll, hl, hlast, Out.at, hi]

/-! ## MultiprocessVectorEnv -/

/-- A worker that handles a list of commands. -/
def process (dyn : Env S O A I) : S → List (Cmd A) → S × List (Reply O I)
  | s, [] => (s, [])
  | s, c :: l => ((process dyn (handle dyn s c).1 l).1, (handle dyn s c).2 :: (process dyn (handle dyn s c).1 l).2)

theorem process_length (dyn : Env S O A I) (l : List (Cmd A)) : ∀ s, (process dyn s l).2.length = l.length := by
  induction l with
  | nil => intro s; rfl
  | cons c l ih => intro s; simp [process, ih]

/-- The commands the parent is still going to send to worker `i`. -/
def sends (i : Nat) : List (Act A) → List (Cmd A)
  | [] => []
  | .send j c :: l => if j = i then c :: sends i l else sends i l
  | .recv _ :: l => sends i l
  | .keep _ :: l => sends i l

theorem sends_append (i : Nat) (a b : List (Act A)) : sends i (a ++ b) = sends i a ++ sends i b := by
  induction a with
  | nil => rfl
  | cons x a ih =>
    cases x with
    | send j c =>
      simp only [List.cons_append, sends]
      split <;> simp [ih]
    | recv j => simpa [sends] using ih
    | keep j => simpa [sends] using ih

/-- The replies from worker `i`, received already or not, that the parent has not taken. -/
def stream (dyn : Env S O A I) (c : Multi S O A I) (i : Nat) : List (Reply O I) :=
  match c.workers[i]? with
  | none => []
  | some w => w.outq ++ (process dyn w.env (w.inq ++ sends i c.todo)).2

/-- The environment of worker `i` when all is done. -/
def final (dyn : Env S O A I) (c : Multi S O A I) (i : Nat) : Option S :=
  (c.workers[i]?).map fun w => (process dyn w.env (w.inq ++ sends i c.todo)).1

/-- What the parent is still going to get, and the replies left over. -/
def consume (last : List (Option O)) : List (Act A) → (Nat → List (Reply O I)) →
    Option (List (Got O I) × (Nat → List (Reply O I)))
  | [], Q => some ([], Q)
  | .send _ _ :: t, Q => consume last t Q
  | .keep i :: t, Q => (consume last t Q).map fun r => (.kept ((last[i]?).getD none) :: r.1, r.2)
  | .recv i :: t, Q =>
    match Q i with
    | [] => none
    | x :: q => (consume last t (Function.update Q i q)).map fun r => (.reply x :: r.1, r.2)

/-- Nothing is sent after the first `recv` or `keep`. -/
def Phased : List (Act A) → Prop
  | [] => True
  | .send _ _ :: t => Phased t
  | .recv _ :: t => ∀ i, sends i t = []
  | .keep _ :: t => ∀ i, sends i t = []

theorem phased_of_none (l : List (Act A)) (h : ∀ i, sends i l = []) : Phased l := by
  cases l with
  | nil => trivial
  | cons x l =>
    cases x with
    | send j c => have := h j; simp [sends] at this
    | recv j => exact h
    | keep j => exact h

/-- The state during a call, whatever the schedule so far. -/
structure Inv (dyn : Env S O A I) (last : List (Option O)) (n : Nat) (F : Nat → Option S) (G : List (Got O I))
    (c : Multi S O A I) : Prop where
  len : c.workers.length = n
  lastEq : c.last = last
  final : ∀ i, final dyn c i = F i
  rest : ∃ r, consume last c.todo (stream dyn c) = some (r, fun _ => []) ∧ c.got ++ r = G
  phased : Phased c.todo

theorem move_worker_view (dyn : Env S O A I) {w w' : Worker S O A I} (h : w.move dyn = some w') (f : List (Cmd A)) :
    w.outq ++ (process dyn w.env (w.inq ++ f)).2 = w'.outq ++ (process dyn w'.env (w'.inq ++ f)).2 ∧
    (process dyn w.env (w.inq ++ f)).1 = (process dyn w'.env (w'.inq ++ f)).1 := by
  unfold Worker.move at h
  split at h
  · cases h
  · rename_i c q hq
    cases h
    rw [hq]
    simp [process]

theorem inv_worker {dyn : Env S O A I} {last : List (Option O)} {n : Nat} {F : Nat → Option S} {G : List (Got O I)}
    {c c' : Multi S O A I} (h : Inv dyn last n F G c) (i : Nat) (hm : c.move dyn (.worker i) = some c') :
    Inv dyn last n F G c' := by
  simp only [Multi.move] at hm
  split at hm
  · cases hm
  · rename_i w hw
    simp only [Option.map_eq_some_iff] at hm
    obtain ⟨w', hw', rfl⟩ := hm
    have hi : i < c.workers.length := (List.getElem?_eq_some_iff.mp hw).1
    have hstream : stream dyn { c with workers := c.workers.set i w' } = stream dyn c := by
      funext j
      simp only [stream]
      by_cases hj : i = j
      · subst hj
        rw [List.getElem?_set_self hi, hw]
        exact (move_worker_view dyn hw' _).1.symm
      · rw [List.getElem?_set_ne hj]
    obtain ⟨r, h1, h2⟩ := h.rest
    refine ⟨by simpa using h.len, h.lastEq, fun j => ?_, ⟨r, by rw [hstream]; exact h1, h2⟩, h.phased⟩
    rw [← h.final j]
    simp only [final]
    by_cases hj : i = j
    · subst hj
      rw [List.getElem?_set_self hi, hw]
      simp only [Option.map_some, Option.some.injEq]
      exact (move_worker_view dyn hw' _).2.symm
    · rw [List.getElem?_set_ne hj]

theorem inv_parent {dyn : Env S O A I} {last : List (Option O)} {n : Nat} {F : Nat → Option S} {G : List (Got O I)}
    {c c' : Multi S O A I} (h : Inv dyn last n F G c) (hm : c.parent = some c') : Inv dyn last n F G c' := by
  obtain ⟨r, h1, h2⟩ := h.rest
  have hph := h.phased
  have hfin := h.final
  unfold Multi.parent at hm
  split at hm
  · cases hm
  · rename_i i cmd t ht
    cases hm
    rw [ht] at h1 hph
    have hview : ∀ j, ((c.workers.modify i fun w => { w with inq := w.inq ++ [cmd] })[j]?).map
        (fun w => (w.outq ++ (process dyn w.env (w.inq ++ sends j t)).2, (process dyn w.env (w.inq ++ sends j t)).1)) =
        (c.workers[j]?).map (fun w => (w.outq ++ (process dyn w.env (w.inq ++ sends j c.todo)).2,
          (process dyn w.env (w.inq ++ sends j c.todo)).1)) := by
      intro j
      rw [List.getElem?_modify]
      by_cases hj : i = j
      · subst hj
        rw [ht]
        cases c.workers[i]? with
        | none => rfl
        | some w => simp [sends]
      · rw [ht]
        cases c.workers[j]? with
        | none => rfl
        | some w => simp [sends, hj]
    refine ⟨by simpa using h.len, h.lastEq, fun j => ?_, ⟨r, ?_, h2⟩, hph⟩
    · rw [← hfin j]
      have := congrArg (Option.map Prod.snd) (hview j)
      simpa [final, Option.map_map, Function.comp_def] using this
    · have hs : stream dyn { c with todo := t, workers := c.workers.modify i fun w => { w with inq := w.inq ++ [cmd] } } =
          stream dyn c := by
        funext j
        have := congrArg (fun x => (Option.map Prod.fst x).getD []) (hview j)
        simp only [Option.map_map, Function.comp_def] at this
        simp only [stream]
        cases ha : (c.workers.modify i fun w => { w with inq := w.inq ++ [cmd] })[j]? <;>
          cases hb : c.workers[j]? <;> rw [ha, hb] at this <;> simpa using this
      rw [hs]
      exact h1
  · rename_i i t ht
    cases hm
    rw [ht] at h1 hph
    simp only [consume, Option.map_eq_some_iff] at h1
    obtain ⟨⟨r', q'⟩, h3, h4⟩ := h1
    simp only [Prod.mk.injEq] at h4
    obtain ⟨rfl, rfl⟩ := h4
    have hsd : ∀ j, sends j c.todo = sends j t := by intro j; rw [ht]; rfl
    refine ⟨h.len, h.lastEq, fun j => ?_, ⟨r', ?_, ?_⟩, phased_of_none t hph⟩
    · rw [← hfin j]; simp [final, hsd]
    · rw [← h3]
      congr 1
      funext j
      simp [stream, hsd]
    · rw [← h2, h.lastEq]; simp
  · rename_i i t ht
    rw [ht] at h1 hph
    split at hm
    · cases hm
    · rename_i w hw
      split at hm
      · cases hm
      · rename_i x q hq
        cases hm
        have hi : i < c.workers.length := (List.getElem?_eq_some_iff.mp hw).1
        have hsd : ∀ j, sends j c.todo = sends j t := by intro j; rw [ht]; rfl
        have hsi : stream dyn c i = x :: (q ++ (process dyn w.env (w.inq ++ sends i t)).2) := by
          simp [stream, hw, hq, hsd]
        simp only [consume, hsi, Option.map_eq_some_iff] at h1
        obtain ⟨⟨r', q'⟩, h3, h4⟩ := h1
        simp only [Prod.mk.injEq] at h4
        obtain ⟨rfl, rfl⟩ := h4
        refine ⟨by simpa using h.len, h.lastEq, fun j => ?_, ⟨r', ?_, ?_⟩, phased_of_none t hph⟩
        · rw [← hfin j]
          simp only [final]
          by_cases hj : i = j
          · subst hj
            rw [List.getElem?_set_self hi, hw, hsd]
            rfl
          · rw [List.getElem?_set_ne hj, hsd]
        · rw [← h3]
          congr 1
          funext j
          simp only [stream, Function.update_apply]
          by_cases hj : i = j
          · subst hj
            rw [List.getElem?_set_self hi]
            simp
          · rw [List.getElem?_set_ne hj, if_neg (Ne.symm hj), hsd]
        · rw [← h2]; simp

theorem inv_moves {dyn : Env S O A I} {last : List (Option O)} {n : Nat} {F : Nat → Option S} {G : List (Got O I)}
    (sched : List Who) : ∀ {c c' : Multi S O A I}, Inv dyn last n F G c → c.moves dyn sched = some c' →
    Inv dyn last n F G c' := by
  induction sched with
  | nil => intro c c' h hm; cases hm; exact h
  | cons x l ih =>
    intro c c' h hm
    simp only [Multi.moves] at hm
    split at hm
    · cases hm
    · rename_i c1 h1
      refine ih ?_ hm
      cases x with
      | parent => exact inv_parent h h1
      | worker i => exact inv_worker h i h1

/-- At the end of the call. -/
theorem inv_end {dyn : Env S O A I} {last : List (Option O)} {n : Nat} {F : Nat → Option S} {G : List (Got O I)}
    {c : Multi S O A I} (h : Inv dyn last n F G c) (ht : c.todo = []) :
    c.got = G ∧ (∀ i w, c.workers[i]? = some w → w.inq = [] ∧ w.outq = [] ∧ F i = some w.env) := by
  obtain ⟨r, h1, h2⟩ := h.rest
  rw [ht] at h1
  simp only [consume, Option.some.injEq, Prod.mk.injEq] at h1
  obtain ⟨rfl, h3⟩ := h1
  refine ⟨by simpa using h2, fun i w hw => ?_⟩
  have h4 := congrFun h3 i
  simp only [stream, hw, ht, sends, List.append_nil, List.append_eq_nil_iff] at h4
  have h5 : w.inq = [] := by
    have := process_length dyn w.inq w.env
    rw [h4.2] at this
    exact List.length_eq_zero_iff.mp this.symm
  refine ⟨h5, h4.1, ?_⟩
  rw [← h.final i]
  simp [final, hw, ht, sends, h5, process]

/-! ### The beginning of a call -/

/-- The command for an environment. -/
def EOp.cmd : EOp A → Option (Cmd A)
  | .step a => some (.step a)
  | .reset => some .reset
  | .keep => none

/-- Where the parent gets the result for environment `i`. -/
def EOp.take (i : Nat) : EOp A → Act A
  | .keep => .keep i
  | _ => .recv i

/-- What the parent gets for an environment. -/
def EOp.got (dyn : Env S O A I) (s : S) (o : Option O) : EOp A → Got O I
  | .step a => .reply (.out (dyn.step s a).2)
  | .reset => .reply (.obs (dyn.reset s).2)
  | .keep => .kept o

theorem zip_range {B : Type} (n : Nat) (l : List B) (h : l.length = n) (f : Nat → B) (hf : ∀ i b, l[i]? = some b → f i = b) :
    (List.range n).zip l = (List.range n).map fun i => (i, f i) := by
  apply List.ext_getElem
  · simp [h]
  · intro i h1 h2
    simp only [List.length_zip, List.length_range, h, Nat.min_self] at h1
    simp only [List.getElem_zip, List.getElem_range, List.getElem_map, Prod.mk.injEq, true_and]
    exact (hf i _ (List.getElem?_eq_getElem (by omega))).symm

theorem range_get {n k j : Nat} (h : (List.range n)[k]? = some j) : j = k := by
  obtain ⟨hk, h⟩ := List.getElem?_eq_some_iff.mp h
  simpa using h.symm

/-- The plan of a call, environment by environment. -/
theorem plan_eq (n : Nat) (op : Op A) (h : op.width n) :
    plan n op = (List.range n).filterMap (fun i => (op.at i).cmd.map (Act.send i)) ++
      (List.range n).map fun i => (op.at i).take i := by
  cases op with
  | step actions =>
    simp only [Op.width] at h
    simp only [plan, stepPlan]
    congr 1
    · have e1 : ((List.range n).zip actions).map (fun x => Act.send x.1 (.step x.2)) =
          (List.range n).filterMap fun i => ((Op.step actions).at i).cmd.map (Act.send i) := by
        apply List.ext_getElem?
        intro i
        have e2 : (List.range n).filterMap (fun i => ((Op.step actions).at i).cmd.map (Act.send i)) =
            ((List.range n).zip actions).filterMap fun x => some (Act.send x.1 (.step x.2)) := by
          have : List.range n = ((List.range n).zip actions).map Prod.fst := by
            rw [List.map_fst_zip]; simp [h]
          conv_lhs => rw [this, List.filterMap_map]
          apply List.filterMap_congr
          rintro ⟨j, a⟩ hx
          obtain ⟨k, hk⟩ := List.mem_iff_getElem?.mp hx
          obtain ⟨h1, h2⟩ := List.getElem?_zip_eq_some.mp hk
          simp only at h1 h2
          have hkj : j = k := range_get h1
          subst hkj
          simp [Op.at, h2, EOp.cmd]
        rw [e2, List.filterMap_eq_map']
      exact e1
    · apply List.map_congr_left
      intro i hi
      have hi' : i < actions.length := by rw [h]; simpa using hi
      simp [Op.at, List.getElem?_eq_getElem hi', EOp.take]
  | reset mask =>
    have hl := maskOf_length (A := A) n mask h
    simp only [plan, resetPlan]
    have hz : ∀ x ∈ (List.range n).zip (maskOf n mask), (Op.reset mask : Op A).at x.1 = if x.2 then .keep else .reset := by
      rintro ⟨j, m⟩ hx
      obtain ⟨k, hk⟩ := List.mem_iff_getElem?.mp hx
      obtain ⟨h1, h2⟩ := List.getElem?_zip_eq_some.mp hk
      simp only at h1 h2
      have hkj : j = k := range_get h1
      subst hkj
      have hlt : j < n := by rw [← hl]; exact (List.getElem?_eq_some_iff.mp h2).1
      obtain ⟨m', hm, hat⟩ := maskOf_at (A := A) n mask h j hlt
      rw [h2] at hm
      cases hm
      exact hat
    have hr : List.range n = ((List.range n).zip (maskOf n mask)).map Prod.fst := by
      rw [List.map_fst_zip]; simp [hl]
    congr 1
    · conv_rhs => rw [hr, List.filterMap_map]
      rw [← List.filterMap_eq_map', List.filterMap_filter]
      apply List.filterMap_congr
      intro x hx
      simp only [Function.comp_apply, hz x hx]
      cases x.2 <;> simp [EOp.cmd]
    · conv_rhs => rw [hr, List.map_map]
      apply List.map_congr_left
      intro x hx
      simp only [Function.comp_apply, hz x hx]
      cases x.2 <;> simp [EOp.take]

theorem sends_takes (e : Nat → EOp A) (l : List Nat) (i : Nat) : sends i (l.map fun j => (e j).take j) = [] := by
  induction l with
  | nil => rfl
  | cons j l ih =>
    rw [List.map_cons]
    cases h : e j <;> simpa [EOp.take, sends, h] using ih

theorem sends_plan (e : Nat → EOp A) (n i : Nat) (hi : i < n) :
    sends i ((List.range n).filterMap (fun j => (e j).cmd.map (Act.send j))) = (e i).cmd.toList := by
  have key : ∀ (l : List Nat), l.Nodup → sends i (l.filterMap (fun j => (e j).cmd.map (Act.send j))) =
      if i ∈ l then (e i).cmd.toList else [] := by
    intro l
    induction l with
    | nil => intro _; rfl
    | cons j l ih =>
      intro hn
      obtain ⟨h1, h2⟩ := List.nodup_cons.mp hn
      rw [List.filterMap_cons]
      by_cases hj : j = i
      · subst hj
        have h3 := ih h2
        rw [if_neg h1] at h3
        cases hc : (e j).cmd with
        | none => simp [h3]
        | some c => simp [sends, h3]
      · have h3 := ih h2
        have hmem : (i ∈ j :: l) ↔ i ∈ l := by simp [Ne.symm hj]
        cases hc : (e j).cmd with
        | none => simp [h3, hmem]
        | some c => simp [sends, hj, h3, hmem]
  rw [key _ List.nodup_range, if_pos (by simpa using hi)]

theorem consume_sends (last : List (Option O)) (l : List Nat) (e : Nat → EOp A) (t : List (Act A))
    (Q : Nat → List (Reply O I)) :
    consume last (l.filterMap (fun j => (e j).cmd.map (Act.send j)) ++ t) Q = consume last t Q := by
  induction l with
  | nil => rfl
  | cons j l ih =>
    rw [List.filterMap_cons]
    cases (e j).cmd with
    | none => exact ih
    | some c => exact ih

theorem phased_sends (l : List Nat) (e : Nat → EOp A) (t : List (Act A)) (h : Phased t) :
    Phased (l.filterMap (fun j => (e j).cmd.map (Act.send j)) ++ t) := by
  induction l with
  | nil => exact h
  | cons j l ih =>
    rw [List.filterMap_cons]
    cases (e j).cmd with
    | none => exact ih
    | some c => exact ih

/-- Taking the results when each environment with a command has exactly one reply. -/
theorem consume_takes (last : List (Option O)) (e : Nat → EOp A) (g : Nat → Got O I) (l : List Nat) :
    l.Nodup → ∀ (Q : Nat → List (Reply O I)),
    (∀ i ∈ l, (∃ r, (e i).take i = .recv i ∧ Q i = [r] ∧ g i = .reply r) ∨
      ((e i).take i = .keep i ∧ Q i = [] ∧ g i = .kept ((last[i]?).getD none))) →
    consume last (l.map fun j => (e j).take j) Q = some (l.map g, fun i => if i ∈ l then [] else Q i) := by
  induction l with
  | nil => intro _ Q _; simp [consume]
  | cons j l ih =>
    intro hn Q hQ
    obtain ⟨h1, h2⟩ := List.nodup_cons.mp hn
    rcases hQ j List.mem_cons_self with ⟨r, k1, k2, k3⟩ | ⟨k1, k2, k3⟩
    · have h3 := ih h2 (Function.update Q j []) (by
        intro i hi
        have hij : i ≠ j := fun h => h1 (h ▸ hi)
        rw [Function.update_of_ne hij]
        exact hQ i (List.mem_cons_of_mem _ hi))
      simp only [List.map_cons, k1, consume, k2, h3, Option.map_some, k3, Option.some.injEq, Prod.mk.injEq, true_and]
      funext i
      by_cases hij : i = j
      · subst hij; simp
      · simp [hij]
    · have h3 := ih h2 Q (fun i hi => hQ i (List.mem_cons_of_mem _ hi))
      simp only [List.map_cons, k1, consume, h3, Option.map_some, k3, Option.some.injEq, Prod.mk.injEq, true_and]
      funext i
      by_cases hij : i = j
      · subst hij; simp [k2]
      · simp [hij]

/-- The multiprocess environment between calls, and the serial one it equals. -/
structure Rel (c : Multi S O A I) (v : Serial S O) : Prop where
  envs : c.workers.map (·.env) = v.envs
  idle : ∀ (i : Nat) w, c.workers[i]? = some w → w.inq = [] ∧ w.outq = []
  last : c.last = v.last
  lens : v.last.length = v.envs.length
  todo : c.todo = []

theorem Rel.worker {c : Multi S O A I} {v : Serial S O} (h : Rel c v) {i : Nat} {s : S} (hs : v.envs[i]? = some s) :
    c.workers[i]? = some ⟨s, [], []⟩ := by
  rw [← h.envs, List.getElem?_map, Option.map_eq_some_iff] at hs
  obtain ⟨w, hw, rfl⟩ := hs
  obtain ⟨h1, h2⟩ := h.idle i w hw
  rw [hw]
  obtain ⟨a, b, c⟩ := w
  simp only at h1 h2
  rw [h1, h2]

theorem Rel.len {c : Multi S O A I} {v : Serial S O} (h : Rel c v) : c.workers.length = v.envs.length := by
  rw [← h.envs]; simp

/-- What the parent gets for environment `i`. -/
def gotAt (dyn : Env S O A I) (v : Serial S O) (op : Op A) (i : Nat) : Got O I :=
  match v.envs[i]? with
  | none => .kept none
  | some s => (op.at i).got dyn s ((v.last[i]?).getD none)

/-- The environment afterwards. -/
def envAt (dyn : Env S O A I) (v : Serial S O) (op : Op A) (i : Nat) : Option S :=
  (v.envs[i]?).map fun s => ((op.at i).call dyn (s, (v.last[i]?).getD none)).1.1

/-- At the beginning of a call. -/
theorem inv_begin {dyn : Env S O A I} {c : Multi S O A I} {v : Serial S O} (h : Rel c v) (op : Op A)
    (hw : op.width v.envs.length) :
    Inv dyn v.last v.envs.length (envAt dyn v op) ((List.range v.envs.length).map (gotAt dyn v op)) (c.begin op) := by
  have hplan := plan_eq c.workers.length op (by rw [h.len]; exact hw)
  have hsends : ∀ i s, v.envs[i]? = some s → sends i (plan c.workers.length op) = (op.at i).cmd.toList := by
    intro i s hs
    have hi : i < v.envs.length := (List.getElem?_eq_some_iff.mp hs).1
    rw [hplan, sends_append, sends_takes (fun i => op.at i), List.append_nil,
      sends_plan (fun i => op.at i) _ i (by rw [h.len]; exact hi)]
  refine ⟨h.len, h.last, fun i => ?_, ⟨(List.range c.workers.length).map (gotAt dyn v op), ?_, ?_⟩, ?_⟩
  · simp only [final, Multi.begin, envAt]
    cases hs : v.envs[i]? with
    | none =>
      have : c.workers[i]? = none := by
        rw [List.getElem?_eq_none_iff, h.len]; exact List.getElem?_eq_none_iff.mp hs
      rw [this]; rfl
    | some s =>
      rw [h.worker hs]
      simp only [Option.map_some, List.nil_append, hsends i s hs, Option.some.injEq]
      cases op.at i <;> rfl
  · show consume v.last (plan c.workers.length op) _ = _
    rw [hplan, consume_sends v.last (List.range c.workers.length) (fun i => op.at i)]
    rw [consume_takes v.last (fun i => op.at i) (gotAt dyn v op) _ List.nodup_range]
    · congr 1
      congr 1
      funext i
      split
      · rfl
      · rename_i hi
        have : (c.begin op).workers[i]? = none := by
          rw [List.getElem?_eq_none_iff]; simpa [Multi.begin] using hi
        simp [stream, this]
    · intro i hi
      have hi' : i < v.envs.length := by rw [← h.len]; simpa using hi
      have hs := List.getElem?_eq_getElem hi'
      have hst : stream dyn (c.begin op) i = (process dyn v.envs[i] (op.at i).cmd.toList).2 := by
        have hwk := h.worker hs
        simp only [stream, Multi.begin, hwk, List.nil_append, hsends i _ hs]
      have hg : gotAt dyn v op i = (op.at i).got dyn v.envs[i] ((v.last[i]?).getD none) := by
        simp only [gotAt, hs]
      rw [hst, hg]
      cases op.at i with
      | step a => exact .inl ⟨_, rfl, rfl, rfl⟩
      | reset => exact .inl ⟨_, rfl, rfl, rfl⟩
      | keep => exact .inr ⟨rfl, rfl, rfl⟩
  · simp [Multi.begin, h.len]
  · show Phased (plan c.workers.length op)
    rw [hplan]
    exact phased_sends _ (fun i => op.at i) _ (phased_of_none _ (sends_takes (fun i => op.at i) _))

theorem got_obs (dyn : Env S O A I) (s : S) (o : Option O) (e : EOp A) : (e.got dyn s o).obs = (e.call dyn (s, o)).1.2 := by
  cases e <;> rfl

theorem out_ext (n : Nat) {a b : Out O I} (ha : ∀ i, n ≤ i → a.at i = none) (hb : ∀ i, n ≤ i → b.at i = none)
    (hab : ∀ i, i < n → a.at i = b.at i)
    (hk : (∃ x y, a = .step x ∧ b = .step y) ∨ (∃ x y, a = .reset x ∧ b = .reset y)) : a = b := by
  have hall : ∀ i, a.at i = b.at i := by
    intro i
    by_cases hi : i < n
    · exact hab i hi
    · rw [ha i (by omega), hb i (by omega)]
  rcases hk with ⟨x, y, rfl, rfl⟩ | ⟨x, y, rfl, rfl⟩
  · congr 1
    apply List.ext_getElem?
    intro i
    have := hall i
    simp only [Out.at] at this
    cases hx : x[i]? <;> cases hy : y[i]? <;> rw [hx, hy] at this <;> simp_all
  · congr 1
    apply List.ext_getElem?
    intro i
    have := hall i
    simp only [Out.at] at this
    cases hx : x[i]? <;> cases hy : y[i]? <;> rw [hx, hy] at this <;> simp_all

/-- A call that finishes. -/
theorem call_rel {dyn : Env S O A I} {c c' : Multi S O A I} {v : Serial S O} {op : Op A} {sched : List Who}
    {out : Out O I} (h : Rel c v) (hw : op.width v.envs.length) (hc : c.call dyn op sched = some (c', out)) :
    Rel c' (v.call dyn op).1 ∧ out = (v.call dyn op).2 := by
  simp only [Multi.call] at hc
  split at hc
  · cases hc
  · rename_i c1 hm
    have hinv := inv_moves sched (inv_begin (dyn := dyn) h op hw) hm
    unfold Multi.finish at hc
    split at hc
    · rename_i ht
      cases hc
      obtain ⟨e1, e2⟩ := inv_end hinv ht
      obtain ⟨l1, l2⟩ := serial_lengths dyn v op hw h.lens
      have hser : ∀ i, i < v.envs.length → ∃ s o, v.envs[i]? = some s ∧ v.last[i]? = some o := by
        intro i hi
        exact ⟨_, _, List.getElem?_eq_getElem hi, List.getElem?_eq_getElem (by rw [h.lens]; exact hi)⟩
      constructor
      · refine ⟨?_, fun i w hw' => ⟨(e2 i w hw').1, (e2 i w hw').2.1⟩, ?_, by rw [l1, l2], ht⟩
        · apply List.ext_getElem?
          intro i
          by_cases hi : i < v.envs.length
          · obtain ⟨s, o, hs, ho⟩ := hser i hi
            rw [(serial_call dyn v op hw h.lens i s o hs ho).1, List.getElem?_map]
            have hwk : c1.workers[i]? = some (c1.workers[i]'(by rw [hinv.len]; exact hi)) := List.getElem?_eq_getElem _
            rw [hwk]
            have h3 := (e2 i _ hwk).2.2
            simp only [envAt, hs, ho, Option.map_some, Option.getD_some] at h3
            exact h3.symm
          · rw [List.getElem?_eq_none (by simp [hinv.len]; omega), List.getElem?_eq_none (by omega)]
        · show List.map Got.obs c1.got = _
          rw [e1]
          apply List.ext_getElem?
          intro i
          by_cases hi : i < v.envs.length
          · obtain ⟨s, o, hs, ho⟩ := hser i hi
            rw [(serial_call dyn v op hw h.lens i s o hs ho).2.1]
            rw [List.map_map, List.getElem?_map, List.getElem?_range hi]
            simp only [Option.map_some, Function.comp_apply, gotAt, hs, ho, got_obs, Option.getD_some]
          · rw [List.getElem?_eq_none (by simp; omega), List.getElem?_eq_none (by omega)]
      · rw [e1]
        have hbn := C32_lengths dyn v op hw h.lens
        cases op with
        | step actions =>
          have hgot : ∀ i, i < v.envs.length → (gotAt dyn v (.step actions) i).out =
              (gotAt dyn v (.step actions) i).out ∧ ∃ x, gotAt dyn v (.step actions) i = .reply (.out x) := by
            intro i hi
            refine ⟨rfl, ?_⟩
            obtain ⟨s, o, hs, ho⟩ := hser i hi
            simp only [Op.width] at hw
            have ha := List.getElem?_eq_getElem (l := actions) (i := i) (by omega)
            exact ⟨(dyn.step s actions[i]).2, by simp only [gotAt, hs, Op.at, ha, EOp.got]⟩
          have hfm : ((List.range v.envs.length).map (gotAt dyn v (.step actions))).filterMap Got.out =
              (List.range v.envs.length).filterMap fun i => (gotAt dyn v (.step actions) i).out := by
            rw [List.filterMap_map]; rfl
          have hmap : ∃ f : Nat → Option (O × I), (∀ i, i < v.envs.length → ∃ x, f i = some x ∧
              gotAt dyn v (.step actions) i = .reply (.out x)) ∧
              f = fun i => (gotAt dyn v (.step actions) i).out := by
            refine ⟨_, fun i hi => ?_, rfl⟩
            obtain ⟨x, hx⟩ := (hgot i hi).2
            exact ⟨x, by rw [hx]; rfl, hx⟩
          obtain ⟨f, hf, rfl⟩ := hmap
          have hget : ∀ (n i : Nat), (∀ j, j < n → ∃ x, (gotAt dyn v (.step actions) j).out = some x) → i < n →
              ((List.range n).filterMap fun i => (gotAt dyn v (.step actions) i).out)[i]? =
                (gotAt dyn v (.step actions) i).out ∧
              ((List.range n).filterMap fun i => (gotAt dyn v (.step actions) i).out).length = n := by
            intro n
            induction n with
            | zero => intro i _ hi; omega
            | succ n ih =>
              intro i hall hi
              obtain ⟨x, hx⟩ := hall n (by omega)
              have hlen : ((List.range n).filterMap fun i => (gotAt dyn v (.step actions) i).out).length = n := by
                cases n with
                | zero => rfl
                | succ m => exact (ih 0 (fun j hj => hall j (by omega)) (by omega)).2
              rw [List.range_succ, List.filterMap_append]
              simp only [List.filterMap_cons, hx, List.filterMap_nil, List.length_append, hlen, List.length_singleton,
                and_true]
              by_cases hin : i < n
              · rw [List.getElem?_append_left (by omega)]
                exact (ih i (fun j hj => hall j (by omega)) hin).1
              · have : i = n := by omega
                subst this
                rw [List.getElem?_append_right (by omega), hlen, Nat.sub_self, hx]
                rfl
          apply out_ext v.envs.length
          · intro i hi
            simp only [outOf, Out.at, hfm, Option.map_eq_none_iff, List.getElem?_eq_none_iff]
            refine Nat.le_trans (List.length_filterMap_le _ _) ?_
            simpa using hi
          · exact hbn
          · intro i hi
            obtain ⟨s, o, hs, ho⟩ := hser i hi
            rw [(serial_call dyn v _ hw h.lens i s o hs ho).2.2]
            simp only [outOf, Out.at, hfm]
            rw [(hget v.envs.length i (fun j hj => ⟨_, (hf j hj).choose_spec.1⟩) hi).1]
            simp only [Op.width] at hw
            have ha := List.getElem?_eq_getElem (l := actions) (i := i) (by omega)
            simp [gotAt, hs, Op.at, ha, EOp.got, Got.out, EOp.call]
          · exact .inl ⟨_, _, rfl, rfl⟩
        | reset mask =>
          apply out_ext v.envs.length
          · intro i hi
            simp [outOf, Out.at, hi]
          · exact hbn
          · intro i hi
            obtain ⟨s, o, hs, ho⟩ := hser i hi
            rw [(serial_call dyn v _ hw h.lens i s o hs ho).2.2]
            obtain ⟨m, _, hat⟩ := maskOf_at (A := A) _ mask hw i hi
            simp only [outOf, Out.at, List.map_map, List.getElem?_map, List.getElem?_range hi, Option.map_some,
              Function.comp_apply, gotAt, hs, ho, hat]
            cases m <;> rfl
          · exact .inr ⟨_, _, rfl, rfl⟩
    · cases hc

theorem rel_init (envs : List S) : Rel (Multi.init envs : Multi S O A I) (Serial.init envs) := by
  refine ⟨by simp [Multi.init, Serial.init, Function.comp_def], fun i w hw => ?_, rfl, by simp [Serial.init], rfl⟩
  simp only [Multi.init, List.getElem?_map, Option.map_eq_some_iff] at hw
  obtain ⟨s, _, rfl⟩ := hw
  exact ⟨rfl, rfl⟩

theorem run_rel {dyn : Env S O A I} (ops : List (Op A × List Who)) : ∀ {c c' : Multi S O A I} {v : Serial S O}
    {outs : List (Out O I)}, Rel c v → (∀ x ∈ ops, x.1.width v.envs.length) → c.run dyn ops = some (c', outs) →
    Rel c' (v.run dyn (ops.map (·.1))).1 ∧ outs = (v.run dyn (ops.map (·.1))).2 := by
  induction ops with
  | nil =>
    intro c c' v outs h _ hr
    cases hr
    exact ⟨h, rfl⟩
  | cons x ops ih =>
    intro c c' v outs h hw hr
    obtain ⟨op, sched⟩ := x
    simp only [Multi.run] at hr
    split at hr
    · cases hr
    · rename_i r hc
      split at hr
      · cases hr
      · rename_i rs hrs
        cases hr
        have hw0 := hw _ List.mem_cons_self
        obtain ⟨h1, h2⟩ := call_rel (out := r.2) (c' := r.1) h hw0 hc
        obtain ⟨h3, h4⟩ := ih (outs := rs.2) (c' := rs.1) h1 (by
          intro y hy
          rw [(serial_lengths dyn v op hw0 h.lens).1]
          exact hw y (List.mem_cons_of_mem _ hy)) hrs
        refine ⟨h3, ?_⟩
        simp only [List.map_cons, Serial.run]
        rw [← h2, ← h4]

/-- C33.  Whatever the schedule of parent and workers, every finished sequence of
calls returns exactly what a `SerialVectorEnv` over the same environments returns,
leaves the environments in the same states, and leaves no command or reply in any
pipe. -/
theorem C33_serial (dyn : Env S O A I) (envs : List S) (ops : List (Op A × List Who))
    (hw : ∀ x ∈ ops, x.1.width envs.length) (c' : Multi S O A I) (outs : List (Out O I))
    (hr : (Multi.init envs).run dyn ops = some (c', outs)) :
    outs = ((Serial.init envs).run dyn (ops.map (·.1))).2 ∧
    c'.workers.map (·.env) = ((Serial.init envs).run dyn (ops.map (·.1))).1.envs ∧
    ∀ w ∈ c'.workers, w.inq = [] ∧ w.outq = [] := by
  obtain ⟨h1, h2⟩ := run_rel ops (rel_init envs) hw hr
  refine ⟨h2, h1.envs, fun w hw' => ?_⟩
  obtain ⟨i, hi⟩ := List.mem_iff_getElem?.mp hw'
  exact h1.idle i w hi

/-! ### Progress -/

/-- Moves still possible: every send, worker round and receive once. -/
def potential (c : Multi S O A I) : Nat :=
  2 * c.todo.length + (c.workers.map (·.inq.length)).sum

theorem move_potential {dyn : Env S O A I} {c c' : Multi S O A I} {x : Who} (h : c.move dyn x = some c') :
    potential c' + 1 ≤ potential c := by
  have hset : ∀ (l : List (Worker S O A I)) (i : Nat) (w w' : Worker S O A I), l[i]? = some w →
      ((l.set i w').map (·.inq.length)).sum + w.inq.length = (l.map (·.inq.length)).sum + w'.inq.length := by
    intro l
    induction l with
    | nil => intro i w w' h; simp at h
    | cons y l ih =>
      intro i w w' h
      cases i with
      | zero =>
        simp only [List.getElem?_cons_zero, Option.some.injEq] at h
        subst h
        simp
        omega
      | succ i =>
        simp only [List.getElem?_cons_succ] at h
        have := ih i w w' h
        simp only [List.set_cons_succ, List.map_cons, List.sum_cons]
        omega
  have hmod : ∀ (l : List (Worker S O A I)) (i : Nat) (cmd : Cmd A),
      ((l.modify i fun w => { w with inq := w.inq ++ [cmd] }).map (·.inq.length)).sum ≤
        (l.map (·.inq.length)).sum + 1 := by
    intro l
    induction l with
    | nil => intro i cmd; simp
    | cons y l ih =>
      intro i cmd
      cases i with
      | zero => simp; omega
      | succ i =>
        have := ih i cmd
        simp only [List.modify_succ_cons, List.map_cons, List.sum_cons]
        omega
  cases x with
  | parent =>
    simp only [Multi.move, Multi.parent] at h
    split at h
    · cases h
    · rename_i i cmd t ht
      cases h
      have := hmod c.workers i cmd
      simp only [potential, ht, List.length_cons]
      omega
    · rename_i i t ht
      cases h
      simp only [potential, ht, List.length_cons]
      omega
    · rename_i i t ht
      split at h
      · cases h
      · rename_i w hw
        split at h
        · cases h
        · rename_i r q hq
          cases h
          have := hset c.workers i w { w with outq := q } hw
          simp only at this
          simp only [potential, ht, List.length_cons]
          omega
  | worker i =>
    simp only [Multi.move] at h
    split at h
    · cases h
    · rename_i w hw
      simp only [Option.map_eq_some_iff] at h
      obtain ⟨w', hw', rfl⟩ := h
      unfold Worker.move at hw'
      split at hw'
      · cases hw'
      · rename_i cmd q hq
        cases hw'
        have := hset c.workers i w ⟨(handle dyn w.env cmd).1, q, w.outq ++ [(handle dyn w.env cmd).2]⟩ hw
        rw [hq] at this
        simp only [List.length_cons] at this
        simp only [potential]
        omega

/-- Somebody can move until the call is finished. -/
theorem progress {dyn : Env S O A I} {last : List (Option O)} {n : Nat} {F : Nat → Option S} {G : List (Got O I)}
    {c : Multi S O A I} (h : Inv dyn last n F G c) (ht : c.todo ≠ []) : ∃ x c', c.move dyn x = some c' := by
  obtain ⟨r, h1, _⟩ := h.rest
  have hph := h.phased
  cases hc : c.todo with
  | nil => exact absurd hc ht
  | cons a t =>
    rw [hc] at h1 hph
    cases a with
    | send i cmd =>
      refine ⟨.parent, { c with todo := t, workers := c.workers.modify i fun w => { w with inq := w.inq ++ [cmd] } }, ?_⟩
      simp only [Multi.move, Multi.parent, hc]
    | keep i =>
      refine ⟨.parent, { c with todo := t, got := c.got ++ [.kept ((c.last[i]?).getD none)] }, ?_⟩
      simp only [Multi.move, Multi.parent, hc]
    | recv i =>
      simp only [consume] at h1
      cases hs : stream dyn c i with
      | nil => rw [hs] at h1; cases h1
      | cons x q =>
        simp only [stream] at hs
        cases hw : c.workers[i]? with
        | none => rw [hw] at hs; cases hs
        | some w =>
          rw [hw] at hs
          simp only [hc] at hs
          have hnone : sends i (Act.recv i :: t) = [] := hph i
          rw [hnone, List.append_nil] at hs
          cases hq : w.outq with
          | cons y q' =>
            exact ⟨.parent, { c with todo := t, got := c.got ++ [.reply y], workers := c.workers.set i { w with outq := q' } },
              by simp [Multi.move, Multi.parent, hc, hw, hq]⟩
          | nil =>
            rw [hq, List.nil_append] at hs
            cases hi : w.inq with
            | nil => rw [hi] at hs; cases hs
            | cons cmd q' =>
              exact ⟨.worker i, { c with
                workers := c.workers.set i ⟨(handle dyn w.env cmd).1, q', w.outq ++ [(handle dyn w.env cmd).2]⟩ },
                by simp [Multi.move, hw, Worker.move, hi]⟩

/-- C33, no deadlock: after any finished calls, during any further call and after
any schedule of it, as long as the call is not finished some process can move. -/
theorem C33_no_deadlock (dyn : Env S O A I) (envs : List S) (ops : List (Op A × List Who))
    (hw : ∀ x ∈ ops, x.1.width envs.length) (c' : Multi S O A I) (outs : List (Out O I))
    (hr : (Multi.init envs).run dyn ops = some (c', outs)) (op : Op A) (hop : op.width envs.length)
    (sched : List Who) (c : Multi S O A I) (hc : (c'.begin op).moves dyn sched = some c)
    (hend : c.finish op = none) : ∃ x c'', c.move dyn x = some c'' := by
  obtain ⟨h1, _⟩ := run_rel ops (rel_init envs) hw hr
  have hlen : ((Serial.init envs).run dyn (ops.map (·.1)) : Serial S O × List (Out O I)).1.envs.length = envs.length := by
    have key : ∀ (l : List (Op A)) (v : Serial S O), (∀ op ∈ l, op.width v.envs.length) →
        v.last.length = v.envs.length → (v.run dyn l).1.envs.length = v.envs.length := by
      intro l
      induction l with
      | nil => intro v _ _; rfl
      | cons o l ih =>
        intro v hv hl
        obtain ⟨l1, l2⟩ := serial_lengths dyn v o (hv o List.mem_cons_self) hl
        have := ih (v.call dyn o).1 (fun y hy => by rw [l1]; exact hv y (List.mem_cons_of_mem _ hy)) (by omega)
        simp only [Serial.run]
        omega
    refine key _ (Serial.init envs) ?_ (by simp [Serial.init])
    intro o ho
    obtain ⟨x, hx, rfl⟩ := List.mem_map.mp ho
    exact hw x hx
  have hinv := inv_moves sched (inv_begin (dyn := dyn) h1 op (by rw [hlen]; exact hop)) hc
  refine progress hinv ?_
  intro ht
  simp [Multi.finish, ht] at hend

theorem moves_potential (dyn : Env S O A I) (c c' : Multi S O A I) (sched : List Who)
    (h : c.moves dyn sched = some c') : sched.length + potential c' ≤ potential c := by
  induction sched generalizing c with
  | nil => cases h; simp
  | cons x l ih =>
    simp only [Multi.moves] at h
    split at h
    · cases h
    · rename_i c1 h1
      have := ih c1 h
      have := move_potential h1
      simp
      omega

theorem plan_length (n : Nat) (op : Op A) : (plan n op).length ≤ 2 * n := by
  cases op with
  | step actions =>
    simp only [plan, stepPlan, List.length_append, List.length_map, List.length_zip, List.length_range]
    omega
  | reset mask =>
    simp only [plan, resetPlan, List.length_append, List.length_map]
    have h1 := List.length_filter_le (fun x : Nat × Bool => !x.2) ((List.range n).zip (maskOf n mask))
    have h2 : ((List.range n).zip (maskOf n mask)).length ≤ n := by
      simp only [List.length_zip, List.length_range]; omega
    omega

/-- C33, termination: with `n` environments every schedule of a call has at most
`4 n` moves. -/
theorem C33_terminates (dyn : Env S O A I) (envs : List S) (ops : List (Op A × List Who))
    (hw : ∀ x ∈ ops, x.1.width envs.length) (c' : Multi S O A I) (outs : List (Out O I))
    (hr : (Multi.init envs).run dyn ops = some (c', outs)) (op : Op A)
    (sched : List Who) (c : Multi S O A I) (hc : (c'.begin op).moves dyn sched = some c) :
    sched.length ≤ 4 * c'.workers.length := by
  obtain ⟨h1, _⟩ := run_rel ops (rel_init envs) hw hr
  have h2 := moves_potential dyn _ _ _ hc
  have h3 := plan_length c'.workers.length op
  have h4 : (c'.workers.map (·.inq.length)).sum = 0 := by
    have key : ∀ l : List (Worker S O A I), (∀ w ∈ l, w.inq = []) → (l.map (·.inq.length)).sum = 0 := by
      intro l
      induction l with
      | nil => intro _; rfl
      | cons w l ih =>
        intro h
        have e1 := h w List.mem_cons_self
        have e2 := ih (fun x hx => h x (List.mem_cons_of_mem _ hx))
        rw [List.map_cons, List.sum_cons, e2, e1]
        rfl
    refine key _ (fun w hw' => ?_)
    obtain ⟨i, hi⟩ := List.mem_iff_getElem?.mp hw'
    exact (h1.idle i w hi).1
  simp only [potential, Multi.begin, h4] at h2
  omega

/-! ## Concrete runs -/

/-- A counter: `reset` sets it to zero, `step a` adds `a`. -/
def exEnv : Env Nat Nat Nat Bool :=
  ⟨fun _ => (0, 0), fun s a => (s + a, (s + a, decide (s + a > 10)))⟩

-- two environments; the second is not reset by the masked reset
example : ((Serial.init [5, 7]).run exEnv [.reset none, .step [1, 2], .reset (some [false, true]), .step [1, 20]]).2 =
    [.reset [some 0, some 0], .step [(1, false), (2, false)], .reset [some 0, some 2],
      .step [(1, false), (22, true)]] := by decide +kernel

-- the same with workers, the second one faster; the first call in another order
example : ((Multi.init [5, 7]).run exEnv
    [(.reset none, [.parent, .parent, .worker 1, .worker 0, .parent, .parent]),
     (.step [1, 2], [.parent, .worker 0, .parent, .parent, .worker 1, .parent])]).map (·.2) =
    some [.reset [some 0, some 0], .step [(1, false), (2, false)]] := by decide +kernel

end Verif.VectorEnv
