import Mathlib.Data.Int.Order.Basic
import Mathlib.Order.Lattice
import Verif.Model.Evaluator
set_option autoImplicit false

/-! # C26: the evaluator -/

namespace Verif.Evaluator
variable {K C X : Type} [LinearOrder K]

/-! ## Specification -/

/-- The step of the last evaluation that returned a score (`off`: none did). -/
def lastEval (off : Nat) : List (Call K C X × Outcome K C X) → Nat
  | [] => off
  | (x, _, .ok (some _)) :: l => lastEval x.t l
  | _ :: l => lastEval off l

/-- The lines written, with their scores. -/
def lines (l : List (Ev K C)) : List (Nat × Nat × Stats K × C) :=
  l.filterMap fun
    | .record t e s c => some (t, e, s, c)
    | _ => none

/-- All lines of a history. -/
def allLines (o : List (Outcome K C X)) : List (Nat × Nat × Stats K × C) :=
  o.flatMap fun x => lines x.1

omit [LinearOrder K] in
theorem lines_append (a b : List (Ev K C)) : lines (a ++ b) = lines a ++ lines b := by
  simp [lines]

theorem runFrom_append (c : Cfg) (s : St K) (l l' : List (Call K C X)) :
    runFrom c s (l ++ l') =
      ((runFrom c s l).1 ++ (runFrom c (runFrom c s l).2 l').1, (runFrom c (runFrom c s l).2 l').2) := by
  induction l generalizing s with
  | nil => simp [runFrom]
  | cons x l ih => simp only [List.cons_append, runFrom, ih]

theorem runFrom_length (c : Cfg) (s : St K) (l : List (Call K C X)) :
    (runFrom c s l).1.length = l.length := by
  induction l generalizing s with
  | nil => rfl
  | cons x l ih => simp [runFrom, ih]

theorem sub_mod (t n : Nat) : t - t % n = n * (t / n) := by
  have := Nat.div_add_mod t n; omega

/-- One call: either nothing, or a failed or completed evaluation. -/
inductive CallRes (c : Cfg) (x : Call K C X) (s : St K) : List (Ev K C) → St K → Except X (Option K) → Prop where
  | skip (h : ¬ s.prev + c.evalInterval ≤ x.t) : CallRes c x s [] s (.ok none)
  | fail (h : s.prev + c.evalInterval ≤ x.t) (e : X)
      (hw : ¬ ((∃ st, x.w.eval = .ok st) ∧ (∃ cu, x.w.custom = .ok cu) ∧ x.w.record = .ok ())) :
      CallRes c x s [] s (.error e)
  | saveFail (h : s.prev + c.evalInterval ≤ x.t) (st : Stats K) (cu : C) (e : X)
      (hs : x.w.save = .error e) (hw : x.w.eval = .ok st ∧ x.w.custom = .ok cu)
      (hm : s.maxScore < st.mean) (hb : c.saveBest = true) :
      CallRes c x s [.record x.t x.episodes st cu] ⟨st.mean, s.prev⟩ (.error e)
  | better (h : s.prev + c.evalInterval ≤ x.t) (st : Stats K) (cu : C)
      (hw : x.w.eval = .ok st ∧ x.w.custom = .ok cu) (hs : c.saveBest = true → x.w.save = .ok ())
      (hm : s.maxScore < st.mean) :
      CallRes c x s (.record x.t x.episodes st cu :: if c.saveBest then [.best] else [])
        ⟨st.mean, c.evalInterval * (x.t / c.evalInterval)⟩ (.ok (some st.mean))
  | worse (h : s.prev + c.evalInterval ≤ x.t) (st : Stats K) (cu : C)
      (hw : x.w.eval = .ok st ∧ x.w.custom = .ok cu)
      (hm : ¬ s.maxScore < st.mean) :
      CallRes c x s [.record x.t x.episodes st cu]
        ⟨s.maxScore, c.evalInterval * (x.t / c.evalInterval)⟩ (.ok (some st.mean))

theorem callRes (c : Cfg) (x : Call K C X) (s : St K) :
    CallRes c x s (evaluateIfNecessary c x.w x.t x.episodes s).1
      (evaluateIfNecessary c x.w x.t x.episodes s).2.1
      (evaluateIfNecessary c x.w x.t x.episodes s).2.2 := by
  unfold evaluateIfNecessary evaluateAndUpdateMaxScore
  by_cases h : x.t ≥ s.prev + c.evalInterval
  · simp only [h, if_true]
    cases he : x.w.eval with
    | error e => exact .fail h e (by simp [he])
    | ok st =>
      cases hc : x.w.custom with
      | error e => exact .fail h e (by simp [hc])
      | ok cu =>
        cases hr : x.w.record with
        | error e => exact .fail h e (by simp [hr])
        | ok u =>
          by_cases hm : st.mean > s.maxScore
          · simp only [hm, if_true]
            cases hb : c.saveBest with
            | false =>
              simp only [Bool.false_eq_true, if_false, sub_mod]
              have := CallRes.better (c := c) (s := s) h st cu ⟨he, hc⟩ (by simp [hb]) hm
              simpa [hb] using this
            | true =>
              simp only [if_true]
              cases hs : x.w.save with
              | error e => exact .saveFail h st cu e hs ⟨he, hc⟩ hm hb
              | ok u =>
                simp only [sub_mod]
                have := CallRes.better (c := c) (s := s) h st cu ⟨he, hc⟩ (fun _ => hs) hm
                simpa [hb] using this
          · simp only [hm, if_false, sub_mod]
            exact .worse h st cu ⟨he, hc⟩ hm
  · simp only [h, if_false]
    exact .skip h

omit [LinearOrder K] in
theorem lastEval_append (off : Nat) (l : List (Call K C X × Outcome K C X)) (y : Call K C X × Outcome K C X) :
    lastEval off (l ++ [y]) =
      match y.2.2 with
      | .ok (some _) => y.1.t
      | _ => lastEval off l := by
  induction l generalizing off with
  | nil =>
    rcases y with ⟨x, o, r⟩
    rcases r with e | (_ | k) <;> rfl
  | cons z l ih =>
    rcases z with ⟨x, o, r⟩
    rcases r with e | (_ | k) <;> simp only [List.cons_append, lastEval, ih]

theorem run_snoc (c : Cfg) (lo : K) (l : List (Call K C X)) (x : Call K C X) :
    run c lo (l ++ [x]) =
      let r := evaluateIfNecessary c x.w x.t x.episodes (run c lo l).2
      ((run c lo l).1 ++ [(r.1, r.2.2)], r.2.1) := by
  unfold run
  rw [runFrom_append]
  rfl

theorem run_length (c : Cfg) (lo : K) (l : List (Call K C X)) : (run c lo l).1.length = l.length :=
  runFrom_length c _ l

theorem snoc_induction {α : Type} {p : List α → Prop} (h0 : p []) (h1 : ∀ l x, p l → p (l ++ [x])) :
    ∀ l, p l := by
  have : ∀ l : List α, p l.reverse := by
    intro l
    induction l with
    | nil => exact h0
    | cons x l ih => rw [List.reverse_cons]; exact h1 _ _ ih
  intro l
  simpa using this l.reverse

/-- The attributes after a history. -/
structure Inv (c : Cfg) (lo : K) (l : List (Call K C X)) : Prop where
  prev : (run c lo l).2.prev =
    c.evalInterval * (lastEval c.stepOffset (l.zip (run c lo l).1) / c.evalInterval)
  ge : ∀ y ∈ allLines (run c lo l).1, y.2.2.1.mean ≤ (run c lo l).2.maxScore
  ge_lo : lo ≤ (run c lo l).2.maxScore
  mem : (run c lo l).2.maxScore = lo ∨
    ∃ y ∈ allLines (run c lo l).1, (run c lo l).2.maxScore = y.2.2.1.mean

theorem inv (c : Cfg) (lo : K) (l : List (Call K C X)) : Inv c lo l := by
  induction l using snoc_induction with
  | h0 => exact ⟨sub_mod _ _, by simp [run, runFrom, allLines], le_refl _, .inl rfl⟩
  | h1 l x ih =>
    have hr := callRes c x (run c lo l).2
    have hs := run_snoc c lo l x
    obtain ⟨h1, h2, h3, h4⟩ := ih
    have hz : (l ++ [x]).zip (run c lo (l ++ [x])).1 =
        l.zip (run c lo l).1 ++ [(x, (evaluateIfNecessary c x.w x.t x.episodes (run c lo l).2).1,
          (evaluateIfNecessary c x.w x.t x.episodes (run c lo l).2).2.2)] := by
      rw [hs, List.zip_append (run_length c lo l).symm]; rfl
    have ha : allLines (run c lo (l ++ [x])).1 = allLines (run c lo l).1 ++
        lines (evaluateIfNecessary c x.w x.t x.episodes (run c lo l).2).1 := by
      rw [hs]; simp [allLines]
    have hst : (run c lo (l ++ [x])).2 = (evaluateIfNecessary c x.w x.t x.episodes (run c lo l).2).2.1 := by
      rw [hs]
    refine ⟨?_, ?_, ?_, ?_⟩ <;> (try rw [hz, lastEval_append]) <;> (try rw [ha]) <;> rw [hst] <;>
      revert hr <;>
      generalize (evaluateIfNecessary c x.w x.t x.episodes (run c lo l).2).1 = ev <;>
      generalize (evaluateIfNecessary c x.w x.t x.episodes (run c lo l).2).2.1 = s' <;>
      generalize (evaluateIfNecessary c x.w x.t x.episodes (run c lo l).2).2.2 = res <;> intro hr
    · cases hr <;> first | exact h1 | rfl
    · intro y hy
      cases hr with
      | skip => exact h2 y (by simpa [lines] using hy)
      | fail => exact h2 y (by simpa [lines] using hy)
      | saveFail h st cu e hs hw hm hb =>
        simp only [lines, List.filterMap_cons, List.filterMap_nil, List.mem_append, List.mem_singleton] at hy
        rcases hy with hy | rfl
        · exact le_of_lt (lt_of_le_of_lt (h2 y hy) hm)
        · exact le_refl _
      | better h st cu hw hs hm =>
        have : lines (Ev.record x.t x.episodes st cu :: if c.saveBest then [.best] else []) =
            [(x.t, x.episodes, st, cu)] := by cases c.saveBest <;> rfl
        rw [this] at hy
        simp only [List.mem_append, List.mem_singleton] at hy
        rcases hy with hy | rfl
        · exact le_of_lt (lt_of_le_of_lt (h2 y hy) hm)
        · exact le_refl _
      | worse h st cu hw hm =>
        simp only [lines, List.filterMap_cons, List.filterMap_nil, List.mem_append, List.mem_singleton] at hy
        rcases hy with hy | rfl
        · exact h2 y hy
        · exact not_lt.mp hm
    · cases hr with
      | skip => exact h3
      | fail => exact h3
      | saveFail h st cu e hs hw hm hb => exact le_of_lt (lt_of_le_of_lt h3 hm)
      | better h st cu hw hs hm => exact le_of_lt (lt_of_le_of_lt h3 hm)
      | worse => exact h3
    · have hmem : (run c lo l).2.maxScore = lo ∨ ∃ y ∈ allLines (run c lo l).1 ++ lines ev,
          (run c lo l).2.maxScore = y.2.2.1.mean := by
        rcases h4 with h4 | ⟨y, hy, h4⟩
        · exact .inl h4
        · exact .inr ⟨y, List.mem_append_left _ hy, h4⟩
      cases hr with
      | skip => exact hmem
      | fail => exact hmem
      | saveFail h st cu e hs hw hm hb => exact .inr ⟨(x.t, x.episodes, st, cu), by simp [lines], rfl⟩
      | better h st cu hw hs hm => exact .inr ⟨(x.t, x.episodes, st, cu), by simp [lines], rfl⟩
      | worse => exact hmem

/-! ## The properties -/

/-- C26: after any history of calls (some of which may have raised) the next call
evaluates exactly when `t` has reached the interval after the one of the last
evaluation: otherwise it returns `None` and does nothing; and if nothing raises
it writes one line with the numbers of this evaluation and returns its mean. -/
theorem C26_due (c : Cfg) (lo : K) (l : List (Call K C X)) (x : Call K C X) :
    ∃ o, (run c lo (l ++ [x])).1 = (run c lo l).1 ++ [o] ∧
      (o = ([], .ok none) ↔
        x.t < c.evalInterval * (lastEval c.stepOffset (l.zip (run c lo l).1) / c.evalInterval)
          + c.evalInterval) ∧
      (o ≠ ([], .ok none) → ∀ st cu, x.w.eval = .ok st → x.w.custom = .ok cu → x.w.record = .ok () →
        lines o.1 = [(x.t, x.episodes, st, cu)] ∧
        (x.w.save = .ok () → o.2 = .ok (some st.mean))) := by
  refine ⟨_, by rw [run_snoc], ?_⟩
  rw [← (inv c lo l).prev]
  have hr := callRes c x (run c lo l).2
  revert hr
  generalize (evaluateIfNecessary c x.w x.t x.episodes (run c lo l).2).1 = ev
  generalize (evaluateIfNecessary c x.w x.t x.episodes (run c lo l).2).2.1 = s'
  generalize (evaluateIfNecessary c x.w x.t x.episodes (run c lo l).2).2.2 = res
  intro hr
  cases hr with
  | skip h => exact ⟨⟨fun _ => by omega, fun _ => rfl⟩, fun h => absurd rfl h⟩
  | fail h e hw =>
    refine ⟨⟨fun h => by simp at h, fun h' => by omega⟩, fun _ st cu h1 h2 h3 => ?_⟩
    exact absurd ⟨⟨st, h1⟩, ⟨cu, h2⟩, h3⟩ hw
  | saveFail h st cu e hs hw hm hb =>
    refine ⟨⟨fun h => by simp at h, fun h' => by omega⟩, fun _ st' cu' h1 h2 h3 => ?_⟩
    rw [hw.1] at h1; rw [hw.2] at h2
    cases h1; cases h2
    refine ⟨rfl, fun h4 => ?_⟩
    rw [hs] at h4; cases h4
  | better h st cu hw hs hm =>
    refine ⟨⟨fun h => by simp at h, fun h' => by omega⟩, fun _ st' cu' h1 h2 h3 => ?_⟩
    rw [hw.1] at h1; rw [hw.2] at h2
    cases h1; cases h2
    exact ⟨by cases c.saveBest <;> rfl, fun _ => rfl⟩
  | worse h st cu hw hm =>
    refine ⟨⟨fun h => by simp at h, fun h' => by omega⟩, fun _ st' cu' h1 h2 h3 => ?_⟩
    rw [hw.1] at h1; rw [hw.2] at h2
    cases h1; cases h2
    exact ⟨rfl, fun _ => rfl⟩

/-- Nothing raises during the call. -/
def Call.Ok (x : Call K C X) : Prop :=
  (∃ st, x.w.eval = .ok st) ∧ (∃ cu, x.w.custom = .ok cu) ∧ x.w.record = .ok () ∧ x.w.save = .ok ()

/-- C26: if no call raises, a call is evaluated exactly when its interval number
`t / interval` is greater than that of the step offset and of all earlier calls;
so every interval is evaluated at most once, at the first call that reaches it
(or a later one). -/
theorem C26_each_interval_once (c : Cfg) (hI : 0 < c.evalInterval) (lo : K) (l : List (Call K C X))
    (x : Call K C X) (hok : ∀ y ∈ l ++ [x], y.Ok) :
    ∃ o, (run c lo (l ++ [x])).1 = (run c lo l).1 ++ [o] ∧
      ((∃ score, o.2 = .ok (some score)) ↔
        c.stepOffset / c.evalInterval < x.t / c.evalInterval ∧
        ∀ y ∈ l, y.t / c.evalInterval < x.t / c.evalInterval) := by
  have key : ∀ l : List (Call K C X), (∀ y ∈ l, y.Ok) →
      (∃ k, (run c lo l).2.prev = c.evalInterval * k ∧ c.stepOffset / c.evalInterval ≤ k ∧
      (∀ y ∈ l, y.t / c.evalInterval ≤ k) ∧
      (k = c.stepOffset / c.evalInterval ∨ ∃ y ∈ l, k = y.t / c.evalInterval)) := by
    intro l
    induction l using snoc_induction with
    | h0 => exact fun _ => ⟨_, sub_mod _ _, le_refl _, by simp, .inl rfl⟩
    | h1 l z ih =>
      intro hok
      obtain ⟨k, h1, h2, h3, h4⟩ := ih (fun y hy => hok y (List.mem_append_left _ hy))
      have hr := callRes c z (run c lo l).2
      have hz := hok z (by simp)
      rw [run_snoc]
      simp only
      revert hr
      generalize (evaluateIfNecessary c z.w z.t z.episodes (run c lo l).2).1 = ev
      generalize (evaluateIfNecessary c z.w z.t z.episodes (run c lo l).2).2.1 = s'
      generalize (evaluateIfNecessary c z.w z.t z.episodes (run c lo l).2).2.2 = res
      intro hr
      have hdue : (run c lo l).2.prev + c.evalInterval ≤ z.t ↔ k < z.t / c.evalInterval := by
        rw [h1, ← Nat.mul_succ, ← Nat.succ_le_iff, Nat.le_div_iff_mul_le hI, Nat.mul_comm]
      have hnew : (run c lo l).2.prev + c.evalInterval ≤ z.t →
          ∃ k', c.evalInterval * (z.t / c.evalInterval) = c.evalInterval * k' ∧
            c.stepOffset / c.evalInterval ≤ k' ∧
            (∀ y ∈ l ++ [z], y.t / c.evalInterval ≤ k') ∧
            (k' = c.stepOffset / c.evalInterval ∨ ∃ y ∈ l ++ [z], k' = y.t / c.evalInterval) := by
        intro h
        have h' := hdue.mp h
        refine ⟨_, rfl, by omega, ?_, .inr ⟨z, by simp, rfl⟩⟩
        intro y hy
        rcases List.mem_append.mp hy with hy | hy
        · have := h3 y hy; omega
        · rw [List.mem_singleton.mp hy]
      cases hr with
      | skip h =>
        have h' := mt hdue.mpr h
        refine ⟨k, h1, h2, ?_, ?_⟩
        · intro y hy
          rcases List.mem_append.mp hy with hy | hy
          · exact h3 y hy
          · rw [List.mem_singleton.mp hy]; omega
        · rcases h4 with h4 | ⟨y, hy, h4⟩
          · exact .inl h4
          · exact .inr ⟨y, List.mem_append_left _ hy, h4⟩
      | fail h e hw => exact absurd ⟨hz.1, hz.2.1, hz.2.2.1⟩ hw
      | saveFail h st cu e hs => rw [hz.2.2.2] at hs; cases hs
      | better h => exact hnew h
      | worse h => exact hnew h
  obtain ⟨k, h1, h2, h3, h4⟩ := key l (fun y hy => hok y (List.mem_append_left _ hy))
  have hdue : (run c lo l).2.prev + c.evalInterval ≤ x.t ↔ k < x.t / c.evalInterval := by
    rw [h1, ← Nat.mul_succ, ← Nat.succ_le_iff, Nat.le_div_iff_mul_le hI, Nat.mul_comm]
  refine ⟨_, by rw [run_snoc], ?_⟩
  have hr := callRes c x (run c lo l).2
  have hx := hok x (by simp)
  revert hr
  generalize (evaluateIfNecessary c x.w x.t x.episodes (run c lo l).2).1 = ev
  generalize (evaluateIfNecessary c x.w x.t x.episodes (run c lo l).2).2.1 = s'
  generalize (evaluateIfNecessary c x.w x.t x.episodes (run c lo l).2).2.2 = res
  intro hr
  have hall : (c.stepOffset / c.evalInterval < x.t / c.evalInterval ∧
      ∀ y ∈ l, y.t / c.evalInterval < x.t / c.evalInterval) ↔ k < x.t / c.evalInterval := by
    constructor
    · rintro ⟨h5, h6⟩
      rcases h4 with h4 | ⟨y, hy, h4⟩
      · omega
      · rw [h4]; exact h6 y hy
    · intro h
      refine ⟨by omega, fun y hy => ?_⟩
      have := h3 y hy
      omega
  rw [hall, ← hdue]
  cases hr with
  | skip h => exact ⟨fun ⟨_, h'⟩ => by simp at h', fun h' => absurd h' h⟩
  | fail h e hw => exact absurd ⟨hx.1, hx.2.1, hx.2.2.1⟩ hw
  | saveFail h st cu e hs => rw [hx.2.2.2] at hs; cases hs
  | better h => exact ⟨fun _ => h, fun _ => ⟨_, rfl⟩⟩
  | worse h => exact ⟨fun _ => h, fun _ => ⟨_, rfl⟩⟩

/-- C26: `max_score` is the greatest of all recorded means and the initial value. -/
theorem C26_max_score (c : Cfg) (lo : K) (l : List (Call K C X)) :
    (∀ m ∈ lo :: (allLines (run c lo l).1).map (·.2.2.1.mean), m ≤ (run c lo l).2.maxScore) ∧
    (run c lo l).2.maxScore ∈ lo :: (allLines (run c lo l).1).map (·.2.2.1.mean) := by
  obtain ⟨_, h2, h3, h4⟩ := inv c lo l
  constructor
  · intro m hm
    rcases List.mem_cons.mp hm with rfl | hm
    · exact h3
    · obtain ⟨y, hy, rfl⟩ := List.mem_map.mp hm
      exact h2 y hy
  · rcases h4 with h4 | ⟨y, hy, h4⟩
    · exact List.mem_cons.mpr (.inl h4)
    · exact List.mem_cons.mpr (.inr (List.mem_map.mpr ⟨y, hy, h4.symm⟩))

/-- C26: the snapshot `best` is written exactly when the mean just recorded is
strictly greater than all means recorded before (and than the initial value). -/
theorem C26_best (c : Cfg) (lo : K) (l : List (Call K C X)) (x : Call K C X) :
    ∃ o, (run c lo (l ++ [x])).1 = (run c lo l).1 ++ [o] ∧
      (.best ∈ o.1 ↔ (c.saveBest = true ∧ x.w.save = .ok ()) ∧
        ∃ y ∈ lines o.1, ∀ m ∈ lo :: (allLines (run c lo l).1).map (·.2.2.1.mean), m < y.2.2.1.mean) := by
  refine ⟨_, by rw [run_snoc], ?_⟩
  obtain ⟨_, h2, h3, h4⟩ := inv c lo l
  have hlt : ∀ m : K, (∀ m' ∈ lo :: (allLines (run c lo l).1).map (·.2.2.1.mean), m' < m) ↔
      (run c lo l).2.maxScore < m := by
    intro m
    constructor
    · intro h; exact h _ (C26_max_score c lo l).2
    · intro h m' hm'; exact lt_of_le_of_lt ((C26_max_score c lo l).1 m' hm') h
  have hr := callRes c x (run c lo l).2
  revert hr
  generalize (evaluateIfNecessary c x.w x.t x.episodes (run c lo l).2).1 = ev
  generalize (evaluateIfNecessary c x.w x.t x.episodes (run c lo l).2).2.1 = s'
  generalize (evaluateIfNecessary c x.w x.t x.episodes (run c lo l).2).2.2 = res
  intro hr
  simp only [hlt]
  cases hr with
  | skip h => simp [lines]
  | fail h => simp [lines]
  | saveFail h st cu e hs hw hm hb => simp [hs]
  | better h st cu hw hs hm =>
    cases hb : c.saveBest with
    | false => simp
    | true => simp [lines, hs hb, hm]
  | worse h st cu hw hm => simp [lines, hm]

/-! ## A concrete history -/

def exCfg : Cfg := ⟨10, 5, true⟩

/-- A call at step `t` whose evaluation has mean `m`. -/
def exCall (t : Nat) (m : Int) : Call Int Unit Unit := ⟨t, t, .ok ⟨m, m, 0, m, m⟩, .ok (), .ok (), .ok ()⟩

-- calls at 7, 12, 19, 35, 36: evaluated at 12 (mean 4) and 35 (mean 3)
example : (run exCfg (-1000) [exCall 7 9, exCall 12 4, exCall 19 8, exCall 35 3, exCall 36 7]).1 =
    [([], .ok none), ([.record 12 12 ⟨4, 4, 0, 4, 4⟩ (), .best], .ok (some 4)), ([], .ok none),
      ([.record 35 35 ⟨3, 3, 0, 3, 3⟩ ()], .ok (some 3)), ([], .ok none)] := by rfl

example : ∀ y ∈ [exCall 7 9, exCall 12 4, exCall 19 8, exCall 35 3] ++ [exCall 36 7], y.Ok := by
  simp [Call.Ok, exCall]

-- a failing snapshot: the line is written, the score kept, and the next call evaluates again
example : (run exCfg (-1000) [⟨12, 0, .ok ⟨4, 4, 0, 4, 4⟩, .ok (), .ok (), .error ()⟩, exCall 13 4]).1 =
    [([.record 12 0 ⟨4, 4, 0, 4, 4⟩ ()], .error ()), ([.record 13 13 ⟨4, 4, 0, 4, 4⟩ ()], .ok (some 4))] := by
  rfl

end Verif.Evaluator
