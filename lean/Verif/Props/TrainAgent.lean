import Mathlib.Data.Int.Order.Basic
import Verif.Proofs.TrainAgent
set_option autoImplicit false

/-! # C21, C22: `train_agent` -/

namespace Verif.Train
variable {O A K S X : Type} [Zero K] [LinearOrder S]

/-- Some evaluation reached the successful score. -/
def Succeeded (c : Cfg S) (evs : List (Ev O A K S)) : Prop :=
  ∃ t k m s, .evaluate t k m ∈ evs ∧ c.successfulScore = some s ∧ s ≤ m

/-! ## Auxiliary facts -/

omit [Zero K] [LinearOrder S] in
theorem filter_hooks {p : Ev O A K S → Bool} (hp : ∀ i t, p (.hook i t) = false) (t i n : Nat) :
    (hooksFrom t i n).filter p = [] := by
  induction n generalizing i with
  | zero => rfl
  | succ n ih => simp [hooksFrom, hp, ih]

omit [Zero K] [LinearOrder S] in
theorem filter_hooks_prefix {p : Ev O A K S → Bool} (hp : ∀ i t, p (.hook i t) = false)
    {t i n : Nat} {P : List (Ev O A K S)} (h : P <+: hooksFrom t i n) : P.filter p = [] := by
  have := h.filter p
  rw [filter_hooks hp] at this
  exact List.prefix_nil.mp this

omit [Zero K] [LinearOrder S] in
theorem filter_ckpt {p : Ev O A K S → Bool} (hp : ∀ t, p (.save t .checkpoint) = false)
    (c : Cfg S) (t : Nat) : (ckpt c t).filter p = [] := by
  unfold ckpt
  split
  · rfl
  · split <;> simp [hp]

omit [Zero K] in
theorem filter_evalOk {p : Ev O A K S → Bool} (hp : ∀ t k m, p (.evaluate t k m) = false)
    {c : Cfg S} {t k : Nat} {E : List (Ev O A K S)} {b : Bool} (h : EvalOk c t k E b) :
    E.filter p = [] := by
  rcases h with ⟨_, rfl, _⟩ | ⟨_, m, rfl, _⟩ <;> simp [hp]

theorem Path.append {s o : Nat} {m : Option Nat} {p q r : Phase O A K} {l1 l2 : List (Ev O A K S)}
    (h1 : Path s o m p l1 q) (h2 : Path s o m q l2 r) : Path s o m p (l1 ++ l2) r := by
  induction h1 with
  | nil => exact h2
  | cons h t ih => exact .cons h (ih h2)

omit [Zero K] in
theorem EvalOk.succeeded {c : Cfg S} {t k : Nat} {E : List (Ev O A K S)}
    (h : EvalOk c t k E true) : Succeeded c E := by
  rcases h with ⟨_, _, h⟩ | ⟨_, m, rfl, h⟩
  · cases h
  · obtain ⟨s, h1, h2⟩ := h.mp rfl
    exact ⟨t, k, m, s, by simp, h1, h2⟩

omit [Zero K] in
theorem Succeeded.mono {c : Cfg S} {l l' : List (Ev O A K S)} (h : Succeeded c l)
    (hs : ∀ x ∈ l, x ∈ l') : Succeeded c l' := by
  obtain ⟨t, k, m, s, h1, h2⟩ := h
  exact ⟨t, k, m, s, hs _ h1, h2⟩

/-- The protocol events of one iteration. -/
theorem iter_path {c : Cfg S} {l : Loc O K} {t t1 : Nat} {evs : List (Ev O A K S)}
    {r : Except X (Option (Loc O K))} (ht : t < c.steps) (h : IterRes c l t evs t1 r) :
    ∃ q, Path c.steps c.stepOffset c.maxEpisodeLen (.ready l.obs l.r l.episodeLen t)
        (evs.filter Ev.isProtocol) q ∧
      (∀ l', r = .ok (some l') → q = .ready l'.obs l'.r l'.episodeLen t1) ∧
      (r = .ok none → q = .stopped t1 ∧ (t1 = c.steps ∨ Succeeded c evs)) := by
  have fh : ∀ n, (hooksFrom (O := O) (A := A) (K := K) (S := S) (t + 1) 0 n).filter Ev.isProtocol = [] :=
    fun n => filter_hooks (by intros; rfl) _ _ _
  have fc : (ckpt (O := O) (A := A) (K := K) c (t + 1)).filter Ev.isProtocol = [] :=
    filter_ckpt (by intros; rfl) c _
  cases h with
  | go a out h =>
    refine ⟨_, ?_, by rintro l' ⟨⟩; rfl, by simp⟩
    simp only [List.filter_append, fh, fc, List.append_nil]
    exact .cons (.act _ _ _ _ _ ht) (.cons (.stepOn _ _ _ _ h) (.nil _))
  | again a out E o h hE hne =>
    have fe : E.filter Ev.isProtocol = [] := filter_evalOk (by intros; rfl) hE
    refine ⟨_, ?_, by rintro l' ⟨⟩; rfl, by simp⟩
    simp only [List.filter_append, fh, fc, fe, List.append_nil]
    exact .cons (.act _ _ _ _ _ ht) (.cons (.stepEnd _ _ _ _ h) (.cons (.stop _ _)
      (.cons (.again _ _ (by omega)) (.nil _))))
  | brk a out E b h hE hb =>
    have fe : E.filter Ev.isProtocol = [] := filter_evalOk (by intros; rfl) hE
    refine ⟨.stopped (t + 1), ?_, by simp, ?_⟩
    · simp only [List.filter_append, fh, fe, List.append_nil]
      exact .cons (.act _ _ _ _ _ ht) (.cons (.stepEnd _ _ _ _ h) (.cons (.stop _ _) (.nil _)))
    · intro _
      refine ⟨rfl, ?_⟩
      rcases hb with rfl | hb
      · right; exact hE.succeeded.mono (by intro x hx; simp [hx])
      · exact .inl hb
  | crashAct e => exact ⟨_, .nil _, by simp, by simp⟩
  | crashStep e a => exact ⟨_, .cons (.act _ _ _ _ _ ht) (.nil _), by simp, by simp⟩
  | crashHook e a out P hP =>
    have fp : P.filter Ev.isProtocol = [] := filter_hooks_prefix (by intros; rfl) hP
    simp only [List.filter_append, fp, List.append_nil]
    by_cases h : Ends c.steps c.maxEpisodeLen out (l.episodeLen + 1) (t + 1)
    · exact ⟨_, .cons (.act _ _ _ _ _ ht) (.cons (.stepEnd _ _ _ _ h) (.nil _)), by simp, by simp⟩
    · exact ⟨_, .cons (.act _ _ _ _ _ ht) (.cons (.stepOn _ _ _ _ h) (.nil _)), by simp, by simp⟩
  | crashEval e a out h =>
    simp only [List.filter_append, fh, List.append_nil]
    exact ⟨_, .cons (.act _ _ _ _ _ ht) (.cons (.stepEnd _ _ _ _ h) (.cons (.stop _ _) (.nil _))),
      by simp, by simp⟩
  | crashReset e a out E h hE hne =>
    have fe : E.filter Ev.isProtocol = [] := filter_evalOk (by intros; rfl) hE
    simp only [List.filter_append, fh, fe, List.append_nil]
    exact ⟨_, .cons (.act _ _ _ _ _ ht) (.cons (.stepEnd _ _ _ _ h) (.cons (.stop _ _) (.nil _))),
      by simp, by simp⟩
  | crashCkpt e a out E o h hE hne =>
    have fe : E.filter Ev.isProtocol = [] := filter_evalOk (by intros; rfl) hE
    simp only [List.filter_append, fh, fe, List.append_nil]
    exact ⟨_, .cons (.act _ _ _ _ _ ht) (.cons (.stepEnd _ _ _ _ h) (.cons (.stop _ _)
      (.cons (.again _ _ (by omega)) (.nil _)))), by simp, by simp⟩

theorem loop_path {c : Cfg S} {l : Loc O K} {t t1 : Nat} {evs : List (Ev O A K S)}
    {r : Except X Unit} (h : LoopRes c l t evs t1 r) :
    ∃ q, Path c.steps c.stepOffset c.maxEpisodeLen (.ready l.obs l.r l.episodeLen t)
        (evs.filter Ev.isProtocol) q ∧
      (r = .ok () → (c.steps ≤ t ∧ evs = [] ∧ q = .ready l.obs l.r l.episodeLen t) ∨
        (q = .stopped t1 ∧ (t1 = c.steps ∨ Succeeded c evs))) := by
  induction h with
  | exit l t h => exact ⟨_, .nil _, fun _ => .inl ⟨h, rfl, rfl⟩⟩
  | @more l l' t t1 t2 e1 e2 r h hi hl ih =>
    obtain ⟨q1, p1, p2, _⟩ := iter_path h hi
    obtain ⟨q2, p3, p4⟩ := ih
    have hq := p2 l' rfl
    subst hq
    refine ⟨q2, by rw [List.filter_append]; exact p1.append p3, ?_⟩
    intro hr
    right
    rcases p4 hr with ⟨h1, h2, h3⟩ | ⟨h1, h2 | h2⟩
    · -- an iteration that continues has not reached the last step
      exfalso
      generalize hr' : (Except.ok (some l') : Except X (Option (Loc O K))) = r' at hi
      cases hi with
      | go a out hn =>
        apply hn; right; right; right; omega
      | again a out E o h hE hne => omega
      | _ => cases hr'
    · exact ⟨h1, .inl h2⟩
    · exact ⟨h1, .inr (h2.mono (by intro x hx; simp [hx]))⟩
  | brk h hi =>
    obtain ⟨q, p1, _, p3⟩ := iter_path h hi
    exact ⟨q, p1, fun _ => .inr (p3 rfl)⟩
  | crash h hi =>
    obtain ⟨q, p1, _, _⟩ := iter_path h hi
    exact ⟨q, p1, by simp⟩

/-! ## C21 -/

/-- C21: every execution, also one cut short by an exception, follows the
protocol; a normal execution ends with a finished episode at step `steps`, or
at an evaluation that reached the successful score (or has nothing to do). -/
theorem C21_protocol (c : Cfg S) (w : World O A K S X) :
    ∃ q, Path c.steps c.stepOffset c.maxEpisodeLen .fresh ((run c w).1.filter Ev.isProtocol) q ∧
      ((run c w).2 = .ok () →
        (c.steps ≤ c.stepOffset ∧ ∃ o, q = .ready o 0 0 c.stepOffset) ∨
        ∃ t, q = .stopped t ∧ (t = c.steps ∨ Succeeded c (run c w).1)) := by
  rcases run_cases c w with ⟨e, he⟩ | ⟨o, T, evs, t, r, hT, hl, hc⟩
  · rw [he]; exact ⟨.fresh, .nil _, by simp⟩
  obtain ⟨q, p1, p2⟩ := loop_path hl
  have hTf : T.filter Ev.isProtocol = [] := by rcases hT with rfl | rfl <;> rfl
  have key : ∀ tail : List (Ev O A K S), tail.filter Ev.isProtocol = [] →
      Path c.steps c.stepOffset c.maxEpisodeLen .fresh
        ((.reset o :: T ++ evs ++ tail).filter Ev.isProtocol) q := by
    intro tail ht
    rw [List.filter_append, List.filter_append, ht, List.append_nil]
    have : (Ev.reset o :: T).filter (Ev.isProtocol (O := O) (A := A) (K := K) (S := S)) = [.reset o] := by
      simp [List.filter_cons, hTf, Ev.isProtocol]
    rw [this]
    exact .cons (.first o) p1
  refine ⟨q, ?_, ?_⟩
  · rcases hc with ⟨e, hr, he | ⟨e', _, he⟩⟩ | ⟨hr, he | ⟨e', _, he⟩⟩ <;> rw [he]
    · exact key _ rfl
    · simpa using key [] rfl
    · exact key _ rfl
    · simpa using key [] rfl
  · intro hok
    rcases hc with ⟨e, hr, he | ⟨e', _, he⟩⟩ | ⟨hr, he | ⟨e', _, he⟩⟩ <;> rw [he] at hok
    · cases hok
    · cases hok
    · rcases p2 hr with ⟨h1, h2, h3⟩ | ⟨h1, h2⟩
      · exact .inl ⟨h1, o, h3⟩
      · refine .inr ⟨t, h1, ?_⟩
        rcases h2 with h2 | h2
        · exact .inl h2
        · right; rw [he]; exact h2.mono (by intro x hx; simp [hx])
    · cases hok

/-! ### Counting -/

/-- Every hook, evaluation and snapshot of the list is stamped with the number
of steps taken so far (counted from `t`), and evaluations with the number of
finished episodes (counted from `k`). -/
def Stamped : Nat → Nat → List (Ev O A K S) → Prop
  | _, _, [] => True
  | t, k, .step _ _ :: l => Stamped (t + 1) k l
  | t, k, .stop .. :: l => Stamped t (k + 1) l
  | t, k, .hook _ t' :: l => t' = t ∧ Stamped t k l
  | t, k, .evaluate t' k' _ :: l => t' = t ∧ k' = k ∧ Stamped t k l
  | t, k, .save t' _ :: l => t' = t ∧ Stamped t k l
  | t, k, _ :: l => Stamped t k l

omit [Zero K] [LinearOrder S] in
theorem stamped_append (t k : Nat) (l l' : List (Ev O A K S)) :
    Stamped t k (l ++ l') ↔ Stamped t k l ∧
      Stamped (t + l.countP Ev.isStep) (k + l.countP Ev.isStop) l' := by
  induction l generalizing t k with
  | nil => simp [Stamped]
  | cons e l ih =>
    cases e <;> simp only [List.cons_append, Stamped, ih, List.countP_cons, Ev.isStep, Ev.isStop,
      Bool.false_eq_true, if_true, if_false, Nat.add_zero, and_assoc] <;>
      first | rfl | (rw [show ∀ a b : Nat, a + 1 + b = a + (b + 1) from fun a b => by omega])

omit [Zero K] [LinearOrder S] in
theorem hooks_facts (t i n k : Nat) :
    Stamped t k (hooksFrom (O := O) (A := A) (K := K) (S := S) t i n) ∧
    (hooksFrom (O := O) (A := A) (K := K) (S := S) t i n).countP Ev.isStep = 0 ∧
    (hooksFrom (O := O) (A := A) (K := K) (S := S) t i n).countP Ev.isStop = 0 := by
  induction n generalizing i with
  | zero => simp [hooksFrom, Stamped]
  | succ n ih => simpa [hooksFrom, Stamped, Ev.isStep, Ev.isStop] using ih (i + 1)

omit [Zero K] [LinearOrder S] in
theorem hooks_prefix_facts {t i n : Nat} (k : Nat) {P : List (Ev O A K S)} (h : P <+: hooksFrom t i n) :
    Stamped t k P ∧ P.countP Ev.isStep = 0 ∧ P.countP Ev.isStop = 0 := by
  obtain ⟨Q, hQ⟩ := h
  have := hooks_facts (O := O) (A := A) (K := K) (S := S) t i n k
  rw [← hQ, stamped_append, List.countP_append, List.countP_append] at this
  exact ⟨this.1.1, by omega, by omega⟩

omit [Zero K] [LinearOrder S] in
theorem ckpt_facts (c : Cfg S) (t k : Nat) :
    Stamped t k (ckpt (O := O) (A := A) (K := K) c t) ∧
    (ckpt (O := O) (A := A) (K := K) c t).countP Ev.isStep = 0 ∧
    (ckpt (O := O) (A := A) (K := K) c t).countP Ev.isStop = 0 := by
  unfold ckpt
  split
  · simp [Stamped]
  · split <;> simp [Stamped, Ev.isStep, Ev.isStop]

omit [Zero K] in
theorem evalOk_facts {c : Cfg S} {t k : Nat} {E : List (Ev O A K S)} {b : Bool}
    (h : EvalOk c t k E b) :
    Stamped t k E ∧ E.countP Ev.isStep = 0 ∧ E.countP Ev.isStop = 0 := by
  rcases h with ⟨_, rfl, _⟩ | ⟨_, m, rfl, _⟩ <;> simp [Stamped, Ev.isStep, Ev.isStop]

theorem iter_stamped {c : Cfg S} {l : Loc O K} {t t1 : Nat} {evs : List (Ev O A K S)}
    {r : Except X (Option (Loc O K))} (h : IterRes c l t evs t1 r) :
    Stamped t l.episodeIdx evs ∧ t1 = t + evs.countP Ev.isStep ∧ t1 ≤ t + 1 ∧
      (∀ l', r = .ok (some l') → t1 = t + 1 ∧
        l'.episodeIdx = l.episodeIdx + evs.countP Ev.isStop) := by
  have hh := hooks_facts (O := O) (A := A) (K := K) (S := S) (t + 1) 0 c.numHooks l.episodeIdx
  have hc1 := ckpt_facts (O := O) (A := A) (K := K) c (t + 1) (l.episodeIdx)
  have hc2 := ckpt_facts (O := O) (A := A) (K := K) c (t + 1) (l.episodeIdx + 1)
  cases h with
  | go a out h =>
    simp [stamped_append, Stamped, hh, hc1, Ev.isStep, Ev.isStop, List.countP_cons]
  | again a out E o h hE hne =>
    have he := evalOk_facts hE
    simp [stamped_append, Stamped, hh, hc2, he, Ev.isStep, Ev.isStop, List.countP_cons]
  | brk a out E b h hE hb =>
    have he := evalOk_facts hE
    simp [stamped_append, Stamped, hh, he, Ev.isStep, Ev.isStop, List.countP_cons]
  | crashAct e => simp [Stamped]
  | crashStep e a => simp [Stamped, Ev.isStep]
  | crashHook e a out P hP =>
    have hp := hooks_prefix_facts l.episodeIdx hP
    simp [Stamped, hp, Ev.isStep, List.countP_cons]
  | crashEval e a out h =>
    simp [stamped_append, Stamped, hh, Ev.isStep, Ev.isStop, List.countP_cons]
  | crashReset e a out E h hE hne =>
    have he := evalOk_facts hE
    simp [stamped_append, Stamped, hh, he, Ev.isStep, Ev.isStop, List.countP_cons]
  | crashCkpt e a out E o h hE hne =>
    have he := evalOk_facts hE
    simp [stamped_append, Stamped, hh, he, Ev.isStep, Ev.isStop, List.countP_cons]

theorem loop_stamped {c : Cfg S} {l : Loc O K} {t t1 : Nat} {evs : List (Ev O A K S)}
    {r : Except X Unit} (h : LoopRes c l t evs t1 r) :
    Stamped t l.episodeIdx evs ∧ t1 = t + evs.countP Ev.isStep ∧ (t ≤ c.steps → t1 ≤ c.steps) := by
  induction h with
  | exit l t h => simp [Stamped]
  | more h hi hl ih =>
    obtain ⟨p1, p2, p3, p4⟩ := iter_stamped hi
    obtain ⟨q1, q2, q3⟩ := ih
    obtain ⟨p5, p6⟩ := p4 _ rfl
    rw [p6, p2] at q1
    refine ⟨(stamped_append _ _ _ _).mpr ⟨p1, q1⟩, ?_, fun _ => q3 (by omega)⟩
    rw [List.countP_append]; omega
  | brk h hi =>
    obtain ⟨p1, p2, p3, p4⟩ := iter_stamped hi
    exact ⟨p1, p2, fun _ => by omega⟩
  | crash h hi =>
    obtain ⟨p1, p2, p3, p4⟩ := iter_stamped hi
    exact ⟨p1, p2, fun _ => by omega⟩

/-- C21: a normal execution takes exactly `steps - step_offset` environment
steps unless an evaluation reached the successful score; no execution takes
more. -/
theorem C21_step_count (c : Cfg S) (w : World O A K S X) :
    (run c w).1.countP Ev.isStep ≤ c.steps - c.stepOffset ∧
    ((run c w).2 = .ok () →
      (run c w).1.countP Ev.isStep = c.steps - c.stepOffset ∨ Succeeded c (run c w).1) := by
  rcases run_cases c w with ⟨e, he⟩ | ⟨o, T, evs, t, r, hT, hl, hc⟩
  · rw [he]; simp
  obtain ⟨q, p1, p2⟩ := loop_path hl
  obtain ⟨s1, s2, s3⟩ := loop_stamped hl
  have hTf : T.countP Ev.isStep = 0 := by rcases hT with rfl | rfl <;> rfl
  have hbound : evs.countP Ev.isStep ≤ c.steps - c.stepOffset := by
    by_cases h : c.stepOffset ≤ c.steps
    · have := s3 h; omega
    · cases hl with
      | exit => simp
      | more h' => omega
      | brk h' => omega
      | crash h' => omega
  have key : ∀ tail : List (Ev O A K S), tail.countP Ev.isStep = 0 →
      (.reset o :: T ++ evs ++ tail).countP Ev.isStep = evs.countP Ev.isStep := by
    intro tail ht
    rw [List.countP_append, List.countP_append, List.countP_cons, ht, hTf]
    simp [Ev.isStep]
  rcases hc with ⟨e, hr, he | ⟨e', _, he⟩⟩ | ⟨hr, he | ⟨e', _, he⟩⟩ <;> rw [he]
  · rw [key _ rfl]; exact ⟨hbound, by simp⟩
  · have := key [] rfl
    rw [List.append_nil] at this
    rw [this]; exact ⟨hbound, by simp⟩
  · rw [key _ rfl]
    refine ⟨hbound, fun _ => ?_⟩
    rcases p2 hr with ⟨h1, h2, _⟩ | ⟨h1, h2 | h2⟩
    · left; rw [h2]; simp; omega
    · left; omega
    · right; exact h2.mono (by intro x hx; simp [hx])
  · have := key [] rfl
    rw [List.append_nil] at this
    rw [this]; exact ⟨hbound, by simp⟩

theorem run_stamped (c : Cfg S) (w : World O A K S X) :
    Stamped c.stepOffset 0 (run c w).1 := by
  rcases run_cases c w with ⟨e, he⟩ | ⟨o, T, evs, t, r, hT, hl, hc⟩
  · rw [he]; simp [Stamped]
  obtain ⟨s1, s2, s3⟩ := loop_stamped hl
  have h0 : Stamped c.stepOffset 0 (.reset o :: T ++ evs) ∧
      (.reset o :: T ++ evs).countP Ev.isStep = evs.countP Ev.isStep := by
    rcases hT with rfl | rfl <;> simp [Stamped, Ev.isStep, s1]
  rcases hc with ⟨e, hr, he | ⟨e', _, he⟩⟩ | ⟨hr, he | ⟨e', _, he⟩⟩ <;> rw [he]
  · rw [stamped_append]; exact ⟨h0.1, by rw [h0.2]; exact ⟨s2, trivial⟩⟩
  · exact h0.1
  · rw [stamped_append]; exact ⟨h0.1, by rw [h0.2]; exact ⟨s2, trivial⟩⟩
  · exact h0.1

/-- C21: hooks are called with the number of the step just taken, evaluations
get that number and the number of finished episodes; in every execution. -/
theorem C21_numbers (c : Cfg S) (w : World O A K S X) (pre post : List (Ev O A K S))
    (e : Ev O A K S) (h : (run c w).1 = pre ++ e :: post) :
    (∀ i t, e = .hook i t → t = c.stepOffset + pre.countP Ev.isStep) ∧
    (∀ t k m, e = .evaluate t k m →
      t = c.stepOffset + pre.countP Ev.isStep ∧ k = pre.countP Ev.isStop) := by
  have h1 := run_stamped c w
  rw [h, stamped_append] at h1
  constructor
  · rintro i t rfl; exact h1.2.1
  · rintro t k m rfl
    exact ⟨h1.2.1, by simpa using h1.2.2.1⟩

omit [Zero K] [LinearOrder S] in
theorem hooksFrom_eq (t i n : Nat) :
    hooksFrom (O := O) (A := A) (K := K) (S := S) t i n =
      (List.range' i n).map fun j => .hook j t := by
  induction n generalizing i with
  | zero => rfl
  | succ n ih => simp [hooksFrom, ih, List.range'_succ]

omit [Zero K] [LinearOrder S] in
theorem hooksFrom_filter (t i n : Nat) :
    (hooksFrom (O := O) (A := A) (K := K) (S := S) t i n).filter Ev.isHook = hooksFrom t i n := by
  induction n generalizing i with
  | zero => rfl
  | succ n ih =>
    show (Ev.hook i t :: hooksFrom t (i + 1) n).filter Ev.isHook = Ev.hook i t :: hooksFrom t (i + 1) n
    rw [List.filter_cons_of_pos rfl, ih]

theorem IterRes.lt_of_some {c : Cfg S} {l l' : Loc O K} {t t1 : Nat} {e1 : List (Ev O A K S)}
    (h : IterRes c l t e1 t1 (.ok (some l') : Except X _)) (ht : t < c.steps) : t1 < c.steps := by
  generalize hr' : (Except.ok (some l') : Except X (Option (Loc O K))) = r' at h
  cases h with
  | go a out hn =>
    have : t + 1 ≠ c.steps := fun h => hn (.inr (.inr (.inr h)))
    omega
  | again a out E o h hE hne => omega
  | _ => cases hr'

theorem iter_hooks {c : Cfg S} {l : Loc O K} {t t1 : Nat} {evs : List (Ev O A K S)}
    {r : Option (Loc O K)} (h : IterRes c l t evs t1 (.ok r : Except X _)) :
    evs.filter Ev.isHook = (List.range c.numHooks).map (fun i => .hook i (t + 1)) ∧
      evs.countP Ev.isStep = 1 := by
  have hfin := (iter_stamped h).2.1
  have hh := hooksFrom_filter (O := O) (A := A) (K := K) (S := S) (t + 1) 0 c.numHooks
  have hc := filter_ckpt (O := O) (A := A) (K := K) (p := Ev.isHook) (by intros; rfl) c (t + 1)
  have hq := hooksFrom_eq (O := O) (A := A) (K := K) (S := S) (t + 1) 0 c.numHooks
  rw [← List.range_eq_range'] at hq
  rw [← hq]
  generalize hr' : (Except.ok r : Except X (Option (Loc O K))) = r' at h
  cases h with
  | go a out h => exact ⟨by simp [List.filter_append, hh, hc, Ev.isHook], by omega⟩
  | again a out E o h hE hne =>
    have he : E.filter Ev.isHook = [] := filter_evalOk (by intros; rfl) hE
    exact ⟨by simp [List.filter_append, hh, hc, he, Ev.isHook], by omega⟩
  | brk a out E b h hE hb =>
    have he : E.filter Ev.isHook = [] := filter_evalOk (by intros; rfl) hE
    exact ⟨by simp [List.filter_append, hh, he, Ev.isHook], by omega⟩
  | _ => cases hr'

omit [Zero K] [LinearOrder S] in
theorem range_flatMap_succ (f : Nat → List (Ev O A K S)) (n : Nat) :
    (List.range (1 + n)).flatMap f = f 0 ++ (List.range n).flatMap fun j => f (j + 1) := by
  rw [Nat.add_comm, List.range_succ_eq_map]
  simp [List.flatMap_map]

theorem loop_hooks {c : Cfg S} {l : Loc O K} {t t1 : Nat} {evs : List (Ev O A K S)}
    {r : Except X Unit} (h : LoopRes c l t evs t1 r) (hr : r = .ok ()) :
    evs.filter Ev.isHook = (List.range (evs.countP Ev.isStep)).flatMap fun j =>
        (List.range c.numHooks).map fun i => .hook i (t + j + 1) := by
  induction h with
  | exit l t h => simp
  | more h hi hl ih =>
    obtain ⟨p1, p2⟩ := iter_hooks hi
    have ht := hi.t_of_some
    rw [List.filter_append, List.countP_append, p2, range_flatMap_succ, p1, ih hr, ht]
    congr 1
    simp [Nat.add_assoc, Nat.add_comm 1]
  | brk h hi =>
    obtain ⟨p1, p2⟩ := iter_hooks hi
    rw [p1, p2]; simp
  | crash h hi => cases hr

/-- C21: after every environment step all hooks are called once, in order. -/
theorem C21_hooks (c : Cfg S) (w : World O A K S X) (hok : (run c w).2 = .ok ()) :
    (run c w).1.filter Ev.isHook =
      (List.range ((run c w).1.countP Ev.isStep)).flatMap fun j =>
        (List.range c.numHooks).map fun i => .hook i (c.stepOffset + j + 1) := by
  rcases run_cases c w with ⟨e, he⟩ | ⟨o, T, evs, t, r, hT, hl, hc⟩
  · rw [he] at hok; cases hok
  rcases hc with ⟨e, hr, he | ⟨e', _, he⟩⟩ | ⟨hr, he | ⟨e', _, he⟩⟩ <;> rw [he] at hok ⊢
  · cases hok
  · cases hok
  · have h := loop_hooks hl hr
    rcases hT with rfl | rfl <;>
      simp only [List.cons_append, List.nil_append, List.filter_append, List.filter_cons,
        List.countP_append, List.countP_cons, Ev.isHook, Ev.isStep, Bool.false_eq_true, if_false,
        List.filter_nil, List.countP_nil, List.append_nil, Nat.add_zero] <;> exact h
  · cases hok

/-- No evaluation of the list reached `s`. -/
def NoSuccess (s : S) (evs : List (Ev O A K S)) : Prop :=
  ∀ t k m, .evaluate t k m ∈ evs → ¬ s ≤ m

theorem iter_noSuccess {c : Cfg S} {l : Loc O K} {t t1 : Nat} {evs : List (Ev O A K S)}
    {r : Except X (Option (Loc O K))} (h : IterRes c l t evs t1 r) (s : S)
    (hs : c.successfulScore = some s) :
    (r ≠ .ok none → NoSuccess s evs) ∧
    (r = .ok none → ∃ F E, evs = F ++ E ∧ NoSuccess s F ∧ E.length ≤ 1 ∧
      ∀ e ∈ E, Ev.isProtocol e = false) := by
  have hne : ∀ t k m i t' n, (.evaluate t k m : Ev O A K S) ∉ hooksFrom t' i n := by
    intro t k m i t' n; rw [hooksFrom_eq]; simp
  have hnc : ∀ t k m, (.evaluate t k m : Ev O A K S) ∉ ckpt c t1 := by
    intro t k m; unfold ckpt; split
    · simp
    · split <;> simp
  have hnE : ∀ {E : List (Ev O A K S)} {t k}, EvalOk c t k E false → NoSuccess s E := by
    intro E t k hE
    rcases hE with ⟨_, rfl, _⟩ | ⟨_, m, rfl, h⟩
    · intro t k m hm; simp at hm
    · intro t k m' hm hle
      simp only [List.mem_singleton, Ev.evaluate.injEq] at hm
      obtain ⟨_, _, rfl⟩ := hm
      exact absurd (h.mpr ⟨s, hs, hle⟩) (by simp)
  cases h with
  | go a out h =>
    refine ⟨fun _ t' k m hm => ?_, by simp⟩
    simp [hne, hnc] at hm
  | again a out E o h hE hne' =>
    refine ⟨fun _ t' k m hm => ?_, by simp⟩
    simp [hne, hnc] at hm
    exact hnE hE _ _ _ hm
  | brk a out E b h hE hb =>
    refine ⟨by simp, fun _ => ⟨_ ++ [.stop out.obs out.r out.done], E, (List.append_assoc _ _ _).symm, ?_, ?_, ?_⟩⟩
    · intro t' k m hm
      simp [hne] at hm
    · rcases hE with ⟨_, rfl, _⟩ | ⟨_, m, rfl, _⟩ <;> simp
    · rcases hE with ⟨_, rfl, _⟩ | ⟨_, m, rfl, _⟩ <;> simp [Ev.isProtocol]
  | crashAct e => exact ⟨fun _ t' k m hm => by simp at hm, by simp⟩
  | crashStep e a => exact ⟨fun _ t' k m hm => by simp at hm, by simp⟩
  | crashHook e a out P hP =>
    refine ⟨fun _ t' k m hm => ?_, by simp⟩
    simp at hm
    exact absurd (hP.subset hm) (hne _ _ _ _ _ _)
  | crashEval e a out h => exact ⟨fun _ t' k m hm => by simp [hne] at hm, by simp⟩
  | crashReset e a out E h hE hne' =>
    refine ⟨fun _ t' k m hm => ?_, by simp⟩
    simp [hne] at hm
    exact hnE hE _ _ _ hm
  | crashCkpt e a out E o h hE hne' =>
    refine ⟨fun _ t' k m hm => ?_, by simp⟩
    simp [hne] at hm
    exact hnE hE _ _ _ hm

theorem loop_noSuccess {c : Cfg S} {l : Loc O K} {t t1 : Nat} {evs : List (Ev O A K S)}
    {r : Except X Unit} (h : LoopRes c l t evs t1 r) (s : S) (hs : c.successfulScore = some s) :
    ∃ F E, evs = F ++ E ∧ NoSuccess s F ∧ E.length ≤ 1 ∧ ∀ e ∈ E, Ev.isProtocol e = false := by
  induction h with
  | exit l t h => exact ⟨[], [], rfl, by intro t k m hm; simp at hm, by simp, by simp⟩
  | more h hi hl ih =>
    obtain ⟨F, E, h1, h2, h3⟩ := ih
    refine ⟨_ ++ F, E, by rw [h1, List.append_assoc], ?_, h3⟩
    intro t k m hm
    rcases List.mem_append.mp hm with hm | hm
    · exact (iter_noSuccess hi s hs).1 (by simp) t k m hm
    · exact h2 t k m hm
  | brk h hi => exact (iter_noSuccess hi s hs).2 rfl
  | crash h hi => exact ⟨_, [], by simp, (iter_noSuccess hi s hs).1 (by simp), by simp, by simp⟩

/-- C21: training stops at the first evaluation that reaches the successful
score: the agent and the environment are not used afterwards. -/
theorem C21_success_stops (c : Cfg S) (w : World O A K S X) (pre post : List (Ev O A K S))
    (t k : Nat) (m s : S) (h : (run c w).1 = pre ++ .evaluate t k m :: post)
    (hs : c.successfulScore = some s) (hm : s ≤ m) : post.filter Ev.isProtocol = [] := by
  -- the trace is `F ++ E` with no success in `F` and no protocol call in `E`
  have key : ∃ F E, (run c w).1 = F ++ E ∧ NoSuccess s F ∧ ∀ e ∈ E, Ev.isProtocol e = false := by
    rcases run_cases c w with ⟨e, he⟩ | ⟨o, T, evs, t, r, hT, hl, hc⟩
    · exact ⟨[], [], by rw [he]; rfl, by intro t k m hm; simp at hm, by simp⟩
    obtain ⟨F, E, h1, h2, _, h3⟩ := loop_noSuccess hl s hs
    have hF : NoSuccess s (.reset o :: T ++ F) := by
      intro t k m hm
      rcases hT with rfl | rfl <;> simp at hm <;> exact h2 _ _ _ hm
    rcases hc with ⟨e, hr, he | ⟨e', _, he⟩⟩ | ⟨hr, he | ⟨e', _, he⟩⟩ <;> rw [he, h1]
    · refine ⟨_, E ++ [.save t .except], by simp [List.append_assoc], hF, ?_⟩
      intro e he; rcases List.mem_append.mp he with he | he
      · exact h3 e he
      · rw [List.mem_singleton.mp he]; rfl
    · exact ⟨_, E, by simp, hF, h3⟩
    · refine ⟨_, E ++ [.save t .finish], by simp [List.append_assoc], hF, ?_⟩
      intro e he; rcases List.mem_append.mp he with he | he
      · exact h3 e he
      · rw [List.mem_singleton.mp he]; rfl
    · exact ⟨_, E, by simp, hF, h3⟩
  obtain ⟨F, E, h1, h2, h3⟩ := key
  rw [h1] at h
  rcases List.append_eq_append_iff.mp h with ⟨Y, hy1, hy2⟩ | ⟨Y, hy1, hy2⟩
  · rw [List.filter_eq_nil_iff]
    intro e he
    rw [h3 e (by rw [hy2]; simp [he])]; simp
  · cases Y with
    | nil =>
      rw [List.filter_eq_nil_iff]
      intro e he
      rw [h3 e (by rw [List.nil_append] at hy2; rw [← hy2]; simp [he])]; simp
    | cons y Y =>
      rw [List.cons_append, List.cons.injEq] at hy2
      exact absurd hm (h2 t k m (by rw [hy1, ← hy2.1]; simp))

/-! ## C22 -/

/-- Snapshots that end a run. -/
def Ev.isFinal : Ev O A K S → Bool
  | .save _ .except | .save _ .finish => true
  | _ => false

/-- Checkpoints. -/
def Ev.isCheckpoint : Ev O A K S → Bool
  | .save _ .checkpoint => true
  | _ => false

theorem iter_saves {c : Cfg S} {l : Loc O K} {t t1 : Nat} {evs : List (Ev O A K S)}
    {r : Except X (Option (Loc O K))} (h : IterRes c l t evs t1 r) :
    evs.filter Ev.isFinal = [] ∧
    (∀ l', r = .ok (some l') → evs.filter Ev.isCheckpoint = ckpt c (t + 1)) ∧
    (r = .ok none → evs.filter Ev.isCheckpoint = []) := by
  have hh := filter_hooks (O := O) (A := A) (K := K) (S := S) (p := Ev.isFinal) (by intros; rfl) (t + 1) 0 c.numHooks
  have hh' := filter_hooks (O := O) (A := A) (K := K) (S := S) (p := Ev.isCheckpoint) (by intros; rfl) (t + 1) 0 c.numHooks
  have hc := filter_ckpt (O := O) (A := A) (K := K) (p := Ev.isFinal) (by intros; rfl) c (t + 1)
  have hc' : (ckpt (O := O) (A := A) (K := K) c (t + 1)).filter Ev.isCheckpoint = ckpt c (t + 1) := by
    unfold ckpt; split
    · rfl
    · split <;> rfl
  cases h with
  | go a out h =>
    refine ⟨by simp [List.filter_append, hh, hc, Ev.isFinal], fun l' _ => ?_, by simp⟩
    simp [List.filter_append, hh', hc', Ev.isCheckpoint]
  | again a out E o h hE hne =>
    have he : E.filter Ev.isFinal = [] := filter_evalOk (by intros; rfl) hE
    have he' : E.filter Ev.isCheckpoint = [] := filter_evalOk (by intros; rfl) hE
    refine ⟨by simp [List.filter_append, hh, hc, he, Ev.isFinal], fun l' _ => ?_, by simp⟩
    simp [List.filter_append, hh', hc', he', Ev.isCheckpoint]
  | brk a out E b h hE hb =>
    have he : E.filter Ev.isFinal = [] := filter_evalOk (by intros; rfl) hE
    have he' : E.filter Ev.isCheckpoint = [] := filter_evalOk (by intros; rfl) hE
    refine ⟨by simp [List.filter_append, hh, he, Ev.isFinal], by simp, fun _ => ?_⟩
    simp [List.filter_append, hh', he', Ev.isCheckpoint]
  | crashAct e => simp
  | crashStep e a => simp [Ev.isFinal]
  | crashHook e a out P hP =>
    have hp := filter_hooks_prefix (p := Ev.isFinal) (by intros; rfl) hP
    simp [hp, Ev.isFinal]
  | crashEval e a out h => simp [List.filter_append, hh, Ev.isFinal]
  | crashReset e a out E h hE hne =>
    have he : E.filter Ev.isFinal = [] := filter_evalOk (by intros; rfl) hE
    simp [List.filter_append, hh, he, Ev.isFinal]
  | crashCkpt e a out E o h hE hne =>
    have he : E.filter Ev.isFinal = [] := filter_evalOk (by intros; rfl) hE
    simp [List.filter_append, hh, he, Ev.isFinal]

theorem loop_final {c : Cfg S} {l : Loc O K} {t t1 : Nat} {evs : List (Ev O A K S)}
    {r : Except X Unit} (h : LoopRes c l t evs t1 r) : evs.filter Ev.isFinal = [] := by
  induction h with
  | exit l t h => rfl
  | more h hi hl ih => rw [List.filter_append, ih, (iter_saves hi).1]; rfl
  | brk h hi => exact (iter_saves hi).1
  | crash h hi => exact (iter_saves hi).1

/-- C22: a normal execution ends with the `<t>_finish` snapshot, `t` the number
of completed steps, and takes no other final snapshot. -/
theorem C22_finish (c : Cfg S) (w : World O A K S X) (hok : (run c w).2 = .ok ()) :
    ∃ evs, (run c w).1 = evs ++ [.save (c.stepOffset + evs.countP Ev.isStep) .finish] ∧
      evs.filter Ev.isFinal = [] := by
  have hst := run_stamped c w
  rcases run_cases c w with ⟨e, he⟩ | ⟨o, T, evs, t, r, hT, hl, hc⟩
  · rw [he] at hok; cases hok
  rcases hc with ⟨e, hr, he | ⟨e', _, he⟩⟩ | ⟨hr, he | ⟨e', _, he⟩⟩ <;> rw [he] at hok
  · cases hok
  · cases hok
  · rw [he, stamped_append] at hst
    refine ⟨.reset o :: T ++ evs, ?_, ?_⟩
    · rw [he, ← hst.2.1]
    · rw [List.filter_append, loop_final hl]
      rcases hT with rfl | rfl <;> rfl
  · cases hok

/-- C22: an exception anywhere after the first `env.reset()` leaves exactly one
final snapshot, `<t>_except` with `t` the number of completed steps, as the
last thing done (provided that snapshot itself can be written). -/
theorem C22_except (c : Cfg S) (w : World O A K S X) (o : O) (hreset : w.reset = .ok o)
    (hs : w.saveExcept = .ok ()) (hs' : w.saveFinish = .ok ()) (e : X)
    (herr : (run c w).2 = .error e) :
    ∃ evs, (run c w).1 = evs ++ [.save (c.stepOffset + evs.countP Ev.isStep) .except] ∧
      evs.filter Ev.isFinal = [] := by
  have hst := run_stamped c w
  rcases run_cases c w with ⟨e, he⟩ | ⟨o, T, evs, t, r, hT, hl, hc⟩
  · exfalso
    have h1 : (run c w).1.head? = some (.reset o) := by
      unfold run trainAgent
      rw [hreset, bind_ok (s' := 0) (l := [.reset o]) (a := o) rfl]
      rfl
    rw [he] at h1; cases h1
  rcases hc with ⟨e, hr, he | ⟨e', h1, he⟩⟩ | ⟨hr, he | ⟨e', h1, he⟩⟩
  · rw [he, stamped_append] at hst
    refine ⟨.reset o :: T ++ evs, ?_, ?_⟩
    · rw [he, ← hst.2.1]
    · rw [List.filter_append, loop_final hl]
      rcases hT with rfl | rfl <;> rfl
  · rw [hs] at h1; cases h1
  · rw [he] at herr; cases herr
  · rw [hs'] at h1; cases h1

/-- Calls of iteration `i` that raise `e`. -/
def Iter.Raises (w : Iter O A K S X) (e : X) : Prop :=
  w.act = .error e ∨ w.step = .error e ∨ (∃ i, w.hook i = .error e) ∨ w.stop = .error e ∨
  w.evaluate = .error e ∨ w.reset = .error e ∨ w.checkpoint = .error e

theorem bind_error_inv {S' E X α β : Type} {m : Eff S' E X α} {f : α → Eff S' E X β} {s : S'} {e : X}
    (h : ((m >>= f) s).2.2 = .error e) :
    (m s).2.2 = .error e ∨ ∃ a s', (f a s').2.2 = .error e := by
  rcases hm : m s with ⟨l, s', r⟩
  cases r with
  | ok a => rw [bind_ok hm] at h; exact .inr ⟨a, s', h⟩
  | error e' =>
    rw [bind_error hm] at h
    have : e' = e := by simpa using h
    exact .inl (by rw [this])

theorem call_error_inv {S' E X α : Type} {ev : α → E} {r : Except X α} {s : S'} {e : X}
    (h : (Eff.call ev r s).2.2 = .error e) : r = .error e := by
  cases r with
  | ok a => cases h
  | error e' => exact h

omit [Zero K] [LinearOrder S] in
theorem checkpoint_raises {c : Cfg S} {w : Iter O A K S X} {t s : Nat} {e : X}
    (h : (checkpointStep c w t s).2.2 = .error e) : w.checkpoint = .error e := by
  rcases checkpointStep_spec c w t s with ⟨e', h'⟩ | h'
  · unfold checkpointStep at h h'
    cases hf : c.checkpointFreq with
    | none => rw [hf] at h; cases h
    | some f =>
      rw [hf] at h
      cases f with
      | zero => cases h
      | succ f =>
        simp only at h
        split at h
        · exact call_error_inv h
        · cases h
  · rw [h'] at h; cases h

theorem iter_raises {c : Cfg S} {w : Iter O A K S X} {l : Loc O K} {t : Nat} {e : X}
    (h : (iter c w l t).2.2 = .error e) : w.Raises e := by
  unfold iter at h
  rcases bind_error_inv h with h | ⟨a, _, h⟩
  · exact .inl (call_error_inv h)
  rcases bind_error_inv h with h | ⟨out, _, h⟩
  · exact .inr (.inl (call_error_inv h))
  rcases bind_error_inv h with h | ⟨t0, _, h⟩
  · cases h
  rcases bind_error_inv h with h | ⟨_, _, h⟩
  · cases h
  simp only at h
  rcases bind_error_inv h with h | ⟨_, _, h⟩
  · refine .inr (.inr (.inl ?_))
    have : ∀ (n i s : Nat), (Eff.forN (fun i => Eff.call (fun _ => (Ev.hook i (t0 + 1) : Ev O A K S)) (w.hook i)) i n s).2.2 = .error e →
        ∃ i, w.hook i = .error e := by
      intro n
      induction n with
      | zero => intro i s h; cases h
      | succ n ih =>
        intro i s h
        rcases bind_error_inv (m := Eff.call _ _) h with h | ⟨_, _, h⟩
        · exact ⟨i, call_error_inv h⟩
        · exact ih _ _ h
    exact this _ _ _ h
  split at h
  · rcases bind_error_inv h with h | ⟨_, _, h⟩
    · exact .inr (.inr (.inr (.inl (call_error_inv h))))
    rcases bind_error_inv h with h | ⟨b, _, h⟩
    · refine .inr (.inr (.inr (.inr (.inl ?_))))
      unfold evalStep at h
      split at h
      · rcases bind_error_inv h with h | ⟨_, _, h⟩
        · exact call_error_inv h
        · cases hss : c.successfulScore <;> rw [hss] at h <;> cases h
      · cases h
    split at h
    · cases h
    split at h
    · cases h
    rcases bind_error_inv h with h | ⟨_, _, h⟩
    · exact .inr (.inr (.inr (.inr (.inr (.inl (call_error_inv h))))))
    rcases bind_error_inv h with h | ⟨_, _, h⟩
    · exact .inr (.inr (.inr (.inr (.inr (.inr (checkpoint_raises h))))))
    · cases h
  · rcases bind_error_inv h with h | ⟨_, _, h⟩
    · exact .inr (.inr (.inr (.inr (.inr (.inr (checkpoint_raises h))))))
    · cases h

theorem loop_raises {c : Cfg S} {w : Nat → Iter O A K S X} {fuel i : Nat} {l : Loc O K} {t : Nat} {e : X}
    (h : (loop c w fuel i l t).2.2 = .error e) : ∃ i, (w i).Raises e := by
  induction fuel generalizing i l t with
  | zero => cases h
  | succ fuel ih =>
    unfold loop at h
    rcases bind_error_inv h with h | ⟨_, _, h⟩
    · cases h
    split at h
    · rcases bind_error_inv h with h | ⟨o, _, h⟩
      · exact ⟨i, iter_raises h⟩
      · cases o with
        | none => cases h
        | some l' => exact ih h
    · cases h

/-- C22: the exception that leaves `train_agent` is one raised by a call it
made: the first reset, a call of the loop, or the writing of a final
snapshot. -/
theorem C22_reraised (c : Cfg S) (w : World O A K S X) (e : X) (h : (run c w).2 = .error e) :
    w.reset = .error e ∨ (∃ i, (w.iter i).Raises e) ∨ w.saveExcept = .error e ∨
      w.saveFinish = .error e := by
  unfold run trainAgent at h
  rcases bind_error_inv h with h | ⟨o, _, h⟩
  · exact .inl (call_error_inv h)
  rcases bind_error_inv h with h | ⟨_, _, h⟩
  · cases h
  rcases bind_error_inv h with h | ⟨_, s, h⟩
  · split at h <;> cases h
  rcases bind_error_inv h with h | ⟨_, _, h⟩
  · unfold Eff.onError at h
    rcases hl : loop c w.iter (c.steps - c.stepOffset) 0 ⟨o, 0, 0, 0⟩ s with ⟨l, s', r⟩
    rw [hl] at h
    cases r with
    | ok a => cases h
    | error e1 =>
      simp only at h
      cases hs : w.saveExcept with
      | ok u =>
        rw [hs] at h
        simp only [bind_eq, Eff.bind, Eff.get, Eff.call] at h
        exact .inr (.inl (loop_raises (by rw [hl]; exact h)))
      | error e2 =>
        rw [hs] at h
        simp only [bind_eq, Eff.bind, Eff.get, Eff.call] at h
        exact .inr (.inr (.inl h))
  rcases bind_error_inv h with h | ⟨_, _, h⟩
  · cases h
  · exact .inr (.inr (.inr (call_error_inv h)))

theorem loop_checkpoints {c : Cfg S} {l : Loc O K} {t t1 : Nat} {evs : List (Ev O A K S)}
    {r : Except X Unit} (h : LoopRes c l t evs t1 r) :
    (r = .ok () → (t < c.steps → 0 < evs.countP Ev.isStep) ∧ 
      evs.filter Ev.isCheckpoint = (List.range (evs.countP Ev.isStep - 1)).flatMap fun j =>
        ckpt c (t + j + 1)) ∧
    ∀ j, j + 1 < evs.countP Ev.isStep → ∀ e ∈ ckpt c (t + j + 1), e ∈ evs := by
  induction h with
  | exit l t h => simp; omega
  | @more l l' t t1 t2 e1 e2 r h hi hl ih =>
    obtain ⟨_, p1, _⟩ := iter_saves hi
    have p2 := (iter_hooks hi).2
    have p1 := p1 _ rfl
    have ht := hi.t_of_some
    have hlt := hi.lt_of_some h
    rw [ht] at ih
    constructor
    · intro hr
      obtain ⟨q0, q1⟩ := ih.1 hr
      rw [List.countP_append, p2]
      refine ⟨fun _ => by omega, ?_⟩
      have hpos := q0 (by omega)
      rw [List.filter_append, p1, q1, show 1 + e2.countP Ev.isStep - 1 = 1 + (e2.countP Ev.isStep - 1) by omega,
        range_flatMap_succ]
      congr 1
      simp [Nat.add_assoc, Nat.add_comm 1]
    · intro j hj e he
      rw [List.countP_append, p2] at hj
      cases j with
      | zero =>
        rw [Nat.add_zero, ← p1] at he
        exact List.mem_append_left _ (List.mem_filter.mp he).1
      | succ j =>
        refine List.mem_append_right _ (ih.2 j (by omega) e ?_)
        rw [show t + 1 + j + 1 = t + (j + 1) + 1 by omega]; exact he
  | brk h hi =>
    obtain ⟨_, _, p1⟩ := iter_saves hi
    have p2 := (iter_hooks hi).2
    rw [p2, p1 rfl]
    simp
  | crash h hi =>
    have p2 := (iter_stamped hi).2
    refine ⟨by simp, ?_⟩
    intro j hj
    omega

/-- C22: in a normal execution the checkpoints are exactly those of the
multiples of `checkpoint_freq` among the steps before the last one (the last
one has its `_finish` snapshot instead), in order. -/
theorem C22_checkpoints (c : Cfg S) (w : World O A K S X) (f : Nat) (hf : 0 < f)
    (hc : c.checkpointFreq = some f) (hok : (run c w).2 = .ok ()) :
    (run c w).1.filter Ev.isCheckpoint =
      (((List.range ((run c w).1.countP Ev.isStep - 1)).map (c.stepOffset + · + 1)).filter
        (fun t => decide (f ∣ t))).map fun t => .save t .checkpoint := by
  have key : ∀ n, (List.range n).flatMap (fun j => ckpt (O := O) (A := A) (K := K) c (c.stepOffset + j + 1)) =
      (((List.range n).map (c.stepOffset + · + 1)).filter
        (fun t => decide (f ∣ t))).map fun t => .save t .checkpoint := by
    intro n
    induction n with
    | zero => rfl
    | succ n ih =>
      rw [List.range_succ, List.flatMap_append, ih, List.map_append, List.filter_append, List.map_append]
      congr 1
      simp only [List.flatMap_cons, List.flatMap_nil, List.append_nil, ckpt, hc, List.map_cons, List.map_nil]
      by_cases hd : f ∣ c.stepOffset + n + 1
      · rw [if_pos ⟨by omega, hd⟩]; simp [hd]
      · rw [if_neg (fun h => hd h.2)]; simp [hd]
  rcases run_cases c w with ⟨e, he⟩ | ⟨o, T, evs, t, r, hT, hl, hc'⟩
  · rw [he] at hok; cases hok
  rcases hc' with ⟨e, hr, he | ⟨e', _, he⟩⟩ | ⟨hr, he | ⟨e', _, he⟩⟩ <;> rw [he] at hok ⊢
  · cases hok
  · cases hok
  · have h := ((loop_checkpoints hl).1 hr).2
    rw [key] at h
    rcases hT with rfl | rfl <;>
      simp only [List.cons_append, List.nil_append, List.filter_append, List.filter_cons,
        List.countP_append, List.countP_cons, Ev.isCheckpoint, Ev.isStep, Bool.false_eq_true, if_false,
        List.filter_nil, List.countP_nil, List.append_nil, Nat.add_zero] <;> exact h
  · cases hok

/-- C22: at every crash point, all checkpoints due before the last completed
step have been written. -/
theorem C22_checkpoints_crash (c : Cfg S) (w : World O A K S X) (f : Nat) (hf : 0 < f)
    (hc : c.checkpointFreq = some f) (t : Nat) (h1 : c.stepOffset < t)
    (h2 : t < c.stepOffset + (run c w).1.countP Ev.isStep) (hd : f ∣ t) :
    .save t .checkpoint ∈ (run c w).1 := by
  rcases run_cases c w with ⟨e, he⟩ | ⟨o, T, evs, t', r, hT, hl, hc'⟩
  · rw [he] at h2; simp at h2; omega
  have hT0 : T.countP Ev.isStep = 0 := by rcases hT with rfl | rfl <;> rfl
  have hmem : t < c.stepOffset + evs.countP Ev.isStep → .save t .checkpoint ∈ evs := by
    intro h3
    refine (loop_checkpoints hl).2 (t - c.stepOffset - 1) (by omega) _ ?_
    rw [show c.stepOffset + (t - c.stepOffset - 1) + 1 = t by omega]
    simp only [ckpt, hc]
    rw [if_pos ⟨by omega, hd⟩]; simp
  rcases hc' with ⟨e, hr, he | ⟨e', _, he⟩⟩ | ⟨hr, he | ⟨e', _, he⟩⟩ <;> rw [he] at h2 ⊢ <;>
    simp [List.countP_append, List.countP_cons, hT0, Ev.isStep] at h2 <;>
    simp [hmem h2]

/-! ## Concrete executions meeting the hypotheses -/

section Examples

/-- Observations count up; every third step is `done`. -/
def exIter (i : Nat) : Iter Nat Nat Int Int String where
  act := .ok i
  step := .ok ⟨10 + i, i, decide (i % 3 = 2), false⟩
  hook := fun _ => .ok ()
  stop := .ok ()
  evaluate := .ok i
  reset := .ok 100
  checkpoint := .ok ()

def exWorld : World Nat Nat Int Int String := ⟨.ok 0, exIter, .ok (), .ok ()⟩

def exCfg : Cfg Int := ⟨7, 2, some 2, some 2, true, some 100, 1, true⟩

-- a whole run: three episodes (cut at length 2, at `done`, at the last step), a
-- checkpoint at the even steps before the last one
example : run exCfg exWorld = ([.reset 0, .setT 2,
    .act 0 0 0, .step 0 ⟨10, 0, false, false⟩, .hook 0 3,
    .act 10 0 1, .step 1 ⟨11, 1, false, false⟩, .hook 0 4, .stop 11 1 false, .evaluate 4 1 1, .reset 100,
      .save 4 .checkpoint,
    .act 100 0 2, .step 2 ⟨12, 2, true, false⟩, .hook 0 5, .stop 12 2 true, .evaluate 5 2 2, .reset 100,
    .act 100 0 3, .step 3 ⟨13, 3, false, false⟩, .hook 0 6, .save 6 .checkpoint,
    .act 13 3 4, .step 4 ⟨14, 4, false, false⟩, .hook 0 7, .stop 14 4 false, .evaluate 7 3 4,
    .save 7 .finish], .ok ()) := by rfl

def exCfg2 : Cfg Int := { exCfg with successfulScore := some 2 }

-- success at the second evaluation
example : (run exCfg2 exWorld).2 = .ok () ∧ Succeeded exCfg2 (run exCfg2 exWorld).1 ∧
    (run exCfg2 exWorld).1.countP Ev.isStep = 3 := by
  refine ⟨rfl, ⟨5, 2, 2, 2, ?_, rfl, le_refl _⟩, rfl⟩
  decide +kernel

-- a crash of the hook after the fourth step
example : let w : World Nat Nat Int Int String :=
      { exWorld with iter := fun i => if i = 3 then { exIter i with hook := fun _ => .error "boom" } else exIter i }
    (run exCfg w).2 = .error "boom" ∧ (run exCfg w).1.getLast? = some (.save 6 .except) ∧
    (run exCfg w).1.countP Ev.isStep = 4 ∧ .save 4 .checkpoint ∈ (run exCfg w).1 := by
  refine ⟨rfl, rfl, rfl, ?_⟩
  decide +kernel

end Examples

end Verif.Train
