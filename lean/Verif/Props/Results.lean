import Verif.Model.Results
import Verif.Props.Evaluator
set_option autoImplicit false
set_option linter.unusedSectionVars false

/-!
# C119: scores and best agent of an output directory
-/

namespace Verif.Results
open Evaluator

variable {A K C X : Type} [LinearOrder K]

theorem session_snoc (c : Cfg) (lo : K) (l : List (Call K C X × A)) (x : Call K C X × A) (d : Disk A K C) :
    session c lo (l ++ [x]) d =
      (evaluateIfNecessary c x.1.w x.1.t x.1.episodes (run c lo (l.map Prod.fst)).2).1.foldl (Disk.apply x.2) (session c lo l d) := by
  unfold session
  rw [List.map_append, List.map_singleton, run_snoc]
  simp only
  rw [List.zip_append (by rw [run_length, List.length_map])]
  simp

/-- A line as it stands in the file. -/
def toLine (y : Nat × Nat × Stats K × C) : Line K C := .score y.1 y.2.1 y.2.2.1 y.2.2.2

theorem foldl_scores (a : A) (evs : List (Ev K C)) (h : Ev.header ∉ evs) : ∀ d : Disk A K C,
    (evs.foldl (Disk.apply a) d).scores = d.scores ++ (lines evs).map toLine := by
  induction evs with
  | nil => intro d; simp [lines]
  | cons e evs ih =>
    intro d
    simp only [List.mem_cons, not_or] at h
    rw [List.foldl_cons, ih h.2]
    cases e with
    | header => exact absurd rfl h.1
    | record t e s c => simp [Disk.apply, lines, toLine]
    | best => simp [Disk.apply, lines]

theorem no_header (c : Cfg) (x : Call K C X) (s : St K) : Ev.header ∉ (evaluateIfNecessary c x.w x.t x.episodes s).1 := by
  have := callRes c x s
  revert this
  generalize (evaluateIfNecessary c x.w x.t x.episodes s).1 = ev
  generalize (evaluateIfNecessary c x.w x.t x.episodes s).2.1 = s'
  generalize (evaluateIfNecessary c x.w x.t x.episodes s).2.2 = r
  intro h
  cases h <;> first | simp | (cases c.saveBest <;> simp)

/-- C119: at every moment of a run `scores.txt` consists of the header and one line for each evaluation made in this run so far, in order. -/
theorem C119_scores (c : Cfg) (lo : K) (l : List (Call K C X × A)) (d : Disk A K C) :
    (session c lo l d).scores = .header :: (allLines (run c lo (l.map Prod.fst)).1).map toLine := by
  induction l using snoc_induction with
  | h0 => rfl
  | h1 l x ih =>
    rw [session_snoc, foldl_scores _ _ (no_header c x.1 _), ih, List.map_append, List.map_singleton, run_snoc]
    simp [allLines]

/-- The means recorded in a run. -/
def means (c : Cfg) (lo : K) (l : List (Call K C X × A)) : List K :=
  (allLines (run c lo (l.map Prod.fst)).1).map (·.2.2.1.mean)

theorem means_snoc (c : Cfg) (lo : K) (l : List (Call K C X × A)) (x : Call K C X × A) :
    means c lo (l ++ [x]) = means c lo l ++
      (lines (evaluateIfNecessary c x.1.w x.1.t x.1.episodes (run c lo (l.map Prod.fst)).2).1).map (·.2.2.1.mean) := by
  unfold means
  rw [List.map_append, List.map_singleton, run_snoc]
  simp [allLines]

theorem best_inv (c : Cfg) (hb : c.saveBest = true) (lo : K) (d : Disk A K C) (l : List (Call K C X × A)) (hs : ∀ x ∈ l, x.1.w.save = .ok ()) :
    ((run c lo (l.map Prod.fst)).2.maxScore = lo ∧ (session c lo l d).best = d.best) ∨
    ∃ l1 x l2 m, l = l1 ++ x :: l2 ∧ means c lo (l1 ++ [x]) = means c lo l1 ++ [m] ∧ lo < m ∧
      (∀ m' ∈ means c lo l1, m' < m) ∧ (run c lo (l.map Prod.fst)).2.maxScore = m ∧ (session c lo l d).best = some x.2 := by
  induction l using snoc_induction with
  | h0 => exact .inl ⟨rfl, rfl⟩
  | h1 l x ih =>
    have ih := ih fun y hy => hs y (List.mem_append_left _ hy)
    have hx := hs x (by simp)
    have hr := callRes c x.1 (run c lo (l.map Prod.fst)).2
    have hms := means_snoc c lo l x
    have hss := session_snoc c lo l x d
    have hrun : (run c lo ((l ++ [x]).map Prod.fst)).2 = (evaluateIfNecessary c x.1.w x.1.t x.1.episodes (run c lo (l.map Prod.fst)).2).2.1 := by
      rw [List.map_append, List.map_singleton, run_snoc]
    obtain ⟨hmax, _⟩ := C26_max_score c lo (l.map Prod.fst)
    rw [hrun, hss]
    revert hr hms
    generalize (evaluateIfNecessary c x.1.w x.1.t x.1.episodes (run c lo (l.map Prod.fst)).2).1 = ev
    generalize (evaluateIfNecessary c x.1.w x.1.t x.1.episodes (run c lo (l.map Prod.fst)).2).2.1 = s'
    generalize (evaluateIfNecessary c x.1.w x.1.t x.1.episodes (run c lo (l.map Prod.fst)).2).2.2 = res
    intro hr hms
    have keep : ∀ (p : Nat) (ev : List (Ev K C)), Ev.best ∉ ev → Ev.header ∉ ev →
        (ev.foldl (Disk.apply x.2) (session c lo l d)).best = (session c lo l d).best := by
      intro p ev h1 h2
      generalize session c lo l d = d
      clear hms hr
      induction ev generalizing d with
      | nil => rfl
      | cons e ev ih =>
        simp only [List.mem_cons, not_or] at h1 h2
        rw [List.foldl_cons, ih h1.2 h2.2]
        cases e with
        | header => exact absurd rfl h2.1
        | record => rfl
        | best => exact absurd rfl h1.1
    have old : ∀ (p : Nat) (ev : List (Ev K C)), Ev.best ∉ ev → Ev.header ∉ ev →
        (((run c lo (l.map Prod.fst)).2.maxScore = lo ∧ (ev.foldl (Disk.apply x.2) (session c lo l d)).best = d.best) ∨
        ∃ l1 y l2 m, l ++ [x] = l1 ++ y :: l2 ∧ means c lo (l1 ++ [y]) = means c lo l1 ++ [m] ∧ lo < m ∧
          (∀ m' ∈ means c lo l1, m' < m) ∧ (run c lo (l.map Prod.fst)).2.maxScore = m ∧
          (ev.foldl (Disk.apply x.2) (session c lo l d)).best = some y.2) := by
      intro p ev h1 h2
      rw [keep p ev h1 h2]
      rcases ih with ih | ⟨l1, y, l2, m, rfl, a, b, e, f, g⟩
      · exact .inl ih
      · exact .inr ⟨l1, y, l2 ++ [x], m, by simp, a, b, e, f, g⟩
    cases hr with
    | skip h => exact old 0 [] (by simp) (by simp)
    | fail h e hw => exact old 0 [] (by simp) (by simp)
    | saveFail h st cu e hs' => rw [hx] at hs'; cases hs'
    | worse h st cu hw hm => exact old 0 [.record x.1.t x.1.episodes st cu] (by simp) (by simp)
    | better h st cu hw hs' hm =>
      right
      refine ⟨l, x, [], st.mean, rfl, ?_, ?_, ?_, rfl, ?_⟩
      · rw [hms]; congr 1; rw [hb]; rfl
      · exact lt_of_le_of_lt (hmax lo (by simp)) hm
      · intro m' hm'
        exact lt_of_le_of_lt (hmax m' (List.mem_cons_of_mem _ hm')) hm
      · rw [hb]; rfl

/-- C119: at every moment of a run, if agents are saved (and saving does not raise), `best` contains the agent as it was at the first of those evaluations of
this run whose mean is the greatest so far; if no mean was above the least number, it is as before the run. -/
theorem C119_best (c : Cfg) (hb : c.saveBest = true) (lo : K) (d : Disk A K C) (l : List (Call K C X × A)) (hs : ∀ x ∈ l, x.1.w.save = .ok ()) :
    ((∀ m ∈ means c lo l, m ≤ lo) ∧ (session c lo l d).best = d.best) ∨
    ∃ l1 x l2 m, l = l1 ++ x :: l2 ∧ means c lo (l1 ++ [x]) = means c lo l1 ++ [m] ∧ lo < m ∧
      (∀ m' ∈ means c lo l1, m' < m) ∧ (∀ m' ∈ means c lo l, m' ≤ m) ∧ (session c lo l d).best = some x.2 := by
  obtain ⟨hmax, _⟩ := C26_max_score c lo (l.map Prod.fst)
  rcases best_inv c hb lo d l hs with ⟨h1, h2⟩ | ⟨l1, x, l2, m, a, b, e, f, g, h⟩
  · left
    refine ⟨fun m hm => ?_, h2⟩
    rw [← h1]
    exact hmax m (List.mem_cons_of_mem _ hm)
  · right
    refine ⟨l1, x, l2, m, a, b, e, f, fun m' hm' => ?_, h⟩
    rw [← g]
    exact hmax m' (List.mem_cons_of_mem _ hm')

/-! ## Continuing a training -/

theorem sessions_append (lo : K) (a b : List (Cfg × List (Call K C X × A))) (d : Disk A K C) :
    sessions lo (a ++ b) d = sessions lo b (sessions lo a d) := by
  induction a generalizing d with
  | nil => rfl
  | cons s a ih => exact ih _

/-- C119, violated: the lines of earlier runs in the same directory are lost as soon as training is continued, whatever they were: right after the
evaluator was made no line is left. -/
theorem C119_violated_scores (lo : K) (earlier : List (Cfg × List (Call K C X × A))) (c : Cfg) (d : Disk A K C) (line : Line K C)
    (h : line ≠ .header) : line ∉ (sessions lo (earlier ++ [(c, [])]) d).scores := by
  rw [sessions_append]
  show line ∉ (session (X := X) c lo [] _).scores
  rw [C119_scores]
  simpa [allLines, run, runFrom] using h

/-- What is left after several runs are the lines of the last one. -/
theorem C119_last_run (lo : K) (earlier : List (Cfg × List (Call K C X × A))) (c : Cfg) (l : List (Call K C X × A)) (d : Disk A K C) :
    (sessions lo (earlier ++ [(c, l)]) d).scores = .header :: (allLines (run c lo (l.map Prod.fst)).1).map toLine := by
  rw [sessions_append]
  exact C119_scores c lo l _

/-- C119, violated: the first evaluation after continuing replaces `best`, however good the agent saved there was. -/
theorem C119_violated_best (lo : K) (earlier : List (Cfg × List (Call K C X × A))) (c : Cfg) (hb : c.saveBest = true) (hI : 0 < c.evalInterval)
    (x : Call K C X) (agent : A) (d : Disk A K C) (hx : x.Ok) (st : Stats K) (hst : x.w.eval = .ok st) (hlo : lo < st.mean)
    (hdue : c.stepOffset / c.evalInterval < x.t / c.evalInterval) :
    (sessions lo (earlier ++ [(c, [(x, agent)])]) d).best = some agent := by
  rw [sessions_append]
  show (session c lo [(x, agent)] _).best = _
  have hs := session_snoc c lo [] (x, agent) (sessions lo earlier d)
  rw [List.nil_append] at hs
  rw [hs]
  have hr := callRes c x (run (C := C) (X := X) c lo []).2
  have hdue' : (run (C := C) (X := X) c lo []).2.prev + c.evalInterval ≤ x.t := by
    show c.stepOffset - c.stepOffset % c.evalInterval + c.evalInterval ≤ x.t
    rw [sub_mod, ← Nat.mul_succ, Nat.mul_comm, ← Nat.le_div_iff_mul_le hI]
    exact hdue
  simp only [List.map_nil]
  revert hr
  generalize (evaluateIfNecessary c x.w x.t x.episodes (run (C := C) (X := X) c lo []).2).1 = ev
  generalize (evaluateIfNecessary c x.w x.t x.episodes (run (C := C) (X := X) c lo []).2).2.1 = s'
  generalize (evaluateIfNecessary c x.w x.t x.episodes (run (C := C) (X := X) c lo []).2).2.2 = res
  intro hr
  cases hr with
  | skip h => exact absurd hdue' h
  | fail h e hw => exact absurd ⟨hx.1, hx.2.1, hx.2.2.1⟩ hw
  | saveFail h st cu e hs' => rw [hx.2.2.2] at hs'; cases hs'
  | worse h st' cu hw hm =>
    rw [hst] at hw
    cases hw.1
    exact absurd hlo hm
  | better h st cu hw hs' hm => rw [hb]; rfl

/-- The outcome of the last call of a history. -/
def lastScore (c : Cfg) (lo : K) (l : List (Call K C X)) : Option (Outcome K C X) := (run c lo l).1.getLast?

/-- C119: if the interval of the step at which training was interrupted had been evaluated, the continued run evaluates at exactly the calls at which the
uninterrupted run would have. -/
theorem C119_resume (c : Cfg) (hI : 0 < c.evalInterval) (lo lo' : K) (T : Nat) (l1 l2 : List (Call K C X)) (x : Call K C X)
    (hok : ∀ y ∈ l1 ++ l2 ++ [x], y.Ok) (hT : ∀ y ∈ l1, y.t ≤ T) (hoff : c.stepOffset ≤ T)
    (heval : c.stepOffset / c.evalInterval = T / c.evalInterval ∨ ∃ y ∈ l1, y.t / c.evalInterval = T / c.evalInterval) :
    (∃ ev s, lastScore c lo (l1 ++ l2 ++ [x]) = some (ev, .ok (some s))) ↔
    (∃ ev s, lastScore { c with stepOffset := T } lo' (l2 ++ [x]) = some (ev, .ok (some s))) := by
  obtain ⟨o, h1, h2⟩ := C26_each_interval_once c hI lo (l1 ++ l2) x hok
  obtain ⟨o', h1', h2'⟩ := C26_each_interval_once { c with stepOffset := T } hI lo' l2 x
    (fun y hy => hok y (by simp only [List.mem_append] at hy ⊢; exact hy.elim (fun h => .inl (.inr h)) .inr))
  have e : ∀ o : Outcome K C X, (∃ ev s, some o = some (ev, .ok (some s))) ↔ ∃ s, o.2 = .ok (some s) := by
    rintro ⟨a, b⟩
    simp
  unfold lastScore
  rw [h1, h1', List.getLast?_concat, List.getLast?_concat, e, e, h2, h2']
  simp only
  have hdT : ∀ y ∈ l1, y.t / c.evalInterval ≤ T / c.evalInterval := fun y hy => Nat.div_le_div_right (hT y hy)
  have hoT : c.stepOffset / c.evalInterval ≤ T / c.evalInterval := Nat.div_le_div_right hoff
  constructor
  · rintro ⟨a, b⟩
    refine ⟨?_, fun y hy => b y (List.mem_append_right _ hy)⟩
    rcases heval with h | ⟨y, hy, h⟩
    · rw [← h]; exact a
    · rw [← h]; exact b y (List.mem_append_left _ hy)
  · rintro ⟨a, b⟩
    refine ⟨lt_of_le_of_lt hoT a, fun y hy => ?_⟩
    rcases List.mem_append.1 hy with hy | hy
    · exact lt_of_le_of_lt (hdT y hy) a
    · exact b y hy

/-- C119, violated: otherwise the evaluation that was due is left out: with an interval of 100, interrupted at step 105 with the last call at step 95, the
uninterrupted run evaluates at step 110 and the continued one does not. -/
theorem C119_violated_due :
    (∃ ev s, lastScore ⟨100, 0, true⟩ 0 ([exCall 95 1] ++ [] ++ [exCall 110 1]) = some (ev, .ok (some s))) ∧
    ¬ ∃ ev s, lastScore ⟨100, 105, true⟩ 0 ([] ++ [exCall 110 1]) = some (ev, .ok (some s)) := by
  constructor
  · exact ⟨_, _, rfl⟩
  · rintro ⟨ev, s, h⟩
    have h' : lastScore ⟨100, 105, true⟩ (0 : Int) ([] ++ [exCall 110 1]) = some ([], .ok none) := rfl
    rw [h'] at h
    simp at h

/-! ## A concrete case -/

/-- A run with means 5, 9, 9 and its continuation with means 2, 3: `best` has mean 3, although an agent with mean 9 had been saved, and the first run's lines are gone. -/
example :
    let first : Cfg × List (Call Int Unit Unit × String) := (⟨10, 0, true⟩, [(exCall 10 5, "a"), (exCall 20 9, "b"), (exCall 30 9, "c")])
    let second : Cfg × List (Call Int Unit Unit × String) := (⟨10, 30, true⟩, [(exCall 40 2, "d"), (exCall 50 3, "e")])
    (sessions (-1000) [first] ⟨[], none⟩).best = some "b" ∧ (sessions (-1000) [first, second] ⟨[], none⟩).best = some "e" ∧
    (sessions (-1000) [first, second] ⟨[], none⟩).scores.length = 3 := ⟨rfl, rfl, rfl⟩

/-- The hypotheses of `C119_resume`. -/
example : (∃ y ∈ [exCall 95 1, exCall 102 1], y.t / 100 = 105 / 100) ∧ (∀ y ∈ [exCall 95 1, exCall 102 1], y.t ≤ 105) := by
  simp [exCall]

end Verif.Results
