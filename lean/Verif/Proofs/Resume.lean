import Verif.Proofs.TrainAgent
import Verif.Props.TrainAgent
set_option autoImplicit false
set_option linter.unusedSectionVars false

/-! # Lemmas for C133: splitting a run of `train_agent` at the end of an episode -/

namespace Verif.Train
variable {O A K S X : Type}

/-- A call without the number of episodes, which a continued run counts anew. -/
def Ev.erase : Ev O A K S → Ev O A K S
  | .evaluate t _ m => .evaluate t 0 m
  | e => e

/-- Calls of `act_and_train`. -/
def Ev.isAct : Ev O A K S → Bool
  | .act .. => true
  | _ => false

/-- Calls of `env.reset`. -/
def Ev.isReset : Ev O A K S → Bool
  | .reset _ => true
  | _ => false

/-- Two pieces of code that do the same up to the number of episodes. -/
def Sim {α β : Type} (R : α → β → Prop) (m : M O A K S X α) (m' : M O A K S X β) : Prop :=
  ∀ t, (m t).1.map Ev.erase = (m' t).1.map Ev.erase ∧ (m t).2.1 = (m' t).2.1 ∧
    ((∃ e, (m t).2.2 = .error e ∧ (m' t).2.2 = .error e) ∨ ∃ a b, (m t).2.2 = .ok a ∧ (m' t).2.2 = .ok b ∧ R a b)

theorem Sim.bind {α β α' β' : Type} {R : α → β → Prop} {R' : α' → β' → Prop} {m : M O A K S X α} {m' : M O A K S X β}
    {f : α → M O A K S X α'} {f' : β → M O A K S X β'} (h : Sim R m m') (hf : ∀ a b, R a b → Sim R' (f a) (f' b)) :
    Sim R' (m >>= f) (m' >>= f') := by
  intro t
  obtain ⟨h1, h2, h3⟩ := h t
  rcases hm : m t with ⟨l, t1, r⟩
  rcases hm' : m' t with ⟨l', t1', r'⟩
  rw [hm, hm'] at h1 h2 h3
  simp only at h1 h2 h3
  subst h2
  rcases h3 with ⟨e, rfl, rfl⟩ | ⟨a, b, rfl, rfl, hR⟩
  · rw [bind_error hm, bind_error hm']
    exact ⟨h1, rfl, .inl ⟨e, rfl, rfl⟩⟩
  · rw [bind_ok hm, bind_ok hm']
    obtain ⟨g1, g2, g3⟩ := hf a b hR t1
    refine ⟨?_, g2, g3⟩
    simp only [List.map_append, h1, g1]

theorem Sim.refl {α : Type} (m : M O A K S X α) : Sim Eq m m := by
  intro t
  refine ⟨rfl, rfl, ?_⟩
  cases (m t).2.2 with
  | error e => exact .inl ⟨e, rfl, rfl⟩
  | ok a => exact .inr ⟨a, a, rfl, rfl, rfl⟩

theorem Sim.pure {α β : Type} {R : α → β → Prop} {a : α} {b : β} (h : R a b) : Sim R (pure a : M O A K S X α) (pure b : M O A K S X β) :=
  fun _ => ⟨rfl, rfl, .inr ⟨a, b, rfl, rfl, h⟩⟩

/-- The same place in an episode. -/
def Loc.Same (l l' : Loc O K) : Prop := l.obs = l'.obs ∧ l.r = l'.r ∧ l.episodeLen = l'.episodeLen

/-- The same outcome of an iteration. -/
def SameOpt : Option (Loc O K) → Option (Loc O K) → Prop
  | none, none => True
  | some l, some l' => l.Same l'
  | _, _ => False

variable [Zero K] [LinearOrder S]

theorem evalStep_sim (c : Cfg S) (w : Iter O A K S X) (t i j : Nat) : Sim Eq (evalStep c w t i) (evalStep c w t j) := by
  unfold evalStep
  split
  · refine Sim.bind (R := Eq) ?_ (fun a b h => by subst h; exact Sim.refl _)
    intro s
    unfold Eff.call
    cases w.evaluate with
    | error e => exact ⟨rfl, rfl, .inl ⟨e, rfl, rfl⟩⟩
    | ok m => exact ⟨rfl, rfl, .inr ⟨m, m, rfl, rfl, rfl⟩⟩
  · exact Sim.refl _

theorem iter_sim (c c' : Cfg S) (hc : c' = { c with stepOffset := c'.stepOffset }) (w : Iter O A K S X) (l l' : Loc O K) (h : l.Same l') :
    Sim SameOpt (iter c w l) (iter c' w l') := by
  obtain ⟨o, r, i, len⟩ := l
  obtain ⟨o', r', i', len'⟩ := l'
  obtain ⟨h1, h2, h3⟩ := h
  simp only at h1 h2 h3
  subst h1 h2 h3
  have e1 : c'.numHooks = c.numHooks := by rw [hc]
  have e2 : c'.steps = c.steps := by rw [hc]
  have e3 : c'.maxEpisodeLen = c.maxEpisodeLen := by rw [hc]
  have e4 : ∀ t, (checkpointStep c' w t : M O A K S X Unit) = checkpointStep c w t := by intro t; rw [hc]; rfl
  have e5 : ∀ t k, (evalStep c' w t k : M O A K S X Bool) = evalStep c w t k := by intro t k; rw [hc]; rfl
  unfold iter
  simp only [e1, e2, e3, e4, e5]
  refine Sim.bind (Sim.refl _) (fun a b h => ?_); subst h
  refine Sim.bind (Sim.refl _) (fun out b h => ?_); subst h
  refine Sim.bind (Sim.refl _) (fun t0 b h => ?_); subst h
  refine Sim.bind (Sim.refl _) (fun _ _ _ => ?_)
  refine Sim.bind (Sim.refl _) (fun _ _ _ => ?_)
  split
  · refine Sim.bind (Sim.refl _) (fun _ _ _ => ?_)
    refine Sim.bind (evalStep_sim c w _ _ _) (fun s b h => ?_); subst h
    split
    · exact Sim.pure trivial
    · split
      · exact Sim.pure trivial
      · refine Sim.bind (Sim.refl _) (fun o b h => ?_); subst h
        exact Sim.bind (Sim.refl _) (fun _ _ _ => Sim.pure ⟨rfl, rfl, rfl⟩)
  · exact Sim.bind (Sim.refl _) (fun _ _ _ => Sim.pure ⟨rfl, rfl, rfl⟩)

theorem loop_sim (c c' : Cfg S) (hc : c' = { c with stepOffset := c'.stepOffset }) (w w' : Nat → Iter O A K S X) (k : Nat) (hw : ∀ j, w' j = w (k + j)) (fuel : Nat) :
    ∀ (j : Nat) (l l' : Loc O K), l.Same l' → Sim Eq (loop c w fuel (k + j) l) (loop c' w' fuel j l') := by
  induction fuel with
  | zero => intro j l l' _; exact Sim.refl _
  | succ fuel ih =>
    intro j l l' h
    unfold loop
    have e2 : c'.steps = c.steps := by rw [hc]
    simp only [e2, hw]
    refine Sim.bind (Sim.refl _) (fun t b h => ?_); subst h
    split
    · refine Sim.bind (iter_sim c c' hc (w (k + j)) l l' ‹_›) ?_
      intro a b hab
      cases a with
      | none =>
        cases b with
        | none => exact Sim.refl _
        | some _ => exact hab.elim
      | some l1 =>
        cases b with
        | none => exact hab.elim
        | some l1' => exact ih (j + 1) l1 l1' hab
    · exact Sim.refl _

/-- A place that is not in the first part. -/
theorem split_after {α : Type} (p : α → Bool) {X1 rest pre post : List α} {a : α} (hX : ∀ x ∈ X1, p x = false) (ha : p a = true)
    (h : X1 ++ rest = pre ++ a :: post) : ∃ pre', pre = X1 ++ pre' ∧ rest = pre' ++ a :: post := by
  rcases List.append_eq_append_iff.1 h with ⟨as, h1, h2⟩ | ⟨bs, h1, h2⟩
  · exact ⟨as, h1, h2⟩
  · cases bs with
    | nil => exact ⟨[], by simpa using h1.symm, by simpa using h2.symm⟩
    | cons b bs =>
      simp only [List.cons_append, List.cons.injEq] at h2
      obtain ⟨rfl, -⟩ := h2
      rw [hX a (by rw [h1]; simp)] at ha
      cases ha

theorem hooks_quiet {p : Ev O A K S → Bool} (hp : ∀ i t, p (.hook i t) = false) (t i n : Nat) :
    ∀ e ∈ (hooksFrom t i n : List (Ev O A K S)), p e = false := by
  intro e he
  by_contra hne
  have : e ∈ (hooksFrom t i n : List (Ev O A K S)).filter p := List.mem_filter.2 ⟨he, by simpa using hne⟩
  rw [filter_hooks hp] at this
  cases this

theorem ckpt_quiet {p : Ev O A K S → Bool} (hp : ∀ t, p (.save t .checkpoint) = false) (c : Cfg S) (t : Nat) :
    ∀ e ∈ (ckpt c t : List (Ev O A K S)), p e = false := by
  intro e he
  by_contra hne
  have : e ∈ (ckpt c t : List (Ev O A K S)).filter p := List.mem_filter.2 ⟨he, by simpa using hne⟩
  rw [filter_ckpt hp] at this
  cases this

theorem eval_quiet {p : Ev O A K S → Bool} (hp : ∀ t k m, p (.evaluate t k m) = false) {c : Cfg S} {t k : Nat} {E : List (Ev O A K S)} {b : Bool}
    (h : EvalOk c t k E b) : ∀ e ∈ E, p e = false := by
  intro e he
  rcases h with ⟨-, rfl, -⟩ | ⟨-, m, rfl, -⟩
  · cases he
  · rw [List.mem_singleton] at he; subst he; exact hp _ _ _

theorem quiet_filter {α : Type} {p : α → Bool} {l : List α} (h : ∀ e ∈ l, p e = false) : l.countP p = 0 := by
  rw [List.countP_eq_zero]; intro e he; simp [h e he]

/-- The part of a run before a reset inside the loop. -/
structure Before (pre : List (Ev O A K S)) (k : Nat) : Prop where
  pos : 0 < k
  steps : pre.countP Ev.isStep = k
  acts : pre.countP Ev.isAct = k
  stop : ∃ pre1 o r d E, pre = pre1 ++ .stop o r d :: E ∧ ∀ e ∈ E, e.isProtocol = false
  noSet : ∀ e ∈ pre, ∀ t, e ≠ .setT t

theorem loop_split (c : Cfg S) (w : Nat → Iter O A K S X) (fuel : Nat) : ∀ (i : Nat) (l : Loc O K) (t : Nat), fuel = c.steps - t →
    ∀ pre o post, (loop c w fuel i l t).1 = pre ++ .reset o :: post → (∃ e ∈ post, e.isAct = true) →
    ∃ k idx, Before pre k ∧ t + k < c.steps ∧
      post = ckpt c (t + k) ++ (loop c w (c.steps - (t + k)) (i + k) ⟨o, 0, idx, 0⟩ (t + k)).1 ∧
      (loop c w fuel i l t).2 = (loop c w (c.steps - (t + k)) (i + k) ⟨o, 0, idx, 0⟩ (t + k)).2 := by
  induction fuel with
  | zero => intro i l t _ pre o post h; cases pre <;> cases h
  | succ fuel ih =>
    intro i l t hf pre o post h hact
    have ht : t < c.steps := by omega
    have hi := iter_res c (w i) l t
    rcases hres : iter c (w i) l t with ⟨e1, t1, r⟩
    rw [hres] at hi
    have hloop : loop c w (fuel + 1) i l t = (match r with
        | .error e => (e1, t1, .error e)
        | .ok none => (e1, t1, .ok ())
        | .ok (some l') => (e1 ++ (loop c w fuel (i + 1) l' t1).1, (loop c w fuel (i + 1) l' t1).2)) := by
      conv_lhs => unfold loop
      rw [bind_ok (s' := t) (l := []) (a := t) rfl]
      simp only [ht, if_true]
      cases r with
      | error e => rw [bind_error hres]; rfl
      | ok x =>
        rw [bind_ok hres]
        cases x with
        | none => simp [pure, Eff.pure]
        | some l' => simp
    have hq : ∀ (a : A) (out : StepOut O K) (P : List (Ev O A K S)), (∀ e ∈ P, e.isReset = false) → ∀ e ∈ [Ev.act l.obs l.r a, .step a out] ++ P, e.isReset = false := by
      intro a out P hP e he
      rcases List.mem_append.1 he with he | he
      · simp only [List.mem_cons, List.not_mem_nil, or_false] at he
        rcases he with rfl | rfl <;> rfl
      · exact hP e he
    have hno : (∀ e ∈ e1, e.isReset = false) → (loop c w (fuel + 1) i l t).1 ≠ e1 := by
      intro h1 h2
      rw [h2] at h
      have : (Ev.reset o : Ev O A K S) ∈ e1 := by rw [h]; simp
      have := h1 _ this
      cases this
    have happ : ∀ {P Q : List (Ev O A K S)}, (∀ e ∈ P, e.isReset = false) → (∀ e ∈ Q, e.isReset = false) → ∀ e ∈ P ++ Q, e.isReset = false := by
      intro P Q h1 h2 e he
      rcases List.mem_append.1 he with he | he
      · exact h1 e he
      · exact h2 e he
    have hhk : ∀ tt ii n, ∀ e ∈ (hooksFrom tt ii n : List (Ev O A K S)), e.isReset = false := fun tt ii n => hooks_quiet (fun _ _ => rfl) tt ii n
    have hck : ∀ tt, ∀ e ∈ (ckpt c tt : List (Ev O A K S)), e.isReset = false := fun tt => ckpt_quiet (fun _ => rfl) c tt
    have hst : ∀ (out : StepOut O K), ∀ e ∈ [(Ev.stop out.obs out.r out.done : Ev O A K S)], e.isReset = false := by
      intro out e he; rw [List.mem_singleton] at he; subst he; rfl
    simp only at hi
    cases hi with
    | crashAct e => rw [hloop] at h; cases pre <;> cases h
    | crashStep e a =>
      rw [hloop] at hno
      exact absurd rfl (hno (by intro e he; rw [List.mem_singleton] at he; subst he; rfl))
    | crashHook e a out P hP =>
      rw [hloop] at hno
      exact absurd rfl (hno (hq a out P (fun e he => hhk _ _ _ e (hP.subset he))))
    | crashEval e a out hh =>
      rw [hloop] at hno
      exact absurd rfl (hno (happ (hq a out _ (hhk _ _ _)) (hst out)))
    | crashReset e a out E hh hE hne =>
      rw [hloop] at hno
      exact absurd rfl (hno (happ (hq a out _ (hhk _ _ _)) (happ (hst out) (eval_quiet (fun _ _ _ => rfl) hE))))
    | brk a out E success hh hE hne =>
      rw [hloop] at hno
      exact absurd rfl (hno (happ (hq a out _ (hhk _ _ _)) (happ (hst out) (eval_quiet (fun _ _ _ => rfl) hE))))
    | crashCkpt e a out E o' hh hE hne =>
      rw [hloop] at h
      simp only at h
      rw [← List.append_assoc] at h
      obtain ⟨pre', h1, h2⟩ := split_after Ev.isReset (happ (hq a out _ (hhk _ _ _)) (happ (hst out) (eval_quiet (fun _ _ _ => rfl) hE))) rfl h
      cases pre' with
      | nil =>
        simp only [List.nil_append, List.cons.injEq] at h2
        rw [← h2.2] at hact
        obtain ⟨e, he, -⟩ := hact
        cases he
      | cons x xs => simp at h2
    | go a out hh =>
      rw [hloop] at h ⊢
      simp only at h ⊢
      obtain ⟨pre', h1, h2⟩ := split_after Ev.isReset (happ (hq a out _ (hhk _ _ _)) (hck _)) rfl h
      obtain ⟨k, idx, hb, g1, g2, g3⟩ := ih (i + 1) _ (t + 1) (by omega) pre' o post h2 hact
      refine ⟨k + 1, idx, ⟨by omega, ?_, ?_, ?_, ?_⟩, by omega, ?_, ?_⟩
      · rw [h1, List.countP_append, List.countP_append, List.countP_append, quiet_filter (hooks_quiet (fun _ _ => rfl) _ _ _),
          quiet_filter (ckpt_quiet (fun _ => rfl) _ _), hb.steps, show [Ev.act l.obs l.r a, (.step a out : Ev O A K S)].countP Ev.isStep = 1 from rfl]
        omega
      · rw [h1, List.countP_append, List.countP_append, List.countP_append, quiet_filter (hooks_quiet (fun _ _ => rfl) _ _ _),
          quiet_filter (ckpt_quiet (fun _ => rfl) _ _), hb.acts, show [Ev.act l.obs l.r a, (.step a out : Ev O A K S)].countP Ev.isAct = 1 from rfl]
        omega
      · obtain ⟨pre1, o', r', d, E, f1, f2⟩ := hb.stop
        exact ⟨_, o', r', d, E, by rw [h1, f1, ← List.append_assoc], f2⟩
      · intro e he tt hne
        rw [h1] at he
        rcases List.mem_append.1 he with he | he
        · rcases List.mem_append.1 he with he | he
          · rcases List.mem_append.1 he with he | he
            · simp only [List.mem_cons, List.not_mem_nil, or_false] at he
              rcases he with rfl | rfl <;> cases hne
            · have := hooks_quiet (p := fun e => match e with | .setT _ => true | _ => false) (fun _ _ => rfl) _ _ _ e he
              subst hne; cases this
          · have := ckpt_quiet (p := fun e => match e with | .setT _ => true | _ => false) (fun _ => rfl) _ _ e he
            subst hne; cases this
        · exact hb.noSet e he tt hne
      · rw [show t + (k + 1) = t + 1 + k by omega, show i + (k + 1) = i + 1 + k by omega]; exact g2
      · rw [show t + (k + 1) = t + 1 + k by omega, show i + (k + 1) = i + 1 + k by omega]; exact g3
    | again a out E o' hh hE hne =>
      rw [hloop] at h ⊢
      simp only at h ⊢
      have hE' := fun {p : Ev O A K S → Bool} (hp : ∀ t k m, p (.evaluate t k m) = false) => eval_quiet hp hE
      have hX : ∀ e ∈ ([Ev.act l.obs l.r a, .step a out] ++ hooksFrom (t + 1) 0 c.numHooks) ++ ([Ev.stop out.obs out.r out.done] ++ E), e.isReset = false :=
        happ (hq a out _ (hhk _ _ _)) (happ (hst out) (hE' (fun _ _ _ => rfl)))
      have h' : (([Ev.act l.obs l.r a, .step a out] ++ hooksFrom (t + 1) 0 c.numHooks) ++ ([.stop out.obs out.r out.done] ++ E)) ++
          (.reset o' :: (ckpt c (t + 1) ++ (loop c w fuel (i + 1) ⟨o', 0, l.episodeIdx + 1, 0⟩ (t + 1)).1)) = pre ++ .reset o :: post := by
        rw [← h]; simp [List.append_assoc]
      have hcnt : ∀ p : Ev O A K S → Bool, (∀ i t, p (.hook i t) = false) → (∀ t k m, p (.evaluate t k m) = false) → (∀ o r d, p (.stop o r d) = false) →
          (([Ev.act l.obs l.r a, .step a out] ++ hooksFrom (t + 1) 0 c.numHooks) ++ ([Ev.stop out.obs out.r out.done] ++ E)).countP p =
            [Ev.act l.obs l.r a, .step a out].countP p := by
        intro p q1 q2 q3
        rw [List.countP_append, List.countP_append, List.countP_append, quiet_filter (hooks_quiet q1 _ _ _), quiet_filter (hE' q2)]
        simp [q3]
      have hset : ∀ e ∈ ([Ev.act l.obs l.r a, .step a out] ++ hooksFrom (t + 1) 0 c.numHooks) ++ ([Ev.stop out.obs out.r out.done] ++ E), ∀ tt, e ≠ .setT tt := by
        intro e he tt hne'
        subst hne'
        rcases List.mem_append.1 he with he | he
        · rcases List.mem_append.1 he with he | he
          · simp at he
          · have := hooks_quiet (p := fun e => match e with | .setT _ => true | _ => false) (fun _ _ => rfl) _ _ _ _ he
            cases this
        · rcases List.mem_append.1 he with he | he
          · simp at he
          · have := hE' (p := fun e => match e with | .setT _ => true | _ => false) (fun _ _ _ => rfl) _ he
            cases this
      obtain ⟨pre', h1, h2⟩ := split_after Ev.isReset hX rfl h'
      cases pre' with
      | nil =>
        simp only [List.nil_append, List.cons.injEq, Ev.reset.injEq] at h2
        obtain ⟨rfl, h2⟩ := h2
        rw [List.append_nil] at h1
        have hlt : t + 1 < c.steps := by
          have : t + 1 ≠ c.steps := hne
          omega
        refine ⟨1, l.episodeIdx + 1, ⟨by omega, ?_, ?_, ?_, ?_⟩, hlt, ?_, ?_⟩
        · rw [h1, hcnt Ev.isStep (fun _ _ => rfl) (fun _ _ _ => rfl) (fun _ _ _ => rfl)]; rfl
        · rw [h1, hcnt Ev.isAct (fun _ _ => rfl) (fun _ _ _ => rfl) (fun _ _ _ => rfl)]; rfl
        · exact ⟨_, _, _, _, E, h1, hE' (fun _ _ _ => rfl)⟩
        · rw [h1]; exact hset
        · rw [← h2]; congr 3; omega
        · rw [show c.steps - (t + 1) = fuel by omega]
      | cons x xs =>
        simp only [List.cons_append, List.cons.injEq] at h2
        obtain ⟨rfl, h2⟩ := h2
        obtain ⟨pre2, h3, h4⟩ := split_after Ev.isReset (hck _) rfl h2
        obtain ⟨k, idx, hb, g1, g2, g3⟩ := ih (i + 1) _ (t + 1) (by omega) pre2 o post h4 hact
        rw [h3] at h1
        refine ⟨k + 1, idx, ⟨by omega, ?_, ?_, ?_, ?_⟩, by omega, ?_, ?_⟩
        · rw [h1, List.countP_append, hcnt Ev.isStep (fun _ _ => rfl) (fun _ _ _ => rfl) (fun _ _ _ => rfl),
            show [Ev.act l.obs l.r a, (.step a out : Ev O A K S)].countP Ev.isStep = 1 from rfl, List.countP_cons, List.countP_append,
            quiet_filter (ckpt_quiet (fun _ => rfl) _ _), hb.steps, show (Ev.reset o' : Ev O A K S).isStep = false from rfl]
          simp only [Bool.false_eq_true, if_false]; omega
        · rw [h1, List.countP_append, hcnt Ev.isAct (fun _ _ => rfl) (fun _ _ _ => rfl) (fun _ _ _ => rfl),
            show [Ev.act l.obs l.r a, (.step a out : Ev O A K S)].countP Ev.isAct = 1 from rfl, List.countP_cons, List.countP_append,
            quiet_filter (ckpt_quiet (fun _ => rfl) _ _), hb.acts, show (Ev.reset o' : Ev O A K S).isAct = false from rfl]
          simp only [Bool.false_eq_true, if_false]; omega
        · obtain ⟨pre1, o2, r', d, E', f1, f2⟩ := hb.stop
          refine ⟨(([Ev.act l.obs l.r a, .step a out] ++ hooksFrom (t + 1) 0 c.numHooks) ++ ([Ev.stop out.obs out.r out.done] ++ E)) ++ (.reset o' :: (ckpt c (t + 1) ++ pre1)), o2, r', d, E', ?_, f2⟩
          rw [h1, f1]; simp [List.append_assoc]
        · intro e he tt hne'
          rw [h1] at he
          rcases List.mem_append.1 he with he | he
          · exact hset e he tt hne'
          · rcases List.mem_cons.1 he with rfl | he
            · cases hne'
            · rcases List.mem_append.1 he with he | he
              · have := ckpt_quiet (p := fun e => match e with | .setT _ => true | _ => false) (fun _ => rfl) _ _ e he
                subst hne'; cases this
              · exact hb.noSet e he tt hne'
        · rw [show t + (k + 1) = t + 1 + k by omega, show i + (k + 1) = i + 1 + k by omega]; exact g2
        · rw [show t + (k + 1) = t + 1 + k by omega, show i + (k + 1) = i + 1 + k by omega]; exact g3

end Verif.Train
