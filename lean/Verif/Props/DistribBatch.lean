import Verif.Spec.DistribBatch
set_option autoImplicit false
set_option linter.unusedSectionVars false

/-! # Properties of batches of distributions (C150) -/

namespace Verif.DistribBatch

open Verif.Distrib

variable {n : Nat} (brent : Brent)

theorem read_congr {h h' : Heap n} {a : Arr} (e : h'[a.buf]? = h[a.buf]?) : read h' a = read h a := by
  simp only [read, e]

theorem read_length (h : Heap n) (a : Arr) : (read h a).length = a.rows.length := by simp [read]

theorem read_view (h : Heap n) (a : Arr) (i j : Nat) : read h (view a i j) = ((read h a).drop i).take (j - i) := by
  simp [read, view, List.map_take, List.map_drop]

theorem read_copy (h h' : Heap n) (a : Arr) (e : h'[h.length]? = some (read h a)) :
    read h' (copyArr h a).2 = read h a := by
  apply List.ext_getElem
  · simp [read, copyArr]
  · intro i h1 h2
    have e1 : (read h' (copyArr h a).2)[i] = ((read h a)[i]?).getD fun _ => 0 := by
      simp only [read.eq_1 h', copyArr, e, List.getElem_map, List.getElem_range, Option.getD_some]
    rw [e1, List.getElem?_eq_getElem h2, Option.getD_some]

/-- Zipping commutes with slicing. -/
theorem zipWith_slice {α β γ : Type} (f : α → β → γ) (x : List α) (y : List β) (i j : Nat) :
    List.zipWith f ((x.drop i).take (j - i)) ((y.drop i).take (j - i)) = ((List.zipWith f x y).drop i).take (j - i) := by
  rw [← List.take_zipWith, ← List.drop_zipWith]

theorem softLog_eq (x : Fin n → ℝ) (beta minProb : ℝ) (hm : 0 < minProb) :
    softmaxLogProb x beta minProb = fun i => Real.log (softmaxProb x beta minProb i) := by
  funext i; simp [softmaxLogProb, hm]

/-- C150, categorical classes, queries: on an object that is up to date, probabilities, log probabilities and entropies are, row by row, those of the distributions
that its arrays describe, and the object afterwards is up to date and stands for the same distributions. -/
theorem prob_ok (h : Heap n) (d : Dist n) (ds : List (Categorical n)) (hd : cats brent h d = some ds) (hu : UpToDate brent h d) :
    ∃ d', allProb brent h d = .ok (ds.map Categorical.allProb, d') ∧ cats brent h d' = some ds ∧ UpToDate brent h d' := by
  match d with
  | .soft a beta mp none l =>
    simp only [cats] at hd
    split at hd <;> rename_i hm
    · have e : (read h a).map (fun x => softmaxProb x beta mp) = ds.map Categorical.allProb := by
        rw [← Option.some.inj hd, List.map_map]; rfl
      refine ⟨_, by simp only [allProb]; rw [e], by simp only [cats, if_pos hm]; exact hd, ?_⟩
      intro ds' h'
      have : ds' = ds := by
        simp only [cats, if_pos hm] at h'
        rw [hd] at h'; exact (Option.some.inj h').symm
      subst this
      exact ⟨fun x hx => (Option.some.inj hx).symm, (hu ds' (by simp only [cats, if_pos hm]; exact hd)).2⟩
    · simp at hd
  | .mellow a om none l =>
    simp only [cats] at hd
    have e : (read h a).map (fun x => (mellowmaxDist brent x om).allProb) = ds.map Categorical.allProb := by
      rw [← Option.some.inj hd, List.map_map]; rfl
    refine ⟨_, by simp only [allProb]; rw [e], by simp only [cats]; exact hd, ?_⟩
    intro ds' h'
    have : ds' = ds := by
      simp only [cats] at h'
      rw [hd] at h'; exact (Option.some.inj h').symm
    subst this
    exact ⟨fun x hx => (Option.some.inj hx).symm, (hu ds' (by simp only [cats]; exact hd)).2⟩
  | .soft a beta mp (some p) l =>
    exact ⟨_, by simp only [allProb]; rw [(hu ds hd).1 p rfl], hd, hu⟩
  | .mellow a om (some p) l =>
    exact ⟨_, by simp only [allProb]; rw [(hu ds hd).1 p rfl], hd, hu⟩
  | .gauss _ _ _ => simp [cats] at hd
  | .squashed _ _ _ => simp [cats] at hd
  | .determ _ => simp [cats] at hd

theorem logProb_ok (h : Heap n) (d : Dist n) (ds : List (Categorical n)) (hd : cats brent h d = some ds) (hu : UpToDate brent h d) :
    ∃ d', allLogProb brent h d = .ok (ds.map Categorical.allLogProb, d') ∧ cats brent h d' = some ds ∧ UpToDate brent h d' := by
  match d with
  | .soft a beta mp p none =>
    have hd0 := hd
    simp only [cats] at hd
    split at hd <;> rename_i hm
    · by_cases hpos : 0 < mp
      · obtain ⟨d1, h1, -, -⟩ := prob_ok brent h _ ds hd0 hu
        have e : (ds.map Categorical.allProb).map (fun x i => Real.log (x i)) = ds.map Categorical.allLogProb := by
          rw [← Option.some.inj hd, List.map_map, List.map_map, List.map_map]
          refine List.map_congr_left fun x _ => ?_
          simp only [Function.comp]
          exact (softLog_eq x beta mp hpos).symm
        refine ⟨_, by simp only [allLogProb, if_pos hpos, h1, bind, Except.bind, pure, Except.pure]; rw [e], by simp only [cats, if_pos hm]; exact hd, ?_⟩
        intro ds' h'
        have : ds' = ds := by
          simp only [cats, if_pos hm] at h'
          rw [hd] at h'; exact (Option.some.inj h').symm
        subst this
        exact ⟨fun x hx => (Option.some.inj hx).symm, fun x hx => (Option.some.inj hx).symm⟩
      · have e : (read h a).map (fun x => logSoftmax fun j => beta * x j) = ds.map Categorical.allLogProb := by
          rw [← Option.some.inj hd, List.map_map]
          refine List.map_congr_left fun x _ => ?_
          funext i
          simp [softmaxLogProb, hpos]
        refine ⟨_, by simp only [allLogProb, if_neg hpos, pure, Except.pure]; rw [e], by simp only [cats, if_pos hm]; exact hd, ?_⟩
        intro ds' h'
        have : ds' = ds := by
          simp only [cats, if_pos hm] at h'
          rw [hd] at h'; exact (Option.some.inj h').symm
        subst this
        exact ⟨(hu ds' hd0).1, fun x hx => (Option.some.inj hx).symm⟩
    · simp at hd
  | .mellow a om p none =>
    have hd0 := hd
    simp only [cats] at hd
    obtain ⟨d1, h1, -, -⟩ := prob_ok brent h _ ds hd0 hu
    have e : (ds.map Categorical.allProb).map (fun x i => Real.log (x i)) = ds.map Categorical.allLogProb := by
      rw [← Option.some.inj hd, List.map_map, List.map_map, List.map_map]
      rfl
    refine ⟨_, by simp only [allLogProb, h1, bind, Except.bind, pure, Except.pure]; rw [e], by simp only [cats]; exact hd, ?_⟩
    intro ds' h'
    have : ds' = ds := by
      simp only [cats] at h'
      rw [hd] at h'; exact (Option.some.inj h').symm
    subst this
    exact ⟨fun x hx => (Option.some.inj hx).symm, fun x hx => (Option.some.inj hx).symm⟩
  | .soft a beta mp p (some l) =>
    exact ⟨_, by simp only [allLogProb]; rw [(hu ds hd).2 l rfl], hd, hu⟩
  | .mellow a om p (some l) =>
    exact ⟨_, by simp only [allLogProb]; rw [(hu ds hd).2 l rfl], hd, hu⟩
  | .gauss _ _ _ => simp [cats] at hd
  | .squashed _ _ _ => simp [cats] at hd
  | .determ _ => simp [cats] at hd

/-- C150, construction: a new object is up to date and stands for the distributions of its arrays. -/
theorem C150_new (h : Heap n) (a b : Arr) (beta minProb omega : ℝ) (hm : minProb * n ≤ 1) (hab : a.rows.length = b.rows.length) :
    (∃ d, newSoft h a beta minProb = .ok d ∧ UpToDate brent h d ∧
      cats brent h d = some ((read h a).map fun x => ⟨softmaxProb x beta minProb, softmaxLogProb x beta minProb⟩)) ∧
    (∃ d, newMellow h a omega = .ok d ∧ UpToDate brent h d ∧ cats brent h d = some ((read h a).map fun x => mellowmaxDist brent x omega)) ∧
    (∃ d, newGauss h a b = .ok d ∧ UpToDate brent h d ∧ gaussians h d = some (false, List.zipWith (fun m v => ⟨m, v⟩) (read h a) (read h b))) ∧
    (∃ d, newSquashed h a b = .ok d ∧ UpToDate brent h d ∧ gaussians h d = some (true, List.zipWith (fun m v => ⟨m, v⟩) (read h a) (read h b))) ∧
    (∃ d, newDeterm h a = .ok d ∧ UpToDate brent h d ∧ points h d = some (read h a)) := by
  refine ⟨⟨_, by simp only [newSoft, if_pos hm]; rfl, ?_, by simp only [cats, if_pos hm]⟩, ⟨_, rfl, ?_, rfl⟩,
    ⟨_, rfl, rfl, by simp only [gaussians, if_pos hab]⟩, ⟨_, rfl, rfl, by simp only [gaussians, if_pos hab]⟩, ⟨_, rfl, trivial, rfl⟩⟩
  · intro ds _; exact ⟨fun x hx => by simp at hx, fun x hx => by simp at hx⟩
  · intro ds _; exact ⟨fun x hx => by simp at hx, fun x hx => by simp at hx⟩

/-- C150, queries of the categorical classes: row `k` of an answer is the answer of the single distribution of row `k`, whatever was asked before. -/
theorem C150_categorical (h : Heap n) (d : Dist n) (ds : List (Categorical n)) (hd : cats brent h d = some ds) (hu : UpToDate brent h d) (x : List (Fin n)) :
    (∃ d', prob brent h d (.labels x) = .ok (List.zipWith (fun x c => c.allProb x) x ds, d') ∧ cats brent h d' = some ds ∧ UpToDate brent h d') ∧
    (∃ d', logProb brent h d (.labels x) = .ok (List.zipWith (fun x c => c.allLogProb x) x ds, d') ∧ cats brent h d' = some ds ∧ UpToDate brent h d') ∧
    (∃ d', entropy brent h d = .ok (ds.map Categorical.entropy, d') ∧ cats brent h d' = some ds ∧ UpToDate brent h d') := by
  obtain ⟨d1, e1, c1, u1⟩ := prob_ok brent h d ds hd hu
  obtain ⟨d2, e2, c2, u2⟩ := logProb_ok brent h d ds hd hu
  obtain ⟨d3, e3, c3, u3⟩ := logProb_ok brent h d1 ds c1 u1
  refine ⟨⟨d1, ?_, c1, u1⟩, ⟨d2, ?_, c2, u2⟩, ⟨d3, ?_, c3, u3⟩⟩
  · cases d <;> first
      | (simp only [prob, e1, bind, Except.bind, pure, Except.pure, List.zipWith_map_right]; done)
      | simp [cats] at hd
  · cases d <;> first
      | (simp only [logProb, e2, bind, Except.bind, pure, Except.pure, List.zipWith_map_right]; done)
      | simp [cats] at hd
  · have e : List.zipWith (fun p l => -∑ i : Fin n, p i * l i) (ds.map Categorical.allProb) (ds.map Categorical.allLogProb) = ds.map Categorical.entropy := by
      rw [List.zipWith_map, List.zipWith_self]; rfl
    cases d <;> first
      | (simp only [entropy, e1, e3, bind, Except.bind, pure, Except.pure]; rw [e]; done)
      | simp [cats] at hd

/-- C150, divergences of the categorical classes, row by row. -/
theorem C150_categorical_kl (h : Heap n) (p q : Dist n) (ps qs : List (Categorical n)) (hp : cats brent h p = some ps) (hq : cats brent h q = some qs)
    (hup : UpToDate brent h p) (huq : UpToDate brent h q) :
    ∃ p' q', kl brent h p q = .ok (List.zipWith Categorical.kl ps qs, p', q') ∧
      cats brent h p' = some ps ∧ UpToDate brent h p' ∧ cats brent h q' = some qs ∧ UpToDate brent h q' := by
  obtain ⟨d1, e1, c1, u1⟩ := prob_ok brent h p ps hp hup
  obtain ⟨d2, e2, c2, u2⟩ := logProb_ok brent h d1 ps c1 u1
  obtain ⟨d3, e3, c3, u3⟩ := logProb_ok brent h q qs hq huq
  refine ⟨d2, d3, ?_, c2, u2, c3, u3⟩
  have e : List.zipWith (fun (x : Row n × Row n) (y : Row n) => ∑ i, x.1 i * (x.2 i - y i))
      ((ps.map Categorical.allProb).zip (ps.map Categorical.allLogProb)) (qs.map Categorical.allLogProb) = List.zipWith Categorical.kl ps qs := by
    rw [List.zip_map', List.zipWith_map]; rfl
  cases p <;> first
    | (simp [cats] at hp; done)
    | (cases q <;> first
        | (simp [cats] at hq; done)
        | (simp only [kl, e1, e2, e3, bind, Except.bind, pure, Except.pure]; rw [e]; done))

theorem zip3_eq (m v : List (Row n)) :
    m.zip (v.zip (v.map fun (r : Row n) i => Real.log (r i))) =
      (List.zipWith (fun m v => (⟨m, v⟩ : Gaussian n)) m v).map fun g => (g.mean, g.var, fun i => g.lnVar i) := by
  induction m generalizing v with
  | nil => rfl
  | cons a m ih =>
    cases v with
    | nil => rfl
    | cons b v =>
      simp only [List.map_cons, List.zip_cons_cons, List.zipWith_cons_cons]
      rw [← ih v]; rfl

/-- C150, queries of the Gaussian class, row by row; the object is not changed by them. -/
theorem C150_gaussian (h : Heap n) (d : Dist n) (gs : List (Gaussian n)) (hd : gaussians h d = some (false, gs)) (hu : UpToDate brent h d) (x : List (Row n)) :
    prob brent h d (.vectors x) = .ok (List.zipWith (fun x g => g.prob x) x gs, d) ∧
    logProb brent h d (.vectors x) = .ok (List.zipWith (fun x g => g.logProb x) x gs, d) ∧
    entropy brent h d = .ok (gs.map Gaussian.entropy, d) ∧ mode h d = .ok (gs.map Gaussian.mean) ∧
    ∀ q qs, gaussians h q = some (false, qs) → UpToDate brent h q → kl brent h d q = .ok (List.zipWith Gaussian.kl gs qs, d, q) := by
  match d with
  | .gauss m v ln =>
    simp only [gaussians] at hd
    split at hd <;> rename_i hl
    swap
    · simp at hd
    obtain rfl : List.zipWith (fun m v => (⟨m, v⟩ : Gaussian n)) (read h m) (read h v) = gs := by simpa using hd
    have hln : ln = (read h v).map fun (r : Row n) i => Real.log (r i) := hu
    subst hln
    have hlen : (read h m).length = (read h v).length := by rw [read_length, read_length, hl]
    have hlog : logProb brent h (.gauss m v ((read h v).map fun (r : Row n) i => Real.log (r i))) (.vectors x) =
        .ok (List.zipWith (fun x g => g.logProb x) x (List.zipWith (fun m v => (⟨m, v⟩ : Gaussian n)) (read h m) (read h v)),
          .gauss m v ((read h v).map fun (r : Row n) i => Real.log (r i))) := by
      simp only [logProb, zip3_eq, List.zipWith_map_right]; rfl
    refine ⟨?_, hlog, ?_, ?_, ?_⟩
    · simp only [prob, hlog, bind, Except.bind, pure, Except.pure, List.map_zipWith]; rfl
    · simp only [entropy]
      congr 2
      rw [List.map_map, List.map_zipWith]
      generalize read h m = l1 at hlen
      generalize read h v = l2 at hlen
      induction l1 generalizing l2 with
      | nil => cases l2 <;> simp_all
      | cons a l1 ih =>
        cases l2 with
        | nil => simp at hlen
        | cons b l2 => simp only [List.map_cons, List.zipWith_cons_cons]; rw [ih l2 (by simpa using hlen)]; rfl
    · simp only [mode]
      congr 1
      rw [List.map_zipWith]
      generalize read h m = l1 at hlen
      generalize read h v = l2 at hlen
      induction l1 generalizing l2 with
      | nil => cases l2 <;> simp_all
      | cons a l1 ih =>
        cases l2 with
        | nil => simp at hlen
        | cons b l2 => simp only [List.zipWith_cons_cons]; rw [← ih l2 (by simpa using hlen)]
    · intro q qs hq huq
      match q with
      | .gauss m' v' ln' =>
        simp only [gaussians] at hq
        split at hq
        swap
        · simp at hq
        obtain rfl : List.zipWith (fun m v => (⟨m, v⟩ : Gaussian n)) (read h m') (read h v') = qs := by simpa using hq
        have hln : ln' = (read h v').map fun (r : Row n) i => Real.log (r i) := huq
        subst hln
        simp only [kl, zip3_eq, List.zipWith_map]; rfl
      | .squashed _ _ _ => simp only [gaussians] at hq; split at hq <;> simp at hq
      | .soft _ _ _ _ _ => simp [gaussians] at hq
      | .mellow _ _ _ _ => simp [gaussians] at hq
      | .determ _ => simp [gaussians] at hq
  | .squashed _ _ _ => simp only [gaussians] at hd; split at hd <;> simp at hd
  | .soft _ _ _ _ _ => simp [gaussians] at hd
  | .mellow _ _ _ _ => simp [gaussians] at hd
  | .determ _ => simp [gaussians] at hd

/-- C150, queries of the squashed Gaussian class, row by row; it has no entropy and no divergence. -/
theorem C150_squashed (h : Heap n) (d : Dist n) (gs : List (Gaussian n)) (hd : gaussians h d = some (true, gs)) (hu : UpToDate brent h d) (x : List (Row n)) :
    prob brent h d (.vectors x) = .ok (List.zipWith (fun x g => Real.exp (squashedLogProb g x)) x gs, d) ∧
    logProb brent h d (.vectors x) = .ok (List.zipWith (fun x g => squashedLogProb g x) x gs, d) ∧
    mode h d = .ok (gs.map fun g i => Real.tanh (g.mean i)) ∧ entropy brent h d = .error .runtimeError ∧ ∀ q, kl brent h d q = .error .runtimeError := by
  match d with
  | .squashed m v ln =>
    simp only [gaussians] at hd
    split at hd <;> rename_i hl
    swap
    · simp at hd
    obtain rfl : List.zipWith (fun m v => (⟨m, v⟩ : Gaussian n)) (read h m) (read h v) = gs := by simpa using hd
    have hln : ln = (read h v).map fun (r : Row n) i => Real.log (r i) := hu
    subst hln
    have hlen : (read h m).length = (read h v).length := by rw [read_length, read_length, hl]
    have hlog : logProb brent h (.squashed m v ((read h v).map fun (r : Row n) i => Real.log (r i))) (.vectors x) =
        .ok (List.zipWith (fun x g => squashedLogProb g x) x (List.zipWith (fun m v => (⟨m, v⟩ : Gaussian n)) (read h m) (read h v)),
          .squashed m v ((read h v).map fun (r : Row n) i => Real.log (r i))) := by
      simp only [logProb, zip3_eq, List.zipWith_map_right]; rfl
    refine ⟨?_, hlog, ?_, rfl, fun q => by cases q <;> rfl⟩
    · simp only [prob, hlog, bind, Except.bind, pure, Except.pure, List.map_zipWith]
    · simp only [mode]
      congr 1
      rw [List.map_zipWith]
      generalize read h m = l1 at hlen
      generalize read h v = l2 at hlen
      induction l1 generalizing l2 with
      | nil => cases l2 <;> simp_all
      | cons a l1 ih =>
        cases l2 with
        | nil => simp at hlen
        | cons b l2 => simp only [List.map_cons, List.zipWith_cons_cons]; rw [← ih l2 (by simpa using hlen)]
  | .gauss _ _ _ => simp only [gaussians] at hd; split at hd <;> simp at hd
  | .soft _ _ _ _ _ => simp [gaussians] at hd
  | .mellow _ _ _ _ => simp [gaussians] at hd
  | .determ _ => simp [gaussians] at hd

/-- C150, the deterministic class: its mode is its point; nothing else is defined, nor can it be sliced. -/
theorem C150_deterministic (h : Heap n) (d : Dist n) (xs : List (Row n)) (hd : points h d = some xs) :
    mode h d = .ok xs ∧ entropy brent h d = .error .runtimeError ∧ (∀ x, prob brent h d x = .error .runtimeError) ∧
    (∀ x, logProb brent h d x = .error .runtimeError) ∧ (∀ q, kl brent h d q = .error .runtimeError) ∧ ∀ i j, slice h d i j = .error .typeError := by
  match d with
  | .determ x =>
    refine ⟨by simpa [mode, points] using hd, rfl, fun x => ?_, fun x => by cases x <;> rfl, fun q => by cases q <;> rfl, fun _ _ => rfl⟩
    cases x <;> rfl
  | .squashed _ _ _ => simp [points] at hd
  | .gauss _ _ _ => simp [points] at hd
  | .soft _ _ _ _ _ => simp [points] at hd
  | .mellow _ _ _ _ => simp [points] at hd

/-- C150, slicing: `d[i:j]` is up to date and stands for the distributions of the rows `i`, ..., `j - 1` of the arrays of `d`, with the same parameters `beta`,
`min_prob` and `omega`, whatever was asked of `d` before. -/
theorem C150_slice (h : Heap n) (d : Dist n) (i j : Nat) :
    (∀ ds, cats brent h d = some ds → ∃ s, slice h d i j = .ok s ∧ UpToDate brent h s ∧ cats brent h s = some ((ds.drop i).take (j - i)) ∧ buffers s = buffers d) ∧
    (∀ sq gs, gaussians h d = some (sq, gs) →
      ∃ s, slice h d i j = .ok s ∧ UpToDate brent h s ∧ gaussians h s = some (sq, (gs.drop i).take (j - i)) ∧ buffers s = buffers d) := by
  constructor
  · intro ds hd
    match d with
    | .soft a beta mp p l =>
      simp only [cats] at hd
      split at hd <;> rename_i hm
      swap
      · simp at hd
      refine ⟨.soft (view a i j) beta mp none none, by simp only [slice, newSoft, if_pos hm], fun ds _ => ⟨fun x hx => by simp at hx, fun x hx => by simp at hx⟩, ?_, rfl⟩
      simp only [cats, if_pos hm, read_view, ← Option.some.inj hd, List.map_take, List.map_drop]
    | .mellow a om p l =>
      simp only [cats] at hd
      refine ⟨_, rfl, fun ds _ => ⟨fun x hx => by simp at hx, fun x hx => by simp at hx⟩, ?_, rfl⟩
      simp only [cats, read_view, ← Option.some.inj hd, List.map_take, List.map_drop]
    | .gauss _ _ _ => simp [cats] at hd
    | .squashed _ _ _ => simp [cats] at hd
    | .determ _ => simp [cats] at hd
  · intro sq gs hd
    match d with
    | .gauss m v ln =>
      simp only [gaussians] at hd
      split at hd <;> rename_i hl
      swap
      · simp at hd
      simp only [Option.some.injEq, Prod.mk.injEq] at hd
      obtain ⟨rfl, rfl⟩ := hd
      refine ⟨_, rfl, rfl, ?_, rfl⟩
      have hl' : (view m i j).rows.length = (view v i j).rows.length := by simp [view, hl]
      simp only [gaussians, if_pos hl', read_view, zipWith_slice]
    | .squashed m v ln =>
      simp only [gaussians] at hd
      split at hd <;> rename_i hl
      swap
      · simp at hd
      simp only [Option.some.injEq, Prod.mk.injEq] at hd
      obtain ⟨rfl, rfl⟩ := hd
      refine ⟨_, rfl, rfl, ?_, rfl⟩
      have hl' : (view m i j).rows.length = (view v i j).rows.length := by simp [view, hl]
      simp only [gaussians, if_pos hl', read_view, zipWith_slice]
    | .soft _ _ _ _ _ => simp [gaussians] at hd
    | .mellow _ _ _ _ => simp [gaussians] at hd
    | .determ _ => simp [gaussians] at hd

/-- C150, copying: `copy` does not change the memory of the original, and the copy stands for the distributions that the arrays of the original describe at that
moment; it goes on to do so, and to be up to date, whatever is later written into any memory that existed before the copy was made (in particular into the arrays of
the original). -/
theorem C150_copy (h : Heap n) (d : Dist n) (hb : ∀ b ∈ buffers d, b < h.length)
    (hk : (cats brent h d).isSome ∨ (gaussians h d).isSome ∨ (points h d).isSome) :
    ∃ h' c, copy h d = .ok (h', c) ∧ h <+: h' ∧
      ∀ h'' : Heap n, (∀ b, h.length ≤ b → b < h'.length → h''[b]? = h'[b]?) →
        UpToDate brent h'' c ∧ cats brent h'' c = cats brent h d ∧ gaussians h'' c = gaussians h d ∧ points h'' c = points h d := by
  have one : ∀ (a : Arr) (h'' : Heap n), (∀ b, h.length ≤ b → b < (copyArr h a).1.length → h''[b]? = (copyArr h a).1[b]?) →
      read h'' (copyArr h a).2 = read h a := by
    intro a h'' hh
    apply read_copy
    rw [hh h.length (le_refl _) (by simp [copyArr])]
    simp [copyArr]
  have two : ∀ (m v : Arr), v.buf < h.length → ∀ (h'' : Heap n),
      (∀ b, h.length ≤ b → b < (copyArr (copyArr h m).1 v).1.length → h''[b]? = (copyArr (copyArr h m).1 v).1[b]?) →
      read h'' (copyArr h m).2 = read h m ∧ read h'' (copyArr (copyArr h m).1 v).2 = read h v := by
    intro m v hv h'' hh
    have ev : read (copyArr h m).1 v = read h v := by
      apply read_congr
      simp only [copyArr]
      rw [List.getElem?_append_left hv]
    constructor
    · apply read_copy
      rw [hh h.length (le_refl _) (by simp [copyArr])]
      simp [copyArr]
    · rw [read_copy (copyArr h m).1 h'' v, ev]
      rw [hh (copyArr h m).1.length (by simp [copyArr]) (by simp [copyArr])]
      simp [copyArr]
  match d with
  | .soft a beta mp p l =>
    have hm : mp * n ≤ 1 := by
      by_contra hm
      simp [cats, gaussians, points, hm] at hk
    refine ⟨_, _, by simp only [copy, newSoft, if_pos hm, bind, Except.bind, pure, Except.pure]; rfl, ⟨_, rfl⟩, fun h'' hh => ?_⟩
    refine ⟨fun ds _ => ⟨fun x hx => by simp at hx, fun x hx => by simp at hx⟩, ?_, rfl, rfl⟩
    have := one a h'' hh
    simp only [cats, if_pos hm]; rw [this]
  | .mellow a om p l =>
    refine ⟨_, _, by simp only [copy, newMellow, bind, Except.bind, pure, Except.pure]; rfl, ⟨_, rfl⟩, fun h'' hh => ?_⟩
    refine ⟨fun ds _ => ⟨fun x hx => by simp at hx, fun x hx => by simp at hx⟩, ?_, rfl, rfl⟩
    have := one a h'' hh
    simp only [cats]; rw [this]
  | .gauss m v ln =>
    refine ⟨_, _, by simp only [copy, newGauss, bind, Except.bind, pure, Except.pure]; rfl, ⟨[_, _], by simp only [copyArr, List.append_assoc]; rfl⟩, fun h'' hh => ?_⟩
    have hv : v.buf < h.length := hb _ (by simp [buffers])
    obtain ⟨e1, e2⟩ := two m v hv h'' hh
    obtain ⟨-, e3⟩ := two m v hv _ (fun b _ _ => rfl)
    refine ⟨?_, rfl, ?_, rfl⟩
    · simp only [UpToDate, lnRows]; rw [e2, e3]
    · simp only [gaussians]; rw [e1, e2]; simp [copyArr]
  | .squashed m v ln =>
    refine ⟨_, _, by simp only [copy, newSquashed, bind, Except.bind, pure, Except.pure]; rfl, ⟨[_, _], by simp only [copyArr, List.append_assoc]; rfl⟩, fun h'' hh => ?_⟩
    have hv : v.buf < h.length := hb _ (by simp [buffers])
    obtain ⟨e1, e2⟩ := two m v hv h'' hh
    obtain ⟨-, e3⟩ := two m v hv _ (fun b _ _ => rfl)
    refine ⟨?_, rfl, ?_, rfl⟩
    · simp only [UpToDate, lnRows]; rw [e2, e3]
    · simp only [gaussians]; rw [e1, e2]; simp [copyArr]
  | .determ x =>
    refine ⟨_, .determ (copyArr h x).2, by simp only [copy, newDeterm, bind, Except.bind, pure, Except.pure]; rfl, ⟨_, rfl⟩, fun h'' hh => ⟨trivial, rfl, rfl, ?_⟩⟩
    have := one x h'' hh
    simp only [points]; rw [this]

/-- Writing in place: the hypothesis of `C150_copy` on later memory holds after any sequence of writes into memory that existed before the copy. -/
theorem C150_writes (h h' : Heap n) (ws : List (Nat × Nat × Row n)) (hw : ∀ w ∈ ws, w.1 < h.length) (b : Nat) (hb : h.length ≤ b) :
    (ws.foldl (fun m w => write m w.1 w.2.1 w.2.2) h')[b]? = h'[b]? := by
  induction ws generalizing h' with
  | nil => rfl
  | cons w ws ih =>
    rw [List.foldl_cons, ih _ (fun x hx => hw x (List.mem_cons_of_mem _ hx))]
    have := hw w List.mem_cons_self
    simp only [write, List.getElem?_modify]
    have hne : ¬ w.1 = b := by omega
    simp [hne]

/-- C150, a write into row `r` of an existing buffer is what an array over this buffer shows in
its places that refer to row `r`; its other places show what they showed. -/
theorem C150_write_shown (h : Heap n) (a : Arr) (r : Nat) (v : Row n) (l : List (Row n))
    (hl : h[a.buf]? = some l) (hr : r < l.length) :
    read (write h a.buf r v) a
      = List.zipWith (fun k old => if k = r then v else old) a.rows (read h a) := by
  have hb : (write h a.buf r v)[a.buf]? = some (l.set r v) := by
    simp [write, List.getElem?_modify, hl]
  simp only [read, hb, hl, Option.getD_some]
  induction a.rows with
  | nil => rfl
  | cons k ks ih =>
    simp only [List.map_cons, List.zipWith_cons_cons, ih, List.cons.injEq, and_true]
    rw [List.getElem?_set]
    by_cases hk : r = k
    · subst hk; simp [hr]
    · have : ¬ k = r := fun e => hk e.symm
      simp [hk, this]

/-- C150, what sharing means: a slice, unlike a copy, follows what is later written into the memory of the original. -/
theorem C150_shared (h h'' : Heap n) (d s : Dist n) (i j : Nat) (hs : slice h d i j = .ok s) :
    cats brent h'' s = (cats brent h'' d).map (fun l => (l.drop i).take (j - i)) ∧
    (∀ sq gs, gaussians h'' d = some (sq, gs) → gaussians h'' s = some (sq, (gs.drop i).take (j - i))) := by
  match d with
  | .soft a beta mp p l =>
    simp only [slice, newSoft] at hs
    split at hs <;> rename_i hm
    · injection hs with hs; subst hs
      simp [cats, gaussians, hm, read_view, List.map_take, List.map_drop]
    · simp at hs
  | .mellow a om p l =>
    simp only [slice, newMellow] at hs
    injection hs with hs; subst hs
    simp [cats, gaussians, read_view, List.map_take, List.map_drop]
  | .gauss m v ln =>
    simp only [slice, newGauss] at hs
    injection hs with hs; subst hs
    refine ⟨rfl, fun sq gs hd => ?_⟩
    simp only [gaussians] at hd
    split at hd <;> rename_i hl
    swap
    · simp at hd
    simp only [Option.some.injEq, Prod.mk.injEq] at hd
    obtain ⟨rfl, rfl⟩ := hd
    have hl' : (view m i j).rows.length = (view v i j).rows.length := by simp [view, hl]
    simp only [gaussians, if_pos hl', read_view, zipWith_slice]
  | .squashed m v ln =>
    simp only [slice, newSquashed] at hs
    injection hs with hs; subst hs
    refine ⟨rfl, fun sq gs hd => ?_⟩
    simp only [gaussians] at hd
    split at hd <;> rename_i hl
    swap
    · simp at hd
    simp only [Option.some.injEq, Prod.mk.injEq] at hd
    obtain ⟨rfl, rfl⟩ := hd
    have hl' : (view m i j).rows.length = (view v i j).rows.length := by simp [view, hl]
    simp only [gaussians, if_pos hl', read_view, zipWith_slice]
  | .determ _ => simp [slice] at hs

theorem drop_take_one {α : Type} (l : List α) (k : Nat) (hk : k < l.length) : (l.drop k).take (k + 1 - k) = [l[k]] := by
  rw [Nat.add_sub_cancel_left, List.drop_eq_getElem_cons hk, List.take_succ_cons, List.take_zero]

/-- C150, a batch is treated as its rows one at a time: entry `k` of the answer for a batch is the answer of the slice `d[k:k+1]` for the point of row `k` alone. -/
theorem C150_one_at_a_time (h : Heap n) (d : Dist n) (hu : UpToDate brent h d) (k : Nat) :
    (∀ ds x, cats brent h d = some ds → ∀ (hk : k < ds.length) (hx : x.length = ds.length),
      ∃ s ans d' s' a, slice h d k (k + 1) = .ok s ∧ logProb brent h d (.labels x) = .ok (ans, d') ∧ ans[k]? = some a ∧
        logProb brent h s (.labels [x[k]]) = .ok ([a], s')) ∧
    (∀ sq gs x, gaussians h d = some (sq, gs) → ∀ (hk : k < gs.length) (hx : x.length = gs.length),
      ∃ s ans d' s' a, slice h d k (k + 1) = .ok s ∧ logProb brent h d (.vectors x) = .ok (ans, d') ∧ ans[k]? = some a ∧
        logProb brent h s (.vectors [x[k]]) = .ok ([a], s')) := by
  constructor
  · intro ds x hd hk hx
    obtain ⟨s, e1, u1, c1, -⟩ := (C150_slice brent h d k (k + 1)).1 ds hd
    rw [drop_take_one ds k hk] at c1
    obtain ⟨-, ⟨d', e2, -⟩, -⟩ := C150_categorical brent h d ds hd hu x
    obtain ⟨-, ⟨s', e3, -⟩, -⟩ := C150_categorical brent h s _ c1 u1 [x[k]]
    refine ⟨s, _, d', s', ds[k].allLogProb x[k], e1, e2, ?_, e3⟩
    rw [List.getElem?_zipWith, List.getElem?_eq_getElem hk, List.getElem?_eq_getElem (hx ▸ hk)]
  · intro sq gs x hd hk hx
    obtain ⟨s, e1, u1, c1, -⟩ := (C150_slice brent h d k (k + 1)).2 sq gs hd
    rw [drop_take_one gs k hk] at c1
    cases sq with
    | false =>
      have e2 := (C150_gaussian brent h d gs hd hu x).2.1
      have e3 := (C150_gaussian brent h s _ c1 u1 [x[k]]).2.1
      refine ⟨s, _, d, s, gs[k].logProb x[k], e1, e2, ?_, e3⟩
      rw [List.getElem?_zipWith, List.getElem?_eq_getElem hk, List.getElem?_eq_getElem (hx ▸ hk)]
    | true =>
      have e2 := (C150_squashed brent h d gs hd hu x).2.1
      have e3 := (C150_squashed brent h s _ c1 u1 [x[k]]).2.1
      refine ⟨s, _, d, s, squashedLogProb gs[k] x[k], e1, e2, ?_, e3⟩
      rw [List.getElem?_zipWith, List.getElem?_eq_getElem hk, List.getElem?_eq_getElem (hx ▸ hk)]

/-- C150, a distribution and its copy: no divergence in any row, also after the memory of the original has been written into. -/
theorem C150_kl_copy (h : Heap n) (d : Dist n) (hb : ∀ b ∈ buffers d, b < h.length) (hu : UpToDate brent h d) :
    (∀ ds, cats brent h d = some ds → ∃ h' c p q, copy h d = .ok (h', c) ∧ kl brent h' d c = .ok (List.replicate ds.length 0, p, q)) ∧
    (∀ gs, gaussians h d = some (false, gs) → (∀ g ∈ gs, ∀ i, g.var i ≠ 0) →
      ∃ h' c p q, copy h d = .ok (h', c) ∧ kl brent h' d c = .ok (List.replicate gs.length 0, p, q)) := by
  have keep : ∀ (h' : Heap n), h <+: h' → ∀ a : Arr, a.buf < h.length → read h' a = read h a := by
    rintro h' ⟨t, rfl⟩ a ha
    exact read_congr (List.getElem?_append_left ha)
  have hkeep : ∀ h' : Heap n, h <+: h' → cats brent h' d = cats brent h d ∧ gaussians h' d = gaussians h d ∧ UpToDate brent h' d := by
    intro h' hp
    match d with
    | .soft a beta mp p l =>
      have e := keep h' hp a (hb _ (by simp [buffers]))
      have e1 : cats brent h' (.soft a beta mp p l) = cats brent h (.soft a beta mp p l) := by simp only [cats, e]
      exact ⟨e1, rfl, fun ds hds => hu ds (e1 ▸ hds)⟩
    | .mellow a om p l =>
      have e := keep h' hp a (hb _ (by simp [buffers]))
      have e1 : cats brent h' (.mellow a om p l) = cats brent h (.mellow a om p l) := by simp only [cats, e]
      exact ⟨e1, rfl, fun ds hds => hu ds (e1 ▸ hds)⟩
    | .gauss m v ln =>
      have e := keep h' hp m (hb _ (by simp [buffers]))
      have e' := keep h' hp v (hb _ (by simp [buffers]))
      exact ⟨rfl, by simp only [gaussians, e, e'], by simp only [UpToDate, e']; exact hu⟩
    | .squashed m v ln =>
      have e := keep h' hp m (hb _ (by simp [buffers]))
      have e' := keep h' hp v (hb _ (by simp [buffers]))
      exact ⟨rfl, by simp only [gaussians, e, e'], by simp only [UpToDate, e']; exact hu⟩
    | .determ x => exact ⟨rfl, rfl, trivial⟩
  constructor
  · intro ds hd
    obtain ⟨h', c, hc, hp, hh⟩ := C150_copy brent h d hb (.inl (by simp [hd]))
    obtain ⟨uc, cc, -, -⟩ := hh h' (fun b _ _ => rfl)
    obtain ⟨k1, -, k3⟩ := hkeep h' hp
    obtain ⟨p, q, e, -⟩ := C150_categorical_kl brent h' d c ds ds (k1.trans hd) (cc.trans hd) k3 uc
    refine ⟨h', c, p, q, hc, ?_⟩
    rw [e, List.zipWith_self]
    congr 2
    rw [List.eq_replicate_iff]
    refine ⟨by simp, fun x hx => ?_⟩
    obtain ⟨y, -, rfl⟩ := List.mem_map.1 hx
    simp [Categorical.kl]
  · intro gs hd hv
    obtain ⟨h', c, hc, hp, hh⟩ := C150_copy brent h d hb (.inr (.inl (by simp [hd])))
    obtain ⟨uc, -, gc, -⟩ := hh h' (fun b _ _ => rfl)
    obtain ⟨-, k2, k3⟩ := hkeep h' hp
    have e := (C150_gaussian brent h' d gs (k2.trans hd) k3 []).2.2.2.2 c gs (gc.trans hd) uc
    refine ⟨h', c, d, c, hc, ?_⟩
    rw [e, List.zipWith_self]
    congr 2
    rw [List.eq_replicate_iff]
    refine ⟨by simp, fun x hx => ?_⟩
    obtain ⟨y, hy, rfl⟩ := List.mem_map.1 hx
    simp [Gaussian.kl, div_self (hv y hy _)]

/-- Why a copy is needed: a Gaussian whose variance is written into in place keeps the logarithm of the old variance, and is no longer up to date. -/
theorem C150_stale : ∃ (h : Heap 1) (d : Dist 1) (v : Row 1),
    newGauss h ⟨0, [0]⟩ ⟨1, [0]⟩ = .ok d ∧ UpToDate brent h d ∧ ¬ UpToDate brent (write h 1 0 v) d ∧
    ∃ h' c, copy h d = .ok (h', c) ∧ UpToDate brent (write h' 1 0 v) c := by
  let h : Heap 1 := [[fun _ => 0], [fun _ => 1]]
  let v : Row 1 := fun _ => Real.exp 1
  refine ⟨h, _, v, rfl, rfl, ?_, ?_⟩
  · intro e
    have e1 := congrFun (List.cons.inj e).1 0
    simp [h, v, write] at e1
  · obtain ⟨h', c, hc, -, hh⟩ := C150_copy brent h (.gauss ⟨0, [0]⟩ ⟨1, [0]⟩ (lnRows h ⟨1, [0]⟩)) (by simp [buffers, h])
      (.inr (.inl (by simp [gaussians])))
    refine ⟨h', c, hc, (hh _ fun b hb _ => ?_).1⟩
    exact C150_writes h h' [(1, 0, v)] (by simp [h]) b hb

/-- A concrete case: two rows of logits, `min_prob` 0.1, after a query; the second row alone. -/
example : ∃ d s, newSoft (n := 2) [[fun i => if i = 0 then 1 else 0, fun _ => 0]] ⟨0, [0, 1]⟩ 2 0.1 = .ok d ∧
    slice [[fun i => if i = 0 then 1 else 0, fun _ => 0]] d 1 2 = .ok s ∧
    cats brent [[fun i => if i = 0 then 1 else 0, fun _ => 0]] s = some [⟨softmaxProb (fun _ => 0) 2 0.1, softmaxLogProb (fun _ => 0) 2 0.1⟩] := by
  have hm : (0.1 : ℝ) * (2 : Nat) ≤ 1 := by norm_num
  refine ⟨.soft ⟨0, [0, 1]⟩ 2 0.1 none none, .soft ⟨0, [1]⟩ 2 0.1 none none, by simp only [newSoft, if_pos hm], ?_, ?_⟩
  · simp only [slice, newSoft, if_pos hm]; rfl
  · simp only [cats, if_pos hm]; rfl

/-! ### Concrete cases: a batch of two rows with two entries each -/

private noncomputable def twoRows : Heap 2 := [[fun i => if i = 0 then 1 else 0, fun _ => 0], [fun _ => 1, fun _ => 2]]

private noncomputable def twoSoft : Dist 2 := .soft ⟨0, [0, 1]⟩ 2 0.1 none none

private noncomputable def twoGauss : Dist 2 := .gauss ⟨0, [0, 1]⟩ ⟨1, [0, 1]⟩ ((read twoRows ⟨1, [0, 1]⟩).map fun r i => Real.log (r i))

private noncomputable def twoSquashed : Dist 2 := .squashed ⟨0, [0, 1]⟩ ⟨1, [0, 1]⟩ ((read twoRows ⟨1, [0, 1]⟩).map fun r i => Real.log (r i))

private theorem two_soft : cats brent twoRows twoSoft = some ((read twoRows ⟨0, [0, 1]⟩).map fun x => ⟨softmaxProb x 2 0.1, softmaxLogProb x 2 0.1⟩) := by
  have hm : (0.1 : ℝ) * (2 : Nat) ≤ 1 := by norm_num
  simp only [twoSoft, cats, if_pos hm]

private theorem two_soft_ready : UpToDate brent twoRows twoSoft :=
  fun _ _ => ⟨fun _ h => (Option.some_ne_none _ h.symm).elim, fun _ h => (Option.some_ne_none _ h.symm).elim⟩

example := C150_new brent twoRows ⟨0, [0, 1]⟩ ⟨1, [0, 1]⟩ 2 0.1 3 (by norm_num) rfl

example := C150_categorical brent twoRows twoSoft _ (two_soft brent) (two_soft_ready brent) [0, 1]

example := C150_categorical_kl brent twoRows twoSoft (.mellow ⟨1, [1, 0]⟩ 3 none none) _ _ (two_soft brent) rfl (two_soft_ready brent)
  (fun _ _ => ⟨fun _ h => (Option.some_ne_none _ h.symm).elim, fun _ h => (Option.some_ne_none _ h.symm).elim⟩)

example := C150_gaussian brent twoRows twoGauss _ (by simp only [twoGauss, gaussians, if_pos rfl]; rfl) rfl [fun _ => 0, fun _ => 1]

example := C150_squashed brent twoRows twoSquashed _ (by simp only [twoSquashed, gaussians, if_pos rfl]; rfl) rfl [fun _ => 0, fun _ => 1]

example := C150_deterministic brent twoRows (.determ ⟨1, [1]⟩) _ rfl

example := (C150_slice brent twoRows twoSoft 1 2).1 _ (two_soft brent)

example := C150_copy brent twoRows twoSoft (by intro b hb; simp only [twoSoft, buffers, List.mem_singleton] at hb; subst hb; show 0 < 2; omega)
  (.inl (by rw [two_soft]; rfl))

example := C150_writes twoRows (twoRows ++ [[fun _ => 5]]) [(0, 1, fun _ => 9), (1, 0, fun _ => 8)]
  (by intro w hw; simp only [List.mem_cons, List.not_mem_nil, or_false] at hw; rcases hw with rfl | rfl <;> simp [twoRows]) 2 (by simp [twoRows])

example := C150_write_shown twoRows ⟨0, [1, 0, 1]⟩ 1 (fun _ => 7) _ rfl (by simp)

example := C150_kl_copy brent twoRows twoGauss
  (by intro b hb; simp only [twoGauss, buffers, List.mem_cons, List.not_mem_nil, or_false] at hb; rcases hb with rfl | rfl <;> simp [twoRows]) rfl

end Verif.DistribBatch
