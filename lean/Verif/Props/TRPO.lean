import Mathlib.Algebra.Field.Rat
import Mathlib.Algebra.Order.Ring.Rat
import Mathlib.Tactic.Ring
import Mathlib.Tactic.Linarith
import Mathlib.Tactic.FieldSimp
import Verif.Spec.TRPO
set_option autoImplicit false
set_option linter.unusedSectionVars false

/-! # C55: the line search of TRPO -/

namespace Verif.TRPO
variable {K : Type} [Field K] [LinearOrder K] [IsStrictOrderedRing K]

theorem splitReshape_ok : ∀ (ps : List (Arr K)) (pre flat : List K), WellShaped ps →
    flat.length = (flattenAll ps).length →
    ∃ qs, splitReshape (pre ++ flat) pre.length (ps.map (fun p => p.data.length)) (ps.map Arr.shape) = .ok qs ∧
      qs.map Arr.shape = ps.map Arr.shape ∧ WellShaped qs ∧ flattenAll qs = flat
  | [], pre, flat, _, hl => ⟨[], rfl, rfl, by simp [WellShaped], by
      simp [flattenAll] at hl ⊢; exact hl⟩
  | p :: ps, pre, flat, hw, hl => by
    have hp : p.data.length = p.shape.prod := hw p (List.mem_cons_self ..)
    have hl' : flat.length = p.data.length + (flattenAll ps).length := by
      rw [hl]; simp [flattenAll]
    obtain ⟨qs, h1, h2, h3, h4⟩ := splitReshape_ok ps (pre ++ flat.take p.data.length)
      (flat.drop p.data.length) (fun q hq => hw q (List.mem_cons_of_mem _ hq)) (by simp [hl'])
    have hlen : (flat.take p.data.length).length = p.data.length := by
      rw [List.length_take]; omega
    rw [List.append_assoc, List.take_append_drop, List.length_append, hlen] at h1
    have hv : ((pre ++ flat).take (pre.length + p.data.length)).drop pre.length = flat.take p.data.length := by
      rw [List.take_length_add_append, List.drop_left]
    refine ⟨⟨p.shape, flat.take p.data.length⟩ :: qs, ?_, ?_, ?_, ?_⟩
    · have hre : reshape (((pre ++ flat).take (pre.length + p.data.length)).drop pre.length) p.shape =
          .ok ⟨p.shape, flat.take p.data.length⟩ := by
        rw [hv, reshape, if_pos (hlen.trans hp)]
      simp only [List.map_cons, splitReshape, hre, bind, Except.bind, h1, pure, Except.pure]
    · simp [h2]
    · intro q hq
      rcases List.mem_cons.1 hq with rfl | hq
      · exact hlen.trans hp
      · exact h3 q hq
    · have : flattenAll (⟨p.shape, flat.take p.data.length⟩ :: qs) = flat.take p.data.length ++ flattenAll qs := by
        simp [flattenAll]
      rw [this, h4, List.take_append_drop]

theorem splitAll_ok (ps : List (Arr K)) (flat : List K) (hw : WellShaped ps)
    (hl : flat.length = (flattenAll ps).length) :
    ∃ qs, splitAll flat (ps.map (fun p => p.data.length)) (ps.map Arr.shape) = .ok qs ∧
      qs.map Arr.shape = ps.map Arr.shape ∧ WellShaped qs ∧ flattenAll qs = flat := by
  have := splitReshape_ok ps [] flat hw hl
  simpa [splitAll] using this

/-- Arrays with given shapes are determined by their elements. -/
theorem shaped_ext : ∀ (ps qs : List (Arr K)), ps.map Arr.shape = qs.map Arr.shape → WellShaped ps →
    WellShaped qs → flattenAll ps = flattenAll qs → ps = qs
  | [], [], _, _, _, _ => rfl
  | [], _ :: _, h, _, _, _ => by simp at h
  | _ :: _, [], h, _, _, _ => by simp at h
  | p :: ps, q :: qs, h, h1, h2, h3 => by
    simp only [List.map_cons, List.cons.injEq] at h
    have hl : p.data.length = q.data.length := by
      rw [h1 p (List.mem_cons_self ..), h2 q (List.mem_cons_self ..), h.1]
    have e : ∀ (a : Arr K) as, flattenAll (a :: as) = a.data ++ flattenAll as := by
      intro a as; simp [flattenAll]
    rw [e, e] at h3
    obtain ⟨e1, e2⟩ := List.append_inj h3 hl
    rw [shaped_ext ps qs h.2 (fun p hp => h1 p (List.mem_cons_of_mem _ hp))
      (fun p hp => h2 p (List.mem_cons_of_mem _ hp)) e2]
    obtain ⟨s, d⟩ := p
    obtain ⟨s', d'⟩ := q
    simp only at h e1
    rw [h.1, e1]

theorem replaceAll_ok : ∀ (ps qs : List (Arr K)), qs.map Arr.shape = ps.map Arr.shape → replaceAll ps qs = .ok qs
  | [], [], _ => rfl
  | [], _ :: _, h => by simp at h
  | _ :: _, [], h => by simp at h
  | p :: ps, q :: qs, h => by
    simp only [List.map_cons, List.cons.injEq] at h
    simp only [replaceAll, pyAssert, h.1, beq_self_eq_true, if_true, replaceAll_ok ps qs h.2, bind,
      Except.bind, pure, Except.pure]
    obtain ⟨s, d⟩ := q
    simp only at h
    rw [h.1]

/-- The test of the loop is `Safe`. -/
theorem safe_iff (gain : Fl K) (maxKl : K) (r : Fl K × Fl K) :
    Safe gain maxKl r ↔ (r.1.isFinite = true ∧ r.2.isFinite = true ∧ r.1.subNeg gain = false ∧
      r.2.gt maxKl = false) := by
  obtain ⟨g, kl⟩ := r
  constructor
  · rintro ⟨g', kl', h1, h2, h3⟩
    simp only [Prod.mk.injEq] at h1
    obtain ⟨rfl, rfl⟩ := h1
    refine ⟨rfl, rfl, ?_, by simpa [Fl.gt] using h2⟩
    cases gain with
    | fin old => simp only at h3; simpa [Fl.subNeg] using h3
    | nan => rfl
    | pinf => exact h3.elim
    | ninf => rfl
  · rintro ⟨h1, h2, h3, h4⟩
    cases g <;> simp [Fl.isFinite] at h1
    cases kl <;> simp [Fl.isFinite] at h2
    rename_i g kl
    refine ⟨g, kl, rfl, by simpa [Fl.gt] using h4, ?_⟩
    cases gain <;> simp_all [Fl.subNeg]

theorem search_spec (evaluate : List (Arr K) → Fl K × Fl K) (gain : Fl K) (maxKl : K) (step : List K)
    (ps : List (Arr K)) (hw : WellShaped ps) (hstep : step.length = (flattenAll ps).length)
    (pos : Nat → List (Arr K)) (hpos : ∀ j, Shifted ps step ((1 / 2) ^ j) (pos j)) :
    ∀ (k i : Nat) (cur : List (Arr K)), cur.map Arr.shape = ps.map Arr.shape →
    (∃ j kl, j < i + k ∧ i ≤ j ∧ Safe gain maxKl (evaluate (pos j)) ∧ (∀ j', i ≤ j' → j' < j →
        ¬ Safe gain maxKl (evaluate (pos j'))) ∧ (evaluate (pos j)).2 = kl ∧
      search evaluate gain maxKl (flattenAll ps) step (ps.map (fun p => p.data.length)) (ps.map Arr.shape) k
        ((1 / 2) ^ i) cur = .ok ⟨pos j, (1 / 2) ^ j, some kl⟩) ∨
    ((∀ j, i ≤ j → j < i + k → ¬ Safe gain maxKl (evaluate (pos j))) ∧
      search evaluate gain maxKl (flattenAll ps) step (ps.map (fun p => p.data.length)) (ps.map Arr.shape) k
        ((1 / 2) ^ i) cur = .ok ⟨ps, 0, none⟩)
  | 0, i, cur, hc => by
    right
    refine ⟨fun j h1 h2 => by omega, ?_⟩
    obtain ⟨qs, h1, h2, h3, h4⟩ := splitAll_ok ps (flattenAll ps) hw rfl
    have : qs = ps := shaped_ext qs ps h2 h3 hw h4
    subst this
    simp only [search, h1, bind, Except.bind, replaceAll_ok cur qs hc.symm, pure, Except.pure]
  | k + 1, i, cur, hc => by
    obtain ⟨qs, h1, h2, h3, h4⟩ := splitAll_ok ps
      (List.zipWith (fun p d => p + (1 / 2) ^ i * d) (flattenAll ps) step) hw (by simp [hstep])
    have hq : qs = pos i := by
      obtain ⟨g1, g2, g3⟩ := hpos i
      exact shaped_ext qs (pos i) (h2.trans g1.symm) h3 g2 (h4.trans g3.symm)
    subst hq
    have hr := replaceAll_ok cur (pos i) (h2.trans hc.symm)
    have ih := search_spec evaluate gain maxKl step ps hw hstep pos hpos k (i + 1) (pos i) h2
    have hhalf : ((1 : K) / 2) ^ i * (1 / 2) = (1 / 2) ^ (i + 1) := (pow_succ _ _).symm
    by_cases hs : Safe gain maxKl (evaluate (pos i))
    · left
      obtain ⟨s1, s2, s3, s4⟩ := (safe_iff gain maxKl _).1 hs
      refine ⟨i, _, by omega, le_refl _, hs, fun j' a b => by omega, rfl, ?_⟩
      simp only [search, h1, bind, Except.bind, hr, s1, s2, s3, s4, Bool.not_true, Bool.false_eq_true, if_false,
        pure, Except.pure]
    · have hstep : search evaluate gain maxKl (flattenAll ps) step (ps.map (fun p => p.data.length))
          (ps.map Arr.shape) (k + 1) ((1 / 2) ^ i) cur =
          search evaluate gain maxKl (flattenAll ps) step (ps.map (fun p => p.data.length))
          (ps.map Arr.shape) k ((1 / 2) ^ (i + 1)) (pos i) := by
        rw [safe_iff] at hs
        simp only [search, h1, bind, Except.bind, hr, hhalf]
        cases s1 : (evaluate (pos i)).1.isFinite
        · simp
        cases s2 : (evaluate (pos i)).2.isFinite
        · simp
        cases s3 : (evaluate (pos i)).1.subNeg gain
        case true => simp
        cases s4 : (evaluate (pos i)).2.gt maxKl
        case true => simp
        exact absurd ⟨s1, s2, s3, s4⟩ hs
      rw [hstep]
      rcases ih with ⟨j, kl, a1, a2, a3, a4, a5, a6⟩ | ⟨a1, a2⟩
      · left
        refine ⟨j, kl, by omega, by omega, a3, ?_, a5, a6⟩
        intro j' b1 b2
        by_cases h : j' = i
        · rw [h]; exact hs
        · exact a4 j' (by omega) b2
      · right
        refine ⟨?_, a2⟩
        intro j b1 b2
        by_cases h : j = i
        · rw [h]; exact hs
        · exact a1 j (by omega) (by omega)

/-- **C55**: for every objective and KL function, step and parameters, the line search
does not raise; the parameters are afterwards those of the first of the candidates
`params + 2^-j * step`, `j <= max_backtrack`, that is safe, or, if none is, the original ones. -/
theorem C55_line_search (evaluate : List (Arr K) → Fl K × Fl K) (gain : Fl K) (maxKl : K)
    (maxBacktrack : Nat) (step : List K) (ps : List (Arr K)) (hw : WellShaped ps)
    (hstep : step.length = (ps.map (fun p => p.data.length)).sum) :
    ∃ cand : Nat → List (Arr K), (∀ j, Shifted ps step ((1 / 2) ^ j) (cand j)) ∧
    ∃ out, lineSearch evaluate gain maxKl maxBacktrack step ps = .ok out ∧
      ((∃ j ≤ maxBacktrack, out.params = cand j ∧ out.stepSize = (1 / 2) ^ j ∧
          Safe gain maxKl (evaluate (cand j)) ∧ ∀ j' < j, ¬ Safe gain maxKl (evaluate (cand j'))) ∨
       (out.params = ps ∧ out.stepSize = 0 ∧ ∀ j ≤ maxBacktrack, ¬ Safe gain maxKl (evaluate (cand j)))) := by
  have hlen : step.length = (flattenAll ps).length := by
    rw [hstep, flattenAll, List.length_flatten, List.map_map]; rfl
  have hex : ∀ j : Nat, ∃ qs, Shifted ps step ((1 / 2) ^ j) qs := by
    intro j
    obtain ⟨qs, h1, h2, h3, h4⟩ := splitAll_ok ps
      (List.zipWith (fun p d => p + (1 / 2) ^ j * d) (flattenAll ps) step) hw (by simp [hlen])
    exact ⟨qs, h2, h3, h4⟩
  refine ⟨fun j => (hex j).choose, fun j => (hex j).choose_spec, ?_⟩
  have h := search_spec evaluate gain maxKl step ps hw hlen (fun j => (hex j).choose)
    (fun j => (hex j).choose_spec) (maxBacktrack + 1) 0 ps rfl
  rw [pow_zero] at h
  rcases h with ⟨j, kl, a1, -, a3, a4, -, a6⟩ | ⟨a1, a2⟩
  · exact ⟨_, a6, .inl ⟨j, by omega, rfl, rfl, a3, fun j' hj' => a4 j' (Nat.zero_le _) hj'⟩⟩
  · exact ⟨_, a2, .inr ⟨rfl, rfl, fun j hj => a1 j (Nat.zero_le _) (by omega)⟩⟩

/-- **C55**: flattening the parameters and splitting them again changes nothing, and the
candidates are determined by `Shifted`. -/
theorem C55_round_trip (ps : List (Arr K)) (hw : WellShaped ps) :
    splitAll (flattenAll ps) (ps.map (fun p => p.data.length)) (ps.map Arr.shape) = .ok ps ∧
    ∀ (step : List K) (t : K) (qs qs' : List (Arr K)), Shifted ps step t qs → Shifted ps step t qs' → qs = qs' := by
  constructor
  · obtain ⟨qs, h1, h2, h3, h4⟩ := splitAll_ok ps (flattenAll ps) hw rfl
    rw [h1, shaped_ext qs ps h2 h3 hw h4]
  · rintro step t qs qs' ⟨a1, a2, a3⟩ ⟨b1, b2, b3⟩
    exact shaped_ext qs qs' (a1.trans b1.symm) a2 b2 (a3.trans b3.symm)

/-- **C55**: `_replace_params_data` writes nothing but arrays of the parameter's own shape: it succeeds iff the shapes agree as far as both lists go, and raises
`AssertionError` otherwise. -/
theorem C55_replace : ∀ (ps qs : List (Arr K)),
    ((∀ (i : Nat) (p q : Arr K), ps[i]? = some p → qs[i]? = some q → p.shape = q.shape) →
      ∃ rs, replaceAll ps qs = .ok rs ∧ rs.map Arr.shape = ps.map Arr.shape ∧
        ∀ (i : Nat) (p : Arr K), ps[i]? = some p → rs[i]? = some ((qs[i]?).elim p fun q => ⟨p.shape, q.data⟩)) ∧
    ((∃ (i : Nat) (p q : Arr K), ps[i]? = some p ∧ qs[i]? = some q ∧ p.shape ≠ q.shape) → replaceAll ps qs = .error .assertionError)
  | [], qs => ⟨fun _ => ⟨[], rfl, rfl, by simp⟩, by simp⟩
  | p :: ps, [] => ⟨fun _ => ⟨p :: ps, rfl, rfl, by simp⟩, by simp⟩
  | p :: ps, q :: qs => by
    obtain ⟨ih1, ih2⟩ := C55_replace ps qs
    constructor
    · intro h
      obtain ⟨rs, h1, h2, h3⟩ := ih1 fun i a b ha hb => h (i + 1) a b (by simpa using ha) (by simpa using hb)
      have hpq := h 0 p q rfl rfl
      refine ⟨{ p with data := q.data } :: rs, ?_, by simp [h2], ?_⟩
      · simp [replaceAll, pyAssert, hpq, h1, bind, Except.bind, pure, Except.pure]
      · intro i a ha
        cases i with
        | zero => simp at ha; subst ha; simp
        | succ i => simpa using h3 i a (by simpa using ha)
    · rintro ⟨i, a, b, ha, hb, hab⟩
      by_cases hpq : p.shape = q.shape
      · cases i with
        | zero => simp at ha hb; subst ha hb; exact absurd hpq hab
        | succ i =>
          simp [replaceAll, pyAssert, hpq, ih2 ⟨i, a, b, by simpa using ha, by simpa using hb, hab⟩, bind, Except.bind]
      · simp [replaceAll, pyAssert, hpq]

/-- The second candidate is the first that is safe: the objective is not finite at the
first. -/
def exampleEval (ps : List (Arr ℚ)) : Fl ℚ × Fl ℚ :=
  if ps = [⟨[2], [2, 2]⟩, ⟨[1, 1], [4]⟩] then (.nan, .fin 0)
  else if ps = [⟨[2], [3/2, 2]⟩, ⟨[1, 1], [7/2]⟩] then (.fin 3, .fin (1/10)) else (.fin 0, .fin 5)

example : (lineSearch exampleEval (.fin 2) (1/5) 3 [1, 0, 1] [⟨[2], [1, 2]⟩, ⟨[1, 1], [3]⟩]).toOption.map
      (fun o => (o.params, o.stepSize)) = some ([⟨[2], [3/2, 2]⟩, ⟨[1, 1], [7/2]⟩], 1/2) ∧
    (lineSearch exampleEval (.fin 4) (1/5) 3 [1, 0, 1] [⟨[2], [1, 2]⟩, ⟨[1, 1], [3]⟩]).toOption.map
      (fun o => (o.params, o.stepSize)) = some ([⟨[2], [1, 2]⟩, ⟨[1, 1], [3]⟩], 0) := by
  decide +kernel

example : WellShaped [⟨[2], [1, 2]⟩, (⟨[1, 1], [3]⟩ : Arr ℚ)] := by
  intro p hp; simp at hp; rcases hp with rfl | rfl <;> rfl

end Verif.TRPO
