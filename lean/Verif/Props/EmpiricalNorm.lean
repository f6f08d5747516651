import Mathlib.Algebra.Field.Rat
import Mathlib.Data.Fin.VecNotation
import Mathlib.Data.Fintype.Basic
import Mathlib.Data.Fintype.Pi
import Mathlib.Algebra.Order.Ring.Rat
import Mathlib.Algebra.BigOperators.Ring.List
import Mathlib.Tactic.Ring
import Mathlib.Tactic.FieldSimp
import Mathlib.Tactic.Linarith
import Verif.Spec.EmpiricalNorm
set_option autoImplicit false
set_option linter.unusedSectionVars false

/-! # C57, C58: empirical normalisation -/

namespace Verif.EmpNorm
variable {K I : Type} [Field K] [LinearOrder K] [IsStrictOrderedRing K]

theorem length_ne {xs : List (I → K)} (h : xs ≠ []) : (xs.length : K) ≠ 0 :=
  Nat.cast_ne_zero.2 (fun h0 => h (List.length_eq_zero_iff.1 h0))

/-- Sum of squared deviations from any centre. -/
theorem sq_dev_sum (xs : List (I → K)) (i : I) (m : K) :
    (xs.map (fun v => (v i - m) ^ 2)).sum =
      (xs.map (fun v => v i ^ 2)).sum - 2 * m * (xs.map (fun v => v i)).sum + (xs.length : K) * m ^ 2 := by
  induction xs with
  | nil => simp
  | cons x xs ih =>
    simp only [List.map_cons, List.sum_cons, List.length_cons, ih]
    push_cast
    ring

theorem populationMean_mul {xs : List (I → K)} (h : xs ≠ []) (i : I) :
    (xs.map (fun v => v i)).sum = (xs.length : K) * populationMean xs i := by
  rw [populationMean, mul_div_cancel₀ _ (length_ne h)]

theorem populationVar_mul {xs : List (I → K)} (h : xs ≠ []) (i : I) :
    (xs.map (fun v => v i ^ 2)).sum = (xs.length : K) * (populationVar xs i + populationMean xs i ^ 2) := by
  have h1 : (xs.length : K) * populationVar xs i = (xs.map (fun v => (v i - populationMean xs i) ^ 2)).sum := by
    rw [populationVar, mul_div_cancel₀ _ (length_ne h)]
  rw [sq_dev_sum, populationMean_mul h] at h1
  rw [mul_add, h1]
  ring

theorem batchMean_eq (x : List (I → K)) : batchMean x = populationMean x := rfl

theorem batchVar_eq (x : List (I → K)) (i : I) : batchVar x i = populationVar x i := by
  unfold batchVar populationVar
  simp only [batchMean_eq, sq]

theorem mean_append {xs ys : List (I → K)} (hx : xs ≠ []) (hy : ys ≠ []) (i : I) :
    populationMean (xs ++ ys) i = populationMean xs i +
      (ys.length : K) / ((xs.length + ys.length : ℕ) : K) * (populationMean ys i - populationMean xs i) := by
  have h0 : ((xs.length + ys.length : ℕ) : K) ≠ 0 := by
    rw [← List.length_append]; exact length_ne (by simp [hx])
  rw [populationMean, List.map_append, List.sum_append, populationMean_mul hx, populationMean_mul hy,
    List.length_append]
  field_simp
  push_cast
  ring

theorem var_append {xs ys : List (I → K)} (hx : xs ≠ []) (hy : ys ≠ []) (i : I) :
    populationVar (xs ++ ys) i = populationVar xs i +
      (ys.length : K) / ((xs.length + ys.length : ℕ) : K) * (populationVar ys i - populationVar xs i +
        (populationMean ys i - populationMean xs i) * (populationMean ys i - populationMean (xs ++ ys) i)) := by
  have h0 : ((xs.length + ys.length : ℕ) : K) ≠ 0 := by
    rw [← List.length_append]; exact length_ne (by simp [hx])
  rw [populationVar, sq_dev_sum, List.map_append, List.sum_append, List.map_append, List.sum_append,
    populationMean_mul hx, populationMean_mul hy, populationVar_mul hx, populationVar_mul hy,
    mean_append hx hy, List.length_append]
  push_cast at h0 ⊢
  field_simp
  ring

/-- One batch of experience keeps the statistics exact. -/
theorem experience_tracks {c : Config K} {s : State K I} {xs : List (I → K)} (h : Tracks s xs)
    (x : List (I → K)) (hf : full c s.count = false) : Tracks (experience c s x) (xs ++ x) := by
  obtain ⟨h1, h2, h3⟩ := h
  unfold experience
  rw [hf, if_neg (by simp)]
  by_cases hx : x.length = 0
  · rw [if_pos hx, List.length_eq_zero_iff.1 hx, List.append_nil]
    exact ⟨h1, h2, h3⟩
  have hx' : x ≠ [] := fun h0 => hx (by rw [h0]; rfl)
  rw [if_neg hx]
  refine ⟨by simp [h1], fun h0 => absurd (List.append_eq_nil_iff.1 h0).2 hx', fun _ i => ?_⟩
  by_cases he : xs = []
  · obtain ⟨m0, v0⟩ := h2 he
    have hc : s.count = 0 := by rw [h1, he]; rfl
    have hl : (x.length : K) ≠ 0 := length_ne hx'
    simp only [hc, m0, v0, he, List.nil_append, Nat.zero_add, div_self hl, batchMean_eq, batchVar_eq]
    constructor <;> ring
  · have e := h3 he i
    have em := mean_append he hx' i
    refine ⟨?_, ?_⟩
    · show s.mean i + _ * (batchMean x i - s.mean i) = _
      rw [em, e.1, h1, batchMean_eq]
    · show s.var i + _ * (batchVar x i - s.var i + (batchMean x i - s.mean i) *
        (batchMean x i - (s.mean i + _ * (batchMean x i - s.mean i)))) = _
      rw [var_append he hx' i, em, e.1, e.2, h1, batchMean_eq, batchVar_eq]

theorem foldl_full {c : Config K} : ∀ (bs : List (List (I → K))) (s : State K I), full c s.count = true →
    bs.foldl (experience c) s = s
  | [], _, _ => rfl
  | b :: bs, s, h => by
    have : experience c s b = s := by unfold experience; rw [h]; rfl
    rw [List.foldl_cons, this, foldl_full bs s h]

theorem foldl_tracks (c : Config K) : ∀ (bs : List (List (I → K))) (s : State K I) (xs : List (I → K)),
    Tracks s xs → Tracks (bs.foldl (experience c) s) (learned c.untilCount xs bs)
  | [], s, xs, h => h
  | b :: bs, s, xs, h => by
    cases hf : full c s.count with
    | true =>
      rw [foldl_full (b :: bs) s hf]
      have : learned c.untilCount xs (b :: bs) = xs := by
        unfold learned
        unfold full at hf
        cases hu : c.untilCount with
        | none => rw [hu] at hf; simp at hf
        | some u =>
          rw [hu] at hf
          simp only [decide_eq_true_eq, h.1] at hf
          simp only [Option.all_some, decide_eq_true_eq]
          rw [if_neg (by omega)]
      rw [this]
      exact h
    | false =>
      have : learned c.untilCount xs (b :: bs) = learned c.untilCount (xs ++ b) bs := by
        conv_lhs => unfold learned
        unfold full at hf
        cases hu : c.untilCount with
        | none => simp
        | some u =>
          rw [hu] at hf
          simp only [decide_eq_false_iff_not, h.1] at hf
          simp only [Option.all_some, decide_eq_true_eq]
          rw [if_pos (by omega)]
      rw [this, List.foldl_cons]
      exact foldl_tracks c bs _ _ (experience_tracks h b hf)

/-- **C57**: after any sequence of batches, mean and variance are the population mean and
variance of the values learned: all of them, in whole batches until the limit is reached. -/
theorem C57_statistics (c : Config K) (bs : List (List (I → K))) :
    Tracks (bs.foldl (experience c) init) (learned c.untilCount [] bs) :=
  foldl_tracks c bs init [] ⟨rfl, fun _ => ⟨rfl, rfl⟩, fun h => absurd rfl h⟩

theorem learned_none (bs : List (List (I → K))) : ∀ xs, learned none xs bs = xs ++ bs.flatten := by
  induction bs with
  | nil => intro xs; simp [learned]
  | cons b bs ih => intro xs; simp [learned, ih]

/-- **C57**: without a limit, mean and variance are those of all values, so they do not
depend on how the values were cut into batches. -/
theorem C57_batching (eps : K) (clip : Option K) (bs bs' : List (List (I → K))) (h : bs.flatten = bs'.flatten) :
    Tracks (bs.foldl (experience ⟨eps, none, clip⟩) init) bs.flatten ∧
    (bs.foldl (experience ⟨eps, none, clip⟩) init).mean = (bs'.foldl (experience ⟨eps, none, clip⟩) init).mean ∧
    (bs.foldl (experience ⟨eps, none, clip⟩) init).var = (bs'.foldl (experience ⟨eps, none, clip⟩) init).var ∧
    (bs.foldl (experience ⟨eps, none, clip⟩) init).count = (bs'.foldl (experience ⟨eps, none, clip⟩) init).count := by
  have h1 := C57_statistics (⟨eps, none, clip⟩ : Config K) bs
  have h2 := C57_statistics (⟨eps, none, clip⟩ : Config K) bs'
  simp only [learned_none, List.nil_append] at h1 h2
  refine ⟨h1, ?_⟩
  rw [← h] at h2
  obtain ⟨a1, a2, a3⟩ := h1
  obtain ⟨b1, b2, b3⟩ := h2
  by_cases he : bs.flatten = []
  · exact ⟨(a2 he).1.trans (b2 he).1.symm, (a2 he).2.trans (b2 he).2.symm, a1.trans b1.symm⟩
  · exact ⟨funext fun i => ((a3 he i).1).trans ((b3 he i).1).symm,
      funext fun i => ((a3 he i).2).trans ((b3 he i).2).symm, a1.trans b1.symm⟩

/-- What `experience` does to the statistics depends on the statistics only. -/
theorem foldl_experience_congr (c : Config K) (bs : List (List (I → K))) : ∀ s s' : State K I,
    s.mean = s'.mean → s.var = s'.var → s.count = s'.count →
    (bs.foldl (experience c) s).mean = (bs.foldl (experience c) s').mean ∧
    (bs.foldl (experience c) s).var = (bs.foldl (experience c) s').var ∧
    (bs.foldl (experience c) s).count = (bs.foldl (experience c) s').count := by
  induction bs with
  | nil => intro s s' h1 h2 h3; exact ⟨h1, h2, h3⟩
  | cons b bs ih =>
    intro s s' h1 h2 h3
    refine ih _ _ ?_ ?_ ?_ <;> (unfold experience; rw [h3]; repeat' split) <;> first | assumption | (simp only [h1, h2])

/-- **C57**: learning goes on after saving and loading as if it had not been interrupted: a link that loads what another one
has learned from some batches, whatever it held before, tracks the values of these batches and those it is given afterwards. -/
theorem C57_resume (c : Config K) (bs bs' : List (List (I → K))) (fresh : State K I) :
    Tracks (bs'.foldl (experience c) (load fresh (bs.foldl (experience c) init).mean (bs.foldl (experience c) init).var
      (bs.foldl (experience c) init).count)) (learned c.untilCount [] (bs ++ bs')) := by
  have h1 := C57_statistics c (bs ++ bs')
  rw [List.foldl_append] at h1
  obtain ⟨e1, e2, e3⟩ := foldl_experience_congr c bs' (load fresh (bs.foldl (experience c) init).mean
    (bs.foldl (experience c) init).var (bs.foldl (experience c) init).count) (bs.foldl (experience c) init) rfl rfl rfl
  obtain ⟨a1, a2, a3⟩ := h1
  exact ⟨e3.trans a1, fun h => ⟨e1.trans (a2 h).1, e2.trans (a2 h).2⟩,
    fun h i => ⟨(congrFun e1 i).trans (a3 h i).1, (congrFun e2 i).trans (a3 h i).2⟩⟩

/-- **C57**: calls learn like `experience`, or not at all with `update=False`; the order of
the values does not matter. -/
theorem C57_call_learns (r : Roots K) (c : Config K) (s : State K I) (xs x : List (I → K)) (h : Tracks s xs) :
    Tracks (call r c s x false).1 xs ∧
    (full c s.count = false → Tracks (call r c s x true).1 (xs ++ x)) ∧
    (full c s.count = true → Tracks (call r c s x true).1 xs) := by
  have hs : Tracks (stdInverse r c s).1 xs ∧ (stdInverse r c s).1.count = s.count := by
    unfold stdInverse
    cases s.cache <;> exact ⟨h, rfl⟩
  refine ⟨hs.1, fun hf => ?_, fun hf => ?_⟩
  · exact experience_tracks hs.1 x (by rw [hs.2]; exact hf)
  · have : (call r c s x true).1 = (stdInverse r c s).1 := by
      show experience c (stdInverse r c s).1 x = _
      unfold experience
      rw [hs.2, hf]; rfl
    rw [this]; exact hs.1

example : (([[![1, 2], ![3, 6]], [], [![5, 1]]] : List (List (Fin 2 → ℚ))).foldl
      (experience ⟨0, none, none⟩) init).mean = ![3, 3] ∧
    (([[![1, 2], ![3, 6]], [], [![5, 1]]] : List (List (Fin 2 → ℚ))).foldl
      (experience ⟨0, none, none⟩) init).var = ![8 / 3, 14 / 3] := by decide +kernel

example : learned (some 2) [] ([[![1, 2], ![3, 6], ![0, 0]], [![5, 1]]] : List (List (Fin 2 → ℚ))) =
    [![1, 2], ![3, 6], ![0, 0]] := rfl

/-! ### C58 -/

/-- The cache, if filled, is that of the current variance. -/
def Coherent (r : Roots K) (c : Config K) (s : State K I) : Prop :=
  ∀ v, s.cache = some v → v = fun i => r.invSqrt (s.var i + c.eps)

theorem experience_coherent {r : Roots K} {c : Config K} {s : State K I} (h : Coherent r c s) (x : List (I → K)) :
    Coherent r c (experience c s x) := by
  unfold experience
  split
  · exact h
  split
  · exact h
  intro v hv
  simp at hv

theorem stdInverse_coherent {r : Roots K} {c : Config K} {s : State K I} (h : Coherent r c s) :
    Coherent r c (stdInverse r c s).1 ∧ (stdInverse r c s).2 = (fun i => r.invSqrt (s.var i + c.eps)) ∧
    (stdInverse r c s).1.mean = s.mean ∧ (stdInverse r c s).1.var = s.var ∧
    (stdInverse r c s).1.count = s.count := by
  unfold stdInverse
  cases hc : s.cache with
  | none =>
    refine ⟨?_, rfl, rfl, rfl, rfl⟩
    intro v hv
    simp only [Option.some.injEq] at hv
    exact hv.symm
  | some v => exact ⟨h, h v hc, rfl, rfl, rfl⟩

theorem call_coherent {r : Roots K} {c : Config K} {s : State K I} (h : Coherent r c s) (x : List (I → K))
    (u : Bool) : Coherent r c (call r c s x u).1 := by
  unfold call
  cases u
  · exact (stdInverse_coherent h).1
  · exact experience_coherent (stdInverse_coherent h).1 x

/-- Histories without loading keep the cache coherent. -/
theorem run_coherent {r : Roots K} {c : Config K} : ∀ (ops : List (Op K I)) (s : State K I),
    (∀ op ∈ ops, ∀ m v n, op ≠ .load m v n) → Coherent r c s → Coherent r c (ops.foldl (step r c) s)
  | [], _, _, h => h
  | op :: ops, s, hno, h => by
    refine run_coherent ops _ (fun o ho => hno o (List.mem_cons_of_mem _ ho)) ?_
    cases op with
    | experience x => exact experience_coherent h x
    | call x u => exact call_coherent h x u
    | load m v n => exact absurd rfl (hno _ (List.mem_cons_self ..) m v n)

/-- **C58** (partial): after any history without loads, an output computed with
`update=False`, or after the limit, is the value normalised with the current mean and the
current standard deviation, clipped.  Missing: updating calls and loads, for which the
claim is false (`C58_violated_update`, `C58_violated_load`). -/
theorem C58_output_partial (r : Roots K) (c : Config K) (ops : List (Op K I)) (x : List (I → K)) (u : Bool)
    (hno : ∀ op ∈ ops, ∀ m v n, op ≠ .load m v n)
    (hu : u = false ∨ full c (ops.foldl (step r c) init).count = true) :
    (call r c (ops.foldl (step r c) init) x u).2 =
      x.map fun v i => clipTo c (normalised r c.eps (ops.foldl (step r c) init).mean
        (ops.foldl (step r c) init).var v i) := by
  have hc : Coherent r c (ops.foldl (step r c) (init : State K I)) :=
    run_coherent ops init hno (by intro v hv; simp [init] at hv)
  generalize ops.foldl (step r c) (init : State K I) = s at hc hu ⊢
  obtain ⟨-, h2, h3, -, h5⟩ := stdInverse_coherent hc
  have hs : (if u then experience c (stdInverse r c s).1 x else (stdInverse r c s).1).mean = s.mean := by
    rcases hu with rfl | hu
    · exact h3
    · cases u
      · exact h3
      · show (experience c (stdInverse r c s).1 x).mean = s.mean
        unfold experience
        rw [h5, hu]; exact h3
  unfold call
  show List.map _ x = List.map _ x
  congr 1
  funext v i
  rw [h2, hs]
  rfl

/-- **C58**: what an updating call really computes: the mean after the update with the
standard deviation before it. -/
theorem C58_update_mixes_partial (r : Roots K) (c : Config K) (s : State K I) (x : List (I → K))
    (hc : Coherent r c s) :
    (call r c s x true).2 = x.map fun v i => clipTo c (normalised r c.eps (call r c s x true).1.mean s.var v i) := by
  obtain ⟨-, h2, -, -, -⟩ := stdInverse_coherent hc
  unfold call
  show List.map _ x = List.map _ x
  congr 1
  funext v i
  rw [h2]
  rfl

/-- **C58** is false of updating calls: whenever the power `x ** -0.5` is injective and not
zero on the values concerned, an output uses the new mean with the old standard deviation,
which is neither the normalisation before nor the one after the update. -/
theorem C58_violated_update (r : Roots ℚ) (h1 : r.invSqrt 1 ≠ r.invSqrt 4) (h0 : r.invSqrt 1 ≠ 0) :
    let s : State ℚ (Fin 1) := init
    let c : Config ℚ := ⟨0, none, none⟩
    let x : List (Fin 1 → ℚ) := [![1], ![5]]
    let out := call r c s x true
    out.2 ≠ x.map (normalised r 0 s.mean s.var) ∧ out.2 ≠ x.map (normalised r 0 out.1.mean out.1.var) := by
  intro s c x out
  have hm : out.1.mean 0 = 3 ∧ out.1.var 0 = 4 := by
    constructor <;> simp [out, call, stdInverse, s, init, x, c, experience, full, batchMean, batchVar] <;> norm_num
  have ho : (out.2.map (fun v => v 0)) = [(1 - out.1.mean 0) * r.invSqrt 1, (5 - out.1.mean 0) * r.invSqrt 1] := by
    simp [out, call, x, s, c, init, stdInverse, clipTo]
  constructor
  · intro h
    have := congrArg (List.map (fun v => v 0)) h
    rw [ho] at this
    simp only [x, List.map_cons, List.map_nil, normalised, s, init, hm, List.cons.injEq] at this
    have e := this.1
    simp at e
    norm_num at e
    exact h0 (by linarith)
  · intro h
    have := congrArg (List.map (fun v => v 0)) h
    rw [ho] at this
    simp only [x, List.map_cons, List.map_nil, normalised, hm, List.cons.injEq] at this
    have e := this.1
    norm_num at e
    exact h1 (by linarith)

/-- **C58** is false after loading: if the link has been called before, outputs after a load
still use the standard deviation from before the load. -/
theorem C58_violated_load (r : Roots K) (c : Config K) (s : State K I) (hs : Coherent r c s)
    (x y : List (I → K)) (mean var : I → K) (count : Nat) :
    (call r c (load (call r c s x false).1 mean var count) y false).2 =
      y.map fun v i => clipTo c (normalised r c.eps mean s.var v i) := by
  have h := stdInverse_coherent hs
  have hcache : (call r c s x false).1.cache = some (fun i => r.invSqrt (s.var i + c.eps)) := by
    show (stdInverse r c s).1.cache = _
    unfold stdInverse
    cases hc : s.cache with
    | none => rfl
    | some v => simp only [hc, hs v hc]
  have hst : stdInverse r c (load (call r c s x false).1 mean var count) =
      (load (call r c s x false).1 mean var count, fun i => r.invSqrt (s.var i + c.eps)) := by
    unfold stdInverse
    simp only [load, hcache]
  unfold call
  show List.map _ y = List.map _ y
  congr 1
  funext v i
  have e1 : (stdInverse r c (load (call r c s x false).1 mean var count)).2 =
    fun i => r.invSqrt (s.var i + c.eps) := by rw [hst]
  have e2 : (stdInverse r c (load (call r c s x false).1 mean var count)).1.mean = mean := by rw [hst]; rfl
  simp only [call, Bool.false_eq_true, if_false] at e1 e2
  show clipTo c ((v i - (stdInverse r c _).1.mean i) * (stdInverse r c _).2 i) = _
  simp only [Bool.false_eq_true, if_false]
  rw [e1, e2]
  rfl

/-- **C58** is false after loading, concretely: the output is not the value normalised with
the loaded statistics. -/
theorem C58_violated_load_witness (r : Roots ℚ) (h1 : r.invSqrt 1 ≠ r.invSqrt 4) :
    let c : Config ℚ := ⟨0, none, none⟩
    let s := load (call r c (init : State ℚ (Fin 1)) [![7]] false).1 ![0] ![4] 10
    (call r c s [![1]] false).2 ≠ [normalised r 0 s.mean s.var ![1]] := by
  intro c s h
  have hv := C58_violated_load r c (init : State ℚ (Fin 1)) (by intro v hv; simp [init] at hv) [![7]] [![1]]
    ![0] ![4] 10
  rw [show (call r c s [![1]] false).2 = _ from hv] at h
  have := congrArg (List.map (fun v => v 0)) h
  simp only [List.map_cons, List.map_nil, normalised, List.cons.injEq] at this
  have e := this.1
  simp [c, clipTo, init, s, load] at e
  exact h1 e

/-- **C58** (partial): loading into a link that has not been called since its last update
is right: outputs use the loaded statistics. -/
theorem C58_load_fresh_partial (r : Roots K) (c : Config K) (s : State K I) (hs : s.cache = none)
    (y : List (I → K)) (mean var : I → K) (count : Nat) :
    (call r c (load s mean var count) y false).2 =
      y.map fun v i => clipTo c (normalised r c.eps mean var v i) := by
  unfold call stdInverse
  simp only [load, hs]
  rfl

/-- **C58**: `inverse` undoes an unclipped call without update, for every coherent state
whose roots are inverse to each other. -/
theorem C58_round_trip_partial (r : Roots K) (c : Config K) (s : State K I) (hs : Coherent r c s)
    (hclip : c.clip = none) (hr : ∀ i, r.invSqrt (s.var i + c.eps) * r.sqrt (s.var i + c.eps) = 1)
    (x : List (I → K)) :
    inverse r c (call r c s x false).1 (call r c s x false).2 = x := by
  obtain ⟨-, h2, h3, h4, -⟩ := stdInverse_coherent hs
  have e1 : (call r c s x false).1.mean = s.mean := h3
  have e2 : (call r c s x false).1.var = s.var := h4
  have e3 : (call r c s x false).2 = x.map fun v i => (v i - s.mean i) * r.invSqrt (s.var i + c.eps) := by
    unfold call
    show List.map _ x = List.map _ x
    congr 1
    funext v i
    simp only [Bool.false_eq_true, if_false]
    rw [h2, h3, clipTo, hclip]
  unfold inverse
  rw [e1, e2, e3, List.map_map]
  conv_rhs => rw [← List.map_id x]
  congr 1
  funext v
  funext i
  simp only [Function.comp, id]
  rw [mul_assoc, hr i]
  ring

/-- The hypotheses of `C58_violated_update` hold for the real powers of 1 and 4. -/
example : ∃ r : Roots ℚ, r.invSqrt 1 = 1 ∧ r.invSqrt 4 = 1 / 2 ∧ r.invSqrt 1 ≠ r.invSqrt 4 ∧ r.invSqrt 1 ≠ 0 :=
  ⟨⟨fun x => if x = 4 then 1 / 2 else 1, fun x => if x = 4 then 2 else 1⟩, by decide +kernel, by decide +kernel,
    by decide +kernel, by decide +kernel⟩

/-- **C58**: with a threshold the outputs are those without one, cut to `[-t, t]`; the state does
not depend on the threshold. -/
theorem C58_clipped (r : Roots K) (c : Config K) (s : State K I) (x : List (I → K)) (u : Bool) (t : K)
    (ht : 0 ≤ t) :
    (call r { c with clip := some t } s x u).2 =
      (call r { c with clip := none } s x u).2.map (fun v i => clamped t (v i)) ∧
    (call r { c with clip := some t } s x u).1 = (call r { c with clip := none } s x u).1 := by
  have h1 : stdInverse r { c with clip := some t } s = stdInverse r { c with clip := none } s := rfl
  have h2 : ∀ s' : State K I, experience { c with clip := some t } s' x = experience { c with clip := none } s' x :=
    fun _ => rfl
  have h3 : ∀ v : K, min (max v (-t)) t = clamped t v := by
    intro v
    unfold clamped
    split
    · rename_i h; exact min_eq_right (le_max_of_le_left h.le)
    · rename_i h
      have h := not_lt.mp h
      split
      · rename_i h'
        rw [max_eq_right h'.le, min_eq_left (by linarith)]
      · rename_i h'
        rw [max_eq_left (not_lt.mp h'), min_eq_left h]
  unfold call
  rw [h1]
  constructor
  · simp only [h2, List.map_map, clipTo, h3, Function.comp_def]
  · simp only [h2]

/-- The clipping is active on both sides. -/
example : (call ⟨fun _ => 1, fun _ => (1 : ℚ)⟩ ⟨0, none, some 2⟩ init [![5], ![-7], ![1]] false).2 =
    [![2], ![-2], ![(1 : ℚ)]] := by
  simp only [call, stdInverse, init, clipTo, Bool.false_eq_true, if_false, List.map_cons, List.map_nil]
  congr 1
  · funext i; rw [Fin.fin_one_eq_zero i]; simp; norm_num
  · congr 1
    · funext i; rw [Fin.fin_one_eq_zero i]; simp; norm_num
    · congr 1
      funext i; rw [Fin.fin_one_eq_zero i]; simp; norm_num

end Verif.EmpNorm
