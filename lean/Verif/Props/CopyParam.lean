import Mathlib.Algebra.Field.Rat
import Mathlib.Tactic.Ring
import Verif.Spec.CopyParam
set_option autoImplicit false
set_option linter.unusedSectionVars false

/-! # C56: parameter copies -/

namespace Verif.CopyParam
variable {K : Type} [Field K]

theorem lookup_setNamed {V : Type} (name name' : String) (v : V) : ∀ l : List (String × V),
    (setNamed name v l).lookup name' =
      if name' = name then (l.lookup name).map (fun _ => v) else l.lookup name'
  | [] => by simp [setNamed]
  | (k, w) :: l => by
    have ih := lookup_setNamed name name' v l
    unfold setNamed at ih ⊢
    simp only [List.map_cons]
    by_cases h1 : k = name <;> by_cases h2 : name' = name
    · subst h1; subst h2; simp
    · subst h1
      have : (name' == k) = false := by simpa using h2
      simp only [if_true, List.lookup_cons, this, if_neg h2] at ih ⊢
      exact ih
    · subst h2
      have : (name' == k) = false := by simpa using fun h => h1 h.symm
      simp only [if_neg h1, List.lookup_cons, this, if_true] at ih ⊢
      exact ih
    · simp only [if_neg h1, List.lookup_cons, if_neg h2] at ih ⊢
      rw [ih]

theorem names_setNamed {V : Type} (name : String) (v : V) (l : List (String × V)) :
    (setNamed name v l).map Prod.fst = l.map Prod.fst := by
  unfold setNamed
  rw [List.map_map]
  congr 1
  funext e
  simp only [Function.comp]
  split <;> rfl

theorem combine_ok (f : K → K → K) {dst src : List K} (h : dst.length = src.length) :
    combine f dst src = .ok (List.zipWith f dst src) := by rw [combine, if_pos h]

theorem copyParams_spec (f : K → K → K) : ∀ (source target : List (String × Param K)),
    (source.map Prod.fst).Nodup →
    (∀ name p, (name, p) ∈ source → ∃ src dst g, p.array = some src ∧
      target.lookup name = some ⟨some dst, g⟩ ∧ dst.length = src.length) →
    ∃ out, copyParams f target source = .ok out ∧ out.map Prod.fst = target.map Prod.fst ∧
      (∀ name p src dst g, (name, p) ∈ source → p.array = some src → target.lookup name = some ⟨some dst, g⟩ →
        out.lookup name = some ⟨some (List.zipWith f dst src), g⟩) ∧
      (∀ name, name ∉ source.map Prod.fst → out.lookup name = target.lookup name)
  | [], target, _, _ => ⟨target, rfl, rfl, by simp, fun _ _ => rfl⟩
  | (name, p) :: source, target, hu, hc => by
    simp only [List.map_cons, List.nodup_cons] at hu
    obtain ⟨src, dst, g, h1, h2, h3⟩ := hc name p (List.mem_cons_self ..)
    have hup : updateParam f (target.lookup name) p = .ok ⟨some (List.zipWith f dst src), g⟩ := by
      obtain ⟨pa, pg⟩ := p
      simp only at h1
      subst h1
      simp only [h2, updateParam, combine_ok f h3, bind, Except.bind, pure, Except.pure]
    have hne : ∀ name' p', (name', p') ∈ source → name' ≠ name := by
      intro name' p' hm he
      subst he
      exact hu.1 (List.mem_map.2 ⟨_, hm, rfl⟩)
    obtain ⟨out, o1, o2, o3, o4⟩ := copyParams_spec f source
      (setNamed name ⟨some (List.zipWith f dst src), g⟩ target) hu.2 (by
        intro name' p' hm
        obtain ⟨src', dst', g', a1, a2, a3⟩ := hc name' p' (List.mem_cons_of_mem _ hm)
        refine ⟨src', dst', g', a1, ?_, a3⟩
        rw [lookup_setNamed, if_neg (hne name' p' hm), a2])
    refine ⟨out, ?_, ?_, ?_, ?_⟩
    · simp only [copyParams, hup, bind, Except.bind, o1]
    · rw [o2, names_setNamed]
    · intro name' p' src' dst' g' hm hs ht
      rcases List.mem_cons.1 hm with heq | hm
      · obtain ⟨rfl, rfl⟩ := Prod.mk.inj heq
        rw [h1] at hs; rw [h2] at ht
        injection hs with hs; subst hs
        injection ht with ht; injection ht with ht hg; injection ht with ht; subst ht; subst hg
        rw [o4 name' hu.1, lookup_setNamed, if_pos rfl, h2]; rfl
      · apply o3 name' p' src' dst' g' hm hs
        rw [lookup_setNamed, if_neg (hne name' p' hm), ht]
    · intro name' hn
      simp only [List.map_cons, List.mem_cons, not_or] at hn
      rw [o4 name' hn.2, lookup_setNamed, if_neg hn.1]

theorem copyLinks_spec (f : K → K → K) : ∀ (source target : List (String × Option (BN K))),
    (source.map Prod.fst).Nodup →
    (∀ name bn, (name, some bn) ∈ source → ∃ t, target.lookup name = some (some t) ∧
      t.avgMean.length = bn.avgMean.length ∧ t.avgVar.length = bn.avgVar.length) →
    ∃ out, copyLinks f target source = .ok out ∧ out.map Prod.fst = target.map Prod.fst ∧
      (∀ name bn t, (name, some bn) ∈ source → target.lookup name = some (some t) →
        out.lookup name = some (some ⟨List.zipWith f t.avgMean bn.avgMean, List.zipWith f t.avgVar bn.avgVar⟩)) ∧
      (∀ name, (∀ bn, (name, some bn) ∉ source) → out.lookup name = target.lookup name)
  | [], target, _, _ => ⟨target, rfl, rfl, by simp, fun _ _ => rfl⟩
  | (name, none) :: source, target, hu, hc => by
    simp only [List.map_cons, List.nodup_cons] at hu
    obtain ⟨out, o1, o2, o3, o4⟩ := copyLinks_spec f source target hu.2
      (fun name' bn hm => hc name' bn (List.mem_cons_of_mem _ hm))
    refine ⟨out, by simpa only [copyLinks] using o1, o2, ?_, ?_⟩
    · intro name' bn t hm ht
      rcases List.mem_cons.1 hm with heq | hm
      · exact absurd (Prod.mk.inj heq).2 (by simp)
      · exact o3 name' bn t hm ht
    · intro name' hn
      exact o4 name' fun bn hm => hn bn (List.mem_cons_of_mem _ hm)
  | (name, some bn) :: source, target, hu, hc => by
    simp only [List.map_cons, List.nodup_cons] at hu
    obtain ⟨t, h1, h2, h3⟩ := hc name bn (List.mem_cons_self ..)
    have hup : updateLink f (target.lookup name) bn =
        .ok ⟨List.zipWith f t.avgMean bn.avgMean, List.zipWith f t.avgVar bn.avgVar⟩ := by
      simp only [h1, updateLink, combine_ok f h2, combine_ok f h3, bind, Except.bind, pure, Except.pure]
    have hne : ∀ name' bn', (name', some bn') ∈ source → name' ≠ name := by
      intro name' p' hm he
      subst he
      exact hu.1 (List.mem_map.2 ⟨_, hm, rfl⟩)
    obtain ⟨out, o1, o2, o3, o4⟩ := copyLinks_spec f source
      (setNamed name (some ⟨List.zipWith f t.avgMean bn.avgMean, List.zipWith f t.avgVar bn.avgVar⟩) target) hu.2 (by
        intro name' bn' hm
        obtain ⟨t', a1, a2⟩ := hc name' bn' (List.mem_cons_of_mem _ hm)
        refine ⟨t', ?_, a2⟩
        rw [lookup_setNamed, if_neg (hne name' bn' hm), a1])
    refine ⟨out, ?_, ?_, ?_, ?_⟩
    · simp only [copyLinks, hup, bind, Except.bind, o1]
    · rw [o2, names_setNamed]
    · intro name' bn' t' hm ht
      rcases List.mem_cons.1 hm with heq | hm
      · obtain ⟨rfl, he⟩ := Prod.mk.inj heq
        injection he with he; subst he
        rw [h1] at ht
        injection ht with ht; injection ht with ht; subst ht
        rw [o4 name' (fun bn hm => hne _ _ hm rfl), lookup_setNamed, if_pos rfl, h1]; rfl
      · apply o3 name' bn' t' hm
        rw [lookup_setNamed, if_neg (hne name' bn' hm), ht]
    · intro name' hn
      have hn1 : name' ≠ name := fun h => hn bn (h ▸ List.mem_cons_self ..)
      rw [o4 name' (fun bn hm => hn bn (List.mem_cons_of_mem _ hm)), lookup_setNamed, if_neg hn1]

theorem array_some {l : Link K} {name : String} {dst : List K} (h : l.array name = some dst) :
    ∃ g, l.params.lookup name = some ⟨some dst, g⟩ := by
  unfold Link.array at h
  cases hl : l.params.lookup name with
  | none => rw [hl] at h; simp at h
  | some p =>
    obtain ⟨a, g⟩ := p
    rw [hl] at h
    simp only [Option.bind_some] at h
    exact ⟨g, by rw [h]⟩

theorem stats_some {l : Link K} {name : String} {t : BN K} (h : l.stats name = some t) :
    l.links.lookup name = some (some t) := by
  unfold Link.stats at h
  cases hl : l.links.lookup name with
  | none => rw [hl] at h; simp at h
  | some p => rw [hl] at h; simp only [Option.join_some] at h; rw [h]

theorem copyWith_spec (f : K → K → K) {target source : Link K} (h : Compatible target source) :
    ∃ out, copyWith f target source = .ok out ∧
      out.params.map Prod.fst = target.params.map Prod.fst ∧
      (∀ name p src dst, (name, p) ∈ source.params → p.array = some src → target.array name = some dst →
        out.array name = some (List.zipWith f dst src)) ∧
      (∀ name, name ∉ source.params.map Prod.fst → out.array name = target.array name) ∧
      (∀ name, out.grad name = target.grad name) ∧
      (∀ name bn t, (name, some bn) ∈ source.links → target.stats name = some t →
        out.stats name = some ⟨List.zipWith f t.avgMean bn.avgMean, List.zipWith f t.avgVar bn.avgVar⟩) ∧
      (∀ name, (∀ bn, (name, some bn) ∉ source.links) → out.stats name = target.stats name) := by
  obtain ⟨ps, p1, p2, p3, p4⟩ := copyParams_spec f source.params target.params h.uniqueParams (by
    intro name p hm
    obtain ⟨src, dst, a1, a2, a3⟩ := h.params name p hm
    obtain ⟨g, hg⟩ := array_some a2
    exact ⟨src, dst, g, a1, hg, a3⟩)
  obtain ⟨ls, l1, l2, l3, l4⟩ := copyLinks_spec f source.links target.links h.uniqueLinks (by
    intro name bn hm
    obtain ⟨t, a1, a2⟩ := h.links name bn hm
    exact ⟨t, stats_some a1, a2⟩)
  refine ⟨⟨ps, ls⟩, by simp only [copyWith, p1, l1, bind, Except.bind, pure, Except.pure], p2, ?_, ?_, ?_, ?_, ?_⟩
  · intro name p src dst hm hs ht
    obtain ⟨g, hg⟩ := array_some ht
    show (ps.lookup name).bind Param.array = _
    rw [p3 name p src dst g hm hs hg]; rfl
  · intro name hn
    show (ps.lookup name).bind Param.array = _
    rw [p4 name hn]; rfl
  · intro name
    show (ps.lookup name).bind Param.grad = _
    by_cases hn : name ∈ source.params.map Prod.fst
    · obtain ⟨⟨name', p⟩, hm, rfl⟩ := List.mem_map.1 hn
      obtain ⟨src, dst, a1, a2, a3⟩ := h.params _ p hm
      obtain ⟨g, hg⟩ := array_some a2
      rw [p3 _ p src dst g hm a1 hg]
      show g = (target.params.lookup name').bind Param.grad
      rw [hg]; rfl
    · rw [p4 name hn]; rfl
  · intro name bn t hm ht
    show (ls.lookup name).join = _
    rw [l3 name bn t hm (stats_some ht)]; rfl
  · intro name hn
    show (ls.lookup name).join = _
    rw [l4 name hn]; rfl

theorem zipWith_hard : ∀ (a b : List K), a.length = b.length → List.zipWith hard a b = b
  | [], [], _ => rfl
  | _ :: a, _ :: b, h => by
    simp only [List.zipWith_cons_cons, hard]
    rw [zipWith_hard a b (by simpa using h)]
  | [], _ :: _, h => by simp at h
  | _ :: _, [], h => by simp at h

/-- **C56**: after `copy_param`, every parameter and every batch normalisation statistic of
the source has the same value in the target; other parameters and all gradients of the
target are untouched. -/
theorem C56_hard {target source : Link K} (h : Compatible target source) :
    ∃ out, copyParam target source = .ok out ∧
      out.params.map Prod.fst = target.params.map Prod.fst ∧
      (∀ name p, (name, p) ∈ source.params → out.array name = p.array) ∧
      (∀ name, name ∉ source.params.map Prod.fst → out.array name = target.array name) ∧
      (∀ name, out.grad name = target.grad name) ∧
      (∀ name bn, (name, some bn) ∈ source.links → out.stats name = some bn) ∧
      (∀ name, (∀ bn, (name, some bn) ∉ source.links) → out.stats name = target.stats name) := by
  obtain ⟨out, o1, o0, o2, o3, o4, o5, o6⟩ := copyWith_spec hard h
  refine ⟨out, o1, o0, ?_, o3, o4, ?_, o6⟩
  · intro name p hm
    obtain ⟨src, dst, a1, a2, a3⟩ := h.params name p hm
    rw [o2 name p src dst hm a1 a2, zipWith_hard _ _ a3, a1]
  · intro name bn hm
    obtain ⟨t, a1, a2, a3⟩ := h.links name bn hm
    rw [o5 name bn t hm a1, zipWith_hard _ _ a2, zipWith_hard _ _ a3]

/-- **C56**: after `soft_copy_param`, every parameter and batch normalisation statistic of
the source has in the target the value `(1 - tau) * old + tau * source`; other parameters
and all gradients of the target are untouched. -/
theorem C56_soft {target source : Link K} (tau : K) (h : Compatible target source) :
    ∃ out, softCopyParam target source tau = .ok out ∧
      (∀ name p src old, (name, p) ∈ source.params → p.array = some src → target.array name = some old →
        out.array name = some (List.zipWith (fun o s => (1 - tau) * o + tau * s) old src)) ∧
      (∀ name, name ∉ source.params.map Prod.fst → out.array name = target.array name) ∧
      (∀ name, out.grad name = target.grad name) ∧
      (∀ name bn old, (name, some bn) ∈ source.links → target.stats name = some old →
        out.stats name = some ⟨List.zipWith (fun o s => (1 - tau) * o + tau * s) old.avgMean bn.avgMean,
          List.zipWith (fun o s => (1 - tau) * o + tau * s) old.avgVar bn.avgVar⟩) ∧
      (∀ name, (∀ bn, (name, some bn) ∉ source.links) → out.stats name = target.stats name) := by
  have e : soft tau = fun o s : K => (1 - tau) * o + tau * s := by
    funext o s; simp only [soft]; ring
  obtain ⟨out, o1, -, o2, o3, o4, o5, o6⟩ := copyWith_spec (soft tau) h
  exact ⟨out, o1, by rw [← e]; exact o2, o3, o4, by rw [← e]; exact o5, o6⟩

/-- `k` soft copies one after the other. -/
def softCopies (target source : Link K) (tau : K) : Nat → Py (Link K)
  | 0 => .ok target
  | k + 1 => (softCopies target source tau k).bind fun t => softCopyParam t source tau

theorem compatible_step (f : K → K → K) {target source out : Link K} (h : Compatible target source)
    (ho : copyWith f target source = .ok out) : Compatible out source := by
  obtain ⟨out', o1, -, o2, o3, o4, o5, o6⟩ := copyWith_spec f h
  rw [ho] at o1
  injection o1 with o1; subst o1
  refine ⟨h.uniqueParams, h.uniqueLinks, ?_, ?_⟩
  · intro name p hm
    obtain ⟨src, dst, a1, a2, a3⟩ := h.params name p hm
    exact ⟨src, _, a1, o2 name p src dst hm a1 a2, by simp [a3]⟩
  · intro name bn hm
    obtain ⟨t, a1, a2, a3⟩ := h.links name bn hm
    exact ⟨_, o5 name bn t hm a1, by simp [a2], by simp [a3]⟩

theorem zipWith_iter (tau : K) (k : Nat) : ∀ (old src : List K), old.length = src.length →
    List.zipWith (soft tau) (List.zipWith (fun o s => s + (1 - tau) ^ k * (o - s)) old src) src =
      List.zipWith (fun o s => s + (1 - tau) ^ (k + 1) * (o - s)) old src
  | [], [], _ => rfl
  | o :: old, s :: src, h => by
    simp only [List.zipWith_cons_cons]
    rw [zipWith_iter tau k old src (by simpa using h)]
    congr 1
    simp only [soft, pow_succ]
    ring
  | [], _ :: _, h => by simp at h
  | _ :: _, [], h => by simp at h

/-- **C56**: after `k` soft copies of a fixed source, the difference to the source is
`(1 - tau)^k` times the initial one. -/
theorem C56_iterated {target source : Link K} (tau : K) (h : Compatible target source) (k : Nat) :
    ∃ out, softCopies target source tau k = .ok out ∧ Compatible out source ∧
      ∀ name p src old, (name, p) ∈ source.params → p.array = some src → target.array name = some old →
        out.array name = some (List.zipWith (fun o s => s + (1 - tau) ^ k * (o - s)) old src) := by
  induction k with
  | zero =>
    refine ⟨target, rfl, h, ?_⟩
    intro name p src old hm hs ht
    obtain ⟨src', dst, a1, a2, a3⟩ := h.params name p hm
    rw [hs] at a1; rw [ht] at a2
    injection a1 with a1; injection a2 with a2; subst a1; subst a2
    rw [ht]
    congr 1
    have : ∀ old src : List K, old.length = src.length →
        old = List.zipWith (fun o s => s + (1 - tau) ^ 0 * (o - s)) old src := by
      intro old
      induction old with
      | nil => intro src h; cases src <;> simp at h ⊢
      | cons o old ih =>
        intro src h
        cases src with
        | nil => simp at h
        | cons s src =>
          simp only [List.zipWith_cons_cons]
          rw [← ih src (by simpa using h)]
          congr 1
          ring
    exact this old src a3
  | succ k ih =>
    obtain ⟨t, t1, t2, t3⟩ := ih
    obtain ⟨out, o1, -, o2, -, -, -, -⟩ := copyWith_spec (soft tau) t2
    refine ⟨out, ?_, compatible_step _ t2 o1, ?_⟩
    · show (softCopies target source tau k).bind _ = _
      rw [t1]
      exact o1
    · intro name p src old hm hs ht
      obtain ⟨src', dst, a1, a2, a3⟩ := h.params name p hm
      rw [hs] at a1; rw [ht] at a2
      injection a1 with a1; injection a2 with a2; subst a1; subst a2
      rw [o2 name p src _ hm hs (t3 name p src old hm hs ht), zipWith_iter tau k old src a3]

/-- **C56**: a name the target lacks raises `KeyError`, an uninitialised target parameter
`TypeError`; nothing else of the target has been looked at. -/
theorem C56_errors (f : K → K → K) (target : Link K) (name : String) (p : Param K)
    (source : List (String × Param K)) (links : List (String × Option (BN K))) :
    (target.params.lookup name = none →
      copyWith f target ⟨(name, p) :: source, links⟩ = .error .keyError) ∧
    (∀ g, target.params.lookup name = some ⟨none, g⟩ →
      copyWith f target ⟨(name, p) :: source, links⟩ = .error .typeError) := by
  constructor
  · intro h
    simp only [copyWith, copyParams, h, updateParam, bind, Except.bind]
  · intro g h
    simp only [copyWith, copyParams, h, updateParam, bind, Except.bind]

/-- **C56**: `synchronize_parameters` copies from `src` to `dst` by the named method and
refuses any other name. -/
theorem C56_method (src dst : Link K) (tau : K) (method : String) :
    synchronizeParameters src dst "hard" none = copyParam dst src ∧
    synchronizeParameters src dst "soft" (some tau) = softCopyParam dst src tau ∧
    (method ≠ "hard" → method ≠ "soft" → synchronizeParameters src dst method (some tau) = .error .keyError) := by
  refine ⟨by simp [synchronizeParameters], by simp [synchronizeParameters], fun h1 h2 => ?_⟩
  simp [synchronizeParameters, h1, h2]

/-- **C56**: `copy_grad` makes every gradient of the source, also a missing one, the
gradient of the target, and changes no array and no statistic. -/
theorem C56_grad : ∀ (source target : List (String × Param K)) (links slinks : List (String × Option (BN K))),
    (source.map Prod.fst).Nodup →
    (∀ name p, (name, p) ∈ source → ∃ q, target.lookup name = some q ∧
      ∀ g old, p.grad = some g → q.grad = some old → old.length = g.length) →
    ∃ out, copyGrad ⟨target, links⟩ ⟨source, slinks⟩ = .ok out ∧ out.links = links ∧
      (∀ name p, (name, p) ∈ source → out.grad name = p.grad) ∧
      (∀ name, name ∉ source.map Prod.fst → out.params.lookup name = target.lookup name) ∧
      (∀ name, out.array name = (target.lookup name).bind Param.array)
  | [], target, links, _, _, _ => ⟨⟨target, links⟩, rfl, rfl, by simp, fun _ _ => rfl, fun _ => rfl⟩
  | (name, p) :: source, target, links, slinks, hu, hc => by
    simp only [List.map_cons, List.nodup_cons] at hu
    obtain ⟨q, h1, h2⟩ := hc name p (List.mem_cons_self ..)
    have hup : updateGrad (target.lookup name) p = .ok ⟨q.array, p.grad⟩ := by
      obtain ⟨pa, pg⟩ := p
      obtain ⟨qa, qg⟩ := q
      rw [h1]
      cases pg with
      | none => cases qg <;> rfl
      | some g =>
        cases qg with
        | none => rfl
        | some old =>
          simp only [updateGrad, combine_ok hard (h2 g old rfl rfl), bind, Except.bind, pure, Except.pure,
            zipWith_hard _ _ (h2 g old rfl rfl)]
    have hne : ∀ name' p', (name', p') ∈ source → name' ≠ name := by
      intro name' p' hm he
      subst he
      exact hu.1 (List.mem_map.2 ⟨_, hm, rfl⟩)
    obtain ⟨out, o1, o2, o3, o4, o5⟩ := C56_grad source (setNamed name ⟨q.array, p.grad⟩ target) links slinks hu.2 (by
      intro name' p' hm
      obtain ⟨q', a1, a2⟩ := hc name' p' (List.mem_cons_of_mem _ hm)
      exact ⟨q', by rw [lookup_setNamed, if_neg (hne name' p' hm), a1], a2⟩)
    refine ⟨out, ?_, o2, ?_, ?_, ?_⟩
    · simp only [copyGrad, copyGrads, hup, bind, Except.bind] at o1 ⊢
      exact o1
    · intro name' p' hm
      rcases List.mem_cons.1 hm with heq | hm
      · obtain ⟨rfl, rfl⟩ := Prod.mk.inj heq
        unfold Link.grad
        rw [o4 name' hu.1, lookup_setNamed, if_pos rfl, h1]; rfl
      · exact o3 name' p' hm
    · intro name' hn
      simp only [List.map_cons, List.mem_cons, not_or] at hn
      rw [o4 name' hn.2, lookup_setNamed, if_neg hn.1]
    · intro name'
      rw [o5, lookup_setNamed]
      split
      · rename_i he; subst he; rw [h1]; rfl
      · rfl

/-- A source and a target that has one parameter more. -/
def exampleSource : Link ℚ :=
  ⟨[("/l/W", ⟨some [1, 2], none⟩), ("/l/b", ⟨some [4], some [9]⟩)], [("/", none), ("/bn", some ⟨[1], [2]⟩)]⟩
def exampleTarget : Link ℚ :=
  ⟨[("/l/b", ⟨some [0], none⟩), ("/l/W", ⟨some [0, 6], some [5, 5]⟩), ("/x", ⟨some [7], none⟩)],
   [("/", none), ("/bn", some ⟨[3], [4]⟩)]⟩

example : Compatible exampleTarget exampleSource where
  uniqueParams := by decide
  uniqueLinks := by decide
  params := by
    intro name p hm
    simp only [exampleSource, List.mem_cons, List.not_mem_nil, or_false, Prod.mk.injEq] at hm
    rcases hm with ⟨rfl, rfl⟩ | ⟨rfl, rfl⟩
    · exact ⟨[1, 2], [0, 6], rfl, by decide, rfl⟩
    · exact ⟨[4], [0], rfl, by decide, rfl⟩
  links := by
    intro name bn hm
    simp only [exampleSource, List.mem_cons, List.not_mem_nil, or_false, Prod.mk.injEq] at hm
    rcases hm with ⟨-, h⟩ | ⟨rfl, h⟩
    · exact absurd h (by simp)
    · injection h with h; subst h; exact ⟨⟨[3], [4]⟩, by decide, rfl, rfl⟩

example : (softCopyParam exampleTarget exampleSource (1 / 4)).toOption.map (fun l => (l.array "/l/W", l.array "/l/b",
      l.array "/x", l.stats "/bn")) =
    some (some [1 / 4, 5], some [1], some [7], some ⟨[5 / 2], [7 / 2]⟩) := by decide +kernel

end Verif.CopyParam
