import Mathlib.Data.List.Nodup
import Mathlib.Data.List.MinMax
import Mathlib.Tactic.Linarith
import Mathlib.Tactic.Ring
import Verif.Model.ExampleSeeds
set_option autoImplicit false

/-!
# C161: the seeds of the environments of the example scripts

No helper of the model but `seeds` and the tables of scripts occurs in the statements.
-/

namespace Verif.ExampleSeeds

theorem single_facts : ∀ s ∈ singles, s.several = false ∧
    (s.top = 2 ^ 32 - 1 ∧ s.limit = 2 ^ 32 ∨ s.top = 2 ^ 31 - 1 ∧ s.limit = 2 ^ 31) := by
  simp only [singles]; decide +kernel

theorem several_facts : ∀ s ∈ severals, s.several = true ∧
    (s.top = 2 ^ 32 - 1 ∧ s.limit = 2 ^ 32 ∨ s.top = 2 ^ 31 - 1 ∧ s.limit = 2 ^ 31) := by
  simp only [severals]; decide +kernel

theorem max_seeds (n : Nat) (seed : Int) :
    ((List.range n).map fun i : Nat => (i : Int) + seed * n).max? = if n = 0 then none else some (((n : Int) - 1) + seed * n) := by
  rcases n with _ | n
  · rfl
  · rw [if_neg (by omega), List.max?_eq_some_iff]
    refine ⟨List.mem_map.2 ⟨n, List.mem_range.2 (by omega), by push_cast; omega⟩, fun b hb => ?_⟩
    obtain ⟨i, hi, rfl⟩ := List.mem_map.1 hb
    have := List.mem_range.1 hi
    push_cast
    omega

/-- When a script gets through, and with which seeds. -/
theorem seeds_ok (s : Script) (n : Nat) (seed : Int) (tr te : List Int) :
    seeds s n seed = .ok (tr, te) ↔ 0 ≤ seed ∧ seed < 2 ^ 32 ∧ te = tr.map (s.top - ·) ∧
      if s.several then 0 < n ∧ ((n : Int) - 1) + seed * n < s.limit ∧ tr = (List.range n).map fun i : Nat => (i : Int) + seed * n
      else tr = [seed] := by
  have hid : ∀ l : List Int, l.map (envSeed s.top false) = l := fun l => by
    conv_rhs => rw [← List.map_id l]
    exact List.map_congr_left fun x _ => if_neg (by decide)
  have hte : ∀ l : List Int, l.map (envSeed s.top true) = l.map (s.top - ·) := fun l => by
    exact List.map_congr_left fun x _ => if_pos rfl
  unfold seeds
  by_cases h : 0 ≤ seed ∧ seed < 2 ^ 32
  · rw [if_neg (not_not.2 h)]
    by_cases hs : s.several = true
    · simp only [hs, if_true, processSeeds, max_seeds]
      by_cases hn : n = 0
      · subst hn
        simp [bind, Except.bind]
      · rw [if_neg hn]
        by_cases hl : ((n : Int) - 1) + seed * n < s.limit
        · simp only [if_pos hl, bind, Except.bind, pure, Except.pure, Except.ok.injEq, Prod.mk.injEq, hid, hte]
          constructor
          · rintro ⟨rfl, rfl⟩
            exact ⟨h.1, h.2, rfl, by omega, hl, rfl⟩
          · rintro ⟨-, -, rfl, -, -, rfl⟩
            exact ⟨rfl, rfl⟩
        · simp only [if_neg hl, bind, Except.bind, reduceCtorEq, false_iff]
          rintro ⟨-, -, -, -, h', -⟩
          exact hl h'
    · rw [if_neg hs, if_neg hs]
      show Except.ok ([seed].map (envSeed s.top false), [seed].map (envSeed s.top true)) = Except.ok (tr, te) ↔ _
      rw [Except.ok.injEq, Prod.mk.injEq, hid, hte]
      constructor
      · rintro ⟨rfl, rfl⟩
        exact ⟨h.1, h.2, rfl, rfl⟩
      · rintro ⟨-, -, rfl, rfl⟩
        exact ⟨rfl, rfl⟩
  · rw [if_pos h]
    simp only [throw, throwThe, MonadExceptOf.throw, bind, Except.bind, reduceCtorEq, false_iff]
    rintro ⟨h1, h2, -⟩
    exact h ⟨h1, h2⟩

/-- C161: a run refuses a seed that is negative or too large for the number of environments, and no other. -/
theorem C161_accepted (s : Script) (hs : s ∈ severals) (n : Nat) (seed : Int) :
    (∃ r, seeds s n seed = .ok r) ↔ 0 < n ∧ 0 ≤ seed ∧ seed * n + n ≤ s.limit := by
  have h32 : s.several = true ∧ s.limit ≤ 2 ^ 32 := by
    have := several_facts s hs
    refine ⟨this.1, ?_⟩
    omega
  constructor
  · rintro ⟨⟨tr, te⟩, h⟩
    rw [seeds_ok, if_pos h32.1] at h
    obtain ⟨h1, -, -, h2, h3, -⟩ := h
    exact ⟨h2, h1, by omega⟩
  · rintro ⟨h1, h2, h3⟩
    refine ⟨_, (seeds_ok s n seed ((List.range n).map fun i : Nat => (i : Int) + seed * n) _).2 ⟨h2, ?_, rfl, ?_⟩⟩
    rotate_left
    · rw [if_pos h32.1]
      exact ⟨h1, by omega, rfl⟩
    · have : seed * 1 ≤ seed * n := mul_le_mul_of_nonneg_left (by omega) h2
      omega

/-- C161: within a run no two training environments have the same seed, and no two test environments. -/
theorem C161_distinct (s : Script) (n : Nat) (seed : Int) (tr te : List Int) (h : seeds s n seed = .ok (tr, te)) :
    tr.Nodup ∧ te.Nodup ∧ tr.length = (if s.several then n else 1) ∧ te.length = tr.length := by
  rw [seeds_ok] at h
  obtain ⟨-, -, rfl, h⟩ := h
  have hinj : Function.Injective (s.top - · : Int → Int) := fun a b hab => by
    have : s.top - a = s.top - b := hab
    omega
  have htr : tr.Nodup ∧ tr.length = (if s.several then n else 1) := by
    by_cases hs : s.several = true
    · rw [if_pos hs] at h ⊢
      obtain ⟨-, -, rfl⟩ := h
      refine ⟨List.Nodup.map (fun a b hab => ?_) List.nodup_range, by simp⟩
      have : (a : Int) + seed * n = b + seed * n := hab
      omega
    · rw [if_neg hs] at h ⊢
      subst h
      simp
  exact ⟨htr.1, htr.1.map hinj, htr.2, by simp⟩

/-- C161: two runs with different `--seed` and the same number of environments have no training seed and no test seed in
common. -/
theorem C161_runs (s : Script) (n : Nat) (seed seed' : Int) (hne : seed ≠ seed') (tr te tr' te' : List Int)
    (h : seeds s n seed = .ok (tr, te)) (h' : seeds s n seed' = .ok (tr', te')) :
    (∀ x ∈ tr, x ∉ tr') ∧ ∀ x ∈ te, x ∉ te' := by
  rw [seeds_ok] at h h'
  obtain ⟨-, -, rfl, h⟩ := h
  obtain ⟨-, -, rfl, h'⟩ := h'
  have key : ∀ x ∈ tr, x ∉ tr' := by
    intro x hx hx'
    by_cases hs : s.several = true
    · rw [if_pos hs] at h h'
      obtain ⟨-, -, rfl⟩ := h
      obtain ⟨-, -, rfl⟩ := h'
      obtain ⟨i, hi, rfl⟩ := List.mem_map.1 hx
      obtain ⟨j, hj, hij⟩ := List.mem_map.1 hx'
      have hi := List.mem_range.1 hi
      have hj := List.mem_range.1 hj
      rcases lt_or_gt_of_ne hne with hlt | hlt
      · have : (seed + 1) * n ≤ seed' * n := mul_le_mul_of_nonneg_right (by omega) (by omega)
        have : seed * n + n ≤ seed' * n := by linarith
        omega
      · have : (seed' + 1) * n ≤ seed * n := mul_le_mul_of_nonneg_right (by omega) (by omega)
        have : seed' * n + n ≤ seed * n := by linarith
        omega
    · rw [if_neg hs] at h h'
      subst h; subst h'
      rw [List.mem_singleton] at hx hx'
      exact hne (hx.symm.trans hx')
  refine ⟨key, fun x hx hx' => ?_⟩
  obtain ⟨a, ha, rfl⟩ := List.mem_map.1 hx
  obtain ⟨b, hb, hab⟩ := List.mem_map.1 hx'
  have : b = a := by omega
  exact key a ha (this ▸ hb)

/-- C161: all seeds are in the documented range.  (A script with one environment does not check its seed against the
documented bound.) -/
theorem C161_range (s : Script) (hs : s ∈ singles ++ severals) (n : Nat) (seed : Int) (hseed : seed < s.limit) (tr te : List Int)
    (h : seeds s n seed = .ok (tr, te)) : ∀ x ∈ tr ++ te, 0 ≤ x ∧ x < s.limit := by
  have htop : s.top = s.limit - 1 := by
    rcases List.mem_append.1 hs with hs | hs
    · have := single_facts s hs
      omega
    · have := several_facts s hs
      omega
  rw [seeds_ok] at h
  obtain ⟨h0, -, rfl, h⟩ := h
  have key : ∀ x ∈ tr, 0 ≤ x ∧ x < s.limit := by
    by_cases hs : s.several = true
    · rw [if_pos hs] at h
      obtain ⟨-, hl, rfl⟩ := h
      intro x hx
      obtain ⟨i, hi, rfl⟩ := List.mem_map.1 hx
      have hi := List.mem_range.1 hi
      have : 0 ≤ seed * n := mul_nonneg h0 (by omega)
      omega
    · rw [if_neg hs] at h
      subst h
      intro x hx
      rw [List.mem_singleton] at hx
      omega
  intro x hx
  rcases List.mem_append.1 hx with hx | hx
  · exact key x hx
  · obtain ⟨a, ha, rfl⟩ := List.mem_map.1 hx
    have := key a ha
    omega

/-- C161: the scripts with one environment never use a training seed for the test environment. -/
theorem C161_single (s : Script) (hs : s ∈ singles) (n : Nat) (seed : Int) (tr te : List Int)
    (h : seeds s n seed = .ok (tr, te)) : ∀ x ∈ tr, x ∉ te := by
  have hodd : s.several = false ∧ s.top % 2 = 1 := by
    have := single_facts s hs
    refine ⟨this.1, ?_⟩
    omega
  rw [seeds_ok, if_neg (by simp [hodd.1])] at h
  obtain ⟨-, -, rfl, rfl⟩ := h
  intro x hx hx'
  simp only [List.map_cons, List.map_nil, List.mem_singleton] at hx hx'
  omega

/-- C161: exactly when some training environment and some test environment of a run share a seed. -/
theorem C161_overlap (s : Script) (hs : s ∈ severals) (n : Nat) (seed : Int) (tr te : List Int)
    (h : seeds s n seed = .ok (tr, te)) :
    (∃ x ∈ tr, x ∈ te) ↔ 2 * seed * n ≤ s.top ∧ s.top ≤ 2 * seed * n + 2 * (n - 1) := by
  have hsev : s.several = true := (several_facts s hs).1
  rw [seeds_ok, if_pos hsev] at h
  obtain ⟨h0, -, rfl, hn, -, rfl⟩ := h
  have e : 2 * seed * n = 2 * (seed * n) := by ring
  rw [e]
  constructor
  · rintro ⟨x, hx, hx'⟩
    obtain ⟨i, hi, rfl⟩ := List.mem_map.1 hx
    obtain ⟨y, hy, hxy⟩ := List.mem_map.1 hx'
    obtain ⟨j, hj, rfl⟩ := List.mem_map.1 hy
    have hi := List.mem_range.1 hi
    have hj := List.mem_range.1 hj
    omega
  · rintro ⟨h1, h2⟩
    obtain ⟨r, hr⟩ : ∃ r : Nat, (r : Int) = s.top - 2 * (seed * n) := ⟨(s.top - 2 * (seed * n)).toNat, by omega⟩
    refine ⟨((r / 2 : Nat) : Int) + seed * n, List.mem_map.2 ⟨r / 2, List.mem_range.2 (by omega), rfl⟩,
      List.mem_map.2 ⟨((r - r / 2 : Nat) : Int) + seed * n, List.mem_map.2 ⟨r - r / 2, List.mem_range.2 (by omega), rfl⟩, ?_⟩⟩
    omega

/-- C161: no training seed is a test seed when the number of environments is a power of two (up to half the range), whatever
`--seed` is. -/
theorem C161_powers (s : Script) (hs : s ∈ severals) (k : Nat) (hk : k ≤ 30) (seed : Int) (tr te : List Int)
    (h : seeds s (2 ^ k) seed = .ok (tr, te)) : ∀ x ∈ tr, x ∉ te := by
  intro x hx hx'
  obtain ⟨h1, h2⟩ := (C161_overlap s hs (2 ^ k) seed tr te h).1 ⟨x, hx, hx'⟩
  have htop : ∃ c : Int, s.top = 2 ^ 31 * c - 1 := by
    have : s.top = 2 ^ 32 - 1 ∨ s.top = 2 ^ 31 - 1 := by
      have := several_facts s hs
      omega
    rcases this with h | h
    · exact ⟨2, by rw [h]; norm_num⟩
    · exact ⟨1, by rw [h]; norm_num⟩
  obtain ⟨c, hc⟩ := htop
  have e : (2 : Int) ^ 31 = 2 * 2 ^ k * 2 ^ (30 - k) := by
    have : (2 : Int) ^ 31 = 2 ^ (1 + k + (30 - k)) := by congr 1; omega
    rw [this, pow_add, pow_add]; ring
  push_cast at h1 h2
  set m : Int := 2 ^ k with hm
  have hm0 : 0 < m := by positivity
  have h3 : s.top = 2 * m * (2 ^ (30 - k) * c) - 1 := by rw [hc, e]; ring
  set q : Int := 2 ^ (30 - k) * c
  rw [h3] at h1 h2
  -- 2 * seed * m ≤ 2 * m * q - 1 < 2 * seed * m + 2 * m - 1
  have a1 : 2 * m * seed < 2 * m * q := by nlinarith
  have a2 : 2 * m * q < 2 * m * (seed + 1) := by nlinarith
  have b1 := lt_of_mul_lt_mul_left a1 (by omega)
  have b2 := lt_of_mul_lt_mul_left a2 (by omega)
  omega

/-- C161: no training seed is a test seed as long as the seeds stay in the lower half of the range. -/
theorem C161_low (s : Script) (hs : s ∈ severals) (n : Nat) (seed : Int) (hlow : 2 * (seed * n + n) ≤ s.limit) (tr te : List Int)
    (h : seeds s n seed = .ok (tr, te)) : ∀ x ∈ tr, x ∉ te := by
  intro x hx hx'
  obtain ⟨h1, h2⟩ := (C161_overlap s hs n seed tr te h).1 ⟨x, hx, hx'⟩
  have htop : s.top = s.limit - 1 := by
    have := several_facts s hs
    omega
  have e : 2 * seed * n = 2 * (seed * n) := by ring
  omega

/-- C161, violated: with three environments, `--seed 715827882` (or `--seed 357913941` for the scripts whose seeds end at
`2 ** 31`) is accepted, and the seed of a training environment is the seed of a test environment. -/
theorem C161_violated_overlap (s : Script) (hs : s ∈ severals) :
    ∃ seed tr te, 0 ≤ seed ∧ seed < s.limit ∧ seeds s 3 seed = .ok (tr, te) ∧ ∃ x ∈ tr, x ∈ te := by
  obtain ⟨hsev, ⟨h1, h2⟩ | ⟨h1, h2⟩⟩ := several_facts s hs
  · refine ⟨715827882, (List.range 3).map fun i : Nat => (i : Int) + 715827882 * (3 : Nat), _, by norm_num, by rw [h2]; norm_num, (seeds_ok s 3 _ _ _).2 ⟨by norm_num, by norm_num, rfl, ?_⟩, ?_⟩
    · rw [if_pos hsev, h2]; exact ⟨by norm_num, by norm_num, rfl⟩
    · rw [h1]; exact ⟨2147483647, by decide, by decide⟩
  · refine ⟨357913941, (List.range 3).map fun i : Nat => (i : Int) + 357913941 * (3 : Nat), _, by norm_num, by rw [h2]; norm_num, (seeds_ok s 3 _ _ _).2 ⟨by norm_num, by norm_num, rfl, ?_⟩, ?_⟩
    · rw [if_pos hsev, h2]; exact ⟨by norm_num, by norm_num, rfl⟩
    · rw [h1]; exact ⟨1073741823, by decide, by decide⟩

/-- C161, violated: `examples/mujoco/train_trpo_gym.py` subtracts from `2 ** 32`.  With the default `--seed 0` its test
environment gets a seed outside the range, and with `--seed 2147483648` training and test use the same seed. -/
theorem C161_violated_trpo (n : Nat) :
    seeds trpoGym n 0 = .ok ([0], [2 ^ 32]) ∧ seeds trpoGym n (2 ^ 31) = .ok ([2 ^ 31], [2 ^ 31]) :=
  ⟨(seeds_ok _ _ _ _ _).2 ⟨by norm_num, by norm_num, rfl, rfl⟩, (seeds_ok _ _ _ _ _).2 ⟨by norm_num, by norm_num, rfl, rfl⟩⟩

/-! ### Concrete cases -/

/-- The numbers in the comments of the scripts: seed 1 and four processes. -/
example : seeds ⟨"gym/train_a3c_gym.py:137", true, 2 ^ 32 - 1, 2 ^ 32⟩ 4 1 =
    .ok ([4, 5, 6, 7], [4294967291, 4294967290, 4294967289, 4294967288]) :=
  (seeds_ok _ _ _ _ _).2 ⟨by norm_num, by norm_num, rfl, by norm_num, by norm_num, rfl⟩

example := C161_powers ⟨"gym/train_a3c_gym.py:137", true, 2 ^ 32 - 1, 2 ^ 32⟩ (by simp [severals]) 2 (by norm_num) 1 _ _
  ((seeds_ok _ _ _ _ _).2 ⟨by norm_num, by norm_num, rfl, by norm_num, by norm_num, rfl⟩)

example := C161_low ⟨"gym/train_a3c_gym.py:137", true, 2 ^ 32 - 1, 2 ^ 32⟩ (by simp [severals]) 12 1000 (by norm_num) _ _
  ((seeds_ok _ _ _ _ _).2 ⟨by norm_num, by norm_num, rfl, by norm_num, by norm_num, rfl⟩)

end Verif.ExampleSeeds
