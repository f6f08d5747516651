import Mathlib.Tactic.Linarith
import Mathlib.Tactic.Ring
import Mathlib.Tactic.FieldSimp
import Mathlib.Algebra.Order.Group.MinMax
import Verif.Props.CategoricalLoss
import Verif.Props.Optimality

/-! Lemmas for C148: averages of Lipschitz functions under the C51 projection. -/

set_option autoImplicit false
set_option linter.unusedSectionVars false

namespace Verif.CategoricalLoss

/-- The average of `f` under a distribution `p` over the atoms `z`. -/
def avg (z p : List ℝ) (f : ℝ → ℝ) : ℝ := (List.zipWith (fun zi pi => pi * f zi) z p).sum

/-- `f` changes by at most `L` times the change of its argument. -/
def Lip (L : ℝ) (f : ℝ → ℝ) : Prop := ∀ x y, |f x - f y| ≤ L * |x - y|

theorem meanOf_eq (z p : List ℝ) : meanOf z p = avg z p id := by
  unfold meanOf avg
  rw [List.zipWith_comm]
  congr 1

theorem avg_sub : ∀ (z p : List ℝ) (f g : ℝ → ℝ), avg z p (fun x => f x - g x) = avg z p f - avg z p g
  | [], _, _, _ => by simp [avg]
  | _ :: _, [], _, _ => by simp [avg]
  | a :: z, b :: p, f, g => by
    have := avg_sub z p f g
    simp only [avg, List.zipWith_cons_cons, List.sum_cons] at this ⊢
    rw [this]; ring

theorem avg_affine : ∀ (z p : List ℝ) (f : ℝ → ℝ) (a c : ℝ), z.length = p.length → avg z p (fun x => a * f x + c) = a * avg z p f + c * p.sum
  | [], [], _, _, _, _ => by simp [avg]
  | [], _ :: _, _, _, _, h => by simp at h
  | _ :: _, [], _, _, _, h => by simp at h
  | u :: z, b :: p, f, a, c, h => by
    have := avg_affine z p f a c (by simpa using h)
    simp only [avg, List.zipWith_cons_cons, List.sum_cons] at this ⊢
    rw [this]; ring

theorem avg_const (n : Nat) (z p : List ℝ) (hz : z.length = n) (hp : IsDist n p) (c : ℝ) : avg z p (fun _ => c) = c := by
  have := avg_affine z p (fun _ => 0) 0 c (by rw [hz, hp.length])
  simp only [zero_mul, zero_add, hp.sum, mul_one] at this
  exact this

theorem avg_mono (z p : List ℝ) (hp : ∀ x ∈ p, 0 ≤ x) (f g : ℝ → ℝ) (h : ∀ x ∈ z, f x ≤ g x) : avg z p f ≤ avg z p g := by
  induction z generalizing p with
  | nil => simp [avg]
  | cons a z ih =>
    cases p with
    | nil => simp [avg]
    | cons b p =>
      have := ih p (fun x hx => hp x (List.mem_cons_of_mem _ hx)) fun x hx => h x (List.mem_cons_of_mem _ hx)
      simp only [avg, List.zipWith_cons_cons, List.sum_cons] at this ⊢
      exact add_le_add (mul_le_mul_of_nonneg_left (h a (by simp)) (hp b (by simp))) this

theorem avg_close (n : Nat) (z p : List ℝ) (hz : z.length = n) (hp : IsDist n p) (f g : ℝ → ℝ) (δ : ℝ) (h : ∀ x ∈ z, |f x - g x| ≤ δ) :
    |avg z p f - avg z p g| ≤ δ := by
  rw [← avg_sub, abs_le]
  have h1 := avg_mono z p hp.nonneg (fun x => f x - g x) (fun _ => δ) fun x hx => (abs_le.1 (h x hx)).2
  have h2 := avg_mono z p hp.nonneg (fun _ => -δ) (fun x => f x - g x) fun x hx => (abs_le.1 (h x hx)).1
  rw [avg_const n z p hz hp] at h1 h2
  exact ⟨h2, h1⟩

section
variable (vMin dz : ℝ) (n : Nat)

/-- The value of `f` after the projection moves a unit of mass from `y` to the atoms. -/
noncomputable def interp (f : ℝ → ℝ) (y : ℝ) : ℝ := ((List.range n).map fun m : Nat => Categorical.share vMin dz n y m * f (vMin + m * dz)).sum

theorem avg_project (yr pr : List ℝ) (f : ℝ → ℝ) : avg (Categorical.support vMin dz n) (Categorical.paperRow vMin dz n yr pr) f =
    (List.zipWith (fun y p => p * interp vMin dz n f y) yr pr).sum := by
  unfold interp
  rw [← Categorical.sum_swap, avg, Categorical.support, Categorical.paperRow, List.zipWith_map, List.zipWith_self]

theorem avg_map (h : ℝ → ℝ) (z p : List ℝ) (f : ℝ → ℝ) : (List.zipWith (fun y p => p * f y) (z.map h) p).sum = avg z p fun x => f (h x) := by
  rw [avg, List.zipWith_map_left]

variable (hn : 2 ≤ n) (hd : 0 < dz)
include hn hd

theorem interp_id (y : ℝ) : interp vMin dz n id y = Categorical.clipped vMin dz n y := (Categorical.share_sums vMin dz n hn hd y).2

/-- Linear interpolation between neighbouring atoms. -/
theorem interp_cell (f : ℝ → ℝ) (y : ℝ) : ∃ (l : Nat) (t : ℝ), 0 ≤ t ∧ t < 1 ∧ Categorical.clipped vMin dz n y = vMin + (l + t) * dz ∧
    interp vMin dz n f y = f (vMin + l * dz) + t * (f (vMin + (l + 1) * dz) - f (vMin + l * dz)) := by
  obtain ⟨-, h2, h3⟩ := Categorical.bj_eq vMin dz n hn hd y
  set b := (Categorical.clipped vMin dz n y - vMin) / dz with hb
  have hy : Categorical.clipped vMin dz n y = vMin + b * dz := by rw [hb]; field_simp; ring
  have hs : ∀ m : Nat, Categorical.share vMin dz n y m =
      (if Int.floor b = (m : Int) then (1 - (b - (Int.floor b : ℝ))) else 0) +
      (if Int.ceil b = (m : Int) then (b - (Int.floor b : ℝ)) else 0) := by
    intro m
    have := Categorical.two_updates b 1 m
    simp only [one_mul] at this
    rw [this, Categorical.share, hy]
    congr 2
    rw [show vMin + b * dz - (vMin + m * dz) = (b - m) * dz by ring, abs_mul, abs_of_pos hd]
    field_simp
  obtain ⟨l, hl⟩ := Int.eq_ofNat_of_zero_le (Int.floor_nonneg.2 h2)
  have hu0 : 0 ≤ Int.ceil b := (Int.floor_nonneg.2 h2).trans (Int.floor_le_ceil _)
  obtain ⟨u, hu⟩ := Int.eq_ofNat_of_zero_le hu0
  have hln : l < n := by
    have : Int.floor b < n := by rw [Int.floor_lt]; push_cast; linarith
    omega
  have hun : u < n := by
    have : Int.ceil b ≤ (n : Int) - 1 := by rw [Int.ceil_le]; push_cast; exact h3
    omega
  have hl1 : (l : ℝ) ≤ b := by
    have := Int.floor_le b
    rw [hl] at this
    simpa using this
  have hl2 : b < l + 1 := by
    have := Int.lt_floor_add_one b
    rw [hl] at this
    simpa using this
  have hs' : ∀ m : Nat, Categorical.share vMin dz n y m =
      (if l = m then (1 - (b - l)) else 0) + (if u = m then (b - l) else 0) := by
    intro m
    rw [hs m, hl, hu]
    simp only [Int.natCast_inj]
    norm_cast
  refine ⟨l, b - l, by linarith, by linarith, by rw [hy]; ring, ?_⟩
  unfold interp
  simp only [hs', add_mul, List.sum_map_add, ite_mul, zero_mul]
  rw [Categorical.sum_range_ite n l hln (fun m => (1 - (b - l)) * f (vMin + m * dz)),
    Categorical.sum_range_ite n u hun (fun m => (b - l) * f (vMin + m * dz))]
  have hlu : u = l ∧ b = l ∨ u = l + 1 := by
    have a1 : Int.floor b ≤ Int.ceil b := Int.floor_le_ceil b
    have a2 : Int.ceil b ≤ Int.floor b + 1 := Int.ceil_le_floor_add_one b
    have : u = l ∨ u = l + 1 := by omega
    rcases this with h | h
    · left
      refine ⟨h, le_antisymm ?_ hl1⟩
      have := Int.le_ceil b
      rw [hu, h] at this
      simpa using this
    · right; exact h
  rcases hlu with ⟨h, hbl⟩ | h
  · rw [h, hbl]; ring
  · rw [h]; push_cast; ring_nf

theorem lip_step {L : ℝ} {f : ℝ → ℝ} (hf : Lip L f) (l : ℝ) : |f (vMin + (l + 1) * dz) - f (vMin + l * dz)| ≤ L * dz := by
  have := hf (vMin + (l + 1) * dz) (vMin + l * dz)
  rwa [show vMin + (l + 1) * dz - (vMin + l * dz) = dz by ring, abs_of_pos hd] at this

theorem interp_lip {L : ℝ} (f : ℝ → ℝ) (hf : Lip L f) (y y' : ℝ) : |interp vMin dz n f y - interp vMin dz n f y'| ≤
    L * |Categorical.clipped vMin dz n y - Categorical.clipped vMin dz n y'| := by
  have key : ∀ y y', Categorical.clipped vMin dz n y ≤ Categorical.clipped vMin dz n y' →
      |interp vMin dz n f y' - interp vMin dz n f y| ≤ L * (Categorical.clipped vMin dz n y' - Categorical.clipped vMin dz n y) := by
    intro y y' hle
    obtain ⟨l, t, t0, t1, c1, i1⟩ := interp_cell vMin dz n hn hd f y
    obtain ⟨l', t', t0', t1', c1', i1'⟩ := interp_cell vMin dz n hn hd f y'
    rw [i1, i1', c1, c1']
    rw [c1, c1'] at hle
    have hlt : (l : ℝ) + t ≤ l' + t' := by
      by_contra h
      nlinarith
    have hll : l ≤ l' := by
      by_contra h
      have : (l' : ℝ) + 1 ≤ l := by exact_mod_cast Nat.lt_of_not_le h
      linarith
    rcases Nat.eq_or_lt_of_le hll with rfl | hlt'
    · have e : f (vMin + l * dz) + t' * (f (vMin + (l + 1) * dz) - f (vMin + l * dz)) -
          (f (vMin + l * dz) + t * (f (vMin + (l + 1) * dz) - f (vMin + l * dz))) =
          (t' - t) * (f (vMin + (l + 1) * dz) - f (vMin + l * dz)) := by ring
      rw [e, abs_mul, abs_of_nonneg (by linarith)]
      have := mul_le_mul_of_nonneg_left (lip_step vMin dz n hn hd hf l) (show 0 ≤ t' - t by linarith)
      calc _ ≤ _ := this
        _ = _ := by ring
    · have hl1 : (l : ℝ) + 1 ≤ l' := by exact_mod_cast hlt'
      have e : f (vMin + l' * dz) + t' * (f (vMin + (l' + 1) * dz) - f (vMin + l' * dz)) -
          (f (vMin + l * dz) + t * (f (vMin + (l + 1) * dz) - f (vMin + l * dz))) =
          t' * (f (vMin + (l' + 1) * dz) - f (vMin + l' * dz)) + (f (vMin + l' * dz) - f (vMin + (l + 1) * dz)) +
          (1 - t) * (f (vMin + (l + 1) * dz) - f (vMin + l * dz)) := by ring
      have h1 := mul_le_mul_of_nonneg_left (lip_step vMin dz n hn hd hf l') t0'
      have h2 := mul_le_mul_of_nonneg_left (lip_step vMin dz n hn hd hf l) (show 0 ≤ 1 - t by linarith)
      have h3 := hf (vMin + l' * dz) (vMin + (l + 1) * dz)
      rw [show vMin + l' * dz - (vMin + (l + 1) * dz) = ((l' : ℝ) - (l + 1)) * dz by ring, abs_mul, abs_of_pos hd,
        abs_of_nonneg (show 0 ≤ (l' : ℝ) - (l + 1) by linarith)] at h3
      rw [e]
      refine (abs_add_three _ _ _).trans ?_
      rw [abs_mul, abs_mul, abs_of_nonneg t0', abs_of_nonneg (show 0 ≤ 1 - t by linarith)]
      calc _ ≤ _ := add_le_add (add_le_add h1 h3) h2
        _ = _ := by ring
  rcases le_total (Categorical.clipped vMin dz n y) (Categorical.clipped vMin dz n y') with h | h
  · rw [abs_sub_comm, abs_sub_comm (Categorical.clipped vMin dz n y), abs_of_nonneg (sub_nonneg.2 h)]
    exact key y y' h
  · rw [abs_of_nonneg (sub_nonneg.2 h)]
    exact key y' y h

omit hn hd in
theorem clipped_lip (y y' : ℝ) : |Categorical.clipped vMin dz n y - Categorical.clipped vMin dz n y'| ≤ |y - y'| := by
  unfold Categorical.clipped
  refine (abs_max_sub_max_le_max _ _ _ _).trans ?_
  rw [sub_self, abs_zero, max_eq_right (abs_nonneg _)]
  refine (abs_min_sub_min_le_max _ _ _ _).trans ?_
  rw [sub_self, abs_zero, max_eq_right (abs_nonneg _)]

omit hn hd in
theorem clipped_eq (y : ℝ) (h1 : vMin ≤ y) (h2 : y ≤ vMin + (n - 1) * dz) : Categorical.clipped vMin dz n y = y := by
  rw [Categorical.clipped, min_eq_right h2, max_eq_right h1]

omit hn hd in
theorem clipped_close (y ε : ℝ) (hε : 0 ≤ ε) (h0 : vMin ≤ vMin + (n - 1) * dz) (h1 : vMin - ε ≤ y) (h2 : y ≤ vMin + (n - 1) * dz + ε) :
    |Categorical.clipped vMin dz n y - y| ≤ ε := by
  unfold Categorical.clipped
  rcases le_total y (vMin + (n - 1) * dz) with h | h
  · rw [min_eq_right h]
    rcases le_total vMin y with h' | h'
    · rw [max_eq_right h', sub_self, abs_zero]; exact hε
    · rw [max_eq_left h', abs_of_nonneg (by linarith)]; linarith
  · rw [min_eq_left h, max_eq_right h0, abs_le]; constructor <;> linarith

/-- Projecting changes the average of `f` by at most half the distance between atoms. -/
theorem interp_close {L : ℝ} (hL : 0 ≤ L) (f : ℝ → ℝ) (hf : Lip L f) (y : ℝ) (h1 : vMin ≤ y) (h2 : y ≤ vMin + (n - 1) * dz) :
    |interp vMin dz n f y - f y| ≤ L * (dz / 2) := by
  obtain ⟨l, t, t0, t1, c, i⟩ := interp_cell vMin dz n hn hd f y
  rw [clipped_eq vMin dz n y h1 h2] at c
  have a1 := hf (vMin + l * dz) y
  have a2 := hf (vMin + (l + 1) * dz) y
  rw [c, show vMin + l * dz - (vMin + (l + t) * dz) = -(t * dz) by ring, abs_neg, abs_of_nonneg (mul_nonneg t0 hd.le)] at a1
  rw [c, show vMin + (l + 1) * dz - (vMin + (l + t) * dz) = (1 - t) * dz by ring,
    abs_of_nonneg (mul_nonneg (show 0 ≤ 1 - t by linarith) hd.le)] at a2
  rw [← c] at a1 a2
  have e : interp vMin dz n f y - f y = (1 - t) * (f (vMin + l * dz) - f y) + t * (f (vMin + (l + 1) * dz) - f y) := by rw [i]; ring
  rw [e]
  refine (abs_add_le _ _).trans ?_
  rw [abs_mul, abs_mul, abs_of_nonneg t0, abs_of_nonneg (show 0 ≤ 1 - t by linarith)]
  have b1 := mul_le_mul_of_nonneg_left a1 (show 0 ≤ 1 - t by linarith)
  have b2 := mul_le_mul_of_nonneg_left a2 t0
  have : 0 ≤ L * dz * (1 - 2 * t) ^ 2 := by positivity
  nlinarith

theorem mem_support (x : ℝ) (hx : x ∈ Categorical.support vMin dz n) : vMin ≤ x ∧ x ≤ vMin + (n - 1) * dz := by
  obtain ⟨i, hi, rfl⟩ := List.mem_map.1 hx
  have h1 : (i : ℝ) + 1 ≤ n := by exact_mod_cast List.mem_range.1 hi
  have h2 : (0 : ℝ) ≤ i := Nat.cast_nonneg i
  constructor <;> nlinarith

end

theorem avg_support (vMin dz : ℝ) (n : Nat) (p : List ℝ) (hp : p.length = n) (f : ℝ → ℝ) :
    avg (Categorical.support vMin dz n) p f = ((List.range n).map fun i : Nat => p.getD i 0 * f (vMin + i * dz)).sum := by
  have : p = (List.range n).map fun i => p.getD i 0 := by
    apply List.ext_getElem
    · simp [hp]
    · intro i h1 h2
      simp [h1]
  conv_lhs => rw [this]
  rw [avg, Categorical.support, List.zipWith_map, List.zipWith_self]

theorem expect_sum {α β : Type} (l : List (ℝ × α)) (L : List β) (h : α → β → ℝ) :
    MDP.expect l (fun o => (L.map (h o)).sum) = (L.map fun i => MDP.expect l fun o => h o i).sum := by
  unfold MDP.expect
  induction l with
  | nil => simp
  | cons x l ih => simp only [List.map_cons, List.sum_cons, ih, List.sum_map_add, List.sum_map_mul_left]

theorem expect_mul_right {α : Type} (l : List (ℝ × α)) (f : α → ℝ) (c : ℝ) :
    MDP.expect l (fun o => f o * c) = MDP.expect l f * c := by
  unfold MDP.expect
  rw [← List.sum_map_mul_right]
  congr 1
  exact List.map_congr_left fun x _ => by ring

/-- The average under a mixture. -/
theorem avg_mixture {α : Type} (vMin dz : ℝ) (n : Nat) (l : List (ℝ × α)) (y : α → List ℝ) (hy : ∀ x ∈ l, (y x.2).length = n) (f : ℝ → ℝ) :
    avg (Categorical.support vMin dz n) ((List.range n).map fun i => MDP.expect l fun o => (y o).getD i 0) f =
      MDP.expect l fun o => avg (Categorical.support vMin dz n) (y o) f := by
  rw [MDP.expect_congr l _ (fun o => ((List.range n).map fun i : Nat => (y o).getD i 0 * f (vMin + i * dz)).sum)
    fun x hx => avg_support vMin dz n (y x.2) (hy x hx) f, expect_sum, avg_support _ _ _ _ (by simp)]
  congr 1
  refine List.map_congr_left fun i hi => ?_
  rw [expect_mul_right]
  simp [List.mem_range.1 hi]

end Verif.CategoricalLoss
