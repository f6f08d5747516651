import Mathlib.Order.Defs.LinearOrder
import Mathlib.Order.Lattice
import Mathlib.Data.Nat.Cast.Defs
import Mathlib.Tactic.Ring
import Mathlib.Tactic.Positivity
set_option autoImplicit false

/-!
# Python's `float`, as far as `chainerrl/misc/prioritized.py` uses it

The non-negative finite binary64 numbers: the integer multiples of 2⁻¹⁰⁷⁴ that have at most 53
significant bits.  An operation gives the representable number nearest to the exact result, of two
equally near ones the one whose last bit is 0 (IEEE 754, `roundTiesToEven`, which CPython and numpy
use).  Simplifications: there is no largest exponent, so nothing overflows to `inf`; a difference
below 0 is 0 (`_find` subtracts, in line 227, only what is not greater); and a quotient by 0 is 0
(Python raises `ZeroDivisionError`, which the models of the callers treat).
-/

namespace Verif.Float64

/-- The exponent, in units of 2⁻¹⁰⁷⁴, of the last bit of a 53-bit number between `n` and its next power of two
(for the arithmetic of prioritized.py:111-280). -/
def exp (n : Nat) : Nat := n.log2 + 1 - 53

/-- `n / d` units of 2⁻¹⁰⁷⁴ rounded to nearest, ties to even (for the arithmetic of prioritized.py:111-280). -/
def round (n d : Nat) : Nat :=
  let w := d * 2 ^ exp (n / d)
  (if w < 2 * (n % w) ∨ 2 * (n % w) = w ∧ n / w % 2 = 1 then n / w + 1 else n / w) * 2 ^ exp (n / d)

/-- The last bit of a number of units that is representable. -/
theorem round_of_dvd {n : Nat} (h : 2 ^ exp n ∣ n) : round n 1 = n := by
  obtain ⟨c, hc⟩ := h
  have hp : 0 < 2 ^ exp n := by positivity
  unfold round
  simp only [Nat.div_one, Nat.one_mul]
  have h1 : n % 2 ^ exp n = 0 := Nat.mod_eq_zero_of_dvd ⟨c, hc⟩
  rw [h1, if_neg (by omega), Nat.div_mul_cancel ⟨c, hc⟩]

theorem dvd_round (n : Nat) : 2 ^ exp n ∣ round n 1 := by
  unfold round
  simp only [Nat.div_one, Nat.one_mul]
  exact Nat.dvd_mul_left _ _

theorem dvd_of_round {n : Nat} (h : round n 1 = n) : 2 ^ exp n ∣ n := by
  have := dvd_round n
  rwa [h] at this

theorem exp_mono {m n : Nat} (h : m ≤ n) : exp m ≤ exp n := by
  unfold exp
  rcases Nat.eq_zero_or_pos m with rfl | hm
  · simp
  · have : m.log2 ≤ n.log2 := by
      rw [Nat.le_log2 (by omega)]
      exact (Nat.log2_self_le (by omega)).trans h
    omega

/-- A number with few enough bits above `2 ^ k` is representable. -/
theorem exp_le_of_lt {n k : Nat} (h : n < 2 ^ (53 + k)) : exp n ≤ k := by
  unfold exp
  rcases Nat.eq_zero_or_pos n with rfl | hn
  · simp
  · have := (Nat.log2_lt (by omega)).2 h
    omega

theorem round_of_lt {n k : Nat} (hd : 2 ^ k ∣ n) (h : n < 2 ^ (53 + k)) : round n 1 = n :=
  round_of_dvd (Dvd.dvd.trans (Nat.pow_dvd_pow 2 (exp_le_of_lt h)) hd)

theorem round_shift (j k : Nat) (h : j < 2 ^ 53) : round (j * 2 ^ k) 1 = j * 2 ^ k := by
  refine round_of_lt (k := k) (Nat.dvd_mul_left _ _) ?_
  rw [Nat.pow_add]
  exact Nat.mul_lt_mul_of_pos_right h (Nat.two_pow_pos k)

/-- The significand fits. -/
theorem quotient_lt (n d : Nat) (hd : 0 < d) : n / (d * 2 ^ exp (n / d)) < 2 ^ 53 := by
  rw [← Nat.div_div_eq_div_mul, Nat.div_lt_iff_lt_mul (by positivity), ← Nat.pow_add]
  rcases Nat.eq_zero_or_pos (n / d) with h | h
  · rw [h]; positivity
  · refine Nat.lt_of_lt_of_le Nat.lt_log2_self (Nat.pow_le_pow_right (by omega) ?_)
    unfold exp
    omega

theorem round_round (n d : Nat) (hd : 0 < d) : round (round n d) 1 = round n d := by
  have hq := quotient_lt n d hd
  have h : ∃ q k, round n d = q * 2 ^ k ∧ q ≤ 2 ^ 53 := by
    unfold round
    simp only
    split
    · exact ⟨_, _, rfl, hq⟩
    · exact ⟨_, _, rfl, hq.le⟩
  obtain ⟨q, k, h1, h2⟩ := h
  rw [h1]
  rcases Nat.lt_or_eq_of_le h2 with h2 | h2
  · refine round_of_lt (k := k) (Nat.dvd_mul_left _ _) ?_
    rw [Nat.pow_add]
    exact Nat.mul_lt_mul_of_pos_right h2 (by positivity)
  · rw [h2, ← Nat.pow_add]
    refine round_of_lt (k := k + 1) (Nat.pow_dvd_pow 2 (by omega)) ?_
    exact Nat.pow_lt_pow_right (by omega) (by omega)

end Verif.Float64

namespace Verif
open Float64

/-- A non-negative `float`: `m` units of 2⁻¹⁰⁷⁴ (the priorities of prioritized.py:111-280). -/
structure F64 where
  m : Nat
  rep : round m 1 = m
deriving DecidableEq

namespace F64

theorem m_injective : Function.Injective F64.m := by
  rintro ⟨a, _⟩ ⟨b, _⟩ h
  cases h
  rfl

instance : LinearOrder F64 := LinearOrder.lift' F64.m m_injective
instance : Zero F64 := ⟨⟨0, by decide⟩⟩
/-- A Python integer as a `float`. -/
instance : NatCast F64 := ⟨fun n => ⟨round (n * 2 ^ 1074) 1, round_round _ _ (by omega)⟩⟩
instance : One F64 := ⟨((1 : Nat) : F64)⟩
instance : Add F64 := ⟨fun a b => ⟨round (a.m + b.m) 1, round_round _ _ (by omega)⟩⟩
instance : Sub F64 := ⟨fun a b => ⟨round (a.m - b.m) 1, round_round _ _ (by omega)⟩⟩
instance : Mul F64 := ⟨fun a b => ⟨round (a.m * b.m) (2 ^ 1074), round_round _ _ (Nat.two_pow_pos 1074)⟩⟩
instance : Div F64 := ⟨fun a b => if h : b.m = 0 then 0 else ⟨round (a.m * 2 ^ 1074) b.m, round_round _ _ (Nat.pos_of_ne_zero h)⟩⟩

/-- A variate of `np.random.uniform`: `j / 2⁵³` with `j < 2⁵³` (`random_sample` of numpy) (prioritized.py:262-280). -/
def variate (j : Nat) (h : j < 2 ^ 53) : F64 :=
  ⟨j * 2 ^ 1021, round_shift j 1021 h⟩

end F64
end Verif
