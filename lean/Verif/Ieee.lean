import Verif.RoundingRoute
import Mathlib.Data.Int.Log
import Mathlib.Tactic.NormNum

/-!
# Rounding to the nearest `double`, ties to even

Without overflow and underflow: the exponent is unbounded.
-/

namespace FMM.Rounded
variable {K : Type} [Field K] [LinearOrder K] [FloorRing K]

/-- Nearest integer, ties to even. -/
def roundEven (x : K) : ℤ :=
  if x - ⌊x⌋ < 1 / 2 then ⌊x⌋ else if 1 / 2 < x - ⌊x⌋ then ⌊x⌋ + 1 else if ⌊x⌋ % 2 = 0 then ⌊x⌋ else ⌊x⌋ + 1

/-- Exponent of the unit in the last place of a `double` of this size. -/
def ulpExp (x : K) : ℤ := Int.log 2 |x| - 52

/-- Nearest number with a mantissa of 53 bits. -/
def rndNE (x : K) : K := roundEven (x / 2 ^ ulpExp x) * 2 ^ ulpExp x

variable [IsStrictOrderedRing K]

theorem roundEven_near (x : K) : |(roundEven x : K) - x| ≤ 1 / 2 := by
  have h0 := Int.floor_le x
  have h1 := Int.lt_floor_add_one x
  unfold roundEven
  rw [abs_le]
  split_ifs <;> push_cast <;> constructor <;> linarith

theorem roundEven_eq {x : K} {n : ℤ} (h : |x - n| < 1 / 2) : roundEven x = n := by
  have h2 := abs_lt.mp h
  have h1 := abs_le.mp (roundEven_near x)
  have a1 : ((roundEven x : ℤ) : K) < ((n + 1 : ℤ) : K) := by push_cast; linarith
  have a2 : ((n : ℤ) : K) < ((roundEven x + 1 : ℤ) : K) := by push_cast; linarith
  have b1 := Int.cast_lt.mp a1
  have b2 := Int.cast_lt.mp a2
  omega

theorem rndNE_rel (x : K) : |rndNE x - x| ≤ 1 / 2 ^ 53 * |x| := by
  rcases eq_or_ne x 0 with rfl | hx
  · simp [rndNE, roundEven]
  · have hp : (0 : K) < 2 ^ ulpExp x := by positivity
    have h1 := roundEven_near (x / 2 ^ ulpExp x)
    have h2 : (2 : K) ^ (Int.log 2 |x|) ≤ |x| := by
      have := Int.zpow_log_le_self (R := K) (b := 2) (by norm_num) (abs_pos.mpr hx)
      exact_mod_cast this
    have e : (2 : K) ^ (Int.log 2 |x|) = 2 ^ ulpExp x * 2 ^ 52 := by
      rw [← zpow_natCast, ← zpow_add₀ (by norm_num)]
      congr 1
      simp [ulpExp]
    have e2 : rndNE x - x = ((roundEven (x / 2 ^ ulpExp x) : K) - x / 2 ^ ulpExp x) * 2 ^ ulpExp x := by
      rw [sub_mul, div_mul_cancel₀ _ hp.ne']; rfl
    rw [e2, abs_mul, abs_of_pos hp]
    calc _ ≤ 1 / 2 * 2 ^ ulpExp x := mul_le_mul_of_nonneg_right h1 hp.le
      _ = 1 / 2 ^ 53 * (2 ^ ulpExp x * 2 ^ 52) := by ring
      _ ≤ _ := by
        rw [← e]
        exact mul_le_mul_of_nonneg_left h2 (by positivity)

theorem ulpExp_eq {x : K} {e : ℤ} (h1 : 2 ^ 52 * 2 ^ e ≤ |x|) (h2 : |x| < 2 ^ 53 * 2 ^ e) : ulpExp x = e := by
  have hx : 0 < |x| := lt_of_lt_of_le (by positivity) h1
  have l1 : e + 52 ≤ Int.log 2 |x| := by
    refine (Int.zpow_le_iff_le_log (R := K) (b := 2) (by norm_num) hx).mp ?_
    push_cast
    rw [zpow_add₀ (by norm_num), mul_comm]
    exact_mod_cast h1
  have l2 : Int.log 2 |x| < e + 53 := by
    refine (Int.lt_zpow_iff_log_lt (R := K) (b := 2) (by norm_num) hx).mp ?_
    push_cast
    rw [zpow_add₀ (by norm_num), mul_comm]
    exact_mod_cast h2
  unfold ulpExp
  omega

/-- Less than half a unit in the last place is lost. -/
theorem rndNE_absorb {n e : ℤ} (h1 : 2 ^ 52 + 1 ≤ |n|) (h2 : |n| + 1 ≤ 2 ^ 53) {y : K} (hy : |y| < 2 ^ e / 2) :
    rndNE ((n : K) * 2 ^ e + y) = n * 2 ^ e := by
  have hp : (0 : K) < 2 ^ e := by positivity
  have h1' : (2 : K) ^ 52 + 1 ≤ |(n : K)| := by exact_mod_cast h1
  have h2' : |(n : K)| + 1 ≤ (2 : K) ^ 53 := by exact_mod_cast h2
  have ha : |(n : K) * 2 ^ e| = |(n : K)| * 2 ^ e := by rw [abs_mul, abs_of_pos hp]
  have m1 := mul_le_mul_of_nonneg_right h1' hp.le
  have m2 := mul_le_mul_of_nonneg_right h2' hp.le
  have hu : ulpExp ((n : K) * 2 ^ e + y) = e := by
    apply ulpExp_eq
    · have := abs_sub_abs_le_abs_sub ((n : K) * 2 ^ e) (-y)
      rw [sub_neg_eq_add, abs_neg] at this
      linarith
    · have := abs_add_le ((n : K) * 2 ^ e) y
      linarith
  unfold rndNE
  rw [hu]
  congr 2
  apply roundEven_eq
  rw [add_div, mul_div_cancel_right₀ _ hp.ne', add_sub_cancel_left, abs_div, abs_of_pos hp, div_lt_iff₀ hp]
  linarith

/-- Multiples of the unit in the last place are not changed. -/
theorem rndNE_exact {n e : ℤ} (h1 : 2 ^ 52 + 1 ≤ |n|) (h2 : |n| + 1 ≤ 2 ^ 53) : rndNE ((n : K) * 2 ^ e) = n * 2 ^ e := by
  simpa using rndNE_absorb (K := K) (e := e) h1 h2 (y := 0) (by simp; positivity)

end FMM.Rounded
