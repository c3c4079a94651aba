import Verif.LowIeee3
import Verif.LowFrame3
import Verif.FltForceIeee3

/-!
# `double`s without a largest number satisfy the error bounds of the forces with a floor
-/

namespace FMM
open Rounded D64

/-- **The reference implementation.** -/
theorem lowD_flt64 : flt64.LowD (1 / 2 ^ 49) (1 / 2 ^ 51) (2 ^ (-1021 : ℤ)) 1 := by
  have hpos : (0 : ℝ) < 2 ^ (-1021 : ℤ) := two_pow_pos _
  have hsm : (2 : ℝ) ^ (-1021 : ℤ) ≤ 1 / 2 ^ 53 := by
    have : (2 : ℝ) ^ (-1021 : ℤ) ≤ 2 ^ (-53 : ℤ) := two_pow_mono (by norm_num)
    refine this.trans (le_of_eq ?_)
    norm_num [zpow_neg]
  have hm : (2 : ℝ) ^ (-1022 : ℤ) ≤ 2 ^ (-1021 : ℤ) := two_pow_mono (by norm_num)
  have H : ∀ x, |rndU x - x| ≤ 1 / 2 ^ 53 * max |x| (2 ^ (-1021 : ℤ)) := fun x =>
    (Lo.rndU_err x).trans (mul_le_mul_of_nonneg_left (max_le_max le_rfl hm) (by positivity))
  refine ⟨low3_flt64, ?_, ?_, ?_⟩ <;> generalize hη : (2 : ℝ) ^ (-1021 : ℤ) = η at *
  · intro x
    refine (H _).trans ?_
    have h2 : max |Real.sin x| η ≤ 1 := max_le (Real.abs_sin_le_one x) (hsm.trans (by norm_num))
    refine (mul_le_mul_of_nonneg_left h2 (by positivity)).trans (by norm_num)
  · intro lmax x l m hx hm _
    refine (H _).trans ?_
    have h2 : max |schmidt (-1) l m x| η ≤ 2 := max_le (schmidt_le hx.le hm) (hsm.trans (by norm_num))
    refine (mul_le_mul_of_nonneg_left h2 (by positivity)).trans ?_
    have : (1 / 2 ^ 53 * 2 : ℝ) = 1 / 2 ^ 51 - 1 / 2 ^ 52 := by norm_num
    have : (1 / 2 ^ 53 : ℝ) ≤ 1 / 2 ^ 52 := by norm_num
    linarith
  · intro lmax x l m hx hm _
    show |rndU (deriv (fun t => schmidt (-1) l m (Real.cos t)) (Real.arccos x)) - _| ≤ _
    have hd := schmidt_deriv_le hx hm
    generalize deriv (fun t => schmidt (-1) l m (Real.cos t)) (Real.arccos x) = d at *
    rcases Nat.eq_zero_or_pos l with h0 | h0
    · subst h0
      rw [Nat.cast_zero, mul_zero] at hd
      have : d = 0 := abs_nonpos_iff.mp hd
      rw [this, rndU_zero, sub_zero, abs_zero, Nat.cast_zero, mul_zero]
    · have hl : (1 : ℝ) ≤ l := by exact_mod_cast h0
      refine (H _).trans ?_
      have h2 : max |d| η ≤ 2 * l := max_le hd (hsm.trans (by linarith [show (1 : ℝ) / 2 ^ 53 ≤ 1 by norm_num]))
      refine (mul_le_mul_of_nonneg_left h2 (by positivity)).trans ?_
      have : (1 / 2 ^ 53 : ℝ) * 2 ≤ 1 / 2 ^ 51 - η := by
        have : (1 / 2 ^ 53 * 2 : ℝ) = 1 / 2 ^ 51 - 1 / 2 ^ 52 := by norm_num
        have : (1 / 2 ^ 53 : ℝ) ≤ 1 / 2 ^ 52 := by norm_num
        linarith
      have := mul_le_mul_of_nonneg_right this (show (0 : ℝ) ≤ l by linarith)
      linarith

/-- Angles of at least `2 ^ -k` with the vertical axis. -/
theorem ieee_frame51 {p k : ℕ} (hp : p ≤ 42) (hk : k ≤ 21) :
    Fl3.FrameCost (1 / 2 ^ 49) (1 / 2 ^ 51) (1 / 2 ^ k) p (2 ^ (2 * k + 5)) where
  pos := by positivity
  le_one := (ieee_frame hp hk).le_one
  le := (ieee_frame hp hk).le
  small := (ieee_frame hp hk).small
  tab := by
    have h0 : (0 : ℝ) ≤ 1 / 2 ^ 49 := by positivity
    have h1 := one_add_mul_le_pow (a := (1 / 2 ^ 49 : ℝ)) (by linarith) (2 ^ (2 * k + 5))
    refine le_trans (add_le_add le_rfl ?_) h1
    push_cast
    have hq : Real.sqrt (2 * p + 1) ≤ 10 := by
      rw [Real.sqrt_le_left (by norm_num)]
      have : (p : ℝ) ≤ 42 := by exact_mod_cast hp
      linarith
    have e1 : 2 * (1 / 2 ^ 51) / (1 / 2 ^ k : ℝ) = 2 ^ k / 2 ^ 50 := by field_simp
    have h2 : (1 : ℝ) ≤ 2 ^ k := one_le_pow₀ (by norm_num)
    rw [e1, pow_add, mul_comm 2 k, pow_mul]
    calc Real.sqrt (2 * p + 1) * (2 ^ k / 2 ^ 50) ≤ 10 * (2 ^ k / 2 ^ 50) := mul_le_mul_of_nonneg_right hq (by positivity)
      _ ≤ (2 ^ k) ^ 2 * 2 ^ 5 * (1 / 2 ^ 49) := by
        rw [sq, show 10 * ((2 : ℝ) ^ k / 2 ^ 50) = 2 ^ k * (10 / 2 ^ 50) by ring,
          show (2 : ℝ) ^ k * 2 ^ k * 2 ^ 5 * (1 / 2 ^ 49) = 2 ^ k * (2 ^ k * (2 ^ 5 / 2 ^ 49)) by ring]
        refine mul_le_mul_of_nonneg_left ?_ (by positivity)
        have : (2 : ℝ) ^ 5 / 2 ^ 49 ≤ 2 ^ k * (2 ^ 5 / 2 ^ 49) := le_mul_of_one_le_left (by positivity) h2
        refine le_trans (by norm_num) this

end FMM
