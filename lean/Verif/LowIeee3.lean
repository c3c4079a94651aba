import Verif.LowYlm3
import Verif.LowIeee
import Verif.DoubleLib3
import Verif.PropsFltOps3

/-!
# `double`s without a largest number satisfy the error bounds with a floor
-/

namespace FMM
open Rounded D64

theorem rndU_big {x : ℝ} (h : (2 : ℝ) ^ (-1022 : ℤ) ≤ |x|) : rndU x = rndNE x := by
  unfold rndU
  rw [if_neg (not_lt.mpr h)]

/-- The table of the `A_n^m` is not affected by underflow. -/
theorem almRnd_U (n : ℕ) (m : ℤ) (hn : n ≤ 84) (hm : |m| ≤ n) : almRnd rndU n m = almRnd rndNE n m := by
  obtain ⟨m1, m2⟩ := abs_le.mp hm
  have big : ∀ {a b : ℤ} {x : ℝ}, -1022 ≤ a → Bnd a b x → rndU x = rndNE x := fun ha h => rndU_big ((two_pow_mono ha).trans h.1)
  have b1 := fact_bnd (k := (n - m).toNat) (by omega)
  have b2 := fact_bnd (k := (n + m).toNat) (by omega)
  have e1 := big (by norm_num) b1
  have e2 := big (by norm_num) b2
  have b3 := (rndU_bnd (by norm_num) b1).mul (rndU_bnd (by norm_num) b2)
  have e3 := big (by norm_num) b3
  have b4 := rndU_bnd (by norm_num) b3
  unfold almRnd
  rw [← e1, ← e2, ← e3]
  have hnn : 0 ≤ rndU (rndU ((n - m).toNat.factorial : ℝ) * rndU ((n + m).toNat.factorial : ℝ)) :=
    rndU_nonneg (mul_nonneg (rndU_nonneg (Nat.cast_nonneg _)) (rndU_nonneg (Nat.cast_nonneg _)))
  have b5 := bnd_rsqrt (b := 1010) (by simpa using b4) hnn
  rw [← big (by norm_num) b5]
  have b6 := (rndU_bnd (by norm_num) b5).inv
  rw [neg_zero] at b6
  by_cases c : n % 2 = 0
  · rw [if_pos c, one_div]; exact big (by norm_num) b6
  · rw [if_neg c, neg_div, one_div]; exact big (by norm_num) b6.neg

/-- **The reference implementation.** -/
theorem low3_flt64 : flt64.Low (1 / 2 ^ 49) (1 / 2 ^ 51) (2 ^ (-1021 : ℤ)) 1 := by
  have hpos : (0 : ℝ) < 2 ^ (-1021 : ℤ) := two_pow_pos _
  have hsm : (2 : ℝ) ^ (-1021 : ℤ) ≤ 1 / 2 ^ 53 := by
    have : (2 : ℝ) ^ (-1021 : ℤ) ≤ 2 ^ (-53 : ℤ) := two_pow_mono (by norm_num)
    refine this.trans (le_of_eq ?_)
    norm_num [zpow_neg]
  have hm : (2 : ℝ) ^ (-1022 : ℤ) ≤ 2 ^ (-1021 : ℤ) := two_pow_mono (by norm_num)
  have h1 : (2 : ℝ) ^ (-1021 : ℤ) ≤ 1 / 20 := hsm.trans (by norm_num)
  generalize hη : (2 : ℝ) ^ (-1021 : ℤ) = η at *
  have H : ∀ x, |rndU x - x| ≤ 1 / 2 ^ 53 * max |x| η := fun x =>
    (Lo.rndU_err x).trans (mul_le_mul_of_nonneg_left (max_le_max le_rfl hm) (by positivity))
  have up : ∀ x : ℝ, 1 / 2 ^ 53 * max x η ≤ 1 / 2 ^ 49 * max x η := fun x =>
    mul_le_mul_of_nonneg_right (by norm_num) (hpos.le.trans (le_max_right _ _))
  have H0 : ∀ {x}, 0 ≤ x → |rndU x - x| ≤ 1 / 2 ^ 49 * max x η := fun {x} hx => by
    have := (H x).trans (up |x|)
    rwa [abs_of_nonneg hx] at this
  have one : ∀ {x : ℝ}, |x| ≤ 1 → |rndU x - x| ≤ 1 / 2 ^ 53 := fun {x} hx => by
    refine (H x).trans ?_
    have : max |x| η ≤ 1 := max_le hx (h1.trans (by norm_num))
    have := mul_le_mul_of_nonneg_left this (show (0 : ℝ) ≤ 1 / 2 ^ 53 by positivity)
    linarith
  have hlow : (Flt.ofRnd rndU).Low (1 / 2 ^ 49) η 1 := Lo.low_flt64 one_pos le_rfl (by rw [hη]; linarith) h1
  refine ⟨hlow, ?_, fun w => H0 (Vec.norm_nonneg w), ?_, fun x y => H0 (Real.sqrt_nonneg _), fun y x => (H _).trans (up _),
    fun x => ?_, fun x => rndU_one (Real.abs_cos_le_one x), fun phi => ?_, ?_, fun lmax x l m hx hm _ => ?_, fun n m hn hm => ?_⟩
  · refine hsm.trans (by norm_num)
  · show rndU (Vec.norm 0) = 0
    rw [show Vec.norm (0 : Vec 3) = 0 by simp [Vec.norm, Vec.hypot3], rndU_zero]
  · exact (one (Real.abs_cos_le_one x)).trans (by norm_num)
  · have e : Complex.exp (Complex.I * phi) = ⟨Real.cos phi, Real.sin phi⟩ := by
      rw [mul_comm]
      exact Complex.ext (Complex.exp_ofReal_mul_I_re phi) (Complex.exp_ofReal_mul_I_im phi)
    rw [e]
    have h := Complex.norm_le_abs_re_add_abs_im ((⟨rndU (Real.cos phi), rndU (Real.sin phi)⟩ : ℂ) - ⟨Real.cos phi, Real.sin phi⟩)
    refine h.trans ?_
    have a := one (Real.abs_cos_le_one phi)
    have b := one (Real.abs_sin_le_one phi)
    simp only [Complex.sub_re, Complex.sub_im]
    refine (add_le_add a b).trans (by norm_num)
  · have h2 : (1 : ℝ) ≤ Real.sqrt 2 := Real.one_le_sqrt.mpr (by norm_num)
    have := H0 (x := Real.sqrt 2) (Real.sqrt_nonneg _)
    rw [max_eq_left (h1.trans (by linarith))] at this
    exact this
  · refine (H _).trans ?_
    have h2 : max |schmidt (-1) l m x| η ≤ 2 := max_le (schmidt_le hx hm) (by linarith)
    have h3 := mul_le_mul_of_nonneg_left h2 (show (0 : ℝ) ≤ 1 / 2 ^ 53 by positivity)
    refine h3.trans ?_
    have : (1 / 2 ^ 53 * 2 : ℝ) = 1 / 2 ^ 51 - 1 / 2 ^ 52 := by norm_num
    have : (1 / 2 ^ 53 : ℝ) ≤ 1 / 2 ^ 52 := by norm_num
    linarith
  · show |almRnd rndU n m - aSpec n m| ≤ _
    rw [almRnd_U n m hn hm]
    have h := (almRnd_err (r := rndNE) (v := 1 / 2 ^ 53) (by positivity) (by norm_num) rndNE_rel n m).1
    rw [Real.norm_eq_abs] at h
    refine h.trans (mul_le_mul_of_nonneg_right ?_ (abs_nonneg _))
    have := pow9_le (v := 1 / 2 ^ 53) (by positivity) (by norm_num)
    have e : (16 * (1 / 2 ^ 53) : ℝ) = 1 / 2 ^ 49 := by norm_num
    rw [e] at this
    linarith

/-- For `double`s and orders at most 42, one operation has a relative error below `2^-12`, as much as `2^37` roundings. -/
theorem double_cost51 {p : ℕ} (hp : p ≤ 42) : OpCost (1 / 2 ^ 49) (1 / 2 ^ 51) p (2 ^ 37) := by
  have hp' : (p : ℝ) ≤ 42 := by exact_mod_cast hp
  have hsq : Real.sqrt (18 * (1 / 2 ^ 49)) ≤ 1 / 5000000 := by
    rw [Real.sqrt_le_left (by norm_num)]; norm_num
  have hs1 : Real.sqrt (2 * p + 1) ≤ 10 := by
    rw [Real.sqrt_le_left (by norm_num)]; linarith
  have hs2 : Real.sqrt (2 * (2 * p : ℕ) + 1) ≤ 14 := by
    rw [Real.sqrt_le_left (by norm_num)]; push_cast; linarith
  have hpow : ∀ n : ℕ, n ≤ 2600 → ((1 : ℝ) + 1 / 2 ^ 49) ^ n ≤ 1 + 1 / 10 ^ 11 := by
    intro n hn
    have hn' : (n : ℝ) ≤ 2600 := by exact_mod_cast hn
    have h1 : (n : ℝ) * (1 / 2 ^ 49) ≤ 2600 * (1 / 2 ^ 49) := mul_le_mul_of_nonneg_right hn' (by norm_num)
    refine (pow_le_one_add (by norm_num) n (h1.trans (by norm_num))).trans ?_
    have : (2600 : ℝ) * (1 / 2 ^ 49) ≤ 1 / (2 * 10 ^ 11) := by norm_num
    linarith
  have hh : harmonicError (1 / 2 ^ 49) (1 / 2 ^ 51) (2 * p) ≤ 171 / 10 ^ 7 := by
    unfold harmonicError
    have a := hpow (6 * (2 * p) + 4) (by omega)
    have b : Real.sqrt (2 * (2 * p : ℕ) + 1) * (1 / 2 ^ 51) ≤ 14 * (1 / 2 ^ 51) := mul_le_mul_of_nonneg_right hs2 (by norm_num)
    have b0 : 0 ≤ Real.sqrt (2 * (2 * p : ℕ) + 1) * (1 / 2 ^ 51) := by positivity
    have c : ((1 : ℝ) + 1 / 2 ^ 49) ^ (6 * (2 * p) + 4) * (Real.sqrt (2 * (2 * p : ℕ) + 1) * (1 / 2 ^ 51)) ≤ 2 * (14 * (1 / 2 ^ 51)) :=
      mul_le_mul (a.trans (by norm_num)) b b0 (by norm_num)
    have d : ((2 * p : ℕ) : ℝ) * (Real.sqrt (18 * (1 / 2 ^ 49)) + 2 * (1 / 2 ^ 49)) ≤ 84 * (1 / 5000000 + 2 * (1 / 2 ^ 49)) :=
      mul_le_mul (by push_cast; linarith) (by linarith) (by positivity) (by norm_num)
    refine (add_le_add (add_le_add (sub_le_sub_right a 1) c) d).trans ?_
    norm_num
  have h0 : 0 ≤ harmonicError (1 / 2 ^ 49) (1 / 2 ^ 51) (2 * p) := Fl3.yEr_nonneg (by norm_num) (by norm_num) _
  unfold OpCost opError
  have a := hpow ((p + 1) ^ 2 + 15 * p + 46) (by
    have : (p + 1) ^ 2 ≤ 43 ^ 2 := Nat.pow_le_pow_left (by omega) 2
    omega)
  have e1 : ((1 : ℝ) + 1 / 2 ^ 49) ^ ((p + 1) ^ 2 + 15 * p + 46) * (1 + harmonicError (1 / 2 ^ 49) (1 / 2 ^ 51) (2 * p)) - 1
      ≤ (1 + 1 / 10 ^ 11) * (1 + 171 / 10 ^ 7) - 1 :=
    sub_le_sub_right (mul_le_mul a (by linarith) (by linarith) (by norm_num)) 1
  have e2 : (0 : ℝ) ≤ (1 + 1 / 10 ^ 11) * (1 + 171 / 10 ^ 7) - 1 := by norm_num
  have e3 := mul_le_mul_of_nonneg_left e1 (Real.sqrt_nonneg (2 * p + 1))
  have e4 := mul_le_mul_of_nonneg_right hs1 e2
  have e5 : 1 + (2 ^ 37 : ℕ) * (1 / 2 ^ 49 : ℝ) ≤ (1 + 1 / 2 ^ 49) ^ (2 ^ 37) :=
    one_add_mul_le_pow (by norm_num) _
  refine le_trans ?_ e5
  refine (add_le_add le_rfl (e3.trans e4)).trans ?_
  norm_num

end FMM
