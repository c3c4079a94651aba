import Verif.SolidSeries
import Mathlib.Analysis.Calculus.FDeriv.Mul
import Mathlib.Analysis.Calculus.FDeriv.Add
import Mathlib.Analysis.Calculus.Deriv.Comp
import Mathlib.Topology.Algebra.Module.FiniteDimension

/-!
# Derivatives of solid harmonics
-/

namespace FMM
open Finset

/-- Derivative of `sR · n m` at `v` in the direction `e`. -/
noncomputable def sD (v e : Vec 3) : ℕ → ℤ → ℂ
  | 0, _ => 0
  | n + 1, m => wv e / 2 * sR v n (m - 1) + (e 2 : ℂ) * sR v n m - wc e / 2 * sR v n (m + 1)

theorem sD_zero (v e : Vec 3) (m : ℤ) : sD v e 0 m = 0 := rfl

theorem sD_succ (v e : Vec 3) (n : ℕ) (m : ℤ) : sD v e (n + 1) m
    = wv e / 2 * sR v n (m - 1) + (e 2 : ℂ) * sR v n m - wc e / 2 * sR v n (m + 1) := rfl

theorem sD_out (v e : Vec 3) (n : ℕ) (m : ℤ) (h : (n : ℤ) < |m|) : sD v e n m = 0 := by
  cases n with
  | zero => rfl
  | succ n =>
    have h' : (n : ℤ) + 1 < |m| := by exact_mod_cast h
    have ha := lt_abs.mp h'
    rw [sD_succ, sR_out v n (m - 1) (by rw [lt_abs]; omega), sR_out v n m (by rw [lt_abs]; omega),
      sR_out v n (m + 1) (by rw [lt_abs]; omega)]
    simp

theorem sD_add (v e f : Vec 3) (n : ℕ) (m : ℤ) : sD v (e + f) n m = sD v e n m + sD v f n m := by
  cases n with
  | zero => simp [sD_zero]
  | succ n => simp only [sD_succ, wv_add, wc_add, Pi.add_apply, Complex.ofReal_add]; ring

theorem sD_smul (v e : Vec 3) (a : ℝ) (n : ℕ) (m : ℤ) : sD v (a • e) n m = (a : ℂ) * sD v e n m := by
  cases n with
  | zero => simp [sD_zero]
  | succ n => simp only [sD_succ, wv_smul, wc_smul, Pi.smul_apply, smul_eq_mul, Complex.ofReal_mul]; ring

/-- Homogeneity. -/
theorem sD_smul_left (v e : Vec 3) (a : ℝ) (n : ℕ) (m : ℤ) : sD (a • v) e (n + 1) m = (a : ℂ) ^ n * sD v e (n + 1) m := by
  simp only [sD_succ, sR_smul]; ring

/-- Euler's relation. -/
theorem sD_self (v : Vec 3) (n : ℕ) (m : ℤ) : sD v v n m = n * sR v n m := by
  cases n with
  | zero => simp [sD_zero]
  | succ n => rw [sD_succ, ← sR_succ]; push_cast; ring

/-- Rotation about the vertical axis. -/
theorem sD_rot (v : Vec 3) (n : ℕ) (m : ℤ) : sD v ![-v 1, v 0, 0] n m = Complex.I * m * sR v n m := by
  cases n with
  | zero =>
    rw [sD_zero, sR_zero]
    split_ifs with h
    · simp [h]
    · simp
  | succ n =>
    have h1 : wv ![-v 1, v 0, 0] = Complex.I * wv v := by apply Complex.ext <;> simp [wv]
    have h2 : wc ![-v 1, v 0, 0] = -(Complex.I * wc v) := by apply Complex.ext <;> simp [wc]
    have h3 : (![-v 1, v 0, 0] : Vec 3) 2 = 0 := rfl
    rw [sD_succ, h1, h2, h3]
    have a := sR_up v n m
    have b := sR_down v n m
    push_cast
    linear_combination (-Complex.I / 2) * a + (Complex.I / 2) * b

/-- The derivative as a linear map. -/
noncomputable def sDL (v : Vec 3) (n : ℕ) (m : ℤ) : Vec 3 →L[ℝ] ℂ :=
  LinearMap.toContinuousLinearMap
    { toFun := fun e => sD v e n m
      map_add' := fun e f => sD_add v e f n m
      map_smul' := fun a e => by rw [sD_smul]; simp }

theorem sDL_apply (v e : Vec 3) (n : ℕ) (m : ℤ) : sDL v n m e = sD v e n m := rfl

noncomputable def wvL : Vec 3 →L[ℝ] ℂ :=
  LinearMap.toContinuousLinearMap
    { toFun := wv, map_add' := wv_add, map_smul' := fun a e => by rw [wv_smul]; simp }

noncomputable def wcL : Vec 3 →L[ℝ] ℂ :=
  LinearMap.toContinuousLinearMap
    { toFun := wc, map_add' := wc_add, map_smul' := fun a e => by rw [wc_smul]; simp }

noncomputable def zL : Vec 3 →L[ℝ] ℂ :=
  LinearMap.toContinuousLinearMap
    { toFun := fun v => (v 2 : ℂ), map_add' := fun u v => by simp, map_smul' := fun a e => by simp }

theorem sR_hasFDerivAt (v : Vec 3) : ∀ (n : ℕ) (m : ℤ), HasFDerivAt (fun v => sR v n m) (sDL v n m) v
  | 0, m => by
    have : sDL v 0 m = 0 := by ext e; simp [sDL_apply, sD_zero]
    rw [this]
    exact hasFDerivAt_const _ _
  | n + 1, m => by
    have i1 := sR_hasFDerivAt v n (m - 1)
    have i2 := sR_hasFDerivAt v n m
    have i3 := sR_hasFDerivAt v n (m + 1)
    have hw : HasFDerivAt wv wvL v := wvL.hasFDerivAt
    have hc : HasFDerivAt wc wcL v := wcL.hasFDerivAt
    have hz : HasFDerivAt (fun v : Vec 3 => (v 2 : ℂ)) zL v := zL.hasFDerivAt
    have hn : ((n : ℂ) + 1) ≠ 0 := by exact_mod_cast Nat.succ_ne_zero n
    have key := ((((hw.mul i1).const_mul (1 / 2 : ℂ)).add (hz.mul i2)).sub ((hc.mul i3).const_mul (1 / 2 : ℂ))).const_mul
      (1 / ((n : ℂ) + 1))
    refine (key.congr_fderiv ?_).congr_of_eventuallyEq (Filter.Eventually.of_forall fun u => ?_)
    · ext e
      have hwe : wvL e = wv e := rfl
      have hce : wcL e = wc e := rfl
      have hze : zL e = (e 2 : ℂ) := rfl
      simp only [smul_apply, sub_apply, add_apply, smul_eq_mul,
        sDL_apply, hwe, hce, hze]
      rw [sD_succ]
      cases n with
      | zero =>
        simp only [sD_zero]
        push_cast
        field_simp
        ring
      | succ n =>
        simp only [sD_succ]
        have a1 := sR_succ v n (m - 1)
        have a2 := sR_succ v n m
        have a3 := sR_succ v n (m + 1)
        rw [show m - 1 - 1 = m - 2 by ring, show m - 1 + 1 = m by ring] at *
        rw [show m + 1 + 1 = m + 2 by ring, show m + 1 - 1 = m by ring] at *
        push_cast at *
        rw [one_div, inv_mul_eq_iff_eq_mul₀ hn]
        linear_combination (-wv e / 2) * a1 - (e 2 : ℂ) * a2 + (wc e / 2) * a3
    · have := sR_succ u n m
      show sR u (n + 1) m = 1 / ((n : ℂ) + 1) * _
      rw [eq_comm, one_div, inv_mul_eq_iff_eq_mul₀ hn]
      simp only [Pi.add_apply, Pi.mul_apply, Pi.sub_apply]
      linear_combination -this

/-- Kelvin relation: the derivative of `R_n^m(x)/|x|^{2n+1}` is an irregular harmonic of degree `n+1`. -/
theorem sR_kelvin (x e : Vec 3) (n : ℕ) (m : ℤ) :
    (2 * (n : ℂ) + 1) * ((dot3 x e : ℝ) : ℂ) * sR x n m - ((dot3 x x : ℝ) : ℂ) * sD x e n m
      = (e 2 : ℂ) * (((n : ℂ) + 1 + m) * ((n : ℂ) + 1 - m)) * sR x (n + 1) m
        - wv e / 2 * (((n : ℂ) + 2 - m) * ((n : ℂ) + 1 - m)) * sR x (n + 1) (m - 1)
        + wc e / 2 * (((n : ℂ) + 2 + m) * ((n : ℂ) + 1 + m)) * sR x (n + 1) (m + 1) := by
  rw [dot3_eq x e]
  cases n with
  | zero =>
    have a1 := sR_succ x 0 (m - 1)
    have a2 := sR_succ x 0 m
    have a3 := sR_succ x 0 (m + 1)
    simp only [Nat.cast_zero, zero_add, one_mul] at a1 a2 a3
    rw [sD_zero]
    simp only [Nat.cast_zero, zero_add]
    rw [a1, a2, a3]
    simp only [sR_zero]
    by_cases h0 : m = 0
    · subst h0; norm_num; ring
    by_cases h1 : m = 1
    · subst h1; norm_num
    by_cases h2 : m = -1
    · subst h2; norm_num
    by_cases h3 : m = 2
    · subst h3; norm_num
    by_cases h4 : m = -2
    · subst h4; norm_num
    · simp only [if_neg h0]
      rw [if_neg (by omega), if_neg (by omega), if_neg (by omega), if_neg (by omega), if_neg (by omega), if_neg (by omega)]
      ring
  | succ n =>
    have a := sR_wc x n m
    have b := sR_z x n m
    have c := sR_wv x n m
    rw [sD_succ]
    push_cast at *
    linear_combination (e 2 : ℂ) * b + wv e / 2 * a + wc e / 2 * c

end FMM
