import Verif.Solid
import Mathlib.Algebra.Polynomial.Derivative
import Mathlib.Tactic.LinearCombination

/-!
# Legendre functions

`legendreP` is the Rodrigues formula; `schmidt` the semi-normalised functions documented for
`gsl_sf_legendre_array_e(GSL_SF_LEGENDRE_SCHMIDT, ...)`.
-/

namespace FMM
open Polynomial

/-- Legendre polynomials by the Rodrigues formula. -/
noncomputable def legendreP (n : ℕ) : ℝ[X] :=
  C (1 / (2 ^ n * (n.factorial : ℝ))) * derivative^[n] ((X ^ 2 - 1) ^ n)

/-- Schmidt semi-normalised associated Legendre function (GSL documentation of `GSL_SF_LEGENDRE_SCHMIDT`), with phase
factor `cs^m`. -/
noncomputable def schmidt (cs : ℝ) (l m : ℕ) (x : ℝ) : ℝ :=
  if m = 0 then (legendreP l).eval x
  else cs ^ m * Real.sqrt (2 * ((l - m).factorial : ℝ) / ((l + m).factorial : ℝ))
    * (Real.sqrt (1 - x ^ 2) ^ m * (derivative^[m] (legendreP l)).eval x)

theorem derivative_u_pow (n : ℕ) : derivative ((X ^ 2 - 1 : ℝ[X]) ^ (n + 1)) = C (2 * ((n : ℝ) + 1)) * (X * (X ^ 2 - 1) ^ n) := by
  rw [derivative_pow]
  have : (C (2 : ℝ) : ℝ[X]) = 2 := map_ofNat _ 2
  simp [this]
  ring

theorem legendreP_zero : legendreP 0 = 1 := by simp [legendreP]

theorem iterate_X_mul (k : ℕ) (p : ℝ[X]) :
    derivative^[k + 1] (X * p) = X * derivative^[k + 1] p + C ((k : ℝ) + 1) * derivative^[k] p := by
  induction k generalizing p with
  | zero => simp [derivative_mul]; ring
  | succ k ih =>
    rw [Function.iterate_succ_apply, derivative_mul, derivative_X, one_mul, iterate_map_add, ih,
      ← Function.iterate_succ_apply, ← Function.iterate_succ_apply]
    push_cast
    simp only [map_add, map_one]
    ring

theorem fact_coeff (n : ℕ) : 1 / (2 ^ (n + 1) * ((n + 1).factorial : ℝ)) * (2 * ((n : ℝ) + 1)) = 1 / (2 ^ n * (n.factorial : ℝ)) := by
  rw [Nat.factorial_succ]
  have h1 : (n.factorial : ℝ) ≠ 0 := by exact_mod_cast n.factorial_ne_zero
  have h2 : ((n : ℝ) + 1) ≠ 0 := by exact_mod_cast Nat.succ_ne_zero n
  push_cast
  rw [pow_succ]
  field_simp

/-- `P_{n+1}' = (n+1) P_n + x P_n'`. -/
theorem legendreP_deriv_succ (n : ℕ) :
    derivative (legendreP (n + 1)) = C ((n : ℝ) + 1) * legendreP n + X * derivative (legendreP n) := by
  unfold legendreP
  rw [derivative_C_mul, derivative_C_mul, ← Function.iterate_succ_apply' derivative, ← Function.iterate_succ_apply' derivative,
    Function.iterate_succ_apply, derivative_u_pow, iterate_derivative_C_mul, iterate_X_mul, ← fact_coeff n]
  simp only [C_mul, map_add, map_one]
  ring

/-- `(n+1) P_{n+1} = (n+1) x P_n - (1-x²) P_n'`. -/
theorem legendreP_succ (n : ℕ) : C ((n : ℝ) + 1) * legendreP (n + 1)
    = C ((n : ℝ) + 1) * (X * legendreP n) - (1 - X ^ 2) * derivative (legendreP n) := by
  set E := derivative^[n + 1] ((X ^ 2 - 1 : ℝ[X]) ^ (n + 1)) with hE
  set A := derivative^[n + 1] ((X ^ 2 - 1 : ℝ[X]) ^ n) with hA
  set B := derivative^[n] ((X ^ 2 - 1 : ℝ[X]) ^ n) with hB
  -- two expressions of E
  have key : E = C 2 * ((X ^ 2 - 1) * A) + C (2 * ((n : ℝ) + 1)) * (X * B) := by
    cases n with
    | zero =>
      rw [hE, hA, hB]
      simp [derivative_pow]
    | succ n =>
      set D := derivative^[n] ((X ^ 2 - 1 : ℝ[X]) ^ (n + 1)) with hD
      have e1 : E = C (2 * (((n + 1 : ℕ) : ℝ) + 1)) * (X * B + C ((n : ℝ) + 1) * D) := by
        rw [hE, Function.iterate_succ_apply, derivative_u_pow, iterate_derivative_C_mul, iterate_X_mul]
      have e2 : E = (X * (X * A + C ((n : ℝ) + 2) * B) + C ((n : ℝ) + 2) * (X * B + C ((n : ℝ) + 1) * D)) - A := by
        have h : ((X ^ 2 - 1 : ℝ[X]) ^ (n + 1 + 1)) = X * (X * (X ^ 2 - 1) ^ (n + 1)) - (X ^ 2 - 1) ^ (n + 1) := by ring
        rw [hE, h, iterate_derivative_sub, iterate_X_mul, iterate_X_mul, iterate_X_mul]
        push_cast
        rw [show (n : ℝ) + 1 + 1 = n + 2 by ring]
      push_cast at e1 ⊢
      simp only [C_mul, map_add, map_one, map_natCast, map_ofNat] at e1 e2 ⊢
      linear_combination 2 * e2 - e1
  have h1 : C ((n : ℝ) + 1) * legendreP (n + 1) = C (1 / (2 ^ n * (n.factorial : ℝ)) / 2) * E := by
    unfold legendreP
    rw [← hE, ← mul_assoc, ← C_mul, ← fact_coeff n]
    congr 2
    ring
  have h2 : derivative (legendreP n) = C (1 / (2 ^ n * (n.factorial : ℝ))) * A := by
    unfold legendreP
    rw [derivative_C_mul, ← Function.iterate_succ_apply' derivative n]
  have h3 : legendreP n = C (1 / (2 ^ n * (n.factorial : ℝ))) * B := rfl
  rw [h1, h2, h3, key]
  have e : C (1 / (2 ^ n * (n.factorial : ℝ)) / 2) * C 2 = C (1 / (2 ^ n * (n.factorial : ℝ))) := by
    rw [← C_mul]; congr 1; ring
  rw [C_mul]
  linear_combination ((X ^ 2 - 1) * A + C ((n : ℝ) + 1) * (X * B)) * e

/-- Legendre's differential equation. -/
theorem legendreP_ode (n : ℕ) : (1 - X ^ 2) * derivative (derivative (legendreP n))
    = C 2 * (X * derivative (legendreP n)) - C ((n : ℝ) * (n + 1)) * legendreP n := by
  have h := congrArg derivative (legendreP_succ n)
  rw [derivative_sub, derivative_C_mul, derivative_C_mul, derivative_mul, derivative_mul, derivative_X, legendreP_deriv_succ] at h
  simp only [derivative_sub, derivative_one, derivative_X_pow, C_mul, map_add, map_one, map_natCast, map_ofNat] at h ⊢
  push_cast at h
  simp only [pow_one] at h
  linear_combination h

theorem legendreP_deriv_iter (n m : ℕ) : derivative^[m + 1] (legendreP (n + 1))
    = C ((n : ℝ) + 1 + m) * derivative^[m] (legendreP n) + X * derivative^[m + 1] (legendreP n) := by
  rw [Function.iterate_succ_apply, legendreP_deriv_succ, iterate_map_add, iterate_derivative_C_mul]
  cases m with
  | zero => simp
  | succ m =>
    rw [iterate_X_mul, ← Function.iterate_succ_apply, ← Function.iterate_succ_apply]
    push_cast
    simp only [map_add, map_one]
    ring

theorem legendreP_ode_iter (n m : ℕ) : (1 - X ^ 2) * derivative^[m + 2] (legendreP n)
    = C (2 * ((m : ℝ) + 1)) * (X * derivative^[m + 1] (legendreP n))
      - C ((n : ℝ) * (n + 1) - m * (m + 1)) * derivative^[m] (legendreP n) := by
  induction m with
  | zero =>
    have := legendreP_ode n
    simp only [Function.iterate_succ_apply', Function.iterate_zero_apply]
    simpa using this
  | succ m ih =>
    have h := congrArg derivative ih
    rw [derivative_sub, derivative_C_mul, derivative_C_mul, derivative_mul, derivative_mul, derivative_X,
      ← Function.iterate_succ_apply' derivative (m + 2), ← Function.iterate_succ_apply' derivative (m + 1),
      ← Function.iterate_succ_apply' derivative m] at h
    simp only [derivative_sub, derivative_one, derivative_X_pow, Nat.add_one_sub_one, pow_one] at h
    push_cast at h ⊢
    simp only [C_mul, C_sub, map_add, map_one, map_natCast, map_ofNat] at h ⊢
    show (1 - X ^ 2) * derivative^[m + 2 + 1] (legendreP n) = _
    linear_combination h

/-- The step in `n` of `P_n^{(m)}`, in the form of the recursion of solid harmonics. -/
theorem legendreP_step (n m : ℕ) : C (2 * ((n : ℝ) + 1)) * derivative^[m + 1] (legendreP (n + 1))
    = C (((n : ℝ) + m + 2) * (n + m + 1)) * derivative^[m] (legendreP n)
      + C (2 * ((n : ℝ) + m + 2)) * (X * derivative^[m + 1] (legendreP n))
      - (1 - X ^ 2) * derivative^[m + 2] (legendreP n) := by
  rw [legendreP_ode_iter, legendreP_deriv_iter]
  simp only [C_mul, C_sub, map_add, map_one, map_natCast, map_ofNat]
  ring

/-- Solid harmonics on the unit sphere in terms of Legendre polynomials. -/
theorem sR_legendre (θ φ : ℝ) : ∀ (n m : ℕ),
    sR ![Real.sin θ * Real.cos φ, Real.sin θ * Real.sin φ, Real.cos θ] n m
      = Complex.exp (Complex.I * φ) ^ m * ((Real.sin θ ^ m * (derivative^[m] (legendreP n)).eval (Real.cos θ)
          / ((n + m).factorial : ℝ) : ℝ) : ℂ)
  | 0, m => by
    rw [sR_zero]
    cases m with
    | zero => simp [legendreP_zero]
    | succ m =>
      rw [if_neg (by omega), legendreP_zero, iterate_derivative_one (by omega)]
      simp
  | n + 1, m => by
    set u : Vec 3 := ![Real.sin θ * Real.cos φ, Real.sin θ * Real.sin φ, Real.cos θ] with hu
    set s := Real.sin θ
    set c := Real.cos θ
    set e := Complex.exp (Complex.I * φ) with he
    have hsc : s ^ 2 = 1 - c ^ 2 := by have := Real.sin_sq_add_cos_sq θ; linarith
    have he' : e = ⟨Real.cos φ, Real.sin φ⟩ := by
      rw [he, mul_comm, Complex.exp_mul_I, ← Complex.ofReal_cos, ← Complex.ofReal_sin]
      apply Complex.ext
      · rw [Complex.add_re, Complex.re_ofReal_mul, Complex.I_re, mul_zero, add_zero, Complex.ofReal_re]
      · rw [Complex.add_im, Complex.im_ofReal_mul, Complex.I_im, mul_one, Complex.ofReal_im, zero_add]
    have hee : e * (starRingEnd ℂ) e = 1 := by
      rw [Complex.mul_conj, he', Complex.normSq_mk]
      have := Real.sin_sq_add_cos_sq φ
      exact_mod_cast (by linarith : Real.cos φ * Real.cos φ + Real.sin φ * Real.sin φ = 1)
    have hw : wv u = (s : ℂ) * e := by
      rw [he']; apply Complex.ext <;> simp [wv, hu]
    have hwc : wc u = (s : ℂ) * (starRingEnd ℂ) e := by
      rw [he']; apply Complex.ext <;> simp [wc, hu]
    have hz : u 2 = c := rfl
    have ih : ∀ m : ℕ, sR u n m = e ^ m * ((s ^ m * (derivative^[m] (legendreP n)).eval c
          / ((n + m).factorial : ℝ) : ℝ) : ℂ) := sR_legendre θ φ n
    clear_value s c e u
    have hn : ((n : ℂ) + 1) ≠ 0 := by exact_mod_cast Nat.succ_ne_zero n
    refine mul_left_cancel₀ hn ?_
    rw [sR_succ, hw, hwc, hz]
    cases m with
    | zero =>
      have h1 := ih 1
      have h0 := ih 0
      have hm1 : sR u n (-1) = -(starRingEnd ℂ) (sR u n 1) := by
        have := sR_conj u n 1
        rw [this]; simp
      have hst := congrArg (Polynomial.eval c) (legendreP_succ n)
      simp only [eval_mul, eval_C, eval_sub, eval_X, eval_one, eval_pow] at hst
      rw [← hsc] at hst
      set P0 := (legendreP n).eval c
      set P1 := (derivative (legendreP n)).eval c
      have hf : (((n + 1).factorial : ℝ) : ℂ) = ((n : ℂ) + 1) * (n.factorial : ℂ) := by
        rw [Nat.factorial_succ]; push_cast; ring
      have hf0 : (n.factorial : ℂ) ≠ 0 := by exact_mod_cast n.factorial_ne_zero
      have h1' : sR u n 1 = e * ((s : ℂ) * P1 / (((n + 1).factorial : ℝ) : ℂ)) := by
        have : sR u n ((1 : ℕ) : ℤ) = _ := h1
        rw [Nat.cast_one] at this
        rw [this]
        simp only [pow_one, Function.iterate_one]
        push_cast
        rfl
      have h0' : sR u n 0 = (P0 : ℂ) / (n.factorial : ℂ) := by
        have : sR u n ((0 : ℕ) : ℤ) = _ := h0
        rw [Nat.cast_zero] at this
        rw [this]
        simp only [pow_zero, Function.iterate_zero_apply, Nat.add_zero]
        push_cast
        ring
      have hstc : ((n : ℂ) + 1) * (((legendreP (n + 1)).eval c : ℝ) : ℂ) = ((n : ℂ) + 1) * (c * P0) - (s : ℂ) ^ 2 * P1 := by
        exact_mod_cast hst
      simp only [Nat.cast_zero, zero_sub, zero_add, pow_zero, Function.iterate_zero_apply, Nat.add_zero, one_mul]
      rw [hm1, h1', h0']
      simp only [map_mul, map_div₀, Complex.conj_ofReal]
      push_cast
      push_cast at hf
      rw [hf]
      have hee' : (starRingEnd ℂ) e * e = 1 := by rw [mul_comm]; exact hee
      field_simp
      linear_combination (-2 : ℂ) * hstc - 2 * (s : ℂ) ^ 2 * P1 * hee
    | succ m =>
      have h0 := ih m
      have h1 := ih (m + 1)
      have h2 := ih (m + 2)
      have hst := congrArg (Polynomial.eval c) (legendreP_step n m)
      simp only [eval_mul, eval_C, eval_add, eval_sub, eval_X, eval_one, eval_pow] at hst
      rw [← hsc] at hst
      have c1 : (((m + 1 : ℕ) : ℤ) - 1) = (m : ℤ) := by push_cast; ring
      have c2 : (((m + 1 : ℕ) : ℤ) + 1) = ((m + 2 : ℕ) : ℤ) := by push_cast; ring
      rw [c1, c2, h0, h1, h2]
      set Q0 := (derivative^[m] (legendreP n)).eval c
      set Q1 := (derivative^[m + 1] (legendreP n)).eval c
      set Q2 := (derivative^[m + 2] (legendreP n)).eval c
      set T := (derivative^[m + 1] (legendreP (n + 1))).eval c
      have hstc : (2 * ((n : ℂ) + 1)) * (T : ℂ) = ((n : ℂ) + m + 2) * (n + m + 1) * Q0
          + 2 * ((n : ℂ) + m + 2) * (c * Q1) - (s : ℂ) ^ 2 * Q2 := by exact_mod_cast hst
      have f0 : ((n + m).factorial : ℂ) ≠ 0 := by exact_mod_cast (n + m).factorial_ne_zero
      have f1 : ((n + (m + 1)).factorial : ℂ) = ((n : ℂ) + m + 1) * ((n + m).factorial : ℂ) := by
        rw [show n + (m + 1) = (n + m) + 1 by ring, Nat.factorial_succ]; push_cast; ring
      have f2 : ((n + (m + 2)).factorial : ℂ) = ((n : ℂ) + m + 2) * (((n : ℂ) + m + 1) * ((n + m).factorial : ℂ)) := by
        rw [show n + (m + 2) = (n + m + 1) + 1 by ring, Nat.factorial_succ, Nat.factorial_succ]; push_cast; ring
      have f3 : ((n + 1 + (m + 1)).factorial : ℂ) = ((n : ℂ) + m + 2) * (((n : ℂ) + m + 1) * ((n + m).factorial : ℂ)) := by
        rw [show n + 1 + (m + 1) = (n + m + 1) + 1 by ring, Nat.factorial_succ, Nat.factorial_succ]; push_cast; ring
      have g1 : ((n : ℂ) + m + 1) ≠ 0 := by exact_mod_cast Nat.succ_ne_zero (n + m)
      have g2 : ((n : ℂ) + m + 2) ≠ 0 := by exact_mod_cast Nat.succ_ne_zero (n + m + 1)
      push_cast
      rw [f1, f2, f3, pow_succ (s : ℂ) m, pow_succ e m, pow_succ e (m + 1), pow_succ (s : ℂ) (m + 1), pow_succ e m, pow_succ (s : ℂ) m]
      field_simp
      linear_combination (-((s : ℂ) * (s : ℂ) ^ m * e * e ^ m)) * hstc - (s : ℂ) * (s : ℂ) ^ m * e * e ^ m * (s : ℂ) ^ 2 * Q2 * hee

end FMM
