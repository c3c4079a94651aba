import Verif.FltIeee3
import Verif.FltYlmD

/-!
# IEEE arithmetic satisfies the assumptions of the error bounds of the forces
-/

namespace FMM

/-- Derivatives of the Legendre functions with respect to the polar angle. -/
theorem schmidt_deriv_le {x : ℝ} (hx : |x| < 1) {l m : ℕ} (hm : m ≤ l) :
    |deriv (fun t => schmidt (-1) l m (Real.cos t)) (Real.arccos x)| ≤ 2 * l := by
  have hs : 0 < Real.sin (Real.arccos x) := by
    rw [Real.sin_arccos]
    refine Real.sqrt_pos.mpr ?_
    have := (sq_lt_one_iff_abs_lt_one _).mpr hx
    linarith
  have hR := YlmDerivTable.deriv_schmidt (phi := 0) hs hm
  set d := deriv (fun t => schmidt (-1) l m (Real.cos t)) (Real.arccos x)
  have h1 : ‖rD (dirV (Real.arccos x) 0) (thetaV (Real.arccos x) 0) l m‖ ≤ l :=
    (le_l2 (s := Ir l) (rD (dirV (Real.arccos x) 0) (thetaV (Real.arccos x) 0) l) (i := (m : ℤ)) (mem_Ir.mpr (by rw [abs_le]; omega))).trans
      (l2_rD (Fl3.len3_dirV _ _) (len3_thetaV _ _) (dot_dir_theta _ _) l)
  have hl : (0 : ℝ) ≤ l := Nat.cast_nonneg l
  rw [← hR] at h1
  by_cases h0 : m = 0
  · subst h0
    rw [if_pos rfl, Complex.norm_real, Real.norm_eq_abs] at h1
    linarith
  · have hs2 : (0 : ℝ) < Real.sqrt 2 := Real.sqrt_pos.mpr (by norm_num)
    have hs4 : Real.sqrt 2 ≤ 2 := by rw [Real.sqrt_le_left (by norm_num)]; norm_num
    rw [if_neg h0, norm_div, norm_mul, Complex.ofReal_zero, mul_zero, Complex.exp_zero, one_pow, norm_one, mul_one,
      Complex.norm_real, Complex.norm_real, Real.norm_eq_abs, Real.norm_of_nonneg hs2.le, div_le_iff₀ hs2] at h1
    have := mul_le_mul_of_nonneg_left hs4 hl
    linarith

theorem Flt3.ofRnd_okD {r : ℝ → ℝ} {v : ℝ} (hv : 0 ≤ v) (hv' : v ≤ 1 / 256) (H : ∀ x, |r x - x| ≤ v * |x|)
    (H1 : ∀ x, |x| ≤ 1 → |r x| ≤ 1) : (Flt3.ofRnd r).OkD (16 * v) (2 * v) := by
  refine ⟨Flt3.ofRnd_ok hv hv' H H1, fun x => ?_, fun lmax x l m hx hm _ => ?_, fun lmax x l m hx hm _ => ?_⟩
  · refine (H _).trans ((mul_le_mul_of_nonneg_left (Real.abs_sin_le_one x) hv).trans ?_)
    linarith
  · refine (H _).trans ?_
    have := mul_le_mul_of_nonneg_left (schmidt_le hx.le hm) hv
    linarith
  · refine (H _).trans ?_
    have := mul_le_mul_of_nonneg_left (schmidt_deriv_le hx hm) hv
    linarith

/-- `double`s. -/
theorem Flt3.ieee_okD : Flt3.ieee.OkD (1 / 2 ^ 49) (1 / 2 ^ 52) := by
  have h := Flt3.ofRnd_okD (r := Rounded.rndNE) (v := 1 / 2 ^ 53) (by positivity) (by norm_num) Rounded.rndNE_rel fun _ h => rndNE_one h
  have e : (16 * (1 / 2 ^ 53) : ℝ) = 1 / 2 ^ 49 := by norm_num
  have e' : (2 * (1 / 2 ^ 53) : ℝ) = 1 / 2 ^ 52 := by norm_num
  rw [e, e'] at h
  exact h

/-- Angles of at least `2 ^ -k` with the vertical axis. -/
theorem ieee_frame {p k : ℕ} (hp : p ≤ 42) (hk : k ≤ 21) :
    Fl3.FrameCost (1 / 2 ^ 49) (1 / 2 ^ 52) (1 / 2 ^ k) p (2 ^ (2 * k + 5)) where
  pos := by positivity
  le_one := by
    rw [div_le_one (by positivity)]
    exact one_le_pow₀ (by norm_num)
  le := by
    push_cast
    rw [pow_add, mul_comm 2 k, pow_mul, div_pow, one_pow]
    field_simp
    norm_num
  small := by
    push_cast
    have : (2 : ℝ) ^ (2 * k + 5) ≤ 2 ^ 47 := pow_le_pow_right₀ (by norm_num) (by omega)
    linarith
  tab := by
    have h0 : (0 : ℝ) ≤ 1 / 2 ^ 49 := by positivity
    have h1 := one_add_mul_le_pow (a := (1 / 2 ^ 49 : ℝ)) (by linarith) (2 ^ (2 * k + 5))
    refine le_trans (add_le_add le_rfl ?_) h1
    push_cast
    have hq : Real.sqrt (2 * p + 1) ≤ 10 := by
      rw [Real.sqrt_le_left (by norm_num)]
      have : (p : ℝ) ≤ 42 := by exact_mod_cast hp
      linarith
    have e1 : 2 * (1 / 2 ^ 52) / (1 / 2 ^ k : ℝ) = 2 ^ k / 2 ^ 51 := by field_simp
    have h2 : (1 : ℝ) ≤ 2 ^ k := one_le_pow₀ (by norm_num)
    rw [e1, pow_add, mul_comm 2 k, pow_mul]
    calc Real.sqrt (2 * p + 1) * (2 ^ k / 2 ^ 51) ≤ 10 * (2 ^ k / 2 ^ 51) := mul_le_mul_of_nonneg_right hq (by positivity)
      _ ≤ (2 ^ k) ^ 2 * 2 ^ 5 * (1 / 2 ^ 49) := by
        rw [sq, show 10 * ((2 : ℝ) ^ k / 2 ^ 51) = 2 ^ k * (10 / 2 ^ 51) by ring,
          show (2 : ℝ) ^ k * 2 ^ k * 2 ^ 5 * (1 / 2 ^ 49) = 2 ^ k * (2 ^ k * (2 ^ 5 / 2 ^ 49)) by ring]
        refine mul_le_mul_of_nonneg_left ?_ (by positivity)
        have : (2 : ℝ) ^ 5 / 2 ^ 49 ≤ 2 ^ k * (2 ^ 5 / 2 ^ 49) := le_mul_of_one_le_left (by positivity) h2
        refine le_trans (by norm_num) this

end FMM
