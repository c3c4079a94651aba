import Verif.LowRun3
import Verif.FltForceAp3

/-!
# The spherical frame of an evaluation point, with gradual underflow

The statements of `FltFrame3` and `FltYlmD`, for operations with a floor.
-/

namespace FMM
open Finset

/-- `Flt3.Low` with the operations used by the force only. -/
structure Flt3.LowD (F : Flt3) (u g η ρ : ℝ) : Prop extends toLow3 : F.Low u g η ρ where
  rsin : ∀ x, |F.rsin x - Real.sin x| ≤ u
  legV : ∀ lmax x l m, |x| < 1 → m ≤ l → l ≤ lmax → |(F.legD lmax x).1 l m - schmidt (-1) l m x| ≤ g - η
  legD : ∀ lmax x l m, |x| < 1 → m ≤ l → l ≤ lmax →
    |(F.legD lmax x).2 l m - deriv (fun t => schmidt (-1) l m (Real.cos t)) (Real.arccos x)| ≤ (g - η) * l

namespace Lo3
open Fl3 hiding sin_sph frame frame_sin frame_phi cos_sph cis_sph dp_err dv_err dvY_err dvD_err
variable {F : Flt3} {u g η ρ : ℝ}

/-- The computed sine of the polar angle. -/
theorem sin_sph (hF : F.LowD u g η ρ) {v : Vec 3} (h0 : v ≠ 0) (hv : η ≤ len3 v) : |F.rsin (F.sph v 1) - Real.sin (v.toSpherical3 1)| ≤ 8 * u := by
  have hu := hF.nonneg
  have e1 : v.toSpherical3 1 = Complex.arg ⟨v 2, Vec.hypot (v 0) (v 1)⟩ := rfl
  have e2 : F.sph v 1 = F.atan2 (F.hyp (v 0) (v 1)) (v 2) := rfl
  rw [e1, e2]
  set H := Vec.hypot (v 0) (v 1) with hH
  set H' := F.hyp (v 0) (v 1)
  have hH0 : 0 ≤ H := Real.sqrt_nonneg _
  have h1 : |H' - H| ≤ u * max H η := hF.hyp _ _
  have h2 := hF.atan2 H' (v 2)
  have h3 := hF.rsin (F.atan2 H' (v 2))
  have h4 := Real.abs_sin_sub_sin_le (F.atan2 H' (v 2)) (Vec.atan2 H' (v 2))
  have h5 : |Vec.atan2 H' (v 2)| ≤ 4 := (Complex.abs_arg_le_pi _).trans Real.pi_le_four
  have hz : (⟨v 2, H⟩ : ℂ) ≠ 0 := by
    intro hz
    have hH2 : H = 0 := congrArg Complex.im hz
    have hv2 : v 2 = 0 := congrArg Complex.re hz
    have hs : v 0 * v 0 + v 1 * v 1 = 0 := by
      have := Real.sqrt_eq_zero'.mp (hH ▸ hH2)
      nlinarith [mul_self_nonneg (v 0), mul_self_nonneg (v 1)]
    refine h0 (funext fun i => ?_)
    have k0 : v 0 = 0 := by nlinarith [mul_self_nonneg (v 0), mul_self_nonneg (v 1)]
    have k1 : v 1 = 0 := by nlinarith [mul_self_nonneg (v 0), mul_self_nonneg (v 1)]
    fin_cases i
    · exact k0
    · exact k1
    · exact hv2
  have h6 : |Real.sin (Vec.atan2 H' (v 2)) - Real.sin (Complex.arg ⟨v 2, H⟩)| ≤ 3 * u := by
    refine sin_arg_close hz hu hF.small ?_
    have : (⟨v 2, H'⟩ : ℂ) - ⟨v 2, H⟩ = ((H' - H : ℝ) : ℂ) * Complex.I := by
      apply Complex.ext <;> simp
    rw [this, norm_mul, Complex.norm_I, mul_one, Complex.norm_real, Real.norm_eq_abs]
    have hn : ‖(⟨v 2, H⟩ : ℂ)‖ = len3 v := by
      have e : H * H = v 0 * v 0 + v 1 * v 1 := by
        rw [hH]; unfold Vec.hypot
        rw [Real.mul_self_sqrt (by positivity)]; ring
      rw [Complex.norm_def, Complex.normSq_mk, e]
      unfold len3 dot3
      congr 1; ring
    refine h1.trans (mul_le_mul_of_nonneg_left (max_le ?_ (by rw [hn]; exact hv)) hu)
    have := Complex.abs_im_le_norm (⟨v 2, H⟩ : ℂ)
    simpa [abs_of_nonneg hH0] using this
  have a1 := abs_sub_le (F.rsin (F.atan2 H' (v 2))) (Real.sin (F.atan2 H' (v 2))) (Real.sin (Complex.arg ⟨v 2, H⟩))
  have a2 := abs_sub_le (Real.sin (F.atan2 H' (v 2))) (Real.sin (Vec.atan2 H' (v 2))) (Real.sin (Complex.arg ⟨v 2, H⟩))
  have h8 := mul_le_mul_of_nonneg_left (max_le h5 (hF.eta1.trans (by norm_num : (1 : ℝ) ≤ 4))) hu
  linarith

theorem eta_len {v v' : Vec 3} (hu : u ≤ 1 / 16) (hη : 2 * η ≤ len3 v) (hv : len3 (v' - v) ≤ u * len3 v) : η ≤ len3 v' := by
  have hl2 := abs_le.mp ((abs_len3_sub _ _).trans hv)
  have := len3_nonneg v
  nlinarith

set_option maxHeartbeats 1000000 in
theorem frame (hF : F.LowD u g η ρ) {s : ℝ} {p κ : ℕ} (hκ : FrameCost u g s p κ) {v v' : Vec 3}
    (hv : len3 (v' - v) ≤ u * len3 v) (h0 : v ≠ 0) (hη : 2 * η ≤ len3 v) (hs : s * len3 v ≤ Vec.hypot (v 0) (v 1)) :
    |F.rcos (F.sph v' 1)| < 1 ∧ Real.cos (tht F v') = F.rcos (F.sph v' 1) ∧ 9 / 10 * s ≤ Real.sin (tht F v') ∧
      |F.rsin (F.sph v' 1) - Real.sin (tht F v')| ≤ 20 * u / s ∧
      len3 (dirV (tht F v') (v'.toSpherical3 2) - dir v) ≤ 20 * u / s := by
  have hu := hF.nonneg
  have hul := hκ.u_le hu
  have hs0 := hκ.pos
  have hs1 := hκ.le_one
  have hl := len3_pos h0
  have hss : s ^ 2 ≤ s := by nlinarith
  have hu1 : u ≤ s / 128 := by linarith
  have hl' : |len3 v' - len3 v| ≤ u * len3 v := (abs_len3_sub _ _).trans hv
  have hl2 := abs_le.mp hl'
  have hlv' : 0 < len3 v' := by nlinarith
  have hv0' : v' ≠ 0 := by
    rintro rfl
    rw [len3_zero] at hlv'
    exact lt_irrefl _ hlv'
  have hη' : η ≤ len3 v' := eta_len hF.small hη hv
  clear hη
  set S := Real.sin (v'.toSpherical3 1) with hS
  have hS1 : S ≤ 1 := Real.sin_le_one _
  have hSs : 98 / 100 * s ≤ S := by
    have h1 := hypot_sub_le v v'
    rw [hypot_sph v', ← hS] at h1
    have h2 : (s - u) * len3 v ≤ len3 v' * S := by linarith
    have hS0 : 0 ≤ S := sph_sin_nonneg v'
    have h3 : len3 v' * S ≤ (1 + u) * len3 v * S := mul_le_mul_of_nonneg_right (by linarith) hS0
    have h4 : (s - u) * len3 v ≤ (1 + u) * S * len3 v := by linarith
    have h5 := le_of_mul_le_mul_right h4 hl
    have h6 : u * S ≤ s / 128 := by nlinarith
    linarith
  have hS0 : 0 < S := by linarith [mul_pos (by norm_num : (0 : ℝ) < 98 / 100) hs0]
  set X := F.rcos (F.sph v' 1) with hX
  have hXle : |X| ≤ 1 := hF.rcos_le _
  have hXc : |X - Real.cos (v'.toSpherical3 1)| ≤ 7 * u := cos_sph hF.toLow3 v' hη'
  set C := Real.cos (v'.toSpherical3 1) with hC
  have hSC : S ^ 2 + C ^ 2 = 1 := Real.sin_sq_add_cos_sq _
  have hC1 : |C| ≤ 1 := Real.abs_cos_le_one _
  have hd : |X ^ 2 - C ^ 2| ≤ 14 * u := by
    rw [show X ^ 2 - C ^ 2 = (X - C) * (X + C) by ring, abs_mul]
    have := abs_add_le X C
    nlinarith [mul_le_mul hXc (this.trans (by linarith : |X| + |C| ≤ 2)) (abs_nonneg _) (by linarith : 0 ≤ 7 * u)]
  have hd2 := abs_le.mp hd
  have hcos : Real.cos (tht F v') = X := Real.cos_arccos (abs_le.mp hXle).1 (abs_le.mp hXle).2
  have hsn0 : 0 ≤ Real.sin (tht F v') := by unfold tht; rw [Real.sin_arccos]; exact Real.sqrt_nonneg _
  have hsc := Real.sin_sq_add_cos_sq (tht F v')
  rw [hcos] at hsc
  set T := Real.sin (tht F v') with hT
  have hT2 : (9 / 10 * s) ^ 2 ≤ T ^ 2 := by nlinarith
  have hTs : 9 / 10 * s ≤ T := by
    exact (le_abs_self _).trans (abs_le_of_sq_le_sq hT2 hsn0)
  have hX1 : |X| < 1 := by
    rw [← sq_lt_one_iff_abs_lt_one]
    nlinarith [mul_pos hs0 hs0]
  have hTS : |T - S| ≤ 15 / 2 * u / s := by
    have e : T ^ 2 - S ^ 2 = (T - S) * (T + S) := by ring
    have h1 : |T - S| * (T + S) ≤ 14 * u := by
      rw [← abs_of_nonneg (by linarith : 0 ≤ T + S), ← abs_mul, ← e, abs_le]
      constructor <;> linarith
    have h2 : |T - S| * (188 / 100 * s) ≤ 14 * u :=
      (mul_le_mul_of_nonneg_left (by linarith) (abs_nonneg _)).trans h1
    rw [le_div_iff₀ hs0]
    nlinarith
  have hus : u ≤ u / s := by rw [le_div_iff₀ hs0]; nlinarith
  have hus0 : 0 ≤ u / s := by positivity
  refine ⟨hX1, hcos, hTs, ?_, ?_⟩
  · have h1 := sin_sph hF hv0' hη'
    have h2 := abs_sub_le (F.rsin (F.sph v' 1)) S T
    rw [abs_sub_comm S T] at h2
    rw [show 20 * u / s = 20 * (u / s) by ring]
    rw [show 15 / 2 * u / s = 15 / 2 * (u / s) by ring] at hTS
    linarith
  · have h1 : len3 (dirV (tht F v') (v'.toSpherical3 2) - dir v') ≤ 7 * u + 15 / 2 * (u / s) := by
      have e : dot3 (dirV (tht F v') (v'.toSpherical3 2) - dir v') (dirV (tht F v') (v'.toSpherical3 2) - dir v')
          = (X - C) ^ 2 + (T - S) ^ 2 := by
        simp only [dir, dirV, dot3, Pi.sub_apply, Matrix.cons_val_zero, Matrix.cons_val_one, Matrix.cons_val]
        rw [hcos, ← hT, ← hS, ← hC]
        have h2 := Real.sin_sq_add_cos_sq (v'.toSpherical3 2)
        linear_combination (T - S) ^ 2 * h2
      unfold len3
      rw [e]
      have a := abs_nonneg (X - C)
      have b := abs_nonneg (T - S)
      rw [show 15 / 2 * u / s = 15 / 2 * (u / s) by ring] at hTS
      exact sqrt_sq_add_le a hXc b hTS
    have h2 := dir_close hu hv
    have h3 := len3_add_le (dirV (tht F v') (v'.toSpherical3 2) - dir v') (dir v' - dir v)
    rw [sub_add_sub_cancel] at h3
    rw [show 20 * u / s = 20 * (u / s) by ring]
    linarith

/-- The computed sine, and its reciprocal. -/
theorem frame_sin (hF : F.LowD u g η ρ) {s : ℝ} {p κ : ℕ} (hκ : FrameCost u g s p κ) {v v' : Vec 3}
    (hv : len3 (v' - v) ≤ u * len3 v) (h0 : v ≠ 0) (hη : 2 * η ≤ len3 v) (hs : s * len3 v ≤ Vec.hypot (v 0) (v 1)) :
    F.rsin (F.sph v' 1) ≠ 0 ∧ Ap u κ 1 (F.rsin (F.sph v' 1)) (Real.sin (tht F v')) ∧
      Ap u κ (Real.sin (tht F v'))⁻¹ (F.rsin (F.sph v' 1))⁻¹ (Real.sin (tht F v'))⁻¹ := by
  have hu := hF.nonneg
  obtain ⟨-, -, hT, hR, -⟩ := frame hF hκ hv h0 hη hs
  have hs0 := hκ.pos
  have hs1 := hκ.le_one
  have hul := hκ.u_le hu
  set T := Real.sin (tht F v')
  set R := F.rsin (F.sph v' 1)
  have hT0 : 0 < T := by linarith [mul_pos (by norm_num : (0 : ℝ) < 9 / 10) hs0]
  have hT1 : T ≤ 1 := Real.sin_le_one _
  have hR' := abs_le.mp hR
  have hus : 20 * u / s ≤ 20 / 128 * s := by
    rw [div_le_iff₀ hs0]; nlinarith
  have hR0 : 0 < R := by linarith
  have hpw := pow_ge hu κ
  have hus2 : 32 * (u / s ^ 2) ≤ (1 + u) ^ κ - 1 := by
    have : 32 * (u / s ^ 2) ≤ κ * u := by
      rw [← mul_div_assoc, div_le_iff₀ (by positivity)]
      nlinarith [mul_le_mul_of_nonneg_right hκ.le hu]
    linarith
  have hus3 : u / s ≤ u / s ^ 2 := by
    apply div_le_div_of_nonneg_left hu (by positivity)
    nlinarith
  refine ⟨hR0.ne', ⟨?_, by rw [Real.norm_of_nonneg hT0.le]; exact hT1⟩, ⟨?_, by rw [Real.norm_of_nonneg (inv_nonneg.mpr hT0.le)]⟩⟩
  · rw [Real.norm_eq_abs, mul_one]
    refine hR.trans ?_
    rw [mul_div_assoc]
    have : 0 ≤ u / s ^ 2 := by positivity
    linarith
  · rw [Real.norm_eq_abs, show R⁻¹ - T⁻¹ = (T - R) * R⁻¹ * T⁻¹ by field_simp, abs_mul, abs_mul, abs_of_pos (inv_pos.mpr hT0),
      abs_of_pos (inv_pos.mpr hR0), abs_sub_comm]
    refine mul_le_mul_of_nonneg_right ?_ (inv_nonneg.mpr hT0.le)
    refine le_trans ?_ hus2
    rw [← div_eq_mul_inv, div_le_iff₀ hR0]
    refine hR.trans ?_
    have e : 20 * u / s = 20 * (u / s ^ 2) * s := by field_simp
    rw [e]
    have h1 : 20 * s ≤ 32 * R := by linarith
    have h2 : 0 ≤ u / s ^ 2 := by positivity
    nlinarith [mul_le_mul_of_nonneg_left h1 h2]

/-- The computed cosine and sine of the azimuth. -/
theorem frame_phi (hF : F.LowD u g η ρ) (v' : Vec 3) :
    Ap u 5 1 (F.rcos (F.sph v' 2)) (Real.cos (v'.toSpherical3 2)) ∧ Ap u 5 1 (F.rsin (F.sph v' 2)) (Real.sin (v'.toSpherical3 2)) := by
  have hu := hF.nonneg
  have e1 : v'.toSpherical3 2 = Vec.atan2 (v' 1) (v' 0) := rfl
  have e2 : F.sph v' 2 = F.atan2 (v' 1) (v' 0) := rfl
  rw [e1, e2]
  set A := F.atan2 (v' 1) (v' 0)
  set B := Vec.atan2 (v' 1) (v' 0)
  have h3 : |A - B| ≤ u * max |B| η := hF.atan2 (v' 1) (v' 0)
  have h4 : |B| ≤ 4 := (Complex.abs_arg_le_pi _).trans Real.pi_le_four
  have h5 := mul_le_mul_of_nonneg_left (max_le h4 (hF.eta1.trans (by norm_num : (1 : ℝ) ≤ 4))) hu
  have h7 := pow_ge hu 5
  push_cast at h7
  refine ⟨⟨?_, ?_⟩, ⟨?_, ?_⟩⟩ <;> rw [Real.norm_eq_abs]
  · have a1 := hF.rcos A
    have a2 := Real.abs_cos_sub_cos_le A B
    have a3 := abs_sub_le (F.rcos A) (Real.cos A) (Real.cos B)
    linarith
  · exact Real.abs_cos_le_one _
  · have a1 := hF.rsin A
    have a2 := Real.abs_sin_sub_sin_le A B
    have a3 := abs_sub_le (F.rsin A) (Real.sin A) (Real.sin B)
    linarith
  · exact Real.abs_sin_le_one _

/-! ## Tables -/

/-- An entry approximates the harmonic whose Legendre factor is approximated by the tabulated value. -/
theorem dp_err (hF : F.Low u g η ρ) {l m : ℕ} {L : ℕ → ℕ → ℝ} {S phi' phi γ : ℝ} (hm : m ≤ l) (hγ : 0 ≤ γ) (hL : |L l m - S| ≤ γ)
    (hL' : m ≠ 0 → |L l m - S| ≤ γ - η)
    (hphi : ‖F.cis phi' - Complex.exp (Complex.I * phi)‖ ≤ (1 + u) ^ 5 - 1) {y : ℂ}
    (hy : (if m = 0 then (S : ℂ) else (S : ℂ) * Complex.exp (Complex.I * phi) ^ m / (Real.sqrt 2 : ℂ)) = y) :
    ‖dp F L phi' l m - y‖ ≤ ((1 + u) ^ (6 * l + 4) - 1) * ‖y‖ + (1 + u) ^ (6 * l + 4) * γ := by
  have hu := hF.nonneg
  have h1 := one_le_pow_u hu (6 * l + 4)
  rw [← hy]
  unfold dp
  by_cases h0 : m = 0
  · subst h0
    rw [if_pos rfl, if_pos rfl, ← Complex.ofReal_sub, Complex.norm_real, Real.norm_eq_abs]
    have h2 := mul_le_mul_of_nonneg_right h1 hγ
    have h3 : 0 ≤ ((1 + u) ^ (6 * l + 4) - 1) * ‖(S : ℂ)‖ := mul_nonneg (by linarith) (norm_nonneg _)
    linarith
  · rw [if_neg h0, if_neg h0]
    set e := Complex.exp (Complex.I * phi)
    have he : ‖e‖ = 1 := by
      have : e = Complex.exp ((phi : ℂ) * Complex.I) := by simp only [e]; rw [mul_comm]
      rw [this, Complex.norm_exp_ofReal_mul_I]
    have hs2 : (0 : ℝ) < Real.sqrt 2 := Real.sqrt_pos.mpr (by norm_num)
    have hs21 : (1 : ℝ) ≤ Real.sqrt 2 := by rw [Real.one_le_sqrt]; norm_num
    have hη := hF.eta
    have hL' := hL' h0
    have hγη : 0 ≤ γ - η := (abs_nonneg _).trans hL'
    have hc : Ap u 5 1 (F.cis phi') e := ⟨by rw [mul_one]; exact hphi, he.le⟩
    have hp := Lo.pw_ap hF.toLow hc (Ap.refl (u := u) (le_of_eq (norm_one (α := ℂ)))) m fun j _ =>
      Or.inr (by rw [one_pow, one_mul]; exact hF.eta1)
    rw [one_pow, one_mul, one_mul] at hp
    have hsη : η ≤ Real.sqrt 2 * η := le_mul_of_one_le_left hη hs21
    have hq : Ap u 0 (|L l m| + Real.sqrt 2 * η) (L l m) (L l m) := Ap.refl (by rw [Real.norm_eq_abs]; linarith)
    have hr := hF.rsc hq hp (Or.inr (by rw [mul_one]; linarith [abs_nonneg (L l m)]))
    have hi := Ap.inv (x' := (F.sqrt2 : ℂ)) (x := ((Real.sqrt 2 : ℝ) : ℂ)) hu hF.small (by exact_mod_cast hs2.ne')
      (by rw [← Complex.ofReal_sub, Complex.norm_real, Complex.norm_real, Real.norm_eq_abs, Real.norm_of_nonneg hs2.le]
          exact hF.sqrt2)
    have hd := (hr.mul hu hi.2).roundf (η := η) hu (Or.inr (by
        rw [Complex.norm_real, Real.norm_of_nonneg hs2.le, mul_one, ← div_eq_mul_inv, le_div_iff₀ hs2]
        linarith [abs_nonneg (L l m)])) (y' := F.cdr (F.rsc (L l m) (Fl.pw F.toFlt (F.cis phi') 1 m)) F.sqrt2)
      (by have := hF.cdr_err (F.rsc (L l m) (Fl.pw F.toFlt (F.cis phi') 1 m)) F.sqrt2
          rwa [div_eq_mul_inv] at this)
      fun h0 => by
        rw [← div_eq_mul_inv, Flt.Low.cdr_eq] at h0
        exact hF.pair0 h0
    rw [Complex.norm_real, Real.norm_of_nonneg hs2.le, mul_one, ← div_eq_mul_inv, ← div_eq_mul_inv] at hd
    have hd' := hd.mono hu (m := 6 * l + 4) (by omega) le_rfl
    have hE : ‖(L l m : ℂ) * e ^ m / (Real.sqrt 2 : ℂ) - (S : ℂ) * e ^ m / (Real.sqrt 2 : ℂ)‖ ≤ γ - η := by
      rw [← sub_div, ← sub_mul, norm_div, norm_mul, norm_pow, he, one_pow, mul_one, ← Complex.ofReal_sub, Complex.norm_real,
        Complex.norm_real, Real.norm_eq_abs, Real.norm_of_nonneg hs2.le]
      exact (div_le_self (abs_nonneg _) hs21).trans hL'
    have hN : ‖(S : ℂ) * e ^ m / (Real.sqrt 2 : ℂ)‖ = |S| / Real.sqrt 2 := by
      rw [norm_div, norm_mul, norm_pow, he, one_pow, mul_one, Complex.norm_real, Complex.norm_real, Real.norm_eq_abs,
        Real.norm_of_nonneg hs2.le]
    have hLS : (|L l m| + Real.sqrt 2 * η) / Real.sqrt 2 ≤ |S| / Real.sqrt 2 + γ := by
      have h5 : |L l m| ≤ |S| + (γ - η) := by
        have := abs_sub_abs_le_abs_sub (L l m) S
        linarith
      have h6 : (γ - η) / Real.sqrt 2 ≤ γ - η := div_le_self hγη hs21
      have := div_le_div_of_nonneg_right h5 hs2.le
      rw [add_div] at this
      rw [add_div, mul_div_cancel_left₀ _ hs2.ne']
      linarith
    rw [hN]
    have h7 := hd'.1
    have h8 := mul_le_mul_of_nonneg_left hLS (show 0 ≤ (1 + u) ^ (6 * l + 4) - 1 by linarith)
    have h9 := norm_sub_le_norm_sub_add_norm_sub (F.cdr (F.rsc (L l m) (Fl.pw F.toFlt (F.cis phi') 1 m)) F.sqrt2)
      ((L l m : ℂ) * e ^ m / (Real.sqrt 2 : ℂ)) ((S : ℂ) * e ^ m / (Real.sqrt 2 : ℂ))
    nlinarith

/-- Values in the table, in the frame of the computed cosine. -/
theorem dv_err (hF : F.Low u g η ρ) {l : ℕ} {m : ℤ} {L S : ℕ → ℕ → ℝ} {phi' phi γ : ℝ} (hm : |m| ≤ l) (hγ : 0 ≤ γ)
    (hL : ∀ k ≤ l, |L l k - S l k| ≤ γ) (hL' : ∀ k ≤ l, k ≠ 0 → |L l k - S l k| ≤ γ - η)
    (hphi : ‖F.cis phi' - Complex.exp (Complex.I * phi)‖ ≤ (1 + u) ^ 5 - 1) {y : ℤ → ℂ} (hc : ∀ m, (starRingEnd ℂ) (y m) = y (-m))
    (hy : ∀ k ≤ l, (if k = 0 then (S l 0 : ℂ) else (S l k : ℂ) * Complex.exp (Complex.I * phi) ^ k / (Real.sqrt 2 : ℂ)) = y k) :
    ‖dv F L phi' l m - y m‖ ≤ ((1 + u) ^ (6 * l + 4) - 1) * ‖y m‖ + (1 + u) ^ (6 * l + 4) * γ := by
  have hm' := abs_le.mp hm
  have key : ∀ k ≤ l, (if k = 0 then (S l k : ℂ) else (S l k : ℂ) * Complex.exp (Complex.I * phi) ^ k / (Real.sqrt 2 : ℂ)) = y k := by
    intro k hk
    rw [← hy k hk]
    by_cases h0 : k = 0
    · subst h0; rfl
    · rw [if_neg h0, if_neg h0]
  unfold dv
  by_cases h0 : 0 ≤ m
  · rw [if_pos h0]
    have := dp_err hF (m := m.toNat) (by omega) hγ (hL _ (by omega)) (hL' _ (by omega)) hphi (key m.toNat (by omega))
    rwa [Int.toNat_of_nonneg h0] at this
  · rw [if_neg h0]
    have := dp_err hF (m := (-m).toNat) (by omega) hγ (hL _ (by omega)) (hL' _ (by omega)) hphi (key (-m).toNat (by omega))
    rw [Int.toNat_of_nonneg (by omega)] at this
    have e : y m = (starRingEnd ℂ) (y (-m)) := by rw [hc, neg_neg]
    rw [e, ← map_sub, RCLike.norm_conj, RCLike.norm_conj]
    exact this

/-- Degree `l` of the table of values. -/
theorem dvY_err (hF : F.LowD u g η ρ) {lmax l : ℕ} {m : ℤ} {v' : Vec 3} (hx : |F.rcos (F.sph v' 1)| < 1) (hl : l ≤ lmax) (hm : |m| ≤ l) :
    ‖dv F (F.legD lmax (F.rcos (F.sph v' 1))).1 (F.sph v' 2) l m - rY (dirV (tht F v') (v'.toSpherical3 2)) l m‖
      ≤ ((1 + u) ^ (6 * l + 4) - 1) * ‖rY (dirV (tht F v') (v'.toSpherical3 2)) l m‖ + (1 + u) ^ (6 * l + 4) * g := by
  have hcos : Real.cos (tht F v') = F.rcos (F.sph v' 1) := Real.cos_arccos (abs_le.mp hx.le).1 (abs_le.mp hx.le).2
  refine dv_err hF.toLow3 (S := fun l k => schmidt (-1) l k (F.rcos (F.sph v' 1))) hm (gpos hF.toLow3)
    (fun k hk => (hF.legV lmax _ l k hx hk hl).trans (by linarith [hF.eta])) (fun k hk _ => hF.legV lmax _ l k hx hk hl) (cis_sph hF.toLow3 v') (fun m => conj_rY _ _ _) (fun k hk => ?_)
  have hs : 0 ≤ Real.sin (tht F v') := by unfold tht; rw [Real.sin_arccos]; exact Real.sqrt_nonneg _
  have := schmidt_rY (phi := v'.toSpherical3 2) hs hk
  rw [hcos] at this
  exact this

/-- Degree `l` of the table of derivatives. -/
theorem dvD_err (hF : F.LowD u g η ρ) {lmax l : ℕ} {m : ℤ} {v' : Vec 3} (hx : |F.rcos (F.sph v' 1)| < 1) (hl : l ≤ lmax) (hm : |m| ≤ l) :
    ‖dv F (F.legD lmax (F.rcos (F.sph v' 1))).2 (F.sph v' 2) l m
        - rD (dirV (tht F v') (v'.toSpherical3 2)) (thetaV (tht F v') (v'.toSpherical3 2)) l m‖
      ≤ ((1 + u) ^ (6 * l + 4) - 1) * ‖rD (dirV (tht F v') (v'.toSpherical3 2)) (thetaV (tht F v') (v'.toSpherical3 2)) l m‖
        + (1 + u) ^ (6 * l + 4) * (g * l) := by
  have hs : 0 < Real.sin (tht F v') := by
    have h2 := Real.sin_sq_add_cos_sq (tht F v')
    have hcos : Real.cos (tht F v') = F.rcos (F.sph v' 1) := Real.cos_arccos (abs_le.mp hx.le).1 (abs_le.mp hx.le).2
    rw [hcos] at h2
    have h3 := (sq_lt_one_iff_abs_lt_one _).mpr hx
    have h4 : 0 ≤ Real.sin (tht F v') := by unfold tht; rw [Real.sin_arccos]; exact Real.sqrt_nonneg _
    rcases h4.lt_or_eq with h | h
    · exact h
    · rw [← h] at h2; linarith
  refine dv_err hF.toLow3 (S := fun l k => deriv (fun t => schmidt (-1) l k (Real.cos t)) (tht F v')) hm
    (mul_nonneg (gpos hF.toLow3) (Nat.cast_nonneg _))
    (fun k hk => (hF.legD lmax _ l k hx hk hl).trans
      (mul_le_mul_of_nonneg_right (by linarith [hF.eta]) (Nat.cast_nonneg _)))
    (fun k hk h0 => (hF.legD lmax _ l k hx hk hl).trans (by
      have h1 : (1 : ℝ) ≤ l := by exact_mod_cast (show 1 ≤ l by omega)
      nlinarith [hF.eta])) (cis_sph hF.toLow3 v')
    (fun m => conj_rD _ _ _ _) (fun k hk => ?_)
  exact YlmDerivTable.deriv_schmidt (phi := v'.toSpherical3 2) hs hk

end Lo3
end FMM
