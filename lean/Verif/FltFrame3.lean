import Verif.FltVec3
import Verif.Exp3Force
import Verif.FltIeee3

/-!
# The spherical frame of an evaluation point in floating-point arithmetic

`evaluateForcefield` divides by the sine of the computed polar angle and takes the harmonics at the rounded cosine of
that angle.  For points whose polar angle has a sine of at least `s`, the computed frame is close to the exact frame of a
direction that is `O(u/s)` away, and the sine has the relative error `O(u/s²)`.
-/

namespace FMM
open Finset

/-- `Flt3.Ok` with the operations used by the force only: the sine, and the Legendre functions with derivatives. -/
structure Flt3.OkD (F : Flt3) (u g : ℝ) : Prop extends toOk3 : F.Ok u g where
  rsin : ∀ x, |F.rsin x - Real.sin x| ≤ u
  legV : ∀ lmax x l m, |x| < 1 → m ≤ l → l ≤ lmax → |(F.legD lmax x).1 l m - schmidt (-1) l m x| ≤ g
  legD : ∀ lmax x l m, |x| < 1 → m ≤ l → l ≤ lmax →
    |(F.legD lmax x).2 l m - deriv (fun t => schmidt (-1) l m (Real.cos t)) (Real.arccos x)| ≤ g * l

theorem Flt3.exact_okD {u : ℝ} (h : 0 ≤ u) (h' : u ≤ 1 / 16) : Flt3.exact.OkD u 0 := by
  refine ⟨Flt3.exact_ok h h', fun x => ?_, fun lmax x l m _ _ _ => ?_, fun lmax x l m _ _ _ => ?_⟩ <;>
  simp only [Flt3.exact, sub_self, abs_zero]
  · exact h
  · exact le_rfl
  · simp

/-! ## Size of derivatives of harmonics -/

theorem l2_tendsto {ι : Type*} {s : Finset ι} {f : ℝ → ι → ℂ} {x : ι → ℂ} {l : Filter ℝ} (h : ∀ i ∈ s, Filter.Tendsto (fun t => f t i) l (nhds (x i))) :
    Filter.Tendsto (fun t => l2 s (f t)) l (nhds (l2 s x)) := by
  unfold l2
  refine (Real.continuous_sqrt.tendsto _).comp ?_
  exact tendsto_finsetSum _ fun i hi => ((h i hi).norm).pow 2

theorem dot3_add_left' (a b c : Vec 3) : dot3 (a + b) c = dot3 a c + dot3 b c := by
  unfold dot3; simp only [Pi.add_apply]; ring

/-- Derivatives of the harmonics of degree `n` along the sphere. -/
theorem l2_rD {w e : Vec 3} (hw : len3 w = 1) (he : len3 e = 1) (h0 : dot3 w e = 0) (n : ℕ) : l2 (Ir n) (rD w e n) ≤ n := by
  let γ : ℝ → Vec 3 := fun t => Real.cos t • w + Real.sin t • e
  have hww : dot3 w w = 1 := by rw [← len3_sq, hw]; norm_num
  have hee : dot3 e e = 1 := by rw [← len3_sq, he]; norm_num
  have hγ1 : ∀ t, len3 (γ t) = 1 := fun t => by
    have : dot3 (γ t) (γ t) = 1 := by
      have h1 := Real.sin_sq_add_cos_sq t
      have e1 : dot3 (γ t) (γ t) = Real.cos t ^ 2 * dot3 w w + 2 * (Real.cos t * Real.sin t) * dot3 w e + Real.sin t ^ 2 * dot3 e e := by
        simp only [γ, dot3, Pi.add_apply, Pi.smul_apply, smul_eq_mul]; ring
      rw [e1, hww, hee, h0]; linarith
    unfold len3; rw [this, Real.sqrt_one]
  have hγ0 : γ 0 = w := by simp [γ]
  have hd : HasDerivAt γ e 0 := by
    rw [hasDerivAt_pi]
    intro i
    have h1 := ((Real.hasDerivAt_cos 0).mul_const (w i)).add ((Real.hasDerivAt_sin 0).mul_const (e i))
    rw [Real.sin_zero, Real.cos_zero, neg_zero, zero_mul, zero_add, one_mul] at h1
    exact h1
  have hdist : ∀ t, len3 (γ t - w) ≤ |t| := fun t => by
    have h1 := Real.sin_sq_add_cos_sq t
    have e1 : dot3 (γ t - w) (γ t - w) = 2 - 2 * Real.cos t := by
      have : dot3 (γ t - w) (γ t - w) = (Real.cos t - 1) ^ 2 * dot3 w w + 2 * ((Real.cos t - 1) * Real.sin t) * dot3 w e + Real.sin t ^ 2 * dot3 e e := by
        simp only [γ, dot3, Pi.add_apply, Pi.smul_apply, Pi.sub_apply, smul_eq_mul]; ring
      rw [this, hww, hee, h0]; linarith
    unfold len3
    rw [e1, ← Real.sqrt_sq_eq_abs]
    refine Real.sqrt_le_sqrt ?_
    have := Real.one_sub_sq_div_two_le_cos (x := t)
    linarith
  have hlim : ∀ m ∈ Ir n, Filter.Tendsto (fun t : ℝ => ((t : ℂ)⁻¹) * (rY (γ t) n m - rY w n m)) (nhdsWithin (0 : ℝ) {0}ᶜ) (nhds (rD w e n m)) := fun m _ => by
    have h1 : HasDerivAt (fun t => rY (γ t) n m) (rD w e n m) 0 := by
      have h2 := (rY_hasFDerivAt (γ 0) n m).comp_hasDerivAt 0 hd
      rwa [hγ0, rDL_apply] at h2
    have h3 := hasDerivAt_iff_tendsto_slope_zero.mp h1
    refine h3.congr fun t => ?_
    rw [zero_add, hγ0, Complex.real_smul]; push_cast; rfl
  refine le_of_tendsto (l2_tendsto (f := fun t m => ((t : ℂ)⁻¹) * (rY (γ t) n m - rY w n m)) hlim) ?_
  filter_upwards [self_mem_nhdsWithin] with t ht
  have ht0 : 0 < |t| := abs_pos.mpr ht
  rw [l2_smul]
  have h1 := (l2_rY_lip n (hγ1 t) hw).trans (mul_le_mul_of_nonneg_left (hdist t) (Nat.cast_nonneg n))
  rw [norm_inv, Complex.norm_real, Real.norm_eq_abs, inv_mul_le_iff₀ ht0]
  linarith

theorem len3_thetaV (t p : ℝ) : len3 (thetaV t p) = 1 := by
  unfold len3 dot3 thetaV
  rw [Real.sqrt_eq_one]
  simp only [Matrix.cons_val_zero, Matrix.cons_val_one, Matrix.cons_val]
  have h1 := Real.sin_sq_add_cos_sq t
  have h2 := Real.sin_sq_add_cos_sq p
  linear_combination h1 + Real.cos t ^ 2 * h2

theorem len3_phiV (p : ℝ) : len3 (phiV p) = 1 := by
  unfold len3 dot3 phiV
  rw [Real.sqrt_eq_one]
  simp only [Matrix.cons_val_zero, Matrix.cons_val_one, Matrix.cons_val]
  have h2 := Real.sin_sq_add_cos_sq p
  linear_combination h2

theorem dot_dir_theta (t p : ℝ) : dot3 (dirV t p) (thetaV t p) = 0 := by
  simp [dot3, thetaV, dirV]
  have h2 := Real.sin_sq_add_cos_sq p
  linear_combination (Real.sin t * Real.cos t) * h2

theorem dot_dir_phi (t p : ℝ) : dot3 (dirV t p) (phiV p) = 0 := by
  simp [dot3, phiV, dirV]
  ring

namespace Fl3
variable {F : Flt3} {u g : ℝ}

/-! ## The sine of the polar angle -/

theorem sin_arg_close {z z' : ℂ} (hz : z ≠ 0) (hu : 0 ≤ u) (hu' : u ≤ 1 / 16) (h : ‖z' - z‖ ≤ u * ‖z‖) :
    |Real.sin (Complex.arg z') - Real.sin (Complex.arg z)| ≤ 3 * u := by
  have hz0 : 0 < ‖z‖ := norm_pos_iff.mpr hz
  have h1 : |‖z'‖ - ‖z‖| ≤ u * ‖z‖ := (abs_norm_sub_norm_le _ _).trans h
  have h2 := abs_le.mp h1
  have hz'0 : 0 < ‖z'‖ := by nlinarith
  rw [Complex.sin_arg, Complex.sin_arg]
  have e : z'.im / ‖z'‖ - z.im / ‖z‖ = (z' - z).im / ‖z'‖ + z.im / ‖z‖ * ((‖z‖ - ‖z'‖) / ‖z'‖) := by
    rw [Complex.sub_im]; field_simp; ring
  rw [e]
  have h3 : |z.im| / ‖z‖ ≤ 1 := by rw [div_le_one hz0]; exact Complex.abs_im_le_norm z
  have h4 : |‖z'‖ - ‖z‖| / ‖z'‖ ≤ 3 / 2 * u := by
    rw [div_le_iff₀ hz'0]; nlinarith
  have h5 : 0 ≤ |‖z'‖ - ‖z‖| / ‖z'‖ := by positivity
  have h6 : |(z' - z).im| / ‖z'‖ ≤ 3 / 2 * u := by
    rw [div_le_iff₀ hz'0]
    have := (Complex.abs_im_le_norm (z' - z)).trans h
    nlinarith
  refine (abs_add_le _ _).trans ?_
  rw [abs_mul, abs_div, abs_div, abs_div, abs_of_pos hz0, abs_of_pos hz'0, abs_sub_comm ‖z‖]
  have := mul_le_mul h3 h4 h5 zero_le_one
  linarith

/-- The computed sine of the polar angle. -/
theorem sin_sph (hF : F.OkD u g) {v : Vec 3} (h0 : v ≠ 0) : |F.rsin (F.sph v 1) - Real.sin (v.toSpherical3 1)| ≤ 8 * u := by
  have hu := hF.nonneg
  have e1 : v.toSpherical3 1 = Complex.arg ⟨v 2, Vec.hypot (v 0) (v 1)⟩ := rfl
  have e2 : F.sph v 1 = F.atan2 (F.hyp (v 0) (v 1)) (v 2) := rfl
  rw [e1, e2]
  set H := Vec.hypot (v 0) (v 1) with hH
  set H' := F.hyp (v 0) (v 1)
  have hH0 : 0 ≤ H := Real.sqrt_nonneg _
  have h1 : |H' - H| ≤ u * H := hF.hyp _ _
  have h2 := hF.atan2 H' (v 2)
  have h3 := hF.rsin (F.atan2 H' (v 2))
  have h4 := Real.abs_sin_sub_sin_le (F.atan2 H' (v 2)) (Vec.atan2 H' (v 2))
  have h5 : |Vec.atan2 H' (v 2)| ≤ 4 := (Complex.abs_arg_le_pi _).trans Real.pi_le_four
  have hz : (⟨v 2, H⟩ : ℂ) ≠ 0 := by
    intro hz
    have hH2 : H = 0 := congrArg Complex.im hz
    have hv2 : v 2 = 0 := congrArg Complex.re hz
    have hs : v 0 * v 0 + v 1 * v 1 = 0 := by
      have := Real.sqrt_eq_zero'.mp (hH ▸ hH2)
      nlinarith [mul_self_nonneg (v 0), mul_self_nonneg (v 1)]
    refine h0 (funext fun i => ?_)
    have k0 : v 0 = 0 := by nlinarith [mul_self_nonneg (v 0), mul_self_nonneg (v 1)]
    have k1 : v 1 = 0 := by nlinarith [mul_self_nonneg (v 0), mul_self_nonneg (v 1)]
    fin_cases i
    · exact k0
    · exact k1
    · exact hv2
  have h6 : |Real.sin (Vec.atan2 H' (v 2)) - Real.sin (Complex.arg ⟨v 2, H⟩)| ≤ 3 * u := by
    refine sin_arg_close hz hu hF.small ?_
    have : (⟨v 2, H'⟩ : ℂ) - ⟨v 2, H⟩ = ((H' - H : ℝ) : ℂ) * Complex.I := by
      apply Complex.ext <;> simp
    rw [this, norm_mul, Complex.norm_I, mul_one, Complex.norm_real, Real.norm_eq_abs]
    refine h1.trans (mul_le_mul_of_nonneg_left ?_ hu)
    have := Complex.abs_im_le_norm (⟨v 2, H⟩ : ℂ)
    simpa [abs_of_nonneg hH0] using this
  have a1 := abs_sub_le (F.rsin (F.atan2 H' (v 2))) (Real.sin (F.atan2 H' (v 2))) (Real.sin (Complex.arg ⟨v 2, H⟩))
  have a2 := abs_sub_le (Real.sin (F.atan2 H' (v 2))) (Real.sin (Vec.atan2 H' (v 2))) (Real.sin (Complex.arg ⟨v 2, H⟩))
  have h8 := mul_le_mul_of_nonneg_left h5 hu
  linarith

theorem hypot_sph (v : Vec 3) : Vec.hypot (v 0) (v 1) = len3 v * Real.sin (v.toSpherical3 1) := by
  have hs := sph_sin_nonneg v
  have h := dir_smul v
  have e0 : v 0 = len3 v * (Real.sin (v.toSpherical3 1) * Real.cos (v.toSpherical3 2)) := by
    have := congrFun h 0
    simpa [dir, dirV] using this
  have e1 : v 1 = len3 v * (Real.sin (v.toSpherical3 1) * Real.sin (v.toSpherical3 2)) := by
    have := congrFun h 1
    simpa [dir, dirV] using this
  have hn : 0 ≤ len3 v * Real.sin (v.toSpherical3 1) := mul_nonneg (len3_nonneg v) hs
  unfold Vec.hypot
  rw [← Real.sqrt_sq hn]
  congr 1
  have h2 := Real.sin_sq_add_cos_sq (v.toSpherical3 2)
  rw [e0, e1]
  linear_combination (len3 v ^ 2 * Real.sin (v.toSpherical3 1) ^ 2) * h2

theorem hypot_le_len3 (v : Vec 3) : Vec.hypot (v 0) (v 1) ≤ len3 v := by
  unfold Vec.hypot len3 dot3
  refine Real.sqrt_le_sqrt ?_
  nlinarith [mul_self_nonneg (v 2)]

theorem hypot_sub_le (v w : Vec 3) : Vec.hypot (v 0) (v 1) - len3 (w - v) ≤ Vec.hypot (w 0) (w 1) := by
  have h1 : ∀ a : Vec 3, Vec.hypot (a 0) (a 1) = ‖(⟨a 0, a 1⟩ : ℂ)‖ := fun a => by
    rw [Complex.norm_def, Complex.normSq_mk]; unfold Vec.hypot; rw [sq, sq]
  have h2 := hypot_le_len3 (w - v)
  rw [h1] at h2
  rw [h1, h1]
  have h3 := norm_sub_norm_le (⟨v 0, v 1⟩ : ℂ) ⟨w 0, w 1⟩
  have h4 : ‖(⟨v 0, v 1⟩ : ℂ) - ⟨w 0, w 1⟩‖ = ‖(⟨(w - v) 0, (w - v) 1⟩ : ℂ)‖ := by
    rw [norm_sub_rev]; congr 1
  linarith

/-! ## The computed frame -/

/-- `κ` roundings cover the errors of the frame of points with sine at least `s` and of the tables of order `p`. -/
structure FrameCost (u g s : ℝ) (p κ : ℕ) : Prop where
  pos : 0 < s
  le_one : s ≤ 1
  le : 32 ≤ (κ : ℝ) * s ^ 2
  small : (κ : ℝ) * u ≤ 1 / 4
  tab : 1 + Real.sqrt (2 * p + 1) * (2 * g / s) ≤ (1 + u) ^ κ

theorem FrameCost.u_le {s : ℝ} {p κ : ℕ} (h : FrameCost u g s p κ) (hu : 0 ≤ u) : 128 * u ≤ s ^ 2 := by
  have h1 := mul_le_mul_of_nonneg_right h.le hu
  have h2 := mul_le_mul_of_nonneg_right h.small (sq_nonneg s)
  nlinarith

theorem sqrt_sq_add_le {a b A B : ℝ} (_ : 0 ≤ |a|) (ha : |a| ≤ A) (_ : 0 ≤ |b|) (hb : |b| ≤ B) : Real.sqrt (a ^ 2 + b ^ 2) ≤ A + B := by
  have h1 := abs_nonneg a
  have h2 := abs_nonneg b
  refine (Real.sqrt_le_sqrt (y := (|a| + |b|) ^ 2) ?_).trans ?_
  · rw [← sq_abs a, ← sq_abs b]; nlinarith [mul_nonneg h1 h2]
  · rw [Real.sqrt_sq (by linarith)]; linarith

/-- The computed frame at `v'`: the polar angle whose cosine the tables are computed from. -/
noncomputable def tht (F : Flt3) (v' : Vec 3) : ℝ := Real.arccos (F.rcos (F.sph v' 1))

theorem frame (hF : F.OkD u g) {s : ℝ} {p κ : ℕ} (hκ : FrameCost u g s p κ) {v v' : Vec 3}
    (hv : len3 (v' - v) ≤ u * len3 v) (h0 : v ≠ 0) (hs : s * len3 v ≤ Vec.hypot (v 0) (v 1)) :
    |F.rcos (F.sph v' 1)| < 1 ∧ Real.cos (tht F v') = F.rcos (F.sph v' 1) ∧ 9 / 10 * s ≤ Real.sin (tht F v') ∧
      |F.rsin (F.sph v' 1) - Real.sin (tht F v')| ≤ 20 * u / s ∧
      len3 (dirV (tht F v') (v'.toSpherical3 2) - dir v) ≤ 20 * u / s := by
  have hu := hF.nonneg
  have hul := hκ.u_le hu
  have hs0 := hκ.pos
  have hs1 := hκ.le_one
  have hl := len3_pos h0
  have hss : s ^ 2 ≤ s := by nlinarith
  have hu1 : u ≤ s / 128 := by linarith
  have hl' : |len3 v' - len3 v| ≤ u * len3 v := (abs_len3_sub _ _).trans hv
  have hl2 := abs_le.mp hl'
  have hlv' : 0 < len3 v' := by nlinarith
  have hv0' : v' ≠ 0 := by
    rintro rfl
    rw [len3_zero] at hlv'
    exact lt_irrefl _ hlv'
  set S := Real.sin (v'.toSpherical3 1) with hS
  have hS1 : S ≤ 1 := Real.sin_le_one _
  have hSs : 98 / 100 * s ≤ S := by
    have h1 := hypot_sub_le v v'
    rw [hypot_sph v', ← hS] at h1
    have h2 : (s - u) * len3 v ≤ len3 v' * S := by linarith
    have hS0 : 0 ≤ S := sph_sin_nonneg v'
    have h3 : len3 v' * S ≤ (1 + u) * len3 v * S := mul_le_mul_of_nonneg_right (by linarith) hS0
    have h4 : (s - u) * len3 v ≤ (1 + u) * S * len3 v := by linarith
    have h5 := le_of_mul_le_mul_right h4 hl
    have h6 : u * S ≤ s / 128 := by nlinarith
    linarith
  have hS0 : 0 < S := by linarith [mul_pos (by norm_num : (0 : ℝ) < 98 / 100) hs0]
  set X := F.rcos (F.sph v' 1) with hX
  have hXle : |X| ≤ 1 := hF.rcos_le _
  have hXc : |X - Real.cos (v'.toSpherical3 1)| ≤ 7 * u := cos_sph hF.toOk3 v'
  set C := Real.cos (v'.toSpherical3 1) with hC
  have hSC : S ^ 2 + C ^ 2 = 1 := Real.sin_sq_add_cos_sq _
  have hC1 : |C| ≤ 1 := Real.abs_cos_le_one _
  have hd : |X ^ 2 - C ^ 2| ≤ 14 * u := by
    rw [show X ^ 2 - C ^ 2 = (X - C) * (X + C) by ring, abs_mul]
    have := abs_add_le X C
    nlinarith [mul_le_mul hXc (this.trans (by linarith : |X| + |C| ≤ 2)) (abs_nonneg _) (by linarith : 0 ≤ 7 * u)]
  have hd2 := abs_le.mp hd
  have hcos : Real.cos (tht F v') = X := Real.cos_arccos (abs_le.mp hXle).1 (abs_le.mp hXle).2
  have hsn0 : 0 ≤ Real.sin (tht F v') := by unfold tht; rw [Real.sin_arccos]; exact Real.sqrt_nonneg _
  have hsc := Real.sin_sq_add_cos_sq (tht F v')
  rw [hcos] at hsc
  set T := Real.sin (tht F v') with hT
  have hT2 : (9 / 10 * s) ^ 2 ≤ T ^ 2 := by nlinarith
  have hTs : 9 / 10 * s ≤ T := by
    exact (le_abs_self _).trans (abs_le_of_sq_le_sq hT2 hsn0)
  have hX1 : |X| < 1 := by
    rw [← sq_lt_one_iff_abs_lt_one]
    nlinarith [mul_pos hs0 hs0]
  have hTS : |T - S| ≤ 15 / 2 * u / s := by
    have e : T ^ 2 - S ^ 2 = (T - S) * (T + S) := by ring
    have h1 : |T - S| * (T + S) ≤ 14 * u := by
      rw [← abs_of_nonneg (by linarith : 0 ≤ T + S), ← abs_mul, ← e, abs_le]
      constructor <;> linarith
    have h2 : |T - S| * (188 / 100 * s) ≤ 14 * u :=
      (mul_le_mul_of_nonneg_left (by linarith) (abs_nonneg _)).trans h1
    rw [le_div_iff₀ hs0]
    nlinarith
  have hus : u ≤ u / s := by rw [le_div_iff₀ hs0]; nlinarith
  have hus0 : 0 ≤ u / s := by positivity
  refine ⟨hX1, hcos, hTs, ?_, ?_⟩
  · have h1 := sin_sph hF hv0'
    have h2 := abs_sub_le (F.rsin (F.sph v' 1)) S T
    rw [abs_sub_comm S T] at h2
    rw [show 20 * u / s = 20 * (u / s) by ring]
    rw [show 15 / 2 * u / s = 15 / 2 * (u / s) by ring] at hTS
    linarith
  · have h1 : len3 (dirV (tht F v') (v'.toSpherical3 2) - dir v') ≤ 7 * u + 15 / 2 * (u / s) := by
      have e : dot3 (dirV (tht F v') (v'.toSpherical3 2) - dir v') (dirV (tht F v') (v'.toSpherical3 2) - dir v')
          = (X - C) ^ 2 + (T - S) ^ 2 := by
        simp only [dir, dirV, dot3, Pi.sub_apply, Matrix.cons_val_zero, Matrix.cons_val_one, Matrix.cons_val]
        rw [hcos, ← hT, ← hS, ← hC]
        have h2 := Real.sin_sq_add_cos_sq (v'.toSpherical3 2)
        linear_combination (T - S) ^ 2 * h2
      unfold len3
      rw [e]
      have a := abs_nonneg (X - C)
      have b := abs_nonneg (T - S)
      rw [show 15 / 2 * u / s = 15 / 2 * (u / s) by ring] at hTS
      exact sqrt_sq_add_le a hXc b hTS
    have h2 := dir_close hu hv
    have h3 := len3_add_le (dirV (tht F v') (v'.toSpherical3 2) - dir v') (dir v' - dir v)
    rw [sub_add_sub_cancel] at h3
    rw [show 20 * u / s = 20 * (u / s) by ring]
    linarith

theorem pow_ge (hu : 0 ≤ u) (κ : ℕ) : (κ : ℝ) * u ≤ (1 + u) ^ κ - 1 := by
  have := one_add_mul_le_pow (show (-2 : ℝ) ≤ u by linarith) κ
  linarith

theorem FrameCost.tab_le {s : ℝ} {p κ l : ℕ} (h : FrameCost u g s p κ) (hg : 0 ≤ g) (hl : l ≤ p) :
    1 + Real.sqrt (2 * l + 1) * (2 * g / s) ≤ (1 + u) ^ κ := by
  refine le_trans ?_ h.tab
  have h1 : (l : ℝ) ≤ p := by exact_mod_cast hl
  have h2 : 0 ≤ 2 * g / s := div_nonneg (by linarith) h.pos.le
  have h3 : Real.sqrt (2 * l + 1) ≤ Real.sqrt (2 * p + 1) := Real.sqrt_le_sqrt (by linarith)
  nlinarith [mul_le_mul_of_nonneg_right h3 h2]

/-- The computed sine, and its reciprocal. -/
theorem frame_sin (hF : F.OkD u g) {s : ℝ} {p κ : ℕ} (hκ : FrameCost u g s p κ) {v v' : Vec 3}
    (hv : len3 (v' - v) ≤ u * len3 v) (h0 : v ≠ 0) (hs : s * len3 v ≤ Vec.hypot (v 0) (v 1)) :
    F.rsin (F.sph v' 1) ≠ 0 ∧ Ap u κ 1 (F.rsin (F.sph v' 1)) (Real.sin (tht F v')) ∧
      Ap u κ (Real.sin (tht F v'))⁻¹ (F.rsin (F.sph v' 1))⁻¹ (Real.sin (tht F v'))⁻¹ := by
  have hu := hF.nonneg
  obtain ⟨-, -, hT, hR, -⟩ := frame hF hκ hv h0 hs
  have hs0 := hκ.pos
  have hs1 := hκ.le_one
  have hul := hκ.u_le hu
  set T := Real.sin (tht F v')
  set R := F.rsin (F.sph v' 1)
  have hT0 : 0 < T := by linarith [mul_pos (by norm_num : (0 : ℝ) < 9 / 10) hs0]
  have hT1 : T ≤ 1 := Real.sin_le_one _
  have hR' := abs_le.mp hR
  have hus : 20 * u / s ≤ 20 / 128 * s := by
    rw [div_le_iff₀ hs0]; nlinarith
  have hR0 : 0 < R := by linarith
  have hpw := pow_ge hu κ
  have hus2 : 32 * (u / s ^ 2) ≤ (1 + u) ^ κ - 1 := by
    have : 32 * (u / s ^ 2) ≤ κ * u := by
      rw [← mul_div_assoc, div_le_iff₀ (by positivity)]
      nlinarith [mul_le_mul_of_nonneg_right hκ.le hu]
    linarith
  have hus3 : u / s ≤ u / s ^ 2 := by
    apply div_le_div_of_nonneg_left hu (by positivity)
    nlinarith
  refine ⟨hR0.ne', ⟨?_, by rw [Real.norm_of_nonneg hT0.le]; exact hT1⟩, ⟨?_, by rw [Real.norm_of_nonneg (inv_nonneg.mpr hT0.le)]⟩⟩
  · rw [Real.norm_eq_abs, mul_one]
    refine hR.trans ?_
    rw [mul_div_assoc]
    have : 0 ≤ u / s ^ 2 := by positivity
    linarith
  · rw [Real.norm_eq_abs, show R⁻¹ - T⁻¹ = (T - R) * R⁻¹ * T⁻¹ by field_simp, abs_mul, abs_mul, abs_of_pos (inv_pos.mpr hT0),
      abs_of_pos (inv_pos.mpr hR0), abs_sub_comm]
    refine mul_le_mul_of_nonneg_right ?_ (inv_nonneg.mpr hT0.le)
    refine le_trans ?_ hus2
    rw [← div_eq_mul_inv, div_le_iff₀ hR0]
    refine hR.trans ?_
    have e : 20 * u / s = 20 * (u / s ^ 2) * s := by field_simp
    rw [e]
    have h1 : 20 * s ≤ 32 * R := by linarith
    have h2 : 0 ≤ u / s ^ 2 := by positivity
    nlinarith [mul_le_mul_of_nonneg_left h1 h2]

/-- The computed cosine and sine of the azimuth. -/
theorem frame_phi (hF : F.OkD u g) (v' : Vec 3) :
    Ap u 5 1 (F.rcos (F.sph v' 2)) (Real.cos (v'.toSpherical3 2)) ∧ Ap u 5 1 (F.rsin (F.sph v' 2)) (Real.sin (v'.toSpherical3 2)) := by
  have hu := hF.nonneg
  have e1 : v'.toSpherical3 2 = Vec.atan2 (v' 1) (v' 0) := rfl
  have e2 : F.sph v' 2 = F.atan2 (v' 1) (v' 0) := rfl
  rw [e1, e2]
  set A := F.atan2 (v' 1) (v' 0)
  set B := Vec.atan2 (v' 1) (v' 0)
  have h3 : |A - B| ≤ u * |B| := hF.atan2 (v' 1) (v' 0)
  have h4 : |B| ≤ 4 := (Complex.abs_arg_le_pi _).trans Real.pi_le_four
  have h5 := mul_le_mul_of_nonneg_left h4 hu
  have h7 := pow_ge hu 5
  push_cast at h7
  refine ⟨⟨?_, ?_⟩, ⟨?_, ?_⟩⟩ <;> rw [Real.norm_eq_abs]
  · have a1 := hF.rcos A
    have a2 := Real.abs_cos_sub_cos_le A B
    have a3 := abs_sub_le (F.rcos A) (Real.cos A) (Real.cos B)
    linarith
  · exact Real.abs_cos_le_one _
  · have a1 := hF.rsin A
    have a2 := Real.abs_sin_sub_sin_le A B
    have a3 := abs_sub_le (F.rsin A) (Real.sin A) (Real.sin B)
    linarith
  · exact Real.abs_sin_le_one _

end Fl3
end FMM
