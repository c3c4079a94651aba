import Verif.LowOps
import Verif.FltYlm

/-!
# Tables of spherical harmonics with gradual underflow

The tables of `FltYlm` for operations with a floor `η`: the absolute error `g` of the entries absorbs it.
-/

namespace FMM
open Finset

/-- Relative errors at most `u` down to the floor `η`; the Legendre functions have absolute error at most `g - η`. -/
structure Flt3.Low (F : Flt3) (u g η ρ : ℝ) : Prop extends F.toFlt.Low u η ρ where
  leg_nonneg : η ≤ g
  nrm3 : ∀ v, |F.nrm3 v - Vec.norm v| ≤ u * max (Vec.norm v) η
  nrm30 : F.nrm3 0 = 0
  hyp : ∀ x y, |F.hyp x y - Vec.hypot x y| ≤ u * max (Vec.hypot x y) η
  atan2 : ∀ y x, |F.atan2 y x - Vec.atan2 y x| ≤ u * max |Vec.atan2 y x| η
  rcos : ∀ x, |F.rcos x - Real.cos x| ≤ u
  rcos_le : ∀ x, |F.rcos x| ≤ 1
  cis : ∀ phi : ℝ, ‖F.cis phi - Complex.exp (Complex.I * phi)‖ ≤ u
  sqrt2 : |F.sqrt2 - Real.sqrt 2| ≤ u * Real.sqrt 2
  leg : ∀ lmax x l m, |x| ≤ 1 → m ≤ l → l ≤ lmax → |F.leg lmax x l m - schmidt (-1) l m x| ≤ g - η
  alm : ∀ (n : ℕ) (m : ℤ), n ≤ 84 → |m| ≤ n → |F.alm n m (aSpec n m) - aSpec n m| ≤ ((1 + u) ^ 6 - 1) * |aSpec n m|

namespace Lo3
open Fl3
variable {F : Flt3} {u g η ρ : ℝ}

theorem gpos (hF : F.Low u g η ρ) : 0 ≤ g := hF.eta.trans hF.leg_nonneg

/-- The entries approximate the harmonics of the direction with the computed cosine. -/
theorem yp_err (hF : F.Low u g η ρ) {lmax l m : ℕ} {x phi' phi : ℝ} (hx : |x| ≤ 1) (hm : m ≤ l) (hl : l ≤ lmax)
    (hphi : ‖F.cis phi' - Complex.exp (Complex.I * phi)‖ ≤ (1 + u) ^ 5 - 1) :
    ‖yp F lmax x phi' l m - rY (dirV (Real.arccos x) phi) l m‖
      ≤ ((1 + u) ^ (6 * l + 4) - 1) * ‖rY (dirV (Real.arccos x) phi) l m‖ + (1 + u) ^ (6 * l + 4) * g := by
  have hu := hF.nonneg
  have hη := hF.eta
  have hgη := hF.leg_nonneg
  have hg : 0 ≤ g := hη.trans hgη
  have hcos : Real.cos (Real.arccos x) = x := Real.cos_arccos (abs_le.mp hx).1 (abs_le.mp hx).2
  have hR := schmidt_rY (theta := Real.arccos x) (phi := phi) (by rw [Real.sin_arccos]; exact Real.sqrt_nonneg _) hm
  rw [hcos] at hR
  have hL := hF.leg lmax x l m hx hm hl
  have h1 := one_le_pow_u hu (6 * l + 4)
  rw [← hR]
  unfold yp
  by_cases h0 : m = 0
  · subst h0
    rw [if_pos rfl, if_pos rfl, ← Complex.ofReal_sub, Complex.norm_real, Real.norm_eq_abs]
    have h2 := mul_le_mul_of_nonneg_right h1 hg
    have h3 : 0 ≤ ((1 + u) ^ (6 * l + 4) - 1) * ‖((schmidt (-1) l 0 x : ℝ) : ℂ)‖ :=
      mul_nonneg (by linarith) (norm_nonneg _)
    linarith
  · rw [if_neg h0, if_neg h0]
    set L := F.leg lmax x l m
    set S := schmidt (-1) l m x
    set e := Complex.exp (Complex.I * phi)
    have he : ‖e‖ = 1 := by
      have : e = Complex.exp ((phi : ℂ) * Complex.I) := by simp only [e]; rw [mul_comm]
      rw [this, Complex.norm_exp_ofReal_mul_I]
    have hs2 : (0 : ℝ) < Real.sqrt 2 := Real.sqrt_pos.mpr (by norm_num)
    have hs21 : (1 : ℝ) ≤ Real.sqrt 2 := by rw [Real.one_le_sqrt]; norm_num
    have hc : Ap u 5 1 (F.cis phi') e := ⟨by rw [mul_one]; exact hphi, he.le⟩
    have hp := Lo.pw_ap hF.toLow hc hc (m - 1) fun j _ => Or.inr (by rw [one_pow, one_mul]; exact hF.eta1)
    rw [one_pow, one_mul, ← pow_succ' e, Nat.sub_add_cancel (by omega)] at hp
    have hsη : η ≤ Real.sqrt 2 * η := le_mul_of_one_le_left hη hs21
    have hq : Ap u 0 (|L| + Real.sqrt 2 * η) L L := Ap.refl (by rw [Real.norm_eq_abs]; linarith)
    have hr := hF.rsc hq hp (Or.inr (by rw [mul_one]; linarith [abs_nonneg L]))
    have hi := Ap.inv (x' := (F.sqrt2 : ℂ)) (x := ((Real.sqrt 2 : ℝ) : ℂ)) hu hF.small (by exact_mod_cast hs2.ne')
      (by rw [← Complex.ofReal_sub, Complex.norm_real, Complex.norm_real, Real.norm_eq_abs, Real.norm_of_nonneg hs2.le]
          exact hF.sqrt2)
    have hd := (hr.mul hu hi.2).roundf (η := η) hu (Or.inr (by
        rw [Complex.norm_real, Real.norm_of_nonneg hs2.le, mul_one, ← div_eq_mul_inv, le_div_iff₀ hs2]
        linarith [abs_nonneg L])) (y' := F.cdr (F.rsc L (Fl.pw F.toFlt (F.cis phi') (F.cis phi') (m - 1))) F.sqrt2)
      (by have := hF.cdr_err (F.rsc L (Fl.pw F.toFlt (F.cis phi') (F.cis phi') (m - 1))) F.sqrt2
          rwa [div_eq_mul_inv] at this)
      fun h0 => by
        rw [← div_eq_mul_inv, Flt.Low.cdr_eq] at h0
        exact hF.pair0 h0
    rw [Complex.norm_real, Real.norm_of_nonneg hs2.le, mul_one, ← div_eq_mul_inv, ← div_eq_mul_inv] at hd
    have hd' := hd.mono hu (m := 6 * l + 4) (by omega) le_rfl
    have hE : ‖(L : ℂ) * e ^ m / (Real.sqrt 2 : ℂ) - (S : ℂ) * e ^ m / (Real.sqrt 2 : ℂ)‖ ≤ g - η := by
      rw [← sub_div, ← sub_mul, norm_div, norm_mul, norm_pow, he, one_pow, mul_one, ← Complex.ofReal_sub, Complex.norm_real,
        Complex.norm_real, Real.norm_eq_abs, Real.norm_of_nonneg hs2.le]
      exact (div_le_self (abs_nonneg _) hs21).trans hL
    have hN : ‖(S : ℂ) * e ^ m / (Real.sqrt 2 : ℂ)‖ = |S| / Real.sqrt 2 := by
      rw [norm_div, norm_mul, norm_pow, he, one_pow, mul_one, Complex.norm_real, Complex.norm_real, Real.norm_eq_abs,
        Real.norm_of_nonneg hs2.le]
    have hLS : (|L| + Real.sqrt 2 * η) / Real.sqrt 2 ≤ |S| / Real.sqrt 2 + g := by
      have h5 : |L| ≤ |S| + (g - η) := by
        have := abs_sub_abs_le_abs_sub L S
        linarith
      have h6 : (g - η) / Real.sqrt 2 ≤ g - η := div_le_self (by linarith) hs21
      have := div_le_div_of_nonneg_right h5 hs2.le
      rw [add_div] at this
      rw [add_div, mul_div_cancel_left₀ _ hs2.ne']
      linarith
    rw [hN]
    have h7 := hd'.1
    have h8 := mul_le_mul_of_nonneg_left hLS (show 0 ≤ (1 + u) ^ (6 * l + 4) - 1 by linarith)
    have h9 := norm_sub_le_norm_sub_add_norm_sub (F.cdr (F.rsc L (Fl.pw F.toFlt (F.cis phi') (F.cis phi') (m - 1))) F.sqrt2)
      ((L : ℂ) * e ^ m / (Real.sqrt 2 : ℂ)) ((S : ℂ) * e ^ m / (Real.sqrt 2 : ℂ))
    nlinarith

theorem yv_err (hF : F.Low u g η ρ) {lmax l : ℕ} {m : ℤ} {x phi' phi : ℝ} (hx : |x| ≤ 1) (hm : |m| ≤ l) (hl : l ≤ lmax)
    (hphi : ‖F.cis phi' - Complex.exp (Complex.I * phi)‖ ≤ (1 + u) ^ 5 - 1) :
    ‖yv F lmax x phi' l m - rY (dirV (Real.arccos x) phi) l m‖
      ≤ ((1 + u) ^ (6 * l + 4) - 1) * ‖rY (dirV (Real.arccos x) phi) l m‖ + (1 + u) ^ (6 * l + 4) * g := by
  have hm' := abs_le.mp hm
  unfold yv
  by_cases h0 : 0 ≤ m
  · rw [if_pos h0]
    have := yp_err hF (m := m.toNat) hx (by omega) hl hphi
    rwa [Int.toNat_of_nonneg h0] at this
  · rw [if_neg h0]
    have := yp_err hF (m := (-m).toNat) hx (by omega) hl hphi
    rw [Int.toNat_of_nonneg (by omega)] at this
    have e : rY (dirV (Real.arccos x) phi) l m = (starRingEnd ℂ) (rY (dirV (Real.arccos x) phi) l (-m)) := by
      rw [conj_rY, neg_neg]
    rw [e, ← map_sub, RCLike.norm_conj, RCLike.norm_conj]
    exact this

/-- The computed cosine of the polar angle. -/
theorem cos_sph (hF : F.Low u g η ρ) (v : Vec 3) (hv : η ≤ len3 v) : |F.rcos (F.sph v 1) - Real.cos (v.toSpherical3 1)| ≤ 7 * u := by
  have hu := hF.nonneg
  have e1 : v.toSpherical3 1 = Complex.arg ⟨v 2, Vec.hypot (v 0) (v 1)⟩ := rfl
  have e2 : F.sph v 1 = F.atan2 (F.hyp (v 0) (v 1)) (v 2) := rfl
  rw [e1, e2]
  set H := Vec.hypot (v 0) (v 1) with hH
  set H' := F.hyp (v 0) (v 1)
  have hH0 : 0 ≤ H := Real.sqrt_nonneg _
  have h1 : |H' - H| ≤ u * max H η := hF.hyp _ _
  have h2 := hF.atan2 H' (v 2)
  have h3 := hF.rcos (F.atan2 H' (v 2))
  have h4 := Real.abs_cos_sub_cos_le (F.atan2 H' (v 2)) (Vec.atan2 H' (v 2))
  have h5 : |Vec.atan2 H' (v 2)| ≤ 4 := (Complex.abs_arg_le_pi _).trans Real.pi_le_four
  have h6 : |Real.cos (Vec.atan2 H' (v 2)) - Real.cos (Complex.arg ⟨v 2, H⟩)| ≤ 2 * u := by
    have hn : ‖(⟨v 2, H⟩ : ℂ)‖ = len3 v := by
      have e : H * H = v 0 * v 0 + v 1 * v 1 := by
        rw [hH]; unfold Vec.hypot
        rw [Real.mul_self_sqrt (by positivity)]; ring
      rw [Complex.norm_def, Complex.normSq_mk, e]
      unfold len3 dot3
      congr 1; ring
    have hnH : H ≤ ‖(⟨v 2, H⟩ : ℂ)‖ := by
      have := Complex.abs_im_le_norm (⟨v 2, H⟩ : ℂ)
      simpa [abs_of_nonneg hH0] using this
    by_cases hz : (⟨v 2, H⟩ : ℂ) = 0
    · have hl : len3 v = 0 := by rw [← hn, hz, norm_zero]
      have hη0 : η = 0 := le_antisymm (by rw [← hl]; exact hv) hF.eta
      have hH2 : H = 0 := congrArg Complex.im hz
      have : H' = H := by rw [hH2, hη0] at h1; rw [hH2]; simpa using h1
      rw [this]
      unfold Vec.atan2
      rw [sub_self, abs_zero]; linarith
    · refine cos_arg_close hz hu hF.small rfl ?_
      have : (⟨v 2, H'⟩ : ℂ) - ⟨v 2, H⟩ = ((H' - H : ℝ) : ℂ) * Complex.I := by
        apply Complex.ext <;> simp
      rw [this, norm_mul, Complex.norm_I, mul_one, Complex.norm_real, Real.norm_eq_abs]
      exact h1.trans (mul_le_mul_of_nonneg_left (max_le hnH (by rw [hn]; exact hv)) hu)
  have h7 : |F.rcos (F.atan2 H' (v 2)) - Real.cos (Complex.arg ⟨v 2, H⟩)|
      ≤ |F.rcos (F.atan2 H' (v 2)) - Real.cos (F.atan2 H' (v 2))|
        + |Real.cos (F.atan2 H' (v 2)) - Real.cos (Vec.atan2 H' (v 2))|
        + |Real.cos (Vec.atan2 H' (v 2)) - Real.cos (Complex.arg ⟨v 2, H⟩)| := by
    have a1 := abs_sub_le (F.rcos (F.atan2 H' (v 2))) (Real.cos (F.atan2 H' (v 2))) (Real.cos (Complex.arg ⟨v 2, H⟩))
    have a2 := abs_sub_le (Real.cos (F.atan2 H' (v 2))) (Real.cos (Vec.atan2 H' (v 2))) (Real.cos (Complex.arg ⟨v 2, H⟩))
    linarith
  have h8 := mul_le_mul_of_nonneg_left (max_le h5 (hF.eta1.trans (by norm_num : (1 : ℝ) ≤ 4))) hu
  linarith

/-- The computed phase. -/
theorem cis_sph (hF : F.Low u g η ρ) (v : Vec 3) :
    ‖F.cis (F.sph v 2) - Complex.exp (Complex.I * (v.toSpherical3 2 : ℝ))‖ ≤ (1 + u) ^ 5 - 1 := by
  have hu := hF.nonneg
  have e1 : v.toSpherical3 2 = Vec.atan2 (v 1) (v 0) := rfl
  have e2 : F.sph v 2 = F.atan2 (v 1) (v 0) := rfl
  rw [e1, e2]
  have h1 := hF.cis (F.atan2 (v 1) (v 0))
  have h2 := exp_I_close (F.atan2 (v 1) (v 0)) (Vec.atan2 (v 1) (v 0))
  have h3 := hF.atan2 (v 1) (v 0)
  have h4 : |Vec.atan2 (v 1) (v 0)| ≤ 4 := (Complex.abs_arg_le_pi _).trans Real.pi_le_four
  have h5 := mul_le_mul_of_nonneg_left (max_le h4 (hF.eta1.trans (by norm_num : (1 : ℝ) ≤ 4))) hu
  have h6 := norm_sub_le_norm_sub_add_norm_sub (F.cis (F.atan2 (v 1) (v 0)))
    (Complex.exp (Complex.I * (F.atan2 (v 1) (v 0) : ℝ))) (Complex.exp (Complex.I * (Vec.atan2 (v 1) (v 0) : ℝ)))
  have h7 := one_add_mul_le_pow (show (-2 : ℝ) ≤ u by linarith) 5
  push_cast at h7
  linarith

/-- Degree `l` of the table computed from any vector `v'`, against the harmonics of the direction with the computed cosine. -/
theorem yv_w (hF : F.Low u g η ρ) {lmax l : ℕ} (v' : Vec 3) (hl : l ≤ lmax) :
    l2 (Ir l) (fun m => yv F lmax (F.rcos (F.sph v' 1)) (F.sph v' 2) l m
      - rY (dirV (Real.arccos (F.rcos (F.sph v' 1))) (v'.toSpherical3 2)) l m)
      ≤ ((1 + u) ^ (6 * l + 4) - 1) + (1 + u) ^ (6 * l + 4) * (Real.sqrt (2 * l + 1) * g) := by
  have hu := hF.nonneg
  have hg : 0 ≤ g := hF.eta.trans hF.leg_nonneg
  have hpw := one_le_pow_u hu (6 * l + 4)
  set x := F.rcos (F.sph v' 1)
  set w := dirV (Real.arccos x) (v'.toSpherical3 2)
  have hw : len3 w = 1 := len3_dirV _ _
  have a1 : l2 (Ir l) (fun m => yv F lmax x (F.sph v' 2) l m - rY w l m)
      ≤ l2 (Ir l) (fun m => ((1 + u) ^ (6 * l + 4) - 1) * ‖rY w l m‖ + (1 + u) ^ (6 * l + 4) * g) := by
    refine l2_mono fun m hm => ?_
    rw [Real.norm_of_nonneg (add_nonneg (mul_nonneg (by linarith) (norm_nonneg _)) (mul_nonneg (by linarith) hg))]
    exact yv_err hF (hF.rcos_le _) (mem_Ir.mp hm) hl (cis_sph hF v')
  have a2 := l2_add (Ir l) (fun m => ((1 + u) ^ (6 * l + 4) - 1) * ‖rY w l m‖) (fun _ => (1 + u) ^ (6 * l + 4) * g)
  have a3 : l2 (Ir l) (fun m => ((1 + u) ^ (6 * l + 4) - 1) * ‖rY w l m‖) = (1 + u) ^ (6 * l + 4) - 1 := by
    rw [l2_smulR _ (by linarith), l2_norm, l2_rY, hw, one_pow, mul_one]
  have a4 := l2_le_card (s := Ir l) (x := fun _ => (1 + u) ^ (6 * l + 4) * g) (b := (1 + u) ^ (6 * l + 4) * g) (by positivity)
    (fun _ _ => by rw [Real.norm_of_nonneg (by positivity)])
  rw [card_Ir] at a4
  push_cast at a4
  linarith

/-- The entries of a computed table are bounded, whatever the vector. -/
theorem yv_any (hF : F.Low u g η ρ) {lmax l : ℕ} (v' : Vec 3) (hl : l ≤ lmax) :
    l2 (Ir l) (yv F lmax (F.rcos (F.sph v' 1)) (F.sph v' 2) l) ≤ 1 + yEr u g l := by
  have h1 := yv_w hF v' hl
  have h2 := l2_le_add (Ir l) (yv F lmax (F.rcos (F.sph v' 1)) (F.sph v' 2) l)
    (rY (dirV (Real.arccos (F.rcos (F.sph v' 1))) (v'.toSpherical3 2)) l)
  have h3 : l2 (Ir l) (rY (dirV (Real.arccos (F.rcos (F.sph v' 1))) (v'.toSpherical3 2)) l) = 1 := by
    have := l2_rY (dirV (Real.arccos (F.rcos (F.sph v' 1))) (v'.toSpherical3 2)) l
    rw [len3_dirV, one_pow] at this
    exact this
  have h4 : (0 : ℝ) ≤ l * (Real.sqrt (18 * u) + 2 * u) := by have := hF.nonneg; positivity
  unfold yEr
  linarith

/-- Degree `l` of the table computed from the rounded vector `v'`, against the harmonics of the direction of `v`. -/
theorem yv_l2 (hF : F.Low u g η ρ) {lmax l : ℕ} {v v' : Vec 3} (hv : len3 (v' - v) ≤ u * len3 v) (hv' : η ≤ len3 v') (hl : l ≤ lmax) :
    l2 (Ir l) (fun m => yv F lmax (F.rcos (F.sph v' 1)) (F.sph v' 2) l m - rY (dir v) l m) ≤ yEr u g l := by
  have hu := hF.nonneg
  set x := F.rcos (F.sph v' 1)
  set w := dirV (Real.arccos x) (v'.toSpherical3 2)
  have hw : len3 w = 1 := len3_dirV _ _
  have h1 := yv_w hF v' hl
  have h2 : l2 (Ir l) (fun m => rY w l m - rY (dir v) l m) ≤ l * (Real.sqrt (18 * u) + 2 * u) := by
    refine (l2_rY_lip l hw (len3_dir v)).trans (mul_le_mul_of_nonneg_left ?_ (Nat.cast_nonneg _))
    have b1 := dirV_close (phi := v'.toSpherical3 2) (hF.rcos_le _) (cos_sph hF v' hv') (sph_sin_nonneg v')
    have b2 := dir_close hu hv
    have b3 := len3_add_le (w - dir v') (dir v' - dir v)
    rw [sub_add_sub_cancel] at b3
    have b4 : Real.sqrt (2 * (7 * u) + (7 * u) ^ 2) ≤ Real.sqrt (18 * u) := by
      refine Real.sqrt_le_sqrt ?_
      nlinarith [mul_le_mul_of_nonneg_left hF.small hu]
    have b5 : len3 (w - dir v') ≤ Real.sqrt (2 * (7 * u) + (7 * u) ^ 2) := b1
    linarith
  have h3 := l2_tri (Ir l) (fun m => yv F lmax x (F.sph v' 2) l m) (fun m => rY w l m) (fun m => rY (dir v) l m)
  unfold yEr
  linarith

end Lo3
end FMM
