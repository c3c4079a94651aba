import Verif.FltExp3
import Verif.FltOps
import Verif.SolidLin
import Verif.SolidGrad
import Mathlib.Analysis.SpecialFunctions.Trigonometric.Bounds

/-!
# Rounding errors of the tables of spherical harmonics

The table of spherical harmonics is computed from the rounded cosine of the rounded polar angle.  The sine, which the
library recovers as `sqrt(1 - x^2)`, is then only accurate to the square root of the unit roundoff, so the entries have
errors of that order (in the Euclidean norm of each degree).
-/

namespace FMM
open Finset

/-- All operations have relative error at most `u`; the library's Legendre functions have absolute error at most `g`. -/
structure Flt3.Ok (F : Flt3) (u g : ℝ) : Prop extends F.toFlt.Ok u where
  leg_nonneg : 0 ≤ g
  nrm3 : ∀ v, |F.nrm3 v - Vec.norm v| ≤ u * Vec.norm v
  hyp : ∀ x y, |F.hyp x y - Vec.hypot x y| ≤ u * Vec.hypot x y
  atan2 : ∀ y x, |F.atan2 y x - Vec.atan2 y x| ≤ u * |Vec.atan2 y x|
  rcos : ∀ x, |F.rcos x - Real.cos x| ≤ u
  rcos_le : ∀ x, |F.rcos x| ≤ 1
  cis : ∀ phi : ℝ, ‖F.cis phi - Complex.exp (Complex.I * phi)‖ ≤ u
  sqrt2 : |F.sqrt2 - Real.sqrt 2| ≤ u * Real.sqrt 2
  leg : ∀ lmax x l m, |x| ≤ 1 → m ≤ l → l ≤ lmax → |F.leg lmax x l m - schmidt (-1) l m x| ≤ g
  alm : ∀ (n : ℕ) (m : ℤ), n ≤ 84 → |m| ≤ n → |F.alm n m (aSpec n m) - aSpec n m| ≤ ((1 + u) ^ 6 - 1) * |aSpec n m|

theorem Flt3.exact_ok {u : ℝ} (h : 0 ≤ u) (h' : u ≤ 1 / 16) : Flt3.exact.Ok u 0 := by
  have hpow := one_le_pow_u h 6
  refine ⟨Flt.exact_ok h h', le_rfl, fun v => ?_, fun x y => ?_, fun y x => ?_, fun x => ?_, fun x => Real.abs_cos_le_one x,
    fun phi => ?_, ?_, fun lmax x l m _ _ _ => ?_, fun n m _ _ => ?_⟩ <;>
  simp only [Flt3.exact, sub_self, norm_zero, abs_zero]
  · exact mul_nonneg h (Vec.norm_nonneg v)
  · exact mul_nonneg h (Real.sqrt_nonneg _)
  · positivity
  · exact h
  · exact h
  · positivity
  · exact le_rfl
  · exact mul_nonneg (by linarith) (abs_nonneg _)

namespace Fl3
variable {F : Flt3} {u g : ℝ}

/-! ## Contents of the table -/

/-- Entry `(l, m)`, `m ≥ 0`, of the computed table. -/
noncomputable def yp (F : Flt3) (lmax : ℕ) (x phi : ℝ) (l m : ℕ) : ℂ :=
  if m = 0 then (F.leg lmax x l 0 : ℂ)
  else F.cdr (F.rsc (F.leg lmax x l m) (Fl.pw F.toFlt (F.cis phi) (F.cis phi) (m - 1))) F.sqrt2

/-- Entry `(l, m)` of the computed table. -/
noncomputable def yv (F : Flt3) (lmax : ℕ) (x phi : ℝ) (l : ℕ) (m : ℤ) : ℂ :=
  if 0 ≤ m then yp F lmax x phi l m.toNat else (starRingEnd ℂ) (yp F lmax x phi l (-m).toNat)

theorem yv_nat (F : Flt3) (lmax : ℕ) (x phi : ℝ) (l m : ℕ) : yv F lmax x phi l m = yp F lmax x phi l m := by
  unfold yv; rw [if_pos (by omega), Int.toNat_natCast]

theorem yv_neg (F : Flt3) (lmax : ℕ) (x phi : ℝ) (l m : ℕ) :
    yv F lmax x phi l (-((m : ℤ) + 1)) = (starRingEnd ℂ) (yp F lmax x phi l (m + 1)) := by
  unfold yv
  rw [if_neg (by omega), show (- -((m : ℤ) + 1)).toNat = m + 1 by omega]

theorem stepM_ok (F : Flt3) {lmax l i : ℕ} (x phi : ℝ) (hl : l ≤ lmax) (hi : i < l)
    (t : Arr ℂ) (ht : t.size = (lmax + 1) * (lmax + 1)) :
    stepM F (fun l m => if m ≤ l ∧ l ≤ lmax then .ok (F.leg lmax x l m) else .error .ub)
      (F.cis phi) l i (t, Fl.pw F.toFlt (F.cis phi) (F.cis phi) i)
      = .ok (⟨t.size, Function.update (Function.update t.val (cell l ((i : ℤ) + 1)) (yv F lmax x phi l ((i : ℤ) + 1)))
          (cell l (-((i : ℤ) + 1))) (yv F lmax x phi l (-((i : ℤ) + 1)))⟩, Fl.pw F.toFlt (F.cis phi) (F.cis phi) (i + 1)) := by
  have e1 : yv F lmax x phi l ((i : ℤ) + 1) = F.cdr (F.rsc (F.leg lmax x l (i + 1))
      (Fl.pw F.toFlt (F.cis phi) (F.cis phi) i)) F.sqrt2 := by
    have := yv_nat F lmax x phi l (i + 1)
    push_cast at this
    rw [this]
    unfold yp
    rw [if_neg (by omega), Nat.add_sub_cancel]
  have e2 : yv F lmax x phi l (-((i : ℤ) + 1)) = (starRingEnd ℂ) (yv F lmax x phi l ((i : ℤ) + 1)) := by
    rw [yv_neg]
    have := yv_nat F lmax x phi l (i + 1)
    push_cast at this
    rw [this]
  unfold stepM
  simp only
  rw [if_pos ⟨hi, hl⟩, ok_bind]
  push_cast
  rw [← e1, wrZ_cell ht hl (by rw [abs_le]; omega), ok_bind]
  have ht2 : (⟨t.size, Function.update t.val (cell l ((i : ℤ) + 1)) (yv F lmax x phi l ((i : ℤ) + 1))⟩ : Arr ℂ).size
      = (lmax + 1) * (lmax + 1) := ht
  rw [wrZ_cell ht2 hl (by rw [abs_le]; omega), ok_bind, ← e2]
  rfl

theorem stepL_ok (F : Flt3) {lmax l : ℕ} (x phi : ℝ) (hl : l ≤ lmax) (t : Arr ℂ)
    (ht : t.size = (lmax + 1) * (lmax + 1)) :
    ∃ t', stepL F (fun l m => if m ≤ l ∧ l ≤ lmax then .ok (F.leg lmax x l m) else .error .ub) phi l t
      = .ok t' ∧ t'.size = (lmax + 1) * (lmax + 1) ∧ ∀ (l' : ℕ) (m' : ℤ), |m'| ≤ l' →
        t'.val (cell l' m') = if l' = l then yv F lmax x phi l m' else t.val (cell l' m') := by
  have h0 : ((F.leg lmax x l 0 : ℝ) : ℂ) = yv F lmax x phi l ((0 : ℕ) : ℤ) := by
    rw [yv_nat]; unfold yp; rw [if_pos rfl]
  unfold stepL
  simp only
  rw [if_pos ⟨by omega, hl⟩, ok_bind, wrZ_cell ht hl (by simp), ok_bind, h0]
  obtain ⟨⟨t', b⟩, h1, h2, h3, h4⟩ := loopM_invariant
    (fun i (s : Arr ℂ × ℂ) => s.2 = Fl.pw F.toFlt (F.cis phi) (F.cis phi) i ∧ s.1.size = (lmax + 1) * (lmax + 1) ∧
      ∀ (l' : ℕ) (m' : ℤ), |m'| ≤ l' →
        s.1.val (cell l' m') = if l' = l ∧ |m'| ≤ i then yv F lmax x phi l m' else t.val (cell l' m'))
    (stepM F (fun l m => if m ≤ l ∧ l ≤ lmax then .ok (F.leg lmax x l m) else .error .ub) (F.cis phi) l)
    (⟨t.size, Function.update t.val (cell l 0) (yv F lmax x phi l ((0 : ℕ) : ℤ))⟩, F.cis phi) l
    ⟨rfl, ht, fun l' m' hm' => by
      simp only
      by_cases he : cell l' m' = cell l 0
      · obtain ⟨rfl, rfl⟩ := cell_inj hm' (by simp) he
        rw [Function.update_self, if_pos ⟨rfl, by simp⟩]; rfl
      · rw [Function.update_of_ne he, if_neg]
        rintro ⟨rfl, h⟩
        have h0' : m' = 0 := abs_eq_zero.mp (le_antisymm (by simpa using h) (abs_nonneg _))
        exact he (by rw [h0'])⟩
    (by
      rintro i hi ⟨s, b⟩ ⟨rfl, hsz, hv⟩
      refine ⟨_, stepM_ok F x phi hl hi s hsz, rfl, hsz, fun l' m' hm' => ?_⟩
      simp only
      by_cases he1 : cell l' m' = cell l (-((i : ℤ) + 1))
      · obtain ⟨rfl, rfl⟩ := cell_inj hm' (by rw [abs_le]; omega) he1
        rw [Function.update_self, if_pos ⟨rfl, by rw [abs_le]; push_cast; omega⟩]
      · rw [Function.update_of_ne he1]
        by_cases he2 : cell l' m' = cell l ((i : ℤ) + 1)
        · obtain ⟨rfl, rfl⟩ := cell_inj hm' (by rw [abs_le]; omega) he2
          rw [Function.update_self, if_pos ⟨rfl, by rw [abs_le]; push_cast; omega⟩]
        · rw [Function.update_of_ne he2, hv l' m' hm']
          by_cases hb : l' = l ∧ |m'| ≤ (i : ℕ)
          · rw [if_pos hb, if_pos ⟨hb.1, by push_cast; omega⟩]
          · rw [if_neg hb, if_neg]
            rintro ⟨rfl, h⟩
            push_cast at h
            have : |m'| = i + 1 := by
              by_contra hne
              exact hb ⟨rfl, by omega⟩
            rcases abs_cases m' with ⟨h', -⟩ | ⟨h', -⟩
            · exact he2 (by rw [← this, h'])
            · exact he1 (by rw [← this, h', neg_neg]))
  refine ⟨t', ?_, h3, fun l' m' hm' => ?_⟩
  · rw [h1]; rfl
  · rw [h4 l' m' hm']
    by_cases hb : l' = l
    · subst hb; rw [if_pos ⟨rfl, hm'⟩, if_pos rfl]
    · rw [if_neg (fun h => hb h.1), if_neg hb]

/-- Contents of the computed table of spherical harmonics. -/
theorem ylm_ok (F : Flt3) (lmax : ℕ) (theta phi : ℝ) (h : |F.rcos theta| ≤ 1) :
    ∃ t, ylm F lmax theta phi = .ok t ∧
      ∀ l ≤ lmax, ∀ m : ℤ, |m| ≤ l → t.get l m = .ok (yv F lmax (F.rcos theta) phi l m) := by
  unfold ylm gslLegendre
  rw [if_pos h, ok_bind]
  obtain ⟨t, h1, h2, h3⟩ := loopM_invariant
    (fun i (t : Arr ℂ) => t.size = (lmax + 1) * (lmax + 1) ∧ ∀ l, l < i → ∀ m : ℤ, |m| ≤ l →
      t.val (cell l m) = yv F lmax (F.rcos theta) phi l m)
    (stepL F (fun l m => if m ≤ l ∧ l ≤ lmax then .ok (F.leg lmax (F.rcos theta) l m) else .error .ub) phi)
    (Arr.new ((lmax + 1) * (lmax + 1))) (lmax + 1) ⟨rfl, fun l hl => by omega⟩
    (by
      rintro i hi t ⟨ht, hv⟩
      obtain ⟨t', h1, h2, h3⟩ := stepL_ok F (F.rcos theta) phi (show i ≤ lmax by omega) t ht
      refine ⟨t', h1, h2, fun l hl m hm => ?_⟩
      rw [h3 l m hm]
      by_cases hb : l = i
      · subst hb; rw [if_pos rfl]
      · rw [if_neg hb]; exact hv l (by omega) m hm)
  rw [h1, ok_bind]
  refine ⟨_, rfl, fun l hl m hm => ?_⟩
  unfold YlmTable.get
  rw [rdZ_cell h2 hl hm, h3 l (by omega) m hm]

/-! ## Entries -/

/-- The entries approximate the harmonics of the direction with the computed cosine. -/
theorem yp_err (hF : F.Ok u g) {lmax l m : ℕ} {x phi' phi : ℝ} (hx : |x| ≤ 1) (hm : m ≤ l) (hl : l ≤ lmax)
    (hphi : ‖F.cis phi' - Complex.exp (Complex.I * phi)‖ ≤ (1 + u) ^ 5 - 1) :
    ‖yp F lmax x phi' l m - rY (dirV (Real.arccos x) phi) l m‖
      ≤ ((1 + u) ^ (6 * l + 4) - 1) * ‖rY (dirV (Real.arccos x) phi) l m‖ + (1 + u) ^ (6 * l + 4) * g := by
  have hu := hF.nonneg
  have hg := hF.leg_nonneg
  have hcos : Real.cos (Real.arccos x) = x := Real.cos_arccos (abs_le.mp hx).1 (abs_le.mp hx).2
  have hR := schmidt_rY (theta := Real.arccos x) (phi := phi) (by rw [Real.sin_arccos]; exact Real.sqrt_nonneg _) hm
  rw [hcos] at hR
  have hL := hF.leg lmax x l m hx hm hl
  have h1 := one_le_pow_u hu (6 * l + 4)
  rw [← hR]
  unfold yp
  by_cases h0 : m = 0
  · subst h0
    rw [if_pos rfl, if_pos rfl, ← Complex.ofReal_sub, Complex.norm_real, Real.norm_eq_abs]
    have h2 := mul_le_mul_of_nonneg_right h1 hg
    have h3 : 0 ≤ ((1 + u) ^ (6 * l + 4) - 1) * ‖((schmidt (-1) l 0 x : ℝ) : ℂ)‖ :=
      mul_nonneg (by linarith) (norm_nonneg _)
    linarith
  · rw [if_neg h0, if_neg h0]
    set L := F.leg lmax x l m
    set S := schmidt (-1) l m x
    set e := Complex.exp (Complex.I * phi)
    have he : ‖e‖ = 1 := by
      have : e = Complex.exp ((phi : ℂ) * Complex.I) := by simp only [e]; rw [mul_comm]
      rw [this, Complex.norm_exp_ofReal_mul_I]
    have hs2 : (0 : ℝ) < Real.sqrt 2 := Real.sqrt_pos.mpr (by norm_num)
    have hs21 : (1 : ℝ) ≤ Real.sqrt 2 := by rw [Real.one_le_sqrt]; norm_num
    have hc : Ap u 5 1 (F.cis phi') e := ⟨by rw [mul_one]; exact hphi, he.le⟩
    have hp := Fl.pw_ap hF.toOk hc hc (m - 1)
    rw [one_pow, one_mul, ← pow_succ' e, Nat.sub_add_cancel (by omega)] at hp
    have hq : Ap u 0 |L| L L := Ap.refl (by rw [Real.norm_eq_abs])
    have hr := hF.rsc hq hp
    have hi := Ap.inv (x' := (F.sqrt2 : ℂ)) (x := ((Real.sqrt 2 : ℝ) : ℂ)) hu hF.small (by exact_mod_cast hs2.ne')
      (by rw [← Complex.ofReal_sub, Complex.norm_real, Complex.norm_real, Real.norm_eq_abs, Real.norm_of_nonneg hs2.le]
          exact hF.sqrt2)
    have hd := (hr.mul hu hi.2).round hu (y' := F.cdr (F.rsc L (Fl.pw F.toFlt (F.cis phi') (F.cis phi') (m - 1))) F.sqrt2)
      (by have := hF.cdr_err (F.rsc L (Fl.pw F.toFlt (F.cis phi') (F.cis phi') (m - 1))) F.sqrt2
          rwa [div_eq_mul_inv] at this)
    rw [Complex.norm_real, Real.norm_of_nonneg hs2.le, mul_one, ← div_eq_mul_inv, ← div_eq_mul_inv] at hd
    have hd' := hd.mono hu (m := 6 * l + 4) (by omega) le_rfl
    have hE : ‖(L : ℂ) * e ^ m / (Real.sqrt 2 : ℂ) - (S : ℂ) * e ^ m / (Real.sqrt 2 : ℂ)‖ ≤ g := by
      rw [← sub_div, ← sub_mul, norm_div, norm_mul, norm_pow, he, one_pow, mul_one, ← Complex.ofReal_sub, Complex.norm_real,
        Complex.norm_real, Real.norm_eq_abs, Real.norm_of_nonneg hs2.le]
      exact (div_le_self (abs_nonneg _) hs21).trans hL
    have hN : ‖(S : ℂ) * e ^ m / (Real.sqrt 2 : ℂ)‖ = |S| / Real.sqrt 2 := by
      rw [norm_div, norm_mul, norm_pow, he, one_pow, mul_one, Complex.norm_real, Complex.norm_real, Real.norm_eq_abs,
        Real.norm_of_nonneg hs2.le]
    have hLS : |L| / Real.sqrt 2 ≤ |S| / Real.sqrt 2 + g := by
      have h5 : |L| ≤ |S| + g := by
        have := abs_sub_abs_le_abs_sub L S
        linarith
      have h6 : g / Real.sqrt 2 ≤ g := div_le_self hg hs21
      have := div_le_div_of_nonneg_right h5 hs2.le
      rw [add_div] at this
      linarith
    rw [hN]
    have h7 := hd'.1
    have h8 := mul_le_mul_of_nonneg_left hLS (show 0 ≤ (1 + u) ^ (6 * l + 4) - 1 by linarith)
    have h9 := norm_sub_le_norm_sub_add_norm_sub (F.cdr (F.rsc L (Fl.pw F.toFlt (F.cis phi') (F.cis phi') (m - 1))) F.sqrt2)
      ((L : ℂ) * e ^ m / (Real.sqrt 2 : ℂ)) ((S : ℂ) * e ^ m / (Real.sqrt 2 : ℂ))
    nlinarith

theorem yv_err (hF : F.Ok u g) {lmax l : ℕ} {m : ℤ} {x phi' phi : ℝ} (hx : |x| ≤ 1) (hm : |m| ≤ l) (hl : l ≤ lmax)
    (hphi : ‖F.cis phi' - Complex.exp (Complex.I * phi)‖ ≤ (1 + u) ^ 5 - 1) :
    ‖yv F lmax x phi' l m - rY (dirV (Real.arccos x) phi) l m‖
      ≤ ((1 + u) ^ (6 * l + 4) - 1) * ‖rY (dirV (Real.arccos x) phi) l m‖ + (1 + u) ^ (6 * l + 4) * g := by
  have hm' := abs_le.mp hm
  unfold yv
  by_cases h0 : 0 ≤ m
  · rw [if_pos h0]
    have := yp_err hF (m := m.toNat) hx (by omega) hl hphi
    rwa [Int.toNat_of_nonneg h0] at this
  · rw [if_neg h0]
    have := yp_err hF (m := (-m).toNat) hx (by omega) hl hphi
    rw [Int.toNat_of_nonneg (by omega)] at this
    have e : rY (dirV (Real.arccos x) phi) l m = (starRingEnd ℂ) (rY (dirV (Real.arccos x) phi) l (-m)) := by
      rw [conj_rY, neg_neg]
    rw [e, ← map_sub, RCLike.norm_conj, RCLike.norm_conj]
    exact this

/-! ## Angles -/

theorem cos_arg_close {z z' : ℂ} (hz : z ≠ 0) (hu : 0 ≤ u) (hu' : u ≤ 1 / 16) (hre : z'.re = z.re) (h : ‖z' - z‖ ≤ u * ‖z‖) :
    |Real.cos (Complex.arg z') - Real.cos (Complex.arg z)| ≤ 2 * u := by
  have hz0 : 0 < ‖z‖ := norm_pos_iff.mpr hz
  have h1 : |‖z'‖ - ‖z‖| ≤ u * ‖z‖ := (abs_norm_sub_norm_le _ _).trans h
  have h2 := abs_le.mp h1
  have hz'0 : 0 < ‖z'‖ := by nlinarith
  rw [Complex.cos_arg hz, Complex.cos_arg (norm_pos_iff.mp hz'0), hre]
  have e : z.re / ‖z'‖ - z.re / ‖z‖ = z.re / ‖z‖ * ((‖z‖ - ‖z'‖) / ‖z'‖) := by field_simp
  rw [e, abs_mul, abs_div, abs_div, abs_of_pos hz0, abs_of_pos hz'0, abs_sub_comm]
  have h3 : |z.re| / ‖z‖ ≤ 1 := by rw [div_le_one hz0]; exact Complex.abs_re_le_norm z
  have h4 : |‖z'‖ - ‖z‖| / ‖z'‖ ≤ 2 * u := by
    rw [div_le_iff₀ hz'0]; nlinarith
  have h5 : 0 ≤ |‖z'‖ - ‖z‖| / ‖z'‖ := by positivity
  calc |z.re| / ‖z‖ * (|‖z'‖ - ‖z‖| / ‖z'‖) ≤ 1 * (2 * u) := mul_le_mul h3 h4 h5 zero_le_one
    _ = 2 * u := one_mul _

/-- The computed cosine of the polar angle. -/
theorem cos_sph (hF : F.Ok u g) (v : Vec 3) : |F.rcos (F.sph v 1) - Real.cos (v.toSpherical3 1)| ≤ 7 * u := by
  have hu := hF.nonneg
  have e1 : v.toSpherical3 1 = Complex.arg ⟨v 2, Vec.hypot (v 0) (v 1)⟩ := rfl
  have e2 : F.sph v 1 = F.atan2 (F.hyp (v 0) (v 1)) (v 2) := rfl
  rw [e1, e2]
  set H := Vec.hypot (v 0) (v 1) with hH
  set H' := F.hyp (v 0) (v 1)
  have hH0 : 0 ≤ H := Real.sqrt_nonneg _
  have h1 : |H' - H| ≤ u * H := hF.hyp _ _
  have h2 := hF.atan2 H' (v 2)
  have h3 := hF.rcos (F.atan2 H' (v 2))
  have h4 := Real.abs_cos_sub_cos_le (F.atan2 H' (v 2)) (Vec.atan2 H' (v 2))
  have h5 : |Vec.atan2 H' (v 2)| ≤ 4 := (Complex.abs_arg_le_pi _).trans Real.pi_le_four
  have h6 : |Real.cos (Vec.atan2 H' (v 2)) - Real.cos (Complex.arg ⟨v 2, H⟩)| ≤ 2 * u := by
    by_cases hz : (⟨v 2, H⟩ : ℂ) = 0
    · have hH2 : H = 0 := congrArg Complex.im hz
      have : H' = H := by rw [hH2] at h1 ⊢; simpa using h1
      rw [this]
      unfold Vec.atan2
      rw [sub_self, abs_zero]; linarith
    · refine cos_arg_close hz hu hF.small rfl ?_
      have : (⟨v 2, H'⟩ : ℂ) - ⟨v 2, H⟩ = ((H' - H : ℝ) : ℂ) * Complex.I := by
        apply Complex.ext <;> simp
      rw [this, norm_mul, Complex.norm_I, mul_one, Complex.norm_real, Real.norm_eq_abs]
      refine h1.trans (mul_le_mul_of_nonneg_left ?_ hu)
      have := Complex.abs_im_le_norm (⟨v 2, H⟩ : ℂ)
      simpa [abs_of_nonneg hH0] using this
  have h7 : |F.rcos (F.atan2 H' (v 2)) - Real.cos (Complex.arg ⟨v 2, H⟩)|
      ≤ |F.rcos (F.atan2 H' (v 2)) - Real.cos (F.atan2 H' (v 2))|
        + |Real.cos (F.atan2 H' (v 2)) - Real.cos (Vec.atan2 H' (v 2))|
        + |Real.cos (Vec.atan2 H' (v 2)) - Real.cos (Complex.arg ⟨v 2, H⟩)| := by
    have a1 := abs_sub_le (F.rcos (F.atan2 H' (v 2))) (Real.cos (F.atan2 H' (v 2))) (Real.cos (Complex.arg ⟨v 2, H⟩))
    have a2 := abs_sub_le (Real.cos (F.atan2 H' (v 2))) (Real.cos (Vec.atan2 H' (v 2))) (Real.cos (Complex.arg ⟨v 2, H⟩))
    linarith
  have h8 := mul_le_mul_of_nonneg_left h5 hu
  linarith

theorem exp_I_close (a b : ℝ) : ‖Complex.exp (Complex.I * a) - Complex.exp (Complex.I * b)‖ ≤ |a - b| := by
  have e : Complex.exp (Complex.I * a) - Complex.exp (Complex.I * b)
      = Complex.exp ((b : ℂ) * Complex.I) * (Complex.exp (Complex.I * ((a - b : ℝ) : ℂ)) - 1) := by
    rw [mul_sub, ← Complex.exp_add, mul_one]
    congr 2 <;> push_cast <;> ring
  rw [e, norm_mul, Complex.norm_exp_ofReal_mul_I, one_mul]
  exact Real.norm_exp_I_mul_ofReal_sub_one_le

/-- The computed phase. -/
theorem cis_sph (hF : F.Ok u g) (v : Vec 3) :
    ‖F.cis (F.sph v 2) - Complex.exp (Complex.I * (v.toSpherical3 2 : ℝ))‖ ≤ (1 + u) ^ 5 - 1 := by
  have hu := hF.nonneg
  have e1 : v.toSpherical3 2 = Vec.atan2 (v 1) (v 0) := rfl
  have e2 : F.sph v 2 = F.atan2 (v 1) (v 0) := rfl
  rw [e1, e2]
  have h1 := hF.cis (F.atan2 (v 1) (v 0))
  have h2 := exp_I_close (F.atan2 (v 1) (v 0)) (Vec.atan2 (v 1) (v 0))
  have h3 := hF.atan2 (v 1) (v 0)
  have h4 : |Vec.atan2 (v 1) (v 0)| ≤ 4 := (Complex.abs_arg_le_pi _).trans Real.pi_le_four
  have h5 := mul_le_mul_of_nonneg_left h4 hu
  have h6 := norm_sub_le_norm_sub_add_norm_sub (F.cis (F.atan2 (v 1) (v 0)))
    (Complex.exp (Complex.I * (F.atan2 (v 1) (v 0) : ℝ))) (Complex.exp (Complex.I * (Vec.atan2 (v 1) (v 0) : ℝ)))
  have h7 := one_add_mul_le_pow (show (-2 : ℝ) ≤ u by linarith) 5
  push_cast at h7
  linarith

/-! ## Directions -/

/-- Direction of a vector (the vertical for the null vector). -/
noncomputable def dir (v : Vec 3) : Vec 3 := dirV (v.toSpherical3 1) (v.toSpherical3 2)

theorem len3_dirV (t p : ℝ) : len3 (dirV t p) = 1 := by
  unfold len3 dot3 dirV
  rw [Real.sqrt_eq_one]
  simp only [Matrix.cons_val_zero, Matrix.cons_val_one, Matrix.cons_val]
  have h1 := Real.sin_sq_add_cos_sq t
  have h2 := Real.sin_sq_add_cos_sq p
  linear_combination h1 + Real.sin t ^ 2 * h2

theorem len3_dir (v : Vec 3) : len3 (dir v) = 1 := len3_dirV _ _

theorem dirV_close {x theta phi δ : ℝ} (hx : |x| ≤ 1) (h : |x - Real.cos theta| ≤ δ) (hs : 0 ≤ Real.sin theta) :
    len3 (dirV (Real.arccos x) phi - dirV theta phi) ≤ Real.sqrt (2 * δ + δ ^ 2) := by
  unfold len3 dot3 dirV
  refine Real.sqrt_le_sqrt ?_
  have hcos : Real.cos (Real.arccos x) = x := Real.cos_arccos (abs_le.mp hx).1 (abs_le.mp hx).2
  have hs' : 0 ≤ Real.sin (Real.arccos x) := by rw [Real.sin_arccos]; exact Real.sqrt_nonneg _
  have h1 := Real.sin_sq_add_cos_sq (Real.arccos x)
  have h2 := Real.sin_sq_add_cos_sq theta
  have h3 := Real.sin_sq_add_cos_sq phi
  simp only [Pi.sub_apply, Matrix.cons_val_zero, Matrix.cons_val_one, Matrix.cons_val]
  rw [hcos] at h1 ⊢
  set s' := Real.sin (Real.arccos x)
  set s := Real.sin theta
  set c := Real.cos theta with hc
  have hc1 := Real.abs_cos_le_one theta
  rw [← hc] at hc1
  have hδ := abs_le.mp h
  have k1 : (x - c) ^ 2 ≤ δ ^ 2 := by
    rw [← sq_abs (x - c)]
    exact pow_le_pow_left₀ (abs_nonneg _) h 2
  have k2 : (s' - s) ^ 2 ≤ 2 * δ := by
    have k3 : (s' - s) ^ 2 ≤ |s' ^ 2 - s ^ 2| := by
      have e : s' ^ 2 - s ^ 2 = (s' - s) * (s' + s) := by ring
      rw [e, abs_mul, ← sq_abs (s' - s), abs_of_nonneg (show 0 ≤ s' + s by linarith), sq]
      refine mul_le_mul_of_nonneg_left ?_ (abs_nonneg _)
      rw [abs_le]; constructor <;> linarith
    refine k3.trans ?_
    have e : s' ^ 2 - s ^ 2 = (c - x) * (c + x) := by linear_combination h1 - h2
    rw [e, abs_mul, abs_sub_comm]
    have k4 : |c + x| ≤ 2 := (abs_add_le _ _).trans (by linarith)
    nlinarith [mul_le_mul h k4 (abs_nonneg _) ((abs_nonneg _).trans h)]
  nlinarith

theorem len3_sub_comm (a b : Vec 3) : len3 (a - b) = len3 (b - a) := by
  rw [← neg_sub, show -(b - a) = (-1 : ℝ) • (b - a) by rw [neg_one_smul], len3_smul, abs_neg, abs_one, one_mul]

theorem len3_zero : len3 0 = 0 := by unfold len3 dot3; simp

theorem len3_eq_zero {v : Vec 3} (h : len3 v = 0) : v = 0 := by
  by_contra hne
  exact (len3_pos hne).ne' h

theorem abs_len3_sub (a b : Vec 3) : |len3 a - len3 b| ≤ len3 (a - b) := by
  have h1 := len3_add_le (a - b) b
  have h2 := len3_add_le (b - a) a
  rw [sub_add_cancel] at h1 h2
  rw [len3_sub_comm b a] at h2
  rw [abs_le]; constructor <;> linarith

theorem dir_smul (v : Vec 3) : v = len3 v • dir v := by
  have := sph_smul v
  rwa [sph_r] at this

theorem dir_close {v v' : Vec 3} (hu : 0 ≤ u) (h : len3 (v' - v) ≤ u * len3 v) : len3 (dir v' - dir v) ≤ 2 * u := by
  by_cases hv : v = 0
  · have : v' - v = 0 := len3_eq_zero (le_antisymm (by rw [hv, len3_zero, mul_zero] at h; rw [hv]; exact h) (len3_nonneg _))
    rw [sub_eq_zero.mp this, sub_self, len3_zero]; linarith
  · have hr := len3_pos hv
    have e : len3 v • (dir v' - dir v) = (v' - v) + (len3 v - len3 v') • dir v' := by
      rw [smul_sub, sub_smul, ← dir_smul v, ← dir_smul v']; abel
    have h1 : len3 v * len3 (dir v' - dir v) ≤ len3 (v' - v) + |len3 v - len3 v'| := by
      have := len3_add_le (v' - v) ((len3 v - len3 v') • dir v')
      rw [← e, len3_smul, len3_smul, len3_dir, mul_one, abs_of_pos hr] at this
      exact this
    have h2 := abs_len3_sub v v'
    rw [len3_sub_comm] at h2
    have h3 : len3 v * len3 (dir v' - dir v) ≤ len3 v * (2 * u) := by linarith
    exact le_of_mul_le_mul_left h3 hr

/-! ## The table in the Euclidean norm -/

/-- Error of the degree `l` of a computed table of spherical harmonics. -/
noncomputable def yEr (u g : ℝ) (l : ℕ) : ℝ :=
  ((1 + u) ^ (6 * l + 4) - 1) + (1 + u) ^ (6 * l + 4) * (Real.sqrt (2 * l + 1) * g) + l * (Real.sqrt (18 * u) + 2 * u)

theorem yEr_nonneg (hu : 0 ≤ u) (hg : 0 ≤ g) (l : ℕ) : 0 ≤ yEr u g l := by
  have := one_le_pow_u hu (6 * l + 4)
  unfold yEr
  have h1 : 0 ≤ (1 + u) ^ (6 * l + 4) - 1 := by linarith
  positivity

theorem yEr_mono (hu : 0 ≤ u) (hg : 0 ≤ g) {l l' : ℕ} (h : l ≤ l') : yEr u g l ≤ yEr u g l' := by
  have h0 : (1 + u) ^ (6 * l + 4) ≤ (1 + u) ^ (6 * l' + 4) := pow_le_pow_right₀ (by linarith) (by omega)
  have h1 : (l : ℝ) ≤ l' := by exact_mod_cast h
  have h2 := one_le_pow_u hu (6 * l + 4)
  unfold yEr
  gcongr

theorem card_Ir (l : ℕ) : (Ir l).card = 2 * l + 1 := by
  unfold Ir; rw [Int.card_Icc]; omega

/-- Degree `l` of the table computed from the rounded vector `v'`, against the harmonics of the direction of `v`. -/
theorem yv_l2 (hF : F.Ok u g) {lmax l : ℕ} {v v' : Vec 3} (hv : len3 (v' - v) ≤ u * len3 v) (hl : l ≤ lmax) :
    l2 (Ir l) (fun m => yv F lmax (F.rcos (F.sph v' 1)) (F.sph v' 2) l m - rY (dir v) l m) ≤ yEr u g l := by
  have hu := hF.nonneg
  have hg := hF.leg_nonneg
  have hpw := one_le_pow_u hu (6 * l + 4)
  set x := F.rcos (F.sph v' 1)
  set w := dirV (Real.arccos x) (v'.toSpherical3 2)
  have hw : len3 w = 1 := len3_dirV _ _
  have h1 : l2 (Ir l) (fun m => yv F lmax x (F.sph v' 2) l m - rY w l m)
      ≤ ((1 + u) ^ (6 * l + 4) - 1) + (1 + u) ^ (6 * l + 4) * (Real.sqrt (2 * l + 1) * g) := by
    have a1 : l2 (Ir l) (fun m => yv F lmax x (F.sph v' 2) l m - rY w l m)
        ≤ l2 (Ir l) (fun m => ((1 + u) ^ (6 * l + 4) - 1) * ‖rY w l m‖ + (1 + u) ^ (6 * l + 4) * g) := by
      refine l2_mono fun m hm => ?_
      rw [Real.norm_of_nonneg (add_nonneg (mul_nonneg (by linarith) (norm_nonneg _)) (mul_nonneg (by linarith) hg))]
      exact yv_err hF (hF.rcos_le _) (mem_Ir.mp hm) hl (cis_sph hF v')
    have a2 := l2_add (Ir l) (fun m => ((1 + u) ^ (6 * l + 4) - 1) * ‖rY w l m‖) (fun _ => (1 + u) ^ (6 * l + 4) * g)
    have a3 : l2 (Ir l) (fun m => ((1 + u) ^ (6 * l + 4) - 1) * ‖rY w l m‖) = (1 + u) ^ (6 * l + 4) - 1 := by
      rw [l2_smulR _ (by linarith), l2_norm, l2_rY, hw, one_pow, mul_one]
    have a4 := l2_le_card (s := Ir l) (x := fun _ => (1 + u) ^ (6 * l + 4) * g) (b := (1 + u) ^ (6 * l + 4) * g) (by positivity)
      (fun _ _ => by rw [Real.norm_of_nonneg (by positivity)])
    rw [card_Ir] at a4
    push_cast at a4
    linarith
  have h2 : l2 (Ir l) (fun m => rY w l m - rY (dir v) l m) ≤ l * (Real.sqrt (18 * u) + 2 * u) := by
    refine (l2_rY_lip l hw (len3_dir v)).trans (mul_le_mul_of_nonneg_left ?_ (Nat.cast_nonneg _))
    have b1 := dirV_close (phi := v'.toSpherical3 2) (hF.rcos_le _) (cos_sph hF v') (sph_sin_nonneg v')
    have b2 := dir_close hu hv
    have b3 := len3_add_le (w - dir v') (dir v' - dir v)
    rw [sub_add_sub_cancel] at b3
    have b4 : Real.sqrt (2 * (7 * u) + (7 * u) ^ 2) ≤ Real.sqrt (18 * u) := by
      refine Real.sqrt_le_sqrt ?_
      nlinarith [mul_le_mul_of_nonneg_left hF.small hu]
    have b5 : len3 (w - dir v') ≤ Real.sqrt (2 * (7 * u) + (7 * u) ^ 2) := b1
    linarith
  have h3 := l2_tri (Ir l) (fun m => yv F lmax x (F.sph v' 2) l m) (fun m => rY w l m) (fun m => rY (dir v) l m)
  unfold yEr
  linarith

/-- Total error of the entries of degree `l`, multiplied with a power computed with `e` roundings. -/
noncomputable def tEr (u g : ℝ) (e l : ℕ) : ℝ := (1 + u) ^ e * (1 + yEr u g l) - 1

theorem tEr_nonneg (hu : 0 ≤ u) (hg : 0 ≤ g) (e l : ℕ) : 0 ≤ tEr u g e l := by
  have h1 := one_le_pow_u hu e
  have h2 := yEr_nonneg hu hg l
  unfold tEr
  nlinarith

theorem tEr_mono (hu : 0 ≤ u) (hg : 0 ≤ g) {e e' l l' : ℕ} (he : e ≤ e') (hl : l ≤ l') : tEr u g e l ≤ tEr u g e' l' := by
  have h0 : (1 + u) ^ e ≤ (1 + u) ^ e' := pow_le_pow_right₀ (by linarith) he
  have h1 := yEr_mono hu hg hl
  have h2 := yEr_nonneg hu hg l
  unfold tEr
  gcongr

/-- Entries times a computed factor. -/
theorem yv_scale {l : ℕ} {y : ℤ → ℂ} {w : Vec 3} (hw : len3 w = 1)
    (hy : l2 (Ir l) (fun m => y m - rY w l m) ≤ yEr u g l) {P' P : ℝ} {e : ℕ} (hP' : Ap u e P P' P) :
    l2 (Ir l) (fun m => (P' : ℂ) * y m - (P : ℂ) * rY w l m) ≤ tEr u g e l * P := by
  have h1 := l2_tri (Ir l) (fun m => (P' : ℂ) * y m) (fun m => (P' : ℂ) * rY w l m) (fun m => (P : ℂ) * rY w l m)
  have h2 : l2 (Ir l) (fun m => (P' : ℂ) * y m - (P' : ℂ) * rY w l m) ≤ (1 + u) ^ e * P * yEr u g l := by
    have : (fun m => (P' : ℂ) * y m - (P' : ℂ) * rY w l m) = fun m => (P' : ℂ) * (y m - rY w l m) := by funext m; ring
    rw [this, l2_smul, Complex.norm_real]
    exact mul_le_mul hP'.norm hy (l2_nonneg _ _) ((norm_nonneg _).trans hP'.norm)
  have h3 : l2 (Ir l) (fun m => (P' : ℂ) * rY w l m - (P : ℂ) * rY w l m) ≤ ((1 + u) ^ e - 1) * P := by
    have : (fun m => (P' : ℂ) * rY w l m - (P : ℂ) * rY w l m) = fun m => ((P' - P : ℝ) : ℂ) * rY w l m := by
      funext m; push_cast; ring
    rw [this, l2_smul, l2_rY, hw, one_pow, mul_one, Complex.norm_real]
    exact hP'.1
  unfold tEr
  linarith

theorem rY_dir_pow (v : Vec 3) (l : ℕ) (m : ℤ) : rY v l m = ((len3 v ^ l : ℝ) : ℂ) * rY (dir v) l m := by
  rw [rY_sph v l m]; push_cast; rfl

end Fl3
end FMM
