import Verif.LowForceRun3
import Verif.LowOpsLE3

/-!
# Rounding errors of `evaluateForcefield` of the three-dimensional expansions with gradual underflow

The statements of `FltForceAp3` for operations with a floor.
-/

namespace FMM
open Finset

namespace Lo3
open Fl3 hiding loopM_ap loopZ_ap alm_ap alm_inv cdr_ap divR_ap sin_sph frame frame_sin frame_phi cos_sph cis_sph dp_err dv_err dvY_err
  dvD_err loopZ_apV forceTerm_run forceLoop zc_ap comp_ap toBasis_ap zpt_close leForce_ap meForce_ap dv_r2 pw_r nrm3_ap nrm3_inv rdv_ap pow_five_le
variable {F : Flt3} {u g η ρ θ τ ν : ℝ}

theorem zpt_close (hF : F.LowD u g η ρ) {s : ℝ} {p κ : ℕ} (hκ : FrameCost u g s p κ) {x c : Vec 3} (h0 : x - c ≠ 0) (hη : 2 * η ≤ len3 (x - c))
    (hs : s * len3 (x - c) ≤ Vec.hypot ((x - c) 0) ((x - c) 1)) : len3 (zpt F x c - x) ≤ 20 * u / s * len3 (x - c) := by
  obtain ⟨-, -, -, -, h⟩ := frame hF hκ (vsub_len hF.toLow3.toLow x c le_rfl (by linarith [hF.eta])) h0 hη hs
  have e : zpt F x c - x = len3 (x - c) • (dirV (tht F (F.vsub x c)) ((F.vsub x c).toSpherical3 2) - dir (x - c)) := by
    have h1 := sph_smul (x - c)
    rw [sph_r] at h1
    rw [smul_sub]
    unfold dir
    rw [← h1]
    unfold zpt; abel
  rw [e, len3_smul, abs_of_nonneg (len3_nonneg _), mul_comm]
  exact mul_le_mul_of_nonneg_right h (len3_nonneg _)

/-- Roundings of one evaluation. -/
def fcostL (p κ : ℕ) : ℕ := (p + 1) ^ 2 + 11 * p + 4 * κ + 30

theorem leForce_ap (hF : F.LowD u g η ρ) {s : ℝ} {p κ : ℕ} (hsc : Scale3 u η θ τ ν p) (hp : 0 < p) (hκ : FrameCost u g s p κ) {n : ℕ} {e : Exp3} {c : Vec 3} {b : ℕ → ℤ → ℂ} {R M : ℝ}
    (he : AppL3 u n e c p b R M) (hMf : Flr (τ * θ) M) (hRθ : R ≤ θ⁻¹) (hRl : θ ≤ R) {x : Vec 3} (hx : len3 (x - c) ≤ R) (h0 : x - c ≠ 0) (hη : 2 * η ≤ len3 (x - c))
    (hs : s * len3 (x - c) ≤ Vec.hypot ((x - c) 0) ((x - c) 1)) :
    ∃ f, leForce F e x = .ok f ∧ ∀ i, Ap u (n + fcostL p κ) (3 * (p * M / R)) (f i) (leGrad3 b p (zpt F x c - c) (unitV i)).re := by
  have hu := hF.nonneg
  have hv := vsub_len hF.toLow3.toLow x c le_rfl (show η ≤ len3 (x - c) by linarith [hF.eta])
  have hl := len3_pos h0
  have hR : 0 < R := hl.trans_le hx
  obtain ⟨b', α, e1, e2, hα, hα2⟩ := majL hsc he hMf hR hRθ
  have hM := e2.nonneg hR.le
  obtain ⟨hX, -, -, -, -⟩ := frame hF hκ hv h0 hη hs
  obtain ⟨hR0, -, -⟩ := frame_sin hF hκ hv h0 hη hs
  obtain ⟨Y, hY, hYv⟩ := ylmD_ok F p (F.sph (F.vsub x c) 1) (F.sph (F.vsub x c) 2) hX
  set v' := F.vsub x c with hv'
  set L := len3 (x - c) with hL
  obtain ⟨f, f1, f2⟩ := forceLoop hF hsc hp e1 hα hR0 (MajY.mk' hsc.nu0 _) (MajY.mk' hsc.nu0 _) hYv p (fun i => i + 1) (fun i hi => by show i + 1 ≤ p; omega) false
    (fun r => .ok (F.rnd (r * F.nrm3 v'))) (rpw F (F.nrm3 v') 1) (fun i => rfl)
    (MajP.mk' hsc.nu0 _ (ζ := fun i => R ^ i) (fun i => pow_nonneg hR.le i)
      (fun i hi => (hsc.thpow (by omega)).trans (pow_le_pow_left₀ hsc.th0.le hRl i))) (by omega)
  simp only [Bool.false_eq_true, if_false] at f2
  refine ⟨F.toBasis f (F.sph v' 1) (F.sph v' 2), ?_, ?_⟩
  · unfold leForce
    simp only [e1.center, e1.order]
    rw [← hv', hY, ok_bind]
    have : (do
      let (f, _) ← loopM p (fun i (s : Vec 3 × ℝ) => do
        let f ← loopZ (-((i + 1 : ℕ) : ℤ)) (i + 1 : ℕ) (fun m f => do
          let a ← e.get (i + 1) m
          forceTerm F Y (F.sph v' 1) s.2 false (i + 1) a (i + 1) m f) s.1
        (Except.ok (f, F.rnd (s.2 * F.nrm3 v')) : Outcome _)) ((0 : Vec 3), (1 : ℝ))
      (Except.ok f : Outcome (Vec 3))) = .ok f := f1
    cases hq : loopM p (fun i (s : Vec 3 × ℝ) => do
        let f ← loopZ (-((i + 1 : ℕ) : ℤ)) (i + 1 : ℕ) (fun m f => do
          let a ← e.get (i + 1) m
          forceTerm F Y (F.sph v' 1) s.2 false (i + 1) a (i + 1) m f) s.1
        (Except.ok (f, F.rnd (s.2 * F.nrm3 v')) : Outcome _)) ((0 : Vec 3), (1 : ℝ)) with
    | error _ => rw [hq, err_bind] at this; cases this
    | ok r =>
      rw [hq, ok_bind] at this
      have hr : r.1 = f := by injection this
      show (loopM p _ _ >>= _) = _
      erw [hq, ok_bind]
      rw [← hr]
  · -- the components in the frame
    have hmono : ∀ w : ℕ → ℝ, (∀ i, 0 ≤ w i) → ∑ i ∈ range p, w (i + 1) * (R ^ i * ((i + 1 : ℕ) : ℝ)) ≤ p / R * ∑ i ∈ range (p + 1), R ^ i * w i := by
      intro w hw
      rw [sum_range_succ' _ p, mul_add, mul_sum]
      refine le_trans (sum_le_sum fun i hi => ?_) (le_add_of_nonneg_right
        (mul_nonneg (div_nonneg (Nat.cast_nonneg p) hR.le) (mul_nonneg (pow_nonneg hR.le _) (hw _))))
      rw [mem_range] at hi
      have k2 : ((i + 1 : ℕ) : ℝ) ≤ p := by exact_mod_cast hi
      have k3 : R ^ i * ((i + 1 : ℕ) : ℝ) ≤ R ^ i * p := mul_le_mul_of_nonneg_left k2 (pow_nonneg hR.le _)
      refine (mul_le_mul_of_nonneg_left k3 (hw _)).trans (le_of_eq ?_)
      rw [pow_succ]; field_simp
    have hpR : 0 ≤ (p : ℝ) / R := div_nonneg (Nat.cast_nonneg p) hR.le
    have hcomp : ∀ j, Ap u (n + ((4 + ∑ i ∈ range p, (2 * (i + 1) + 1)) + (9 * p + 5 + 3 * κ + 1))) (p / R * M) (f j)
        (∑ i ∈ range p, ∑ m ∈ Ir (i + 1), b (i + 1) m * ze 1 (L ^ i) (i + 1 : ℕ) (tht F v') (v'.toSpherical3 2) (i + 1) j m).re := fun j => by
      refine comp_ap hu (fun i => i + 1) (E := 9 * p + 4 + 2 * κ) (E' := 9 * p + 5 + 3 * κ) (by omega) b b' α _
        (fun i m => ze 1 (L ^ i) (i + 1 : ℕ) (tht F v') (v'.toSpherical3 2) (i + 1) j m) _
        (fun i => R ^ i * ((i + 1 : ℕ) : ℝ)) (fun i hi => ?_) (fun i hi => ?_) (f2 j) ?_ ?_ ?_
      · exact (zc_ap hF hκ hv h0 hη hs abs_one (pw_r hF.toLow3 hsc x c hx hRl (by omega)) (n := i + 1) (by omega) le_rfl j).mono hu (by omega) le_rfl
      · refine (zm_l2 hF hsc hκ hv h0 hη hs (pw_r hF.toLow3 hsc x c hx hRl (n := i) (by omega)) (n := i + 1) (by omega) le_rfl
          (by push_cast; linarith [Nat.cast_nonneg (α := ℝ) i]) j).trans ?_
        exact mul_le_mul_of_nonneg_right (pow_le_pow_right₀ (by linarith) (by omega))
          (mul_nonneg (pow_nonneg hR.le i) (Nat.cast_nonneg _))
      · refine (hmono (fun i => l2 (Ir i) (fun m => b' i m - b i m)) fun i => l2_nonneg _ _).trans ?_
        have := mul_le_mul_of_nonneg_left e2.1 hpR
        unfold wl at this
        linarith
      · exact (hmono (fun i => l2 (Ir i) (b i)) fun i => l2_nonneg _ _).trans (mul_le_mul_of_nonneg_left e2.2 hpR)
      · refine (hmono (fun i => l2 (Ir i) (α i)) fun i => l2_nonneg _ _).trans ?_
        have := mul_le_mul_of_nonneg_left hα2 hpR
        linarith
    have hrD : ∀ (w : Vec 3) (n : ℕ) (m : ℤ), rD (zpt F x c - c) w (n + 1) m
        = (L : ℂ) ^ n * rD (dirV (tht F v') (v'.toSpherical3 2)) w (n + 1) m := fun w n m => by
      rw [zpt_sub]; exact rD_smul_left _ w _ n m
    have hG : ∀ w, leGrad3 b p (zpt F x c - c) w = ∑ i ∈ range p, ∑ m ∈ Ir (i + 1), b (i + 1) m * ((L : ℂ) ^ i *
        rD (dirV (tht F v') (v'.toSpherical3 2)) w (i + 1) m) := fun w => by
      unfold leGrad3
      rw [sum_range_succ']
      simp only [rD_zero, mul_zero, sum_const_zero, add_zero, hrD]
    have hf : ∀ j, Ap u (n + ((4 + ∑ i ∈ range p, (2 * (i + 1) + 1)) + (9 * p + 5 + 3 * κ + 1))) (p / R * M) (f j)
        ((![(leGrad3 b p (zpt F x c - c) (dirV (tht F v') (v'.toSpherical3 2))).re,
          (leGrad3 b p (zpt F x c - c) (thetaV (tht F v') (v'.toSpherical3 2))).re,
          (leGrad3 b p (zpt F x c - c) (phiV (v'.toSpherical3 2))).re] : Vec 3) j) := fun j => by
      have := hcomp j
      fin_cases j
      · show Ap _ _ _ _ (leGrad3 b p (zpt F x c - c) (dirV (tht F v') (v'.toSpherical3 2))).re
        rw [hG]
        refine this.congr' rfl ?_
        congr 1
        refine sum_congr rfl fun i _ => sum_congr rfl fun m _ => ?_
        rw [rD_dir]
        show b (i + 1) m * (((1 * L ^ i * (i + 1 : ℕ) : ℝ) : ℂ) * _) = _
        push_cast; ring
      · show Ap _ _ _ _ (leGrad3 b p (zpt F x c - c) (thetaV (tht F v') (v'.toSpherical3 2))).re
        rw [hG]
        refine this.congr' rfl ?_
        congr 1
        refine sum_congr rfl fun i _ => sum_congr rfl fun m _ => ?_
        show b (i + 1) m * (((L ^ i : ℝ) : ℂ) * _) = _
        push_cast; ring
      · show Ap _ _ _ _ (leGrad3 b p (zpt F x c - c) (phiV (v'.toSpherical3 2))).re
        rw [hG]
        refine this.congr' rfl ?_
        congr 1
        refine sum_congr rfl fun i _ => sum_congr rfl fun m _ => ?_
        show b (i + 1) m * (((L ^ i : ℝ) : ℂ) * _) = _
        push_cast; ring
    have hfl : Flr η (p / R * M) := by
      have a1 : θ ≤ p / R := by
        rw [le_div_iff₀ hR]
        have a2 : (1 : ℝ) ≤ p := by exact_mod_cast hp
        have a3 := mul_le_mul_of_nonneg_left hRθ hsc.th0.le
        rw [mul_inv_cancel₀ hsc.th0.ne'] at a3
        linarith
      have a4 := Flr.gemul a1 hMf (mul_nonneg hsc.tau0.le hsc.th0.le) hsc.th0.le
      have a5 := hsc.fl1 (i := 0) (k := 2) (by omega) (by omega)
      refine a4.mono (a5.trans (le_of_eq (by ring)))
    intro i
    have h := toBasis_ap hF hκ hv h0 hη hs hf hfl i
    rw [basis_expand (fun w => (leGrad3 b p (zpt F x c - c) w).re) (fun e f => by simp only [leGrad3_add, Complex.add_re])
      (fun t e => by simp only [leGrad3_smul, Complex.re_ofReal_mul])] at h
    refine h.mono hu ?_ (le_of_eq (by ring))
    have := sum_le_deg p
    unfold fcostL
    omega

/-! ## Multipole expansions -/

theorem pow_five_le (hF : F.Low u g η ρ) : (1 + u) ^ 5 ≤ 3 / 2 := by
  refine (pow_le_pow_left₀ (by linarith [hF.nonneg]) (show 1 + u ≤ 1 + 1 / 16 by linarith [hF.small]) 5).trans ?_
  norm_num

/-- `1 / r²` and its quotients by the computed radius. -/
theorem dv_r2 (hF : F.Low u g η ρ) {p : ℕ} (hs : Scale3 u η θ τ ν p) {a b : Vec 3} (h : Far θ (a - b)) :
    F.rnd (F.nrm3 (F.vsub a b) * F.nrm3 (F.vsub a b)) ≠ 0 ∧ ∀ n ≤ p, Ap u (11 + 5 * n) ((len3 (a - b))⁻¹ ^ (n + 2))
      (rdv F (F.nrm3 (F.vsub a b)) (F.rnd (1 / F.rnd (F.nrm3 (F.vsub a b) * F.nrm3 (F.vsub a b)))) n) ((len3 (a - b))⁻¹ ^ (n + 2)) := by
  have hl : 0 < len3 (a - b) := hs.th0.trans_le h.1
  have h1 := nrm3_ap hF (vsub_len hF.toLow a b le_rfl (hs.le h.1)) le_rfl (hs.le h.1)
  have h2 := rmul hF.toLow h1 h1 (Or.inr (by
    have := hs.powle h.1 (k := 2) (by omega)
    rwa [sq] at this))
  have hl2 : 0 < len3 (a - b) * len3 (a - b) := by positivity
  obtain ⟨k1, k2⟩ := Ap.invk hF.nonneg 5 (pow_five_le hF) hl2.ne' (by
    rw [Real.norm_of_nonneg hl2.le]; exact h2.1)
  refine ⟨k1, fun n hn => ?_⟩
  rw [Real.norm_of_nonneg hl2.le] at k2
  have e : ∀ n, (len3 (a - b))⁻¹ ^ (n + 2) = (len3 (a - b) * len3 (a - b))⁻¹ * (len3 (a - b))⁻¹ ^ n := fun n => by
    rw [pow_add, mul_inv]; ring
  have k3 := hF.rrnd k2 (Or.inr (by
    have := hs.powle h.2 (k := 2) (by omega)
    rwa [sq, ← mul_inv] at this))
  rw [← one_div (F.rnd (F.nrm3 (F.vsub a b) * F.nrm3 (F.vsub a b)))] at k3
  have := rdv_ap hF (far_inv hF hs h).2 k3 n fun j hj => Or.inr (by
    rw [← e]; exact hs.powle h.2 (by omega))
  rw [e]
  exact this

theorem meForce_ap (hF : F.LowD u g η ρ) {s : ℝ} {p κ : ℕ} (hsc : Scale3 u η θ τ ν p) (hp : 0 < p) (hκ : FrameCost u g s p κ) {n : ℕ} {e : Exp3} {c : Vec 3} {a : ℕ → ℤ → ℂ} {A R D : ℝ}
    (he : AppM3 u n e c p a A R) (hAf : Flr τ A) (hA : 0 ≤ A) (hRl : θ ≤ R) (hD : R < D) (hDR : θ ≤ (D - R)⁻¹) {x : Vec 3} (hx : D ≤ len3 (x - c)) (hfar : Far θ (x - c))
    (hs : s * len3 (x - c) ≤ Vec.hypot ((x - c) 0) ((x - c) 1)) :
    ∃ f, meForce F e x = .ok f ∧
      ∀ i, Ap u (n + fcostL p κ) (3 * (A * ((D - R)⁻¹) ^ 2)) (f i) (meGrad3 a p (zpt F x c - c) (unitV i)).re := by
  have hu := hF.nonneg
  have hR : 0 ≤ R := hsc.th0.le.trans hRl
  have hD0 : 0 < D := by linarith
  obtain ⟨a', α, e1, e2, hα, hα2⟩ := maj3 hsc he hAf hRl
  have hη : 2 * η ≤ len3 (x - c) := by
    have h1 := hsc.tiny
    have h2 := hsc.u1
    have h3 := hfar.1
    have h4 := hsc.th0
    nlinarith
  have hv := vsub_len hF.toLow3.toLow x c le_rfl (show η ≤ len3 (x - c) by linarith [hF.eta])
  have h0 := ne_of_len hD0 hx
  have hl := len3_pos h0
  obtain ⟨hX, -, -, -, -⟩ := frame hF hκ hv h0 hη hs
  obtain ⟨hR0, -, -⟩ := frame_sin hF hκ hv h0 hη hs
  obtain ⟨Y, hY, hYv⟩ := ylmD_ok F p (F.sph (F.vsub x c) 1) (F.sph (F.vsub x c) 2) hX
  obtain ⟨hr2, hP⟩ := dv_r2 hF.toLow3 hsc hfar
  have hr0 := (far_inv hF.toLow3 hsc hfar).1
  set v' := F.vsub x c with hv'
  set L := len3 (x - c) with hL
  obtain ⟨f, f1, f2⟩ := forceLoop hF hsc hp e1 hα hR0 (MajY.mk' hsc.nu0 _) (MajY.mk' hsc.nu0 _) hYv (p + 1) (fun i => i) (fun i hi => by show i ≤ p; omega) true
    (fun r => Fl3.divR F r (F.nrm3 v')) (rdv F (F.nrm3 v') (F.rnd (1 / F.rnd (F.nrm3 v' * F.nrm3 v')))) (fun i => by
      show Fl3.divR F _ _ = _
      rw [Fl3.divR, if_neg hr0]; rfl)
    (MajP.mk' hsc.nu0 _ (ζ := fun i => L⁻¹ ^ (i + 2)) (fun i => pow_nonneg (inv_nonneg.mpr hl.le) _)
      (fun i hi => (hsc.thpow (by omega)).trans (pow_le_pow_left₀ hsc.th0.le hfar.2 (i + 2)))) le_rfl
  simp only [if_true] at f2
  refine ⟨F.toBasis f (F.sph v' 1) (F.sph v' 2), ?_, ?_⟩
  · unfold meForce
    simp only [e1.center, e1.order]
    rw [← hv', hY, ok_bind]
    have e0 : F.sph v' 0 = F.nrm3 v' := rfl
    simp only [e0]
    rw [Fl3.divR, if_neg hr2, ok_bind]
    have : (do
      let (f, _) ← loopM (p + 1) (fun i (s : Vec 3 × ℝ) => do
        let f ← loopZ (-(i : ℤ)) i (fun m f => do
          let a ← e.get i m
          forceTerm F Y (F.sph v' 1) s.2 true (i + 1) a i m f) s.1
        let rp ← Fl3.divR F s.2 (F.nrm3 v')
        (Except.ok (f, rp) : Outcome _)) ((0 : Vec 3), F.rnd (1 / F.rnd (F.nrm3 v' * F.nrm3 v')))
      (Except.ok f : Outcome (Vec 3))) = .ok f := f1
    cases hq : loopM (p + 1) (fun i (s : Vec 3 × ℝ) => do
        let f ← loopZ (-(i : ℤ)) i (fun m f => do
          let a ← e.get i m
          forceTerm F Y (F.sph v' 1) s.2 true (i + 1) a i m f) s.1
        let rp ← Fl3.divR F s.2 (F.nrm3 v')
        (Except.ok (f, rp) : Outcome _)) ((0 : Vec 3), F.rnd (1 / F.rnd (F.nrm3 v' * F.nrm3 v'))) with
    | error _ => rw [hq, err_bind] at this; cases this
    | ok r =>
      rw [hq, ok_bind] at this
      have hr : r.1 = f := by injection this
      rw [ok_bind, ← hr]
  · have hsum : ∀ (y : ℕ → ℝ) (B : ℝ), 0 ≤ B → (∀ i ≤ p, 0 ≤ y i ∧ y i ≤ B * (A * R ^ i)) →
        ∑ i ∈ range (p + 1), y i * (L⁻¹ ^ (i + 2) * ((i + 1 : ℕ) : ℝ)) ≤ B * (A * (D - R)⁻¹ ^ 2) := by
      intro y B hB hy
      have h := mul_le_mul_of_nonneg_left (geo2' hR hD (p + 1)) (mul_nonneg hB hA)
      rw [mul_sum] at h
      refine le_trans (sum_le_sum fun i hi => ?_) (h.trans (le_of_eq (by ring)))
      rw [mem_range] at hi
      obtain ⟨k0, k1⟩ := hy i (by omega)
      have k2 := mul_le_mul_of_nonneg_right (inv_pow_le hD0 hx (i + 2)) (Nat.cast_nonneg (α := ℝ) (i + 1))
      refine (mul_le_mul k1 k2 (by positivity) (k0.trans k1)).trans (le_of_eq (by ring))
    have hNN := one_le_pow_u hu n
    have hcomp : ∀ j, Ap u (n + ((4 + ∑ i ∈ range (p + 1), (2 * i + 1)) + (11 * p + 16 + 3 * κ + 1))) (A * (D - R)⁻¹ ^ 2) (f j)
        (∑ i ∈ range (p + 1), ∑ m ∈ Ir i, a i m * ze (-1) (L⁻¹ ^ (i + 2)) (i + 1 : ℕ) (tht F v') (v'.toSpherical3 2) i j m).re := fun j => by
      refine comp_ap hu (fun i => i) (E := 11 * p + 15 + 2 * κ) (E' := 11 * p + 16 + 3 * κ) (by omega) a a' α _
        (fun i m => ze (-1) (L⁻¹ ^ (i + 2)) (i + 1 : ℕ) (tht F v') (v'.toSpherical3 2) i j m) _
        (fun i => L⁻¹ ^ (i + 2) * ((i + 1 : ℕ) : ℝ)) (fun i hi => ?_) (fun i hi => ?_) (f2 j) ?_ ?_ ?_
      · exact (zc_ap hF hκ hv h0 hη hs (by rw [abs_neg, abs_one]) (hP i (by omega)) (n := i) (by omega) (by push_cast; linarith) j).mono hu (by omega) le_rfl
      · refine (zm_l2 hF hsc hκ hv h0 hη hs (hP i (by omega)) (n := i) (by omega) (by push_cast; linarith)
          (by push_cast; linarith [Nat.cast_nonneg (α := ℝ) i]) j).trans ?_
        exact mul_le_mul_of_nonneg_right (pow_le_pow_right₀ (by linarith) (by omega))
          (mul_nonneg (pow_nonneg (inv_nonneg.mpr hl.le) _) (Nat.cast_nonneg _))
      · exact hsum _ _ (by linarith) fun i hi => ⟨l2_nonneg _ _, (e2 i hi).1⟩
      · have := hsum (fun i => l2 (Ir i) (a i)) 1 zero_le_one fun i hi => ⟨l2_nonneg _ _, by rw [one_mul]; exact (e2 i hi).2⟩
        rwa [one_mul] at this
      · exact hsum _ _ (by positivity) fun i hi => ⟨l2_nonneg _ _, hα2 i hi⟩
    have hz : zpt F x c - c = len3 (zpt F x c - c) • dirV (tht F v') (v'.toSpherical3 2) := by
      rw [zpt_len]; exact zpt_sub F x c
    have hz0 : zpt F x c - c ≠ 0 := ne_of_len (D := L) hl (by rw [zpt_len])
    have hp1 : dot3 (zpt F x c - c) (thetaV (tht F v') (v'.toSpherical3 2)) = 0 := by
      rw [hz, dot3_smul_left, dot_dir_theta, mul_zero]
    have hp2 : dot3 (zpt F x c - c) (phiV (v'.toSpherical3 2)) = 0 := by
      rw [hz, dot3_smul_left, dot_dir_phi, mul_zero]
    have hpw : ∀ i : ℕ, (1 / (L * L) / L ^ i : ℝ) = L⁻¹ ^ (i + 2) := fun i => by
      rw [inv_pow, pow_add]; field_simp
    have hf : ∀ j, Ap u (n + ((4 + ∑ i ∈ range (p + 1), (2 * i + 1)) + (11 * p + 16 + 3 * κ + 1))) (A * (D - R)⁻¹ ^ 2) (f j)
        ((![(meGrad3 a p (zpt F x c - c) (dirV (tht F v') (v'.toSpherical3 2))).re,
          (meGrad3 a p (zpt F x c - c) (thetaV (tht F v') (v'.toSpherical3 2))).re,
          (meGrad3 a p (zpt F x c - c) (phiV (v'.toSpherical3 2))).re] : Vec 3) j) := fun j => by
      have := hcomp j
      fin_cases j
      · show Ap _ _ _ _ (meGrad3 a p (zpt F x c - c) (dirV (tht F v') (v'.toSpherical3 2))).re
        refine this.congr' rfl ?_
        congr 1
        refine sum_congr rfl fun i _ => sum_congr rfl fun m _ => ?_
        rw [Exp3.iD_dir hz hz0, zpt_len, hpw]
        show a i m * (((-1 * L⁻¹ ^ (i + 2) * (i + 1 : ℕ) : ℝ) : ℂ) * _) = _
        push_cast; ring
      · show Ap _ _ _ _ (meGrad3 a p (zpt F x c - c) (thetaV (tht F v') (v'.toSpherical3 2))).re
        refine this.congr' rfl ?_
        congr 1
        refine sum_congr rfl fun i _ => sum_congr rfl fun m _ => ?_
        rw [Exp3.iD_perp hz hz0 hp1, zpt_len, hpw]
        rfl
      · show Ap _ _ _ _ (meGrad3 a p (zpt F x c - c) (phiV (v'.toSpherical3 2))).re
        refine this.congr' rfl ?_
        congr 1
        refine sum_congr rfl fun i _ => sum_congr rfl fun m _ => ?_
        rw [Exp3.iD_perp hz hz0 hp2, zpt_len, hpw]
        rfl
    have hfl : Flr η (A * (D - R)⁻¹ ^ 2) := by
      have a4 := hAf.mulge (pow_le_pow_left₀ hsc.th0.le hDR 2) hsc.tau0.le (by positivity)
      have a5 := hsc.fl1 (i := 0) (k := 2) (by omega) (by omega)
      rw [pow_zero, mul_one] at a5
      exact a4.mono a5
    intro i
    have h := toBasis_ap hF hκ hv h0 hη hs hf hfl i
    rw [basis_expand (fun w => (meGrad3 a p (zpt F x c - c) w).re) (fun e f => by simp only [meGrad3_add, Complex.add_re])
      (fun t e => by simp only [meGrad3_smul, Complex.re_ofReal_mul])] at h
    refine h.mono hu ?_ le_rfl
    have := sum_me_deg p
    unfold fcostL
    omega

end Lo3
end FMM
