import Verif.FltForceRun3

/-!
# Rounding errors of `evaluateForcefield` of the three-dimensional expansions

Away from the axis through the centre, the computed force approximates the exact gradient of the exact expansion at a point
at the same distance from the centre and close to the evaluation point: the direction is only known up to `20 u / s`, where `s` is the
sine of the angle with the axis.
-/

namespace FMM
open Finset

namespace Fl3
variable {F : Flt3} {u g : ℝ}

/-- The point in the computed direction. -/
noncomputable def zpt (F : Flt3) (x c : Vec 3) : Vec 3 :=
  c + len3 (x - c) • dirV (tht F (F.vsub x c)) ((F.vsub x c).toSpherical3 2)

theorem zpt_sub (F : Flt3) (x c : Vec 3) : zpt F x c - c = len3 (x - c) • dirV (tht F (F.vsub x c)) ((F.vsub x c).toSpherical3 2) := by
  unfold zpt; abel

theorem zpt_len (F : Flt3) (x c : Vec 3) : len3 (zpt F x c - c) = len3 (x - c) := by
  rw [zpt_sub, len3_smul, len3_dirV, mul_one, abs_of_nonneg (len3_nonneg _)]

theorem zpt_close (hF : F.OkD u g) {s : ℝ} {p κ : ℕ} (hκ : FrameCost u g s p κ) {x c : Vec 3} (h0 : x - c ≠ 0)
    (hs : s * len3 (x - c) ≤ Vec.hypot ((x - c) 0) ((x - c) 1)) : len3 (zpt F x c - x) ≤ 20 * u / s * len3 (x - c) := by
  obtain ⟨-, -, -, -, h⟩ := frame hF hκ (vsub_close hF.toOk3.toOk x c) h0 hs
  have e : zpt F x c - x = len3 (x - c) • (dirV (tht F (F.vsub x c)) ((F.vsub x c).toSpherical3 2) - dir (x - c)) := by
    have h1 := sph_smul (x - c)
    rw [sph_r] at h1
    rw [smul_sub]
    unfold dir
    rw [← h1]
    unfold zpt; abel
  rw [e, len3_smul, abs_of_nonneg (len3_nonneg _), mul_comm]
  exact mul_le_mul_of_nonneg_right h (len3_nonneg _)

/-- Roundings of one evaluation. -/
def fcost (p κ : ℕ) : ℕ := (p + 1) ^ 2 + 11 * p + 3 * κ + 28

theorem sum_le_deg (p : ℕ) : ∑ i ∈ range p, (2 * (i + 1) + 1) + 1 = (p + 1) ^ 2 := by
  induction p with
  | zero => simp
  | succ p ih => rw [sum_range_succ]; linarith [ih, show (p + 1 + 1) ^ 2 = (p + 1) ^ 2 + (2 * (p + 1) + 1) by ring]

theorem sum_me_deg (p : ℕ) : ∑ i ∈ range (p + 1), (2 * i + 1) = (p + 1) ^ 2 := by
  induction p with
  | zero => simp
  | succ p ih => rw [sum_range_succ, ih]; ring

theorem leForce_ap (hF : F.OkD u g) {s : ℝ} {p κ : ℕ} (hκ : FrameCost u g s p κ) {n : ℕ} {e : Exp3} {c : Vec 3} {b : ℕ → ℤ → ℂ} {R M : ℝ}
    (he : AppL3 u n e c p b R M) {x : Vec 3} (hx : len3 (x - c) ≤ R) (h0 : x - c ≠ 0)
    (hs : s * len3 (x - c) ≤ Vec.hypot ((x - c) 0) ((x - c) 1)) :
    ∃ f, leForce F e x = .ok f ∧ ∀ i, Ap u (n + fcost p κ) (3 * (p * M / R)) (f i) (leGrad3 b p (zpt F x c - c) (unitV i)).re := by
  have hu := hF.nonneg
  obtain ⟨b', e1, e2⟩ := he
  have hv := vsub_close hF.toOk3.toOk x c
  have hl := len3_pos h0
  have hR : 0 < R := hl.trans_le hx
  have hM := e2.nonneg hR.le
  obtain ⟨hX, -, -, -, -⟩ := frame hF hκ hv h0 hs
  obtain ⟨hR0, -, -⟩ := frame_sin hF hκ hv h0 hs
  obtain ⟨Y, hY, hYv⟩ := ylmD_ok F p (F.sph (F.vsub x c) 1) (F.sph (F.vsub x c) 2) hX
  set v' := F.vsub x c with hv'
  set L := len3 (x - c) with hL
  obtain ⟨f, f1, f2⟩ := forceLoop hF.toOk3 e1 hR0 hYv p (fun i => i + 1) (fun i hi => by show i + 1 ≤ p; omega) false
    (fun r => .ok (F.rnd (r * F.nrm3 v'))) (rpw F (F.nrm3 v') 1) (fun i => rfl)
  simp only [Bool.false_eq_true, if_false] at f2
  refine ⟨F.toBasis f (F.sph v' 1) (F.sph v' 2), ?_, ?_⟩
  · unfold leForce
    simp only [e1.center, e1.order]
    rw [← hv', hY, ok_bind]
    have : (do
      let (f, _) ← loopM p (fun i (s : Vec 3 × ℝ) => do
        let f ← loopZ (-((i + 1 : ℕ) : ℤ)) (i + 1 : ℕ) (fun m f => do
          let a ← e.get (i + 1) m
          forceTerm F Y (F.sph v' 1) s.2 false (i + 1) a (i + 1) m f) s.1
        (Except.ok (f, F.rnd (s.2 * F.nrm3 v')) : Outcome _)) ((0 : Vec 3), (1 : ℝ))
      (Except.ok f : Outcome (Vec 3))) = .ok f := f1
    cases hq : loopM p (fun i (s : Vec 3 × ℝ) => do
        let f ← loopZ (-((i + 1 : ℕ) : ℤ)) (i + 1 : ℕ) (fun m f => do
          let a ← e.get (i + 1) m
          forceTerm F Y (F.sph v' 1) s.2 false (i + 1) a (i + 1) m f) s.1
        (Except.ok (f, F.rnd (s.2 * F.nrm3 v')) : Outcome _)) ((0 : Vec 3), (1 : ℝ)) with
    | error _ => rw [hq, err_bind] at this; cases this
    | ok r =>
      rw [hq, ok_bind] at this
      have hr : r.1 = f := by injection this
      show (loopM p _ _ >>= _) = _
      erw [hq, ok_bind]
      rw [← hr]
  · -- the components in the frame
    have hmono : ∀ y : ℕ → ℤ → ℂ, ∑ i ∈ range p, l2 (Ir (i + 1)) (y (i + 1)) * (L ^ i * ((i + 1 : ℕ) : ℝ)) ≤ p / R * wl p R y := by
      intro y
      unfold wl
      rw [sum_range_succ' _ p, mul_add, mul_sum]
      refine le_trans (sum_le_sum fun i hi => ?_) (le_add_of_nonneg_right
        (mul_nonneg (div_nonneg (Nat.cast_nonneg p) hR.le) (mul_nonneg (pow_nonneg hR.le _) (l2_nonneg _ _))))
      rw [mem_range] at hi
      have k1 : L ^ i ≤ R ^ i := pow_le_pow_left₀ hl.le hx i
      have k2 : ((i + 1 : ℕ) : ℝ) ≤ p := by exact_mod_cast hi
      have k3 : L ^ i * ((i + 1 : ℕ) : ℝ) ≤ R ^ i * p := mul_le_mul k1 k2 (Nat.cast_nonneg _) (pow_nonneg hR.le _)
      refine (mul_le_mul_of_nonneg_left k3 (l2_nonneg _ _)).trans (le_of_eq ?_)
      rw [pow_succ]; field_simp
    have hpR : 0 ≤ (p : ℝ) / R := div_nonneg (Nat.cast_nonneg p) hR.le
    have hcomp : ∀ j, Ap u (n + ((4 + ∑ i ∈ range p, (2 * (i + 1) + 1)) + (9 * p + 4 + 2 * κ))) (p / R * M) (f j)
        (∑ i ∈ range p, ∑ m ∈ Ir (i + 1), b (i + 1) m * ze 1 (L ^ i) (i + 1 : ℕ) (tht F v') (v'.toSpherical3 2) (i + 1) j m).re := fun j => by
      refine comp_ap hu (fun i => i + 1) b b' _ (fun i m => ze 1 (L ^ i) (i + 1 : ℕ) (tht F v') (v'.toSpherical3 2) (i + 1) j m)
        (fun i => L ^ i * ((i + 1 : ℕ) : ℝ)) (fun i hi => ?_) (f2 j) ?_ ?_
      · exact (zc_ap hF hκ hv h0 hs abs_one (pw_r hF.toOk3 hv i) (n := i + 1) (by omega) le_rfl j).mono hu (by omega) le_rfl
      · refine (hmono fun n m => b' n m - b n m).trans ?_
        have := mul_le_mul_of_nonneg_left e2.1 hpR
        linarith
      · exact (hmono b).trans (mul_le_mul_of_nonneg_left e2.2 hpR)
    have hrD : ∀ (w : Vec 3) (n : ℕ) (m : ℤ), rD (zpt F x c - c) w (n + 1) m
        = (L : ℂ) ^ n * rD (dirV (tht F v') (v'.toSpherical3 2)) w (n + 1) m := fun w n m => by
      rw [zpt_sub]; exact rD_smul_left _ w _ n m
    have hG : ∀ w, leGrad3 b p (zpt F x c - c) w = ∑ i ∈ range p, ∑ m ∈ Ir (i + 1), b (i + 1) m * ((L : ℂ) ^ i *
        rD (dirV (tht F v') (v'.toSpherical3 2)) w (i + 1) m) := fun w => by
      unfold leGrad3
      rw [sum_range_succ']
      simp only [rD_zero, mul_zero, sum_const_zero, add_zero, hrD]
    have hf : ∀ j, Ap u (n + ((4 + ∑ i ∈ range p, (2 * (i + 1) + 1)) + (9 * p + 4 + 2 * κ))) (p / R * M) (f j)
        ((![(leGrad3 b p (zpt F x c - c) (dirV (tht F v') (v'.toSpherical3 2))).re,
          (leGrad3 b p (zpt F x c - c) (thetaV (tht F v') (v'.toSpherical3 2))).re,
          (leGrad3 b p (zpt F x c - c) (phiV (v'.toSpherical3 2))).re] : Vec 3) j) := fun j => by
      have := hcomp j
      fin_cases j
      · show Ap _ _ _ _ (leGrad3 b p (zpt F x c - c) (dirV (tht F v') (v'.toSpherical3 2))).re
        rw [hG]
        refine this.congr' rfl ?_
        congr 1
        refine sum_congr rfl fun i _ => sum_congr rfl fun m _ => ?_
        rw [rD_dir]
        show b (i + 1) m * (((1 * L ^ i * (i + 1 : ℕ) : ℝ) : ℂ) * _) = _
        push_cast; ring
      · show Ap _ _ _ _ (leGrad3 b p (zpt F x c - c) (thetaV (tht F v') (v'.toSpherical3 2))).re
        rw [hG]
        refine this.congr' rfl ?_
        congr 1
        refine sum_congr rfl fun i _ => sum_congr rfl fun m _ => ?_
        show b (i + 1) m * (((L ^ i : ℝ) : ℂ) * _) = _
        push_cast; ring
      · show Ap _ _ _ _ (leGrad3 b p (zpt F x c - c) (phiV (v'.toSpherical3 2))).re
        rw [hG]
        refine this.congr' rfl ?_
        congr 1
        refine sum_congr rfl fun i _ => sum_congr rfl fun m _ => ?_
        show b (i + 1) m * (((L ^ i : ℝ) : ℂ) * _) = _
        push_cast; ring
    intro i
    have h := toBasis_ap hF hκ hv h0 hs hf i
    rw [basis_expand (fun w => (leGrad3 b p (zpt F x c - c) w).re) (fun e f => by simp only [leGrad3_add, Complex.add_re])
      (fun t e => by simp only [leGrad3_smul, Complex.re_ofReal_mul])] at h
    refine h.mono hu ?_ (le_of_eq (by ring))
    have := sum_le_deg p
    unfold fcost
    omega

/-! ## Multipole expansions -/

theorem geo_deriv (x : ℝ) (N : ℕ) : (∑ i ∈ range N, ((i : ℝ) + 1) * x ^ i) * (1 - x) ^ 2 = 1 - (N + 1) * x ^ N + N * x ^ (N + 1) := by
  induction N with
  | zero => simp
  | succ N ih => rw [sum_range_succ, add_mul, ih]; push_cast; ring

theorem geo2' {R D : ℝ} (hR : 0 ≤ R) (hD : R < D) (N : ℕ) :
    ∑ i ∈ range N, R ^ i * ((D ^ (i + 2))⁻¹ * ((i + 1 : ℕ) : ℝ)) ≤ ((D - R)⁻¹) ^ 2 := by
  have hD0 : 0 < D := by linarith
  have hx0 : 0 ≤ R / D := div_nonneg hR hD0.le
  have hx1 : R / D < 1 := (div_lt_one hD0).mpr hD
  have h := geo_deriv (R / D) N
  have hle : (∑ i ∈ range N, ((i : ℝ) + 1) * (R / D) ^ i) * (1 - R / D) ^ 2 ≤ 1 := by
    rw [h]
    have h1 := pow_nonneg hx0 N
    have h2 : (N : ℝ) * (R / D) ^ (N + 1) ≤ N * (R / D) ^ N := by
      rw [pow_succ]
      have := mul_le_mul_of_nonneg_left hx1.le (mul_nonneg (Nat.cast_nonneg (α := ℝ) N) h1)
      linarith
    linarith
  have e : ∑ i ∈ range N, R ^ i * ((D ^ (i + 2))⁻¹ * ((i + 1 : ℕ) : ℝ)) = (∑ i ∈ range N, ((i : ℝ) + 1) * (R / D) ^ i) * (D⁻¹) ^ 2 := by
    rw [sum_mul]
    refine sum_congr rfl fun i _ => ?_
    rw [div_pow, pow_add]
    push_cast
    field_simp
  rw [e]
  have hp : 0 < (1 - R / D) ^ 2 := pow_pos (by linarith) 2
  have h3 : (∑ i ∈ range N, ((i : ℝ) + 1) * (R / D) ^ i) ≤ ((1 - R / D) ^ 2)⁻¹ := by
    rw [← one_div, le_div_iff₀ hp]; exact hle
  refine (mul_le_mul_of_nonneg_right h3 (by positivity)).trans (le_of_eq ?_)
  have : D - R ≠ 0 := by linarith
  rw [show 1 - R / D = (D - R) * D⁻¹ by field_simp]
  field_simp

theorem pow_five_le (hF : F.Ok u g) : (1 + u) ^ 5 ≤ 3 / 2 := by
  refine (pow_le_pow_left₀ (by linarith [hF.nonneg]) (show 1 + u ≤ 1 + 1 / 16 by linarith [hF.small]) 5).trans ?_
  norm_num

/-- `1 / r²` and its quotients by the computed radius. -/
theorem dv_r2 (hF : F.Ok u g) {v v' : Vec 3} (hv : len3 (v' - v) ≤ u * len3 v) (h0 : v ≠ 0) :
    F.rnd (F.nrm3 v' * F.nrm3 v') ≠ 0 ∧ ∀ n, Ap u (11 + 5 * n) ((len3 v)⁻¹ ^ (n + 2))
      (rdv F (F.nrm3 v') (F.rnd (1 / F.rnd (F.nrm3 v' * F.nrm3 v'))) n) ((len3 v)⁻¹ ^ (n + 2)) := by
  have hl := len3_pos h0
  have h1 := nrm3_ap hF hv
  have h2 := h1.rmul hF.toOk h1
  have hl2 : 0 < len3 v * len3 v := by positivity
  obtain ⟨k1, k2⟩ := Ap.invk hF.nonneg 5 (pow_five_le hF) hl2.ne' (by
    rw [Real.norm_of_nonneg hl2.le]; exact h2.1)
  refine ⟨k1, fun n => ?_⟩
  rw [Real.norm_of_nonneg hl2.le] at k2
  have k3 := hF.rrnd k2
  rw [← one_div (F.rnd (F.nrm3 v' * F.nrm3 v'))] at k3
  have := rdv_ap hF (nrm3_inv hF hv h0).2 k3 n
  have e : (len3 v)⁻¹ ^ (n + 2) = (len3 v * len3 v)⁻¹ * (len3 v)⁻¹ ^ n := by rw [pow_add, mul_inv]; ring
  rw [e]
  exact this

theorem meForce_ap (hF : F.OkD u g) {s : ℝ} {p κ : ℕ} (hκ : FrameCost u g s p κ) {n : ℕ} {e : Exp3} {c : Vec 3} {a : ℕ → ℤ → ℂ} {A R D : ℝ}
    (he : AppM3 u n e c p a A R) (hA : 0 ≤ A) (hR : 0 ≤ R) (hD : R < D) {x : Vec 3} (hx : D ≤ len3 (x - c))
    (hs : s * len3 (x - c) ≤ Vec.hypot ((x - c) 0) ((x - c) 1)) :
    ∃ f, meForce F e x = .ok f ∧
      ∀ i, Ap u (n + fcost p κ) (3 * (A * ((D - R)⁻¹) ^ 2)) (f i) (meGrad3 a p (zpt F x c - c) (unitV i)).re := by
  have hu := hF.nonneg
  have hD0 : 0 < D := by linarith
  obtain ⟨a', e1, e2⟩ := he
  have hv := vsub_close hF.toOk3.toOk x c
  have h0 := ne_of_len hD0 hx
  have hl := len3_pos h0
  obtain ⟨hX, -, -, -, -⟩ := frame hF hκ hv h0 hs
  obtain ⟨hR0, -, -⟩ := frame_sin hF hκ hv h0 hs
  obtain ⟨Y, hY, hYv⟩ := ylmD_ok F p (F.sph (F.vsub x c) 1) (F.sph (F.vsub x c) 2) hX
  obtain ⟨hr2, hP⟩ := dv_r2 hF.toOk3 hv h0
  have hr0 := (nrm3_inv hF.toOk3 hv h0).1
  set v' := F.vsub x c with hv'
  set L := len3 (x - c) with hL
  obtain ⟨f, f1, f2⟩ := forceLoop hF.toOk3 e1 hR0 hYv (p + 1) (fun i => i) (fun i hi => by show i ≤ p; omega) true
    (fun r => divR F r (F.nrm3 v')) (rdv F (F.nrm3 v') (F.rnd (1 / F.rnd (F.nrm3 v' * F.nrm3 v')))) (fun i => by
      show divR F _ _ = _
      rw [divR, if_neg hr0]; rfl)
  simp only [if_true] at f2
  refine ⟨F.toBasis f (F.sph v' 1) (F.sph v' 2), ?_, ?_⟩
  · unfold meForce
    simp only [e1.center, e1.order]
    rw [← hv', hY, ok_bind]
    have e0 : F.sph v' 0 = F.nrm3 v' := rfl
    simp only [e0]
    rw [divR, if_neg hr2, ok_bind]
    have : (do
      let (f, _) ← loopM (p + 1) (fun i (s : Vec 3 × ℝ) => do
        let f ← loopZ (-(i : ℤ)) i (fun m f => do
          let a ← e.get i m
          forceTerm F Y (F.sph v' 1) s.2 true (i + 1) a i m f) s.1
        let rp ← divR F s.2 (F.nrm3 v')
        (Except.ok (f, rp) : Outcome _)) ((0 : Vec 3), F.rnd (1 / F.rnd (F.nrm3 v' * F.nrm3 v')))
      (Except.ok f : Outcome (Vec 3))) = .ok f := f1
    cases hq : loopM (p + 1) (fun i (s : Vec 3 × ℝ) => do
        let f ← loopZ (-(i : ℤ)) i (fun m f => do
          let a ← e.get i m
          forceTerm F Y (F.sph v' 1) s.2 true (i + 1) a i m f) s.1
        let rp ← divR F s.2 (F.nrm3 v')
        (Except.ok (f, rp) : Outcome _)) ((0 : Vec 3), F.rnd (1 / F.rnd (F.nrm3 v' * F.nrm3 v'))) with
    | error _ => rw [hq, err_bind] at this; cases this
    | ok r =>
      rw [hq, ok_bind] at this
      have hr : r.1 = f := by injection this
      rw [ok_bind, ← hr]
  · have hsum : ∀ (y : ℕ → ℤ → ℂ) (B : ℝ), 0 ≤ B → (∀ i ≤ p, l2 (Ir i) (y i) ≤ B * (A * R ^ i)) →
        ∑ i ∈ range (p + 1), l2 (Ir i) (y i) * (L⁻¹ ^ (i + 2) * ((i + 1 : ℕ) : ℝ)) ≤ B * (A * (D - R)⁻¹ ^ 2) := by
      intro y B hB hy
      have h := mul_le_mul_of_nonneg_left (geo2' hR hD (p + 1)) (mul_nonneg hB hA)
      rw [mul_sum] at h
      refine le_trans (sum_le_sum fun i hi => ?_) (h.trans (le_of_eq (by ring)))
      rw [mem_range] at hi
      have k1 := hy i (by omega)
      have k2 := mul_le_mul_of_nonneg_right (inv_pow_le hD0 hx (i + 2)) (Nat.cast_nonneg (α := ℝ) (i + 1))
      refine (mul_le_mul k1 k2 (by positivity) ((l2_nonneg _ _).trans k1)).trans (le_of_eq (by ring))
    have hNN := one_le_pow_u hu n
    have hcomp : ∀ j, Ap u (n + ((4 + ∑ i ∈ range (p + 1), (2 * i + 1)) + (11 * p + 15 + 2 * κ))) (A * (D - R)⁻¹ ^ 2) (f j)
        (∑ i ∈ range (p + 1), ∑ m ∈ Ir i, a i m * ze (-1) (L⁻¹ ^ (i + 2)) (i + 1 : ℕ) (tht F v') (v'.toSpherical3 2) i j m).re := fun j => by
      refine comp_ap hu (fun i => i) a a' _ (fun i m => ze (-1) (L⁻¹ ^ (i + 2)) (i + 1 : ℕ) (tht F v') (v'.toSpherical3 2) i j m)
        (fun i => L⁻¹ ^ (i + 2) * ((i + 1 : ℕ) : ℝ)) (fun i hi => ?_) (f2 j) ?_ ?_
      · exact (zc_ap hF hκ hv h0 hs (by rw [abs_neg, abs_one]) (hP i) (n := i) (by omega) (by push_cast; linarith) j).mono hu (by omega) le_rfl
      · exact hsum _ _ (by linarith) fun i hi => (e2 i hi).1
      · have := hsum a 1 zero_le_one fun i hi => by rw [one_mul]; exact (e2 i hi).2
        rwa [one_mul] at this
    have hz : zpt F x c - c = len3 (zpt F x c - c) • dirV (tht F v') (v'.toSpherical3 2) := by
      rw [zpt_len]; exact zpt_sub F x c
    have hz0 : zpt F x c - c ≠ 0 := ne_of_len (D := L) hl (by rw [zpt_len])
    have hp1 : dot3 (zpt F x c - c) (thetaV (tht F v') (v'.toSpherical3 2)) = 0 := by
      rw [hz, dot3_smul_left, dot_dir_theta, mul_zero]
    have hp2 : dot3 (zpt F x c - c) (phiV (v'.toSpherical3 2)) = 0 := by
      rw [hz, dot3_smul_left, dot_dir_phi, mul_zero]
    have hpw : ∀ i : ℕ, (1 / (L * L) / L ^ i : ℝ) = L⁻¹ ^ (i + 2) := fun i => by
      rw [inv_pow, pow_add]; field_simp
    have hf : ∀ j, Ap u (n + ((4 + ∑ i ∈ range (p + 1), (2 * i + 1)) + (11 * p + 15 + 2 * κ))) (A * (D - R)⁻¹ ^ 2) (f j)
        ((![(meGrad3 a p (zpt F x c - c) (dirV (tht F v') (v'.toSpherical3 2))).re,
          (meGrad3 a p (zpt F x c - c) (thetaV (tht F v') (v'.toSpherical3 2))).re,
          (meGrad3 a p (zpt F x c - c) (phiV (v'.toSpherical3 2))).re] : Vec 3) j) := fun j => by
      have := hcomp j
      fin_cases j
      · show Ap _ _ _ _ (meGrad3 a p (zpt F x c - c) (dirV (tht F v') (v'.toSpherical3 2))).re
        refine this.congr' rfl ?_
        congr 1
        refine sum_congr rfl fun i _ => sum_congr rfl fun m _ => ?_
        rw [Exp3.iD_dir hz hz0, zpt_len, hpw]
        show a i m * (((-1 * L⁻¹ ^ (i + 2) * (i + 1 : ℕ) : ℝ) : ℂ) * _) = _
        push_cast; ring
      · show Ap _ _ _ _ (meGrad3 a p (zpt F x c - c) (thetaV (tht F v') (v'.toSpherical3 2))).re
        refine this.congr' rfl ?_
        congr 1
        refine sum_congr rfl fun i _ => sum_congr rfl fun m _ => ?_
        rw [Exp3.iD_perp hz hz0 hp1, zpt_len, hpw]
        rfl
      · show Ap _ _ _ _ (meGrad3 a p (zpt F x c - c) (phiV (v'.toSpherical3 2))).re
        refine this.congr' rfl ?_
        congr 1
        refine sum_congr rfl fun i _ => sum_congr rfl fun m _ => ?_
        rw [Exp3.iD_perp hz hz0 hp2, zpt_len, hpw]
        rfl
    intro i
    have h := toBasis_ap hF hκ hv h0 hs hf i
    rw [basis_expand (fun w => (meGrad3 a p (zpt F x c - c) w).re) (fun e f => by simp only [meGrad3_add, Complex.add_re])
      (fun t e => by simp only [meGrad3_smul, Complex.re_ofReal_mul])] at h
    refine h.mono hu ?_ le_rfl
    have := sum_me_deg p
    unfold fcost
    omega

end Fl3
end FMM
