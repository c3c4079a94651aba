import Verif.Exp3Lemmas
import Verif.SolidDeriv
import Mathlib.Analysis.SpecialFunctions.Trigonometric.Deriv
import Mathlib.Analysis.Calculus.Deriv.Polynomial
import Mathlib.Analysis.Complex.RealDeriv

/-!
# The table of derivatives and the force of 3D expansions
-/

namespace FMM
open Finset

/-- Derivative of `rY · n m` at `v` in the direction `e`. -/
noncomputable def rD (v e : Vec 3) (n : ℕ) (m : ℤ) : ℂ := (eS m : ℂ) * (cN n m : ℂ) * sD v e n m

theorem rD_add (v e f : Vec 3) (n : ℕ) (m : ℤ) : rD v (e + f) n m = rD v e n m + rD v f n m := by
  unfold rD; rw [sD_add]; ring

theorem rD_smul (v e : Vec 3) (a : ℝ) (n : ℕ) (m : ℤ) : rD v (a • e) n m = (a : ℂ) * rD v e n m := by
  unfold rD; rw [sD_smul]; ring

theorem rD_smul_left (v e : Vec 3) (a : ℝ) (n : ℕ) (m : ℤ) : rD (a • v) e (n + 1) m = (a : ℂ) ^ n * rD v e (n + 1) m := by
  unfold rD; rw [sD_smul_left]; ring

theorem rD_zero (v e : Vec 3) (m : ℤ) : rD v e 0 m = 0 := by unfold rD; rw [sD_zero, mul_zero]

/-- The unit vector of the polar angle. -/
noncomputable def thetaV (theta phi : ℝ) : Vec 3 :=
  ![Real.cos theta * Real.cos phi, Real.cos theta * Real.sin phi, -Real.sin theta]

/-- The unit vector of the azimuthal angle. -/
noncomputable def phiV (phi : ℝ) : Vec 3 := ![-Real.sin phi, Real.cos phi, 0]

theorem dirV_hasDerivAt (theta phi : ℝ) : HasDerivAt (fun t => dirV t phi) (thetaV theta phi) theta := by
  rw [hasDerivAt_pi]
  intro i
  fin_cases i
  · exact (Real.hasDerivAt_sin theta).mul_const _
  · exact (Real.hasDerivAt_sin theta).mul_const _
  · exact Real.hasDerivAt_cos theta

theorem rY_hasDerivAt_theta (theta phi : ℝ) (n : ℕ) (m : ℤ) :
    HasDerivAt (fun t => rY (dirV t phi) n m) (rD (dirV theta phi) (thetaV theta phi) n m) theta := by
  have h := (sR_hasFDerivAt (dirV theta phi) n m).comp_hasDerivAt theta (dirV_hasDerivAt theta phi)
  exact h.const_mul _

theorem rD_phi (theta phi : ℝ) (n : ℕ) (m : ℤ) :
    (Real.sin theta : ℂ) * rD (dirV theta phi) (phiV phi) n m = Complex.I * m * rY (dirV theta phi) n m := by
  have h := sD_rot (dirV theta phi) n m
  have e : (![-(dirV theta phi) 1, (dirV theta phi) 0, 0] : Vec 3) = Real.sin theta • phiV phi := by
    ext i; fin_cases i <;> simp [dirV, phiV]
  rw [e, sD_smul] at h
  unfold rD rY
  linear_combination (eS m : ℂ) * cN n m * h

theorem conj_rD (v e : Vec 3) (n : ℕ) (m : ℤ) : (starRingEnd ℂ) (rD v e n m) = rD v e n (-m) := by
  cases n with
  | zero => rw [rD_zero, rD_zero, map_zero]
  | succ n =>
    unfold rD
    rw [map_mul, map_mul, Complex.conj_ofReal, Complex.conj_ofReal, cN_neg, sD_succ, sD_succ]
    simp only [map_sub, map_add, map_mul, map_div₀, sR_conj, conj_wv, conj_wc, Complex.conj_ofReal, map_ofNat]
    rw [neg_one_zpow_sub_one, neg_one_zpow_add_one, show -(m - 1) = -m + 1 by ring, show -(m + 1) = -m - 1 by ring]
    have h : (eS m : ℂ) * (-1) ^ m = eS (-m) := by
      have h1 := eS_mul_neg m
      have h2 := eS_sq m
      have : eS m * (-1) ^ m = eS (-m) := by rw [← h1, ← mul_assoc, h2, one_mul]
      rw [← this]; push_cast; ring
    rw [← h]
    ring

/-! ## `YlmDerivTable` -/

namespace YlmDerivTable

theorem stepM_ok {lmax l i : ℕ} {R : ℕ → ℕ → ℝ} {g : ℕ → ℤ → ℂ} {exps : Arr ℂ} {E : ℂ} (hes : exps.size = lmax + 1)
    (hev : ∀ k ≤ lmax, exps.val k = E ^ k)
    (hg : ∀ k, k ≠ 0 → k ≤ l → (R l k : ℂ) * E ^ k / (Real.sqrt 2 : ℂ) = g l k)
    (hc : ∀ m, (starRingEnd ℂ) (g l m) = g l (-m)) (hl : l ≤ lmax) (hi : i < l)
    (t : Arr ℂ) (ht : t.size = (lmax + 1) * (lmax + 1)) :
    stepM (fun l m => if m ≤ l ∧ l ≤ lmax then .ok (R l m) else .error .ub) exps l i t
      = .ok ⟨t.size, Function.update (Function.update t.val (cell l ((i : ℤ) + 1)) (g l ((i : ℤ) + 1)))
          (cell l (-((i : ℤ) + 1))) (g l (-((i : ℤ) + 1)))⟩ := by
  have h := hg (i + 1) (by omega) hi
  push_cast at h
  unfold stepM
  simp only
  rw [if_pos ⟨hi, hl⟩, ok_bind, Arr.rd_ok exps (by rw [hes]; omega), ok_bind, hev (i + 1) (by omega)]
  push_cast
  rw [h, wrZ_cell ht hl (by rw [abs_le]; omega), ok_bind]
  have ht2 : (⟨t.size, Function.update t.val (cell l ((i : ℤ) + 1)) (g l ((i : ℤ) + 1))⟩ : Arr ℂ).size
      = (lmax + 1) * (lmax + 1) := ht
  rw [wrZ_cell ht2 hl (by rw [abs_le]; omega), hc]

theorem stepL_ok {lmax l : ℕ} {R : ℕ → ℕ → ℝ} {g : ℕ → ℤ → ℂ} {exps : Arr ℂ} {E : ℂ} (hes : exps.size = lmax + 1)
    (hev : ∀ k ≤ lmax, exps.val k = E ^ k)
    (hg0 : (R l 0 : ℂ) = g l 0) (hg : ∀ k, k ≠ 0 → k ≤ l → (R l k : ℂ) * E ^ k / (Real.sqrt 2 : ℂ) = g l k)
    (hc : ∀ m, (starRingEnd ℂ) (g l m) = g l (-m)) (hl : l ≤ lmax)
    (t : Arr ℂ) (ht : t.size = (lmax + 1) * (lmax + 1)) :
    ∃ t', stepL (fun l m => if m ≤ l ∧ l ≤ lmax then .ok (R l m) else .error .ub) exps l t
      = .ok t' ∧ t'.size = (lmax + 1) * (lmax + 1) ∧ ∀ (l' : ℕ) (m' : ℤ), |m'| ≤ l' →
        t'.val (cell l' m') = if l' = l then g l m' else t.val (cell l' m') := by
  unfold stepL
  simp only
  rw [if_pos ⟨by omega, hl⟩, ok_bind, wrZ_cell ht hl (by simp), ok_bind, hg0]
  obtain ⟨t', h1, h3, h4⟩ := loopM_invariant
    (fun i (s : Arr ℂ) => s.size = (lmax + 1) * (lmax + 1) ∧
      ∀ (l' : ℕ) (m' : ℤ), |m'| ≤ l' →
        s.val (cell l' m') = if l' = l ∧ |m'| ≤ i then g l m' else t.val (cell l' m'))
    (stepM (fun l m => if m ≤ l ∧ l ≤ lmax then .ok (R l m) else .error .ub) exps l)
    (⟨t.size, Function.update t.val (cell l 0) (g l 0)⟩) l
    ⟨ht, fun l' m' hm' => by
      simp only
      by_cases he : cell l' m' = cell l 0
      · obtain ⟨rfl, rfl⟩ := cell_inj hm' (by simp) he
        rw [Function.update_self, if_pos ⟨rfl, by simp⟩]
      · rw [Function.update_of_ne he, if_neg]
        rintro ⟨rfl, h⟩
        have h0' : m' = 0 := abs_eq_zero.mp (le_antisymm (by simpa using h) (abs_nonneg _))
        exact he (by rw [h0'])⟩
    (by
      rintro i hi s ⟨hsz, hv⟩
      refine ⟨_, stepM_ok hes hev hg hc hl hi s hsz, hsz, fun l' m' hm' => ?_⟩
      simp only
      by_cases he1 : cell l' m' = cell l (-((i : ℤ) + 1))
      · obtain ⟨rfl, rfl⟩ := cell_inj hm' (by rw [abs_le]; omega) he1
        rw [Function.update_self, if_pos ⟨rfl, by rw [abs_le]; push_cast; omega⟩]
      · rw [Function.update_of_ne he1]
        by_cases he2 : cell l' m' = cell l ((i : ℤ) + 1)
        · obtain ⟨rfl, rfl⟩ := cell_inj hm' (by rw [abs_le]; omega) he2
          rw [Function.update_self, if_pos ⟨rfl, by rw [abs_le]; push_cast; omega⟩]
        · rw [Function.update_of_ne he2, hv l' m' hm']
          by_cases hb : l' = l ∧ |m'| ≤ (i : ℕ)
          · rw [if_pos hb, if_pos ⟨hb.1, by push_cast; omega⟩]
          · rw [if_neg hb, if_neg]
            rintro ⟨rfl, h⟩
            push_cast at h
            have : |m'| = i + 1 := by
              by_contra hne
              exact hb ⟨rfl, by omega⟩
            rcases abs_cases m' with ⟨h', -⟩ | ⟨h', -⟩
            · exact he2 (by rw [← this, h'])
            · exact he1 (by rw [← this, h', neg_neg]))
  refine ⟨t', h1, h3, fun l' m' hm' => ?_⟩
  rw [h4 l' m' hm']
  by_cases hb : l' = l
  · subst hb; rw [if_pos ⟨rfl, hm'⟩, if_pos rfl]
  · rw [if_neg (fun h => hb h.1), if_neg hb]

theorem fill_ok {lmax : ℕ} {R : ℕ → ℕ → ℝ} {g : ℕ → ℤ → ℂ} {exps : Arr ℂ} {E : ℂ} (hes : exps.size = lmax + 1)
    (hev : ∀ k ≤ lmax, exps.val k = E ^ k)
    (hg0 : ∀ l, (R l 0 : ℂ) = g l 0) (hg : ∀ l k, k ≠ 0 → k ≤ l → (R l k : ℂ) * E ^ k / (Real.sqrt 2 : ℂ) = g l k)
    (hc : ∀ l m, (starRingEnd ℂ) (g l m) = g l (-m)) :
    ∃ t, loopM (lmax + 1) (stepL (fun l m => if m ≤ l ∧ l ≤ lmax then .ok (R l m) else .error .ub) exps)
      (Arr.new ((lmax + 1) * (lmax + 1))) = .ok t ∧ ∀ l ≤ lmax, ∀ m : ℤ, |m| ≤ l → t.rdZ (lmIndex l m) = .ok (g l m) := by
  obtain ⟨t, h1, h2, h3⟩ := loopM_invariant
    (fun i (t : Arr ℂ) => t.size = (lmax + 1) * (lmax + 1) ∧ ∀ l, l < i → ∀ m : ℤ, |m| ≤ l →
      t.val (cell l m) = g l m)
    (stepL (fun l m => if m ≤ l ∧ l ≤ lmax then .ok (R l m) else .error .ub) exps)
    (Arr.new ((lmax + 1) * (lmax + 1))) (lmax + 1) ⟨rfl, fun l hl => by omega⟩
    (by
      rintro i hi t ⟨ht, hv⟩
      obtain ⟨t', h1, h2, h3⟩ := stepL_ok hes hev (hg0 i) (hg i) (hc i) (show i ≤ lmax by omega) t ht
      refine ⟨t', h1, h2, fun l hl m hm => ?_⟩
      rw [h3 l m hm]
      by_cases hb : l = i
      · subst hb; rw [if_pos rfl]
      · rw [if_neg hb]; exact hv l (by omega) m hm)
  exact ⟨t, h1, fun l hl m hm => by rw [rdZ_cell h2 hl hm, h3 l (by omega) m hm]⟩

theorem schmidt_differentiable {theta : ℝ} (hs : 0 < Real.sin theta) (l k : ℕ) :
    HasDerivAt (fun t => schmidt (-1) l k (Real.cos t)) (deriv (fun t => schmidt (-1) l k (Real.cos t)) theta) theta := by
  have hpoly : ∀ q : Polynomial ℝ, DifferentiableAt ℝ (fun t => q.eval (Real.cos t)) theta := fun q =>
    (q.differentiable.differentiableAt).comp theta Real.differentiableAt_cos
  apply DifferentiableAt.hasDerivAt
  unfold schmidt
  by_cases hk : k = 0
  · simp only [hk, if_true]; exact hpoly _
  · simp only [if_neg hk]
    refine DifferentiableAt.const_mul (DifferentiableAt.mul (DifferentiableAt.pow ?_ _) (hpoly _)) _
    refine DifferentiableAt.sqrt (by fun_prop) ?_
    have := Real.sin_sq_add_cos_sq theta
    have h2 : 0 < Real.sin theta ^ 2 := by positivity
    intro h0
    linarith

/-- The derivative with respect to the polar angle. -/
theorem deriv_schmidt {theta phi : ℝ} (hs : 0 < Real.sin theta) {l k : ℕ} (hk : k ≤ l) :
    (if k = 0 then ((deriv (fun t => schmidt (-1) l 0 (Real.cos t)) theta : ℝ) : ℂ)
      else ((deriv (fun t => schmidt (-1) l k (Real.cos t)) theta : ℝ) : ℂ) * Complex.exp (Complex.I * phi) ^ k
        / (Real.sqrt 2 : ℂ)) = rD (dirV theta phi) (thetaV theta phi) l k := by
  have hev : ∀ᶠ t in nhds theta, 0 ≤ Real.sin t :=
    (Real.continuous_sin.continuousAt.eventually (lt_mem_nhds hs)).mono fun t ht => le_of_lt ht
  have h2 := rY_hasDerivAt_theta theta phi l k
  by_cases h0 : k = 0
  · subst h0
    rw [if_pos rfl]
    have h1 := (schmidt_differentiable hs l 0).ofReal_comp
    refine h1.unique (h2.congr_of_eventuallyEq (hev.mono fun t ht => ?_))
    have := schmidt_rY (phi := phi) ht (show 0 ≤ l by omega)
    rw [if_pos rfl] at this
    exact this
  · rw [if_neg h0]
    have h1 := (((schmidt_differentiable hs l k).ofReal_comp).mul_const (Complex.exp (Complex.I * phi) ^ k)).div_const
      (Real.sqrt 2 : ℂ)
    refine h1.unique (h2.congr_of_eventuallyEq (hev.mono fun t ht => ?_))
    have := schmidt_rY (phi := phi) ht hk
    rw [if_neg h0] at this
    exact this

/-- Contents of the tables of spherical harmonics and their derivatives. -/
theorem make_ok (lmax : ℕ) {theta : ℝ} (phi : ℝ) (h0 : 0 < theta) (hpi : theta < Real.pi) :
    ∃ t, make lmax theta phi = .ok t ∧ ∀ l ≤ lmax, ∀ m : ℤ, |m| ≤ l → t.Y l m = .ok (rY (dirV theta phi) l m) ∧
      t.dYdtheta l m = .ok (rD (dirV theta phi) (thetaV theta phi) l m) ∧
      t.dYdphi l m = .ok ((Real.sin theta : ℂ) * rD (dirV theta phi) (phiV phi) l m) := by
  have hs := Real.sin_pos_of_pos_of_lt_pi h0 hpi
  have hc : |Real.cos theta| < 1 := by
    rw [← sq_lt_one_iff_abs_lt_one]
    nlinarith [Real.sin_sq_add_cos_sq theta]
  unfold make gslLegendreDerivAlt
  rw [if_pos hc]
  set E := Complex.exp (Complex.I * phi) with hE
  obtain ⟨⟨exps, b⟩, e1, e2, e3, e4⟩ := loopM_invariant
    (fun i (s : Arr ℂ × ℂ) => s.2 = E ^ i ∧ s.1.size = lmax + 1 ∧ ∀ k < i, s.1.val k = E ^ k)
    (fun l (s : Arr ℂ × ℂ) => do
      let t ← s.1.wr l s.2
      .ok (t, s.2 * E)) (Arr.new (lmax + 1), 1) (lmax + 1) ⟨by simp, rfl, fun k hk => by omega⟩
    (by
      rintro i hi ⟨s, b⟩ ⟨rfl, hsz, hv⟩
      simp only at hsz hv ⊢
      rw [Arr.wr_ok _ (by rw [hsz]; exact hi), ok_bind]
      refine ⟨_, rfl, (pow_succ _ _).symm, hsz, fun k hk => ?_⟩
      simp only
      by_cases hki : k = i
      · subst hki; rw [Function.update_self]
      · rw [Function.update_of_ne hki]; exact hv k (by omega))
  simp only at e3 e4
  simp only
  rw [e1, ok_bind]
  simp only
  rw [ok_bind]
  simp only
  rw [Real.arccos_cos h0.le hpi.le]
  have hev : ∀ k ≤ lmax, exps.val k = E ^ k := fun k hk => e4 k (by omega)
  obtain ⟨t1, a1, a2⟩ := fill_ok (R := fun l m => schmidt (-1) l m (Real.cos theta))
    (g := fun l m => rY (dirV theta phi) l m) e3 hev
    (fun l => by have := schmidt_rY (phi := phi) hs.le (show 0 ≤ l by omega); rw [if_pos rfl] at this; exact this)
    (fun l k hk hkl => by have := schmidt_rY (phi := phi) hs.le hkl; rw [if_neg hk] at this; exact this)
    (fun l m => conj_rY _ _ _)
  obtain ⟨t2, b1, b2⟩ := fill_ok (R := fun l m => deriv (fun t => schmidt (-1) l m (Real.cos t)) theta)
    (g := fun l m => rD (dirV theta phi) (thetaV theta phi) l m) e3 hev
    (fun l => by have := deriv_schmidt (phi := phi) hs (show 0 ≤ l by omega); rw [if_pos rfl] at this; exact this)
    (fun l k hk hkl => by have := deriv_schmidt (phi := phi) hs hkl; rw [if_neg hk] at this; exact this)
    (fun l m => conj_rD _ _ _ _)
  rw [a1, ok_bind, b1, ok_bind]
  refine ⟨_, rfl, fun l hl m hm => ⟨a2 l hl m hm, b2 l hl m hm, ?_⟩⟩
  unfold dYdphi
  rw [a2 l hl m hm, ok_bind, rD_phi]

/-- On the vertical axis GSL reports a domain error. -/
theorem make_abort (lmax : ℕ) {theta : ℝ} (phi : ℝ) (h : theta = 0 ∨ theta = Real.pi) :
    make lmax theta phi = .error .gslAbort := by
  have hc : ¬ |Real.cos theta| < 1 := by rcases h with rfl | rfl <;> simp
  unfold make gslLegendreDerivAlt
  rw [if_neg hc]
  obtain ⟨⟨exps, b⟩, e1, -⟩ := loopM_invariant
    (fun _ (s : Arr ℂ × ℂ) => s.1.size = lmax + 1)
    (fun l (s : Arr ℂ × ℂ) => do
      let t ← s.1.wr l s.2
      .ok (t, s.2 * Complex.exp (Complex.I * phi))) (Arr.new (lmax + 1), 1) (lmax + 1) rfl
    (by
      rintro i hi ⟨s, b⟩ hsz
      simp only at hsz ⊢
      rw [Arr.wr_ok _ (by rw [hsz]; exact hi), ok_bind]
      exact ⟨_, rfl, hsz⟩)
  simp only
  rw [e1, ok_bind]
  rfl

end YlmDerivTable

/-! ## Closed forms of the forces -/

theorem rD_dir (theta phi : ℝ) (n : ℕ) (m : ℤ) :
    rD (dirV theta phi) (dirV theta phi) n m = n * rY (dirV theta phi) n m := by
  unfold rD rY; rw [sD_self]; ring

/-- Derivative of the irregular term. -/
noncomputable def iD (v e : Vec 3) (n : ℕ) (m : ℤ) : ℂ :=
  rD v e n m / (len3 v : ℂ) ^ (2 * n + 1) - (2 * n + 1) * (dot3 v e : ℂ) * rY v n m / (len3 v : ℂ) ^ (2 * n + 3)

theorem iD_add (v e f : Vec 3) (n : ℕ) (m : ℤ) : iD v (e + f) n m = iD v e n m + iD v f n m := by
  unfold iD; rw [rD_add, dot3_add_right]; push_cast; ring

theorem iD_smul (v e : Vec 3) (a : ℝ) (n : ℕ) (m : ℤ) : iD v (a • e) n m = (a : ℂ) * iD v e n m := by
  unfold iD; rw [rD_smul, dot3_smul_right]; push_cast; ring

/-- Directional derivative of a local expansion. -/
noncomputable def leGrad3 (a : ℕ → ℤ → ℂ) (p : ℕ) (v e : Vec 3) : ℂ :=
  ∑ n ∈ range (p + 1), ∑ m ∈ Icc (-(n : ℤ)) n, a n m * rD v e n m

/-- Directional derivative of a multipole expansion. -/
noncomputable def meGrad3 (a : ℕ → ℤ → ℂ) (p : ℕ) (v e : Vec 3) : ℂ :=
  ∑ n ∈ range (p + 1), ∑ m ∈ Icc (-(n : ℤ)) n, a n m * iD v e n m

theorem leGrad3_add (a : ℕ → ℤ → ℂ) (p : ℕ) (v e f : Vec 3) :
    leGrad3 a p v (e + f) = leGrad3 a p v e + leGrad3 a p v f := by
  unfold leGrad3; simp only [rD_add, mul_add, sum_add_distrib]

theorem leGrad3_smul (a : ℕ → ℤ → ℂ) (p : ℕ) (v e : Vec 3) (t : ℝ) :
    leGrad3 a p v (t • e) = (t : ℂ) * leGrad3 a p v e := by
  unfold leGrad3; simp only [rD_smul, mul_sum]
  exact sum_congr rfl fun n _ => sum_congr rfl fun m _ => by ring

theorem meGrad3_add (a : ℕ → ℤ → ℂ) (p : ℕ) (v e f : Vec 3) :
    meGrad3 a p v (e + f) = meGrad3 a p v e + meGrad3 a p v f := by
  unfold meGrad3; simp only [iD_add, mul_add, sum_add_distrib]

theorem meGrad3_smul (a : ℕ → ℤ → ℂ) (p : ℕ) (v e : Vec 3) (t : ℝ) :
    meGrad3 a p v (t • e) = (t : ℂ) * meGrad3 a p v e := by
  unfold meGrad3; simp only [iD_smul, mul_sum]
  exact sum_congr rfl fun n _ => sum_congr rfl fun m _ => by ring

/-- The unit vectors of the coordinate axes. -/
def unitV (i : Fin 3) : Vec 3 := Pi.single i 1

/-- From the spherical to the Cartesian components of a linear form. -/
theorem basis_expand (L : Vec 3 → ℝ) (ha : ∀ e f, L (e + f) = L e + L f) (hs : ∀ (t : ℝ) e, L (t • e) = t * L e)
    (theta phi : ℝ) :
    Vec.toCartesianBasis ![L (dirV theta phi), L (thetaV theta phi), L (phiV phi)] theta phi = fun i => L (unitV i) := by
  have h1 := Real.sin_sq_add_cos_sq theta
  have h2 := Real.sin_sq_add_cos_sq phi
  have hx : unitV 0 = (Real.sin theta * Real.cos phi) • dirV theta phi + ((Real.cos theta * Real.cos phi) • thetaV theta phi
      + (-Real.sin phi) • phiV phi) := by
    ext i; fin_cases i <;> simp [unitV, dirV, thetaV, phiV]
    · linear_combination -(Real.cos phi ^ 2) * h1 - h2
    · linear_combination (-(Real.cos phi * Real.sin phi)) * h1
    · ring
  have hy : unitV 1 = (Real.sin theta * Real.sin phi) • dirV theta phi + ((Real.cos theta * Real.sin phi) • thetaV theta phi
      + (Real.cos phi) • phiV phi) := by
    ext i; fin_cases i <;> simp [unitV, dirV, thetaV, phiV]
    · linear_combination (-(Real.cos phi * Real.sin phi)) * h1
    · linear_combination -(Real.sin phi ^ 2) * h1 - h2
    · ring
  have hz : unitV 2 = (Real.cos theta) • dirV theta phi + (-Real.sin theta) • thetaV theta phi := by
    ext i; fin_cases i <;> simp [unitV, dirV, thetaV]
    · ring
    · ring
    · linear_combination - h1
  funext i
  fin_cases i
  · show _ = L (unitV 0)
    rw [hx, ha, ha, hs, hs, hs]; simp [Vec.toCartesianBasis]; ring
  · show _ = L (unitV 1)
    rw [hy, ha, ha, hs, hs, hs]; simp [Vec.toCartesianBasis]; ring
  · show _ = L (unitV 2)
    rw [hz, ha, hs, hs]; simp [Vec.toCartesianBasis]; ring

/-- The displacement is on the vertical axis through the centre. -/
def OnAxis (v : Vec 3) : Prop := v 0 = 0 ∧ v 1 = 0

theorem theta_offAxis {v : Vec 3} (h : ¬ OnAxis v) : 0 < v.toSpherical3 1 ∧ v.toSpherical3 1 < Real.pi := by
  obtain ⟨-, -, h1, h2, -⟩ := C47_ranges 0 v
  have hs : Real.sin (v.toSpherical3 1) ≠ 0 := by
    intro h0
    refine h ⟨?_, ?_⟩ <;> · rw [sph_smul v]; simp [dirV, h0]
  exact ⟨lt_of_le_of_ne h1 fun h0 => hs (by rw [← h0, Real.sin_zero]),
    lt_of_le_of_ne h2 fun h0 => hs (by rw [h0, Real.sin_pi])⟩

theorem theta_onAxis {v : Vec 3} (h : OnAxis v) : v.toSpherical3 1 = 0 ∨ v.toSpherical3 1 = Real.pi := by
  have : v.toSpherical3 1 = Complex.arg ((v 2 : ℝ) : ℂ) := by
    simp only [Vec.toSpherical3, Vec.atan2, Vec.hypot, h.1, h.2]
    simp [Complex.ofReal_def]
  rw [this]
  rcases le_or_gt 0 (v 2) with h0 | h0
  · exact Or.inl (Complex.arg_ofReal_of_nonneg h0)
  · exact Or.inr (Complex.arg_ofReal_of_neg h0)

theorem OnAxis.not_zero {v : Vec 3} (h : ¬ OnAxis v) : v ≠ 0 := fun h0 => h ⟨by simp [h0], by simp [h0]⟩

namespace Exp3

theorem forceTerm_ok {Y : YlmDerivTable} {theta phi : ℝ} (hs : Real.sin theta ≠ 0) {n : ℕ} {m : ℤ}
    (h1 : Y.Y n m = .ok (rY (dirV theta phi) n m)) (h2 : Y.dYdtheta n m = .ok (rD (dirV theta phi) (thetaV theta phi) n m))
    (h3 : Y.dYdphi n m = .ok ((Real.sin theta : ℂ) * rD (dirV theta phi) (phiV phi) n m)) (rpow fr : ℝ) (a : ℂ) (f : Vec 3) :
    forceTerm Y theta rpow fr a n m f = .ok (f + ![rpow * fr * (a * rY (dirV theta phi) n m).re,
      rpow * (a * rD (dirV theta phi) (thetaV theta phi) n m).re, rpow * (a * rD (dirV theta phi) (phiV phi) n m).re]) := by
  unfold forceTerm
  rw [h1, ok_bind, h2, ok_bind, h3, ok_bind, divR, if_neg hs, ok_bind]
  congr 1
  have : rpow * (a * ((Real.sin theta : ℂ) * rD (dirV theta phi) (phiV phi) n m)).re / Real.sin theta
      = rpow * (a * rD (dirV theta phi) (phiV phi) n m).re := by
    rw [show a * ((Real.sin theta : ℂ) * rD (dirV theta phi) (phiV phi) n m)
      = (Real.sin theta : ℂ) * (a * rD (dirV theta phi) (phiV phi) n m) by ring, Complex.re_ofReal_mul]
    field_simp
  rw [this]
  ext i; fin_cases i <;> rfl

theorem leForce_ok {e : Exp3} {c : Vec 3} {p : ℕ} {a : ℕ → ℤ → ℂ} (he : e.Is c p a) (x : Vec 3) (hx : ¬ OnAxis (x - c)) :
    leForce e x = .ok (fun i => (leGrad3 a p (x - c) (unitV i)).re) := by
  unfold leForce
  simp only [Vec.sub_eq, he.center, he.order]
  set v := x - c with hv
  obtain ⟨ht0, htp⟩ := theta_offAxis hx
  have hs : Real.sin (v.toSpherical3 1) ≠ 0 := (Real.sin_pos_of_pos_of_lt_pi ht0 htp).ne'
  obtain ⟨Y, hY, hYv⟩ := YlmDerivTable.make_ok p (v.toSpherical3 2) ht0 htp
  rw [hY, ok_bind]
  simp only [sph_r]
  set θ := v.toSpherical3 1
  set φ := v.toSpherical3 2
  set u := dirV θ φ with hu
  have hvu : v = len3 v • u := by rw [← sph_r]; exact sph_smul v
  have hrD : ∀ (w : Vec 3) (n : ℕ) (m : ℤ), rD v w (n + 1) m = (len3 v : ℂ) ^ n * rD u w (n + 1) m := fun w n m => by
    conv_lhs => rw [hvu]
    exact rD_smul_left u w _ n m
  let G : ℕ → Vec 3 → ℂ := fun i w => ∑ n ∈ range i, ∑ m ∈ Icc (-((n + 1 : ℕ) : ℤ)) (n + 1 : ℕ), a (n + 1) m * rD v w (n + 1) m
  obtain ⟨⟨z, r⟩, h1, h2, h3⟩ := loopM_invariant
    (fun i (s : Vec 3 × ℝ) => s.1 = ![(G i u).re, (G i (thetaV θ φ)).re, (G i (phiV φ)).re] ∧ s.2 = len3 v ^ i)
    (fun i (s : Vec 3 × ℝ) => do
      let f ← loopZ (-((i + 1 : ℕ) : ℤ)) (i + 1 : ℕ) (fun m f => do
        let a ← e.get (i + 1) m
        forceTerm Y θ s.2 (i + 1 : ℕ) a (i + 1) m f) s.1
      .ok (f, s.2 * len3 v)) (0, 1) p ⟨by ext i; fin_cases i <;> simp [G], by simp⟩
    (by
      rintro n hn ⟨z, r⟩ ⟨rfl, rfl⟩
      simp only
      rw [loopZ_acc _ _ _ (fun m => ![(a (n + 1) m * rD v u (n + 1) m).re, (a (n + 1) m * rD v (thetaV θ φ) (n + 1) m).re,
        (a (n + 1) m * rD v (phiV φ) (n + 1) m).re])]
      · refine ⟨_, rfl, ?_, (pow_succ _ _).symm⟩
        ext i; fin_cases i <;> simp [G, sum_range_succ]
      · intro m hm1 hm2 b
        obtain ⟨y1, y2, y3⟩ := hYv (n + 1) (by omega) m (by rw [abs_le]; omega)
        rw [he.get (by omega) (by rw [abs_le]; omega), ok_bind, forceTerm_ok hs y1 y2 y3]
        have hre : ∀ z : ℂ, (a (n + 1) m * ((len3 v : ℂ) ^ n * z)).re = len3 v ^ n * (a (n + 1) m * z).re := fun z => by
          rw [show a (n + 1) m * ((len3 v : ℂ) ^ n * z) = ((len3 v ^ n : ℝ) : ℂ) * (a (n + 1) m * z) by push_cast; ring,
            Complex.re_ofReal_mul]
        rw [hrD, hrD, hrD, hre, hre, hre, hu, rD_dir, ← hu]
        have : (a (n + 1) m * ((n + 1 : ℕ) * rY u (n + 1) m)).re = (n + 1 : ℕ) * (a (n + 1) m * rY u (n + 1) m).re := by
          rw [show a (n + 1) m * ((n + 1 : ℕ) * rY u (n + 1) m) = (((n + 1 : ℕ) : ℝ) : ℂ) * (a (n + 1) m * rY u (n + 1) m) by
            push_cast; ring, Complex.re_ofReal_mul]
        rw [this, mul_assoc])
  rw [h1, ok_bind]
  simp only at h2
  rw [h2]
  have hG : ∀ w, G p w = leGrad3 a p v w := fun w => by
    unfold leGrad3
    rw [sum_range_succ']
    simp [G, rD_zero]
  simp only [hG]
  rw [basis_expand (fun w => (leGrad3 a p v w).re) (fun e f => by simp only [leGrad3_add, Complex.add_re])
    (fun t e => by simp only [leGrad3_smul, Complex.re_ofReal_mul])]

theorem iD_dir {v : Vec 3} {theta phi : ℝ} (h : v = len3 v • dirV theta phi) (hv : v ≠ 0) (n : ℕ) (m : ℤ) :
    iD v (dirV theta phi) n m = -((n : ℂ) + 1) * ((1 / (len3 v * len3 v) / len3 v ^ n : ℝ) : ℂ) * rY (dirV theta phi) n m := by
  have h0 : (len3 v : ℂ) ≠ 0 := by exact_mod_cast (len3_pos hv).ne'
  have hd : dot3 v (dirV theta phi) = len3 v := by
    have h1 : dot3 v v = len3 v * dot3 v (dirV theta phi) := by
      conv_lhs => arg 2; rw [h]
      rw [dot3_smul_right]
    have h2 := len3_sq v
    have h3 := (len3_pos hv).ne'
    apply mul_left_cancel₀ h3
    rw [← h1, ← h2]; ring
  have hY : rY v n m = (len3 v : ℂ) ^ n * rY (dirV theta phi) n m := by
    conv_lhs => rw [h]
    unfold rY; rw [sR_smul]; ring
  have hD : rD v (dirV theta phi) n m * (len3 v : ℂ) = (len3 v : ℂ) ^ n * (n * rY (dirV theta phi) n m) := by
    cases n with
    | zero => rw [rD_zero]; simp
    | succ n =>
      have : rD v (dirV theta phi) (n + 1) m = (len3 v : ℂ) ^ n * rD (dirV theta phi) (dirV theta phi) (n + 1) m := by
        conv_lhs => arg 1; rw [h]
        exact rD_smul_left _ _ _ _ _
      rw [this, rD_dir]; ring
  have hD' : rD v (dirV theta phi) n m = (len3 v : ℂ) ^ n * (n * rY (dirV theta phi) n m) / (len3 v : ℂ) := by
    rw [eq_div_iff h0, hD]
  unfold iD
  rw [hd, hD', hY]
  push_cast
  field_simp
  ring

theorem iD_perp {v e : Vec 3} {theta phi : ℝ} (h : v = len3 v • dirV theta phi) (hv : v ≠ 0) (he : dot3 v e = 0) (n : ℕ)
    (m : ℤ) : iD v e n m = ((1 / (len3 v * len3 v) / len3 v ^ n : ℝ) : ℂ) * rD (dirV theta phi) e n m := by
  have h0 : (len3 v : ℂ) ≠ 0 := by exact_mod_cast (len3_pos hv).ne'
  unfold iD
  rw [he]
  cases n with
  | zero => rw [rD_zero, rD_zero]; simp
  | succ n =>
    have : rD v e (n + 1) m = (len3 v : ℂ) ^ n * rD (dirV theta phi) e (n + 1) m := by
      conv_lhs => arg 1; rw [h]
      exact rD_smul_left _ _ _ _ _
    rw [this]
    push_cast
    field_simp
    ring

theorem meForce_ok {e : Exp3} {c : Vec 3} {p : ℕ} {a : ℕ → ℤ → ℂ} (he : e.Is c p a) (x : Vec 3) (hx : ¬ OnAxis (x - c)) :
    meForce e x = .ok (fun i => (meGrad3 a p (x - c) (unitV i)).re) := by
  unfold meForce
  simp only [Vec.sub_eq, he.center, he.order]
  set v := x - c with hv
  have hv0 := OnAxis.not_zero hx
  obtain ⟨ht0, htp⟩ := theta_offAxis hx
  have hs : Real.sin (v.toSpherical3 1) ≠ 0 := (Real.sin_pos_of_pos_of_lt_pi ht0 htp).ne'
  have hr0 : len3 v ≠ 0 := (len3_pos hv0).ne'
  obtain ⟨Y, hY, hYv⟩ := YlmDerivTable.make_ok p (v.toSpherical3 2) ht0 htp
  rw [hY, ok_bind]
  simp only [sph_r]
  rw [divR, if_neg (mul_ne_zero hr0 hr0), ok_bind]
  set θ := v.toSpherical3 1
  set φ := v.toSpherical3 2
  have hvu : v = len3 v • dirV θ φ := by rw [← sph_r]; exact sph_smul v
  have hp1 : dot3 v (thetaV θ φ) = 0 := by
    rw [hvu]; simp [dot3, thetaV, dirV]; linear_combination len3 v * Real.sin θ * Real.cos θ * Real.sin_sq_add_cos_sq φ
  have hp2 : dot3 v (phiV φ) = 0 := by
    rw [hvu]; simp [dot3, phiV, dirV]; ring
  let G : ℕ → Vec 3 → ℂ := fun i w => ∑ n ∈ range i, ∑ m ∈ Icc (-(n : ℤ)) n, a n m * iD v w n m
  obtain ⟨⟨z, r⟩, h1, h2, h3⟩ := loopM_invariant
    (fun i (s : Vec 3 × ℝ) => s.1 = ![(G i (dirV θ φ)).re, (G i (thetaV θ φ)).re, (G i (phiV φ)).re]
      ∧ s.2 = 1 / (len3 v * len3 v) / len3 v ^ i)
    (fun n (s : Vec 3 × ℝ) => do
      let f ← loopZ (-(n : ℤ)) n (fun m f => do
        let a ← e.get n m
        forceTerm Y θ s.2 (-((n : ℝ) + 1)) a n m f) s.1
      let rp ← divR s.2 (len3 v)
      .ok (f, rp)) (0, 1 / (len3 v * len3 v)) (p + 1) ⟨by ext i; fin_cases i <;> simp [G], by simp⟩
    (by
      rintro n hn ⟨z, r⟩ ⟨rfl, rfl⟩
      simp only
      rw [loopZ_acc _ _ _ (fun m => ![(a n m * iD v (dirV θ φ) n m).re, (a n m * iD v (thetaV θ φ) n m).re,
        (a n m * iD v (phiV φ) n m).re])]
      · rw [ok_bind, divR, if_neg hr0, ok_bind]
        refine ⟨_, rfl, ?_, ?_⟩
        · ext i; fin_cases i <;> simp [G, sum_range_succ]
        · simp only; rw [pow_succ, div_div (1 / (len3 v * len3 v))]
      · intro m hm1 hm2 b
        obtain ⟨y1, y2, y3⟩ := hYv n (by omega) m (by rw [abs_le]; omega)
        rw [he.get (by omega) (by rw [abs_le]; omega), ok_bind, forceTerm_ok hs y1 y2 y3, iD_dir hvu hv0,
          iD_perp hvu hv0 hp1, iD_perp hvu hv0 hp2]
        have hre : ∀ (t : ℝ) (z : ℂ), (a n m * ((t : ℂ) * z)).re = t * (a n m * z).re := fun t z => by
          rw [show a n m * ((t : ℂ) * z) = (t : ℂ) * (a n m * z) by ring, Complex.re_ofReal_mul]
        have hc : -((n : ℂ) + 1) * ((1 / (len3 v * len3 v) / len3 v ^ n : ℝ) : ℂ)
          = ((1 / (len3 v * len3 v) / len3 v ^ n * (-((n : ℝ) + 1)) : ℝ) : ℂ) := by push_cast; ring
        rw [hc, hre, hre, hre])
  rw [h1, ok_bind]
  simp only at h2
  rw [h2]
  have hG : ∀ w, G (p + 1) w = meGrad3 a p v w := fun w => rfl
  simp only [hG]
  rw [basis_expand (fun w => (meGrad3 a p v w).re) (fun e f => by simp only [meGrad3_add, Complex.add_re])
    (fun t e => by simp only [meGrad3_smul, Complex.re_ofReal_mul])]

/-- On the vertical axis both force evaluations abort. -/
theorem leForce_abort (e : Exp3) (x : Vec 3) (h : OnAxis (x - e.center)) : leForce e x = .error .gslAbort := by
  unfold leForce
  simp only [Vec.sub_eq]
  rw [YlmDerivTable.make_abort _ _ (theta_onAxis h)]; rfl

theorem meForce_abort (e : Exp3) (x : Vec 3) (h : OnAxis (x - e.center)) : meForce e x = .error .gslAbort := by
  unfold meForce
  simp only [Vec.sub_eq]
  rw [YlmDerivTable.make_abort _ _ (theta_onAxis h)]; rfl

end Exp3

/-! ## The closed forms are gradients -/

/-- `e ↦ rD v e n m`. -/
noncomputable def rDL (v : Vec 3) (n : ℕ) (m : ℤ) : Vec 3 →L[ℝ] ℂ := ((eS m : ℂ) * (cN n m : ℂ)) • sDL v n m

theorem rDL_apply (v e : Vec 3) (n : ℕ) (m : ℤ) : rDL v n m e = rD v e n m := rfl

theorem rY_hasFDerivAt (v : Vec 3) (n : ℕ) (m : ℤ) : HasFDerivAt (fun v => rY v n m) (rDL v n m) v :=
  (sR_hasFDerivAt v n m).const_smul ((eS m : ℂ) * (cN n m : ℂ))

/-- `e ↦ dot3 v e`. -/
noncomputable def dotL (v : Vec 3) : Vec 3 →L[ℝ] ℝ :=
  LinearMap.toContinuousLinearMap
    { toFun := fun e => dot3 v e
      map_add' := fun e f => dot3_add_right v e f
      map_smul' := fun a e => dot3_smul_right a v e }

theorem dotL_apply (v e : Vec 3) : dotL v e = dot3 v e := rfl

theorem len3_hasFDerivAt {v : Vec 3} (hv : v ≠ 0) : HasFDerivAt len3 ((1 / len3 v) • dotL v) v := by
  have h0 : dot3 v v ≠ 0 := fun h => hv (dot3_self_eq_zero h)
  have hc : ∀ i, HasFDerivAt (fun v : Vec 3 => v i) (ContinuousLinearMap.proj i : Vec 3 →L[ℝ] ℝ) v := fun i =>
    (ContinuousLinearMap.proj i : Vec 3 →L[ℝ] ℝ).hasFDerivAt
  have h1 := ((((hc 0).mul (hc 0)).add ((hc 1).mul (hc 1))).add ((hc 2).mul (hc 2))).sqrt h0
  refine h1.congr_fderiv ?_
  ext e
  have : Real.sqrt (dot3 v v) ≠ 0 := (len3_pos hv).ne'
  simp [dotL_apply, len3, dot3]
  simp only [dot3] at this
  field_simp
  ring

/-- `e ↦ iD v e n m`. -/
noncomputable def iDL (v : Vec 3) (n : ℕ) (m : ℤ) : Vec 3 →L[ℝ] ℂ :=
  LinearMap.toContinuousLinearMap
    { toFun := fun e => iD v e n m
      map_add' := fun e f => iD_add v e f n m
      map_smul' := fun a e => by simp [iD_smul] }

theorem iDL_apply (v e : Vec 3) (n : ℕ) (m : ℤ) : iDL v n m e = iD v e n m := rfl

theorem irr_hasFDerivAt {v : Vec 3} (hv : v ≠ 0) (n : ℕ) (m : ℤ) :
    HasFDerivAt (fun v => rY v n m / (len3 v : ℂ) ^ (2 * n + 1)) (iDL v n m) v := by
  have h0 : len3 v ≠ 0 := (len3_pos hv).ne'
  have h0' : (len3 v : ℂ) ≠ 0 := by exact_mod_cast h0
  have hg : HasDerivAt (fun t : ℝ => (t ^ (2 * n + 1))⁻¹) (-(((2 * n + 1 : ℕ) : ℝ) * len3 v ^ (2 * n)) / (len3 v ^ (2 * n + 1)) ^ 2)
      (len3 v) := by
    have := (hasDerivAt_pow (2 * n + 1) (len3 v)).fun_inv (pow_ne_zero _ h0)
    simpa using this
  have h1 := hg.comp_hasFDerivAt v (len3_hasFDerivAt hv)
  have h2 := Complex.ofRealCLM.hasFDerivAt.comp v h1
  have h3 := (rY_hasFDerivAt v n m).mul h2
  have e : (fun v => rY v n m / (len3 v : ℂ) ^ (2 * n + 1))
      = (fun v => rY v n m) * (⇑Complex.ofRealCLM ∘ (fun t : ℝ => (t ^ (2 * n + 1))⁻¹) ∘ len3) := by
    funext v
    simp [div_eq_mul_inv]
  rw [e]
  refine h3.congr_fderiv ?_
  ext w
  simp [iDL_apply, rDL_apply, dotL_apply, iD]
  field_simp
  ring

theorem leSum3_hasFDerivAt (a : ℕ → ℤ → ℂ) (p : ℕ) (c x : Vec 3) :
    HasFDerivAt (fun y => -(leSum3 a p (y - c)).re)
      (∑ j, (-(leGrad3 a p (x - c) (unitV j)).re) • (ContinuousLinearMap.proj j : Vec 3 →L[ℝ] ℝ)) x := by
  have h1 : HasFDerivAt (fun v => leSum3 a p v) (∑ n ∈ range (p + 1), ∑ m ∈ Icc (-(n : ℤ)) n, a n m • rDL (x - c) n m) (x - c) := by
    unfold leSum3
    refine HasFDerivAt.fun_sum fun n _ => HasFDerivAt.fun_sum fun m _ => ?_
    exact (rY_hasFDerivAt (x - c) n m).const_smul (a n m)
  have h2 := (Complex.reCLM.hasFDerivAt.comp x (h1.comp x ((hasFDerivAt_id x).sub_const c))).neg
  refine h2.congr_fderiv ?_
  ext w
  have hw : w = ∑ j, w j • unitV j := by
    ext i; fin_cases i <;> simp [Fin.sum_univ_three, unitV]
  have hl : (∑ n ∈ range (p + 1), ∑ m ∈ Icc (-(n : ℤ)) n, a n m • rDL (x - c) n m) w = leGrad3 a p (x - c) w := by
    simp [leGrad3, rDL_apply]
  simp only [neg_apply, ContinuousLinearMap.comp_apply, ContinuousLinearMap.id_apply, _root_.sum_apply, smul_apply,
    ContinuousLinearMap.proj_apply] at hl ⊢
  rw [hl]
  conv_lhs => rw [hw]
  simp only [Fin.sum_univ_three, leGrad3_add, leGrad3_smul]
  simp
  ring

theorem meSum3_hasFDerivAt (a : ℕ → ℤ → ℂ) (p : ℕ) (c x : Vec 3) (hx : x ≠ c) :
    HasFDerivAt (fun y => -(meSum3 a p (y - c)).re)
      (∑ j, (-(meGrad3 a p (x - c) (unitV j)).re) • (ContinuousLinearMap.proj j : Vec 3 →L[ℝ] ℝ)) x := by
  have h1 : HasFDerivAt (fun v => meSum3 a p v) (∑ n ∈ range (p + 1), ∑ m ∈ Icc (-(n : ℤ)) n, a n m • iDL (x - c) n m) (x - c) := by
    unfold meSum3
    refine HasFDerivAt.fun_sum fun n _ => HasFDerivAt.fun_sum fun m _ => ?_
    exact (irr_hasFDerivAt (sub_ne_zero.mpr hx) n m).const_smul (a n m)
  have h2 := (Complex.reCLM.hasFDerivAt.comp x (h1.comp x ((hasFDerivAt_id x).sub_const c))).neg
  refine h2.congr_fderiv ?_
  ext w
  have hw : w = ∑ j, w j • unitV j := by
    ext i; fin_cases i <;> simp [Fin.sum_univ_three, unitV]
  have hl : (∑ n ∈ range (p + 1), ∑ m ∈ Icc (-(n : ℤ)) n, a n m • iDL (x - c) n m) w = meGrad3 a p (x - c) w := by
    simp [meGrad3, iDL_apply]
  simp only [neg_apply, ContinuousLinearMap.comp_apply, ContinuousLinearMap.id_apply, _root_.sum_apply, smul_apply,
    ContinuousLinearMap.proj_apply] at hl ⊢
  rw [hl]
  conv_lhs => rw [hw]
  simp only [Fin.sum_univ_three, meGrad3_add, meGrad3_smul]
  simp
  ring

end FMM
