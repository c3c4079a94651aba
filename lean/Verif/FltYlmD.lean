import Verif.FltFrame3

/-!
# Rounding errors of the tables of derivatives of spherical harmonics
-/

namespace FMM
open Finset

namespace Fl3
variable {F : Flt3} {u g : ℝ}

/-! ## Contents of the tables -/

/-- Entry `(l, m)`, `m ≥ 0`, of a table computed from the Legendre values `L`. -/
noncomputable def dp (F : Flt3) (L : ℕ → ℕ → ℝ) (phi : ℝ) (l m : ℕ) : ℂ :=
  if m = 0 then (L l 0 : ℂ) else F.cdr (F.rsc (L l m) (Fl.pw F.toFlt (F.cis phi) 1 m)) F.sqrt2

/-- Entry `(l, m)` of a table computed from the Legendre values `L`. -/
noncomputable def dv (F : Flt3) (L : ℕ → ℕ → ℝ) (phi : ℝ) (l : ℕ) (m : ℤ) : ℂ :=
  if 0 ≤ m then dp F L phi l m.toNat else (starRingEnd ℂ) (dp F L phi l (-m).toNat)

theorem dv_nat (F : Flt3) (L : ℕ → ℕ → ℝ) (phi : ℝ) (l m : ℕ) : dv F L phi l m = dp F L phi l m := by
  unfold dv; rw [if_pos (by omega), Int.toNat_natCast]

theorem dv_neg (F : Flt3) (L : ℕ → ℕ → ℝ) (phi : ℝ) (l m : ℕ) :
    dv F L phi l (-((m : ℤ) + 1)) = (starRingEnd ℂ) (dp F L phi l (m + 1)) := by
  unfold dv
  rw [if_neg (by omega), show (- -((m : ℤ) + 1)).toNat = m + 1 by omega]

theorem stepMD_ok (F : Flt3) {lmax l i : ℕ} (L : ℕ → ℕ → ℝ) (phi : ℝ) {exps : Arr ℂ} (hes : exps.size = lmax + 1)
    (hev : ∀ k ≤ lmax, exps.val k = Fl.pw F.toFlt (F.cis phi) 1 k) (hl : l ≤ lmax) (hi : i < l)
    (t : Arr ℂ) (ht : t.size = (lmax + 1) * (lmax + 1)) :
    stepMD F (fun l m => if m ≤ l ∧ l ≤ lmax then .ok (L l m) else .error .ub) exps l i t
      = .ok ⟨t.size, Function.update (Function.update t.val (cell l ((i : ℤ) + 1)) (dv F L phi l ((i : ℤ) + 1)))
          (cell l (-((i : ℤ) + 1))) (dv F L phi l (-((i : ℤ) + 1)))⟩ := by
  have e1 : dv F L phi l ((i : ℤ) + 1) = F.cdr (F.rsc (L l (i + 1)) (Fl.pw F.toFlt (F.cis phi) 1 (i + 1))) F.sqrt2 := by
    have := dv_nat F L phi l (i + 1)
    push_cast at this
    rw [this]
    unfold dp
    rw [if_neg (by omega)]
  have e2 : dv F L phi l (-((i : ℤ) + 1)) = (starRingEnd ℂ) (dv F L phi l ((i : ℤ) + 1)) := by
    rw [dv_neg]
    have := dv_nat F L phi l (i + 1)
    push_cast at this
    rw [this]
  unfold stepMD
  simp only
  rw [if_pos ⟨hi, hl⟩, ok_bind, Arr.rd_ok exps (by rw [hes]; omega), ok_bind, hev (i + 1) (by omega)]
  push_cast
  rw [← e1, wrZ_cell ht hl (by rw [abs_le]; omega), ok_bind]
  have ht2 : (⟨t.size, Function.update t.val (cell l ((i : ℤ) + 1)) (dv F L phi l ((i : ℤ) + 1))⟩ : Arr ℂ).size
      = (lmax + 1) * (lmax + 1) := ht
  rw [wrZ_cell ht2 hl (by rw [abs_le]; omega), ← e2]

theorem stepLD_ok (F : Flt3) {lmax l : ℕ} (L : ℕ → ℕ → ℝ) (phi : ℝ) {exps : Arr ℂ} (hes : exps.size = lmax + 1)
    (hev : ∀ k ≤ lmax, exps.val k = Fl.pw F.toFlt (F.cis phi) 1 k) (hl : l ≤ lmax) (t : Arr ℂ)
    (ht : t.size = (lmax + 1) * (lmax + 1)) :
    ∃ t', stepLD F (fun l m => if m ≤ l ∧ l ≤ lmax then .ok (L l m) else .error .ub) exps l t
      = .ok t' ∧ t'.size = (lmax + 1) * (lmax + 1) ∧ ∀ (l' : ℕ) (m' : ℤ), |m'| ≤ l' →
        t'.val (cell l' m') = if l' = l then dv F L phi l m' else t.val (cell l' m') := by
  have h0 : ((L l 0 : ℝ) : ℂ) = dv F L phi l ((0 : ℕ) : ℤ) := by
    rw [dv_nat]; unfold dp; rw [if_pos rfl]
  unfold stepLD
  simp only
  rw [if_pos ⟨by omega, hl⟩, ok_bind, wrZ_cell ht hl (by simp), ok_bind, h0]
  obtain ⟨t', h1, h3, h4⟩ := loopM_invariant
    (fun i (s : Arr ℂ) => s.size = (lmax + 1) * (lmax + 1) ∧
      ∀ (l' : ℕ) (m' : ℤ), |m'| ≤ l' →
        s.val (cell l' m') = if l' = l ∧ |m'| ≤ i then dv F L phi l m' else t.val (cell l' m'))
    (stepMD F (fun l m => if m ≤ l ∧ l ≤ lmax then .ok (L l m) else .error .ub) exps l)
    (⟨t.size, Function.update t.val (cell l 0) (dv F L phi l ((0 : ℕ) : ℤ))⟩) l
    ⟨ht, fun l' m' hm' => by
      simp only
      by_cases he : cell l' m' = cell l 0
      · obtain ⟨rfl, rfl⟩ := cell_inj hm' (by simp) he
        rw [Function.update_self, if_pos ⟨rfl, by simp⟩]; rfl
      · rw [Function.update_of_ne he, if_neg]
        rintro ⟨rfl, h⟩
        have h0' : m' = 0 := abs_eq_zero.mp (le_antisymm (by simpa using h) (abs_nonneg _))
        exact he (by rw [h0'])⟩
    (by
      rintro i hi s ⟨hsz, hv⟩
      refine ⟨_, stepMD_ok F L phi hes hev hl hi s hsz, hsz, fun l' m' hm' => ?_⟩
      simp only
      by_cases he1 : cell l' m' = cell l (-((i : ℤ) + 1))
      · obtain ⟨rfl, rfl⟩ := cell_inj hm' (by rw [abs_le]; omega) he1
        rw [Function.update_self, if_pos ⟨rfl, by rw [abs_le]; push_cast; omega⟩]
      · rw [Function.update_of_ne he1]
        by_cases he2 : cell l' m' = cell l ((i : ℤ) + 1)
        · obtain ⟨rfl, rfl⟩ := cell_inj hm' (by rw [abs_le]; omega) he2
          rw [Function.update_self, if_pos ⟨rfl, by rw [abs_le]; push_cast; omega⟩]
        · rw [Function.update_of_ne he2, hv l' m' hm']
          by_cases hb : l' = l ∧ |m'| ≤ (i : ℕ)
          · rw [if_pos hb, if_pos ⟨hb.1, by push_cast; omega⟩]
          · rw [if_neg hb, if_neg]
            rintro ⟨rfl, h⟩
            push_cast at h
            have : |m'| = i + 1 := by
              by_contra hne
              exact hb ⟨rfl, by omega⟩
            rcases abs_cases m' with ⟨h', -⟩ | ⟨h', -⟩
            · exact he2 (by rw [← this, h'])
            · exact he1 (by rw [← this, h', neg_neg]))
  refine ⟨t', h1, h3, fun l' m' hm' => ?_⟩
  rw [h4 l' m' hm']
  by_cases hb : l' = l
  · subst hb; rw [if_pos ⟨rfl, hm'⟩, if_pos rfl]
  · rw [if_neg (fun h => hb h.1), if_neg hb]

theorem fillD_ok (F : Flt3) {lmax : ℕ} (L : ℕ → ℕ → ℝ) (phi : ℝ) {exps : Arr ℂ} (hes : exps.size = lmax + 1)
    (hev : ∀ k ≤ lmax, exps.val k = Fl.pw F.toFlt (F.cis phi) 1 k) :
    ∃ t, loopM (lmax + 1) (stepLD F (fun l m => if m ≤ l ∧ l ≤ lmax then .ok (L l m) else .error .ub) exps)
      (Arr.new ((lmax + 1) * (lmax + 1))) = .ok t ∧
      ∀ l ≤ lmax, ∀ m : ℤ, |m| ≤ l → t.rdZ (lmIndex l m) = .ok (dv F L phi l m) := by
  obtain ⟨t, h1, h2, h3⟩ := loopM_invariant
    (fun i (t : Arr ℂ) => t.size = (lmax + 1) * (lmax + 1) ∧ ∀ l, l < i → ∀ m : ℤ, |m| ≤ l →
      t.val (cell l m) = dv F L phi l m)
    (stepLD F (fun l m => if m ≤ l ∧ l ≤ lmax then .ok (L l m) else .error .ub) exps)
    (Arr.new ((lmax + 1) * (lmax + 1))) (lmax + 1) ⟨rfl, fun l hl => by omega⟩
    (by
      rintro i hi t ⟨ht, hv⟩
      obtain ⟨t', h1, h2, h3⟩ := stepLD_ok F L phi hes hev (show i ≤ lmax by omega) t ht
      refine ⟨t', h1, h2, fun l hl m hm => ?_⟩
      rw [h3 l m hm]
      by_cases hb : l = i
      · subst hb; rw [if_pos rfl]
      · rw [if_neg hb]; exact hv l (by omega) m hm)
  exact ⟨t, h1, fun l hl m hm => by rw [rdZ_cell h2 hl hm, h3 l (by omega) m hm]⟩

/-- Contents of the computed tables. -/
theorem ylmD_ok (F : Flt3) (lmax : ℕ) (theta phi : ℝ) (h : |F.rcos theta| < 1) :
    ∃ t, ylmD F lmax theta phi = .ok t ∧ ∀ l ≤ lmax, ∀ m : ℤ, |m| ≤ l →
      t.Y l m = .ok (dv F (F.legD lmax (F.rcos theta)).1 phi l m) ∧
      t.dYdtheta l m = .ok (dv F (F.legD lmax (F.rcos theta)).2 phi l m) ∧
      dYdphi F t l m = .ok (F.mul (Complex.I * (m : ℂ)) (dv F (F.legD lmax (F.rcos theta)).1 phi l m)) := by
  unfold ylmD gslLegendreDerivAlt
  rw [if_pos h]
  obtain ⟨⟨exps, b⟩, e1, e2, e3, e4⟩ := loopM_invariant
    (fun i (s : Arr ℂ × ℂ) => s.2 = Fl.pw F.toFlt (F.cis phi) 1 i ∧ s.1.size = lmax + 1 ∧
      ∀ k < i, s.1.val k = Fl.pw F.toFlt (F.cis phi) 1 k)
    (fun l (s : Arr ℂ × ℂ) => do
      let t ← s.1.wr l s.2
      .ok (t, F.mul s.2 (F.cis phi))) (Arr.new (lmax + 1), 1) (lmax + 1) ⟨rfl, rfl, fun k hk => by omega⟩
    (by
      rintro i hi ⟨s, b⟩ ⟨rfl, hsz, hv⟩
      simp only at hsz hv ⊢
      rw [Arr.wr_ok _ (by rw [hsz]; exact hi), ok_bind]
      refine ⟨_, rfl, rfl, hsz, fun k hk => ?_⟩
      simp only
      by_cases hki : k = i
      · subst hki; rw [Function.update_self]
      · rw [Function.update_of_ne hki]; exact hv k (by omega))
  simp only at e3 e4
  simp only
  rw [e1, ok_bind]
  simp only
  rw [ok_bind]
  simp only
  obtain ⟨t1, a1, a2⟩ := fillD_ok F (F.legD lmax (F.rcos theta)).1 phi e3 fun k hk => e4 k (by omega)
  obtain ⟨t2, b1, b2⟩ := fillD_ok F (F.legD lmax (F.rcos theta)).2 phi e3 fun k hk => e4 k (by omega)
  rw [a1, ok_bind, b1, ok_bind]
  refine ⟨_, rfl, fun l hl m hm => ⟨a2 l hl m hm, b2 l hl m hm, ?_⟩⟩
  unfold dYdphi
  rw [a2 l hl m hm, ok_bind]

/-! ## Entries -/

/-- An entry approximates the harmonic whose Legendre factor is approximated by the tabulated value. -/
theorem dp_err (hF : F.Ok u g) {l m : ℕ} {L : ℕ → ℕ → ℝ} {S phi' phi γ : ℝ} (hm : m ≤ l) (hγ : 0 ≤ γ) (hL : |L l m - S| ≤ γ)
    (hphi : ‖F.cis phi' - Complex.exp (Complex.I * phi)‖ ≤ (1 + u) ^ 5 - 1) {y : ℂ}
    (hy : (if m = 0 then (S : ℂ) else (S : ℂ) * Complex.exp (Complex.I * phi) ^ m / (Real.sqrt 2 : ℂ)) = y) :
    ‖dp F L phi' l m - y‖ ≤ ((1 + u) ^ (6 * l + 4) - 1) * ‖y‖ + (1 + u) ^ (6 * l + 4) * γ := by
  have hu := hF.nonneg
  have h1 := one_le_pow_u hu (6 * l + 4)
  rw [← hy]
  unfold dp
  by_cases h0 : m = 0
  · subst h0
    rw [if_pos rfl, if_pos rfl, ← Complex.ofReal_sub, Complex.norm_real, Real.norm_eq_abs]
    have h2 := mul_le_mul_of_nonneg_right h1 hγ
    have h3 : 0 ≤ ((1 + u) ^ (6 * l + 4) - 1) * ‖(S : ℂ)‖ := mul_nonneg (by linarith) (norm_nonneg _)
    linarith
  · rw [if_neg h0, if_neg h0]
    set e := Complex.exp (Complex.I * phi)
    have he : ‖e‖ = 1 := by
      have : e = Complex.exp ((phi : ℂ) * Complex.I) := by simp only [e]; rw [mul_comm]
      rw [this, Complex.norm_exp_ofReal_mul_I]
    have hs2 : (0 : ℝ) < Real.sqrt 2 := Real.sqrt_pos.mpr (by norm_num)
    have hs21 : (1 : ℝ) ≤ Real.sqrt 2 := by rw [Real.one_le_sqrt]; norm_num
    have hc : Ap u 5 1 (F.cis phi') e := ⟨by rw [mul_one]; exact hphi, he.le⟩
    have hp := Fl.pw_ap hF.toOk hc (Ap.refl (u := u) (le_of_eq (norm_one (α := ℂ)))) m
    rw [one_pow, one_mul, one_mul] at hp
    have hq : Ap u 0 |L l m| (L l m) (L l m) := Ap.refl (by rw [Real.norm_eq_abs])
    have hr := hF.rsc hq hp
    have hi := Ap.inv (x' := (F.sqrt2 : ℂ)) (x := ((Real.sqrt 2 : ℝ) : ℂ)) hu hF.small (by exact_mod_cast hs2.ne')
      (by rw [← Complex.ofReal_sub, Complex.norm_real, Complex.norm_real, Real.norm_eq_abs, Real.norm_of_nonneg hs2.le]
          exact hF.sqrt2)
    have hd := (hr.mul hu hi.2).round hu (y' := F.cdr (F.rsc (L l m) (Fl.pw F.toFlt (F.cis phi') 1 m)) F.sqrt2)
      (by have := hF.cdr_err (F.rsc (L l m) (Fl.pw F.toFlt (F.cis phi') 1 m)) F.sqrt2
          rwa [div_eq_mul_inv] at this)
    rw [Complex.norm_real, Real.norm_of_nonneg hs2.le, mul_one, ← div_eq_mul_inv, ← div_eq_mul_inv] at hd
    have hd' := hd.mono hu (m := 6 * l + 4) (by omega) le_rfl
    have hE : ‖(L l m : ℂ) * e ^ m / (Real.sqrt 2 : ℂ) - (S : ℂ) * e ^ m / (Real.sqrt 2 : ℂ)‖ ≤ γ := by
      rw [← sub_div, ← sub_mul, norm_div, norm_mul, norm_pow, he, one_pow, mul_one, ← Complex.ofReal_sub, Complex.norm_real,
        Complex.norm_real, Real.norm_eq_abs, Real.norm_of_nonneg hs2.le]
      exact (div_le_self (abs_nonneg _) hs21).trans hL
    have hN : ‖(S : ℂ) * e ^ m / (Real.sqrt 2 : ℂ)‖ = |S| / Real.sqrt 2 := by
      rw [norm_div, norm_mul, norm_pow, he, one_pow, mul_one, Complex.norm_real, Complex.norm_real, Real.norm_eq_abs,
        Real.norm_of_nonneg hs2.le]
    have hLS : |L l m| / Real.sqrt 2 ≤ |S| / Real.sqrt 2 + γ := by
      have h5 : |L l m| ≤ |S| + γ := by
        have := abs_sub_abs_le_abs_sub (L l m) S
        linarith
      have h6 : γ / Real.sqrt 2 ≤ γ := div_le_self hγ hs21
      have := div_le_div_of_nonneg_right h5 hs2.le
      rw [add_div] at this
      linarith
    rw [hN]
    have h7 := hd'.1
    have h8 := mul_le_mul_of_nonneg_left hLS (show 0 ≤ (1 + u) ^ (6 * l + 4) - 1 by linarith)
    have h9 := norm_sub_le_norm_sub_add_norm_sub (F.cdr (F.rsc (L l m) (Fl.pw F.toFlt (F.cis phi') 1 m)) F.sqrt2)
      ((L l m : ℂ) * e ^ m / (Real.sqrt 2 : ℂ)) ((S : ℂ) * e ^ m / (Real.sqrt 2 : ℂ))
    nlinarith

/-- Values in the table, in the frame of the computed cosine. -/
theorem dv_err (hF : F.Ok u g) {l : ℕ} {m : ℤ} {L S : ℕ → ℕ → ℝ} {phi' phi γ : ℝ} (hm : |m| ≤ l) (hγ : 0 ≤ γ)
    (hL : ∀ k ≤ l, |L l k - S l k| ≤ γ)
    (hphi : ‖F.cis phi' - Complex.exp (Complex.I * phi)‖ ≤ (1 + u) ^ 5 - 1) {y : ℤ → ℂ} (hc : ∀ m, (starRingEnd ℂ) (y m) = y (-m))
    (hy : ∀ k ≤ l, (if k = 0 then (S l 0 : ℂ) else (S l k : ℂ) * Complex.exp (Complex.I * phi) ^ k / (Real.sqrt 2 : ℂ)) = y k) :
    ‖dv F L phi' l m - y m‖ ≤ ((1 + u) ^ (6 * l + 4) - 1) * ‖y m‖ + (1 + u) ^ (6 * l + 4) * γ := by
  have hm' := abs_le.mp hm
  have key : ∀ k ≤ l, (if k = 0 then (S l k : ℂ) else (S l k : ℂ) * Complex.exp (Complex.I * phi) ^ k / (Real.sqrt 2 : ℂ)) = y k := by
    intro k hk
    rw [← hy k hk]
    by_cases h0 : k = 0
    · subst h0; rfl
    · rw [if_neg h0, if_neg h0]
  unfold dv
  by_cases h0 : 0 ≤ m
  · rw [if_pos h0]
    have := dp_err hF (m := m.toNat) (by omega) hγ (hL _ (by omega)) hphi (key m.toNat (by omega))
    rwa [Int.toNat_of_nonneg h0] at this
  · rw [if_neg h0]
    have := dp_err hF (m := (-m).toNat) (by omega) hγ (hL _ (by omega)) hphi (key (-m).toNat (by omega))
    rw [Int.toNat_of_nonneg (by omega)] at this
    have e : y m = (starRingEnd ℂ) (y (-m)) := by rw [hc, neg_neg]
    rw [e, ← map_sub, RCLike.norm_conj, RCLike.norm_conj]
    exact this

/-- Degree `l` of the table of values. -/
theorem dvY_err (hF : F.OkD u g) {lmax l : ℕ} {m : ℤ} {v' : Vec 3} (hx : |F.rcos (F.sph v' 1)| < 1) (hl : l ≤ lmax) (hm : |m| ≤ l) :
    ‖dv F (F.legD lmax (F.rcos (F.sph v' 1))).1 (F.sph v' 2) l m - rY (dirV (tht F v') (v'.toSpherical3 2)) l m‖
      ≤ ((1 + u) ^ (6 * l + 4) - 1) * ‖rY (dirV (tht F v') (v'.toSpherical3 2)) l m‖ + (1 + u) ^ (6 * l + 4) * g := by
  have hcos : Real.cos (tht F v') = F.rcos (F.sph v' 1) := Real.cos_arccos (abs_le.mp hx.le).1 (abs_le.mp hx.le).2
  refine dv_err hF.toOk3 (S := fun l k => schmidt (-1) l k (F.rcos (F.sph v' 1))) hm hF.leg_nonneg
    (fun k hk => hF.legV lmax _ l k hx hk hl) (cis_sph hF.toOk3 v') (fun m => conj_rY _ _ _) (fun k hk => ?_)
  have hs : 0 ≤ Real.sin (tht F v') := by unfold tht; rw [Real.sin_arccos]; exact Real.sqrt_nonneg _
  have := schmidt_rY (phi := v'.toSpherical3 2) hs hk
  rw [hcos] at this
  exact this

/-- Degree `l` of the table of derivatives. -/
theorem dvD_err (hF : F.OkD u g) {lmax l : ℕ} {m : ℤ} {v' : Vec 3} (hx : |F.rcos (F.sph v' 1)| < 1) (hl : l ≤ lmax) (hm : |m| ≤ l) :
    ‖dv F (F.legD lmax (F.rcos (F.sph v' 1))).2 (F.sph v' 2) l m
        - rD (dirV (tht F v') (v'.toSpherical3 2)) (thetaV (tht F v') (v'.toSpherical3 2)) l m‖
      ≤ ((1 + u) ^ (6 * l + 4) - 1) * ‖rD (dirV (tht F v') (v'.toSpherical3 2)) (thetaV (tht F v') (v'.toSpherical3 2)) l m‖
        + (1 + u) ^ (6 * l + 4) * (g * l) := by
  have hs : 0 < Real.sin (tht F v') := by
    have h2 := Real.sin_sq_add_cos_sq (tht F v')
    have hcos : Real.cos (tht F v') = F.rcos (F.sph v' 1) := Real.cos_arccos (abs_le.mp hx.le).1 (abs_le.mp hx.le).2
    rw [hcos] at h2
    have h3 := (sq_lt_one_iff_abs_lt_one _).mpr hx
    have h4 : 0 ≤ Real.sin (tht F v') := by unfold tht; rw [Real.sin_arccos]; exact Real.sqrt_nonneg _
    rcases h4.lt_or_eq with h | h
    · exact h
    · rw [← h] at h2; linarith
  refine dv_err hF.toOk3 (S := fun l k => deriv (fun t => schmidt (-1) l k (Real.cos t)) (tht F v')) hm
    (mul_nonneg hF.leg_nonneg (Nat.cast_nonneg _)) (fun k hk => hF.legD lmax _ l k hx hk hl) (cis_sph hF.toOk3 v')
    (fun m => conj_rD _ _ _ _) (fun k hk => ?_)
  exact YlmDerivTable.deriv_schmidt (phi := v'.toSpherical3 2) hs hk

end Fl3
end FMM
