import Verif.LowFrame3

/-!
# Runs of `evaluateForcefield` of the three-dimensional expansions with gradual underflow

The statements of `FltForceRun3` with majorants which stay above the floor.
-/

namespace FMM
open Finset

namespace Lo3
open Fl3 hiding loopM_ap loopZ_ap alm_ap alm_inv cdr_ap divR_ap sin_sph frame frame_sin frame_phi cos_sph cis_sph dp_err dv_err dvY_err
  dvD_err loopZ_apV forceTerm_run forceLoop zc_ap comp_ap toBasis_ap
variable {F : Flt3} {u g η ρ θ τ ν : ℝ}

theorem radd {F : Flt} (hF : F.Low u η ρ) {n m k : ℕ} {M N : ℝ} {x' x y' y : ℝ} (h : Ap u n M x' x) (h' : Ap u m N y' y)
    (hf : Flr η (M + N)) (hn : n + 1 ≤ k) (hm : m + 1 ≤ k) : Ap u k (M + N) (F.rnd (x' + y')) (x + y) := by
  have h1 := hF.rrnd ((h.mono hF.nonneg (m := k - 1) (by omega) le_rfl).add (h'.mono hF.nonneg (m := k - 1) (by omega) le_rfl)) hf
  rwa [Nat.sub_add_cancel (by omega)] at h1

theorem rsub {F : Flt} (hF : F.Low u η ρ) {n m k : ℕ} {M N : ℝ} {x' x y' y : ℝ} (h : Ap u n M x' x) (h' : Ap u m N y' y)
    (hf : Flr η (M + N)) (hn : n + 1 ≤ k) (hm : m + 1 ≤ k) : Ap u k (M + N) (F.rnd (x' - y')) (x - y) := by
  rw [sub_eq_add_neg, sub_eq_add_neg]
  exact radd hF h h'.neg hf hn hm

theorem rmul {F : Flt} (hF : F.Low u η ρ) {n m : ℕ} {M N : ℝ} {x' x y' y : ℝ} (h : Ap u n M x' x) (h' : Ap u m N y' y)
    (hf : Flr η (M * N)) : Ap u (n + m + 1) (M * N) (F.rnd (x' * y')) (x * y) := hF.rrnd (h.mul hF.nonneg h') hf

/-! ## The loops -/

theorem loopZ_apV {F : Flt} (hF : F.Low u η ρ) (lo hi : ℤ) (f : ℤ → Vec 3 → Outcome (Vec 3)) (t : ℤ → Vec 3) (M : Fin 3 → ℤ → ℝ) {c n0 : ℕ}
    {s' s : Vec 3} {M0 : Fin 3 → ℝ} (hs : ∀ j, Ap u n0 (M0 j) (s' j) (s j)) (hM0 : ∀ j, Flr η (M0 j)) (hc : c ≤ n0)
    (h : ∀ m, lo ≤ m → m ≤ hi → ∃ t' : Vec 3, (∀ b, f m b = .ok (fun j => F.rnd (b j + t' j))) ∧
      ∀ j, Ap u c (M j m) (t' j) (t m j) ∧ Flr η (M j m)) :
    ∃ r, loopZ lo hi f s' = .ok r ∧
      ∀ j, Ap u (n0 + (hi + 1 - lo).toNat) (M0 j + ∑ m ∈ Icc lo hi, M j m) (r j) (s j + ∑ m ∈ Icc lo hi, t m j) ∧
        Flr η (M0 j + ∑ m ∈ Icc lo hi, M j m) := by
  unfold loopZ
  obtain ⟨r, h1, h2⟩ := loopM_invariant (fun i (r : Vec 3) => ∀ j, Ap u (n0 + i) (M0 j + ∑ k ∈ range i, M j (lo + k)) (r j)
      (s j + ∑ k ∈ range i, t (lo + k) j) ∧ Flr η (M0 j + ∑ k ∈ range i, M j (lo + k))) (fun i => f (lo + i)) s' (hi + 1 - lo).toNat
    (by intro j; simpa using ⟨hs j, hM0 j⟩) (fun i hi' b hb => by
      obtain ⟨t', h1, h2⟩ := h (lo + i) (by omega) (by omega)
      refine ⟨_, h1 b, fun j => ?_⟩
      rw [sum_range_succ, sum_range_succ, ← add_assoc (M0 j), ← add_assoc (s j)]
      have hfl := (hb j).2.add (h2 j).2 (hb j).1.nonneg (h2 j).1.nonneg
      exact ⟨radd hF (hb j).1 (h2 j).1 hfl (by omega) (by omega), hfl⟩)
  refine ⟨r, h1, fun j => ?_⟩
  have := h2 j
  rwa [sum_Icc_range lo hi (M j), sum_Icc_range lo hi (fun m => t m j)] at this

/-- Majorants of the factors. -/
noncomputable def zm (π k R : ℝ) (b d : ℤ → ℝ) (j : Fin 3) (m : ℤ) : ℝ :=
  ![π * k * b m, π * d m, π * (|(m : ℝ)| * b m) * |R|⁻¹] j

theorem rsin_inv (hF : F.LowD u g η ρ) {p : ℕ} (hp : 0 < p) {t : ℝ} (h0 : F.rsin t ≠ 0) : aMin p ≤ |F.rsin t|⁻¹ := by
  have h1 := hF.rsin t
  have h2 := Real.abs_sin_le_one t
  have h3 := abs_sub_abs_le_abs_sub (F.rsin t) (Real.sin t)
  have h4 := hF.small
  unfold aMin
  refine inv_anti₀ (abs_pos.mpr h0) ?_
  have h5 : (2 : ℝ) ≤ ((2 * p).factorial : ℕ) := by
    exact_mod_cast (Nat.factorial_le (show 2 ≤ 2 * p by omega) : Nat.factorial 2 ≤ _)
  refine le_trans ?_ (Real.sqrt_le_sqrt h5)
  refine Real.le_sqrt_of_sq_le ?_
  nlinarith [abs_nonneg (F.rsin t)]

theorem forceTerm_run (hF : F.LowD u g η ρ) {p : ℕ} (hs : Scale3 u η θ τ ν p) (hp : 0 < p) {Y : YlmDerivTable} {theta : ℝ}
    (hR : F.rsin theta ≠ 0) {n : ℕ} {m : ℤ} {y dt : ℤ → ℂ}
    (h1 : Y.Y n m = .ok (y m)) (h2 : Y.dYdtheta n m = .ok (dt m)) (h3 : dYdphi F Y n m = .ok (F.mul (Complex.I * (m : ℂ)) (y m)))
    {P π : ℝ} (hP : |P| ≤ π) (hπ : ν * θ ^ (2 * p + 1) ≤ π) (sub : Bool) {k : ℕ} (hk : 1 ≤ k) {a : ℂ} {α : ℝ} (ha : ‖a‖ ≤ α)
    (hα : Flr (τ * ν * θ ^ (p + 1)) α) {b d : ℤ → ℝ} (hb : ‖y m‖ ≤ b m) (hb' : ν ≤ b m) (hd : ‖dt m‖ ≤ d m) (hd' : ν ≤ d m) :
    ∃ t : Vec 3, (∀ f, forceTerm F Y theta P sub k a n m f = .ok (fun j => F.rnd (f j + t j))) ∧
      ∀ j, Ap u 4 (α * zm π k (F.rsin theta) b d j m) (t j)
        (a * zc (if sub then -1 else 1) P k (F.rsin theta) y dt j m).re ∧ Flr η (α * zm π k (F.rsin theta) b d j m) := by
  have hu := hF.nonneg
  have hk1 : (1 : ℝ) ≤ k := by exact_mod_cast hk
  have hν := hs.nu0
  have hx1 : 0 ≤ τ * ν * θ ^ (p + 1) := by have := x_nonneg hs 1 (p + 1); rwa [pow_one] at this
  have hx2 := x_nonneg hs 2 (p + 1)
  have hx3 := x_nonneg hs 3 (3 * p + 2)
  have hy0 : 0 ≤ ν * θ ^ (2 * p + 1) := mul_nonneg hν (pow_nonneg hs.th0.le _)
  have hPA : Ap u 0 π P P := Ap.refl (by rw [Real.norm_eq_abs]; exact hP)
  have haA : Ap u 0 α a a := Ap.refl ha
  have hbA : Ap u 0 (b m) (y m) (y m) := Ap.refl hb
  have hdA : Ap u 0 (d m) (dt m) (dt m) := Ap.refl hd
  -- floors
  have fx2 : ∀ c : ℝ, ν ≤ c → Flr (τ * ν ^ 2 * θ ^ (p + 1)) (α * c) := fun c hc => by
    have h := hα.mulge hc hx1 hν
    rwa [show τ * ν * θ ^ (p + 1) * ν = τ * ν ^ 2 * θ ^ (p + 1) by ring] at h
  have f2 : ∀ c : ℝ, ν ≤ c → Flr η (α * c) := fun c hc => (fx2 c hc).mono (hs.fl1 (by omega) (by omega))
  have fx3 : ∀ c q : ℝ, ν ≤ c → ν * θ ^ (2 * p + 1) ≤ q → Flr (τ * ν ^ 3 * θ ^ (3 * p + 2)) (q * (α * c)) := fun c q hc hq => by
    have h := Flr.gemul hq (fx2 c hc) hx2 hy0
    rwa [show ν * θ ^ (2 * p + 1) * (τ * ν ^ 2 * θ ^ (p + 1)) = τ * ν ^ 3 * θ ^ (3 * p + 2) by
      rw [show 3 * p + 2 = 2 * p + 1 + (p + 1) by omega, pow_add]; ring] at h
  have f3 : ∀ c q : ℝ, ν ≤ c → ν * θ ^ (2 * p + 1) ≤ q → Flr η (q * (α * c)) := fun c q hc hq =>
    (fx3 c q hc hq).mono (hs.fl1 (by omega) (by omega))
  have hπk : ν * θ ^ (2 * p + 1) ≤ π * k := hπ.trans (le_mul_of_one_le_right (hy0.trans hπ) hk1)
  have fπ : η ≤ ν * θ ^ (2 * p + 1) := by
    have := hs.fl2 (i := 1) (k := 2 * p + 1) (by omega) (by omega)
    rwa [pow_one] at this
  have fν : η ≤ ν := by
    have := hs.fl2 (i := 1) (k := 0) (by omega) (by omega)
    rwa [pow_one, pow_zero, mul_one] at this
  set R := F.rsin theta with hRd
  set tr : ℝ := F.rnd (F.rnd (P * (k : ℝ)) * (F.mul a (y m)).re) with htr
  set tt : ℝ := F.rnd (P * (F.mul a (dt m)).re) with htt
  set tp : ℝ := F.rnd (F.rnd (P * (F.mul a (F.mul (Complex.I * (m : ℂ)) (y m))).re) / R) with htp
  refine ⟨![if sub then -tr else tr, tt, tp], fun f => ?_, fun j => ?_⟩
  · unfold forceTerm
    rw [h1, ok_bind, h2, ok_bind, h3, ok_bind, Fl3.divR, if_neg hR, ok_bind]
    congr 1
    funext j
    fin_cases j
    · cases sub
      · rfl
      · show F.rnd (f 0 - tr) = F.rnd (f 0 + -tr)
        rw [sub_eq_add_neg]
    · rfl
    · rfl
  · fin_cases j
    · have hfl := f3 (b m) (π * k) hb' hπk
      have e : π * k * (α * b m) = α * (π * k * b m) := by ring
      have hr : Ap u 4 (α * (π * k * b m)) tr (a * (((P * k : ℝ) : ℂ) * y m)).re := by
        have k0 : Ap u 0 (π * k) (P * (k : ℝ)) (P * (k : ℝ)) := by
          refine Ap.refl ?_
          rw [Real.norm_eq_abs, abs_mul, abs_of_nonneg (by linarith : (0 : ℝ) ≤ k)]
          exact mul_le_mul_of_nonneg_right hP (by linarith)
        have k1 := hF.rrnd k0 (Or.inr (fπ.trans hπk))
        have k2 := (hF.cmul haA hbA (f2 _ hb')).re
        have k3 := rmul hF.toLow k1 k2 hfl
        refine (k3.mono hu (m := 4) (by omega) le_rfl).congr' e ?_
        rw [show a * (((P * k : ℝ) : ℂ) * y m) = ((P * k : ℝ) : ℂ) * (a * y m) by ring, Complex.re_ofReal_mul]
      rw [e] at hfl
      refine ⟨?_, hfl⟩
      cases sub
      · show Ap u 4 (α * (π * k * b m)) tr (a * (((1 * P * k : ℝ) : ℂ) * y m)).re
        rw [one_mul]; exact hr
      · show Ap u 4 (α * (π * k * b m)) (-tr) (a * (((-1 * P * k : ℝ) : ℂ) * y m)).re
        have e : ((-1 * P * k : ℝ) : ℂ) * y m = -(((P * k : ℝ) : ℂ) * y m) := by push_cast; ring
        rw [e, mul_neg, Complex.neg_re]; exact hr.neg
    · have hfl := f3 (d m) π hd' hπ
      have e : π * (α * d m) = α * (π * d m) := by ring
      have k2 := (hF.cmul haA hdA (f2 _ hd')).re
      have k3 := rmul hF.toLow hPA k2 hfl
      rw [e] at hfl
      refine ⟨?_, hfl⟩
      show Ap u 4 (α * (π * d m)) tt (a * ((P : ℂ) * dt m)).re
      refine (k3.mono hu (m := 4) (by omega) le_rfl).congr' e ?_
      rw [show a * ((P : ℂ) * dt m) = (P : ℂ) * (a * dt m) by ring, Complex.re_ofReal_mul]
    · have hm : m = 0 ∨ ν ≤ |(m : ℝ)| * b m := by
        by_cases h0 : m = 0
        · exact Or.inl h0
        · have h1 : (1 : ℝ) ≤ |(m : ℝ)| := by exact_mod_cast Int.one_le_abs h0
          exact Or.inr (hb'.trans (le_mul_of_one_le_left (hν.trans hb') h1))
      have g1 : Flr η (|(m : ℝ)| * b m) := by
        rcases hm with rfl | hm
        · exact Or.inl (by simp)
        · exact Or.inr (fν.trans hm)
      have g2 : Flr η (α * (|(m : ℝ)| * b m)) := by
        rcases hm with rfl | hm
        · exact Or.inl (by simp)
        · exact f2 _ hm
      have g3 : Flr η (π * (α * (|(m : ℝ)| * b m))) := by
        rcases hm with rfl | hm
        · exact Or.inl (by simp)
        · exact f3 _ _ hm hπ
      have g4 : Flr η (π * (α * (|(m : ℝ)| * b m)) * |R|⁻¹) := by
        rcases hm with rfl | hm
        · exact Or.inl (by simp)
        · have h := fx3 _ _ hm hπ
          have h' := flr_last hs (rsin_inv hF hp hR) (by rw [one_mul]; exact h)
          rwa [mul_comm] at h'
      have hmA : Ap u 0 |(m : ℝ)| (Complex.I * (m : ℂ)) (Complex.I * (m : ℂ)) := by
        refine Ap.refl ?_
        rw [norm_mul, Complex.norm_I, one_mul, Complex.norm_intCast]
      have k1 := hF.cmul hmA hbA g1
      have k2 := (hF.cmul haA k1 g2).re
      have k3 := rmul hF.toLow hPA k2 g3
      have hRi : Ap u 0 |R|⁻¹ R⁻¹ R⁻¹ := Ap.refl (by rw [Real.norm_eq_abs, abs_inv])
      have k4 := divR_ap hF.toLow3 k3 hR hRi g4
      have e : π * (α * (|(m : ℝ)| * b m)) * |R|⁻¹ = α * (π * (|(m : ℝ)| * b m) * |R|⁻¹) := by ring
      rw [e] at g4
      refine ⟨?_, g4⟩
      show Ap u 4 (α * (π * (|(m : ℝ)| * b m) * |R|⁻¹)) tp (a * ((P : ℂ) * (Complex.I * m * y m) / (R : ℂ))).re
      refine (k4.2.mono hu (m := 4) (by omega) le_rfl).congr' e ?_
      rw [show a * ((P : ℂ) * (Complex.I * m * y m) / (R : ℂ)) = ((P : ℂ) * (a * (Complex.I * m * y m))) / (R : ℂ) by ring,
          Complex.div_ofReal_re, Complex.re_ofReal_mul]

/-- The loops over the coefficients. -/
theorem forceLoop (hF : F.LowD u g η ρ) {e : Exp3} {c : Vec 3} {p : ℕ} (hs : Scale3 u η θ τ ν p) (hp : 0 < p) {a : ℕ → ℤ → ℂ} (he : e.Is c p a)
    {α : ℕ → ℤ → ℝ} (hα : Maj θ τ ν p a α) {Y : YlmDerivTable} {theta : ℝ}
    (hR : F.rsin theta ≠ 0) {y dt : ℕ → ℤ → ℂ} {b d : ℕ → ℤ → ℝ} (hb : MajY ν y b) (hd : MajY ν dt d)
    (hY : ∀ l ≤ p, ∀ m : ℤ, |m| ≤ l → Y.Y l m = .ok (y l m) ∧ Y.dYdtheta l m = .ok (dt l m) ∧
      dYdphi F Y l m = .ok (F.mul (Complex.I * (m : ℂ)) (y l m)))
    (N : ℕ) (dg : ℕ → ℕ) (hdg : ∀ i < N, dg i ≤ p) (sub : Bool) (step : ℝ → Outcome ℝ) (P : ℕ → ℝ) (hstep : ∀ i, step (P i) = .ok (P (i + 1))) {π : ℕ → ℝ}
    (hπ : MajP θ ν p p P π) (hN : N ≤ p + 1) :
    ∃ f : Vec 3, (do
      let (f, _) ← loopM N (fun i (s : Vec 3 × ℝ) => do
        let f ← loopZ (-((dg i : ℕ) : ℤ)) (dg i : ℕ) (fun m f => do
          let a ← e.get (dg i) m
          forceTerm F Y theta s.2 sub (i + 1) a (dg i) m f) s.1
        let rp ← step s.2
        .ok (f, rp)) ((0 : Vec 3), P 0)
      (Except.ok f : Outcome (Vec 3))) = .ok f ∧ ∀ j, Ap u (4 + ∑ i ∈ range N, (2 * dg i + 1))
        (∑ i ∈ range N, ∑ m ∈ Ir (dg i), α (dg i) m * zm (π i) (i + 1 : ℕ) (F.rsin theta) (b (dg i)) (d (dg i)) j m)
        (f j)
        (∑ i ∈ range N, ∑ m ∈ Ir (dg i), (a (dg i) m * zc (if sub then -1 else 1) (P i) (i + 1 : ℕ) (F.rsin theta) (y (dg i)) (dt (dg i)) j m).re) := by
  have hu := hF.nonneg
  obtain ⟨⟨z, r⟩, h1, h2, -, h3⟩ := loopM_invariant
    (fun i (s : Vec 3 × ℝ) => (∀ j, Ap u (4 + ∑ i ∈ range i, (2 * dg i + 1))
        (∑ i ∈ range i, ∑ m ∈ Ir (dg i), α (dg i) m * zm (π i) (i + 1 : ℕ) (F.rsin theta) (b (dg i)) (d (dg i)) j m)
        (s.1 j)
        (∑ i ∈ range i, ∑ m ∈ Ir (dg i), (a (dg i) m * zc (if sub then -1 else 1) (P i) (i + 1 : ℕ) (F.rsin theta) (y (dg i)) (dt (dg i)) j m).re))
        ∧ (∀ j, Flr η (∑ i ∈ range i, ∑ m ∈ Ir (dg i), α (dg i) m * zm (π i) (i + 1 : ℕ) (F.rsin theta) (b (dg i)) (d (dg i)) j m))
        ∧ s.2 = P i)
    (fun i (s : Vec 3 × ℝ) => do
        let f ← loopZ (-((dg i : ℕ) : ℤ)) (dg i : ℕ) (fun m f => do
          let a ← e.get (dg i) m
          forceTerm F Y theta s.2 sub (i + 1) a (dg i) m f) s.1
        let rp ← step s.2
        .ok (f, rp)) ((0 : Vec 3), P 0) N
    ⟨fun j => by simpa using (Ap.zero le_rfl hu : Ap u 4 0 (0 : ℝ) 0), fun j => Or.inl (by simp), rfl⟩
    (by
      rintro i hi ⟨z, r⟩ ⟨hz, hzf, rfl⟩
      simp only at hz hzf ⊢
      obtain ⟨w, g1, g2⟩ := loopZ_apV hF.toLow (-((dg i : ℕ) : ℤ)) (dg i : ℕ) (fun m f => do
          let a ← e.get (dg i) m
          forceTerm F Y theta (P i) sub (i + 1) a (dg i) m f)
        (fun m j => (a (dg i) m * zc (if sub then -1 else 1) (P i) (i + 1 : ℕ) (F.rsin theta) (y (dg i)) (dt (dg i)) j m).re)
        (fun j m => α (dg i) m * zm (π i) (i + 1 : ℕ) (F.rsin theta) (b (dg i)) (d (dg i)) j m)
        (c := 4) hz hzf (by omega)
        (fun m hm1 hm2 => by
          have hm : |m| ≤ (dg i : ℕ) := by rw [abs_le]; omega
          obtain ⟨y1, y2, y3⟩ := hY (dg i) (hdg i hi) m hm
          obtain ⟨t, t1, t2⟩ := forceTerm_run hF hs hp hR (y := y (dg i)) (dt := dt (dg i)) y1 y2 y3 (hπ.le i) (hπ.ge i (by omega)) sub
            (k := i + 1) (by omega) (hα.le _ _) (hα.fl _ (hdg i hi) m) (hb.le _ _) (hb.ge _ _) (hd.le _ _) (hd.ge _ _)
          refine ⟨t, fun b => ?_, t2⟩
          rw [he.get (hdg i hi) hm, ok_bind, t1])
      rw [g1, ok_bind, hstep, ok_bind]
      have hcard : (((dg i : ℕ) : ℤ) + 1 - -((dg i : ℕ) : ℤ)).toNat = 2 * dg i + 1 := by omega
      refine ⟨_, rfl, fun j => ?_, fun j => ?_, rfl⟩
      · have := (g2 j).1
        rw [hcard] at this
        simp only
        rw [sum_range_succ, sum_range_succ, sum_range_succ]
        exact this.mono hu (by omega) le_rfl
      · rw [sum_range_succ]
        exact (g2 j).2)
  rw [h1, ok_bind]
  exact ⟨z, rfl, h2⟩

/-! ## The factors -/

/-- The table of values. -/
theorem tabY (hF : F.LowD u g η ρ) {s : ℝ} {p κ : ℕ} (hκ : FrameCost u g s p κ) {v v' : Vec 3}
    (hv : len3 (v' - v) ≤ u * len3 v) (h0 : v ≠ 0) (hη : 2 * η ≤ len3 v) (hs : s * len3 v ≤ Vec.hypot (v 0) (v 1)) {n : ℕ} (hn : n ≤ p) :
    VAp u (6 * n + 4 + κ) 1 (Ir n) (dv F (F.legD p (F.rcos (F.sph v' 1))).1 (F.sph v' 2) n) (rY (dirV (tht F v') (v'.toSpherical3 2)) n) := by
  have hu := hF.nonneg
  have hg := gpos hF.toLow3
  obtain ⟨hX, hcos, hT, -, -⟩ := frame hF hκ hv h0 hη hs
  have hs0 := hκ.pos
  have hs1 := hκ.le_one
  have htab := hκ.tab_le hg hn
  have hsq : 0 ≤ Real.sqrt (2 * n + 1) := Real.sqrt_nonneg _
  have hg2 : g ≤ 2 * g / s := by rw [le_div_iff₀ hs0]; nlinarith
  clear hη
  set X := F.rcos (F.sph v' 1)
  set T := tht F v' with hTdef
  set φ := v'.toSpherical3 2
  set y' := dv F (F.legD p X).1 (F.sph v' 2) n
  have hY : ∀ m : ℤ, |m| ≤ n → ‖y' m - rY (dirV T φ) n m‖ ≤ ((1 + u) ^ (6 * n + 4) - 1) * ‖rY (dirV T φ) n m‖ + (1 + u) ^ (6 * n + 4) * g :=
    fun m hm => dvY_err hF hX hn hm
  refine l2_entry hu hg hY (by rw [l2_rY, len3_dirV, one_pow]) ?_
  rw [mul_one]
  nlinarith [mul_le_mul_of_nonneg_left hg2 hsq]

/-- The table of derivatives. -/
theorem tabD (hF : F.LowD u g η ρ) {s : ℝ} {p κ : ℕ} (hκ : FrameCost u g s p κ) {v v' : Vec 3}
    (hv : len3 (v' - v) ≤ u * len3 v) (h0 : v ≠ 0) (hη : 2 * η ≤ len3 v) (hs : s * len3 v ≤ Vec.hypot (v 0) (v 1)) {n : ℕ} (hn : n ≤ p) {k : ℝ} (hk : (n : ℝ) ≤ k) :
    VAp u (6 * n + 4 + κ) k (Ir n) (dv F (F.legD p (F.rcos (F.sph v' 1))).2 (F.sph v' 2) n)
      (rD (dirV (tht F v') (v'.toSpherical3 2)) (thetaV (tht F v') (v'.toSpherical3 2)) n) := by
  have hu := hF.nonneg
  have hg := gpos hF.toLow3
  obtain ⟨hX, hcos, hT, -, -⟩ := frame hF hκ hv h0 hη hs
  have hs0 := hκ.pos
  have hs1 := hκ.le_one
  have htab := hκ.tab_le hg hn
  have hsq : 0 ≤ Real.sqrt (2 * n + 1) := Real.sqrt_nonneg _
  have hg2 : g ≤ 2 * g / s := by rw [le_div_iff₀ hs0]; nlinarith
  clear hη
  refine (l2_entry hu (B := (n : ℝ)) (mul_nonneg hg (Nat.cast_nonneg n)) (fun m hm => dvD_err hF hX hn hm)
    (l2_rD (len3_dirV (tht F v') (v'.toSpherical3 2)) (len3_thetaV (tht F v') (v'.toSpherical3 2)) (dot_dir_theta (tht F v') (v'.toSpherical3 2)) n) ?_).mono hu le_rfl hk
  have hn0 : (0 : ℝ) ≤ n := Nat.cast_nonneg n
  have a1 : Real.sqrt (2 * n + 1) * g ≤ (1 + u) ^ κ - 1 := by nlinarith [mul_le_mul_of_nonneg_left hg2 hsq]
  nlinarith [mul_le_mul_of_nonneg_right a1 hn0]

/-- The table of values, times the order. -/
theorem tabP (hF : F.LowD u g η ρ) {s : ℝ} {p κ : ℕ} (hκ : FrameCost u g s p κ) {v v' : Vec 3}
    (hv : len3 (v' - v) ≤ u * len3 v) (h0 : v ≠ 0) (hη : 2 * η ≤ len3 v) (hs : s * len3 v ≤ Vec.hypot (v 0) (v 1)) {n : ℕ} (hn : n ≤ p) {k : ℝ} (hk : (n : ℝ) ≤ k) :
    VAp u (6 * n + 4 + κ) (Real.sin (tht F v') * k) (Ir n) (fun m => Complex.I * m * dv F (F.legD p (F.rcos (F.sph v' 1))).1 (F.sph v' 2) n m)
      (fun m => Complex.I * m * rY (dirV (tht F v') (v'.toSpherical3 2)) n m) := by
  have hu := hF.nonneg
  have hg := gpos hF.toLow3
  obtain ⟨hX, hcos, hT, -, -⟩ := frame hF hκ hv h0 hη hs
  have hs0 := hκ.pos
  have hs1 := hκ.le_one
  have htab := hκ.tab_le hg hn
  have hsq : 0 ≤ Real.sqrt (2 * n + 1) := Real.sqrt_nonneg _
  have hg2 : g ≤ 2 * g / s := by rw [le_div_iff₀ hs0]; nlinarith
  clear hη
  set X := F.rcos (F.sph v' 1)
  set T := tht F v' with hTdef
  set φ := v'.toSpherical3 2
  set y' := dv F (F.legD p X).1 (F.sph v' 2) n
  have hY : ∀ m : ℤ, |m| ≤ n → ‖y' m - rY (dirV T φ) n m‖ ≤ ((1 + u) ^ (6 * n + 4) - 1) * ‖rY (dirV T φ) n m‖ + (1 + u) ^ (6 * n + 4) * g :=
    fun m hm => dvY_err hF hX hn hm
  have hT0 : 0 < Real.sin T := by linarith [mul_pos (by norm_num : (0 : ℝ) < 9 / 10) hs0]
  have hrot : ∀ m : ℤ, Complex.I * m * rY (dirV T φ) n m = (Real.sin T : ℂ) * rD (dirV T φ) (phiV φ) n m := fun m => (rD_phi T φ n m).symm
  have hb : l2 (Ir n) (fun m => Complex.I * m * rY (dirV T φ) n m) ≤ Real.sin T * n := by
    simp only [hrot]
    rw [l2_smul, Complex.norm_real, Real.norm_of_nonneg hT0.le]
    exact mul_le_mul_of_nonneg_left (l2_rD (len3_dirV T φ) (len3_phiV φ) (dot_dir_phi T φ) n) hT0.le
  refine (l2_entry hu (B := Real.sin T * n) (γ := g * n) (mul_nonneg hg (Nat.cast_nonneg n)) (fun m hm => ?_) hb ?_).mono hu le_rfl
    (mul_le_mul_of_nonneg_left hk hT0.le)
  · have hm' : ‖Complex.I * (m : ℂ)‖ ≤ n := by
      rw [norm_mul, Complex.norm_I, one_mul, Complex.norm_intCast]
      exact_mod_cast hm
    rw [← mul_sub, norm_mul, norm_mul (Complex.I * (m : ℂ))]
    have a1 := mul_le_mul_of_nonneg_left (hY m hm) (norm_nonneg (Complex.I * (m : ℂ)))
    have a2 := mul_le_mul_of_nonneg_right hm' (show 0 ≤ (1 + u) ^ (6 * n + 4) * g by positivity)
    linarith
  · have hn0 : (0 : ℝ) ≤ n := Nat.cast_nonneg n
    have a0 : g ≤ Real.sin T * (2 * g / s) := by
      rw [← mul_div_assoc, le_div_iff₀ hs0]
      nlinarith [mul_le_mul_of_nonneg_left hT hg]
    have a1 : Real.sqrt (2 * n + 1) * g ≤ Real.sin T * ((1 + u) ^ κ - 1) := by
      have b1 := mul_le_mul_of_nonneg_left a0 hsq
      have b2 : Real.sqrt (2 * n + 1) * (2 * g / s) ≤ (1 + u) ^ κ - 1 := by linarith
      have b3 := mul_le_mul_of_nonneg_left b2 hT0.le
      linarith
    nlinarith [mul_le_mul_of_nonneg_right a1 hn0]

/-- Roundings in the factors of degree `n`, the power being computed with `e` roundings. -/
theorem zc_ap (hF : F.LowD u g η ρ) {s : ℝ} {p κ : ℕ} (hκ : FrameCost u g s p κ) {v v' : Vec 3}
    (hv : len3 (v' - v) ≤ u * len3 v) (h0 : v ≠ 0) (hη : 2 * η ≤ len3 v) (hs : s * len3 v ≤ Vec.hypot (v 0) (v 1)) {σ P Pm P' k : ℝ} (hσ : |σ| = 1) {e n : ℕ}
    (hP : Ap u e Pm P' P) (hn : n ≤ p) (hk : (n : ℝ) ≤ k) (j : Fin 3) :
    VAp u (e + (6 * n + 4) + 2 * κ) (Pm * k) (Ir n) (zc σ P' k (F.rsin (F.sph v' 1))
        (dv F (F.legD p (F.rcos (F.sph v' 1))).1 (F.sph v' 2) n) (dv F (F.legD p (F.rcos (F.sph v' 1))).2 (F.sph v' 2) n) j)
      (ze σ P k (tht F v') (v'.toSpherical3 2) n j) := by
  have hu := hF.nonneg
  obtain ⟨hX, hcos, hT, -, -⟩ := frame hF hκ hv h0 hη hs
  obtain ⟨hR0, -, hRi⟩ := frame_sin hF hκ hv h0 hη hs
  have hs0 := hκ.pos
  have hk0 : 0 ≤ k := (Nat.cast_nonneg n).trans hk
  have hY := tabY hF hκ hv h0 hη hs hn
  have hD := tabD hF hκ hv h0 hη hs hn hk
  have hI := tabP hF hκ hv h0 hη hs hn hk
  set X := F.rcos (F.sph v' 1)
  set T := tht F v' with hTdef
  set φ := v'.toSpherical3 2
  set R := F.rsin (F.sph v' 1)
  set y' := dv F (F.legD p X).1 (F.sph v' 2) n
  set d' := dv F (F.legD p X).2 (F.sph v' 2) n
  fin_cases j
  · have h2 : Ap u e (Pm * k) (σ * P' * k) (σ * P * k) := by
      have a1 : Ap u 0 (|σ|) σ σ := Ap.refl le_rfl
      have a2 : Ap u 0 k k k := Ap.refl (by rw [Real.norm_of_nonneg hk0])
      have a3 := (a1.mul hu hP).mul hu a2
      rw [hσ, one_mul] at a3
      exact a3.mono hu (by omega) le_rfl
    have h3 := VAp.scale hu h2 hY
    rw [mul_one] at h3
    exact h3.mono hu (by omega) le_rfl
  · exact (VAp.scale hu hP hD).mono hu (by omega) le_rfl
  · have hT0 : 0 < Real.sin T := by linarith [mul_pos (by norm_num : (0 : ℝ) < 9 / 10) hs0]
    have hrot : ∀ m : ℤ, Complex.I * m * rY (dirV T φ) n m = (Real.sin T : ℂ) * rD (dirV T φ) (phiV φ) n m := fun m => (rD_phi T φ n m).symm
    have h2 := VAp.scale hu (hP.mul hu hRi) hI
    have e1 : Pm * (Real.sin T)⁻¹ * (Real.sin T * k) = Pm * k := by field_simp
    rw [e1] at h2
    have h3 := h2.mono hu (m := e + (6 * n + 4) + 2 * κ) (by omega) (le_refl (Pm * k))
    refine h3.congr (fun m _ => ?_) fun m _ => ?_
    · show ((P' * R⁻¹ : ℝ) : ℂ) * (Complex.I * m * y' m) = (P' : ℂ) * (Complex.I * m * y' m) / (R : ℂ)
      push_cast; ring
    · show ((P * (Real.sin T)⁻¹ : ℝ) : ℂ) * (Complex.I * m * rY (dirV T φ) n m) = (P : ℂ) * rD (dirV T φ) (phiV φ) n m
      rw [hrot]
      have : (Real.sin T : ℂ) ≠ 0 := by exact_mod_cast hT0.ne'
      push_cast
      push_cast at this
      field_simp

theorem u_le_sin {s S : ℝ} {κ : ℕ} (hu : 0 ≤ u) (hs0 : 0 < s) (hs1 : s ≤ 1) (hκ : 32 ≤ (κ : ℝ) * s ^ 2) (hS : 9 / 10 * s ≤ S) :
    u ≤ S * ((1 + u) ^ κ - 1) := by
  have b0 : (0 : ℝ) ≤ κ := Nat.cast_nonneg κ
  have b1 := one_add_mul_le_pow (show (-2 : ℝ) ≤ u by linarith) κ
  have b2 : 32 ≤ (κ : ℝ) * s := by nlinarith [mul_nonneg b0 hs0.le]
  have c1 : 1 ≤ S * κ := by
    have := mul_le_mul_of_nonneg_right hS b0
    linarith
  have b3 : u ≤ S * (κ * u) := by
    have := mul_le_mul_of_nonneg_right c1 hu
    linarith
  exact b3.trans (mul_le_mul_of_nonneg_left (by linarith) (by linarith))

/-- The majorants in the Euclidean norm. -/
theorem zm_l2 (hF : F.LowD u g η ρ) {s : ℝ} {p κ : ℕ} (hsc : Scale3 u η θ τ ν p) (hκ : FrameCost u g s p κ) {v v' : Vec 3}
    (hv : len3 (v' - v) ≤ u * len3 v) (h0 : v ≠ 0) (hη : 2 * η ≤ len3 v) (hs : s * len3 v ≤ Vec.hypot (v 0) (v 1)) {P Pm P' k : ℝ} {e n : ℕ}
    (hP : Ap u e Pm P' P) (hn : n ≤ p) (hk : (n : ℝ) ≤ k) (hk1 : 1 ≤ k) (j : Fin 3) :
    l2 (Ir n) (zm (‖P'‖ + ν * Pm) k (F.rsin (F.sph v' 1))
        (fun m => ‖dv F (F.legD p (F.rcos (F.sph v' 1))).1 (F.sph v' 2) n m‖ + ν)
        (fun m => ‖dv F (F.legD p (F.rcos (F.sph v' 1))).2 (F.sph v' 2) n m‖ + ν) j)
      ≤ (1 + u) ^ (e + (6 * n + 5) + 3 * κ) * (Pm * k) := by
  have hu := hF.nonneg
  obtain ⟨hX, hcos, hT, -, -⟩ := frame hF hκ hv h0 hη hs
  obtain ⟨hR0, -, hRi⟩ := frame_sin hF hκ hv h0 hη hs
  have hs0 := hκ.pos
  have hs1 := hκ.le_one
  have hκ1 := hκ.le
  have hY := (tabY hF hκ hv h0 hη hs hn).norm
  have hD := (tabD hF hκ hv h0 hη hs hn hk).norm
  have hI := (tabP hF hκ hv h0 hη hs hn hk).norm
  set X := F.rcos (F.sph v' 1)
  set T := tht F v' with hTdef
  set R := F.rsin (F.sph v' 1)
  set y' := dv F (F.legD p X).1 (F.sph v' 2) n
  set d' := dv F (F.legD p X).2 (F.sph v' 2) n
  have hν := hsc.nu0
  have hPm := hP.nonneg
  have hT0 : 0 < Real.sin T := by linarith [mul_pos (by norm_num : (0 : ℝ) < 9 / 10) hs0]
  have hcst : l2 (Ir n) (fun _ => ν) ≤ u := by
    have h3 := l2_le_card (s := Ir n) (x := fun _ => ν) (b := ν) hν (fun _ _ => by rw [Real.norm_of_nonneg hν])
    rw [card_Ir] at h3
    push_cast at h3
    have h4 := hsc.nu_sqrt (l := n) (by omega)
    rw [mul_comm] at h4
    exact h3.trans h4
  have hPn : ‖P'‖ + ν * Pm ≤ (1 + u) ^ (e + 1) * Pm := by
    have a1 := mul_le_mul_of_nonneg_right hsc.nu_le hPm
    have a2 : u * Pm ≤ (1 + u) ^ e * (u * Pm) := le_mul_of_one_le_left (by positivity) (one_le_pow_u hu e)
    have a3 := hP.norm
    rw [pow_succ]; linarith
  have hPn0 : 0 ≤ ‖P'‖ + ν * Pm := by positivity
  have hN1 := one_le_pow_u hu (6 * n + 4 + κ)
  have hk0 : 0 ≤ k := zero_le_one.trans hk1
  have hyn : l2 (Ir n) (fun m => ‖y' m‖ + ν) ≤ (1 + u) ^ (6 * n + 5 + κ) := by
    have h2 := l2_add (Ir n) (fun m => ‖y' m‖) (fun _ => ν)
    rw [l2_norm] at h2
    have e1 : (1 + u) ^ (6 * n + 5 + κ) = (1 + u) ^ (6 * n + 4 + κ) * (1 + u) := by rw [← pow_succ]; congr 1; omega
    rw [e1]
    rw [mul_one] at hY
    nlinarith
  have hdn : l2 (Ir n) (fun m => ‖d' m‖ + ν) ≤ (1 + u) ^ (6 * n + 5 + κ) * k := by
    have h2 := l2_add (Ir n) (fun m => ‖d' m‖) (fun _ => ν)
    rw [l2_norm] at h2
    have e1 : (1 + u) ^ (6 * n + 5 + κ) = (1 + u) ^ (6 * n + 4 + κ) * (1 + u) := by rw [← pow_succ]; congr 1; omega
    rw [e1]
    have a1 : u ≤ (1 + u) ^ (6 * n + 4 + κ) * k * u := le_mul_of_one_le_left hu (by nlinarith)
    linarith
  have hmono : (1 + u) ^ (e + 1 + (6 * n + 5 + κ)) ≤ (1 + u) ^ (e + (6 * n + 5) + 3 * κ) := by
    have hκ0 : 0 < κ := by
      rcases Nat.eq_zero_or_pos κ with h | h
      · rw [h, Nat.cast_zero, zero_mul] at hκ1; linarith
      · exact h
    exact pow_le_pow_right₀ (by linarith) (by omega)
  fin_cases j
  · show l2 (Ir n) (fun m => (‖P'‖ + ν * Pm) * k * (‖y' m‖ + ν)) ≤ _
    rw [l2_smulR _ (mul_nonneg hPn0 hk0)]
    have a1 := mul_le_mul (mul_le_mul_of_nonneg_right hPn hk0) hyn (l2_nonneg _ _) (by positivity)
    have a2 := mul_le_mul_of_nonneg_right hmono (mul_nonneg hPm hk0)
    rw [pow_add] at a2
    exact a1.trans (le_trans (le_of_eq (by ring)) a2)
  · show l2 (Ir n) (fun m => (‖P'‖ + ν * Pm) * (‖d' m‖ + ν)) ≤ _
    rw [l2_smulR _ hPn0]
    have a1 := mul_le_mul hPn hdn (l2_nonneg _ _) (by positivity)
    have a2 := mul_le_mul_of_nonneg_right hmono (mul_nonneg hPm hk0)
    rw [pow_add] at a2
    exact a1.trans (le_trans (le_of_eq (by ring)) a2)
  · show l2 (Ir n) (fun m => (‖P'‖ + ν * Pm) * (|(m : ℝ)| * (‖y' m‖ + ν)) * |R|⁻¹) ≤ _
    have e2 : (fun m : ℤ => (‖P'‖ + ν * Pm) * (|(m : ℝ)| * (‖y' m‖ + ν)) * |R|⁻¹)
        = fun m : ℤ => ((‖P'‖ + ν * Pm) * |R|⁻¹) * (‖Complex.I * m * y' m‖ + |(m : ℝ)| * ν) := by
      funext m
      rw [norm_mul, norm_mul, Complex.norm_I, one_mul, Complex.norm_intCast]; ring
    have hR1 : |R|⁻¹ ≤ (1 + u) ^ κ * (Real.sin T)⁻¹ := by
      have := hRi.norm
      rwa [norm_inv, Real.norm_eq_abs] at this
    have hR2 : 0 ≤ |R|⁻¹ := inv_nonneg.mpr (abs_nonneg _)
    rw [e2, l2_smulR _ (mul_nonneg hPn0 hR2)]
    have h2 := l2_add (Ir n) (fun m => ‖Complex.I * m * y' m‖) (fun m => |(m : ℝ)| * ν)
    rw [l2_norm] at h2
    have h3 : l2 (Ir n) (fun m : ℤ => |(m : ℝ)| * ν) ≤ u * k := by
      have b1 : l2 (Ir n) (fun m : ℤ => |(m : ℝ)| * ν) ≤ l2 (Ir n) (fun _ => k * ν) := by
        refine l2_mono fun m hm => ?_
        have hm' : |(m : ℝ)| ≤ n := by exact_mod_cast mem_Ir.mp hm
        rw [Real.norm_of_nonneg (by positivity), Real.norm_of_nonneg (by positivity)]
        exact mul_le_mul_of_nonneg_right (hm'.trans hk) hν
      rw [l2_smulR _ hk0] at b1
      nlinarith [mul_le_mul_of_nonneg_left hcst hk0]
    have h4 : u ≤ Real.sin T * ((1 + u) ^ κ - 1) := u_le_sin hu hs0 hs1 hκ1 hT
    have h5 : l2 (Ir n) (fun m : ℤ => ‖Complex.I * m * y' m‖ + |(m : ℝ)| * ν) ≤ (1 + u) ^ (6 * n + 4 + 2 * κ) * (Real.sin T * k) := by
      have b1 := mul_le_mul_of_nonneg_right h4 hk0
      have b2 := one_le_pow_u hu κ
      have e3 : (1 + u) ^ (6 * n + 4 + 2 * κ) = (1 + u) ^ (6 * n + 4 + κ) * (1 + u) ^ κ := by rw [← pow_add]; congr 1; omega
      have b3 : 0 ≤ (((1 + u) ^ (6 * n + 4 + κ) - 1) * ((1 + u) ^ κ - 1)) * (Real.sin T * k) :=
        mul_nonneg (mul_nonneg (by linarith) (by linarith)) (mul_nonneg hT0.le hk0)
      rw [e3]
      have e6 : (((1 + u) ^ (6 * n + 4 + κ) - 1) * ((1 + u) ^ κ - 1)) * (Real.sin T * k)
          = (1 + u) ^ (6 * n + 4 + κ) * (1 + u) ^ κ * (Real.sin T * k) - (1 + u) ^ (6 * n + 4 + κ) * (Real.sin T * k)
            - Real.sin T * ((1 + u) ^ κ - 1) * k := by ring
      rw [e6] at b3
      linarith
    have a1 := mul_le_mul (mul_le_mul hPn hR1 hR2 (by positivity)) h5 (l2_nonneg _ _) (by positivity)
    refine a1.trans (le_of_eq ?_)
    have e4 : (1 + u) ^ (e + (6 * n + 5) + 3 * κ) = (1 + u) ^ (e + 1) * (1 + u) ^ κ * (1 + u) ^ (6 * n + 4 + 2 * κ) := by
      rw [← pow_add, ← pow_add]; congr 1; omega
    rw [e4]
    field_simp

/-! ## Components in the spherical frame -/

set_option maxHeartbeats 1600000 in
/-- Values with computed coefficients and computed factors. -/
theorem comp_ap (hu : 0 ≤ u) {N : ℕ} (dg : ℕ → ℕ) {n K E E' : ℕ} (hEE : E ≤ E' + 1) (b b' : ℕ → ℤ → ℂ) (α : ℕ → ℤ → ℝ) (z' z : ℕ → ℤ → ℂ) (β : ℕ → ℤ → ℝ)
    (ζ : ℕ → ℝ) {w M : ℝ}
    (hz : ∀ i < N, VAp u E (ζ i) (Ir (dg i)) (z' i) (z i))
    (hβ : ∀ i < N, l2 (Ir (dg i)) (β i) ≤ (1 + u) ^ E' * ζ i)
    (hw : Ap u K (∑ i ∈ range N, ∑ m ∈ Ir (dg i), α (dg i) m * β i m) w
      (∑ i ∈ range N, ∑ m ∈ Ir (dg i), (b' (dg i) m * z' i m).re))
    (h1 : ∑ i ∈ range N, l2 (Ir (dg i)) (fun m => b' (dg i) m - b (dg i) m) * ζ i ≤ ((1 + u) ^ n - 1) * M)
    (h2 : ∑ i ∈ range N, l2 (Ir (dg i)) (b (dg i)) * ζ i ≤ M)
    (h4 : ∑ i ∈ range N, l2 (Ir (dg i)) (α (dg i)) * ζ i ≤ (1 + u) ^ (n + 1) * M) :
    Ap u (n + (K + (E' + 1))) M w (∑ i ∈ range N, ∑ m ∈ Ir (dg i), b (dg i) m * z i m).re := by
  have hK := one_le_pow_u hu K
  have hE := one_le_pow_u hu E
  have hN := one_le_pow_u hu n
  have hE' := one_le_pow_u hu E'
  have hζ : ∀ i < N, 0 ≤ ζ i := fun i hi => (hz i hi).nonneg
  have hM : 0 ≤ M := le_trans (sum_nonneg fun i hi => mul_nonneg (l2_nonneg _ _) (hζ i (mem_range.mp hi))) h2
  have h3 : ∑ i ∈ range N, l2 (Ir (dg i)) (b' (dg i)) * ζ i ≤ (1 + u) ^ n * M := by
    have : ∑ i ∈ range N, l2 (Ir (dg i)) (b' (dg i)) * ζ i ≤ ∑ i ∈ range N, l2 (Ir (dg i)) (fun m => b' (dg i) m - b (dg i) m) * ζ i
        + ∑ i ∈ range N, l2 (Ir (dg i)) (b (dg i)) * ζ i := by
      rw [← sum_add_distrib]
      refine sum_le_sum fun i hi => ?_
      rw [← add_mul]
      refine mul_le_mul_of_nonneg_right ?_ (hζ i (mem_range.mp hi))
      rw [add_comm]
      exact l2_le_add _ _ _
    linarith
  have hre : ∀ (x : ℕ → ℤ → ℂ), (∑ i ∈ range N, ∑ m ∈ Ir (dg i), x i m).re = ∑ i ∈ range N, ∑ m ∈ Ir (dg i), (x i m).re := fun x => by
    rw [Complex.re_sum]; exact sum_congr rfl fun i _ => Complex.re_sum _ _
  have cs : ∀ i, ∀ x y : ℤ → ℂ, ∑ m ∈ Ir (dg i), ‖x m‖ * ‖y m‖ ≤ l2 (Ir (dg i)) x * l2 (Ir (dg i)) y := fun i x y => by
    have h := sum_mul_le_l2 (Ir (dg i)) (fun m => ‖x m‖) (fun m => ‖y m‖)
    rw [l2_norm, l2_norm] at h
    refine le_trans (le_of_eq ?_) h
    exact sum_congr rfl fun m _ => rfl
  have big : ∀ (x y : ℕ → ℤ → ℂ) , ‖∑ i ∈ range N, ∑ m ∈ Ir (dg i), x (dg i) m * y i m‖
      ≤ ∑ i ∈ range N, l2 (Ir (dg i)) (x (dg i)) * l2 (Ir (dg i)) (y i) := fun x y => by
    refine (norm_sum_le _ _).trans (sum_le_sum fun i _ => (norm_sum_le _ _).trans ?_)
    refine le_trans (le_of_eq (sum_congr rfl fun m _ => norm_mul _ _)) (cs i _ _)
  -- magnitude of the computed sum
  have m1 : ∑ i ∈ range N, ∑ m ∈ Ir (dg i), α (dg i) m * β i m ≤ (1 + u) ^ E' * ((1 + u) ^ (n + 1) * M) := by
    refine le_trans (sum_le_sum (g := fun i => (1 + u) ^ E' * (l2 (Ir (dg i)) (α (dg i)) * ζ i)) fun i hi =>
      (sum_mul_le_l2 (Ir (dg i)) (α (dg i)) (β i)).trans ?_) ?_
    · have := mul_le_mul_of_nonneg_left (hβ i (mem_range.mp hi)) (l2_nonneg (Ir (dg i)) (α (dg i)))
      linarith
    · rw [← mul_sum]
      exact mul_le_mul_of_nonneg_left h4 (by linarith)
  have d1 : |w - (∑ i ∈ range N, ∑ m ∈ Ir (dg i), b' (dg i) m * z' i m).re| ≤ ((1 + u) ^ K - 1) * ((1 + u) ^ E' * ((1 + u) ^ (n + 1) * M)) := by
    rw [hre]
    exact hw.1.trans (mul_le_mul_of_nonneg_left m1 (by linarith))
  have d2 : ‖∑ i ∈ range N, ∑ m ∈ Ir (dg i), b' (dg i) m * z' i m - ∑ i ∈ range N, ∑ m ∈ Ir (dg i), b' (dg i) m * z i m‖
      ≤ ((1 + u) ^ E - 1) * ((1 + u) ^ n * M) := by
    have e : ∑ i ∈ range N, ∑ m ∈ Ir (dg i), b' (dg i) m * z' i m - ∑ i ∈ range N, ∑ m ∈ Ir (dg i), b' (dg i) m * z i m
        = ∑ i ∈ range N, ∑ m ∈ Ir (dg i), b' (dg i) m * (fun i m => z' i m - z i m) i m := by
      rw [← sum_sub_distrib]
      refine sum_congr rfl fun i _ => ?_
      rw [← sum_sub_distrib]
      exact sum_congr rfl fun m _ => by ring
    rw [e]
    refine (big b' (fun i m => z' i m - z i m)).trans ?_
    refine le_trans (sum_le_sum (g := fun i => ((1 + u) ^ E - 1) * (l2 (Ir (dg i)) (b' (dg i)) * ζ i)) fun i hi => ?_) ?_
    · have := mul_le_mul_of_nonneg_left (hz i (mem_range.mp hi)).1 (l2_nonneg (Ir (dg i)) (b' (dg i)))
      linarith
    · rw [← mul_sum]
      exact mul_le_mul_of_nonneg_left h3 (by linarith)
  have d3 : ‖∑ i ∈ range N, ∑ m ∈ Ir (dg i), b' (dg i) m * z i m - ∑ i ∈ range N, ∑ m ∈ Ir (dg i), b (dg i) m * z i m‖
      ≤ ((1 + u) ^ n - 1) * M := by
    have e : ∑ i ∈ range N, ∑ m ∈ Ir (dg i), b' (dg i) m * z i m - ∑ i ∈ range N, ∑ m ∈ Ir (dg i), b (dg i) m * z i m
        = ∑ i ∈ range N, ∑ m ∈ Ir (dg i), (fun l m => b' l m - b l m) (dg i) m * z i m := by
      rw [← sum_sub_distrib]
      refine sum_congr rfl fun i _ => ?_
      rw [← sum_sub_distrib]
      exact sum_congr rfl fun m _ => by ring
    rw [e]
    refine (big (fun l m => b' l m - b l m) z).trans (le_trans (sum_le_sum fun i hi => ?_) h1)
    exact mul_le_mul_of_nonneg_left (hz i (mem_range.mp hi)).2 (l2_nonneg _ _)
  have m2 : ‖∑ i ∈ range N, ∑ m ∈ Ir (dg i), b (dg i) m * z i m‖ ≤ M := by
    refine (big b z).trans (le_trans (sum_le_sum fun i hi => ?_) h2)
    exact mul_le_mul_of_nonneg_left (hz i (mem_range.mp hi)).2 (l2_nonneg _ _)
  refine ⟨?_, by rw [Real.norm_eq_abs]; exact (Complex.abs_re_le_norm _).trans m2⟩
  rw [Real.norm_eq_abs]
  set A := ∑ i ∈ range N, ∑ m ∈ Ir (dg i), b' (dg i) m * z' i m
  set B := ∑ i ∈ range N, ∑ m ∈ Ir (dg i), b' (dg i) m * z i m
  set C := ∑ i ∈ range N, ∑ m ∈ Ir (dg i), b (dg i) m * z i m
  have e2 : |A.re - B.re| ≤ ‖A - B‖ := by rw [← Complex.sub_re]; exact Complex.abs_re_le_norm _
  have e3 : |B.re - C.re| ≤ ‖B - C‖ := by rw [← Complex.sub_re]; exact Complex.abs_re_le_norm _
  have t1 := abs_sub_le w A.re C.re
  have t2 := abs_sub_le A.re B.re C.re
  have hEm : ((1 + u) ^ E - 1) * ((1 + u) ^ n * M) ≤ ((1 + u) ^ (E' + 1) - 1) * ((1 + u) ^ n * M) :=
    mul_le_mul_of_nonneg_right (by linarith [pow_le_pow_right₀ (show 1 ≤ 1 + u by linarith) hEE]) (mul_nonneg (by linarith) hM)
  have e5 : (1 + u) ^ E' * ((1 + u) ^ (n + 1) * M) = (1 + u) ^ (E' + 1) * ((1 + u) ^ n * M) := by rw [pow_succ, pow_succ]; ring
  rw [e5] at d1
  rw [pow_add, pow_add (1 + u) K]
  linarith

/-! ## The Cartesian components -/

theorem toBasis_ap (hF : F.LowD u g η ρ) {s : ℝ} {p κ : ℕ} (hκ : FrameCost u g s p κ) {v v' : Vec 3}
    (hv : len3 (v' - v) ≤ u * len3 v) (h0 : v ≠ 0) (hη : 2 * η ≤ len3 v) (hs : s * len3 v ≤ Vec.hypot (v 0) (v 1)) {N : ℕ} {M : ℝ} {f' f : Vec 3}
    (hf : ∀ j, Ap u N M (f' j) (f j)) (hfl : Flr η M) (i : Fin 3) :
    Ap u (N + κ + 9) (3 * M) (F.toBasis f' (F.sph v' 1) (F.sph v' 2) i) (Vec.toCartesianBasis f (tht F v') (v'.toSpherical3 2) i) := by
  have hu := hF.nonneg
  have hFF := hF.toLow3.toLow
  obtain ⟨hX, hcos, -, -, -⟩ := frame hF hκ hv h0 hη hs
  obtain ⟨-, hst, -⟩ := frame_sin hF hκ hv h0 hη hs
  obtain ⟨hcp, hsp⟩ := frame_phi hF v'
  have hM := (hf 0).nonneg
  have hct : Ap u 0 1 (F.rcos (F.sph v' 1)) (Real.cos (tht F v')) := by
    rw [hcos]; exact Ap.refl (by rw [Real.norm_eq_abs]; exact hX.le)
  have f1 : Flr η (1 * M) := by rw [one_mul]; exact hfl
  have f2 : Flr η (1 * M + 1 * M) := f1.add f1 (by linarith) (by linarith)
  have f3 : Flr η (1 * (1 * M + 1 * M)) := by rw [one_mul]; exact f2
  have f4 : Flr η (1 * (1 * M + 1 * M) + 1 * M) := f3.add f1 (by linarith) (by linarith)
  have a0 := rmul hFF hst (hf 0) f1
  have a1 := rmul hFF hct (hf 1) f1
  have a2 := radd hFF a0 a1 f2 (k := N + κ + 2) (by omega) (by omega)
  have b0 := rmul hFF hcp a2 f3
  have b1 := rmul hFF hsp a2 f3
  have c0 := rmul hFF hsp (hf 2) f1
  have c1 := rmul hFF hcp (hf 2) f1
  have d0 := rmul hFF hct (hf 0) f1
  have d1 := rmul hFF hst (hf 1) f1
  fin_cases i
  · exact (rsub hFF b0 c0 f4 (k := N + κ + 9) (by omega) (by omega)).mono hu le_rfl (by linarith)
  · exact (radd hFF b1 c1 f4 (k := N + κ + 9) (by omega) (by omega)).mono hu le_rfl (by linarith)
  · exact (rsub hFF d0 d1 f2 (k := N + κ + 9) (by omega) (by omega)).mono hu le_rfl (by linarith)

end Lo3
end FMM
