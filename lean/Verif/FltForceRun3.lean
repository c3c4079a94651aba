import Verif.FltYlmD
import Verif.FltOpsLE3

/-!
# Runs of `evaluateForcefield` of the three-dimensional expansions in floating-point arithmetic

Each computed spherical component approximates the sum of the coefficients times the computed derivatives of the solid
harmonics; the tables of these are compared with the exact derivatives in the frame of the computed direction.
-/

namespace FMM
open Finset

namespace Fl3
variable {F : Flt3} {u g : ℝ}

theorem _root_.FMM.Ap.radd {F : Flt} (hF : F.Ok u) {n m k : ℕ} {M N : ℝ} {x' x y' y : ℝ} (h : Ap u n M x' x) (h' : Ap u m N y' y)
    (hn : n + 1 ≤ k) (hm : m + 1 ≤ k) : Ap u k (M + N) (F.rnd (x' + y')) (x + y) := by
  have h1 := hF.rrnd ((h.mono hF.nonneg (m := k - 1) (by omega) le_rfl).add (h'.mono hF.nonneg (m := k - 1) (by omega) le_rfl))
  rwa [Nat.sub_add_cancel (by omega)] at h1

theorem _root_.FMM.Ap.rsub {F : Flt} (hF : F.Ok u) {n m k : ℕ} {M N : ℝ} {x' x y' y : ℝ} (h : Ap u n M x' x) (h' : Ap u m N y' y)
    (hn : n + 1 ≤ k) (hm : m + 1 ≤ k) : Ap u k (M + N) (F.rnd (x' - y')) (x - y) := by
  rw [sub_eq_add_neg, sub_eq_add_neg]
  exact h.radd hF h'.neg hn hm

theorem _root_.FMM.Ap.rmul {F : Flt} (hF : F.Ok u) {n m : ℕ} {M N : ℝ} {x' x y' y : ℝ} (h : Ap u n M x' x) (h' : Ap u m N y' y) :
    Ap u (n + m + 1) (M * N) (F.rnd (x' * y')) (x * y) := hF.rrnd (h.mul hF.nonneg h')

/-! ## The loops -/

theorem loopZ_apV {F : Flt} (hF : F.Ok u) (lo hi : ℤ) (f : ℤ → Vec 3 → Outcome (Vec 3)) (t : ℤ → Vec 3) (M : Fin 3 → ℤ → ℝ) {c n0 : ℕ}
    {s' s : Vec 3} {M0 : Fin 3 → ℝ} (hs : ∀ j, Ap u n0 (M0 j) (s' j) (s j)) (hc : c ≤ n0)
    (h : ∀ m, lo ≤ m → m ≤ hi → ∃ t' : Vec 3, (∀ b, f m b = .ok (fun j => F.rnd (b j + t' j))) ∧ ∀ j, Ap u c (M j m) (t' j) (t m j)) :
    ∃ r, loopZ lo hi f s' = .ok r ∧
      ∀ j, Ap u (n0 + (hi + 1 - lo).toNat) (M0 j + ∑ m ∈ Icc lo hi, M j m) (r j) (s j + ∑ m ∈ Icc lo hi, t m j) := by
  unfold loopZ
  obtain ⟨r, h1, h2⟩ := loopM_invariant (fun i (r : Vec 3) => ∀ j, Ap u (n0 + i) (M0 j + ∑ k ∈ range i, M j (lo + k)) (r j)
      (s j + ∑ k ∈ range i, t (lo + k) j)) (fun i => f (lo + i)) s' (hi + 1 - lo).toNat
    (by intro j; simpa using hs j) (fun i hi' b hb => by
      obtain ⟨t', h1, h2⟩ := h (lo + i) (by omega) (by omega)
      refine ⟨_, h1 b, fun j => ?_⟩
      rw [sum_range_succ, sum_range_succ, ← add_assoc (M0 j), ← add_assoc (s j)]
      exact (hb j).radd hF (h2 j) (by omega) (by omega))
  refine ⟨r, h1, fun j => ?_⟩
  have := h2 j
  rwa [sum_Icc_range lo hi (M j), sum_Icc_range lo hi (fun m => t m j)] at this

/-- The factors of the coefficient `(n, m)` in the three components: `σ` is the sign of the radial term. -/
noncomputable def zc (σ P k : ℝ) (R : ℝ) (y dt : ℤ → ℂ) (j : Fin 3) (m : ℤ) : ℂ :=
  ![((σ * P * k : ℝ) : ℂ) * y m, (P : ℂ) * dt m, (P : ℂ) * (Complex.I * m * y m) / (R : ℂ)] j

theorem forceTerm_run (hF : F.Ok u g) {Y : YlmDerivTable} {theta : ℝ} (hR : F.rsin theta ≠ 0) {n : ℕ} {m : ℤ} {y dt : ℤ → ℂ}
    (h1 : Y.Y n m = .ok (y m)) (h2 : Y.dYdtheta n m = .ok (dt m)) (h3 : dYdphi F Y n m = .ok (F.mul (Complex.I * (m : ℂ)) (y m)))
    (P : ℝ) (sub : Bool) (k : ℕ) (a : ℂ) :
    ∃ t : Vec 3, (∀ f, forceTerm F Y theta P sub k a n m f = .ok (fun j => F.rnd (f j + t j))) ∧
      ∀ j, Ap u 4 (‖a‖ * ‖zc (if sub then -1 else 1) P k (F.rsin theta) y dt j m‖) (t j)
        (a * zc (if sub then -1 else 1) P k (F.rsin theta) y dt j m).re := by
  have hu := hF.nonneg
  set R := F.rsin theta
  set tr : ℝ := F.rnd (F.rnd (P * (k : ℝ)) * (F.mul a (y m)).re) with htr
  set tt : ℝ := F.rnd (P * (F.mul a (dt m)).re) with htt
  set tp : ℝ := F.rnd (F.rnd (P * (F.mul a (F.mul (Complex.I * (m : ℂ)) (y m))).re) / R) with htp
  refine ⟨![if sub then -tr else tr, tt, tp], fun f => ?_, fun j => ?_⟩
  · unfold forceTerm
    rw [h1, ok_bind, h2, ok_bind, h3, ok_bind, divR, if_neg hR, ok_bind]
    congr 1
    funext j
    fin_cases j
    · cases sub
      · rfl
      · show F.rnd (f 0 - tr) = F.rnd (f 0 + -tr)
        rw [sub_eq_add_neg]
    · rfl
    · rfl
  · fin_cases j
    · have hr : Ap u 4 (‖a‖ * ‖((P * k : ℝ) : ℂ) * y m‖) tr (a * (((P * k : ℝ) : ℂ) * y m)).re := by
        have k1 := hF.rrnd (rl hu (P * (k : ℝ)) 0)
        have k2 := (hF.cmul (rl hu a 0) (rl hu (y m) 0)).re
        have k3 := k1.rmul hF.toOk k2
        refine (k3.mono hu (m := 4) (by omega) le_rfl).congr' ?_ ?_
        · rw [norm_mul ((P * k : ℝ) : ℂ), Complex.norm_real]; ring
        · rw [show a * (((P * k : ℝ) : ℂ) * y m) = ((P * k : ℝ) : ℂ) * (a * y m) by ring, Complex.re_ofReal_mul]
      cases sub
      · show Ap u 4 (‖a‖ * ‖((1 * P * k : ℝ) : ℂ) * y m‖) tr (a * (((1 * P * k : ℝ) : ℂ) * y m)).re
        rw [one_mul]; exact hr
      · show Ap u 4 (‖a‖ * ‖((-1 * P * k : ℝ) : ℂ) * y m‖) (-tr) (a * (((-1 * P * k : ℝ) : ℂ) * y m)).re
        have e : ((-1 * P * k : ℝ) : ℂ) * y m = -(((P * k : ℝ) : ℂ) * y m) := by push_cast; ring
        rw [e, norm_neg, mul_neg, Complex.neg_re]; exact hr.neg
    · show Ap u 4 (‖a‖ * ‖(P : ℂ) * dt m‖) tt (a * ((P : ℂ) * dt m)).re
      have k2 := (hF.cmul (rl hu a 0) (rl hu (dt m) 0)).re
      have k3 := (rl hu P 0).rmul hF.toOk k2
      refine (k3.mono hu (m := 4) (by omega) le_rfl).congr' ?_ ?_
      · rw [norm_mul, Complex.norm_real]; ring
      · rw [show a * ((P : ℂ) * dt m) = (P : ℂ) * (a * dt m) by ring, Complex.re_ofReal_mul]
    · show Ap u 4 (‖a‖ * ‖(P : ℂ) * (Complex.I * m * y m) / (R : ℂ)‖) tp (a * ((P : ℂ) * (Complex.I * m * y m) / (R : ℂ))).re
      have k1 := hF.cmul (rl hu (Complex.I * (m : ℂ)) 0) (rl hu (y m) 0)
      have k2 := (hF.cmul (rl hu a 0) k1).re
      have k3 := (rl hu P 0).rmul hF.toOk k2
      have k4 := divR_ap hF k3 hR (rl hu R⁻¹ 0)
      refine (k4.2.mono hu (m := 4) (by omega) le_rfl).congr' ?_ ?_
      · rw [norm_div, norm_mul (P : ℂ), norm_mul (Complex.I * (m : ℂ)) (y m), Complex.norm_real, Complex.norm_real, norm_inv]; ring
      · rw [show a * ((P : ℂ) * (Complex.I * m * y m) / (R : ℂ)) = ((P : ℂ) * (a * (Complex.I * m * y m))) / (R : ℂ) by ring,
          Complex.div_ofReal_re, Complex.re_ofReal_mul]

/-- The loops over the coefficients. -/
theorem forceLoop (hF : F.Ok u g) {e : Exp3} {c : Vec 3} {p : ℕ} {a : ℕ → ℤ → ℂ} (he : e.Is c p a) {Y : YlmDerivTable} {theta : ℝ}
    (hR : F.rsin theta ≠ 0) {y dt : ℕ → ℤ → ℂ}
    (hY : ∀ l ≤ p, ∀ m : ℤ, |m| ≤ l → Y.Y l m = .ok (y l m) ∧ Y.dYdtheta l m = .ok (dt l m) ∧
      dYdphi F Y l m = .ok (F.mul (Complex.I * (m : ℂ)) (y l m)))
    (N : ℕ) (dg : ℕ → ℕ) (hdg : ∀ i < N, dg i ≤ p) (sub : Bool) (step : ℝ → Outcome ℝ) (P : ℕ → ℝ) (hstep : ∀ i, step (P i) = .ok (P (i + 1))) :
    ∃ f : Vec 3, (do
      let (f, _) ← loopM N (fun i (s : Vec 3 × ℝ) => do
        let f ← loopZ (-((dg i : ℕ) : ℤ)) (dg i : ℕ) (fun m f => do
          let a ← e.get (dg i) m
          forceTerm F Y theta s.2 sub (i + 1) a (dg i) m f) s.1
        let rp ← step s.2
        .ok (f, rp)) ((0 : Vec 3), P 0)
      (Except.ok f : Outcome (Vec 3))) = .ok f ∧ ∀ j, Ap u (4 + ∑ i ∈ range N, (2 * dg i + 1))
        (∑ i ∈ range N, ∑ m ∈ Ir (dg i), ‖a (dg i) m‖ * ‖zc (if sub then -1 else 1) (P i) (i + 1 : ℕ) (F.rsin theta) (y (dg i)) (dt (dg i)) j m‖)
        (f j)
        (∑ i ∈ range N, ∑ m ∈ Ir (dg i), (a (dg i) m * zc (if sub then -1 else 1) (P i) (i + 1 : ℕ) (F.rsin theta) (y (dg i)) (dt (dg i)) j m).re) := by
  have hu := hF.nonneg
  obtain ⟨⟨z, r⟩, h1, h2, h3⟩ := loopM_invariant
    (fun i (s : Vec 3 × ℝ) => (∀ j, Ap u (4 + ∑ i ∈ range i, (2 * dg i + 1))
        (∑ i ∈ range i, ∑ m ∈ Ir (dg i), ‖a (dg i) m‖ * ‖zc (if sub then -1 else 1) (P i) (i + 1 : ℕ) (F.rsin theta) (y (dg i)) (dt (dg i)) j m‖)
        (s.1 j)
        (∑ i ∈ range i, ∑ m ∈ Ir (dg i), (a (dg i) m * zc (if sub then -1 else 1) (P i) (i + 1 : ℕ) (F.rsin theta) (y (dg i)) (dt (dg i)) j m).re))
        ∧ s.2 = P i)
    (fun i (s : Vec 3 × ℝ) => do
        let f ← loopZ (-((dg i : ℕ) : ℤ)) (dg i : ℕ) (fun m f => do
          let a ← e.get (dg i) m
          forceTerm F Y theta s.2 sub (i + 1) a (dg i) m f) s.1
        let rp ← step s.2
        .ok (f, rp)) ((0 : Vec 3), P 0) N
    ⟨fun j => by simpa using (Ap.zero le_rfl hu : Ap u 4 0 (0 : ℝ) 0), rfl⟩
    (by
      rintro i hi ⟨z, r⟩ ⟨hz, rfl⟩
      simp only at hz ⊢
      obtain ⟨w, g1, g2⟩ := loopZ_apV hF.toOk (-((dg i : ℕ) : ℤ)) (dg i : ℕ) (fun m f => do
          let a ← e.get (dg i) m
          forceTerm F Y theta (P i) sub (i + 1) a (dg i) m f)
        (fun m j => (a (dg i) m * zc (if sub then -1 else 1) (P i) (i + 1 : ℕ) (F.rsin theta) (y (dg i)) (dt (dg i)) j m).re)
        (fun j m => ‖a (dg i) m‖ * ‖zc (if sub then -1 else 1) (P i) (i + 1 : ℕ) (F.rsin theta) (y (dg i)) (dt (dg i)) j m‖)
        (c := 4) hz (by omega)
        (fun m hm1 hm2 => by
          have hm : |m| ≤ (dg i : ℕ) := by rw [abs_le]; omega
          obtain ⟨y1, y2, y3⟩ := hY (dg i) (hdg i hi) m hm
          obtain ⟨t, t1, t2⟩ := forceTerm_run hF hR (y := y (dg i)) (dt := dt (dg i)) y1 y2 y3 (P i) sub (i + 1) (a (dg i) m)
          refine ⟨t, fun b => ?_, t2⟩
          rw [he.get (hdg i hi) hm, ok_bind, t1])
      rw [g1, ok_bind, hstep, ok_bind]
      refine ⟨_, rfl, fun j => ?_, rfl⟩
      have hcard : (((dg i : ℕ) : ℤ) + 1 - -((dg i : ℕ) : ℤ)).toNat = 2 * dg i + 1 := by omega
      have := g2 j
      rw [hcard] at this
      simp only
      rw [sum_range_succ, sum_range_succ, sum_range_succ]
      exact this.mono hu (by omega) le_rfl)
  rw [h1, ok_bind]
  exact ⟨z, rfl, h2⟩

/-! ## The factors -/

/-- The exact factors, in the frame of a direction. -/
noncomputable def ze (σ P k T φ : ℝ) (n : ℕ) (j : Fin 3) (m : ℤ) : ℂ :=
  ![((σ * P * k : ℝ) : ℂ) * rY (dirV T φ) n m, (P : ℂ) * rD (dirV T φ) (thetaV T φ) n m, (P : ℂ) * rD (dirV T φ) (phiV φ) n m] j

theorem ze_le {σ P k T φ : ℝ} (hσ : |σ| = 1) (hP : 0 ≤ P) {n : ℕ} (hk : (n : ℝ) ≤ k) (j : Fin 3) : l2 (Ir n) (ze σ P k T φ n j) ≤ P * k := by
  have hk0 : 0 ≤ k := (Nat.cast_nonneg n).trans hk
  fin_cases j
  · show l2 (Ir n) (fun m => ((σ * P * k : ℝ) : ℂ) * rY (dirV T φ) n m) ≤ P * k
    rw [l2_smul, l2_rY, len3_dirV, one_pow, mul_one, Complex.norm_real, Real.norm_eq_abs, abs_mul, abs_mul, hσ, one_mul, abs_of_nonneg hP,
      abs_of_nonneg hk0]
  · show l2 (Ir n) (fun m => (P : ℂ) * rD (dirV T φ) (thetaV T φ) n m) ≤ P * k
    rw [l2_smul, Complex.norm_real, Real.norm_of_nonneg hP]
    exact mul_le_mul_of_nonneg_left ((l2_rD (len3_dirV T φ) (len3_thetaV T φ) (dot_dir_theta T φ) n).trans hk) hP
  · show l2 (Ir n) (fun m => (P : ℂ) * rD (dirV T φ) (phiV φ) n m) ≤ P * k
    rw [l2_smul, Complex.norm_real, Real.norm_of_nonneg hP]
    exact mul_le_mul_of_nonneg_left ((l2_rD (len3_dirV T φ) (len3_phiV φ) (dot_dir_phi T φ) n).trans hk) hP

/-- A table with entrywise errors, in the Euclidean norm. -/
theorem l2_entry {n N κ : ℕ} (hu : 0 ≤ u) {y' y : ℤ → ℂ} {B γ : ℝ} (hγ : 0 ≤ γ)
    (h : ∀ m : ℤ, |m| ≤ n → ‖y' m - y m‖ ≤ ((1 + u) ^ N - 1) * ‖y m‖ + (1 + u) ^ N * γ) (hy : l2 (Ir n) y ≤ B)
    (hκ : B + Real.sqrt (2 * n + 1) * γ ≤ (1 + u) ^ κ * B) : VAp u (N + κ) B (Ir n) y' y := by
  have hpw := one_le_pow_u hu N
  refine ⟨?_, hy⟩
  have a1 : l2 (Ir n) (fun m => y' m - y m) ≤ l2 (Ir n) (fun m => ((1 + u) ^ N - 1) * ‖y m‖ + (1 + u) ^ N * γ) := by
    refine l2_mono fun m hm => ?_
    rw [Real.norm_of_nonneg (add_nonneg (mul_nonneg (by linarith) (norm_nonneg _)) (mul_nonneg (by linarith) hγ))]
    exact h m (mem_Ir.mp hm)
  have a2 := l2_add (Ir n) (fun m => ((1 + u) ^ N - 1) * ‖y m‖) (fun _ => (1 + u) ^ N * γ)
  have a3 : l2 (Ir n) (fun m => ((1 + u) ^ N - 1) * ‖y m‖) ≤ ((1 + u) ^ N - 1) * B := by
    rw [l2_smulR _ (by linarith), l2_norm]
    exact mul_le_mul_of_nonneg_left hy (by linarith)
  have a4 := l2_le_card (s := Ir n) (x := fun _ => (1 + u) ^ N * γ) (b := (1 + u) ^ N * γ) (by positivity)
    (fun _ _ => by rw [Real.norm_of_nonneg (by positivity)])
  rw [card_Ir] at a4
  push_cast at a4
  have a5 := mul_le_mul_of_nonneg_left hκ (show 0 ≤ (1 + u) ^ N by linarith)
  rw [pow_add]
  linarith

/-- A table times a computed factor. -/
theorem VAp.scale (hu : 0 ≤ u) {n e : ℕ} {s : Finset ℤ} {M D : ℝ} {x' x : ℤ → ℂ} {q' q : ℝ} (hq : Ap u e D q' q) (h : VAp u n M s x' x) :
    VAp u (e + n) (D * M) s (fun m => (q' : ℂ) * x' m) (fun m => (q : ℂ) * x m) := by
  have h1 := one_le_pow_u hu e
  have h2 := one_le_pow_u hu n
  have hM := h.nonneg
  have hD := hq.nonneg
  refine ⟨?_, ?_⟩
  · have a1 := l2_tri s (fun m => (q' : ℂ) * x' m) (fun m => (q' : ℂ) * x m) (fun m => (q : ℂ) * x m)
    have a2 : l2 s (fun m => (q' : ℂ) * x' m - (q' : ℂ) * x m) ≤ ((1 + u) ^ e * D) * (((1 + u) ^ n - 1) * M) := by
      have : (fun m => (q' : ℂ) * x' m - (q' : ℂ) * x m) = fun m => (q' : ℂ) * (x' m - x m) := by funext m; ring
      rw [this, l2_smul, Complex.norm_real]
      exact mul_le_mul hq.norm h.1 (l2_nonneg _ _) ((norm_nonneg _).trans hq.norm)
    have a3 : l2 s (fun m => (q' : ℂ) * x m - (q : ℂ) * x m) ≤ (((1 + u) ^ e - 1) * D) * M := by
      have : (fun m => (q' : ℂ) * x m - (q : ℂ) * x m) = fun m => ((q' - q : ℝ) : ℂ) * x m := by
        funext m; push_cast; ring
      rw [this, l2_smul, Complex.norm_real]
      exact mul_le_mul hq.1 h.2 (l2_nonneg _ _) ((norm_nonneg _).trans hq.1)
    rw [pow_add]
    refine a1.trans ((add_le_add a2 a3).trans (le_of_eq (by ring)))
  · rw [l2_smul, Complex.norm_real]
    exact mul_le_mul hq.2 h.2 (l2_nonneg _ _) hD

/-- Roundings in the factors of degree `n`, the power being computed with `e` roundings. -/
theorem zc_ap (hF : F.OkD u g) {s : ℝ} {p κ : ℕ} (hκ : FrameCost u g s p κ) {v v' : Vec 3}
    (hv : len3 (v' - v) ≤ u * len3 v) (h0 : v ≠ 0) (hs : s * len3 v ≤ Vec.hypot (v 0) (v 1)) {σ P P' k : ℝ} (hσ : |σ| = 1) {e n : ℕ}
    (hP : Ap u e P P' P) (hn : n ≤ p) (hk : (n : ℝ) ≤ k) (j : Fin 3) :
    VAp u (e + (6 * n + 4) + 2 * κ) (P * k) (Ir n) (zc σ P' k (F.rsin (F.sph v' 1))
        (dv F (F.legD p (F.rcos (F.sph v' 1))).1 (F.sph v' 2) n) (dv F (F.legD p (F.rcos (F.sph v' 1))).2 (F.sph v' 2) n) j)
      (ze σ P k (tht F v') (v'.toSpherical3 2) n j) := by
  have hu := hF.nonneg
  have hg := hF.leg_nonneg
  obtain ⟨hX, hcos, hT, -, -⟩ := frame hF hκ hv h0 hs
  obtain ⟨hR0, -, hRi⟩ := frame_sin hF hκ hv h0 hs
  have hs0 := hκ.pos
  have hs1 := hκ.le_one
  have htab := hκ.tab_le hg hn
  have hP0 : 0 ≤ P := hP.nonneg
  have hk0 : 0 ≤ k := (Nat.cast_nonneg n).trans hk
  have hsq : 0 ≤ Real.sqrt (2 * n + 1) := Real.sqrt_nonneg _
  have hg2 : g ≤ 2 * g / s := by rw [le_div_iff₀ hs0]; nlinarith
  set X := F.rcos (F.sph v' 1)
  set T := tht F v' with hTdef
  set φ := v'.toSpherical3 2
  set R := F.rsin (F.sph v' 1)
  set y' := dv F (F.legD p X).1 (F.sph v' 2) n
  set d' := dv F (F.legD p X).2 (F.sph v' 2) n
  have hY : ∀ m : ℤ, |m| ≤ n → ‖y' m - rY (dirV T φ) n m‖ ≤ ((1 + u) ^ (6 * n + 4) - 1) * ‖rY (dirV T φ) n m‖ + (1 + u) ^ (6 * n + 4) * g :=
    fun m hm => dvY_err hF hX hn hm
  fin_cases j
  · have h1 : VAp u (6 * n + 4 + κ) 1 (Ir n) y' (rY (dirV T φ) n) := by
      refine l2_entry hu hg hY (by rw [l2_rY, len3_dirV, one_pow]) ?_
      rw [mul_one]
      nlinarith [mul_le_mul_of_nonneg_left hg2 hsq]
    have h2 : Ap u e (P * k) (σ * P' * k) (σ * P * k) := by
      have a1 : Ap u 0 (|σ|) σ σ := Ap.refl le_rfl
      have a2 : Ap u 0 k k k := Ap.refl (by rw [Real.norm_of_nonneg hk0])
      have a3 := (a1.mul hu hP).mul hu a2
      rw [hσ, one_mul] at a3
      exact a3.mono hu (by omega) le_rfl
    have h3 := VAp.scale hu h2 h1
    rw [mul_one] at h3
    exact h3.mono hu (by omega) le_rfl
  · have h1 : VAp u (6 * n + 4 + κ) k (Ir n) d' (rD (dirV T φ) (thetaV T φ) n) := by
      refine (l2_entry hu (B := (n : ℝ)) (mul_nonneg hg (Nat.cast_nonneg n)) (fun m hm => dvD_err hF hX hn hm)
        (l2_rD (len3_dirV T φ) (len3_thetaV T φ) (dot_dir_theta T φ) n) ?_).mono hu le_rfl hk
      have hn0 : (0 : ℝ) ≤ n := Nat.cast_nonneg n
      have a1 : Real.sqrt (2 * n + 1) * g ≤ (1 + u) ^ κ - 1 := by nlinarith [mul_le_mul_of_nonneg_left hg2 hsq]
      nlinarith [mul_le_mul_of_nonneg_right a1 hn0]
    have h3 := VAp.scale hu hP h1
    exact h3.mono hu (by omega) le_rfl
  · have hT0 : 0 < Real.sin T := by linarith [mul_pos (by norm_num : (0 : ℝ) < 9 / 10) hs0]
    have hrot : ∀ m : ℤ, Complex.I * m * rY (dirV T φ) n m = (Real.sin T : ℂ) * rD (dirV T φ) (phiV φ) n m := fun m => (rD_phi T φ n m).symm
    have h1 : VAp u (6 * n + 4 + κ) (Real.sin T * k) (Ir n) (fun m => Complex.I * m * y' m)
        (fun m => Complex.I * m * rY (dirV T φ) n m) := by
      have hb : l2 (Ir n) (fun m => Complex.I * m * rY (dirV T φ) n m) ≤ Real.sin T * n := by
        simp only [hrot]
        rw [l2_smul, Complex.norm_real, Real.norm_of_nonneg hT0.le]
        exact mul_le_mul_of_nonneg_left (l2_rD (len3_dirV T φ) (len3_phiV φ) (dot_dir_phi T φ) n) hT0.le
      refine (l2_entry hu (B := Real.sin T * n) (γ := g * n) (mul_nonneg hg (Nat.cast_nonneg n)) (fun m hm => ?_) hb ?_).mono hu le_rfl
        (mul_le_mul_of_nonneg_left hk hT0.le)
      · have hm' : ‖Complex.I * (m : ℂ)‖ ≤ n := by
          rw [norm_mul, Complex.norm_I, one_mul, Complex.norm_intCast]
          exact_mod_cast hm
        rw [← mul_sub, norm_mul, norm_mul (Complex.I * (m : ℂ))]
        have a1 := mul_le_mul_of_nonneg_left (hY m hm) (norm_nonneg (Complex.I * (m : ℂ)))
        have a2 := mul_le_mul_of_nonneg_right hm' (show 0 ≤ (1 + u) ^ (6 * n + 4) * g by positivity)
        linarith
      · have hn0 : (0 : ℝ) ≤ n := Nat.cast_nonneg n
        have a0 : g ≤ Real.sin T * (2 * g / s) := by
          rw [← mul_div_assoc, le_div_iff₀ hs0]
          nlinarith [mul_le_mul_of_nonneg_left hT hg]
        have a1 : Real.sqrt (2 * n + 1) * g ≤ Real.sin T * ((1 + u) ^ κ - 1) := by
          have b1 := mul_le_mul_of_nonneg_left a0 hsq
          have b2 : Real.sqrt (2 * n + 1) * (2 * g / s) ≤ (1 + u) ^ κ - 1 := by linarith
          have b3 := mul_le_mul_of_nonneg_left b2 hT0.le
          linarith
        nlinarith [mul_le_mul_of_nonneg_right a1 hn0]
    have h2 := VAp.scale hu (hP.mul hu hRi) h1
    have e1 : P * (Real.sin T)⁻¹ * (Real.sin T * k) = P * k := by field_simp
    rw [e1] at h2
    have h3 := h2.mono hu (m := e + (6 * n + 4) + 2 * κ) (by omega) (le_refl (P * k))
    refine h3.congr (fun m _ => ?_) fun m _ => ?_
    · show ((P' * R⁻¹ : ℝ) : ℂ) * (Complex.I * m * y' m) = (P' : ℂ) * (Complex.I * m * y' m) / (R : ℂ)
      push_cast; ring
    · show ((P * (Real.sin T)⁻¹ : ℝ) : ℂ) * (Complex.I * m * rY (dirV T φ) n m) = (P : ℂ) * rD (dirV T φ) (phiV φ) n m
      rw [hrot]
      have : (Real.sin T : ℂ) ≠ 0 := by exact_mod_cast hT0.ne'
      push_cast
      push_cast at this
      field_simp

/-! ## Components in the spherical frame -/

/-- Values with computed coefficients and computed factors. -/
theorem comp_ap (hu : 0 ≤ u) {N : ℕ} (dg : ℕ → ℕ) {n K E : ℕ} (b b' : ℕ → ℤ → ℂ) (z' z : ℕ → ℤ → ℂ) (ζ : ℕ → ℝ) {w M : ℝ}
    (hz : ∀ i < N, VAp u E (ζ i) (Ir (dg i)) (z' i) (z i))
    (hw : Ap u K (∑ i ∈ range N, ∑ m ∈ Ir (dg i), ‖b' (dg i) m‖ * ‖z' i m‖) w
      (∑ i ∈ range N, ∑ m ∈ Ir (dg i), (b' (dg i) m * z' i m).re))
    (h1 : ∑ i ∈ range N, l2 (Ir (dg i)) (fun m => b' (dg i) m - b (dg i) m) * ζ i ≤ ((1 + u) ^ n - 1) * M)
    (h2 : ∑ i ∈ range N, l2 (Ir (dg i)) (b (dg i)) * ζ i ≤ M) :
    Ap u (n + (K + E)) M w (∑ i ∈ range N, ∑ m ∈ Ir (dg i), b (dg i) m * z i m).re := by
  have hK := one_le_pow_u hu K
  have hE := one_le_pow_u hu E
  have hN := one_le_pow_u hu n
  have hζ : ∀ i < N, 0 ≤ ζ i := fun i hi => (hz i hi).nonneg
  have hM : 0 ≤ M := le_trans (sum_nonneg fun i hi => mul_nonneg (l2_nonneg _ _) (hζ i (mem_range.mp hi))) h2
  have h3 : ∑ i ∈ range N, l2 (Ir (dg i)) (b' (dg i)) * ζ i ≤ (1 + u) ^ n * M := by
    have : ∑ i ∈ range N, l2 (Ir (dg i)) (b' (dg i)) * ζ i ≤ ∑ i ∈ range N, l2 (Ir (dg i)) (fun m => b' (dg i) m - b (dg i) m) * ζ i
        + ∑ i ∈ range N, l2 (Ir (dg i)) (b (dg i)) * ζ i := by
      rw [← sum_add_distrib]
      refine sum_le_sum fun i hi => ?_
      rw [← add_mul]
      refine mul_le_mul_of_nonneg_right ?_ (hζ i (mem_range.mp hi))
      rw [add_comm]
      exact l2_le_add _ _ _
    linarith
  have hre : ∀ (x : ℕ → ℤ → ℂ), (∑ i ∈ range N, ∑ m ∈ Ir (dg i), x i m).re = ∑ i ∈ range N, ∑ m ∈ Ir (dg i), (x i m).re := fun x => by
    rw [Complex.re_sum]; exact sum_congr rfl fun i _ => Complex.re_sum _ _
  have cs : ∀ i, ∀ x y : ℤ → ℂ, ∑ m ∈ Ir (dg i), ‖x m‖ * ‖y m‖ ≤ l2 (Ir (dg i)) x * l2 (Ir (dg i)) y := fun i x y => by
    have h := sum_mul_le_l2 (Ir (dg i)) (fun m => ‖x m‖) (fun m => ‖y m‖)
    rw [l2_norm, l2_norm] at h
    refine le_trans (le_of_eq ?_) h
    exact sum_congr rfl fun m _ => rfl
  have big : ∀ (x y : ℕ → ℤ → ℂ) , ‖∑ i ∈ range N, ∑ m ∈ Ir (dg i), x (dg i) m * y i m‖
      ≤ ∑ i ∈ range N, l2 (Ir (dg i)) (x (dg i)) * l2 (Ir (dg i)) (y i) := fun x y => by
    refine (norm_sum_le _ _).trans (sum_le_sum fun i _ => (norm_sum_le _ _).trans ?_)
    refine le_trans (le_of_eq (sum_congr rfl fun m _ => norm_mul _ _)) (cs i _ _)
  -- magnitude of the computed sum
  have m1 : ∑ i ∈ range N, ∑ m ∈ Ir (dg i), ‖b' (dg i) m‖ * ‖z' i m‖ ≤ (1 + u) ^ E * ((1 + u) ^ n * M) := by
    refine le_trans (sum_le_sum (g := fun i => (1 + u) ^ E * (l2 (Ir (dg i)) (b' (dg i)) * ζ i)) fun i hi => (cs i _ _).trans ?_) ?_
    · have := mul_le_mul_of_nonneg_left (hz i (mem_range.mp hi)).norm (l2_nonneg (Ir (dg i)) (b' (dg i)))
      linarith
    · rw [← mul_sum]
      exact mul_le_mul_of_nonneg_left h3 (by linarith)
  have d1 : |w - (∑ i ∈ range N, ∑ m ∈ Ir (dg i), b' (dg i) m * z' i m).re| ≤ ((1 + u) ^ K - 1) * ((1 + u) ^ E * ((1 + u) ^ n * M)) := by
    rw [hre]
    exact hw.1.trans (mul_le_mul_of_nonneg_left m1 (by linarith))
  have d2 : ‖∑ i ∈ range N, ∑ m ∈ Ir (dg i), b' (dg i) m * z' i m - ∑ i ∈ range N, ∑ m ∈ Ir (dg i), b' (dg i) m * z i m‖
      ≤ ((1 + u) ^ E - 1) * ((1 + u) ^ n * M) := by
    have e : ∑ i ∈ range N, ∑ m ∈ Ir (dg i), b' (dg i) m * z' i m - ∑ i ∈ range N, ∑ m ∈ Ir (dg i), b' (dg i) m * z i m
        = ∑ i ∈ range N, ∑ m ∈ Ir (dg i), b' (dg i) m * (fun i m => z' i m - z i m) i m := by
      rw [← sum_sub_distrib]
      refine sum_congr rfl fun i _ => ?_
      rw [← sum_sub_distrib]
      exact sum_congr rfl fun m _ => by ring
    rw [e]
    refine (big b' (fun i m => z' i m - z i m)).trans ?_
    refine le_trans (sum_le_sum (g := fun i => ((1 + u) ^ E - 1) * (l2 (Ir (dg i)) (b' (dg i)) * ζ i)) fun i hi => ?_) ?_
    · have := mul_le_mul_of_nonneg_left (hz i (mem_range.mp hi)).1 (l2_nonneg (Ir (dg i)) (b' (dg i)))
      linarith
    · rw [← mul_sum]
      exact mul_le_mul_of_nonneg_left h3 (by linarith)
  have d3 : ‖∑ i ∈ range N, ∑ m ∈ Ir (dg i), b' (dg i) m * z i m - ∑ i ∈ range N, ∑ m ∈ Ir (dg i), b (dg i) m * z i m‖
      ≤ ((1 + u) ^ n - 1) * M := by
    have e : ∑ i ∈ range N, ∑ m ∈ Ir (dg i), b' (dg i) m * z i m - ∑ i ∈ range N, ∑ m ∈ Ir (dg i), b (dg i) m * z i m
        = ∑ i ∈ range N, ∑ m ∈ Ir (dg i), (fun l m => b' l m - b l m) (dg i) m * z i m := by
      rw [← sum_sub_distrib]
      refine sum_congr rfl fun i _ => ?_
      rw [← sum_sub_distrib]
      exact sum_congr rfl fun m _ => by ring
    rw [e]
    refine (big (fun l m => b' l m - b l m) z).trans (le_trans (sum_le_sum fun i hi => ?_) h1)
    exact mul_le_mul_of_nonneg_left (hz i (mem_range.mp hi)).2 (l2_nonneg _ _)
  have m2 : ‖∑ i ∈ range N, ∑ m ∈ Ir (dg i), b (dg i) m * z i m‖ ≤ M := by
    refine (big b z).trans (le_trans (sum_le_sum fun i hi => ?_) h2)
    exact mul_le_mul_of_nonneg_left (hz i (mem_range.mp hi)).2 (l2_nonneg _ _)
  refine ⟨?_, by rw [Real.norm_eq_abs]; exact (Complex.abs_re_le_norm _).trans m2⟩
  rw [Real.norm_eq_abs]
  set A := ∑ i ∈ range N, ∑ m ∈ Ir (dg i), b' (dg i) m * z' i m
  set B := ∑ i ∈ range N, ∑ m ∈ Ir (dg i), b' (dg i) m * z i m
  set C := ∑ i ∈ range N, ∑ m ∈ Ir (dg i), b (dg i) m * z i m
  have e2 : |A.re - B.re| ≤ ‖A - B‖ := by rw [← Complex.sub_re]; exact Complex.abs_re_le_norm _
  have e3 : |B.re - C.re| ≤ ‖B - C‖ := by rw [← Complex.sub_re]; exact Complex.abs_re_le_norm _
  have t1 := abs_sub_le w A.re C.re
  have t2 := abs_sub_le A.re B.re C.re
  rw [pow_add, pow_add]
  linarith

/-! ## The Cartesian components -/

theorem toBasis_ap (hF : F.OkD u g) {s : ℝ} {p κ : ℕ} (hκ : FrameCost u g s p κ) {v v' : Vec 3}
    (hv : len3 (v' - v) ≤ u * len3 v) (h0 : v ≠ 0) (hs : s * len3 v ≤ Vec.hypot (v 0) (v 1)) {N : ℕ} {M : ℝ} {f' f : Vec 3}
    (hf : ∀ j, Ap u N M (f' j) (f j)) (i : Fin 3) :
    Ap u (N + κ + 9) (3 * M) (F.toBasis f' (F.sph v' 1) (F.sph v' 2) i) (Vec.toCartesianBasis f (tht F v') (v'.toSpherical3 2) i) := by
  have hu := hF.nonneg
  have hFF := hF.toOk3.toOk
  obtain ⟨hX, hcos, -, -, -⟩ := frame hF hκ hv h0 hs
  obtain ⟨-, hst, -⟩ := frame_sin hF hκ hv h0 hs
  obtain ⟨hcp, hsp⟩ := frame_phi hF v'
  have hM := (hf 0).nonneg
  have hct : Ap u 0 1 (F.rcos (F.sph v' 1)) (Real.cos (tht F v')) := by
    rw [hcos]; exact Ap.refl (by rw [Real.norm_eq_abs]; exact hX.le)
  have a0 := hst.rmul hFF (hf 0)
  have a1 := hct.rmul hFF (hf 1)
  have a2 := a0.radd hFF a1 (k := N + κ + 2) (by omega) (by omega)
  have b0 := hcp.rmul hFF a2
  have b1 := hsp.rmul hFF a2
  have c0 := hsp.rmul hFF (hf 2)
  have c1 := hcp.rmul hFF (hf 2)
  have d0 := hct.rmul hFF (hf 0)
  have d1 := hst.rmul hFF (hf 1)
  fin_cases i
  · exact (b0.rsub hFF c0 (k := N + κ + 9) (by omega) (by omega)).mono hu le_rfl (by linarith)
  · exact (b1.radd hFF c1 (k := N + κ + 9) (by omega) (by omega)).mono hu le_rfl (by linarith)
  · exact (d0.rsub hFF d1 (k := N + κ + 9) (by omega) (by omega)).mono hu le_rfl (by linarith)

end Fl3
end FMM
