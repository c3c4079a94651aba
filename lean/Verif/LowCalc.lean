import Verif.FltCalc

/-!
# A calculus of rounding errors with gradual underflow

The operations have a relative error of at most `u` as long as the exact result is not below the floor `η`; below the floor
the error is at most `u η`.  A majorant `M` is `Flr η M` if it is zero or not below the floor; operations whose majorants are
obey the rules of `FltCalc`.
-/

namespace FMM

/-- Zero or not below the floor. -/
def Flr (η M : ℝ) : Prop := M = 0 ∨ η ≤ M

theorem Flr.of_le {η M : ℝ} (h : η ≤ M) : Flr η M := Or.inr h
theorem Flr.zero {η : ℝ} : Flr η 0 := Or.inl rfl
theorem Flr.add {η M N : ℝ} (h : Flr η M) (h' : Flr η N) (hM : 0 ≤ M) (hN : 0 ≤ N) : Flr η (M + N) := by
  rcases h with rfl | h
  · rwa [zero_add]
  · exact Or.inr (by linarith)
theorem Flr.mono {η ε M : ℝ} (h : Flr η M) (he : ε ≤ η) : Flr ε M := h.imp id he.trans
theorem Flr.scale {η M c : ℝ} (h : Flr η M) (hc : 1 ≤ c) (hM : 0 ≤ M) : Flr η (c * M) := by
  rcases h with rfl | h
  · exact Or.inl (mul_zero c)
  · exact Or.inr (h.trans (le_mul_of_one_le_left hM hc))

/-- Relative errors at most `u` down to the floor `η`; divisors are at least `ρ`. -/
structure Flt.Low (F : Flt) (u η ρ : ℝ) : Prop where
  nonneg : 0 ≤ u
  small : u ≤ 1 / 16
  eta : 0 ≤ η
  eta1 : η ≤ 1
  rho : 0 < ρ
  rnd : ∀ x, |F.rnd x - x| ≤ u / 2 * max |x| η
  rnd0 : F.rnd 0 = 0
  mul : ∀ x y, ‖F.mul x y - x * y‖ ≤ u * max ‖x * y‖ η
  mul0 : ∀ x y, x * y = 0 → F.mul x y = 0
  div : ∀ x y, ρ ≤ ‖y‖ → ‖F.div x y - x / y‖ ≤ u * max ‖x / y‖ η
  div0 : ∀ y, ρ ≤ ‖y‖ → F.div 0 y = 0
  log : ∀ z, z ≠ 0 → ‖F.log z - Complex.log z‖ ≤ u * max ‖Complex.log z‖ η
  rlog : ∀ x, 0 < x → |F.rlog x - Real.log x| ≤ u * max |Real.log x| η
  nrm : ∀ v, |F.nrm v - Vec.norm v| ≤ u * max (Vec.norm v) η
  nrm0 : ∀ v, Vec.norm v = 0 → F.nrm v = 0

section
variable {E : Type*} [NormedAddCommGroup E] {u η : ℝ} {n : ℕ} {M : ℝ} {x y y' : E}

/-- One more rounding, above the floor or at zero. -/
theorem Ap.roundf (hu : 0 ≤ u) (h : Ap u n M y x) (hM : Flr η M) (hr : ‖y' - y‖ ≤ u * max ‖y‖ η) (h0 : y = 0 → y' = 0) :
    Ap u (n + 1) M y' x := by
  rcases hM with rfl | hM
  · have hy : y = 0 := by
      have := h.norm
      rw [mul_zero] at this
      exact norm_le_zero_iff.mp this
    rw [h0 hy]
    rw [hy] at h
    exact h.mono hu (by omega) le_rfl
  · refine ⟨?_, h.2⟩
    have h1 : ‖y' - x‖ ≤ ‖y' - y‖ + ‖y - x‖ := by
      have := norm_add_le (y' - y) (y - x)
      rwa [sub_add_sub_cancel] at this
    have h4 : max ‖y‖ η ≤ (1 + u) ^ n * M := max_le h.norm (hM.trans (le_mul_of_one_le_left h.nonneg (one_le_pow_u hu n)))
    have h2 := mul_le_mul_of_nonneg_left h4 hu
    have h3 := h.1
    rw [pow_succ]
    nlinarith

end

theorem ApR.roundf {u η : ℝ} {n : ℕ} {M : ℝ} {x y y' : ℂ} (hu : 0 ≤ u) (h : ApR u n M y x) (hM : Flr η M)
    (hr : ‖y' - y‖ ≤ u * max ‖y‖ η) (h0 : y = 0 → y' = 0) : ApR u (n + 1) M y' x := by
  rcases hM with rfl | hM
  · have hy : y = 0 := by
      have := h.2.2
      rw [mul_zero] at this
      exact norm_le_zero_iff.mp this
    rw [h0 hy]
    rw [hy] at h
    exact h.mono hu (by omega) le_rfl
  · have h5 : max ‖y‖ η ≤ (1 + u) ^ n * M := max_le h.2.2 (hM.trans (le_mul_of_one_le_left h.nonneg (one_le_pow_u hu n)))
    have h2 := mul_le_mul_of_nonneg_left h5 hu
    refine ⟨?_, h.2.1, ?_⟩
    · have h1 : |y'.re - x.re| ≤ |y'.re - y.re| + |y.re - x.re| := abs_sub_le _ _ _
      have h3 : |y'.re - y.re| ≤ ‖y' - y‖ := by rw [← Complex.sub_re]; exact Complex.abs_re_le_norm _
      have h4 := h.1
      rw [pow_succ]
      nlinarith
    · have h1 : ‖y'‖ ≤ ‖y' - y‖ + ‖y‖ := by simpa using norm_add_le (y' - y) y
      have h3 := h.2.2
      rw [pow_succ]
      nlinarith

namespace Flt.Low
variable {F : Flt} {u η ρ : ℝ} (hF : F.Low u η ρ) {n m k : ℕ} {M N : ℝ} {x' x y' y : ℂ}
include hF

theorem pair (a b : ℝ) : ‖(⟨F.rnd a, F.rnd b⟩ : ℂ) - ⟨a, b⟩‖ ≤ u * max ‖(⟨a, b⟩ : ℂ)‖ η := by
  have ha := hF.rnd a
  have hb := hF.rnd b
  have hu := hF.nonneg
  have he := hF.eta
  have e : ∀ x y : ℝ, ‖(⟨x, y⟩ : ℂ)‖ ^ 2 = x ^ 2 + y ^ 2 := fun x y => by
    rw [Complex.sq_norm, Complex.normSq_mk]; ring
  have e0 : (⟨F.rnd a, F.rnd b⟩ : ℂ) - ⟨a, b⟩ = ⟨F.rnd a - a, F.rnd b - b⟩ := rfl
  set K := max ‖(⟨a, b⟩ : ℂ)‖ η with hK
  have hK0 : 0 ≤ K := he.trans (le_max_right _ _)
  have hab := e a b
  have hn := norm_nonneg (⟨a, b⟩ : ℂ)
  have hKn : ‖(⟨a, b⟩ : ℂ)‖ ≤ K := le_max_left _ _
  have hKa : |a| ≤ K := (Complex.abs_re_le_norm (⟨a, b⟩ : ℂ)).trans hKn
  have hKb : |b| ≤ K := (Complex.abs_im_le_norm (⟨a, b⟩ : ℂ)).trans hKn
  have ha' : |F.rnd a - a| ≤ u / 2 * K := ha.trans (mul_le_mul_of_nonneg_left (max_le hKa (le_max_right _ _)) (by linarith))
  have hb' : |F.rnd b - b| ≤ u / 2 * K := hb.trans (mul_le_mul_of_nonneg_left (max_le hKb (le_max_right _ _)) (by linarith))
  rw [e0]
  refine (Complex.norm_le_abs_re_add_abs_im _).trans ?_
  simp only
  linarith

theorem pair0 {a b : ℝ} (h : (⟨a, b⟩ : ℂ) = 0) : (⟨F.rnd a, F.rnd b⟩ : ℂ) = 0 := by
  have h1 : a = 0 := congr_arg Complex.re h
  have h2 : b = 0 := congr_arg Complex.im h
  rw [h1, h2, hF.rnd0]; rfl

omit hF in
theorem rsc_eq (r : ℝ) (z : ℂ) : (r : ℂ) * z = ⟨r * z.re, r * z.im⟩ := by apply Complex.ext <;> simp
omit hF in
theorem cdr_eq (z : ℂ) (r : ℝ) : z / (r : ℂ) = ⟨z.re / r, z.im / r⟩ := by apply Complex.ext <;> simp

theorem cadd_err (x y : ℂ) : ‖F.cadd x y - (x + y)‖ ≤ u * max ‖x + y‖ η := hF.pair _ _
theorem csub_err (x y : ℂ) : ‖F.csub x y - (x - y)‖ ≤ u * max ‖x - y‖ η := hF.pair _ _
theorem csub_rel {x y : ℂ} (h : η ≤ ‖x - y‖) : ‖F.csub x y - (x - y)‖ ≤ u * ‖x - y‖ := by
  have := hF.csub_err x y
  rwa [max_eq_left h] at this
theorem rsc_err (r : ℝ) (z : ℂ) : ‖F.rsc r z - r * z‖ ≤ u * max ‖(r : ℂ) * z‖ η := by
  rw [rsc_eq]; exact hF.pair _ _
theorem cdr_err (z : ℂ) (r : ℝ) : ‖F.cdr z r - z / r‖ ≤ u * max ‖z / (r : ℂ)‖ η := by
  rw [cdr_eq]; exact hF.pair _ _
theorem rnd_err (x : ℝ) : |F.rnd x - x| ≤ u * max |x| η := by
  refine (hF.rnd x).trans (mul_le_mul_of_nonneg_right (by linarith [hF.nonneg]) (hF.eta.trans (le_max_right _ _)))

theorem cadd (h : Ap u n M x' x) (h' : Ap u n N y' y) (hf : Flr η (M + N)) : Ap u (n + 1) (M + N) (F.cadd x' y') (x + y) :=
  (h.add h').roundf hF.nonneg hf (hF.cadd_err _ _) fun h => hF.pair0 h
theorem csub (h : Ap u n M x' x) (h' : Ap u n N y' y) (hf : Flr η (M + N)) : Ap u (n + 1) (M + N) (F.csub x' y') (x - y) :=
  (h.sub h').roundf hF.nonneg hf (hF.csub_err _ _) fun h => hF.pair0 h
theorem caddR (h : ApR u n M x' x) (h' : ApR u n N y' y) (hf : Flr η (M + N)) : ApR u (n + 1) (M + N) (F.cadd x' y') (x + y) :=
  (h.add h').roundf hF.nonneg hf (hF.cadd_err _ _) fun h => hF.pair0 h
theorem csubR (h : ApR u n M x' x) (h' : ApR u n N y' y) (hf : Flr η (M + N)) : ApR u (n + 1) (M + N) (F.csub x' y') (x - y) :=
  (h.sub h').roundf hF.nonneg hf (hF.csub_err _ _) fun h => hF.pair0 h
theorem cmul (h : Ap u n M x' x) (h' : Ap u m N y' y) (hf : Flr η (M * N)) : Ap u (n + m + 1) (M * N) (F.mul x' y') (x * y) :=
  (h.mul hF.nonneg h').roundf hF.nonneg hf (hF.mul _ _) (hF.mul0 _ _)
theorem rsc {q' q : ℝ} (h : Ap u n M q' q) (h' : Ap u m N y' y) (hf : Flr η (M * N)) :
    Ap u (n + m + 1) (M * N) (F.rsc q' y') (q * y) :=
  (h.ofReal.mul hF.nonneg h').roundf hF.nonneg hf (hF.rsc_err _ _) fun h => hF.pair0 (by rwa [← rsc_eq])
theorem rscR {q' q : ℝ} (h : Ap u n M q' q) (h' : ApR u m N y' y) (hf : Flr η (M * N)) :
    ApR u (n + m + 1) (M * N) (F.rsc q' y') (q * y) :=
  (h'.mul_real hF.nonneg h).roundf hF.nonneg hf (hF.rsc_err _ _) fun h => hF.pair0 (by rwa [← rsc_eq])
theorem cdr (h : Ap u n M x' x) {r : ℝ} (hr : 0 < r) (hf : Flr η (M / r)) : Ap u (n + 1) (M / r) (F.cdr x' r) (x / r) := by
  refine Ap.roundf hF.nonneg (y := x' / r) ?_ hf (hF.cdr_err _ _) fun h => hF.pair0 (by rwa [← cdr_eq])
  have h2 : Ap u 0 r⁻¹ ((r⁻¹ : ℝ) : ℂ) ((r⁻¹ : ℝ) : ℂ) := Ap.refl (by
    rw [Complex.norm_real, Real.norm_eq_abs, abs_of_pos (by positivity)])
  have := h.mul hF.nonneg h2
  rw [Complex.ofReal_inv] at this
  simpa [div_eq_mul_inv] using this
theorem rrnd {q' q : ℝ} (h : Ap u n M q' q) (hf : Flr η M) : Ap u (n + 1) M (F.rnd q') q :=
  h.roundf hF.nonneg hf (by rw [Real.norm_eq_abs, Real.norm_eq_abs]; exact hF.rnd_err _) fun h => by rw [h]; exact hF.rnd0
theorem caddr {q : ℝ} (h : Ap u n M x' x) (hi : x'.im = 0) (hi' : x.im = 0) (hq : |q| ≤ N) (hf : Flr η (M + N)) :
    Ap u (n + 1) (M + N) (F.caddr x' q) (x + q) ∧ (F.caddr x' q).im = 0 := by
  have h1 : Ap u n N q q := (Ap.refl hq).mono hF.nonneg (by omega) le_rfl
  have h2 := (hF.rrnd (h.re.add h1) hf).ofReal
  have e1 : F.caddr x' q = ((F.rnd (x'.re + q) : ℝ) : ℂ) := Complex.ext rfl (by simp [Flt.caddr, hi])
  have e2 : x + q = ((x.re + q : ℝ) : ℂ) := Complex.ext (by simp) (by simp [hi'])
  rw [e1, e2]
  exact ⟨h2, by simp⟩

/-- Difference of two exactly known numbers. -/
theorem diff (x y : ℂ) (h : ‖x - y‖ ≤ M) (hf : Flr η M) : Ap u 1 M (F.csub x y) (x - y) :=
  (Ap.refl h).roundf hF.nonneg hf (hF.csub_err _ _) fun h => hF.pair0 h

/-- A computed difference of distant numbers. -/
theorem csub_far {x y : ℂ} (h : η ≤ ‖x - y‖) (h2 : 2 * ρ ≤ ‖x - y‖) :
    F.csub x y ≠ 0 ∧ ρ ≤ ‖F.csub x y‖ ∧ Ap u 2 ‖x - y‖⁻¹ (F.csub x y)⁻¹ (x - y)⁻¹ := by
  have hr := hF.rho
  have hne : x - y ≠ 0 := norm_pos_iff.mp (by linarith)
  have h1 := Ap.inv hF.nonneg hF.small hne (hF.csub_rel h)
  refine ⟨h1.1, ?_, h1.2⟩
  have h3 := norm_sub_norm_le (x - y) (F.csub x y)
  rw [norm_sub_rev (x - y) (F.csub x y)] at h3
  have h4 := hF.csub_rel h
  have h5 := hF.small
  nlinarith [norm_nonneg (x - y)]

theorem csub_ne {x y : ℂ} (h : η ≤ ‖x - y‖) (h2 : 2 * ρ ≤ ‖x - y‖) : F.csub x y ≠ 0 := (hF.csub_far h h2).1

/-- Reciprocal of a computed difference. -/
theorem inv (x y : ℂ) (h : η ≤ ‖x - y‖) (h2 : 2 * ρ ≤ ‖x - y‖) {D : ℝ} (hD : ‖x - y‖⁻¹ ≤ D) (hf : η ≤ D) :
    Ap u 3 D (F.div 1 (F.csub x y)) (x - y)⁻¹ := by
  obtain ⟨h1, h3, h4⟩ := hF.csub_far h h2
  refine (h4.mono hF.nonneg le_rfl hD).roundf hF.nonneg (Or.inr hf) ?_ fun h0 => absurd h0 (inv_ne_zero h1)
  have := hF.div 1 _ h3
  rwa [one_div] at this

/-- Division by a computed difference. -/
theorem divDiff (x y : ℂ) (h : η ≤ ‖x - y‖) (h2 : 2 * ρ ≤ ‖x - y‖) {D : ℝ} (hD : ‖x - y‖⁻¹ ≤ D) {w' w : ℂ} (hw : Ap u n M w' w)
    (hf : Flr η (M * D)) : Ap u (n + 3) (M * D) (F.div w' (F.csub x y)) (w * (x - y)⁻¹) := by
  obtain ⟨h1, h3, h4⟩ := hF.csub_far h h2
  refine (hw.mul hF.nonneg (h4.mono hF.nonneg le_rfl hD)).roundf hF.nonneg hf ?_ fun h0 => ?_
  · have := hF.div w' _ h3
    rwa [div_eq_mul_inv] at this
  · rcases mul_eq_zero.mp h0 with h5 | h5
    · rw [h5]; exact hF.div0 _ h3
    · exact absurd h5 (inv_ne_zero h1)

/-- Logarithm of (minus) a computed difference. -/
theorem logDiff {w' w : ℂ} (hw : w ≠ 0) (h : ‖w' - w‖ ≤ u * ‖w‖) {Λ : ℝ} (hΛ : |Real.log ‖w‖| ≤ Λ) :
    ApR u 3 (Λ + Real.pi) (F.log w') (Complex.log w) := by
  have hu := hF.nonneg
  have h1 := Ap.inv hu hF.small hw h
  have hw0 : 0 < ‖w‖ := norm_pos_iff.mpr hw
  have hpi := Real.two_le_pi
  have hr := Flt.Ok.log_ratio hu hF.small hw0 1 (by rw [pow_one]; linarith [hF.small]) (a := ‖w'‖) (by
    rw [pow_one, add_sub_cancel_left]
    exact (abs_norm_sub_norm_le _ _).trans h)
  have key : ∀ z : ℂ, ‖Complex.log z‖ ≤ |Real.log ‖z‖| + Real.pi := by
    intro z
    refine (Complex.norm_le_abs_re_add_abs_im _).trans ?_
    rw [Complex.log_re, Complex.log_im]
    exact add_le_add le_rfl (Complex.abs_arg_le_pi z)
  have hL0 : 0 ≤ Λ := (abs_nonneg _).trans hΛ
  have hA : ApR u 2 (Λ + Real.pi) (Complex.log w') (Complex.log w) := by
    have h0 := one_le_pow_u hu 2
    refine ⟨?_, (key w).trans (by linarith), (key w').trans ?_⟩
    · rw [Complex.log_re, Complex.log_re]
      refine hr.2.trans ?_
      have e : 2 * 1 = 2 := rfl
      rw [e]
      exact le_mul_of_one_le_right (by linarith) (by linarith)
    · have h2 : |Real.log ‖w'‖| ≤ |Real.log ‖w'‖ - Real.log ‖w‖| + |Real.log ‖w‖| := by
        simpa using abs_add_le (Real.log ‖w'‖ - Real.log ‖w‖) (Real.log ‖w‖)
      have h3 := hr.2
      have e : 2 * 1 = 2 := rfl
      rw [e] at h3
      nlinarith
  -- the floor is at most one
  have he := hF.eta1
  have h0 := one_le_pow_u hu 2
  have h5 : max ‖Complex.log w'‖ η ≤ (1 + u) ^ 2 * (Λ + Real.pi) := max_le hA.2.2 (by nlinarith)
  have h6 := (hF.log w' h1.1).trans (mul_le_mul_of_nonneg_left h5 hu)
  refine ⟨?_, hA.2.1, ?_⟩
  · have a1 : |(F.log w').re - (Complex.log w).re| ≤ |(F.log w').re - (Complex.log w').re|
        + |(Complex.log w').re - (Complex.log w).re| := abs_sub_le _ _ _
    have a3 : |(F.log w').re - (Complex.log w').re| ≤ ‖F.log w' - Complex.log w'‖ := by
      rw [← Complex.sub_re]; exact Complex.abs_re_le_norm _
    have a4 := hA.1
    rw [pow_succ]
    nlinarith
  · have a1 : ‖F.log w'‖ ≤ ‖F.log w' - Complex.log w'‖ + ‖Complex.log w'‖ := by
      simpa using norm_add_le (F.log w' - Complex.log w') (Complex.log w')
    have a3 := hA.2.2
    rw [pow_succ]
    nlinarith

theorem cadd' (h : Ap u n M x' x) (h' : Ap u m N y' y) (hf : Flr η (M + N)) (hn : n + 1 ≤ k) (hm : m + 1 ≤ k) :
    Ap u k (M + N) (F.cadd x' y') (x + y) := by
  obtain ⟨k, rfl⟩ : ∃ j, k = j + 1 := ⟨k - 1, by omega⟩
  exact hF.cadd (h.mono hF.nonneg (by omega) le_rfl) (h'.mono hF.nonneg (by omega) le_rfl) hf

theorem csub' (h : Ap u n M x' x) (h' : Ap u m N y' y) (hf : Flr η (M + N)) (hn : n + 1 ≤ k) (hm : m + 1 ≤ k) :
    Ap u k (M + N) (F.csub x' y') (x - y) := by
  obtain ⟨k, rfl⟩ : ∃ j, k = j + 1 := ⟨k - 1, by omega⟩
  exact hF.csub (h.mono hF.nonneg (by omega) le_rfl) (h'.mono hF.nonneg (by omega) le_rfl) hf

theorem caddR' (h : ApR u n M x' x) (h' : ApR u m N y' y) (hf : Flr η (M + N)) (hn : n + 1 ≤ k) (hm : m + 1 ≤ k) :
    ApR u k (M + N) (F.cadd x' y') (x + y) := by
  obtain ⟨k, rfl⟩ : ∃ j, k = j + 1 := ⟨k - 1, by omega⟩
  exact hF.caddR (h.mono hF.nonneg (by omega) le_rfl) (h'.mono hF.nonneg (by omega) le_rfl) hf

theorem csubR' (h : ApR u n M x' x) (h' : ApR u m N y' y) (hf : Flr η (M + N)) (hn : n + 1 ≤ k) (hm : m + 1 ≤ k) :
    ApR u k (M + N) (F.csub x' y') (x - y) := by
  obtain ⟨k, rfl⟩ : ∃ j, k = j + 1 := ⟨k - 1, by omega⟩
  exact hF.csubR (h.mono hF.nonneg (by omega) le_rfl) (h'.mono hF.nonneg (by omega) le_rfl) hf

end Flt.Low
end FMM
