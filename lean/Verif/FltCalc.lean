import Verif.FltExp2
import Mathlib.Analysis.SpecialFunctions.Log.Basic
import Mathlib.Analysis.SpecialFunctions.Complex.Arg

/-!
# A calculus of rounding errors

`Ap u n M x' x`: the computed value `x'` approximates `x`, whose norm is at most `M`, up to `((1 + u)^n - 1) M`; `n` counts
the roundings.  `ApR`: the same for the real parts only (needed for logarithms, whose imaginary part may jump).
-/

namespace FMM

/-- All operations have relative error at most `u` (no underflow, no overflow). -/
structure Flt.Ok (F : Flt) (u : ℝ) : Prop where
  nonneg : 0 ≤ u
  small : u ≤ 1 / 16
  rnd : ∀ x, |F.rnd x - x| ≤ u * |x|
  mul : ∀ x y, ‖F.mul x y - x * y‖ ≤ u * ‖x * y‖
  div : ∀ x y, y ≠ 0 → ‖F.div x y - x / y‖ ≤ u * ‖x / y‖
  log : ∀ z, z ≠ 0 → ‖F.log z - Complex.log z‖ ≤ u * ‖Complex.log z‖
  rlog : ∀ x, 0 < x → |F.rlog x - Real.log x| ≤ u * |Real.log x|
  nrm : ∀ v, |F.nrm v - Vec.norm v| ≤ u * Vec.norm v

theorem Flt.exact_ok {u : ℝ} (h : 0 ≤ u) (h' : u ≤ 1 / 16) : Flt.exact.Ok u := by
  refine ⟨h, h', fun x => ?_, fun x y => ?_, fun x y _ => ?_, fun z _ => ?_, fun x _ => ?_, fun v => ?_⟩ <;>
  simp only [Flt.exact, id, sub_self, norm_zero, abs_zero]
  · positivity
  · positivity
  · positivity
  · positivity
  · positivity
  · have : 0 ≤ Vec.norm v := Real.sqrt_nonneg _
    positivity

/-! ## Approximations -/

section
variable {E : Type*} [NormedAddCommGroup E]

/-- `x'` approximates `x` after `n` roundings; `M` is a majorant. -/
def Ap (u : ℝ) (n : ℕ) (M : ℝ) (x' x : E) : Prop := ‖x' - x‖ ≤ ((1 + u) ^ n - 1) * M ∧ ‖x‖ ≤ M

variable {u : ℝ} {n m : ℕ} {M N : ℝ} {x' x y' y : E}

theorem one_le_pow_u (hu : 0 ≤ u) (n : ℕ) : 1 ≤ (1 + u) ^ n := one_le_pow₀ (by linarith)

theorem Ap.nonneg (h : Ap u n M x' x) : 0 ≤ M := (norm_nonneg _).trans h.2

theorem Ap.norm (h : Ap u n M x' x) : ‖x'‖ ≤ (1 + u) ^ n * M := by
  have : ‖x'‖ ≤ ‖x' - x‖ + ‖x‖ := by simpa using norm_add_le (x' - x) x
  have h1 := h.1
  have h2 := h.2
  linarith

theorem Ap.refl (h : ‖x‖ ≤ M) : Ap u 0 M x x := ⟨by simp, h⟩

theorem Ap.mono (hu : 0 ≤ u) (h : Ap u n M x' x) (hn : n ≤ m) (hM : M ≤ N) : Ap u m N x' x := by
  refine ⟨h.1.trans ?_, h.2.trans hM⟩
  have h1 := one_le_pow_u hu n
  have h2 : (1 + u) ^ n ≤ (1 + u) ^ m := pow_le_pow_right₀ (by linarith) hn
  exact mul_le_mul (by linarith) hM h.nonneg (by linarith)

/-- One more rounding. -/
theorem Ap.round (hu : 0 ≤ u) (h : Ap u n M y x) (hr : ‖y' - y‖ ≤ u * ‖y‖) : Ap u (n + 1) M y' x := by
  refine ⟨?_, h.2⟩
  have h1 : ‖y' - x‖ ≤ ‖y' - y‖ + ‖y - x‖ := by
    have := norm_add_le (y' - y) (y - x)
    rwa [sub_add_sub_cancel] at this
  have h2 := mul_le_mul_of_nonneg_left h.norm hu
  have h3 := h.1
  rw [pow_succ]
  nlinarith

theorem Ap.add (h : Ap u n M x' x) (h' : Ap u n N y' y) : Ap u n (M + N) (x' + y') (x + y) := by
  refine ⟨?_, (norm_add_le _ _).trans (add_le_add h.2 h'.2)⟩
  have : x' + y' - (x + y) = (x' - x) + (y' - y) := by abel
  rw [this, mul_add]
  exact (norm_add_le _ _).trans (add_le_add h.1 h'.1)

theorem Ap.neg (h : Ap u n M x' x) : Ap u n M (-x') (-x) := by
  refine ⟨?_, by rw [norm_neg]; exact h.2⟩
  have : -x' - -x = -(x' - x) := by abel
  rw [this, norm_neg]; exact h.1

theorem Ap.sub (h : Ap u n M x' x) (h' : Ap u n N y' y) : Ap u n (M + N) (x' - y') (x - y) := by
  rw [sub_eq_add_neg, sub_eq_add_neg]; exact h.add h'.neg

theorem Ap.zero (hM : 0 ≤ M) (hu : 0 ≤ u) : Ap u n M (0 : E) 0 := by
  refine ⟨?_, by simpa using hM⟩
  have := one_le_pow_u hu n
  rw [sub_zero, norm_zero]
  exact mul_nonneg (by linarith) hM

end

section
variable {𝕜 : Type*} [NormedField 𝕜] {u : ℝ} {n m : ℕ} {M N : ℝ} {x' x y' y : 𝕜}

theorem Ap.mul (_hu : 0 ≤ u) (h : Ap u n M x' x) (h' : Ap u m N y' y) : Ap u (n + m) (M * N) (x' * y') (x * y) := by
  refine ⟨?_, by rw [norm_mul]; exact mul_le_mul h.2 h'.2 (norm_nonneg _) h.nonneg⟩
  have e : x' * y' - x * y = (x' - x) * y' + x * (y' - y) := by ring
  rw [e]
  refine (norm_add_le _ _).trans ?_
  rw [norm_mul, norm_mul]
  have h1 : ‖x' - x‖ * ‖y'‖ ≤ (((1 + u) ^ n - 1) * M) * ((1 + u) ^ m * N) :=
    mul_le_mul h.1 h'.norm (norm_nonneg _) ((norm_nonneg _).trans h.1)
  have h2 : ‖x‖ * ‖y' - y‖ ≤ M * (((1 + u) ^ m - 1) * N) :=
    mul_le_mul h.2 h'.1 (norm_nonneg _) h.nonneg
  rw [pow_add]
  nlinarith

/-- The reciprocal of a number with `k` rounding errors. -/
theorem Ap.invk (hu : 0 ≤ u) (k : ℕ) (hk : (1 + u) ^ k ≤ 3 / 2) (hx : x ≠ 0)
    (h : ‖x' - x‖ ≤ ((1 + u) ^ k - 1) * ‖x‖) : x' ≠ 0 ∧ Ap u (2 * k) ‖x‖⁻¹ x'⁻¹ x⁻¹ := by
  have h0 := one_le_pow_u hu k
  have h2 : (1 + u) ^ (2 * k) - 1 = 2 * ((1 + u) ^ k - 1) + ((1 + u) ^ k - 1) ^ 2 := by rw [mul_comm 2 k, pow_mul]; ring
  unfold Ap
  rw [h2]
  have ht0 : 0 ≤ (1 + u) ^ k - 1 := by linarith
  have ht1 : (1 + u) ^ k - 1 ≤ 1 / 2 := by linarith
  generalize (1 + u) ^ k - 1 = t at *
  have hx0 : 0 < ‖x‖ := norm_pos_iff.mpr hx
  have h1 : (1 - t) * ‖x‖ ≤ ‖x'‖ := by
    have := norm_sub_norm_le x x'
    rw [norm_sub_rev] at this
    linarith
  have hx' : 0 < ‖x'‖ := lt_of_lt_of_le (by apply mul_pos <;> linarith) h1
  have hx'' : x' ≠ 0 := norm_pos_iff.mp hx'
  refine ⟨hx'', ?_, by rw [norm_inv]⟩
  have e : x'⁻¹ - x⁻¹ = (x - x') * (x'⁻¹ * x⁻¹) := by field_simp
  rw [e, norm_mul, norm_mul, norm_inv, norm_inv, norm_sub_rev]
  have h2 : ‖x'‖⁻¹ ≤ ((1 - t) * ‖x‖)⁻¹ := inv_anti₀ (by apply mul_pos <;> linarith) h1
  have h3 : ‖x' - x‖ * (‖x'‖⁻¹ * ‖x‖⁻¹) ≤ (t * ‖x‖) * (((1 - t) * ‖x‖)⁻¹ * ‖x‖⁻¹) := by
    gcongr
  refine h3.trans ?_
  have h4 : (t * ‖x‖) * (((1 - t) * ‖x‖)⁻¹ * ‖x‖⁻¹) = t / (1 - t) * ‖x‖⁻¹ := by
    have : 1 - t ≠ 0 := by linarith
    field_simp
  rw [h4]
  refine mul_le_mul_of_nonneg_right ?_ (by positivity)
  rw [div_le_iff₀ (by linarith)]
  nlinarith [mul_nonneg ht0 ht0, mul_nonneg (mul_nonneg ht0 ht0) ht0]

/-- The reciprocal of a number with one rounding error. -/
theorem Ap.inv (hu : 0 ≤ u) (hu' : u ≤ 1 / 16) (hx : x ≠ 0) (h : ‖x' - x‖ ≤ u * ‖x‖) :
    x' ≠ 0 ∧ Ap u 2 ‖x‖⁻¹ x'⁻¹ x⁻¹ :=
  Ap.invk hu 1 (by rw [pow_one]; linarith) hx (by rwa [pow_one, add_sub_cancel_left])

end

/-! ## Real parts -/

/-- The real part of `x'` approximates that of `x`; `M` is a majorant of both complex numbers. -/
def ApR (u : ℝ) (n : ℕ) (M : ℝ) (x' x : ℂ) : Prop :=
  |x'.re - x.re| ≤ ((1 + u) ^ n - 1) * M ∧ ‖x‖ ≤ M ∧ ‖x'‖ ≤ (1 + u) ^ n * M

section
variable {u : ℝ} {n m : ℕ} {M N : ℝ} {x' x y' y : ℂ}

theorem Ap.toR (h : Ap u n M x' x) : ApR u n M x' x := by
  refine ⟨?_, h.2, h.norm⟩
  rw [← Complex.sub_re]
  exact (Complex.abs_re_le_norm _).trans h.1

theorem ApR.nonneg (h : ApR u n M x' x) : 0 ≤ M := (norm_nonneg _).trans h.2.1

theorem ApR.mono (hu : 0 ≤ u) (h : ApR u n M x' x) (hn : n ≤ m) (hM : M ≤ N) : ApR u m N x' x := by
  have h1 := one_le_pow_u hu n
  have h2 : (1 + u) ^ n ≤ (1 + u) ^ m := pow_le_pow_right₀ (by linarith) hn
  refine ⟨h.1.trans ?_, h.2.1.trans hM, h.2.2.trans ?_⟩
  · exact mul_le_mul (by linarith) hM h.nonneg (by linarith)
  · exact mul_le_mul h2 hM h.nonneg (by linarith)

theorem ApR.round (hu : 0 ≤ u) (h : ApR u n M y x) (hr : ‖y' - y‖ ≤ u * ‖y‖) : ApR u (n + 1) M y' x := by
  have h2 := mul_le_mul_of_nonneg_left h.2.2 hu
  refine ⟨?_, h.2.1, ?_⟩
  · have h1 : |y'.re - x.re| ≤ |y'.re - y.re| + |y.re - x.re| := abs_sub_le _ _ _
    have h3 : |y'.re - y.re| ≤ ‖y' - y‖ := by rw [← Complex.sub_re]; exact Complex.abs_re_le_norm _
    have h4 := h.1
    rw [pow_succ]
    nlinarith
  · have h1 : ‖y'‖ ≤ ‖y' - y‖ + ‖y‖ := by simpa using norm_add_le (y' - y) y
    have h3 := h.2.2
    rw [pow_succ]
    nlinarith

theorem ApR.add (h : ApR u n M x' x) (h' : ApR u n N y' y) : ApR u n (M + N) (x' + y') (x + y) := by
  refine ⟨?_, (norm_add_le _ _).trans (add_le_add h.2.1 h'.2.1), ?_⟩
  · have : (x' + y').re - (x + y).re = (x'.re - x.re) + (y'.re - y.re) := by simp only [Complex.add_re]; ring
    rw [this, mul_add]
    exact (abs_add_le _ _).trans (add_le_add h.1 h'.1)
  · rw [mul_add]
    exact (norm_add_le _ _).trans (add_le_add h.2.2 h'.2.2)

theorem ApR.neg (h : ApR u n M x' x) : ApR u n M (-x') (-x) := by
  refine ⟨?_, by rw [norm_neg]; exact h.2.1, by rw [norm_neg]; exact h.2.2⟩
  have : (-x').re - (-x).re = -(x'.re - x.re) := by simp only [Complex.neg_re]; ring
  rw [this, abs_neg]; exact h.1

theorem ApR.sub (h : ApR u n M x' x) (h' : ApR u n N y' y) : ApR u n (M + N) (x' - y') (x - y) := by
  rw [sub_eq_add_neg, sub_eq_add_neg]; exact h.add h'.neg

theorem ApR.zero (hM : 0 ≤ M) (hu : 0 ≤ u) : ApR u n M 0 0 := (Ap.zero hM hu).toR

/-- Product with an approximated real number. -/
theorem ApR.mul_real (hu : 0 ≤ u) {q' q : ℝ} (hq : Ap u m N q' q) (h : ApR u n M x' x) :
    ApR u (m + n) (N * M) ((q' : ℂ) * x') ((q : ℂ) * x) := by
  have h1 := one_le_pow_u hu n
  have hN := hq.nonneg
  have hM := h.nonneg
  refine ⟨?_, ?_, ?_⟩
  · have hre : |x'.re| ≤ (1 + u) ^ n * M := (Complex.abs_re_le_norm _).trans h.2.2
    have e : ((q' : ℂ) * x').re - ((q : ℂ) * x).re = (q' - q) * x'.re + q * (x'.re - x.re) := by simp; ring
    rw [e]
    refine (abs_add_le _ _).trans ?_
    rw [abs_mul, abs_mul]
    have h2 : |q' - q| * |x'.re| ≤ (((1 + u) ^ m - 1) * N) * ((1 + u) ^ n * M) :=
      mul_le_mul hq.1 hre (abs_nonneg _) ((abs_nonneg _).trans hq.1)
    have h3 : |q| * |x'.re - x.re| ≤ N * (((1 + u) ^ n - 1) * M) :=
      mul_le_mul hq.2 h.1 (abs_nonneg _) hN
    rw [pow_add]
    nlinarith
  · rw [norm_mul, Complex.norm_real]
    exact mul_le_mul hq.2 h.2.1 (norm_nonneg _) hN
  · rw [norm_mul, Complex.norm_real, pow_add]
    have := mul_le_mul hq.norm h.2.2 (norm_nonneg _) (mul_nonneg (by positivity) hN)
    calc ‖q'‖ * ‖x'‖ ≤ (1 + u) ^ m * N * ((1 + u) ^ n * M) := this
      _ = _ := by ring

theorem Ap.ofReal {q' q : ℝ} (h : Ap u n M q' q) : Ap u n M (q' : ℂ) (q : ℂ) := by
  refine ⟨?_, by rw [Complex.norm_real]; exact h.2⟩
  rw [← Complex.ofReal_sub, Complex.norm_real]; exact h.1

theorem Ap.re (h : Ap u n M x' x) : Ap u n M x'.re x.re := by
  refine ⟨?_, (Complex.abs_re_le_norm _).trans h.2⟩
  rw [← Complex.sub_re]
  exact (Complex.abs_re_le_norm _).trans h.1

theorem ApR.re (h : ApR u n M x' x) : Ap u n M x'.re x.re := ⟨h.1, (Complex.abs_re_le_norm _).trans h.2.1⟩

end

/-! ## Operations -/

namespace Flt.Ok
variable {F : Flt} {u : ℝ} (hF : F.Ok u) {n m : ℕ} {M N : ℝ} {x' x y' y : ℂ}
include hF

theorem pair (a b : ℝ) : ‖(⟨F.rnd a, F.rnd b⟩ : ℂ) - ⟨a, b⟩‖ ≤ u * ‖(⟨a, b⟩ : ℂ)‖ := by
  have ha := hF.rnd a
  have hb := hF.rnd b
  have hu := hF.nonneg
  have e : ∀ x y : ℝ, ‖(⟨x, y⟩ : ℂ)‖ = Real.sqrt (x ^ 2 + y ^ 2) := fun x y => by
    rw [Complex.norm_def, Complex.normSq_mk]; congr 1; ring
  have : (⟨F.rnd a, F.rnd b⟩ : ℂ) - ⟨a, b⟩ = ⟨F.rnd a - a, F.rnd b - b⟩ := rfl
  rw [this, e, e, ← Real.sqrt_sq hu, ← Real.sqrt_mul (by positivity)]
  refine Real.sqrt_le_sqrt ?_
  have h1 : (F.rnd a - a) ^ 2 ≤ (u * |a|) ^ 2 := by
    rw [← sq_abs (F.rnd a - a)]; exact pow_le_pow_left₀ (abs_nonneg _) ha 2
  have h2 : (F.rnd b - b) ^ 2 ≤ (u * |b|) ^ 2 := by
    rw [← sq_abs (F.rnd b - b)]; exact pow_le_pow_left₀ (abs_nonneg _) hb 2
  rw [mul_pow, sq_abs] at h1 h2
  linarith

theorem cadd_err (x y : ℂ) : ‖F.cadd x y - (x + y)‖ ≤ u * ‖x + y‖ := hF.pair _ _
theorem csub_err (x y : ℂ) : ‖F.csub x y - (x - y)‖ ≤ u * ‖x - y‖ := hF.pair _ _
theorem rsc_err (r : ℝ) (z : ℂ) : ‖F.rsc r z - r * z‖ ≤ u * ‖(r : ℂ) * z‖ := by
  have : (r : ℂ) * z = ⟨r * z.re, r * z.im⟩ := by apply Complex.ext <;> simp
  rw [this]; exact hF.pair _ _
theorem cdr_err (z : ℂ) (r : ℝ) : ‖F.cdr z r - z / r‖ ≤ u * ‖z / (r : ℂ)‖ := by
  have : z / (r : ℂ) = ⟨z.re / r, z.im / r⟩ := by apply Complex.ext <;> simp
  rw [this]; exact hF.pair _ _

theorem cadd (h : Ap u n M x' x) (h' : Ap u n N y' y) : Ap u (n + 1) (M + N) (F.cadd x' y') (x + y) :=
  (h.add h').round hF.nonneg (hF.cadd_err _ _)
theorem csub (h : Ap u n M x' x) (h' : Ap u n N y' y) : Ap u (n + 1) (M + N) (F.csub x' y') (x - y) :=
  (h.sub h').round hF.nonneg (hF.csub_err _ _)
theorem caddR (h : ApR u n M x' x) (h' : ApR u n N y' y) : ApR u (n + 1) (M + N) (F.cadd x' y') (x + y) :=
  (h.add h').round hF.nonneg (hF.cadd_err _ _)
theorem csubR (h : ApR u n M x' x) (h' : ApR u n N y' y) : ApR u (n + 1) (M + N) (F.csub x' y') (x - y) :=
  (h.sub h').round hF.nonneg (hF.csub_err _ _)
theorem cmul (h : Ap u n M x' x) (h' : Ap u m N y' y) : Ap u (n + m + 1) (M * N) (F.mul x' y') (x * y) :=
  (h.mul hF.nonneg h').round hF.nonneg (hF.mul _ _)
theorem rsc {q' q : ℝ} (h : Ap u n M q' q) (h' : Ap u m N y' y) : Ap u (n + m + 1) (M * N) (F.rsc q' y') (q * y) :=
  (h.ofReal.mul hF.nonneg h').round hF.nonneg (hF.rsc_err _ _)
theorem rscR {q' q : ℝ} (h : Ap u n M q' q) (h' : ApR u m N y' y) : ApR u (n + m + 1) (M * N) (F.rsc q' y') (q * y) :=
  (h'.mul_real hF.nonneg h).round hF.nonneg (hF.rsc_err _ _)
theorem cdr (h : Ap u n M x' x) {r : ℝ} (hr : 0 < r) : Ap u (n + 1) (M / r) (F.cdr x' r) (x / r) := by
  refine Ap.round hF.nonneg (y := x' / r) ?_ (hF.cdr_err _ _)
  have h2 : Ap u 0 r⁻¹ ((r⁻¹ : ℝ) : ℂ) ((r⁻¹ : ℝ) : ℂ) := Ap.refl (by
    rw [Complex.norm_real, Real.norm_eq_abs, abs_of_pos (by positivity)])
  have := h.mul hF.nonneg h2
  rw [Complex.ofReal_inv] at this
  simpa [div_eq_mul_inv] using this
theorem rrnd {q' q : ℝ} (h : Ap u n M q' q) : Ap u (n + 1) M (F.rnd q') q :=
  h.round hF.nonneg (by rw [Real.norm_eq_abs, Real.norm_eq_abs]; exact hF.rnd _)
theorem caddr {q : ℝ} (h : Ap u n M x' x) (hi : x'.im = 0) (hi' : x.im = 0) (hq : |q| ≤ N) :
    Ap u (n + 1) (M + N) (F.caddr x' q) (x + q) ∧ (F.caddr x' q).im = 0 := by
  have h1 : Ap u n N q q := (Ap.refl hq).mono hF.nonneg (by omega) le_rfl
  have h2 := (hF.rrnd (h.re.add h1)).ofReal
  have e1 : F.caddr x' q = ((F.rnd (x'.re + q) : ℝ) : ℂ) := Complex.ext rfl (by simp [Flt.caddr, hi])
  have e2 : x + q = ((x.re + q : ℝ) : ℂ) := Complex.ext (by simp) (by simp [hi'])
  rw [e1, e2]
  exact ⟨h2, by simp⟩

/-- Difference of two exactly known numbers. -/
theorem diff (x y : ℂ) (h : ‖x - y‖ ≤ M) : Ap u 1 M (F.csub x y) (x - y) :=
  (Ap.refl h).round hF.nonneg (hF.csub_err _ _)

theorem csub_ne {x y : ℂ} (h : x - y ≠ 0) : F.csub x y ≠ 0 :=
  (Ap.inv hF.nonneg hF.small h (hF.csub_err x y)).1

/-- Reciprocal of a computed difference. -/
theorem inv (x y : ℂ) (h : x - y ≠ 0) {D : ℝ} (hD : ‖x - y‖⁻¹ ≤ D) :
    Ap u 3 D (F.div 1 (F.csub x y)) (x - y)⁻¹ := by
  have h1 := Ap.inv hF.nonneg hF.small h (hF.csub_err x y)
  have := h1.2.round hF.nonneg (y' := F.div 1 (F.csub x y)) (by
    have := hF.div 1 _ h1.1
    rwa [one_div] at this)
  exact this.mono hF.nonneg le_rfl hD

/-- Division by a computed difference. -/
theorem divDiff (x y : ℂ) (h : x - y ≠ 0) {D : ℝ} (hD : ‖x - y‖⁻¹ ≤ D) {w' w : ℂ} (hw : Ap u n M w' w) :
    Ap u (n + 3) (M * D) (F.div w' (F.csub x y)) (w * (x - y)⁻¹) := by
  have h1 := Ap.inv hF.nonneg hF.small h (hF.csub_err x y)
  have h2 := (hw.mul hF.nonneg (h1.2.mono hF.nonneg le_rfl hD)).round hF.nonneg (y' := F.div w' (F.csub x y)) (by
    have := hF.div w' _ h1.1
    rwa [div_eq_mul_inv] at this)
  exact h2

omit hF in
theorem log_ratio (hu : 0 ≤ u) (_hu' : u ≤ 1 / 16) {a b : ℝ} (hb : 0 < b) (k : ℕ) (hk : (1 + u) ^ k ≤ 3 / 2)
    (h : |a - b| ≤ ((1 + u) ^ k - 1) * b) : 0 < a ∧ |Real.log a - Real.log b| ≤ (1 + u) ^ (2 * k) - 1 := by
  have h1 := abs_le.mp h
  have h0 := one_le_pow_u hu k
  have ha : 0 < a := by nlinarith
  refine ⟨ha, ?_⟩
  set t := (1 + u) ^ k - 1 with ht
  have h2 : (1 + u) ^ (2 * k) - 1 = 2 * t + t ^ 2 := by rw [mul_comm 2 k, pow_mul]; rw [ht]; ring
  rw [h2, abs_le]
  have e1 : Real.log a - Real.log b = Real.log (a / b) := (Real.log_div ha.ne' hb.ne').symm
  have e2 : Real.log b - Real.log a = Real.log (b / a) := (Real.log_div hb.ne' ha.ne').symm
  have l1 : Real.log (a / b) ≤ a / b - 1 := Real.log_le_sub_one_of_pos (by positivity)
  have l2 : Real.log (b / a) ≤ b / a - 1 := Real.log_le_sub_one_of_pos (by positivity)
  have b1 : a / b ≤ 1 + t := by rw [div_le_iff₀ hb]; linarith
  have b2 : b / a ≤ 1 + 2 * t := by
    rw [div_le_iff₀ ha]
    have h3 : (1 + 2 * t) * ((1 - t) * b) ≤ (1 + 2 * t) * a := mul_le_mul_of_nonneg_left (by linarith) (by linarith)
    have h4 : b ≤ (1 + 2 * t) * ((1 - t) * b) := by
      have h5 : 0 ≤ t * (1 - 2 * t) := mul_nonneg (by linarith) (by linarith)
      nlinarith
    linarith
  constructor
  · have : Real.log b - Real.log a ≤ 2 * t := by rw [e2]; linarith
    nlinarith [sq_nonneg t]
  · rw [e1]; nlinarith [sq_nonneg t]

/-- Logarithm of (minus) a computed difference. -/
theorem logDiff {w' w : ℂ} (hw : w ≠ 0) (h : ‖w' - w‖ ≤ u * ‖w‖) {Λ : ℝ} (hΛ : |Real.log ‖w‖| ≤ Λ) :
    ApR u 3 (Λ + Real.pi) (F.log w') (Complex.log w) := by
  have hu := hF.nonneg
  have h1 := Ap.inv hu hF.small hw h
  have hw0 : 0 < ‖w‖ := norm_pos_iff.mpr hw
  have hpi := Real.two_le_pi
  have hr := log_ratio hu hF.small hw0 1 (by rw [pow_one]; linarith [hF.small]) (a := ‖w'‖) (by
    rw [pow_one, add_sub_cancel_left]
    exact (abs_norm_sub_norm_le _ _).trans h)
  have key : ∀ z : ℂ, ‖Complex.log z‖ ≤ |Real.log ‖z‖| + Real.pi := by
    intro z
    refine (Complex.norm_le_abs_re_add_abs_im _).trans ?_
    rw [Complex.log_re, Complex.log_im]
    exact add_le_add le_rfl (Complex.abs_arg_le_pi z)
  have hL0 : 0 ≤ Λ := (abs_nonneg _).trans hΛ
  have hA : ApR u 2 (Λ + Real.pi) (Complex.log w') (Complex.log w) := by
    have h0 := one_le_pow_u hu 2
    refine ⟨?_, (key w).trans (by linarith), (key w').trans ?_⟩
    · rw [Complex.log_re, Complex.log_re]
      refine hr.2.trans ?_
      have e : 2 * 1 = 2 := rfl
      rw [e]
      exact le_mul_of_one_le_right (by linarith) (by linarith)
    · have h2 : |Real.log ‖w'‖| ≤ |Real.log ‖w'‖ - Real.log ‖w‖| + |Real.log ‖w‖| := by
        simpa using abs_add_le (Real.log ‖w'‖ - Real.log ‖w‖) (Real.log ‖w‖)
      have h3 := hr.2
      have e : 2 * 1 = 2 := rfl
      rw [e] at h3
      nlinarith
  exact hA.round hu (hF.log w' h1.1)

end Flt.Ok
end FMM
