import Verif.FltDirect
import Verif.Ieee

/-!
# IEEE arithmetic is a floating-point arithmetic in the sense of `Flt.Ok`

Components are rounded to nearest, ties to even (no overflow, no underflow).  Products and quotients of complex numbers
are computed by the school-book formulae with every operation rounded; logarithms and norms are the rounded exact values.
-/

namespace FMM

/-- Arithmetic with a given rounding. -/
noncomputable def Flt.ofRnd (r : ℝ → ℝ) : Flt where
  rnd := r
  mul x y := ⟨r (r (x.re * y.re) - r (x.im * y.im)), r (r (x.re * y.im) + r (x.im * y.re))⟩
  div x y :=
    let n := r (r (y.re * y.re) + r (y.im * y.im))
    ⟨r (r (r (x.re * y.re) + r (x.im * y.im)) / n), r (r (r (x.im * y.re) - r (x.re * y.im)) / n)⟩
  log z := ⟨r (Real.log ‖z‖), r z.arg⟩
  rlog x := r (Real.log x)
  nrm v := r (Vec.norm v)

/-- `double`s, round to nearest even. -/
noncomputable def Flt.ieee : Flt := Flt.ofRnd Rounded.rndNE

section
variable {r : ℝ → ℝ} {v : ℝ}

theorem rnd_ap (hv : 0 ≤ v) (H : ∀ x, |r x - x| ≤ v * |x|) {n : ℕ} {M x' x : ℝ} (h : Ap v n M x' x) :
    Ap v (n + 1) M (r x') x :=
  h.round hv (by rw [Real.norm_eq_abs, Real.norm_eq_abs]; exact H _)

theorem norm_le_of_parts {a b A B : ℝ} (ha : |a| ≤ A) (hb : |b| ≤ B) : ‖(⟨a, b⟩ : ℂ)‖ ≤ ‖(⟨A, B⟩ : ℂ)‖ := by
  have hA : 0 ≤ A := (abs_nonneg _).trans ha
  have hB : 0 ≤ B := (abs_nonneg _).trans hb
  rw [Complex.norm_def, Complex.norm_def, Complex.normSq_mk, Complex.normSq_mk]
  refine Real.sqrt_le_sqrt ?_
  have h1 : a * a ≤ A * A := by rw [← abs_mul_abs_self]; exact mul_le_mul ha ha (abs_nonneg _) hA
  have h2 : b * b ≤ B * B := by rw [← abs_mul_abs_self]; exact mul_le_mul hb hb (abs_nonneg _) hB
  linarith

/-- The two sums of products occurring in a complex product. -/
theorem norm_sums_le (a b c d : ℝ) :
    ‖(⟨|a| * |c| + |b| * |d|, |a| * |d| + |b| * |c|⟩ : ℂ)‖ ≤ 3 / 2 * (‖(⟨a, b⟩ : ℂ)‖ * ‖(⟨c, d⟩ : ℂ)‖) := by
  rw [Complex.norm_def, Complex.norm_def, Complex.norm_def, Complex.normSq_mk, Complex.normSq_mk, Complex.normSq_mk,
    ← Real.sqrt_mul (add_nonneg (mul_self_nonneg _) (mul_self_nonneg _))]
  have e : (3 / 2 : ℝ) = Real.sqrt (9 / 4) := by
    rw [show (9 / 4 : ℝ) = (3 / 2) ^ 2 by norm_num, Real.sqrt_sq (by norm_num)]
  rw [e, ← Real.sqrt_mul (by norm_num)]
  refine Real.sqrt_le_sqrt ?_
  rw [← abs_mul_abs_self a, ← abs_mul_abs_self b, ← abs_mul_abs_self c, ← abs_mul_abs_self d]
  generalize |a| = a
  generalize |b| = b
  generalize |c| = c
  generalize |d| = d
  nlinarith [sq_nonneg (a * c - b * d), sq_nonneg (a * d - b * c), sq_nonneg (a * c), sq_nonneg (b * d), sq_nonneg (a * d),
    sq_nonneg (b * c)]

theorem two_products (hv : 0 ≤ v) (H : ∀ x, |r x - x| ≤ v * |x|) (a b c d : ℝ) :
    Ap v 2 (|a| * |c| + |b| * |d|) (r (r (a * c) + r (b * d))) (a * c + b * d) ∧
    Ap v 2 (|a| * |c| + |b| * |d|) (r (r (a * c) - r (b * d))) (a * c - b * d) := by
  have h1 : Ap v 1 (|a| * |c|) (r (a * c)) (a * c) :=
    rnd_ap hv H (Ap.refl (by rw [Real.norm_eq_abs, abs_mul]))
  have h2 : Ap v 1 (|b| * |d|) (r (b * d)) (b * d) :=
    rnd_ap hv H (Ap.refl (by rw [Real.norm_eq_abs, abs_mul]))
  exact ⟨rnd_ap hv H (h1.add h2), rnd_ap hv H (h1.sub h2)⟩

/-- Both components of a complex number. -/
theorem Ap.pair {n : ℕ} {A B a' a b' b : ℝ} (hv : 0 ≤ v) (ha : Ap v n A a' a) (hb : Ap v n B b' b) :
    Ap v n ‖(⟨A, B⟩ : ℂ)‖ (⟨a', b'⟩ : ℂ) ⟨a, b⟩ := by
  refine ⟨?_, norm_le_of_parts ha.2 hb.2⟩
  have h0 := one_le_pow_u hv n
  have e : (⟨a', b'⟩ : ℂ) - ⟨a, b⟩ = ⟨a' - a, b' - b⟩ := rfl
  rw [e]
  refine (norm_le_of_parts ha.1 hb.1).trans (le_of_eq ?_)
  have e2 : (⟨((1 + v) ^ n - 1) * A, ((1 + v) ^ n - 1) * B⟩ : ℂ) = (((1 + v) ^ n - 1 : ℝ) : ℂ) * ⟨A, B⟩ := by
    generalize (1 + v) ^ n - 1 = t
    apply Complex.ext <;> simp
  rw [e2, norm_mul, Complex.norm_real, Real.norm_eq_abs, abs_of_nonneg (by linarith)]

theorem ofRnd_mul (hv : 0 ≤ v) (H : ∀ x, |r x - x| ≤ v * |x|) (x y : ℂ) :
    Ap v 2 (3 / 2 * ‖x * y‖) ((Flt.ofRnd r).mul x y) (x * y) := by
  have h1 := (two_products hv H x.re x.im y.re y.im).2
  have h2 := (two_products hv H x.re x.im y.im y.re).1
  have h := Ap.pair hv h1 h2
  have e : x * y = ⟨x.re * y.re - x.im * y.im, x.re * y.im + x.im * y.re⟩ := Complex.ext (by simp) (by simp)
  have hn := norm_sums_le x.re x.im y.re y.im
  rw [norm_mul]
  have h3 := h.mono hv le_rfl hn
  rw [← e] at h3
  exact h3

theorem ofRnd_div (hv : 0 ≤ v) (hv' : v ≤ 1 / 16) (H : ∀ x, |r x - x| ≤ v * |x|) (x y : ℂ) (hy : y ≠ 0) :
    Ap v 7 (3 / 2 * ‖x / y‖) ((Flt.ofRnd r).div x y) (x / y) := by
  have hn0 : 0 < Complex.normSq y := Complex.normSq_pos.mpr hy
  have hn : Ap v 2 (Complex.normSq y) (r (r (y.re * y.re) + r (y.im * y.im))) (Complex.normSq y) := by
    have h := (two_products hv H y.re y.im y.re y.im).1
    rwa [abs_mul_abs_self, abs_mul_abs_self, ← Complex.normSq_apply] at h
  have hi := (Ap.invk hv 2 (by nlinarith) hn0.ne' (by
    have := hn.1
    rwa [Real.norm_eq_abs (Complex.normSq y), abs_of_pos hn0])).2
  rw [Real.norm_eq_abs, abs_of_pos hn0] at hi
  set N := Complex.normSq y with hN
  set N' := r (r (y.re * y.re) + r (y.im * y.im)) with hN'
  have h1 := (two_products hv H x.re x.im y.re y.im).1
  have h2 := (two_products hv H x.im x.re y.re y.im).2
  have g1 := rnd_ap hv H (h1.mul hv hi)
  have g2 := rnd_ap hv H (h2.mul hv hi)
  rw [← div_eq_mul_inv _ N'] at g1 g2
  have h := Ap.pair hv g1 g2
  have e : x / y = ⟨(x.re * y.re + x.im * y.im) * N⁻¹, (x.im * y.re - x.re * y.im) * N⁻¹⟩ := by
    rw [div_eq_mul_inv, Complex.inv_def]
    apply Complex.ext <;> simp [← hN] <;> ring
  rw [← e] at h
  refine h.mono hv le_rfl ?_
  have e2 : (⟨(|x.re| * |y.re| + |x.im| * |y.im|) * N⁻¹, (|x.im| * |y.re| + |x.re| * |y.im|) * N⁻¹⟩ : ℂ) =
      ((N⁻¹ : ℝ) : ℂ) * ⟨|x.re| * |y.re| + |x.im| * |y.im|, |x.re| * |y.im| + |x.im| * |y.re|⟩ := by
    apply Complex.ext <;> simp <;> ring
  rw [e2, norm_mul, Complex.norm_real, Real.norm_eq_abs, abs_of_pos (by positivity), norm_div]
  have h3 := mul_le_mul_of_nonneg_left (norm_sums_le x.re x.im y.re y.im) (show 0 ≤ N⁻¹ by positivity)
  refine h3.trans (le_of_eq ?_)
  have hy0 : 0 < ‖y‖ := norm_pos_iff.mpr hy
  have e3 : N = ‖y‖ ^ 2 := by rw [hN, Complex.normSq_eq_norm_sq]
  have e4 : ‖(⟨x.re, x.im⟩ : ℂ)‖ = ‖x‖ := rfl
  have e5 : ‖(⟨y.re, y.im⟩ : ℂ)‖ = ‖y‖ := rfl
  rw [e3, e4, e5]
  field_simp

theorem ofRnd_pair (_hv : 0 ≤ v) (H : ∀ x, |r x - x| ≤ v * |x|) (a b : ℝ) :
    ‖(⟨r a, r b⟩ : ℂ) - ⟨a, b⟩‖ ≤ v * ‖(⟨a, b⟩ : ℂ)‖ := by
  have h := Ap.pair _hv (rnd_ap _hv H (Ap.refl (u := v) (x := a) le_rfl)) (rnd_ap _hv H (Ap.refl (u := v) (x := b) le_rfl))
  have h1 := h.1
  rw [zero_add, pow_one, add_sub_cancel_left] at h1
  refine h1.trans (mul_le_mul_of_nonneg_left (le_of_eq ?_) _hv)
  rw [Complex.norm_def, Complex.norm_def, Complex.normSq_mk, Complex.normSq_mk]
  simp only [Real.norm_eq_abs, abs_mul_abs_self]

/-- Rounding with relative error `v` gives an arithmetic with relative errors at most `16 v`. -/
theorem Flt.ofRnd_ok (hv : 0 ≤ v) (hv' : v ≤ 1 / 256) (H : ∀ x, |r x - x| ≤ v * |x|) : (Flt.ofRnd r).Ok (16 * v) := by
  have hle : v ≤ 16 * v := by linarith
  have p2 : ((1 + v) ^ 2 - 1) * (3 / 2) ≤ 16 * v := by nlinarith
  have p7 : ((1 + v) ^ 7 - 1) * (3 / 2) ≤ 16 * v := by
    have h2 : (1 + v) ^ 2 ≤ 1 + 201 / 100 * v := by nlinarith
    have h4 : (1 + v) ^ 4 ≤ 1 + 41 / 10 * v := by
      have : (1 + v) ^ 4 = ((1 + v) ^ 2) ^ 2 := by ring
      rw [this]
      have := pow_le_pow_left₀ (by positivity) h2 2
      nlinarith
    have h6 : (1 + v) ^ 6 ≤ 1 + 63 / 10 * v := by
      have e : (1 + v) ^ 6 = (1 + v) ^ 4 * (1 + v) ^ 2 := by ring
      rw [e]
      have := mul_le_mul h4 h2 (by positivity) (by positivity)
      nlinarith
    have e : (1 + v) ^ 7 = (1 + v) ^ 6 * (1 + v) := by ring
    rw [e]
    have := mul_le_mul_of_nonneg_right h6 (show 0 ≤ 1 + v by linarith)
    nlinarith
  refine ⟨by linarith, by linarith, fun x => ?_, fun x y => ?_, fun x y hy => ?_, fun z _ => ?_, fun x _ => ?_, fun w => ?_⟩
  · exact (H x).trans (mul_le_mul_of_nonneg_right hle (abs_nonneg _))
  · have h := (ofRnd_mul hv H x y).1
    rw [← mul_assoc] at h
    exact h.trans (mul_le_mul_of_nonneg_right p2 (norm_nonneg _))
  · have h := (ofRnd_div hv (by linarith) H x y hy).1
    rw [← mul_assoc] at h
    exact h.trans (mul_le_mul_of_nonneg_right p7 (norm_nonneg _))
  · have e : Complex.log z = ⟨Real.log ‖z‖, z.arg⟩ := Complex.ext (Complex.log_re z) (Complex.log_im z)
    rw [e]
    exact (ofRnd_pair hv H _ _).trans (mul_le_mul_of_nonneg_right hle (norm_nonneg _))
  · exact (H _).trans (mul_le_mul_of_nonneg_right hle (abs_nonneg _))
  · have h0 : 0 ≤ Vec.norm w := Real.sqrt_nonneg _
    have h := H (Vec.norm w)
    rw [abs_of_nonneg h0] at h
    exact h.trans (mul_le_mul_of_nonneg_right hle h0)

theorem Flt.ieee_ok : Flt.ieee.Ok (1 / 2 ^ 49) := by
  have h := Flt.ofRnd_ok (r := Rounded.rndNE) (v := 1 / 2 ^ 53) (by positivity) (by norm_num) Rounded.rndNE_rel
  have e : (16 * (1 / 2 ^ 53) : ℝ) = 1 / 2 ^ 49 := by norm_num
  rw [e] at h
  exact h

end
end FMM
