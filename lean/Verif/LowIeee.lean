import Verif.LowCalc
import Verif.FltIeee
import Verif.DoubleAgree2
import Verif.DoubleLib3

/-!
# Binary64 has a floor

Arithmetic in which every operation is rounded with relative error `v` or absolute error `v m` satisfies `Flt.Low`; in particular `double`s
without a largest number.
-/

namespace FMM.Lo
open FMM Rounded

section
variable {r : ℝ → ℝ} {v m : ℝ}

theorem rnd_err (hv : 0 ≤ v) (hm : 0 ≤ m) (H : ∀ x, |r x - x| ≤ v * max |x| m) (x : ℝ) : |r x - x| ≤ v * (|x| + m) :=
  (H x).trans (mul_le_mul_of_nonneg_left (max_le (by linarith) (by linarith [abs_nonneg x])) hv)

theorem sum_err (hv : 0 ≤ v) (hv' : v ≤ 1 / 1024) (hm : 0 ≤ m) (H : ∀ x, |r x - x| ≤ v * (|x| + m)) (s t : ℝ) :
    |r (r s + r t) - (s + t)| ≤ (2 * v + v ^ 2) * (|s| + |t|) + 4 * v * m := by
  have h1 := H s
  have h2 := H t
  have h3 := H (r s + r t)
  have h4 : |r s + r t - (s + t)| ≤ v * (|s| + |t|) + 2 * v * m := by
    have e : r s + r t - (s + t) = (r s - s) + (r t - t) := by ring
    rw [e]
    refine (abs_add_le _ _).trans ?_
    linarith
  have h5 : |r s + r t| ≤ (1 + v) * (|s| + |t|) + 2 * v * m := by
    have := abs_add_le (r s + r t - (s + t)) (s + t)
    rw [sub_add_cancel] at this
    have := abs_add_le s t
    linarith
  have h6 := abs_sub_le (r (r s + r t)) (r s + r t) (s + t)
  have h7 : v * (|r s + r t| + m) ≤ v * ((1 + v) * (|s| + |t|) + 2 * v * m + m) := mul_le_mul_of_nonneg_left (by linarith) hv
  have h8 : 2 * v * (v * m) ≤ 1 * (v * m) := mul_le_mul_of_nonneg_right (by linarith) (by positivity)
  nlinarith

theorem diff_err (hv : 0 ≤ v) (hv' : v ≤ 1 / 1024) (hm : 0 ≤ m) (H : ∀ x, |r x - x| ≤ v * (|x| + m)) (s t : ℝ) :
    |r (r s - r t) - (s - t)| ≤ (2 * v + v ^ 2) * (|s| + |t|) + 4 * v * m := by
  have h1 := H s
  have h2 := H t
  have h3 := H (r s - r t)
  have h4 : |r s - r t - (s - t)| ≤ v * (|s| + |t|) + 2 * v * m := by
    have e : r s - r t - (s - t) = (r s - s) - (r t - t) := by ring
    rw [e]
    refine (abs_sub _ _).trans ?_
    linarith
  have h5 : |r s - r t| ≤ (1 + v) * (|s| + |t|) + 2 * v * m := by
    have := abs_add_le (r s - r t - (s - t)) (s - t)
    rw [sub_add_cancel] at this
    have := abs_sub s t
    linarith
  have h6 := abs_sub_le (r (r s - r t)) (r s - r t) (s - t)
  have h7 : v * (|r s - r t| + m) ≤ v * ((1 + v) * (|s| + |t|) + 2 * v * m + m) := mul_le_mul_of_nonneg_left (by linarith) hv
  have h8 : 2 * v * (v * m) ≤ 1 * (v * m) := mul_le_mul_of_nonneg_right (by linarith) (by positivity)
  nlinarith

/-- Both components of a complex number, with relative and absolute errors. -/
theorem pair_err {a b A B α β : ℝ} (hα : 0 ≤ α) (hβ : 0 ≤ β) (ha : |a| ≤ α * A + β) (hb : |b| ≤ α * B + β) :
    ‖(⟨a, b⟩ : ℂ)‖ ≤ α * ‖(⟨A, B⟩ : ℂ)‖ + 2 * β := by
  refine (norm_le_of_parts ha hb).trans ?_
  have e : (⟨α * A + β, α * B + β⟩ : ℂ) = (α : ℂ) * ⟨A, B⟩ + (β : ℂ) * ⟨1, 1⟩ := by
    apply Complex.ext <;> simp
  rw [e]
  refine (norm_add_le _ _).trans ?_
  rw [norm_mul, norm_mul, Complex.norm_real, Complex.norm_real, Real.norm_eq_abs, Real.norm_eq_abs, abs_of_nonneg hα, abs_of_nonneg hβ]
  have : ‖(⟨1, 1⟩ : ℂ)‖ ≤ 2 := by
    have := Complex.norm_le_abs_re_add_abs_im (⟨1, 1⟩ : ℂ)
    simp only [abs_one] at this
    linarith
  nlinarith

theorem mul_err (hv : 0 ≤ v) (hv' : v ≤ 1 / 1024) (hm : 0 ≤ m) (H : ∀ x, |r x - x| ≤ v * (|x| + m)) (x y : ℂ) :
    ‖(Flt.ofRnd r).mul x y - x * y‖ ≤ 4 * v * ‖x * y‖ + 8 * v * m := by
  have h1 := diff_err hv hv' hm H (x.re * y.re) (x.im * y.im)
  have h2 := sum_err hv hv' hm H (x.re * y.im) (x.im * y.re)
  rw [abs_mul, abs_mul] at h1 h2
  have h := pair_err (by positivity) (by positivity) h1 h2
  have e : (Flt.ofRnd r).mul x y - x * y = ⟨r (r (x.re * y.re) - r (x.im * y.im)) - (x.re * y.re - x.im * y.im),
      r (r (x.re * y.im) + r (x.im * y.re)) - (x.re * y.im + x.im * y.re)⟩ := by
    apply Complex.ext <;> simp [Flt.ofRnd]
  rw [e]
  refine h.trans ?_
  have hn := norm_sums_le x.re x.im y.re y.im
  have e4 : ‖(⟨x.re, x.im⟩ : ℂ)‖ = ‖x‖ := rfl
  have e5 : ‖(⟨y.re, y.im⟩ : ℂ)‖ = ‖y‖ := rfl
  rw [e4, e5, ← norm_mul] at hn
  have h3 := mul_le_mul_of_nonneg_left hn (show 0 ≤ 2 * v + v ^ 2 by positivity)
  have h4 : (2 * v + v ^ 2) * (3 / 2 * ‖x * y‖) ≤ 4 * v * ‖x * y‖ := by
    have : (2 * v + v ^ 2) * (3 / 2) ≤ 4 * v := by nlinarith
    nlinarith [norm_nonneg (x * y)]
  linarith

/-- A quotient of computed numbers. -/
theorem quot_err {T num num' N n' : ℝ} (hv : 0 ≤ v) (hv' : v ≤ 1 / 1024) (hm : 0 ≤ m) (hN : 0 < N) (hN1 : 40 * m ≤ N)
    (H : ∀ x, |r x - x| ≤ v * (|x| + m)) (hT : |num| ≤ T) (h1 : |num' - num| ≤ (2 * v + v ^ 2) * T + 4 * v * m)
    (h2 : |n' - N| ≤ (2 * v + v ^ 2) * N + 4 * v * m) :
    |r (num' / n') - num / N| ≤ 6 * v * (T * N⁻¹) + (5 * v * (m * N⁻¹) + v * m) := by
  have hT0 : 0 ≤ T := (abs_nonneg _).trans hT
  have a1 : |n' - N| ≤ 11 / 5 * v * N := by
    have b1 := mul_le_mul_of_nonneg_left hN1 hv
    have b2 : v * (v * N) ≤ 1 / 1024 * (v * N) := mul_le_mul_of_nonneg_right hv' (by positivity)
    have b3 : 0 ≤ v * N := by positivity
    nlinarith
  have a2 : 99 / 100 * N ≤ n' := by
    have := (abs_le.mp a1).1
    nlinarith
  have hn' : 0 < n' := by linarith
  have a3 : |num' / n' - num / N| ≤ (9 / 2 * v * T + 41 / 10 * v * m) * N⁻¹ := by
    have e : num' / n' - num / N = ((num' - num) + num * N⁻¹ * (N - n')) / n' := by
      field_simp
      ring
    rw [e, abs_div, abs_of_pos hn', div_le_iff₀ hn']
    have b1 : |num * N⁻¹ * (N - n')| ≤ T * (11 / 5 * v) := by
      rw [abs_mul, abs_mul, abs_of_pos (inv_pos.mpr hN), abs_sub_comm]
      have : |num| * N⁻¹ * |n' - N| ≤ T * N⁻¹ * (11 / 5 * v * N) := by
        refine mul_le_mul (mul_le_mul_of_nonneg_right hT (inv_pos.mpr hN).le) a1 (abs_nonneg _) (by positivity)
      refine this.trans (le_of_eq ?_)
      field_simp
    have b2 := abs_add_le (num' - num) (num * N⁻¹ * (N - n'))
    have b3 : (9 / 2 * v * T + 41 / 10 * v * m) * N⁻¹ * (99 / 100 * N) ≤ (9 / 2 * v * T + 41 / 10 * v * m) * N⁻¹ * n' :=
      mul_le_mul_of_nonneg_left a2 (by positivity)
    have b4 : (9 / 2 * v * T + 41 / 10 * v * m) * N⁻¹ * (99 / 100 * N) = 99 / 100 * (9 / 2 * v * T + 41 / 10 * v * m) := by field_simp
    have b5 : v ^ 2 * T ≤ 1 / 1024 * (v * T) := by nlinarith [mul_nonneg hv hT0]
    have b6 := mul_nonneg hv hT0
    have b7 := mul_nonneg hv hm
    linarith
  have a4 : |num / N| ≤ T * N⁻¹ := by
    rw [abs_div, abs_of_pos hN, div_eq_mul_inv]
    exact mul_le_mul_of_nonneg_right hT (inv_pos.mpr hN).le
  have a5 := H (num' / n')
  have a6 := abs_sub_le (r (num' / n')) (num' / n') (num / N)
  have a7 : |num' / n'| ≤ T * N⁻¹ + (9 / 2 * v * T + 41 / 10 * v * m) * N⁻¹ := by
    have := abs_add_le (num' / n' - num / N) (num / N)
    rw [sub_add_cancel] at this
    linarith
  have a8 : v * (|num' / n'| + m) ≤ v * (T * N⁻¹ + (9 / 2 * v * T + 41 / 10 * v * m) * N⁻¹ + m) := mul_le_mul_of_nonneg_left (by linarith) hv
  have c1 : 0 ≤ T * N⁻¹ := by positivity
  have c2 : 0 ≤ m * N⁻¹ := by positivity
  have e1 : (9 / 2 * v * T + 41 / 10 * v * m) * N⁻¹ = 9 / 2 * v * (T * N⁻¹) + 41 / 10 * v * (m * N⁻¹) := by ring
  rw [e1] at a3 a8
  generalize T * N⁻¹ = X at *
  generalize m * N⁻¹ = Y at *
  have d1 : v * (v * X) ≤ 1 / 1024 * (v * X) := mul_le_mul_of_nonneg_right hv' (by positivity)
  have d2 : v * (v * Y) ≤ 1 / 1024 * (v * Y) := mul_le_mul_of_nonneg_right hv' (by positivity)
  have d3 : 0 ≤ v * X := by positivity
  have d4 : 0 ≤ v * Y := by positivity
  nlinarith

theorem div_err (hv : 0 ≤ v) (hv' : v ≤ 1 / 1024) (hm : 0 ≤ m) (H : ∀ x, |r x - x| ≤ v * (|x| + m)) {ρ : ℝ} (hρ : 0 < ρ) (hρ1 : ρ ≤ 1)
    (hρm : 40 * m ≤ ρ ^ 2) (x y : ℂ) (hy : ρ ≤ ‖y‖) :
    ‖(Flt.ofRnd r).div x y - x / y‖ ≤ 9 * v * ‖x / y‖ + 12 * v * (m / ρ ^ 2) := by
  have hy0 : 0 < ‖y‖ := hρ.trans_le hy
  have hNe : Complex.normSq y = ‖y‖ ^ 2 := Complex.normSq_eq_norm_sq y
  have hN : 0 < Complex.normSq y := by rw [hNe]; positivity
  have hNρ : ρ ^ 2 ≤ Complex.normSq y := by rw [hNe]; exact pow_le_pow_left₀ hρ.le hy 2
  have h0 := sum_err hv hv' hm H (y.re * y.re) (y.im * y.im)
  rw [abs_of_nonneg (mul_self_nonneg y.re), abs_of_nonneg (mul_self_nonneg y.im), ← Complex.normSq_apply] at h0
  have h1 := sum_err hv hv' hm H (x.re * y.re) (x.im * y.im)
  have h2 := diff_err hv hv' hm H (x.im * y.re) (x.re * y.im)
  rw [abs_mul, abs_mul] at h1 h2
  have t1 : |x.re * y.re + x.im * y.im| ≤ |x.re| * |y.re| + |x.im| * |y.im| := by
    rw [← abs_mul, ← abs_mul]; exact abs_add_le _ _
  have t2 : |x.im * y.re - x.re * y.im| ≤ |x.im| * |y.re| + |x.re| * |y.im| := by
    rw [← abs_mul, ← abs_mul]; exact abs_sub _ _
  have q1 := quot_err hv hv' hm hN (hρm.trans hNρ) H t1 h1 h0
  have q2 := quot_err hv hv' hm hN (hρm.trans hNρ) H t2 h2 h0
  set N := Complex.normSq y with hNd
  have h := pair_err (by positivity) (by positivity) q1 q2
  have e : (Flt.ofRnd r).div x y - x / y = ⟨r (r (r (x.re * y.re) + r (x.im * y.im)) / r (r (y.re * y.re) + r (y.im * y.im)))
        - (x.re * y.re + x.im * y.im) / N,
      r (r (r (x.im * y.re) - r (x.re * y.im)) / r (r (y.re * y.re) + r (y.im * y.im))) - (x.im * y.re - x.re * y.im) / N⟩ := by
    have e1 : x / y = ⟨(x.re * y.re + x.im * y.im) / N, (x.im * y.re - x.re * y.im) / N⟩ := by
      rw [div_eq_mul_inv, Complex.inv_def]
      apply Complex.ext <;> simp [← hNd] <;> ring
    rw [e1]
    rfl
  rw [e]
  refine h.trans ?_
  have e2 : (⟨(|x.re| * |y.re| + |x.im| * |y.im|) * N⁻¹, (|x.im| * |y.re| + |x.re| * |y.im|) * N⁻¹⟩ : ℂ) =
      ((N⁻¹ : ℝ) : ℂ) * ⟨|x.re| * |y.re| + |x.im| * |y.im|, |x.re| * |y.im| + |x.im| * |y.re|⟩ := by
    apply Complex.ext <;> simp <;> ring
  have h3 : ‖(⟨(|x.re| * |y.re| + |x.im| * |y.im|) * N⁻¹, (|x.im| * |y.re| + |x.re| * |y.im|) * N⁻¹⟩ : ℂ)‖ ≤ 3 / 2 * ‖x / y‖ := by
    rw [e2, norm_mul, Complex.norm_real, Real.norm_eq_abs, abs_of_pos (inv_pos.mpr hN), norm_div]
    refine (mul_le_mul_of_nonneg_left (norm_sums_le x.re x.im y.re y.im) (inv_pos.mpr hN).le).trans (le_of_eq ?_)
    have e4 : ‖(⟨x.re, x.im⟩ : ℂ)‖ = ‖x‖ := rfl
    have e5 : ‖(⟨y.re, y.im⟩ : ℂ)‖ = ‖y‖ := rfl
    rw [hNe, e4, e5]
    field_simp
  have h4 : m * N⁻¹ ≤ m / ρ ^ 2 := by
    rw [div_eq_mul_inv]
    exact mul_le_mul_of_nonneg_left (inv_anti₀ (by positivity) hNρ) hm
  have h5 : m ≤ m / ρ ^ 2 := by
    rw [le_div_iff₀ (by positivity)]
    exact mul_le_of_le_one_right hm (pow_le_one₀ hρ.le hρ1)
  have h6 := mul_le_mul_of_nonneg_left h3 (show 0 ≤ 6 * v by positivity)
  have h7 := mul_le_mul_of_nonneg_left h4 hv
  have h8 := mul_le_mul_of_nonneg_left h5 hv
  linarith

theorem maxbound {a b x m' : ℝ} {u : ℝ} (ha : 0 ≤ a) (hb : 0 ≤ b) (h : a + b ≤ u) : a * x + b * m' ≤ u * max x m' ∨ max x m' < 0 := by
  by_cases h0 : 0 ≤ max x m'
  · left
    have h1 := mul_le_mul_of_nonneg_left (le_max_left x m') ha
    have h2 := mul_le_mul_of_nonneg_left (le_max_right x m') hb
    have h3 := mul_le_mul_of_nonneg_right h h0
    linarith
  · right; linarith

/-- Rounding with relative error `v` above `m`, absolute error `v m` below. -/
theorem low_ofRnd (hv : 0 ≤ v) (hv' : v ≤ 1 / 1024) (hm : 0 ≤ m) (H : ∀ x, |r x - x| ≤ v * max |x| m) (r0 : r 0 = 0) {ρ η : ℝ} (hρ : 0 < ρ)
    (hρ1 : ρ ≤ 1) (hη : 2 * m ≤ η * ρ ^ 2) (hη1 : η ≤ 1 / 20) {F : Flt} (hr : F.rnd = r) (hmul : F.mul = (Flt.ofRnd r).mul)
    (hdiv : F.div = (Flt.ofRnd r).div) (hlog : ∀ z, z ≠ 0 → ‖F.log z - Complex.log z‖ ≤ 16 * v * max ‖Complex.log z‖ η)
    (hrlog : ∀ x, 0 < x → F.rlog x = r (Real.log x)) (hnrm : ∀ w, F.nrm w = r (Vec.norm w)) : F.Low (16 * v) η ρ := by
  have hη0 : 0 ≤ η := by
    by_contra h
    have : η * ρ ^ 2 < 0 := mul_neg_of_neg_of_pos (by linarith) (by positivity)
    linarith
  have hmη : m ≤ η := by
    have : η * ρ ^ 2 ≤ η := mul_le_of_le_one_right hη0 (pow_le_one₀ hρ.le hρ1)
    linarith
  have hρm : 40 * m ≤ ρ ^ 2 := by
    have : η * ρ ^ 2 ≤ 1 / 20 * ρ ^ 2 := mul_le_mul_of_nonneg_right hη1 (by positivity)
    linarith
  have hmr : m / ρ ^ 2 ≤ η / 2 := by rw [div_le_iff₀ (by positivity)]; linarith
  have H' := rnd_err hv hm H
  have H1 : ∀ x, |r x - x| ≤ v * max |x| η := fun x =>
    (H x).trans (mul_le_mul_of_nonneg_left (max_le_max le_rfl hmη) hv)
  have up : ∀ x : ℝ, 0 ≤ v * max |x| η := fun x => mul_nonneg hv (le_max_of_le_right hη0)
  have key : ∀ {a b x y e : ℝ}, 0 ≤ x → 0 ≤ a → 0 ≤ b → a + b ≤ 16 * v → y ≤ η → e ≤ a * x + b * y → e ≤ 16 * v * max x η := by
    intro a b x y e hx ha hb hab hy he
    have h1 := mul_le_mul_of_nonneg_left (le_max_left x η) ha
    have h2 := mul_le_mul_of_nonneg_left (hy.trans (le_max_right x η)) hb
    have h3 := mul_le_mul_of_nonneg_right hab (hx.trans (le_max_left x η))
    linarith
  refine ⟨by linarith, by linarith, hη0, by linarith, hρ, fun x => ?_, by rw [hr, r0], fun x y => ?_, fun x y h => ?_, fun x y h => ?_, fun y _ => ?_,
    hlog, fun x hx => ?_, fun w => ?_, fun w hw => ?_⟩
  · rw [hr]; linarith [H1 x, up x]
  · rw [hmul]
    exact key (norm_nonneg _) (by linarith) (by linarith) (by linarith) hmη (mul_err hv hv' hm H' x y)
  · rw [hmul]
    rcases mul_eq_zero.mp h with rfl | rfl <;> apply Complex.ext <;> simp [Flt.ofRnd, r0]
  · rw [hdiv]
    refine key (a := 9 * v) (b := 6 * v) (y := 2 * (m / ρ ^ 2)) (norm_nonneg _) (by linarith) (by linarith) (by linarith) (by linarith) ?_
    have := div_err hv hv' hm H' hρ hρ1 hρm x y h
    linarith
  · rw [hdiv]
    apply Complex.ext <;> simp [Flt.ofRnd, r0]
  · rw [hrlog x hx]
    linarith [H1 (Real.log x), up (Real.log x)]
  · rw [hnrm w]
    have h0 : 0 ≤ Vec.norm w := Real.sqrt_nonneg _
    have h1 := H1 (Vec.norm w)
    have h2 := up (Vec.norm w)
    rw [abs_of_nonneg h0] at h1 h2
    linarith
  · rw [hnrm w, hw, r0]

end

/-! ## Binary64 -/

open D64

theorem rndU_err (x : ℝ) : |rndU x - x| ≤ 1 / 2 ^ 53 * max |x| (2 ^ (-1022 : ℤ)) := by
  unfold rndU
  by_cases h : |x| < 2 ^ (-1022 : ℤ)
  · rw [if_pos h, max_eq_right h.le]
    have h1 := roundEven_near (x / 2 ^ (-1074 : ℤ))
    have e : (1 : ℝ) / 2 ^ 53 * 2 ^ (-1022 : ℤ) = 1 / 2 * 2 ^ (-1074 : ℤ) := by
      rw [show (-1022 : ℤ) = -1074 + 52 by norm_num, zpow_add₀ (by norm_num)]
      generalize (2 : ℝ) ^ (-1074 : ℤ) = Q
      norm_num
      ring
    rw [e]
    have hp := two_pow_pos (-1074)
    have e2 : (roundEven (x / 2 ^ (-1074 : ℤ)) : ℝ) * 2 ^ (-1074 : ℤ) - x
        = ((roundEven (x / 2 ^ (-1074 : ℤ)) : ℝ) - x / 2 ^ (-1074 : ℤ)) * 2 ^ (-1074 : ℤ) := by field_simp
    rw [e2, abs_mul, abs_of_pos hp]
    exact mul_le_mul_of_nonneg_right h1 hp.le
  · rw [if_neg h]
    exact (rndNE_rel x).trans (mul_le_mul_of_nonneg_left (le_max_left _ _) (by positivity))

/-- `double`s without a largest number. -/
theorem low64 {F : Flt} (hF : D2.Is64 F) {ρ η : ℝ} (hρ : 0 < ρ) (hρ1 : ρ ≤ 1) (hη : 2 ^ (-1021 : ℤ) ≤ η * ρ ^ 2) (hη1 : η ≤ 1 / 20)
    (hlog : ∀ z, z ≠ 0 → ‖F.log z - Complex.log z‖ ≤ 1 / 2 ^ 49 * max ‖Complex.log z‖ η) : F.Low (1 / 2 ^ 49) η ρ := by
  have e : (16 * (1 / 2 ^ 53) : ℝ) = 1 / 2 ^ 49 := by norm_num
  have h := low_ofRnd (r := D64.rndU) (v := 1 / 2 ^ 53) (m := 2 ^ (-1022 : ℤ)) (F := F) (ρ := ρ) (η := η) (by positivity) (by norm_num)
    (two_pow_pos _).le rndU_err D64.rndU_zero hρ hρ1 ?_ hη1 (funext hF.rnd) (funext₂ hF.mul) (funext₂ hF.div) (by rw [e]; exact hlog)
    hF.rlog hF.nrm
  · rwa [e] at h
  · refine le_trans (le_of_eq ?_) hη
    rw [show (-1021 : ℤ) = -1022 + 1 by norm_num, zpow_add₀ (by norm_num), zpow_one]; ring

/-- The reference implementation. -/
theorem low_flt64 {ρ η : ℝ} (hρ : 0 < ρ) (hρ1 : ρ ≤ 1) (hη : 2 ^ (-1021 : ℤ) ≤ η * ρ ^ 2) (hη1 : η ≤ 1 / 20) :
    (Flt.ofRnd D64.rndU).Low (1 / 2 ^ 49) η ρ := by
  refine low64 ⟨fun _ => rfl, fun _ _ => rfl, fun _ _ => rfl, fun _ _ => rfl, fun _ => rfl⟩ hρ hρ1 hη hη1 fun z _ => ?_
  have e : Complex.log z = ⟨Real.log ‖z‖, z.arg⟩ := Complex.ext (Complex.log_re z) (Complex.log_im z)
  have hv : (0 : ℝ) ≤ 1 / 2 ^ 53 := by positivity
  have H' := rnd_err hv (two_pow_pos (-1022)).le rndU_err
  have h1 := H' (Real.log ‖z‖)
  have h2 := H' z.arg
  rw [mul_add] at h1 h2
  have h := pair_err hv (by have := two_pow_pos (-1022); exact mul_nonneg hv this.le) h1 h2
  have hm : (2 : ℝ) ^ (-1022 : ℤ) ≤ η := by
    have h3 : η * ρ ^ 2 ≤ η := mul_le_of_le_one_right (by
      by_contra h0
      have : η * ρ ^ 2 < 0 := mul_neg_of_neg_of_pos (by linarith) (by positivity)
      linarith [two_pow_pos (-1021)]) (pow_le_one₀ hρ.le hρ1)
    have h4 : (2 : ℝ) ^ (-1022 : ℤ) ≤ 2 ^ (-1021 : ℤ) := D64.two_pow_mono (by norm_num)
    linarith
  rw [e]
  have e3 : (Flt.ofRnd D64.rndU).log z - ⟨Real.log ‖z‖, z.arg⟩ = ⟨D64.rndU (Real.log ‖z‖) - Real.log ‖z‖, D64.rndU z.arg - z.arg⟩ := by
    rfl
  rw [e3]
  refine h.trans ?_
  have e4 : ‖(⟨|Real.log ‖z‖|, |z.arg|⟩ : ℂ)‖ = ‖(⟨Real.log ‖z‖, z.arg⟩ : ℂ)‖ := by
    rw [Complex.norm_def, Complex.norm_def, Complex.normSq_mk, Complex.normSq_mk, abs_mul_abs_self, abs_mul_abs_self, ← Complex.normSq_mk, ← Complex.norm_def]
  rw [e4]
  set X := ‖(⟨Real.log ‖z‖, z.arg⟩ : ℂ)‖
  have g1 := le_max_left X η
  have g2 := le_max_right X η
  have g3 : 0 ≤ max X η := (norm_nonneg _).trans g1
  have e5 : (1 / 2 ^ 49 : ℝ) = 16 * (1 / 2 ^ 53) := by norm_num
  rw [e5]
  generalize (1 / 2 ^ 53 : ℝ) = v at *
  nlinarith

end FMM.Lo
