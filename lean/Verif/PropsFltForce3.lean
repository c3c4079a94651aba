import Verif.FltIeee3
import Verif.FltTree3
import Verif.RoundedFmm

/-!
# C87: with `double`s, `evaluateForcefield` in space aborts in a cone around the vertical

In exact arithmetic the force evaluation of a three-dimensional expansion fails on a line (C54).  With `double`s,
`std::cos(theta)` rounds to one near that line, and `gsl_sf_legendre_deriv_alt_array_e` rejects it.
-/

namespace FMM

/-- `x` is in the vertical double cone about `c` of slope `t`. -/
def InCone (t : ℝ) (c x : Vec 3) : Prop := Real.sqrt ((x 0 - c 0) ^ 2 + (x 1 - c 1) ^ 2) ≤ t * |x 2 - c 2|

namespace Fl3

theorem ylmD_abort (F : Flt3) (lmax : ℕ) {theta : ℝ} (phi : ℝ) (h : 1 ≤ |F.rcos theta|) : ylmD F lmax theta phi = .error .gslAbort := by
  unfold ylmD gslLegendreDerivAlt
  rw [if_neg (not_lt.mpr h)]
  obtain ⟨⟨exps, b⟩, e1, -⟩ := loopM_invariant
    (fun _ (s : Arr ℂ × ℂ) => s.1.size = lmax + 1)
    (fun l (s : Arr ℂ × ℂ) => do
      let t ← s.1.wr l s.2
      .ok (t, F.mul s.2 (F.cis phi))) (Arr.new (lmax + 1), 1) (lmax + 1) rfl
    (by
      rintro i hi ⟨s, b⟩ hsz
      simp only at hsz ⊢
      rw [Arr.wr_ok _ (by rw [hsz]; exact hi), ok_bind]
      exact ⟨_, rfl, hsz⟩)
  simp only
  rw [e1, ok_bind]
  rfl

theorem force_abort (F : Flt3) (e : Exp3) (x : Vec 3) (h : 1 ≤ |F.rcos (F.sph (F.vsub x e.center) 1)|) :
    meForce F e x = .error .gslAbort ∧ leForce F e x = .error .gslAbort := by
  unfold meForce leForce
  simp only
  rw [ylmD_abort F _ _ h]
  exact ⟨rfl, rfl⟩

end Fl3

/-- Numbers within a quarter of a unit in the last place of one are rounded to one. -/
theorem rndNE_near_one {x : ℝ} (h1 : 1 - 1 / 2 ^ 54 < |x|) (h2 : |x| ≤ 1) : |Rounded.rndNE x| = 1 := by
  have key : ∀ (e : ℤ) (k : ℤ), Rounded.ulpExp x = e → |x / 2 ^ e - k| < 1 / 2 → |(k : ℝ) * 2 ^ e| = 1 → |Rounded.rndNE x| = 1 := by
    intro e k he hk h
    unfold Rounded.rndNE
    rw [he, Rounded.roundEven_eq hk, h]
  rcases eq_or_lt_of_le h2 with h | h
  · have hu : Rounded.ulpExp x = -52 := by
      unfold Rounded.ulpExp; rw [h, Int.log_one_right]; norm_num
    have e : x / 2 ^ (-52 : ℤ) = x * 2 ^ 52 := by rw [zpow_neg, div_inv_eq_mul]; norm_cast
    rcases abs_eq (by norm_num : (0 : ℝ) ≤ 1) |>.mp h with h | h
    · refine key (-52) (2 ^ 52) hu ?_ ?_
      · rw [e, h]; norm_num
      · rw [zpow_neg]; norm_num
    · refine key (-52) (-2 ^ 52) hu ?_ ?_
      · rw [e, h]; norm_num
      · rw [zpow_neg]; norm_num
  · have hu : Rounded.ulpExp x = -53 := by
      apply Rounded.ulpExp_eq
      · rw [zpow_neg]; norm_num at h1 ⊢; linarith
      · rw [zpow_neg]; norm_num; exact h
    have e : x / 2 ^ (-53 : ℤ) = x * 2 ^ 53 := by rw [zpow_neg, div_inv_eq_mul]; norm_cast
    rcases abs_cases x with ⟨h3, -⟩ | ⟨h3, -⟩ <;> rw [h3] at h1 h
    · refine key (-53) (2 ^ 53) hu ?_ ?_
      · rw [e, abs_lt]; push_cast; constructor <;> linarith
      · rw [zpow_neg]; norm_num
    · refine key (-53) (-2 ^ 53) hu ?_ ?_
      · rw [e, abs_lt]; push_cast; constructor <;> linarith
      · rw [zpow_neg]; norm_num

theorem rndNE_zero : Rounded.rndNE (0 : ℝ) = 0 := by simp [Rounded.rndNE, Rounded.roundEven]

/-- Near the vertical the computed cosine of the polar angle is `±1`. -/
theorem ieee_cos {v : Vec 3} (h : Vec.hypot (v 0) (v 1) ≤ 1 / 2 ^ 28 * |v 2|) : |Flt3.ieee.rcos (Flt3.ieee.sph v 1)| = 1 := by
  have hr : ∀ x : ℝ, |Rounded.rndNE x - x| ≤ 1 / 2 ^ 53 * |x| := Rounded.rndNE_rel
  set H := Vec.hypot (v 0) (v 1) with hH
  have hH0 : 0 ≤ H := Real.sqrt_nonneg _
  set H' := Rounded.rndNE H with hH'
  set z : ℂ := ⟨v 2, H'⟩ with hz
  set t := Rounded.rndNE (Complex.arg z) with ht
  have e : Flt3.ieee.rcos (Flt3.ieee.sph v 1) = Rounded.rndNE (Real.cos t) := rfl
  rw [e]
  refine rndNE_near_one ?_ (Real.abs_cos_le_one t)
  have a1 := hr H
  rw [abs_of_nonneg hH0] at a1
  have a2 : |H'| ≤ (1 + 1 / 2 ^ 53) * H := by
    have := abs_sub_abs_le_abs_sub H' H
    rw [abs_of_nonneg hH0] at this
    linarith
  have a3 : |Real.sin (Complex.arg z)| ≤ (1 + 1 / 2 ^ 53) * (1 / 2 ^ 28) := by
    by_cases h0 : z = 0
    · rw [h0, Complex.arg_zero, Real.sin_zero, abs_zero]; positivity
    · rw [Complex.sin_arg, abs_div, abs_norm, div_le_iff₀ (norm_pos_iff.mpr h0)]
      have b : |v 2| ≤ ‖z‖ := Complex.abs_re_le_norm z
      have c : |z.im| ≤ (1 + 1 / 2 ^ 53) * H := a2
      nlinarith
  have a4 : |t - Complex.arg z| ≤ 1 / 2 ^ 53 * 4 :=
    (hr _).trans (mul_le_mul_of_nonneg_left ((Complex.abs_arg_le_pi z).trans Real.pi_le_four) (by positivity))
  have a5 := Real.abs_sin_sub_sin_le t (Complex.arg z)
  have a6 : |Real.sin t| ≤ 3 / 2 * (1 / 2 ^ 28) := by
    have := abs_sub_abs_le_abs_sub (Real.sin t) (Real.sin (Complex.arg z))
    norm_num at a3 a4 this ⊢
    linarith
  have a7 : Real.sin t ^ 2 ≤ (3 / 2 * (1 / 2 ^ 28)) ^ 2 := by
    rw [← sq_abs]; exact pow_le_pow_left₀ (abs_nonneg _) a6 2
  have a8 : |Real.cos t| ^ 2 = 1 - Real.sin t ^ 2 := by rw [sq_abs, Real.cos_sq']
  have a9 := Real.abs_cos_le_one t
  have a10 := abs_nonneg (Real.cos t)
  norm_num at a7 ⊢
  nlinarith

theorem ieee_cone {c x : Vec 3} (h : InCone (1 / 2 ^ 29) c x) :
    |Flt3.ieee.rcos (Flt3.ieee.sph (Flt3.ieee.vsub x c) 1)| = 1 := by
  apply ieee_cos
  have hr : ∀ x : ℝ, |Rounded.rndNE x - x| ≤ 1 / 2 ^ 53 * |x| := Rounded.rndNE_rel
  have e : ∀ i, Flt3.ieee.vsub x c i = Rounded.rndNE (x i - c i) := fun i => rfl
  have up : ∀ i, |Flt3.ieee.vsub x c i| ≤ (1 + 1 / 2 ^ 53) * |x i - c i| := fun i => by
    rw [e]
    have := abs_sub_abs_le_abs_sub (Rounded.rndNE (x i - c i)) (x i - c i)
    linarith [hr (x i - c i)]
  have lo : (1 - 1 / 2 ^ 53) * |x 2 - c 2| ≤ |Flt3.ieee.vsub x c 2| := by
    rw [e]
    have := abs_sub_abs_le_abs_sub (x 2 - c 2) (Rounded.rndNE (x 2 - c 2))
    rw [abs_sub_comm (x 2 - c 2) (Rounded.rndNE _)] at this
    linarith [hr (x 2 - c 2)]
  have sqb : ∀ i, Flt3.ieee.vsub x c i ^ 2 ≤ (1 + 1 / 2 ^ 53) ^ 2 * (x i - c i) ^ 2 := fun i => by
    rw [← sq_abs, ← sq_abs (x i - c i), ← mul_pow]
    exact pow_le_pow_left₀ (abs_nonneg _) (up i) 2
  have h1 : Vec.hypot (Flt3.ieee.vsub x c 0) (Flt3.ieee.vsub x c 1)
      ≤ (1 + 1 / 2 ^ 53) * Real.sqrt ((x 0 - c 0) ^ 2 + (x 1 - c 1) ^ 2) := by
    unfold Vec.hypot
    rw [Real.sqrt_le_left (by positivity), mul_pow, Real.sq_sqrt (by positivity)]
    have a := sqb 0
    have b := sqb 1
    nlinarith
  unfold InCone at h
  have h2 := abs_nonneg (x 2 - c 2)
  norm_num at h1 h lo ⊢
  linarith

/-- **C87** With `double`s, the force of every three-dimensional expansion (multipole or local, of any order and with any
coefficients) cannot be evaluated in a cone around the vertical through its centre: GSL reports a domain error, whose handler
terminates the program. -/
theorem C87_cone (e : Exp3) {x : Vec 3} (h : InCone (1 / 2 ^ 29) e.center x) :
    Fl3.meForce Flt3.ieee e x = .error .gslAbort ∧ Fl3.leForce Flt3.ieee e x = .error .gslAbort :=
  Fl3.force_abort _ e x (ieee_cone h).ge

/-- **C87** The cone has inner points: around each point above or below the centre there is a ball of points at which the
evaluation aborts. -/
theorem C87_open (e : Exp3) {x : Vec 3} (h0 : x 0 = e.center 0) (h1 : x 1 = e.center 1) (h2 : x 2 ≠ e.center 2) :
    ∃ δ > 0, ∀ y : Vec 3, (∀ i, |y i - x i| < δ) →
      Fl3.meForce Flt3.ieee e y = .error .gslAbort ∧ Fl3.leForce Flt3.ieee e y = .error .gslAbort := by
  have hd : 0 < |x 2 - e.center 2| := abs_pos.mpr (sub_ne_zero.mpr h2)
  refine ⟨|x 2 - e.center 2| / 2 ^ 31, by positivity, fun y hy => C87_cone e ?_⟩
  set d := |x 2 - e.center 2| with hdd
  have a0 := hy 0
  have a1 := hy 1
  have a2 := hy 2
  rw [h0] at a0
  rw [h1] at a1
  have b : d - d / 2 ^ 31 ≤ |y 2 - e.center 2| := by
    have := abs_sub_abs_le_abs_sub (x 2 - e.center 2) (x 2 - y 2)
    rw [show x 2 - e.center 2 - (x 2 - y 2) = y 2 - e.center 2 by ring, abs_sub_comm (x 2) (y 2)] at this
    linarith
  have c : Real.sqrt ((y 0 - e.center 0) ^ 2 + (y 1 - e.center 1) ^ 2) ≤ 2 * (d / 2 ^ 31) := by
    rw [Real.sqrt_le_left (by positivity), ← sq_abs, ← sq_abs (y 1 - _)]
    have p0 := pow_le_pow_left₀ (abs_nonneg _) a0.le 2
    have p1 := pow_le_pow_left₀ (abs_nonneg _) a1.le 2
    nlinarith [sq_nonneg (d / 2 ^ 31)]
  unfold InCone
  norm_num at b c ⊢
  linarith

/-- **C87** In trees: the evaluation of the force aborts at every point in the cone of the centre of the expansion of the leaf
in which it is found, for every adaptive tree and every balanced tree. -/
theorem C87_trees (feps : ℝ) (grav : Bool) {x : Vec 3} :
    (∀ (T : AdaptiveFmm (Fl3.kit Flt3.ieee)) fuel cur leaf n (e : Exp3),
      Rounded.getContainingLeaf Flt3.ieee.rnd fuel T.heap x = .ok (some leaf) → T.shape leaf = .ok n → T.exps.rdLe leaf = .ok e →
      InCone (1 / 2 ^ 29) e.center x →
      Rounded.adaptiveEval Flt3.ieee.rnd Flt3.ieee.vadd (fun a => -a) (Fl3.force Flt3.ieee feps) fuel grav T cur x = .error .gslAbort) ∧
    (∀ (T : BalancedFmm (Fl3.kit Flt3.ieee)) root idx k n (e : Exp3), T.mem.get (rootAddr T.height) = .ok root →
      Rounded.leafIndices Flt3.ieee.rnd (Rounded.toR root.box) T.height x = .ok idx → getMortonIndex T.height idx = .ok k →
      T.shape (.leaf k) = .ok n → T.exps.rdLe (.leaf k) = .ok e → InCone (1 / 2 ^ 29) e.center x →
      Rounded.balancedEval Flt3.ieee.rnd Flt3.ieee.vadd (fun a => -a) (Fl3.force Flt3.ieee feps) grav T x = .error .gslAbort) := by
  have key : ∀ {A : Type} [DecidableEq A] (sh : Shape 3 A) (s : Exps (Fl3.kit Flt3.ieee) A) (leaf : A) n (e : (Fl3.kit Flt3.ieee).E), sh leaf = .ok n →
      s.rdLe leaf = .ok e → InCone (1 / 2 ^ 29) (Exp3.center e) x →
      Rounded.evalLeaf Flt3.ieee.vadd (fun a => -a) (Fl3.force Flt3.ieee feps) sh grav s leaf x = .error .gslAbort := by
    intro A _ sh s leaf n e h1 h2 h3
    unfold Rounded.evalLeaf
    rw [h1, ok_bind, h2, ok_bind]
    have : (Fl3.force Flt3.ieee feps).le e x = .error .gslAbort := (C87_cone e h3).2
    rw [this]
    rfl
  refine ⟨fun T fuel cur leaf n e h0 h1 h2 h3 => ?_, fun T root idx k n e h0 h1 h2 h3 h4 h5 => ?_⟩
  · unfold Rounded.adaptiveEval
    rw [h0, ok_bind]
    exact key _ _ _ _ _ h1 h2 h3
  · unfold Rounded.balancedEval
    rw [h0, ok_bind, h1, ok_bind, h2, ok_bind]
    exact key _ _ _ _ _ h3 h4 h5

/-- Non-vacuity: a point that is not on the vertical through the centre. -/
example : Fl3.leForce Flt3.ieee ⟨1, 0, Arr.new 4⟩ ![1 / 2 ^ 30, 0, 1] = .error .gslAbort := by
  refine (C87_cone ⟨1, 0, Arr.new 4⟩ ?_).2
  unfold InCone
  have : Real.sqrt ((1 / 2 ^ 30 : ℝ) ^ 2) = 1 / 2 ^ 30 := Real.sqrt_sq (by positivity)
  simp only [Pi.zero_apply, sub_zero]
  show Real.sqrt ((1 / 2 ^ 30 : ℝ) ^ 2 + (0 : ℝ) ^ 2) ≤ 1 / 2 ^ 29 * |(1 : ℝ)|
  rw [show (1 / 2 ^ 30 : ℝ) ^ 2 + (0 : ℝ) ^ 2 = (1 / 2 ^ 30) ^ 2 by ring, this]
  norm_num

end FMM
