import Verif.PropsExp3
import Verif.Exp3Force

/-!
# Force field of the 3D expansions: the 3D part of C31, and C54

Away from the vertical line through the centre of the expansion, `evaluateForcefield` is minus the gradient of
`evaluatePotential`. On that line the potential of a local expansion is differentiable as well (that of a multipole
expansion everywhere but in the centre), but `evaluateForcefield` terminates the process in the GSL error handler.
-/

namespace FMM

/-! ## C31 -/

/-- **C31** (3D local expansion) -/
theorem C31_local_3d (e : Exp3) (hs : e.coeffs.size = (e.order + 1) * (e.order + 1)) (x : Vec 3)
    (hx : x 0 ≠ e.center 0 ∨ x 1 ≠ e.center 1) :
    ∃ (φ : Vec 3 → ℝ) (F : Vec 3), (∀ y, Exp3.lePot e y = .ok (φ y)) ∧ Exp3.leForce e x = .ok F ∧
      HasFDerivAt φ (∑ j, (-F j) • (ContinuousLinearMap.proj j : Vec 3 →L[ℝ] ℝ)) x := by
  have hE := Exp3.is_self hs
  have hA : ¬ OnAxis (x - e.center) := by
    rintro ⟨h0, h1⟩
    rcases hx with h | h
    · exact h (sub_eq_zero.mp h0)
    · exact h (sub_eq_zero.mp h1)
  exact ⟨_, _, fun y => Exp3.lePot_ok hE y, Exp3.leForce_ok hE x hA, leSum3_hasFDerivAt _ _ _ x⟩

/-- **C31** (3D multipole expansion) -/
theorem C31_multipole_3d (e : Exp3) (hs : e.coeffs.size = (e.order + 1) * (e.order + 1)) (x : Vec 3)
    (hx : x 0 ≠ e.center 0 ∨ x 1 ≠ e.center 1) :
    ∃ (φ : Vec 3 → ℝ) (F : Vec 3), (∀ y, y ≠ e.center → Exp3.mePot e y = .ok (φ y)) ∧ Exp3.meForce e x = .ok F ∧
      HasFDerivAt φ (∑ j, (-F j) • (ContinuousLinearMap.proj j : Vec 3 →L[ℝ] ℝ)) x := by
  have hE := Exp3.is_self hs
  have hA : ¬ OnAxis (x - e.center) := by
    rintro ⟨h0, h1⟩
    rcases hx with h | h
    · exact h (sub_eq_zero.mp h0)
    · exact h (sub_eq_zero.mp h1)
  have hne : x ≠ e.center := sub_ne_zero.mp (OnAxis.not_zero hA)
  exact ⟨_, _, fun y hy => Exp3.mePot_ok hE y hy, Exp3.meForce_ok hE x hA, meSum3_hasFDerivAt _ _ _ x hne⟩

example : ∃ (φ : Vec 3 → ℝ) (F : Vec 3), (∀ y, Exp3.lePot ⟨2, ![1, 2, 3], ⟨9, fun k => k + Complex.I⟩⟩ y = .ok (φ y)) ∧
    Exp3.leForce ⟨2, ![1, 2, 3], ⟨9, fun k => k + Complex.I⟩⟩ ![0, 5, 7] = .ok F ∧
    HasFDerivAt φ (∑ j, (-F j) • (ContinuousLinearMap.proj j : Vec 3 →L[ℝ] ℝ)) ![0, 5, 7] :=
  C31_local_3d ⟨2, ![1, 2, 3], ⟨9, fun k => k + Complex.I⟩⟩ rfl ![0, 5, 7] (Or.inl (by norm_num))

/-! ## C54 -/

/-- **C54** is false: the potential of every local expansion is differentiable everywhere, but at every point exactly above
or below the centre (and in the centre) the evaluation of the force field terminates the process. -/
theorem C54_local_aborts (e : Exp3) (hs : e.coeffs.size = (e.order + 1) * (e.order + 1)) :
    ∃ φ : Vec 3 → ℝ, (∀ y, Exp3.lePot e y = .ok (φ y)) ∧ Differentiable ℝ φ ∧
      ∀ x : Vec 3, x 0 = e.center 0 → x 1 = e.center 1 → Exp3.leForce e x = .error .gslAbort :=
  ⟨_, fun y => Exp3.lePot_ok (Exp3.is_self hs) y, fun x => (leSum3_hasFDerivAt _ _ _ x).differentiableAt,
    fun x h0 h1 => Exp3.leForce_abort e x ⟨sub_eq_zero.mpr h0, sub_eq_zero.mpr h1⟩⟩

/-- **C54** is false for multipole expansions, too: the potential is differentiable away from the centre. -/
theorem C54_multipole_aborts (e : Exp3) (hs : e.coeffs.size = (e.order + 1) * (e.order + 1)) :
    ∃ φ : Vec 3 → ℝ, (∀ y, y ≠ e.center → Exp3.mePot e y = .ok (φ y) ∧ DifferentiableAt ℝ φ y) ∧
      ∀ x : Vec 3, x 0 = e.center 0 → x 1 = e.center 1 → Exp3.meForce e x = .error .gslAbort :=
  ⟨_, fun y hy => ⟨Exp3.mePot_ok (Exp3.is_self hs) y hy, (meSum3_hasFDerivAt _ _ _ y hy).differentiableAt⟩,
    fun x h0 h1 => Exp3.meForce_abort e x ⟨sub_eq_zero.mpr h0, sub_eq_zero.mpr h1⟩⟩

/-- **C54** as stated, refuted. -/
theorem C54_false : ¬ ∀ (e : Exp3), e.coeffs.size = (e.order + 1) * (e.order + 1) → ∀ (φ : Vec 3 → ℝ) (x : Vec 3),
    (∀ y, Exp3.lePot e y = .ok (φ y)) → DifferentiableAt ℝ φ x → ∃ F, Exp3.leForce e x = .ok F := by
  intro H
  obtain ⟨φ, h1, h2, h3⟩ := C54_local_aborts ⟨1, 0, ⟨4, fun k => k⟩⟩ rfl
  obtain ⟨F, hF⟩ := H ⟨1, 0, ⟨4, fun k => k⟩⟩ rfl φ ![0, 0, 1] h1 (h2 _)
  rw [h3 ![0, 0, 1] rfl rfl] at hF
  exact absurd hF (by simp)

/-- **C54**, what holds: the outcome of the force evaluation at every point, for every expansion with a complete
coefficient vector. Missing: the points of the vertical line through the centre. -/
theorem C54_local_partial (e : Exp3) (hs : e.coeffs.size = (e.order + 1) * (e.order + 1)) (x : Vec 3) :
    (∃ F, Exp3.leForce e x = .ok F) ↔ ¬ (x 0 = e.center 0 ∧ x 1 = e.center 1) := by
  constructor
  · rintro ⟨F, hF⟩ ⟨h0, h1⟩
    rw [Exp3.leForce_abort e x ⟨sub_eq_zero.mpr h0, sub_eq_zero.mpr h1⟩] at hF
    exact absurd hF (by simp)
  · intro h
    rw [not_and_or] at h
    obtain ⟨_, F, _, hF, _⟩ := C31_local_3d e hs x h
    exact ⟨F, hF⟩

theorem C54_multipole_partial (e : Exp3) (hs : e.coeffs.size = (e.order + 1) * (e.order + 1)) (x : Vec 3) :
    (∃ F, Exp3.meForce e x = .ok F) ↔ ¬ (x 0 = e.center 0 ∧ x 1 = e.center 1) := by
  constructor
  · rintro ⟨F, hF⟩ ⟨h0, h1⟩
    rw [Exp3.meForce_abort e x ⟨sub_eq_zero.mpr h0, sub_eq_zero.mpr h1⟩] at hF
    exact absurd hF (by simp)
  · intro h
    rw [not_and_or] at h
    obtain ⟨_, F, _, hF, _⟩ := C31_multipole_3d e hs x h
    exact ⟨F, hF⟩

example : Exp3.meForce ⟨3, ![1, 1, 1], ⟨16, fun k => k⟩⟩ ![1, 1, 5] = .error .gslAbort := by
  obtain ⟨_, _, h⟩ := C54_multipole_aborts ⟨3, ![1, 1, 1], ⟨16, fun k => k⟩⟩ rfl
  exact h _ rfl rfl

end FMM
