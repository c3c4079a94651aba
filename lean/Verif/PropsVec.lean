import Verif.Vec

/-!
# Properties C46 and C47: vector algebra, spherical coordinates
-/

namespace FMM
open Vec

/-- **C46** The operators of `Vector_` satisfy the laws of a real vector space. -/
theorem C46_vector_space_laws {d : ℕ} (a b c : Vec d) (s t : ℝ) :
    add a b = add b a ∧ add (add a b) c = add a (add b c) ∧ add a (fill 0) = a ∧
    add a (neg a) = fill 0 ∧ scale (add a b) s = add (scale a s) (scale b s) ∧
    scale a (s + t) = add (scale a s) (scale a t) ∧ scale (scale a s) t = scale a (s * t) ∧
    scale a 1 = a ∧ (add (sub a b) b = a) ∧ (s ≠ 0 → divEq (scale a s) s = a) := by
  refine ⟨?_, ?_, ?_, ?_, ?_, ?_, ?_, ?_, ?_, ?_⟩
  · simp [add_comm]
  · simp [add_assoc]
  · ext i; simp [fill]
  · ext i; simp [fill]
  · simp
  · simp [add_smul]
  · simp [smul_smul, mul_comm]
  · simp
  · simp
  · intro h; simp [h]

/-- **C46** `norm` is the Euclidean Vec.norm and `Vec.norm_sq` is its square, in every dimension. -/
theorem C46_norm {d : ℕ} (v : Vec d) :
    Vec.norm v = Real.sqrt (∑ i, v i ^ 2) ∧ normSq v = Vec.norm v ^ 2 ∧ dot v v = normSq v ∧
      0 ≤ Vec.norm v ∧ (Vec.norm v = 0 ↔ v = 0) := by
  refine ⟨Vec.norm_eq v, ?_, ?_, Vec.norm_nonneg v, Vec.norm_eq_zero_iff v⟩
  · rw [normSq_eq, Vec.norm_sq]
  · rw [normSq_eq, dot_eq]; simp [pow_two]

/-- **C46** `dot` is symmetric and bilinear. -/
theorem C46_dot {d : ℕ} (a b c : Vec d) (s : ℝ) :
    dot a b = dot b a ∧ dot (add a b) c = dot a c + dot b c ∧ dot (scale a s) b = s * dot a b := by
  refine ⟨?_, ?_, ?_⟩
  · simp [dot_eq, mul_comm]
  · simp [dot_eq, add_mul, Finset.sum_add_distrib]
  · simp [dot_eq, Finset.mul_sum, mul_assoc]

/-- **C46** Cauchy–Schwarz and the triangle inequality for the code's `dot` and `norm`. -/
theorem C46_triangle {d : ℕ} (a b : Vec d) :
    |dot a b| ≤ Vec.norm a * Vec.norm b ∧ Vec.norm (add a b) ≤ Vec.norm a + Vec.norm b := by
  have cs : (dot a b) ^ 2 ≤ (Vec.norm a) ^ 2 * (Vec.norm b) ^ 2 := by
    rw [dot_eq, Vec.norm_sq, Vec.norm_sq]; exact Finset.sum_mul_sq_le_sq_mul_sq _ _ _
  have h1 : |dot a b| ≤ Vec.norm a * Vec.norm b := by
    rw [← mul_pow] at cs
    exact abs_le_of_sq_le_sq cs (mul_nonneg (Vec.norm_nonneg a) (Vec.norm_nonneg b)) 
  refine ⟨h1, ?_⟩
  have h2 : Vec.norm (add a b) ^ 2 = Vec.norm a ^ 2 + 2 * dot a b + Vec.norm b ^ 2 := by
    rw [Vec.norm_sq, Vec.norm_sq, Vec.norm_sq, dot_eq, Finset.mul_sum, ← Finset.sum_add_distrib,
      ← Finset.sum_add_distrib]
    refine Finset.sum_congr rfl fun i _ => ?_
    simp; ring
  have h3 : Vec.norm (add a b) ^ 2 ≤ (Vec.norm a + Vec.norm b) ^ 2 := by
    rw [h2]; nlinarith [(abs_le.mp h1).2]
  exact (abs_le.mp (abs_le_of_sq_le_sq h3 (add_nonneg (Vec.norm_nonneg a) (Vec.norm_nonneg b)))).2

theorem hypot_mul_cos_sin (x y : ℝ) :
    hypot x y * Real.cos (atan2 y x) = x ∧ hypot x y * Real.sin (atan2 y x) = y := by
  have hn : ‖(⟨x, y⟩ : ℂ)‖ = hypot x y := by
    rw [Complex.norm_def, hypot, Complex.normSq_mk]; ring_nf
  constructor
  · have := Complex.norm_mul_cos_arg ⟨x, y⟩
    rwa [hn] at this
  · have := Complex.norm_mul_sin_arg ⟨x, y⟩
    rwa [hn] at this

theorem hypot_hypot (x y z : ℝ) : hypot z (hypot x y) = hypot3 x y z := by
  unfold hypot hypot3
  rw [Real.sq_sqrt (by positivity)]; ring_nf

/-- **C47** Cartesian → polar → Cartesian is the identity on all of the plane. -/
theorem C47_roundtrip2 (v : Vec 2) : toCartesian2 (toSpherical2 v) = v := by
  obtain ⟨h1, h2⟩ := hypot_mul_cos_sin (v 0) (v 1)
  ext i; fin_cases i
  · simpa [toCartesian2, toSpherical2, Vec.norm] using h1
  · simpa [toCartesian2, toSpherical2, Vec.norm] using h2

/-- **C47** Cartesian → spherical → Cartesian is the identity on all of space (axis included). -/
theorem C47_roundtrip3 (v : Vec 3) : toCartesian3 (toSpherical3 v) = v := by
  obtain ⟨h1, h2⟩ := hypot_mul_cos_sin (v 0) (v 1)
  obtain ⟨h3, h4⟩ := hypot_mul_cos_sin (v 2) (hypot (v 0) (v 1))
  rw [hypot_hypot] at h3 h4
  ext i; fin_cases i
  · simp [toCartesian3, toSpherical3, Vec.norm]; rw [h4, h1]
  · simp [toCartesian3, toSpherical3, Vec.norm]; rw [h4, h2]
  · simp [toCartesian3, toSpherical3, Vec.norm]; rw [h3]

/-- **C47** Ranges of the polar and spherical coordinates. -/
theorem C47_ranges (u : Vec 2) (v : Vec 3) :
    (0 ≤ toSpherical2 u 0 ∧ -Real.pi < toSpherical2 u 1 ∧ toSpherical2 u 1 ≤ Real.pi) ∧
    (0 ≤ toSpherical3 v 0 ∧ 0 ≤ toSpherical3 v 1 ∧ toSpherical3 v 1 ≤ Real.pi ∧
      -Real.pi < toSpherical3 v 2 ∧ toSpherical3 v 2 ≤ Real.pi) := by
  refine ⟨⟨Vec.norm_nonneg u, Complex.neg_pi_lt_arg _, Complex.arg_le_pi _⟩,
    Vec.norm_nonneg v, ?_, Complex.arg_le_pi _, Complex.neg_pi_lt_arg _, Complex.arg_le_pi _⟩
  exact Complex.arg_nonneg_iff.mpr (Real.sqrt_nonneg _)

/-- **C47** `toCartesianBasis` preserves norms and inner products, and maps the radial unit vector to
the direction with the given angles. -/
theorem C47_basis_isometry (v w : Vec 3) (theta phi : ℝ) :
    dot (toCartesianBasis v theta phi) (toCartesianBasis w theta phi) = dot v w ∧
    Vec.norm (toCartesianBasis v theta phi) = Vec.norm v ∧
    toCartesianBasis ![1, 0, 0] theta phi = toCartesian3 ![1, theta, phi] := by
  have key : ∀ a b : Vec 3, dot (toCartesianBasis a theta phi) (toCartesianBasis b theta phi)
      = dot a b := by
    intro a b
    have h1 := Real.sin_sq_add_cos_sq theta
    have h2 := Real.sin_sq_add_cos_sq phi
    simp only [dot_eq, Fin.sum_univ_three, toCartesianBasis]
    simp only [Matrix.cons_val_zero, Matrix.cons_val_one, Matrix.cons_val]
    linear_combination
      (Real.sin theta * a 0 + Real.cos theta * a 1) * (Real.sin theta * b 0 + Real.cos theta * b 1)
        * h2 + a 2 * b 2 * h2 + (a 0 * b 0 + a 1 * b 1) * h1
  refine ⟨key v w, ?_, ?_⟩
  · have h := key v v
    have e1 : ∀ u : Vec 3, Vec.norm u = Real.sqrt (dot u u) := by
      intro u; rw [Vec.norm_eq, dot_eq]; simp [pow_two]
    rw [e1, e1, h]
  · ext i; fin_cases i <;> simp [toCartesianBasis, toCartesian3, mul_comm]

/-- Non-vacuity: a point on the negative x-axis (branch cut of `atan2`) round-trips. -/
example : toCartesian2 (toSpherical2 ![-1, 0]) = ![-1, 0] := C47_roundtrip2 _

/-- Non-vacuity: a genuinely non-zero scalar in the `divEq` law. -/
example : divEq (scale ![1, 2] 3) 3 = (![1, 2] : Vec 2) :=
  (C46_vector_space_laws ![1, 2] 0 0 3 0).2.2.2.2.2.2.2.2.2 (by norm_num)

end FMM
