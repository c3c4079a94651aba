import Verif.AxLaws
import Verif.LinScaleKits

/-!
# Exchange of coordinate axes: the expansions

In the plane the exchange takes `x + i y` to `i` times its conjugate.
-/

namespace FMM
open Finset ComplexConjugate

/-- The exchange of the axes of the plane. -/
def xy2 : Fin 2 → Fin 2 := ![1, 0]

/-- The exchange of the horizontal axes of space. -/
def xy3 : Fin 3 → Fin 3 := ![1, 0, 2]

theorem xy2_inv : Function.Involutive xy2 := by unfold Function.Involutive; decide
theorem xy3_inv : Function.Involutive xy3 := by unfold Function.Involutive; decide

/-- Exchange of the coordinates as a linear function. -/
def axL {d : ℕ} (σ : Fin d → Fin d) : Vec d →ₗ[ℝ] Vec d where
  toFun := axV σ
  map_add' _ _ := rfl
  map_smul' _ _ := rfl

namespace Ax
variable {d : ℕ} {σ : Fin d → Fin d}

theorem axV_sub (x y : Vec d) : axV σ x - axV σ y = axV σ (x - y) := rfl

theorem dist2 (hσ : Function.Involutive σ) (x y : Vec d) : FMM.dist2 (axV σ x) (axV σ y) = FMM.dist2 x y := by
  unfold FMM.dist2
  exact congrArg Real.sqrt (Equiv.sum_comp (hσ.toPerm σ) fun i => (x i - y i) ^ 2)

theorem directTerm (hσ : Function.Involutive σ) (u y : Vec d) : FMM.directTerm true (axV σ y) ⟨axV σ u, 1⟩ = FMM.directTerm true y ⟨u, 1⟩ := by
  unfold FMM.directTerm
  by_cases h : u = y
  · rw [if_pos (by simp [h]), if_pos h]
  · rw [if_neg (by simpa [axV_inj hσ] using h), if_neg h, dist2 hσ]

theorem directFieldTerm (hσ : Function.Involutive σ) (feps : ℝ) (u y : Vec d) :
    FMM.directFieldTerm true (axV σ y) feps ⟨axV σ u, 1⟩ = axL σ (FMM.directFieldTerm true y feps ⟨u, 1⟩) := by
  unfold FMM.directFieldTerm
  by_cases h : u = y
  · rw [if_pos (by simp [h]), if_pos h, map_zero]
  · rw [if_neg (by simpa [axV_inj hσ] using h), if_neg h]
    funext j
    unfold fieldSpec
    simp only
    rw [dist2 hσ]
    rfl

/-! ## Two dimensions -/

/-- The exchange of axes in the complex plane. -/
noncomputable def J (z : ℂ) : ℂ := Complex.I * conj z

theorem toC_ax (v : Vec 2) : toC (axV xy2 v) = J (toC v) := by
  apply Complex.ext <;> simp [toC, J, axV, xy2]

theorem J_sub (z w : ℂ) : J z - J w = J (z - w) := by unfold J; rw [map_sub]; ring

theorem J_neg (z : ℂ) : -J z = J (-z) := by unfold J; rw [map_neg]; ring

theorem J_pow (z : ℂ) (k : ℕ) : J z ^ k = Complex.I ^ k * conj (z ^ k) := by unfold J; rw [mul_pow, map_pow]

theorem J_inv_pow (z : ℂ) (k : ℕ) : (J z)⁻¹ ^ k = Complex.I⁻¹ ^ k * conj (z⁻¹ ^ k) := by
  unfold J; rw [mul_inv, mul_pow, map_pow, map_inv₀]

theorem log_J (z : ℂ) : (Complex.log (J z)).re = (Complex.log z).re := by
  rw [Complex.log_re, Complex.log_re]
  unfold J
  rw [norm_mul, Complex.norm_I, one_mul, Complex.norm_conj]

theorem I_cancel (k : ℕ) : Complex.I⁻¹ ^ k * Complex.I ^ k = 1 := by
  rw [← mul_pow, inv_mul_cancel₀ Complex.I_ne_zero, one_pow]

theorem re_sum {ι : Type} {s : Finset ι} {f g : ι → ℂ} (h : ∀ i ∈ s, f i = conj (g i)) : (∑ i ∈ s, f i).re = (∑ i ∈ s, g i).re := by
  rw [sum_congr rfl h, ← _root_.map_sum, Complex.conj_re]

/-- Multipole coefficients. -/
def MRel (b a : ℕ → ℂ) : Prop := a 0 = 1 ∧ ∀ k, b k = Complex.I ^ k * conj (a k)

/-- Local coefficients. -/
def LRel (b a : ℕ → ℂ) : Prop := (b 0).re = (a 0).re ∧ ∀ k, k ≠ 0 → b k = Complex.I⁻¹ ^ k * conj (a k)

theorem uME2_ax (a : ℂ) (y : Vec 2) : MRel (uME2 (J a) (axV xy2 y)) (uME2 a y) := by
  refine ⟨Sc.uME2_zero _ _, fun k => ?_⟩
  unfold uME2
  rw [meCoeff_single, meCoeff_single]
  by_cases h : k = 0
  · simp [h]
  · rw [if_neg h, if_neg h, toC_ax, J_sub, J_pow]
    simp only [map_div₀, map_neg, map_mul, Complex.conj_ofReal, Complex.conj_natCast]
    ring

theorem uLE2_ax (a : ℂ) (y : Vec 2) : LRel (uLE2 (J a) (axV xy2 y)) (uLE2 a y) := by
  unfold uLE2
  constructor
  · rw [leCoeff_single, leCoeff_single, if_pos rfl, if_pos rfl, toC_ax, J_sub, J_neg, Complex.re_ofReal_mul, Complex.re_ofReal_mul, log_J]
  · intro k hk
    rw [leCoeff_single, leCoeff_single, if_neg hk, if_neg hk, toC_ax, J_sub, J_inv_pow]
    simp only [map_div₀, map_neg, map_mul, Complex.conj_ofReal, Complex.conj_natCast]
    ring

theorem MRel.term {b a : ℕ → ℂ} (h : MRel b a) (z : ℂ) (i : ℕ) : b i * (J z)⁻¹ ^ i = conj (a i * z⁻¹ ^ i) := by
  rw [h.2, J_inv_pow, map_mul]
  linear_combination conj (a i) * conj (z⁻¹ ^ i) * I_cancel i

theorem m2l_ax (M p : ℕ) {b a : ℕ → ℂ} (h : MRel b a) (z : ℂ) : LRel (Exp2.m2lCoeff M p b (J z)) (Exp2.m2lCoeff M p a z) := by
  have b0 : b 0 = 1 := by rw [h.2, h.1]; simp
  constructor
  · unfold Exp2.m2lCoeff
    rw [if_pos rfl, if_pos rfl, b0, h.1, one_mul, one_mul, Complex.add_re, Complex.add_re, J_neg, log_J]
    congr 1
    refine re_sum fun i _ => ?_
    rw [mul_assoc, h.term, mul_assoc, map_mul (starRingEnd ℂ) ((-1) ^ (i + 1))]
    simp
  · intro l hl
    unfold Exp2.m2lCoeff
    rw [if_neg hl, if_neg hl, b0, h.1, J_inv_pow, map_mul, map_add, _root_.map_sum]
    have : ∑ i ∈ range (p - 1), (-1) ^ (i + 1) * b (i + 1) * (J z)⁻¹ ^ (i + 1) * (binVal M (l + i) i : ℂ)
        = ∑ i ∈ range (p - 1), conj ((-1) ^ (i + 1) * a (i + 1) * z⁻¹ ^ (i + 1) * (binVal M (l + i) i : ℂ)) := by
      refine sum_congr rfl fun i _ => ?_
      rw [mul_assoc _ (b _), h.term, mul_assoc _ (a _)]
      simp
    rw [this]
    simp only [map_div₀, map_neg, map_one, Complex.conj_natCast]
    ring

theorem LRel.term {b a : ℕ → ℂ} (h : LRel b a) (z : ℂ) {k : ℕ} (hk : k ≠ 0) : b k * J z ^ k = conj (a k * z ^ k) := by
  rw [h.2 k hk, J_pow, map_mul]
  linear_combination conj (a k) * conj (z ^ k) * I_cancel k

theorem leSum_ax (p : ℕ) {b a : ℕ → ℂ} (h : LRel b a) (z : ℂ) : (leSum b p (J z)).re = (leSum a p z).re := by
  unfold leSum
  rw [sum_range_succ', sum_range_succ' (fun k => a k * z ^ k), Complex.add_re, Complex.add_re, pow_zero, pow_zero, mul_one, mul_one, h.1]
  congr 1
  exact re_sum fun i _ => h.term z (Nat.succ_ne_zero i)

theorem leDeriv_ax (p : ℕ) {b a : ℕ → ℂ} (h : LRel b a) (z : ℂ) : leDeriv b p (J z) = Complex.I⁻¹ * conj (leDeriv a p z) := by
  unfold leDeriv
  rw [_root_.map_sum, mul_sum]
  refine sum_congr rfl fun i _ => ?_
  rw [h.2 _ (Nat.succ_ne_zero i), J_pow, map_mul, map_mul, Complex.conj_natCast, pow_succ]
  linear_combination ((i + 1 : ℕ) : ℂ) * Complex.I⁻¹ * conj (a (i + 1)) * conj (z ^ i) * I_cancel i

theorem meSum_ax (p : ℕ) {b a : ℕ → ℂ} (h : MRel b a) (z : ℂ) : (meSum b p (J z)).re = (meSum a p z).re := by
  have b0 : b 0 = 1 := by rw [h.2, h.1]; simp
  unfold meSum
  rw [b0, h.1, one_mul, one_mul, Complex.add_re, Complex.add_re, log_J]
  congr 1
  exact re_sum fun i _ => h.term z _

theorem meDeriv_ax (p : ℕ) {b a : ℕ → ℂ} (h : MRel b a) (z : ℂ) : meDeriv b p (J z) = Complex.I⁻¹ * conj (meDeriv a p z) := by
  have b0 : b 0 = 1 := by rw [h.2, h.1]; simp
  unfold meDeriv
  rw [b0, h.1, map_sub, _root_.map_sum, mul_sub, mul_sum]
  refine congrArg₂ (· - ·) ?_ (sum_congr rfl fun i _ => ?_)
  · unfold J
    rw [map_div₀, map_one, div_eq_mul_inv, div_eq_mul_inv, mul_inv]; ring
  · rw [pow_succ ((J z)⁻¹) (i + 1), ← mul_assoc, mul_assoc _ (b _), h.term]
    have e : (J z)⁻¹ = Complex.I⁻¹ * conj z⁻¹ := by unfold J; rw [mul_inv, map_inv₀]
    rw [e, pow_succ z⁻¹ (i + 1)]
    simp only [map_mul, Complex.conj_natCast]
    ring

theorem fieldOf_ax (f : ℂ) : Exp2.fieldOf (Complex.I⁻¹ * conj f) = axL xy2 (Exp2.fieldOf f) := by
  unfold Exp2.fieldOf
  funext j
  show _ = ![-f.re, f.im] (xy2 j)
  rw [Complex.inv_I]
  fin_cases j <;> simp [xy2]

theorem ax2Pot (p : ℕ) (hp0 : 0 < p) (hp : p ≤ 1029) (M : ℕ) : AxLaws (lin2Pot p hp0 hp M) xy2 LinearMap.id where
  m2l := by
    intro a b u y
    show (1 : ℝ) • (leSum (Exp2.m2lCoeff M p (uME2 (toC (axV xy2 a)) (axV xy2 u)) (toC (axV xy2 a) - toC (axV xy2 b))) p (toC (axV xy2 y) - toC (axV xy2 b))).re
      = (1 : ℝ) • (leSum (Exp2.m2lCoeff M p (uME2 (toC a) u) (toC a - toC b)) p (toC y - toC b)).re
    rw [toC_ax, toC_ax, toC_ax, J_sub, J_sub, leSum_ax p (m2l_ax M p (uME2_ax (toC a) u) _)]
  p2l := by
    intro a u y
    show (1 : ℝ) • (leSum (uLE2 (toC (axV xy2 a)) (axV xy2 u)) p (toC (axV xy2 y) - toC (axV xy2 a))).re
      = (1 : ℝ) • (leSum (uLE2 (toC a) u) p (toC y - toC a)).re
    rw [toC_ax, toC_ax, J_sub, leSum_ax p (uLE2_ax (toC a) u)]
  m2p := by
    intro a u y
    show (1 : ℝ) • (meSum (uME2 (toC (axV xy2 a)) (axV xy2 u)) p (toC (axV xy2 y) - toC (axV xy2 a))).re
      = (1 : ℝ) • (meSum (uME2 (toC a) u) p (toC y - toC a)).re
    rw [toC_ax, toC_ax, J_sub, meSum_ax p (uME2_ax (toC a) u)]
  p2p u y := directTerm xy2_inv u y

theorem ax2Force (p : ℕ) (hp0 : 0 < p) (hp : p ≤ 1029) (M : ℕ) {feps : ℝ} (hf : 0 ≤ feps) :
    AxLaws ((lin2Force p hp0 hp M).smooth (O' := force2 feps) hf rfl rfl rfl rfl rfl) xy2 (axL xy2) where
  m2l := by
    intro a b u y
    show (1 : ℝ) • Exp2.fieldOf (leDeriv (Exp2.m2lCoeff M p (uME2 (toC (axV xy2 a)) (axV xy2 u)) (toC (axV xy2 a) - toC (axV xy2 b))) p
        (toC (axV xy2 y) - toC (axV xy2 b)))
      = axL xy2 ((1 : ℝ) • Exp2.fieldOf (leDeriv (Exp2.m2lCoeff M p (uME2 (toC a) u) (toC a - toC b)) p (toC y - toC b)))
    rw [toC_ax, toC_ax, toC_ax, J_sub, J_sub, leDeriv_ax p (m2l_ax M p (uME2_ax (toC a) u) _), fieldOf_ax, one_smul, one_smul]
  p2l := by
    intro a u y
    show (1 : ℝ) • Exp2.fieldOf (leDeriv (uLE2 (toC (axV xy2 a)) (axV xy2 u)) p (toC (axV xy2 y) - toC (axV xy2 a)))
      = axL xy2 ((1 : ℝ) • Exp2.fieldOf (leDeriv (uLE2 (toC a) u) p (toC y - toC a)))
    rw [toC_ax, toC_ax, J_sub, leDeriv_ax p (uLE2_ax (toC a) u), fieldOf_ax, one_smul, one_smul]
  m2p := by
    intro a u y
    show (1 : ℝ) • Exp2.fieldOf (meDeriv (uME2 (toC (axV xy2 a)) (axV xy2 u)) p (toC (axV xy2 y) - toC (axV xy2 a)))
      = axL xy2 ((1 : ℝ) • Exp2.fieldOf (meDeriv (uME2 (toC a) u) p (toC y - toC a)))
    rw [toC_ax, toC_ax, J_sub, meDeriv_ax p (uME2_ax (toC a) u), fieldOf_ax, one_smul, one_smul]
  p2p u y := directFieldTerm xy2_inv feps u y

/-! ## Three dimensions

The contributions of single sources depend on scalar products only, so that every exchange of axes is allowed. -/

section
variable {σ : Fin 3 → Fin 3}

theorem dot3_ax (hσ : Function.Involutive σ) (u v : Vec 3) : dot3 (axV σ u) (axV σ v) = dot3 u v := by
  have h : ∀ w z : Vec 3, dot3 w z = ∑ i, w i * z i := fun w z => by rw [Fin.sum_univ_three]; rfl
  rw [h, h]
  exact Equiv.sum_comp (hσ.toPerm σ) fun i => u i * v i

theorem len3_ax (hσ : Function.Involutive σ) (v : Vec 3) : len3 (axV σ v) = len3 v := by unfold len3; rw [dot3_ax hσ]

theorem sK_ax (hσ : Function.Involutive σ) (n : ℕ) (x s : Vec 3) : sK n (axV σ x) (axV σ s) = sK n x s :=
  sK_gram (dot3_ax hσ _ _) (dot3_ax hσ _ _) (dot3_ax hσ _ _) n

theorem sT_ax (hσ : Function.Involutive σ) {N j : ℕ} (hj : j ≤ N) (u v h : Vec 3) : sT N j (axV σ u) (axV σ v) (axV σ h) = sT N j u v h :=
  sT_gram (dot3_ax hσ _ _) (dot3_ax hσ _ _) (dot3_ax hσ _ _) (dot3_ax hσ _ _) (dot3_ax hσ _ _) (dot3_ax hσ _ _) N j hj

theorem sTD_ax (hσ : Function.Involutive σ) {N j : ℕ} (hj : j ≤ N) (u e v h : Vec 3) :
    sTD N j (axV σ u) (axV σ e) (axV σ v) (axV σ h) = sTD N j u e v h :=
  (sTD_rot (ρ := axV σ) (dot3_ax hσ) (fun _ _ _ => rfl) N j hj u e v h).symm

theorem sKD_ax (hσ : Function.Involutive σ) (n : ℕ) (u e h : Vec 3) : sKD n (axV σ u) (axV σ e) (axV σ h) = sKD n u e h := by
  rw [← sTD_self, ← sTD_self]
  exact sTD_ax hσ le_rfl u e 0 h

theorem unitV_ax (hσ : Function.Involutive σ) (i : Fin 3) : unitV i = axV σ (unitV (σ i)) := by
  funext j
  unfold axV unitV
  by_cases h : j = i
  · subst h; rw [Pi.single_eq_same, Pi.single_eq_same]
  · rw [Pi.single_eq_of_ne h, Pi.single_eq_of_ne fun e => h (hσ.injective e)]

theorem m2lSum_ax (hσ : Function.Involutive σ) (p : ℕ) (a b u y : Vec 3) :
    leSum3 (m2lC p (uME3 (axV σ a) (axV σ u)) (axV σ a - axV σ b)) p (axV σ y - axV σ b) = leSum3 (m2lC p (uME3 a u) (a - b)) p (y - b) := by
  unfold uME3
  rw [m2lC_sources, m2lC_sources]
  simp only [List.map_cons, List.map_nil, List.sum_cons, List.sum_nil, add_zero]
  refine congrArg (_ * ·) (sum_congr rfl fun x _ => ?_)
  rw [axV_sub, axV_sub, axV_sub, len3_ax hσ]
  exact congrArg (· / _) (sT_ax hσ (Nat.le_add_right _ _) (y - b) (-(u - a)) (a - b))

theorem leSum_ax3 (hσ : Function.Involutive σ) (p : ℕ) (a u y : Vec 3) :
    leSum3 (uLE3 (axV σ a) (axV σ u)) p (axV σ y - axV σ a) = leSum3 (uLE3 a u) p (y - a) := by
  unfold uLE3
  rw [leSum3_sources, leSum3_sources]
  simp only [List.map_cons, List.map_nil, List.sum_cons, List.sum_nil, add_zero]
  refine congrArg (_ * ·) (sum_congr rfl fun x _ => ?_)
  rw [axV_sub, axV_sub, len3_ax hσ, sK_ax hσ]

theorem meSum_ax3 (hσ : Function.Involutive σ) (p : ℕ) (a u y : Vec 3) :
    meSum3 (uME3 (axV σ a) (axV σ u)) p (axV σ y - axV σ a) = meSum3 (uME3 a u) p (y - a) := by
  unfold uME3
  rw [meSum3_sources, meSum3_sources]
  simp only [List.map_cons, List.map_nil, List.sum_cons, List.sum_nil, add_zero]
  refine congrArg (_ * ·) (sum_congr rfl fun x _ => ?_)
  rw [axV_sub, axV_sub, len3_ax hσ, sK_ax hσ]

theorem m2lGrad_ax (hσ : Function.Involutive σ) (p : ℕ) (a b u y e : Vec 3) :
    leGrad3 (m2lC p (uME3 (axV σ a) (axV σ u)) (axV σ a - axV σ b)) p (axV σ y - axV σ b) (axV σ e)
      = leGrad3 (m2lC p (uME3 a u) (a - b)) p (y - b) e := by
  unfold uME3
  rw [leGrad3_m2l, leGrad3_m2l]
  simp only [List.map_cons, List.map_nil, List.sum_cons, List.sum_nil, add_zero]
  refine congrArg (_ * ·) (sum_congr rfl fun x _ => ?_)
  rw [axV_sub, axV_sub, axV_sub, len3_ax hσ]
  exact congrArg (· / _) (sTD_ax hσ (Nat.le_add_right _ _) (y - b) e (-(u - a)) (a - b))

theorem leGrad_ax3 (hσ : Function.Involutive σ) (p : ℕ) (a u y e : Vec 3) :
    leGrad3 (uLE3 (axV σ a) (axV σ u)) p (axV σ y - axV σ a) (axV σ e) = leGrad3 (uLE3 a u) p (y - a) e := by
  unfold uLE3
  rw [leGrad3_sources, leGrad3_sources]
  simp only [List.map_cons, List.map_nil, List.sum_cons, List.sum_nil, add_zero]
  refine congrArg (_ * ·) (sum_congr rfl fun x _ => ?_)
  rw [axV_sub, axV_sub, len3_ax hσ, sKD_ax hσ]

theorem meGrad3_zero (a : ℕ → ℤ → ℂ) (p : ℕ) (e : Vec 3) : meGrad3 a p 0 e = 0 := by
  unfold meGrad3
  refine sum_eq_zero fun n _ => sum_eq_zero fun m _ => ?_
  have h : len3 (0 : Vec 3) = 0 := by simp [len3, dot3]
  unfold iD
  rw [h]
  simp

theorem meGrad_ax3 (hσ : Function.Involutive σ) (p : ℕ) (a u y e : Vec 3) :
    meGrad3 (uME3 (axV σ a) (axV σ u)) p (axV σ y - axV σ a) (axV σ e) = meGrad3 (uME3 a u) p (y - a) e := by
  rw [axV_sub]
  by_cases h : y - a = 0
  · have h' : axV σ (0 : Vec 3) = 0 := rfl
    rw [h, h', meGrad3_zero, meGrad3_zero]
  · have h' : axV σ (y - a) ≠ 0 := fun e => h ((axV_inj hσ).mp (e.trans (rfl : (0 : Vec 3) = axV σ 0)))
    unfold uME3
    rw [meGrad3_sources _ _ _ h', meGrad3_sources _ _ _ h]
    simp only [List.map_cons, List.map_nil, List.sum_cons, List.sum_nil, add_zero]
    refine congrArg (_ * ·) (congrArg Neg.neg (sum_congr rfl fun x _ => ?_))
    rw [axV_sub, len3_ax hσ, sKD_ax hσ]

theorem ax3Pot (hσ : Function.Involutive σ) (p : ℕ) (hp : p ≤ 42) : AxLaws (lin3Pot p hp) σ LinearMap.id where
  m2l := by
    intro a b u y
    show (1 : ℝ) • -(leSum3 (m2lC p (uME3 (axV σ a) (axV σ u)) (axV σ a - axV σ b)) p (axV σ y - axV σ b)).re
      = (1 : ℝ) • -(leSum3 (m2lC p (uME3 a u) (a - b)) p (y - b)).re
    rw [m2lSum_ax hσ]
  p2l := by
    intro a u y
    show (1 : ℝ) • -(leSum3 (uLE3 (axV σ a) (axV σ u)) p (axV σ y - axV σ a)).re = (1 : ℝ) • -(leSum3 (uLE3 a u) p (y - a)).re
    rw [leSum_ax3 hσ]
  m2p := by
    intro a u y
    show (1 : ℝ) • -(meSum3 (uME3 (axV σ a) (axV σ u)) p (axV σ y - axV σ a)).re = (1 : ℝ) • -(meSum3 (uME3 a u) p (y - a)).re
    rw [meSum_ax3 hσ]
  p2p u y := directTerm hσ u y

theorem ax3Force (hσ : Function.Involutive σ) (p : ℕ) (hp0 : 0 < p) (hp : p ≤ 42) {feps : ℝ} (hf : 0 ≤ feps) :
    AxLaws ((lin3Force p hp0 hp).smooth (O' := force3 feps) hf rfl rfl rfl rfl rfl) σ (axL σ) where
  m2l := by
    intro a b u y
    funext i
    show (1 : ℝ) * (leGrad3 (m2lC p (uME3 (axV σ a) (axV σ u)) (axV σ a - axV σ b)) p (axV σ y - axV σ b) (unitV i)).re
      = (1 : ℝ) * (leGrad3 (m2lC p (uME3 a u) (a - b)) p (y - b) (unitV (σ i))).re
    rw [unitV_ax hσ i, m2lGrad_ax hσ]
  p2l := by
    intro a u y
    funext i
    show (1 : ℝ) * (leGrad3 (uLE3 (axV σ a) (axV σ u)) p (axV σ y - axV σ a) (unitV i)).re
      = (1 : ℝ) * (leGrad3 (uLE3 a u) p (y - a) (unitV (σ i))).re
    rw [unitV_ax hσ i, leGrad_ax3 hσ]
  m2p := by
    intro a u y
    funext i
    show (1 : ℝ) * (meGrad3 (uME3 (axV σ a) (axV σ u)) p (axV σ y - axV σ a) (unitV i)).re
      = (1 : ℝ) * (meGrad3 (uME3 a u) p (y - a) (unitV (σ i))).re
    rw [unitV_ax hσ i, meGrad_ax3 hσ]
  p2p u y := directFieldTerm hσ feps u y

end

end Ax
end FMM
