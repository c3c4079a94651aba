import Verif.LinScaleTree
import Verif.LinKits

/-!
# The expansions in other units of length
-/

namespace FMM
open Finset
namespace Sc
variable {c : ℝ}

theorem toC_smul (c : ℝ) (v : Vec 2) : toC (c • v) = (c : ℂ) * toC v := by
  unfold toC; apply Complex.ext <;> simp

theorem dist2_scale {d : ℕ} (hc : 0 < c) (x y : Vec d) : dist2 (c • x) (c • y) = c * dist2 x y := by
  unfold dist2
  rw [show c * Real.sqrt (∑ i, (x i - y i) ^ 2) = Real.sqrt (c ^ 2 * ∑ i, (x i - y i) ^ 2) by rw [Real.sqrt_mul (sq_nonneg c), Real.sqrt_sq hc.le], mul_sum]
  congr 1
  refine sum_congr rfl fun i _ => ?_
  simp only [Pi.smul_apply, smul_eq_mul]; ring

/-! ## Two dimensions -/

theorem uME2_scale (hc : 0 < c) (a : ℂ) (y : Vec 2) (k : ℕ) : uME2 (c * a) (c • y) k = (c : ℂ) ^ k * uME2 a y k := by
  unfold uME2
  rw [meCoeff_single, meCoeff_single]
  by_cases h : k = 0
  · simp [h]
  · rw [if_neg h, if_neg h, toC_smul, ← mul_sub, mul_pow]; ring

theorem log_scale (hc : 0 < c) {z : ℂ} (hz : z ≠ 0) : Complex.log (c * z) = Real.log c + Complex.log z := Complex.log_ofReal_mul hc hz

theorem uLE2_scale (hc : 0 < c) (a : ℂ) (y : Vec 2) (h : toC y ≠ a) (k : ℕ) :
    uLE2 (c * a) (c • y) k = ((c : ℂ)⁻¹) ^ k * uLE2 a y k + if k = 0 then (Real.log c : ℂ) else 0 := by
  unfold uLE2
  rw [leCoeff_single, leCoeff_single]
  by_cases hk : k = 0
  · rw [if_pos hk, if_pos hk, if_pos hk, toC_smul, ← mul_sub, ← mul_neg, log_scale hc (neg_ne_zero.mpr (sub_ne_zero.mpr h)), hk]; simp; ring
  · rw [if_neg hk, if_neg hk, if_neg hk, toC_smul, ← mul_sub, mul_inv, mul_pow]; ring

theorem m2l_scale (hc : 0 < c) (M p : ℕ) {a b : ℕ → ℂ} (hab : ∀ k, b k = (c : ℂ) ^ k * a k) {z : ℂ} (hz : z ≠ 0) (l : ℕ) :
    Exp2.m2lCoeff M p b (c * z) l = ((c : ℂ)⁻¹) ^ l * Exp2.m2lCoeff M p a z l + if l = 0 then a 0 * (Real.log c : ℂ) else 0 := by
  have hc' : (c : ℂ) ≠ 0 := by exact_mod_cast hc.ne'
  have e : ∀ i : ℕ, b (i + 1) * ((c * z)⁻¹) ^ (i + 1) = a (i + 1) * z⁻¹ ^ (i + 1) := by
    intro i
    rw [hab, mul_inv, mul_pow, inv_pow]
    field_simp
  have e0 : b 0 = a 0 := by rw [hab]; simp
  unfold Exp2.m2lCoeff
  by_cases hl : l = 0
  · rw [if_pos hl, if_pos hl, if_pos hl, hl, pow_zero, one_mul, e0, ← mul_neg, log_scale hc (neg_ne_zero.mpr hz)]
    have : ∑ i ∈ range p, (-1) ^ (i + 1) * b (i + 1) * ((c * z)⁻¹) ^ (i + 1) = ∑ i ∈ range p, (-1) ^ (i + 1) * a (i + 1) * z⁻¹ ^ (i + 1) :=
      sum_congr rfl fun i _ => by rw [mul_assoc, e, mul_assoc]
    rw [this]; ring
  · rw [if_neg hl, if_neg hl, if_neg hl, add_zero, e0]
    have : ∑ i ∈ range (p - 1), (-1) ^ (i + 1) * b (i + 1) * ((c * z)⁻¹) ^ (i + 1) * (binVal M (l + i) i : ℂ)
        = ∑ i ∈ range (p - 1), (-1) ^ (i + 1) * a (i + 1) * z⁻¹ ^ (i + 1) * (binVal M (l + i) i : ℂ) :=
      sum_congr rfl fun i _ => by rw [mul_assoc _ (b _), e, mul_assoc _ (a _)]
    rw [this, mul_inv, mul_pow]; ring

theorem leSum_scale (hc : 0 < c) (p : ℕ) {a b : ℕ → ℂ} {w : ℂ} (hab : ∀ k, b k = ((c : ℂ)⁻¹) ^ k * a k + if k = 0 then w else 0) (z : ℂ) :
    leSum b p (c * z) = leSum a p z + w := by
  have hc' : (c : ℂ) ≠ 0 := by exact_mod_cast hc.ne'
  unfold leSum
  rw [sum_range_succ', sum_range_succ' (fun k => a k * z ^ k), hab 0, if_pos rfl]
  have : ∑ k ∈ range p, b (k + 1) * (c * z) ^ (k + 1) = ∑ k ∈ range p, a (k + 1) * z ^ (k + 1) := sum_congr rfl fun k _ => by
    rw [hab, if_neg (Nat.succ_ne_zero k), mul_pow, inv_pow]; field_simp; ring
  rw [this]; simp; ring

theorem leDeriv_scale (hc : 0 < c) (p : ℕ) {a b : ℕ → ℂ} {w : ℂ} (hab : ∀ k, b k = ((c : ℂ)⁻¹) ^ k * a k + if k = 0 then w else 0) (z : ℂ) :
    leDeriv b p (c * z) = (c : ℂ)⁻¹ * leDeriv a p z := by
  have hc' : (c : ℂ) ≠ 0 := by exact_mod_cast hc.ne'
  unfold leDeriv
  rw [mul_sum]
  refine sum_congr rfl fun k _ => ?_
  rw [hab, if_neg (Nat.succ_ne_zero k), mul_pow, pow_succ, inv_pow]; field_simp; ring

theorem meSum_scale (hc : 0 < c) (p : ℕ) {a b : ℕ → ℂ} (hab : ∀ k, b k = (c : ℂ) ^ k * a k) {z : ℂ} (hz : z ≠ 0) :
    meSum b p (c * z) = meSum a p z + a 0 * Real.log c := by
  have hc' : (c : ℂ) ≠ 0 := by exact_mod_cast hc.ne'
  unfold meSum
  rw [log_scale hc hz, hab 0]
  have : ∑ i ∈ range p, b (i + 1) * ((c * z)⁻¹) ^ (i + 1) = ∑ i ∈ range p, a (i + 1) * z⁻¹ ^ (i + 1) := sum_congr rfl fun i _ => by
    rw [hab, mul_inv, mul_pow, inv_pow]; field_simp
  rw [this]; simp; ring

theorem meDeriv_scale (hc : 0 < c) (p : ℕ) {a b : ℕ → ℂ} (hab : ∀ k, b k = (c : ℂ) ^ k * a k) (z : ℂ) :
    meDeriv b p (c * z) = (c : ℂ)⁻¹ * meDeriv a p z := by
  have hc' : (c : ℂ) ≠ 0 := by exact_mod_cast hc.ne'
  unfold meDeriv
  rw [hab 0, mul_sub, mul_sum]
  refine congrArg₂ (· - ·) ?_ (sum_congr rfl fun i _ => ?_)
  · simp only [pow_zero, one_mul, div_eq_mul_inv, mul_inv]; ring
  · rw [hab, mul_inv, mul_pow, pow_succ (c : ℂ)⁻¹ (i + 1), inv_pow]; field_simp

theorem fieldOf_scale (c : ℝ) (z : ℂ) : Exp2.fieldOf ((c : ℂ)⁻¹ * z) = c⁻¹ • Exp2.fieldOf z := by
  rw [← Complex.ofReal_inv]
  unfold Exp2.fieldOf
  funext j
  fin_cases j <;> simp

theorem toC_ne {x y : Vec 2} (h : x ≠ y) : toC x ≠ toC y := by
  intro e
  apply h
  have h0 := congrArg Complex.re e
  have h1 := congrArg Complex.im e
  funext j
  fin_cases j
  · exact h0
  · exact h1

theorem uME2_zero (a : ℂ) (y : Vec 2) : uME2 a y 0 = 1 := by unfold uME2; rw [meCoeff_single]; simp

theorem scale2Pot (hc : 0 < c) (p : ℕ) (hp0 : 0 < p) (hp : p ≤ 1029) (M : ℕ) :
    ScaleLaws (lin2Pot p hp0 hp M) (lin2Pot p hp0 hp M) c 1 (Real.log c) where
  m2l := by
    intro a b u y hab
    show (1 : ℝ) • (leSum (Exp2.m2lCoeff M p (uME2 (toC (c • a)) (c • u)) (toC (c • a) - toC (c • b))) p (toC (c • y) - toC (c • b))).re
      = (1 : ℝ) • (1 : ℝ) • (leSum (Exp2.m2lCoeff M p (uME2 (toC a) u) (toC a - toC b)) p (toC y - toC b)).re + Real.log c
    rw [toC_smul, toC_smul, toC_smul, ← mul_sub, ← mul_sub, leSum_scale hc p (m2l_scale hc M p (uME2_scale hc (toC a) u) (sub_ne_zero.mpr (toC_ne hab))),
      uME2_zero]
    simp
  p2l := by
    intro a u y hu
    show (1 : ℝ) • (leSum (uLE2 (toC (c • a)) (c • u)) p (toC (c • y) - toC (c • a))).re
      = (1 : ℝ) • (1 : ℝ) • (leSum (uLE2 (toC a) u) p (toC y - toC a)).re + Real.log c
    rw [toC_smul, toC_smul, ← mul_sub, leSum_scale hc p (uLE2_scale hc (toC a) u (toC_ne hu))]
    simp
  m2p := by
    intro a u y hy
    show (1 : ℝ) • (meSum (uME2 (toC (c • a)) (c • u)) p (toC (c • y) - toC (c • a))).re
      = (1 : ℝ) • (1 : ℝ) • (meSum (uME2 (toC a) u) p (toC y - toC a)).re + Real.log c
    rw [toC_smul, toC_smul, ← mul_sub, meSum_scale hc p (uME2_scale hc (toC a) u) (sub_ne_zero.mpr (toC_ne hy)), uME2_zero]
    simp
  p2p := by
    intro u y hu
    show directTerm true (c • y) ⟨c • u, 1⟩ = (1 : ℝ) • directTerm true y ⟨u, 1⟩ + Real.log c
    have hu' : c • u ≠ c • y := fun h => hu ((smul_inj hc).mp h)
    simp only [directTerm, kernelSpec, hu, hu', if_true, if_false]
    rw [dist2_scale hc, Real.log_mul hc.ne' (fun h => hu ((dist2_eq_zero_iff _ _).mp h))]
    simp [sgn]; ring
  p2p_self := by
    intro u
    show directTerm true (c • u) ⟨c • u, 1⟩ = (1 : ℝ) • directTerm true u ⟨u, 1⟩
    unfold directTerm
    simp

theorem directField_scale {d : ℕ} (hc : 0 < c) (k : ℕ) (hk : k = if d = 2 then 2 else 3) (feps : ℝ) (u y : Vec d) :
    directFieldTerm true (c • y) (c ^ k * feps) ⟨c • u, 1⟩ = (c⁻¹) ^ (k - 1) • directFieldTerm true y feps ⟨u, 1⟩ := by
  unfold directFieldTerm
  by_cases h : u = y
  · rw [if_pos (by simp [h]), if_pos h, smul_zero]
  · rw [if_neg (by simpa [smul_inj hc] using h), if_neg h]
    funext j
    unfold fieldSpec forceDenom
    simp only [Pi.smul_apply, smul_eq_mul]
    rw [dist2_scale hc]
    have e : (if d = 2 then (c * dist2 u y) ^ 2 else (c * dist2 u y) ^ 3) + c ^ k * feps
        = c ^ k * ((if d = 2 then dist2 u y ^ 2 else dist2 u y ^ 3) + feps) := by
      by_cases h2 : d = 2
      · rw [if_pos h2] at hk; rw [if_pos h2, if_pos h2, hk]; ring
      · rw [if_neg h2] at hk; rw [if_neg h2, if_neg h2, hk]; ring
    rw [e]
    have e2 : c ^ k = c ^ (k - 1) * c := by rw [← pow_succ]; congr 1; by_cases h2 : d = 2 <;> simp [h2] at hk <;> omega
    rw [e2, ← mul_sub]
    generalize ((if d = 2 then dist2 u y ^ 2 else dist2 u y ^ 3) + feps) = D
    rw [div_eq_mul_inv, div_eq_mul_inv, mul_inv, mul_inv, inv_pow]
    field_simp

theorem scale2Force (hc : 0 < c) (p : ℕ) (hp0 : 0 < p) (hp : p ≤ 1029) (M : ℕ) {feps : ℝ} (hf : 0 ≤ feps) :
    ScaleLaws ((lin2Force p hp0 hp M).smooth (O' := force2 feps) hf rfl rfl rfl rfl rfl)
      ((lin2Force p hp0 hp M).smooth (O' := force2 (c ^ 2 * feps)) (by positivity) rfl rfl rfl rfl rfl) c c⁻¹ 0 where
  m2l := by
    intro a b u y hab
    show (1 : ℝ) • Exp2.fieldOf (leDeriv (Exp2.m2lCoeff M p (uME2 (toC (c • a)) (c • u)) (toC (c • a) - toC (c • b))) p (toC (c • y) - toC (c • b)))
      = c⁻¹ • (1 : ℝ) • Exp2.fieldOf (leDeriv (Exp2.m2lCoeff M p (uME2 (toC a) u) (toC a - toC b)) p (toC y - toC b)) + 0
    rw [toC_smul, toC_smul, toC_smul, ← mul_sub, ← mul_sub, leDeriv_scale hc p (m2l_scale hc M p (uME2_scale hc (toC a) u) (sub_ne_zero.mpr (toC_ne hab))),
      fieldOf_scale]
    simp
  p2l := by
    intro a u y hu
    show (1 : ℝ) • Exp2.fieldOf (leDeriv (uLE2 (toC (c • a)) (c • u)) p (toC (c • y) - toC (c • a)))
      = c⁻¹ • (1 : ℝ) • Exp2.fieldOf (leDeriv (uLE2 (toC a) u) p (toC y - toC a)) + 0
    rw [toC_smul, toC_smul, ← mul_sub, leDeriv_scale hc p (uLE2_scale hc (toC a) u (toC_ne hu)), fieldOf_scale]
    simp
  m2p := by
    intro a u y hy
    show (1 : ℝ) • Exp2.fieldOf (meDeriv (uME2 (toC (c • a)) (c • u)) p (toC (c • y) - toC (c • a)))
      = c⁻¹ • (1 : ℝ) • Exp2.fieldOf (meDeriv (uME2 (toC a) u) p (toC y - toC a)) + 0
    rw [toC_smul, toC_smul, ← mul_sub, meDeriv_scale hc p (uME2_scale hc (toC a) u), fieldOf_scale]
    simp
  p2p := fun u y _ => by
    have := directField_scale hc 2 (by simp) feps u y
    rw [show 2 - 1 = 1 from rfl, pow_one] at this
    rw [add_zero]; exact this
  p2p_self := fun u => by
    have := directField_scale hc 2 (by simp) feps u u
    rw [show 2 - 1 = 1 from rfl, pow_one] at this
    exact this

/-! ## Three dimensions -/

theorem rY_scale (c : ℝ) (v : Vec 3) (n : ℕ) (m : ℤ) : rY (c • v) n m = (c : ℂ) ^ n * rY v n m := by
  unfold rY; rw [sR_smul]; ring

theorem len3_scale (hc : 0 < c) (v : Vec 3) : (len3 (c • v) : ℂ) = c * len3 v := by
  rw [len3_smul, abs_of_pos hc]; push_cast; rfl

/-- Irregular harmonics. -/
theorem iY_scale (hc : 0 < c) (v : Vec 3) (n : ℕ) (m : ℤ) : rY (c • v) n m / (len3 (c • v) : ℂ) ^ (2 * n + 1)
    = ((c : ℂ)⁻¹) ^ (n + 1) * (rY v n m / (len3 v : ℂ) ^ (2 * n + 1)) := by
  have hc' : (c : ℂ) ≠ 0 := by exact_mod_cast hc.ne'
  rw [rY_scale, len3_scale hc, mul_pow, show 2 * n + 1 = n + (n + 1) by ring, pow_add (c : ℂ), inv_pow]
  generalize (len3 v : ℂ) ^ (n + (n + 1)) = D
  rw [div_eq_mul_inv, div_eq_mul_inv, mul_inv, mul_inv]
  field_simp

theorem iD_scale (hc : 0 < c) (v e : Vec 3) (n : ℕ) (m : ℤ) : iD (c • v) e n m = ((c : ℂ)⁻¹) ^ (n + 2) * iD v e n m := by
  have hc' : (c : ℂ) ≠ 0 := by exact_mod_cast hc.ne'
  unfold iD
  rw [rY_scale, len3_scale hc, dot3_smul_left, mul_pow, mul_pow, mul_sub]
  refine congrArg₂ (· - ·) ?_ ?_
  · cases n with
    | zero => rw [rD_zero, rD_zero]; simp
    | succ n =>
      rw [rD_smul_left, show 2 * (n + 1) + 1 = n + (n + 1 + 2) by ring, pow_add (c : ℂ), inv_pow]
      generalize (len3 v : ℂ) ^ (n + (n + 1 + 2)) = D
      rw [div_eq_mul_inv, div_eq_mul_inv, mul_inv, mul_inv]
      field_simp
  · rw [show 2 * n + 3 = n + 1 + (n + 2) by ring, pow_add (c : ℂ), inv_pow]
    generalize (len3 v : ℂ) ^ (n + 1 + (n + 2)) = D
    push_cast
    rw [div_eq_mul_inv, div_eq_mul_inv, mul_inv, mul_inv, pow_succ (c : ℂ) n]
    field_simp

theorem uME3_scale (a u : Vec 3) (n : ℕ) (m : ℤ) : uME3 (c • a) (c • u) n m = (c : ℂ) ^ n * uME3 a u n m := by
  simp only [uME3, meCoeff3, List.map_cons, List.map_nil, List.sum_cons, List.sum_nil, add_zero]
  rw [← smul_sub, rY_scale]; ring

theorem uLE3_scale (hc : 0 < c) (a u : Vec 3) (n : ℕ) (m : ℤ) : uLE3 (c • a) (c • u) n m = ((c : ℂ)⁻¹) ^ (n + 1) * uLE3 a u n m := by
  simp only [uLE3, leCoeff3, List.map_cons, List.map_nil, List.sum_cons, List.sum_nil, add_zero]
  rw [← smul_sub, iY_scale hc]; ring

theorem m2l3_scale (hc : 0 < c) (p : ℕ) {a b : ℕ → ℤ → ℂ} (hab : ∀ n m, b n m = (c : ℂ) ^ n * a n m) (h : Vec 3) (j : ℕ) (k : ℤ) :
    m2lC p b (c • h) j k = ((c : ℂ)⁻¹) ^ (j + 1) * m2lC p a h j k := by
  have hc' : (c : ℂ) ≠ 0 := by exact_mod_cast hc.ne'
  unfold m2lC
  rw [← mul_assoc, mul_sum]
  refine congrArg (· * (aSpec j k : ℂ)) (sum_congr rfl fun n _ => ?_)
  rw [mul_left_comm]
  refine congrArg ((-1 : ℂ) ^ n * ·) ?_
  rw [mul_sum]
  refine (sum_congr rfl fun m _ => ?_)
  rw [iY_scale hc, hab, show j + n + 1 = n + (j + 1) by ring, pow_add (c : ℂ)⁻¹, inv_pow _ n]
  have := pow_ne_zero n hc'
  field_simp

/-- A sum over coefficients whose scalings cancel up to a common factor. -/
theorem coefL_scale (p : ℕ) {a b w w' : ℕ → ℤ → ℂ} {μ : ℂ} (h : ∀ n m, b n m * w' n m = μ * (a n m * w n m)) : coefL p w' b = μ * coefL p w a := by
  show ∑ n ∈ range (p + 1), ∑ m ∈ Icc (-(n : ℤ)) n, b n m * w' n m = μ * ∑ n ∈ range (p + 1), ∑ m ∈ Icc (-(n : ℤ)) n, a n m * w n m
  rw [mul_sum]
  refine sum_congr rfl fun n _ => ?_
  rw [mul_sum]
  exact sum_congr rfl fun m _ => h n m

theorem pow_cancel (hc : 0 < c) (n j : ℕ) : ((c : ℂ)⁻¹) ^ (n + j) * (c : ℂ) ^ n = ((c : ℂ)⁻¹) ^ j := by
  have hc' : (c : ℂ) ≠ 0 := by exact_mod_cast hc.ne'
  rw [pow_add, inv_pow _ n]
  have := pow_ne_zero n hc'
  field_simp

theorem re_inv (c : ℝ) (j : ℕ) (z : ℂ) : (((c : ℂ)⁻¹) ^ j * z).re = (c⁻¹) ^ j * z.re := by
  rw [← Complex.ofReal_inv, ← Complex.ofReal_pow, Complex.re_ofReal_mul]

theorem leSum3_scale (hc : 0 < c) (p : ℕ) {a b : ℕ → ℤ → ℂ} (hab : ∀ n m, b n m = ((c : ℂ)⁻¹) ^ (n + 1) * a n m) (v : Vec 3) :
    leSum3L p (c • v) b = c⁻¹ • leSum3L p v a := by
  show -(coefL p (rY (c • v)) b).re = c⁻¹ * -(coefL p (rY v) a).re
  rw [coefL_scale p (μ := ((c : ℂ)⁻¹) ^ 1) (a := a) (w := rY v) (fun n m => by rw [hab, rY_scale, ← pow_cancel hc n 1]; ring), re_inv]
  ring

theorem meSum3_scale (hc : 0 < c) (p : ℕ) {a b : ℕ → ℤ → ℂ} (hab : ∀ n m, b n m = (c : ℂ) ^ n * a n m) (v : Vec 3) :
    meSum3L p (c • v) b = c⁻¹ • meSum3L p v a := by
  show -(coefL p (fun n m => rY (c • v) n m / (len3 (c • v) : ℂ) ^ (2 * n + 1)) b).re
    = c⁻¹ * -(coefL p (fun n m => rY v n m / (len3 v : ℂ) ^ (2 * n + 1)) a).re
  rw [coefL_scale p (μ := ((c : ℂ)⁻¹) ^ 1) (a := a) (w := fun n m => rY v n m / (len3 v : ℂ) ^ (2 * n + 1))
    (fun n m => by rw [hab, iY_scale hc, ← pow_cancel hc n 1]; ring), re_inv]
  ring

theorem leGrad3_scale (hc : 0 < c) (p : ℕ) {a b : ℕ → ℤ → ℂ} (hab : ∀ n m, b n m = ((c : ℂ)⁻¹) ^ (n + 1) * a n m) (v : Vec 3) :
    leGrad3L p (c • v) b = (c⁻¹) ^ 2 • leGrad3L p v a := by
  funext i
  show (coefL p (rD (c • v) (unitV i)) b).re = (c⁻¹) ^ 2 * (coefL p (rD v (unitV i)) a).re
  rw [coefL_scale p (μ := ((c : ℂ)⁻¹) ^ 2) (a := a) (w := rD v (unitV i)) (fun n m => by
    cases n with
    | zero => rw [rD_zero, rD_zero]; simp
    | succ n => rw [hab, rD_smul_left, ← pow_cancel hc n 2]; ring), re_inv]

theorem meGrad3_scale (hc : 0 < c) (p : ℕ) {a b : ℕ → ℤ → ℂ} (hab : ∀ n m, b n m = (c : ℂ) ^ n * a n m) (v : Vec 3) :
    meGrad3L p (c • v) b = (c⁻¹) ^ 2 • meGrad3L p v a := by
  funext i
  show (coefL p (iD (c • v) (unitV i)) b).re = (c⁻¹) ^ 2 * (coefL p (iD v (unitV i)) a).re
  rw [coefL_scale p (μ := ((c : ℂ)⁻¹) ^ 2) (a := a) (w := iD v (unitV i)) (fun n m => by rw [hab, iD_scale hc, ← pow_cancel hc n 2]; ring), re_inv]

theorem scale3Pot (hc : 0 < c) (p : ℕ) (hp : p ≤ 42) : ScaleLaws (lin3Pot p hp) (lin3Pot p hp) c c⁻¹ 0 where
  m2l := by
    intro a b u y _
    show (1 : ℝ) • leSum3L p (c • y - c • b) (m2lC p (uME3 (c • a) (c • u)) (c • a - c • b))
      = c⁻¹ • (1 : ℝ) • leSum3L p (y - b) (m2lC p (uME3 a u) (a - b)) + 0
    rw [one_smul, one_smul, add_zero, ← smul_sub, ← smul_sub, leSum3_scale hc p (m2l3_scale hc p (uME3_scale a u) (a - b))]
  p2l := by
    intro a u y _
    show (1 : ℝ) • leSum3L p (c • y - c • a) (uLE3 (c • a) (c • u)) = c⁻¹ • (1 : ℝ) • leSum3L p (y - a) (uLE3 a u) + 0
    rw [one_smul, one_smul, add_zero, ← smul_sub, leSum3_scale hc p (uLE3_scale hc a u)]
  m2p := by
    intro a u y _
    show (1 : ℝ) • meSum3L p (c • y - c • a) (uME3 (c • a) (c • u)) = c⁻¹ • (1 : ℝ) • meSum3L p (y - a) (uME3 a u) + 0
    rw [one_smul, one_smul, add_zero, ← smul_sub, meSum3_scale hc p (uME3_scale a u)]
  p2p := by
    intro u y hu
    show directTerm true (c • y) ⟨c • u, 1⟩ = c⁻¹ • directTerm true y ⟨u, 1⟩ + 0
    have hu' : c • u ≠ c • y := fun h => hu ((smul_inj hc).mp h)
    have h3 : ¬ (3 : ℕ) = 2 := by norm_num
    simp only [directTerm, kernelSpec, hu, hu', h3, if_false]
    rw [dist2_scale hc]
    simp [sgn]
    ring
  p2p_self := by
    intro u
    show directTerm true (c • u) ⟨c • u, 1⟩ = c⁻¹ • directTerm true u ⟨u, 1⟩
    unfold directTerm
    simp

theorem scale3Force (hc : 0 < c) (p : ℕ) (hp0 : 0 < p) (hp : p ≤ 42) {feps : ℝ} (hf : 0 ≤ feps) :
    ScaleLaws ((lin3Force p hp0 hp).smooth (O' := force3 feps) hf rfl rfl rfl rfl rfl)
      ((lin3Force p hp0 hp).smooth (O' := force3 (c ^ 3 * feps)) (by positivity) rfl rfl rfl rfl rfl) c ((c⁻¹) ^ 2) 0 where
  m2l := by
    intro a b u y _
    show (1 : ℝ) • leGrad3L p (c • y - c • b) (m2lC p (uME3 (c • a) (c • u)) (c • a - c • b))
      = (c⁻¹) ^ 2 • (1 : ℝ) • leGrad3L p (y - b) (m2lC p (uME3 a u) (a - b)) + 0
    rw [one_smul, one_smul, add_zero, ← smul_sub, ← smul_sub, leGrad3_scale hc p (m2l3_scale hc p (uME3_scale a u) (a - b))]
  p2l := by
    intro a u y _
    show (1 : ℝ) • leGrad3L p (c • y - c • a) (uLE3 (c • a) (c • u)) = (c⁻¹) ^ 2 • (1 : ℝ) • leGrad3L p (y - a) (uLE3 a u) + 0
    rw [one_smul, one_smul, add_zero, ← smul_sub, leGrad3_scale hc p (uLE3_scale hc a u)]
  m2p := by
    intro a u y _
    show (1 : ℝ) • meGrad3L p (c • y - c • a) (uME3 (c • a) (c • u)) = (c⁻¹) ^ 2 • (1 : ℝ) • meGrad3L p (y - a) (uME3 a u) + 0
    rw [one_smul, one_smul, add_zero, ← smul_sub, meGrad3_scale hc p (uME3_scale a u)]
  p2p := fun u y _ => by rw [add_zero]; exact directField_scale hc 3 (by simp) feps u y
  p2p_self := fun u => directField_scale hc 3 (by simp) feps u u

end Sc
end FMM
