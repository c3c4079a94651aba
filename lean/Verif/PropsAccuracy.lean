import Verif.ExactTwo
import Verif.Example2D
import Verif.PropsFmm2D
import Mathlib.Analysis.Complex.ExponentialBounds

/-!
# C41: the parameter `eps` is not a guaranteed accuracy
-/

namespace FMM
open Finset

/-- Half the side of the square spanned by the sources: with the padding the root box is `[-1, 1]²`. -/
noncomputable def k41 : ℝ := 100000 / 100001

/-- One source of strength 1 in the leaf `[0, 1/2) × [-1/2, 0)`, near its lower left corner. -/
noncomputable def u41 : Source 2 := ⟨![1 / 200, -(99 / 200)], 1⟩

/-- The source and four sources of strength zero that span the root box. -/
noncomputable def S41 : List (Source 2) :=
  [⟨![k41, k41], 0⟩, ⟨![-k41, k41], 0⟩, ⟨![k41, -k41], 0⟩, ⟨![-k41, -k41], 0⟩, u41]

/-- A point in the leaf `[-1, -1/2) × [-1/2, 0)`, near its upper right corner. -/
noncomputable def x41 : Vec 2 := ![-(101 / 200), -(1 / 200)]

noncomputable def box41 : Box 2 := ⟨fun _ => 0, 2⟩

theorem S41_box : rootBox (S41.map Source.pos) = some box41 := by
  have h := rootBox_eq (S41.map Source.pos) (fun _ => -k41) (fun _ => k41) (2 * k41) ?_ ?_ ?_ ?_
  · rw [h]
    unfold box41
    congr 2
    · funext i; simp
    · norm_num [k41, paddingFactor]
  · intro i
    constructor
    · exact ⟨![-k41, -k41], by simp [S41], by fin_cases i <;> rfl⟩
    · intro p hp
      simp [S41] at hp
      rcases hp with rfl | rfl | rfl | rfl | rfl <;> fin_cases i <;> norm_num [k41, u41]
  · intro i
    constructor
    · exact ⟨![k41, k41], by simp [S41], by fin_cases i <;> rfl⟩
    · intro p hp
      simp [S41] at hp
      rcases hp with rfl | rfl | rfl | rfl | rfl <;> fin_cases i <;> norm_num [k41, u41]
  · intro i; linarith
  · exact ⟨0, by ring⟩

theorem S41_inside : ∀ s ∈ S41, box41.containsHO s.pos := by
  intro s hs
  simp [S41] at hs
  rcases hs with rfl | rfl | rfl | rfl | rfl <;> intro i <;> rw [Box.lower_apply, Box.upper_apply] <;>
    fin_cases i <;> norm_num [box41, k41, u41]

theorem x41_inside : box41.containsHO x41 := by
  intro i; rw [Box.lower_apply, Box.upper_apply]
  fin_cases i <;> norm_num [box41, x41]

theorem S41_balanced : BalancedInput S41 1 box41 2 := ⟨S41_box, S41_inside, height5, by norm_num⟩

theorem S41_strength : totalStrength S41 = 1 := by
  rw [totalStrength_eq]; simp [S41, u41]

theorem S41_order : expansionOrder (totalStrength S41) (1 / 2 ^ 13) = .ok 13 := by
  rw [S41_strength]
  refine order_eq 1 _ 13 (by norm_num) (by norm_num) (by norm_num) ?_ (by norm_num)
  intro q hq
  interval_cases q <;> norm_num

/-! ## The leaves -/

theorem tb21 : Nat.testBit 2 1 = true := by decide
theorem tb11 : Nat.testBit 1 1 = false := by decide
theorem sh11 : 1 <<< 1 = 2 := rfl

theorem box41_child (i : ℕ) (b : Box 2) : b.child i = ⟨fun j => b.center j + b.len / 2 / 2 * childDir 2 i j, b.len / 2⟩ := rfl

theorem route_x41 : route box41 x41 2 = [1, 0] := by
  have h1 : route box41 x41 1 = [0] := by
    simp only [route, boxAt]
    norm_num [getOrthant, List.finRange, box41, x41]
  rw [route, h1]
  simp only [boxAt]
  norm_num [getOrthant, List.finRange, box41, x41, Box.child, childDir, tb21, tb11]

theorem route_u41 : route box41 u41.pos 2 = [1, 2] := by
  have h1 : route box41 u41.pos 1 = [2] := by
    simp only [route, boxAt]
    norm_num [getOrthant, List.finRange, box41, u41, sh11]
  rw [route, h1]
  simp only [boxAt]
  norm_num [getOrthant, List.finRange, box41, u41, Box.child, childDir, tb21, tb11]

theorem center_x41 : boxAt box41 [1, 0] = ⟨![-(3 / 4), -(1 / 4)], 1 / 2⟩ := by
  simp only [boxAt, Box.child, box41]
  congr 1
  · funext j; fin_cases j <;> norm_num [childDir, tb21, tb11]
  · norm_num

theorem center_u41 : boxAt box41 [1, 2] = ⟨![1 / 4, -(1 / 4)], 1 / 2⟩ := by
  simp only [boxAt, Box.child, box41]
  congr 1
  · funext j; fin_cases j <;> norm_num [childDir, tb21, tb11]
  · norm_num

theorem not_adj41 : ¬ (boxAt box41 [1, 0]).adjacent (boxAt box41 [1, 2]) := by
  rw [center_x41, center_u41]
  intro h
  have := h 0
  simp only [Box.lower_apply, Box.upper_apply, Pi.sub_apply, Vec.fill] at this
  norm_num at this

/-! ## The expansions -/

/-- Real and imaginary part of `(1 + i)^n`. -/
def gauss : ℕ → ℤ × ℤ
  | 0 => (1, 0)
  | n + 1 => ((gauss n).1 - (gauss n).2, (gauss n).1 + (gauss n).2)

theorem gauss_pow (a : ℝ) (n : ℕ) : ((⟨a, a⟩ : ℂ) ^ n) = ⟨a ^ n * (gauss n).1, a ^ n * (gauss n).2⟩ := by
  induction n with
  | zero => apply Complex.ext <;> simp [gauss]
  | succ n ih =>
    rw [pow_succ, ih]
    apply Complex.ext <;> simp [gauss] <;> ring

/-- The sum over the terms kept by the code, over the rationals. -/
def sum41 : ℚ := ∑ m ∈ m2lPairs 13 13, ((m.1 + m.2).choose m.1 : ℚ) / ((m.1 + m.2 : ℕ) : ℚ) * ((49 / 200) ^ (m.1 + m.2) * (gauss (m.1 + m.2)).1)

theorem sum41_lt : sum41 < 3461 / 10000 := by
  decide +kernel

theorem m2lVal41 : m2lVal 13 ![-(3 / 4), -(1 / 4)] ![1 / 4, -(1 / 4)] u41 x41 = -(sum41 : ℝ) := by
  unfold m2lVal
  have hz : toC ![1 / 4, -(1 / 4)] - toC ![-(3 / 4), -(1 / 4)] = 1 := by
    apply Complex.ext <;> norm_num [toC]
  rw [hz, m2l_leSum _ _ _ _ _ _ one_ne_zero]
  have hy : toC x41 - toC ![-(3 / 4), -(1 / 4)] = ⟨49 / 200, 49 / 200⟩ := by
    apply Complex.ext <;> norm_num [toC, x41]
  have hu : -(toC u41.pos - toC ![1 / 4, -(1 / 4)]) = ⟨49 / 200, 49 / 200⟩ := by
    apply Complex.ext <;> norm_num [toC, u41]
  rw [hy, hu, div_one]
  have hq : ((u41.q : ℝ) : ℂ) = 1 := by simp [u41]
  rw [hq, one_mul, Complex.sub_re, Complex.log_re, norm_neg, norm_one, Real.log_one, zero_sub, Complex.re_sum]
  unfold sum41
  push_cast
  congr 1
  refine sum_congr rfl fun m _ => ?_
  rw [← pow_add, gauss_pow]
  have e : (((m.1 + m.2).choose m.1 : ℂ) / ((m.1 : ℂ) + (m.2 : ℂ)))
      = ((((m.1 + m.2).choose m.1 : ℝ) / ((m.1 : ℝ) + (m.2 : ℝ)) : ℝ) : ℂ) := by push_cast; rfl
  rw [e, Complex.re_ofReal_mul]

theorem dist41 : dist2 u41.pos x41 = Real.sqrt (5002 / 10000) := by
  unfold dist2
  congr 1
  norm_num [Fin.sum_univ_two, u41, x41]

theorem log41 : Real.log (Real.sqrt (5002 / 10000)) < -(3463 / 10000) := by
  rw [Real.log_sqrt (by norm_num), show (5002 / 10000 : ℝ) = 2⁻¹ * (1 + 4 / 10000) by norm_num,
    Real.log_mul (by norm_num) (by norm_num), Real.log_inv]
  have h1 := Real.log_two_gt_d9
  have h2 := Real.log_le_sub_one_of_pos (show (0 : ℝ) < 1 + 4 / 10000 by norm_num)
  linarith

/-- **C41** is false: `eps` is not a guaranteed accuracy.  A balanced tree over five sources, built in a fresh program with
`eps = 2⁻¹³` and total source strength 1, returns a potential that is off by more than `3/2 eps`, whatever the schedule of
the parallel loops. -/
theorem C41_false : ∃ (S : List (Source 2)) (perCell : ℕ) (eps : ℝ) (r : Box 2) (x : Vec 2), 0 < eps ∧
    rootBox (S.map Source.pos) = some r ∧ r.containsHO x ∧ (∀ s ∈ S, r.containsHO s.pos) ∧
    ∃ (fuel0 : ℕ) (T : BalancedFmm kit2) (v : ℝ),
      (∀ fuel ≥ fuel0, ∀ sch, Schedule sch → balancedFmm kit2 fuel sch BinomialTable.init S perCell eps = .ok T) ∧
      balancedEval pot2 true T x = .ok v ∧ 3 / 2 * eps < |v - directPotential true S x| := by
  obtain ⟨f, T, h1, h2⟩ := balanced_two_exact (t := BinomialTable.init) (p := 13) ⟨reachable_init.good, by decide⟩ (by norm_num)
    (by norm_num) S41_balanced (by norm_num [box41]) S41_order
  refine ⟨S41, 1, 1 / 2 ^ 13, box41, x41, by norm_num, S41_box, x41_inside, S41_inside, f, T, _, h1, h2 x41 x41_inside, ?_⟩
  have hzero : ∀ s : Source 2, s.q = 0 → exactTerm 13 box41 x41 s = 0 := by
    intro s hs
    unfold exactTerm
    split
    · unfold directTerm kernelSpec
      rw [hs]; simp
    · unfold m2lVal
      have : meCoeff (toC (boxAt box41 (route box41 s.pos 2)).center) [s] = fun _ => 0 := by
        funext k; simp [meCoeff, hs]
      rw [this]
      simp [leSum, Exp2.m2lCoeff]
  have e1 : (S41.map (exactTerm 13 box41 x41)).sum = -(sum41 : ℝ) := by
    unfold S41
    simp only [List.map_cons, List.map_nil, List.sum_cons, List.sum_nil]
    rw [hzero _ rfl, hzero _ rfl, hzero _ rfl, hzero _ rfl]
    unfold exactTerm
    rw [route_x41, route_u41, if_neg not_adj41, center_x41, center_u41, m2lVal41]
    ring
  have e2 : directPotential true S41 x41 = Real.log (Real.sqrt (5002 / 10000)) := by
    have h0 : ∀ s : Source 2, s.q = 0 → directTerm true x41 s = 0 := by
      intro s hs
      unfold directTerm kernelSpec
      rw [hs]; simp
    unfold directPotential S41
    simp only [List.map_cons, List.map_nil, List.sum_cons, List.sum_nil]
    rw [h0 _ rfl, h0 _ rfl, h0 _ rfl, h0 _ rfl]
    unfold directTerm
    rw [if_neg, dist41]
    · simp [kernelSpec, sgn, u41]
    · intro h
      have := congrFun h 0
      norm_num [u41, x41] at this
  rw [e1, e2]
  have h3 := log41
  have h4 : (sum41 : ℝ) < 3461 / 10000 := by
    have := (Rat.cast_lt (K := ℝ)).mpr sum41_lt
    push_cast at this
    exact this
  refine lt_of_lt_of_le ?_ (le_abs_self _)
  have h5 : (3 / 2 * (1 / 2 ^ 13) : ℝ) < 2 / 10000 := by norm_num
  linarith

/-! ## What is guaranteed -/

/-- The order chosen for the parameter `par` guarantees the accuracy `eps` if `par * A ≤ eps²`, `A` the total strength. -/
theorem errPot_le {A par eps : ℝ} {p : ℕ} (hA : 0 ≤ A) (he : 0 ≤ eps) (hp : 2 ≤ p) (h1 : A ≤ 2 ^ p * par) (h2 : par * A ≤ eps ^ 2) :
    A * errPot p ≤ eps := by
  have h0 := rho2_pos
  have hlt := rho2_lt
  have hsq : rho2 ^ 2 = 1 / 2 := by
    unfold rho2; rw [div_pow, Real.sq_sqrt (by norm_num)]; norm_num
  have hk : (rho2 ^ p) ^ 2 * 2 ^ p = 1 := by
    rw [← pow_mul, mul_comm p 2, pow_mul, hsq, ← mul_pow]; norm_num
  have h3 : A * rho2 ^ p ≤ eps := by
    refine le_of_sq_le_sq ?_ he
    calc (A * rho2 ^ p) ^ 2 = A * A * (rho2 ^ p) ^ 2 := by ring
      _ ≤ 2 ^ p * par * A * (rho2 ^ p) ^ 2 := by gcongr
      _ = par * A * ((rho2 ^ p) ^ 2 * 2 ^ p) := by ring
      _ ≤ eps ^ 2 := by rw [hk, mul_one]; exact h2
  have hp' : (2 : ℝ) ≤ p := by exact_mod_cast hp
  have hden : 0 < ((p : ℝ) + 1) * (1 - rho2) := mul_pos (by linarith) (by linarith)
  rw [← potB2_eq]
  unfold potB2 tailBound
  rw [mul_div_assoc', div_le_iff₀ hden]
  have h4 : rho2 ≤ ((p : ℝ) + 1) * (1 - rho2) := by nlinarith
  have h5 : 0 ≤ A * rho2 ^ p := by positivity
  calc A * rho2 ^ (p + 1) = A * rho2 ^ p * rho2 := by ring
    _ ≤ eps * (((p : ℝ) + 1) * (1 - rho2)) := mul_le_mul h3 h4 h0.le he

theorem order_bounds {A par : ℝ} (hpar : 0 < par) (hlo : 2 * par < A) (hhi : A ≤ 2 ^ 1029 * par) :
    ∃ p, expansionOrder A par = .ok p ∧ 2 ≤ p ∧ p ≤ 1029 ∧ A ≤ 2 ^ p * par := by
  obtain ⟨p, h1, h2, h3⟩ := C24_order A par hpar (by linarith) (hhi.trans (by
    have : (2 : ℝ) ^ 1029 ≤ 2 ^ (2 ^ 32 - 1) := pow_le_pow_right₀ (by norm_num) (by norm_num)
    exact mul_le_mul_of_nonneg_right this hpar.le))
  refine ⟨p, h1, ?_, ?_, h2⟩
  · by_contra hlt
    have : (2 : ℝ) ^ p ≤ 2 ^ 1 := pow_le_pow_right₀ (by norm_num) (by omega)
    nlinarith
  · by_contra hlt
    have := h3 1029 (by omega)
    linarith

/-- **C41** What the caller has to pass, balanced tree in two dimensions: the accuracy `eps` is attained everywhere in the
root box when the constructor is given a parameter `par ≤ eps² / A`, `A` the sum of the absolute source strengths (and
`2 par < A ≤ 2^1029 par`, so that the order lies between 2 and the largest order the tables support). -/
theorem C41_squared_partial {t : BinomialTable} {S : List (Source 2)} {r : Box 2} {par eps : ℝ} (ht : Reachable t)
    {perCell h : ℕ} (hI : BalancedInput S perCell r h) (hpar : 0 < par) (he : 0 ≤ eps)
    (hlo : 2 * par < (S.map fun s => |s.q|).sum) (hhi : (S.map fun s => |s.q|).sum ≤ 2 ^ 1029 * par)
    (hsq : par * (S.map fun s => |s.q|).sum ≤ eps ^ 2) :
    ∃ (fuel0 : ℕ) (T : BalancedFmm kit2),
      (∀ fuel ≥ fuel0, ∀ sch, Schedule sch → balancedFmm kit2 fuel sch t S perCell par = .ok T) ∧
      ∀ x, r.containsHO x → ∀ grav, ∃ v, balancedEval pot2 grav T x = .ok v ∧ |v - directPotential grav S x| ≤ eps := by
  rw [← totalStrength_eq] at hlo hhi hsq
  obtain ⟨p, h1, h2, h3, h4⟩ := order_bounds hpar hlo hhi
  obtain ⟨f, T, a1, -, -, a2⟩ := C39_balanced ht hI h1 (by omega) h3
  refine ⟨f, T, a1, fun x hx grav => ?_⟩
  obtain ⟨v, v1, v2⟩ := a2 x hx grav
  rw [← totalStrength_eq] at v2
  exact ⟨v, v1, v2.trans (errPot_le (totalStrength_nonneg S) he h2 h4 hsq)⟩

/-- The same for the adaptive tree. -/
theorem C41_squared_adaptive_partial {t : BinomialTable} {S : List (Source 2)} {r : Box 2} {par eps : ℝ} (ht : Reachable t)
    {max : ℕ} (hI : AdaptiveInput S max r) (hpar : 0 < par) (he : 0 ≤ eps)
    (hlo : 2 * par < (S.map fun s => |s.q|).sum) (hhi : (S.map fun s => |s.q|).sum ≤ 2 ^ 1029 * par)
    (hsq : par * (S.map fun s => |s.q|).sum ≤ eps ^ 2) :
    ∃ (fuel0 : ℕ) (T : AdaptiveFmm kit2),
      (∀ fuel ≥ fuel0, ∀ sch, Schedule sch → adaptiveFmm kit2 fuel sch t S max par = .ok T) ∧
      ∀ x, r.contains x → ∀ grav cur, ∃ v, (∀ fuel ≥ fuel0, adaptiveEval pot2 fuel grav T cur x = .ok v) ∧
        |v - directPotential grav S x| ≤ eps := by
  rw [← totalStrength_eq] at hlo hhi hsq
  obtain ⟨p, h1, h2, h3, h4⟩ := order_bounds hpar hlo hhi
  obtain ⟨f, T, a1, -, a2, -⟩ := C40_adaptive ht hI h1 (by omega) h3
  refine ⟨f, T, a1, fun x hx grav cur => ?_⟩
  obtain ⟨v, v1, v2⟩ := a2 x hx grav cur
  rw [← totalStrength_eq] at v2
  exact ⟨v, v1, v2.trans (errPot_le (totalStrength_nonneg S) he h2 h4 hsq)⟩

/-- The hypotheses hold for the witness of `C41_false`: with `2⁻²⁶` instead of `2⁻¹³` the accuracy `2⁻¹³` is attained. -/
example : ∃ fuel T v, balancedFmm kit2 fuel (fun _ l => l.reverse) BinomialTable.init S41 1 (1 / 2 ^ 26) = .ok T ∧
    balancedEval pot2 true T x41 = .ok v ∧ |v - directPotential true S41 x41| ≤ 1 / 2 ^ 13 := by
  have hA : (S41.map fun s => |s.q|).sum = 1 := by rw [← totalStrength_eq]; exact S41_strength
  have hbig : (2 : ℝ) ^ 30 ≤ 2 ^ 1029 := pow_le_pow_right₀ (by norm_num) (by norm_num)
  generalize hk : (2 : ℝ) ^ 1029 = k at hbig
  obtain ⟨f, T, h1, h2⟩ := C41_squared_partial (par := 1 / 2 ^ 26) (eps := 1 / 2 ^ 13) reachable_init S41_balanced (by norm_num)
    (by norm_num) (by rw [hA]; norm_num) (by rw [hA, hk]; clear hk; norm_num at hbig ⊢; linarith) (by rw [hA]; norm_num)
  obtain ⟨v, v1, v2⟩ := h2 x41 x41_inside true
  exact ⟨f, T, v, h1 f le_rfl _ fun _ l => l.reverse_perm, v1, v2⟩

/-- The same for the five sources of the other examples, adaptive tree, accuracy 1. -/
example : ∃ fuel T v, adaptiveFmm kit2 fuel (fun _ l => l.reverse) BinomialTable.init S5 1 (1 / 5) = .ok T ∧
    adaptiveEval pot2 fuel true T [] ![1, 1] = .ok v ∧ |v - directPotential true S5 ![1, 1]| ≤ 1 := by
  have hA : (S5.map fun s => |s.q|).sum = 5 := by simp [S5]; norm_num
  have hbig : (2 : ℝ) ^ 30 ≤ 2 ^ 1029 := pow_le_pow_right₀ (by norm_num) (by norm_num)
  generalize hk : (2 : ℝ) ^ 1029 = k at hbig
  obtain ⟨f, T, h1, h2⟩ := C41_squared_adaptive_partial (par := 1 / 5) (eps := 1) reachable_init S5_adaptive (by norm_num)
    (by norm_num) (by rw [hA]; norm_num) (by rw [hA, hk]; clear hk; norm_num at hbig ⊢; linarith) (by rw [hA]; norm_num)
  obtain ⟨v, v1, v2⟩ := h2 ![1, 1] (S5_inside ⟨![1, 1], 1⟩ (by simp [S5])) true []
  exact ⟨f, T, v, h1 f le_rfl _ fun _ l => l.reverse_perm, v1 f le_rfl, v2⟩

end FMM
