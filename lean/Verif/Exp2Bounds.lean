import Verif.Exp2Lemmas
import Verif.SeriesBounds
import Verif.PropsFields
import Verif.Order

/-!
# Error bounds for the closed forms of the 2D expansions
-/

namespace FMM
open Finset

/-! ## Points and complex numbers -/

theorem toC_injective : Function.Injective toC := by
  intro a b h
  have h0 : a 0 = b 0 := congrArg Complex.re h
  have h1 : a 1 = b 1 := congrArg Complex.im h
  funext j; fin_cases j
  · exact h0
  · exact h1

theorem norm_toC_sub (a b : Vec 2) : ‖toC a - toC b‖ = dist2 a b := by
  unfold dist2 toC
  rw [Complex.norm_def, Complex.normSq_apply]
  simp [Fin.sum_univ_two, pow_two]

theorem directTerm_two {s : Source 2} {x : Vec 2} (h : s.pos ≠ x) :
    directTerm true x s = s.q * Real.log ‖toC x - toC s.pos‖ := by
  unfold directTerm kernelSpec sgn
  rw [if_neg h, norm_toC_sub, dist2_comm]; simp

theorem directPotential_cons {d : ℕ} (grav : Bool) (s : Source d) (S : List (Source d)) (x : Vec d) :
    directPotential grav (s :: S) x = directTerm grav x s + directPotential grav S x := by
  simp [directPotential]

theorem directField_cons {d : ℕ} (grav : Bool) (s : Source d) (S : List (Source d)) (x : Vec d) (eps : ℝ) :
    directField grav (s :: S) x eps = directFieldTerm grav x eps s + directField grav S x eps := by
  simp [directField]

theorem totalStrength_cons {d : ℕ} (s : Source d) (S : List (Source d)) :
    totalStrength (s :: S) = |s.q| + totalStrength S := by
  simp [totalStrength_eq]

theorem directFieldTerm_two {s : Source 2} {x : Vec 2} (h : s.pos ≠ x) :
    directFieldTerm true x 0 s = Exp2.fieldOf (s.q / (toC x - toC s.pos)) := by
  have hd : dist2 s.pos x ^ 2 = (s.pos 0 - x 0) ^ 2 + (s.pos 1 - x 1) ^ 2 := by
    unfold dist2
    rw [Real.sq_sqrt (Finset.sum_nonneg fun j _ => sq_nonneg _), Fin.sum_univ_two]
  have hpos : 0 < (s.pos 0 - x 0) ^ 2 + (s.pos 1 - x 1) ^ 2 := by
    rw [← hd]; exact pow_pos (dist2_pos h) 2
  have hn : Complex.normSq (toC x - toC s.pos) = (s.pos 0 - x 0) ^ 2 + (s.pos 1 - x 1) ^ 2 := by
    rw [Complex.normSq_apply]; simp [toC]; ring
  unfold directFieldTerm fieldSpec forceDenom sgn Exp2.fieldOf
  rw [if_neg h]
  funext j
  simp only [if_true, add_zero, hd, one_mul]
  fin_cases j
  · simp only [Fin.zero_eta, Matrix.cons_val_zero, Complex.div_re, hn, Complex.ofReal_re, Complex.ofReal_im]
    simp [toC]; ring
  · simp only [Fin.mk_one, Matrix.cons_val_one, Complex.div_im, hn, Complex.ofReal_re, Complex.ofReal_im]
    simp [toC]; ring

theorem fieldOf_add (f g : ℂ) : Exp2.fieldOf (f + g) = Exp2.fieldOf f + Exp2.fieldOf g := by
  unfold Exp2.fieldOf; funext j; fin_cases j
  · simp; ring
  · simp

theorem fieldOf_zero : Exp2.fieldOf 0 = 0 := by
  unfold Exp2.fieldOf; funext j; fin_cases j <;> simp

theorem dist2_fieldOf (f g : ℂ) : dist2 (Exp2.fieldOf f) (Exp2.fieldOf g) = ‖f - g‖ := by
  unfold dist2 Exp2.fieldOf
  rw [Complex.norm_def, Complex.normSq_apply, Fin.sum_univ_two]
  simp only [Matrix.cons_val_zero, Matrix.cons_val_one, Complex.sub_re, Complex.sub_im]
  congr 1; ring

/-! ## Field of a set of sources as a complex number -/

/-- `∑ q / (z - z_s)`: complex derivative of the potential. -/
noncomputable def cField (S : List (Source 2)) (z : ℂ) : ℂ :=
  (S.map fun s => (s.q : ℂ) / (z - toC s.pos)).sum

theorem cField_cons (s : Source 2) (S : List (Source 2)) (z : ℂ) :
    cField (s :: S) z = s.q / (z - toC s.pos) + cField S z := by simp [cField]

theorem directField_two (S : List (Source 2)) (x : Vec 2) (h : ∀ s ∈ S, s.pos ≠ x) :
    directField true S x 0 = Exp2.fieldOf (cField S (toC x)) := by
  induction S with
  | nil => simp [directField, cField, fieldOf_zero]
  | cons s S ih =>
    rw [directField_cons, cField_cons, fieldOf_add, ih fun t ht => h t (by simp [ht]),
      directFieldTerm_two (h s (by simp))]

/-! ## Multipole expansions -/

theorem log_norm_sub {z u : ℂ} (hz : z ≠ 0) (h : z - u ≠ 0) :
    Real.log ‖z - u‖ = (Complex.log z).re + (Complex.log (1 - u / z)).re := by
  rw [Complex.log_re, Complex.log_re, ← Real.log_mul (norm_ne_zero_iff.mpr hz), ← norm_mul]
  · congr 2; field_simp
  · rw [norm_ne_zero_iff]
    intro h2
    apply h
    have : u / z = 1 := by linear_combination -h2
    rw [div_eq_iff hz] at this
    rw [this]; ring

/-- Value of a multipole expansion with coefficients `a`. -/
noncomputable def meSum (a : ℕ → ℂ) (p : ℕ) (z : ℂ) : ℂ :=
  a 0 * Complex.log z + ∑ i ∈ range p, a (i + 1) * z⁻¹ ^ (i + 1)

noncomputable def meDeriv (a : ℕ → ℂ) (p : ℕ) (z : ℂ) : ℂ :=
  a 0 / z - ∑ i ∈ range p, ((i + 1 : ℕ) : ℂ) * a (i + 1) * z⁻¹ ^ (i + 2)

theorem meSum_add (a b : ℕ → ℂ) (p : ℕ) (z : ℂ) :
    meSum (fun k => a k + b k) p z = meSum a p z + meSum b p z := by
  unfold meSum; simp only [add_mul, sum_add_distrib]; ring

theorem meDeriv_add (a b : ℕ → ℂ) (p : ℕ) (z : ℂ) :
    meDeriv (fun k => a k + b k) p z = meDeriv a p z + meDeriv b p z := by
  unfold meDeriv; simp only [add_mul, mul_add, sum_add_distrib, add_div]; ring

theorem meCoeff_cons' (c : ℂ) (s : Source 2) (S : List (Source 2)) :
    meCoeff c (s :: S) = fun k => meCoeff c [s] k + meCoeff c S k := funext (meCoeff_cons c s S)

theorem leCoeff_cons' (c : ℂ) (s : Source 2) (S : List (Source 2)) :
    leCoeff c (s :: S) = fun k => leCoeff c [s] k + leCoeff c S k := funext (leCoeff_cons c s S)

theorem meCoeff_single (c : ℂ) (s : Source 2) (k : ℕ) :
    meCoeff c [s] k = if k = 0 then (s.q : ℂ) else -(s.q * (toC s.pos - c) ^ k) / k := by
  unfold meCoeff; simp

theorem leCoeff_single (c : ℂ) (s : Source 2) (k : ℕ) :
    leCoeff c [s] k = if k = 0 then (s.q : ℂ) * Complex.log (-(toC s.pos - c))
      else -(s.q * (toC s.pos - c)⁻¹ ^ k) / k := by
  unfold leCoeff; simp

theorem ratio_lt {u z : ℂ} {R r : ℝ} (hu : ‖u‖ ≤ R) (hRr : R < r) (hz : r ≤ ‖z‖) :
    ‖u / z‖ ≤ R / r ∧ R / r < 1 ∧ z ≠ 0 ∧ z - u ≠ 0 := by
  have hR : 0 ≤ R := (norm_nonneg u).trans hu
  have hr : 0 < r := lt_of_le_of_lt hR hRr
  have hz0 : 0 < ‖z‖ := hr.trans_le hz
  refine ⟨?_, (div_lt_one hr).mpr hRr, norm_pos_iff.mp hz0, fun h => ?_⟩
  · rw [norm_div]; gcongr
  · have : z = u := by linear_combination h
    rw [this] at hz; linarith

theorem me_single_bound (c z : ℂ) (p : ℕ) (s : Source 2) {R r : ℝ} (hu : ‖toC s.pos - c‖ ≤ R) (hRr : R < r)
    (hz : r ≤ ‖z - c‖) :
    |(meSum (meCoeff c [s]) p (z - c)).re - s.q * Real.log ‖z - toC s.pos‖|
      ≤ |s.q| * tailBound p (R / r) := by
  obtain ⟨h1, h2, hz0, hne⟩ := ratio_lt hu hRr hz
  set u := toC s.pos - c with hu'
  set y := z - c with hy
  have hzs : z - toC s.pos = y - u := by rw [hy, hu']; ring
  have hcut := log_series_cut p (lt_of_le_of_lt h1 h2)
  have hre := (Complex.abs_re_le_norm _).trans hcut
  have hB : tailBound p ‖u / y‖ ≤ tailBound p (R / r) := tailBound_mono p (norm_nonneg _) h1 h2
  rw [hzs, log_norm_sub hz0 hne]
  have e : meSum (meCoeff c [s]) p y = s.q * (Complex.log y - ∑ i ∈ range p, (u / y) ^ (i + 1) / (i + 1 : ℕ)) := by
    unfold meSum
    rw [meCoeff_single, if_pos rfl, mul_sub, sub_eq_add_neg (_ * Complex.log y), mul_sum, ← sum_neg_distrib]
    refine congr_arg₂ _ rfl (sum_congr rfl fun i _ => ?_)
    rw [meCoeff_single, if_neg (by omega), div_pow, inv_pow]
    ring
  rw [e, Complex.re_ofReal_mul, ← mul_sub, abs_mul]
  gcongr
  refine le_trans (le_of_eq ?_) (hre.trans hB)
  rw [Complex.sub_re, Complex.add_re, ← abs_neg]
  congr 1; ring

theorem me_bound (c z : ℂ) (p : ℕ) (S : List (Source 2)) {R r : ℝ} (hu : ∀ s ∈ S, ‖toC s.pos - c‖ ≤ R)
    (hRr : R < r) (hz : r ≤ ‖z - c‖) :
    |(meSum (meCoeff c S) p (z - c)).re - (S.map fun s => s.q * Real.log ‖z - toC s.pos‖).sum|
      ≤ totalStrength S * tailBound p (R / r) := by
  induction S with
  | nil => simp [meSum, meCoeff_nil, totalStrength_eq]
  | cons s S ih =>
    rw [meCoeff_cons', meSum_add, totalStrength_cons, Complex.add_re, List.map_cons, List.sum_cons, add_mul]
    have h1 := me_single_bound c z p s (hu s (by simp)) hRr hz
    have h2 := ih fun t ht => hu t (by simp [ht])
    calc _ = |((meSum (meCoeff c [s]) p (z - c)).re - s.q * Real.log ‖z - toC s.pos‖)
          + ((meSum (meCoeff c S) p (z - c)).re - (S.map fun s => s.q * Real.log ‖z - toC s.pos‖).sum)| := by
            congr 1; ring
      _ ≤ _ := (abs_add_le _ _).trans (add_le_add h1 h2)

/-- Error bound of the field of a multipole expansion. -/
theorem me_field_single_bound (c z : ℂ) (p : ℕ) (s : Source 2) {R r : ℝ} (hu : ‖toC s.pos - c‖ ≤ R)
    (hRr : R < r) (hz : r ≤ ‖z - c‖) :
    ‖meDeriv (meCoeff c [s]) p (z - c) - s.q / (z - toC s.pos)‖
      ≤ |s.q| * ((R / r) ^ (p + 1) / (r - R)) := by
  obtain ⟨h1, h2, hz0, hne⟩ := ratio_lt hu hRr hz
  set u := toC s.pos - c with hu'
  set y := z - c with hy
  have hzs : z - toC s.pos = y - u := by rw [hy, hu']; ring
  have hgs : ∑ i ∈ range (p + 1), (u / y) ^ i = (1 - (u / y) ^ (p + 1)) / (1 - u / y) := by
    rw [eq_div_iff, mul_comm]
    · exact mul_neg_geom_sum _ _
    · intro h; apply hne
      have : u / y = 1 := by linear_combination -h
      rw [div_eq_iff hz0] at this; rw [this]; ring
  have e : meDeriv (meCoeff c [s]) p y = s.q / y * ∑ i ∈ range (p + 1), (u / y) ^ i := by
    unfold meDeriv
    rw [meCoeff_single, if_pos rfl, sum_range_succ', pow_zero, mul_add, mul_one, mul_sum,
      sub_eq_add_neg, ← sum_neg_distrib, add_comm]
    refine congr_arg₂ _ (sum_congr rfl fun i _ => ?_) rfl
    have hi : ((i + 1 : ℕ) : ℂ) ≠ 0 := by exact_mod_cast Nat.succ_ne_zero i
    rw [meCoeff_single, if_neg (by omega), div_pow, inv_pow, pow_succ y (i + 1), ← hu']
    field_simp
  have hyu : (1 - u / y) = (y - u) / y := by field_simp
  have e2 : s.q / y * ∑ i ∈ range (p + 1), (u / y) ^ i - s.q / (y - u)
      = -(s.q * (u / y) ^ (p + 1) / (y - u)) := by
    rw [hgs, hyu]; field_simp; ring
  rw [hzs, e, e2, norm_neg, norm_div, norm_mul, norm_pow, Complex.norm_real, Real.norm_eq_abs, mul_div_assoc]
  have hlow : r - R ≤ ‖y - u‖ := by
    have := norm_sub_norm_le y u; linarith
  have : 0 < r - R := by linarith
  have h0 : 0 ≤ R / r := (norm_nonneg _).trans h1
  gcongr

theorem me_field_bound (c z : ℂ) (p : ℕ) (S : List (Source 2)) {R r : ℝ} (hu : ∀ s ∈ S, ‖toC s.pos - c‖ ≤ R)
    (hRr : R < r) (hz : r ≤ ‖z - c‖) :
    ‖meDeriv (meCoeff c S) p (z - c) - cField S z‖ ≤ totalStrength S * ((R / r) ^ (p + 1) / (r - R)) := by
  induction S with
  | nil => simp [meDeriv, meCoeff_nil, totalStrength_eq, cField]
  | cons s S ih =>
    rw [meCoeff_cons', meDeriv_add, totalStrength_cons, cField_cons, add_mul]
    have h1 := me_field_single_bound c z p s (hu s (by simp)) hRr hz
    have h2 := ih fun t ht => hu t (by simp [ht])
    calc _ = ‖(meDeriv (meCoeff c [s]) p (z - c) - s.q / (z - toC s.pos))
          + (meDeriv (meCoeff c S) p (z - c) - cField S z)‖ := by congr 1; ring
      _ ≤ _ := (norm_add_le _ _).trans (add_le_add h1 h2)

/-! ## Local expansions -/

/-- Value of a local expansion with coefficients `b`. -/
noncomputable def leSum (b : ℕ → ℂ) (p : ℕ) (z : ℂ) : ℂ := ∑ k ∈ range (p + 1), b k * z ^ k

noncomputable def leDeriv (b : ℕ → ℂ) (p : ℕ) (z : ℂ) : ℂ :=
  ∑ i ∈ range p, ((i + 1 : ℕ) : ℂ) * b (i + 1) * z ^ i

theorem leSum_add (a b : ℕ → ℂ) (p : ℕ) (z : ℂ) :
    leSum (fun k => a k + b k) p z = leSum a p z + leSum b p z := by
  unfold leSum; simp only [add_mul, sum_add_distrib]

theorem leDeriv_add (a b : ℕ → ℂ) (p : ℕ) (z : ℂ) :
    leDeriv (fun k => a k + b k) p z = leDeriv a p z + leDeriv b p z := by
  unfold leDeriv; simp only [add_mul, mul_add, sum_add_distrib]

theorem le_single_bound (c z : ℂ) (p : ℕ) (s : Source 2) {r D : ℝ} (hz : ‖z - c‖ ≤ r) (hrD : r < D)
    (hu : D ≤ ‖toC s.pos - c‖) :
    |(leSum (leCoeff c [s]) p (z - c)).re - s.q * Real.log ‖z - toC s.pos‖|
      ≤ |s.q| * tailBound p (r / D) := by
  obtain ⟨h1, h2, hu0, hne⟩ := ratio_lt hz hrD hu
  set u := toC s.pos - c with hu'
  set y := z - c with hy
  have hzs : ‖z - toC s.pos‖ = ‖u - y‖ := by rw [norm_sub_rev, hy, hu']; congr 1; ring
  have hcut := log_series_cut p (lt_of_le_of_lt h1 h2)
  have hre := (Complex.abs_re_le_norm _).trans hcut
  have hB : tailBound p ‖y / u‖ ≤ tailBound p (r / D) := tailBound_mono p (norm_nonneg _) h1 h2
  have hlog : Real.log ‖u - y‖ = (Complex.log (-u)).re + (Complex.log (1 - y / u)).re := by
    rw [log_norm_sub hu0 hne, Complex.log_re, Complex.log_re (-u), norm_neg]
  rw [hzs, hlog]
  have e : leSum (leCoeff c [s]) p y
      = s.q * (Complex.log (-u) - ∑ i ∈ range p, (y / u) ^ (i + 1) / (i + 1 : ℕ)) := by
    unfold leSum
    rw [sum_range_succ', leCoeff_single, if_pos rfl, mul_sub, sub_eq_add_neg (_ * Complex.log (-u)), mul_sum,
      ← sum_neg_distrib, pow_zero, mul_one, add_comm]
    refine congr_arg₂ _ rfl (sum_congr rfl fun i _ => ?_)
    rw [leCoeff_single, if_neg (by omega), div_pow, inv_pow]
    ring
  rw [e, Complex.re_ofReal_mul, ← mul_sub, abs_mul]
  gcongr
  refine le_trans (le_of_eq ?_) (hre.trans hB)
  rw [Complex.sub_re, Complex.add_re, ← abs_neg]
  congr 1; ring

theorem le_bound (c z : ℂ) (p : ℕ) (S : List (Source 2)) {r D : ℝ} (hz : ‖z - c‖ ≤ r) (hrD : r < D)
    (hu : ∀ s ∈ S, D ≤ ‖toC s.pos - c‖) :
    |(leSum (leCoeff c S) p (z - c)).re - (S.map fun s => s.q * Real.log ‖z - toC s.pos‖).sum|
      ≤ totalStrength S * tailBound p (r / D) := by
  induction S with
  | nil => simp [leSum, leCoeff_nil, totalStrength_eq]
  | cons s S ih =>
    rw [leCoeff_cons', leSum_add, totalStrength_cons, Complex.add_re, List.map_cons, List.sum_cons, add_mul]
    have h1 := le_single_bound c z p s hz hrD (hu s (by simp))
    have h2 := ih fun t ht => hu t (by simp [ht])
    calc _ = |((leSum (leCoeff c [s]) p (z - c)).re - s.q * Real.log ‖z - toC s.pos‖)
          + ((leSum (leCoeff c S) p (z - c)).re - (S.map fun s => s.q * Real.log ‖z - toC s.pos‖).sum)| := by
            congr 1; ring
      _ ≤ _ := (abs_add_le _ _).trans (add_le_add h1 h2)

theorem le_field_single_bound (c z : ℂ) (p : ℕ) (s : Source 2) {r D : ℝ} (hz : ‖z - c‖ ≤ r) (hrD : r < D)
    (hu : D ≤ ‖toC s.pos - c‖) :
    ‖leDeriv (leCoeff c [s]) p (z - c) - s.q / (z - toC s.pos)‖ ≤ |s.q| * ((r / D) ^ p / (D - r)) := by
  obtain ⟨h1, h2, hu0, hne⟩ := ratio_lt hz hrD hu
  set u := toC s.pos - c with hu'
  set y := z - c with hy
  have hzs : z - toC s.pos = y - u := by rw [hy, hu']; ring
  have hgs : ∑ i ∈ range p, (y / u) ^ i = (1 - (y / u) ^ p) / (1 - y / u) := by
    rw [eq_div_iff, mul_comm]
    · exact mul_neg_geom_sum _ _
    · intro h; apply hne
      have : y / u = 1 := by linear_combination -h
      rw [div_eq_iff hu0] at this; rw [this]; ring
  have e : leDeriv (leCoeff c [s]) p y = -(s.q / u * ∑ i ∈ range p, (y / u) ^ i) := by
    unfold leDeriv
    rw [mul_sum, ← sum_neg_distrib]
    refine sum_congr rfl fun i _ => ?_
    have hi : ((i + 1 : ℕ) : ℂ) ≠ 0 := by exact_mod_cast Nat.succ_ne_zero i
    rw [leCoeff_single, if_neg (by omega), div_pow, inv_pow, pow_succ u i]
    field_simp
  have hyu : (1 - y / u) = (u - y) / u := by field_simp
  have hne' : y - u ≠ 0 := by intro h; apply hne; linear_combination -h
  have e2 : -(s.q / u * ∑ i ∈ range p, (y / u) ^ i) - s.q / (y - u)
      = -(s.q * (y / u) ^ p / (y - u)) := by
    have : s.q / (y - u) = -(s.q / (u - y) : ℂ) := by
      rw [← neg_sub u y, div_neg]
    rw [hgs, hyu, this]
    have : s.q * (y / u) ^ p / (y - u) = -(s.q * (y / u) ^ p / (u - y) : ℂ) := by
      rw [← neg_sub u y, div_neg]
    rw [this]
    field_simp; ring
  rw [hzs, e, e2, norm_neg, norm_div, norm_mul, norm_pow, Complex.norm_real, Real.norm_eq_abs, mul_div_assoc]
  have hlow : D - r ≤ ‖y - u‖ := by
    have := norm_sub_norm_le u y; rw [norm_sub_rev y u]; linarith
  have : 0 < D - r := by linarith
  have h0 : 0 ≤ r / D := (norm_nonneg _).trans h1
  gcongr

theorem le_field_bound (c z : ℂ) (p : ℕ) (S : List (Source 2)) {r D : ℝ} (hz : ‖z - c‖ ≤ r) (hrD : r < D)
    (hu : ∀ s ∈ S, D ≤ ‖toC s.pos - c‖) :
    ‖leDeriv (leCoeff c S) p (z - c) - cField S z‖ ≤ totalStrength S * ((r / D) ^ p / (D - r)) := by
  induction S with
  | nil => simp [leDeriv, leCoeff_nil, totalStrength_eq, cField]
  | cons s S ih =>
    rw [leCoeff_cons', leDeriv_add, totalStrength_cons, cField_cons, add_mul]
    have h1 := le_field_single_bound c z p s hz hrD (hu s (by simp))
    have h2 := ih fun t ht => hu t (by simp [ht])
    calc _ = ‖(leDeriv (leCoeff c [s]) p (z - c) - s.q / (z - toC s.pos))
          + (leDeriv (leCoeff c S) p (z - c) - cField S z)‖ := by congr 1; ring
      _ ≤ _ := (norm_add_le _ _).trans (add_le_add h1 h2)

/-! ## Multipole-to-local -/

/-- Pairs (local degree, multipole degree) taken into account by the conversion. -/
def m2lPairs (M p : ℕ) : Finset (ℕ × ℕ) :=
  (range (p + 1) ×ˢ range (p + 1)).filter fun m =>
    m.1 = 0 ∨ m.2 = 0 ∨ (m.2 ≤ p - 1 ∧ m.1 + m.2 - 1 ≤ M)

theorem m2l_leSum (M p : ℕ) (c : ℂ) (s : Source 2) (z0 y : ℂ) (hz0 : z0 ≠ 0) :
    leSum (Exp2.m2lCoeff M p (meCoeff c [s]) z0) p y
      = s.q * (Complex.log (-z0) - ∑ m ∈ m2lPairs M p, ((m.1 + m.2).choose m.1 : ℂ) / ((m.1 + m.2 : ℕ) : ℂ)
        * ((y / z0) ^ m.1 * (-(toC s.pos - c) / z0) ^ m.2)) := by
  set u := toC s.pos - c with hu
  set T : ℕ → ℕ → ℂ := fun l k => ((l + k).choose l : ℂ) / ((l + k : ℕ) : ℂ)
        * ((y / z0) ^ l * (-u / z0) ^ k) with hT
  have hT00 : T 0 0 = 0 := by simp [hT]
  have hsum : ∑ m ∈ m2lPairs M p, ((m.1 + m.2).choose m.1 : ℂ) / ((m.1 + m.2 : ℕ) : ℂ)
        * ((y / z0) ^ m.1 * (-u / z0) ^ m.2)
      = ∑ i ∈ range p, T 0 (i + 1) + ∑ j ∈ range p, (T (j + 1) 0 +
        ∑ i ∈ range (p - 1), if j + 1 + i ≤ M then T (j + 1) (i + 1) else 0) := by
    unfold m2lPairs
    rw [sum_filter, sum_product, sum_range_succ', add_comm]
    refine congr_arg₂ (· + ·) ?_ (sum_congr rfl fun j hj => ?_)
    · rw [sum_range_succ']
      simp only [true_or, if_true]
      have : (((0 + 0).choose 0 : ℕ) : ℂ) / ((0 + 0 : ℕ) : ℂ) * ((y / z0) ^ 0 * (-u / z0) ^ 0) = 0 := by simp
      rw [this, add_zero]
    · rw [sum_range_succ', add_comm]
      refine congr_arg₂ (· + ·) (by simp [hT]) ?_
      rcases Nat.eq_zero_or_pos p with rfl | hp
      · simp at hj
      obtain ⟨q, rfl⟩ : ∃ q, p = q + 1 := ⟨p - 1, by omega⟩
      rw [sum_range_succ, if_neg (by omega), add_zero, Nat.add_sub_cancel]
      refine sum_congr rfl fun i hi => ?_
      have hi' := mem_range.mp hi
      by_cases hM : j + 1 + i ≤ M
      · rw [if_pos hM, if_pos (by right; right; constructor <;> omega)]
      · rw [if_neg hM, if_neg (by omega)]
  rw [hsum]
  unfold leSum
  rw [sum_range_succ', pow_zero, mul_one, mul_sub, mul_add]
  have hzp : ∀ k : ℕ, z0 ^ k ≠ 0 := fun k => pow_ne_zero k hz0
  have h0 : Exp2.m2lCoeff M p (meCoeff c [s]) z0 0
      = s.q * Complex.log (-z0) - s.q * ∑ i ∈ range p, T 0 (i + 1) := by
    unfold Exp2.m2lCoeff
    rw [if_pos rfl, meCoeff_single, if_pos rfl, sub_eq_add_neg, mul_sum, ← sum_neg_distrib]
    refine congr_arg₂ _ rfl (sum_congr rfl fun i _ => ?_)
    have hi : ((i + 1 : ℕ) : ℂ) ≠ 0 := by exact_mod_cast Nat.succ_ne_zero i
    rw [meCoeff_single, if_neg (by omega), ← hu]
    simp only [hT, zero_add, Nat.choose_zero_right, pow_zero, div_pow, neg_pow u, inv_pow]
    push_cast
    ring
  rw [h0]
  have h1 : ∑ j ∈ range p, Exp2.m2lCoeff M p (meCoeff c [s]) z0 (j + 1) * y ^ (j + 1)
      = -(s.q * ∑ j ∈ range p, (T (j + 1) 0 +
        ∑ i ∈ range (p - 1), if j + 1 + i ≤ M then T (j + 1) (i + 1) else 0)) := by
    rw [mul_sum, ← sum_neg_distrib]
    refine sum_congr rfl fun j _ => ?_
    have hj : ((j + 1 : ℕ) : ℂ) ≠ 0 := by exact_mod_cast Nat.succ_ne_zero j
    unfold Exp2.m2lCoeff
    rw [if_neg (by omega), meCoeff_single, if_pos rfl, add_mul, add_mul, mul_add, neg_add]
    refine congr_arg₂ _ ?_ ?_
    · simp only [hT, add_zero, Nat.choose_self, pow_zero, div_pow, inv_pow]
      push_cast; ring
    · rw [sum_mul, sum_mul, mul_sum, ← sum_neg_distrib]
      refine sum_congr rfl fun i _ => ?_
      have hi : ((i + 1 : ℕ) : ℂ) ≠ 0 := by exact_mod_cast Nat.succ_ne_zero i
      have hij : ((j + 1 + (i + 1) : ℕ) : ℂ) ≠ 0 := by exact_mod_cast (by omega : j + 1 + (i + 1) ≠ 0)
      rw [meCoeff_single, if_neg (by omega), ← hu]
      unfold binVal
      split_ifs with hM
      · have hch : ((j + 1 + i).choose i : ℂ) / ((i + 1 : ℕ) : ℂ)
            = ((j + 1 + (i + 1)).choose (j + 1) : ℂ) / ((j + 1 + (i + 1) : ℕ) : ℂ) := by
          rw [div_eq_div_iff hi hij]
          have := Nat.add_one_mul_choose_eq (j + 1 + i) i
          have h2 : (j + 1 + (i + 1)).choose (j + 1) = (j + 1 + i + 1).choose (i + 1) := by
            rw [show j + 1 + (i + 1) = j + 1 + i + 1 by ring]
            exact Nat.choose_symm_of_eq_add (by ring)
          rw [h2, show j + 1 + (i + 1) = j + 1 + i + 1 by ring]
          rw [mul_comm]
          exact_mod_cast this
        simp only [hT, ← hch, div_pow, inv_pow, neg_pow u]
        field_simp
      · simp
  rw [h1]; ring

theorem m2l_leDeriv (M p : ℕ) (c : ℂ) (s : Source 2) (z0 y : ℂ) (hz0 : z0 ≠ 0) :
    leDeriv (Exp2.m2lCoeff M p (meCoeff c [s]) z0) p y
      = -(s.q / z0) * ∑ m ∈ (range p ×ˢ range p).filter (fun m => m.2 = 0 ∨ m.1 + m.2 ≤ M),
        ((m.1 + m.2).choose m.1 : ℂ) * ((y / z0) ^ m.1 * (-(toC s.pos - c) / z0) ^ m.2) := by
  set u := toC s.pos - c with hu
  rw [sum_filter, sum_product, mul_sum]
  unfold leDeriv
  refine sum_congr rfl fun j hj => ?_
  have hp := mem_range.mp hj
  obtain ⟨q, rfl⟩ : ∃ q, p = q + 1 := ⟨p - 1, by omega⟩
  have hj1 : ((j + 1 : ℕ) : ℂ) ≠ 0 := by exact_mod_cast Nat.succ_ne_zero j
  rw [sum_range_succ', mul_add]
  unfold Exp2.m2lCoeff
  rw [if_neg (by omega), meCoeff_single, if_pos rfl, Nat.add_sub_cancel, add_mul, mul_add, add_mul,
    add_comm (-(s.q / z0) * _)]
  refine congr_arg₂ _ ?_ ?_
  · simp only [true_or, if_true, add_zero, Nat.choose_self, pow_zero, mul_one, div_pow, inv_pow, pow_succ z0 j]
    field_simp
    simp
  · rw [sum_mul, mul_sum, sum_mul, mul_sum]
    refine sum_congr rfl fun i _ => ?_
    have hi : ((i + 1 : ℕ) : ℂ) ≠ 0 := by exact_mod_cast Nat.succ_ne_zero i
    rw [meCoeff_single, if_neg (by omega), ← hu]
    unfold binVal
    by_cases hM : j + 1 + i ≤ M
    · rw [if_pos hM, if_pos (by right; omega)]
      have hch : ((j + 1 : ℕ) : ℂ) * ((j + 1 + i).choose i : ℂ) / ((i + 1 : ℕ) : ℂ)
          = ((j + (i + 1)).choose j : ℂ) := by
        rw [div_eq_iff hi]
        have h2 : (j + (i + 1)).choose j = (j + 1 + i).choose (i + 1) := by
          rw [show j + 1 + i = j + (i + 1) by ring]
          exact Nat.choose_symm_of_eq_add (by ring)
        have := Nat.choose_succ_right_eq (j + 1 + i) i
        rw [Nat.add_sub_cancel] at this
        rw [h2, mul_comm]
        exact_mod_cast this.symm
      simp only [← hch, div_pow, inv_pow, neg_pow u, pow_succ z0 j]
      field_simp
    · rw [if_neg hM, if_neg (by omega)]; simp

theorem m2l_ratio {u y z0 : ℂ} {R r D : ℝ} (hu : ‖u‖ ≤ R) (hy : ‖y‖ ≤ r) (hD : D ≤ ‖z0‖) (h : r + R < D) :
    z0 ≠ 0 ∧ ‖y / z0‖ + ‖-u / z0‖ ≤ (r + R) / D ∧ (r + R) / D < 1 ∧
      (1 - (y / z0 + -u / z0)) ≠ 0 ∧ y - z0 - u = -z0 * (1 - (y / z0 + -u / z0)) := by
  have hR : 0 ≤ R := (norm_nonneg u).trans hu
  have hr : 0 ≤ r := (norm_nonneg y).trans hy
  have hD0 : 0 < D := by linarith
  have hz : 0 < ‖z0‖ := hD0.trans_le hD
  have hz0 : z0 ≠ 0 := norm_pos_iff.mp hz
  have h1 : ‖y / z0‖ + ‖-u / z0‖ ≤ (r + R) / D := by
    rw [norm_div, norm_div, norm_neg, ← add_div]; gcongr
  have h2 : (r + R) / D < 1 := (div_lt_one hD0).mpr h
  refine ⟨hz0, h1, h2, fun h0 => ?_, by field_simp; ring⟩
  have h3 : y / z0 + -u / z0 = 1 := by linear_combination -h0
  have := norm_add_le (y / z0) (-u / z0)
  rw [h3, norm_one] at this
  linarith

theorem m2l_single_bound (M p : ℕ) (hM : p ≤ M) (c c' z : ℂ) (s : Source 2) {R r D : ℝ}
    (hu : ‖toC s.pos - c‖ ≤ R) (hy : ‖z - c'‖ ≤ r) (hD : D ≤ ‖c - c'‖) (h : r + R < D) :
    |(leSum (Exp2.m2lCoeff M p (meCoeff c [s]) (c - c')) p (z - c')).re - s.q * Real.log ‖z - toC s.pos‖|
      ≤ |s.q| * tailBound p ((r + R) / D) := by
  obtain ⟨hz0, h1, h2, h3, h4⟩ := m2l_ratio hu hy hD h
  rw [m2l_leSum M p c s _ _ hz0]
  set u := toC s.pos - c with hu'
  set y := z - c' with hy'
  set z0 := c - c' with hz0'
  have hzs : z - toC s.pos = -z0 * (1 - (y / z0 + -u / z0)) := by
    rw [← h4, hu', hy', hz0']; ring
  have hcut := log_series_two_cut p (y / z0) (-u / z0) (lt_of_le_of_lt h1 h2) (m2lPairs M p) (by
    intro l k hlk hlkp
    unfold m2lPairs
    simp only [mem_filter, mem_product, mem_range]
    omega)
  have hB := tailBound_mono p (by positivity) h1 h2
  have hre := (Complex.abs_re_le_norm _).trans (hcut.trans hB)
  rw [hzs, norm_mul, Real.log_mul (by simpa using hz0) (norm_ne_zero_iff.mpr h3), ← Complex.log_re,
    ← Complex.log_re, Complex.re_ofReal_mul, ← mul_sub, abs_mul]
  gcongr
  refine le_trans (le_of_eq ?_) hre
  rw [Complex.sub_re, Complex.add_re, ← abs_neg]
  congr 1; ring

theorem m2lCoeff_add (M p : ℕ) (a b : ℕ → ℂ) (z0 : ℂ) (l : ℕ) :
    Exp2.m2lCoeff M p (fun k => a k + b k) z0 l = Exp2.m2lCoeff M p a z0 l + Exp2.m2lCoeff M p b z0 l := by
  unfold Exp2.m2lCoeff
  split_ifs
  · simp only [mul_add, add_mul, sum_add_distrib]; ring
  · simp only [mul_add, add_mul, sum_add_distrib]; ring

theorem m2l_bound (M p : ℕ) (hM : p ≤ M) (c c' z : ℂ) (S : List (Source 2)) {R r D : ℝ}
    (hu : ∀ s ∈ S, ‖toC s.pos - c‖ ≤ R) (hy : ‖z - c'‖ ≤ r) (hD : D ≤ ‖c - c'‖) (h : r + R < D) :
    |(leSum (Exp2.m2lCoeff M p (meCoeff c S) (c - c')) p (z - c')).re
        - (S.map fun s => s.q * Real.log ‖z - toC s.pos‖).sum|
      ≤ totalStrength S * tailBound p ((r + R) / D) := by
  induction S with
  | nil =>
    have : meCoeff c [] = fun _ => 0 := funext fun k => meCoeff_nil c k
    rw [this]
    simp [leSum, Exp2.m2lCoeff, totalStrength_eq]
  | cons s S ih =>
    have e : Exp2.m2lCoeff M p (meCoeff c (s :: S)) (c - c') = fun k =>
        Exp2.m2lCoeff M p (meCoeff c [s]) (c - c') k + Exp2.m2lCoeff M p (meCoeff c S) (c - c') k := by
      funext k; rw [meCoeff_cons', m2lCoeff_add]
    rw [e, leSum_add, totalStrength_cons, Complex.add_re, List.map_cons, List.sum_cons, add_mul]
    have h1 := m2l_single_bound M p hM c c' z s (hu s (by simp)) hy hD h
    have h2 := ih fun t ht => hu t (by simp [ht])
    calc _ = |((leSum (Exp2.m2lCoeff M p (meCoeff c [s]) (c - c')) p (z - c')).re
            - s.q * Real.log ‖z - toC s.pos‖)
          + ((leSum (Exp2.m2lCoeff M p (meCoeff c S) (c - c')) p (z - c')).re
            - (S.map fun s => s.q * Real.log ‖z - toC s.pos‖).sum)| := by
            congr 1; ring
      _ ≤ _ := (abs_add_le _ _).trans (add_le_add h1 h2)

theorem m2l_field_single_bound (M p : ℕ) (hM : p ≤ M) (c c' z : ℂ) (s : Source 2) {R r D : ℝ}
    (hu : ‖toC s.pos - c‖ ≤ R) (hy : ‖z - c'‖ ≤ r) (hD : D ≤ ‖c - c'‖) (h : r + R < D) :
    ‖leDeriv (Exp2.m2lCoeff M p (meCoeff c [s]) (c - c')) p (z - c') - s.q / (z - toC s.pos)‖
      ≤ |s.q| * (((r + R) / D) ^ p / (D - (r + R))) := by
  obtain ⟨hz0, h1, h2, h3, h4⟩ := m2l_ratio hu hy hD h
  have hD0 : 0 < D := by
    have := (norm_nonneg _).trans hu
    have := (norm_nonneg _).trans hy
    linarith
  rw [m2l_leDeriv M p c s _ _ hz0]
  set u := toC s.pos - c with hu'
  set y := z - c' with hy'
  set z0 := c - c' with hz0'
  have hzs : z - toC s.pos = -z0 * (1 - (y / z0 + -u / z0)) := by
    rw [← h4, hu', hy', hz0']; ring
  have hcut := geom_series_two_cut p (y / z0) (-u / z0) (lt_of_le_of_lt h1 h2)
    ((range p ×ˢ range p).filter (fun m => m.2 = 0 ∨ m.1 + m.2 ≤ M)) (by
      intro l k hlk
      simp only [mem_filter, mem_product, mem_range]
      omega)
  set Sg := ∑ m ∈ (range p ×ˢ range p).filter (fun m => m.2 = 0 ∨ m.1 + m.2 ≤ M),
        ((m.1 + m.2).choose m.1 : ℂ) * ((y / z0) ^ m.1 * (-u / z0) ^ m.2)
  have e : -(s.q / z0) * Sg - s.q / (z - toC s.pos) = s.q / z0 * ((1 - (y / z0 + -u / z0))⁻¹ - Sg) := by
    rw [hzs, neg_mul z0, div_neg, ← div_div, div_eq_mul_inv (s.q / z0) (1 - _)]; ring
  rw [e, norm_mul, norm_div, Complex.norm_real, Real.norm_eq_abs]
  have h5 : 0 < 1 - (r + R) / D := by linarith
  have hρ : 0 ≤ (r + R) / D := le_trans (by positivity) h1
  calc |s.q| / ‖z0‖ * ‖(1 - (y / z0 + -u / z0))⁻¹ - Sg‖
      ≤ |s.q| / D * (((r + R) / D) ^ p / (1 - (r + R) / D)) := by
        refine mul_le_mul (by gcongr) (hcut.trans ?_) (norm_nonneg _) (by positivity)
        gcongr
    _ = |s.q| * (((r + R) / D) ^ p / (D - (r + R))) := by
        have : D - (r + R) = D * (1 - (r + R) / D) := by field_simp
        rw [this]; field_simp

theorem m2l_field_bound (M p : ℕ) (hM : p ≤ M) (c c' z : ℂ) (S : List (Source 2)) {R r D : ℝ}
    (hu : ∀ s ∈ S, ‖toC s.pos - c‖ ≤ R) (hy : ‖z - c'‖ ≤ r) (hD : D ≤ ‖c - c'‖) (h : r + R < D) :
    ‖leDeriv (Exp2.m2lCoeff M p (meCoeff c S) (c - c')) p (z - c') - cField S z‖
      ≤ totalStrength S * (((r + R) / D) ^ p / (D - (r + R))) := by
  induction S with
  | nil =>
    have : meCoeff c [] = fun _ => 0 := funext fun k => meCoeff_nil c k
    rw [this]
    simp [leDeriv, Exp2.m2lCoeff, totalStrength_eq, cField]
  | cons s S ih =>
    have e : Exp2.m2lCoeff M p (meCoeff c (s :: S)) (c - c') = fun k =>
        Exp2.m2lCoeff M p (meCoeff c [s]) (c - c') k + Exp2.m2lCoeff M p (meCoeff c S) (c - c') k := by
      funext k; rw [meCoeff_cons', m2lCoeff_add]
    rw [e, leDeriv_add, totalStrength_cons, cField_cons, add_mul]
    have h1 := m2l_field_single_bound M p hM c c' z s (hu s (by simp)) hy hD h
    have h2 := ih fun t ht => hu t (by simp [ht])
    calc _ = ‖(leDeriv (Exp2.m2lCoeff M p (meCoeff c [s]) (c - c')) p (z - c') - s.q / (z - toC s.pos))
          + (leDeriv (Exp2.m2lCoeff M p (meCoeff c S) (c - c')) p (z - c') - cField S z)‖ := by
            congr 1; ring
      _ ≤ _ := (norm_add_le _ _).trans (add_le_add h1 h2)

end FMM
