import Verif.LowYlm3

/-!
# The floor of the three-dimensional operations

All lengths and their reciprocals are at least `θ`, strengths are zero or at least `τ`.  Majorants of single coefficients and
single harmonics are enlarged by the fraction `ν` of the norm of their degree, so that no product falls below the floor.
-/

namespace FMM
open Finset

/-- The floor is below all products which occur. -/
structure Scale3 (u η θ τ ν : ℝ) (p : ℕ) : Prop where
  th0 : 0 < θ
  th1 : θ ≤ 1
  tau0 : 0 < τ
  tau1 : τ ≤ 1
  nu0 : 0 ≤ ν
  nu : ν * ((p + 1) * Real.sqrt (4 * p + 1)) ≤ u
  u0 : 0 ≤ u
  u1 : u ≤ 1 / 16
  eta : 0 ≤ η
  floor : η * Real.sqrt ((2 * p).factorial) ≤ τ * ν ^ 3 * θ ^ (3 * p + 2)

/-- The least coefficient `A_n^m` of the degrees up to `p`. -/
noncomputable def aMin (p : ℕ) : ℝ := (Real.sqrt ((2 * p).factorial))⁻¹

theorem sqrt_fact_ge (n : ℕ) : 1 ≤ Real.sqrt (n.factorial) := by
  rw [Real.one_le_sqrt]; exact_mod_cast Nat.one_le_iff_ne_zero.mpr (Nat.factorial_ne_zero n)

theorem aMin_pos (p : ℕ) : 0 < aMin p := inv_pos.mpr (by linarith [sqrt_fact_ge (2 * p)])
theorem aMin_le (p : ℕ) : aMin p ≤ 1 := inv_le_one_of_one_le₀ (sqrt_fact_ge _)

theorem fact_mul_le {a b c : ℕ} (h : a + b ≤ c) : (a.factorial : ℝ) * b.factorial ≤ c.factorial := by
  have h1 := Nat.le_of_dvd (Nat.factorial_pos _) (Nat.factorial_mul_factorial_dvd_factorial_add a b)
  have h2 := Nat.factorial_le h
  exact_mod_cast h1.trans h2

theorem abs_aSpec (n : ℕ) (m : ℤ) :
    |aSpec n m| = (Real.sqrt (((n - m).toNat.factorial : ℝ) * ((n + m).toNat.factorial : ℝ)))⁻¹ := by
  unfold aSpec
  rw [abs_div, abs_pow, abs_neg, abs_one, one_pow, abs_of_nonneg (Real.sqrt_nonneg _), one_div]

theorem aSpec_le_one (n : ℕ) (m : ℤ) : |aSpec n m| ≤ 1 := by
  rw [abs_aSpec]
  refine inv_le_one_of_one_le₀ ?_
  rw [Real.one_le_sqrt]
  exact_mod_cast Nat.one_le_iff_ne_zero.mpr (Nat.mul_ne_zero (Nat.factorial_ne_zero _) (Nat.factorial_ne_zero _))

theorem aMin_le_mul {p n n' : ℕ} {m m' : ℤ} (hn : n + n' ≤ p) (hm : |m| ≤ n) (hm' : |m'| ≤ n') :
    aMin p ≤ |aSpec n m| * |aSpec n' m'| := by
  rw [abs_le] at hm hm'
  rw [abs_aSpec, abs_aSpec, ← mul_inv, ← Real.sqrt_mul (by positivity)]
  unfold aMin
  refine inv_anti₀ (Real.sqrt_pos.mpr (by positivity)) (Real.sqrt_le_sqrt ?_)
  have h1 := fact_mul_le (a := (n - m).toNat) (b := (n + m).toNat) (c := 2 * n) (by omega)
  have h2 := fact_mul_le (a := (n' - m').toNat) (b := (n' + m').toNat) (c := 2 * n') (by omega)
  have h3 := fact_mul_le (a := 2 * n) (b := 2 * n') (c := 2 * p) (by omega)
  exact (mul_le_mul h1 h2 (by positivity) (by positivity)).trans h3

theorem aMin_le_abs {p n : ℕ} {m : ℤ} (hn : n ≤ p) (hm : |m| ≤ n) : aMin p ≤ |aSpec n m| := by
  have h := aMin_le_mul (n' := 0) (m' := 0) (show n + 0 ≤ p by omega) hm (by simp)
  exact h.trans (mul_le_of_le_one_right (abs_nonneg _) (aSpec_le_one _ _))

/-- The coefficients decrease. -/
theorem aSpec_ratio {n j : ℕ} {m k : ℤ} (hm : |m| ≤ n) (hk : |k| ≤ j) : 1 ≤ |aSpec n m| * |aSpec (j + n) (m - k)|⁻¹ := by
  rw [abs_le] at hm hk
  rw [abs_aSpec, abs_aSpec, inv_inv, mul_comm, ← div_eq_mul_inv, one_le_div (Real.sqrt_pos.mpr (by positivity))]
  refine Real.sqrt_le_sqrt ?_
  have h1 := Nat.factorial_le (m := (n - m).toNat) (n := (((j + n : ℕ) : ℤ) - (m - k)).toNat) (by push_cast; omega)
  have h2 := Nat.factorial_le (m := (n + m).toNat) (n := (((j + n : ℕ) : ℤ) + (m - k)).toNat) (by push_cast; omega)
  have h1' : ((n - m).toNat.factorial : ℝ) ≤ ((((j + n : ℕ) : ℤ) - (m - k)).toNat.factorial : ℝ) := by exact_mod_cast h1
  have h2' : ((n + m).toNat.factorial : ℝ) ≤ ((((j + n : ℕ) : ℤ) + (m - k)).toNat.factorial : ℝ) := by exact_mod_cast h2
  exact mul_le_mul h1' h2' (by positivity) (by positivity)

namespace Scale3
variable {u η θ τ ν : ℝ} {p : ℕ} (hs : Scale3 u η θ τ ν p)
include hs

theorem floor' : η ≤ aMin p * (τ * ν ^ 3 * θ ^ (3 * p + 2)) := by
  have h := hs.floor
  have h1 := sqrt_fact_ge (2 * p)
  unfold aMin
  rw [inv_mul_eq_div, le_div_iff₀ (by linarith)]
  exact h

theorem nu_p : ν * (p + 1) ≤ u ∧ ν ≤ u := by
  have h := hs.nu
  have h0 := hs.nu0
  have h1 : 1 ≤ Real.sqrt (4 * p + 1) := by
    rw [Real.one_le_sqrt]
    have : (0 : ℝ) ≤ p := Nat.cast_nonneg p
    linarith
  have hp : (0 : ℝ) ≤ p := Nat.cast_nonneg p
  have h2 : (p + 1 : ℝ) ≤ (p + 1) * Real.sqrt (4 * p + 1) := le_mul_of_one_le_right (by linarith) h1
  have h3 : ν * (p + 1) ≤ u := (mul_le_mul_of_nonneg_left h2 h0).trans h
  exact ⟨h3, le_trans (le_mul_of_one_le_right h0 (by linarith)) h3⟩

theorem nu_le : ν ≤ u := hs.nu_p.2
theorem nu1 : ν ≤ 1 := hs.nu_le.trans (hs.u1.trans (by norm_num))

theorem nu_sqrt {l : ℕ} (hl : l ≤ 2 * p) : ν * Real.sqrt (2 * l + 1) ≤ u := by
  have h := hs.nu
  have h0 := hs.nu0
  have hp : (0 : ℝ) ≤ p := Nat.cast_nonneg p
  have h1 : Real.sqrt (2 * l + 1) ≤ Real.sqrt (4 * p + 1) := Real.sqrt_le_sqrt (by
    have : (l : ℝ) ≤ 2 * p := by exact_mod_cast hl
    linarith)
  have h2 : Real.sqrt (4 * p + 1) ≤ (p + 1) * Real.sqrt (4 * p + 1) := le_mul_of_one_le_left (Real.sqrt_nonneg _) (by linarith)
  exact (mul_le_mul_of_nonneg_left (h1.trans h2) h0).trans h

theorem thpow {k l : ℕ} (h : k ≤ l) : θ ^ l ≤ θ ^ k := pow_le_pow_of_le_one hs.th0.le hs.th1 h
theorem thpow1 (k : ℕ) : θ ^ k ≤ 1 := pow_le_one₀ hs.th0.le hs.th1

/-- The floor with fewer factors. -/
theorem fl {i k : ℕ} (hi : i ≤ 3) (hk : k ≤ 3 * p + 2) : η ≤ aMin p * (τ * ν ^ i * θ ^ k) := by
  refine hs.floor'.trans (mul_le_mul_of_nonneg_left ?_ (aMin_pos p).le)
  refine mul_le_mul (mul_le_mul_of_nonneg_left ?_ hs.tau0.le) (hs.thpow hk) (pow_nonneg hs.th0.le _) ?_
  · exact pow_le_pow_of_le_one hs.nu0 hs.nu1 hi
  · exact mul_nonneg hs.tau0.le (pow_nonneg hs.nu0 _)

theorem fl1 {i k : ℕ} (hi : i ≤ 3) (hk : k ≤ 3 * p + 2) : η ≤ τ * ν ^ i * θ ^ k :=
  (hs.fl hi hk).trans (mul_le_of_le_one_left
    (mul_nonneg (mul_nonneg hs.tau0.le (pow_nonneg hs.nu0 _)) (pow_nonneg hs.th0.le _)) (aMin_le p))

theorem fl2 {i k : ℕ} (hi : i ≤ 3) (hk : k ≤ 3 * p + 2) : η ≤ ν ^ i * θ ^ k := by
  refine (hs.fl1 hi hk).trans ?_
  rw [mul_assoc]
  exact mul_le_of_le_one_left (mul_nonneg (pow_nonneg hs.nu0 _) (pow_nonneg hs.th0.le _)) hs.tau1

theorem flth {k : ℕ} (hk : k ≤ 3 * p + 2) : η ≤ θ ^ k := by have := hs.fl2 (i := 0) (by omega) hk; rwa [pow_zero, one_mul] at this

theorem flA : η ≤ aMin p := by
  have h := hs.fl (i := 0) (k := 0) (by omega) (by omega)
  rw [pow_zero, pow_zero, mul_one, mul_one] at h
  exact h.trans (mul_le_of_le_one_right (aMin_pos p).le hs.tau1)

theorem powle {k : ℕ} {x : ℝ} (hx : θ ≤ x) (hk : k ≤ 3 * p + 2) : η ≤ x ^ k :=
  (hs.flth hk).trans (pow_le_pow_left₀ hs.th0.le hx k)

theorem le {x : ℝ} (hx : θ ≤ x) : η ≤ x := by have := hs.powle hx (k := 1) (by omega); rwa [pow_one] at this

theorem one : η ≤ 1 := hs.le hs.th1

/-- The floor against lengths. -/
theorem tiny : 4 * η ≤ u * θ := by
  have h1 := hs.fl2 (i := 3) (k := 2) le_rfl (by omega)
  have h2 : ν ^ 3 * θ ^ 2 ≤ u ^ 3 * θ := by
    refine mul_le_mul (pow_le_pow_left₀ hs.nu0 hs.nu_le 3) ?_ (by positivity) (pow_nonneg hs.u0 3)
    rw [sq]; exact mul_le_of_le_one_left hs.th0.le hs.th1
  have h3 : u ^ 3 ≤ u * (1 / 256) := by
    have := mul_le_mul_of_nonneg_left (mul_le_mul hs.u1 hs.u1 hs.u0 (by norm_num)) hs.u0
    rw [pow_succ, sq]
    linarith
  have h4 := mul_le_mul_of_nonneg_right h3 hs.th0.le
  have h5 := mul_nonneg hs.u0 hs.th0.le
  linarith

/-- The floor of one degree, summed in the Euclidean norm. -/
theorem vfl {j : ℕ} (hj : j ≤ p) : 2 * Real.sqrt (2 * j + 1) * η ≤ τ * θ ^ (p + 1) := by
  have h1 := hs.fl1 (i := 3) (k := p + 1) le_rfl (by omega)
  have h2 := hs.nu_sqrt (l := j) (by omega)
  have h3 : Real.sqrt (2 * j + 1) * η ≤ Real.sqrt (2 * j + 1) * (τ * ν ^ 3 * θ ^ (p + 1)) :=
    mul_le_mul_of_nonneg_left h1 (Real.sqrt_nonneg _)
  have e : Real.sqrt (2 * j + 1) * (τ * ν ^ 3 * θ ^ (p + 1)) = ν * Real.sqrt (2 * j + 1) * ν ^ 2 * (τ * θ ^ (p + 1)) := by ring
  have h4 : ν * Real.sqrt (2 * j + 1) * ν ^ 2 ≤ 1 / 2 * 1 := by
    refine mul_le_mul (h2.trans (hs.u1.trans (by norm_num))) (pow_le_one₀ hs.nu0 hs.nu1) (by positivity) (by norm_num)
  have h5 := mul_le_mul_of_nonneg_right h4 (show 0 ≤ τ * θ ^ (p + 1) from mul_nonneg hs.tau0.le (pow_nonneg hs.th0.le _))
  rw [e] at h3
  linarith

/-- The floor of all degrees, summed in the weighted norm. -/
theorem lfl {R : ℝ} (hR0 : 0 < R) (hR : R ≤ θ⁻¹) :
    ∑ j ∈ range (p + 1), R ^ j * (2 * Real.sqrt (2 * j + 1) * η) ≤ τ * θ ^ 2 := by
  have hθ := hs.th0
  have h1 := hs.fl1 (i := 3) (k := 2 + p) le_rfl (by omega)
  have h2 : ∀ j ∈ range (p + 1), R ^ j * (2 * Real.sqrt (2 * j + 1) * η) ≤ 2 * Real.sqrt (4 * p + 1) * (τ * ν ^ 3 * θ ^ 2) := by
    intro j hj
    rw [mem_range] at hj
    have a1 : R ^ j ≤ (θ ^ p)⁻¹ := by
      refine (pow_le_pow_left₀ hR0.le hR j).trans ?_
      rw [inv_pow]
      exact inv_anti₀ (by positivity) (hs.thpow (by omega))
    have a2 : Real.sqrt (2 * j + 1) ≤ Real.sqrt (4 * p + 1) := Real.sqrt_le_sqrt (by
      have : (j : ℝ) ≤ p := by exact_mod_cast (by omega : j ≤ p)
      have : (0 : ℝ) ≤ p := Nat.cast_nonneg p
      linarith)
    have a3 : R ^ j * η ≤ τ * ν ^ 3 * θ ^ 2 := by
      refine (mul_le_mul a1 h1 hs.eta (by positivity)).trans (le_of_eq ?_)
      rw [pow_add]
      field_simp
    have a4 := mul_le_mul a2 a3 (mul_nonneg (pow_nonneg hR0.le _) hs.eta) (Real.sqrt_nonneg _)
    linarith
  refine (sum_le_card_nsmul _ _ _ h2).trans ?_
  rw [card_range, nsmul_eq_mul]
  push_cast
  have e : ((p : ℝ) + 1) * (2 * Real.sqrt (4 * p + 1) * (τ * ν ^ 3 * θ ^ 2))
      = 2 * (ν * ((p + 1) * Real.sqrt (4 * p + 1))) * ν ^ 2 * (τ * θ ^ 2) := by ring
  rw [e]
  refine mul_le_of_le_one_left (mul_nonneg hs.tau0.le (by positivity)) ?_
  have h4 := hs.nu
  have h5 : ν ^ 2 ≤ 1 := pow_le_one₀ hs.nu0 hs.nu1
  have h6 := hs.u1
  calc 2 * (ν * ((p + 1) * Real.sqrt (4 * p + 1))) * ν ^ 2 ≤ 2 * u * 1 := by
        refine mul_le_mul (by linarith) h5 (by positivity) (by linarith [hs.u0])
    _ ≤ 1 := by linarith

end Scale3

theorem Flr.mulge {c d x y : ℝ} (h : Flr c x) (hd : d ≤ y) (hc : 0 ≤ c) (hd0 : 0 ≤ d) : Flr (c * d) (x * y) := by
  rcases h with rfl | h
  · exact Or.inl (zero_mul _)
  · exact Or.inr (mul_le_mul h hd hd0 (hc.trans h))

theorem Flr.gemul {c d x y : ℝ} (hd : d ≤ y) (h : Flr c x) (hc : 0 ≤ c) (hd0 : 0 ≤ d) : Flr (d * c) (y * x) := by
  rw [mul_comm d, mul_comm y]; exact h.mulge hd hc hd0

theorem Flr.fsum {η : ℝ} {ι : Type*} (s : Finset ι) (f : ι → ℝ) (h : ∀ i ∈ s, Flr η (f i)) (h0 : ∀ i ∈ s, 0 ≤ f i) :
    Flr η (∑ i ∈ s, f i) := by
  classical
  induction s using Finset.induction_on with
  | empty => exact Or.inl (by simp)
  | insert a s ha ih =>
    rw [sum_insert ha]
    exact (h a (by simp)).add (ih (fun i hi => h i (by simp [hi])) fun i hi => h0 i (by simp [hi])) (h0 a (by simp))
      (sum_nonneg fun i hi => h0 i (by simp [hi]))

end FMM
