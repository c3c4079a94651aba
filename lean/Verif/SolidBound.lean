import Verif.SolidPair
import Mathlib.RingTheory.RootsOfUnity.Complex
import Mathlib.Algebra.Ring.GeomSum
import Mathlib.Data.Nat.Choose.Central
import Mathlib.RingTheory.PowerSeries.Derivative
import Mathlib.Analysis.SpecificLimits.Normed
import Mathlib.Analysis.Complex.Norm

/-!
# Bounds and generating function of the pairing of solid harmonics
-/

namespace FMM
open Finset

/-- Euclidean length. -/
noncomputable def len3 (v : Vec 3) : ℝ := Real.sqrt (dot3 v v)

theorem dot3_self_nonneg (v : Vec 3) : 0 ≤ dot3 v v := by
  unfold dot3; nlinarith [sq_nonneg (v 0), sq_nonneg (v 1), sq_nonneg (v 2)]

theorem len3_nonneg (v : Vec 3) : 0 ≤ len3 v := Real.sqrt_nonneg _

theorem len3_sq (v : Vec 3) : len3 v ^ 2 = dot3 v v := Real.sq_sqrt (dot3_self_nonneg v)

theorem dot3_self_eq_zero {v : Vec 3} (h : dot3 v v = 0) : v = 0 := by
  unfold dot3 at h
  have h0 : v 0 = 0 := by nlinarith [sq_nonneg (v 0), sq_nonneg (v 1), sq_nonneg (v 2)]
  have h1 : v 1 = 0 := by nlinarith [sq_nonneg (v 0), sq_nonneg (v 1), sq_nonneg (v 2)]
  have h2 : v 2 = 0 := by nlinarith [sq_nonneg (v 0), sq_nonneg (v 1), sq_nonneg (v 2)]
  funext i; fin_cases i
  · exact h0
  · exact h1
  · exact h2

/-! ## Rotation to the `z` axis -/

/-- A vector along the `z` axis. -/
def zAxis (c : ℝ) : Vec 3 := ![0, 0, c]

theorem exists_rotation (h : Vec 3) : ∃ ρ : Vec 3 → Vec 3, (∀ u v, dot3 (ρ u) (ρ v) = dot3 u v) ∧ ρ h = zAxis (len3 h) := by
  by_cases hz : h = zAxis (len3 h)
  · exact ⟨id, fun _ _ => rfl, hz⟩
  set n : Vec 3 := h - zAxis (len3 h) with hn
  have hnn : dot3 n n ≠ 0 := by
    intro h0
    exact hz (sub_eq_zero.mp (dot3_self_eq_zero h0))
  have hc : len3 h ^ 2 = dot3 h h := len3_sq h
  refine ⟨fun v => v - (2 * dot3 v n / dot3 n n) • n, ?_, ?_⟩
  · intro u v
    have e : ∀ (a b : ℝ), dot3 (u - a • n) (v - b • n) = dot3 u v - b * dot3 u n - a * dot3 v n + a * b * dot3 n n := by
      intro a b; simp [dot3]; ring
    rw [e]; field_simp; ring
  · have h1 : 2 * dot3 h n = dot3 n n := by
      rw [hn]
      simp only [dot3, Pi.sub_apply, zAxis] at hc ⊢
      simp only [Matrix.cons_val_zero, Matrix.cons_val_one, Matrix.cons_val]
      linear_combination -hc
    show h - (2 * dot3 h n / dot3 n n) • n = _
    rw [h1, div_self hnn, one_smul, hn]; simp

theorem sR_zAxis (c : ℝ) : ∀ (n : ℕ) (m : ℤ), sR (zAxis c) n m = if m = 0 then (c : ℂ) ^ n / (n.factorial : ℂ) else 0
  | 0, m => by simp [sR_zero]
  | n + 1, m => by
    have h1 : wv (zAxis c) = 0 := by apply Complex.ext <;> simp [wv, zAxis]
    have h2 : wc (zAxis c) = 0 := by apply Complex.ext <;> simp [wc, zAxis]
    have h3 : zAxis c 2 = c := rfl
    rw [sR, h1, h2, h3, sR_zAxis c n m]
    by_cases hm : m = 0
    · rw [if_pos hm, if_pos hm, Nat.factorial_succ]
      have : ((n : ℂ) + 1) ≠ 0 := by exact_mod_cast Nat.succ_ne_zero n
      have : (n.factorial : ℂ) ≠ 0 := by exact_mod_cast n.factorial_ne_zero
      push_cast
      field_simp
      ring
    · rw [if_neg hm, if_neg hm]; simp

/-! ## Averages over the circle -/

/-- `w τ/2 + z - w̄/(2τ)`. -/
noncomputable def sL (v : Vec 3) (τ : ℂ) : ℂ := wv v / 2 * τ + (v 2 : ℂ) - wc v / 2 * τ⁻¹

theorem sR_eval (v : Vec 3) {τ : ℂ} (hτ : τ ≠ 0) : ∀ (n N : ℕ), n ≤ N →
    ∑ m ∈ Icc (-(N : ℤ)) N, sR v n m * τ ^ m = sL v τ ^ n / (n.factorial : ℂ)
  | 0, N, _ => by
    rw [sum_eq_single 0]
    · simp [sR_zero]
    · intro b _ hb; simp [sR_zero, hb]
    · intro h; exact absurd (mem_Icc.mpr ⟨by omega, by omega⟩) h
  | n + 1, N, hN => by
    have ih := sR_eval v hτ n N (by omega)
    have hn : ((n : ℂ) + 1) ≠ 0 := by exact_mod_cast Nat.succ_ne_zero n
    have hf : (n.factorial : ℂ) ≠ 0 := by exact_mod_cast n.factorial_ne_zero
    have o : ∀ k : ℤ, (N : ℤ) < |k| + 1 → sR v n k = 0 := fun k hk => sR_out v n k (by omega)
    have s1 := sum_shift (f := fun m => sR v n m * τ ^ (m + 1)) (N := N) (-1)
      (fun k hk => by rw [o k (by omega), zero_mul])
      (fun k hk => by rw [o (k + -1) (by have := abs_cases k; have := abs_cases (k + -1); omega), zero_mul])
    have s2 := sum_shift (f := fun m => sR v n m * τ ^ (m - 1)) (N := N) 1
      (fun k hk => by rw [o k (by omega), zero_mul])
      (fun k hk => by rw [o (k + 1) (by have := abs_cases k; have := abs_cases (k + 1); omega), zero_mul])
    have e1 : ∑ m ∈ Icc (-(N : ℤ)) N, sR v n (m + -1) * τ ^ (m + -1 + 1) = τ * (sL v τ ^ n / (n.factorial : ℂ)) := by
      rw [s1, ← ih, mul_sum]
      exact sum_congr rfl fun m _ => by rw [zpow_add_one₀ hτ]; ring
    have e2 : ∑ m ∈ Icc (-(N : ℤ)) N, sR v n (m + 1) * τ ^ (m + 1 - 1) = τ⁻¹ * (sL v τ ^ n / (n.factorial : ℂ)) := by
      rw [s2, ← ih, mul_sum]
      exact sum_congr rfl fun m _ => by rw [zpow_sub_one₀ hτ]; ring
    refine mul_left_cancel₀ hn ?_
    calc ((n : ℂ) + 1) * ∑ m ∈ Icc (-(N : ℤ)) N, sR v (n + 1) m * τ ^ m
        = wv v / 2 * ∑ m ∈ Icc (-(N : ℤ)) N, sR v n (m + -1) * τ ^ (m + -1 + 1)
          + (v 2 : ℂ) * ∑ m ∈ Icc (-(N : ℤ)) N, sR v n m * τ ^ m
          - wc v / 2 * ∑ m ∈ Icc (-(N : ℤ)) N, sR v n (m + 1) * τ ^ (m + 1 - 1) := by
          rw [mul_sum, mul_sum, mul_sum, mul_sum, ← sum_add_distrib, ← sum_sub_distrib]
          refine sum_congr rfl fun m _ => ?_
          rw [neg_add_cancel_right, add_sub_cancel_right, show m + -1 = m - 1 by ring]
          linear_combination τ ^ m * sR_succ v n m
      _ = _ := by
          rw [e1, e2, ih, Nat.factorial_succ, pow_succ]
          generalize hE : sL v τ ^ n = E
          unfold sL
          push_cast
          field_simp

theorem sL_norm_le (v : Vec 3) {τ : ℂ} (hτ : ‖τ‖ = 1) : ‖sL v τ‖ ≤ len3 v := by
  have hinv : τ⁻¹ = (starRingEnd ℂ) τ := by
    rw [Complex.inv_def, Complex.normSq_eq_norm_sq, hτ]; simp
  have hsq : τ.re ^ 2 + τ.im ^ 2 = 1 := by
    have := Complex.normSq_eq_norm_sq τ
    rw [hτ, Complex.normSq_apply] at this
    nlinarith
  refine le_of_sq_le_sq ?_ (len3_nonneg v)
  rw [len3_sq, ← Complex.normSq_eq_norm_sq]
  have hre : (sL v τ).re = v 2 := by
    unfold sL; rw [hinv]; simp [wv, wc]; ring
  have him : (sL v τ).im = v 0 * τ.im + v 1 * τ.re := by
    unfold sL; rw [hinv]; simp [wv, wc]; ring
  rw [Complex.normSq_apply, hre, him]
  unfold dot3
  nlinarith [sq_nonneg (v 0 * τ.re - v 1 * τ.im)]

/-- Orthogonality of the powers of a primitive root of unity. -/
theorem root_sum {M : ℕ} {ω : ℂ} (hω : IsPrimitiveRoot ω M) (l : ℤ) (hl : |l| < M) :
    ∑ t ∈ range M, (ω ^ t) ^ l = if l = 0 then (M : ℂ) else 0 := by
  by_cases h0 : l = 0
  · subst h0; simp
  rw [if_neg h0]
  have h1 : ω ^ l ≠ 1 := by
    intro h
    rw [hω.zpow_eq_one_iff_dvd] at h
    exact h0 (Int.eq_zero_of_abs_lt_dvd h hl)
  have h2 : ∀ t ∈ range M, (ω ^ t) ^ l = (ω ^ l) ^ t := fun t _ => by
    rw [← zpow_natCast, ← zpow_mul, ← zpow_natCast, ← zpow_mul, mul_comm]
  rw [sum_congr rfl h2, geom_sum_eq h1, ← zpow_natCast, ← zpow_mul, mul_comm, zpow_mul, zpow_natCast, hω.pow_eq_one,
    one_zpow, sub_self, zero_div]

/-- The contraction of two harmonics is bounded by the product of the lengths. -/
theorem contract_bound (u v : Vec 3) (j n N : ℕ) (hN : j + n ≤ N) :
    ‖∑ k ∈ Icc (-(N : ℤ)) N, sR u j k * sR v n (-k)‖
      ≤ len3 u ^ j * len3 v ^ n / ((j.factorial : ℝ) * (n.factorial : ℝ)) := by
  set M := 2 * N + 1 with hM
  have hM0 : M ≠ 0 := by omega
  set ω : ℂ := Complex.exp (2 * Real.pi * Complex.I / M) with hω'
  have hω : IsPrimitiveRoot ω M := Complex.isPrimitiveRoot_exp M hM0
  have hω1 : ‖ω‖ = 1 := hω.norm'_eq_one hM0
  have hωt : ∀ t : ℕ, ‖ω ^ t‖ = 1 := fun t => by rw [norm_pow, hω1, one_pow]
  have hne : ∀ t : ℕ, ω ^ t ≠ 0 := fun t h => by have := hωt t; rw [h, norm_zero] at this; exact zero_ne_one this
  have key : (M : ℂ) * ∑ k ∈ Icc (-(N : ℤ)) N, sR u j k * sR v n (-k)
      = ∑ t ∈ range M, (sL u (ω ^ t) ^ j / (j.factorial : ℂ)) * (sL v (ω ^ t) ^ n / (n.factorial : ℂ)) := by
    have h1 : ∀ t ∈ range M, (sL u (ω ^ t) ^ j / (j.factorial : ℂ)) * (sL v (ω ^ t) ^ n / (n.factorial : ℂ))
        = ∑ k ∈ Icc (-(N : ℤ)) N, ∑ k' ∈ Icc (-(N : ℤ)) N, sR u j k * sR v n k' * (ω ^ t) ^ (k + k') := by
      intro t _
      rw [← sR_eval u (hne t) j N (by omega), ← sR_eval v (hne t) n N (by omega), sum_mul_sum]
      refine sum_congr rfl fun k _ => sum_congr rfl fun k' _ => ?_
      rw [zpow_add₀ (hne t)]; ring
    rw [sum_congr rfl h1, sum_comm, mul_sum]
    refine sum_congr rfl fun k hk => ?_
    rw [sum_comm]
    rw [mem_Icc] at hk
    rw [sum_eq_single (-k)]
    · rw [← mul_sum, add_neg_cancel, root_sum hω 0 (by simp; omega), if_pos rfl]; ring
    · intro k' hk' hne'
      rw [mem_Icc] at hk'
      rw [← mul_sum, root_sum hω (k + k') (by rw [abs_lt]; constructor <;> omega), if_neg (by omega), mul_zero]
    · intro h; exact absurd (mem_Icc.mpr ⟨by omega, by omega⟩) h
  have hb : ‖(M : ℂ) * ∑ k ∈ Icc (-(N : ℤ)) N, sR u j k * sR v n (-k)‖
      ≤ M * (len3 u ^ j * len3 v ^ n / ((j.factorial : ℝ) * (n.factorial : ℝ))) := by
    rw [key]
    refine (norm_sum_le _ _).trans ?_
    calc _ ≤ ∑ _t ∈ range M, len3 u ^ j * len3 v ^ n / ((j.factorial : ℝ) * (n.factorial : ℝ)) := by
          refine sum_le_sum fun t _ => ?_
          rw [norm_mul, norm_div, norm_div, norm_pow, norm_pow, Complex.norm_natCast, Complex.norm_natCast, div_mul_div_comm]
          have h1 := sL_norm_le u (hωt t)
          have h2 := sL_norm_le v (hωt t)
          have := len3_nonneg u
          gcongr
      _ = _ := by rw [sum_const, card_range, nsmul_eq_mul]
  rw [norm_mul, Complex.norm_natCast] at hb
  have : (0 : ℝ) < M := by exact_mod_cast Nat.pos_of_ne_zero hM0
  exact le_of_mul_le_mul_left hb this

theorem fF_zero (n : ℕ) : fF n 0 = (n.factorial : ℂ) ^ 2 := by
  unfold fF; simp [pow_two]

theorem sT_zAxis (N j : ℕ) (u v : Vec 3) (c : ℝ) : sT N j u v (zAxis c)
    = (N.factorial : ℂ) * (c : ℂ) ^ N * ∑ k ∈ Icc (-(N : ℤ)) N, sR u j k * sR v (N - j) (-k) := by
  have hf : (N.factorial : ℂ) ≠ 0 := by exact_mod_cast N.factorial_ne_zero
  unfold sT
  rw [sum_eq_single 0]
  · rw [sR_zAxis, neg_zero, if_pos rfl, fF_zero]
    simp only [zero_sub, zpow_zero]
    field_simp
  · intro b _ hb
    rw [sR_zAxis, if_neg (by omega), mul_zero]
  · intro h; exact absurd (mem_Icc.mpr ⟨by omega, by omega⟩) h

/-- Bound of the bihomogeneous components. -/
theorem sT_bound (N j : ℕ) (hj : j ≤ N) (u v h : Vec 3) :
    ‖sT N j u v h‖ ≤ (N.choose j : ℝ) * len3 u ^ j * len3 v ^ (N - j) * len3 h ^ N := by
  obtain ⟨ρ, hρ, hh⟩ := exists_rotation h
  have hlen : ∀ w, len3 (ρ w) = len3 w := fun w => by unfold len3; rw [hρ]
  rw [sT_gram (u' := ρ u) (v' := ρ v) (h' := ρ h) (hρ u u).symm (hρ v v).symm (hρ h h).symm (hρ u v).symm
    (hρ u h).symm (hρ v h).symm N j hj, hh, sT_zAxis, norm_mul, norm_mul, norm_pow, Complex.norm_natCast,
    Complex.norm_real, Real.norm_eq_abs, abs_of_nonneg (len3_nonneg h)]
  have hb := contract_bound (ρ u) (ρ v) j (N - j) N (by omega)
  rw [hlen, hlen] at hb
  have h1 : (N.choose j : ℝ) = N.factorial / (j.factorial * (N - j).factorial) := by
    rw [eq_div_iff (by positivity)]
    have := Nat.choose_mul_factorial_mul_factorial hj
    rw [← mul_assoc]
    exact_mod_cast this
  have := len3_nonneg h
  calc _ ≤ (N.factorial : ℝ) * len3 h ^ N * (len3 u ^ j * len3 v ^ (N - j) / ((j.factorial : ℝ) * ((N - j).factorial : ℝ))) := by
        gcongr
    _ = _ := by rw [h1]; ring

/-! ## Generating function -/

/-- `C(2k, k) / 4^k`. -/
noncomputable def cb (k : ℕ) : ℂ := (Nat.centralBinom k : ℂ) / 4 ^ k

theorem cb_zero : cb 0 = 1 := by simp [cb]

theorem cb_succ (k : ℕ) : 2 * ((k : ℂ) + 1) * cb (k + 1) = (2 * k + 1) * cb k := by
  have h : ((k : ℂ) + 1) * (Nat.centralBinom (k + 1) : ℂ) = 2 * (2 * k + 1) * (Nat.centralBinom k : ℂ) := by
    exact_mod_cast Nat.succ_mul_centralBinom_succ k
  unfold cb
  rw [pow_succ]
  linear_combination (1 / (2 * 4 ^ k)) * h

/-- `∑_{k} cb k ζ^k X^k`. -/
noncomputable def gS (ζ : ℂ) : PowerSeries ℂ := PowerSeries.mk fun k => cb k * ζ ^ k

open PowerSeries in
theorem gS_ode (ζ : ℂ) : 2 * (1 - C ζ * X) * derivative ℂ (gS ζ) = C ζ * gS ζ := by
  have e : 2 * (1 - C ζ * X) * derivative ℂ (gS ζ)
      = C 2 * derivative ℂ (gS ζ) - C (2 * ζ) * (X * derivative ℂ (gS ζ)) := by
    rw [map_mul]
    have : (C (2 : ℂ) : PowerSeries ℂ) = 2 := map_ofNat _ 2
    rw [this]; ring
  rw [e]
  ext n
  rw [map_sub, coeff_C_mul, coeff_C_mul, coeff_C_mul]
  cases n with
  | zero =>
    rw [coeff_zero_X_mul, coeff_derivative]
    simp only [gS, coeff_mk]
    have := cb_succ 0
    push_cast at *
    linear_combination ζ * this
  | succ n =>
    rw [coeff_succ_X_mul, coeff_derivative, coeff_derivative]
    simp only [gS, coeff_mk]
    have := cb_succ (n + 1)
    push_cast at *
    linear_combination ζ ^ (n + 2) * this

/-- Coefficients of `((1 - ζ X)(1 - η X))^(-1/2)`. -/
noncomputable def gQ (n : ℕ) (ζ η : ℂ) : ℂ := ∑ x ∈ antidiagonal n, (cb x.1 * ζ ^ x.1) * (cb x.2 * η ^ x.2)

theorem gQ_eq (n : ℕ) (ζ η : ℂ) : gQ n ζ η = PowerSeries.coeff n (gS ζ * gS η) := by
  rw [PowerSeries.coeff_mul]
  simp [gQ, gS]

theorem gQ_zero (ζ η : ℂ) : gQ 0 ζ η = 1 := by simp [gQ, cb_zero]

theorem gQ_one (ζ η : ℂ) : gQ 1 ζ η = (ζ + η) / 2 := by
  have := cb_succ 0
  rw [cb_zero] at this
  have h1 : cb 1 = 1 / 2 := by push_cast at this; linear_combination this / 2
  simp [gQ, Nat.antidiagonal_succ, cb_zero, h1]; ring

open PowerSeries in
theorem gQ_rec (n : ℕ) (ζ η : ℂ) : ((n : ℂ) + 2) * gQ (n + 2) ζ η
    = (2 * (n : ℂ) + 3) * ((ζ + η) / 2) * gQ (n + 1) ζ η - ((n : ℂ) + 1) * (ζ * η) * gQ n ζ η := by
  set G := gS ζ * gS η with hG
  have hd : derivative ℂ G = gS ζ * derivative ℂ (gS η) + gS η * derivative ℂ (gS ζ) := by
    rw [hG, Derivation.leibniz]; simp [smul_eq_mul]
  have hode : C 2 * derivative ℂ G - C (2 * (ζ + η)) * (X * derivative ℂ G) + C (2 * (ζ * η)) * (X * (X * derivative ℂ G))
      = C (ζ + η) * G - C (2 * (ζ * η)) * (X * G) := by
    have h1 := gS_ode ζ
    have h2 := gS_ode η
    have c2 : (C (2 : ℂ) : PowerSeries ℂ) = 2 := map_ofNat _ 2
    simp only [map_mul, map_add, c2]
    rw [hd, hG]
    linear_combination ((1 - C η * X) * gS η) * h1 + ((1 - C ζ * X) * gS ζ) * h2
  have hc := congrArg (coeff (n + 1)) hode
  rw [map_add, map_sub, map_sub, coeff_C_mul, coeff_C_mul, coeff_C_mul, coeff_C_mul, coeff_C_mul,
    coeff_succ_X_mul, coeff_succ_X_mul, coeff_succ_X_mul, coeff_derivative, coeff_derivative,
    ← gQ_eq, ← gQ_eq, ← gQ_eq] at hc
  have hx : coeff n (X * derivative ℂ G) = (n : ℂ) * gQ n ζ η := by
    cases n with
    | zero => rw [coeff_zero_X_mul]; simp
    | succ n => rw [coeff_succ_X_mul, coeff_derivative, ← gQ_eq]; push_cast; ring
  rw [hx] at hc
  push_cast at hc
  linear_combination hc / 2

theorem gQ_ones (n : ℕ) : gQ n 1 1 = 1 := by
  have key : ∀ n, gQ n 1 1 = 1 ∧ gQ (n + 1) 1 1 = 1 := by
    intro n
    induction n with
    | zero => exact ⟨gQ_zero 1 1, by rw [gQ_one]; norm_num⟩
    | succ n ih =>
      refine ⟨ih.2, ?_⟩
      have hn : ((n : ℂ) + 2) ≠ 0 := by
        have : ((n + 2 : ℕ) : ℂ) ≠ 0 := Nat.cast_ne_zero.mpr (by omega)
        push_cast at this; exact this
      refine mul_left_cancel₀ hn ?_
      have := gQ_rec n 1 1
      rw [ih.1, ih.2] at this
      show ((n : ℂ) + 2) * gQ (n + 2) 1 1 = _
      rw [this]; ring
  exact (key n).1

/-- The pairing in terms of a complex number with the right real part and modulus. -/
theorem sK_gQ (x s : Vec 3) (ζ : ℂ) (h1 : ζ.re = dot3 x s) (h2 : Complex.normSq ζ = dot3 x x * dot3 s s) :
    ∀ n, sK n x s = gQ n ζ ((starRingEnd ℂ) ζ) := by
  have e1 : (ζ + (starRingEnd ℂ) ζ) / 2 = ((dot3 x s : ℝ) : ℂ) := by
    rw [Complex.add_conj, h1]; push_cast; ring
  have e2 : ζ * (starRingEnd ℂ) ζ = ((dot3 x x : ℝ) : ℂ) * ((dot3 s s : ℝ) : ℂ) := by
    rw [Complex.mul_conj, h2]; push_cast; ring
  have key : ∀ n, sK n x s = gQ n ζ ((starRingEnd ℂ) ζ) ∧ sK (n + 1) x s = gQ (n + 1) ζ ((starRingEnd ℂ) ζ) := by
    intro n
    induction n with
    | zero => exact ⟨by rw [sK_zero, gQ_zero], by rw [sK_one, gQ_one, e1]⟩
    | succ n ih =>
      refine ⟨ih.2, ?_⟩
      have hn : ((n : ℂ) + 2) ≠ 0 := by
        have : ((n + 2 : ℕ) : ℂ) ≠ 0 := Nat.cast_ne_zero.mpr (by omega)
        push_cast at this; exact this
      refine mul_left_cancel₀ hn ?_
      show ((n : ℂ) + 2) * sK (n + 2) x s = ((n : ℂ) + 2) * gQ (n + 2) ζ ((starRingEnd ℂ) ζ)
      rw [sK_rec, gQ_rec, ih.1, ih.2, e1, e2]
  exact fun n => (key n).1

theorem cb_norm (k : ℕ) : ‖cb k‖ = (Nat.centralBinom k : ℝ) / 4 ^ k := by
  unfold cb; rw [norm_div, norm_pow, Complex.norm_natCast]; norm_num

theorem cb_norm_le (k : ℕ) : ‖cb k‖ ≤ 1 := by
  rw [cb_norm, div_le_one (by positivity)]
  have : Nat.centralBinom k ≤ 4 ^ k := by
    unfold Nat.centralBinom
    calc _ ≤ ∑ i ∈ range (2 * k + 1), (2 * k).choose i :=
          single_le_sum (f := fun i => (2 * k).choose i) (fun _ _ => Nat.zero_le _) (mem_range.mpr (by omega))
      _ = 4 ^ k := by rw [Nat.sum_range_choose, pow_mul]; norm_num
  exact_mod_cast this

theorem gQ_norm_le (n : ℕ) (ζ η : ℂ) {b : ℝ} (h1 : ‖ζ‖ ≤ b) (h2 : ‖η‖ ≤ b) : ‖gQ n ζ η‖ ≤ b ^ n := by
  have hb : 0 ≤ b := (norm_nonneg _).trans h1
  have hsum : ∑ x ∈ antidiagonal n, ‖cb x.1‖ * ‖cb x.2‖ = 1 := by
    have h := gQ_ones n
    have h' : gQ n 1 1 = ((∑ x ∈ antidiagonal n, ‖cb x.1‖ * ‖cb x.2‖ : ℝ) : ℂ) := by
      unfold gQ
      push_cast
      refine sum_congr rfl fun x _ => ?_
      rw [cb_norm, cb_norm]; simp [cb]
    rw [h'] at h
    exact_mod_cast h
  unfold gQ
  refine (norm_sum_le _ _).trans ?_
  calc _ ≤ ∑ x ∈ antidiagonal n, (‖cb x.1‖ * ‖cb x.2‖) * b ^ n := by
        refine sum_le_sum fun x hx => ?_
        rw [mem_antidiagonal] at hx
        rw [norm_mul, norm_mul, norm_mul, norm_pow, norm_pow, ← hx, pow_add]
        calc _ ≤ ‖cb x.1‖ * b ^ x.1 * (‖cb x.2‖ * b ^ x.2) := by gcongr
          _ = _ := by ring
    _ = b ^ n := by rw [← sum_mul, hsum, one_mul]

theorem gQ_hasSum {ζ : ℂ} (hζ : ‖ζ‖ < 1) :
    HasSum (fun n => gQ n ζ ((starRingEnd ℂ) ζ)) ((1 / ‖1 - ζ‖ : ℝ) : ℂ) := by
  have hs : ∀ η : ℂ, ‖η‖ < 1 → Summable fun k => ‖cb k * η ^ k‖ := by
    intro η hη
    refine Summable.of_nonneg_of_le (fun _ => norm_nonneg _) (fun k => ?_) (summable_geometric_of_lt_one (norm_nonneg η) hη)
    rw [norm_mul, norm_pow]
    calc _ ≤ 1 * ‖η‖ ^ k := by gcongr; exact cb_norm_le k
      _ = _ := one_mul _
  have hsum : ∀ η θ : ℂ, ‖η‖ < 1 → ‖θ‖ < 1 →
      (∑' k, cb k * η ^ k) * (∑' k, cb k * θ ^ k) = ∑' n, gQ n η θ := fun η θ h1 h2 =>
    tsum_mul_tsum_eq_tsum_sum_antidiagonal_of_summable_norm (hs η h1) (hs θ h2)
  set g := ∑' k, cb k * ζ ^ k with hg
  have hsq : g * g = (1 - ζ)⁻¹ := by
    rw [hg, hsum ζ ζ hζ hζ, ← tsum_geometric_of_norm_lt_one hζ]
    refine tsum_congr fun n => ?_
    have : gQ n ζ ζ = gQ n 1 1 * ζ ^ n := by
      unfold gQ
      rw [sum_mul]
      refine sum_congr rfl fun x hx => ?_
      rw [mem_antidiagonal] at hx
      rw [← hx, pow_add]; ring
    rw [this, gQ_ones, one_mul]
  have hconj : ∑' k, cb k * ((starRingEnd ℂ) ζ) ^ k = (starRingEnd ℂ) g := by
    rw [hg, Complex.conj_tsum]
    refine tsum_congr fun k => ?_
    rw [map_mul, map_pow]
    congr 1
    have h4 : (starRingEnd ℂ) 4 = 4 := Complex.conj_ofNat 4
    simp [cb, h4]
  have hζ' : ‖(starRingEnd ℂ) ζ‖ < 1 := by rwa [Complex.norm_conj]
  have hval : ∑' n, gQ n ζ ((starRingEnd ℂ) ζ) = ((1 / ‖1 - ζ‖ : ℝ) : ℂ) := by
    rw [← hsum ζ _ hζ hζ', ← hg, hconj, Complex.mul_conj, Complex.normSq_eq_norm_sq]
    have : ‖g‖ ^ 2 = 1 / ‖1 - ζ‖ := by
      have := congrArg norm hsq
      rw [norm_mul, norm_inv] at this
      rw [pow_two, this, one_div]
    rw [this]
  have hsm : Summable fun n => gQ n ζ ((starRingEnd ℂ) ζ) := by
    refine Summable.of_norm_bounded (summable_geometric_of_lt_one (norm_nonneg ζ) hζ) fun n => ?_
    exact gQ_norm_le n _ _ le_rfl (by rw [Complex.norm_conj])
  rw [← hval]; exact hsm.hasSum

end FMM
