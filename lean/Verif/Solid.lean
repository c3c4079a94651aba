import Verif.Vec
import Mathlib.Topology.Algebra.InfiniteSum.Basic
import Mathlib.Data.Int.Interval
import Mathlib.Analysis.Complex.Basic
import Mathlib.Tactic.LinearCombination

/-!
# Regular solid harmonics

`sR v n m` is the coefficient of `τ^m` in `(w τ/2 + z - w̄/(2τ))^n / n!`, where `w = x + i y`.  The three-dimensional
expansions are sums of these functions up to normalisation.
-/

namespace FMM
open Finset

/-- `x + i y`. -/
def wv (v : Vec 3) : ℂ := ⟨v 0, v 1⟩

/-- `x - i y`. -/
def wc (v : Vec 3) : ℂ := ⟨v 0, -v 1⟩

/-- Regular solid harmonics (un-normalised). -/
noncomputable def sR (v : Vec 3) : ℕ → ℤ → ℂ
  | 0, m => if m = 0 then 1 else 0
  | n + 1, m => (wv v / 2 * sR v n (m - 1) + (v 2 : ℂ) * sR v n m - wc v / 2 * sR v n (m + 1)) / ((n + 1 : ℕ) : ℂ)

theorem sR_zero (v : Vec 3) (m : ℤ) : sR v 0 m = if m = 0 then 1 else 0 := rfl

theorem sR_succ (v : Vec 3) (n : ℕ) (m : ℤ) : ((n : ℂ) + 1) * sR v (n + 1) m
    = wv v / 2 * sR v n (m - 1) + (v 2 : ℂ) * sR v n m - wc v / 2 * sR v n (m + 1) := by
  have : ((n : ℂ) + 1) ≠ 0 := by exact_mod_cast Nat.succ_ne_zero n
  rw [sR]; push_cast; field_simp

theorem sR_out (v : Vec 3) : ∀ (n : ℕ) (m : ℤ), (n : ℤ) < |m| → sR v n m = 0
  | 0, m, h => by
    rw [sR_zero, if_neg]; rintro rfl; simp at h
  | n + 1, m, h => by
    have h' : (n : ℤ) + 1 < |m| := by exact_mod_cast h
    have ha := lt_abs.mp h'
    rw [sR, sR_out v n (m - 1) (by rw [lt_abs]; omega), sR_out v n m (by rw [lt_abs]; omega),
      sR_out v n (m + 1) (by rw [lt_abs]; omega)]
    simp

theorem wv_add (u v : Vec 3) : wv (u + v) = wv u + wv v := by
  apply Complex.ext <;> simp [wv]
theorem wc_add (u v : Vec 3) : wc (u + v) = wc u + wc v := by
  apply Complex.ext <;> simp [wc]; ring
theorem wv_smul (a : ℝ) (v : Vec 3) : wv (a • v) = a * wv v := by
  apply Complex.ext <;> simp [wv]
theorem wc_smul (a : ℝ) (v : Vec 3) : wc (a • v) = a * wc v := by
  apply Complex.ext <;> simp [wc]
theorem conj_wv (v : Vec 3) : (starRingEnd ℂ) (wv v) = wc v := by
  apply Complex.ext <;> simp [wc, wv]
theorem conj_wc (v : Vec 3) : (starRingEnd ℂ) (wc v) = wv v := by
  apply Complex.ext <;> simp [wc, wv]

/-- `v · s`. -/
def dot3 (u v : Vec 3) : ℝ := u 0 * v 0 + u 1 * v 1 + u 2 * v 2

theorem dot3_eq (u v : Vec 3) : ((dot3 u v : ℝ) : ℂ) = (wv u * wc v + wc u * wv v) / 2 + (u 2 : ℂ) * (v 2 : ℂ) := by
  apply Complex.ext <;> simp [wv, wc, dot3] <;> ring

theorem wvwc (v : Vec 3) : wv v * wc v + (v 2 : ℂ) ^ 2 = ((dot3 v v : ℝ) : ℂ) := by
  rw [dot3_eq]; ring

/-! ## Homogeneity, conjugation -/

theorem sR_smul (a : ℝ) (v : Vec 3) : ∀ (n : ℕ) (m : ℤ), sR (a • v) n m = (a : ℂ) ^ n * sR v n m
  | 0, m => by simp [sR_zero]
  | n + 1, m => by
    rw [sR, sR, sR_smul a v n, sR_smul a v n, sR_smul a v n, wv_smul, wc_smul]
    simp only [Pi.smul_apply, smul_eq_mul, Complex.ofReal_mul]
    ring

theorem sR_neg (v : Vec 3) (n : ℕ) (m : ℤ) : sR (-v) n m = (-1) ^ n * sR v n m := by
  have := sR_smul (-1) v n m
  rw [neg_one_smul] at this
  rw [this]; push_cast; rfl

theorem neg_one_zpow_sub_one (m : ℤ) : (-1 : ℂ) ^ (m - 1) = -(-1) ^ m := by
  rw [zpow_sub_one₀ (by norm_num)]; norm_num

theorem neg_one_zpow_add_one (m : ℤ) : (-1 : ℂ) ^ (m + 1) = -(-1) ^ m := by
  rw [zpow_add_one₀ (by norm_num)]; norm_num

theorem sR_conj (v : Vec 3) : ∀ (n : ℕ) (m : ℤ), (starRingEnd ℂ) (sR v n m) = (-1) ^ m * sR v n (-m)
  | 0, m => by
    rw [sR_zero, sR_zero]
    by_cases h : m = 0
    · subst h; simp
    · rw [if_neg h, if_neg (by omega)]; simp
  | n + 1, m => by
    rw [sR, sR]
    simp only [map_div₀, map_sub, map_add, map_mul, sR_conj v n, conj_wv, conj_wc, Complex.conj_ofReal,
      Complex.conj_natCast, map_ofNat]
    rw [neg_one_zpow_sub_one, neg_one_zpow_add_one, show -(m - 1) = -m + 1 by ring,
      show -(m + 1) = -m - 1 by ring]
    ring

/-! ## Ladder relations -/

theorem sR_up : ∀ (v : Vec 3) (n : ℕ) (m : ℤ),
    ((n : ℂ) + 1 + m) * sR v (n + 1) m = (v 2 : ℂ) * sR v n m + wv v * sR v n (m - 1)
  | v, 0, m => by
    have := sR_succ v 0 m
    simp only [Nat.cast_zero, zero_add, one_mul] at this ⊢
    rw [this]
    simp only [sR_zero]
    by_cases h0 : m = 0
    · subst h0; simp
    by_cases h1 : m = 1
    · subst h1; simp; ring
    by_cases h2 : m = -1
    · subst h2; simp
    · rw [if_neg (by omega), if_neg h0, if_neg (by omega)]; simp
  | v, n + 1, m => by
    have hn : ((n : ℂ) + 2) ≠ 0 := by
      have : ((n + 2 : ℕ) : ℂ) ≠ 0 := Nat.cast_ne_zero.mpr (by omega)
      push_cast at this; exact this
    have e := sR_succ v (n + 1) m
    have i1 := sR_up v n (m - 1)
    have i2 := sR_up v n m
    have i3 := sR_up v n (m + 1)
    have d1 := sR_succ v n (m - 1)
    have d2 := sR_succ v n m
    rw [show m - 1 - 1 = m - 2 by ring, show m - 1 + 1 = m by ring] at *
    rw [show m + 1 - 1 = m by ring] at i3
    push_cast at *
    refine mul_left_cancel₀ hn ?_
    linear_combination ((n : ℂ) + 1 + 1 + m) * e + wv v / 2 * i1 + (v 2 : ℂ) * i2 - wc v / 2 * i3
      - wv v * d1 - (v 2 : ℂ) * d2

theorem sR_down (v : Vec 3) (n : ℕ) (m : ℤ) :
    ((n : ℂ) + 1 - m) * sR v (n + 1) m = (v 2 : ℂ) * sR v n m - wc v * sR v n (m + 1) := by
  linear_combination 2 * sR_succ v n m - sR_up v n m

/-- `(2n+3) z R_{n+1}^m = (n+2-m)(n+2+m) R_{n+2}^m + |v|² R_n^m`. -/
theorem sR_z (v : Vec 3) (n : ℕ) (m : ℤ) : (2 * (n : ℂ) + 3) * (v 2 : ℂ) * sR v (n + 1) m
    = ((n : ℂ) + 2 - m) * ((n : ℂ) + 2 + m) * sR v (n + 2) m + ((dot3 v v : ℝ) : ℂ) * sR v n m := by
  have a := sR_up v (n + 1) m
  have b := sR_down v (n + 1) m
  have c := sR_down v n (m - 1)
  have a' := sR_up v n m
  have b' := sR_down v n m
  have c' := sR_up v n (m + 1)
  rw [show m - 1 + 1 = m by ring] at c
  rw [show m + 1 - 1 = m by ring] at c'
  rw [← wvwc]
  push_cast at *
  linear_combination -((n : ℂ) + 2 - m) * a - wv v * c + (v 2 : ℂ) * a'

/-- `(2n+3) w̄ R_{n+1}^m = |v|² R_n^{m-1} - (n+3-m)(n+2-m) R_{n+2}^{m-1}`. -/
theorem sR_wc (v : Vec 3) (n : ℕ) (m : ℤ) : (2 * (n : ℂ) + 3) * wc v * sR v (n + 1) m
    = ((dot3 v v : ℝ) : ℂ) * sR v n (m - 1) - ((n : ℂ) + 3 - m) * ((n : ℂ) + 2 - m) * sR v (n + 2) (m - 1) := by
  have a := sR_z v n (m - 1)
  have b := sR_down v (n + 1) (m - 1)
  rw [show m - 1 + 1 = m by ring] at b
  push_cast at *
  linear_combination a + (2 * (n : ℂ) + 3) * b

/-- `(2n+3) w R_{n+1}^m = (n+3+m)(n+2+m) R_{n+2}^{m+1} - |v|² R_n^{m+1}`. -/
theorem sR_wv (v : Vec 3) (n : ℕ) (m : ℤ) : (2 * (n : ℂ) + 3) * wv v * sR v (n + 1) m
    = ((n : ℂ) + 3 + m) * ((n : ℂ) + 2 + m) * sR v (n + 2) (m + 1) - ((dot3 v v : ℝ) : ℂ) * sR v n (m + 1) := by
  have a := sR_z v n (m + 1)
  have b := sR_up v (n + 1) (m + 1)
  rw [show m + 1 - 1 = m by ring] at b
  push_cast at *
  linear_combination -a - (2 * (n : ℂ) + 3) * b

/-! ## Finite sums over the integers -/

theorem sum_eq_tsum {f : ℤ → ℂ} {N : ℤ} (h : ∀ k, N < |k| → f k = 0) : ∑ k ∈ Icc (-N) N, f k = ∑' k, f k := by
  rw [tsum_eq_sum]
  intro b hb
  refine h b ?_
  rw [mem_Icc] at hb
  rw [lt_abs]; omega

theorem sum_shift {f : ℤ → ℂ} {N : ℤ} (c : ℤ) (h : ∀ k, N < |k| → f k = 0) (h' : ∀ k, N < |k| → f (k + c) = 0) :
    ∑ k ∈ Icc (-N) N, f (k + c) = ∑ k ∈ Icc (-N) N, f k := by
  rw [sum_eq_tsum h, sum_eq_tsum (f := fun k => f (k + c)) h']
  exact (Equiv.addRight c).tsum_eq f

theorem sum_Icc_ext {f : ℤ → ℂ} {N M : ℤ} (h : ∀ k, N < |k| → f k = 0) (hNM : N ≤ M) :
    ∑ k ∈ Icc (-M) M, f k = ∑ k ∈ Icc (-N) N, f k := by
  rw [sum_eq_tsum h, sum_eq_tsum fun k hk => h k (by omega)]

/-! ## Translation -/

theorem sR_add (u v : Vec 3) : ∀ (n : ℕ) (m : ℤ) (N : ℕ), n ≤ N →
    sR (u + v) n m = ∑ j ∈ range (n + 1), ∑ k ∈ Icc (-(N : ℤ)) N, sR u j k * sR v (n - j) (m - k)
  | 0, m, N, _ => by
    rw [sum_range_one, sum_eq_single 0]
    · simp [sR_zero]
    · intro b _ hb; simp [sR_zero, hb]
    · intro h; exact absurd (mem_Icc.mpr ⟨by omega, by omega⟩) h
  | n + 1, m, N, hN => by
    have hn : ((n : ℂ) + 1) ≠ 0 := by exact_mod_cast Nat.succ_ne_zero n
    refine mul_left_cancel₀ hn ?_
    have ih := fun m => sR_add u v n m N (by omega)
    rw [sR_succ, ih, ih, ih, wv_add, wc_add]
    have hout : ∀ j ≤ n, ∀ k : ℤ, (N : ℤ) < |k| + 1 → sR u j k = 0 := by
      intro j hj k hk; exact sR_out u j k (by omega)
    -- the two halves of the Leibniz rule
    have hA : ∑ j ∈ range (n + 1 + 1), ∑ k ∈ Icc (-(N : ℤ)) N, (j : ℂ) * (sR u j k * sR v (n + 1 - j) (m - k))
        = ∑ j ∈ range (n + 1), ∑ k ∈ Icc (-(N : ℤ)) N, (wv u / 2 * (sR u j k * sR v (n - j) (m - 1 - k))
          + (u 2 : ℂ) * (sR u j k * sR v (n - j) (m - k)) - wc u / 2 * (sR u j k * sR v (n - j) (m + 1 - k))) := by
      rw [sum_range_succ']
      simp only [Nat.cast_zero, zero_mul, sum_const_zero, add_zero]
      refine sum_congr rfl fun j hj => ?_
      have hj' : j ≤ n := by rw [mem_range] at hj; omega
      have s1 := sum_shift (f := fun k => sR u j k * sR v (n - j) (m - 1 - k)) (N := N) (-1)
        (fun k hk => by rw [hout j hj' k (by omega), zero_mul])
        (fun k hk => by
          rw [hout j hj' (k + -1) (by have := abs_cases k; have := abs_cases (k + -1); omega), zero_mul])
      have s2 := sum_shift (f := fun k => sR u j k * sR v (n - j) (m + 1 - k)) (N := N) 1
        (fun k hk => by rw [hout j hj' k (by omega), zero_mul])
        (fun k hk => by
          rw [hout j hj' (k + 1) (by have := abs_cases k; have := abs_cases (k + 1); omega), zero_mul])
      have e1 : ∑ k ∈ Icc (-(N : ℤ)) N, wv u / 2 * (sR u j k * sR v (n - j) (m - 1 - k))
          = ∑ k ∈ Icc (-(N : ℤ)) N, wv u / 2 * (sR u j (k + -1) * sR v (n - j) (m - 1 - (k + -1))) := by
        rw [← mul_sum, ← mul_sum, s1]
      have e2 : ∑ k ∈ Icc (-(N : ℤ)) N, wc u / 2 * (sR u j k * sR v (n - j) (m + 1 - k))
          = ∑ k ∈ Icc (-(N : ℤ)) N, wc u / 2 * (sR u j (k + 1) * sR v (n - j) (m + 1 - (k + 1))) := by
        rw [← mul_sum, ← mul_sum, s2]
      rw [sum_sub_distrib, sum_add_distrib, e1, e2, ← sum_add_distrib, ← sum_sub_distrib]
      refine sum_congr rfl fun k _ => ?_
      rw [show n + 1 - (j + 1) = n - j by omega, show m - 1 - (k + -1) = m - k by ring,
        show m + 1 - (k + 1) = m - k by ring, show k + -1 = k - 1 by ring]
      have := sR_succ u j k
      push_cast
      linear_combination (sR v (n - j) (m - k)) * this
    have hB : ∑ j ∈ range (n + 1 + 1), ∑ k ∈ Icc (-(N : ℤ)) N,
          ((n + 1 - j : ℕ) : ℂ) * (sR u j k * sR v (n + 1 - j) (m - k))
        = ∑ j ∈ range (n + 1), ∑ k ∈ Icc (-(N : ℤ)) N, (wv v / 2 * (sR u j k * sR v (n - j) (m - 1 - k))
          + (v 2 : ℂ) * (sR u j k * sR v (n - j) (m - k)) - wc v / 2 * (sR u j k * sR v (n - j) (m + 1 - k))) := by
      rw [sum_range_succ]
      simp only [Nat.sub_self, Nat.cast_zero, zero_mul, sum_const_zero, add_zero]
      refine sum_congr rfl fun j hj => sum_congr rfl fun k _ => ?_
      have hj' : j ≤ n := by rw [mem_range] at hj; omega
      rw [show n + 1 - j = n - j + 1 by omega, show m - 1 - k = m - k - 1 by ring,
        show m + 1 - k = m - k + 1 by ring]
      have := sR_succ v (n - j) (m - k)
      push_cast
      linear_combination (sR u j k) * this
    have hsplit : ((n : ℂ) + 1) * ∑ j ∈ range (n + 1 + 1), ∑ k ∈ Icc (-(N : ℤ)) N, sR u j k * sR v (n + 1 - j) (m - k)
        = ∑ j ∈ range (n + 1 + 1), ∑ k ∈ Icc (-(N : ℤ)) N, (j : ℂ) * (sR u j k * sR v (n + 1 - j) (m - k))
          + ∑ j ∈ range (n + 1 + 1), ∑ k ∈ Icc (-(N : ℤ)) N,
            ((n + 1 - j : ℕ) : ℂ) * (sR u j k * sR v (n + 1 - j) (m - k)) := by
      rw [mul_sum, ← sum_add_distrib]
      refine sum_congr rfl fun j hj => ?_
      rw [mul_sum, ← sum_add_distrib]
      refine sum_congr rfl fun k _ => ?_
      have hj' : j ≤ n + 1 := by rw [mem_range] at hj; omega
      push_cast [Nat.cast_sub hj']
      ring
    rw [hsplit, hA, hB, ← sum_add_distrib, mul_sum, mul_sum, mul_sum, ← sum_add_distrib, ← sum_sub_distrib]
    refine sum_congr rfl fun j _ => ?_
    rw [mul_sum, mul_sum, mul_sum, ← sum_add_distrib, ← sum_sub_distrib, ← sum_add_distrib]
    refine sum_congr rfl fun k _ => ?_
    simp only [Pi.add_apply, Complex.ofReal_add]
    ring

end FMM
