import Mathlib.Analysis.SpecialFunctions.Complex.LogBounds
import Mathlib.Algebra.Order.Antidiag.Prod
import Mathlib.Data.Nat.Choose.Sum
import Mathlib.Algebra.Ring.GeomSum
import Mathlib.Algebra.BigOperators.NatAntidiagonal
import Mathlib.Algebra.BigOperators.Field
import Mathlib.Analysis.Complex.Norm
import Mathlib.Tactic.FieldSimp
import Mathlib.Tactic.Positivity
import Mathlib.Tactic.LinearCombination

/-!
# Truncated logarithmic and geometric series
-/

namespace FMM
open Finset

/-- Error bound of the logarithmic series cut after degree `p`. -/
noncomputable def tailBound (p : ℕ) (ρ : ℝ) : ℝ := ρ ^ (p + 1) / ((p + 1) * (1 - ρ))

theorem tailBound_nonneg (p : ℕ) {ρ : ℝ} (h0 : 0 ≤ ρ) (h1 : ρ < 1) : 0 ≤ tailBound p ρ := by
  have : 0 < 1 - ρ := by linarith
  unfold tailBound; positivity

theorem tailBound_mono (p : ℕ) {ρ σ : ℝ} (h0 : 0 ≤ ρ) (h : ρ ≤ σ) (h1 : σ < 1) :
    tailBound p ρ ≤ tailBound p σ := by
  have h2 : 0 < 1 - σ := by linarith
  unfold tailBound
  have : (0 : ℝ) < (p + 1) * (1 - σ) := by positivity
  have hσ : 0 ≤ σ := h0.trans h
  gcongr

theorem log_series_cut (p : ℕ) {w : ℂ} (hw : ‖w‖ < 1) :
    ‖Complex.log (1 - w) + ∑ i ∈ range p, w ^ (i + 1) / (i + 1 : ℕ)‖ ≤ tailBound p ‖w‖ := by
  have h := Complex.norm_log_sub_logTaylor_le p (z := -w) (by rwa [norm_neg])
  rw [norm_neg] at h
  have e : Complex.logTaylor (p + 1) (-w) = -∑ i ∈ range p, w ^ (i + 1) / (i + 1 : ℕ) := by
    unfold Complex.logTaylor
    rw [sum_range_succ', ← sum_neg_distrib]
    simp only [Nat.cast_zero, div_zero, add_zero]
    refine sum_congr rfl fun i _ => ?_
    rw [neg_pow w (i + 1), ← mul_assoc, ← pow_add]
    have : Odd (i + 1 + 1 + (i + 1)) := ⟨i + 1, by ring⟩
    rw [this.neg_one_pow]; ring
  rw [e, sub_neg_eq_add, ← sub_eq_add_neg] at h
  refine h.trans (le_of_eq ?_)
  unfold tailBound
  rw [div_eq_mul_inv, div_eq_mul_inv, mul_inv, mul_comm ((p : ℝ) + 1)⁻¹, mul_assoc]

theorem sum_by_degree {M : Type*} [AddCommMonoid M] (I : Finset (ℕ × ℕ)) (L : ℕ)
    (hL : ∀ x ∈ I, x.1 + x.2 < L) (f : ℕ × ℕ → M) :
    ∑ x ∈ I, f x = ∑ N ∈ range L, ∑ x ∈ antidiagonal N, if x ∈ I then f x else 0 := by
  rw [← sum_fiberwise_of_maps_to (s := I) (t := range L) (g := fun x => x.1 + x.2)
    (fun x hx => mem_range.mpr (hL x hx)) f]
  refine sum_congr rfl fun N _ => ?_
  rw [← sum_filter]
  refine sum_congr ?_ fun _ _ => rfl
  ext x
  simp only [mem_filter, mem_antidiagonal]
  tauto

theorem exists_degree_bound (I : Finset (ℕ × ℕ)) (p : ℕ) : ∃ L, p ≤ L ∧ ∀ x ∈ I, x.1 + x.2 < L := by
  refine ⟨max p (I.sup (fun x => x.1 + x.2) + 1), le_max_left _ _, fun x hx => ?_⟩
  have := Finset.le_sup (f := fun x : ℕ × ℕ => x.1 + x.2) hx
  have h2 : x.1 + x.2 ≤ I.sup (fun x => x.1 + x.2) := this
  omega

/-- Bivariate expansion of `log (1 - (x + y))`: leaving out any terms of degree above `p` costs no more than
the tail bound in `‖x‖ + ‖y‖`. -/
theorem log_series_two_cut (p : ℕ) (x y : ℂ) (hρ : ‖x‖ + ‖y‖ < 1) (I : Finset (ℕ × ℕ))
    (hI : ∀ l k, 1 ≤ l + k → l + k ≤ p → (l, k) ∈ I) :
    ‖Complex.log (1 - (x + y)) + ∑ m ∈ I, ((m.1 + m.2).choose m.1 : ℂ) / ((m.1 + m.2 : ℕ) : ℂ)
      * (x ^ m.1 * y ^ m.2)‖ ≤ tailBound p (‖x‖ + ‖y‖) := by
  set ρ := ‖x‖ + ‖y‖ with hρdef
  have hρ0 : 0 ≤ ρ := by positivity
  have hw : ‖x + y‖ ≤ ρ := norm_add_le x y
  set T : ℕ × ℕ → ℂ := fun m => ((m.1 + m.2).choose m.1 : ℂ) / ((m.1 + m.2 : ℕ) : ℂ)
      * (x ^ m.1 * y ^ m.2) with hT
  obtain ⟨L', hpL, hL'⟩ := exists_degree_bound I (p + 1)
  obtain ⟨L, rfl⟩ : ∃ L, L' = L + 1 := ⟨L' - 1, by omega⟩
  rw [sum_by_degree I (L + 1) hL' T]
  -- full degree-N sums
  have hfull : ∀ N, ∑ m ∈ antidiagonal N, T m = (x + y) ^ N / N := by
    intro N
    rw [(Commute.all x y).add_pow', sum_div]
    refine sum_congr rfl fun m hm => ?_
    rw [mem_antidiagonal] at hm
    simp only [hT, hm, nsmul_eq_mul]
    ring
  have hnorm : ∀ N, ∑ m ∈ antidiagonal N, ‖T m‖ = ρ ^ N / N := by
    intro N
    rw [hρdef, (Commute.all ‖x‖ ‖y‖).add_pow', sum_div]
    refine sum_congr rfl fun m hm => ?_
    rw [mem_antidiagonal] at hm
    simp only [hT, hm, nsmul_eq_mul, norm_mul, norm_div, norm_pow, Complex.norm_natCast]
    ring
  have hcut := log_series_cut L (lt_of_le_of_lt hw hρ)
  have e1 : ∑ i ∈ range L, (x + y) ^ (i + 1) / ((i + 1 : ℕ) : ℂ)
      = ∑ N ∈ range (L + 1), ∑ m ∈ antidiagonal N, T m := by
    rw [sum_range_succ', hfull]
    simp only [Nat.cast_zero, div_zero, add_zero]
    exact sum_congr rfl fun i _ => (hfull (i + 1)).symm
  rw [e1] at hcut
  -- missing terms
  have hmiss : ‖∑ N ∈ range (L + 1), ∑ m ∈ antidiagonal N, T m
      - ∑ N ∈ range (L + 1), ∑ m ∈ antidiagonal N, (if m ∈ I then T m else 0)‖
      ≤ ∑ i ∈ range (L - p), ρ ^ (p + 1 + i) / (p + 1) := by
    rw [← sum_sub_distrib]
    have hL2 : L + 1 = (p + 1) + (L - p) := by omega
    rw [hL2, sum_range_add]
    have hz : ∑ N ∈ range (p + 1), (∑ m ∈ antidiagonal N, T m
        - ∑ m ∈ antidiagonal N, (if m ∈ I then T m else 0)) = 0 := by
      refine sum_eq_zero fun N hN => ?_
      rw [sub_eq_zero]
      refine sum_congr rfl fun m hm => ?_
      rw [mem_antidiagonal] at hm
      rw [mem_range] at hN
      rcases Nat.eq_zero_or_pos N with h0 | h0
      · have : T m = 0 := by simp only [hT, hm, h0]; simp
        rw [this]; simp
      · rw [if_pos (hI m.1 m.2 (by omega) (by omega))]
    rw [hz, zero_add]
    refine (norm_sum_le _ _).trans (sum_le_sum fun i _ => ?_)
    rw [← sum_sub_distrib]
    calc ‖∑ m ∈ antidiagonal (p + 1 + i), (T m - if m ∈ I then T m else 0)‖
        ≤ ∑ m ∈ antidiagonal (p + 1 + i), ‖T m‖ := by
          refine (norm_sum_le _ _).trans (sum_le_sum fun m _ => ?_)
          split_ifs <;> simp
      _ = ρ ^ (p + 1 + i) / (p + 1 + i : ℕ) := hnorm _
      _ ≤ ρ ^ (p + 1 + i) / (p + 1) := by
          have hi : (p : ℝ) + 1 ≤ ((p + 1 + i : ℕ) : ℝ) := by
            push_cast; linarith [(Nat.cast_nonneg i : (0 : ℝ) ≤ i)]
          gcongr
  have hgeom : ∑ i ∈ range (L - p), ρ ^ (p + 1 + i) / (p + 1)
      = (ρ ^ (p + 1) - ρ ^ (L + 1)) / ((p + 1) * (1 - ρ)) := by
    have h1 : (1 - ρ) ≠ 0 := by linarith
    have hp1 : ((p : ℝ) + 1) ≠ 0 := by positivity
    simp only [pow_add ρ (p + 1), ← sum_div, ← mul_sum]
    have hL2 : L + 1 = (p + 1) + (L - p) := by omega
    rw [hL2, pow_add ρ (p + 1) (L - p)]
    have := mul_neg_geom_sum ρ (L - p)
    have h2 : ∑ i ∈ range (L - p), ρ ^ i = (1 - ρ ^ (L - p)) / (1 - ρ) := by
      rw [eq_div_iff h1, mul_comm]; exact this
    rw [h2]; field_simp
  have htail : tailBound L ‖x + y‖ ≤ ρ ^ (L + 1) / ((p + 1) * (1 - ρ)) := by
    refine (tailBound_mono L (norm_nonneg _) hw hρ).trans ?_
    unfold tailBound
    have h1 : 0 < 1 - ρ := by linarith
    gcongr
    exact_mod_cast (by omega : p ≤ L)
  calc ‖Complex.log (1 - (x + y))
        + ∑ N ∈ range (L + 1), ∑ m ∈ antidiagonal N, (if m ∈ I then T m else 0)‖
      = ‖(Complex.log (1 - (x + y)) + ∑ N ∈ range (L + 1), ∑ m ∈ antidiagonal N, T m)
        - (∑ N ∈ range (L + 1), ∑ m ∈ antidiagonal N, T m
          - ∑ N ∈ range (L + 1), ∑ m ∈ antidiagonal N, (if m ∈ I then T m else 0))‖ := by congr 1; ring
    _ ≤ ρ ^ (L + 1) / ((p + 1) * (1 - ρ)) + (ρ ^ (p + 1) - ρ ^ (L + 1)) / ((p + 1) * (1 - ρ)) :=
        (norm_sub_le _ _).trans (add_le_add (hcut.trans htail) (hmiss.trans_eq hgeom))
    _ = tailBound p ρ := by unfold tailBound; ring

/-- Bivariate expansion of `1 / (1 - (x + y))`. -/
theorem geom_series_two_cut (p : ℕ) (x y : ℂ) (hρ : ‖x‖ + ‖y‖ < 1) (I : Finset (ℕ × ℕ))
    (hI : ∀ l k, l + k < p → (l, k) ∈ I) :
    ‖(1 - (x + y))⁻¹ - ∑ m ∈ I, ((m.1 + m.2).choose m.1 : ℂ) * (x ^ m.1 * y ^ m.2)‖
      ≤ (‖x‖ + ‖y‖) ^ p / (1 - (‖x‖ + ‖y‖)) := by
  set ρ := ‖x‖ + ‖y‖ with hρdef
  have hρ0 : 0 ≤ ρ := by positivity
  have hw : ‖x + y‖ ≤ ρ := norm_add_le x y
  have hpos : 0 < 1 - ρ := by linarith
  set T : ℕ × ℕ → ℂ := fun m => ((m.1 + m.2).choose m.1 : ℂ) * (x ^ m.1 * y ^ m.2) with hT
  obtain ⟨L, hpL, hL⟩ := exists_degree_bound I p
  rw [sum_by_degree I L hL T]
  have hfull : ∀ N, ∑ m ∈ antidiagonal N, T m = (x + y) ^ N := by
    intro N
    rw [(Commute.all x y).add_pow']
    refine sum_congr rfl fun m hm => ?_
    rw [mem_antidiagonal] at hm
    simp only [hT, hm, nsmul_eq_mul]
  have hnorm : ∀ N, ∑ m ∈ antidiagonal N, ‖T m‖ = ρ ^ N := by
    intro N
    rw [hρdef, (Commute.all ‖x‖ ‖y‖).add_pow']
    refine sum_congr rfl fun m hm => ?_
    rw [mem_antidiagonal] at hm
    simp only [hT, hm, nsmul_eq_mul, norm_mul, norm_pow, Complex.norm_natCast]
  have hne : (1 - (x + y)) ≠ 0 := by
    intro h
    have : x + y = 1 := by linear_combination -h
    rw [this, norm_one] at hw; linarith
  have hlow : 1 - ρ ≤ ‖1 - (x + y)‖ := by
    have := norm_sub_norm_le (1 : ℂ) (x + y)
    rw [norm_one] at this; linarith
  have hcut : ‖(1 - (x + y))⁻¹ - ∑ N ∈ range L, ∑ m ∈ antidiagonal N, T m‖ ≤ ρ ^ L / (1 - ρ) := by
    simp only [hfull]
    have h2 : ∑ i ∈ range L, (x + y) ^ i = (1 - (x + y) ^ L) / (1 - (x + y)) := by
      rw [eq_div_iff hne, mul_comm]; exact mul_neg_geom_sum (x + y) L
    have : (1 - (x + y))⁻¹ - ∑ i ∈ range L, (x + y) ^ i = (x + y) ^ L / (1 - (x + y)) := by
      rw [h2]; field_simp; ring
    rw [this, norm_div, norm_pow]
    gcongr
  have hmiss : ‖∑ N ∈ range L, ∑ m ∈ antidiagonal N, T m
      - ∑ N ∈ range L, ∑ m ∈ antidiagonal N, (if m ∈ I then T m else 0)‖
      ≤ ∑ i ∈ range (L - p), ρ ^ (p + i) := by
    rw [← sum_sub_distrib]
    have hL2 : L = p + (L - p) := by omega
    conv_lhs => rw [hL2]
    rw [sum_range_add]
    have hz : ∑ N ∈ range p, (∑ m ∈ antidiagonal N, T m
        - ∑ m ∈ antidiagonal N, (if m ∈ I then T m else 0)) = 0 := by
      refine sum_eq_zero fun N hN => ?_
      rw [sub_eq_zero]
      refine sum_congr rfl fun m hm => ?_
      rw [mem_antidiagonal] at hm
      rw [mem_range] at hN
      rw [if_pos (hI m.1 m.2 (by omega))]
    rw [hz, zero_add]
    refine (norm_sum_le _ _).trans (sum_le_sum fun i _ => ?_)
    rw [← sum_sub_distrib, ← hnorm]
    refine (norm_sum_le _ _).trans (sum_le_sum fun m _ => ?_)
    split_ifs <;> simp
  have hgeom : ∑ i ∈ range (L - p), ρ ^ (p + i) = (ρ ^ p - ρ ^ L) / (1 - ρ) := by
    have h1 : (1 - ρ) ≠ 0 := by linarith
    simp only [pow_add ρ p, ← mul_sum]
    have hL2 : ρ ^ L = ρ ^ p * ρ ^ (L - p) := by rw [← pow_add]; congr 1; omega
    rw [hL2]
    have := mul_neg_geom_sum ρ (L - p)
    have h2 : ∑ i ∈ range (L - p), ρ ^ i = (1 - ρ ^ (L - p)) / (1 - ρ) := by
      rw [eq_div_iff h1, mul_comm]; exact this
    rw [h2]; field_simp
  calc ‖(1 - (x + y))⁻¹ - ∑ N ∈ range L, ∑ m ∈ antidiagonal N, (if m ∈ I then T m else 0)‖
      = ‖((1 - (x + y))⁻¹ - ∑ N ∈ range L, ∑ m ∈ antidiagonal N, T m)
        + (∑ N ∈ range L, ∑ m ∈ antidiagonal N, T m
          - ∑ N ∈ range L, ∑ m ∈ antidiagonal N, (if m ∈ I then T m else 0))‖ := by congr 1; ring
    _ ≤ ρ ^ L / (1 - ρ) + (ρ ^ p - ρ ^ L) / (1 - ρ) :=
        (norm_add_le _ _).trans (add_le_add hcut (hmiss.trans_eq hgeom))
    _ = ρ ^ p / (1 - ρ) := by ring

end FMM
