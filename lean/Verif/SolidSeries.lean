import Verif.SolidBound
import Verif.SeriesBounds
import Verif.PropsVec

/-!
# Expansions of `1/|x - s|` in solid harmonics and their truncation errors
-/

namespace FMM
open Finset

theorem len3_eq_norm (v : Vec 3) : len3 v = Vec.norm v := by
  rw [Vec.norm_eq, len3, dot3, Fin.sum_univ_three]; congr 1; ring

theorem len3_pos {v : Vec 3} (h : v ≠ 0) : 0 < len3 v := by
  rw [len3_eq_norm]
  exact lt_of_le_of_ne (Vec.norm_nonneg v) fun h0 => h ((Vec.norm_eq_zero_iff v).mp h0.symm)

theorem dot3_eq_dot (u v : Vec 3) : dot3 u v = Vec.dot u v := by
  rw [Vec.dot_eq, Fin.sum_univ_three, dot3]

theorem dot3_le (u v : Vec 3) : |dot3 u v| ≤ len3 u * len3 v := by
  rw [dot3_eq_dot, len3_eq_norm, len3_eq_norm]; exact (C46_triangle u v).1

theorem len3_add_le (u v : Vec 3) : len3 (u + v) ≤ len3 u + len3 v := by
  rw [len3_eq_norm, len3_eq_norm, len3_eq_norm]; exact (C46_triangle u v).2

theorem exists_zeta (x s : Vec 3) : ∃ ζ : ℂ, ζ.re = dot3 x s ∧ Complex.normSq ζ = dot3 x x * dot3 s s
    ∧ ‖ζ‖ = len3 x * len3 s := by
  have h := dot3_le x s
  have h2 : dot3 x s ^ 2 ≤ dot3 x x * dot3 s s := by
    rw [← len3_sq, ← len3_sq, ← mul_pow, ← sq_abs]
    exact pow_le_pow_left₀ (abs_nonneg _) h 2
  refine ⟨⟨dot3 x s, Real.sqrt (dot3 x x * dot3 s s - dot3 x s ^ 2)⟩, rfl, ?_, ?_⟩
  · rw [Complex.normSq_mk, Real.mul_self_sqrt (by linarith)]; ring
  · rw [Complex.norm_def, Complex.normSq_mk, Real.mul_self_sqrt (by linarith),
      show dot3 x s * dot3 x s + (dot3 x x * dot3 s s - dot3 x s ^ 2) = dot3 x x * dot3 s s by ring,
      Real.sqrt_mul (dot3_self_nonneg x)]
    rfl

theorem sK_symm (n : ℕ) (x s : Vec 3) : sK n x s = sK n s x := by
  obtain ⟨ζ, h1, h2, -⟩ := exists_zeta x s
  rw [sK_gQ x s ζ h1 h2, sK_gQ s x ζ (by rw [h1, dot3_comm]) (by rw [h2, mul_comm])]

theorem sK_norm_le (n : ℕ) (x s : Vec 3) : ‖sK n x s‖ ≤ (len3 x * len3 s) ^ n := by
  obtain ⟨ζ, h1, h2, h3⟩ := exists_zeta x s
  rw [sK_gQ x s ζ h1 h2]
  exact gQ_norm_le n _ _ h3.le (by rw [Complex.norm_conj, h3])

theorem gQ_smul (n : ℕ) (c ζ η : ℂ) : gQ n (c * ζ) (c * η) = c ^ n * gQ n ζ η := by
  unfold gQ
  rw [mul_sum]
  refine sum_congr rfl fun x hx => ?_
  rw [mem_antidiagonal] at hx
  rw [← hx, mul_pow, mul_pow, pow_add]; ring

/-- The multipole series of `1/|x - s|`. -/
theorem sK_hasSum (x s : Vec 3) (h : len3 s < len3 x) :
    HasSum (fun n => sK n x s / (len3 x : ℂ) ^ (2 * n + 1)) ((1 / len3 (x - s) : ℝ) : ℂ) := by
  obtain ⟨ζ, h1, h2, h3⟩ := exists_zeta x s
  have hx : 0 < len3 x := (len3_nonneg s).trans_lt h
  have hxc : (len3 x : ℂ) ≠ 0 := by exact_mod_cast hx.ne'
  set c : ℂ := ((1 / len3 x ^ 2 : ℝ) : ℂ) with hc
  have hcn : ‖c‖ = 1 / len3 x ^ 2 := by
    rw [hc, Complex.norm_real, Real.norm_eq_abs, abs_of_pos (by positivity)]
  have hn : ‖c * ζ‖ < 1 := by
    rw [norm_mul, hcn, h3]
    have : 1 / len3 x ^ 2 * (len3 x * len3 s) = len3 s / len3 x := by field_simp
    rw [this, div_lt_one hx]; exact h
  have hs := gQ_hasSum hn
  have hval : 1 / ‖1 - c * ζ‖ / len3 x = 1 / len3 (x - s) := by
    have e : ‖1 - c * ζ‖ * len3 x = len3 (x - s) := by
      rw [← sq_eq_sq₀ (by positivity) (len3_nonneg _), mul_pow, len3_sq (x - s), ← Complex.normSq_eq_norm_sq]
      have hre : (c * ζ).re = 1 / len3 x ^ 2 * dot3 x s := by rw [hc, Complex.re_ofReal_mul, h1]
      have him : (c * ζ).im = 1 / len3 x ^ 2 * ζ.im := by rw [hc, Complex.im_ofReal_mul]
      have h2' : dot3 x s ^ 2 + ζ.im ^ 2 = len3 x ^ 2 * len3 s ^ 2 := by
        rw [len3_sq, len3_sq, ← h2, Complex.normSq_apply, h1]; ring
      have hd : dot3 (x - s) (x - s) = len3 x ^ 2 - 2 * dot3 x s + len3 s ^ 2 := by
        rw [len3_sq, len3_sq]; simp [dot3]; ring
      rw [Complex.normSq_apply, Complex.sub_re, Complex.sub_im, hre, him, Complex.one_re, Complex.one_im, hd]
      field_simp
      linear_combination h2'
    rw [← e, div_div]
  have := hs.div_const (len3 x : ℂ)
  rw [← Complex.ofReal_div, hval] at this
  have e : (fun n => sK n x s / (len3 x : ℂ) ^ (2 * n + 1))
      = fun n => gQ n (c * ζ) ((starRingEnd ℂ) (c * ζ)) / (len3 x : ℂ) := by
    funext n
    rw [map_mul, hc, Complex.conj_ofReal, gQ_smul, sK_gQ x s ζ h1 h2, pow_succ, pow_mul]
    push_cast
    rw [one_div, inv_pow]
    field_simp
  rw [e]; exact this

theorem cut_bound {f : ℕ → ℂ} {a : ℂ} (hf : HasSum f a) {C q : ℝ} (h0 : 0 ≤ q) (h1 : q < 1) (P : ℕ)
    (hb : ∀ n, P ≤ n → ‖f n‖ ≤ C * q ^ n) : ‖a - ∑ n ∈ range P, f n‖ ≤ C * q ^ P / (1 - q) := by
  have ht := (hasSum_nat_add_iff' P).mpr hf
  rw [← ht.tsum_eq]
  have hg := ((hasSum_geometric_of_lt_one h0 h1).mul_left (C * q ^ P))
  have := tsum_of_norm_bounded hg (f := fun n => f (n + P)) fun n => by
    refine (hb (n + P) (by omega)).trans_eq ?_
    rw [pow_add]; ring
  rwa [← div_eq_mul_inv] at this

/-- Truncation error of the multipole series. -/
theorem multipole_cut (x s : Vec 3) (h : len3 s < len3 x) (P : ℕ) :
    ‖((1 / len3 (x - s) : ℝ) : ℂ) - ∑ n ∈ range P, sK n x s / (len3 x : ℂ) ^ (2 * n + 1)‖
      ≤ (len3 s / len3 x) ^ P / (len3 x - len3 s) := by
  have hx : 0 < len3 x := (len3_nonneg s).trans_lt h
  have hd : len3 s / len3 x < 1 := (div_lt_one hx).mpr h
  have h0 : 0 ≤ len3 s / len3 x := div_nonneg (len3_nonneg s) hx.le
  refine (cut_bound (sK_hasSum x s h) h0 hd P (C := 1 / len3 x) fun n _ => ?_).trans_eq ?_
  · rw [norm_div, norm_pow, Complex.norm_real, Real.norm_eq_abs, abs_of_pos hx, div_le_iff₀ (by positivity)]
    refine (sK_norm_le n x s).trans_eq ?_
    rw [mul_pow, div_pow, pow_succ, two_mul, pow_add]; field_simp
  · have : len3 x - len3 s ≠ 0 := by linarith
    field_simp

/-- Truncation of the double series of `1/|h - (u + v)|` to any finite set of degree pairs that contains all pairs of
total degree below `P`. -/
theorem double_cut (u v h : Vec 3) (hlt : len3 u + len3 v < len3 h) (P : ℕ) (I : Finset (ℕ × ℕ))
    (hI : ∀ j n, j + n < P → (j, n) ∈ I) :
    ‖((1 / len3 (h - (u + v)) : ℝ) : ℂ)
        - ∑ x ∈ I, sT (x.1 + x.2) x.1 u v h / (len3 h : ℂ) ^ (2 * (x.1 + x.2) + 1)‖
      ≤ ((len3 u + len3 v) / len3 h) ^ P / (len3 h - (len3 u + len3 v)) := by
  have hu := len3_nonneg u
  have hv := len3_nonneg v
  have hh : 0 < len3 h := by linarith
  have hd : (len3 u + len3 v) / len3 h < 1 := (div_lt_one hh).mpr hlt
  have h0 : 0 ≤ (len3 u + len3 v) / len3 h := by positivity
  set f : ℕ × ℕ → ℂ := fun x => sT (x.1 + x.2) x.1 u v h / (len3 h : ℂ) ^ (2 * (x.1 + x.2) + 1) with hf
  have hfb : ∀ x, ‖f x‖ ≤ ((x.1 + x.2).choose x.1 : ℝ) * len3 u ^ x.1 * len3 v ^ x.2 / len3 h ^ (x.1 + x.2 + 1) := by
    intro x
    rw [hf]
    simp only
    rw [norm_div, norm_pow, Complex.norm_real, Real.norm_eq_abs, abs_of_pos hh, div_le_div_iff₀ (by positivity) (by positivity)]
    have := sT_bound (x.1 + x.2) x.1 (by omega) u v h
    rw [Nat.add_sub_cancel_left] at this
    calc _ ≤ (((x.1 + x.2).choose x.1 : ℝ) * len3 u ^ x.1 * len3 v ^ x.2 * len3 h ^ (x.1 + x.2)) * len3 h ^ (x.1 + x.2 + 1) := by
          gcongr
      _ = _ := by rw [two_mul]; ring
  have hF : HasSum (fun N => ∑ x ∈ antidiagonal N, f x) ((1 / len3 (h - (u + v)) : ℝ) : ℂ) := by
    have e : (fun N => ∑ x ∈ antidiagonal N, f x) = fun N => sK N h (u + v) / (len3 h : ℂ) ^ (2 * N + 1) := by
      funext N
      rw [sK_symm, sK_add, Nat.sum_antidiagonal_eq_sum_range_succ_mk, sum_div]
      refine sum_congr rfl fun j hj => ?_
      rw [mem_range] at hj
      rw [hf]
      simp only
      rw [Nat.add_sub_cancel' (by omega : j ≤ N)]
    rw [e]
    exact sK_hasSum h (u + v) ((len3_add_le u v).trans_lt hlt)
  obtain ⟨L, hL0, hL⟩ := exists_degree_bound I P
  have hG : HasSum (fun N => ∑ x ∈ antidiagonal N, if x ∈ I then f x else 0) (∑ x ∈ I, f x) := by
    rw [sum_by_degree I L hL f]
    refine hasSum_sum_of_ne_finset_zero fun N hN => ?_
    rw [mem_range, not_lt] at hN
    refine sum_eq_zero fun x hx => if_neg fun hx' => ?_
    rw [mem_antidiagonal] at hx
    have := hL x hx'
    omega
  have hFG := hF.sub hG
  have hz : ∀ N, N < P → ∑ x ∈ antidiagonal N, f x - ∑ x ∈ antidiagonal N, (if x ∈ I then f x else 0) = 0 := by
    intro N hN
    rw [sub_eq_zero]
    refine sum_congr rfl fun x hx => ?_
    rw [mem_antidiagonal] at hx
    rw [if_pos (hI x.1 x.2 (by omega))]
  have hb := cut_bound hFG h0 hd P (C := 1 / len3 h) fun N _ => by
    rw [← sum_sub_distrib]
    refine (norm_sum_le _ _).trans ?_
    calc _ ≤ ∑ x ∈ antidiagonal N, ((x.1 + x.2).choose x.1 : ℝ) * len3 u ^ x.1 * len3 v ^ x.2 / len3 h ^ (x.1 + x.2 + 1) := by
          refine sum_le_sum fun x _ => ?_
          by_cases hx : x ∈ I
          · rw [if_pos hx, sub_self, norm_zero]; positivity
          · rw [if_neg hx, sub_zero]; exact hfb x
      _ = 1 / len3 h * ((len3 u + len3 v) / len3 h) ^ N := by
          rw [div_pow, (Commute.all (len3 u) (len3 v)).add_pow', sum_div, mul_sum]
          refine sum_congr rfl fun x hx => ?_
          rw [mem_antidiagonal] at hx
          rw [hx, nsmul_eq_mul, pow_succ]
          field_simp
  rw [sum_eq_zero fun N hN => hz N (mem_range.mp hN), sub_zero] at hb
  refine hb.trans_eq ?_
  have : len3 h - (len3 u + len3 v) ≠ 0 := by linarith
  field_simp

end FMM
