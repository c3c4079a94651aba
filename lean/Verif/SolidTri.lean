import Verif.SolidNorm
import Mathlib.Data.Nat.Choose.Vandermonde

/-!
# The trilinear form of the translation operators with absolute values
-/

namespace FMM
open Finset

/-! ## Binomial coefficients -/

theorem choose_log_step (N a b : ℕ) (hab : a < b + 1) : N.choose a * N.choose (b + 1 + 1) ≤ N.choose (a + 1) * N.choose (b + 1) := by
  have h1 := Nat.choose_succ_right_eq N a
  have h2 := Nat.choose_succ_right_eq N (b + 1)
  have h3 : (N - (b + 1)) * (a + 1) ≤ (N - a) * (b + 1 + 1) := Nat.mul_le_mul (by omega) (by omega)
  have hp : 0 < (a + 1) * (b + 1 + 1) := by positivity
  refine Nat.le_of_mul_le_mul_left ?_ hp
  calc (a + 1) * (b + 1 + 1) * (N.choose a * N.choose (b + 1 + 1))
      = (a + 1) * N.choose a * (N.choose (b + 1 + 1) * (b + 1 + 1)) := by ring
    _ = N.choose a * N.choose (b + 1) * ((N - (b + 1)) * (a + 1)) := by rw [h2]; ring
    _ ≤ N.choose a * N.choose (b + 1) * ((N - a) * (b + 1 + 1)) := Nat.mul_le_mul_left _ h3
    _ = (N.choose (a + 1) * (a + 1)) * N.choose (b + 1) * (b + 1 + 1) := by rw [h1]; ring
    _ = _ := by ring

theorem choose_log_concave (N j : ℕ) : ∀ s, s ≤ j → N.choose (j - s) * N.choose (j + s) ≤ N.choose j ^ 2
  | 0, _ => by rw [Nat.sub_zero, Nat.add_zero, pow_two]
  | s + 1, h => by
    refine le_trans ?_ (choose_log_concave N j s (by omega))
    obtain ⟨a, rfl⟩ : ∃ a, j = a + s + 1 := ⟨j - s - 1, by omega⟩
    rw [show a + s + 1 - (s + 1) = a by omega, show a + s + 1 - s = a + 1 by omega]
    have := choose_log_step N a (a + s + s) (by omega)
    rw [show a + s + 1 + (s + 1) = a + s + s + 1 + 1 by omega, show a + s + 1 + s = a + s + s + 1 by omega]
    exact this

/-- `binom(2N, 2j) ≤ (2j+1) binom(N, j)²`. -/
theorem choose_two_mul_le (N j : ℕ) : (2 * N).choose (2 * j) ≤ (2 * j + 1) * N.choose j ^ 2 := by
  rw [two_mul N, Nat.add_choose_eq]
  have hc : (antidiagonal (2 * j)).card = 2 * j + 1 := Nat.card_antidiagonal _
  rw [← hc]
  refine (sum_le_card_nsmul _ _ (N.choose j ^ 2) fun x hx => ?_).trans (le_of_eq (smul_eq_mul _ _))
  rw [mem_antidiagonal] at hx
  rcases le_total x.1 j with h | h
  · have := choose_log_concave N j (j - x.1) (by omega)
    rwa [show j - (j - x.1) = x.1 by omega, show j + (j - x.1) = x.2 by omega] at this
  · have := choose_log_concave N j (j - x.2) (by omega)
    rw [show j - (j - x.2) = x.2 by omega, show j + (j - x.2) = x.1 by omega] at this
    rwa [mul_comm]

theorem sqrt_choose_le (N j : ℕ) {D : ℝ} (hD : 2 * (j : ℝ) + 1 ≤ D) :
    Real.sqrt ((2 * N).choose (2 * j)) ≤ Real.sqrt D * N.choose j := by
  have h : (((2 * N).choose (2 * j) : ℕ) : ℝ) ≤ D * (N.choose j : ℝ) ^ 2 := by
    have h1 : (((2 * N).choose (2 * j) : ℕ) : ℝ) ≤ (((2 * j + 1) * N.choose j ^ 2 : ℕ) : ℝ) := by
      exact_mod_cast choose_two_mul_le N j
    push_cast at h1
    exact h1.trans (mul_le_mul_of_nonneg_right hD (sq_nonneg _))
  have hD0 : 0 ≤ D := le_trans (by positivity) hD
  refine (Real.sqrt_le_sqrt h).trans (le_of_eq ?_)
  rw [Real.sqrt_mul hD0, Real.sqrt_sq (Nat.cast_nonneg _)]

/-! ## The form -/

/-- Ratio of the normalisations. -/
noncomputable def wW (j n : ℕ) (k m : ℤ) : ℝ := cN (j + n) (k + m) / (cN j k * cN n m)

theorem wW_pos (j n : ℕ) (k m : ℤ) : 0 < wW j n k m := div_pos (cN_pos _ _) (mul_pos (cN_pos _ _) (cN_pos _ _))

theorem wW_comm (j n : ℕ) (k m : ℤ) : wW n j m k = wW j n k m := by
  unfold wW; rw [Nat.add_comm n j, add_comm m k, mul_comm]

theorem cN_sq' (n : ℕ) (m : ℤ) : cN n m ^ 2 = ((n - m).toNat.factorial : ℝ) * ((n + m).toNat.factorial : ℝ) := by
  unfold cN; exact Real.sq_sqrt (by positivity)

theorem wW_sq {j n : ℕ} {k m : ℤ} (hk : |k| ≤ j) (hm : |m| ≤ n) :
    wW j n k m ^ 2 = (((j + n : ℕ) + (k + m) : ℤ).toNat.choose (j + k).toNat : ℝ) * (((j + n : ℕ) - (k + m) : ℤ).toNat.choose (j - k).toNat : ℝ) := by
  rw [abs_le] at hk hm
  unfold wW
  rw [div_pow, mul_pow, cN_sq', cN_sq', cN_sq']
  obtain ⟨a, ha⟩ : ∃ a : ℕ, (a : ℤ) = j + k := ⟨(j + k).toNat, by omega⟩
  obtain ⟨b, hb⟩ : ∃ b : ℕ, (b : ℤ) = j - k := ⟨(j - k).toNat, by omega⟩
  obtain ⟨c, hc⟩ : ∃ c : ℕ, (c : ℤ) = n + m := ⟨(n + m).toNat, by omega⟩
  obtain ⟨e, he⟩ : ∃ e : ℕ, (e : ℤ) = n - m := ⟨(n - m).toNat, by omega⟩
  rw [show (((j + n : ℕ) : ℤ) + (k + m)).toNat = a + c by omega, show (((j + n : ℕ) : ℤ) - (k + m)).toNat = b + e by omega,
    show ((j : ℤ) + k).toNat = a by omega, show ((j : ℤ) - k).toNat = b by omega, show ((n : ℤ) + m).toNat = c by omega,
    show ((n : ℤ) - m).toNat = e by omega]
  have h1 : (((a + c).choose a * a.factorial * c.factorial : ℕ) : ℝ) = ((a + c).factorial : ℝ) := by
    exact_mod_cast congrArg (fun x : ℕ => (x : ℝ)) (by
      have := Nat.choose_mul_factorial_mul_factorial (show a ≤ a + c by omega); rwa [Nat.add_sub_cancel_left] at this)
  have h2 : (((b + e).choose b * b.factorial * e.factorial : ℕ) : ℝ) = ((b + e).factorial : ℝ) := by
    exact_mod_cast congrArg (fun x : ℕ => (x : ℝ)) (by
      have := Nat.choose_mul_factorial_mul_factorial (show b ≤ b + e by omega); rwa [Nat.add_sub_cancel_left] at this)
  push_cast at h1 h2
  rw [← h1, ← h2]
  have f1 : (a.factorial : ℝ) ≠ 0 := by positivity
  have f2 : (b.factorial : ℝ) ≠ 0 := by positivity
  have f3 : (c.factorial : ℝ) ≠ 0 := by positivity
  have f4 : (e.factorial : ℝ) ≠ 0 := by positivity
  field_simp

theorem vandermonde_Icc (j n : ℕ) {μ : ℤ} (hμ : |μ| ≤ (j + n : ℕ)) :
    ∑ k ∈ Icc (-(j : ℤ)) j, ((((j + n : ℕ) + μ : ℤ).toNat.choose (j + k).toNat : ℝ) * (((j + n : ℕ) - μ : ℤ).toNat.choose (j - k).toNat : ℝ))
      = ((2 * (j + n)).choose (2 * j) : ℝ) := by
  rw [abs_le] at hμ
  have h := Nat.add_choose_eq ((j + n : ℕ) + μ : ℤ).toNat ((j + n : ℕ) - μ : ℤ).toNat (2 * j)
  rw [show ((j + n : ℕ) + μ : ℤ).toNat + ((j + n : ℕ) - μ : ℤ).toNat = 2 * (j + n) by omega] at h
  rw [h]
  push_cast
  refine sum_bij' (fun k _ => ((j + k).toNat, (j - k).toNat)) (fun x _ => (x.1 : ℤ) - j) ?_ ?_ ?_ ?_ ?_
  · intro k hk; rw [mem_Icc] at hk; rw [mem_antidiagonal]; simp only; omega
  · intro x hx; rw [mem_antidiagonal] at hx; rw [mem_Icc]; omega
  · intro k hk; rw [mem_Icc] at hk; simp only; omega
  · intro x hx
    rw [mem_antidiagonal] at hx
    ext <;> simp only <;> omega
  · intro k _; rfl

/-- The trilinear form is bounded by the product of the Euclidean norms. -/
theorem tri_le (j n : ℕ) (α β γ : ℤ → ℝ) :
    ∑ k ∈ Icc (-(j : ℤ)) j, ∑ m ∈ Icc (-(n : ℤ)) n, wW j n k m * α k * β m * γ (k + m)
      ≤ Real.sqrt ((2 * (j + n)).choose (2 * j)) * l2 (Icc (-(j : ℤ)) j) α * l2 (Icc (-(n : ℤ)) n) β
        * l2 (Icc (-((j + n : ℕ) : ℤ)) (j + n : ℕ)) γ := by
  set C : ℝ := ((2 * (j + n)).choose (2 * j) : ℝ) with hC
  have h1 := sum_mul_le_l2 (Icc (-(j : ℤ)) j ×ˢ Icc (-(n : ℤ)) n) (fun x => α x.1 * β x.2) (fun x => wW j n x.1 x.2 * γ (x.1 + x.2))
  have e1 : ∑ x ∈ Icc (-(j : ℤ)) j ×ˢ Icc (-(n : ℤ)) n, α x.1 * β x.2 * (wW j n x.1 x.2 * γ (x.1 + x.2))
      = ∑ k ∈ Icc (-(j : ℤ)) j, ∑ m ∈ Icc (-(n : ℤ)) n, wW j n k m * α k * β m * γ (k + m) := by
    rw [sum_product]
    exact sum_congr rfl fun k _ => sum_congr rfl fun m _ => by ring
  have e2 : l2 (Icc (-(j : ℤ)) j ×ˢ Icc (-(n : ℤ)) n) (fun x => α x.1 * β x.2) = l2 (Icc (-(j : ℤ)) j) α * l2 (Icc (-(n : ℤ)) n) β := by
    unfold l2
    rw [← Real.sqrt_mul (sum_nonneg fun _ _ => sq_nonneg _), sum_mul_sum, sum_product]
    congr 1
    exact sum_congr rfl fun k _ => sum_congr rfl fun m _ => by rw [norm_mul, mul_pow]
  have e3 : l2 (Icc (-(j : ℤ)) j ×ˢ Icc (-(n : ℤ)) n) (fun x => wW j n x.1 x.2 * γ (x.1 + x.2))
      ≤ Real.sqrt C * l2 (Icc (-((j + n : ℕ) : ℤ)) (j + n : ℕ)) γ := by
    unfold l2
    rw [← Real.sqrt_mul (by positivity)]
    apply Real.sqrt_le_sqrt
    rw [sum_product]
    set G : ℤ → ℤ → ℝ := fun k μ => (((j + n : ℕ) + μ : ℤ).toNat.choose (j + k).toNat : ℝ)
      * (((j + n : ℕ) - μ : ℤ).toNat.choose (j - k).toNat : ℝ) with hG
    have s1 : ∀ k ∈ Icc (-(j : ℤ)) j, ∑ m ∈ Icc (-(n : ℤ)) n, ‖wW j n k m * γ (k + m)‖ ^ 2
        ≤ ∑ μ ∈ Icc (-((j + n : ℕ) : ℤ)) (j + n : ℕ), G k μ * ‖γ μ‖ ^ 2 := by
      intro k hk
      have hk' : |k| ≤ j := by rw [mem_Icc] at hk; rw [abs_le]; exact hk
      have t1 : ∑ m ∈ Icc (-(n : ℤ)) n, ‖wW j n k m * γ (k + m)‖ ^ 2
          = ∑ μ ∈ (Icc (-(n : ℤ)) n).image (fun m => k + m), G k μ * ‖γ μ‖ ^ 2 := by
        rw [sum_image fun a _ b _ h => by simpa using h]
        refine sum_congr rfl fun m hm => ?_
        have hm' : |m| ≤ n := by rw [mem_Icc] at hm; rw [abs_le]; exact hm
        rw [norm_mul, mul_pow, Real.norm_of_nonneg (wW_pos _ _ _ _).le, wW_sq hk' hm']
      rw [t1]
      refine sum_le_sum_of_subset_of_nonneg ?_ fun μ _ _ => by simp only [hG]; positivity
      intro μ hμ
      rw [mem_image] at hμ
      obtain ⟨m, hm, rfl⟩ := hμ
      rw [mem_Icc] at hm hk ⊢
      push_cast; omega
    refine (sum_le_sum s1).trans (le_of_eq ?_)
    rw [sum_comm, mul_sum]
    refine sum_congr rfl fun μ hμ => ?_
    have hμ' : |μ| ≤ ((j + n : ℕ) : ℤ) := by rw [mem_Icc] at hμ; rw [abs_le]; exact hμ
    rw [← sum_mul, vandermonde_Icc j n hμ']
  rw [e1, e2] at h1
  refine h1.trans ?_
  calc l2 (Icc (-(j : ℤ)) j) α * l2 (Icc (-(n : ℤ)) n) β * l2 (Icc (-(j : ℤ)) j ×ˢ Icc (-(n : ℤ)) n) (fun x => wW j n x.1 x.2 * γ (x.1 + x.2))
      ≤ l2 (Icc (-(j : ℤ)) j) α * l2 (Icc (-(n : ℤ)) n) β * (Real.sqrt C * l2 (Icc (-((j + n : ℕ) : ℤ)) (j + n : ℕ)) γ) :=
        mul_le_mul_of_nonneg_left e3 (mul_nonneg (l2_nonneg _ _) (l2_nonneg _ _))
    _ = _ := by ring

/-! ## The three operators with absolute values -/

/-- Indices of one degree. -/
noncomputable abbrev Ir (n : ℕ) : Finset ℤ := Icc (-(n : ℤ)) n

/-- Product of two families (the shift of multipole coefficients). -/
theorem l2_conv (j n : ℕ) (α β r : ℤ → ℝ) (hr : ∀ μ ∈ Ir (j + n), |r μ| ≤ ∑ k ∈ (Ir j).filter (fun k => |μ - k| ≤ n), wW j n k (μ - k) * |α k| * |β (μ - k)|) :
    l2 (Ir (j + n)) r ≤ Real.sqrt ((2 * (j + n)).choose (2 * j)) * l2 (Ir j) α * l2 (Ir n) β := by
  refine l2_le_of_pair (mul_nonneg (mul_nonneg (Real.sqrt_nonneg _) (l2_nonneg _ _)) (l2_nonneg _ _)) fun γ hγ => ?_
  have h := tri_le j n (fun k => |α k|) (fun k => |β k|) γ
  have ea : l2 (Icc (-(j : ℤ)) j) (fun k => |α k|) = l2 (Ir j) α := l2_norm (Ir j) α
  have eb : l2 (Icc (-(n : ℤ)) n) (fun k => |β k|) = l2 (Ir n) β := l2_norm (Ir n) β
  rw [ea, eb] at h
  refine le_trans ?_ h
  refine (sum_le_sum fun μ hμ => mul_le_mul_of_nonneg_right (hr μ hμ) (hγ μ)).trans ?_
  simp only [sum_mul]
  rw [sum_sigma', sum_sigma']
  refine le_of_eq ?_
  refine sum_bij' (fun x _ => ⟨x.2, x.1 - x.2⟩) (fun x _ => ⟨x.1 + x.2, x.1⟩) ?_ ?_ ?_ ?_ ?_
  · rintro ⟨μ, k⟩ hx
    simp only [mem_sigma, mem_filter, mem_Icc, abs_le] at hx ⊢
    omega
  · rintro ⟨k, m⟩ hx
    simp only [mem_sigma, mem_filter, mem_Icc, abs_le] at hx ⊢
    push_cast
    omega
  · rintro ⟨μ, k⟩ _; simp
  · rintro ⟨k, m⟩ _; simp
  · rintro ⟨μ, k⟩ _; simp

/-- Correlation of two families (the shift of local coefficients). -/
theorem l2_corr (j n : ℕ) (β γ r : ℤ → ℝ) (hr : ∀ k ∈ Ir j, |r k| ≤ ∑ m ∈ Ir n, wW j n k m * |β m| * |γ (k + m)|) :
    l2 (Ir j) r ≤ Real.sqrt ((2 * (j + n)).choose (2 * j)) * l2 (Ir n) β * l2 (Ir (j + n)) γ := by
  refine l2_le_of_pair (mul_nonneg (mul_nonneg (Real.sqrt_nonneg _) (l2_nonneg _ _)) (l2_nonneg _ _)) fun α hα => ?_
  have h := tri_le j n α (fun k => |β k|) (fun k => |γ k|)
  have eb : l2 (Icc (-(n : ℤ)) n) (fun k => |β k|) = l2 (Ir n) β := l2_norm (Ir n) β
  have ec : l2 (Icc (-((j + n : ℕ) : ℤ)) (j + n : ℕ)) (fun k => |γ k|) = l2 (Ir (j + n)) γ := l2_norm (Ir (j + n)) γ
  rw [eb, ec] at h
  refine le_trans ?_ (h.trans (le_of_eq (by ring)))
  refine sum_le_sum fun k hk => (mul_le_mul_of_nonneg_right (hr k hk) (hα k)).trans (le_of_eq ?_)
  rw [sum_mul]
  exact sum_congr rfl fun m _ => by ring

end FMM
