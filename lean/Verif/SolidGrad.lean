import Verif.Exp3Force
import Mathlib.Analysis.Calculus.SmoothSeries

/-!
# Truncation error of the gradient of the double series of `1/|h - (u + v)|`
-/

namespace FMM
open Finset

/-- Derivative of `sT` in the direction `e` of its first vector. -/
noncomputable def sTD (N j : ℕ) (u e v h : Vec 3) : ℂ :=
  ∑ m ∈ Icc (-(N : ℤ)) N, (-1) ^ m * fF N m
    * (∑ k ∈ Icc (-(N : ℤ)) N, sD u e j k * sR v (N - j) (m - k)) * sR h N (-m)

theorem line_hasDerivAt (u e : Vec 3) (t : ℝ) : HasDerivAt (fun t : ℝ => u + t • e) e t := by
  have := ((hasDerivAt_id t).smul_const e).const_add u
  simpa using this

theorem sR_line (u e : Vec 3) (n : ℕ) (m : ℤ) (t : ℝ) :
    HasDerivAt (fun t : ℝ => sR (u + t • e) n m) (sD (u + t • e) e n m) t := by
  have h : HasFDerivAt (fun v => sR v n m) (sDL (u + t • e) n m) ((fun t : ℝ => u + t • e) t) := sR_hasFDerivAt _ n m
  exact h.comp_hasDerivAt t (line_hasDerivAt u e t)

theorem sT_line (N j : ℕ) (u e v h : Vec 3) (t : ℝ) :
    HasDerivAt (fun t : ℝ => sT N j (u + t • e) v h) (sTD N j (u + t • e) e v h) t := by
  unfold sT sTD
  refine HasDerivAt.fun_sum fun m _ => ?_
  refine HasDerivAt.mul_const ?_ _
  refine HasDerivAt.const_mul _ ?_
  refine HasDerivAt.fun_sum fun k _ => ?_
  exact (sR_line u e j k t).mul_const _

theorem exists_rotation_linear (h : Vec 3) : ∃ ρ : Vec 3 → Vec 3, (∀ u v, dot3 (ρ u) (ρ v) = dot3 u v) ∧
    ρ h = zAxis (len3 h) ∧ ∀ u e (t : ℝ), ρ (u + t • e) = ρ u + t • ρ e := by
  by_cases hz : h = zAxis (len3 h)
  · exact ⟨id, fun _ _ => rfl, hz, fun _ _ _ => rfl⟩
  set n : Vec 3 := h - zAxis (len3 h) with hn
  have hnn : dot3 n n ≠ 0 := by
    intro h0
    exact hz (sub_eq_zero.mp (dot3_self_eq_zero h0))
  have hc : len3 h ^ 2 = dot3 h h := len3_sq h
  refine ⟨fun v => v - (2 * dot3 v n / dot3 n n) • n, ?_, ?_, ?_⟩
  · intro u v
    have e : ∀ (a b : ℝ), dot3 (u - a • n) (v - b • n) = dot3 u v - b * dot3 u n - a * dot3 v n + a * b * dot3 n n := by
      intro a b; simp [dot3]; ring
    rw [e]; field_simp; ring
  · have h1 : 2 * dot3 h n = dot3 n n := by
      rw [hn]
      simp only [dot3, Pi.sub_apply, zAxis] at hc ⊢
      simp only [Matrix.cons_val_zero, Matrix.cons_val_one, Matrix.cons_val]
      linear_combination -hc
    show h - (2 * dot3 h n / dot3 n n) • n = _
    rw [h1, div_self hnn, one_smul, hn]; simp
  · intro u e t
    simp only [dot3_add_left, dot3_smul_left]
    ext i
    simp only [Pi.sub_apply, Pi.add_apply, Pi.smul_apply, smul_eq_mul]
    ring

/-- Rotational invariance of the derivative. -/
theorem sTD_rot {ρ : Vec 3 → Vec 3} (hρ : ∀ u v, dot3 (ρ u) (ρ v) = dot3 u v)
    (hl : ∀ u e (t : ℝ), ρ (u + t • e) = ρ u + t • ρ e) (N j : ℕ) (hj : j ≤ N) (u e v h : Vec 3) :
    sTD N j u e v h = sTD N j (ρ u) (ρ e) (ρ v) (ρ h) := by
  have h1 := sT_line N j u e v h 0
  have h2 := sT_line N j (ρ u) (ρ e) (ρ v) (ρ h) 0
  simp only [zero_smul, add_zero] at h1 h2
  have he : (fun t : ℝ => sT N j (u + t • e) v h) = fun t : ℝ => sT N j (ρ u + t • ρ e) (ρ v) (ρ h) := by
    funext t
    rw [← hl]
    exact sT_gram (hρ _ _).symm (hρ _ _).symm (hρ _ _).symm (hρ _ _).symm (hρ _ _).symm (hρ _ _).symm N j hj
  rw [he] at h1
  exact h1.unique h2

theorem sTD_zAxis (N j : ℕ) (u e v : Vec 3) (c : ℝ) : sTD N j u e v (zAxis c)
    = (N.factorial : ℂ) * (c : ℂ) ^ N * ∑ k ∈ Icc (-(N : ℤ)) N, sD u e j k * sR v (N - j) (-k) := by
  have hf : (N.factorial : ℂ) ≠ 0 := by exact_mod_cast N.factorial_ne_zero
  unfold sTD
  rw [sum_eq_single 0]
  · rw [sR_zAxis, neg_zero, if_pos rfl, fF_zero]
    simp only [zero_sub, zpow_zero]
    field_simp
  · intro b _ hb
    rw [sR_zAxis, if_neg (by omega), mul_zero]
  · intro h; exact absurd (mem_Icc.mpr ⟨by omega, by omega⟩) h

theorem sL_line (u e : Vec 3) (τ : ℂ) (t : ℝ) : sL (u + t • e) τ = sL u τ + (t : ℂ) * sL e τ := by
  unfold sL
  rw [wv_add, wc_add, wv_smul, wc_smul]
  simp only [Pi.add_apply, Pi.smul_apply, smul_eq_mul]
  push_cast; ring

theorem sD_eval (u e : Vec 3) {τ : ℂ} (hτ : τ ≠ 0) (n N : ℕ) (hn : n + 1 ≤ N) :
    ∑ m ∈ Icc (-(N : ℤ)) N, sD u e (n + 1) m * τ ^ m = sL e τ * sL u τ ^ n / (n.factorial : ℂ) := by
  have h1 : HasDerivAt (fun t : ℝ => ∑ m ∈ Icc (-(N : ℤ)) N, sR (u + t • e) (n + 1) m * τ ^ m)
      (∑ m ∈ Icc (-(N : ℤ)) N, sD u e (n + 1) m * τ ^ m) 0 := by
    refine HasDerivAt.fun_sum fun m _ => ?_
    have := (sR_line u e (n + 1) m 0).mul_const (τ ^ m)
    simpa using this
  have h2 : HasDerivAt (fun t : ℝ => (sL u τ + (t : ℂ) * sL e τ) ^ (n + 1) / ((n + 1).factorial : ℂ))
      (sL e τ * sL u τ ^ n / (n.factorial : ℂ)) 0 := by
    have hid : HasDerivAt (fun t : ℝ => (t : ℂ)) 1 0 := Complex.ofRealCLM.hasDerivAt
    have := (((hid.mul_const (sL e τ)).const_add (sL u τ)).pow (n + 1)).div_const ((n + 1).factorial : ℂ)
    refine this.congr_deriv ?_
    have hf : (n.factorial : ℂ) ≠ 0 := by exact_mod_cast n.factorial_ne_zero
    have hn1 : (n : ℂ) + 1 ≠ 0 := by exact_mod_cast Nat.succ_ne_zero n
    rw [Nat.factorial_succ]
    push_cast
    simp
    field_simp
  have he : (fun t : ℝ => ∑ m ∈ Icc (-(N : ℤ)) N, sR (u + t • e) (n + 1) m * τ ^ m)
      = fun t : ℝ => (sL u τ + (t : ℂ) * sL e τ) ^ (n + 1) / ((n + 1).factorial : ℂ) := by
    funext t
    rw [sR_eval _ hτ (n + 1) N hn, sL_line]
  rw [he] at h1
  exact h1.unique h2

/-- Contraction with a derivative. -/
theorem contractD_bound (u e v : Vec 3) (j n N : ℕ) (hN : j + 1 + n ≤ N) :
    ‖∑ k ∈ Icc (-(N : ℤ)) N, sD u e (j + 1) k * sR v n (-k)‖
      ≤ len3 e * len3 u ^ j * len3 v ^ n / ((j.factorial : ℝ) * (n.factorial : ℝ)) := by
  set M := 2 * N + 1 with hM
  have hM0 : M ≠ 0 := by omega
  set ω : ℂ := Complex.exp (2 * Real.pi * Complex.I / M) with hω'
  have hω : IsPrimitiveRoot ω M := Complex.isPrimitiveRoot_exp M hM0
  have hω1 : ‖ω‖ = 1 := hω.norm'_eq_one hM0
  have hωt : ∀ t : ℕ, ‖ω ^ t‖ = 1 := fun t => by rw [norm_pow, hω1, one_pow]
  have hne : ∀ t : ℕ, ω ^ t ≠ 0 := fun t h => by have := hωt t; rw [h, norm_zero] at this; exact zero_ne_one this
  have key : (M : ℂ) * ∑ k ∈ Icc (-(N : ℤ)) N, sD u e (j + 1) k * sR v n (-k)
      = ∑ t ∈ range M, (sL e (ω ^ t) * sL u (ω ^ t) ^ j / (j.factorial : ℂ)) * (sL v (ω ^ t) ^ n / (n.factorial : ℂ)) := by
    have h1 : ∀ t ∈ range M, (sL e (ω ^ t) * sL u (ω ^ t) ^ j / (j.factorial : ℂ)) * (sL v (ω ^ t) ^ n / (n.factorial : ℂ))
        = ∑ k ∈ Icc (-(N : ℤ)) N, ∑ k' ∈ Icc (-(N : ℤ)) N, sD u e (j + 1) k * sR v n k' * (ω ^ t) ^ (k + k') := by
      intro t _
      rw [← sD_eval u e (hne t) j N (by omega), ← sR_eval v (hne t) n N (by omega), sum_mul_sum]
      refine sum_congr rfl fun k _ => sum_congr rfl fun k' _ => ?_
      rw [zpow_add₀ (hne t)]; ring
    rw [sum_congr rfl h1, sum_comm, mul_sum]
    refine sum_congr rfl fun k hk => ?_
    rw [sum_comm]
    rw [mem_Icc] at hk
    rw [sum_eq_single (-k)]
    · rw [← mul_sum, add_neg_cancel, root_sum hω 0 (by simp; omega), if_pos rfl]; ring
    · intro k' hk' hne'
      rw [mem_Icc] at hk'
      rw [← mul_sum, root_sum hω (k + k') (by rw [abs_lt]; constructor <;> omega), if_neg (by omega), mul_zero]
    · intro h; exact absurd (mem_Icc.mpr ⟨by omega, by omega⟩) h
  have hb : ‖(M : ℂ) * ∑ k ∈ Icc (-(N : ℤ)) N, sD u e (j + 1) k * sR v n (-k)‖
      ≤ M * (len3 e * len3 u ^ j * len3 v ^ n / ((j.factorial : ℝ) * (n.factorial : ℝ))) := by
    rw [key]
    refine (norm_sum_le _ _).trans ?_
    calc _ ≤ ∑ _t ∈ range M, len3 e * len3 u ^ j * len3 v ^ n / ((j.factorial : ℝ) * (n.factorial : ℝ)) := by
          refine sum_le_sum fun t _ => ?_
          rw [norm_mul, norm_div, norm_div, norm_mul, norm_pow, norm_pow, Complex.norm_natCast, Complex.norm_natCast,
            div_mul_div_comm]
          have h1 := sL_norm_le u (hωt t)
          have h2 := sL_norm_le v (hωt t)
          have h3 := sL_norm_le e (hωt t)
          have := len3_nonneg u
          have := len3_nonneg e
          gcongr
      _ = _ := by rw [sum_const, card_range, nsmul_eq_mul]
  rw [norm_mul, Complex.norm_natCast] at hb
  have : (0 : ℝ) < M := by exact_mod_cast Nat.pos_of_ne_zero hM0
  exact le_of_mul_le_mul_left hb this

theorem sTD_zero (N : ℕ) (u e v h : Vec 3) : sTD N 0 u e v h = 0 := by
  unfold sTD
  refine sum_eq_zero fun m _ => ?_
  simp [sD_zero]

/-- Bound of the derivatives of the bihomogeneous components. -/
theorem sTD_bound (j n : ℕ) (u e v h : Vec 3) :
    ‖sTD (j + 1 + n) (j + 1) u e v h‖
      ≤ len3 e * ((j + n + 1 : ℕ) * ((j + n).choose j : ℝ) * len3 u ^ j * len3 v ^ n) * len3 h ^ (j + 1 + n) := by
  obtain ⟨ρ, hρ, hh, hl⟩ := exists_rotation_linear h
  have hlen : ∀ w, len3 (ρ w) = len3 w := fun w => by unfold len3; rw [hρ]
  rw [sTD_rot hρ hl _ _ (by omega), hh, sTD_zAxis, norm_mul, norm_mul, norm_pow, Complex.norm_natCast,
    Complex.norm_real, Real.norm_eq_abs, abs_of_nonneg (len3_nonneg h), Nat.add_sub_cancel_left]
  have hb := contractD_bound (ρ u) (ρ e) (ρ v) j n (j + 1 + n) le_rfl
  rw [hlen, hlen, hlen] at hb
  have h1 : ((j + n).choose j : ℝ) = (j + n).factorial / (j.factorial * n.factorial) := by
    rw [eq_div_iff (by positivity)]
    have := Nat.choose_mul_factorial_mul_factorial (show j ≤ j + n by omega)
    rw [Nat.add_sub_cancel_left] at this
    rw [← mul_assoc]
    exact_mod_cast this
  have h2 : ((j + 1 + n).factorial : ℝ) = (j + n + 1 : ℕ) * (j + n).factorial := by
    rw [show j + 1 + n = j + n + 1 by omega, Nat.factorial_succ]; push_cast; ring
  have := len3_nonneg h
  calc _ ≤ ((j + 1 + n).factorial : ℝ) * len3 h ^ (j + 1 + n)
        * (len3 e * len3 u ^ j * len3 v ^ n / ((j.factorial : ℝ) * (n.factorial : ℝ))) := by
        gcongr
    _ = _ := by rw [h1, h2]; ring

/-- The bound of the gradient, `k + 1` the first degree that is not complete. -/
noncomputable def gB (k : ℕ) (b D : ℝ) : ℝ := (k + 1) * (b / D) ^ k / (D * (D - b)) + (b / D) ^ (k + 1) / (D - b) ^ 2

theorem gB_hasSum (k : ℕ) {b D : ℝ} (hb : 0 ≤ b) (hD : b < D) :
    HasSum (fun N : ℕ => ((N + k + 1 : ℕ) : ℝ) * b ^ (N + k) / D ^ (N + k + 2)) (gB k b D) := by
  have hD0 : 0 < D := hb.trans_lt hD
  have hq0 : 0 ≤ b / D := by positivity
  have hq1 : b / D < 1 := (div_lt_one hD0).mpr hD
  have h1 := hasSum_coe_mul_geometric_of_norm_lt_one (r := b / D) (by rwa [Real.norm_eq_abs, abs_of_nonneg hq0])
  have h2 := hasSum_geometric_of_lt_one hq0 hq1
  have h3 := (h1.add (h2.mul_left ((k : ℝ) + 1))).mul_left ((b / D) ^ k / D ^ 2)
  have hne : D - b ≠ 0 := by linarith
  have e : (b / D) ^ k / D ^ 2 * (b / D / (1 - b / D) ^ 2 + ((k : ℝ) + 1) * (1 - b / D)⁻¹) = gB k b D := by
    unfold gB
    have : D - b = D * (1 - b / D) := by field_simp
    have hq : 1 - b / D ≠ 0 := by linarith
    rw [this]
    generalize b / D = q at *
    field_simp
    ring
  rw [e] at h3
  refine h3.congr_fun fun N => ?_
  rw [div_pow, div_pow]
  push_cast
  rw [pow_add D (N + k) 2, pow_add D, pow_add b]
  field_simp
  ring

theorem gB_nonneg (k : ℕ) {b D : ℝ} (hb : 0 ≤ b) (hD : b < D) : 0 ≤ gB k b D := by
  have hD0 : 0 < D := hb.trans_lt hD
  have : 0 < D - b := by linarith
  unfold gB; positivity

theorem gB_mono (k : ℕ) {b b' D D' : ℝ} (hb : 0 ≤ b) (hbb : b ≤ b') (hDD : D' ≤ D) (hlt : b' < D') :
    gB k b D ≤ gB k b' D' := by
  have hD0 : 0 < D' := (hb.trans hbb).trans_lt hlt
  have h1 : 0 < D' - b' := by linarith
  have h2 : D' - b' ≤ D - b := by linarith
  have h3 : b / D ≤ b' / D' := div_le_div₀ (hb.trans hbb) hbb hD0 hDD
  have h4 : 0 ≤ b / D := div_nonneg hb (hD0.le.trans hDD)
  have h5 : 0 ≤ b' / D' := h4.trans h3
  have h6 : 0 < D := hD0.trans_le hDD
  unfold gB
  refine add_le_add (div_le_div₀ (by positivity) (by gcongr) (by positivity) ?_)
    (div_le_div₀ (by positivity) (by gcongr) (by positivity) (by gcongr))
  exact mul_le_mul hDD h2 h1.le h6.le

/-! ## The series -/

theorem len3_smul (a : ℝ) (v : Vec 3) : len3 (a • v) = |a| * len3 v := by
  unfold len3
  rw [dot3_smul_left, dot3_smul_right, ← mul_assoc, Real.sqrt_mul (mul_self_nonneg a), Real.sqrt_mul_self_eq_abs]

/-- The terms of the double series outside `I`, by degree. -/
theorem double_hasSum (u v h : Vec 3) (hlt : len3 u + len3 v < len3 h) (I : Finset (ℕ × ℕ)) :
    HasSum (fun N => ∑ x ∈ antidiagonal N, if x ∈ I then 0
        else sT (x.1 + x.2) x.1 u v h / (len3 h : ℂ) ^ (2 * (x.1 + x.2) + 1))
      (((1 / len3 (h - (u + v)) : ℝ) : ℂ)
        - ∑ x ∈ I, sT (x.1 + x.2) x.1 u v h / (len3 h : ℂ) ^ (2 * (x.1 + x.2) + 1)) := by
  set f : ℕ × ℕ → ℂ := fun x => sT (x.1 + x.2) x.1 u v h / (len3 h : ℂ) ^ (2 * (x.1 + x.2) + 1) with hf
  have hF : HasSum (fun N => ∑ x ∈ antidiagonal N, f x) ((1 / len3 (h - (u + v)) : ℝ) : ℂ) := by
    have e : (fun N => ∑ x ∈ antidiagonal N, f x) = fun N => sK N h (u + v) / (len3 h : ℂ) ^ (2 * N + 1) := by
      funext N
      rw [sK_symm, sK_add, Nat.sum_antidiagonal_eq_sum_range_succ_mk, sum_div]
      refine sum_congr rfl fun j hj => ?_
      rw [mem_range] at hj
      rw [hf]
      simp only
      rw [Nat.add_sub_cancel' (by omega : j ≤ N)]
    rw [e]
    exact sK_hasSum h (u + v) ((len3_add_le u v).trans_lt hlt)
  obtain ⟨L, hL0, hL⟩ := exists_degree_bound I 0
  have hG : HasSum (fun N => ∑ x ∈ antidiagonal N, if x ∈ I then f x else 0) (∑ x ∈ I, f x) := by
    rw [sum_by_degree I L hL f]
    refine hasSum_sum_of_ne_finset_zero fun N hN => ?_
    rw [mem_range, not_lt] at hN
    refine sum_eq_zero fun x hx => if_neg fun hx' => ?_
    rw [mem_antidiagonal] at hx
    have := hL x hx'
    omega
  refine (hF.sub hG).congr_fun fun N => ?_
  rw [← sum_sub_distrib]
  refine sum_congr rfl fun x _ => ?_
  by_cases hx : x ∈ I
  · rw [if_pos hx, if_pos hx, sub_self]
  · rw [if_neg hx, if_neg hx, sub_zero]

theorem gterm_bound (u e v h : Vec 3) (hh : 0 < len3 h) (I : Finset (ℕ × ℕ)) (N : ℕ) :
    ‖∑ x ∈ antidiagonal N, (if x ∈ I then 0 else sTD (x.1 + x.2) x.1 u e v h / (len3 h : ℂ) ^ (2 * (x.1 + x.2) + 1))‖
      ≤ len3 e * (N * (len3 u + len3 v) ^ (N - 1) / len3 h ^ (N + 1)) := by
  have he := len3_nonneg e
  have hu := len3_nonneg u
  have hv := len3_nonneg v
  cases N with
  | zero => simp [sTD_zero]
  | succ N =>
    rw [Nat.sum_antidiagonal_succ]
    simp only [sTD_zero, zero_div, ite_self, zero_add, Nat.add_sub_cancel]
    refine (norm_sum_le _ _).trans ?_
    calc _ ≤ ∑ x ∈ antidiagonal N, len3 e * ((N + 1 : ℕ) * (N.choose x.1 * len3 u ^ x.1 * len3 v ^ x.2) / len3 h ^ (N + 2)) := by
          refine sum_le_sum fun x hx => ?_
          rw [mem_antidiagonal] at hx
          by_cases hxI : (x.1 + 1, x.2) ∈ I
          · rw [if_pos hxI, norm_zero]; positivity
          · rw [if_neg hxI, norm_div, norm_pow, Complex.norm_real, Real.norm_eq_abs, abs_of_pos hh]
            have := sTD_bound x.1 x.2 u e v h
            rw [hx] at this
            rw [div_le_iff₀ (by positivity)]
            refine this.trans_eq ?_
            rw [show x.1 + 1 + x.2 = N + 1 by omega, show 2 * (N + 1) + 1 = (N + 1) + (N + 2) by ring, pow_add _ (N + 1) (N + 2)]
            field_simp
      _ = _ := by
          rw [← mul_sum, ← sum_div, ← mul_sum, (Commute.all (len3 u) (len3 v)).add_pow']
          congr 3
          refine congrArg _ (funext fun x => ?_)
          rw [nsmul_eq_mul, mul_assoc]

theorem invlen_line {w : Vec 3} (hw : w ≠ 0) (e : Vec 3) :
    HasDerivAt (fun t : ℝ => 1 / len3 (w - t • e)) (dot3 w e / len3 w ^ 3) 0 := by
  have h0 : len3 w ≠ 0 := (len3_pos hw).ne'
  have h1 : HasFDerivAt len3 ((1 / len3 w) • dotL w) ((fun t : ℝ => w + t • (-e)) 0) := by
    simp only [zero_smul, add_zero]; exact len3_hasFDerivAt hw
  have h2 := h1.comp_hasDerivAt 0 (line_hasDerivAt w (-e) 0)
  have h3 := h2.fun_inv (by simp only [Function.comp, zero_smul, add_zero]; exact h0)
  have e1 : (fun t : ℝ => 1 / len3 (w - t • e)) = fun t : ℝ => ((len3 ∘ fun t : ℝ => w + t • (-e)) t)⁻¹ := by
    funext t
    simp only [Function.comp, smul_neg, ← sub_eq_add_neg, one_div]
  rw [e1]
  refine h3.congr_deriv ?_
  have : dot3 w (-e) = -dot3 w e := by simp [dot3]; ring
  simp only [Function.comp, zero_smul, add_zero, smul_apply, dotL_apply, smul_eq_mul, this]
  field_simp

/-- Truncation error of the gradient. -/
theorem double_cut_grad (u e v h : Vec 3) (hlt : len3 u + len3 v < len3 h) (k : ℕ) (I : Finset (ℕ × ℕ))
    (hI : ∀ j n, j + n < k + 1 → (j, n) ∈ I) :
    ‖((dot3 (h - (u + v)) e / len3 (h - (u + v)) ^ 3 : ℝ) : ℂ)
        - ∑ x ∈ I, sTD (x.1 + x.2) x.1 u e v h / (len3 h : ℂ) ^ (2 * (x.1 + x.2) + 1)‖
      ≤ len3 e * gB k (len3 u + len3 v) (len3 h) := by
  have he := len3_nonneg e
  have hu := len3_nonneg u
  have hv := len3_nonneg v
  have hh : 0 < len3 h := by linarith
  set D := len3 h with hD
  set b := len3 u + len3 v with hb
  have hb0 : 0 ≤ b := add_nonneg hu hv
  set δ := (D - b) / (2 * (len3 e + 1)) with hδ
  have hδ0 : 0 < δ := div_pos (by linarith) (by linarith)
  have hδe : δ * len3 e ≤ (D - b) / 2 := by
    rw [hδ, div_mul_eq_mul_div, div_le_div_iff₀ (by linarith) (by norm_num)]
    nlinarith
  set b' := b + δ * len3 e with hb'
  have hb'0 : 0 ≤ b' := by positivity
  have hb'D : b' < D := by linarith
  have hline : ∀ t ∈ Set.Ioo (-δ) δ, len3 (u + t • e) + len3 v ≤ b' := by
    intro t ht
    have h1 := len3_add_le u (t • e)
    rw [len3_smul] at h1
    have h2 : |t| * len3 e ≤ δ * len3 e := mul_le_mul_of_nonneg_right (abs_le.mpr ⟨ht.1.le, ht.2.le⟩) he
    linarith
  let g : ℕ → ℝ → ℂ := fun N t => ∑ x ∈ antidiagonal N, if x ∈ I then 0
    else sT (x.1 + x.2) x.1 (u + t • e) v h / (D : ℂ) ^ (2 * (x.1 + x.2) + 1)
  let g' : ℕ → ℝ → ℂ := fun N t => ∑ x ∈ antidiagonal N, if x ∈ I then 0
    else sTD (x.1 + x.2) x.1 (u + t • e) e v h / (D : ℂ) ^ (2 * (x.1 + x.2) + 1)
  have hg : ∀ N t, t ∈ Set.Ioo (-δ) δ → HasDerivAt (g N) (g' N t) t := by
    intro N t _
    refine HasDerivAt.fun_sum fun x _ => ?_
    by_cases hx : x ∈ I
    · simp only [if_pos hx]; exact hasDerivAt_const t 0
    · simp only [if_neg hx]; exact (sT_line _ _ u e v h t).div_const _
  have hg' : ∀ N t, t ∈ Set.Ioo (-δ) δ → ‖g' N t‖ ≤ len3 e * (N * b' ^ (N - 1) / D ^ (N + 1)) := by
    intro N t ht
    refine (gterm_bound (u + t • e) e v h hh I N).trans ?_
    have := hline t ht
    have h0 : 0 ≤ len3 (u + t • e) + len3 v := add_nonneg (len3_nonneg _) hv
    gcongr
  have hU : Summable fun N : ℕ => len3 e * (N * b' ^ (N - 1) / D ^ (N + 1)) := by
    refine Summable.mul_left _ ?_
    rw [← summable_nat_add_iff 1]
    refine (gB_hasSum 0 hb'0 hb'D).summable.congr fun N => ?_
    simp
  have hsum : ∀ t ∈ Set.Ioo (-δ) δ, HasSum (fun N => g N t) (((1 / len3 (h - (u + t • e + v)) : ℝ) : ℂ)
        - ∑ x ∈ I, sT (x.1 + x.2) x.1 (u + t • e) v h / (D : ℂ) ^ (2 * (x.1 + x.2) + 1)) := fun t ht =>
    double_hasSum (u + t • e) v h ((hline t ht).trans_lt hb'D) I
  have h0 : (0 : ℝ) ∈ Set.Ioo (-δ) δ := ⟨by linarith, hδ0⟩
  have hd1 := hasDerivAt_tsum_of_isPreconnected hU isOpen_Ioo isPreconnected_Ioo hg hg' h0 (hsum 0 h0).summable h0
  have hw : h - (u + v) ≠ 0 := by
    intro h1
    have h2 : h = u + v := sub_eq_zero.mp h1
    have := len3_add_le u v
    rw [← h2] at this
    linarith
  have hd2 : HasDerivAt (fun t : ℝ => ((1 / len3 (h - (u + t • e + v)) : ℝ) : ℂ)
        - ∑ x ∈ I, sT (x.1 + x.2) x.1 (u + t • e) v h / (D : ℂ) ^ (2 * (x.1 + x.2) + 1))
      (((dot3 (h - (u + v)) e / len3 (h - (u + v)) ^ 3 : ℝ) : ℂ)
        - ∑ x ∈ I, sTD (x.1 + x.2) x.1 u e v h / (D : ℂ) ^ (2 * (x.1 + x.2) + 1)) 0 := by
    refine HasDerivAt.sub ?_ (HasDerivAt.fun_sum fun x _ => ?_)
    · have := (invlen_line hw e).ofReal_comp
      refine this.congr_of_eventuallyEq (Filter.Eventually.of_forall fun t => ?_)
      simp only
      rw [show h - (u + t • e + v) = h - (u + v) - t • e by abel]
    · have := (sT_line (x.1 + x.2) x.1 u e v h 0).div_const ((D : ℂ) ^ (2 * (x.1 + x.2) + 1))
      simpa using this
  have hev : (fun t : ℝ => ((1 / len3 (h - (u + t • e + v)) : ℝ) : ℂ)
        - ∑ x ∈ I, sT (x.1 + x.2) x.1 (u + t • e) v h / (D : ℂ) ^ (2 * (x.1 + x.2) + 1))
      =ᶠ[nhds 0] fun t => ∑' N, g N t := by
    filter_upwards [isOpen_Ioo.mem_nhds h0] with t ht
    exact (hsum t ht).tsum_eq.symm
  have heq := hd2.unique (hd1.congr_of_eventuallyEq hev)
  rw [heq]
  have hsg : Summable fun N => g' N 0 := Summable.of_norm_bounded hU fun N => hg' N 0 h0
  have hz : ∀ N ∈ range (k + 1), g' N 0 = 0 := by
    intro N hN
    rw [mem_range] at hN
    refine sum_eq_zero fun x hx => ?_
    rw [mem_antidiagonal] at hx
    rw [if_pos (hI x.1 x.2 (by omega))]
  rw [← hsg.sum_add_tsum_nat_add (k + 1), sum_eq_zero hz, zero_add]
  refine tsum_of_norm_bounded ((gB_hasSum k hb0 hlt).mul_left (len3 e)) fun N => ?_
  have := gterm_bound (u + (0 : ℝ) • e) e v h hh I (N + (k + 1))
  refine this.trans_eq ?_
  simp only [zero_smul, add_zero]
  rw [show N + (k + 1) - 1 = N + k by omega, show N + (k + 1) + 1 = N + k + 2 by omega, show N + (k + 1) = N + k + 1 by omega]

end FMM
