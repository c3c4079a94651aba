import Verif.SolidOps

/-!
# Norms of the exact translation operators
-/

namespace FMM
open Finset

theorem nW_eq_of {i : ℕ} {d a : ℤ → ℂ} (s : ℤ → ℝ) (hs : ∀ k, |s k| = 1) (h : ∀ k ∈ Ir i, (cN i k : ℂ) * d k = (s k : ℂ) * a k) :
    nW i d = l2 (Ir i) a := by
  unfold nW l2
  congr 1
  refine sum_congr rfl fun k hk => ?_
  simp only
  rw [h k hk, norm_mul, Complex.norm_real, Real.norm_eq_abs, hs k, one_mul]

/-- One degree of the shift of multipole coefficients. -/
noncomputable def m2mPart (a : ℤ → ℂ) (h : Vec 3) (j n : ℕ) (k : ℤ) : ℂ :=
  (∑ m ∈ Icc (max (-(n : ℤ)) (n + k - j)) (min (n : ℤ) (j + k - n)),
    ((sg1 k m * aSpec n m * aSpec (j - n) (k - m) : ℝ) : ℂ) * (a (k - m) * rY h n (-m))) / (aSpec j k : ℂ)

theorem m2mC_parts (a : ℕ → ℤ → ℂ) (h : Vec 3) (j : ℕ) (k : ℤ) :
    m2mC a h j k = ∑ n ∈ range (j + 1), m2mPart (a (j - n)) h j n k := by
  unfold m2mC m2mPart
  rw [sum_div]

theorem m2mPart_eq (a : ℤ → ℂ) (h : Vec 3) {j n : ℕ} (hn : n ≤ j) {k : ℤ} (hk : |k| ≤ j) (d : ℤ → ℂ)
    (hd : ∀ m, |m| ≤ ((j - n : ℕ) : ℤ) → a (-m) = (eS m : ℂ) * cN (j - n) m * d m)
    (hd0 : ∀ m, ((j - n : ℕ) : ℤ) < |m| → d m = 0) :
    m2mPart a h j n k = (eS (-k) : ℂ) * cN j k * cV h n d (-k) := by
  have hk' := abs_le.mp hk
  unfold m2mPart
  rw [div_eq_iff (by exact_mod_cast aSpec_ne_zero j k), cV, ← sum_Icc_neg, mul_sum, sum_mul]
  have hsub : Icc (max (-(n : ℤ)) (n + k - j)) (min (n : ℤ) (j + k - n)) ⊆ Icc (-(n : ℤ)) n := by
    intro m hm; rw [mem_Icc] at hm ⊢; omega
  rw [← sum_subset hsub]
  · refine sum_congr rfl fun m hm => ?_
    rw [mem_Icc] at hm
    have hs1 : ((sg1 k m : ℝ) : ℂ) * eS (-m) * eS (m - k) = eS (-k) := by
      rw [← sg1_eq k m]; push_cast; rfl
    have ha := hd (m - k) (by rw [abs_le]; omega)
    rw [show -(m - k) = k - m by ring] at ha
    rw [ha, show -k - -m = m - k by ring]
    unfold rY
    rw [aSpec_eq, aSpec_eq, aSpec_eq, cN_neg, ← cN_neg (j - n) (k - m), show -(k - m) = m - k by ring]
    push_cast
    have e1 := cN_ne n m
    have e2 := cN_ne (j - n) (m - k)
    have e3 := cN_ne j k
    have e4 : ((-1 : ℂ)) ^ n * (-1) ^ (j - n) = (-1) ^ j := by rw [← pow_add]; congr 1; omega
    field_simp
    rw [← e4, ← hs1]
    ring
  · intro m hm1 hm2
    rw [mem_Icc] at hm1 hm2
    rw [hd0 (-k - -m) (by rw [lt_abs]; omega)]
    ring

theorem l2_m2mPart (a : ℤ → ℂ) (h : Vec 3) {j n : ℕ} (hn : n ≤ j) :
    l2 (Ir j) (m2mPart a h j n) ≤ (j.choose n : ℝ) * len3 h ^ n * l2 (Ir (j - n)) a := by
  set d : ℤ → ℂ := fun m => if |m| ≤ ((j - n : ℕ) : ℤ) then (eS m : ℂ) * a (-m) / cN (j - n) m else 0 with hd
  have hd0 : ∀ m, ((j - n : ℕ) : ℤ) < |m| → d m = 0 := fun m hm => if_neg (by omega)
  have hsq : ∀ m, (eS m : ℂ) * eS m = 1 := fun m => by exact_mod_cast eS_sq m
  have hd1 : ∀ m, |m| ≤ ((j - n : ℕ) : ℤ) → a (-m) = (eS m : ℂ) * cN (j - n) m * d m := by
    intro m hm
    simp only [hd, if_pos hm]
    have e := cN_ne (j - n) m
    field_simp
    linear_combination -a (-m) * hsq m
  have h1 : l2 (Ir j) (m2mPart a h j n) = nW j (cV h n d) := by
    unfold nW
    rw [← l2_Ir_neg]
    unfold l2
    congr 1
    refine sum_congr rfl fun k hk => ?_
    simp only
    rw [m2mPart_eq a h hn (k := -k) (by rw [abs_neg]; exact mem_Ir.mp hk) d hd1 hd0, neg_neg, cN_neg, mul_assoc, norm_mul,
      eS_norm, one_mul]
  have h2 : nW (j - n) d = l2 (Ir (j - n)) a := by
    rw [← l2_Ir_neg (j - n) a]
    refine nW_eq_of eS eS_abs fun k hk => ?_
    rw [hd1 k (mem_Ir.mp hk)]
    linear_combination -((cN (j - n) k : ℂ) * d k) * hsq k
  have h3 := nW_cV (i := j - n) h n d hd0
  rw [Nat.sub_add_cancel hn] at h3
  rw [h1, ← h2]
  exact h3

theorem l2_m2mC (a : ℕ → ℤ → ℂ) (h : Vec 3) (j : ℕ) :
    l2 (Ir j) (m2mC a h j) ≤ ∑ n ∈ range (j + 1), (j.choose n : ℝ) * len3 h ^ n * l2 (Ir (j - n)) (a (j - n)) := by
  have : m2mC a h j = fun k => ∑ n ∈ range (j + 1), m2mPart (a (j - n)) h j n k := by
    funext k; exact m2mC_parts a h j k
  rw [this]
  refine (l2_sum _ _ _).trans (sum_le_sum fun n hn => ?_)
  exact l2_m2mPart _ _ (by rw [mem_range] at hn; omega)

/-- One degree of the shift of local coefficients. -/
noncomputable def l2lPart (a : ℤ → ℂ) (h : Vec 3) (j n : ℕ) (k : ℤ) : ℂ :=
  (aSpec j k : ℂ) * ((-1) ^ (n + j) * ∑ m ∈ Icc (max (-(n : ℤ)) (k + j - n)) (min (n : ℤ) (k + n - j)),
    ((sg3 k m * aSpec (n - j) (m - k) / aSpec n m : ℝ) : ℂ) * (a m * rY h (n - j) (m - k)))

theorem l2lC_parts (p : ℕ) (a : ℕ → ℤ → ℂ) (h : Vec 3) (j : ℕ) (k : ℤ) :
    l2lC p a h j k = ∑ n ∈ Ico j (p + 1), l2lPart (a n) h j n k := by
  unfold l2lC l2lPart
  rw [mul_sum]

theorem l2lPart_eq (a : ℤ → ℂ) (h : Vec 3) {j n : ℕ} (hn : j ≤ n) {k : ℤ} (hk : |k| ≤ j) :
    l2lPart a h j n k = ∑ m ∈ Ir n, ((-1) ^ (n + j) * ((eS k : ℂ) * eS m * (cN n m / cN j k) * sR h (n - j) (m - k))) * a m := by
  have hk' := abs_le.mp hk
  unfold l2lPart
  have hsub : Icc (max (-(n : ℤ)) (k + j - n)) (min (n : ℤ) (k + n - j)) ⊆ Icc (-(n : ℤ)) n := by
    intro m hm; rw [mem_Icc] at hm ⊢; omega
  rw [← sum_subset hsub]
  · rw [mul_sum, mul_sum]
    refine sum_congr rfl fun m _ => ?_
    have hs3 : ((sg3 k m : ℝ) : ℂ) * eS k * eS (m - k) * eS m = 1 := by
      have := sg3_eq k m
      exact_mod_cast this
    have hsq : ∀ m, (eS m : ℂ) * eS m = 1 := fun m => by exact_mod_cast eS_sq m
    have hs3' : ((sg3 k m : ℝ) : ℂ) * eS (m - k) = eS m * eS k := by
      linear_combination (eS m : ℂ) * eS k * hs3 - ((sg3 k m : ℝ) : ℂ) * eS (m - k) * ((eS k : ℂ) * eS k * hsq m + hsq k)
    unfold rY
    rw [aSpec_eq, aSpec_eq, aSpec_eq]
    push_cast
    have e1 := cN_ne n m
    have e2 := cN_ne (n - j) (m - k)
    have e3 := cN_ne j k
    have e5 : ((-1 : ℂ)) ^ n = (-1) ^ j * (-1) ^ (n - j) := by rw [← pow_add]; congr 1; omega
    have e8 := neg_one_pow_ne j
    have e9 := neg_one_pow_ne (n - j)
    generalize ((-1 : ℂ)) ^ (n + j) = w
    rw [e5]
    field_simp
    linear_combination w * a m * sR h (n - j) (m - k) * hs3'
  · intro m hm1 hm2
    rw [mem_Icc] at hm1 hm2
    rw [sR_out h (n - j) (m - k) (by rw [lt_abs]; omega)]
    ring

theorem l2_l2lPart (a : ℤ → ℂ) (h : Vec 3) {j n : ℕ} (hn : j ≤ n) :
    l2 (Ir j) (l2lPart a h j n) ≤ (n.choose j : ℝ) * len3 h ^ (n - j) * l2 (Ir n) a := by
  have hl : 0 ≤ len3 h := Real.sqrt_nonneg _
  rw [l2_congr fun k hk => l2lPart_eq a h hn (mem_Ir.mp hk)]
  refine l2_transpose (s := Ir j) (t := Ir n)
    (fun k m => (-1) ^ (n + j) * ((eS k : ℂ) * eS m * (cN n m / cN j k) * sR h (n - j) (m - k))) (by positivity) (fun x => ?_) a
  set d : ℤ → ℂ := fun k => if |k| ≤ (j : ℤ) then (eS k : ℂ) * x k / cN j k else 0 with hd
  have hd0 : ∀ k, (j : ℤ) < |k| → d k = 0 := fun k hk => if_neg (by omega)
  have hsq : ∀ m, (eS m : ℂ) * eS m = 1 := fun m => by exact_mod_cast eS_sq m
  have h2 : nW j d = l2 (Ir j) x := by
    refine nW_eq_of eS eS_abs fun k hk => ?_
    have e := cN_ne j k
    simp only [hd, if_pos (mem_Ir.mp hk)]
    field_simp
  have h3 := nW_cV (i := j) h (n - j) d hd0
  rw [Nat.add_sub_cancel' hn, Nat.choose_symm hn, h2] at h3
  refine le_trans (le_of_eq ?_) h3
  unfold nW l2
  congr 1
  refine sum_congr rfl fun m hm => ?_
  have hm' := mem_Icc.mp hm
  have hc : cV h (n - j) d m = ∑ k ∈ Ir j, sR h (n - j) (m - k) * d k := by
    rw [cV_ext h (n - j) d m (M := n + j) (by omega), ← sum_Icc_ext (N := (j : ℤ)) (M := 2 * n + j)
      (fun k hk => by rw [hd0 k hk, mul_zero]) (by omega)]
    have hsub : Icc (m - (n + j)) (m + (n + j)) ⊆ Icc (-(2 * (n : ℤ) + j)) (2 * (n : ℤ) + j) := by
      intro k hk; rw [mem_Icc] at hk ⊢; omega
    rw [← sum_subset hsub]
    · refine sum_bij' (fun k _ => m - k) (fun k _ => m - k) ?_ ?_ ?_ ?_ ?_
      · intro k hk; rw [mem_Icc] at hk ⊢; omega
      · intro k hk; rw [mem_Icc] at hk ⊢; omega
      · intro k _; ring
      · intro k _; ring
      · intro k _; rw [show m - (m - k) = k by ring]
    · intro k _ hk
      rw [mem_Icc] at hk
      rw [hd0 k (by rw [lt_abs]; omega), mul_zero]
  have hx : ∀ k ∈ Ir j, ((-1) ^ (n + j) * ((eS k : ℂ) * eS m * (cN n m / cN j k) * sR h (n - j) (m - k))) * x k
      = (-1) ^ (n + j) * eS m * ((cN n m : ℂ) * (sR h (n - j) (m - k) * d k)) := by
    intro k hk
    simp only [hd, if_pos (mem_Ir.mp hk)]
    ring
  simp only
  rw [sum_congr rfl hx, ← mul_sum, ← mul_sum, ← hc, norm_mul, norm_mul, eS_norm, norm_pow, norm_neg, norm_one, one_pow, one_mul, one_mul]

theorem l2_l2lC (p : ℕ) (a : ℕ → ℤ → ℂ) (h : Vec 3) (j : ℕ) :
    l2 (Ir j) (l2lC p a h j) ≤ ∑ n ∈ Ico j (p + 1), (n.choose j : ℝ) * len3 h ^ (n - j) * l2 (Ir n) (a n) := by
  have : l2lC p a h j = fun k => ∑ n ∈ Ico j (p + 1), l2lPart (a n) h j n k := by
    funext k; exact l2lC_parts p a h j k
  rw [this]
  refine (l2_sum _ _ _).trans (sum_le_sum fun n hn => ?_)
  exact l2_l2lPart _ _ (by rw [mem_Ico] at hn; omega)

/-- One degree of the conversion; `y` stands for `Y / r^(j+n+1)`. -/
noncomputable def m2lPart (a y : ℤ → ℂ) (j n : ℕ) (k : ℤ) : ℂ :=
  (-1) ^ n * (∑ m ∈ Icc (-(n : ℤ)) n, ((sg2 k m * aSpec n m / aSpec (j + n) (m - k) : ℝ) : ℂ) * (a m * y (m - k))) * (aSpec j k : ℂ)

theorem m2lC_parts (p : ℕ) (a : ℕ → ℤ → ℂ) (h : Vec 3) (j : ℕ) (k : ℤ) :
    m2lC p a h j k = ∑ n ∈ range (p + 1), m2lPart (a n) (fun m => rY h (j + n) m / (len3 h : ℂ) ^ (2 * (j + n) + 1)) j n k := by
  unfold m2lC m2lPart
  rw [sum_mul]

theorem aSpec_abs (n : ℕ) (m : ℤ) : |aSpec n m| = (cN n m)⁻¹ := by
  rw [aSpec_eq, abs_div, abs_pow, abs_neg, abs_one, one_pow, abs_of_pos (cN_pos n m), one_div]

theorem iPow_abs {z : ℤ} (h : Even z) : |iPow z| = 1 := by
  obtain ⟨y, hy⟩ := h
  rw [hy, ← two_mul, iPow_two_mul, abs_zpow, abs_neg, abs_one, one_zpow]

theorem sg1_abs (k m : ℤ) : |sg1 k m| = 1 := by
  have h := congrArg abs (sg1_eq k m)
  rwa [abs_mul, abs_mul, eS_abs, eS_abs, eS_abs, mul_one, mul_one] at h
theorem sg2_abs (k m : ℤ) : |sg2 k m| = 1 := by
  have h := congrArg abs (sg2_eq k m)
  rwa [abs_mul, abs_mul, abs_mul, eS_abs, eS_abs, eS_abs, mul_one, mul_one, mul_one, abs_zpow, abs_neg, abs_one, one_zpow] at h
theorem sg3_abs (k m : ℤ) : |sg3 k m| = 1 := by
  have h := congrArg abs (sg3_eq k m)
  rwa [abs_mul, abs_mul, abs_mul, eS_abs, eS_abs, eS_abs, mul_one, mul_one, mul_one, abs_one] at h

theorem m2l_wratio (j n : ℕ) (k m : ℤ) : |sg2 k m * aSpec n m / aSpec (j + n) (m - k)| * |aSpec j k| = wW j n (-k) m := by
  rw [abs_div, abs_mul, sg2_abs, one_mul, aSpec_abs, aSpec_abs, aSpec_abs]
  unfold wW
  rw [cN_neg, show -k + m = m - k by ring]
  have e1 := (cN_pos n m).ne'
  have e2 := (cN_pos (j + n) (m - k)).ne'
  have e3 := (cN_pos j k).ne'
  field_simp

theorem m2m_wratio {j n : ℕ} (hn : n ≤ j) (k m : ℤ) :
    |sg1 k m * aSpec n m * aSpec (j - n) (k - m)| / |aSpec j k| = wW n (j - n) m (k - m) := by
  rw [abs_mul, abs_mul, sg1_abs, one_mul, aSpec_abs, aSpec_abs, aSpec_abs]
  unfold wW
  rw [show m + (k - m) = k by ring, Nat.add_sub_cancel' hn]
  have e1 := (cN_pos n m).ne'
  have e2 := (cN_pos (j - n) (k - m)).ne'
  have e3 := (cN_pos j k).ne'
  field_simp

theorem l2l_wratio {j n : ℕ} (hn : j ≤ n) (k m : ℤ) :
    |aSpec j k| * |sg3 k m * aSpec (n - j) (m - k) / aSpec n m| = wW j (n - j) k (m - k) := by
  rw [abs_div, abs_mul, sg3_abs, one_mul, aSpec_abs, aSpec_abs, aSpec_abs]
  unfold wW
  rw [show k + (m - k) = m by ring, Nat.add_sub_cancel' hn]
  have e1 := (cN_pos n m).ne'
  have e2 := (cN_pos (n - j) (m - k)).ne'
  have e3 := (cN_pos j k).ne'
  field_simp

theorem norm_m2lPart (a y : ℤ → ℂ) (j n : ℕ) (k : ℤ) :
    ‖m2lPart a y j n k‖ ≤ m2lA (fun m => ‖a m‖) (fun m => ‖y m‖) j n k := by
  unfold m2lPart m2lA
  rw [norm_mul, norm_mul, norm_pow, norm_neg, norm_one, one_pow, one_mul, Complex.norm_real, Real.norm_eq_abs]
  refine (mul_le_mul_of_nonneg_right (norm_sum_le _ _) (abs_nonneg _)).trans (le_of_eq ?_)
  rw [sum_mul]
  refine sum_congr rfl fun m _ => ?_
  rw [norm_mul, norm_mul, Complex.norm_real, Real.norm_eq_abs, ← m2l_wratio, abs_norm, abs_norm]
  ring

theorem l2_m2lPart (a y : ℤ → ℂ) (j n : ℕ) :
    l2 (Ir j) (m2lPart a y j n) ≤ Real.sqrt ((2 * (j + n)).choose (2 * j)) * l2 (Ir n) a * l2 (Ir (j + n)) y := by
  refine (l2_mono (y := m2lA (fun m => ‖a m‖) (fun m => ‖y m‖) j n) fun k _ => ?_).trans ((l2_m2lA _ _ j n).trans (le_of_eq ?_))
  · rw [Real.norm_of_nonneg (m2lA_nonneg _ _ _ _ _)]; exact norm_m2lPart a y j n k
  · rw [l2_norm, l2_norm]

theorem l2_rY_inv {h : Vec 3} (hh : 0 < len3 h) (N : ℕ) :
    l2 (Ir N) (fun m => rY h N m / (len3 h : ℂ) ^ (2 * N + 1)) = (len3 h ^ (N + 1))⁻¹ := by
  have : (fun m => rY h N m / (len3 h : ℂ) ^ (2 * N + 1)) = fun m => ((len3 h : ℂ) ^ (2 * N + 1))⁻¹ * rY h N m := by
    funext m; rw [div_eq_inv_mul]
  rw [this, l2_smul, l2_rY, norm_inv, norm_pow, Complex.norm_real, Real.norm_of_nonneg hh.le]
  have e := hh.ne'
  rw [show 2 * N + 1 = N + 1 + N by ring, pow_add]
  field_simp

theorem l2_m2lC (p : ℕ) (a : ℕ → ℤ → ℂ) {h : Vec 3} (hh : 0 < len3 h) (j : ℕ) :
    l2 (Ir j) (m2lC p a h j) ≤ ∑ n ∈ range (p + 1), Real.sqrt ((2 * (j + n)).choose (2 * j)) * l2 (Ir n) (a n) * (len3 h ^ (j + n + 1))⁻¹ := by
  have : m2lC p a h j = fun k => ∑ n ∈ range (p + 1), m2lPart (a n) (fun m => rY h (j + n) m / (len3 h : ℂ) ^ (2 * (j + n) + 1)) j n k := by
    funext k; exact m2lC_parts p a h j k
  rw [this]
  refine (l2_sum _ _ _).trans (sum_le_sum fun n _ => ?_)
  have := l2_m2lPart (a n) (fun m => rY h (j + n) m / (len3 h : ℂ) ^ (2 * (j + n) + 1)) j n
  rwa [l2_rY_inv hh] at this

end FMM
