import Verif.SolidTri

/-!
# Norms of the spherical harmonics and of the three translation operators
-/

namespace FMM
open Finset

theorem mem_Ir {n : ℕ} {m : ℤ} : m ∈ Ir n ↔ |m| ≤ n := by rw [mem_Icc, abs_le]

theorem eS_abs (m : ℤ) : |eS m| = 1 := by
  have h := eS_sq m
  have : |eS m| * |eS m| = 1 := by rw [← abs_mul, h, abs_one]
  nlinarith [abs_nonneg (eS m)]

theorem eS_norm (m : ℤ) : ‖(eS m : ℂ)‖ = 1 := by rw [Complex.norm_real, Real.norm_eq_abs, eS_abs]

theorem l2_Ir_neg {E : Type*} [NormedAddCommGroup E] (n : ℕ) (x : ℤ → E) : l2 (Ir n) (fun m => x (-m)) = l2 (Ir n) x := by
  unfold l2
  rw [sum_Icc_neg (n : ℤ) fun m => ‖x m‖ ^ 2]

/-! ## Spherical harmonics -/

theorem gQ_diag (n : ℕ) (ζ : ℂ) : gQ n ζ ζ = ζ ^ n := by
  have : gQ n ζ ζ = gQ n 1 1 * ζ ^ n := by
    unfold gQ
    rw [sum_mul]
    refine sum_congr rfl fun x hx => ?_
    rw [mem_antidiagonal] at hx
    rw [← hx, pow_add]; simp; ring
  rw [this, gQ_ones, one_mul]

theorem sK_self (n : ℕ) (v : Vec 3) : sK n v v = ((len3 v ^ (2 * n) : ℝ) : ℂ) := by
  have h := sK_gQ v v ((dot3 v v : ℝ) : ℂ) (by simp) (by rw [Complex.normSq_ofReal]) n
  rw [h, Complex.conj_ofReal, gQ_diag, dot3_self_len, ← Complex.ofReal_pow, ← pow_mul]

/-- The spherical harmonics of one degree have norm `|v|^n`. -/
theorem l2_rY (v : Vec 3) (n : ℕ) : l2 (Ir n) (rY v n) = len3 v ^ n := by
  have h : ((l2 (Ir n) (rY v n) ^ 2 : ℝ) : ℂ) = ((len3 v ^ (2 * n) : ℝ) : ℂ) := by
    rw [l2_sq, ← sK_self, ← rY_pair]
    push_cast
    refine sum_congr rfl fun m _ => ?_
    rw [← Complex.conj_mul', conj_rY]
  have h' : l2 (Ir n) (rY v n) ^ 2 = (len3 v ^ n) ^ 2 := by
    rw [← pow_mul, mul_comm n 2]; exact_mod_cast h
  exact (pow_left_inj₀ (l2_nonneg _ _) (pow_nonneg (Real.sqrt_nonneg _) n) two_ne_zero).mp h'

theorem norm_rY_le (v : Vec 3) (n : ℕ) {m : ℤ} (hm : |m| ≤ n) : ‖rY v n m‖ ≤ len3 v ^ n := by
  rw [← l2_rY]; exact le_l2 _ (mem_Ir.mpr hm)

theorem norm_pow_mul_sub_one {a b : ℂ} (ha : ‖a‖ = 1) (hb : ‖b‖ = 1) {t : ℝ} (h1 : ‖a - 1‖ ≤ t) (h2 : ‖b - 1‖ ≤ t) :
    ∀ i j : ℕ, ‖a ^ i * b ^ j - 1‖ ≤ ((i : ℝ) + j) * t := by
  have hpow : ∀ (c : ℂ), ‖c‖ = 1 → ‖c - 1‖ ≤ t → ∀ i : ℕ, ‖c ^ i - 1‖ ≤ (i : ℝ) * t := by
    intro c hc hct i
    induction i with
    | zero => simp
    | succ i ih =>
      have e : c ^ (i + 1) - 1 = c * (c ^ i - 1) + (c - 1) := by ring
      rw [e]
      refine (norm_add_le _ _).trans ?_
      rw [norm_mul, hc, one_mul]
      push_cast
      linarith
  intro i j
  have e : a ^ i * b ^ j - 1 = a ^ i * (b ^ j - 1) + (a ^ i - 1) := by ring
  rw [e]
  refine (norm_add_le _ _).trans ?_
  rw [norm_mul, norm_pow, ha, one_pow, one_mul]
  have := hpow a ha h1 i
  have := hpow b hb h2 j
  linarith

/-- `1 - P_n(cos γ) ≤ n² (1 - cos γ)`. -/
theorem sK_unit_bound (n : ℕ) {a b : Vec 3} (ha : len3 a = 1) (hb : len3 b = 1) :
    1 - (sK n a b).re ≤ (n : ℝ) ^ 2 * (1 - dot3 a b) := by
  set c := dot3 a b with hc
  have haa : dot3 a a = 1 := by rw [dot3_self_len, ha]; norm_num
  have hbb : dot3 b b = 1 := by rw [dot3_self_len, hb]; norm_num
  have hcs : c ^ 2 ≤ 1 := by
    have h0 : 0 ≤ (a 0 * b 1 - a 1 * b 0) ^ 2 + (a 0 * b 2 - a 2 * b 0) ^ 2 + (a 1 * b 2 - a 2 * b 1) ^ 2 := by positivity
    have h1 : dot3 a a * dot3 b b - c ^ 2 = (a 0 * b 1 - a 1 * b 0) ^ 2 + (a 0 * b 2 - a 2 * b 0) ^ 2 + (a 1 * b 2 - a 2 * b 1) ^ 2 := by
      rw [hc]; unfold dot3; ring
    rw [haa, hbb] at h1
    linarith
  set ζ : ℂ := ⟨c, Real.sqrt (1 - c ^ 2)⟩ with hζ
  have hN : Complex.normSq ζ = 1 := by
    rw [Complex.normSq_apply, hζ]
    simp only
    rw [Real.mul_self_sqrt (by linarith)]; ring
  have hn1 : ‖ζ‖ = 1 := by
    have := Complex.sq_norm ζ
    rw [hN] at this
    nlinarith [norm_nonneg ζ]
  have hg := sK_gQ a b ζ rfl (by rw [hN, haa, hbb, mul_one]) n
  have hη1 : ‖(starRingEnd ℂ) ζ‖ = 1 := by rw [RCLike.norm_conj, hn1]
  set t := ‖ζ - 1‖ with ht
  have ht2 : t ^ 2 = 2 * (1 - c) := by
    rw [ht, Complex.sq_norm, Complex.normSq_sub, hN]
    simp [hζ]; ring
  have hηt : ‖(starRingEnd ℂ) ζ - 1‖ = t := by
    rw [ht, ← RCLike.norm_conj (ζ - 1), map_sub, map_one]
  have hone : ∑ x ∈ antidiagonal n, cb x.1 * cb x.2 = 1 := by
    have := gQ_ones n
    unfold gQ at this
    simpa using this
  have hcb : ∀ k, ∃ r : ℝ, 0 ≤ r ∧ cb k = (r : ℂ) := fun k =>
    ⟨(Nat.centralBinom k : ℝ) / 4 ^ k, by positivity, by unfold cb; push_cast; rfl⟩
  choose r hr0 hr using hcb
  have hone' : ∑ x ∈ antidiagonal n, r x.1 * r x.2 = 1 := by
    have : ((∑ x ∈ antidiagonal n, r x.1 * r x.2 : ℝ) : ℂ) = 1 := by
      push_cast
      rw [← hone]
      exact sum_congr rfl fun x _ => by rw [hr, hr]
    exact_mod_cast this
  have hre : 1 - (sK n a b).re = ∑ x ∈ antidiagonal n, r x.1 * r x.2 * (1 - (ζ ^ x.1 * (starRingEnd ℂ) ζ ^ x.2).re) := by
    simp only [mul_sub, mul_one, sum_sub_distrib]
    rw [hone', hg]
    unfold gQ
    rw [Complex.re_sum]
    congr 1
    refine sum_congr rfl fun x _ => ?_
    rw [hr, hr, show (r x.1 : ℂ) * ζ ^ x.1 * ((r x.2 : ℂ) * (starRingEnd ℂ) ζ ^ x.2)
      = ((r x.1 * r x.2 : ℝ) : ℂ) * (ζ ^ x.1 * (starRingEnd ℂ) ζ ^ x.2) by push_cast; ring, Complex.re_ofReal_mul]
  rw [hre]
  calc ∑ x ∈ antidiagonal n, r x.1 * r x.2 * (1 - (ζ ^ x.1 * (starRingEnd ℂ) ζ ^ x.2).re)
      ≤ ∑ x ∈ antidiagonal n, r x.1 * r x.2 * ((n : ℝ) ^ 2 * (1 - c)) := by
        refine sum_le_sum fun x hx => mul_le_mul_of_nonneg_left ?_ (mul_nonneg (hr0 _) (hr0 _))
        rw [mem_antidiagonal] at hx
        have h1 := norm_pow_mul_sub_one hn1 hη1 le_rfl (le_of_eq hηt) x.1 x.2
        set z := ζ ^ x.1 * (starRingEnd ℂ) ζ ^ x.2 with hz
        have hzn : ‖z‖ = 1 := by rw [hz, norm_mul, norm_pow, norm_pow, hn1, hη1]; simp
        have h2 : ‖z - 1‖ ^ 2 = 2 * (1 - z.re) := by
          rw [Complex.sq_norm, Complex.normSq_sub, ← Complex.sq_norm, hzn]; simp; ring
        have hxn : (x.1 : ℝ) + x.2 = n := by exact_mod_cast hx
        rw [hxn] at h1
        have h3 : ‖z - 1‖ ^ 2 ≤ ((n : ℝ) * t) ^ 2 := pow_le_pow_left₀ (norm_nonneg _) h1 2
        rw [h2, mul_pow, ht2] at h3
        linarith
    _ = _ := by rw [← sum_mul, hone', one_mul]

theorem sK_re_comm (n : ℕ) (a b : Vec 3) : sK n a b = sK n b a := by
  rw [← rY_pair, ← rY_pair, ← sum_Icc_neg]
  exact sum_congr rfl fun m _ => by rw [neg_neg, mul_comm]

/-- The spherical harmonics are Lipschitz functions of the direction, with constant the degree. -/
theorem l2_rY_lip (n : ℕ) {a b : Vec 3} (ha : len3 a = 1) (hb : len3 b = 1) :
    l2 (Ir n) (fun m => rY a n m - rY b n m) ≤ (n : ℝ) * len3 (a - b) := by
  have h1 : l2 (Ir n) (fun m => rY a n m - rY b n m) ^ 2 = 2 * (1 - (sK n a b).re) := by
    have hc : ((l2 (Ir n) (fun m => rY a n m - rY b n m) ^ 2 : ℝ) : ℂ) = sK n a a - sK n a b - sK n b a + sK n b b := by
      rw [l2_sq, ← rY_pair, ← rY_pair, ← rY_pair, ← rY_pair, ← sum_sub_distrib, ← sum_sub_distrib, ← sum_add_distrib]
      push_cast
      refine sum_congr rfl fun m _ => ?_
      rw [← Complex.conj_mul', map_sub, conj_rY, conj_rY]; ring
    have := congrArg Complex.re hc
    rw [Complex.ofReal_re] at this
    rw [this, sK_self, sK_self, ha, hb, sK_re_comm n b a]
    simp; ring
  have h2 : len3 (a - b) ^ 2 = 2 * (1 - dot3 a b) := by
    have haa : dot3 a a = 1 := by rw [dot3_self_len, ha]; norm_num
    have hbb : dot3 b b = 1 := by rw [dot3_self_len, hb]; norm_num
    rw [← dot3_self_len]
    have : dot3 (a - b) (a - b) = dot3 a a - 2 * dot3 a b + dot3 b b := by
      unfold dot3; simp only [Pi.sub_apply]; ring
    rw [this, haa, hbb]; ring
  have h3 := sK_unit_bound n ha hb
  refine (pow_le_pow_iff_left₀ (l2_nonneg _ _) (show 0 ≤ (n : ℝ) * len3 (a - b) from
    mul_nonneg (Nat.cast_nonneg _) (Real.sqrt_nonneg _)) two_ne_zero).mp ?_
  rw [h1, mul_pow, h2]
  linarith

/-! ## Operators with absolute values -/

/-- The majorant of the shift of multipole coefficients: degree `n` of the harmonics. -/
noncomputable def m2mA (α y : ℤ → ℝ) (j n : ℕ) (k : ℤ) : ℝ :=
  ∑ m ∈ Icc (max (-(n : ℤ)) (n + k - j)) (min (n : ℤ) (j + k - n)), wW n (j - n) m (k - m) * |α (k - m)| * |y (-m)|

/-- The majorant of the conversion. -/
noncomputable def m2lA (α y : ℤ → ℝ) (j n : ℕ) (k : ℤ) : ℝ :=
  ∑ m ∈ Icc (-(n : ℤ)) n, wW j n (-k) m * |α m| * |y (m - k)|

/-- The majorant of the shift of local coefficients. -/
noncomputable def l2lA (α y : ℤ → ℝ) (j n : ℕ) (k : ℤ) : ℝ :=
  ∑ m ∈ Icc (max (-(n : ℤ)) (k + j - n)) (min (n : ℤ) (k + n - j)), wW j (n - j) k (m - k) * |α m| * |y (m - k)|

theorem m2mA_nonneg (α y : ℤ → ℝ) (j n : ℕ) (k : ℤ) : 0 ≤ m2mA α y j n k :=
  sum_nonneg fun _ _ => mul_nonneg (mul_nonneg (wW_pos _ _ _ _).le (abs_nonneg _)) (abs_nonneg _)
theorem m2lA_nonneg (α y : ℤ → ℝ) (j n : ℕ) (k : ℤ) : 0 ≤ m2lA α y j n k :=
  sum_nonneg fun _ _ => mul_nonneg (mul_nonneg (wW_pos _ _ _ _).le (abs_nonneg _)) (abs_nonneg _)
theorem l2lA_nonneg (α y : ℤ → ℝ) (j n : ℕ) (k : ℤ) : 0 ≤ l2lA α y j n k :=
  sum_nonneg fun _ _ => mul_nonneg (mul_nonneg (wW_pos _ _ _ _).le (abs_nonneg _)) (abs_nonneg _)

theorem l2_m2mA (α y : ℤ → ℝ) {j n : ℕ} (h : n ≤ j) :
    l2 (Ir j) (m2mA α y j n) ≤ Real.sqrt ((2 * j).choose (2 * n)) * l2 (Ir (j - n)) α * l2 (Ir n) y := by
  obtain ⟨i, rfl⟩ := Nat.exists_eq_add_of_le h
  have hr := l2_conv n i (fun m => y (-m)) α (m2mA α y (n + i) n) (by
    intro k hk
    rw [abs_of_nonneg (m2mA_nonneg _ _ _ _ _), m2mA, Nat.add_sub_cancel_left]
    refine le_of_eq ?_
    rw [mem_Icc] at hk
    push_cast at hk
    refine sum_congr ?_ fun m _ => by ring
    ext m
    simp only [mem_filter, mem_Icc, abs_le]
    push_cast
    omega)
  rw [l2_Ir_neg] at hr
  rw [Nat.add_sub_cancel_left]
  linarith

theorem l2_m2lA (α y : ℤ → ℝ) (j n : ℕ) :
    l2 (Ir j) (m2lA α y j n) ≤ Real.sqrt ((2 * (j + n)).choose (2 * j)) * l2 (Ir n) α * l2 (Ir (j + n)) y := by
  have hr := l2_corr j n α y (fun k => m2lA α y j n (-k)) (by
    intro k _
    rw [abs_of_nonneg (m2lA_nonneg _ _ _ _ _), m2lA]
    refine le_of_eq (sum_congr rfl fun m _ => ?_)
    rw [neg_neg, sub_neg_eq_add, add_comm m k])
  rwa [l2_Ir_neg] at hr

theorem l2_l2lA (α y : ℤ → ℝ) {j n : ℕ} (h : j ≤ n) :
    l2 (Ir j) (l2lA α y j n) ≤ Real.sqrt ((2 * n).choose (2 * j)) * l2 (Ir n) α * l2 (Ir (n - j)) y := by
  obtain ⟨i, rfl⟩ := Nat.exists_eq_add_of_le h
  have hr := l2_corr j i y α (l2lA α y j (j + i)) (by
    intro k hk
    rw [abs_of_nonneg (l2lA_nonneg _ _ _ _ _), l2lA, Nat.add_sub_cancel_left]
    rw [mem_Icc] at hk
    refine le_of_eq ?_
    refine sum_bij' (fun m _ => m - k) (fun m _ => m + k) ?_ ?_ ?_ ?_ ?_
    · intro m hm; rw [mem_Icc] at hm ⊢; push_cast at hm; omega
    · intro m hm; rw [mem_Icc] at hm ⊢; push_cast; omega
    · intro m _; ring
    · intro m _; ring
    · intro m _
      rw [add_sub_cancel]; ring)
  rw [Nat.add_sub_cancel_left]
  linarith

end FMM
