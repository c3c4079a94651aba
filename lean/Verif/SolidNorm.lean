import Verif.L2
import Verif.Exp3Lemmas

/-!
# Norms of the translation operators of the solid harmonics

`cV v n d` is the convolution of a sequence with the solid harmonics of degree `n`.  In the norm with the weights
`(n+m)!(n-m)!` the convolution of a sequence of degree `i` has norm at most `binom(i+n, n) |v|^n`.
-/

namespace FMM
open Finset

/-- Convolution with the solid harmonics of degree one. -/
noncomputable def tT (v : Vec 3) (d : ℤ → ℂ) (k : ℤ) : ℂ := wv v / 2 * d (k - 1) + (v 2 : ℂ) * d k - wc v / 2 * d (k + 1)

/-- The part of the norm that the convolution loses. -/
noncomputable def tL (i : ℕ) (v : Vec 3) (d : ℤ → ℂ) (k : ℤ) : ℂ :=
  (v 2 : ℂ) * k * d k - wv v / 2 * ((i : ℂ) - k + 1) * d (k - 1) - wc v / 2 * ((i : ℂ) + k + 1) * d (k + 1)

theorem fF_next {i : ℕ} {k : ℤ} (h1 : |k| ≤ i) (h2 : |k + 1| ≤ i) : ((i : ℂ) - k) * fF i (k + 1) = ((i : ℂ) + 1 + k) * fF i k := by
  rw [abs_le] at h1 h2
  unfold fF
  obtain ⟨a, ha⟩ : ∃ a : ℕ, (a : ℤ) = i + k := ⟨(i + k).toNat, by omega⟩
  obtain ⟨b, hb⟩ : ∃ b : ℕ, (b : ℤ) = i - k - 1 := ⟨(i - k - 1).toNat, by omega⟩
  rw [show (i + (k + 1) : ℤ).toNat = a + 1 by omega, show ((i : ℤ) - (k + 1)).toNat = b by omega,
    show ((i : ℤ) + k).toNat = a by omega, show ((i : ℤ) - k).toNat = b + 1 by omega, Nat.factorial_succ, Nat.factorial_succ]
  have e1 : (i : ℂ) - k = (b : ℂ) + 1 := by
    have : ((i : ℤ) - k : ℤ) = b + 1 := by omega
    exact_mod_cast congrArg (fun z : ℤ => (z : ℂ)) this
  have e2 : (i : ℂ) + 1 + k = (a : ℂ) + 1 := by
    have : ((i : ℤ) + 1 + k : ℤ) = a + 1 := by omega
    exact_mod_cast congrArg (fun z : ℤ => (z : ℂ)) this
  rw [e1, e2]
  push_cast
  ring

/-- The loss of norm of the convolution, as an identity of bilinear forms. -/
theorem tT_form (i : ℕ) (v : Vec 3) (d e : ℤ → ℂ) (hd : ∀ k, (i : ℤ) < |k| → d k = 0) (he : ∀ k, (i : ℤ) < |k| → e k = 0)
    (T' L' : ℤ → ℂ)
    (hT' : ∀ k, T' k = wc v / 2 * e (k - 1) + (v 2 : ℂ) * e k - wv v / 2 * e (k + 1))
    (hL' : ∀ k, L' k = (v 2 : ℂ) * k * e k - wc v / 2 * ((i : ℂ) - k + 1) * e (k - 1) - wv v / 2 * ((i : ℂ) + k + 1) * e (k + 1)) :
    ∑ k ∈ Icc (-((i : ℤ) + 2)) ((i : ℤ) + 2), (fF (i + 1) k * (tT v d k * T' k) + fF i k * (tL i v d k * L' k))
      = ((i : ℂ) + 1) ^ 2 * ((dot3 v v : ℝ) : ℂ) * ∑ k ∈ Icc (-((i : ℤ) + 2)) ((i : ℤ) + 2), fF i k * (d k * e k) := by
  set M : ℤ := (i : ℤ) + 2 with hM
  set H1 : ℤ → ℂ := fun k => (fF (i + 1) (k + 1) + ((i : ℂ) - k) ^ 2 * fF i (k + 1)) * (d k * e k) with hH1
  set H2 : ℤ → ℂ := fun k => (fF (i + 1) (k - 1) + ((i : ℂ) + k) ^ 2 * fF i (k - 1)) * (d k * e k) with hH2
  set K1 : ℤ → ℂ := fun k => (fF (i + 1) (k + 1) - ((k : ℂ) + 1) * ((i : ℂ) - k) * fF i (k + 1)) with hK1
  set K2 : ℤ → ℂ := fun k => (fF (i + 1) k + k * ((i : ℂ) + k + 1) * fF i k) with hK2
  have hpt : ∀ k, fF (i + 1) k * (tT v d k * T' k) + fF i k * (tL i v d k * L' k)
      = wv v * wc v / 4 * H1 (k + (-1)) + wv v * wc v / 4 * H2 (k + 1) + (v 2 : ℂ) ^ 2 * ((fF (i + 1) k + k ^ 2 * fF i k) * (d k * e k))
        + (v 2 : ℂ) * wv v / 2 * ((fun k => K1 k * (d k * e (k + 1))) (k + (-1)) - K2 k * (d k * e (k + 1)))
        + (v 2 : ℂ) * wc v / 2 * ((fun k => K1 k * (d (k + 1) * e k)) (k + (-1)) - K2 k * (d (k + 1) * e k))
        + (wv v ^ 2 * (d (k - 1) * e (k + 1)) + wc v ^ 2 * (d (k + 1) * e (k - 1))) / 4
          * (((i : ℂ) - k + 1) * ((i : ℂ) + k + 1) * fF i k - fF (i + 1) k) := by
    intro k
    rw [hT', hL']
    simp only [hH1, hH2, hK1, hK2, tT, tL, show k + 1 - 1 = k by ring, show k + -1 = k - 1 by ring,
      sub_add_cancel]
    push_cast
    ring
  have hz : ∀ k : ℤ, (wv v ^ 2 * (d (k - 1) * e (k + 1)) + wc v ^ 2 * (d (k + 1) * e (k - 1))) / 4
          * (((i : ℂ) - k + 1) * ((i : ℂ) + k + 1) * fF i k - fF (i + 1) k) = 0 := by
    intro k
    by_cases hk : |k| ≤ i
    · rw [fF_mid hk]; ring
    · push Not at hk
      rw [lt_abs] at hk
      rcases hk with hk | hk
      · rw [he (k + 1) (by rw [lt_abs]; omega), hd (k + 1) (by rw [lt_abs]; omega)]; ring
      · rw [hd (k - 1) (by rw [lt_abs]; omega), he (k - 1) (by rw [lt_abs]; omega)]; ring
  have hK : ∀ k : ℤ, |k| ≤ i → |k + 1| ≤ i → K1 k = K2 k := by
    intro k h1 h2
    simp only [hK1, hK2]
    rw [fF_up h1, fF_mid h1]
    linear_combination -((k : ℂ) + 1) * fF_next h1 h2
  have hKd : ∀ k, K1 k * (d k * e (k + 1)) = K2 k * (d k * e (k + 1)) := by
    intro k
    by_cases h1 : |k| ≤ i
    · by_cases h2 : |k + 1| ≤ i
      · rw [hK k h1 h2]
      · rw [he (k + 1) (by omega)]; ring
    · rw [hd k (by omega)]; ring
  have hKe : ∀ k, K1 k * (d (k + 1) * e k) = K2 k * (d (k + 1) * e k) := by
    intro k
    by_cases h1 : |k| ≤ i
    · by_cases h2 : |k + 1| ≤ i
      · rw [hK k h1 h2]
      · rw [hd (k + 1) (by omega)]; ring
    · rw [he k (by omega)]; ring
  have hH : ∀ k, H1 k + H2 k = 4 * ((i : ℂ) + 1) ^ 2 * (fF i k * (d k * e k)) := by
    intro k
    by_cases h1 : |k| ≤ i
    · have a1 : ((i : ℂ) - k) ^ 2 * fF i (k + 1) = ((i : ℂ) - k) * (((i : ℂ) + 1 + k) * fF i k) := by
        by_cases h2 : |k + 1| ≤ i
        · rw [← fF_next h1 h2]; ring
        · have : k = i := by rw [abs_le] at h1 h2; omega
          subst this; push_cast; ring
      have a2 : ((i : ℂ) + k) ^ 2 * fF i (k - 1) = ((i : ℂ) + k) * (((i : ℂ) + 1 - k) * fF i k) := by
        by_cases h2 : |k - 1| ≤ i
        · have := fF_next h2 (by rwa [sub_add_cancel])
          rw [sub_add_cancel] at this
          push_cast at this
          linear_combination -((i : ℂ) + k) * this
        · have : k = -i := by rw [abs_le] at h1 h2; omega
          subst this; push_cast; ring
      simp only [hH1, hH2]
      rw [a1, a2, fF_up h1, fF_down h1]
      ring
    · simp only [hH1, hH2]
      rw [hd k (by omega)]; ring
  have hz2 : ∀ k, (fF (i + 1) k + k ^ 2 * fF i k) * (d k * e k) = ((i : ℂ) + 1) ^ 2 * (fF i k * (d k * e k)) := by
    intro k
    by_cases h1 : |k| ≤ i
    · rw [fF_mid h1]; ring
    · rw [hd k (by omega)]; ring
  have sh : ∀ (f : ℤ → ℂ), (∀ k, (i : ℤ) < |k| → f k = 0) → ∀ c : ℤ, |c| ≤ 1 → ∑ k ∈ Icc (-M) M, f (k + c) = ∑ k ∈ Icc (-M) M, f k := by
    intro f hf c hc
    refine sum_shift c (fun k hk => hf k (by omega)) fun k hk => hf _ ?_
    rw [lt_abs] at hk ⊢
    rw [abs_le] at hc
    omega
  have s1 := sh H1 (fun k hk => by simp only [hH1]; rw [hd k hk]; ring) (-1) (by norm_num)
  have s2 := sh H2 (fun k hk => by simp only [hH2]; rw [hd k hk]; ring) 1 (by norm_num)
  have s3 := sh (fun k => K1 k * (d k * e (k + 1))) (fun k hk => by rw [hd k hk]; ring) (-1) (by norm_num)
  have s4 := sh (fun k => K1 k * (d (k + 1) * e k)) (fun k hk => by rw [he k hk]; ring) (-1) (by norm_num)
  have s5 : ∑ k ∈ Icc (-M) M, K1 k * (d k * e (k + 1)) = ∑ k ∈ Icc (-M) M, K2 k * (d k * e (k + 1)) :=
    sum_congr rfl fun k _ => hKd k
  have s6 : ∑ k ∈ Icc (-M) M, K1 k * (d (k + 1) * e k) = ∑ k ∈ Icc (-M) M, K2 k * (d (k + 1) * e k) :=
    sum_congr rfl fun k _ => hKe k
  have s7 : ∑ k ∈ Icc (-M) M, H1 k + ∑ k ∈ Icc (-M) M, H2 k
      = 4 * ((i : ℂ) + 1) ^ 2 * ∑ k ∈ Icc (-M) M, fF i k * (d k * e k) := by
    rw [← sum_add_distrib, mul_sum]; exact sum_congr rfl fun k _ => hH k
  have s8 : ∑ k ∈ Icc (-M) M, (fF (i + 1) k + k ^ 2 * fF i k) * (d k * e k)
      = ((i : ℂ) + 1) ^ 2 * ∑ k ∈ Icc (-M) M, fF i k * (d k * e k) := by
    rw [mul_sum]; exact sum_congr rfl fun k _ => hz2 k
  have hsum : ∑ k ∈ Icc (-M) M, (fF (i + 1) k * (tT v d k * T' k) + fF i k * (tL i v d k * L' k))
      = wv v * wc v / 4 * ∑ k ∈ Icc (-M) M, H1 (k + (-1)) + wv v * wc v / 4 * ∑ k ∈ Icc (-M) M, H2 (k + 1)
        + (v 2 : ℂ) ^ 2 * ∑ k ∈ Icc (-M) M, (fF (i + 1) k + k ^ 2 * fF i k) * (d k * e k)
        + (v 2 : ℂ) * wv v / 2 * (∑ k ∈ Icc (-M) M, (fun k => K1 k * (d k * e (k + 1))) (k + (-1)) - ∑ k ∈ Icc (-M) M, K2 k * (d k * e (k + 1)))
        + (v 2 : ℂ) * wc v / 2 * (∑ k ∈ Icc (-M) M, (fun k => K1 k * (d (k + 1) * e k)) (k + (-1)) - ∑ k ∈ Icc (-M) M, K2 k * (d (k + 1) * e k)) := by
    rw [← sum_sub_distrib, ← sum_sub_distrib]
    simp only [mul_sum]
    rw [← sum_add_distrib, ← sum_add_distrib, ← sum_add_distrib, ← sum_add_distrib]
    exact sum_congr rfl fun k _ => by rw [hpt k, hz k, add_zero]
  rw [hsum, s1, s2, s3, s4, s5, s6, s8]
  have h9 := wvwc v
  linear_combination (wv v * wc v / 4) * s7 + ((i : ℂ) + 1) ^ 2 * (∑ k ∈ Icc (-M) M, fF i k * (d k * e k)) * h9

/-- The weighted norm of a sequence of degree `i`. -/
noncomputable def nW (i : ℕ) (d : ℤ → ℂ) : ℝ := l2 (Icc (-(i : ℤ)) i) fun k => (cN i k : ℂ) * d k

theorem nW_nonneg (i : ℕ) (d : ℤ → ℂ) : 0 ≤ nW i d := l2_nonneg _ _

theorem nW_sq (i : ℕ) (d : ℤ → ℂ) (hd : ∀ k, (i : ℤ) < |k| → d k = 0) {M : ℤ} (hM : (i : ℤ) ≤ M) :
    ((nW i d ^ 2 : ℝ) : ℂ) = ∑ k ∈ Icc (-M) M, fF i k * (d k * (starRingEnd ℂ) (d k)) := by
  rw [sum_Icc_ext (N := (i : ℤ)) (fun k hk => by rw [hd k hk]; simp) hM, nW, l2_sq]
  push_cast
  refine sum_congr rfl fun k _ => ?_
  rw [Complex.mul_conj', ← cN_sq, norm_mul, Complex.norm_real, Real.norm_of_nonneg (cN_pos i k).le]
  push_cast; ring

theorem tT_out {i : ℕ} {v : Vec 3} {d : ℤ → ℂ} (hd : ∀ k, (i : ℤ) < |k| → d k = 0) (k : ℤ) (hk : ((i + 1 : ℕ) : ℤ) < |k|) :
    tT v d k = 0 := by
  push_cast at hk
  have hk' := lt_abs.mp hk
  unfold tT
  rw [hd (k - 1) (by rw [lt_abs]; omega), hd k (by rw [lt_abs]; omega), hd (k + 1) (by rw [lt_abs]; omega)]
  ring

theorem tL_out {i : ℕ} {v : Vec 3} {d : ℤ → ℂ} (hd : ∀ k, (i : ℤ) < |k| → d k = 0) (k : ℤ) (hk : (i : ℤ) < |k|) :
    tL i v d k = 0 := by
  have hk' := lt_abs.mp hk
  unfold tL
  rw [hd k hk]
  rcases hk' with h | h
  · rw [hd (k + 1) (by rw [lt_abs]; omega)]
    by_cases h1 : k = i + 1
    · subst h1; push_cast; ring
    · rw [hd (k - 1) (by rw [lt_abs]; omega)]; ring
  · rw [hd (k - 1) (by rw [lt_abs]; omega)]
    by_cases h1 : k = -i - 1
    · subst h1; push_cast; ring
    · rw [hd (k + 1) (by rw [lt_abs]; omega)]; ring

theorem dot3_self_len (v : Vec 3) : dot3 v v = len3 v ^ 2 := by
  unfold len3
  rw [Real.sq_sqrt]
  unfold dot3
  nlinarith [sq_nonneg (v 0), sq_nonneg (v 1), sq_nonneg (v 2)]

/-- The convolution with the solid harmonics of degree one loses norm up to the factor `(i+1)|v|`. -/
theorem nW_tT_eq (i : ℕ) (v : Vec 3) (d : ℤ → ℂ) (hd : ∀ k, (i : ℤ) < |k| → d k = 0) :
    nW (i + 1) (tT v d) ^ 2 + nW i (tL i v d) ^ 2 = (((i : ℝ) + 1) * len3 v * nW i d) ^ 2 := by
  have h := tT_form i v d (fun k => (starRingEnd ℂ) (d k)) hd (fun k hk => by rw [hd k hk, map_zero])
    (fun k => (starRingEnd ℂ) (tT v d k)) (fun k => (starRingEnd ℂ) (tL i v d k))
    (fun k => by simp only [tT, map_sub, map_add, map_mul, map_div₀, conj_wv, conj_wc, Complex.conj_ofReal, map_ofNat])
    (fun k => by simp only [tL, map_sub, map_add, map_mul, map_div₀, conj_wv, conj_wc, Complex.conj_ofReal, map_ofNat,
      Complex.conj_natCast, map_intCast, map_one])
  rw [sum_add_distrib, ← nW_sq i d hd (by omega), ← nW_sq (i + 1) (tT v d) (tT_out hd) (by push_cast; omega),
    ← nW_sq i (tL i v d) (tL_out hd) (by omega), dot3_self_len] at h
  have h' : ((nW (i + 1) (tT v d) ^ 2 + nW i (tL i v d) ^ 2 : ℝ) : ℂ) = (((((i : ℝ) + 1) * len3 v * nW i d) ^ 2 : ℝ) : ℂ) := by
    push_cast at h ⊢
    rw [h]; ring
  exact_mod_cast h'

theorem nW_tT (i : ℕ) (v : Vec 3) (d : ℤ → ℂ) (hd : ∀ k, (i : ℤ) < |k| → d k = 0) :
    nW (i + 1) (tT v d) ≤ ((i : ℝ) + 1) * len3 v * nW i d := by
  have h := nW_tT_eq i v d hd
  have h0 : 0 ≤ ((i : ℝ) + 1) * len3 v * nW i d :=
    mul_nonneg (mul_nonneg (by positivity) (Real.sqrt_nonneg _)) (nW_nonneg i d)
  exact (pow_le_pow_iff_left₀ (nW_nonneg _ _) h0 two_ne_zero).mp (by nlinarith [sq_nonneg (nW i (tL i v d))])

/-! ## Convolution -/

/-- Convolution with the solid harmonics of degree `n`. -/
noncomputable def cV (v : Vec 3) (n : ℕ) (d : ℤ → ℂ) (k : ℤ) : ℂ := ∑ m ∈ Icc (-(n : ℤ)) n, sR v n m * d (k - m)

theorem cV_ext (v : Vec 3) (n : ℕ) (d : ℤ → ℂ) (k : ℤ) {M : ℤ} (hM : (n : ℤ) ≤ M) :
    cV v n d k = ∑ m ∈ Icc (-M) M, sR v n m * d (k - m) :=
  (sum_Icc_ext (fun m hm => by rw [sR_out v n m hm, zero_mul]) hM).symm

theorem cV_zero (v : Vec 3) (d : ℤ → ℂ) (k : ℤ) : cV v 0 d k = d k := by
  unfold cV; simp [sR_zero]

theorem cV_out {i n : ℕ} {v : Vec 3} {d : ℤ → ℂ} (hd : ∀ k, (i : ℤ) < |k| → d k = 0) (k : ℤ) (hk : ((i + n : ℕ) : ℤ) < |k|) :
    cV v n d k = 0 := by
  unfold cV
  refine sum_eq_zero fun m hm => ?_
  rw [mem_Icc] at hm
  push_cast at hk
  rw [hd (k - m) (by rw [lt_abs] at hk ⊢; omega), mul_zero]

theorem cV_succ (v : Vec 3) (n : ℕ) (d : ℤ → ℂ) (k : ℤ) : ((n : ℂ) + 1) * cV v (n + 1) d k = tT v (cV v n d) k := by
  set M : ℤ := (n : ℤ) + 2 with hM
  have e1 : tT v (cV v n d) k = wv v / 2 * ∑ m ∈ Icc (-M) M, sR v n m * d (k - 1 - m)
      + (v 2 : ℂ) * ∑ m ∈ Icc (-M) M, sR v n m * d (k - m) - wc v / 2 * ∑ m ∈ Icc (-M) M, sR v n m * d (k + 1 - m) := by
    unfold tT
    rw [cV_ext v n d _ (show (n : ℤ) ≤ M by omega), cV_ext v n d _ (show (n : ℤ) ≤ M by omega),
      cV_ext v n d _ (show (n : ℤ) ≤ M by omega)]
  have a1 : ∑ m ∈ Icc (-M) M, sR v n m * d (k - 1 - m) = ∑ m ∈ Icc (-M) M, sR v n (m - 1) * d (k - m) := by
    have h := sum_shift (f := fun m => sR v n m * d (k - 1 - m)) (N := M) (-1)
      (fun m hm => by rw [sR_out v n m (by omega), zero_mul])
      (fun m hm => by rw [lt_abs] at hm; rw [sR_out v n (m + -1) (by rw [lt_abs]; omega), zero_mul])
    rw [← h]
    exact sum_congr rfl fun m _ => by rw [show m + -1 = m - 1 by ring, show k - 1 - (m - 1) = k - m by ring]
  have a2 : ∑ m ∈ Icc (-M) M, sR v n m * d (k + 1 - m) = ∑ m ∈ Icc (-M) M, sR v n (m + 1) * d (k - m) := by
    have h := sum_shift (f := fun m => sR v n m * d (k + 1 - m)) (N := M) 1
      (fun m hm => by rw [sR_out v n m (by omega), zero_mul])
      (fun m hm => by rw [lt_abs] at hm; rw [sR_out v n (m + 1) (by rw [lt_abs]; omega), zero_mul])
    rw [← h]
    exact sum_congr rfl fun m _ => by rw [show k + 1 - (m + 1) = k - m by ring]
  rw [e1, a1, a2, cV_ext v (n + 1) d k (show ((n + 1 : ℕ) : ℤ) ≤ M by push_cast; omega)]
  simp only [mul_sum]
  rw [← sum_add_distrib, ← sum_sub_distrib]
  refine sum_congr rfl fun m _ => ?_
  linear_combination d (k - m) * sR_succ v n m

/-- The convolution of a sequence of degree `i` with the solid harmonics of degree `n`. -/
theorem nW_cV {i : ℕ} (v : Vec 3) (n : ℕ) (d : ℤ → ℂ) (hd : ∀ k, (i : ℤ) < |k| → d k = 0) :
    nW (i + n) (cV v n d) ≤ ((i + n).choose n : ℝ) * len3 v ^ n * nW i d := by
  induction n with
  | zero =>
    rw [Nat.add_zero, Nat.choose_zero_right, pow_zero, Nat.cast_one, one_mul, one_mul]
    refine le_of_eq ?_
    unfold nW
    exact l2_congr fun k _ => by rw [cV_zero]
  | succ n ih =>
    have h1 := nW_tT (i + n) v (cV v n d) (cV_out hd)
    have h2 : nW (i + n + 1) (tT v (cV v n d)) = ((n : ℝ) + 1) * nW (i + n + 1) (cV v (n + 1) d) := by
      have : (fun k => (cN (i + n + 1) k : ℂ) * tT v (cV v n d) k)
          = fun k => (((n : ℝ) + 1 : ℝ) : ℂ) * ((cN (i + n + 1) k : ℂ) * cV v (n + 1) d k) := by
        funext k
        rw [← cV_succ]; push_cast; ring
      unfold nW
      rw [this, l2_smul, Complex.norm_real, Real.norm_of_nonneg (by positivity)]
    rw [h2] at h1
    have hn : (0 : ℝ) < (n : ℝ) + 1 := by positivity
    have hl : 0 ≤ len3 v := Real.sqrt_nonneg _
    have hc : ((n : ℝ) + 1) * ((i + n + 1).choose (n + 1) : ℝ) = ((i : ℝ) + n + 1) * ((i + n).choose n : ℝ) := by
      have := Nat.add_one_mul_choose_eq (i + n) n
      have h' : (((i + n + 1) * (i + n).choose n : ℕ) : ℝ) = (((i + n + 1).choose (n + 1) * (n + 1) : ℕ) : ℝ) := by exact_mod_cast this
      push_cast at h'
      linarith
    refine le_of_mul_le_mul_left ?_ hn
    show ((n : ℝ) + 1) * nW (i + n + 1) (cV v (n + 1) d) ≤ _
    refine h1.trans ?_
    calc ((((i + n : ℕ) : ℝ)) + 1) * len3 v * nW (i + n) (cV v n d)
        ≤ ((((i + n : ℕ) : ℝ)) + 1) * len3 v * (((i + n).choose n : ℝ) * len3 v ^ n * nW i d) :=
          mul_le_mul_of_nonneg_left ih (by positivity)
      _ = ((i : ℝ) + n + 1) * ((i + n).choose n : ℝ) * len3 v ^ (n + 1) * nW i d := by push_cast; ring
      _ = ((n : ℝ) + 1) * ((i + n + 1).choose (n + 1) : ℝ) * len3 v ^ (n + 1) * nW i d := by rw [hc]
      _ = _ := by rw [Nat.add_assoc]; ring

end FMM
