import Verif.Solid
import Mathlib.Data.Nat.Factorial.Basic
import Mathlib.Algebra.Polynomial.Roots

/-!
# The pairing of solid harmonics (addition theorem)

`sK n x s = ∑ₘ (-1)^m (n-m)! (n+m)! R_n^m(x) R_n^{-m}(s)` satisfies the three-term recurrence of
`|x|^n |s|^n P_n(cos γ)`; it therefore depends on the Gram matrix of `x, s` only.
-/

namespace FMM
open Finset

/-- `(n+m)! (n-m)!`. -/
noncomputable def fF (n : ℕ) (m : ℤ) : ℂ := (((n + m).toNat.factorial * (n - m).toNat.factorial : ℕ) : ℂ)

theorem fF_mid {n : ℕ} {m : ℤ} (h : |m| ≤ n) : fF (n + 1) m = ((n : ℂ) + 1 + m) * ((n : ℂ) + 1 - m) * fF n m := by
  rw [abs_le] at h
  unfold fF
  obtain ⟨a, ha⟩ : ∃ a : ℕ, (a : ℤ) = n + m := ⟨(n + m).toNat, by omega⟩
  obtain ⟨b, hb⟩ : ∃ b : ℕ, (b : ℤ) = n - m := ⟨(n - m).toNat, by omega⟩
  rw [show (((n + 1 : ℕ) : ℤ) + m).toNat = a + 1 by omega, show (((n + 1 : ℕ) : ℤ) - m).toNat = b + 1 by omega,
    show ((n : ℤ) + m).toNat = a by omega, show ((n : ℤ) - m).toNat = b by omega]
  have ha' : (a : ℂ) = n + m := by exact_mod_cast ha
  have hb' : (b : ℂ) = n - m := by exact_mod_cast hb
  simp only [Nat.factorial_succ]
  push_cast
  rw [ha', hb']; ring

theorem fF_up {n : ℕ} {m : ℤ} (h : |m| ≤ n) : fF (n + 1) (m + 1) = ((n : ℂ) + 2 + m) * ((n : ℂ) + 1 + m) * fF n m := by
  rw [abs_le] at h
  unfold fF
  obtain ⟨a, ha⟩ : ∃ a : ℕ, (a : ℤ) = n + m := ⟨(n + m).toNat, by omega⟩
  obtain ⟨b, hb⟩ : ∃ b : ℕ, (b : ℤ) = n - m := ⟨(n - m).toNat, by omega⟩
  rw [show (((n + 1 : ℕ) : ℤ) + (m + 1)).toNat = a + 2 by omega, show (((n + 1 : ℕ) : ℤ) - (m + 1)).toNat = b by omega,
    show ((n : ℤ) + m).toNat = a by omega, show ((n : ℤ) - m).toNat = b by omega]
  have ha' : (a : ℂ) = n + m := by exact_mod_cast ha
  simp only [Nat.factorial_succ]
  push_cast
  rw [ha']; ring

theorem fF_neg (n : ℕ) (m : ℤ) : fF n (-m) = fF n m := by
  unfold fF; rw [← sub_eq_add_neg, sub_neg_eq_add, mul_comm]

theorem fF_down {n : ℕ} {m : ℤ} (h : |m| ≤ n) : fF (n + 1) (m - 1) = ((n : ℂ) + 2 - m) * ((n : ℂ) + 1 - m) * fF n m := by
  have := fF_up (n := n) (m := -m) (by rwa [abs_neg])
  rw [fF_neg, show -m + 1 = -(m - 1) by ring, fF_neg] at this
  rw [this]; push_cast; ring

/-- The pairing. -/
noncomputable def sK (n : ℕ) (x s : Vec 3) : ℂ :=
  ∑ m ∈ Icc (-(n : ℤ)) n, (-1) ^ m * fF n m * sR x n m * sR s n (-m)

theorem sK_ext (n : ℕ) (x s : Vec 3) {N : ℤ} (h : (n : ℤ) ≤ N) :
    sK n x s = ∑ m ∈ Icc (-N) N, (-1) ^ m * fF n m * sR x n m * sR s n (-m) :=
  (sum_Icc_ext (fun k hk => by rw [sR_out x n k hk]; ring) h).symm

theorem sK_zero (x s : Vec 3) : sK 0 x s = 1 := by
  simp [sK, sR_zero, fF]

/-- Ladder relation used for the second argument. -/
theorem sR_lad1 (x s : Vec 3) (n : ℕ) (m : ℤ) :
    -(wv x * (((n : ℂ) + 3 + m) * ((n : ℂ) + 2 + m)) * sR s (n + 2) (-m - 1))
      + 2 * (x 2 : ℂ) * (((n : ℂ) + 2 + m) * ((n : ℂ) + 2 - m)) * sR s (n + 2) (-m)
      + wc x * (((n : ℂ) + 3 - m) * ((n : ℂ) + 2 - m)) * sR s (n + 2) (-m + 1)
    = 2 * (2 * (n : ℂ) + 3) * ((dot3 x s : ℝ) : ℂ) * sR s (n + 1) (-m)
      - ((dot3 s s : ℝ) : ℂ) * (wv x * sR s n (-m - 1) + 2 * (x 2 : ℂ) * sR s n (-m) - wc x * sR s n (-m + 1)) := by
  have a := sR_wc s n (-m)
  have b := sR_z s n (-m)
  have c := sR_wv s n (-m)
  rw [dot3_eq x s]
  push_cast at *
  linear_combination (-wv x) * a - 2 * (x 2 : ℂ) * b - wc x * c

/-- Ladder relation used for the first argument. -/
theorem sR_lad2 (x : Vec 3) (n : ℕ) (m : ℤ) :
    wv x * (((n : ℂ) + 2 - m) * ((n : ℂ) + 1 - m)) * sR x (n + 1) (m - 1)
      - 2 * (x 2 : ℂ) * (((n : ℂ) + 1 + m) * ((n : ℂ) + 1 - m)) * sR x (n + 1) m
      - wc x * (((n : ℂ) + 2 + m) * ((n : ℂ) + 1 + m)) * sR x (n + 1) (m + 1)
    = -(2 * ((n : ℂ) + 1) * ((dot3 x x : ℝ) : ℂ) * sR x n m) := by
  have a := sR_down x n (m - 1)
  have b := sR_up x n m
  have b' := sR_down x n m
  have c := sR_up x n (m + 1)
  rw [show m - 1 + 1 = m by ring] at a
  rw [show m + 1 - 1 = m by ring] at c
  rw [← wvwc]
  push_cast at *
  linear_combination wv x * ((n : ℂ) + 1 - m) * a - (x 2 : ℂ) * ((n : ℂ) + 1 - m) * b
    - (x 2 : ℂ) * ((n : ℂ) + 1 + m) * b' - wc x * ((n : ℂ) + 1 + m) * c

theorem sK_rec (n : ℕ) (x s : Vec 3) : ((n : ℂ) + 2) * sK (n + 2) x s
    = (2 * (n : ℂ) + 3) * ((dot3 x s : ℝ) : ℂ) * sK (n + 1) x s
      - ((n : ℂ) + 1) * (((dot3 x x : ℝ) : ℂ) * ((dot3 s s : ℝ) : ℂ)) * sK n x s := by
  set N : ℤ := n + 3 with hN
  rw [sK_ext (n + 2) x s (N := N) (by push_cast; omega), sK_ext (n + 1) x s (N := N) (by push_cast; omega),
    sK_ext n x s (N := N) (by omega)]
  have o1 : ∀ k : ℤ, N < |k| + 2 → sR x (n + 1) k = 0 := fun k hk => sR_out _ _ _ (by push_cast; omega)
  have o2 : ∀ k : ℤ, N < |k| + 1 → sR s (n + 2) k = 0 := fun k hk => sR_out _ _ _ (by push_cast; omega)
  have o0 : ∀ k : ℤ, N < |k| + 3 → sR s n k = 0 := fun k hk => sR_out _ _ _ (by omega)
  -- first rearrangement
  have h1 : 2 * ((n : ℂ) + 2) * ∑ m ∈ Icc (-N) N, (-1) ^ m * fF (n + 2) m * sR x (n + 2) m * sR s (n + 2) (-m)
      = ∑ m ∈ Icc (-N) N, (-1) ^ m * sR x (n + 1) m * (-(wv x * fF (n + 2) (m + 1) * sR s (n + 2) (-m - 1))
        + 2 * (x 2 : ℂ) * fF (n + 2) m * sR s (n + 2) (-m) + wc x * fF (n + 2) (m - 1) * sR s (n + 2) (-m + 1)) := by
    have s1 := sum_shift (f := fun m => (-1) ^ m * fF (n + 2) m * sR s (n + 2) (-m) * (wv x * sR x (n + 1) (m - 1)))
      (N := N) 1 (fun k hk => by rw [o2 (-k) (by rw [abs_neg]; omega)]; ring)
      (fun k hk => by rw [o1 (k + 1 - 1) (by rw [add_sub_cancel_right]; omega)]; ring)
    have s3 := sum_shift (f := fun m => (-1) ^ m * fF (n + 2) m * sR s (n + 2) (-m) * (wc x * sR x (n + 1) (m + 1)))
      (N := N) (-1) (fun k hk => by rw [o2 (-k) (by rw [abs_neg]; omega)]; ring)
      (fun k hk => by rw [o1 (k + -1 + 1) (by rw [neg_add_cancel_right]; omega)]; ring)
    calc _ = ∑ m ∈ Icc (-N) N, ((-1) ^ m * fF (n + 2) m * sR s (n + 2) (-m) * (wv x * sR x (n + 1) (m - 1))
            + 2 * ((-1) ^ m * fF (n + 2) m * sR s (n + 2) (-m) * ((x 2 : ℂ) * sR x (n + 1) m))
            - (-1) ^ m * fF (n + 2) m * sR s (n + 2) (-m) * (wc x * sR x (n + 1) (m + 1))) := by
          rw [mul_sum]
          refine sum_congr rfl fun m _ => ?_
          have := sR_succ x (n + 1) m
          push_cast at this
          linear_combination 2 * (-1) ^ m * fF (n + 2) m * sR s (n + 2) (-m) * this
      _ = _ := by
          rw [sum_sub_distrib, sum_add_distrib, ← s1, ← s3, ← sum_add_distrib, ← sum_sub_distrib]
          refine sum_congr rfl fun m _ => ?_
          rw [add_sub_cancel_right, neg_add_cancel_right, show -(m + 1) = -m - 1 by ring,
            show -(m + -1) = -m + 1 by ring, show m + -1 = m - 1 by ring, neg_one_zpow_add_one, neg_one_zpow_sub_one]
          ring
  have h2 : ∑ m ∈ Icc (-N) N, (-1) ^ m * sR x (n + 1) m * (-(wv x * fF (n + 2) (m + 1) * sR s (n + 2) (-m - 1))
        + 2 * (x 2 : ℂ) * fF (n + 2) m * sR s (n + 2) (-m) + wc x * fF (n + 2) (m - 1) * sR s (n + 2) (-m + 1))
      = 2 * (2 * (n : ℂ) + 3) * ((dot3 x s : ℝ) : ℂ)
          * ∑ m ∈ Icc (-N) N, (-1) ^ m * fF (n + 1) m * sR x (n + 1) m * sR s (n + 1) (-m)
        - ((dot3 s s : ℝ) : ℂ) * ∑ m ∈ Icc (-N) N, (-1) ^ m * fF (n + 1) m * sR x (n + 1) m
          * (wv x * sR s n (-m - 1) + 2 * (x 2 : ℂ) * sR s n (-m) - wc x * sR s n (-m + 1)) := by
    rw [mul_sum, mul_sum, ← sum_sub_distrib]
    refine sum_congr rfl fun m _ => ?_
    by_cases hm : |m| ≤ ((n + 1 : ℕ) : ℤ)
    · rw [fF_up hm, fF_mid hm, fF_down hm]
      push_cast
      linear_combination (-1) ^ m * sR x (n + 1) m * fF (n + 1) m * sR_lad1 x s n m
    · rw [sR_out x (n + 1) m (by omega)]; ring
  have h3 : ∑ m ∈ Icc (-N) N, (-1) ^ m * fF (n + 1) m * sR x (n + 1) m
          * (wv x * sR s n (-m - 1) + 2 * (x 2 : ℂ) * sR s n (-m) - wc x * sR s n (-m + 1))
      = 2 * ((n : ℂ) + 1) * ((dot3 x x : ℝ) : ℂ)
        * ∑ m ∈ Icc (-N) N, (-1) ^ m * fF n m * sR x n m * sR s n (-m) := by
    have s1 := sum_shift (f := fun m => (-1) ^ m * fF (n + 1) m * sR x (n + 1) m * (wv x * sR s n (-m - 1)))
      (N := N) (-1) (fun k hk => by rw [o1 k (by omega)]; ring)
      (fun k hk => by rw [show -(k + -1) - 1 = -k by ring, o0 (-k) (by rw [abs_neg]; omega)]; ring)
    have s3 := sum_shift (f := fun m => (-1) ^ m * fF (n + 1) m * sR x (n + 1) m * (wc x * sR s n (-m + 1)))
      (N := N) 1 (fun k hk => by rw [o1 k (by omega)]; ring)
      (fun k hk => by rw [show -(k + 1) + 1 = -k by ring, o0 (-k) (by rw [abs_neg]; omega)]; ring)
    calc _ = ∑ m ∈ Icc (-N) N, ((-1) ^ m * fF (n + 1) m * sR x (n + 1) m * (wv x * sR s n (-m - 1))
            + (-1) ^ m * fF (n + 1) m * sR x (n + 1) m * (2 * (x 2 : ℂ) * sR s n (-m))
            - (-1) ^ m * fF (n + 1) m * sR x (n + 1) m * (wc x * sR s n (-m + 1))) :=
          sum_congr rfl fun m _ => by ring
      _ = _ := by
          rw [sum_sub_distrib, sum_add_distrib, ← s1, ← s3, ← sum_add_distrib, ← sum_sub_distrib, mul_sum]
          refine sum_congr rfl fun m _ => ?_
          rw [show -(m + 1) + 1 = -m by ring, show -(m + -1) - 1 = -m by ring, show m + -1 = m - 1 by ring,
            neg_one_zpow_add_one, neg_one_zpow_sub_one]
          by_cases hm : |m| ≤ (n : ℤ)
          · rw [fF_up hm, fF_mid hm, fF_down hm]
            linear_combination (-((-1) ^ m * sR s n (-m) * fF n m)) * sR_lad2 x n m
          · rw [sR_out s n (-m) (by rw [abs_neg]; omega)]; ring
  rw [h2, h3] at h1
  linear_combination h1 / 2

theorem sK_one (x s : Vec 3) : sK 1 x s = ((dot3 x s : ℝ) : ℂ) := by
  have h : ∀ v : Vec 3, sR v 1 (-1) = -(wc v / 2) ∧ sR v 1 0 = (v 2 : ℂ) ∧ sR v 1 1 = wv v / 2 := by
    intro v
    refine ⟨?_, ?_, ?_⟩ <;> rw [sR] <;> simp [sR_zero]
  have e : Icc (-((1 : ℕ) : ℤ)) ((1 : ℕ) : ℤ) = {-1, 0, 1} := by decide
  have f1 : fF 1 (-1) = 2 := by simp [fF]
  have f2 : fF 1 0 = 1 := by simp [fF]
  have f3 : fF 1 1 = 2 := by simp [fF]
  unfold sK
  rw [e, sum_insert (by decide), sum_insert (by decide), sum_singleton]
  rw [neg_neg, neg_zero, (h x).1, (h x).2.1, (h x).2.2, (h s).1, (h s).2.1, (h s).2.2, dot3_eq, f1, f2, f3]
  simp
  ring

/-- The pairing depends on the Gram matrix only. -/
theorem sK_gram {x s x' s' : Vec 3} (hx : dot3 x x = dot3 x' x') (hs : dot3 s s = dot3 s' s') (hxs : dot3 x s = dot3 x' s') :
    ∀ n, sK n x s = sK n x' s' := by
  have key : ∀ n, sK n x s = sK n x' s' ∧ sK (n + 1) x s = sK (n + 1) x' s' := by
    intro n
    induction n with
    | zero => exact ⟨by rw [sK_zero, sK_zero], by rw [sK_one, sK_one, hxs]⟩
    | succ n ih =>
      refine ⟨ih.2, ?_⟩
      have hn : ((n : ℂ) + 2) ≠ 0 := by
        have : ((n + 2 : ℕ) : ℂ) ≠ 0 := Nat.cast_ne_zero.mpr (by omega)
        push_cast at this; exact this
      refine mul_left_cancel₀ hn ?_
      show ((n : ℂ) + 2) * sK (n + 2) x s = ((n : ℂ) + 2) * sK (n + 2) x' s'
      rw [sK_rec, sK_rec, ih.1, ih.2, hx, hs, hxs]
  exact fun n => (key n).1

/-! ## Bihomogeneous components -/

/-- Component of degree `j` in `u` and `N - j` in `v` of `sK N (u + v) h`. -/
noncomputable def sT (N j : ℕ) (u v h : Vec 3) : ℂ :=
  ∑ m ∈ Icc (-(N : ℤ)) N, (-1) ^ m * fF N m
    * (∑ k ∈ Icc (-(N : ℤ)) N, sR u j k * sR v (N - j) (m - k)) * sR h N (-m)

theorem sK_add (N : ℕ) (u v h : Vec 3) : sK N (u + v) h = ∑ j ∈ range (N + 1), sT N j u v h := by
  unfold sK sT
  rw [sum_comm]
  refine sum_congr rfl fun m _ => ?_
  rw [sR_add u v N m N le_rfl, mul_sum, sum_mul]

theorem sT_smul (N j : ℕ) (a : ℝ) (u v h : Vec 3) : sT N j (a • u) v h = (a : ℂ) ^ j * sT N j u v h := by
  unfold sT
  rw [mul_sum]
  refine sum_congr rfl fun m _ => ?_
  have : ∑ k ∈ Icc (-(N : ℤ)) N, sR (a • u) j k * sR v (N - j) (m - k)
      = (a : ℂ) ^ j * ∑ k ∈ Icc (-(N : ℤ)) N, sR u j k * sR v (N - j) (m - k) := by
    rw [mul_sum]
    exact sum_congr rfl fun k _ => by rw [sR_smul]; ring
  rw [this]; ring

theorem dot3_add_left (u v w : Vec 3) : dot3 (u + v) w = dot3 u w + dot3 v w := by
  simp [dot3]; ring
theorem dot3_smul_left (a : ℝ) (u w : Vec 3) : dot3 (a • u) w = a * dot3 u w := by
  simp [dot3]; ring
theorem dot3_comm (u v : Vec 3) : dot3 u v = dot3 v u := by
  unfold dot3; ring
theorem dot3_add_right (u v w : Vec 3) : dot3 u (v + w) = dot3 u v + dot3 u w := by
  simp [dot3]; ring
theorem dot3_smul_right (a : ℝ) (u w : Vec 3) : dot3 u (a • w) = a * dot3 u w := by
  simp [dot3]; ring

open Polynomial in
/-- The components depend on the Gram matrix only. -/
theorem sT_gram {u v h u' v' h' : Vec 3} (huu : dot3 u u = dot3 u' u') (hvv : dot3 v v = dot3 v' v')
    (hhh : dot3 h h = dot3 h' h') (huv : dot3 u v = dot3 u' v') (huh : dot3 u h = dot3 u' h')
    (hvh : dot3 v h = dot3 v' h') (N j : ℕ) (hj : j ≤ N) : sT N j u v h = sT N j u' v' h' := by
  let P : ∀ (u v h : Vec 3), ℂ[X] := fun u v h => ∑ j ∈ range (N + 1), C (sT N j u v h) * X ^ j
  have hP : ∀ (u v h : Vec 3) (a : ℝ), (P u v h).eval (a : ℂ) = sK N (a • u + v) h := by
    intro u v h a
    rw [sK_add]
    simp only [P, eval_finsetSum, eval_mul, eval_C, eval_pow, eval_X]
    exact sum_congr rfl fun j _ => by rw [sT_smul]; ring
  have heq : P u v h = P u' v' h' := by
    apply Polynomial.eq_of_infinite_eval_eq
    have hinf : (Set.range fun a : ℝ => (a : ℂ)).Infinite := Set.infinite_range_of_injective Complex.ofReal_injective
    refine hinf.mono ?_
    rintro _ ⟨a, rfl⟩
    simp only [Set.mem_ofPred_eq, hP]
    apply sK_gram
    · simp only [dot3_add_left, dot3_add_right, dot3_smul_left, dot3_smul_right, huu, hvv, huv, dot3_comm v u,
        dot3_comm v' u']
    · exact hhh
    · simp only [dot3_add_left, dot3_smul_left, huh, hvh]
  have hc : ∀ (u v h : Vec 3), (P u v h).coeff j = sT N j u v h := by
    intro u v h
    simp only [P, finsetSum_coeff, coeff_C_mul, coeff_X_pow]
    simp [hj]
  rw [← hc u v h, ← hc u' v' h', heq]

end FMM
