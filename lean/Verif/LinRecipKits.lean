import Verif.LinRecip
import Verif.LinScaleKits

/-!
# Exchange of source and evaluation point: the operations in space
-/

namespace FMM
open Finset

namespace Rc

theorem sum_neg_index (n : ℕ) (f : ℤ → ℂ) : ∑ m ∈ Icc (-(n : ℤ)) n, f (-m) = ∑ m ∈ Icc (-(n : ℤ)) n, f m := by
  refine Finset.sum_nbij' (fun m => -m) (fun m => -m) ?_ ?_ ?_ ?_ ?_
  · intro m hm; rw [mem_Icc] at hm ⊢; omega
  · intro m hm; rw [mem_Icc] at hm ⊢; omega
  · intro m _; simp
  · intro m _; simp
  · intro m _; rfl

theorem rY_neg (v : Vec 3) (n : ℕ) (m : ℤ) : rY (-v) n m = (-1) ^ n * rY v n m := by
  have := Sc.rY_scale (-1) v n m
  rw [neg_one_smul] at this
  rw [this]; norm_num

theorem len3_neg (v : Vec 3) : len3 (-v) = len3 v := by
  rw [← neg_one_smul ℝ, len3_smul]; norm_num

theorem aSpec_neg (n : ℕ) (m : ℤ) : aSpec n (-m) = aSpec n m := by
  unfold aSpec
  rw [sub_neg_eq_add, mul_comm, ← sub_eq_add_neg]

theorem sg2_swap (k m : ℤ) : sg2 (-m) (-k) = sg2 k m := by
  unfold sg2
  rw [abs_neg, abs_neg, show -m - -k = k - m by ring]
  congr 1; ring

theorem uME3_eq (c y : Vec 3) (n : ℕ) (m : ℤ) : uME3 c y n m = rY (y - c) n (-m) := by
  unfold uME3 meCoeff3; simp

theorem uLE3_eq (c y : Vec 3) (n : ℕ) (m : ℤ) : uLE3 c y n m = rY (y - c) n (-m) / (len3 (y - c) : ℂ) ^ (2 * n + 1) := by
  unfold uLE3 leCoeff3; simp

/-- One term of the conversion of a multipole to a local expansion. -/
noncomputable def convTerm (s t h : Vec 3) (n j : ℕ) (m k : ℤ) : ℂ :=
  (-1) ^ n * ((sg2 k m * aSpec n m * aSpec j k / aSpec (j + n) (m - k) : ℝ) : ℂ) * rY s n (-m) * rY t j k
    * (rY h (j + n) (m - k) / (len3 h : ℂ) ^ (2 * (j + n) + 1))

theorem convTerm_swap (s t h : Vec 3) (n j : ℕ) (m k : ℤ) : convTerm t s (-h) j n (-k) (-m) = convTerm s t h n j m k := by
  unfold convTerm
  rw [sg2_swap, aSpec_neg, aSpec_neg, neg_neg, show -k - -m = m - k by ring, Nat.add_comm n j, rY_neg, len3_neg, pow_add]
  have h1 : ((-1 : ℂ) ^ j) * (-1) ^ j = 1 := by rw [← mul_pow]; norm_num
  push_cast
  linear_combination ((-1 : ℂ) ^ n * (sg2 k m * aSpec j k * aSpec n m / aSpec (j + n) (m - k)) * rY s n (-m) * rY t j k
    * (rY h (j + n) (m - k) / (len3 h : ℂ) ^ (2 * (j + n) + 1))) * h1

theorem conv_sum (p : ℕ) (s t h : Vec 3) (a : Vec 3) :
    ∑ j ∈ range (p + 1), ∑ k ∈ Icc (-(j : ℤ)) j, m2lC p (uME3 a (a + s)) h j k * rY t j k
      = ∑ j ∈ range (p + 1), ∑ n ∈ range (p + 1), ∑ k ∈ Icc (-(j : ℤ)) j, ∑ m ∈ Icc (-(n : ℤ)) n, convTerm s t h n j m k := by
  refine sum_congr rfl fun j _ => ?_
  rw [sum_comm]
  refine sum_congr rfl fun k _ => ?_
  unfold m2lC
  rw [sum_mul, sum_mul]
  refine sum_congr rfl fun n _ => ?_
  rw [mul_sum, sum_mul, sum_mul]
  refine sum_congr rfl fun m _ => ?_
  rw [uME3_eq, add_sub_cancel_left]
  unfold convTerm
  push_cast
  ring

theorem conv_sum_swap (p : ℕ) (s t h : Vec 3) :
    ∑ j ∈ range (p + 1), ∑ n ∈ range (p + 1), ∑ k ∈ Icc (-(j : ℤ)) j, ∑ m ∈ Icc (-(n : ℤ)) n, convTerm s t h n j m k
      = ∑ j ∈ range (p + 1), ∑ n ∈ range (p + 1), ∑ k ∈ Icc (-(j : ℤ)) j, ∑ m ∈ Icc (-(n : ℤ)) n, convTerm t s (-h) n j m k := by
  rw [sum_comm]
  refine sum_congr rfl fun n _ => sum_congr rfl fun j _ => ?_
  rw [sum_comm, ← sum_neg_index n]
  refine sum_congr rfl fun m _ => ?_
  rw [← sum_neg_index j]
  refine sum_congr rfl fun k _ => ?_
  rw [← convTerm_swap, neg_neg, neg_neg]

theorem m2l_swap3 (p : ℕ) (hp : p ≤ 42) (a b u y : Vec 3) : (lin3Pot p hp).m2l a b ⟨u, 1⟩ y = (lin3Pot p hp).m2l b a ⟨y, 1⟩ u := by
  have e : ∀ a b u y : Vec 3, (lin3Pot p hp).m2l a b ⟨u, 1⟩ y
      = -(∑ j ∈ range (p + 1), ∑ k ∈ Icc (-(j : ℤ)) j, m2lC p (uME3 a (a + (u - a))) (a - b) j k * rY (y - b) j k).re := by
    intro a b u y
    rw [add_sub_cancel]
    show (1 : ℝ) • _ = _
    rw [one_smul]; rfl
  rw [e a b, e b a, conv_sum, conv_sum, conv_sum_swap, neg_sub]

theorem recip3 (p : ℕ) (hp : p ≤ 42) : RecipLaws (lin3Pot p hp) where
  m2p := by
    intro a u y _
    show (1 : ℝ) • _ = (1 : ℝ) • _
    rw [one_smul, one_smul]
    show -(∑ n ∈ range (p + 1), ∑ m ∈ Icc (-(n : ℤ)) n, uME3 a u n m * (rY (y - a) n m / (len3 (y - a) : ℂ) ^ (2 * n + 1))).re
      = -(∑ n ∈ range (p + 1), ∑ m ∈ Icc (-(n : ℤ)) n, uLE3 a y n m * rY (u - a) n m).re
    congr 2
    refine sum_congr rfl fun n _ => ?_
    rw [← sum_neg_index n]
    refine sum_congr rfl fun m _ => ?_
    rw [uME3_eq, uLE3_eq, neg_neg]
    ring
  p2p := by
    intro u y
    show directTerm true y ⟨u, 1⟩ = directTerm true u ⟨y, 1⟩
    unfold directTerm kernelSpec
    by_cases h : u = y
    · simp [h]
    · rw [if_neg h, if_neg (Ne.symm h)]
      simp [dist2_comm]

end Rc
end FMM
