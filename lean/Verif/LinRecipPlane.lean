import Verif.LinRecip
import Verif.ExactTwo

/-!
# Exchange of source and evaluation point: the operations in the plane
-/

namespace FMM
open Finset

namespace Rc

/-- The terms of a conversion, with the same degrees in both variables. -/
def symPairs (p : ℕ) : Finset (ℕ × ℕ) :=
  (range (p + 1) ×ˢ range (p + 1)).filter fun m => m.1 = 0 ∨ m.2 = 0 ∨ (m.1 ≤ p - 1 ∧ m.2 ≤ p - 1 ∧ m.1 + m.2 - 1 ≤ p)

/-- A term of a conversion. -/
noncomputable def pairTerm (α β : ℂ) (m : ℕ × ℕ) : ℂ := ((m.1 + m.2).choose m.1 : ℂ) / ((m.1 + m.2 : ℕ) : ℂ) * (α ^ m.1 * β ^ m.2)

theorem pairTerm_swap (α β : ℂ) (m : ℕ × ℕ) : pairTerm β α m.swap = pairTerm α β m := by
  unfold pairTerm
  rw [Prod.fst_swap, Prod.snd_swap, Nat.add_comm m.2 m.1, Nat.choose_symm_add, mul_comm (β ^ m.2)]

theorem sum_swap {P : Finset (ℕ × ℕ)} (hP : ∀ m ∈ P, m.swap ∈ P) (α β : ℂ) : ∑ m ∈ P, pairTerm α β m = ∑ m ∈ P, pairTerm β α m :=
  Finset.sum_nbij' Prod.swap Prod.swap (fun m hm => hP m hm) (fun m hm => hP m hm) (fun m _ => m.swap_swap) (fun m _ => m.swap_swap)
    fun m _ => (pairTerm_swap α β m).symm

theorem symPairs_swap (p : ℕ) : ∀ m ∈ symPairs p, m.swap ∈ symPairs p := by
  intro m hm
  rw [symPairs, mem_filter, mem_product, mem_range, mem_range] at hm ⊢
  rw [Prod.fst_swap, Prod.snd_swap]
  omega

theorem m2lPairs_one_swap (M : ℕ) : ∀ m ∈ m2lPairs M 1, m.swap ∈ m2lPairs M 1 := by
  intro m hm
  rw [m2lPairs, mem_filter, mem_product, mem_range, mem_range] at hm ⊢
  rw [Prod.fst_swap, Prod.snd_swap]
  omega

/-- With the tables of a program that has not used a larger order, there is one more term. -/
theorem m2lPairs_eq {p : ℕ} (hp : 2 ≤ p) : m2lPairs p p = insert (p, 1) (symPairs p) := by
  ext ⟨l, k⟩
  rw [m2lPairs, mem_insert, symPairs, mem_filter, mem_filter, mem_product, mem_range, mem_range, Prod.mk.injEq]
  simp only
  omega

theorem not_mem_symPairs {p : ℕ} (hp : 2 ≤ p) : (p, 1) ∉ symPairs p := by
  rw [symPairs, mem_filter]
  simp only
  omega

/-- The value of a conversion. -/
theorem m2l_pairs (p : ℕ) (hp0 : 0 < p) (hp : p ≤ 1029) (M : ℕ) (a b u y : Vec 2) (h : a ≠ b) :
    (lin2Pot p hp0 hp M).m2l a b ⟨u, 1⟩ y = Real.log ‖toC a - toC b‖
      - (∑ m ∈ m2lPairs M p, pairTerm ((toC y - toC b) / (toC a - toC b)) (-(toC u - toC a) / (toC a - toC b)) m).re := by
  have h0 : toC a - toC b ≠ 0 := sub_ne_zero.mpr fun e => h (toC_injective e)
  show (1 : ℝ) • (leSum (Exp2.m2lCoeff M p (meCoeff (toC a) [⟨u, 1⟩]) (toC a - toC b)) p (toC y - toC b)).re = _
  rw [one_smul, m2l_leSum _ _ _ _ _ _ h0]
  simp only [Complex.ofReal_one, one_mul]
  rw [Complex.sub_re, Complex.log_re, norm_neg]
  rfl

theorem swap_args (a b u y : Vec 2) : (toC u - toC a) / (toC b - toC a) = -(toC u - toC a) / (toC a - toC b) ∧
    -(toC y - toC b) / (toC b - toC a) = (toC y - toC b) / (toC a - toC b) := by
  have e : toC b - toC a = -(toC a - toC b) := by ring
  rw [e]
  exact ⟨by rw [div_neg, neg_div], by rw [neg_div_neg_eq]⟩

/-- Order 1: conversions are symmetric. -/
theorem m2l_swap_one (M : ℕ) (a b u y : Vec 2) (h : a ≠ b) :
    (lin2Pot 1 one_pos (by norm_num) M).m2l a b ⟨u, 1⟩ y = (lin2Pot 1 one_pos (by norm_num) M).m2l b a ⟨y, 1⟩ u := by
  rw [m2l_pairs _ _ _ _ _ _ _ _ h, m2l_pairs _ _ _ _ _ _ _ _ h.symm, (swap_args a b u y).1, (swap_args a b u y).2, norm_sub_rev,
    sum_swap (m2lPairs_one_swap M)]

/-- Higher orders: they are not. -/
theorem m2l_swap_gap {p : ℕ} (hp2 : 2 ≤ p) (hp0 : 0 < p) (hp : p ≤ 1029) (a b u y : Vec 2) (h : a ≠ b) :
    (lin2Pot p hp0 hp p).m2l a b ⟨u, 1⟩ y - (lin2Pot p hp0 hp p).m2l b a ⟨y, 1⟩ u
      = ((-(toC u - toC a) / (toC a - toC b)) ^ p * ((toC y - toC b) / (toC a - toC b))
        - ((toC y - toC b) / (toC a - toC b)) ^ p * (-(toC u - toC a) / (toC a - toC b))).re := by
  rw [m2l_pairs _ _ _ _ _ _ _ _ h, m2l_pairs _ _ _ _ _ _ _ _ h.symm, (swap_args a b u y).1, (swap_args a b u y).2, norm_sub_rev,
    m2lPairs_eq hp2, sum_insert (not_mem_symPairs hp2), sum_insert (not_mem_symPairs hp2), sum_swap (symPairs_swap p), Complex.add_re, Complex.add_re,
    Complex.sub_re]
  have e : ∀ α β : ℂ, pairTerm α β (p, 1) = α ^ p * β := by
    intro α β
    have h0 : ((p + 1 : ℕ) : ℂ) ≠ 0 := by exact_mod_cast Nat.succ_ne_zero p
    unfold pairTerm
    simp only
    rw [Nat.choose_succ_self_right, div_self h0, one_mul, pow_one]
  rw [e, e]
  ring

theorem recip2 (p : ℕ) (hp0 : 0 < p) (hp : p ≤ 1029) (M : ℕ) : RecipLaws (lin2Pot p hp0 hp M) where
  m2p := by
    intro a u y h
    have h0 : toC y - toC a ≠ 0 := sub_ne_zero.mpr fun e => h (toC_injective e)
    show (1 : ℝ) • (meSum (uME2 (toC a) u) p (toC y - toC a)).re = (1 : ℝ) • (leSum (uLE2 (toC a) y) p (toC u - toC a)).re
    rw [one_smul, one_smul]
    unfold meSum leSum
    rw [sum_range_succ', Complex.add_re, Complex.add_re, add_comm]
    refine congrArg₂ (· + ·) (congrArg Complex.re (sum_congr rfl fun i _ => ?_)) ?_
    · unfold uME2 uLE2 leCoeff
      rw [meCoeff_single, if_neg (by omega), if_neg (by omega)]
      simp
      ring
    · unfold uME2 uLE2 leCoeff
      rw [meCoeff_single, if_pos rfl, if_pos rfl]
      simp [Complex.log_re]
      rw [← norm_neg]
      simp
  p2p := by
    intro u y
    show directTerm true y ⟨u, 1⟩ = directTerm true u ⟨y, 1⟩
    unfold directTerm kernelSpec
    by_cases h : u = y
    · simp [h]
    · rw [if_neg h, if_neg (Ne.symm h)]
      simp [dist2_comm]

end Rc
end FMM
