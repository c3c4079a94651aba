import Verif.Rounding
import Mathlib.Algebra.Order.Field.Basic
import Mathlib.Tactic.Linarith
import Mathlib.Tactic.Ring
import Mathlib.Tactic.FieldSimp
import Mathlib.Tactic.Positivity

/-! # Propagation of rounding errors through the geometric layer -/

namespace FMM.Rounded
variable {K : Type} [Field K] [LinearOrder K] [IsStrictOrderedRing K] {d : ℕ}

/-! ## Exact boxes -/

theorem len_exact (r : RBox K d) (π : Path) : (boxAt id r π).len = r.len / 2 ^ π.length := by
  induction π with
  | nil => simp [boxAt]
  | cons i π ih => simp only [boxAt, RBox.child, id, ih, List.length_cons, pow_succ]; field_simp

theorem center_exact_cons (r : RBox K d) (i : ℕ) (π : Path) (j : Fin d) :
    (boxAt id r (i :: π)).center j = (boxAt id r π).center j + dir d i j * (r.len / 2 ^ π.length / 2 / 2) := by
  simp [boxAt, RBox.child, vadd, vscale, len_exact]

theorem abs_dir (i : ℕ) (j : Fin d) : |(dir d i j : K)| = 1 := by
  unfold dir
  split_ifs <;> simp

/-- Exact centres stay in the root box. -/
theorem center_exact_near (r : RBox K d) (hL : 0 ≤ r.len) (π : Path) (j : Fin d) :
    |(boxAt id r π).center j - r.center j| ≤ r.len / 2 - r.len / 2 ^ π.length / 2 := by
  induction π with
  | nil => simp [boxAt]
  | cons i π ih =>
    rw [center_exact_cons]
    have h1 : |(dir d i j : K) * (r.len / 2 ^ π.length / 2 / 2)| = r.len / 2 ^ π.length / 2 / 2 := by
      rw [abs_mul, abs_dir, one_mul, abs_of_nonneg (by positivity)]
    calc |(boxAt id r π).center j + dir d i j * (r.len / 2 ^ π.length / 2 / 2) - r.center j|
        = |((boxAt id r π).center j - r.center j) + dir d i j * (r.len / 2 ^ π.length / 2 / 2)| := by congr 1; ring
      _ ≤ _ := abs_add_le _ _
      _ ≤ (r.len / 2 - r.len / 2 ^ π.length / 2) + r.len / 2 ^ π.length / 2 / 2 := by rw [h1]; linarith
      _ = _ := by rw [List.length_cons, pow_succ]; field_simp; ring

/-- Lower corners lie on the grid of the depth of the box. -/
theorem lower_grid (r : RBox K d) (π : Path) (j : Fin d) :
    (boxAt id r π).center j - (boxAt id r π).len / 2 = (r.center j - r.len / 2) + (grid d π j : K) * (r.len / 2 ^ π.length) := by
  induction π with
  | nil => simp [boxAt, grid]
  | cons i π ih =>
    rw [center_exact_cons, len_exact, List.length_cons]
    rw [len_exact] at ih
    have e : (boxAt id r π).center j = (r.center j - r.len / 2) + (grid d π j : K) * (r.len / 2 ^ π.length)
      + r.len / 2 ^ π.length / 2 := by linarith
    rw [e]
    simp only [grid, dir]
    have h2 : r.len / 2 ^ (π.length + 1) = r.len / 2 ^ π.length / 2 := by rw [pow_succ]; field_simp
    rw [h2]
    generalize r.len / 2 ^ π.length = l
    cases hb : i.testBit (d - j - 1) <;> simp <;> ring

/-! ## Errors -/

section
variable {rnd : K → K} {B δ : K}

/-- Rounding a perturbed number. -/
theorem rnd_near (H : ∀ x, |x| ≤ B → |rnd x - x| ≤ δ) {a a' e : K} (h : |a' - a| ≤ e) (hB : |a| + e ≤ B) :
    |rnd a' - a| ≤ e + δ := by
  have h1 : |a'| ≤ B := by
    calc |a'| = |a + (a' - a)| := by congr 1; ring
      _ ≤ _ := abs_add_le _ _
      _ ≤ B := by linarith
  calc |rnd a' - a| = |(rnd a' - a') + (a' - a)| := by congr 1; ring
    _ ≤ _ := abs_add_le _ _
    _ ≤ _ := by linarith [H a' h1]

theorem near_add {a a' b b' e f : K} (ha : |a' - a| ≤ e) (hb : |b' - b| ≤ f) : |(a' + b') - (a + b)| ≤ e + f := by
  calc |(a' + b') - (a + b)| = |(a' - a) + (b' - b)| := by congr 1; ring
    _ ≤ _ := abs_add_le _ _
    _ ≤ _ := add_le_add ha hb

theorem near_mul_unit {a a' e s : K} (hs : |s| = 1) (ha : |a' - a| ≤ e) : |s * a' - s * a| ≤ e := by
  rw [← mul_sub, abs_mul, hs, one_mul]; exact ha

theorem near_half {a a' e : K} (ha : |a' - a| ≤ e) : |a' / 2 - a / 2| ≤ e / 2 := by
  rw [← sub_div, abs_div, abs_of_pos (by norm_num : (0 : K) < 2)]
  linarith

theorem near_min {a a' b b' e : K} (ha : |a' - a| ≤ e) (hb : |b' - b| ≤ e) : |min a' b' - min a b| ≤ e := by
  rw [abs_le] at *
  rcases min_choice a' b' with h1 | h1 <;> rcases min_choice a b with h2 | h2 <;> rw [h1, h2] <;> constructor
  all_goals have l1 := min_le_left a' b'; have l2 := min_le_right a' b'; have l3 := min_le_left a b
  all_goals have l4 := min_le_right a b; rw [h1] at l1 l2; rw [h2] at l3 l4; linarith

/-- The data of the error analysis: rounding of numbers of size `B` makes an error of at most `δ`; boxes up to depth `k`. -/
structure Ctx (rnd : K → K) (r : RBox K d) (B C δ : K) (k : ℕ) : Prop where
  rel : ∀ x, |x| ≤ B → |rnd x - x| ≤ δ
  nonneg : 0 ≤ δ
  len : 0 < r.len
  center : ∀ i, |r.center i| ≤ C
  bound : 4 * (C + r.len) ≤ B
  small : (8 * k + 15) * δ ≤ r.len / 2

variable {r : RBox K d} {C : K} {k : ℕ}

namespace Ctx

theorem mono (c : Ctx rnd r B C δ k) {j : ℕ} (h : j ≤ k) : (4 * j + 7) * δ ≤ r.len / 2 := by
  refine le_trans ?_ c.small
  have : (j : K) ≤ k := by exact_mod_cast h
  refine mul_le_mul_of_nonneg_right ?_ c.nonneg
  have : (0 : K) ≤ k := Nat.cast_nonneg k
  linarith

theorem le_len (c : Ctx rnd r B C δ k) (n : ℕ) : 0 ≤ r.len / 2 ^ n ∧ r.len / 2 ^ n ≤ r.len := by
  have := c.len.le
  exact ⟨by positivity, div_le_self this (one_le_pow₀ (by norm_num))⟩

theorem small7 (c : Ctx rnd r B C δ k) : 15 * δ ≤ r.len / 2 := by
  have h := c.small
  have : 0 ≤ (k : K) * δ := mul_nonneg (Nat.cast_nonneg k) c.nonneg
  linarith

theorem C_nonneg (c : Ctx rnd r B C δ k) (i : Fin d) : 0 ≤ C := (abs_nonneg _).trans (c.center i)

/-- Computed side lengths. -/
theorem lenR (c : Ctx rnd r B C δ k) (hC : 0 ≤ C) (π : Path) : |(boxAt rnd r π).len - r.len / 2 ^ π.length| ≤ 2 * δ := by
  have h7 := c.small7
  have hb := c.bound
  have hn := c.nonneg
  have hl := c.len
  induction π with
  | nil => simp [boxAt, hn]
  | cons i π ih =>
    have h1 := near_half ih
    have h2 := c.le_len π.length
    simp only [boxAt, RBox.child, List.length_cons]
    have := rnd_near c.rel h1 (by rw [abs_of_nonneg (by linarith)]; linarith)
    rw [pow_succ, ← div_div]
    linarith

/-- Computed centres. -/
theorem centerR (c : Ctx rnd r B C δ k) (π : Path) (hπ : π.length ≤ k) (j : Fin d) :
    |(boxAt rnd r π).center j - (boxAt id r π).center j| ≤ 4 * π.length * δ := by
  have h7 := c.small7
  have hb := c.bound
  have hn := c.nonneg
  have hl := c.len
  have hC := c.C_nonneg j
  induction π with
  | nil => simp [boxAt]
  | cons i π ih =>
    have ih := ih (by simp at hπ; omega)
    have hm := c.mono (show π.length ≤ k by simp at hπ; omega)
    have h1 := c.lenR hC (i :: π)
    have h2 := c.le_len (i :: π).length
    have h3 := rnd_near c.rel (near_half h1) (by rw [abs_of_nonneg (by linarith)]; linarith)
    have h4 := near_mul_unit (abs_dir (K := K) i j) h3
    have h5 := rnd_near c.rel h4 (by
      rw [abs_mul, abs_dir, one_mul, abs_of_nonneg (by linarith)]; linarith)
    have h6 := near_add ih h5
    have hc := center_exact_near r hl.le (i :: π) j
    have e : (boxAt id r (i :: π)).center j = (boxAt id r π).center j + dir d i j * (r.len / 2 ^ (i :: π).length / 2) := by
      rw [center_exact_cons, List.length_cons, pow_succ, ← div_div]
    rw [← e] at h6
    have habs : |(boxAt id r (i :: π)).center j| ≤ C + r.len / 2 := by
      have := abs_sub_abs_le_abs_sub ((boxAt id r (i :: π)).center j) (r.center j)
      have := c.center j
      linarith
    have h8 := rnd_near c.rel h6 (by linarith)
    have e2 : (boxAt rnd r (i :: π)).center j =
        rnd ((boxAt rnd r π).center j + rnd (dir d i j * rnd ((boxAt rnd r (i :: π)).len / 2))) := rfl
    rw [e2, List.length_cons]
    push_cast
    linarith

theorem center_abs (c : Ctx rnd r B C δ k) (π : Path) (j : Fin d) : |(boxAt id r π).center j| ≤ C + r.len / 2 := by
  have hc := center_exact_near r c.len.le π j
  have := abs_sub_abs_le_abs_sub ((boxAt id r π).center j) (r.center j)
  have := c.center j
  have := (c.le_len π.length).1
  linarith

/-- Computed upper corners. -/
theorem upperR (c : Ctx rnd r B C δ k) (π : Path) (hπ : π.length ≤ k) (j : Fin d) :
    |(boxAt rnd r π).upper rnd j - ((boxAt id r π).center j + r.len / 2 ^ π.length / 2)| ≤ (4 * π.length + 4) * δ := by
  have h7 := c.small7
  have hb := c.bound
  have hn := c.nonneg
  have hl := c.len
  have hC := c.C_nonneg j
  have hm := c.mono hπ
  have h2 := c.le_len π.length
  have h3 := rnd_near c.rel (near_half (c.lenR hC π)) (by rw [abs_of_nonneg (by linarith)]; linarith)
  have h4 := near_mul_unit (abs_one (α := K)) h3
  have h5 := rnd_near c.rel h4 (by rw [abs_mul, abs_one, one_mul, abs_of_nonneg (by linarith)]; linarith)
  have h6 := near_add (c.centerR π hπ j) h5
  have ha := c.center_abs π j
  have h8 := rnd_near c.rel h6 (by
    rw [one_mul]
    have := abs_add_le ((boxAt id r π).center j) (r.len / 2 ^ π.length / 2)
    rw [abs_of_nonneg (by linarith : 0 ≤ r.len / 2 ^ π.length / 2)] at this
    linarith)
  rw [one_mul (r.len / 2 ^ π.length / 2)] at h8
  have e : (boxAt rnd r π).upper rnd j = rnd ((boxAt rnd r π).center j + rnd (1 * rnd ((boxAt rnd r π).len / 2))) := rfl
  rw [e]
  linarith

/-- Computed lower corners. -/
theorem lowerR (c : Ctx rnd r B C δ k) (π : Path) (hπ : π.length ≤ k) (j : Fin d) :
    |(boxAt rnd r π).lower rnd j - ((boxAt id r π).center j - r.len / 2 ^ π.length / 2)| ≤ (4 * π.length + 5) * δ := by
  have h7 := c.small7
  have hb := c.bound
  have hn := c.nonneg
  have hl := c.len
  have hC := c.C_nonneg j
  have hm := c.mono hπ
  have h2 := c.le_len π.length
  have h3 := rnd_near c.rel (near_half (c.lenR hC π)) (by rw [abs_of_nonneg (by linarith)]; linarith)
  have h4 := near_mul_unit (abs_one (α := K)) h3
  have h5 := rnd_near c.rel h4 (by rw [abs_mul, abs_one, one_mul, abs_of_nonneg (by linarith)]; linarith)
  rw [one_mul (r.len / 2 ^ π.length / 2)] at h5
  have h9 := near_mul_unit (s := (-1 : K)) (by simp) h5
  have h9 := rnd_near c.rel h9 (by rw [abs_mul, abs_neg, abs_one, one_mul, abs_of_nonneg (by linarith)]; linarith)
  have h6 := near_add (c.centerR π hπ j) h9
  have ha := c.center_abs π j
  have h8 := rnd_near c.rel h6 (by
    have := abs_add_le ((boxAt id r π).center j) (-1 * (r.len / 2 ^ π.length / 2))
    rw [abs_mul, abs_neg, abs_one, one_mul, abs_of_nonneg (by linarith : 0 ≤ r.len / 2 ^ π.length / 2)] at this
    linarith)
  have e : (boxAt rnd r π).lower rnd j =
      rnd ((boxAt rnd r π).center j + rnd (rnd (1 * rnd ((boxAt rnd r π).len / 2)) * -1)) := rfl
  have e2 : (boxAt id r π).center j - r.len / 2 ^ π.length / 2 =
      (boxAt id r π).center j + -1 * (r.len / 2 ^ π.length / 2) := by ring
  rw [e, mul_comm (rnd (1 * _)) (-1 : K), e2]
  linarith

/-- Computed distance between boxes, minus the tolerance. -/
theorem diffR (c : Ctx rnd r B C δ k) (π ρ : Path) (hπ : π.length ≤ k) (hρ : ρ.length ≤ k) (j : Fin d) :
    |vsub rnd (vsub rnd ((boxAt rnd r ρ).lower rnd) ((boxAt rnd r π).upper rnd))
        (fun _ => rnd (min (boxAt rnd r π).len (boxAt rnd r ρ).len / 2)) j
      - (((boxAt id r ρ).center j - r.len / 2 ^ ρ.length / 2) - ((boxAt id r π).center j + r.len / 2 ^ π.length / 2)
        - min (r.len / 2 ^ π.length) (r.len / 2 ^ ρ.length) / 2)| ≤ (8 * k + 15) * δ := by
  have h7 := c.small7
  have hb := c.bound
  have hn := c.nonneg
  have hl := c.len
  have hC := c.C_nonneg j
  have hm := c.small
  have h2 := c.le_len π.length
  have h2' := c.le_len ρ.length
  have hk1 : (π.length : K) * δ ≤ k * δ := mul_le_mul_of_nonneg_right (by exact_mod_cast hπ) hn
  have hk2 : (ρ.length : K) * δ ≤ k * δ := mul_le_mul_of_nonneg_right (by exact_mod_cast hρ) hn
  have hk0 : (0 : K) ≤ k * δ := mul_nonneg (Nat.cast_nonneg k) hn
  have a1 := c.center_abs π j
  have a2 := c.center_abs ρ j
  have n1 : |(boxAt id r π).center j + r.len / 2 ^ π.length / 2| ≤ C + r.len := by
    have := abs_add_le ((boxAt id r π).center j) (r.len / 2 ^ π.length / 2)
    rw [abs_of_nonneg (by linarith : 0 ≤ r.len / 2 ^ π.length / 2)] at this
    linarith
  have n2 : |(boxAt id r ρ).center j - r.len / 2 ^ ρ.length / 2| ≤ C + r.len := by
    have := abs_sub ((boxAt id r ρ).center j) (r.len / 2 ^ ρ.length / 2)
    rw [abs_of_nonneg (by linarith : 0 ≤ r.len / 2 ^ ρ.length / 2)] at this
    linarith
  have hu := near_mul_unit (s := (-1 : K)) (by simp) (c.upperR π hπ j)
  have hu := rnd_near c.rel hu (by rw [abs_mul, abs_neg, abs_one, one_mul]; linarith)
  have hd := near_add (c.lowerR ρ hρ j) hu
  have n3 : |((boxAt id r ρ).center j - r.len / 2 ^ ρ.length / 2)
      + -1 * ((boxAt id r π).center j + r.len / 2 ^ π.length / 2)| ≤ 2 * (C + r.len) := by
    refine (abs_add_le _ _).trans ?_
    rw [abs_mul, abs_neg, abs_one, one_mul]
    linarith
  have hd := rnd_near c.rel hd (by linarith)
  have ht := near_half (near_min (c.lenR hC π) (c.lenR hC ρ))
  have hmin0 : 0 ≤ min (r.len / 2 ^ π.length) (r.len / 2 ^ ρ.length) := le_min h2.1 h2'.1
  have hmin1 : min (r.len / 2 ^ π.length) (r.len / 2 ^ ρ.length) ≤ r.len := (min_le_left _ _).trans h2.2
  have ht := rnd_near c.rel ht (by rw [abs_of_nonneg (by linarith)]; linarith)
  have ht := near_mul_unit (s := (-1 : K)) (by simp) ht
  have ht := rnd_near c.rel ht (by rw [abs_mul, abs_neg, abs_one, one_mul, abs_of_nonneg (by linarith)]; linarith)
  have hs := near_add hd ht
  have hs := rnd_near c.rel hs (by
    refine (add_le_add_left (abs_add_le _ _) _).trans ?_
    rw [abs_mul (-1 : K), abs_neg, abs_one, one_mul, abs_of_nonneg (by linarith : (0 : K) ≤ _ / 2)]
    linarith)
  have e : vsub rnd (vsub rnd ((boxAt rnd r ρ).lower rnd) ((boxAt rnd r π).upper rnd))
        (fun _ => rnd (min (boxAt rnd r π).len (boxAt rnd r ρ).len / 2)) j
      = rnd (rnd ((boxAt rnd r ρ).lower rnd j + rnd (-1 * (boxAt rnd r π).upper rnd j))
        + rnd (-1 * rnd (min (boxAt rnd r π).len (boxAt rnd r ρ).len / 2))) := by
    simp only [vsub, vadd, vneg, vscale, mul_comm _ (-1 : K)]
  rw [e]
  have e2 : ((boxAt id r ρ).center j - r.len / 2 ^ ρ.length / 2) - ((boxAt id r π).center j + r.len / 2 ^ π.length / 2)
        - min (r.len / 2 ^ π.length) (r.len / 2 ^ ρ.length) / 2 =
      ((boxAt id r ρ).center j - r.len / 2 ^ ρ.length / 2) + -1 * ((boxAt id r π).center j + r.len / 2 ^ π.length / 2)
        + -1 * (min (r.len / 2 ^ π.length) (r.len / 2 ^ ρ.length) / 2) := by ring
  rw [e2]
  linarith

end Ctx
end
end FMM.Rounded
