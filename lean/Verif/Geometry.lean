import Verif.Vec
import Mathlib.Data.Nat.Bitwise
import Mathlib.Data.List.FinRange
import Mathlib.Tactic.Positivity
import Mathlib.Tactic.NormNum

/-!
# `abstract_orthtree.hpp`, `adaptive_orthtree.hpp`: boxes, adjacency, containment, orthants

Node addresses are *paths*: the list of child indices leading from the root to the node, **most recent
index first** (so `i :: π` is child `i` of the node `π`, the root is `[]`).
-/

namespace FMM

/-- The geometric part of `BaseNode` (abstract_orthtree.hpp:52-56). -/
structure Box (d : ℕ) where
  center : Vec d
  len : ℝ

variable {d : ℕ}

namespace Box

/-- `center - box_length/2 * ones` (abstract_orthtree.hpp:76, 78, 104). -/
noncomputable def lower (b : Box d) : Vec d := b.center - (b.len / 2) • Vec.fill 1
/-- `center + box_length/2 * ones` (abstract_orthtree.hpp:77, 79, 105). -/
noncomputable def upper (b : Box d) : Vec d := b.center + (b.len / 2) • Vec.fill 1

/-- `BaseNode::adjacent` (abstract_orthtree.hpp:72-98). -/
def adjacent (a b : Box d) : Prop :=
  let tolerance : Vec d := Vec.fill (min a.len b.len / 2)
  let diffs1 := b.lower - a.upper - tolerance
  let diffs2 := a.lower - b.upper - tolerance
  ∀ i : Fin d, ¬ (diffs1 i > 0 ∨ diffs2 i > 0)

/-- `BaseNode::contains` (abstract_orthtree.hpp:100-113). -/
def contains (b : Box d) (x : Vec d) : Prop :=
  ∀ i : Fin d, ¬ (x i < b.lower i ∨ x i > b.upper i)

noncomputable instance (a b : Box d) : Decidable (a.adjacent b) := Classical.propDecidable _
noncomputable instance (b : Box d) (x : Vec d) : Decidable (b.contains x) :=
  Classical.propDecidable _

theorem lower_apply (b : Box d) (i : Fin d) : b.lower i = b.center i - b.len / 2 := by
  simp [lower, Vec.fill]
theorem upper_apply (b : Box d) (i : Fin d) : b.upper i = b.center i + b.len / 2 := by
  simp [upper, Vec.fill]

theorem contains_iff (b : Box d) (x : Vec d) :
    b.contains x ↔ ∀ i, b.center i - b.len / 2 ≤ x i ∧ x i ≤ b.center i + b.len / 2 := by
  simp only [contains, lower_apply, upper_apply, not_or, not_lt]

end Box

/-- Component `j` of entry `i` of `getChildCenterDirections` (abstract_orthtree.hpp:137-169):
bit `d-j-1` of the bitset of `i` selects `1` or `-1`. -/
def childDir (d i : ℕ) : Vec d := fun j => if i.testBit (d - j - 1) then 1 else -1

/-- `getOrthant` (adaptive_orthtree.hpp:24-35). -/
noncomputable def getOrthant (center point : Vec d) : ℕ :=
  (List.finRange d).foldl
    (fun orthantIndex i => (orthantIndex <<< 1) ||| (if point i ≥ center i then 1 else 0)) 0

/-- Geometry of child `i` as computed when a node is refined
(adaptive_fmm_tree.hpp:462-473, balanced_fmm_tree.hpp:405-413, adaptive_point_orthtree.hpp:120-132). -/
noncomputable def Box.child (b : Box d) (i : ℕ) : Box d where
  len := b.len / 2
  center := b.center + (b.len / 2 / 2) • childDir d i

/-- A node address: child indices from the node up to the root. -/
abbrev Path := List ℕ

/-- Geometry of the node at address `π` below the root box `r`. -/
noncomputable def boxAt (r : Box d) : Path → Box d
  | [] => r
  | i :: π => (boxAt r π).child i

/-- The path of depth `k` followed by a point that descends by `getOrthant`. -/
noncomputable def route (r : Box d) (x : Vec d) : ℕ → Path
  | 0 => []
  | k + 1 => getOrthant (boxAt r (route r x k)).center x :: route r x k

/-- All child indices of an address are smaller than `2^d`. -/
def ValidPath (d : ℕ) (π : Path) : Prop := ∀ i ∈ π, i < 2 ^ d

/-! ## Bits of the orthant index -/

/-- The loop of `getOrthant` on given comparison results. -/
def bitsFold (b : Fin d → Bool) : ℕ :=
  (List.finRange d).foldl (fun acc i => (acc <<< 1) ||| (b i).toNat) 0

theorem shift_or_bit (n : ℕ) (b : Bool) : (n <<< 1) ||| b.toNat = Nat.bit b n := by
  apply Nat.eq_of_testBit_eq
  intro i
  cases i with
  | zero => cases b <;> simp
  | succ i =>
    rw [Nat.testBit_bit_succ, Nat.testBit_or, Nat.testBit_shiftLeft]
    cases b <;> simp [Nat.testBit_succ]

theorem bitsFold_succ (b : Fin (d + 1) → Bool) :
    bitsFold b = Nat.bit (b (Fin.last d)) (bitsFold fun i => b i.castSucc) := by
  unfold bitsFold
  rw [List.finRange_succ_last, List.foldl_append, List.foldl_map]
  simp only [List.foldl_cons, List.foldl_nil, shift_or_bit]

theorem bitsFold_lt (b : Fin d → Bool) : bitsFold b < 2 ^ d := by
  induction d with
  | zero => simp [bitsFold]
  | succ d ih =>
    rw [bitsFold_succ, Nat.bit_val, pow_succ]
    have := ih fun i => b i.castSucc
    cases b (Fin.last d) <;> simp <;> omega

theorem testBit_bitsFold (b : Fin d → Bool) (j : Fin d) :
    (bitsFold b).testBit (d - j - 1) = b j := by
  induction d with
  | zero => exact j.elim0
  | succ d ih =>
    rw [bitsFold_succ]
    rcases Fin.eq_castSucc_or_eq_last j with ⟨j, rfl⟩ | rfl
    · have : d + 1 - (j.castSucc : ℕ) - 1 = (d - j - 1) + 1 := by
        simp only [Fin.val_castSucc]; omega
      rw [this, Nat.testBit_bit_succ, ih (fun i => b i.castSucc) j]
    · simp

theorem getOrthant_eq (c x : Vec d) :
    getOrthant c x = bitsFold fun i => decide (c i ≤ x i) := by
  unfold getOrthant bitsFold
  congr 1
  ext acc i
  by_cases h : c i ≤ x i <;> simp [h]

theorem getOrthant_lt (c x : Vec d) : getOrthant c x < 2 ^ d := by
  rw [getOrthant_eq]; exact bitsFold_lt _

theorem testBit_getOrthant (c x : Vec d) (j : Fin d) :
    (getOrthant c x).testBit (d - j - 1) = decide (c j ≤ x j) := by
  rw [getOrthant_eq, testBit_bitsFold]

/-- A number below `2^d` is determined by its bits `d-1-j`, `j < d`. -/
theorem eq_of_testBit_lt {m n : ℕ} (hm : m < 2 ^ d) (hn : n < 2 ^ d)
    (h : ∀ j : Fin d, m.testBit (d - j - 1) = n.testBit (d - j - 1)) : m = n := by
  apply Nat.eq_of_testBit_eq
  intro i
  by_cases hi : i < d
  · have := h ⟨d - i - 1, by omega⟩
    simpa [show d - (d - i - 1) - 1 = i by omega] using this
  · have hp : 2 ^ d ≤ 2 ^ i := Nat.pow_le_pow_right (by norm_num) (by omega)
    rw [Nat.testBit_lt_two_pow (lt_of_lt_of_le hm hp),
      Nat.testBit_lt_two_pow (lt_of_lt_of_le hn hp)]

theorem childDir_getOrthant (c x : Vec d) (j : Fin d) :
    childDir d (getOrthant c x) j = if c j ≤ x j then 1 else -1 := by
  simp only [childDir, testBit_getOrthant, decide_eq_true_eq]

theorem childDir_eq (i : ℕ) (j : Fin d) : childDir d i j = 1 ∨ childDir d i j = -1 := by
  unfold childDir; split <;> simp

/-! ## Boxes of a tree in grid coordinates -/

/-- Integer grid coordinates of the box at an address, at the resolution of its depth. -/
def grid (d : ℕ) : Path → Fin d → ℕ
  | [], _ => 0
  | i :: π, j => 2 * grid d π j + (i.testBit (d - j - 1)).toNat

theorem boxAt_len (r : Box d) (π : Path) : (boxAt r π).len = r.len / 2 ^ π.length := by
  induction π with
  | nil => simp [boxAt]
  | cons i π ih => simp only [boxAt, Box.child, ih, List.length_cons, pow_succ]; field_simp

theorem boxAt_lower (r : Box d) (π : Path) (j : Fin d) :
    (boxAt r π).lower j = r.lower j + grid d π j * (r.len / 2 ^ π.length) := by
  induction π with
  | nil => simp [boxAt, grid]
  | cons i π ih =>
    have hl := boxAt_len r π
    rw [Box.lower_apply] at ih ⊢
    simp only [boxAt, Box.child, grid, List.length_cons, Pi.add_apply, Pi.smul_apply, smul_eq_mul]
    have h1 : (boxAt r π).center j
        = r.lower j + grid d π j * (r.len / 2 ^ π.length) + (boxAt r π).len / 2 := by linarith
    rw [h1, hl, pow_succ, childDir]
    cases hb : i.testBit (d - j - 1)
    · simp; field_simp; ring
    · simp; field_simp; ring

theorem boxAt_upper (r : Box d) (π : Path) (j : Fin d) :
    (boxAt r π).upper j = r.lower j + (grid d π j + 1) * (r.len / 2 ^ π.length) := by
  have h := boxAt_lower r π j
  rw [Box.lower_apply, boxAt_len] at h
  rw [Box.upper_apply, boxAt_len]; linarith

theorem boxAt_center (r : Box d) (π : Path) (j : Fin d) :
    (boxAt r π).center j = r.lower j + (grid d π j + 1 / 2) * (r.len / 2 ^ π.length) := by
  have h := boxAt_lower r π j
  rw [Box.lower_apply, boxAt_len] at h
  linarith

theorem grid_lt (π : Path) (j : Fin d) : grid d π j < 2 ^ π.length := by
  induction π with
  | nil => simp [grid]
  | cons i π ih =>
    simp only [grid, List.length_cons, pow_succ]
    cases i.testBit (d - j - 1) <;> simp <;> omega

/-- Grid coordinates together with the depth determine a valid address. -/
theorem grid_injective {π ρ : Path} (hπ : ValidPath d π) (hρ : ValidPath d ρ)
    (hlen : π.length = ρ.length) (h : grid d π = grid d ρ) : π = ρ := by
  induction π generalizing ρ with
  | nil => simpa using hlen.symm
  | cons i π ih =>
    cases ρ with
    | nil => simp at hlen
    | cons i' ρ =>
      have hb : ∀ j : Fin d, i.testBit (d - j - 1) = i'.testBit (d - j - 1) ∧
          grid d π j = grid d ρ j := by
        intro j
        have := congrFun h j
        simp only [grid] at this
        cases h1 : i.testBit (d - j - 1) <;> cases h2 : i'.testBit (d - j - 1) <;>
          simp [h1, h2] at this ⊢ <;> omega
      have hi : i = i' := eq_of_testBit_lt (hπ i (by simp)) (hρ i' (by simp)) fun j => (hb j).1
      have := ih (ρ := ρ) (fun k hk => hπ k (by simp [hk])) (fun k hk => hρ k (by simp [hk]))
        (by simpa using hlen) (funext fun j => (hb j).2)
      rw [hi, this]

/-! ## Adjacency of boxes of one tree -/

/-- Two boxes of one tree fail the adjacency test in some dimension iff there the closed intervals are
disjoint. -/
theorem adjacent_iff_overlap (r : Box d) (hr : 0 < r.len) (π ρ : Path) :
    (boxAt r π).adjacent (boxAt r ρ) ↔
      ∀ j, (boxAt r ρ).lower j ≤ (boxAt r π).upper j ∧
        (boxAt r π).lower j ≤ (boxAt r ρ).upper j := by
  unfold Box.adjacent
  simp only [Pi.sub_apply, Vec.fill, gt_iff_lt, not_or, not_lt]
  refine forall_congr' fun j => ?_
  rw [boxAt_lower, boxAt_lower, boxAt_upper, boxAt_upper, boxAt_len, boxAt_len]
  set k := π.length
  set m := ρ.length
  -- work in units of the finer box
  set K := max k m with hK
  have hpos : (0 : ℝ) < 2 ^ K := by positivity
  set u := r.len / 2 ^ K with hu
  have hu0 : 0 < u := by positivity
  have e1 : r.len / 2 ^ k = (2 ^ (K - k) : ℕ) * u := by
    have : (2 : ℝ) ^ K = 2 ^ k * 2 ^ (K - k) := by rw [← pow_add]; congr 1; omega
    rw [hu, this]; push_cast; field_simp
  have e2 : r.len / 2 ^ m = (2 ^ (K - m) : ℕ) * u := by
    have : (2 : ℝ) ^ K = 2 ^ m * 2 ^ (K - m) := by rw [← pow_add]; congr 1; omega
    rw [hu, this]; push_cast; field_simp
  have hmin : min (r.len / 2 ^ k) (r.len / 2 ^ m) = u := by
    rcases le_total k m with h | h
    · have hKm : K = m := by omega
      have : r.len / 2 ^ m = u := by rw [hu, hKm]
      rw [this]; apply min_eq_right
      rw [e1]
      have : (1 : ℝ) ≤ ((2 ^ (K - k) : ℕ) : ℝ) := by exact_mod_cast Nat.one_le_two_pow
      nlinarith
    · have hKm : K = k := by omega
      have : r.len / 2 ^ k = u := by rw [hu, hKm]
      rw [this]; apply min_eq_left
      rw [e2]
      have : (1 : ℝ) ≤ ((2 ^ (K - m) : ℕ) : ℝ) := by exact_mod_cast Nat.one_le_two_pow
      nlinarith
  rw [hmin, e1, e2]
  set A : ℤ := grid d π j * (2 ^ (K - k) : ℕ) with hA
  set A' : ℤ := (grid d π j + 1) * (2 ^ (K - k) : ℕ) with hA'
  set B : ℤ := grid d ρ j * (2 ^ (K - m) : ℕ) with hB
  set B' : ℤ := (grid d ρ j + 1) * (2 ^ (K - m) : ℕ) with hB'
  have key : ∀ X Y : ℤ, ((X : ℝ) * u - Y * u - u / 2 ≤ 0 ↔ (X : ℝ) * u ≤ Y * u) := by
    intro X Y
    constructor
    · intro h
      have h1 : (X : ℝ) - Y - 1 / 2 ≤ 0 := by
        by_contra hc; push Not at hc; nlinarith
      have h2 : X ≤ Y := by
        by_contra hc; push Not at hc
        have : (Y : ℝ) + 1 ≤ X := by exact_mod_cast hc
        linarith
      have : (X : ℝ) ≤ Y := by exact_mod_cast h2
      nlinarith
    · intro h; linarith
  have k1 := key B A'
  have k2 := key A B'
  have cA : (A : ℝ) * u = grid d π j * ((2 ^ (K - k) : ℕ) * u) := by
    rw [hA]; push_cast; ring
  have cA' : (A' : ℝ) * u = (grid d π j + 1) * ((2 ^ (K - k) : ℕ) * u) := by
    rw [hA']; push_cast; ring
  have cB : (B : ℝ) * u = grid d ρ j * ((2 ^ (K - m) : ℕ) * u) := by
    rw [hB]; push_cast; ring
  have cB' : (B' : ℝ) * u = (grid d ρ j + 1) * ((2 ^ (K - m) : ℕ) * u) := by
    rw [hB']; push_cast; ring
  rw [cA, cB'] at k2
  rw [cB, cA'] at k1
  constructor
  · rintro ⟨h1, h2⟩
    exact ⟨by linarith [k1.mp (by linarith)], by linarith [k2.mp (by linarith)]⟩
  · rintro ⟨h1, h2⟩
    exact ⟨by linarith [k1.mpr (by linarith)], by linarith [k2.mpr (by linarith)]⟩

theorem boxAt_len_pos (r : Box d) (hr : 0 < r.len) (π : Path) : 0 < (boxAt r π).len := by
  rw [boxAt_len]; positivity

theorem boxAt_lower_le_upper (r : Box d) (hr : 0 < r.len) (π : Path) (j : Fin d) :
    (boxAt r π).lower j < (boxAt r π).upper j := by
  rw [Box.lower_apply, Box.upper_apply]; linarith [boxAt_len_pos r hr π]

/-- Adjacency is intersection of the closed boxes. -/
theorem adjacent_iff_inter (r : Box d) (hr : 0 < r.len) (π ρ : Path) :
    (boxAt r π).adjacent (boxAt r ρ) ↔
      ∃ x, (boxAt r π).contains x ∧ (boxAt r ρ).contains x := by
  rw [adjacent_iff_overlap r hr]
  constructor
  · intro h
    refine ⟨fun j => max ((boxAt r π).lower j) ((boxAt r ρ).lower j), ?_, ?_⟩
    · rintro j (h1 | h1)
      · exact absurd h1 (not_lt.mpr (le_max_left _ _))
      · exact absurd h1 (not_lt.mpr (max_le (boxAt_lower_le_upper r hr π j).le (h j).1))
    · rintro j (h1 | h1)
      · exact absurd h1 (not_lt.mpr (le_max_right _ _))
      · exact absurd h1 (not_lt.mpr (max_le (h j).2 (boxAt_lower_le_upper r hr ρ j).le))
  · rintro ⟨x, h1, h2⟩ j
    have a := h1 j
    have b := h2 j
    push Not at a b
    exact ⟨b.1.trans a.2, a.1.trans b.2⟩

theorem adjacent_comm (r : Box d) (hr : 0 < r.len) (π ρ : Path) :
    (boxAt r π).adjacent (boxAt r ρ) ↔ (boxAt r ρ).adjacent (boxAt r π) := by
  rw [adjacent_iff_overlap r hr, adjacent_iff_overlap r hr]
  exact forall_congr' fun j => and_comm

theorem child_contains_sub (b : Box d) (hb : 0 ≤ b.len) (i : ℕ) (x : Vec d)
    (h : (b.child i).contains x) : b.contains x := by
  rw [Box.contains_iff] at h ⊢
  intro j
  have := h j
  simp only [Box.child, Pi.add_apply, Pi.smul_apply, smul_eq_mul] at this
  rcases childDir_eq (d := d) i j with h1 | h1 <;> rw [h1] at this <;>
    constructor <;> linarith [this.1, this.2]

/-- A box contains the boxes of all its descendants. -/
theorem boxAt_contains_suffix (r : Box d) (hr : 0 < r.len) (π σ : Path) (x : Vec d)
    (h : (boxAt r (σ ++ π)).contains x) : (boxAt r π).contains x := by
  induction σ with
  | nil => exact h
  | cons i σ ih => exact ih (child_contains_sub _ (boxAt_len_pos r hr _).le i x h)

theorem adjacent_mono_suffix (r : Box d) (hr : 0 < r.len) (π σ ρ τ : Path)
    (h : (boxAt r (σ ++ π)).adjacent (boxAt r (τ ++ ρ))) :
    (boxAt r π).adjacent (boxAt r ρ) := by
  rw [adjacent_iff_inter r hr] at h ⊢
  obtain ⟨x, h1, h2⟩ := h
  exact ⟨x, boxAt_contains_suffix r hr π σ x h1, boxAt_contains_suffix r hr ρ τ x h2⟩

theorem adjacent_of_suffix (r : Box d) (hr : 0 < r.len) (π σ : Path) :
    (boxAt r (σ ++ π)).adjacent (boxAt r π) := by
  rw [adjacent_iff_inter r hr]
  refine ⟨(boxAt r (σ ++ π)).center, ?_, ?_⟩
  · rw [Box.contains_iff]; intro i
    have := boxAt_len_pos r hr (σ ++ π)
    constructor <;> linarith
  · apply boxAt_contains_suffix r hr π σ
    rw [Box.contains_iff]; intro i
    have := boxAt_len_pos r hr (σ ++ π)
    constructor <;> linarith

/-! ## Separation of non-adjacent boxes -/

/-- Boxes of equal depth which are not adjacent have centres at distance at least two box lengths in some
coordinate. -/
theorem center_dist_of_not_adjacent (r : Box d) (hr : 0 < r.len) (π ρ : Path)
    (hlen : π.length = ρ.length) (h : ¬ (boxAt r π).adjacent (boxAt r ρ)) :
    ∃ j, 2 * (boxAt r π).len ≤ |(boxAt r π).center j - (boxAt r ρ).center j| := by
  rw [adjacent_iff_overlap r hr] at h
  push Not at h
  obtain ⟨j, hj⟩ := h
  refine ⟨j, ?_⟩
  have hu : 0 < r.len / 2 ^ π.length := by positivity
  rw [boxAt_lower, boxAt_lower, boxAt_upper, boxAt_upper, ← hlen] at hj
  rw [boxAt_center, boxAt_center, boxAt_len, ← hlen]
  set u := r.len / 2 ^ π.length
  by_cases hc : (grid d ρ j : ℝ) * u ≤ (grid d π j + 1) * u
  · have h1 := hj (by linarith)
    have h2 : (grid d ρ j : ℝ) + 1 < grid d π j := by
      by_contra hh; push Not at hh; nlinarith
    have h3 : (grid d ρ j : ℝ) + 2 ≤ grid d π j := by
      have : grid d ρ j + 1 < grid d π j := by exact_mod_cast h2
      exact_mod_cast this
    rw [le_abs]; left; nlinarith
  · push Not at hc
    have h2 : (grid d π j : ℝ) + 1 < grid d ρ j := by
      by_contra hh; push Not at hh; nlinarith
    have h3 : (grid d π j : ℝ) + 2 ≤ grid d ρ j := by
      have : grid d π j + 1 < grid d ρ j := by exact_mod_cast h2
      exact_mod_cast this
    rw [le_abs]; right; nlinarith

/-- If a box is not adjacent to another box that is at least as large, then every point of the larger box
is at distance at least 3/2 box lengths (of the smaller box) from the centre of the smaller box, in some
fixed coordinate. -/
theorem point_dist_of_not_adjacent (r : Box d) (hr : 0 < r.len) (π ρ : Path)
    (hlen : ρ.length ≤ π.length) (h : ¬ (boxAt r π).adjacent (boxAt r ρ)) :
    ∃ j, ∀ x, (boxAt r ρ).contains x → 3 / 2 * (boxAt r π).len ≤ |x j - (boxAt r π).center j| := by
  rw [adjacent_iff_overlap r hr] at h
  rw [not_forall] at h
  obtain ⟨j, hadj⟩ := h
  refine ⟨j, fun x hx => ?_⟩
  have hx' := hx j
  push Not at hx'
  have hsplit : (2 : ℝ) ^ π.length = 2 ^ ρ.length * 2 ^ (π.length - ρ.length) := by
    rw [← pow_add]; congr 1; omega
  have hu : 0 < r.len / 2 ^ π.length := by positivity
  have e2 : r.len / 2 ^ ρ.length = (2 ^ (π.length - ρ.length) : ℕ) * (r.len / 2 ^ π.length) := by
    rw [hsplit]; push_cast; field_simp
  rw [boxAt_lower, boxAt_lower, boxAt_upper, boxAt_upper, e2] at hadj
  rw [boxAt_lower, boxAt_upper, e2] at hx'
  rw [boxAt_center, boxAt_len]
  set u := r.len / 2 ^ π.length with hudef
  set M : ℕ := 2 ^ (π.length - ρ.length) with hM
  by_cases hc : (grid d ρ j : ℝ) * M ≤ grid d π j + 1
  · -- then the upper side is violated
    have h2 : (grid d ρ j + 1 : ℝ) * M < grid d π j := by
      by_contra hh; push Not at hh
      apply hadj
      constructor <;> nlinarith
    have h3 : (grid d ρ j + 1 : ℝ) * M + 1 ≤ grid d π j := by
      have : (grid d ρ j + 1) * M < grid d π j := by exact_mod_cast h2
      exact_mod_cast this
    rw [le_abs]; right
    have : x j ≤ r.lower j + (grid d π j - 1) * u := by
      refine hx'.2.trans ?_
      have : (grid d ρ j + 1 : ℝ) * M * u ≤ (grid d π j - 1) * u := by
        apply mul_le_mul_of_nonneg_right _ hu.le; linarith
      linarith
    linarith
  · push Not at hc
    have h3 : (grid d π j : ℝ) + 2 ≤ grid d ρ j * M := by
      have : grid d π j + 1 < grid d ρ j * M := by exact_mod_cast hc
      exact_mod_cast this
    rw [le_abs]; left
    have : r.lower j + (grid d π j + 2) * u ≤ x j := by
      refine le_trans ?_ hx'.1
      have : (grid d π j + 2 : ℝ) * u ≤ grid d ρ j * M * u :=
        mul_le_mul_of_nonneg_right h3 hu.le
      linarith
    linarith

/-- Points of a box are within `√d/2` box lengths of its centre. -/
theorem norm_sub_center_le (b : Box d) (hb : 0 ≤ b.len) (x : Vec d) (h : b.contains x) :
    Vec.norm (x - b.center) ≤ Real.sqrt d * (b.len / 2) := by
  rw [Box.contains_iff] at h
  apply Vec.norm_le_of_abs_le _ _ (by linarith)
  intro i
  rw [Pi.sub_apply, abs_le]
  constructor <;> linarith [(h i).1, (h i).2]

/-! ## Routing of points -/

@[simp] theorem route_length (r : Box d) (x : Vec d) (k : ℕ) : (route r x k).length = k := by
  induction k with
  | zero => rfl
  | succ k ih => simp [route, ih]

theorem route_valid (r : Box d) (x : Vec d) (k : ℕ) : ValidPath d (route r x k) := by
  induction k with
  | zero => intro i hi; simp [route] at hi
  | succ k ih =>
    intro i hi
    simp only [route, List.mem_cons] at hi
    rcases hi with rfl | hi
    · exact getOrthant_lt _ _
    · exact ih i hi

theorem child_getOrthant_contains (b : Box d) (x : Vec d) (h : b.contains x) :
    (b.child (getOrthant b.center x)).contains x := by
  rw [Box.contains_iff] at h ⊢
  intro j
  have := h j
  simp only [Box.child, Pi.add_apply, Pi.smul_apply, smul_eq_mul, childDir_getOrthant]
  split
  · constructor <;> linarith [this.1, this.2]
  · next hlt =>
    push Not at hlt
    constructor <;> linarith [this.1, this.2]

theorem route_contains (r : Box d) (x : Vec d) (h : r.contains x) (k : ℕ) :
    (boxAt r (route r x k)).contains x := by
  induction k with
  | zero => exact h
  | succ k ih => exact child_getOrthant_contains _ x ih

theorem route_drop (r : Box d) (x : Vec d) (k m : ℕ) (h : m ≤ k) :
    (route r x k).drop (k - m) = route r x m := by
  induction k with
  | zero => obtain rfl : m = 0 := by omega
            rfl
  | succ k ih =>
    rcases Nat.lt_or_ge m (k + 1) with hm | hm
    · have : k + 1 - m = (k - m) + 1 := by omega
      rw [this, route, List.drop_succ_cons]
      exact ih (by omega)
    · obtain rfl : m = k + 1 := by omega
      simp

end FMM
