import Verif.Geometry

/-!
# `getDataRange` and the root box

`AbstractOrthtree::getDataRange` and `AbstractFmmTree::getDataRange` are the same computation on point
lists; the sentinel `±HUGE_VAL` is modelled by `none`.
-/

namespace FMM
variable {d : ℕ}

/-- `lower = p < lower ? p : lower` with sentinel `+HUGE_VAL` (abstract_fmm_tree.hpp:101). -/
noncomputable def lowerStep (acc : Option ℝ) (p : ℝ) : Option ℝ :=
  match acc with
  | none => some p
  | some a => some (if p < a then p else a)

/-- `upper = p > upper ? p : upper` with sentinel `-HUGE_VAL` (abstract_fmm_tree.hpp:102). -/
noncomputable def upperStep (acc : Option ℝ) (p : ℝ) : Option ℝ :=
  match acc with
  | none => some p
  | some a => some (if p > a then p else a)

/-- `paddingFactor` (abstract_fmm_tree.hpp:108, abstract_orthtree.hpp:190). -/
noncomputable def paddingFactor : ℝ := 1 / 100000

/-- Coordinate-wise minimum, before padding (abstract_fmm_tree.hpp:94-104). -/
noncomputable def rawLower (ps : List (Vec d)) (i : Fin d) : Option ℝ :=
  ps.foldl (fun acc p => lowerStep acc (p i)) none
/-- Coordinate-wise maximum, before padding (abstract_fmm_tree.hpp:94-104). -/
noncomputable def rawUpper (ps : List (Vec d)) (i : Fin d) : Option ℝ :=
  ps.foldl (fun acc p => upperStep acc (p i)) none

/-- `getDataRange` (abstract_fmm_tree.hpp:91-113, abstract_orthtree.hpp:173-197): the padded bounds.
For an empty list the C++ code returns infinite bounds; the model returns `none`. -/
noncomputable def getDataRange (ps : List (Vec d)) : Option (Vec d × Vec d) :=
  if ps = [] then none
  else
    let lo : Vec d := fun i => (rawLower ps i).getD 0
    let hi : Vec d := fun i => (rawUpper ps i).getD 0
    some (lo + paddingFactor • lo, hi + paddingFactor • hi)

/-- `*std::max_element` of a non-empty range. -/
noncomputable def maxElement : List ℝ → ℝ
  | [] => 0
  | a :: l => l.foldl max a

/-- Centre and side of the root box from the data range (adaptive_fmm_tree.hpp:115-119,
balanced_fmm_tree.hpp:104-108, adaptive_point_orthtree.hpp:68-73). -/
noncomputable def rootBoxOf (range : Vec d × Vec d) : Box d where
  len := maxElement ((List.finRange d).map fun i => (range.2 - range.1) i)
  center := (1 / 2 : ℝ) • (range.1 + range.2)

/-- The root box of a tree over the given positions. -/
noncomputable def rootBox (ps : List (Vec d)) : Option (Box d) := (getDataRange ps).map rootBoxOf

/-! ## Specification of the folds -/

theorem foldl_lowerStep_some (l : List ℝ) (a : ℝ) :
    ∃ m, l.foldl lowerStep (some a) = some m ∧ m ∈ a :: l ∧ ∀ x ∈ a :: l, m ≤ x := by
  induction l generalizing a with
  | nil => exact ⟨a, rfl, by simp, by simp⟩
  | cons b l ih =>
    obtain ⟨m, h1, h2, h3⟩ := ih (if b < a then b else a)
    refine ⟨m, h1, ?_, ?_⟩
    · simp only [List.mem_cons] at h2 ⊢
      rcases h2 with h2 | h2
      · by_cases hb : b < a
        · rw [if_pos hb] at h2; tauto
        · rw [if_neg hb] at h2; tauto
      · tauto
    · intro x hx
      simp only [List.mem_cons] at hx
      have hm : m ≤ if b < a then b else a := h3 _ (by simp)
      rcases hx with rfl | rfl | hx
      · refine hm.trans ?_; split <;> linarith
      · refine hm.trans ?_; split <;> linarith
      · exact h3 x (by simp [hx])

theorem foldl_upperStep_some (l : List ℝ) (a : ℝ) :
    ∃ m, l.foldl upperStep (some a) = some m ∧ m ∈ a :: l ∧ ∀ x ∈ a :: l, x ≤ m := by
  induction l generalizing a with
  | nil => exact ⟨a, rfl, by simp, by simp⟩
  | cons b l ih =>
    obtain ⟨m, h1, h2, h3⟩ := ih (if b > a then b else a)
    refine ⟨m, h1, ?_, ?_⟩
    · simp only [List.mem_cons] at h2 ⊢
      rcases h2 with h2 | h2
      · by_cases hb : b > a
        · rw [if_pos hb] at h2; tauto
        · rw [if_neg hb] at h2; tauto
      · tauto
    · intro x hx
      simp only [List.mem_cons] at hx
      have hm : (if b > a then b else a) ≤ m := h3 _ (by simp)
      rcases hx with rfl | rfl | hx
      · refine le_trans ?_ hm; split <;> linarith
      · refine le_trans ?_ hm; split <;> linarith
      · exact h3 x (by simp [hx])

theorem rawLower_spec (ps : List (Vec d)) (hps : ps ≠ []) (i : Fin d) :
    ∃ m, rawLower ps i = some m ∧ (∃ p ∈ ps, p i = m) ∧ ∀ p ∈ ps, m ≤ p i := by
  cases ps with
  | nil => exact absurd rfl hps
  | cons a l =>
    have e : rawLower (a :: l) i = (l.map fun p => p i).foldl lowerStep (some (a i)) := by
      simp [rawLower, List.foldl_map, lowerStep]
    obtain ⟨m, h1, h2, h3⟩ := foldl_lowerStep_some (l.map fun p => p i) (a i)
    refine ⟨m, e.trans h1, ?_, ?_⟩
    · simp only [List.mem_cons, List.mem_map] at h2
      rcases h2 with h2 | ⟨p, hp, h2⟩
      · exact ⟨a, by simp, h2.symm⟩
      · exact ⟨p, by simp [hp], h2⟩
    · intro p hp
      apply h3
      simp only [List.mem_cons, List.mem_map] at hp ⊢
      rcases hp with rfl | hp
      · simp
      · exact Or.inr ⟨p, hp, rfl⟩

theorem rawUpper_spec (ps : List (Vec d)) (hps : ps ≠ []) (i : Fin d) :
    ∃ m, rawUpper ps i = some m ∧ (∃ p ∈ ps, p i = m) ∧ ∀ p ∈ ps, p i ≤ m := by
  cases ps with
  | nil => exact absurd rfl hps
  | cons a l =>
    have e : rawUpper (a :: l) i = (l.map fun p => p i).foldl upperStep (some (a i)) := by
      simp [rawUpper, List.foldl_map, upperStep]
    obtain ⟨m, h1, h2, h3⟩ := foldl_upperStep_some (l.map fun p => p i) (a i)
    refine ⟨m, e.trans h1, ?_, ?_⟩
    · simp only [List.mem_cons, List.mem_map] at h2
      rcases h2 with h2 | ⟨p, hp, h2⟩
      · exact ⟨a, by simp, h2.symm⟩
      · exact ⟨p, by simp [hp], h2⟩
    · intro p hp
      apply h3
      simp only [List.mem_cons, List.mem_map] at hp ⊢
      rcases hp with rfl | hp
      · simp
      · exact Or.inr ⟨p, hp, rfl⟩

theorem foldl_max_spec (l : List ℝ) (a : ℝ) :
    l.foldl max a ∈ a :: l ∧ ∀ x ∈ a :: l, x ≤ l.foldl max a := by
  induction l generalizing a with
  | nil => simp
  | cons b l ih =>
    obtain ⟨h1, h2⟩ := ih (max a b)
    constructor
    · simp only [List.foldl_cons, List.mem_cons] at h1 ⊢
      rcases h1 with h1 | h1
      · rcases max_choice a b with h | h <;> rw [h] at h1 <;> rw [h]
        · exact Or.inl h1
        · exact Or.inr (Or.inl h1)
      · exact Or.inr (Or.inr h1)
    · intro x hx
      simp only [List.foldl_cons, List.mem_cons] at hx ⊢
      have h0 := h2 (max a b) (by simp)
      rcases hx with rfl | rfl | hx
      · exact (le_max_left _ _).trans h0
      · exact (le_max_right _ _).trans h0
      · exact h2 x (by simp [hx])

theorem maxElement_spec (l : List ℝ) (h : l ≠ []) :
    maxElement l ∈ l ∧ ∀ x ∈ l, x ≤ maxElement l := by
  cases l with
  | nil => exact absurd rfl h
  | cons a l => exact foldl_max_spec l a

/-- Everything there is to know about the root box: with `lo`, `hi` the exact coordinate-wise minima and
maxima and `E` the largest extent, the box is `(1+η)` times the exact bounding cube, scaled **about the
origin**. -/
theorem rootBox_spec (ps : List (Vec (d + 1))) (hps : ps ≠ []) :
    ∃ (r : Box (d + 1)) (lo hi : Vec (d + 1)) (E : ℝ), rootBox ps = some r ∧
      (∀ i, (∃ p ∈ ps, p i = lo i) ∧ ∀ p ∈ ps, lo i ≤ p i) ∧
      (∀ i, (∃ p ∈ ps, p i = hi i) ∧ ∀ p ∈ ps, p i ≤ hi i) ∧
      (∀ i, hi i - lo i ≤ E) ∧ (∃ i, hi i - lo i = E) ∧
      r.len = (1 + paddingFactor) * E ∧
      ∀ i, r.center i = (1 + paddingFactor) * ((lo i + hi i) / 2) := by
  choose lo hlo1 hlo2 hlo3 using rawLower_spec ps hps
  choose hi hhi1 hhi2 hhi3 using rawUpper_spec ps hps
  set l := (List.finRange (d + 1)).map fun i => hi i - lo i with hl
  have hlne : l ≠ [] := by simp [hl]
  obtain ⟨hm1, hm2⟩ := maxElement_spec l hlne
  have hη : (0 : ℝ) < 1 + paddingFactor := by unfold paddingFactor; norm_num
  have hrange : getDataRange ps = some (lo + paddingFactor • lo, hi + paddingFactor • hi) := by
    unfold getDataRange
    rw [if_neg hps]
    simp [hlo1, hhi1]
  refine ⟨rootBoxOf (lo + paddingFactor • lo, hi + paddingFactor • hi), lo, hi, maxElement l, ?_,
    fun i => ⟨hlo2 i, hlo3 i⟩, fun i => ⟨hhi2 i, hhi3 i⟩, ?_, ?_, ?_, ?_⟩
  · simp [rootBox, hrange]
  · intro i; exact hm2 _ (by simp [hl])
  · simp only [hl, List.mem_map] at hm1
    obtain ⟨i, _, h⟩ := hm1
    exact ⟨i, by rw [h]⟩
  · -- the maximum of the scaled extents is the scaled maximum
    simp only [rootBoxOf]
    set l' := (List.finRange (d + 1)).map
      fun i => (hi + paddingFactor • hi - (lo + paddingFactor • lo)) i with hl'
    have hl'ne : l' ≠ [] := by simp [hl']
    obtain ⟨h1, h2⟩ := maxElement_spec l' hl'ne
    have e : ∀ i, (hi + paddingFactor • hi - (lo + paddingFactor • lo)) i
        = (1 + paddingFactor) * (hi i - lo i) := by intro i; simp; ring
    apply le_antisymm
    · rw [hl', List.mem_map] at h1
      obtain ⟨i, _, h⟩ := h1
      rw [← h, e]
      exact mul_le_mul_of_nonneg_left (hm2 _ (by simp [hl])) hη.le
    · rw [hl, List.mem_map] at hm1
      obtain ⟨i, _, h⟩ := hm1
      rw [← h, ← e]
      exact h2 _ (by rw [hl', List.mem_map]; exact ⟨i, by simp, rfl⟩)
  · intro i; simp [rootBoxOf]; ring

end FMM
