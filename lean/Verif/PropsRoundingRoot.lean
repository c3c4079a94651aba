import Verif.PropsRoundingBalanced

/-!
# C71: the root box and the sources in floating-point arithmetic
-/

namespace FMM.Rounded
variable {d : ℕ}

theorem foldl_min (l : List ℝ) (a : ℝ) :
    l.foldl (fun acc p => if decide (p < acc) then p else acc) a ≤ a ∧
    (∀ p ∈ l, l.foldl (fun acc p => if decide (p < acc) then p else acc) a ≤ p) ∧
    l.foldl (fun acc p => if decide (p < acc) then p else acc) a ∈ a :: l := by
  induction l generalizing a with
  | nil => simp
  | cons b l ih =>
    rw [List.foldl_cons]
    obtain ⟨h1, h2, h3⟩ := ih (if decide (b < a) then b else a)
    have hle : (if decide (b < a) then b else a) ≤ a ∧ (if decide (b < a) then b else a) ≤ b ∧
        ((if decide (b < a) then b else a) = a ∨ (if decide (b < a) then b else a) = b) := by
      by_cases hb : b < a
      · simp [hb, hb.le]
      · simp [hb, not_lt.mp hb]
    generalize (if decide (b < a) then b else a) = c at *
    refine ⟨h1.trans hle.1, ?_, ?_⟩
    · intro p hp
      rcases List.mem_cons.mp hp with rfl | hp
      · exact h1.trans hle.2.1
      · exact h2 p hp
    · rcases List.mem_cons.mp h3 with h3 | h3
      · rw [h3]
        rcases hle.2.2 with e | e <;> simp [e]
      · exact List.mem_cons_of_mem _ (List.mem_cons_of_mem _ h3)

theorem foldl_max (l : List ℝ) (a : ℝ) :
    a ≤ l.foldl (fun acc p => if decide (p > acc) then p else acc) a ∧
    (∀ p ∈ l, p ≤ l.foldl (fun acc p => if decide (p > acc) then p else acc) a) ∧
    l.foldl (fun acc p => if decide (p > acc) then p else acc) a ∈ a :: l := by
  induction l generalizing a with
  | nil => simp
  | cons b l ih =>
    rw [List.foldl_cons]
    obtain ⟨h1, h2, h3⟩ := ih (if decide (b > a) then b else a)
    have hle : a ≤ (if decide (b > a) then b else a) ∧ b ≤ (if decide (b > a) then b else a) ∧
        ((if decide (b > a) then b else a) = a ∨ (if decide (b > a) then b else a) = b) := by
      by_cases hb : b > a
      · simp [hb, hb.le]
      · simp [hb, not_lt.mp hb]
    generalize (if decide (b > a) then b else a) = c at *
    refine ⟨hle.1.trans h1, ?_, ?_⟩
    · intro p hp
      rcases List.mem_cons.mp hp with rfl | hp
      · exact hle.2.1.trans h1
      · exact h2 p hp
    · rcases List.mem_cons.mp h3 with h3 | h3
      · rw [h3]
        rcases hle.2.2 with e | e <;> simp [e]
      · exact List.mem_cons_of_mem _ (List.mem_cons_of_mem _ h3)

theorem extremum_min (l : List ℝ) (hl : l ≠ []) :
    (∀ p ∈ l, (extremum (fun a b => decide (a < b)) l).getD 0 ≤ p) ∧ (extremum (fun a b => decide (a < b)) l).getD 0 ∈ l := by
  cases l with
  | nil => exact absurd rfl hl
  | cons a l =>
    obtain ⟨h1, h2, h3⟩ := foldl_min l a
    refine ⟨fun p hp => ?_, h3⟩
    rcases List.mem_cons.mp hp with rfl | hp
    · exact h1
    · exact h2 p hp

theorem extremum_max (l : List ℝ) (hl : l ≠ []) :
    (∀ p ∈ l, p ≤ (extremum (fun a b => decide (a > b)) l).getD 0) ∧ (extremum (fun a b => decide (a > b)) l).getD 0 ∈ l := by
  cases l with
  | nil => exact absurd rfl hl
  | cons a l =>
    obtain ⟨h1, h2, h3⟩ := foldl_max l a
    refine ⟨fun p hp => ?_, h3⟩
    rcases List.mem_cons.mp hp with rfl | hp
    · exact h1
    · exact h2 p hp

variable {rnd : ℝ → ℝ} {u : ℝ}

theorem rnd_bound (H : ∀ x, |rnd x - x| ≤ u * |x|) (hu : 0 ≤ u) {x B : ℝ} (hx : |x| ≤ B) : |rnd x - x| ≤ u * B :=
  (H x).trans (mul_le_mul_of_nonneg_left hx hu)

/-- Rounding of numbers bounded by `B` has error `u B`, for all `B` from `b`. -/
def RndFrom (rnd : ℝ → ℝ) (u b : ℝ) : Prop := ∀ B, b ≤ B → ∀ x, |x| ≤ B → |rnd x - x| ≤ u * B

theorem RndFrom.of_rel (H : ∀ x, |rnd x - x| ≤ u * |x|) (hu : 0 ≤ u) (b : ℝ) : RndFrom rnd u b := fun _ _ _ hx => rnd_bound H hu hx

/-- One bound of the data range. -/
theorem padded_from {x M : ℝ} (H : RndFrom rnd u (1 / 1000 * M)) (hu : 0 ≤ u) (hu1 : u ≤ 1 / 1000) {p : ℝ} (hp : 0 ≤ p) (hp1 : p ≤ 1 / 1000)
    (hM : 0 ≤ M) (hx : |x| ≤ M) : |rnd (x + rnd (x * p)) - x * (1 + p)| ≤ 102 / 100 * (u * M) := by
  have h1 : |x * p| ≤ 1 / 1000 * M := by
    rw [abs_mul, abs_of_nonneg hp, mul_comm]
    exact mul_le_mul hp1 hx (abs_nonneg _) (by norm_num)
  have h2 := H _ (by linarith) _ h1
  have huM : 0 ≤ u * M := mul_nonneg hu hM
  have huM1 : u * M ≤ 1 / 1000 * M := mul_le_mul_of_nonneg_right hu1 hM
  have h3 : |x + rnd (x * p)| ≤ 1002 / 1000 * M := by
    have := abs_add_le x (rnd (x * p))
    have h4 : |rnd (x * p)| ≤ |rnd (x * p) - x * p| + |x * p| := by
      have := abs_add_le (rnd (x * p) - x * p) (x * p); rwa [sub_add_cancel] at this
    have e : u * (1 / 1000 * M) = 1 / 1000 * (u * M) := by ring
    rw [e] at h2
    linarith
  have h5 := H _ (by linarith) _ h3
  have e : rnd (x + rnd (x * p)) - x * (1 + p) = (rnd (x + rnd (x * p)) - (x + rnd (x * p))) + (rnd (x * p) - x * p) := by ring
  rw [e]
  refine (abs_add_le _ _).trans ?_
  have e1 : u * (1002 / 1000 * M) = 1002 / 1000 * (u * M) := by ring
  have e2 : u * (1 / 1000 * M) = 1 / 1000 * (u * M) := by ring
  rw [e1] at h5
  rw [e2] at h2
  linarith

theorem padded_near (H : ∀ x, |rnd x - x| ≤ u * |x|) (hu : 0 ≤ u) (hu1 : u ≤ 1 / 1000) {p : ℝ} (hp : 0 ≤ p) (hp1 : p ≤ 1 / 1000)
    {x M : ℝ} (hM : 0 ≤ M) (hx : |x| ≤ M) : |rnd (x + rnd (x * p)) - x * (1 + p)| ≤ 102 / 100 * (u * M) :=
  padded_from (RndFrom.of_rel H hu _) hu hu1 hp hp1 hM hx

section root
variable {p M a : ℝ} {ps : List (Pt ℝ d)}

theorem rootBox_from (H : RndFrom rnd u (1 / 1000 * M)) (hu : 0 ≤ u) (hp : 0 ≤ p) (hp1 : p ≤ 1 / 1000)
    (ha : 0 < a) (hM : ∀ s ∈ ps, ∀ i, |s i| ≤ M) (hlo : ∀ i, ∃ s ∈ ps, s i ≤ -a) (hhi : ∀ i, ∃ s ∈ ps, a ≤ s i)
    (hsmall : 200 * (u * M) < p * a) (s : Pt ℝ d) (hs : s ∈ ps) (i : Fin d) :
    0 < (rootBox rnd p ps).len ∧ (rootBox rnd p ps).len ≤ 3 * M ∧ |(rootBox rnd p ps).center i| ≤ 2 * M ∧
    300 * (u * M) < (rootBox rnd p ps).len / 2 ∧ u ≤ 1 / 1000 ∧
    |s i - (rootBox rnd p ps).center i| < (rootBox rnd p ps).len / 2 - 180 * (u * M) := by
  have hM0 : a ≤ M := by
    obtain ⟨t, ht, h⟩ := hhi i
    exact h.trans ((le_abs_self _).trans (hM t ht i))
  have hMpos : 0 < M := lt_of_lt_of_le ha hM0
  have hpa : p * a ≤ 1 / 1000 * a := mul_le_mul_of_nonneg_right hp1 ha.le
  have huM : 0 ≤ u * M := mul_nonneg hu hMpos.le
  have hu1 : u ≤ 1 / 1000 := by
    by_contra hc
    push Not at hc
    nlinarith
  have huM1 : u * M ≤ 1 / 200000 * M := by linarith
  -- the computed range
  have key : ∀ j : Fin d, ∃ lo hi lo' hi', vsub rnd (dataRange rnd p ps).2 (dataRange rnd p ps).1 j = rnd (hi' + rnd (lo' * (-1))) ∧
      (rootBox rnd p ps).center j = rnd (rnd (lo' + hi') * (1 / 2)) ∧ (∀ t ∈ ps, lo ≤ t j ∧ t j ≤ hi) ∧
      |lo| ≤ M ∧ |hi| ≤ M ∧ lo ≤ -a ∧ a ≤ hi ∧
      |lo' - lo * (1 + p)| ≤ 102 / 100 * (u * M) ∧ |hi' - hi * (1 + p)| ≤ 102 / 100 * (u * M) := by
    intro j
    have hne : ps.map (· j) ≠ [] := by
      intro e
      rw [List.map_eq_nil_iff] at e
      rw [e] at hs; simp at hs
    obtain ⟨l1, l2⟩ := extremum_min _ hne
    obtain ⟨m1, m2⟩ := extremum_max _ hne
    set lo := (extremum (fun a b => decide (a < b)) (ps.map (· j))).getD 0 with hlod
    set hi := (extremum (fun a b => decide (a > b)) (ps.map (· j))).getD 0 with hhid
    obtain ⟨t1, ht1, e1⟩ := List.mem_map.mp l2
    obtain ⟨t2, ht2, e2⟩ := List.mem_map.mp m2
    refine ⟨lo, hi, rnd (lo + rnd (lo * p)), rnd (hi + rnd (hi * p)), rfl, rfl, ?_, ?_, ?_, ?_, ?_, ?_, ?_⟩
    · intro t ht
      exact ⟨l1 _ (List.mem_map.mpr ⟨t, ht, rfl⟩), m1 _ (List.mem_map.mpr ⟨t, ht, rfl⟩)⟩
    · rw [← e1]; exact hM t1 ht1 j
    · rw [← e2]; exact hM t2 ht2 j
    · obtain ⟨t, ht, h⟩ := hlo j
      exact (l1 _ (List.mem_map.mpr ⟨t, ht, rfl⟩)).trans h
    · obtain ⟨t, ht, h⟩ := hhi j
      exact h.trans (m1 _ (List.mem_map.mpr ⟨t, ht, rfl⟩))
    · exact padded_from H hu hu1 hp hp1 hMpos.le (by rw [← e1]; exact hM t1 ht1 j)
    · exact padded_from H hu hu1 hp hp1 hMpos.le (by rw [← e2]; exact hM t2 ht2 j)
  have hpad : ∀ y : ℝ, |y| ≤ M → |y * (1 + p)| ≤ 1001 / 1000 * M := by
    intro y hy
    rw [abs_mul, abs_of_nonneg (by linarith : (0 : ℝ) ≤ 1 + p), mul_comm]
    exact mul_le_mul (by linarith) hy (abs_nonneg _) (by norm_num)
  have hbig : ∀ y z : ℝ, |y| ≤ M → |z - y * (1 + p)| ≤ 102 / 100 * (u * M) → |z| ≤ 1002 / 1000 * M := by
    intro y z hy hz
    have := abs_add_le (z - y * (1 + p)) (y * (1 + p))
    rw [sub_add_cancel] at this
    have := hpad y hy
    linarith
  -- extents
  have hext : ∀ lo' hi' : ℝ, |lo'| ≤ 1002 / 1000 * M → |hi'| ≤ 1002 / 1000 * M →
      |rnd (hi' + rnd (lo' * (-1))) - (hi' - lo')| ≤ 31 / 10 * (u * M) := by
    intro lo' hi' h1 h2
    have h3 : |lo' * (-1)| ≤ 1002 / 1000 * M := by rw [abs_mul]; simpa using h1
    have h4 := H _ (by linarith) _ h3
    have h5 : |hi' + rnd (lo' * (-1))| ≤ 201 / 100 * M := by
      have := abs_add_le hi' (rnd (lo' * (-1)))
      have h6 := abs_add_le (rnd (lo' * (-1)) - lo' * (-1)) (lo' * (-1))
      rw [sub_add_cancel] at h6
      have e : u * (1002 / 1000 * M) = 1002 / 1000 * (u * M) := by ring
      rw [e] at h4
      linarith
    have h7 := H _ (by linarith) _ h5
    have e : rnd (hi' + rnd (lo' * (-1))) - (hi' - lo') = (rnd (hi' + rnd (lo' * (-1))) - (hi' + rnd (lo' * (-1)))) +
        (rnd (lo' * (-1)) - lo' * (-1)) := by ring
    rw [e]
    refine (abs_add_le _ _).trans ?_
    have e1 : u * (1002 / 1000 * M) = 1002 / 1000 * (u * M) := by ring
    have e2 : u * (201 / 100 * M) = 201 / 100 * (u * M) := by ring
    rw [e1] at h4
    rw [e2] at h7
    linarith
  have hexts : List.ofFn (vsub rnd (dataRange rnd p ps).2 (dataRange rnd p ps).1) ≠ [] := by
    intro e
    have := congrArg List.length e
    simp at this
    have := i.isLt
    omega
  obtain ⟨x1, x2⟩ := extremum_max _ hexts
  have hlen : (rootBox rnd p ps).len = (extremum (fun a b => decide (a > b))
      (List.ofFn (vsub rnd (dataRange rnd p ps).2 (dataRange rnd p ps).1))).getD 0 := rfl
  rw [← hlen] at x1 x2
  have hle3 : (rootBox rnd p ps).len ≤ 3 * M := by
    obtain ⟨j, hj⟩ := (List.mem_ofFn' _ _).mp x2
    obtain ⟨lo, hi, lo', hi', k1, -, -, k4, k5, -, -, k8, k9⟩ := key j
    have := abs_le.mp (hext lo' hi' (hbig lo lo' k4 k8) (hbig hi hi' k5 k9))
    have b1 := abs_le.mp (hbig lo lo' k4 k8)
    have b2 := abs_le.mp (hbig hi hi' k5 k9)
    rw [← hj, k1]
    linarith [this.2, b1.1, b2.2]
  obtain ⟨lo, hi, lo', hi', k1, k2, k3, k4, k5, k6, k7, k8, k9⟩ := key i
  have hle : rnd (hi' + rnd (lo' * (-1))) ≤ (rootBox rnd p ps).len := by
    rw [← k1]; exact x1 _ ((List.mem_ofFn' _ _).mpr ⟨i, rfl⟩)
  have hex := abs_le.mp (hext lo' hi' (hbig lo lo' k4 k8) (hbig hi hi' k5 k9))
  have hlo' := hbig lo lo' k4 k8
  have hhi' := hbig hi hi' k5 k9
  -- centre
  have hcen : |rnd (rnd (lo' + hi') * (1 / 2)) - (lo' + hi') / 2| ≤ 21 / 10 * (u * M) := by
    have h1 : |lo' + hi'| ≤ 2004 / 1000 * M := (abs_add_le _ _).trans (by linarith)
    have h2 := H _ (by linarith) _ h1
    have h3 : |rnd (lo' + hi') * (1 / 2)| ≤ 101 / 100 * M := by
      rw [abs_mul, abs_of_pos (by norm_num : (0 : ℝ) < 1 / 2)]
      have h6 := abs_add_le (rnd (lo' + hi') - (lo' + hi')) (lo' + hi')
      rw [sub_add_cancel] at h6
      have e : u * (2004 / 1000 * M) = 2004 / 1000 * (u * M) := by ring
      rw [e] at h2
      linarith
    have h4 := H _ (by linarith) _ h3
    have e : rnd (rnd (lo' + hi') * (1 / 2)) - (lo' + hi') / 2 = (rnd (rnd (lo' + hi') * (1 / 2)) - rnd (lo' + hi') * (1 / 2)) +
        (rnd (lo' + hi') - (lo' + hi')) * (1 / 2) := by ring
    rw [e]
    refine (abs_add_le _ _).trans ?_
    rw [abs_mul (rnd (lo' + hi') - (lo' + hi')), abs_of_pos (by norm_num : (0 : ℝ) < 1 / 2)]
    have e1 : u * (2004 / 1000 * M) = 2004 / 1000 * (u * M) := by ring
    have e2 : u * (101 / 100 * M) = 101 / 100 * (u * M) := by ring
    rw [e1] at h2
    rw [e2] at h4
    linarith
  rw [← k2] at hcen
  have hcen' := abs_le.mp hcen
  have b1 := abs_le.mp hlo'
  have b2 := abs_le.mp hhi'
  have q8 := abs_le.mp k8
  have q9 := abs_le.mp k9
  have hlp : lo * p ≤ -(p * a) := by nlinarith
  have hhp : p * a ≤ hi * p := by nlinarith
  obtain ⟨s1, s2⟩ := k3 s hs
  refine ⟨by linarith, hle3, ?_, by linarith, hu1, ?_⟩
  · rw [abs_le]; constructor <;> linarith
  · rw [abs_lt]; constructor <;> linarith

theorem rootBox_margin (H : ∀ x, |rnd x - x| ≤ u * |x|) (hu : 0 ≤ u) (hp : 0 ≤ p) (hp1 : p ≤ 1 / 1000)
    (ha : 0 < a) (hM : ∀ s ∈ ps, ∀ i, |s i| ≤ M) (hlo : ∀ i, ∃ s ∈ ps, s i ≤ -a) (hhi : ∀ i, ∃ s ∈ ps, a ≤ s i)
    (hsmall : 200 * (u * M) < p * a) (s : Pt ℝ d) (hs : s ∈ ps) (i : Fin d) :
    0 < (rootBox rnd p ps).len ∧ (rootBox rnd p ps).len ≤ 3 * M ∧ |(rootBox rnd p ps).center i| ≤ 2 * M ∧
    300 * (u * M) < (rootBox rnd p ps).len / 2 ∧ u ≤ 1 / 1000 ∧
    |s i - (rootBox rnd p ps).center i| < (rootBox rnd p ps).len / 2 - 180 * (u * M) :=
  rootBox_from (RndFrom.of_rel H hu _) hu hp hp1 ha hM hlo hhi hsmall s hs i

end root

/-- **C71** If the sources reach on both sides of the origin, in every coordinate, by more than `200 u / p` times the largest
coordinate (`p = 1E-5`: about `2E-9`), then in floating-point arithmetic all of them have leaf indices in range, in every
balanced tree over the computed root box.  What is missing: sources that reach less far on one side (`C71_false`). -/
theorem C71_partial (H : ∀ x, |rnd x - x| ≤ u * |x|) (hu : 0 ≤ u) {p M a : ℝ} (hp : 0 ≤ p) (hp1 : p ≤ 1 / 1000)
    (ha : 0 < a) {ps : List (Pt ℝ d)} (hd : 0 < d) (hM : ∀ s ∈ ps, ∀ i, |s i| ≤ M) (hlo : ∀ i, ∃ s ∈ ps, s i ≤ -a)
    (hhi : ∀ i, ∃ s ∈ ps, a ≤ s i) (hsmall : 200 * (u * M) < p * a) (h : ℕ) (hh : h < 32) (s : Pt ℝ d) (hs : s ∈ ps) :
    ∃ idx, leafIndices rnd (rootBox rnd p ps) h s = .ok idx := by
  have key := rootBox_margin H hu hp hp1 ha hM hlo hhi hsmall s hs
  obtain ⟨r1, r2, -, r4, r5, -⟩ := key ⟨0, hd⟩
  have hM0 : 0 ≤ M := (abs_nonneg _).trans (hM s hs ⟨0, hd⟩)
  have hle : u * (4 * (2 * M + (rootBox rnd p ps).len)) ≤ 20 * (u * M) := by
    have : 4 * (2 * M + (rootBox rnd p ps).len) ≤ 20 * M := by linarith
    calc _ ≤ u * (20 * M) := mul_le_mul_of_nonneg_left this hu
      _ = _ := by ring
  exact C69_inside (C := 2 * M) H hu (by linarith) r1 (by positivity) (fun i => (key i).2.2.1) hh
    (by linarith) s fun i => by
      have := (key i).2.2.2.2.2
      linarith

/-- Two sources with `double` arithmetic. -/
example (h : ℕ) (hh : h < 32) : ∀ s ∈ [![-1 / 4, -1], ![(1 : ℝ), 1 / 2]],
    ∃ idx, leafIndices rndNE (rootBox rndNE (1 / 100000) [![-1 / 4, -1], ![(1 : ℝ), 1 / 2]]) h s = .ok idx :=
  C71_partial (u := 1 / 2 ^ 53) (M := 1) (a := 1 / 4) rndNE_rel (by positivity) (by norm_num) (by norm_num) (by norm_num)
    (by norm_num)
    (by
      intro s hs i
      simp only [List.mem_cons, List.not_mem_nil, or_false] at hs
      rcases hs with rfl | rfl <;> fin_cases i <;> norm_num [abs_of_pos, abs_of_neg])
    (fun i => ⟨_, List.mem_cons_self, by fin_cases i <;> norm_num⟩)
    (fun i => ⟨_, List.mem_cons_of_mem _ List.mem_cons_self, by fin_cases i <;> norm_num⟩)
    (by norm_num) h hh

/-- Two sources on both sides of the origin. -/
def tinySources : List (Pt ℚ 2) := [![-1 / 2 ^ 70, -1 / 4], ![1, 1 / 4]]

/-- **C71** is false in general: the data range of these sources contains the origin in its interior, and the exact root box
contains them, but with IEEE arithmetic the computed corner of the root box is at 0, and the index of the first source in any
balanced tree is the conversion of a negative number to an unsigned one, which is undefined. -/
theorem C71_false : ∃ (items : List (Pt ℚ 2)) (x : Pt ℚ 2), x ∈ items ∧ (∀ s ∈ items, ∀ i, rndNE (s i) = s i) ∧
    (∀ i, (∃ s ∈ items, s i < 0) ∧ ∃ s ∈ items, 0 < s i) ∧
    (∀ i, |x i - (rootBox id padding items).center i| ≤ (rootBox id padding items).len / 2) ∧
    (∃ idx, leafIndices id (rootBox id padding items) 1 x = .ok idx) ∧
    leafIndices rndNE (rootBox rndNE padding items) 1 x = .error .ub := by
  refine ⟨tinySources, ![-1 / 2 ^ 70, -1 / 4], List.mem_cons_self, by decide +kernel, ?_, by decide +kernel, ?_, ?_⟩
  · intro i
    exact ⟨⟨![-1 / 2 ^ 70, -1 / 4], List.mem_cons_self, by revert i; decide +kernel⟩,
      ⟨![1, 1 / 4], List.mem_cons_of_mem _ List.mem_cons_self, by revert i; decide +kernel⟩⟩
  · have h : (match leafIndices id (rootBox id padding tinySources) 1 ![-1 / 2 ^ 70, -1 / 4] with
        | .ok _ => true
        | _ => false) = true := by decide +kernel
    revert h
    cases leafIndices id (rootBox id padding tinySources) 1 ![-1 / 2 ^ 70, -1 / 4] with
    | ok b => simp
    | error e => simp
  · have h : (match leafIndices rndNE (rootBox rndNE padding tinySources) 1 ![-1 / 2 ^ 70, -1 / 4] with
        | .error .ub => true
        | _ => false) = true := by decide +kernel
    revert h
    cases leafIndices rndNE (rootBox rndNE padding tinySources) 1 ![-1 / 2 ^ 70, -1 / 4] with
    | ok b => simp
    | error e => cases e <;> simp

end FMM.Rounded
