import Verif.PropsDouble
import Verif.DoubleExp3

/-!
# C95, continued: distances that are no `double`, and coinciding points without the check

The difference of two coordinates can be too large for a `double` although the coordinates are not.
-/

namespace FMM.D64
open FMM Rounded

theorem vsub_cases {n : ℕ} (v w : Vec n) (j : Fin n) : (∃ y, vsub v w j = .fin y) ∨ ∃ s, vsub v w j = .inf s := by
  unfold vsub
  cases h : rnd64 (v j - w j) with
  | fin y => exact .inl ⟨y, rfl⟩
  | inf s => exact .inr ⟨s, rfl⟩
  | nan => exact absurd h (rnd64_not_nan _)

theorem norm2_far {v w : Vec 2} {j : Fin 2} (h : (2 : ℝ) ^ (1024 : ℤ) ≤ |v j - w j|) : norm2 (vsub v w) = .inf false := by
  have hj : vsub v w j = .inf (decide (v j - w j < 0)) := rnd64_huge h
  unfold norm2
  match j, hj with
  | 0, hj => rw [hj]
  | 1, hj =>
    rw [hj]
    rcases vsub_cases v w 0 with ⟨a, ha⟩ | ⟨a, ha⟩ <;> rw [ha]

theorem norm3_far {v w : Vec 3} {j : Fin 3} (h : (2 : ℝ) ^ (1024 : ℤ) ≤ |v j - w j|) : norm3 (vsub v w) = .inf false := by
  have hj : vsub v w j = .inf (decide (v j - w j < 0)) := rnd64_huge h
  unfold norm3
  match j, hj with
  | 0, hj => rw [hj]
  | 1, hj =>
    rw [hj]
    rcases vsub_cases v w 0 with ⟨a, ha⟩ | ⟨a, ha⟩ <;> rw [ha]
  | 2, hj =>
    rw [hj]
    rcases vsub_cases v w 0 with ⟨a, ha⟩ | ⟨a, ha⟩ <;> rw [ha]
    rcases vsub_cases v w 1 with ⟨b, hb⟩ | ⟨b, hb⟩ <;> rw [hb]

/-- **C95** Two dimensions: a source whose distance overflows has an infinite potential, with the sign of the charge for masses and the opposite one for charges, and the potential NaN if it
has no charge; the logarithm of the distance would be about 710. -/
theorem C95_far_potential_2d (grav safe : Bool) (s : Source 2) (x : Vec 2) (j : Fin 2) (h : (2 : ℝ) ^ (1024 : ℤ) ≤ |s.pos j - x j|) :
    (s.q = 0 → potential2 grav safe s x = .nan) ∧ (0 < s.q → potential2 grav safe s x = .inf (!grav)) ∧ (s.q < 0 → potential2 grav safe s x = .inf grav) := by
  unfold potential2
  rw [norm2_far h]
  refine ⟨fun hq => ?_, fun hq => ?_, fun hq => ?_⟩
  · cases grav <;> simp [isZero, log, mul, neg, hq]
  · cases grav <;> simp [isZero, log, mul, neg, hq.ne', hq.not_gt]
  · cases grav <;> simp [isZero, log, mul, neg, hq.ne, hq]

/-- **C95** Then the sum over all sources is infinite or NaN, also if the distant source has no charge. -/
theorem C95_far_sum_2d (grav safe : Bool) (S : List (Source 2)) (x : Vec 2) {s : Source 2} (hs : s ∈ S) (j : Fin 2)
    (h : (2 : ℝ) ^ (1024 : ℤ) ≤ |s.pos j - x j|) (y : ℝ) : potentialSum2 grav safe S x ≠ .fin y := by
  have hn : NF (potential2 grav safe s x) := by
    obtain ⟨h0, h1, h2⟩ := C95_far_potential_2d grav safe s x j h
    rcases lt_trichotomy s.q 0 with hq | hq | hq
    · rw [h2 hq]; trivial
    · rw [h0 hq]; trivial
    · rw [h1 hq]; trivial
  have key : ∀ (l : List (Source 2)) (a : Dbl), NF a ∨ s ∈ l → NF (l.foldl (fun pot src => add pot (potential2 grav safe src x)) a) := by
    intro l
    induction l with
    | nil =>
      rintro a (h | h)
      · exact h
      · simp at h
    | cons b l ih =>
      intro a h
      refine ih _ ?_
      rcases h with h | h
      · exact .inl (h.add_left _)
      · rcases List.mem_cons.mp h with rfl | h
        · exact .inl (hn.add_right _)
        · exact .inr h
  exact nf_iff.mp (key S (.fin 0) (.inr hs)) y

/-- **C95** Three dimensions: such a source does not contribute to the potential. -/
theorem C95_far_potential_3d (grav safe : Bool) (s : Source 3) (x : Vec 3) (j : Fin 3) (h : (2 : ℝ) ^ (1024 : ℤ) ≤ |s.pos j - x j|) :
    potential3 grav safe s x = .fin 0 := by
  unfold potential3
  rw [norm3_far h]
  cases grav <;> simp [isZero, div, neg]

/-- **C95** In the direction in which the difference overflows the force is NaN, in both dimensions. -/
theorem C95_far_force_3d (grav safe : Bool) (s : Source 3) (x : Vec 3) (eps : ℝ) (j : Fin 3) (h : (2 : ℝ) ^ (1024 : ℤ) ≤ |s.pos j - x j|) :
    forcefield3 grav safe s x eps j = .nan := by
  have hj : vsub s.pos x j = .inf (decide (s.pos j - x j < 0)) := rnd64_huge h
  unfold forcefield3
  rw [norm3_far h]
  cases grav <;> simp [isZero, mul, add, div, vscale, vneg, neg, hj]

theorem C95_far_force_2d (grav safe : Bool) (s : Source 2) (x : Vec 2) (eps : ℝ) (j : Fin 2) (h : (2 : ℝ) ^ (1024 : ℤ) ≤ |s.pos j - x j|) :
    forcefield2 grav safe s x eps j = .nan := by
  have hj : vsub s.pos x j = .inf (decide (s.pos j - x j < 0)) := rnd64_huge h
  have hsq : ∀ i, mul (vsub s.pos x i) (vsub s.pos x i) = .inf false ∨ ∃ y, mul (vsub s.pos x i) (vsub s.pos x i) = .fin y := by
    intro i
    rcases vsub_cases s.pos x i with ⟨a, ha⟩ | ⟨a, ha⟩ <;> rw [ha]
    · show rnd64 (a * a) = _ ∨ ∃ y, rnd64 (a * a) = _
      cases hr : rnd64 (a * a) with
      | fin y => exact .inr ⟨y, rfl⟩
      | inf t =>
        left
        unfold rnd64 at hr
        dsimp only at hr
        split_ifs at hr <;> (injection hr with hr; rw [← hr]; simp [mul_self_nonneg])
      | nan => exact absurd hr (rnd64_not_nan _)
    · left; simp [mul]
  have hr : normSq (vsub s.pos x) = .inf false := by
    unfold normSq
    have hj2 : mul (vsub s.pos x j) (vsub s.pos x j) = .inf false := by rw [hj]; simp [mul]
    match j, hj2 with
    | 0, hj2 =>
      rw [hj2]
      rcases hsq 1 with h1 | ⟨y, h1⟩ <;> rw [h1] <;> simp [add]
    | 1, hj2 =>
      rw [hj2]
      rcases hsq 0 with h1 | ⟨y, h1⟩ <;> rw [h1] <;> simp [add]
  unfold forcefield2
  rw [hr]
  cases grav <;> simp [isZero, mul, add, div, vscale, vneg, neg, hj]

/-- **C95** Without the check for coincidence (`safe = false`) the potential at the place of a source is infinite, negative for masses, and NaN if the charge is zero. -/
theorem C95_coincident_3d (grav : Bool) (s : Source 3) :
    (s.q = 0 → potential3 grav false s s.pos = .nan) ∧ (0 < s.q → potential3 grav false s s.pos = .inf grav) ∧
      (s.q < 0 → potential3 grav false s s.pos = .inf (!grav)) := by
  have hv : vsub s.pos s.pos = fun j : Fin 3 => Dbl.fin ((0 : Vec 3) j) := by
    funext j
    show rnd64 (s.pos j - s.pos j) = _
    rw [sub_self, rnd64_zero]; rfl
  have hr : norm3 (vsub s.pos s.pos) = .fin 0 := by
    rw [hv, norm3_of_fin]
    have : Vec.norm (0 : Vec 3) = √(0 ^ 2 + 0 ^ 2 + 0 ^ 2) := rfl
    rw [this]
    norm_num [rnd64_zero]
  unfold potential3
  rw [hr]
  refine ⟨fun hq => ?_, fun hq => ?_, fun hq => ?_⟩
  · cases grav <;> simp [div, neg, hq]
  · cases grav <;> simp [div, neg, hq.ne', hq]
  · cases grav <;> simp [div, neg, hq.ne, hq.le]

theorem C95_coincident_2d (grav : Bool) (s : Source 2) :
    (s.q = 0 → potential2 grav false s s.pos = .nan) ∧ (0 < s.q → potential2 grav false s s.pos = .inf grav) ∧
      (s.q < 0 → potential2 grav false s s.pos = .inf (!grav)) := by
  have hv : ∀ j, vsub s.pos s.pos j = Dbl.fin 0 := by
    intro j
    show rnd64 (s.pos j - s.pos j) = _
    rw [sub_self, rnd64_zero]
  have hr : norm2 (vsub s.pos s.pos) = .fin 0 := by
    unfold norm2
    rw [hv, hv]
    have : Vec.norm ![(0 : ℝ), 0] = √(0 ^ 2 + 0 ^ 2) := rfl
    dsimp only
    rw [this]
    norm_num [rnd64_zero]
  unfold potential2
  rw [hr]
  refine ⟨fun hq => ?_, fun hq => ?_, fun hq => ?_⟩
  · cases grav <;> simp [log, mul, neg, hq]
  · cases grav <;> simp [log, mul, neg, hq.ne', hq.not_gt]
  · cases grav <;> simp [log, mul, neg, hq.ne, hq]

/-- **C95** Without the check and without smoothing every component of the force at the place of a source is NaN. -/
theorem C95_coincident_force (grav : Bool) (s : Source 2) (t : Source 3) :
    (∀ j, forcefield2 grav false s s.pos 0 j = .nan) ∧ ∀ j, forcefield3 grav false t t.pos 0 j = .nan := by
  constructor
  · intro j
    have hv : ∀ j, vsub s.pos s.pos j = Dbl.fin 0 := by
      intro j
      show rnd64 (s.pos j - s.pos j) = _
      rw [sub_self, rnd64_zero]
    have hr : normSq (vsub s.pos s.pos) = .fin 0 := by
      unfold normSq
      rw [hv, hv]
      simp [mul, add, rnd64_zero]
    unfold forcefield2
    rw [hr]
    by_cases hq : s.q = 0 <;> cases grav <;> simp [add, rnd64_zero, div, vscale, vneg, mul, neg, hv, hq]
  · intro j
    have hv : vsub t.pos t.pos = fun j : Fin 3 => Dbl.fin ((0 : Vec 3) j) := by
      funext j
      show rnd64 (t.pos j - t.pos j) = _
      rw [sub_self, rnd64_zero]; rfl
    have hr : norm3 (vsub t.pos t.pos) = .fin 0 := by
      rw [hv, norm3_of_fin]
      have : Vec.norm (0 : Vec 3) = √(0 ^ 2 + 0 ^ 2 + 0 ^ 2) := rfl
      rw [this]
      norm_num [rnd64_zero]
    have hj : vsub t.pos t.pos j = Dbl.fin 0 := by rw [hv]; rfl
    unfold forcefield3
    rw [hr]
    by_cases hq : t.q = 0 <;> cases grav <;> simp [add, rnd64_zero, div, vscale, vneg, mul, neg, hj, hq]

theorem foldl_nf {d : ℕ} (f : Source d → Dbl) {s : Source d} (hn : NF (f s)) (l : List (Source d)) :
    ∀ a : Dbl, NF a ∨ s ∈ l → NF (l.foldl (fun pot src => add pot (f src)) a) := by
  induction l with
  | nil =>
    rintro a (h | h)
    · exact h
    · simp at h
  | cons b l ih =>
    intro a h
    refine ih _ ?_
    rcases h with h | h
    · exact .inl (h.add_left _)
    · rcases List.mem_cons.mp h with rfl | h
      · exact .inl (hn.add_right _)
      · exact .inr h

theorem foldl_vec {d n : ℕ} (f : Source d → DVec n) (j : Fin n) (l : List (Source d)) :
    ∀ a : DVec n, l.foldl (fun frc src => vadd frc (f src)) a j = l.foldl (fun frc src => add frc (f src j)) (a j) := by
  induction l with
  | nil => exact fun _ => rfl
  | cons b l ih => exact fun a => ih _

/-- **C95** Without the check the sums of potentials and of unsmoothed forces at the place of one of the sources are infinite or NaN, whatever the other sources. -/
theorem C95_coincident_sum (grav : Bool) (S : List (Source 2)) (T : List (Source 3)) {s : Source 2} {t : Source 3} (hs : s ∈ S) (ht : t ∈ T) (y : ℝ) :
    potentialSum2 grav false S s.pos ≠ .fin y ∧ potentialSum3 grav false T t.pos ≠ .fin y ∧
      (∀ j, forcefieldSum2 grav false S s.pos 0 j ≠ .fin y) ∧ ∀ j, forcefieldSum3 grav false T t.pos 0 j ≠ .fin y := by
  refine ⟨nf_iff.mp (foldl_nf (fun r => potential2 grav false r s.pos) ?_ S _ (.inr hs)) y, nf_iff.mp (foldl_nf (fun r => potential3 grav false r t.pos) ?_ T _ (.inr ht)) y,
    fun j => ?_, fun j => ?_⟩
  · obtain ⟨h0, h1, h2⟩ := C95_coincident_2d grav s
    rcases lt_trichotomy s.q 0 with hq | hq | hq
    · rw [h2 hq]; trivial
    · rw [h0 hq]; trivial
    · rw [h1 hq]; trivial
  · obtain ⟨h0, h1, h2⟩ := C95_coincident_3d grav t
    rcases lt_trichotomy t.q 0 with hq | hq | hq
    · rw [h2 hq]; trivial
    · rw [h0 hq]; trivial
    · rw [h1 hq]; trivial
  · unfold forcefieldSum2
    rw [foldl_vec (fun r => forcefield2 grav false r s.pos 0)]
    refine nf_iff.mp (foldl_nf (fun r => forcefield2 grav false r s.pos 0 j) ?_ S _ (.inr hs)) y
    rw [(C95_coincident_force grav s t).1 j]; trivial
  · unfold forcefieldSum3
    rw [foldl_vec (fun r => forcefield3 grav false r t.pos 0)]
    refine nf_iff.mp (foldl_nf (fun r => forcefield3 grav false r t.pos 0 j) ?_ T _ (.inr ht)) y
    rw [(C95_coincident_force grav s t).2 j]; trivial

/-! ## Non-vacuity -/

/-- Two points with coordinates that are doubles, and an infinite potential. -/
example : potential2 true true ⟨![2 ^ (1023 : ℤ), 0], 1⟩ ![-2 ^ (1023 : ℤ), 0] = .inf false :=
  (C95_far_potential_2d true true _ _ 0 (by
    show (2 : ℝ) ^ (1024 : ℤ) ≤ |2 ^ (1023 : ℤ) - -2 ^ (1023 : ℤ)|
    rw [sub_neg_eq_add, abs_of_pos (by positivity), ← two_mul, ← zpow_one_add₀ (by norm_num)]
    exact le_of_eq (by norm_num))).2.1 one_pos

end FMM.D64
