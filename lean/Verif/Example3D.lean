import Verif.Example2D

/-!
# Concrete inputs in three dimensions
-/

namespace FMM

/-- Nine sources on the diagonal of a cube of side `8`. -/
noncomputable def S9 : List (Source 3) :=
  [⟨![-4, -4, -4], 1⟩, ⟨![-3, -3, -3], -1⟩, ⟨![-2, -2, -2], 1⟩, ⟨![-1, -1, -1], -1⟩, ⟨![0, 0, 0], 1⟩, ⟨![1, 1, 1], -1⟩,
    ⟨![2, 2, 2], 1⟩, ⟨![3, 3, 3], -1⟩, ⟨![4, 4, 4], 1⟩]

noncomputable def box9 : Box 3 := ⟨fun _ => (1 + paddingFactor) * (((-4) + 4) / 2), (1 + paddingFactor) * 8⟩

theorem S9_box : rootBox (S9.map Source.pos) = some box9 := by
  refine rootBox_eq _ (fun _ => -4) (fun _ => 4) 8 ?_ ?_ ?_ ?_
  · intro i
    constructor
    · exact ⟨![-4, -4, -4], by simp [S9], by fin_cases i <;> rfl⟩
    · intro p hp
      simp [S9] at hp
      rcases hp with rfl | rfl | rfl | rfl | rfl | rfl | rfl | rfl | rfl <;> fin_cases i <;> norm_num
  · intro i
    constructor
    · exact ⟨![4, 4, 4], by simp [S9], by fin_cases i <;> rfl⟩
    · intro p hp
      simp [S9] at hp
      rcases hp with rfl | rfl | rfl | rfl | rfl | rfl | rfl | rfl | rfl <;> fin_cases i <;> norm_num
  · intro i; norm_num
  · exact ⟨0, by norm_num⟩

theorem S9_insideHO : ∀ s ∈ S9, box9.containsHO s.pos := by
  intro s hs
  simp [S9] at hs
  rcases hs with rfl | rfl | rfl | rfl | rfl | rfl | rfl | rfl | rfl <;> intro i <;>
    rw [Box.lower_apply, Box.upper_apply] <;> fin_cases i <;> norm_num [box9, paddingFactor]

theorem S9_inside : ∀ s ∈ S9, box9.contains s.pos := fun s hs => containsHO_contains (S9_insideHO s hs)

theorem S9_mult (x : Vec 3) : (S9.filter fun s => decide (s.pos = x)).length ≤ 1 := by
  have hnd : (S9.map Source.pos).Nodup := by
    refine List.Nodup.of_map (fun v : Vec 3 => v 0) ?_
    simp [S9]
    norm_num
  rw [← List.countP_eq_length_filter]
  have : List.countP (fun s : Source 3 => decide (s.pos = x)) S9 = (S9.map Source.pos).count x := by
    rw [List.count, List.countP_map]
    refine List.countP_congr fun s _ => ?_
    simp
  rw [this]
  exact List.nodup_iff_count_le_one.mp hnd x

theorem S9_adaptive : AdaptiveInput S9 1 box9 := ⟨S9_box, S9_inside, S9_mult⟩

theorem height9 : balancedHeight 3 9 1 = .ok 2 := by
  obtain ⟨h, h1, h2, h3⟩ := (C10_height (d := 3) (by norm_num) 9 1 (by norm_num) (by norm_num)).1 (by norm_num)
  have : h = 2 := by
    rcases Nat.lt_trichotomy h 2 with hlt | rfl | hgt
    · interval_cases h <;> norm_num at h2
    · rfl
    · have := h3 2 hgt; norm_num at this
  rw [h1, this]

theorem S9_balanced : BalancedInput S9 1 box9 2 := ⟨S9_box, S9_insideHO, height9, by norm_num⟩

theorem S9_total : totalStrength S9 = 9 := by
  rw [totalStrength_eq]; simp [S9]; norm_num

theorem S9_order : expansionOrder (totalStrength S9) 1 = .ok 4 := by
  rw [S9_total]
  refine order_eq 9 1 4 (by norm_num) (by norm_num) (by norm_num) ?_ (by norm_num)
  intro q hq
  interval_cases q <;> norm_num

end FMM
