import Verif.FmmMain
import Verif.PropsBalanced
import Verif.PropsTables

/-!
# Concrete inputs for the non-vacuity examples and witnesses
-/

namespace FMM

theorem rootBox_eq {d : ℕ} (ps : List (Vec (d + 1))) (lo hi : Vec (d + 1)) (E : ℝ)
    (hlo : ∀ i, (∃ p ∈ ps, p i = lo i) ∧ ∀ p ∈ ps, lo i ≤ p i) (hhi : ∀ i, (∃ p ∈ ps, p i = hi i) ∧ ∀ p ∈ ps, p i ≤ hi i)
    (hE : ∀ i, hi i - lo i ≤ E) (hE' : ∃ i, hi i - lo i = E) :
    rootBox ps = some ⟨fun i => (1 + paddingFactor) * ((lo i + hi i) / 2), (1 + paddingFactor) * E⟩ := by
  have hne : ps ≠ [] := by
    rintro rfl
    obtain ⟨p, hp, -⟩ := (hlo 0).1
    simp at hp
  obtain ⟨r, lo', hi', E', h1, h2, h3, h4, ⟨i, h5⟩, h6, h7⟩ := rootBox_spec ps hne
  have e1 : lo' = lo := by
    funext i
    obtain ⟨p, hp, hpi⟩ := (hlo i).1
    obtain ⟨q, hq, hqi⟩ := (h2 i).1
    have := (hlo i).2 q hq
    have := (h2 i).2 p hp
    linarith
  have e2 : hi' = hi := by
    funext i
    obtain ⟨p, hp, hpi⟩ := (hhi i).1
    obtain ⟨q, hq, hqi⟩ := (h3 i).1
    have := (hhi i).2 q hq
    have := (h3 i).2 p hp
    linarith
  subst e1 e2
  have e3 : E' = E := by
    obtain ⟨j, hj⟩ := hE'
    have := hE i
    have := h4 j
    linarith
  subst e3
  rw [h1]
  congr 1
  obtain ⟨c, l⟩ := r
  simp only at h6 h7
  rw [h6]
  congr 1
  funext i
  exact h7 i

/-- The corners of a square of side `2` and one more point. -/
noncomputable def S5 : List (Source 2) :=
  [⟨![1, 1], 1⟩, ⟨![-1, 1], -1⟩, ⟨![1, -1], 1⟩, ⟨![-1, -1], 1⟩, ⟨![1 / 2, 1 / 2], 1⟩]

noncomputable def box5 : Box 2 := ⟨fun _ => (1 + paddingFactor) * (((-1) + 1) / 2), (1 + paddingFactor) * 2⟩

theorem S5_box : rootBox (S5.map Source.pos) = some box5 := by
  refine rootBox_eq _ (fun _ => -1) (fun _ => 1) 2 ?_ ?_ ?_ ?_
  · intro i
    constructor
    · exact ⟨![-1, -1], by simp [S5], by fin_cases i <;> rfl⟩
    · intro p hp
      simp [S5] at hp
      rcases hp with rfl | rfl | rfl | rfl | rfl <;> fin_cases i <;> norm_num
  · intro i
    constructor
    · exact ⟨![1, 1], by simp [S5], by fin_cases i <;> rfl⟩
    · intro p hp
      simp [S5] at hp
      rcases hp with rfl | rfl | rfl | rfl | rfl <;> fin_cases i <;> norm_num
  · intro i; norm_num
  · exact ⟨0, by norm_num⟩

theorem S5_insideHO : ∀ s ∈ S5, box5.containsHO s.pos := by
  intro s hs
  simp [S5] at hs
  rcases hs with rfl | rfl | rfl | rfl | rfl <;> intro i <;> rw [Box.lower_apply, Box.upper_apply] <;>
    fin_cases i <;> norm_num [box5, paddingFactor]

theorem S5_inside : ∀ s ∈ S5, box5.contains s.pos := fun s hs => containsHO_contains (S5_insideHO s hs)

theorem S5_mult (x : Vec 2) : (S5.filter fun s => decide (s.pos = x)).length ≤ 1 := by
  have hnd : (S5.map Source.pos).Nodup := by
    simp [S5]
    norm_num [funext_iff, Fin.forall_fin_two]
  rw [← List.countP_eq_length_filter]
  have : List.countP (fun s : Source 2 => decide (s.pos = x)) S5 = (S5.map Source.pos).count x := by
    rw [List.count, List.countP_map]
    refine List.countP_congr fun s _ => ?_
    simp
  rw [this]
  exact List.nodup_iff_count_le_one.mp hnd x

theorem S5_adaptive : AdaptiveInput S5 1 box5 := ⟨S5_box, S5_inside, S5_mult⟩

theorem height5 : balancedHeight 2 5 1 = .ok 2 := by
  obtain ⟨h, h1, h2, h3⟩ := (C10_height (d := 2) (by norm_num) 5 1 (by norm_num) (by norm_num)).1 (by norm_num)
  have : h = 2 := by
    rcases Nat.lt_trichotomy h 2 with hlt | rfl | hgt
    · interval_cases h <;> norm_num at h2
    · rfl
    · have := h3 2 hgt; norm_num at this
  rw [h1, this]

theorem S5_balanced : BalancedInput S5 1 box5 2 := ⟨S5_box, S5_insideHO, height5, by norm_num⟩

theorem order_eq (A eps : ℝ) (p : ℕ) (he : 0 < eps) (hA : eps / 2 < A) (h1 : A ≤ 2 ^ p * eps) (h2 : ∀ q < p, 2 ^ q * eps < A)
    (hp : p ≤ 2 ^ 32 - 1) : expansionOrder A eps = .ok p := by
  obtain ⟨q, hq, hq1, hq2⟩ := C24_order A eps he hA (h1.trans (by
    have : (2 : ℝ) ^ p ≤ 2 ^ (2 ^ 32 - 1) := pow_le_pow_right₀ (by norm_num) hp
    exact mul_le_mul_of_nonneg_right this he.le))
  rw [hq]
  congr 1
  rcases Nat.lt_trichotomy q p with h | h | h
  · have := h2 q h; linarith
  · exact h
  · have := hq2 p h; linarith

theorem S5_order : expansionOrder (totalStrength S5) 1 = .ok 3 := by
  have : totalStrength S5 = 5 := by
    rw [totalStrength_eq]; simp [S5]; norm_num
  rw [this]
  refine order_eq 5 1 3 (by norm_num) (by norm_num) (by norm_num) ?_ (by norm_num)
  intro q hq
  interval_cases q <;> norm_num

/-- Two sources in the first quadrant: the padding shifts the root box off the first one. -/
noncomputable def S2 : List (Source 2) := [⟨![1, 1], 1⟩, ⟨![2, 2], 1⟩]

noncomputable def box2 : Box 2 := ⟨fun _ => (1 + paddingFactor) * ((1 + 2) / 2), (1 + paddingFactor) * 1⟩

theorem S2_box : rootBox (S2.map Source.pos) = some box2 := by
  refine rootBox_eq _ (fun _ => 1) (fun _ => 2) 1 ?_ ?_ ?_ ?_
  · intro i
    constructor
    · exact ⟨![1, 1], by simp [S2], by fin_cases i <;> rfl⟩
    · intro p hp
      simp [S2] at hp
      rcases hp with rfl | rfl <;> fin_cases i <;> norm_num
  · intro i
    constructor
    · exact ⟨![2, 2], by simp [S2], by fin_cases i <;> rfl⟩
    · intro p hp
      simp [S2] at hp
      rcases hp with rfl | rfl <;> fin_cases i <;> norm_num
  · intro i; norm_num
  · exact ⟨0, by norm_num⟩

theorem S2_outside : ¬ box2.contains ![1, 1] := by
  rw [Box.contains_iff]
  intro h
  have := (h 0).1
  norm_num [box2, paddingFactor] at this

theorem S2_inside : box2.contains ![2, 2] := by
  rw [Box.contains_iff]
  intro i
  fin_cases i <;> norm_num [box2, paddingFactor]

theorem S2_order : expansionOrder (totalStrength S2) 1 = .ok 1 := by
  have : totalStrength S2 = 2 := by
    rw [totalStrength_eq]; simp [S2]; norm_num
  rw [this]
  refine order_eq 2 1 1 (by norm_num) (by norm_num) (by norm_num) ?_ (by norm_num)
  intro q hq
  interval_cases q; norm_num

end FMM
