import Verif.DoubleEval3

/-!
# Distances in a tree in space
-/

namespace FMM.D64
open FMM Rounded Fl3

section
variable {r : Box 3} {cen : Path → Vec 3} {h : ℕ}

/-- Centre of a node and of its parent. -/
theorem shift_ge (G : Geo r cen h) {i : ℕ} {τ : Path} (hπ : (i :: τ).length ≤ h) (j : Fin 3) :
    99 / 200 * side r (τ.length + 1) ≤ |cen τ j - cen (i :: τ) j| := by
  have h1 := side_anti G.hr hπ
  rw [List.length_cons] at h1 hπ
  have h3 := side_pos G.hr (τ.length + 1)
  have a := G.near _ (show (i :: τ).length ≤ h by simpa using hπ) j
  have b := G.near τ (by omega) j
  have c := child_center r i τ j
  rw [abs_of_pos (show 0 < side r (τ.length + 1) / 2 by linarith)] at c
  change _ ≤ side r h / 400 at a
  change _ ≤ side r h / 400 at b
  have e : (boxAt r (i :: τ)).center j - (boxAt r τ).center j
      = -(cen τ j - cen (i :: τ) j) + ((cen τ j - (boxAt r τ).center j) - (cen (i :: τ) j - (boxAt r (i :: τ)).center j)) := by ring
  have f := abs_add_le (-(cen τ j - cen (i :: τ) j)) ((cen τ j - (boxAt r τ).center j) - (cen (i :: τ) j - (boxAt r (i :: τ)).center j))
  rw [← e, abs_neg, c] at f
  have g := abs_sub (cen τ j - (boxAt r τ).center j) (cen (i :: τ) j - (boxAt r (i :: τ)).center j)
  linarith

/-- Members of the interaction list. -/
theorem inter_le {T : PTree} (hA : AdjOf T r) (G : Geo r cen h) {π ρ : Path} (hπ : T.Mem π) (hlen : π.length ≤ h) (hρ : ρ ∈ T.inter π) (m : Fin 3) :
    |cen ρ m - cen π m| ≤ 4 * side r π.length := by
  cases π with
  | nil => simp [PTree.inter] at hρ
  | cons i τ =>
    obtain ⟨-, -, j, ν, rfl, h3, h4⟩ := (PTree.mem_inter (hA.laws G.hr) hπ ρ).mp hρ
    rw [hA, decide_eq_true_eq, adjacent_iff_inter r G.hr] at h4
    obtain ⟨x, x1, x2⟩ := h4
    have x1 := (Box.contains_iff _ _).mp x1 m
    have x2 := (Box.contains_iff _ _).mp x2 m
    rw [boxAt_len] at x1 x2
    rw [h3] at x2
    change _ - side r τ.length / 2 ≤ _ ∧ _ ≤ _ + side r τ.length / 2 at x1
    change _ - side r τ.length / 2 ≤ _ ∧ _ ≤ _ + side r τ.length / 2 at x2
    have hs := side_succ (r := r) τ.length
    have h1 := side_anti G.hr hlen
    rw [List.length_cons] at h1 hlen ⊢
    have h0 := side_pos G.hr (τ.length + 1)
    have a := G.near (i :: τ) (by simpa using hlen) m
    have b := G.near (j :: ν) (by rw [List.length_cons, h3]; exact hlen) m
    have c := child_center r i τ m
    have c' := child_center r j ν m
    rw [h3] at c'
    rw [abs_of_pos (show 0 < side r (τ.length + 1) / 2 by linarith)] at c c'
    change _ ≤ side r h / 400 at a
    change _ ≤ side r h / 400 at b
    have a := abs_le.mp a
    have b := abs_le.mp b
    have c1 := abs_le.mp c.le
    have c2 := abs_le.mp c'.le
    rw [abs_le]
    constructor <;> linarith [a.1, a.2, b.1, b.2, c1.1, c1.2, c2.1, c2.2, x1.1, x1.2, x2.1, x2.2]

/-- In a full tree every node below the children of the root has an interaction list. -/
theorem inter_ne {π : Path} (hr : 0 < r.len) (hπ : (fullTree r h).Mem π) (h2 : 2 ≤ π.length) : (fullTree r h).inter π ≠ [] := by
  have hL := (fullTree_adjOf r h).laws hr
  obtain ⟨i, j, σ, rfl⟩ : ∃ i j σ, π = i :: j :: σ := by
    match π, h2 with
    | i :: j :: σ, _ => exact ⟨i, j, σ, rfl⟩
  obtain ⟨hv, hl⟩ := (fullTree_mem r h _).mp hπ
  set g := grid 3 (i :: j :: σ) with hg
  set t := grid 3 (j :: σ) with ht
  have hgt : ∀ m, g m / 2 = t m := by
    intro m
    rw [hg]
    simp only [grid]
    rw [show (2 * (2 * grid 3 σ m + (j.testBit (3 - m - 1)).toNat) + (i.testBit (3 - m - 1)).toNat) / 2
      = 2 * grid 3 σ m + (j.testBit (3 - m - 1)).toNat by cases i.testBit (3 - m - 1) <;> simp only [Bool.toNat_true, Bool.toNat_false] <;> omega, ht]
    rfl
  have htl : ∀ m, t m < 2 ^ (σ.length + 1) := fun m => grid_lt (d := 3) (j :: σ) m
  let g' : Fin 3 → ℕ := fun m => if m = 0 then (if t 0 % 2 = 0 then 2 * t 0 + 3 else 2 * t 0 - 2) else g m
  have hg' : ∀ m, g' m < 2 ^ (σ.length + 2) := by
    intro m
    have a := htl m
    have b := htl 0
    have c := grid_lt (d := 3) (i :: j :: σ) m
    have e1 : 2 ^ (σ.length + 1) = 2 * 2 ^ σ.length := by ring
    have e2 : 2 ^ (σ.length + 2) = 4 * 2 ^ σ.length := by ring
    simp only [g']
    by_cases hm : m = 0
    · rw [if_pos hm]
      by_cases hp : t 0 % 2 = 0
      · rw [if_pos hp]; omega
      · rw [if_neg hp]; omega
    · rw [if_neg hm]; exact c
  intro hn
  have key : pathOfGrid (σ.length + 2) g' ∈ (fullTree r h).inter (i :: j :: σ) := by
    rw [PTree.mem_inter hL hπ]
    have hlen : (pathOfGrid (σ.length + 2) g').length = (i :: j :: σ).length := by rw [pathOfGrid_length]; simp
    refine ⟨(fullTree_mem r h _).mpr ⟨pathOfGrid_valid _ _, by rw [hlen]; exact hl⟩, ?_, _, pathOfGrid (σ.length + 1) (fun m => g' m / 2), rfl, ?_, ?_⟩
    · rw [fullTree_adjOf, decide_eq_false_iff_not, C03_adjacent_iff_grid r hr _ _ hlen.symm, grid_pathOfGrid _ _ hg']
      intro hc
      have := hc 0
      have e := hgt 0
      rw [← hg] at this
      simp only [g', if_true] at this
      by_cases hp : t 0 % 2 = 0
      · rw [if_pos hp] at this; omega
      · rw [if_neg hp] at this; omega
    · rw [pathOfGrid_length]; simp
    · rw [fullTree_adjOf, decide_eq_true_eq, C03_adjacent_iff_grid r hr _ _ (by rw [pathOfGrid_length]; simp),
        grid_pathOfGrid _ _ (fun m => by
          have := hg' m
          rw [pow_succ] at this
          omega), ← ht]
      intro m
      have e := hgt m
      simp only [g']
      by_cases hm : m = 0
      · rw [if_pos hm, hm]
        by_cases hp : t 0 % 2 = 0
        · rw [if_pos hp]; omega
        · rw [if_neg hp]; omega
      · rw [if_neg hm]; omega
  rw [hn] at key
  simp at key

end

section
variable {T : PTree} {cen : Path → Vec 3} {src : Path → List (Source 3)} {p : ℕ}

/-- Descendants inherit. -/
theorem bad_below {π R : Path} {j : ℕ} (hs : π <:+ R) (hj : j ≤ p) (hb : BadLE T cen src p π (2 + (T.xl π).length) j) :
    BadLE T cen src p R (2 + (T.xl R).length) j := by
  induction R with
  | nil => rw [List.suffix_nil] at hs; subst hs; exact hb
  | cons i τ ih =>
    rcases List.suffix_cons_iff.mp hs with rfl | hs
    · exact hb
    · exact .parent i τ _ j (ih hs) (by omega) hj

variable {r : Box 3} {h k : ℕ}

/-- Large boxes. -/
theorem bad_large (G : Geo r cen h) {R : Path} (hR : R.length ≤ h) (h2 : 2 ≤ R.length) (hk : (2 : ℝ) ^ (k : ℤ) ≤ 99 / 800 * r.len) {j : ℕ}
    (hj : j ≤ p) (hp : 1024 ≤ k * (p - j)) : BadLE T cen src p R (2 + (T.xl R).length) j := by
  obtain ⟨a, b, hab⟩ : ∃ a b, [a, b] <:+ R := by
    have : (R.drop (R.length - 2)).length = 2 := by rw [List.length_drop]; omega
    obtain ⟨a, b, e⟩ := List.length_eq_two.mp this
    exact ⟨a, b, e ▸ List.drop_suffix _ _⟩
  refine bad_below hab hj ?_
  refine .shift a [b] _ j k (p - j) 0 (by simp) (by omega) ?_ hp (by omega)
  refine hk.trans (le_trans (le_of_eq ?_) (shift_ge G (i := a) (τ := [b]) (by simp; omega) 0))
  unfold side
  simp only [List.length_cons, List.length_nil]
  norm_num
  ring

/-- Small boxes. -/
theorem bad_small (hA : AdjOf T r) (G : Geo r cen h) {π R : Path} (hs : π <:+ R) (hπ : T.Mem π) (hlen : π.length ≤ h) (hi : T.inter π ≠ [])
    (hk1 : k ≤ 1021) (hk : r.len / 2 ^ π.length ≤ 2 ^ (-(k : ℤ) - 3)) (hp : 1024 ≤ k * (2 * p + 1)) :
    BadLE T cen src p R (2 + (T.xl R).length) p := by
  refine bad_below hs le_rfl ?_
  obtain ⟨ρ, l, e⟩ := List.exists_cons_of_ne_nil hi
  have hρ : ρ ∈ T.inter π := by rw [e]; simp
  refine .close π ρ _ p k p hρ (by omega) hk1 (fun m => (inter_le hA G hπ hlen hρ m).trans ?_) (by rw [show p + p + 1 = 2 * p + 1 by ring]; exact hp) le_rfl
  have e2 : (2 : ℝ) ^ (-(k : ℤ) - 1) = 4 * 2 ^ (-(k : ℤ) - 3) := by
    rw [show (-(k : ℤ) - 1) = 2 + (-(k : ℤ) - 3) by ring, zpow_add₀ (by norm_num)]; norm_num
  rw [e2]
  exact mul_le_mul_of_nonneg_left hk (by norm_num)

end
end FMM.D64
