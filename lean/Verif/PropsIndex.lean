import Verif.Index

/-!
# Properties C05–C07: leaf box indices, flat index, Morton index
-/

namespace FMM
variable {d : ℕ}

/-- **C05** For a point of the half-open root box `getLeafBoxIndices` returns the indices of the half-open
cell of side `len / 2^h` that contains the point; no other tuple describes a cell containing it. -/
theorem C05_indices_locate (r : Box d) (hr : 0 < r.len) (h : ℕ) (hh : h < 32) (x : Vec d)
    (hx : ∀ j, r.lower j ≤ x j ∧ x j < r.upper j) :
    ∃ idx : Fin d → ℕ, getLeafBoxIndices r h x = .ok idx ∧ (∀ j, idx j < 2 ^ h) ∧
      (∀ j, r.lower j + idx j * (r.len / 2 ^ h) ≤ x j ∧
        x j < r.lower j + (idx j + 1) * (r.len / 2 ^ h)) ∧
      ∀ idx' : Fin d → ℕ, (∀ j, r.lower j + idx' j * (r.len / 2 ^ h) ≤ x j ∧
        x j < r.lower j + (idx' j + 1) * (r.len / 2 ^ h)) → idx' = idx := by
  have hc := route_containsHO r x hx h
  have hl := route_length r x h
  have hcell : ∀ j, r.lower j + grid d (route r x h) j * (r.len / 2 ^ h) ≤ x j ∧
        x j < r.lower j + (grid d (route r x h) j + 1) * (r.len / 2 ^ h) := by
    intro j
    have := hc j
    rw [boxAt_lower, boxAt_upper, hl] at this
    exact this
  refine ⟨grid d (route r x h), ?_, ?_, hcell, ?_⟩
  · have := getLeafBoxIndices_of_cell r hr (route r x h) (by rw [hl]; exact hh) x hc
    rwa [hl] at this
  · intro j; have := grid_lt (d := d) (route r x h) j; rwa [hl] at this
  · intro idx' h'
    ext j
    have a := h' j
    have b := hcell j
    have hu : 0 < r.len / 2 ^ h := by positivity
    set u := r.len / 2 ^ h
    have c1 : (idx' j : ℝ) < grid d (route r x h) j + 1 := by
      by_contra hc; push Not at hc; nlinarith
    have c2 : (grid d (route r x h) j : ℝ) < idx' j + 1 := by
      by_contra hc; push Not at hc; nlinarith
    have c1' : idx' j < grid d (route r x h) j + 1 := by exact_mod_cast c1
    have c2' : grid d (route r x h) j < idx' j + 1 := by exact_mod_cast c2
    omega

/-- The index found for a point is that of the cell reached by descending with `getOrthant`. -/
theorem C05_indices_eq_descent (r : Box d) (hr : 0 < r.len) (h : ℕ) (hh : h < 32) (x : Vec d)
    (hx : ∀ j, r.lower j ≤ x j ∧ x j < r.upper j) :
    getLeafBoxIndices r h x = .ok (grid d (route r x h)) := by
  have hl := route_length r x h
  have := getLeafBoxIndices_of_cell r hr (route r x h) (by rw [hl]; exact hh) x
    (route_containsHO r x hx h)
  rwa [hl] at this

theorem leafBoxIndex_cases (n : ℕ) (hpos : 0 < n) (hn : n < 2 ^ 32) (ρ : ℝ) :
    (0 ≤ ρ → ρ < 1 → ∃ a, leafBoxIndex n ρ = .ok a) ∧
    (1 ≤ ρ → ρ * n < 2 ^ 32 → leafBoxIndex n ρ = .error .runtimeError) ∧
    (ρ < 0 → leafBoxIndex n ρ = .error .ub) := by
  have hn' : (0 : ℝ) < n := by exact_mod_cast hpos
  have h32 : (n : ℤ) < 2 ^ 32 := by exact_mod_cast hn
  refine ⟨fun h0 h1 => ?_, fun h1 h2 => ?_, fun h0 => ?_⟩
  · have f0 : 0 ≤ ⌊ρ * n⌋ := Int.floor_nonneg.mpr (by positivity)
    have f1 : ⌊ρ * n⌋ < n := Int.floor_lt.mpr (by push_cast; nlinarith)
    refine ⟨⌊ρ * n⌋.toNat, ?_⟩
    unfold leafBoxIndex toU32
    rw [if_pos ⟨f0, f1.trans h32⟩]
    simp only [bind, Except.bind]
    rw [if_neg (by omega)]
  · have f0 : (n : ℤ) ≤ ⌊ρ * n⌋ := Int.le_floor.mpr (by push_cast; nlinarith)
    have f1 : ⌊ρ * n⌋ < 2 ^ 32 := Int.floor_lt.mpr (by push_cast; norm_num at h2 ⊢; exact h2)
    unfold leafBoxIndex toU32
    rw [if_pos ⟨by omega, f1⟩]
    simp only [bind, Except.bind]
    rw [if_pos (by omega)]
  · have f0 : ⌊ρ * n⌋ < 0 := Int.floor_lt.mpr (by push_cast; nlinarith)
    unfold leafBoxIndex toU32
    rw [if_neg (by omega)]
    rfl

/-- **C05** A point which is beyond an upper face (and not below any lower face), close enough for the
index to fit into 32 bits, is rejected with `runtime_error`. -/
theorem C05_above_throws (r : Box d) (hr : 0 < r.len) (h : ℕ) (hh : h < 32) (x : Vec d)
    (hlow : ∀ j, r.lower j ≤ x j) (j : Fin d) (hj : r.upper j ≤ x j)
    (hfit : ∀ j, (x j - r.lower j) / r.len * 2 ^ h < 2 ^ 32) :
    getLeafBoxIndices r h x = .error .runtimeError := by
  unfold getLeafBoxIndices
  rw [if_neg hr.ne', toU32_pow _ hh]
  have h32 : 2 ^ h < 2 ^ 32 := Nat.pow_lt_pow_right (by norm_num) hh
  have hr1 : ∀ k, ((1 / r.len) • (x - r.lower)) k = (x k - r.lower k) / r.len := by
    intro k; simp; field_simp
  have hlen : ∀ k, r.upper k - r.lower k = r.len := by
    intro k; rw [Box.lower_apply, Box.upper_apply]; ring
  have hthrow : ∀ k, r.upper k ≤ x k →
      leafBoxIndex (2 ^ h) (((1 / r.len) • (x - r.lower)) k) = .error .runtimeError := by
    intro k hk
    rw [hr1]
    refine (leafBoxIndex_cases (2 ^ h) (by positivity) h32 _).2.1 ?_ ?_
    · rw [le_div_iff₀ hr]; linarith [hlen k]
    · push_cast; exact hfit k
  refine seqFin_error _ _ (fun k => ?_) j (hthrow j hj)
  by_cases hk : r.upper k ≤ x k
  · exact Or.inr (hthrow k hk)
  · left
    push Not at hk
    rw [hr1]
    refine (leafBoxIndex_cases (2 ^ h) (by positivity) h32 _).1 ?_ ?_
    · have := hlow k; apply div_nonneg <;> linarith
    · rw [div_lt_iff₀ hr]; linarith [hlen k]

/-- **C05** A point below a lower face (and not beyond any upper face) is *not* rejected: the conversion
of a negative `double` to `uint32_t` is undefined behaviour. -/
theorem C05_below_ub (r : Box d) (hr : 0 < r.len) (h : ℕ) (hh : h < 32) (x : Vec d)
    (hupp : ∀ j, x j < r.upper j) (j : Fin d) (hj : x j < r.lower j) :
    getLeafBoxIndices r h x = .error .ub := by
  unfold getLeafBoxIndices
  rw [if_neg hr.ne', toU32_pow _ hh]
  have h32 : 2 ^ h < 2 ^ 32 := Nat.pow_lt_pow_right (by norm_num) hh
  have hr1 : ∀ k, ((1 / r.len) • (x - r.lower)) k = (x k - r.lower k) / r.len := by
    intro k; simp; field_simp
  have hlen : ∀ k, r.upper k - r.lower k = r.len := by
    intro k; rw [Box.lower_apply, Box.upper_apply]; ring
  have hub : ∀ k, x k < r.lower k →
      leafBoxIndex (2 ^ h) (((1 / r.len) • (x - r.lower)) k) = .error .ub := by
    intro k hk
    rw [hr1]
    refine (leafBoxIndex_cases (2 ^ h) (by positivity) h32 _).2.2 ?_
    rw [div_lt_iff₀ hr]; linarith
  refine seqFin_error _ _ (fun k => ?_) j (hub j hj)
  by_cases hk : x k < r.lower k
  · exact Or.inr (hub k hk)
  · left
    push Not at hk
    rw [hr1]
    refine (leafBoxIndex_cases (2 ^ h) (by positivity) h32 _).1 ?_ ?_
    · apply div_nonneg <;> linarith
    · rw [div_lt_iff₀ hr]; linarith [hlen k, hupp k]

/-- Non-vacuity of C05: points inside, above and below the box `[-1,1)²`. -/
example : (∃ idx, getLeafBoxIndices (⟨![0, 0], 2⟩ : Box 2) 3 ![0, -1] = .ok idx) ∧
    getLeafBoxIndices (⟨![0, 0], 2⟩ : Box 2) 3 ![1, 0] = .error .runtimeError ∧
    getLeafBoxIndices (⟨![0, 0], 2⟩ : Box 2) 3 ![0, -2] = .error .ub := by
  refine ⟨?_, ?_, ?_⟩
  · obtain ⟨idx, h, _⟩ := C05_indices_locate (⟨![0, 0], 2⟩ : Box 2) (by norm_num) 3 (by norm_num)
      ![0, -1] (by intro j; fin_cases j <;> norm_num [Box.lower_apply, Box.upper_apply])
    exact ⟨idx, h⟩
  · exact C05_above_throws _ (by norm_num) 3 (by norm_num) _
      (by intro j; fin_cases j <;> norm_num [Box.lower_apply]) 0
      (by norm_num [Box.upper_apply]) (by intro j; fin_cases j <;> norm_num [Box.lower_apply])
  · exact C05_below_ub _ (by norm_num) 3 (by norm_num) _
      (by intro j; fin_cases j <;> norm_num [Box.upper_apply]) 1 (by norm_num [Box.lower_apply])

/-! ## C06 -/

/-- **C06** If `d * height ≤ 32` the flat index is a bijection from index tuples to `[0, 2^(d*height))`. -/
theorem C06_flat_bijective (h : ℕ) (hd : d * h ≤ 32) :
    (∀ idx : Fin d → ℕ, (∀ j, idx j < 2 ^ h) → getFlatIndex (2 ^ h) idx < 2 ^ (d * h)) ∧
    (∀ idx idx' : Fin d → ℕ, (∀ j, idx j < 2 ^ h) → (∀ j, idx' j < 2 ^ h) →
      getFlatIndex (2 ^ h) idx = getFlatIndex (2 ^ h) idx' → idx = idx') ∧
    (∀ n < 2 ^ (d * h), ∃ idx : Fin d → ℕ, (∀ j, idx j < 2 ^ h) ∧ getFlatIndex (2 ^ h) idx = n) := by
  have key : ∀ idx : Fin d → ℕ, (∀ j, idx j < 2 ^ h) →
      getFlatIndex (2 ^ h) idx = flatSpec (2 ^ h) idx := by
    intro idx hidx
    rw [getFlatIndex_eq]
    exact Nat.mod_eq_of_lt ((flatSpec_lt h idx hidx).trans_le (Nat.pow_le_pow_right (by norm_num) hd))
  have hlt : ∀ idx : Fin d → ℕ, (∀ j, idx j < 2 ^ h) → getFlatIndex (2 ^ h) idx < 2 ^ (d * h) :=
    fun idx hidx => by rw [key idx hidx]; exact flatSpec_lt h idx hidx
  have hinj : ∀ idx idx' : Fin d → ℕ, (∀ j, idx j < 2 ^ h) → (∀ j, idx' j < 2 ^ h) →
      getFlatIndex (2 ^ h) idx = getFlatIndex (2 ^ h) idx' → idx = idx' := by
    intro idx idx' h1 h2 he
    rw [key idx h1, key idx' h2] at he
    exact flatSpec_injective h idx idx' h1 h2 he
  refine ⟨hlt, hinj, ?_⟩
  -- surjectivity by counting
  let F : (Fin d → Fin (2 ^ h)) → Fin (2 ^ (d * h)) := fun g =>
    ⟨getFlatIndex (2 ^ h) fun j => (g j : ℕ), hlt _ fun j => (g j).isLt⟩
  have hF : Function.Injective F := by
    intro g g' hg
    have := hinj _ _ (fun j => (g j).isLt) (fun j => (g' j).isLt) (congrArg Fin.val hg)
    ext j; exact congrFun this j
  have hFs : Function.Surjective F := by
    refine ((Fintype.bijective_iff_injective_and_card F).mpr ⟨hF, ?_⟩).2
    simp [← pow_mul, mul_comm]
  intro n hn
  obtain ⟨g, hg⟩ := hFs ⟨n, hn⟩
  exact ⟨fun j => g j, fun j => (g j).isLt, congrArg Fin.val hg⟩

/-- **C06** Beyond 32 bits the flat index is not injective: two different leaves collide. -/
theorem C06_flat_wraps (h : ℕ) (hd : 32 < (d + 1) * h) :
    ∃ idx idx' : Fin (d + 1) → ℕ, (∀ j, idx j < 2 ^ h) ∧ (∀ j, idx' j < 2 ^ h) ∧ idx ≠ idx' ∧
      getFlatIndex (2 ^ h) idx = getFlatIndex (2 ^ h) idx' := by
  -- otherwise the flat index would inject 2^((d+1)h) > 2^32 tuples into [0, 2^32)
  by_contra hc
  push Not at hc
  let F : (Fin (d + 1) → Fin (2 ^ h)) → Fin (2 ^ 32) := fun g =>
    ⟨getFlatIndex (2 ^ h) fun j => (g j : ℕ), by
      rw [getFlatIndex_eq]; exact Nat.mod_lt _ (by norm_num)⟩
  have hF : Function.Injective F := by
    intro g g' hg
    by_contra hne
    refine hc (fun j => g j) (fun j => g' j) (fun j => (g j).isLt) (fun j => (g' j).isLt) ?_
      (congrArg Fin.val hg)
    intro he; apply hne; ext j; exact congrFun he j
  have hcard := Fintype.card_le_of_injective F hF
  rw [Fintype.card_fun, Fintype.card_fin, Fintype.card_fin, Fintype.card_fin, ← pow_mul, mul_comm] at hcard
  exact absurd hcard (not_le.mpr (Nat.pow_lt_pow_right (by norm_num) hd))

/-- Non-vacuity: a 3D tree of height 10 satisfies the bound, one of height 11 does not. -/
example : 3 * 10 ≤ 32 ∧ 32 < (2 + 1) * 11 := by norm_num

/-! ## C07 -/

/-- **C07** `getMortonIndex` throws exactly for `height ≥ 64/d`. -/
theorem C07_throws_iff (h : ℕ) (idx : Fin d → ℕ) :
    (getMortonIndex h idx = .error .runtimeError ↔ 64 / d ≤ h) ∧
    ((∃ n, getMortonIndex h idx = .ok n) ↔ h < 64 / d) := by
  unfold getMortonIndex
  by_cases hc : 64 / d ≤ h
  · rw [if_pos hc]; simp [hc]
  · rw [if_neg hc]; simp [hc]; omega

/-- **C07** Below the limit the Morton index is a bijection from index tuples to `[0, 2^(d*height))`, and
it interleaves the bits (bit `i*d + j` of the result is bit `i` of index `d-1-j`). -/
theorem C07_morton_bijective (hd : 0 < d) (h : ℕ) (hh : h < 64 / d) :
    (∀ idx : Fin d → ℕ, (∀ j, idx j < 2 ^ h) → ∃ n, getMortonIndex h idx = .ok n ∧ n < 2 ^ (d * h) ∧
      ∀ i < h, ∀ j : Fin d, n.testBit (i * d + j) = (idx j.rev).testBit i) ∧
    (∀ idx idx' : Fin d → ℕ, (∀ j, idx j < 2 ^ h) → (∀ j, idx' j < 2 ^ h) →
      getMortonIndex h idx = getMortonIndex h idx' → idx = idx') ∧
    (∀ n < 2 ^ (d * h), ∃ idx : Fin d → ℕ, (∀ j, idx j < 2 ^ h) ∧ getMortonIndex h idx = .ok n) := by
  have hM : ∀ idx : Fin d → ℕ, (∀ j, idx j < 2 ^ h) →
      getMortonIndex h idx = .ok (pathIndex d (pathOfGrid h idx)) := by
    intro idx hidx
    have := getMortonIndex_grid hd (pathOfGrid h idx) (pathOfGrid_valid h idx)
      (by rw [pathOfGrid_length]; exact hh)
    rwa [pathOfGrid_length, grid_pathOfGrid h idx hidx] at this
  refine ⟨?_, ?_, ?_⟩
  · intro idx hidx
    refine ⟨_, hM idx hidx, ?_, ?_⟩
    · have := pathIndex_lt (d := d) (pathOfGrid h idx) (pathOfGrid_valid h idx)
      rwa [pathOfGrid_length, ← pow_mul] at this
    · intro i hi j
      rw [testBit_pathIndex _ (pathOfGrid_valid h idx) _ _ j.isLt]
      have := testBit_grid (d := d) (pathOfGrid h idx) j.rev i
      rw [grid_pathOfGrid h idx hidx] at this
      rw [this]; congr 1; simp only [Fin.val_rev]; omega
  · intro idx idx' h1 h2 he
    rw [hM idx h1, hM idx' h2] at he
    have := pathIndex_injective (pathOfGrid_valid h idx) (pathOfGrid_valid h idx')
      (by rw [pathOfGrid_length, pathOfGrid_length]) (Except.ok.inj he)
    rw [← grid_pathOfGrid h idx h1, ← grid_pathOfGrid h idx' h2, this]
  · intro n hn
    refine ⟨grid d (pathOfIndex d h n), fun j => ?_, ?_⟩
    · have := grid_lt (d := d) (pathOfIndex d h n) j; rwa [pathOfIndex_length] at this
    · have := getMortonIndex_grid hd (pathOfIndex d h n) (pathOfIndex_valid h n)
        (by rw [pathOfIndex_length]; exact hh)
      rw [pathOfIndex_length] at this
      rw [this, pathIndex_pathOfIndex h n (by rwa [← pow_mul])]

/-- Non-vacuity of C07: a 2D tree of height 3, indices (5, 3): 101 and 011 interleave to 100111₂ = 39
(first coordinate in the higher bit of each pair). -/
example : getMortonIndex 3 ![5, 3] = .ok 39 := by decide

end FMM
