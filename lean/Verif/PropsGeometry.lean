import Verif.DataRange

/-!
# Properties C01–C04: orthants, child boxes, adjacency, root box
-/

namespace FMM
variable {d : ℕ}

/-- **C01** Moving from a centre in direction `i` lands in orthant `i`. -/
theorem C01_orthant_of_direction (c : Vec d) (t : ℝ) (ht : 0 < t) (i : ℕ) (hi : i < 2 ^ d) :
    getOrthant c (c + t • childDir d i) = i := by
  apply eq_of_testBit_lt (getOrthant_lt _ _) hi
  intro j
  rw [testBit_getOrthant]
  simp only [Pi.add_apply, Pi.smul_apply, smul_eq_mul, childDir]
  by_cases hb : i.testBit (d - j - 1) = true
  · simp [hb, ht.le]
  · simp [hb, ht]

/-- **C01** The direction belonging to a point's orthant index has the signs of the point relative to the
centre (ties count as `+`), and the index is in range. -/
theorem C01_direction_of_orthant (c x : Vec d) :
    getOrthant c x < 2 ^ d ∧
      ∀ j, (childDir d (getOrthant c x) j = 1 ↔ c j ≤ x j) ∧
        (childDir d (getOrthant c x) j = -1 ↔ x j < c j) := by
  refine ⟨getOrthant_lt _ _, fun j => ?_⟩
  rw [childDir_getOrthant]
  by_cases h : c j ≤ x j
  · simp only [h, if_true]; constructor
    · simp
    · constructor
      · intro h'; norm_num at h'
      · intro h'; exact absurd h (not_le.mpr h')
  · simp only [h, if_false]; constructor
    · constructor
      · intro h'; norm_num at h'
      · intro h'; exact h'.elim
    · simpa using h

/-- **C01** Different child indices have different directions. -/
theorem C01_directions_injective (i k : ℕ) (hi : i < 2 ^ d) (hk : k < 2 ^ d)
    (h : childDir d i = childDir d k) : i = k := by
  have h1 := C01_orthant_of_direction (0 : Vec d) 1 one_pos i hi
  have h2 := C01_orthant_of_direction (0 : Vec d) 1 one_pos k hk
  rw [← h1, ← h2, h]

/-- Non-vacuity of C01 (3D, index 6 = `{1,1,-1}`). -/
example : childDir 3 6 = ![1, 1, -1] ∧ getOrthant (0 : Vec 3) (0 + (2 : ℝ) • childDir 3 6) = 6 := by
  constructor
  · ext j; fin_cases j <;> simp [childDir, Nat.testBit, Nat.shiftRight_eq_div_pow]
  · exact C01_orthant_of_direction 0 2 (by norm_num) 6 (by norm_num)

/-- **C02** A point of a closed box lies in the closed child box selected for it, every point of a child
box lies in the parent box, and distinct children share only boundary points (they are separated by the
centre plane of some coordinate). -/
theorem C02_child_boxes (b : Box d) (hb : 0 ≤ b.len) :
    (∀ x, b.contains x → (b.child (getOrthant b.center x)).contains x) ∧
    (∀ i x, (b.child i).contains x → b.contains x) ∧
    (∀ i k x, i < 2 ^ d → k < 2 ^ d → i ≠ k → (b.child i).contains x → (b.child k).contains x →
      ∃ j, x j = b.center j) := by
  refine ⟨fun x h => child_getOrthant_contains b x h,
    fun i x h => child_contains_sub b hb i x h, ?_⟩
  intro i k x hi hk hne h1 h2
  have hex : ∃ j : Fin d, i.testBit (d - j - 1) ≠ k.testBit (d - j - 1) := by
    by_contra hc; push Not at hc
    exact hne (eq_of_testBit_lt hi hk hc)
  obtain ⟨j, hj⟩ := hex
  refine ⟨j, ?_⟩
  rw [Box.contains_iff] at h1 h2
  have a1 := h1 j
  have a2 := h2 j
  simp only [Box.child, Pi.add_apply, Pi.smul_apply, smul_eq_mul, childDir] at a1 a2
  cases e1 : i.testBit (d - j - 1) <;> cases e2 : k.testBit (d - j - 1) <;>
    simp [e1, e2] at hj a1 a2 <;> linarith [a1.1, a1.2, a2.1, a2.2]

/-- **C02** for whole descents: a point of the root box lies in every box of its route. -/
theorem C02_descent (r : Box d) (x : Vec d) (h : r.contains x) (k : ℕ) :
    (boxAt r (route r x k)).contains x ∧ (route r x k).length = k := ⟨route_contains r x h k, by simp⟩

/-- Non-vacuity of C02: a corner point of a box (a tie in every coordinate of a descent). -/
example : (⟨![0, 0], 2⟩ : Box 2).contains ![1, -1] := by
  rw [Box.contains_iff]; intro i; fin_cases i <;> simp

/-- **C03** For boxes of one tree (any two addresses, any depths) `adjacent` holds iff the closed boxes
intersect. -/
theorem C03_adjacent_iff_touch (r : Box d) (hr : 0 < r.len) (π ρ : Path) :
    (boxAt r π).adjacent (boxAt r ρ) ↔ ∃ x, (boxAt r π).contains x ∧ (boxAt r ρ).contains x :=
  adjacent_iff_inter r hr π ρ

/-- **C03** Adjacency is reflexive and symmetric and is inherited by ancestors. -/
theorem C03_adjacent_laws (r : Box d) (hr : 0 < r.len) (π ρ : Path) :
    (boxAt r π).adjacent (boxAt r π) ∧
    ((boxAt r π).adjacent (boxAt r ρ) ↔ (boxAt r ρ).adjacent (boxAt r π)) ∧
    (∀ i, (boxAt r (i :: π)).adjacent (boxAt r ρ) → (boxAt r π).adjacent (boxAt r ρ)) := by
  refine ⟨adjacent_of_suffix r hr π [], adjacent_comm r hr π ρ, fun i h => ?_⟩
  exact adjacent_mono_suffix r hr π [i] ρ [] h

/-- **C03** Same-depth boxes of a tree are adjacent iff their grid coordinates differ by at most one. -/
theorem C03_adjacent_iff_grid (r : Box d) (hr : 0 < r.len) (π ρ : Path) (h : π.length = ρ.length) :
    (boxAt r π).adjacent (boxAt r ρ) ↔
      ∀ j, grid d π j ≤ grid d ρ j + 1 ∧ grid d ρ j ≤ grid d π j + 1 := by
  rw [adjacent_iff_overlap r hr]
  refine forall_congr' fun j => ?_
  rw [boxAt_lower, boxAt_lower, boxAt_upper, boxAt_upper, ← h]
  have hu : 0 < r.len / 2 ^ π.length := by positivity
  set u := r.len / 2 ^ π.length
  have key : ∀ m n : ℕ, (r.lower j + m * u ≤ r.lower j + ((n : ℝ) + 1) * u) ↔ m ≤ n + 1 := by
    intro m n
    constructor
    · intro hh
      have : (m : ℝ) ≤ n + 1 := by by_contra hc; push Not at hc; nlinarith
      exact_mod_cast this
    · intro hh
      have : (m : ℝ) ≤ n + 1 := by exact_mod_cast hh
      nlinarith
  rw [key, key]; exact and_comm

/-- Non-vacuity of C03: boxes of depth 1 and 2 of the unit square tree that touch in a corner only, and
two boxes that do not touch. -/
example : (boxAt (⟨![0, 0], 2⟩ : Box 2) [0]).adjacent (boxAt ⟨![0, 0], 2⟩ [0, 3]) ∧
    ¬ (boxAt (⟨![0, 0], 2⟩ : Box 2) [0]).adjacent (boxAt ⟨![0, 0], 2⟩ [3, 3]) := by
  constructor
  · rw [adjacent_iff_overlap _ (by norm_num)]
    intro j
    rw [boxAt_lower, boxAt_lower, boxAt_upper, boxAt_upper]
    fin_cases j <;> simp [grid, Box.lower_apply, Nat.testBit, Nat.shiftRight_eq_div_pow] <;> norm_num
  · rw [adjacent_iff_overlap _ (by norm_num)]
    intro h
    have := (h 0).1
    rw [boxAt_lower, boxAt_upper] at this
    norm_num [grid, Box.lower_apply, Nat.testBit, Nat.shiftRight_eq_div_pow,
      show ((1 != 0 : Bool)) = true from rfl] at this

/-! ## C04 -/

/-- **C04** (exact characterisation) With `lo`, `hi` the true coordinate-wise bounds of the data and `E`
the largest extent, all sources are in the (closed) root box iff in every coordinate the box scaled by
`1 + 10⁻⁵` about the origin still reaches the extreme points. -/
theorem C04_contains_iff (ps : List (Vec (d + 1))) (hps : ps ≠ []) :
    ∃ (r : Box (d + 1)) (lo hi : Vec (d + 1)) (E : ℝ), rootBox ps = some r ∧
      (∀ i, (∃ p ∈ ps, p i = lo i) ∧ ∀ p ∈ ps, lo i ≤ p i) ∧
      (∀ i, (∃ p ∈ ps, p i = hi i) ∧ ∀ p ∈ ps, p i ≤ hi i) ∧
      (∀ i, hi i - lo i ≤ E) ∧ (∃ i, hi i - lo i = E) ∧
      ((∀ p ∈ ps, r.contains p) ↔
        ∀ i, (1 + 1 / 100000) * (lo i + hi i - E) ≤ 2 * lo i ∧
          2 * hi i ≤ (1 + 1 / 100000) * (lo i + hi i + E)) := by
  obtain ⟨r, lo, hi, E, h1, h2, h3, h4, h5, h6, h7⟩ := rootBox_spec ps hps
  refine ⟨r, lo, hi, E, h1, h2, h3, h4, h5, ?_⟩
  have hlow : ∀ i, r.center i - r.len / 2 = (1 + 1 / 100000) * (lo i + hi i - E) / 2 := by
    intro i; rw [h6, h7, paddingFactor]; ring
  have hupp : ∀ i, r.center i + r.len / 2 = (1 + 1 / 100000) * (lo i + hi i + E) / 2 := by
    intro i; rw [h6, h7, paddingFactor]; ring
  simp only [Box.contains_iff, hlow, hupp]
  constructor
  · intro h i
    obtain ⟨p, hp, hpi⟩ := (h2 i).1
    obtain ⟨p', hp', hpi'⟩ := (h3 i).1
    have a := (h p hp i).1
    have b := (h p' hp' i).2
    rw [hpi] at a; rw [hpi'] at b
    constructor <;> linarith
  · intro h p hp i
    have a := (h2 i).2 p hp
    have b := (h3 i).2 p hp
    constructor <;> linarith [(h i).1, (h i).2]

/-- **C04** (`_partial`: the full statement is false, see `C04_false`) If in every coordinate the data
straddle the origin, all sources lie in the root box, and strictly inside if they straddle strictly. -/
theorem C04_contains_partial (ps : List (Vec (d + 1))) (hps : ps ≠ [])
    (hstraddle : ∀ i, (∃ p ∈ ps, p i ≤ 0) ∧ ∃ p ∈ ps, 0 ≤ p i) :
    ∃ r, rootBox ps = some r ∧ (∀ p ∈ ps, r.contains p) ∧
      ((∀ i, (∃ p ∈ ps, p i < 0) ∧ ∃ p ∈ ps, 0 < p i) →
        ∀ p ∈ ps, ∀ i, r.lower i < p i ∧ p i < r.upper i) := by
  obtain ⟨r, lo, hi, E, h1, h2, h3, h4, h5, h6, h7⟩ := rootBox_spec ps hps
  have hlow : ∀ i, r.center i - r.len / 2 = (1 + 1 / 100000) * (lo i + hi i - E) / 2 := by
    intro i; rw [h6, h7, paddingFactor]; ring
  have hupp : ∀ i, r.center i + r.len / 2 = (1 + 1 / 100000) * (lo i + hi i + E) / 2 := by
    intro i; rw [h6, h7, paddingFactor]; ring
  refine ⟨r, h1, ?_, ?_⟩
  · intro p hp
    rw [Box.contains_iff]; intro i
    rw [hlow, hupp]
    obtain ⟨⟨p1, hp1, e1⟩, ⟨p2, hp2, e2⟩⟩ := hstraddle i
    have a1 := (h2 i).2 p1 hp1
    have a2 := (h3 i).2 p2 hp2
    have a := (h2 i).2 p hp
    have b := (h3 i).2 p hp
    have := h4 i
    constructor <;> linarith
  · intro hs p hp i
    rw [Box.lower_apply, Box.upper_apply, hlow, hupp]
    obtain ⟨⟨p1, hp1, e1⟩, ⟨p2, hp2, e2⟩⟩ := hs i
    have a1 := (h2 i).2 p1 hp1
    have a2 := (h3 i).2 p2 hp2
    have a := (h2 i).2 p hp
    have b := (h3 i).2 p hp
    have := h4 i
    constructor <;> linarith

/-- **C04 is false**: two sources at `(1,1)` and `(2,2)` give a root box that does not contain the first
of them. (The padding is multiplicative, so the box moves away from the origin.) -/
theorem C04_false :
    ¬ ∀ (ps : List (Vec 2)), ps ≠ [] → ∃ r, rootBox ps = some r ∧ ∀ p ∈ ps, r.contains p := by
  intro hall
  obtain ⟨r, lo, hi, E, h1, h2, h3, h4, h5, h6⟩ :=
    C04_contains_iff (d := 1) [![1, 1], ![2, 2]] (by simp)
  obtain ⟨r', h1', hc⟩ := hall [![1, 1], ![2, 2]] (by simp)
  obtain rfl : r = r' := by rw [h1] at h1'; exact Option.some.inj h1'
  have hk := h6.mp hc
  have hlo : ∀ i, lo i = 1 := by
    intro i
    obtain ⟨⟨p, hp, e⟩, hle⟩ := h2 i
    have := hle ![1, 1] (by simp)
    simp only [List.mem_cons, List.not_mem_nil, or_false] at hp
    rcases hp with rfl | rfl <;> fin_cases i <;> simp at e this ⊢ <;> linarith
  have hhi : ∀ i, hi i = 2 := by
    intro i
    obtain ⟨⟨p, hp, e⟩, hle⟩ := h3 i
    have := hle ![2, 2] (by simp)
    simp only [List.mem_cons, List.not_mem_nil, or_false] at hp
    rcases hp with rfl | rfl <;> fin_cases i <;> simp at e this ⊢ <;> linarith
  obtain ⟨i, hE⟩ := h5
  have := (hk i).1
  rw [← hE, hlo, hhi] at this
  norm_num at this

/-- Non-vacuity of C04_contains_partial: strictly straddling data exist. -/
example : ∃ r, rootBox [![-1, -2], (![3, 1] : Vec 2)] = some r ∧ r.contains ![3, 1] := by
  obtain ⟨r, h1, h2, _⟩ := C04_contains_partial (d := 1) [![-1, -2], ![3, 1]] (by simp) (by
    intro i
    refine ⟨⟨![-1, -2], by simp, ?_⟩, ⟨![3, 1], by simp, ?_⟩⟩ <;> fin_cases i <;> simp)
  exact ⟨r, h1, h2 _ (by simp)⟩

end FMM
