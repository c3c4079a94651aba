import Verif.Minimal
import Verif.PropsAccuracy
import Verif.PropsOrderZero

/-!
# C99: the program `examples/minimal.cpp`

`R` is the sequence of the random numbers, `pt R i` the position of source `i` and `A R N` the sum of the strengths, all written down independently of the loop of
the program.
-/

namespace FMM.Minimal
open FMM

/-- Position of source `i`: random numbers `3i` and `3i+1`, mapped from `[0,1]` to `[-extent/2, extent/2]`. -/
noncomputable def pt (R : ℕ → ℝ) (extent : ℝ) (i : ℕ) : Vec 2 := ![extent * (R (3 * i) - 1 / 2), extent * (R (3 * i + 1) - 1 / 2)]

/-- Sum of the absolute strengths. -/
noncomputable def total (R : ℕ → ℝ) (N : ℕ) : ℝ := ∑ i ∈ Finset.range N, |R (3 * i + 2)|

theorem sources_eq (R : ℕ → ℝ) (N : ℕ) (extent : ℝ) :
    sources R N extent = (List.range N).map fun i => (⟨pt R extent i, R (3 * i + 2) * (if i % 2 = 1 then 1 else -1)⟩ : Source 2) := by
  unfold sources
  have key : ∀ n, (loopN n (fun i (acc : List (Source 2) × ℕ) =>
      (acc.1 ++ [(⟨fun j => extent * R (acc.2 + j) - extent / 2, R (acc.2 + 2) * (if i % 2 = 1 then 1 else -1)⟩ : Source 2)], acc.2 + 3)) ([], 0)) =
      ((List.range n).map fun i => (⟨pt R extent i, R (3 * i + 2) * (if i % 2 = 1 then 1 else -1)⟩ : Source 2), 3 * n) := by
    intro n
    induction n with
    | zero => rfl
    | succ n ih =>
      rw [loopN_succ, ih, List.range_succ, List.map_append, List.map_singleton]
      have : (fun j : Fin 2 => extent * R (3 * n + j) - extent / 2) = pt R extent n := by
        funext j
        fin_cases j <;> simp [pt] <;> ring
      dsimp only
      rw [this]
      rfl
  exact congrArg Prod.fst (key N)

theorem total_eq (R : ℕ → ℝ) (N : ℕ) (extent : ℝ) : ((sources R N extent).map fun s => |s.q|).sum = total R N := by
  rw [sources_eq, List.map_map, total]
  have : ∀ i : ℕ, |R (3 * i + 2) * (if i % 2 = 1 then 1 else -1)| = |R (3 * i + 2)| := by
    intro i
    rw [abs_mul]
    split_ifs <;> simp
  rw [Finset.sum_range, ← List.sum_ofFn]
  congr 1
  rw [List.ofFn_eq_map, ← List.map_coe_finRange_eq_range, List.map_map]
  exact List.map_congr_left fun i _ => this i

theorem mult_eq (R : ℕ → ℝ) (N : ℕ) (extent : ℝ) (x : Vec 2) :
    ((sources R N extent).filter fun s => decide (s.pos = x)).length = ((Finset.range N).filter fun i => pt R extent i = x).card := by
  rw [sources_eq, List.filter_map, List.length_map]
  rfl

/-- In every coordinate there is a source on either side of the origin, or on it. -/
def Straddles (R : ℕ → ℝ) (N : ℕ) : Prop :=
  (∃ i < N, R (3 * i) ≤ 1 / 2) ∧ (∃ i < N, 1 / 2 ≤ R (3 * i)) ∧ (∃ i < N, R (3 * i + 1) ≤ 1 / 2) ∧ ∃ i < N, 1 / 2 ≤ R (3 * i + 1)

/-- No point carries more than `max` sources. -/
def Mult (R : ℕ → ℝ) (N max : ℕ) : Prop := ∀ x : Vec 2, ((Finset.range N).filter fun i => pt R 32 i = x).card ≤ max

theorem input {R : ℕ → ℝ} {N max : ℕ} (hs : Straddles R N) (hm : Mult R N max) :
    ∃ r, AdaptiveInput (sources R N 32) max r := by
  have hmem : ∀ i < N, pt R 32 i ∈ (sources R N 32).map Source.pos := by
    intro i hi
    rw [sources_eq, List.map_map]
    exact List.mem_map.mpr ⟨i, List.mem_range.mpr hi, rfl⟩
  obtain ⟨⟨i1, h1, g1⟩, ⟨i2, h2, g2⟩, ⟨i3, h3, g3⟩, ⟨i4, h4, g4⟩⟩ := hs
  obtain ⟨r, a1, a2, -⟩ := C04_contains_partial ((sources R N 32).map Source.pos) (List.ne_nil_of_mem (hmem i1 h1)) (by
    intro j
    fin_cases j
    · exact ⟨⟨_, hmem i1 h1, by simp [pt]; linarith⟩, ⟨_, hmem i2 h2, by simp [pt]; linarith⟩⟩
    · exact ⟨⟨_, hmem i3 h3, by simp [pt]; linarith⟩, ⟨_, hmem i4 h4, by simp [pt]; linarith⟩⟩)
  refine ⟨r, a1, fun s hs => a2 _ (List.mem_map_of_mem hs), fun x => ?_⟩
  rw [mult_eq]
  exact hm x

theorem sources_cons (R : ℕ → ℝ) {N : ℕ} (hN : 0 < N) (extent : ℝ) :
    ∃ q l, sources R N extent = ⟨pt R extent 0, q⟩ :: l := by
  obtain ⟨n, rfl⟩ : ∃ n, N = n + 1 := ⟨N - 1, by omega⟩
  rw [sources_eq, List.range_succ_eq_map, List.map_cons]
  exact ⟨_, _, rfl⟩

theorem total_le {R : ℕ → ℝ} (hR : ∀ n, R n ∈ Set.Icc (0 : ℝ) 1) (N : ℕ) : total R N ≤ N := by
  unfold total
  calc _ ≤ ∑ _i ∈ Finset.range N, (1 : ℝ) := Finset.sum_le_sum fun i _ => by rw [abs_of_nonneg (hR _).1]; exact (hR _).2
    _ = N := by simp

theorem direct_eq (R : ℕ → ℝ) (N : ℕ) :
    directPotential true (sources R N 32) (pt R 32 0) = ∑ i ∈ Finset.range N, (if pt R 32 i = pt R 32 0 then 0 else
        (if i % 2 = 1 then 1 else -1) * R (3 * i + 2) * Real.log (dist2 (pt R 32 i) (pt R 32 0))) := by
  unfold directPotential
  rw [sources_eq, List.map_map, Finset.sum_range, ← List.sum_ofFn]
  congr 1
  rw [List.ofFn_eq_map, ← List.map_coe_finRange_eq_range, List.map_map]
  refine List.map_congr_left fun i _ => ?_
  simp only [Function.comp, directTerm, kernelSpec, sgn, if_true, one_mul]
  by_cases h : pt R 32 i = pt R 32 0
  · rw [if_pos h, if_pos h]
  · rw [if_neg h, if_neg h]; ring

/-- **C99** Whatever the random numbers are, if their positions surround the origin, no point is drawn more than 50 times and the strengths add up to more than 20,
the program prints two numbers, the same for every schedule of the parallel loops: the second one is the direct sum, the first one differs from it by at most
`√(10 A) ≤ 317`. -/
theorem C99_prints {R : ℕ → ℝ} (hR : ∀ n, R n ∈ Set.Icc (0 : ℝ) 1) (hs : Straddles R 10000) (hm : Mult R 10000 50) (hA : 20 < total R 10000) :
    ∃ fuel0 a b, (∀ fuel ≥ fuel0, ∀ sch, Schedule sch → main fuel sch R = .ok (a, b)) ∧
      b = ∑ i ∈ Finset.range 10000, (if pt R 32 i = pt R 32 0 then 0 else
        (if i % 2 = 1 then 1 else -1) * R (3 * i + 2) * Real.log (dist2 (pt R 32 i) (pt R 32 0))) ∧
      |a - b| ≤ √(10 * total R 10000) ∧ √(10 * total R 10000) ≤ 317 := by
  obtain ⟨r, hI⟩ := input hs hm
  have hA0 : 0 ≤ 10 * total R 10000 := by linarith
  have hA1 : total R 10000 ≤ 10000 := by exact_mod_cast total_le hR 10000
  obtain ⟨f, T, c1, c2⟩ := C41_squared_adaptive_partial (t := BinomialTable.init) (S := sources R 10000 32) (r := r) (par := 10)
    (eps := √(10 * total R 10000)) ⟨[], by simp, rfl⟩ hI (by norm_num) (Real.sqrt_nonneg _) (by rw [total_eq]; linarith)
    (by
      rw [total_eq]
      have : (2 : ℝ) ^ 10 ≤ 2 ^ 1029 := pow_le_pow_right₀ (by norm_num) (by norm_num)
      generalize (2 : ℝ) ^ 1029 = Z at this ⊢
      norm_num at this
      linarith)
    (by rw [total_eq, Real.sq_sqrt hA0])
  obtain ⟨q, l, hl⟩ := sources_cons R (N := 10000) (by norm_num) 32
  have hx : r.contains (pt R 32 0) := hI.inside ⟨pt R 32 0, q⟩ (by rw [hl]; exact List.mem_cons_self)
  obtain ⟨v, v1, v2⟩ := c2 _ hx true (sources R 10000 32)
  refine ⟨f, v, directPotential true (sources R 10000 32) (pt R 32 0), fun fuel hf sch hsch => ?_, direct_eq R 10000, v2, ?_⟩
  · unfold main
    dsimp only
    rw [c1 fuel hf sch hsch, ok_bind]
    have v1 := v1 fuel hf
    have v3 := potentialSum_safe true (sources R 10000 32) (pt R 32 0)
    rw [hl] at v1 v3 ⊢
    dsimp only
    rw [v1, ok_bind, v3, ok_bind]
  · rw [show (317 : ℝ) = √(317 ^ 2) by rw [Real.sqrt_sq (by norm_num)]]
    exact Real.sqrt_le_sqrt (by linarith)

theorem errPot_one : errPot 1 ≤ 43 / 50 := by
  have h0 : 0 < √(2 : ℝ) := by positivity
  have h2 : √(2 : ℝ) ^ 2 = 2 := Real.sq_sqrt (by norm_num)
  have h3 : (7071 / 5000 : ℝ) ≤ √2 := Real.le_sqrt_of_sq_le (by norm_num)
  have h4 : 1 / √(2 : ℝ) ≤ 5000 / 7071 := by
    rw [div_le_div_iff₀ h0 (by norm_num)]; linarith
  have h5 : (1 / √(2 : ℝ)) ^ (1 + 1) = 1 / 2 := by rw [div_pow, h2]; norm_num
  unfold errPot
  rw [h5, div_le_iff₀ (by push_cast; linarith)]
  push_cast
  linarith

/-- **C99** For `10 < A ≤ 20` the order is 1; the error is at most `0.86 A`. -/
theorem C99_prints_order_one {R : ℕ → ℝ} (hs : Straddles R 10000) (hm : Mult R 10000 50) (h1 : 10 < total R 10000)
    (h2 : total R 10000 ≤ 20) :
    ∃ fuel0 a b, (∀ fuel ≥ fuel0, ∀ sch, Schedule sch → main fuel sch R = .ok (a, b)) ∧
      b = ∑ i ∈ Finset.range 10000, (if pt R 32 i = pt R 32 0 then 0 else
        (if i % 2 = 1 then 1 else -1) * R (3 * i + 2) * Real.log (dist2 (pt R 32 i) (pt R 32 0))) ∧
      |a - b| ≤ 43 / 50 * total R 10000 := by
  obtain ⟨r, hI⟩ := input hs hm
  have hord : expansionOrder (totalStrength (sources R 10000 32)) 10 = .ok 1 := by
    rw [totalStrength_eq, total_eq]
    have hB := C24_order (total R 10000) 10 (by norm_num) (by linarith)
    have : (2 : ℝ) ^ 1 ≤ 2 ^ (2 ^ 32 - 1) := pow_le_pow_right₀ (by norm_num) (by norm_num)
    generalize (2 : ℝ) ^ (2 ^ 32 - 1) = Z at this hB
    obtain ⟨p, k1, k2, k3⟩ := hB (by linarith)
    have hp0 : p ≠ 0 := by rintro rfl; norm_num at k2; linarith
    have hp1 : ¬ 1 < p := fun h => by have := k3 1 h; norm_num at this; linarith
    rwa [show p = 1 by omega] at k1
  obtain ⟨f, T, c1, -, c2, -⟩ := C40_adaptive (t := BinomialTable.init) ⟨[], by simp, rfl⟩ hI hord le_rfl (by norm_num)
  obtain ⟨q, l, hl⟩ := sources_cons R (N := 10000) (by norm_num) 32
  have hx : r.contains (pt R 32 0) := hI.inside ⟨pt R 32 0, q⟩ (by rw [hl]; exact List.mem_cons_self)
  obtain ⟨v, v1, v2⟩ := c2 _ hx true (sources R 10000 32)
  refine ⟨f, v, directPotential true (sources R 10000 32) (pt R 32 0), fun fuel hf sch hsch => ?_, direct_eq R 10000, v2.trans ?_⟩
  · unfold main
    dsimp only
    rw [c1 fuel hf sch hsch, ok_bind]
    have v1 := v1 fuel hf
    have v3 := potentialSum_safe true (sources R 10000 32) (pt R 32 0)
    rw [hl] at v1 v3 ⊢
    dsimp only
    rw [v1, ok_bind, v3, ok_bind]
  · rw [total_eq, mul_comm]
    exact mul_le_mul_of_nonneg_right errPot_one (by linarith)

/-- **C99** For `5 < A ≤ 10` the order is 0, and the program is terminated by an assertion. -/
theorem C99_order_zero {R : ℕ → ℝ} (hs : Straddles R 10000) (hm : Mult R 10000 50) (h1 : 5 < total R 10000)
    (h2 : total R 10000 ≤ 10) :
    ∃ fuel0, ∀ fuel ≥ fuel0, ∀ sch, Schedule sch → main fuel sch R = .error .assertFail := by
  obtain ⟨r, hI⟩ := input hs hm
  obtain ⟨f, h⟩ := C102_adaptive_2d (t := BinomialTable.init) ⟨[], by simp, rfl⟩ hI (by rw [sources_eq]; simp) (eps := 10) (by norm_num)
    (by rw [total_eq]; linarith) (by rw [total_eq]; exact h2)
  refine ⟨f, fun fuel hf sch hsch => ?_⟩
  unfold main
  dsimp only
  rw [h fuel hf sch hsch]
  rfl

/-- **C99** If the strengths add up to at most 5 (for instance if `rand()` returns only zeros) the conversion of the order is undefined. -/
theorem C99_weak {R : ℕ → ℝ} (hA : total R 10000 ≤ 5) (fuel : ℕ) (sch : ℕ → List Path → List Path) : main fuel sch R = .error .ub := by
  unfold main
  dsimp only
  unfold adaptiveFmm adaptiveInit
  rw [C24_order_ub _ _ (by norm_num) (by rw [totalStrength_eq, total_eq]; linarith)]
  rfl

theorem build_diverges {R : ℕ → ℝ} {N max : ℕ} (r : Box 2) {x : Vec 2} (hx : max < ((Finset.range N).filter fun i => pt R 32 i = x).card) (fuel : ℕ) :
    adaptiveBuild fuel Source.pos r (sources R N 32) max = .error .fuel := by
  rw [← mult_eq] at hx
  exact (C12_diverges Source.pos r (sources R N 32) max x hx fuel).1

theorem tree_diverges {S : List (Source 2)} {max p : ℕ} {eps : ℝ} {r : Box 2} {fuel : ℕ} (h1 : expansionOrder (totalStrength S) eps = .ok p)
    (hr : rootBox (S.map Source.pos) = some r) (hd : adaptiveBuild fuel Source.pos r S max = .error .fuel) (sch : ℕ → List Path → List Path)
    (t : BinomialTable) : adaptiveFmm kit2 fuel sch t S max eps = .error .fuel := by
  unfold adaptiveFmm adaptiveInit
  rw [h1, ok_bind, hr]
  dsimp only
  unfold adaptiveLists
  rw [hd, err_bind, err_bind, err_bind]

theorem order_exists {A : ℝ} (h1 : 5 < A) (h2 : A ≤ 10000) : ∃ p, expansionOrder A 10 = .ok p := by
  have : (2 : ℝ) ^ 10 ≤ 2 ^ (2 ^ 32 - 1) := pow_le_pow_right₀ (by norm_num) (by norm_num)
  obtain ⟨p, h, -⟩ := C24_order A 10 (by norm_num) (by linarith) (by linarith)
  exact ⟨p, h⟩

/-- **C99** If a point is drawn more than 50 times the program never prints anything. -/
theorem C99_never_ends {R : ℕ → ℝ} (hR : ∀ n, R n ∈ Set.Icc (0 : ℝ) 1) (hA : 5 < total R 10000) (x : Vec 2)
    (hx : 50 < ((Finset.range 10000).filter fun i => pt R 32 i = x).card) (fuel : ℕ) (sch : ℕ → List Path → List Path) : main fuel sch R = .error .fuel := by
  have hA1 : total R 10000 ≤ 10000 := by exact_mod_cast total_le hR 10000
  obtain ⟨p, h1⟩ := order_exists hA hA1
  obtain ⟨q, l, hl⟩ := sources_cons R (N := 10000) (by norm_num) 32
  obtain ⟨r, lo, hi, E, hr, -⟩ := rootBox_spec ((sources R 10000 32).map Source.pos) (by rw [hl]; simp)
  have hd := build_diverges r hx fuel
  have := tree_diverges (by rw [totalStrength_eq, total_eq]; exact h1) hr hd sch BinomialTable.init
  unfold main
  dsimp only
  rw [this, err_bind]

/-! ## Non-vacuity -/

/-- Random numbers: source `i` at `(i/9999, i/9999)` of the square, strength `q`. -/
noncomputable def exR (q : ℝ) (n : ℕ) : ℝ := if n % 3 = 2 then q else min 1 ((n / 3 : ℕ) / 9999)

theorem exR_mem {q : ℝ} (hq : q ∈ Set.Icc (0 : ℝ) 1) (n : ℕ) : exR q n ∈ Set.Icc (0 : ℝ) 1 := by
  unfold exR
  by_cases h : n % 3 = 2
  · rw [if_pos h]; exact hq
  · rw [if_neg h]; exact ⟨le_min zero_le_one (by positivity), min_le_left _ _⟩

theorem exR_pos (q : ℝ) {i : ℕ} (hi : i < 10000) : exR q (3 * i) = i / 9999 ∧ exR q (3 * i + 1) = i / 9999 ∧ exR q (3 * i + 2) = q := by
  have h : (i : ℝ) / 9999 ≤ 1 := by
    rw [div_le_one (by norm_num)]
    have : i ≤ 9999 := by omega
    exact_mod_cast this
  unfold exR
  rw [if_neg (by omega), if_neg (by omega), if_pos (by omega), show 3 * i / 3 = i by omega, show (3 * i + 1) / 3 = i by omega, min_eq_right h]
  exact ⟨rfl, rfl, rfl⟩

theorem exR_total {q : ℝ} (hq : 0 ≤ q) : total (exR q) 10000 = 10000 * q := by
  unfold total
  rw [Finset.sum_congr rfl (g := fun _ => q) fun i hi => by rw [(exR_pos q (Finset.mem_range.mp hi)).2.2, abs_of_nonneg hq]]
  simp

theorem exR_straddles (q : ℝ) : Straddles (exR q) 10000 := by
  refine ⟨⟨0, by norm_num, ?_⟩, ⟨9999, by norm_num, ?_⟩, ⟨0, by norm_num, ?_⟩, ⟨9999, by norm_num, ?_⟩⟩
  · rw [(exR_pos q (by norm_num)).1]; norm_num
  · rw [(exR_pos q (by norm_num)).1]; norm_num
  · rw [(exR_pos q (by norm_num)).2.1]; norm_num
  · rw [(exR_pos q (by norm_num)).2.1]; norm_num

theorem exR_mult (q : ℝ) : Mult (exR q) 10000 50 := by
  intro x
  refine le_trans (Finset.card_le_one.mpr fun i hi k hk => ?_) (by norm_num : 1 ≤ 50)
  obtain ⟨i1, i2⟩ := Finset.mem_filter.mp hi
  obtain ⟨k1, k2⟩ := Finset.mem_filter.mp hk
  have e : pt (exR q) 32 i 0 = pt (exR q) 32 k 0 := by rw [i2, k2]
  simp only [pt, Matrix.cons_val_zero, (exR_pos q (Finset.mem_range.mp i1)).1, (exR_pos q (Finset.mem_range.mp k1)).1] at e
  have : (i : ℝ) = k := by linarith
  exact_mod_cast this

/-- Runs that print something. -/
example : (∃ fuel0 a b, (∀ fuel ≥ fuel0, main fuel (fun _ l => l.reverse) (exR 1) = .ok (a, b)) ∧ |a - b| ≤ 317) ∧
    ∃ fuel0 a b, (∀ fuel ≥ fuel0, main fuel (fun _ l => l.reverse) (exR (1 / 500)) = .ok (a, b)) ∧ |a - b| ≤ 18 := by
  constructor
  · obtain ⟨f, a, b, h1, -, h3, h4⟩ := C99_prints (exR_mem (by simp)) (exR_straddles 1) (exR_mult 1)
      (by rw [exR_total zero_le_one]; norm_num)
    exact ⟨f, a, b, fun fuel hf => h1 fuel hf _ fun _ l => List.reverse_perm l, h3.trans h4⟩
  · obtain ⟨f, a, b, h1, -, h3⟩ := C99_prints_order_one (exR_straddles (1 / 500)) (exR_mult _)
      (by rw [exR_total (by norm_num)]; norm_num) (by rw [exR_total (by norm_num)]; norm_num)
    refine ⟨f, a, b, fun fuel hf => h1 fuel hf _ fun _ l => List.reverse_perm l, h3.trans ?_⟩
    rw [exR_total (by norm_num)]; norm_num

/-- A run that is terminated by an assertion: all strengths 1/1000. -/
example : ∃ fuel0, ∀ fuel ≥ fuel0, main fuel (fun _ l => l.reverse) (exR (1 / 1000)) = .error .assertFail := by
  obtain ⟨f, h⟩ := C99_order_zero (exR_straddles (1 / 1000)) (exR_mult _)
      (by rw [exR_total (by norm_num)]; norm_num) (by rw [exR_total (by norm_num)]; norm_num)
  exact ⟨f, fun fuel hf => h fuel hf _ fun _ l => List.reverse_perm l⟩

/-- All random numbers zero. -/
example (fuel : ℕ) : main fuel (fun _ l => l) (fun _ => 0) = .error .ub := C99_weak (by simp [total]) fuel _

/-- All random numbers one: all sources at the corner of the square. -/
example (fuel : ℕ) : main fuel (fun _ l => l) (fun _ => 1) = .error .fuel :=
  C99_never_ends (fun _ => by simp) (by simp [total]; norm_num) ![16, 16] (by
    have : ∀ i, pt (fun _ => 1) 32 i = ![16, 16] := fun i => by unfold pt; norm_num
    simp only [this, Finset.filter_true, Finset.card_range]
    norm_num) fuel _

end FMM.Minimal
