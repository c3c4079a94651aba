import Verif.PropsAccuracy
import Mathlib.Analysis.SpecialFunctions.Complex.LogBounds

/-!
# C41: how far the accuracy can be from `eps`

The error of the witnesses is about the square root of `eps`, as the bound that leads to `C41_squared_partial` allows.
-/

namespace FMM
open Finset

/-! ## The terms kept by the conversion -/

/-- All pairs of degrees up to `p + 1` are taken into account, except three. -/
theorem pairs_triangle {p : ℕ} (hp : 2 ≤ p) (f : ℕ × ℕ → ℂ) :
    ∑ m ∈ m2lPairs p p, f m = ∑ n ∈ range (p + 2), ∑ m ∈ antidiagonal n, f m - (f (0, p + 1) + f (p + 1, 0) + f (1, p)) := by
  set F := ((range (p + 2)) ×ˢ (range (p + 2))).filter fun m => m.1 + m.2 < p + 2 with hF
  have h1 : ∑ n ∈ range (p + 2), ∑ m ∈ antidiagonal n, f m = ∑ m ∈ F, f m := by
    rw [← sum_fiberwise_of_maps_to (s := F) (t := range (p + 2)) (g := fun m => m.1 + m.2) (fun m hm => by
      simp [hF] at hm ⊢; omega)]
    refine sum_congr rfl fun n hn => sum_congr ?_ fun _ _ => rfl
    ext ⟨i, j⟩
    simp [hF] at hn ⊢
    omega
  have h2 : F = insert (0, p + 1) (insert (p + 1, 0) (insert (1, p) (m2lPairs p p))) := by
    ext ⟨i, j⟩
    simp only [hF, m2lPairs, mem_filter, mem_product, mem_range, mem_insert, Prod.mk.injEq]
    omega
  rw [h1, h2, sum_insert, sum_insert, sum_insert]
  · ring
  all_goals
    simp only [m2lPairs, mem_filter, mem_product, mem_range, mem_insert, Prod.mk.injEq]
    omega

theorem antidiagonal_choose (n : ℕ) (z : ℂ) :
    ∑ m ∈ antidiagonal n, ((m.1 + m.2).choose m.1 : ℂ) / ((m.1 + m.2 : ℕ) : ℂ) * (z ^ m.1 * z ^ m.2) = (2 * z) ^ n / n := by
  have h : ∀ m ∈ antidiagonal n, ((m.1 + m.2).choose m.1 : ℂ) / ((m.1 + m.2 : ℕ) : ℂ) * (z ^ m.1 * z ^ m.2) = ((n.choose m.1 : ℕ) : ℂ) * (z ^ n / n) := by
    intro m hm
    rw [mem_antidiagonal] at hm
    rw [← pow_add, hm]
    ring
  rw [sum_congr rfl h, ← sum_mul, Nat.sum_antidiagonal_eq_sum_range_succ_mk]
  have : ∑ k ∈ range n.succ, ((n.choose k : ℕ) : ℂ) = 2 ^ n := by
    rw [← Nat.cast_sum, Nat.sum_range_choose]; push_cast; rfl
  simp only
  rw [this, mul_pow]
  ring

/-- The sum computed by the code for two points at `± z`, in units of the distance of the centres. -/
theorem kept_sum {p : ℕ} (hp : 2 ≤ p) (z : ℂ) :
    ∑ m ∈ m2lPairs p p, ((m.1 + m.2).choose m.1 : ℂ) / ((m.1 + m.2 : ℕ) : ℂ) * (z ^ m.1 * z ^ m.2)
      = ∑ n ∈ range (p + 2), (2 * z) ^ n / n - (p + 3) / (p + 1) * z ^ (p + 1) := by
  rw [pairs_triangle hp, sum_congr rfl fun n _ => antidiagonal_choose n z]
  congr 1
  have h : ((p : ℂ) + 1) ≠ 0 := by exact_mod_cast p.succ_ne_zero
  simp only [zero_add, add_zero, Nat.choose_zero_right, Nat.choose_self, pow_zero, one_mul, mul_one, pow_one, Nat.choose_one_right]
  rw [add_comm 1 p]
  push_cast
  field_simp
  ring

/-! ## The terms left out -/

theorem gauss_eight (n : ℕ) : gauss (n + 8) = (16 * (gauss n).1, 16 * (gauss n).2) := by
  simp only [gauss]
  ext <;> simp only <;> ring

theorem gauss_mul (j k : ℕ) : gauss (k + 8 * j) = (16 ^ j * (gauss k).1, 16 ^ j * (gauss k).2) := by
  induction j with
  | zero => simp
  | succ j ih =>
    rw [show k + 8 * (j + 1) = k + 8 * j + 8 by ring, gauss_eight, ih]
    ext <;> simp only <;> ring

/-- Eight consecutive terms. -/
theorem block_pos {b : ℝ} (hb : 0 < b) (hb' : b < 1 / 2) (j : ℕ) (hj : 1 ≤ j) :
    3 / 8 * ((16 * b ^ 8) ^ j / (8 * j)) ≤ ∑ k ∈ range 8, b ^ (k + 8 * j) * ((gauss (k + 8 * j)).1 : ℝ) / ((k + 8 * j : ℕ) : ℝ) := by
  have hj' : (1 : ℝ) ≤ j := by exact_mod_cast hj
  have hg : ∀ k, b ^ (k + 8 * j) * ((gauss (k + 8 * j)).1 : ℝ) / ((k + 8 * j : ℕ) : ℝ) = (16 * b ^ 8) ^ j * (b ^ k * ((gauss k).1 : ℝ) / (k + 8 * j)) := by
    intro k
    rw [gauss_mul, pow_add, pow_mul, mul_pow]
    push_cast
    ring
  rw [sum_congr rfl fun k _ => hg k, ← mul_sum]
  have hP : 0 < (16 * b ^ 8) ^ j := by positivity
  rw [mul_div_assoc', mul_comm (3 / 8 : ℝ), mul_div_assoc]
  refine mul_le_mul_of_nonneg_left ?_ hP.le
  have e : ∑ k ∈ range 8, (b ^ k * ((gauss k).1 : ℝ) / (k + 8 * j))
      = 1 / (8 * j) + b / (1 + 8 * j) - 2 * b ^ 3 / (3 + 8 * j) - 4 * b ^ 4 / (4 + 8 * j) - 4 * b ^ 5 / (5 + 8 * j) + 8 * b ^ 7 / (7 + 8 * j) := by
    simp [sum_range_succ, gauss]
    ring
  rw [e]
  have p3 : b ^ 3 ≤ 1 / 8 := by
    calc b ^ 3 ≤ (1 / 2) ^ 3 := pow_le_pow_left₀ hb.le hb'.le 3
      _ = _ := by norm_num
  have p4 : b ^ 4 ≤ 1 / 16 := by
    calc b ^ 4 ≤ (1 / 2) ^ 4 := pow_le_pow_left₀ hb.le hb'.le 4
      _ = _ := by norm_num
  have p5 : b ^ 5 ≤ 1 / 32 := by
    calc b ^ 5 ≤ (1 / 2) ^ 5 := pow_le_pow_left₀ hb.le hb'.le 5
      _ = _ := by norm_num
  have h3 : 2 * b ^ 3 / (3 + 8 * j) ≤ 1 / 4 / (8 * j) := div_le_div₀ (by norm_num) (by linarith) (by linarith) (by linarith)
  have h4 : 4 * b ^ 4 / (4 + 8 * j) ≤ 1 / 4 / (8 * j) := div_le_div₀ (by norm_num) (by linarith) (by linarith) (by linarith)
  have h5 : 4 * b ^ 5 / (5 + 8 * j) ≤ 1 / 8 / (8 * j) := div_le_div₀ (by norm_num) (by linarith) (by linarith) (by linarith)
  have h1 : 0 ≤ b / (1 + 8 * j) := by positivity
  have h7 : 0 ≤ 8 * b ^ 7 / (7 + 8 * j) := by positivity
  have hs : 3 / 8 / (8 * (j : ℝ)) = 1 / (8 * j) - 1 / 4 / (8 * j) - 1 / 4 / (8 * j) - 1 / 8 / (8 * j) := by ring
  rw [hs]
  linarith

/-- The real part of the tail of the logarithmic series on the diagonal. -/
theorem tail_ge {b : ℝ} (hb : 0 < b) (hb' : b < 1 / 2) {J : ℕ} (hJ : 1 ≤ J) :
    3 / 8 * ((16 * b ^ 8) ^ J / (8 * J)) ≤ (-Complex.log (1 - ⟨b, b⟩)).re - (∑ n ∈ range (8 * J), (⟨b, b⟩ : ℂ) ^ n / n).re := by
  have hn : ‖(⟨b, b⟩ : ℂ)‖ < 1 := by
    rw [Complex.norm_def, Real.sqrt_lt' one_pos, Complex.normSq_mk]
    nlinarith
  have hs := (Complex.hasSum_taylorSeries_neg_log hn).tendsto_sum_nat
  have hre := (Complex.continuous_re.tendsto _).comp hs
  have hsub : Filter.Tendsto (fun K : ℕ => 8 * J + 8 * K) Filter.atTop Filter.atTop :=
    Filter.tendsto_atTop_mono (fun K => by simp only [id]; omega) Filter.tendsto_id
  have hlim := hre.comp hsub
  refine le_sub_iff_add_le.mpr (ge_of_tendsto hlim (Filter.eventually_atTop.mpr ⟨1, fun K hK => ?_⟩))
  simp only [Function.comp_apply]
  have term : ∀ n : ℕ, ((⟨b, b⟩ : ℂ) ^ n / n).re = b ^ n * ((gauss n).1 : ℝ) / n := fun n => by
    rw [gauss_pow, ← Complex.ofReal_natCast, Complex.div_ofReal_re]
  rw [Complex.re_sum, Complex.re_sum, sum_congr rfl fun n _ => term n, sum_congr rfl fun n _ => term n]
  have key : ∀ K : ℕ, 1 ≤ K → 3 / 8 * ((16 * b ^ 8) ^ J / (8 * J)) + ∑ n ∈ range (8 * J), b ^ n * ((gauss n).1 : ℝ) / n
      ≤ ∑ n ∈ range (8 * J + 8 * K), b ^ n * ((gauss n).1 : ℝ) / n := by
    intro K hK
    induction K, hK using Nat.le_induction with
    | base =>
      rw [sum_range_add, add_comm]
      have := block_pos hb hb' J hJ
      simp only [add_comm (8 * J)]
      linarith
    | succ K hK ih =>
      rw [show 8 * J + 8 * (K + 1) = 8 * (J + K) + 8 by ring, sum_range_add]
      have := block_pos hb hb' (J + K) (by omega)
      have h0 : 0 ≤ 3 / 8 * ((16 * b ^ 8) ^ (J + K) / (8 * ((J + K : ℕ) : ℝ))) := by positivity
      simp only [add_comm (8 * (J + K))]
      rw [show 8 * J + 8 * K = 8 * (J + K) by ring] at ih
      linarith
  exact key K hK

/-! ## The witnesses -/

/-- A source of strength 1 in the leaf `[0, 1/2) × [-1/2, 0)`, at the distance `1/4 - g` from two of its sides. -/
noncomputable def uG (g : ℝ) : Source 2 := ⟨![1 / 4 - g, -(1 / 4) - g], 1⟩

/-- The source and four sources of strength zero that span the root box. -/
noncomputable def SG (g : ℝ) : List (Source 2) :=
  [⟨![k41, k41], 0⟩, ⟨![-k41, k41], 0⟩, ⟨![k41, -k41], 0⟩, ⟨![-k41, -k41], 0⟩, uG g]

/-- The point of the leaf `[-1, -1/2) × [-1/2, 0)` opposite to the source. -/
noncomputable def xG (g : ℝ) : Vec 2 := ![-(3 / 4) + g, -(1 / 4) + g]

theorem orth2 (c x : Vec 2) : getOrthant c x = (if c 0 ≤ x 0 then 1 else 0) <<< 1 ||| (if c 1 ≤ x 1 then 1 else 0) := by
  simp [getOrthant, List.finRange]

section
variable {g : ℝ} (h0 : 0 < g) (h1 : g < 1 / 4)
include h0 h1

theorem SG_box : rootBox ((SG g).map Source.pos) = some box41 := by
  have h := rootBox_eq ((SG g).map Source.pos) (fun _ => -k41) (fun _ => k41) (2 * k41) ?_ ?_ ?_ ?_
  · rw [h]
    unfold box41
    congr 2
    · funext i; simp
    · norm_num [k41, paddingFactor]
  · intro i
    constructor
    · exact ⟨![-k41, -k41], by simp [SG], by fin_cases i <;> rfl⟩
    · intro p hp
      simp [SG] at hp
      rcases hp with rfl | rfl | rfl | rfl | rfl <;> fin_cases i <;> norm_num [k41, uG] <;> linarith
  · intro i
    constructor
    · exact ⟨![k41, k41], by simp [SG], by fin_cases i <;> rfl⟩
    · intro p hp
      simp [SG] at hp
      rcases hp with rfl | rfl | rfl | rfl | rfl <;> fin_cases i <;> norm_num [k41, uG] <;> linarith
  · intro i; linarith
  · exact ⟨0, by ring⟩

theorem SG_inside : ∀ s ∈ SG g, box41.containsHO s.pos := by
  intro s hs
  simp [SG] at hs
  rcases hs with rfl | rfl | rfl | rfl | rfl <;> intro i <;> rw [Box.lower_apply, Box.upper_apply] <;>
    fin_cases i <;> norm_num [box41, k41, uG] <;> constructor <;> linarith

theorem xG_inside : box41.containsHO (xG g) := by
  intro i; rw [Box.lower_apply, Box.upper_apply]
  fin_cases i <;> norm_num [box41, xG] <;> constructor <;> linarith

theorem SG_balanced : BalancedInput (SG g) 1 box41 2 := ⟨SG_box h0 h1, SG_inside h0 h1, height5, by norm_num⟩

theorem route_xG : route box41 (xG g) 2 = [1, 0] := by
  have a1 : route box41 (xG g) 1 = [0] := by
    simp only [route, boxAt]
    rw [orth2, if_neg, if_neg]
    · rfl
    · simp [box41, xG]; linarith
    · simp [box41, xG]; linarith
  rw [route, a1]
  simp only [boxAt]
  rw [orth2, if_neg, if_pos]
  · rfl
  · norm_num [box41, xG, Box.child, childDir, tb21, tb11]; linarith
  · norm_num [box41, xG, Box.child, childDir, tb21, tb11]; linarith

theorem route_uG : route box41 (uG g).pos 2 = [1, 2] := by
  have a1 : route box41 (uG g).pos 1 = [2] := by
    simp only [route, boxAt]
    rw [orth2, if_pos, if_neg]
    · rfl
    · simp [box41, uG]; linarith
    · simp [box41, uG]; linarith
  rw [route, a1]
  simp only [boxAt]
  rw [orth2, if_neg, if_pos]
  · rfl
  · norm_num [box41, uG, Box.child, childDir, tb21, tb11]; linarith
  · norm_num [box41, uG, Box.child, childDir, tb21, tb11]; linarith
end

theorem SG_strength (g : ℝ) : totalStrength (SG g) = 1 := by
  rw [totalStrength_eq]; simp [SG, uG]

theorem order_pow (p : ℕ) (hp : p ≤ 1029) : expansionOrder 1 (1 / 2 ^ p) = .ok p := by
  have hpos : (0 : ℝ) < 2 ^ p := by positivity
  refine order_eq 1 _ p (by positivity) ?_ ?_ ?_ (by omega)
  · have : (1 : ℝ) / 2 ^ p ≤ 1 := by
      rw [div_le_one hpos]; exact one_le_pow₀ (by norm_num)
    linarith
  · rw [mul_one_div, div_self hpos.ne']
  · intro q hq
    rw [mul_one_div, div_lt_one hpos]
    exact pow_lt_pow_right₀ (by norm_num) hq

/-- What the expansions contribute. -/
theorem m2lValG {p : ℕ} (hp : 2 ≤ p) (g : ℝ) : m2lVal p ![-(3 / 4), -(1 / 4)] ![1 / 4, -(1 / 4)] (uG g) (xG g)
    = -(∑ n ∈ range (p + 2), (⟨2 * g, 2 * g⟩ : ℂ) ^ n / n).re + (((p : ℂ) + 3) / (p + 1) * (⟨g, g⟩ : ℂ) ^ (p + 1)).re := by
  unfold m2lVal
  have hz : toC ![1 / 4, -(1 / 4)] - toC ![-(3 / 4), -(1 / 4)] = 1 := by
    apply Complex.ext <;> norm_num [toC]
  rw [hz, m2l_leSum _ _ _ _ _ _ one_ne_zero]
  have hy : toC (xG g) - toC ![-(3 / 4), -(1 / 4)] = ⟨g, g⟩ := by
    apply Complex.ext <;> simp [toC, xG]
  have hu : -(toC (uG g).pos - toC ![1 / 4, -(1 / 4)]) = ⟨g, g⟩ := by
    apply Complex.ext <;> simp [toC, uG]
  rw [hy, hu, div_one]
  have hq : (((uG g).q : ℝ) : ℂ) = 1 := by simp [uG]
  have h2 : (2 : ℂ) * ⟨g, g⟩ = ⟨2 * g, 2 * g⟩ := by
    apply Complex.ext <;> simp
  rw [hq, one_mul, Complex.sub_re, Complex.log_re, norm_neg, norm_one, Real.log_one, zero_sub, kept_sum hp, Complex.sub_re, h2]
  ring

theorem zero_exact {p : ℕ} {r : Box 2} {x : Vec 2} {s : Source 2} (hs : s.q = 0) : exactTerm p r x s = 0 := by
  unfold exactTerm
  split
  · unfold directTerm kernelSpec
    rw [hs]; simp
  · unfold m2lVal
    have : meCoeff (toC (boxAt r (route r s.pos 2)).center) [s] = fun _ => 0 := by
      funext k; simp [meCoeff, hs]
    rw [this]
    simp [leSum, Exp2.m2lCoeff]

theorem exactG {p : ℕ} (hp : 2 ≤ p) {g : ℝ} (h0 : 0 < g) (h1 : g < 1 / 4) : ((SG g).map (exactTerm p box41 (xG g))).sum
    = -(∑ n ∈ range (p + 2), (⟨2 * g, 2 * g⟩ : ℂ) ^ n / n).re + (((p : ℂ) + 3) / (p + 1) * (⟨g, g⟩ : ℂ) ^ (p + 1)).re := by
  unfold SG
  simp only [List.map_cons, List.map_nil, List.sum_cons, List.sum_nil]
  rw [zero_exact rfl, zero_exact rfl, zero_exact rfl, zero_exact rfl]
  unfold exactTerm
  rw [route_xG h0 h1, route_uG h0 h1, if_neg not_adj41, center_x41, center_u41, m2lValG hp]
  ring

theorem directG {g : ℝ} (h0 : 0 < g) (h1 : g < 1 / 4) : directPotential true (SG g) (xG g) = (Complex.log (1 - ⟨2 * g, 2 * g⟩)).re := by
  have hz : ∀ s : Source 2, s.q = 0 → directTerm true (xG g) s = 0 := by
    intro s hs
    unfold directTerm kernelSpec
    rw [hs]; simp
  unfold directPotential SG
  simp only [List.map_cons, List.map_nil, List.sum_cons, List.sum_nil]
  rw [hz _ rfl, hz _ rfl, hz _ rfl, hz _ rfl]
  unfold directTerm
  rw [if_neg]
  · have hd : dist2 (uG g).pos (xG g) = ‖(1 - ⟨2 * g, 2 * g⟩ : ℂ)‖ := by
      rw [Complex.norm_def]
      unfold dist2
      congr 1
      simp [Fin.sum_univ_two, uG, xG, Complex.normSq_apply]
      ring
    rw [hd, Complex.log_re]
    simp [kernelSpec, sgn, uG]
  · intro h
    have := congrFun h 0
    simp [uG, xG] at this
    linarith

/-- The error of the witness. -/
theorem errorG {m : ℕ} {g : ℝ} (h0 : 0 < g) (h1 : g < 1 / 4) :
    3 / 8 * ((16 * (2 * g) ^ 8) ^ (m + 1) / (8 * ((m + 1 : ℕ) : ℝ)))
      ≤ ((SG g).map (exactTerm (8 * m + 6) box41 (xG g))).sum - directPotential true (SG g) (xG g) := by
  rw [exactG (by omega) h0 h1, directG h0 h1]
  have ht := tail_ge (b := 2 * g) (by linarith) (by linarith) (J := m + 1) (by omega)
  have hk : 0 ≤ ((((8 * m + 6 : ℕ) : ℂ) + 3) / (((8 * m + 6 : ℕ) : ℂ) + 1) * (⟨g, g⟩ : ℂ) ^ (8 * m + 6 + 1)).re := by
    have e : (((8 * m + 6 : ℕ) : ℂ) + 3) / (((8 * m + 6 : ℕ) : ℂ) + 1) = ((((8 * m + 6 : ℕ) : ℝ) + 3) / (((8 * m + 6 : ℕ) : ℝ) + 1) : ℝ) := by
      push_cast; rfl
    rw [e, Complex.re_ofReal_mul, gauss_pow, show 8 * m + 6 + 1 = 7 + 8 * m by ring, gauss_mul]
    simp only [gauss]
    push_cast
    positivity
  rw [show 8 * m + 6 + 2 = 8 * (m + 1) by ring]
  rw [Complex.neg_re] at ht
  linarith

/-- The displacement for which the error is compared with the square root of `eps`. -/
theorem gap_sharp (m : ℕ) : ∃ g : ℝ, 0 < g ∧ g < 1 / 4 ∧ Real.sqrt (1 / 2 ^ (8 * m + 6)) / (6 * (((8 * m + 6 : ℕ) : ℝ) + 2))
    < ((SG g).map (exactTerm (8 * m + 6) box41 (xG g))).sum - directPotential true (SG g) (xG g) := by
  set N : ℝ := 8 * ((m + 1 : ℕ) : ℝ) with hN
  have hN8 : 8 ≤ N := by rw [hN]; push_cast; linarith [(Nat.cast_nonneg m : (0 : ℝ) ≤ m)]
  set g : ℝ := 1 / 4 * (1 - 1 / (16 * N)) with hg
  have hsmall : 1 / (16 * N) ≤ 1 / 128 := one_div_le_one_div_of_le (by norm_num) (by linarith)
  have hpos : 0 < 1 / (16 * N) := by positivity
  have h0 : 0 < g := by rw [hg]; linarith
  have h1 : g < 1 / 4 := by rw [hg]; linarith
  refine ⟨g, h0, h1, lt_of_lt_of_le ?_ (errorG (m := m) h0 h1)⟩
  have hs : Real.sqrt (1 / 2 ^ (8 * m + 6)) = 1 / 2 ^ (4 * m + 3) := by
    rw [show (1 / 2 ^ (8 * m + 6) : ℝ) = (1 / 2 ^ (4 * m + 3)) ^ 2 by rw [div_pow, ← pow_mul, one_pow]; congr 2; ring]
    exact Real.sqrt_sq (by positivity)
  have hb : (16 * (2 * g) ^ 8) ^ (m + 1) = 1 / 2 ^ (4 * m + 4) * (1 - 1 / (16 * N)) ^ (8 * (m + 1)) := by
    rw [hg, show (2 : ℝ) * (1 / 4 * (1 - 1 / (16 * N))) = 1 / 2 * (1 - 1 / (16 * N)) by ring, mul_pow (1 / 2 : ℝ), ← mul_assoc, mul_pow, ← pow_mul]
    congr 1
    rw [show 4 * m + 4 = 4 * (m + 1) by ring, pow_mul, ← one_div_pow]
    norm_num
  have hB : 15 / 16 ≤ (1 - 1 / (16 * N)) ^ (8 * (m + 1)) := by
    have := one_add_mul_le_pow (show (-2 : ℝ) ≤ -(1 / (16 * N)) by linarith) (8 * (m + 1))
    have e : 1 + ((8 * (m + 1) : ℕ) : ℝ) * -(1 / (16 * N)) = 15 / 16 := by
      have : ((8 * (m + 1) : ℕ) : ℝ) = N := by rw [hN]; push_cast; ring
      rw [this]
      field_simp
      norm_num
    rw [e] at this
    exact this
  have hN2 : (((8 * m + 6 : ℕ) : ℝ) + 2) = N := by rw [hN]; push_cast; ring
  rw [hs, hb, hN2, ← hN, show (2 : ℝ) ^ (4 * m + 4) = 2 * 2 ^ (4 * m + 3) by ring]
  have hD : (0 : ℝ) < 1 / 2 ^ (4 * m + 3) := by positivity
  have hNp : 0 < N := by linarith
  rw [show (1 / 2 ^ (4 * m + 3) / (6 * N) : ℝ) = 1 / 2 ^ (4 * m + 3) / N * (1 / 6) by field_simp,
    show 3 / 8 * (1 / (2 * 2 ^ (4 * m + 3)) * (1 - 1 / (16 * N)) ^ (8 * (m + 1)) / N) = 1 / 2 ^ (4 * m + 3) / N * (3 / 16 * (1 - 1 / (16 * N)) ^ (8 * (m + 1))) by
      field_simp; norm_num]
  refine mul_lt_mul_of_pos_left ?_ (div_pos hD hNp)
  linarith

/-- **C41** The square root is sharp: for every `m` with `p = 8 m + 6 ≤ 1029` there is a balanced tree over five sources of total
strength 1, built in a fresh program with `eps = 2⁻ᵖ`, that returns a potential off by more than `√eps / (6 (p + 2))`, whatever the
schedule of the parallel loops. -/
theorem C41_sharp (m : ℕ) (hm : 8 * m + 6 ≤ 1029) : ∃ (S : List (Source 2)) (r : Box 2) (x : Vec 2),
    (S.map fun s => |s.q|).sum = 1 ∧ rootBox (S.map Source.pos) = some r ∧ r.containsHO x ∧ (∀ s ∈ S, r.containsHO s.pos) ∧
    ∃ (fuel0 : ℕ) (T : BalancedFmm kit2) (v : ℝ),
      (∀ fuel ≥ fuel0, ∀ sch, Schedule sch → balancedFmm kit2 fuel sch BinomialTable.init S 1 (1 / 2 ^ (8 * m + 6)) = .ok T) ∧
      balancedEval pot2 true T x = .ok v ∧
      Real.sqrt (1 / 2 ^ (8 * m + 6)) / (6 * (((8 * m + 6 : ℕ) : ℝ) + 2)) < |v - directPotential true S x| := by
  obtain ⟨g, h0, h1, h2⟩ := gap_sharp m
  obtain ⟨f, T, a1, a2⟩ := balanced_two_exact (t := BinomialTable.init) (p := 8 * m + 6) (eps := 1 / 2 ^ (8 * m + 6)) ⟨reachable_init.good, by simp [BinomialTable.init]⟩ (by omega)
    hm (SG_balanced h0 h1) (by norm_num [box41]) (by rw [SG_strength]; exact order_pow _ hm)
  exact ⟨SG g, box41, xG g, by rw [← totalStrength_eq]; exact SG_strength g, SG_box h0 h1, xG_inside h0 h1, SG_inside h0 h1, f, T, _, a1, a2 _ (xG_inside h0 h1),
    h2.trans_le (le_abs_self _)⟩

/-- **C41** Expressed as a factor: there is a tree whose potential is off by more than `2⁴⁹⁷` times the parameter `eps`. -/
theorem C41_factor : ∃ (S : List (Source 2)) (r : Box 2) (x : Vec 2) (eps : ℝ), 0 < eps ∧
    (S.map fun s => |s.q|).sum = 1 ∧ rootBox (S.map Source.pos) = some r ∧ r.containsHO x ∧ (∀ s ∈ S, r.containsHO s.pos) ∧
    ∃ (fuel0 : ℕ) (T : BalancedFmm kit2) (v : ℝ),
      (∀ fuel ≥ fuel0, ∀ sch, Schedule sch → balancedFmm kit2 fuel sch BinomialTable.init S 1 eps = .ok T) ∧
      balancedEval pot2 true T x = .ok v ∧ 2 ^ 497 * eps < |v - directPotential true S x| := by
  obtain ⟨S, r, x, a1, a2, a3, a4, f, T, v, b1, b2, b3⟩ := C41_sharp 127 (by norm_num)
  refine ⟨S, r, x, _, by positivity, a1, a2, a3, a4, f, T, v, b1, b2, lt_of_le_of_lt ?_ b3⟩
  rw [show (1 / 2 ^ (8 * 127 + 6) : ℝ) = (1 / 2 ^ 511) ^ 2 by rw [div_pow, ← pow_mul, one_pow], Real.sqrt_sq (by positivity), le_div_iff₀ (by norm_num)]
  rw [show (1 / 2 ^ 511 : ℝ) = 1 / (2 ^ 497 * 2 ^ 14) by rw [← pow_add]]
  have hk : (0 : ℝ) < 2 ^ 497 := by positivity
  generalize (2 : ℝ) ^ 497 = k at hk
  have hk' : 0 < 1 / k := by positivity
  rw [show k * (1 / (k * 2 ^ 14)) ^ 2 * (6 * (((8 * 127 + 6 : ℕ) : ℝ) + 2)) = 1 / k * (6144 / 2 ^ 28) by push_cast; field_simp; norm_num,
    show 1 / (k * 2 ^ 14) = 1 / k * (1 / 2 ^ 14) by field_simp]
  exact mul_le_mul_of_nonneg_left (by norm_num) hk'.le

end FMM
