import Verif.DoubleLemmas
import Verif.PropsFltDirect
import Verif.PropsFltDirect3

/-!
# Property C95: the exponents of `double` in the direct sums
-/

namespace FMM.D64
open FMM Rounded

/-- **C95** For moderate charges and coordinate differences the potential of the direct sum in binary64 is the one of the model with unbounded exponents. -/
theorem C95_potential_2d (grav : Bool) (S : List (Source 2)) (x : Vec 2) (hS : Sane S x) (hN : S.length ≤ 2 ^ 50) :
    ∃ v, potentialSum2 grav true S x = .fin v ∧ Fl.potentialSum Flt.ieee grav true S x = .ok v :=
  sum_same _ _ S (fun s hs => potential2_same grav s x (hS s hs).1 (hS s hs).2) 0 (by omega) 0 Partial.zero

theorem C95_potential_3d (grav : Bool) (S : List (Source 3)) (x : Vec 3) (hS : Sane S x) (hN : S.length ≤ 2 ^ 50) :
    ∃ v, potentialSum3 grav true S x = .fin v ∧ Fl3.potentialSum Flt3.ieee grav true S x = .ok v :=
  sum_same _ _ S (fun s hs => potential3_same grav s x (hS s hs).1 (hS s hs).2) 0 (by omega) 0 Partial.zero

/-- **C95** The same for the force. -/
theorem C95_force_2d (grav : Bool) (S : List (Source 2)) (x : Vec 2) {eps : ℝ} (he : 0 ≤ eps) (he' : eps ≤ 2 ^ (200 : ℤ)) (hS : Sane S x)
    (hN : S.length ≤ 2 ^ 50) :
    ∃ v : Vec 2, (forcefieldSum2 grav true S x eps = fun j => .fin (v j)) ∧ Fl.forcefieldSum Flt.ieee grav true S x eps = .ok v :=
  vsum_same (F := Flt.ieee) rfl _ _ S (fun s hs => forcefield2_same grav s x he he' (hS s hs).1 (hS s hs).2) 0 (by omega) (Vec.fill 0)
    fun _ => Partial.zero

theorem C95_force_3d (grav : Bool) (S : List (Source 3)) (x : Vec 3) {eps : ℝ} (he : 0 ≤ eps) (he' : eps ≤ 2 ^ (200 : ℤ)) (hS : Sane S x)
    (hN : S.length ≤ 2 ^ 50) :
    ∃ v : Vec 3, (forcefieldSum3 grav true S x eps = fun j => .fin (v j)) ∧ Fl3.forcefieldSum Flt3.ieee grav true S x eps = .ok v :=
  vsum_same (F := Flt3.ieee.toFlt) rfl _ _ S (fun s hs => forcefield3_same grav s x he he' (hS s hs).1 (hS s hs).2) 0 (by omega) (Vec.fill 0)
    fun _ => Partial.zero

/-- **C95** Hence the error bounds hold for binary64 itself: at most a billion sources, potential within `10^-5` of the sum of the moduli. -/
theorem C95_error_2d (grav : Bool) (S : List (Source 2)) (x : Vec 2) (hS : Sane S x) (hN : S.length ≤ 10 ^ 9) :
    ∃ v, potentialSum2 grav true S x = .fin v ∧ |v - directPotential grav S x| ≤ 1 / 10 ^ 5 * absPotential S x := by
  obtain ⟨v, h1, h2⟩ := C95_potential_2d grav S x hS (hN.trans (by norm_num))
  obtain ⟨w, g1, g2⟩ := C73_double grav S x hN
  rw [h2] at g1
  cases g1
  exact ⟨v, h1, g2⟩

theorem C95_error_3d (grav : Bool) (S : List (Source 3)) (x : Vec 3) (hS : Sane S x) (hN : S.length ≤ 10 ^ 9) :
    ∃ v, potentialSum3 grav true S x = .fin v ∧ |v - directPotential grav S x| ≤ 1 / 10 ^ 5 * absPotential3 S x := by
  obtain ⟨v, h1, h2⟩ := C95_potential_3d grav S x hS (hN.trans (by norm_num))
  obtain ⟨w, g1, g2⟩ := C81_double grav S x hN
  rw [h2] at g1
  cases g1
  exact ⟨v, h1, g2⟩

/-- **C95** Two dimensions, very close points: the square of the distance underflows, and distinct points are treated as coincident. -/
theorem C95_close_2d (grav : Bool) (s : Source 2) (x : Vec 2) (eps : ℝ) (h : ∀ j, |s.pos j - x j| ≤ 2 ^ (-538 : ℤ)) :
    forcefield2 grav true s x eps = vzero 2 := by
  have key : ∀ j, mul (vsub s.pos x j) (vsub s.pos x j) = .fin 0 := by
    intro j
    obtain ⟨y, h1, h2⟩ := rnd64_le (h j) (by norm_num) (by norm_num)
    have e : vsub s.pos x j = .fin y := h1
    rw [e]
    refine rnd64_tiny ?_
    rw [abs_mul]
    refine (mul_le_mul h2 h2 (abs_nonneg _) (two_pow_pos _).le).trans_lt ?_
    rw [← zpow_add₀ (by norm_num)]
    exact zpow_lt_zpow_right₀ (by norm_num) (by norm_num)
  have e : normSq (vsub s.pos x) = .fin 0 := by
    unfold normSq
    rw [key, key]
    show rnd64 (0 + 0) = _
    rw [add_zero, rnd64_zero]
  unfold forcefield2
  simp only [e, isZero, decide_true, Bool.and_self, if_true]

/-- **C95** Two dimensions, very distant points: the square of the distance overflows; the force is not small but exactly zero, or NaN where the
coordinate difference itself overflows. -/
theorem C95_distant_2d (grav safe : Bool) (s : Source 2) (x : Vec 2) (eps : ℝ) (j : Fin 2) (h : (2 : ℝ) ^ (512 : ℤ) ≤ |s.pos j - x j|) (k : Fin 2) :
    forcefield2 grav safe s x eps k = .fin 0 ∨ forcefield2 grav safe s x eps k = .nan := by
  have hj : mul (vsub s.pos x j) (vsub s.pos x j) = .inf false := by
    rcases rnd64_ge h (by norm_num) with h1 | ⟨y, h1, h2⟩
    · have : vsub s.pos x j = .inf (decide (s.pos j - x j < 0)) := h1
      rw [this]
      show Dbl.inf (xor _ _) = _
      rw [Bool.xor_self]
    · have e : vsub s.pos x j = .fin y := h1
      rw [e]
      have : rnd64 (y * y) = .inf (decide (y * y < 0)) := by
        refine rnd64_huge ?_
        rw [abs_mul, show (1024 : ℤ) = 512 + 512 by norm_num, zpow_add₀ (by norm_num)]
        exact mul_le_mul h2 h2 (two_pow_pos _).le (abs_nonneg _)
      show rnd64 (y * y) = _
      rw [this]
      simp [not_lt.mpr (mul_self_nonneg y)]
  have e : normSq (vsub s.pos x) = .inf false := by
    unfold normSq
    match j, hj with
    | 0, hj =>
      rw [hj]
      rcases sq_diff s x 1 with h1 | ⟨y, h1⟩ <;> rw [h1] <;> rfl
    | 1, hj =>
      rw [hj]
      rcases sq_diff s x 0 with h1 | ⟨y, h1⟩ <;> rw [h1] <;> rfl
  have e1 : add (.inf false) (.fin eps) = .inf false := rfl
  have e2 : div (.fin s.q) (.inf false) = .fin 0 := rfl
  unfold forcefield2
  simp only [e, isZero, Bool.and_false, Bool.false_eq_true, if_false, e1, e2]
  have key : mul (vsub s.pos x k) (.fin 0) = .fin 0 ∨ mul (vsub s.pos x k) (.fin 0) = .nan := by
    cases hd : vsub s.pos x k with
    | fin y => left; show rnd64 (y * 0) = _; rw [mul_zero, rnd64_zero]
    | inf s => right; show (if (0 : ℝ) = 0 then _ else _) = _; rw [if_pos rfl]
    | nan => right; rfl
  cases grav
  · rcases key with key | key
    · left; show neg (mul (vsub s.pos x k) (.fin 0)) = _; rw [key]; show Dbl.fin (-0) = _; rw [neg_zero]
    · right; show neg (mul (vsub s.pos x k) (.fin 0)) = _; rw [key]; rfl
  · exact key

/-- **C95** Three dimensions, very close points without softening: the cube of the distance underflows to zero, the coincidence check does not notice it,
and no component of the result is finite. -/
theorem C95_close_3d (grav : Bool) (s : Source 3) (x : Vec 3) (hq : s.q ≠ 0) (h : ∀ j, |s.pos j - x j| ≤ 2 ^ (-361 : ℤ)) (i : Fin 3)
    (hi : (2 : ℝ) ^ (-1022 : ℤ) ≤ |s.pos i - x i|) (k : Fin 3) (y : ℝ) : forcefield3 grav true s x 0 k ≠ .fin y := by
  have hv : ∃ v : Vec 3, (vsub s.pos x = fun j => .fin (v j)) ∧ (∀ j, |v j| ≤ 2 ^ (-361 : ℤ)) := by
    choose v h1 h2 using fun j => rnd64_le (h j) (by norm_num) (by norm_num)
    exact ⟨v, funext h1, h2⟩
  obtain ⟨v, hv, hb⟩ := hv
  have hi' : (2 : ℝ) ^ (-1022 : ℤ) ≤ |v i| := by
    rcases rnd64_ge hi le_rfl with h1 | ⟨z, h1, h2⟩
    · have : vsub s.pos x i = .inf _ := h1
      rw [hv] at this; simp at this
    · have : vsub s.pos x i = .fin z := h1
      rw [hv] at this
      injection this with this
      rw [this]; exact h2
  have hle : |v i| ≤ Vec.norm v := by
    rw [norm3_sq]
    refine Real.abs_le_sqrt ?_
    match i with
    | 0 => nlinarith [sq_nonneg (v 1), sq_nonneg (v 2)]
    | 1 => nlinarith [sq_nonneg (v 0), sq_nonneg (v 2)]
    | 2 => nlinarith [sq_nonneg (v 0), sq_nonneg (v 1)]
  have hn0 : 0 ≤ Vec.norm v := by rw [norm3_sq]; exact Real.sqrt_nonneg _
  have hup : Vec.norm v ≤ 2 ^ (-360 : ℤ) := by
    have q := fun j => sq_le_sq' (abs_le.mp (hb j)).1 (abs_le.mp (hb j)).2
    rw [norm3_sq, Real.sqrt_le_left (two_pow_pos _).le, show (-360 : ℤ) = 1 + -361 by norm_num, zpow_add₀ (by norm_num), zpow_one]
    have q0 := q 0
    have q1 := q 1
    have q2 := q 2
    generalize (2 : ℝ) ^ (-361 : ℤ) = P at *
    nlinarith [sq_nonneg P]
  have hB : Bnd (-1022) (-360) (Vec.norm v) := by
    unfold Bnd
    rw [abs_of_nonneg hn0]
    exact ⟨hi'.trans hle, hup⟩
  have er : norm3 (vsub s.pos x) = .fin (rndNE (Vec.norm v)) := by
    rw [hv, norm3_fin]
    exact rnd64_of (Or.inr hB) (by norm_num) (by norm_num)
  have hr := hB.rnd
  generalize rndNE (Vec.norm v) = r at *
  obtain ⟨z, e2, b2⟩ := rnd64_le (x := r * r) (b := -720) (by
    rw [abs_mul, show (-720 : ℤ) = -360 + -360 by norm_num, zpow_add₀ (by norm_num)]
    exact mul_le_mul hr.2 hr.2 (abs_nonneg _) (two_pow_pos _).le) (by norm_num) (by norm_num)
  have e3 : rnd64 (z * r) = .fin 0 := by
    refine rnd64_tiny ?_
    rw [abs_mul]
    refine (mul_le_mul b2 hr.2 (abs_nonneg _) (two_pow_pos _).le).trans_lt ?_
    rw [← zpow_add₀ (by norm_num)]
    exact zpow_lt_zpow_right₀ (by norm_num) (by norm_num)
  have ed : div (.fin s.q) (add (mul (mul (.fin r) (.fin r)) (.fin r)) (.fin 0)) = .inf (decide (s.q < 0)) := by
    have m2 : mul (.fin r) (.fin r) = .fin z := e2
    have m3 : mul (.fin z) (.fin r) = .fin 0 := e3
    have m4 : add (.fin 0) (.fin 0) = .fin 0 := by show rnd64 (0 + 0) = _; rw [add_zero, rnd64_zero]
    rw [m2, m3, m4]
    show (if (0 : ℝ) = 0 then (if s.q = 0 then Dbl.nan else .inf (decide (s.q < 0))) else _) = _
    rw [if_pos rfl, if_neg hq]
  have key : ∀ w : ℝ, mul (vsub s.pos x k) (.inf (decide (s.q < 0))) ≠ .fin w := by
    intro w
    rw [hv]
    show (if v k = 0 then Dbl.nan else .inf _) ≠ _
    by_cases h0 : v k = 0
    · rw [if_pos h0]; simp
    · rw [if_neg h0]; simp
  unfold forcefield3
  simp only [er, isZero, hr.ne, decide_false, Bool.and_false, Bool.false_eq_true, if_false, ed]
  cases grav
  · intro hc
    have hc : neg (mul (vsub s.pos x k) (.inf (decide (s.q < 0)))) = .fin y := hc
    cases hm : mul (vsub s.pos x k) (.inf (decide (s.q < 0))) with
    | fin w => exact key w hm
    | inf t => rw [hm] at hc; simp [neg] at hc
    | nan => rw [hm] at hc; simp [neg] at hc
  · exact key y

/-- **C95** Three dimensions, very distant points: the cube of the distance overflows and the force is exactly zero, already from `2^342`. -/
theorem C95_distant_3d (grav safe : Bool) (s : Source 3) (x : Vec 3) (eps : ℝ) (h : ∀ j, |s.pos j - x j| ≤ 2 ^ (1000 : ℤ)) (i : Fin 3)
    (hi : (2 : ℝ) ^ (342 : ℤ) ≤ |s.pos i - x i|) : forcefield3 grav safe s x eps = vzero 3 := by
  have hv : ∃ v : Vec 3, (vsub s.pos x = fun j => .fin (v j)) ∧ (∀ j, |v j| ≤ 2 ^ (1000 : ℤ)) := by
    choose v h1 h2 using fun j => rnd64_le (h j) (by norm_num) (by norm_num)
    exact ⟨v, funext h1, h2⟩
  obtain ⟨v, hv, hb⟩ := hv
  have hi' : (2 : ℝ) ^ (342 : ℤ) ≤ |v i| := by
    rcases rnd64_ge hi (by norm_num) with h1 | ⟨z, h1, h2⟩
    · have : vsub s.pos x i = .inf _ := h1
      rw [hv] at this; simp at this
    · have : vsub s.pos x i = .fin z := h1
      rw [hv] at this
      injection this with this
      rw [this]; exact h2
  have hle : |v i| ≤ Vec.norm v := by
    rw [norm3_sq]
    refine Real.abs_le_sqrt ?_
    match i with
    | 0 => nlinarith [sq_nonneg (v 1), sq_nonneg (v 2)]
    | 1 => nlinarith [sq_nonneg (v 0), sq_nonneg (v 2)]
    | 2 => nlinarith [sq_nonneg (v 0), sq_nonneg (v 1)]
  have hn0 : 0 ≤ Vec.norm v := by rw [norm3_sq]; exact Real.sqrt_nonneg _
  have hup : Vec.norm v ≤ 2 ^ (1001 : ℤ) := by
    have q := fun j => sq_le_sq' (abs_le.mp (hb j)).1 (abs_le.mp (hb j)).2
    rw [norm3_sq, Real.sqrt_le_left (two_pow_pos _).le, show (1001 : ℤ) = 1 + 1000 by norm_num, zpow_add₀ (by norm_num), zpow_one]
    have q0 := q 0
    have q1 := q 1
    have q2 := q 2
    generalize (2 : ℝ) ^ (1000 : ℤ) = P at *
    nlinarith [sq_nonneg P]
  have hB : Bnd 342 1001 (Vec.norm v) := by
    unfold Bnd
    rw [abs_of_nonneg hn0]
    exact ⟨hi'.trans hle, hup⟩
  have er : norm3 (vsub s.pos x) = .fin (rndNE (Vec.norm v)) := by
    rw [hv, norm3_fin]
    exact rnd64_of (Or.inr hB) (by norm_num) (by norm_num)
  have hr := hB.rnd
  have hr0 := rndNE_nonneg hn0
  generalize rndNE (Vec.norm v) = r at *
  have e3 : mul (mul (.fin r) (.fin r)) (.fin r) = .inf false := by
    have h2 : (2 : ℝ) ^ (684 : ℤ) ≤ |r * r| := by
      rw [abs_mul, show (684 : ℤ) = 342 + 342 by norm_num, zpow_add₀ (by norm_num)]
      exact mul_le_mul hr.1 hr.1 (two_pow_pos _).le (abs_nonneg _)
    rcases rnd64_ge h2 (by norm_num) with h1 | ⟨z, h1, h2⟩
    · have : mul (.fin r) (.fin r) = .inf (decide (r * r < 0)) := h1
      rw [this]
      show (if r = 0 then Dbl.nan else .inf (xor _ _)) = _
      rw [if_neg hr.ne]
      simp [not_lt.mpr (mul_self_nonneg r), not_lt.mpr hr0]
    · have e : mul (.fin r) (.fin r) = .fin z := h1
      rw [e]
      have hz : 0 ≤ z := by
        by_contra hz
        push Not at hz
        unfold rnd64 at h1
        dsimp only at h1
        by_cases g1 : |r * r| < 2 ^ (-1022 : ℤ)
        · exact absurd ((two_pow_mono (by norm_num)).trans (show (2 : ℝ) ^ (684 : ℤ) ≤ |r * r| by assumption)) (not_le.mpr g1)
        · rw [if_neg g1] at h1
          by_cases g2 : |rndNE (r * r)| < 2 ^ (1024 : ℤ)
          · rw [if_pos g2] at h1
            injection h1 with h1
            have := rndNE_nonneg (mul_self_nonneg r)
            linarith
          · rw [if_neg g2] at h1; simp at h1
      have : rnd64 (z * r) = .inf (decide (z * r < 0)) := by
        refine rnd64_huge ?_
        rw [abs_mul]
        refine le_trans (two_pow_mono (show (1024 : ℤ) ≤ 684 + 342 by norm_num)) ?_
        rw [zpow_add₀ (by norm_num)]
        exact mul_le_mul h2 hr.1 (two_pow_pos _).le (abs_nonneg _)
      show rnd64 (z * r) = _
      rw [this]
      simp [not_lt.mpr (mul_nonneg hz hr0)]
  have e1 : add (.inf false) (.fin eps) = .inf false := rfl
  have e2 : div (.fin s.q) (.inf false) = .fin 0 := rfl
  have key : vscale (vsub s.pos x) (.fin 0) = vzero 3 := by
    rw [hv]; funext k; show rnd64 (v k * 0) = _; rw [mul_zero, rnd64_zero]; rfl
  unfold forcefield3
  simp only [er, isZero, hr.ne, decide_false, Bool.and_false, Bool.false_eq_true, if_false, e3, e1, e2, key]
  cases grav
  · funext k; show Dbl.fin (-0) = _; rw [neg_zero]; rfl
  · rfl

/-! Non-vacuity: two sources of ordinary size; a pair whose force is lost although it is `2^560`. -/
example : ∃ v, potentialSum2 true true [(⟨![0, 0], 1⟩ : Source 2), ⟨![1, 0], 2⟩] ![3, 4] = .fin v ∧
    |v - directPotential true [(⟨![0, 0], 1⟩ : Source 2), ⟨![1, 0], 2⟩] ![3, 4]| ≤
      1 / 10 ^ 5 * absPotential [(⟨![0, 0], 1⟩ : Source 2), ⟨![1, 0], 2⟩] ![3, 4] := by
  have lo : (2 : ℝ) ^ (-100 : ℤ) ≤ 1 := by
    rw [show (1 : ℝ) = 2 ^ (0 : ℤ) by norm_num]; exact two_pow_mono (by norm_num)
  have hi : (4 : ℝ) ≤ 2 ^ (100 : ℤ) := by
    rw [show (4 : ℝ) = 2 ^ (2 : ℤ) by norm_num]; exact two_pow_mono (by norm_num)
  have m : ∀ y : ℝ, 1 ≤ |y| → |y| ≤ 4 → Moderate y := fun y h1 h2 => Or.inr ⟨lo.trans h1, h2.trans hi⟩
  refine C95_error_2d true _ _ ?_ (by norm_num)
  intro s hs
  rcases List.mem_cons.mp hs with rfl | hs
  · refine ⟨m _ (by norm_num) (by norm_num), fun j => ?_⟩
    match j with
    | 0 => exact m _ (by norm_num) (by norm_num [abs_of_nonneg])
    | 1 => exact m _ (by norm_num) (by norm_num)
  · rcases List.mem_cons.mp hs with rfl | hs
    · refine ⟨m _ (by norm_num) (by norm_num), fun j => ?_⟩
      match j with
      | 0 => exact m _ (by norm_num) (by norm_num)
      | 1 => exact m _ (by norm_num) (by norm_num)
    · simp at hs

example : forcefield2 true true ⟨![2 ^ (-560 : ℤ), 0], 1⟩ ![0, 0] 0 = vzero 2 ∧
    directField true [(⟨![2 ^ (-560 : ℤ), 0], 1⟩ : Source 2)] ![0, 0] 0 0 = 2 ^ (560 : ℤ) := by
  constructor
  · refine C95_close_2d _ _ _ _ fun j => ?_
    match j with
    | 0 =>
      show |(2 : ℝ) ^ (-560 : ℤ) - 0| ≤ _
      rw [sub_zero, abs_of_pos (two_pow_pos _)]; exact two_pow_mono (by norm_num)
    | 1 =>
      show |(0 : ℝ) - 0| ≤ _
      rw [sub_zero, abs_zero]; exact (two_pow_pos _).le
  · have hP := two_pow_pos (-560)
    have e : (2 : ℝ) ^ (560 : ℤ) = (2 ^ (-560 : ℤ))⁻¹ := by rw [zpow_neg, inv_inv]
    rw [e]
    generalize (2 : ℝ) ^ (-560 : ℤ) = P at *
    have hne : (![P, 0] : Vec 2) ≠ ![0, 0] := fun h => hP.ne' (congrFun h 0)
    have hdist : dist2 (![P, 0] : Vec 2) ![0, 0] = P := by
      unfold dist2
      simp [Fin.sum_univ_two, Real.sqrt_sq hP.le]
    unfold directField
    rw [List.map_singleton, List.sum_singleton]
    unfold directFieldTerm
    rw [if_neg hne]
    unfold fieldSpec
    rw [hdist]
    simp only [forceDenom, sgn]
    norm_num
    field_simp

end FMM.D64
