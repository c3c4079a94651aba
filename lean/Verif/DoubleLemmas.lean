import Verif.Double
import Verif.LoopLemmas
import Mathlib.Analysis.Complex.ExponentialBounds

/-!
# Lemmas for C95: the kernels in `double` and with unbounded exponents
-/

namespace FMM.D64
open FMM Rounded

variable {a b c d : ℤ} {x y : ℝ}

/-- Zero or between `2^-100` and `2^100`. -/
def Moderate (x : ℝ) : Prop := Bnd0 (-100) 100 x

/-- The charges of the sources and their coordinates relative to the point are moderate. -/
def Sane {n : ℕ} (S : List (Source n)) (x : Vec n) : Prop := ∀ s ∈ S, Moderate s.q ∧ ∀ j, Moderate (s.pos j - x j)

/-! ## Lengths -/

theorem norm2_sq (v : Vec 2) : Vec.norm v = √(v 0 ^ 2 + v 1 ^ 2) := rfl

theorem norm3_sq (v : Vec 3) : Vec.norm v = √(v 0 ^ 2 + v 1 ^ 2 + v 2 ^ 2) := rfl

/-- A length between the largest component and twice the largest. -/
theorem bnd_sqrt {t : ℝ} (h1 : (2 : ℝ) ^ a ≤ √t) (h2 : t ≤ 4 * (2 ^ b) ^ 2) : Bnd a (b + 1) (√t) := by
  unfold Bnd
  rw [abs_of_nonneg (Real.sqrt_nonneg t)]
  refine ⟨h1, ?_⟩
  rw [Real.sqrt_le_left (two_pow_pos _).le, zpow_add₀ (by norm_num), zpow_one]
  linarith

theorem sq_le_of_bnd (h : Bnd0 a b x) : x ^ 2 ≤ (2 ^ b) ^ 2 := sq_le_sq' (abs_le.mp h.le).1 (abs_le.mp h.le).2

theorem bnd_norm2 {v : Vec 2} (h : ∀ j, Bnd0 a b (v j)) (hv : v ≠ 0) : Bnd a (b + 1) (Vec.norm v) := by
  have q0 := sq_le_of_bnd (h 0)
  have q1 := sq_le_of_bnd (h 1)
  have n0 := sq_nonneg (v 0)
  have n1 := sq_nonneg (v 1)
  rw [norm2_sq]
  refine bnd_sqrt ?_ (by linarith [sq_nonneg ((2 : ℝ) ^ b)])
  rcases h 0 with h0 | h0
  · rcases h 1 with h1 | h1
    · exact absurd (by funext j; match j with
        | 0 => exact h0
        | 1 => exact h1) hv
    · exact h1.1.trans (Real.abs_le_sqrt (by linarith))
  · exact h0.1.trans (Real.abs_le_sqrt (by linarith))

theorem bnd_norm3 {v : Vec 3} (h : ∀ j, Bnd0 a b (v j)) (hv : v ≠ 0) : Bnd a (b + 1) (Vec.norm v) := by
  have q0 := sq_le_of_bnd (h 0)
  have q1 := sq_le_of_bnd (h 1)
  have q2 := sq_le_of_bnd (h 2)
  have n0 := sq_nonneg (v 0)
  have n1 := sq_nonneg (v 1)
  have n2 := sq_nonneg (v 2)
  rw [norm3_sq]
  refine bnd_sqrt ?_ (by linarith [sq_nonneg ((2 : ℝ) ^ b)])
  rcases h 0 with h0 | h0
  · rcases h 1 with h1 | h1
    · rcases h 2 with h2 | h2
      · exact absurd (by funext j; match j with
          | 0 => exact h0
          | 1 => exact h1
          | 2 => exact h2) hv
      · exact h2.1.trans (Real.abs_le_sqrt (by linarith))
    · exact h1.1.trans (Real.abs_le_sqrt (by linarith))
  · exact h0.1.trans (Real.abs_le_sqrt (by linarith))

/-! ## Logarithms of `double`s -/

/-- A `double` other than 1 differs from 1 by at least `2^-53`. -/
theorem rndNE_near_one (h : |rndNE x - 1| < 2 ^ (-53 : ℤ)) : rndNE x = 1 := by
  have hx : (2 : ℝ) ^ (-1 : ℤ) ≤ |x| := by
    by_contra hc
    push Not at hc
    have h1 := rndNE_le hc.le
    have h2 := (abs_lt.mp h).1
    have h3 := le_abs_self (rndNE x)
    norm_num at h1 h2
    linarith
  have h1 : Grid (-53) (rndNE x) := Grid.of_rnd hx
  obtain ⟨k, hk⟩ := h1
  rw [hk] at h ⊢
  have e : (k : ℝ) * 2 ^ (-53 : ℤ) - 1 = ((k - 2 ^ 53 : ℤ) : ℝ) * 2 ^ (-53 : ℤ) := by
    push_cast
    rw [sub_mul]
    congr 1
    norm_num
  rw [e, abs_mul, abs_of_pos (two_pow_pos _)] at h
  have h3 : |((k - 2 ^ 53 : ℤ) : ℝ)| < 1 := by
    by_contra hc
    push Not at hc
    have := two_pow_pos (-53)
    nlinarith
  have h4 : k - 2 ^ 53 = 0 := by
    have : |k - 2 ^ 53| < 1 := by exact_mod_cast h3
    exact Int.abs_lt_one_iff.mp this
  have : k = 2 ^ 53 := by omega
  rw [this]
  norm_num

theorem bnd_log {r : ℝ} (hr : ∃ x, r = rndNE x) (h0 : 0 < r) (h : Bnd (-101) 101 r) : Bnd0 (-54) 7 (Real.log r) := by
  obtain ⟨x, hx⟩ := hr
  by_cases h1 : |r - 1| < 2 ^ (-53 : ℤ)
  · left
    rw [hx] at h1 ⊢
    rw [rndNE_near_one h1, Real.log_one]
  · right
    push Not at h1
    obtain ⟨b1, b2⟩ := h
    rw [abs_of_pos h0] at b1 b2
    have l2 : Real.log 2 < 1 := by linarith [Real.log_lt_sub_one_of_pos (show (0 : ℝ) < 2 by norm_num) (by norm_num)]
    have l20 : 0 < Real.log 2 := Real.log_pos (by norm_num)
    constructor
    · rcases le_abs.mp h1 with h1 | h1
      · have h2 := Real.one_sub_inv_le_log_of_pos h0
        refine le_trans ?_ (le_abs_self _)
        refine le_trans ?_ h2
        have h3 : r⁻¹ ≤ (1 + 2 ^ (-53 : ℤ))⁻¹ := inv_anti₀ (by positivity) (by linarith)
        have h4 : ((1 : ℝ) + 2 ^ (-53 : ℤ))⁻¹ ≤ 1 - 2 ^ (-54 : ℤ) := by norm_num
        linarith
      · have h2 := Real.log_le_sub_one_of_pos h0
        refine le_trans ?_ (neg_le_abs _)
        have h3 : (2 : ℝ) ^ (-54 : ℤ) ≤ 2 ^ (-53 : ℤ) := two_pow_mono (by norm_num)
        linarith
    · have u1 : Real.log r ≤ Real.log (2 ^ (101 : ℤ)) := Real.log_le_log h0 b2
      have u2 : Real.log (2 ^ (-101 : ℤ)) ≤ Real.log r := Real.log_le_log (two_pow_pos _) b1
      rw [Real.log_zpow] at u1 u2
      rw [abs_le]
      push_cast at u1 u2
      constructor <;> norm_num <;> nlinarith

/-! ## One source -/

/-- The result of the kernel in binary64, and in the model with unbounded exponents. -/
def Same (o : Dbl) (o' : Outcome ℝ) : Prop := ∃ v, o = .fin v ∧ o' = .ok v ∧ Grid (-600) v ∧ |v| ≤ 2 ^ (600 : ℤ)

/-- The same for vectors. -/
def VSame {n : ℕ} (o : DVec n) (o' : Outcome (Vec n)) : Prop :=
  ∃ v, (o = fun j => .fin (v j)) ∧ o' = .ok v ∧ ∀ j, Grid (-600) (v j) ∧ |v j| ≤ 2 ^ (600 : ℤ)

theorem vsub_eq {n : ℕ} {v w : Vec n} (h : ∀ j, Moderate (v j - w j)) : vsub v w = fun j => .fin (rndNE (v j - w j)) := by
  funext j
  exact rnd64_of (h j) (by norm_num) (by norm_num)

theorem sign_bnd0 (grav : Bool) (h : Bnd0 a b x) : Bnd0 a b (if grav then x else -x) := by
  cases grav
  · exact h.neg
  · exact h

theorem sign_grid {g : ℤ} (grav : Bool) (h : Grid g x) : Grid g (if grav then x else -x) := by
  cases grav
  · exact h.neg
  · exact h

theorem Grid.coarse {g g' : ℤ} (h : Grid g x) (hg : g' ≤ g) : Grid g' x := by
  obtain ⟨k, rfl⟩ := h
  exact Grid.of_le hg k

/-- A result with a sign. -/
theorem same_sign (grav : Bool) {o : Dbl} {y : ℝ} (h : o = .fin (rndNE y)) (hy : Bnd0 (-548) 600 y) {o' : Outcome ℝ}
    (ho : o' = .ok (if grav then rndNE y else -rndNE y)) : Same (if grav then o else neg o) o' := by
  refine ⟨if grav then rndNE y else -rndNE y, ?_, ho, sign_grid grav ((Grid.of_rnd0 hy).coarse (by norm_num)), (sign_bnd0 grav hy.rnd).le⟩
  rw [h]
  cases grav <;> rfl

theorem same_zero : Same (.fin 0) (.ok 0) := ⟨0, rfl, rfl, Grid.zero _, by rw [abs_zero]; exact (two_pow_pos _).le⟩

theorem vsame_zero (n : ℕ) : VSame (vzero n) (.ok (Vec.fill 0)) :=
  ⟨Vec.fill 0, rfl, rfl, fun j => ⟨Grid.zero _, by rw [Vec.fill, abs_zero]; exact (two_pow_pos _).le⟩⟩

theorem vec2 (v : Vec 2) : ![v 0, v 1] = v := by
  funext j
  match j with
  | 0 => rfl
  | 1 => rfl

theorem vec3 (v : Vec 3) : ![v 0, v 1, v 2] = v := by
  funext j
  match j with
  | 0 => rfl
  | 1 => rfl
  | 2 => rfl

theorem norm2_fin (v : Vec 2) : norm2 (fun j => .fin (v j)) = rnd64 (Vec.norm v) := by
  show rnd64 (Vec.norm ![v 0, v 1]) = _
  rw [vec2]

theorem norm3_fin (v : Vec 3) : norm3 (fun j => .fin (v j)) = rnd64 (Vec.norm v) := by
  show rnd64 (Vec.norm ![v 0, v 1, v 2]) = _
  rw [vec3]

theorem rnd64_zero : rnd64 0 = .fin 0 := by
  rw [rnd64_of (a := 0) (b := 0) (Or.inl rfl) (by norm_num) (by norm_num), rndNE_zero]

theorem potential2_same (grav : Bool) (s : Source 2) (x : Vec 2) (hq : Moderate s.q) (hx : ∀ j, Moderate (s.pos j - x j)) :
    Same (potential2 grav true s x) (Fl.potential Flt.ieee grav true s x) := by
  have hd : ∀ j, Bnd0 (-100) 100 (Flt.ieee.vsub s.pos x j) := fun j => (hx j).rnd
  have ev : vsub s.pos x = fun j => .fin (Flt.ieee.vsub s.pos x j) := vsub_eq hx
  unfold potential2 Fl.potential
  rw [ev]
  generalize Flt.ieee.vsub s.pos x = v at *
  have hn : Flt.ieee.nrm v = rndNE (Vec.norm v) := rfl
  simp only [norm2_fin, hn]
  by_cases hv : v = 0
  · have h0 : Vec.norm v = 0 := by rw [hv, norm2_sq]; simp
    rw [h0, rnd64_zero, rndNE_zero]
    simp only [isZero, decide_true, Bool.and_self, if_true, and_self]
    exact same_zero
  · have hb := bnd_norm2 hd hv
    rw [rnd64_of (Or.inr hb) (by norm_num) (by norm_num)]
    have hr : rndNE (Vec.norm v) ≠ 0 := hb.rnd.ne
    have hpos : 0 < rndNE (Vec.norm v) := lt_of_le_of_ne (rndNE_nonneg (Real.sqrt_nonneg _)) (Ne.symm hr)
    simp only [isZero, log, hr, hpos.le.not_gt, and_false, if_false, decide_false, Bool.and_false, Bool.false_eq_true]
    have hl := bnd_log ⟨_, rfl⟩ hpos (hb.rnd.mono (by norm_num) (by norm_num))
    have hm := Bnd0.mul hq hl.rnd
    refine same_sign grav (y := s.q * rndNE (Real.log (rndNE (Vec.norm v)))) ?_ (hm.mono (by norm_num) (by norm_num)) rfl
    rw [rnd64_of hl (by norm_num) (by norm_num)]
    exact rnd64_of hm (by norm_num) (by norm_num)

theorem potential3_same (grav : Bool) (s : Source 3) (x : Vec 3) (hq : Moderate s.q) (hx : ∀ j, Moderate (s.pos j - x j)) :
    Same (potential3 grav true s x) (Fl3.potential Flt3.ieee grav true s x) := by
  have hd : ∀ j, Bnd0 (-100) 100 (Flt3.ieee.vsub s.pos x j) := fun j => (hx j).rnd
  have ev : vsub s.pos x = fun j => .fin (Flt3.ieee.vsub s.pos x j) := vsub_eq hx
  unfold potential3 Fl3.potential
  rw [ev]
  generalize Flt3.ieee.vsub s.pos x = v at *
  have hn : Flt3.ieee.nrm3 v = rndNE (Vec.norm v) := rfl
  simp only [norm3_fin, hn]
  by_cases hv : v = 0
  · have h0 : Vec.norm v = 0 := by rw [hv, norm3_sq]; simp
    rw [h0, rnd64_zero, rndNE_zero]
    simp only [isZero, decide_true, Bool.and_self, if_true, and_self]
    exact same_zero
  · have hb := bnd_norm3 hd hv
    rw [rnd64_of (Or.inr hb) (by norm_num) (by norm_num)]
    have hr : rndNE (Vec.norm v) ≠ 0 := hb.rnd.ne
    simp only [isZero, div, hr, and_false, if_false, decide_false, Bool.and_false, Bool.false_eq_true]
    have hm := Bnd0.div (Bnd0.neg hq) hb.rnd
    exact same_sign grav (y := -s.q / rndNE (Vec.norm v)) (rnd64_of hm (by norm_num) (by norm_num)) (hm.mono (by norm_num) (by norm_num)) rfl

theorem normSq_same {v : Vec 2} (hd : ∀ j, Bnd0 (-100) 100 (v j)) :
    normSq (fun j => .fin (v j)) = .fin (Flt.ieee.normSq v) ∧ (v = 0 → Flt.ieee.normSq v = 0) ∧ (v ≠ 0 → Bnd (-200) 201 (Flt.ieee.normSq v)) ∧
      0 ≤ Flt.ieee.normSq v := by
  have m0 := Bnd0.mul (hd 0) (hd 0)
  have m1 := Bnd0.mul (hd 1) (hd 1)
  have n0 := rndNE_nonneg (mul_self_nonneg (v 0))
  have n1 := rndNE_nonneg (mul_self_nonneg (v 1))
  have e : Flt.ieee.normSq v = rndNE (rndNE (v 0 * v 0) + rndNE (v 1 * v 1)) := rfl
  have up : ∀ {y : ℝ}, 0 ≤ y → Bnd0 (-100 + -100) (100 + 100) y → y ≤ 2 ^ (100 + 100 : ℤ) := fun h0 h => by
    have := h.le; rwa [abs_of_nonneg h0] at this
  have hs : v ≠ 0 → Bnd (-100 + -100) (100 + 100 + 1) (rndNE (v 0 * v 0) + rndNE (v 1 * v 1)) := by
    intro hv
    by_cases h0 : v 0 = 0
    · have h1 : v 1 ≠ 0 := fun h1 => hv (by funext j; match j with
        | 0 => exact h0
        | 1 => exact h1)
      rw [add_comm (rndNE (v 0 * v 0))]
      exact Bnd.add_nonneg (((hd 1).resolve_left h1).mul ((hd 1).resolve_left h1)).rnd n1 n0 (up n0 m0.rnd)
    · exact Bnd.add_nonneg (((hd 0).resolve_left h0).mul ((hd 0).resolve_left h0)).rnd n0 n1 (up n1 m1.rnd)
  have hz : v = 0 → rndNE (v 0 * v 0) + rndNE (v 1 * v 1) = 0 := by
    rintro rfl; simp [rndNE_zero]
  refine ⟨?_, fun h => by rw [e, hz h, rndNE_zero], fun h => by rw [e]; exact (hs h).rnd.mono (by norm_num) (by norm_num),
    by rw [e]; exact rndNE_nonneg (add_nonneg n0 n1)⟩
  show add (rnd64 (v 0 * v 0)) (rnd64 (v 1 * v 1)) = _
  rw [rnd64_of m0 (by norm_num) (by norm_num), rnd64_of m1 (by norm_num) (by norm_num)]
  show rnd64 (rndNE (v 0 * v 0) + rndNE (v 1 * v 1)) = _
  by_cases hv : v = 0
  · rw [rnd64_of (a := 0) (b := 0) (Or.inl (hz hv)) (by norm_num) (by norm_num)]; rfl
  · rw [rnd64_of (Or.inr (hs hv)) (by norm_num) (by norm_num)]; rfl

/-- A force with a sign. -/
theorem vsame_sign {n : ℕ} (grav : Bool) {o : DVec n} {y : Vec n} (h : o = fun j => .fin (rndNE (y j))) (hy : ∀ j, Bnd0 (-548) 600 (y j))
    {o' : Outcome (Vec n)} (ho : o' = .ok (if grav then (fun j => rndNE (y j)) else Vec.neg fun j => rndNE (y j))) :
    VSame (if grav then o else vneg o) o' := by
  refine ⟨if grav then (fun j => rndNE (y j)) else Vec.neg fun j => rndNE (y j), ?_, ho, fun j => ?_⟩
  · rw [h]
    cases grav
    · funext j; simp [vneg, neg, Vec.neg, Vec.scale]
    · rfl
  · have e : (if grav then (fun j => rndNE (y j)) else Vec.neg fun j => rndNE (y j)) j = if grav then rndNE (y j) else -rndNE (y j) := by
      cases grav
      · simp [Vec.neg, Vec.scale]
      · rfl
    rw [e]
    exact ⟨sign_grid grav ((Grid.of_rnd0 (hy j)).coarse (by norm_num)), (sign_bnd0 grav (hy j).rnd).le⟩

theorem forcefield2_same (grav : Bool) (s : Source 2) (x : Vec 2) {eps : ℝ} (he : 0 ≤ eps) (he' : eps ≤ 2 ^ (200 : ℤ)) (hq : Moderate s.q)
    (hx : ∀ j, Moderate (s.pos j - x j)) : VSame (forcefield2 grav true s x eps) (Fl.forcefield Flt.ieee grav true s x eps) := by
  have hd : ∀ j, Bnd0 (-100) 100 (Flt.ieee.vsub s.pos x j) := fun j => (hx j).rnd
  have ev : vsub s.pos x = fun j => .fin (Flt.ieee.vsub s.pos x j) := vsub_eq hx
  unfold forcefield2 Fl.forcefield
  rw [ev]
  generalize Flt.ieee.vsub s.pos x = v at *
  obtain ⟨h1, h2, h3, h4⟩ := normSq_same hd
  simp only [h1]
  by_cases hv : v = 0
  · simp only [h2 hv, isZero, decide_true, Bool.and_self, if_true, and_self]
    exact vsame_zero 2
  · have hb := h3 hv
    generalize Flt.ieee.normSq v = w at *
    have hr := hb.ne
    have hden : Bnd (-200) 202 (w + eps) := hb.add_nonneg h4 he (he'.trans (two_pow_mono (by norm_num)))
    have e1 : ∀ y, Flt.ieee.rnd y = rndNE y := fun _ => rfl
    simp only [isZero, hr, and_false, if_false, decide_false, Bool.and_false, Bool.false_eq_true, e1, hden.rnd.ne]
    have hc := Bnd0.div hq hden.rnd
    have hm : ∀ j, Bnd0 (-100 + (-100 - 202)) (100 + (100 - -200)) (v j * rndNE (s.q / rndNE (w + eps))) := fun j => Bnd0.mul (hd j) hc.rnd
    refine vsame_sign grav (y := fun j => v j * rndNE (s.q / rndNE (w + eps))) ?_ (fun j => (hm j).mono (by norm_num) (by norm_num)) rfl
    have ea : add (.fin w) (.fin eps) = .fin (rndNE (w + eps)) := rnd64_of (Or.inr hden) (by norm_num) (by norm_num)
    have ed : div (.fin s.q) (.fin (rndNE (w + eps))) = .fin (rndNE (s.q / rndNE (w + eps))) := by
      show (if rndNE (w + eps) = 0 then _ else rnd64 (s.q / rndNE (w + eps))) = _
      rw [if_neg hden.rnd.ne]; exact rnd64_of hc (by norm_num) (by norm_num)
    rw [ea, ed]
    funext j
    exact rnd64_of (hm j) (by norm_num) (by norm_num)

theorem forcefield3_same (grav : Bool) (s : Source 3) (x : Vec 3) {eps : ℝ} (he : 0 ≤ eps) (he' : eps ≤ 2 ^ (200 : ℤ)) (hq : Moderate s.q)
    (hx : ∀ j, Moderate (s.pos j - x j)) : VSame (forcefield3 grav true s x eps) (Fl3.forcefield Flt3.ieee grav true s x eps) := by
  have hd : ∀ j, Bnd0 (-100) 100 (Flt3.ieee.vsub s.pos x j) := fun j => (hx j).rnd
  have ev : vsub s.pos x = fun j => .fin (Flt3.ieee.vsub s.pos x j) := vsub_eq hx
  unfold forcefield3 Fl3.forcefield
  rw [ev]
  generalize Flt3.ieee.vsub s.pos x = v at *
  have hn : Flt3.ieee.nrm3 v = rndNE (Vec.norm v) := rfl
  simp only [norm3_fin, hn]
  by_cases hv : v = 0
  · have h0 : Vec.norm v = 0 := by rw [hv, norm3_sq]; simp
    rw [h0, rnd64_zero, rndNE_zero]
    simp only [isZero, decide_true, Bool.and_self, if_true, and_self]
    exact vsame_zero 3
  · have hb := (bnd_norm3 hd hv).rnd
    have hpos : 0 ≤ rndNE (Vec.norm v) := rndNE_nonneg (Real.sqrt_nonneg _)
    rw [rnd64_of (Or.inr (bnd_norm3 hd hv)) (by norm_num) (by norm_num)]
    generalize rndNE (Vec.norm v) = r at *
    have hr := hb.ne
    have hb2 := hb.mul hb
    have hb3 := hb2.rnd.mul hb
    have hden := hb3.rnd.add_nonneg (rndNE_nonneg (mul_nonneg (rndNE_nonneg (mul_self_nonneg _)) hpos)) he (he'.trans (two_pow_mono (by norm_num)))
    have e0 : ∀ y, Flt3.ieee.rnd y = rndNE y := fun _ => rfl
    simp only [isZero, hr, and_false, if_false, decide_false, Bool.and_false, Bool.false_eq_true, e0, hden.rnd.ne]
    have e2 : mul (.fin r) (.fin r) = .fin (rndNE (r * r)) := rnd64_of (Or.inr hb2) (by norm_num) (by norm_num)
    have e3 : mul (.fin (rndNE (r * r))) (.fin r) = .fin (rndNE (rndNE (r * r) * r)) := rnd64_of (Or.inr hb3) (by norm_num) (by norm_num)
    rw [e2, e3]
    generalize rndNE (rndNE (r * r) * r) = w at *
    have hc := Bnd0.div hq hden.rnd
    have hm := fun j => Bnd0.mul (hd j) hc.rnd
    refine vsame_sign grav (y := fun j => v j * rndNE (s.q / rndNE (w + eps))) ?_ (fun j => (hm j).mono (by norm_num) (by norm_num)) rfl
    have ea : add (.fin w) (.fin eps) = .fin (rndNE (w + eps)) := rnd64_of (Or.inr hden) (by norm_num) (by norm_num)
    have ed : div (.fin s.q) (.fin (rndNE (w + eps))) = .fin (rndNE (s.q / rndNE (w + eps))) := by
      show (if rndNE (w + eps) = 0 then _ else rnd64 (s.q / rndNE (w + eps))) = _
      rw [if_neg hden.rnd.ne]; exact rnd64_of hc (by norm_num) (by norm_num)
    rw [ea, ed]
    funext j
    exact rnd64_of (hm j) (by norm_num) (by norm_num)

/-! ## Sums -/

/-- A partial sum of `k` terms. -/
def Partial (k : ℕ) (s : ℝ) : Prop := Grid (-600) s ∧ |s| ≤ k * 2 ^ (600 : ℤ) * (1 + 1 / 2 ^ 53) ^ k

theorem Partial.zero : Partial 0 0 := ⟨Grid.zero _, by simp⟩

theorem pow_le_two {k : ℕ} (hk : k ≤ 2 ^ 50) : (1 + 1 / 2 ^ 53 : ℝ) ^ k ≤ 2 := by
  have h1 : (1 + 1 / 2 ^ 53 : ℝ) ≤ Real.exp (1 / 2 ^ 53) := by linarith [Real.add_one_le_exp (1 / 2 ^ 53 : ℝ)]
  have h2 : (1 + 1 / 2 ^ 53 : ℝ) ^ k ≤ Real.exp (1 / 2 ^ 53) ^ k := pow_le_pow_left₀ (by positivity) h1 k
  rw [← Real.exp_nat_mul] at h2
  have h3 : (k : ℝ) * (1 / 2 ^ 53) ≤ 1 / 8 := by
    have : (k : ℝ) ≤ 2 ^ 50 := by exact_mod_cast hk
    calc (k : ℝ) * (1 / 2 ^ 53) ≤ 2 ^ 50 * (1 / 2 ^ 53) := mul_le_mul_of_nonneg_right this (by positivity)
      _ = 1 / 8 := by norm_num
  have h4 : Real.exp ((k : ℝ) * (1 / 2 ^ 53)) ≤ Real.exp (1 / 8) := Real.exp_le_exp.mpr h3
  have h5 : Real.exp (1 / 8 : ℝ) ≤ 2 := by
    have := Real.exp_one_lt_d9
    have h8 : Real.exp (1 / 8 : ℝ) ^ 8 = Real.exp 1 := by rw [← Real.exp_nat_mul]; norm_num
    by_contra hc
    push Not at hc
    have : (2 : ℝ) ^ 8 < Real.exp (1 / 8) ^ 8 := pow_lt_pow_left₀ hc (by norm_num) (by norm_num)
    rw [h8] at this
    norm_num at this
    linarith
  linarith

theorem Partial.add {k : ℕ} (hk : k < 2 ^ 50) {s t : ℝ} (hs : Partial k s) (ht : Grid (-600) t ∧ |t| ≤ 2 ^ (600 : ℤ)) :
    Bnd0 (-1022) 1023 (s + t) ∧ Partial (k + 1) (rndNE (s + t)) := by
  have hE : (1 : ℝ) ≤ (1 + 1 / 2 ^ 53) ^ k := one_le_pow₀ (by norm_num)
  have hE2 := pow_le_two (show k ≤ 2 ^ 50 by omega)
  have hp := two_pow_pos 600
  have e : (2 : ℝ) ^ (652 : ℤ) = 2 ^ 50 * 2 ^ (600 : ℤ) * 4 := by
    rw [show (652 : ℤ) = 52 + 600 by norm_num, zpow_add₀ (by norm_num)]
    rw [show (2 : ℝ) ^ (52 : ℤ) = 2 ^ 50 * 4 by norm_num]
    ring
  have h4 : ((k : ℝ) + 1) ≤ 2 ^ 50 := by exact_mod_cast hk
  have hg := hs.1.add ht.1
  have hr := rndNE_rel (s + t)
  unfold Partial
  rw [pow_succ]
  push_cast
  have s2 := hs.2
  have t2 := ht.2
  have key : ∀ P E : ℝ, 0 < P → 1 ≤ E → E ≤ 2 → |s| ≤ k * P * E → |t| ≤ P → |s + t| ≤ (k + 1) * P * E ∧ |s + t| ≤ 2 ^ 50 * P * 4 := by
    intro P E hP hE hE2 h1 h2
    have h0 : P ≤ P * E := le_mul_of_one_le_right hP.le hE
    have h3 : |s + t| ≤ (k + 1) * P * E := by
      refine (abs_add_le s t).trans ?_
      linarith
    refine ⟨h3, h3.trans ?_⟩
    have h5 : ((k : ℝ) + 1) * P ≤ 2 ^ 50 * P := mul_le_mul_of_nonneg_right h4 hP.le
    calc ((k : ℝ) + 1) * P * E ≤ 2 ^ 50 * P * 2 := mul_le_mul h5 hE2 (by linarith) (by positivity)
      _ ≤ _ := by linarith
  obtain ⟨k1, k2⟩ := key _ _ hp hE hE2 s2 t2
  rw [← e] at k2
  refine ⟨(hg.bnd k2).mono (by norm_num) (by norm_num), hg.rnd, ?_⟩
  have h5 : |rndNE (s + t)| ≤ (1 + 1 / 2 ^ 53) * |s + t| := by
    have := abs_sub_abs_le_abs_sub (rndNE (s + t)) (s + t)
    linarith
  refine h5.trans ?_
  rw [← mul_assoc, mul_comm]
  exact mul_le_mul_of_nonneg_right k1 (by positivity)

theorem sum_same {α : Type} (f : α → Dbl) (f' : α → Outcome ℝ) (S : List α) (h : ∀ s ∈ S, Same (f s) (f' s))
    (k : ℕ) (hk : k + S.length ≤ 2 ^ 50) (acc : ℝ) (hacc : Partial k acc) :
    ∃ v, S.foldl (fun acc s => add acc (f s)) (.fin acc) = .fin v ∧
      S.foldlM (fun acc s => do
        let p ← f' s
        .ok (rndNE (acc + p))) acc = (.ok v : Outcome ℝ) := by
  induction S generalizing k acc with
  | nil => exact ⟨acc, rfl, rfl⟩
  | cons s S ih =>
    obtain ⟨t, h1, h2, h3⟩ := h s (by simp)
    rw [List.length_cons] at hk
    obtain ⟨g1, g2⟩ := hacc.add (by omega) h3
    obtain ⟨v, v1, v2⟩ := ih (fun s hs => h s (by simp [hs])) (k + 1) (by omega) _ g2
    have ea : add (.fin acc) (.fin t) = .fin (rndNE (acc + t)) := rnd64_ok g1
    refine ⟨v, ?_, ?_⟩
    · rw [List.foldl_cons, h1, ea, v1]
    · rw [List.foldlM_cons, h2, ok_bind, ok_bind, v2]

theorem vsum_same {α : Type} {n : ℕ} {F : Flt} (hF : F.rnd = rndNE) (f : α → DVec n) (f' : α → Outcome (Vec n)) (S : List α)
    (h : ∀ s ∈ S, VSame (f s) (f' s)) (k : ℕ) (hk : k + S.length ≤ 2 ^ 50) (acc : Vec n) (hacc : ∀ j, Partial k (acc j)) :
    ∃ v : Vec n, (S.foldl (fun acc s => vadd acc (f s)) (fun j => .fin (acc j)) = fun j => .fin (v j)) ∧
      S.foldlM (fun acc s => do
        let p ← f' s
        .ok (F.vadd acc p)) acc = (.ok v : Outcome (Vec n)) := by
  induction S generalizing k acc with
  | nil => exact ⟨acc, rfl, rfl⟩
  | cons s S ih =>
    obtain ⟨t, h1, h2, h3⟩ := h s (by simp)
    rw [List.length_cons] at hk
    have hg := fun j => (hacc j).add (by omega) (h3 j)
    have ef : F.vadd acc t = fun j => rndNE (acc j + t j) := by unfold Flt.vadd; rw [hF]
    obtain ⟨v, v1, v2⟩ := ih (fun s hs => h s (by simp [hs])) (k + 1) (by omega) (F.vadd acc t) (fun j => by rw [ef]; exact (hg j).2)
    have ea : vadd (fun j => .fin (acc j)) (fun j => .fin (t j)) = fun j => .fin (F.vadd acc t j) := by
      rw [ef]; funext j; exact rnd64_ok (hg j).1
    refine ⟨v, ?_, ?_⟩
    · rw [List.foldl_cons, h1, ea, v1]
    · rw [List.foldlM_cons, h2, ok_bind, ok_bind, v2]

theorem sq_nonneg_dbl (d : Dbl) : mul d d = .nan ∨ mul d d = .inf false ∨ ∃ y, mul d d = .fin y := by
  rcases d with x | s | _
  · by_cases h : ∃ y, rnd64 (x * x) = .fin y
    · exact Or.inr (Or.inr h)
    · right; left
      show rnd64 (x * x) = _
      unfold rnd64 at h ⊢
      dsimp only at h ⊢
      by_cases h1 : |if |x * x| < 2 ^ (-1022 : ℤ) then (roundEven (x * x / 2 ^ (-1074 : ℤ)) : ℝ) * 2 ^ (-1074 : ℤ) else rndNE (x * x)| < 2 ^ (1024 : ℤ)
      · rw [if_pos h1] at h; exact absurd ⟨_, rfl⟩ h
      · rw [if_neg h1]; simp [not_lt.mpr (mul_self_nonneg x)]
  · right; left; cases s <;> rfl
  · left; rfl

theorem rnd64_not_nan (x : ℝ) : rnd64 x ≠ .nan := by
  unfold rnd64
  dsimp only
  by_cases h1 : |if |x| < 2 ^ (-1022 : ℤ) then (roundEven (x / 2 ^ (-1074 : ℤ)) : ℝ) * 2 ^ (-1074 : ℤ) else rndNE x| < 2 ^ (1024 : ℤ)
  · rw [if_pos h1]; simp
  · rw [if_neg h1]; simp

theorem sq_diff (s : Source 2) (x : Vec 2) (k : Fin 2) :
    mul (vsub s.pos x k) (vsub s.pos x k) = .inf false ∨ ∃ y, mul (vsub s.pos x k) (vsub s.pos x k) = .fin y := by
  rcases sq_nonneg_dbl (vsub s.pos x k) with h | h
  · exfalso
    cases hd : vsub s.pos x k with
    | fin y => rw [hd] at h; exact rnd64_not_nan _ h
    | inf s => rw [hd] at h; cases s <;> simp [mul] at h
    | nan => exact rnd64_not_nan _ hd
  · exact h

end FMM.D64
