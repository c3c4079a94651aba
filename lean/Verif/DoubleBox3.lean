import Verif.DoubleAgree3
import Verif.TreeInv

/-!
# Size of the centres of the boxes

With coordinates of the sources up to `2^(B-3)`, the computed centres of all boxes of a tree of any depth are at most `2^B` (`B` between 0 and 1000).
-/

namespace FMM.D64
open FMM Rounded
variable {d : ℕ} {x : ℝ}

theorem rndU_le {b : ℤ} (h1 : -1022 ≤ b) (h2 : b ≤ 1023) (h : |x| ≤ 2 ^ b) : |rndU x| ≤ 2 ^ b := (rnd64_fin h h1 h2).2

theorem rndU_small (h : |x| < 2 ^ (-1022 : ℤ)) : |rndU x| ≤ 2 ^ (-1022 : ℤ) := rndU_le le_rfl (by norm_num) h.le

/-- Rounding does not pass a number of the grid. -/
theorem rndU_grid {m : ℕ} {e b : ℤ} (hx : |x| < 2 ^ (b + 1)) (he : b - 52 ≤ e) (h0 : (2 : ℝ) ^ (-1022 : ℤ) ≤ m * 2 ^ e) (h : |x| ≤ m * 2 ^ e) :
    |rndU x| ≤ m * 2 ^ e := by
  by_cases hs : |x| < 2 ^ (-1022 : ℤ)
  · exact (rndU_small hs).trans h0
  · have e1 : rndU x = rndNE x := if_neg hs
    have hx0 : x ≠ 0 := by
      rintro rfl
      rw [abs_zero] at hs
      exact hs (two_pow_pos _)
    have hlog : Int.log 2 |x| < b + 1 := by
      by_contra hc
      push Not at hc
      exact absurd ((two_pow_mono hc).trans (log_le hx0)) (not_le.mpr hx)
    have hu : ulpExp x ≤ e := by unfold ulpExp; omega
    obtain ⟨k, hk⟩ := Int.eq_ofNat_of_zero_le (sub_nonneg.mpr hu)
    have e2 : (m : ℝ) * 2 ^ e = ((m * 2 ^ k : ℕ) : ℝ) * 2 ^ ulpExp x := by
      rw [show e = (k : ℤ) + ulpExp x by omega, zpow_add₀ (by norm_num), zpow_natCast]
      push_cast
      ring
    rw [e1, abs_rndNE, e2]
    refine mul_le_mul_of_nonneg_right (abs_roundEven_le ?_) (two_pow_pos _).le
    rw [abs_scaled, div_le_iff₀ (two_pow_pos _), ← e2]
    exact h

/-- Less than half a unit above a power of two is lost. -/
theorem rndU_absorb {b : ℤ} (h1 : -1022 ≤ b) (h2 : b ≤ 1023) (h : |x| ≤ 2 ^ b + 2 ^ (b - 54)) : |rndU x| ≤ 2 ^ b := by
  by_cases hb : |x| ≤ 2 ^ b
  · exact rndU_le h1 h2 hb
  push Not at hb
  have hx0 : x ≠ 0 := by
    rintro rfl
    rw [abs_zero] at hb
    exact absurd (two_pow_pos b) (not_lt.mpr hb.le)
  have hs : ¬ |x| < 2 ^ (-1022 : ℤ) := not_lt.mpr ((two_pow_mono h1).trans hb.le)
  have e1 : rndU x = rndNE x := if_neg hs
  have hlog : Int.log 2 |x| = b := by
    apply le_antisymm
    · by_contra hc
      push Not at hc
      have g1 := (two_pow_mono (show b + 1 ≤ Int.log 2 |x| by omega)).trans (log_le hx0)
      rw [← two_mul_pow] at g1
      have g2 : (2 : ℝ) ^ (b - 54) < 2 ^ b := zpow_lt_zpow_right₀ (by norm_num) (by omega)
      linarith
    · refine (Int.zpow_le_iff_le_log (R := ℝ) (b := 2) (by norm_num) (abs_pos.mpr hx0)).mp ?_
      exact_mod_cast hb.le
  have hu : ulpExp x = b - 52 := by unfold ulpExp; rw [hlog]
  have e2 : (2 : ℝ) ^ b = ((2 ^ 52 : ℕ) : ℝ) * 2 ^ (b - 52) := by
    rw [Nat.cast_pow, Nat.cast_ofNat, ← zpow_natCast, ← zpow_add₀ (by norm_num)]
    congr 1
    push_cast
    ring
  have e3 : (2 : ℝ) ^ (b - 54) = 1 / 4 * 2 ^ (b - 52) := by
    rw [show b - 54 = -2 + (b - 52) by ring, zpow_add₀ (by norm_num)]
    norm_num
  rw [e1, abs_rndNE, hu, e2]
  refine mul_le_mul_of_nonneg_right ?_ (two_pow_pos _).le
  have g1 : |x / 2 ^ (b - 52)| ≤ ((2 ^ 52 : ℕ) : ℝ) + 1 / 4 := by
    rw [abs_scaled, div_le_iff₀ (two_pow_pos _), add_mul, ← e2, ← e3]
    exact h
  have g2 : ((2 ^ 52 : ℕ) : ℝ) ≤ |x / 2 ^ (b - 52)| := by
    rw [abs_scaled, le_div_iff₀ (two_pow_pos _), ← e2]
    exact hb.le
  generalize x / 2 ^ (b - 52) = y at g1 g2 ⊢
  generalize (2 ^ 52 : ℕ) = N at g1 g2 ⊢
  rcases le_total 0 y with hy | hy
  · rw [abs_of_nonneg hy] at g1 g2
    have : roundEven y = (N : ℤ) := roundEven_eq (by rw [abs_lt, Int.cast_natCast]; constructor <;> linarith)
    rw [this, Int.cast_natCast, Nat.abs_cast]
  · rw [abs_of_nonpos hy] at g1 g2
    have : roundEven y = -(N : ℤ) := roundEven_eq (by rw [abs_lt, Int.cast_neg, Int.cast_natCast]; constructor <;> linarith)
    rw [this, Int.cast_neg, Int.cast_natCast, abs_neg, Nat.abs_cast]

variable {B : ℤ}

/-- A box at depth at least `k` of a tree. -/
def BoxAt (B : ℤ) (k : ℕ) (b : Box d) : Prop := |b.len| ≤ 2 ^ (B - 1 - k : ℤ) ∧ ∀ j, |b.center j| ≤ ((2 ^ (k + 1) - 1 : ℕ) : ℝ) * 2 ^ (B - 1 - k : ℤ)

/-- A box of a tree. -/
def BoxMod (B : ℤ) (b : Box d) : Prop := (∃ k ≤ 52, BoxAt B k b) ∨ (|b.len| ≤ 2 ^ (B - 54) ∧ ∀ j, |b.center j| ≤ 2 ^ B)

theorem bound_eq (k : ℕ) : ((2 ^ (k + 1) - 1 : ℕ) : ℝ) * 2 ^ (B - 1 - k : ℤ) = 2 ^ B - 2 ^ (B - 1 - k : ℤ) := by
  rw [Nat.cast_sub Nat.one_le_two_pow, sub_mul, Nat.cast_pow, Nat.cast_ofNat, Nat.cast_one, one_mul, ← zpow_natCast, ← zpow_add₀ (by norm_num)]
  congr 2
  push_cast
  ring

theorem BoxMod.center {b : Box d} (h : BoxMod B b) (j : Fin d) : |b.center j| ≤ 2 ^ B := by
  rcases h with ⟨k, -, -, h⟩ | ⟨-, h⟩
  · have := h j
    rw [bound_eq] at this
    have := two_pow_pos (B - 1 - k : ℤ)
    linarith
  · exact h j

theorem half_le {y : ℝ} {b : ℤ} (h1 : -1021 ≤ b) (h2 : b ≤ 1023) (h : |y| ≤ 2 ^ b) : |rndU (y / 2)| ≤ 2 ^ (b - 1) := by
  refine rndU_le (by omega) (by omega) ?_
  rw [abs_div, abs_two, div_le_iff₀ (by norm_num), mul_comm, two_mul_pow, sub_add_cancel]
  exact h

theorem dir_abs (d i : ℕ) (j : Fin d) : |(dir d i : Pt ℝ d) j| = 1 := by
  unfold dir
  by_cases h : i.testBit (d - j - 1) = true
  · rw [if_pos h]; norm_num
  · rw [if_neg h]; norm_num

/-- The children of a box. -/
theorem BoxMod.child (hB : 100 ≤ B) (hB' : B ≤ 1000) {rnd : ℝ → ℝ} (hr : ∀ x, rnd x = rndU x) {b : Box d} (h : BoxMod B b) (i : ℕ) : BoxMod B ((toR b).child rnd i).exact := by
  have hr' : rnd = rndU := funext hr
  subst hr'
  have off : ∀ {e : ℤ}, -1000 ≤ e → e ≤ 1000 → |b.len| ≤ 2 ^ e → |rndU (b.len / 2)| ≤ 2 ^ (e - 1) ∧
      ∀ j, |Rounded.vscale rndU (dir d i) (rndU (rndU (b.len / 2) / 2)) j| ≤ 2 ^ (e - 2) := by
    intro e h1 h2 hl
    have k1 := half_le (by omega) (by omega) hl
    have k2 := half_le (by omega) (by omega) k1
    refine ⟨k1, fun j => ?_⟩
    show |rndU (dir d i j * rndU (rndU (b.len / 2) / 2))| ≤ _
    refine rndU_le (by omega) (by omega) ?_
    rw [abs_mul, dir_abs, one_mul]
    rw [show e - 1 - 1 = e - 2 by ring] at k2
    exact k2
  rcases h with ⟨k, hk, h1, h2⟩ | ⟨h1, h2⟩
  · obtain ⟨o1, o2⟩ := off (e := B - 1 - k) (by omega) (by omega) h1
    have hsum : ∀ j, |b.center j + Rounded.vscale rndU (dir d i) (rndU (rndU (b.len / 2) / 2)) j| ≤ 2 ^ B - 2 ^ (B - 1 - (k + 1 : ℕ) : ℤ) := by
      intro j
      refine (abs_add_le _ _).trans ?_
      have a1 := h2 j
      have a2 := o2 j
      rw [bound_eq] at a1
      have e1 := two_mul_pow (B - 1 - (k + 1 : ℕ))
      have e2 := two_mul_pow (B - 1 - k - 2)
      rw [show (B - 1 - (k + 1 : ℕ) + 1 : ℤ) = B - 1 - k by push_cast; ring] at e1
      rw [show (B - 1 - k - 2 + 1 : ℤ) = B - 1 - (k + 1 : ℕ) by push_cast; ring] at e2
      generalize (2 : ℝ) ^ B = Q at a1 ⊢
      have := two_pow_pos (B - 1 - k - 2 : ℤ)
      linarith
    by_cases hk' : k + 1 ≤ 52
    · refine .inl ⟨k + 1, hk', ?_, fun j => ?_⟩
      · show |rndU (b.len / 2)| ≤ _
        rw [show (B - 1 - (k + 1 : ℕ) : ℤ) = B - 1 - k - 1 by push_cast; ring]
        exact o1
      · show |rndU (b.center j + _)| ≤ _
        refine rndU_grid (b := B - 1) ?_ (by push_cast; omega) ?_ (by rw [bound_eq]; exact hsum j)
        · rw [sub_add_cancel]
          have := two_pow_pos (B - 1 - (k + 1 : ℕ) : ℤ)
          exact lt_of_le_of_lt (hsum j) (sub_lt_self _ this)
        · rw [bound_eq]
          have e1 : (2 : ℝ) ^ (B - 1 - (k + 1 : ℕ) : ℤ) ≤ 2 ^ (B - 1) := two_pow_mono (by push_cast; omega)
          have e2 : (2 : ℝ) ^ B = 2 * 2 ^ (B - 1) := by rw [two_mul_pow, sub_add_cancel]
          have e3 : (2 : ℝ) ^ (-1022 : ℤ) ≤ 2 ^ (B - 1) := two_pow_mono (by omega)
          rw [e2]
          generalize (2 : ℝ) ^ (B - 1) = Q at e1 e3 ⊢
          generalize (2 : ℝ) ^ (-1022 : ℤ) = q at e3 ⊢
          linarith
    · have hk2 : k = 52 := by omega
      subst hk2
      refine .inr ⟨?_, fun j => ?_⟩
      · show |rndU (b.len / 2)| ≤ _
        rw [show B - 54 = B - 1 - (52 : ℕ) - 1 by push_cast; ring]
        exact o1
      · show |rndU (b.center j + _)| ≤ _
        refine rndU_le (by omega) (by omega) ((hsum j).trans ?_)
        have := two_pow_pos (B - 1 - (52 + 1 : ℕ) : ℤ)
        linarith
  · obtain ⟨o1, o2⟩ := off (e := B - 54) (by omega) (by omega) h1
    refine .inr ⟨?_, fun j => ?_⟩
    · show |rndU (b.len / 2)| ≤ _
      exact o1.trans (two_pow_mono (by omega))
    · show |rndU (b.center j + _)| ≤ _
      refine rndU_absorb (by omega) (by omega) ?_
      refine (abs_add_le _ _).trans (add_le_add (h2 j) ?_)
      exact (o2 j).trans (two_pow_mono (by omega))

/-! ## The root -/

theorem sum_le {y z : ℝ} {b : ℤ} (hy : |y| ≤ 2 ^ b) (hz : |z| ≤ 2 ^ b) : |y + z| ≤ 2 ^ (b + 1) :=
  (abs_add_le _ _).trans ((add_le_add hy hz).trans_eq (by rw [← two_mul, two_mul_pow]))

theorem sum_le' {y z : ℝ} {b c : ℤ} (hc : c = b + 1) (hy : |y| ≤ 2 ^ b) (hz : |z| ≤ 2 ^ b) : |y + z| ≤ 2 ^ c := hc ▸ sum_le hy hz

theorem extremum_mem {better : ℝ → ℝ → Bool} {l : List ℝ} {c : ℝ} (h : ∀ y ∈ l, |y| ≤ c) (hc : 0 ≤ c) : |(extremum better l).getD 0| ≤ c := by
  cases l with
  | nil => simpa [extremum] using hc
  | cons a l =>
    show |l.foldl _ a| ≤ c
    have ha := h a (by simp)
    have hl : ∀ y ∈ l, |y| ≤ c := fun y hy => h y (by simp [hy])
    clear h
    induction l generalizing a with
    | nil => exact ha
    | cons b l ih =>
      rw [List.foldl_cons]
      refine ih _ ?_ (fun y hy => hl y (by simp [hy]))
      by_cases hb : better b a = true
      · rw [if_pos hb]; exact hl b (by simp)
      · rw [if_neg hb]; exact ha

theorem sourceBox_mod (hB : 100 ≤ B) (hB' : B ≤ 1000) {rnd : ℝ → ℝ} (hr : ∀ x, rnd x = rndU x) {S : List (Source d)} (hS : ∀ s ∈ S, ∀ j, |s.pos j| ≤ 2 ^ (B - 3)) {r : RBox ℝ d}
    (h : sourceBox rnd S = some r) : BoxMod B r.exact := by
  have hr' : rnd = rndU := funext hr
  subst hr'
  unfold sourceBox at h
  by_cases hE : S = []
  · rw [if_pos hE] at h; cases h
  rw [if_neg hE] at h
  injection h with h
  subst h
  have hpad : |rndU (1 / 100000)| ≤ 1 := by
    have : |rndU (1 / 100000)| ≤ 2 ^ (0 : ℤ) := rndU_le (by norm_num) (by norm_num) (by norm_num [abs_of_pos])
    simpa using this
  have hP := fun b => two_pow_pos b
  have pad : ∀ z : ℝ, |z| ≤ 2 ^ (B - 3) → |rndU (z + rndU (z * rndU (1 / 100000)))| ≤ 2 ^ (B - 2) := by
    intro z hz
    refine rndU_le (by omega) (by omega) (sum_le' (b := B - 3) (by ring) hz ?_)
    have a1 : |rndU (z * rndU (1 / 100000))| ≤ 2 ^ (B - 3) := by
      refine rndU_le (by omega) (by omega) ?_
      rw [abs_mul]
      exact (mul_le_mul hz hpad (abs_nonneg _) (hP _).le).trans (by rw [mul_one])
    exact a1
  have b1 : ∀ i, |(dataRange rndU (rndU (1 / 100000)) (S.map Source.pos)).1 i| ≤ 2 ^ (B - 2) := fun i => by
    refine pad _ (extremum_mem (fun y hy => ?_) (hP _).le)
    simp only [List.map_map, List.mem_map, Function.comp] at hy
    obtain ⟨s, hs, rfl⟩ := hy
    exact hS s hs i
  have b2 : ∀ i, |(dataRange rndU (rndU (1 / 100000)) (S.map Source.pos)).2 i| ≤ 2 ^ (B - 2) := fun i => by
    refine pad _ (extremum_mem (fun y hy => ?_) (hP _).le)
    simp only [List.map_map, List.mem_map, Function.comp] at hy
    obtain ⟨s, hs, rfl⟩ := hy
    exact hS s hs i
  refine .inl ⟨0, by norm_num, ?_, fun j => ?_⟩
  · show |(extremum _ (List.ofFn _)).getD 0| ≤ _
    rw [Nat.cast_zero, sub_zero]
    refine extremum_mem (fun y hy => ?_) (hP _).le
    rw [List.mem_ofFn] at hy
    obtain ⟨i, rfl⟩ := hy
    show |rndU (_ + rndU (_ * (-1)))| ≤ _
    refine rndU_le (by omega) (by omega) (sum_le' (b := B - 2) (by ring) (b2 i) ?_)
    have a1 : |rndU ((dataRange rndU (rndU (1 / 100000)) (S.map Source.pos)).1 i * (-1))| ≤ 2 ^ (B - 2) := by
      refine rndU_le (by omega) (by omega) ?_
      rw [mul_neg_one, abs_neg]
      exact b1 i
    exact a1
  · rw [bound_eq, Nat.cast_zero, sub_zero]
    have e299 : (2 : ℝ) ^ B - 2 ^ (B - 1) = 2 ^ (B - 1) := by
      rw [show (2 : ℝ) ^ B = 2 * 2 ^ (B - 1) by rw [two_mul_pow, sub_add_cancel]]; ring
    rw [e299]
    show |rndU (rndU (_ + _) * (1 / 2))| ≤ _
    refine rndU_le (by omega) (by omega) ?_
    have a1 : |rndU ((dataRange rndU (rndU (1 / 100000)) (S.map Source.pos)).1 j + (dataRange rndU (rndU (1 / 100000)) (S.map Source.pos)).2 j)| ≤ 2 ^ (B - 1) := by
      exact rndU_le (by omega) (by omega) (sum_le' (b := B - 2) (by ring) (b1 j) (b2 j))
    rw [abs_mul]
    have : |(1 / 2 : ℝ)| ≤ 1 := by norm_num [abs_of_pos]
    exact (mul_le_mul a1 this (abs_nonneg _) (hP _).le).trans (by rw [mul_one])

end FMM.D64
