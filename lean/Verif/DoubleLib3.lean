import Verif.DoubleBox3
import Verif.DoubleLemmas
import Verif.FltIeee3
import Mathlib.Data.Nat.Factorial.Basic

/-!
# Binary64 without a largest number, and a library for `double`s

Library functions return the rounded exact values.
-/

namespace FMM.D64
open FMM Rounded

/-- `double` without a largest number. -/
noncomputable def flt64 : Flt3 := Flt3.ofRnd rndU

theorem rndU_one {x : ℝ} (h : |x| ≤ 1) : |rndU x| ≤ 1 := by
  have : |rndU x| ≤ 2 ^ (0 : ℤ) := rndU_le (by norm_num) (by norm_num) (by simpa using h)
  simpa using this

theorem flt64_is : Is64 flt64 := ⟨fun _ => rfl, fun _ _ => rfl, fun _ => rfl, fun t => rndU_one (Real.abs_cos_le_one t)⟩

/-- The value, or 0. -/
def val {α : Type} (z : α) : Outcome α → α
  | .ok a => a
  | .error _ => z

/-- A finite complex number. -/
def cfin (z : ℂ) : DC := ⟨.fin z.re, .fin z.im⟩

theorem agrC_cfin (z : ℂ) : AgrC (cfin z) z := ⟨agr_fin _, agr_fin _⟩

/-- The finite part of a `double`. -/
def real : Dbl → ℝ
  | .fin x => x
  | _ => 0

/-- The library functions of `F` on finite `double`s. -/
noncomputable def libOf (F : Flt3) : Lib where
  ang v := (.fin (F.sph (fun j => real (v j)) 1), .fin (F.sph (fun j => real (v j)) 2))
  ylm lmax a l m := match Fl3.ylm F lmax (real a.1) (real a.2) with
    | .ok Y => cfin (val 0 (Y.get l m))
    | .error _ => czero
  ylmD lmax a l m := match Fl3.ylmD F lmax (real a.1) (real a.2) with
    | .ok Y => (cfin (val 0 (Y.Y l m)), cfin (val 0 (Y.dYdtheta l m)), cfin (val 0 (Fl3.dYdphi F Y l m)))
    | .error _ => (czero, czero, czero)
  sin t := .fin (F.rsin (real t))
  cos t := .fin (F.rcos (real t))
  alm n m := .fin (F.alm n m (aSpec n m))
  sign1 k m := .fin (sg1 k m)
  sign2 k m := .fin (sg2 k m)
  sign3 k m := .fin (sg3 k m)

theorem libOf_of {F : Flt3} (h : ∀ (n : ℕ) (m : ℤ), n ≤ 84 → |m| ≤ n → F.alm n m (aSpec n m) ≠ 0) : LibOf (libOf F) F where
  ang _ := rfl
  ylm lmax θ φ Y l m y e _ _ hy := by
    have : (libOf F).ylm lmax (.fin θ, .fin φ) l m = cfin y := by
      show (match Fl3.ylm F lmax θ φ with | .ok Y => cfin (val 0 (Y.get l m)) | .error _ => czero) = _
      rw [e]; dsimp only; rw [hy]; rfl
    rw [this]; exact agrC_cfin _
  ylmD lmax θ φ Y l m y dt dp e _ _ h1 h2 h3 := by
    have : (libOf F).ylmD lmax (.fin θ, .fin φ) l m = (cfin y, cfin dt, cfin dp) := by
      show (match Fl3.ylmD F lmax θ φ with
        | .ok Y => (cfin (val 0 (Y.Y l m)), cfin (val 0 (Y.dYdtheta l m)), cfin (val 0 (Fl3.dYdphi F Y l m))) | .error _ => (czero, czero, czero)) = _
      rw [e]; dsimp only; rw [h1, h2, h3]; rfl
    rw [this]; exact ⟨agrC_cfin _, agrC_cfin _, agrC_cfin _⟩
  sin _ := rfl
  cos _ := rfl
  alm n m hn hm := ⟨rfl, h n m hn hm⟩
  sign1 _ _ := rfl
  sign2 _ _ := rfl
  sign3 _ _ := rfl

theorem rndU_bnd {a b : ℤ} {x : ℝ} (ha : -1022 ≤ a) (h : Bnd a b x) : Bnd a b (rndU x) := by
  have h1 : ¬ |x| < 2 ^ (-1022 : ℤ) := not_lt.mpr ((two_pow_mono ha).trans h.1)
  unfold rndU
  rw [if_neg h1]
  exact h.rnd

theorem rndU_nonneg {x : ℝ} (hx : 0 ≤ x) : 0 ≤ rndU x := by
  unfold rndU
  by_cases c : |x| < 2 ^ (-1022 : ℤ)
  · rw [if_pos c]
    refine mul_nonneg ?_ (two_pow_pos _).le
    exact_mod_cast le_roundEven (m := 0) (by push_cast; positivity)
  · rw [if_neg c]; exact rndNE_nonneg hx

theorem rndU_pow {k : ℤ} (hk : -1022 ≤ k) : rndU (2 ^ k) = 2 ^ k := by
  have e : |(2 : ℝ) ^ k| = 2 ^ k := abs_of_pos (two_pow_pos k)
  have h := rndU_bnd (x := (2 : ℝ) ^ k) hk ⟨e.ge, e.le⟩
  have := le_antisymm h.2 h.1
  rwa [abs_of_nonneg (rndU_nonneg (two_pow_pos k).le)] at this

theorem rndU_zero : rndU 0 = 0 := by
  have := agr_rnd 0 0 rnd64_zero
  exact this.symm

theorem fact_bnd {k : ℕ} (hk : k ≤ 168) : Bnd 0 1010 ((k.factorial : ℕ) : ℝ) := by
  have h1 : 1 ≤ k.factorial := k.factorial_pos
  have h2 : k.factorial ≤ 2 ^ 1010 := (Nat.factorial_le hk).trans (by decide +kernel)
  have e : |((k.factorial : ℕ) : ℝ)| = (k.factorial : ℕ) := abs_of_nonneg (Nat.cast_nonneg _)
  refine ⟨?_, ?_⟩
  · rw [e, zpow_zero]; exact_mod_cast h1
  · rw [e, show (1010 : ℤ) = ((1010 : ℕ) : ℤ) by rfl, zpow_natCast]
    exact_mod_cast h2

theorem bnd_rsqrt {b : ℤ} {x : ℝ} (hx : Bnd 0 (b + b) x) (h0 : 0 ≤ x) : Bnd 0 b (Real.sqrt x) := by
  have e := hx
  unfold Bnd at e ⊢
  rw [abs_of_nonneg h0] at e
  rw [abs_of_nonneg (Real.sqrt_nonneg x)]
  refine ⟨?_, ?_⟩
  · rw [zpow_zero] at e ⊢; exact Real.one_le_sqrt.mpr e.1
  · refine Real.sqrt_le_iff.mpr ⟨(two_pow_pos b).le, ?_⟩
    rw [sq, ← zpow_add₀ (by norm_num)]; exact e.2

theorem flt64_alm (n : ℕ) (m : ℤ) (hn : n ≤ 84) (hm : |m| ≤ n) : flt64.alm n m (aSpec n m) ≠ 0 := by
  show almRnd rndU n m ≠ 0
  obtain ⟨m1, m2⟩ := abs_le.mp hm
  have a1 := rndU_bnd (by norm_num) (fact_bnd (k := (n - m).toNat) (by omega))
  have a2 := rndU_bnd (by norm_num) (fact_bnd (k := (n + m).toNat) (by omega))
  have a3 := rndU_bnd (by norm_num) (a1.mul a2)
  set z := rndU (rndU ((n - m).toNat.factorial : ℝ) * rndU ((n + m).toNat.factorial : ℝ)) with hz
  have hnn : 0 ≤ z := by
    have r0 : ∀ x : ℝ, 0 ≤ x → 0 ≤ rndU x := fun x hx => rndU_nonneg hx
    exact r0 _ (mul_nonneg (r0 _ (Nat.cast_nonneg _)) (r0 _ (Nat.cast_nonneg _)))
  have a4 := rndU_bnd (by norm_num) (bnd_rsqrt (b := 1010) (by simpa using a3) hnn)
  have a5 : Bnd (-1010) 0 ((if n % 2 = 0 then 1 else -1) / rndU (Real.sqrt z)) := by
    have := a4.inv
    rw [neg_zero] at this
    by_cases c : n % 2 = 0
    · rw [if_pos c, one_div]; exact this
    · rw [if_neg c, neg_div, one_div]; exact this.neg
  exact (rndU_bnd (by norm_num) a5).ne

theorem lib64 : LibOf (libOf flt64) flt64 := libOf_of flt64_alm

end FMM.D64
