import Verif.LowVec3

/-!
# Runs of the three-dimensional operations with gradual underflow

The majorants of single coefficients, harmonics and powers are positive where the computed values are not, so that each product
of majorants is above the floor.
-/

namespace FMM
open Finset

namespace Lo3
open Fl3 hiding loopM_ap loopZ_ap alm_ap alm_inv cdr_ap divR_ap
variable {F : Flt3} {u g η ρ θ τ ν : ℝ}

theorem pow_six_le (hF : F.Low u g η ρ) : (1 + u) ^ 6 ≤ 3 / 2 := by
  have h1 := hF.nonneg
  have h2 := hF.small
  calc (1 + u) ^ 6 ≤ (17 / 16) ^ 6 := pow_le_pow_left₀ (by linarith) (by linarith) 6
    _ ≤ 3 / 2 := by norm_num

theorem alm_ap (hF : F.Low u g η ρ) {n : ℕ} {m : ℤ} (hn : n ≤ 84) (hm : |m| ≤ n) :
    Ap u 6 |aSpec n m| (F.alm n m (aSpec n m)) (aSpec n m) := ⟨hF.alm n m hn hm, le_rfl⟩

theorem alm_inv (hF : F.Low u g η ρ) {n : ℕ} {m : ℤ} (hn : n ≤ 84) (hm : |m| ≤ n) :
    F.alm n m (aSpec n m) ≠ 0 ∧ Ap u 12 |aSpec n m|⁻¹ (F.alm n m (aSpec n m))⁻¹ (aSpec n m)⁻¹ :=
  Ap.invk hF.nonneg 6 (pow_six_le hF) (aSpec_ne_zero n m) (hF.alm n m hn hm)

theorem cdr_ap {F : Flt} (hF : F.Low u η ρ) {n k : ℕ} {M N : ℝ} {x' x : ℂ} {b' b : ℝ} (h : Ap u n M x' x) (hb : Ap u k N b'⁻¹ b⁻¹)
    (hf : Flr η (M * N)) : Ap u (n + k + 1) (M * N) (F.cdr x' b') (x / b) := by
  refine Ap.roundf hF.nonneg (y := x' / b') ?_ hf (hF.cdr_err _ _) fun h0 => ?_
  · have := h.mul hF.nonneg hb.ofReal
    rw [Complex.ofReal_inv, Complex.ofReal_inv] at this
    simpa [div_eq_mul_inv] using this
  · rw [Flt.Low.cdr_eq] at h0
    exact hF.pair0 h0

theorem divR_ap (hF : F.Low u g η ρ) {n k : ℕ} {M N : ℝ} {a' a b' b : ℝ} (h : Ap u n M a' a) (h0 : b' ≠ 0) (hb : Ap u k N b'⁻¹ b⁻¹)
    (hf : Flr η (M * N)) : Fl3.divR F a' b' = .ok (F.rnd (a' / b')) ∧ Ap u (n + k + 1) (M * N) (F.rnd (a' / b')) (a / b) := by
  refine ⟨by rw [Fl3.divR, if_neg h0], ?_⟩
  have := hF.rrnd (h.mul hF.nonneg hb) hf
  rwa [← div_eq_mul_inv, ← div_eq_mul_inv a] at this

/-! ## Majorants -/

/-- Majorants of coefficients. -/
structure Maj (θ τ ν : ℝ) (p : ℕ) (a : ℕ → ℤ → ℂ) (α : ℕ → ℤ → ℝ) : Prop where
  le : ∀ n m, ‖a n m‖ ≤ α n m
  fl : ∀ n ≤ p, ∀ m, Flr (τ * ν * θ ^ (p + 1)) (α n m)

/-- Majorants of harmonics. -/
structure MajY (ν : ℝ) (y : ℕ → ℤ → ℂ) (b : ℕ → ℤ → ℝ) : Prop where
  le : ∀ n m, ‖y n m‖ ≤ b n m
  ge : ∀ n m, ν ≤ b n m

/-- Majorants of powers. -/
structure MajP (θ ν : ℝ) (p N : ℕ) (P π : ℕ → ℝ) : Prop where
  le : ∀ n, ‖P n‖ ≤ π n
  ge : ∀ n ≤ N, ν * θ ^ (2 * p + 1) ≤ π n

theorem Maj.nonneg {p : ℕ} {a : ℕ → ℤ → ℂ} {α : ℕ → ℤ → ℝ} (h : Maj θ τ ν p a α) (n : ℕ) (m : ℤ) : 0 ≤ α n m := (norm_nonneg _).trans (h.le n m)
theorem Maj.ap {p : ℕ} {a : ℕ → ℤ → ℂ} {α : ℕ → ℤ → ℝ} (h : Maj θ τ ν p a α) (n : ℕ) (m : ℤ) : Ap u 0 (α n m) (a n m) (a n m) := Ap.refl (h.le n m)
theorem MajY.nonneg {y : ℕ → ℤ → ℂ} {b : ℕ → ℤ → ℝ} (h : MajY ν y b) (n : ℕ) (m : ℤ) : 0 ≤ b n m := (norm_nonneg _).trans (h.le n m)
theorem MajY.ap {y : ℕ → ℤ → ℂ} {b : ℕ → ℤ → ℝ} (h : MajY ν y b) (n : ℕ) (m : ℤ) : Ap u 0 (b n m) (y n m) (y n m) := Ap.refl (h.le n m)
theorem MajP.nonneg {p N : ℕ} {P π : ℕ → ℝ} (h : MajP θ ν p N P π) (n : ℕ) : 0 ≤ π n := (norm_nonneg _).trans (h.le n)
theorem MajP.ap {p N : ℕ} {P π : ℕ → ℝ} (h : MajP θ ν p N P π) (n : ℕ) : Ap u 0 (π n) (P n) (P n) := Ap.refl (h.le n)
theorem MajY.mk' (hν : 0 ≤ ν) (y : ℕ → ℤ → ℂ) : MajY ν y (fun n m => ‖y n m‖ + ν) :=
  ⟨fun _ _ => by linarith, fun n m => by linarith [norm_nonneg (y n m)]⟩
theorem MajP.mk' {p N : ℕ} (hν : 0 ≤ ν) (P : ℕ → ℝ) {ζ : ℕ → ℝ} (hζ : ∀ n, 0 ≤ ζ n) (hζ' : ∀ n ≤ N, θ ^ (2 * p + 1) ≤ ζ n) :
    MajP θ ν p N P (fun n => ‖P n‖ + ν * ζ n) :=
  ⟨fun n => by linarith [mul_nonneg hν (hζ n)], fun n hn => by linarith [norm_nonneg (P n), mul_le_mul_of_nonneg_left (hζ' n hn) hν]⟩

theorem _root_.FMM.Scale3.flc {p : ℕ} {c : ℝ} (hs : Scale3 u η θ τ ν p) (hc : aMin p ≤ c) {i k : ℕ} (hi : i ≤ 3) (hk : k ≤ 3 * p + 2) :
    η ≤ c * (τ * ν ^ i * θ ^ k) :=
  (hs.fl hi hk).trans (mul_le_mul_of_nonneg_right hc
    (mul_nonneg (mul_nonneg hs.tau0.le (pow_nonneg hs.nu0 _)) (pow_nonneg hs.th0.le _)))

section
variable {p N : ℕ} {a y : ℕ → ℤ → ℂ} {α b : ℕ → ℤ → ℝ} {P π : ℕ → ℝ} {n l : ℕ} {m m' : ℤ} {c w S : ℝ}
  (hs : Scale3 u η θ τ ν p) (hα : Maj θ τ ν p a α) (hb : MajY ν y b) (hπ : MajP θ ν p N P π)
include hs

theorem x_nonneg (i k : ℕ) : 0 ≤ τ * ν ^ i * θ ^ k := mul_nonneg (mul_nonneg hs.tau0.le (pow_nonneg hs.nu0 _)) (pow_nonneg hs.th0.le _)

theorem MajP.flr (hπ : MajP θ ν p N P π) (hn : n ≤ N) : Flr η (π n) := by
  refine Or.inr (le_trans ?_ (hπ.ge n hn))
  have := hs.fl2 (i := 1) (k := 2 * p + 1) (by omega) (by omega)
  rwa [pow_one] at this

include hα in
theorem flr_abx (hb : MajY ν y b) (hn : n ≤ p) : Flr (τ * ν ^ 2 * θ ^ (p + 1)) (α n m * b l m') := by
  have h := (hα.fl n hn m).mulge (hb.ge l m') (by have := x_nonneg hs 1 (p + 1); rwa [pow_one] at this) hs.nu0
  rwa [show τ * ν * θ ^ (p + 1) * ν = τ * ν ^ 2 * θ ^ (p + 1) by ring] at h

include hα in
theorem flr_ab (hb : MajY ν y b) (hn : n ≤ p) : Flr η (α n m * b l m') :=
  (flr_abx hs hα hb hn).mono (hs.fl1 (by omega) (by omega))

include hα hb in
theorem flr_term (hn : n ≤ p) (hc : aMin p ≤ c) (hw : c ≤ w) : Flr (c * (τ * ν ^ 2 * θ ^ (p + 1))) (w * (α n m * b l m')) :=
  Flr.gemul hw (flr_abx hs hα hb hn) (x_nonneg hs 2 (p + 1)) ((aMin_pos p).le.trans hc)

include hπ in
theorem flr_pi3 (hc : aMin p ≤ c) (hn : n ≤ N) (hS : Flr (c * (τ * ν ^ 2 * θ ^ (p + 1))) S) :
    Flr (c * (τ * ν ^ 3 * θ ^ (3 * p + 2))) (π n * S) := by
  have h := Flr.gemul (hπ.ge n hn) hS (mul_nonneg ((aMin_pos p).le.trans hc) (x_nonneg hs 2 (p + 1)))
    (mul_nonneg hs.nu0 (pow_nonneg hs.th0.le _))
  rwa [show ν * θ ^ (2 * p + 1) * (c * (τ * ν ^ 2 * θ ^ (p + 1))) = c * (τ * ν ^ 3 * θ ^ (3 * p + 2)) by
    rw [show 3 * p + 2 = 2 * p + 1 + (p + 1) by omega, pow_add]; ring] at h

include hπ in
theorem flr_pi (hc : aMin p ≤ c) (hn : n ≤ N) (hS : Flr (c * (τ * ν ^ 2 * θ ^ (p + 1))) S) : Flr η (π n * S) :=
  (flr_pi3 hs hπ hc hn hS).mono (hs.flc hc le_rfl le_rfl)

theorem flr_last (hw : aMin p ≤ w) (hS : Flr (1 * (τ * ν ^ 3 * θ ^ (3 * p + 2))) S) : Flr η (w * S) := by
  rw [one_mul] at hS
  exact (Flr.gemul hw hS (x_nonneg hs 3 _) (aMin_pos p).le).mono (hs.fl le_rfl le_rfl)

include hα hπ in
theorem flr_pa (hn : n ≤ p) (hl : l ≤ N) : Flr η (π l * α n m) := by
  have h := Flr.gemul (hπ.ge l hl) (hα.fl n hn m) (by have := x_nonneg hs 1 (p + 1); rwa [pow_one] at this)
    (mul_nonneg hs.nu0 (pow_nonneg hs.th0.le _))
  refine h.mono ((hs.fl1 (i := 2) (k := 3 * p + 2) (by omega) le_rfl).trans (le_of_eq ?_))
  rw [show 3 * p + 2 = 2 * p + 1 + (p + 1) by omega, pow_add]; ring

include hα hb hπ in
theorem flr_pab (hn : n ≤ p) (hl : l ≤ N) : Flr η (π l * α n m * b n m) := by
  have h := flr_pi hs hπ (aMin_le p) hl (S := α n m * b n m) (by rw [one_mul]; exact flr_abx hs hα hb hn)
  rwa [← mul_assoc] at h

include hα hb hπ in
theorem flr_pot (hn : n ≤ p) (hl : l ≤ N) : Flr η (α n m * (π l * b n m)) := by
  have h := flr_pab hs hα hb hπ (m := m) hn hl
  rwa [show π l * α n m * b n m = α n m * (π l * b n m) by ring] at h

end

theorem l2l_ratio {j n : ℕ} {m k : ℤ} (hn : j ≤ n) (hkm : |m - k| ≤ ((n - j : ℕ) : ℤ)) (hk : |k| ≤ j) :
    1 ≤ |aSpec (n - j) (m - k)| * |aSpec n m|⁻¹ := by
  have h := aSpec_ratio (n := n - j) (j := j) (m := m - k) (k := -k) hkm (by rwa [abs_neg])
  rwa [show j + (n - j) = n by omega, show m - k - -k = m by ring] at h

theorem m2mA_eqR {α β : ℤ → ℝ} (hα : ∀ m, 0 ≤ α m) (hβ : ∀ m, 0 ≤ β m) {j n : ℕ} (hn : n ≤ j) (k : ℤ) : m2mA α β j n k
    = (∑ m ∈ Icc (max (-(n : ℤ)) (n + k - j)) (min (n : ℤ) (j + k - n)),
      |sg1 k m * aSpec n m * aSpec (j - n) (k - m)| * (α (k - m) * β (-m))) * |aSpec j k|⁻¹ := by
  unfold m2mA
  rw [sum_mul]
  refine sum_congr rfl fun m _ => ?_
  rw [← m2m_wratio hn, abs_of_nonneg (hα _), abs_of_nonneg (hβ _)]
  ring

theorem m2lA_eqR {α β : ℤ → ℝ} (hα : ∀ m, 0 ≤ α m) (hβ : ∀ m, 0 ≤ β m) (j n : ℕ) (k : ℤ) : m2lA α β j n k
    = |aSpec j k| * ∑ m ∈ Icc (-(n : ℤ)) n, |sg2 k m * aSpec n m / aSpec (j + n) (m - k)| * (α m * β (m - k)) := by
  unfold m2lA
  rw [mul_sum]
  refine sum_congr rfl fun m _ => ?_
  rw [← m2l_wratio, abs_of_nonneg (hα _), abs_of_nonneg (hβ _)]
  ring

theorem l2lA_eqR {α β : ℤ → ℝ} (hα : ∀ m, 0 ≤ α m) (hβ : ∀ m, 0 ≤ β m) {j n : ℕ} (hn : j ≤ n) (k : ℤ) : l2lA α β j n k
    = |aSpec j k| * ∑ m ∈ Icc (max (-(n : ℤ)) (k + j - n)) (min (n : ℤ) (k + n - j)),
      |sg3 k m * aSpec (n - j) (m - k) / aSpec n m| * (α m * β (m - k)) := by
  unfold l2lA
  rw [mul_sum]
  refine sum_congr rfl fun m _ => ?_
  rw [← l2l_wratio hn, abs_of_nonneg (hα _), abs_of_nonneg (hβ _)]
  ring

/-! ## Shift of multipole coefficients -/

theorem meShiftCoeff_ap (hF : F.Low u g η ρ) {st : Stat3} (hst : st.Good) {e : Exp3} {c : Vec 3} {p : ℕ} {a : ℕ → ℤ → ℂ}
    (hs : Scale3 u η θ τ ν p) {α : ℕ → ℤ → ℝ} (hα : Maj θ τ ν p a α)
    (he : e.Is c p a) (hp0 : 0 < p) (hp : p ≤ 42) (hM : p ≤ st.alm.maxOrder) {Y : YlmTable} {y : ℕ → ℤ → ℂ}
    (hY : ∀ l ≤ p, ∀ m : ℤ, |m| ≤ l → Y.get l m = .ok (y l m))
    {pow : Arr ℝ} {P : ℕ → ℝ} (hpow : pow.size = p + 1) (hpv : ∀ k ≤ p, pow.val k = P k) {b : ℕ → ℤ → ℝ} (hb : MajY ν y b) {π : ℕ → ℝ}
    (hπ : MajP θ ν p p P π) {j : ℕ} {k : ℤ} (hj : j ≤ p)
    (hk : |k| ≤ j) :
    ∃ w, meShiftCoeff F st e Y pow j k = .ok w ∧
      Ap u (3 * p + 32) (∑ n ∈ range (j + 1), m2mA (α (j - n)) (fun m => π n * b n m) j n k) w
        (∑ n ∈ range (j + 1), m2mB (a (j - n)) (fun m => (P n : ℂ) * y n m) j n k) := by
  have hu := hF.nonneg
  have hF' := hF.toLow
  unfold meShiftCoeff
  have hk' := hk
  rw [abs_le] at hk'
  have hw : ∀ (n : ℕ) (m : ℤ), n ≤ j → |m| ≤ n → |k - m| ≤ ((j - n : ℕ) : ℤ) → aMin p ≤ |sg1 k m * aSpec n m * aSpec (j - n) (k - m)| := by
    intro n m hn hm hkm
    rw [abs_mul, abs_mul, sg1_abs, one_mul]
    exact aMin_le_mul (by omega) hm hkm
  have hS : ∀ n ≤ j, Flr (aMin p * (τ * ν ^ 2 * θ ^ (p + 1))) (0 + ∑ m ∈ Icc (max (-(n : ℤ)) (n + k - j)) (min (n : ℤ) (j + k - n)),
      |sg1 k m * aSpec n m * aSpec (j - n) (k - m)| * (α (j - n) (k - m) * b n (-m))) := by
    intro n hn
    rw [zero_add]
    refine Flr.fsum _ _ (fun m hm => ?_) fun m _ => mul_nonneg (abs_nonneg _) (mul_nonneg (hα.nonneg _ _) (hb.nonneg _ _))
    rw [mem_Icc] at hm
    exact flr_term hs hα hb (by omega) le_rfl (hw n m hn (by rw [abs_le]; omega) (by rw [abs_le]; omega))
  obtain ⟨r, h1, h2⟩ := loopM_ap hF' (j + 1) (fun n M => do
    let acc ← loopZ (max (-(n : ℤ)) (n + k - j)) (min (n : ℤ) (j + k - n)) (fun m acc => do
      let s ← st.s1.get k m
      let a ← aGet F st n m
      let b ← aGet F st (j - n) (k - m)
      let o ← e.get (j - n) (k - m)
      let y ← Y.get n (-m)
      .ok (F.cadd acc (F.rsc (F.rnd (F.rnd (s * a) * b)) (F.mul o y)))) 0
    let p ← pow.rd n
    .ok (F.cadd M (F.rsc p acc)))
    (fun n => (P n : ℂ) * (0 + ∑ m ∈ Icc (max (-(n : ℤ)) (n + k - j)) (min (n : ℤ) (j + k - n)),
      ((sg1 k m * aSpec n m * aSpec (j - n) (k - m) : ℝ) : ℂ) * (a (j - n) (k - m) * y n (-m))))
    (fun n => π n * (0 + ∑ m ∈ Icc (max (-(n : ℤ)) (n + k - j)) (min (n : ℤ) (j + k - n)),
      |sg1 k m * aSpec n m * aSpec (j - n) (k - m)| * (α (j - n) (k - m) * b n (-m))))
    (c := 2 * p + 18) (n0 := 2 * p + 18) (s' := 0) (s := 0) (Ap.zero le_rfl hu) le_rfl Flr.zero
    (fun n hn => by
      obtain ⟨acc, g1, g2⟩ := loopZ_ap hF' (max (-(n : ℤ)) (n + k - j)) (min (n : ℤ) (j + k - n)) (fun m acc => do
          let s ← st.s1.get k m
          let a ← aGet F st n m
          let b ← aGet F st (j - n) (k - m)
          let o ← e.get (j - n) (k - m)
          let y ← Y.get n (-m)
          .ok (F.cadd acc (F.rsc (F.rnd (F.rnd (s * a) * b)) (F.mul o y))))
        (fun m => ((sg1 k m * aSpec n m * aSpec (j - n) (k - m) : ℝ) : ℂ) * (a (j - n) (k - m) * y n (-m)))
        (fun m => |sg1 k m * aSpec n m * aSpec (j - n) (k - m)| * (α (j - n) (k - m) * b n (-m)))
        (c := 16) (n0 := 16) (s' := 0) (s := 0) (Ap.zero le_rfl hu) le_rfl Flr.zero
        (fun m hm1 hm2 => by
          have hm : |m| ≤ n := by rw [abs_le]; omega
          have hkm : |k - m| ≤ ((j - n : ℕ) : ℤ) := by rw [abs_le]; omega
          refine ⟨F.rsc (F.rnd (F.rnd (sg1 k m * F.alm n m (aSpec n m)) * F.alm (j - n) (k - m) (aSpec (j - n) (k - m))))
            (F.mul (a (j - n) (k - m)) (y n (-m))), fun b => ?_, ?_⟩
          · rw [SignTable.get_ok hst.s1 (by rw [hst.m1]; omega) (by rw [hst.m1]; omega) (by rw [hst.m1]; omega), ok_bind,
              aGet_ok hst (by omega) (by omega) hm, ok_bind, aGet_ok hst (by omega) (by omega) hkm, ok_bind,
              he.get (by omega) hkm, ok_bind, hY n (by omega) (-m) (by rwa [abs_neg]), ok_bind]
          · have k1 := hF.rrnd ((rl hu (sg1 k m) 0).mul hu (alm_ap hF (n := n) (m := m) (by omega) hm))
              (by rw [Real.norm_eq_abs, sg1_abs, one_mul]; exact Or.inr (hs.flA.trans (aMin_le_abs (by omega) hm)))
            have k2 := hF.rrnd (k1.mul hu (alm_ap hF (n := j - n) (m := k - m) (by omega) hkm))
              (by rw [Real.norm_eq_abs, sg1_abs, one_mul]; exact Or.inr (hs.flA.trans (aMin_le_mul (by omega) hm hkm)))
            have k3 := hF.cmul (hα.ap (j - n) (k - m)) (hb.ap n (-m)) (flr_ab hs hα hb (by omega))
            rw [Real.norm_eq_abs, ← abs_mul, ← abs_mul] at k2
            exact hF.rsc k2 k3 ((flr_term hs hα hb (by omega) le_rfl (hw n m (by omega) hm hkm)).mono (hs.flc le_rfl (by omega) (by omega))))
        (fun m hm1 hm2 => (flr_term hs hα hb (by omega) le_rfl (hw n m (by omega) (by rw [abs_le]; omega) (by rw [abs_le]; omega))).mono
          (hs.flc le_rfl (by omega) (by omega)))
      refine ⟨F.rsc (P n) acc, fun b => ?_, ?_⟩
      · rw [g1, ok_bind, Arr.rd_ok _ (by rw [hpow]; omega), ok_bind, hpv n (by omega)]
      · have k1 := hF.rsc (hπ.ap n) g2 (flr_pi hs hπ le_rfl (by omega) (hS n (by omega)))
        exact k1.mono hu (by omega) le_rfl)
    (fun n hn => flr_pi hs hπ le_rfl (by omega) (hS n (by omega)))
  rw [h1, ok_bind, aGet_ok hst (by omega) (by omega) hk, ok_bind, Fl3.divC, if_neg (alm_inv hF (by omega) hk).1]
  refine ⟨_, rfl, ?_⟩
  have h3 := cdr_ap hF' h2 (alm_inv hF (n := j) (m := k) (by omega) hk).2 (by
    rw [mul_comm]
    refine Flr.scale ?_ (one_le_inv₀ (abs_pos.mpr (aSpec_ne_zero j k)) |>.mpr (aSpec_le_one j k)) h2.nonneg
    rw [zero_add]
    refine Flr.fsum _ _ (fun n hn => ?_) fun n hn => ?_
    · rw [mem_range] at hn
      exact flr_pi hs hπ le_rfl (by omega) (hS n (by omega))
    · refine mul_nonneg (hπ.nonneg n) ?_
      rw [zero_add]
      exact sum_nonneg fun m _ => mul_nonneg (abs_nonneg _) (mul_nonneg (hα.nonneg _ _) (hb.nonneg _ _)))
  refine (h3.mono hu (m := 3 * p + 32) (by omega) le_rfl).congr' ?_ ?_
  · rw [zero_add, sum_mul]
    refine sum_congr rfl fun n hn => ?_
    rw [mem_range] at hn
    rw [m2mA_eqR (hα.nonneg _) (fun m => mul_nonneg (hπ.nonneg n) (hb.nonneg n m)) (by omega), zero_add, mul_sum]
    congr 1
    exact sum_congr rfl fun m _ => by ring
  · rw [zero_add, sum_div]
    refine sum_congr rfl fun n hn => ?_
    unfold m2mB
    rw [zero_add, mul_sum]
    congr 1
    exact sum_congr rfl fun m _ => by ring

theorem meShift_ap (hF : F.Low u g η ρ) {st : Stat3} (hst : st.Good) {e : Exp3} {c : Vec 3} {p : ℕ} {a : ℕ → ℤ → ℂ}
    (hs : Scale3 u η θ τ ν p) {α : ℕ → ℤ → ℝ} (hα : Maj θ τ ν p a α)
    (he : e.Is c p a) (hp0 : 0 < p) (hp : p ≤ 42) (hM : p ≤ st.alm.maxOrder) (v' : Vec 3) {ζ : ℕ → ℝ} (hζ : ∀ n, 0 ≤ ζ n)
    (hζ' : ∀ n ≤ p, θ ^ (2 * p + 1) ≤ ζ n) :
    ∃ (d : Arr ℂ) (w : ℕ → ℤ → ℂ), meShift F st e v' = .ok d ∧ d.size = (p + 1) * (p + 1) ∧
      ∀ j ≤ p, ∀ k : ℤ, |k| ≤ j → d.val (cell j k) = w j k ∧
      Ap u (3 * p + 32) (∑ n ∈ range (j + 1), m2mA (α (j - n))
          (fun m => (‖rpw F (F.nrm3 v') 1 n‖ + ν * ζ n) * (‖yv F p (F.rcos (F.sph v' 1)) (F.sph v' 2) n m‖ + ν)) j n k) (w j k)
        (∑ n ∈ range (j + 1), m2mB (a (j - n))
          (fun m => (rpw F (F.nrm3 v') 1 n : ℂ) * yv F p (F.rcos (F.sph v' 1)) (F.sph v' 2) n m) j n k) := by
  obtain ⟨Y, hY, hYv⟩ := ylm_ok F p (F.sph v' 1) (F.sph v' 2) (hF.rcos_le _)
  obtain ⟨pw, hpw, hps, hpv⟩ := powTable_ok F (F.nrm3 v') p
  have hex : ∀ (j : ℕ) (k : ℤ), ∃ w, j ≤ p → |k| ≤ j → meShiftCoeff F st e Y pw j k = .ok w ∧
      Ap u (3 * p + 32) (∑ n ∈ range (j + 1), m2mA (α (j - n))
          (fun m => (‖rpw F (F.nrm3 v') 1 n‖ + ν * ζ n) * (‖yv F p (F.rcos (F.sph v' 1)) (F.sph v' 2) n m‖ + ν)) j n k) w
        (∑ n ∈ range (j + 1), m2mB (a (j - n))
          (fun m => (rpw F (F.nrm3 v') 1 n : ℂ) * yv F p (F.rcos (F.sph v' 1)) (F.sph v' 2) n m) j n k) := by
    intro j k
    by_cases h : j ≤ p ∧ |k| ≤ j
    · obtain ⟨w, h1⟩ := meShiftCoeff_ap hF hst hs hα he hp0 hp hM hYv hps hpv (MajY.mk' hs.nu0 _) (MajP.mk' hs.nu0 _ hζ hζ') h.1 h.2
      exact ⟨w, fun _ _ => h1⟩
    · exact ⟨0, fun h1 h2 => absurd ⟨h1, h2⟩ h⟩
  choose w hw using hex
  obtain ⟨d, h1, h2, h3⟩ := grid_pos (p := p) (meShiftCoeff F st e Y pw) w he.size fun j hj k hk => (hw j k hj hk).1
  refine ⟨d, w, ?_, h2, fun j hj k hk => ⟨h3 j hj k hk, (hw j k hj hk).2⟩⟩
  unfold meShift
  simp only [he.order, sph0]
  rw [hY, ok_bind, hpw, ok_bind]
  exact h1

/-! ## Conversion -/

theorem m2lCoeff_ap (hF : F.Low u g η ρ) {st : Stat3} (hst : st.Good) {e : Exp3} {c : Vec 3} {p : ℕ} {a : ℕ → ℤ → ℂ}
    (hs : Scale3 u η θ τ ν p) {α : ℕ → ℤ → ℝ} (hα : Maj θ τ ν p a α)
    (he : e.Is c p a) (hp0 : 0 < p) (hp : p ≤ 42) (hM : p ≤ st.alm.maxOrder) {Y : YlmTable} {y : ℕ → ℤ → ℂ}
    (hY : ∀ l ≤ 2 * p, ∀ m : ℤ, |m| ≤ l → Y.get l m = .ok (y l m))
    {pow : Arr ℝ} {P : ℕ → ℝ} (hpow : pow.size = 2 * p + 1 + 1) (hpv : ∀ k ≤ 2 * p + 1, pow.val k = P k)
    {b : ℕ → ℤ → ℝ} (hb : MajY ν y b) {π : ℕ → ℝ} (hπ : MajP θ ν p (2 * p + 1) P π) {j : ℕ} {k : ℤ}
    (hj : j ≤ p) (hk : |k| ≤ j) :
    ∃ w, m2lCoeff F st p e Y pow j k = .ok w ∧
      Ap u (3 * p + 33) (∑ n ∈ range (p + 1), m2lA (α n) (fun m => π (j + n + 1) * b (j + n) m) j n k) w
        (∑ n ∈ range (p + 1), m2lPart (a n) (fun m => (P (j + n + 1) : ℂ) * y (j + n) m) j n k) := by
  have hu := hF.nonneg
  have hF' := hF.toLow
  unfold m2lCoeff
  have hk' := hk
  rw [abs_le] at hk'
  have hw : ∀ (n : ℕ) (m : ℤ), |m| ≤ n → 1 ≤ |sg2 k m * aSpec n m / aSpec (j + n) (m - k)| := by
    intro n m hm
    rw [div_eq_mul_inv, abs_mul, abs_mul, sg2_abs, one_mul, abs_inv]
    exact aSpec_ratio hm hk
  have hS : ∀ n ≤ p, Flr (1 * (τ * ν ^ 2 * θ ^ (p + 1))) (0 + ∑ m ∈ Icc (-(n : ℤ)) n,
      |sg2 k m * aSpec n m / aSpec (j + n) (m - k)| * (α n m * b (j + n) (m - k))) := by
    intro n hn
    rw [zero_add]
    refine Flr.fsum _ _ (fun m hm => ?_) fun m _ => mul_nonneg (abs_nonneg _) (mul_nonneg (hα.nonneg _ _) (hb.nonneg _ _))
    rw [mem_Icc] at hm
    exact flr_term hs hα hb hn (aMin_le p) (hw n m (by rw [abs_le]; omega))
  obtain ⟨r, h1, h2⟩ := loopM_ap hF' (p + 1) (fun n L => do
    let acc ← loopZ (-(n : ℤ)) n (fun m acc => do
      let s ← st.s2.get k m
      let a ← aGet F st n m
      let b ← aGet F st (j + n) (m - k)
      let A ← Fl3.divR F (F.rnd (s * a)) b
      let o ← e.get n m
      let y ← Y.get (j + n) (m - k)
      .ok (F.cadd acc (F.rsc A (F.mul o y)))) 0
    let p ← pow.rd (j + n + 1)
    .ok (F.cadd L (F.rsc (F.rnd (Exp3.parSign n * p)) acc)))
    (fun n => ((Exp3.parSign n * P (j + n + 1) : ℝ) : ℂ) * (0 + ∑ m ∈ Icc (-(n : ℤ)) n,
      ((sg2 k m * aSpec n m / aSpec (j + n) (m - k) : ℝ) : ℂ) * (a n m * y (j + n) (m - k))))
    (fun n => π (j + n + 1) * (0 + ∑ m ∈ Icc (-(n : ℤ)) n,
      |sg2 k m * aSpec n m / aSpec (j + n) (m - k)| * (α n m * b (j + n) (m - k))))
    (c := 2 * p + 25) (n0 := 2 * p + 25) (s' := 0) (s := 0) (Ap.zero le_rfl hu) le_rfl Flr.zero
    (fun n hn => by
      obtain ⟨acc, g1, g2⟩ := loopZ_ap hF' (-(n : ℤ)) n (fun m acc => do
          let s ← st.s2.get k m
          let a ← aGet F st n m
          let b ← aGet F st (j + n) (m - k)
          let A ← Fl3.divR F (F.rnd (s * a)) b
          let o ← e.get n m
          let y ← Y.get (j + n) (m - k)
          .ok (F.cadd acc (F.rsc A (F.mul o y))))
        (fun m => ((sg2 k m * aSpec n m / aSpec (j + n) (m - k) : ℝ) : ℂ) * (a n m * y (j + n) (m - k)))
        (fun m => |sg2 k m * aSpec n m / aSpec (j + n) (m - k)| * (α n m * b (j + n) (m - k)))
        (c := 22) (n0 := 22) (s' := 0) (s := 0) (Ap.zero le_rfl hu) le_rfl Flr.zero
        (fun m hm1 hm2 => by
          have hm : |m| ≤ n := by rw [abs_le]; omega
          have hkm : |m - k| ≤ ((j + n : ℕ) : ℤ) := by rw [abs_le]; push_cast; omega
          have k1 := hF.rrnd ((rl hu (sg2 k m) 0).mul hu (alm_ap hF (n := n) (m := m) (by omega) hm))
              (by rw [Real.norm_eq_abs, sg2_abs, one_mul]; exact Or.inr (hs.flA.trans (aMin_le_abs (by omega) hm)))
          have i1 := alm_inv hF (n := j + n) (m := m - k) (by omega) hkm
          have k2 := divR_ap hF k1 i1.1 i1.2 (by
            rw [Real.norm_eq_abs, sg2_abs, one_mul]; exact Or.inr (hs.one.trans (aSpec_ratio hm hk)))
          refine ⟨F.rsc (F.rnd (F.rnd (sg2 k m * F.alm n m (aSpec n m)) / F.alm (j + n) (m - k) (aSpec (j + n) (m - k))))
            (F.mul (a n m) (y (j + n) (m - k))), fun b => ?_, ?_⟩
          · rw [SignTable.get_ok hst.s2 (by rw [hst.m2]; omega) (by rw [hst.m2]; omega) (by rw [hst.m2]; omega), ok_bind,
              aGet_ok hst (by omega) (by omega) hm, ok_bind, aGet_ok hst (by omega) (by omega) hkm, ok_bind, k2.1, ok_bind,
              he.get (by omega) hm, ok_bind, hY (j + n) (by omega) (m - k) hkm, ok_bind]
          · have k3 := hF.cmul (hα.ap n m) (hb.ap (j + n) (m - k)) (flr_ab hs hα hb (by omega))
            have k2' := k2.2
            rw [Real.norm_eq_abs, ← abs_mul, ← abs_inv, ← abs_mul, ← div_eq_mul_inv] at k2'
            exact hF.rsc k2' k3 ((flr_term hs hα hb (by omega) (aMin_le p) (hw n m hm)).mono (hs.flc (aMin_le p) (by omega) (by omega))))
        (fun m hm1 hm2 => (flr_term hs hα hb (by omega) (aMin_le p) (hw n m (by rw [abs_le]; omega))).mono
          (hs.flc (aMin_le p) (by omega) (by omega)))
      refine ⟨F.rsc (F.rnd (Exp3.parSign n * P (j + n + 1))) acc, fun b => ?_, ?_⟩
      · rw [g1, ok_bind, Arr.rd_ok _ (by rw [hpow]; omega), ok_bind, hpv _ (by omega)]
      · have k0 : Ap u 0 (π (j + n + 1)) (Exp3.parSign n * P (j + n + 1)) (Exp3.parSign n * P (j + n + 1)) :=
          Ap.refl (by rw [norm_mul, parSign_norm, one_mul]; exact hπ.le _)
        have k1 := hF.rsc (hF.rrnd k0 (hπ.flr hs (by omega))) g2 (flr_pi hs hπ (aMin_le p) (by omega) (hS n (by omega)))
        exact k1.mono hu (by omega) le_rfl)
    (fun n hn => flr_pi hs hπ (aMin_le p) (by omega) (hS n (by omega)))
  rw [h1, ok_bind, aGet_ok hst (by omega) (by omega) hk, ok_bind]
  refine ⟨_, rfl, ?_⟩
  have h3 := hF.rsc (alm_ap hF (n := j) (m := k) (by omega) hk) h2 (by
    rw [zero_add]
    refine flr_last hs (aMin_le_abs hj hk) (Flr.fsum _ _ (fun n hn => ?_) fun n hn => ?_)
    · rw [mem_range] at hn
      exact flr_pi3 hs hπ (aMin_le p) (by omega) (hS n (by omega))
    · refine mul_nonneg (hπ.nonneg _) ?_
      rw [zero_add]
      exact sum_nonneg fun m _ => mul_nonneg (abs_nonneg _) (mul_nonneg (hα.nonneg _ _) (hb.nonneg _ _)))
  refine (h3.mono hu (m := 3 * p + 33) (by omega) le_rfl).congr' ?_ ?_
  · rw [zero_add, mul_sum]
    refine sum_congr rfl fun n hn => ?_
    rw [m2lA_eqR (hα.nonneg _) (fun m => mul_nonneg (hπ.nonneg (j + n + 1)) (hb.nonneg (j + n) m)), zero_add, mul_sum]
    congr 1
    exact sum_congr rfl fun m _ => by ring
  · rw [zero_add, mul_sum]
    refine sum_congr rfl fun n hn => ?_
    unfold m2lPart
    rw [zero_add, Exp3.parSign_eq, mul_comm (aSpec j k : ℂ)]
    congr 1
    rw [mul_sum, mul_sum]
    exact sum_congr rfl fun m _ => by push_cast; ring

theorem leOfMe_run (hF : F.Low u g η ρ) (st : Stat3) (hst : st.Good) {e : Exp3} {c : Vec 3} {p : ℕ} {a : ℕ → ℤ → ℂ} (hs : Scale3 u η θ τ ν p) {α : ℕ → ℤ → ℝ} (hα : Maj θ τ ν p a α)
    (he : e.Is c p a)
    (hp : p ≤ 42) (hp0 : 0 < p) (c' : Vec 3) (hr : F.nrm3 (F.vsub c c') ≠ 0) {ζ : ℕ → ℝ} (hζ : ∀ n, 0 ≤ ζ n)
    (hζ' : ∀ n ≤ 2 * p + 1, θ ^ (2 * p + 1) ≤ ζ n) :
    ∃ st' f w, leOfMe F st c' e = .ok (st', f) ∧ st'.Good ∧ p ≤ st'.alm.maxOrder ∧ (p ≤ st.alm.maxOrder → st' = st) ∧
      f.Is c' p w ∧ ∀ j ≤ p, ∀ k : ℤ, |k| ≤ j →
        Ap u (3 * p + 33) (∑ n ∈ range (p + 1), m2lA (α n) (fun m =>
            (‖rpw F (F.rnd (1 / F.nrm3 (F.vsub c c'))) 1 (j + n + 1)‖ + ν * ζ (j + n + 1))
              * (‖yv F (2 * p) (F.rcos (F.sph (F.vsub c c') 1)) (F.sph (F.vsub c c') 2) (j + n) m‖ + ν)) j n k) (w j k)
          (∑ n ∈ range (p + 1), m2lPart (a n) (fun m =>
            (rpw F (F.rnd (1 / F.nrm3 (F.vsub c c'))) 1 (j + n + 1) : ℂ)
              * yv F (2 * p) (F.rcos (F.sph (F.vsub c c') 1)) (F.sph (F.vsub c c') 2) (j + n) m) j n k) := by
  obtain ⟨st', f, h1, h2, h3, h4, h5⟩ := Exp3.new_ok st hst c' p hp
  set v' := F.vsub c c' with hv
  obtain ⟨Y, hY, hYv⟩ := ylm_ok F (2 * p) (F.sph v' 1) (F.sph v' 2) (hF.rcos_le _)
  obtain ⟨pw, hpw, hps, hpv⟩ := powTable_ok F (F.rnd (1 / F.nrm3 v')) (2 * p + 1)
  have hex : ∀ (j : ℕ) (k : ℤ), ∃ w, j ≤ p → |k| ≤ j → m2lCoeff F st' p e Y pw j k = .ok w ∧
      Ap u (3 * p + 33) (∑ n ∈ range (p + 1), m2lA (α n) (fun m =>
            (‖rpw F (F.rnd (1 / F.nrm3 v')) 1 (j + n + 1)‖ + ν * ζ (j + n + 1))
              * (‖yv F (2 * p) (F.rcos (F.sph v' 1)) (F.sph v' 2) (j + n) m‖ + ν)) j n k) w
          (∑ n ∈ range (p + 1), m2lPart (a n) (fun m =>
            (rpw F (F.rnd (1 / F.nrm3 v')) 1 (j + n + 1) : ℂ)
              * yv F (2 * p) (F.rcos (F.sph v' 1)) (F.sph v' 2) (j + n) m) j n k) := by
    intro j k
    by_cases h : j ≤ p ∧ |k| ≤ j
    · obtain ⟨w, h1⟩ := m2lCoeff_ap hF h2 hs hα he hp0 hp h3 hYv hps hpv (MajY.mk' hs.nu0 _) (MajP.mk' hs.nu0 _ hζ hζ') h.1 h.2
      exact ⟨w, fun _ _ => h1⟩
    · exact ⟨0, fun h1 h2 => absurd ⟨h1, h2⟩ h⟩
  choose w hw using hex
  unfold leOfMe
  rw [he.order, h1, ok_bind]
  simp only [h5.center, h5.order, he.center, sph0]
  rw [← hv, hY, ok_bind, Fl3.divR, if_neg hr, ok_bind, hpw, ok_bind]
  obtain ⟨d, g1, g2, g3⟩ := grid_rmw1 (p := p) (fun j c =>
    loopZ (-(j : ℤ)) j (fun k c => do
      let L ← m2lCoeff F st' p e Y pw j k
      c.wrZ (lmIndex j k) L) c) (fun n m _ => w n m) f.coeffs h5.size (by
      intro n hn c' hc'
      exact row_rmw hn _ (fun m _ => w n m) c' hc' fun m hm d hd => by
        rw [(hw n m hn hm).1, ok_bind, wrZ_cell hd hn hm])
  rw [g1, ok_bind]
  exact ⟨st', _, w, rfl, h2, h3, h4, ⟨rfl, rfl, g2, g3⟩, fun j hj k hk => (hw j k hj hk).2⟩

/-! ## Shift of local coefficients -/

theorem leShiftCoeff_ap (hF : F.Low u g η ρ) {st : Stat3} (hst : st.Good) {e : Exp3} {c : Vec 3} {p : ℕ} {a : ℕ → ℤ → ℂ}
    (hs : Scale3 u η θ τ ν p) {α : ℕ → ℤ → ℝ} (hα : Maj θ τ ν p a α)
    (he : e.Is c p a) (hp0 : 0 < p) (hp : p ≤ 42) (hM : p ≤ st.alm.maxOrder) {Y : YlmTable} {y : ℕ → ℤ → ℂ}
    (hY : ∀ l ≤ 2 * p, ∀ m : ℤ, |m| ≤ l → Y.get l m = .ok (y l m))
    {pow : Arr ℝ} {P : ℕ → ℝ} (hpow : pow.size = p + 1) (hpv : ∀ k ≤ p, pow.val k = P k) {b : ℕ → ℤ → ℝ} (hb : MajY ν y b) {π : ℕ → ℝ}
    (hπ : MajP θ ν p p P π) {j : ℕ} {k : ℤ} (hj : j ≤ p)
    (hk : |k| ≤ j) :
    ∃ w, leShiftCoeff F st e Y pow j k = .ok w ∧
      Ap u (3 * p + 33) (∑ n ∈ Ico j (p + 1), l2lA (α n) (fun m => π (n - j) * b (n - j) m) j n k) w
        (∑ n ∈ Ico j (p + 1), l2lB (a n) (fun m => (P (n - j) : ℂ) * y (n - j) m) j n k) := by
  have hu := hF.nonneg
  have hF' := hF.toLow
  unfold leShiftCoeff
  have hk' := hk
  rw [abs_le] at hk'
  rw [he.order, sum_Ico_eq_sum_range, sum_Ico_eq_sum_range]
  have hw : ∀ (n : ℕ) (m : ℤ), j ≤ n → |m - k| ≤ ((n - j : ℕ) : ℤ) → 1 ≤ |sg3 k m * aSpec (n - j) (m - k) / aSpec n m| := by
    intro n m hn hkm
    rw [div_eq_mul_inv, abs_mul, abs_mul, sg3_abs, one_mul, abs_inv]
    exact l2l_ratio hn hkm hk
  have hS : ∀ n, j ≤ n → n ≤ p → Flr (1 * (τ * ν ^ 2 * θ ^ (p + 1))) (0 + ∑ m ∈ Icc (max (-(n : ℤ)) (k + j - n)) (min (n : ℤ) (k + n - j)),
      |sg3 k m * aSpec (n - j) (m - k) / aSpec n m| * (α n m * b (n - j) (m - k))) := by
    intro n hjn hn
    rw [zero_add]
    refine Flr.fsum _ _ (fun m hm => ?_) fun m _ => mul_nonneg (abs_nonneg _) (mul_nonneg (hα.nonneg _ _) (hb.nonneg _ _))
    rw [mem_Icc] at hm
    exact flr_term hs hα hb hn (aMin_le p) (hw n m hjn (by rw [abs_le]; omega))
  obtain ⟨r, h1, h2⟩ := loopM_ap hF' (p + 1 - j) (fun i L => do
    let n := j + i
    let acc ← loopZ (max (-(n : ℤ)) (k + j - n)) (min (n : ℤ) (k + n - j)) (fun m acc => do
      let s ← st.s3.get k m
      let a ← aGet F st (n - j) (m - k)
      let b ← aGet F st n m
      let A ← Fl3.divR F (F.rnd (s * a)) b
      let o ← e.get n m
      let y ← Y.get (n - j) (m - k)
      .ok (F.cadd acc (F.rsc A (F.mul o y)))) 0
    let p ← pow.rd (n - j)
    .ok (F.cadd L (F.rsc (F.rnd (Exp3.parSign (n + j) * p)) acc)))
    (fun i => ((Exp3.parSign (j + i + j) * P (j + i - j) : ℝ) : ℂ) * (0 + ∑ m ∈ Icc (max (-((j + i : ℕ) : ℤ)) (k + j - (j + i : ℕ)))
        (min ((j + i : ℕ) : ℤ) (k + (j + i : ℕ) - j)),
      ((sg3 k m * aSpec (j + i - j) (m - k) / aSpec (j + i) m : ℝ) : ℂ) * (a (j + i) m * y (j + i - j) (m - k))))
    (fun i => π (j + i - j) * (0 + ∑ m ∈ Icc (max (-((j + i : ℕ) : ℤ)) (k + j - (j + i : ℕ)))
        (min ((j + i : ℕ) : ℤ) (k + (j + i : ℕ) - j)),
      |sg3 k m * aSpec (j + i - j) (m - k) / aSpec (j + i) m| * (α (j + i) m * b (j + i - j) (m - k))))
    (c := 2 * p + 25) (n0 := 2 * p + 25) (s' := 0) (s := 0) (Ap.zero le_rfl hu) le_rfl Flr.zero
    (fun i hi => by
      simp only
      generalize hn : j + i = n
      obtain ⟨acc, g1, g2⟩ := loopZ_ap hF' (max (-(n : ℤ)) (k + j - n)) (min (n : ℤ) (k + n - j)) (fun m acc => do
          let s ← st.s3.get k m
          let a ← aGet F st (n - j) (m - k)
          let b ← aGet F st n m
          let A ← Fl3.divR F (F.rnd (s * a)) b
          let o ← e.get n m
          let y ← Y.get (n - j) (m - k)
          .ok (F.cadd acc (F.rsc A (F.mul o y))))
        (fun m => ((sg3 k m * aSpec (n - j) (m - k) / aSpec n m : ℝ) : ℂ) * (a n m * y (n - j) (m - k)))
        (fun m => |sg3 k m * aSpec (n - j) (m - k) / aSpec n m| * (α n m * b (n - j) (m - k)))
        (c := 22) (n0 := 22) (s' := 0) (s := 0) (Ap.zero le_rfl hu) le_rfl Flr.zero
        (fun m hm1 hm2 => by
          have hm : |m| ≤ n := by rw [abs_le]; omega
          have hkm : |m - k| ≤ ((n - j : ℕ) : ℤ) := by rw [abs_le]; omega
          have k1 := hF.rrnd ((rl hu (sg3 k m) 0).mul hu (alm_ap hF (n := n - j) (m := m - k) (by omega) hkm))
              (by rw [Real.norm_eq_abs, sg3_abs, one_mul]; exact Or.inr (hs.flA.trans (aMin_le_abs (by omega) hkm)))
          have i1 := alm_inv hF (n := n) (m := m) (by omega) hm
          have k2 := divR_ap hF k1 i1.1 i1.2 (by
            rw [Real.norm_eq_abs, sg3_abs, one_mul]; exact Or.inr (hs.one.trans (l2l_ratio (by omega) hkm hk)))
          refine ⟨F.rsc (F.rnd (F.rnd (sg3 k m * F.alm (n - j) (m - k) (aSpec (n - j) (m - k))) / F.alm n m (aSpec n m)))
            (F.mul (a n m) (y (n - j) (m - k))), fun b => ?_, ?_⟩
          · rw [SignTable.get_ok hst.s3 (by rw [hst.m3]; omega) (by rw [hst.m3]; omega) (by rw [hst.m3]; omega), ok_bind,
              aGet_ok hst (by omega) (by omega) hkm, ok_bind, aGet_ok hst (by omega) (by omega) hm, ok_bind, k2.1, ok_bind,
              he.get (by omega) hm, ok_bind, hY (n - j) (by omega) (m - k) hkm, ok_bind]
          · have k3 := hF.cmul (hα.ap n m) (hb.ap (n - j) (m - k)) (flr_ab hs hα hb (by omega))
            have k2' := k2.2
            rw [Real.norm_eq_abs, ← abs_mul, ← abs_inv, ← abs_mul, ← div_eq_mul_inv] at k2'
            exact hF.rsc k2' k3 ((flr_term hs hα hb (by omega) (aMin_le p) (hw n m (by omega) hkm)).mono (hs.flc (aMin_le p) (by omega) (by omega))))
        (fun m hm1 hm2 => (flr_term hs hα hb (by omega) (aMin_le p) (hw n m (by omega) (by rw [abs_le]; omega))).mono
          (hs.flc (aMin_le p) (by omega) (by omega)))
      refine ⟨F.rsc (F.rnd (Exp3.parSign (n + j) * P (n - j))) acc, fun b => ?_, ?_⟩
      · rw [g1, ok_bind, Arr.rd_ok _ (by rw [hpow]; omega), ok_bind, hpv _ (by omega)]
      · have k0 : Ap u 0 (π (n - j)) (Exp3.parSign (n + j) * P (n - j)) (Exp3.parSign (n + j) * P (n - j)) :=
          Ap.refl (by rw [norm_mul, parSign_norm, one_mul]; exact hπ.le _)
        have k1 := hF.rsc (hF.rrnd k0 (hπ.flr hs (by omega))) g2 (flr_pi hs hπ (aMin_le p) (by omega) (hS n (by omega) (by omega)))
        exact k1.mono hu (by omega) le_rfl)
    (fun i hi => flr_pi hs hπ (aMin_le p) (by omega) (hS (j + i) (by omega) (by omega)))
  rw [h1, ok_bind, aGet_ok hst (by omega) (by omega) hk, ok_bind]
  refine ⟨_, rfl, ?_⟩
  have h3 := hF.rsc (alm_ap hF (n := j) (m := k) (by omega) hk) h2 (by
    rw [zero_add]
    refine flr_last hs (aMin_le_abs hj hk) (Flr.fsum _ _ (fun i hi => ?_) fun i hi => ?_)
    · rw [mem_range] at hi
      exact flr_pi3 hs hπ (aMin_le p) (by omega) (hS (j + i) (by omega) (by omega))
    · refine mul_nonneg (hπ.nonneg _) ?_
      rw [zero_add]
      exact sum_nonneg fun m _ => mul_nonneg (abs_nonneg _) (mul_nonneg (hα.nonneg _ _) (hb.nonneg _ _)))
  refine (h3.mono hu (m := 3 * p + 33) (by omega) le_rfl).congr' ?_ ?_
  · rw [zero_add, mul_sum]
    refine sum_congr rfl fun i hi => ?_
    generalize hn : j + i = n
    rw [l2lA_eqR (hα.nonneg _) (fun m => mul_nonneg (hπ.nonneg (n - j)) (hb.nonneg (n - j) m)) (by omega), zero_add, mul_sum]
    congr 1
    exact sum_congr rfl fun m _ => by ring
  · rw [zero_add, mul_sum]
    refine sum_congr rfl fun i hi => ?_
    generalize hn : j + i = n
    unfold l2lB
    rw [zero_add, Exp3.parSign_eq]
    congr 1
    rw [mul_sum, mul_sum]
    exact sum_congr rfl fun m _ => by push_cast; ring

theorem leShift_ap (hF : F.Low u g η ρ) {st : Stat3} (hst : st.Good) {e : Exp3} {c : Vec 3} {p : ℕ} {a : ℕ → ℤ → ℂ}
    (hs : Scale3 u η θ τ ν p) {α : ℕ → ℤ → ℝ} (hα : Maj θ τ ν p a α)
    (he : e.Is c p a) (hp0 : 0 < p) (hp : p ≤ 42) (hM : p ≤ st.alm.maxOrder) (v' : Vec 3) {ζ : ℕ → ℝ} (hζ : ∀ n, 0 ≤ ζ n)
    (hζ' : ∀ n ≤ p, θ ^ (2 * p + 1) ≤ ζ n) :
    ∃ (d : Arr ℂ) (w : ℕ → ℤ → ℂ), leShift F st e v' = .ok d ∧ d.size = (p + 1) * (p + 1) ∧
      ∀ j ≤ p, ∀ k : ℤ, |k| ≤ j → d.val (cell j k) = w j k ∧
      Ap u (3 * p + 33) (∑ n ∈ Ico j (p + 1), l2lA (α n)
          (fun m => (‖rpw F (F.nrm3 v') 1 (n - j)‖ + ν * ζ (n - j)) * (‖yv F (2 * p) (F.rcos (F.sph v' 1)) (F.sph v' 2) (n - j) m‖ + ν)) j n k) (w j k)
        (∑ n ∈ Ico j (p + 1), l2lB (a n)
          (fun m => (rpw F (F.nrm3 v') 1 (n - j) : ℂ) * yv F (2 * p) (F.rcos (F.sph v' 1)) (F.sph v' 2) (n - j) m) j n k) := by
  obtain ⟨Y, hY, hYv⟩ := ylm_ok F (2 * p) (F.sph v' 1) (F.sph v' 2) (hF.rcos_le _)
  obtain ⟨pw, hpw, hps, hpv⟩ := powTable_ok F (F.nrm3 v') p
  have hex : ∀ (j : ℕ) (k : ℤ), ∃ w, j ≤ p → |k| ≤ j → leShiftCoeff F st e Y pw j k = .ok w ∧
      Ap u (3 * p + 33) (∑ n ∈ Ico j (p + 1), l2lA (α n)
          (fun m => (‖rpw F (F.nrm3 v') 1 (n - j)‖ + ν * ζ (n - j)) * (‖yv F (2 * p) (F.rcos (F.sph v' 1)) (F.sph v' 2) (n - j) m‖ + ν)) j n k) w
        (∑ n ∈ Ico j (p + 1), l2lB (a n)
          (fun m => (rpw F (F.nrm3 v') 1 (n - j) : ℂ) * yv F (2 * p) (F.rcos (F.sph v' 1)) (F.sph v' 2) (n - j) m) j n k) := by
    intro j k
    by_cases h : j ≤ p ∧ |k| ≤ j
    · obtain ⟨w, h1⟩ := leShiftCoeff_ap hF hst hs hα he hp0 hp hM hYv hps hpv (MajY.mk' hs.nu0 _) (MajP.mk' hs.nu0 _ hζ hζ') h.1 h.2
      exact ⟨w, fun _ _ => h1⟩
    · exact ⟨0, fun h1 h2 => absurd ⟨h1, h2⟩ h⟩
  choose w hw using hex
  obtain ⟨d, h1, h2, h3⟩ := grid_pos (p := p) (leShiftCoeff F st e Y pw) w he.size fun j hj k hk => (hw j k hj hk).1
  refine ⟨d, w, ?_, h2, fun j hj k hk => ⟨h3 j hj k hk, (hw j k hj hk).2⟩⟩
  unfold leShift
  simp only [he.order, sph0]
  rw [hY, ok_bind, hpw, ok_bind]
  exact h1

/-! ## Sources -/

theorem meAddSource_run (hF : F.Low u g η ρ) (p : ℕ) (c : Vec 3) (s : Source 3) (a : Arr ℂ) (ha : a.size = (p + 1) * (p + 1)) :
    ∃ a', meAddSource F p c a s = .ok a' ∧ a'.size = (p + 1) * (p + 1) ∧
      ∀ n ≤ p, ∀ m : ℤ, |m| ≤ n → a'.val (cell n m) = F.cadd (a.val (cell n m))
        (F.rsc (F.rnd (s.q * rpw F (F.nrm3 (F.vsub s.pos c)) 1 n))
          (yv F p (F.rcos (F.sph (F.vsub s.pos c) 1)) (F.sph (F.vsub s.pos c) 2) n (-m))) := by
  unfold meAddSource
  set v' := F.vsub s.pos c with hv
  obtain ⟨Y, hY, hYv⟩ := ylm_ok F p (F.sph v' 1) (F.sph v' 2) (hF.rcos_le _)
  simp only [sph0]
  rw [hY, ok_bind]
  exact srcLoop F hYv (fun x => .ok (F.rnd (x * F.nrm3 v'))) (rpw F (F.nrm3 v') 1) (fun i => rfl) a ha

theorem leAddSource_run (hF : F.Low u g η ρ) (p : ℕ) (c : Vec 3) (s : Source 3) (hr : F.nrm3 (F.vsub s.pos c) ≠ 0) (a : Arr ℂ)
    (ha : a.size = (p + 1) * (p + 1)) :
    ∃ a', leAddSource F p c a s = .ok a' ∧ a'.size = (p + 1) * (p + 1) ∧
      ∀ n ≤ p, ∀ m : ℤ, |m| ≤ n → a'.val (cell n m) = F.cadd (a.val (cell n m))
        (F.rsc (F.rnd (s.q * rdv F (F.nrm3 (F.vsub s.pos c)) (F.rnd (1 / F.nrm3 (F.vsub s.pos c))) n))
          (yv F p (F.rcos (F.sph (F.vsub s.pos c) 1)) (F.sph (F.vsub s.pos c) 2) n (-m))) := by
  unfold leAddSource
  set v' := F.vsub s.pos c with hv
  obtain ⟨Y, hY, hYv⟩ := ylm_ok F p (F.sph v' 1) (F.sph v' 2) (hF.rcos_le _)
  simp only [sph0]
  rw [hY, ok_bind, Fl3.divR, if_neg hr, ok_bind]
  exact srcLoop F hYv (fun x => Fl3.divR F x (F.nrm3 v')) (rdv F (F.nrm3 v') (F.rnd (1 / F.nrm3 v')))
    (fun i => by rw [Fl3.divR, if_neg hr]; rfl) a ha

/-! ## Evaluation -/

theorem potLoop (hF : F.Low u g η ρ) {e : Exp3} {c : Vec 3} {p : ℕ} {a : ℕ → ℤ → ℂ} (hs : Scale3 u η θ τ ν p) {α : ℕ → ℤ → ℝ} (hα : Maj θ τ ν p a α)
    (he : e.Is c p a) {Y : YlmTable} {y : ℕ → ℤ → ℂ}
    (hY : ∀ l ≤ p, ∀ m : ℤ, |m| ≤ l → Y.get l m = .ok (y l m)) (step : ℝ → Outcome ℝ) (P : ℕ → ℝ)
    (hstep : ∀ i, step (P i) = .ok (P (i + 1)))
    {b : ℕ → ℤ → ℝ} (hb : MajY ν y b) {π : ℕ → ℝ} (hπ : MajP θ ν p p P π) :
    ∃ z, (do
      let (pot, _) ← loopM (p + 1) (fun n (s : ℂ × ℝ) => do
        let pot ← loopZ (-(n : ℤ)) n (fun m pot => do
          let a ← e.get n m
          let y ← Y.get n m
          .ok (F.cadd pot (F.mul (F.rsc s.2 a) y))) s.1
        let rp ← step s.2
        .ok (pot, rp)) (0, P 0)
      (Except.ok (-pot.re) : Outcome ℝ)) = .ok (-z.re) ∧
      Ap u (2 + (p + 1) ^ 2) (∑ n ∈ range (p + 1), ∑ m ∈ Ir n, α n m * (π n * b n m)) z
        (∑ n ∈ range (p + 1), ∑ m ∈ Ir n, a n m * ((P n : ℂ) * y n m)) := by
  have hu := hF.nonneg
  have hF' := hF.toLow
  obtain ⟨⟨z, r⟩, h1, h2, h3⟩ := loopM_invariant
    (fun i (s : ℂ × ℝ) => Ap u (2 + i ^ 2) (∑ n ∈ range i, ∑ m ∈ Ir n, α n m * (π n * b n m)) s.1
        (∑ n ∈ range i, ∑ m ∈ Ir n, a n m * ((P n : ℂ) * y n m)) ∧ s.2 = P i)
    (fun n (s : ℂ × ℝ) => do
        let pot ← loopZ (-(n : ℤ)) n (fun m pot => do
          let a ← e.get n m
          let y ← Y.get n m
          .ok (F.cadd pot (F.mul (F.rsc s.2 a) y))) s.1
        let rp ← step s.2
        .ok (pot, rp)) (0, P 0) (p + 1) ⟨by simpa using (Ap.zero le_rfl hu : Ap u 2 0 (0 : ℂ) 0), rfl⟩
    (by
      rintro n hn ⟨z, r⟩ ⟨hz, rfl⟩
      simp only at hz ⊢
      obtain ⟨w, g1, g2⟩ := loopZ_ap hF' (-(n : ℤ)) n (fun m pot => do
          let a ← e.get n m
          let y ← Y.get n m
          .ok (F.cadd pot (F.mul (F.rsc (P n) a) y))) (fun m => a n m * ((P n : ℂ) * y n m))
        (fun m => α n m * (π n * b n m)) (c := 2) hz (by omega)
        (Flr.fsum _ _ (fun i hi => Flr.fsum _ _ (fun m _ => by
            rw [mem_range] at hi
            exact flr_pot hs hα hb hπ (by omega) (by omega)) fun m _ => mul_nonneg (hα.nonneg _ _) (mul_nonneg (hπ.nonneg _) (hb.nonneg _ _)))
          fun i _ => sum_nonneg fun m _ => mul_nonneg (hα.nonneg _ _) (mul_nonneg (hπ.nonneg _) (hb.nonneg _ _)))
        (fun m hm1 hm2 => by
          refine ⟨F.mul (F.rsc (P n) (a n m)) (y n m), fun b => ?_, ?_⟩
          · rw [he.get (by omega) (by rw [abs_le]; omega), ok_bind, hY n (by omega) m (by rw [abs_le]; omega), ok_bind]
          · have k1 := hF.cmul (hF.rsc (hπ.ap n) (hα.ap n m) (flr_pa hs hα hπ (by omega) (by omega))) (hb.ap n m)
              (flr_pab hs hα hb hπ (by omega) (by omega))
            exact k1.congr' (by ring) (by ring))
        (fun m _ _ => flr_pot hs hα hb hπ (by omega) (by omega))
      rw [g1, ok_bind, hstep, ok_bind]
      refine ⟨_, rfl, ?_, rfl⟩
      simp only
      rw [sum_range_succ, sum_range_succ]
      refine g2.mono hu ?_ le_rfl
      have : ((n : ℤ) + 1 - -(n : ℤ)).toNat = 2 * n + 1 := by omega
      rw [this]
      ring_nf
      omega)
  rw [h1, ok_bind]
  exact ⟨z, rfl, h2⟩

theorem lePot_run (hF : F.Low u g η ρ) {e : Exp3} {c : Vec 3} {p : ℕ} {a : ℕ → ℤ → ℂ} (hs : Scale3 u η θ τ ν p) {α : ℕ → ℤ → ℝ} (hα : Maj θ τ ν p a α)
    (he : e.Is c p a) (x : Vec 3) {ζ : ℕ → ℝ} (hζ : ∀ n, 0 ≤ ζ n)
    (hζ' : ∀ n ≤ p, θ ^ (2 * p + 1) ≤ ζ n) :
    ∃ z, lePot F e x = .ok (-z.re) ∧ Ap u (2 + (p + 1) ^ 2)
      (∑ n ∈ range (p + 1), ∑ m ∈ Ir n, α n m * ((‖rpw F (F.nrm3 (F.vsub x c)) 1 n‖ + ν * ζ n)
        * (‖yv F p (F.rcos (F.sph (F.vsub x c) 1)) (F.sph (F.vsub x c) 2) n m‖ + ν))) z
      (∑ n ∈ range (p + 1), ∑ m ∈ Ir n, a n m * ((rpw F (F.nrm3 (F.vsub x c)) 1 n : ℂ)
        * yv F p (F.rcos (F.sph (F.vsub x c) 1)) (F.sph (F.vsub x c) 2) n m)) := by
  unfold lePot
  simp only [he.center, he.order, sph0]
  set v' := F.vsub x c with hv
  obtain ⟨Y, hY, hYv⟩ := ylm_ok F p (F.sph v' 1) (F.sph v' 2) (hF.rcos_le _)
  rw [hY, ok_bind]
  exact potLoop hF hs hα he hYv (fun x => .ok (F.rnd (x * F.nrm3 v'))) (rpw F (F.nrm3 v') 1) (fun i => rfl) (MajY.mk' hs.nu0 _) (MajP.mk' hs.nu0 _ hζ hζ')

theorem mePot_run (hF : F.Low u g η ρ) {e : Exp3} {c : Vec 3} {p : ℕ} {a : ℕ → ℤ → ℂ} (hs : Scale3 u η θ τ ν p) {α : ℕ → ℤ → ℝ} (hα : Maj θ τ ν p a α)
    (he : e.Is c p a) (x : Vec 3)
    (hr : F.nrm3 (F.vsub x c) ≠ 0) {ζ : ℕ → ℝ} (hζ : ∀ n, 0 ≤ ζ n)
    (hζ' : ∀ n ≤ p, θ ^ (2 * p + 1) ≤ ζ n) :
    ∃ z, mePot F e x = .ok (-z.re) ∧ Ap u (2 + (p + 1) ^ 2)
      (∑ n ∈ range (p + 1), ∑ m ∈ Ir n, α n m * ((‖rdv F (F.nrm3 (F.vsub x c)) (F.rnd (1 / F.nrm3 (F.vsub x c))) n‖ + ν * ζ n)
        * (‖yv F p (F.rcos (F.sph (F.vsub x c) 1)) (F.sph (F.vsub x c) 2) n m‖ + ν))) z
      (∑ n ∈ range (p + 1), ∑ m ∈ Ir n, a n m * ((rdv F (F.nrm3 (F.vsub x c)) (F.rnd (1 / F.nrm3 (F.vsub x c))) n : ℂ)
        * yv F p (F.rcos (F.sph (F.vsub x c) 1)) (F.sph (F.vsub x c) 2) n m)) := by
  unfold mePot
  simp only [he.center, he.order, sph0]
  set v' := F.vsub x c with hv
  obtain ⟨Y, hY, hYv⟩ := ylm_ok F p (F.sph v' 1) (F.sph v' 2) (hF.rcos_le _)
  rw [hY, ok_bind, Fl3.divR, if_neg hr, ok_bind]
  exact potLoop hF hs hα he hYv (fun x => Fl3.divR F x (F.nrm3 v')) (rdv F (F.nrm3 v') (F.rnd (1 / F.nrm3 v')))
    (fun i => by rw [Fl3.divR, if_neg hr]; rfl) (MajY.mk' hs.nu0 _) (MajP.mk' hs.nu0 _ hζ hζ')

end Lo3
end FMM
