import Verif.FltVec3

/-!
# Runs of the three-dimensional operations in floating-point arithmetic

Each computed coefficient approximates the bilinear combination of the stored coefficients with the computed powers and
harmonics.
-/

namespace FMM
open Finset

namespace Fl3
variable {F : Flt3} {u g : ℝ}

/-! ## Table entries -/

theorem pow_six_le (hF : F.Ok u g) : (1 + u) ^ 6 ≤ 3 / 2 := by
  have h1 := hF.nonneg
  have h2 := hF.small
  calc (1 + u) ^ 6 ≤ (17 / 16) ^ 6 := pow_le_pow_left₀ (by linarith) (by linarith) 6
    _ ≤ 3 / 2 := by norm_num

theorem aGet_ok {st : Stat3} (hst : st.Good) (h0 : 0 < st.alm.maxOrder) {n : ℕ} {m : ℤ} (hn : n ≤ 2 * st.alm.maxOrder)
    (hm : |m| ≤ n) : aGet F st n m = .ok (F.alm n m (aSpec n m)) := by
  unfold aGet
  rw [AlmTable.get_ok hst.alm h0 hn hm, ok_bind]

theorem alm_ap (hF : F.Ok u g) {n : ℕ} {m : ℤ} (hn : n ≤ 84) (hm : |m| ≤ n) :
    Ap u 6 |aSpec n m| (F.alm n m (aSpec n m)) (aSpec n m) := ⟨hF.alm n m hn hm, le_rfl⟩

theorem alm_inv (hF : F.Ok u g) {n : ℕ} {m : ℤ} (hn : n ≤ 84) (hm : |m| ≤ n) :
    F.alm n m (aSpec n m) ≠ 0 ∧ Ap u 12 |aSpec n m|⁻¹ (F.alm n m (aSpec n m))⁻¹ (aSpec n m)⁻¹ :=
  Ap.invk hF.nonneg 6 (pow_six_le hF) (aSpec_ne_zero n m) (hF.alm n m hn hm)

theorem cdr_ap {F : Flt} (hF : F.Ok u) {n k : ℕ} {M N : ℝ} {x' x : ℂ} {b' b : ℝ} (h : Ap u n M x' x) (hb : Ap u k N b'⁻¹ b⁻¹) :
    Ap u (n + k + 1) (M * N) (F.cdr x' b') (x / b) := by
  refine Ap.round hF.nonneg (y := x' / b') ?_ (hF.cdr_err _ _)
  have := h.mul hF.nonneg hb.ofReal
  rw [Complex.ofReal_inv, Complex.ofReal_inv] at this
  simpa [div_eq_mul_inv] using this

theorem divR_ap (hF : F.Ok u g) {n k : ℕ} {M N : ℝ} {a' a b' b : ℝ} (h : Ap u n M a' a) (h0 : b' ≠ 0) (hb : Ap u k N b'⁻¹ b⁻¹) :
    divR F a' b' = .ok (F.rnd (a' / b')) ∧ Ap u (n + k + 1) (M * N) (F.rnd (a' / b')) (a / b) := by
  refine ⟨by rw [divR, if_neg h0], ?_⟩
  have := hF.rrnd (h.mul hF.nonneg hb)
  rwa [← div_eq_mul_inv, ← div_eq_mul_inv a] at this

theorem rl (hu : 0 ≤ u) {E : Type*} [NormedAddCommGroup E] (x : E) (n : ℕ) : Ap u n ‖x‖ x x :=
  (Ap.refl le_rfl).mono hu (Nat.zero_le _) le_rfl

theorem _root_.FMM.Ap.congr' {E : Type*} [NormedAddCommGroup E] {n : ℕ} {M N : ℝ} {x' x y : E} (h : Ap u n M x' x) (hM : M = N) (hx : x = y) :
    Ap u n N x' y := hM ▸ hx ▸ h

/-! ## Shift of multipole coefficients -/

/-- One degree of the shift of multipole coefficients with arbitrary harmonics. -/
noncomputable def m2mB (a y : ℤ → ℂ) (j n : ℕ) (k : ℤ) : ℂ :=
  (∑ m ∈ Icc (max (-(n : ℤ)) (n + k - j)) (min (n : ℤ) (j + k - n)),
    ((sg1 k m * aSpec n m * aSpec (j - n) (k - m) : ℝ) : ℂ) * (a (k - m) * y (-m))) / (aSpec j k : ℂ)

theorem m2mB_eq (a : ℤ → ℂ) (h : Vec 3) (j n : ℕ) (k : ℤ) : m2mB a (rY h n) j n k = m2mPart a h j n k := rfl

theorem m2mA_eq (a y : ℤ → ℂ) {j n : ℕ} (hn : n ≤ j) (k : ℤ) : m2mA (fun m => ‖a m‖) (fun m => ‖y m‖) j n k
    = (∑ m ∈ Icc (max (-(n : ℤ)) (n + k - j)) (min (n : ℤ) (j + k - n)),
      |sg1 k m * aSpec n m * aSpec (j - n) (k - m)| * (‖a (k - m)‖ * ‖y (-m)‖)) * |aSpec j k|⁻¹ := by
  unfold m2mA
  rw [sum_mul]
  refine sum_congr rfl fun m _ => ?_
  rw [← m2m_wratio hn, abs_norm, abs_norm]
  ring

theorem norm_m2mB_sub (a y y₂ : ℤ → ℂ) {j n : ℕ} (hn : n ≤ j) (k : ℤ) :
    ‖m2mB a y j n k - m2mB a y₂ j n k‖ ≤ m2mA (fun m => ‖a m‖) (fun m => ‖y m - y₂ m‖) j n k := by
  rw [m2mA_eq a (fun m => y m - y₂ m) hn]
  unfold m2mB
  rw [← sub_div, ← sum_sub_distrib, norm_div, Complex.norm_real, Real.norm_eq_abs, div_eq_mul_inv]
  refine mul_le_mul_of_nonneg_right ((norm_sum_le _ _).trans (le_of_eq (sum_congr rfl fun m _ => ?_)))
    (inv_nonneg.mpr (abs_nonneg _))
  rw [← mul_sub, ← mul_sub, norm_mul, norm_mul, Complex.norm_real, Real.norm_eq_abs]

theorem meShiftCoeff_ap (hF : F.Ok u g) {st : Stat3} (hst : st.Good) {e : Exp3} {c : Vec 3} {p : ℕ} {a : ℕ → ℤ → ℂ}
    (he : e.Is c p a) (hp0 : 0 < p) (hp : p ≤ 42) (hM : p ≤ st.alm.maxOrder) {Y : YlmTable} {y : ℕ → ℤ → ℂ}
    (hY : ∀ l ≤ p, ∀ m : ℤ, |m| ≤ l → Y.get l m = .ok (y l m))
    {pow : Arr ℝ} {P : ℕ → ℝ} (hpow : pow.size = p + 1) (hpv : ∀ k ≤ p, pow.val k = P k) {j : ℕ} {k : ℤ} (hj : j ≤ p)
    (hk : |k| ≤ j) :
    ∃ w, meShiftCoeff F st e Y pow j k = .ok w ∧
      Ap u (3 * p + 32) (∑ n ∈ range (j + 1), m2mA (fun m => ‖a (j - n) m‖) (fun m => ‖(P n : ℂ) * y n m‖) j n k) w
        (∑ n ∈ range (j + 1), m2mB (a (j - n)) (fun m => (P n : ℂ) * y n m) j n k) := by
  have hu := hF.nonneg
  have hF' := hF.toOk
  unfold meShiftCoeff
  have hk' := hk
  rw [abs_le] at hk'
  obtain ⟨r, h1, h2⟩ := loopM_ap hF' (j + 1) (fun n M => do
    let acc ← loopZ (max (-(n : ℤ)) (n + k - j)) (min (n : ℤ) (j + k - n)) (fun m acc => do
      let s ← st.s1.get k m
      let a ← aGet F st n m
      let b ← aGet F st (j - n) (k - m)
      let o ← e.get (j - n) (k - m)
      let y ← Y.get n (-m)
      .ok (F.cadd acc (F.rsc (F.rnd (F.rnd (s * a) * b)) (F.mul o y)))) 0
    let p ← pow.rd n
    .ok (F.cadd M (F.rsc p acc)))
    (fun n => (P n : ℂ) * (0 + ∑ m ∈ Icc (max (-(n : ℤ)) (n + k - j)) (min (n : ℤ) (j + k - n)),
      ((sg1 k m * aSpec n m * aSpec (j - n) (k - m) : ℝ) : ℂ) * (a (j - n) (k - m) * y n (-m))))
    (fun n => ‖P n‖ * (0 + ∑ m ∈ Icc (max (-(n : ℤ)) (n + k - j)) (min (n : ℤ) (j + k - n)),
      |sg1 k m * aSpec n m * aSpec (j - n) (k - m)| * (‖a (j - n) (k - m)‖ * ‖y n (-m)‖)))
    (c := 2 * p + 18) (n0 := 2 * p + 18) (s' := 0) (s := 0) (Ap.zero le_rfl hu) le_rfl
    (fun n hn => by
      obtain ⟨acc, g1, g2⟩ := loopZ_ap hF' (max (-(n : ℤ)) (n + k - j)) (min (n : ℤ) (j + k - n)) (fun m acc => do
          let s ← st.s1.get k m
          let a ← aGet F st n m
          let b ← aGet F st (j - n) (k - m)
          let o ← e.get (j - n) (k - m)
          let y ← Y.get n (-m)
          .ok (F.cadd acc (F.rsc (F.rnd (F.rnd (s * a) * b)) (F.mul o y))))
        (fun m => ((sg1 k m * aSpec n m * aSpec (j - n) (k - m) : ℝ) : ℂ) * (a (j - n) (k - m) * y n (-m)))
        (fun m => |sg1 k m * aSpec n m * aSpec (j - n) (k - m)| * (‖a (j - n) (k - m)‖ * ‖y n (-m)‖))
        (c := 16) (n0 := 16) (s' := 0) (s := 0) (Ap.zero le_rfl hu) le_rfl
        (fun m hm1 hm2 => by
          have hm : |m| ≤ n := by rw [abs_le]; omega
          have hkm : |k - m| ≤ ((j - n : ℕ) : ℤ) := by rw [abs_le]; omega
          refine ⟨F.rsc (F.rnd (F.rnd (sg1 k m * F.alm n m (aSpec n m)) * F.alm (j - n) (k - m) (aSpec (j - n) (k - m))))
            (F.mul (a (j - n) (k - m)) (y n (-m))), fun b => ?_, ?_⟩
          · rw [SignTable.get_ok hst.s1 (by rw [hst.m1]; omega) (by rw [hst.m1]; omega) (by rw [hst.m1]; omega), ok_bind,
              aGet_ok hst (by omega) (by omega) hm, ok_bind, aGet_ok hst (by omega) (by omega) hkm, ok_bind,
              he.get (by omega) hkm, ok_bind, hY n (by omega) (-m) (by rwa [abs_neg]), ok_bind]
          · have k1 := hF.rrnd ((rl hu (sg1 k m) 0).mul hu (alm_ap hF (n := n) (m := m) (by omega) hm))
            have k2 := hF.rrnd (k1.mul hu (alm_ap hF (n := j - n) (m := k - m) (by omega) hkm))
            have k3 := hF.cmul (rl hu (a (j - n) (k - m)) 0) (rl hu (y n (-m)) 0)
            have k4 := hF.rsc k2 k3
            rwa [Real.norm_eq_abs, ← abs_mul, ← abs_mul] at k4)
      refine ⟨F.rsc (P n) acc, fun b => ?_, ?_⟩
      · rw [g1, ok_bind, Arr.rd_ok _ (by rw [hpow]; omega), ok_bind, hpv n (by omega)]
      · have k1 := hF.rsc (rl hu (P n) 0) g2
        exact k1.mono hu (by omega) le_rfl)
  rw [h1, ok_bind, aGet_ok hst (by omega) (by omega) hk, ok_bind, divC, if_neg (alm_inv hF (by omega) hk).1]
  refine ⟨_, rfl, ?_⟩
  have h3 := cdr_ap hF' h2 (alm_inv hF (n := j) (m := k) (by omega) hk).2
  refine (h3.mono hu (m := 3 * p + 32) (by omega) le_rfl).congr' ?_ ?_
  · rw [zero_add, sum_mul]
    refine sum_congr rfl fun n hn => ?_
    rw [mem_range] at hn
    rw [m2mA_eq (a (j - n)) (fun m => (P n : ℂ) * y n m) (by omega), zero_add, mul_sum]
    congr 1
    refine sum_congr rfl fun m _ => ?_
    rw [norm_mul, Complex.norm_real]; ring
  · rw [zero_add, sum_div]
    refine sum_congr rfl fun n hn => ?_
    unfold m2mB
    rw [zero_add, mul_sum]
    congr 1
    exact sum_congr rfl fun m _ => by ring

/-- Cells written in order through a running position. -/
theorem grid_pos {p : ℕ} (f : ℕ → ℤ → Outcome ℂ) (w : ℕ → ℤ → ℂ) {N : ℕ} (hN : N = (p + 1) * (p + 1))
    (h : ∀ j ≤ p, ∀ k : ℤ, |k| ≤ j → f j k = .ok (w j k)) :
    ∃ d : Arr ℂ, (do
      let (c, _) ← loopM (p + 1) (fun j (s : Arr ℂ × ℕ) =>
        loopZ (-(j : ℤ)) j (fun k (s : Arr ℂ × ℕ) => do
          let M ← f j k
          let c ← s.1.wr s.2 M
          .ok (c, s.2 + 1)) s) ((Arr.new N : Arr ℂ), 0)
      (Except.ok c : Outcome (Arr ℂ))) = .ok d ∧ d.size = (p + 1) * (p + 1) ∧
      ∀ n ≤ p, ∀ m : ℤ, |m| ≤ n → d.val (cell n m) = w n m := by
  obtain ⟨d, h1, h2, h3⟩ := grid_rmw (p := p) (fun j (s : Arr ℂ × ℕ) =>
    loopZ (-(j : ℤ)) j (fun k (s : Arr ℂ × ℕ) => do
      let M ← f j k
      let c ← s.1.wr s.2 M
      .ok (c, s.2 + 1)) s) (fun n m _ => w n m) (fun n => n * n) (Arr.new N) hN
    (by
      intro n hn c' hc'
      obtain ⟨c'', g1, g2, g3⟩ := row_pos hn (fun k (s : Arr ℂ × ℕ) => do
        let M ← f n k
        let c ← s.1.wr s.2 M
        .ok (c, s.2 + 1)) (fun m => w n m) c' hc' (by
          intro m hm s
          rw [h n hn m hm]; rfl)
      exact ⟨c'', g1, g2, g3⟩)
  refine ⟨d, ?_, h2, h3⟩
  have : ((Arr.new N : Arr ℂ), 0 * 0) = (Arr.new N, 0) := by simp
  rw [this] at h1
  rw [h1]; rfl

theorem meShift_ap (hF : F.Ok u g) {st : Stat3} (hst : st.Good) {e : Exp3} {c : Vec 3} {p : ℕ} {a : ℕ → ℤ → ℂ}
    (he : e.Is c p a) (hp0 : 0 < p) (hp : p ≤ 42) (hM : p ≤ st.alm.maxOrder) (v' : Vec 3) :
    ∃ (d : Arr ℂ) (w : ℕ → ℤ → ℂ), meShift F st e v' = .ok d ∧ d.size = (p + 1) * (p + 1) ∧
      ∀ j ≤ p, ∀ k : ℤ, |k| ≤ j → d.val (cell j k) = w j k ∧
      Ap u (3 * p + 32) (∑ n ∈ range (j + 1), m2mA (fun m => ‖a (j - n) m‖)
          (fun m => ‖(rpw F (F.nrm3 v') 1 n : ℂ) * yv F p (F.rcos (F.sph v' 1)) (F.sph v' 2) n m‖) j n k) (w j k)
        (∑ n ∈ range (j + 1), m2mB (a (j - n))
          (fun m => (rpw F (F.nrm3 v') 1 n : ℂ) * yv F p (F.rcos (F.sph v' 1)) (F.sph v' 2) n m) j n k) := by
  obtain ⟨Y, hY, hYv⟩ := ylm_ok F p (F.sph v' 1) (F.sph v' 2) (hF.rcos_le _)
  obtain ⟨pw, hpw, hps, hpv⟩ := powTable_ok F (F.nrm3 v') p
  have hex : ∀ (j : ℕ) (k : ℤ), ∃ w, j ≤ p → |k| ≤ j → meShiftCoeff F st e Y pw j k = .ok w ∧
      Ap u (3 * p + 32) (∑ n ∈ range (j + 1), m2mA (fun m => ‖a (j - n) m‖)
          (fun m => ‖(rpw F (F.nrm3 v') 1 n : ℂ) * yv F p (F.rcos (F.sph v' 1)) (F.sph v' 2) n m‖) j n k) w
        (∑ n ∈ range (j + 1), m2mB (a (j - n))
          (fun m => (rpw F (F.nrm3 v') 1 n : ℂ) * yv F p (F.rcos (F.sph v' 1)) (F.sph v' 2) n m) j n k) := by
    intro j k
    by_cases h : j ≤ p ∧ |k| ≤ j
    · obtain ⟨w, h1⟩ := meShiftCoeff_ap hF hst he hp0 hp hM hYv hps hpv h.1 h.2
      exact ⟨w, fun _ _ => h1⟩
    · exact ⟨0, fun h1 h2 => absurd ⟨h1, h2⟩ h⟩
  choose w hw using hex
  obtain ⟨d, h1, h2, h3⟩ := grid_pos (p := p) (meShiftCoeff F st e Y pw) w he.size fun j hj k hk => (hw j k hj hk).1
  refine ⟨d, w, ?_, h2, fun j hj k hk => ⟨h3 j hj k hk, (hw j k hj hk).2⟩⟩
  unfold meShift
  simp only [he.order, sph0]
  rw [hY, ok_bind, hpw, ok_bind]
  exact h1

/-! ## Conversion -/

theorem norm_m2lPart_sub (a y y₂ : ℤ → ℂ) (j n : ℕ) (k : ℤ) :
    ‖m2lPart a y j n k - m2lPart a y₂ j n k‖ ≤ m2lA (fun m => ‖a m‖) (fun m => ‖y m - y₂ m‖) j n k := by
  have : m2lPart a y j n k - m2lPart a y₂ j n k = m2lPart a (fun m => y m - y₂ m) j n k := by
    unfold m2lPart
    rw [← sub_mul, ← mul_sub, ← sum_sub_distrib]
    congr 2
    exact sum_congr rfl fun m _ => by ring
  rw [this]
  exact norm_m2lPart _ _ _ _ _

theorem m2lA_eq (a y : ℤ → ℂ) (j n : ℕ) (k : ℤ) : m2lA (fun m => ‖a m‖) (fun m => ‖y m‖) j n k
    = |aSpec j k| * ∑ m ∈ Icc (-(n : ℤ)) n, |sg2 k m * aSpec n m / aSpec (j + n) (m - k)| * (‖a m‖ * ‖y (m - k)‖) := by
  unfold m2lA
  rw [mul_sum]
  refine sum_congr rfl fun m _ => ?_
  rw [← m2l_wratio, abs_norm, abs_norm]
  ring

theorem parSign_norm (n : ℕ) : ‖Exp3.parSign n‖ = 1 := by
  rw [Exp3.parSign_eq, norm_pow, norm_neg, norm_one, one_pow]

theorem m2lCoeff_ap (hF : F.Ok u g) {st : Stat3} (hst : st.Good) {e : Exp3} {c : Vec 3} {p : ℕ} {a : ℕ → ℤ → ℂ}
    (he : e.Is c p a) (hp0 : 0 < p) (hp : p ≤ 42) (hM : p ≤ st.alm.maxOrder) {Y : YlmTable} {y : ℕ → ℤ → ℂ}
    (hY : ∀ l ≤ 2 * p, ∀ m : ℤ, |m| ≤ l → Y.get l m = .ok (y l m))
    {pow : Arr ℝ} {P : ℕ → ℝ} (hpow : pow.size = 2 * p + 1 + 1) (hpv : ∀ k ≤ 2 * p + 1, pow.val k = P k) {j : ℕ} {k : ℤ}
    (hj : j ≤ p) (hk : |k| ≤ j) :
    ∃ w, m2lCoeff F st p e Y pow j k = .ok w ∧
      Ap u (3 * p + 33) (∑ n ∈ range (p + 1), m2lA (fun m => ‖a n m‖) (fun m => ‖(P (j + n + 1) : ℂ) * y (j + n) m‖) j n k) w
        (∑ n ∈ range (p + 1), m2lPart (a n) (fun m => (P (j + n + 1) : ℂ) * y (j + n) m) j n k) := by
  have hu := hF.nonneg
  have hF' := hF.toOk
  unfold m2lCoeff
  have hk' := hk
  rw [abs_le] at hk'
  obtain ⟨r, h1, h2⟩ := loopM_ap hF' (p + 1) (fun n L => do
    let acc ← loopZ (-(n : ℤ)) n (fun m acc => do
      let s ← st.s2.get k m
      let a ← aGet F st n m
      let b ← aGet F st (j + n) (m - k)
      let A ← divR F (F.rnd (s * a)) b
      let o ← e.get n m
      let y ← Y.get (j + n) (m - k)
      .ok (F.cadd acc (F.rsc A (F.mul o y)))) 0
    let p ← pow.rd (j + n + 1)
    .ok (F.cadd L (F.rsc (F.rnd (Exp3.parSign n * p)) acc)))
    (fun n => ((Exp3.parSign n * P (j + n + 1) : ℝ) : ℂ) * (0 + ∑ m ∈ Icc (-(n : ℤ)) n,
      ((sg2 k m * aSpec n m / aSpec (j + n) (m - k) : ℝ) : ℂ) * (a n m * y (j + n) (m - k))))
    (fun n => ‖P (j + n + 1)‖ * (0 + ∑ m ∈ Icc (-(n : ℤ)) n,
      |sg2 k m * aSpec n m / aSpec (j + n) (m - k)| * (‖a n m‖ * ‖y (j + n) (m - k)‖)))
    (c := 2 * p + 25) (n0 := 2 * p + 25) (s' := 0) (s := 0) (Ap.zero le_rfl hu) le_rfl
    (fun n hn => by
      obtain ⟨acc, g1, g2⟩ := loopZ_ap hF' (-(n : ℤ)) n (fun m acc => do
          let s ← st.s2.get k m
          let a ← aGet F st n m
          let b ← aGet F st (j + n) (m - k)
          let A ← divR F (F.rnd (s * a)) b
          let o ← e.get n m
          let y ← Y.get (j + n) (m - k)
          .ok (F.cadd acc (F.rsc A (F.mul o y))))
        (fun m => ((sg2 k m * aSpec n m / aSpec (j + n) (m - k) : ℝ) : ℂ) * (a n m * y (j + n) (m - k)))
        (fun m => |sg2 k m * aSpec n m / aSpec (j + n) (m - k)| * (‖a n m‖ * ‖y (j + n) (m - k)‖))
        (c := 22) (n0 := 22) (s' := 0) (s := 0) (Ap.zero le_rfl hu) le_rfl
        (fun m hm1 hm2 => by
          have hm : |m| ≤ n := by rw [abs_le]; omega
          have hkm : |m - k| ≤ ((j + n : ℕ) : ℤ) := by rw [abs_le]; push_cast; omega
          have k1 := hF.rrnd ((rl hu (sg2 k m) 0).mul hu (alm_ap hF (n := n) (m := m) (by omega) hm))
          have i1 := alm_inv hF (n := j + n) (m := m - k) (by omega) hkm
          have k2 := divR_ap hF k1 i1.1 i1.2
          refine ⟨F.rsc (F.rnd (F.rnd (sg2 k m * F.alm n m (aSpec n m)) / F.alm (j + n) (m - k) (aSpec (j + n) (m - k))))
            (F.mul (a n m) (y (j + n) (m - k))), fun b => ?_, ?_⟩
          · rw [SignTable.get_ok hst.s2 (by rw [hst.m2]; omega) (by rw [hst.m2]; omega) (by rw [hst.m2]; omega), ok_bind,
              aGet_ok hst (by omega) (by omega) hm, ok_bind, aGet_ok hst (by omega) (by omega) hkm, ok_bind, k2.1, ok_bind,
              he.get (by omega) hm, ok_bind, hY (j + n) (by omega) (m - k) hkm, ok_bind]
          · have k3 := hF.cmul (rl hu (a n m) 0) (rl hu (y (j + n) (m - k)) 0)
            have k4 := hF.rsc k2.2 k3
            rwa [Real.norm_eq_abs, ← abs_mul, ← abs_inv, ← abs_mul, ← div_eq_mul_inv] at k4)
      refine ⟨F.rsc (F.rnd (Exp3.parSign n * P (j + n + 1))) acc, fun b => ?_, ?_⟩
      · rw [g1, ok_bind, Arr.rd_ok _ (by rw [hpow]; omega), ok_bind, hpv _ (by omega)]
      · have k1 := hF.rsc (hF.rrnd (rl hu (Exp3.parSign n * P (j + n + 1)) 0)) g2
        rw [norm_mul, parSign_norm, one_mul] at k1
        exact k1.mono hu (by omega) le_rfl)
  rw [h1, ok_bind, aGet_ok hst (by omega) (by omega) hk, ok_bind]
  refine ⟨_, rfl, ?_⟩
  have h3 := hF.rsc (alm_ap hF (n := j) (m := k) (by omega) hk) h2
  refine (h3.mono hu (m := 3 * p + 33) (by omega) le_rfl).congr' ?_ ?_
  · rw [zero_add, mul_sum]
    refine sum_congr rfl fun n hn => ?_
    rw [m2lA_eq (a n) (fun m => (P (j + n + 1) : ℂ) * y (j + n) m), zero_add, mul_sum]
    congr 1
    refine sum_congr rfl fun m _ => ?_
    rw [norm_mul, Complex.norm_real]; ring
  · rw [zero_add, mul_sum]
    refine sum_congr rfl fun n hn => ?_
    unfold m2lPart
    rw [zero_add, Exp3.parSign_eq, mul_comm (aSpec j k : ℂ)]
    congr 1
    rw [mul_sum, mul_sum]
    exact sum_congr rfl fun m _ => by push_cast; ring

theorem leOfMe_run (hF : F.Ok u g) (st : Stat3) (hst : st.Good) {e : Exp3} {c : Vec 3} {p : ℕ} {a : ℕ → ℤ → ℂ} (he : e.Is c p a)
    (hp : p ≤ 42) (hp0 : 0 < p) (c' : Vec 3) (hr : F.nrm3 (F.vsub c c') ≠ 0) :
    ∃ st' f w, leOfMe F st c' e = .ok (st', f) ∧ st'.Good ∧ p ≤ st'.alm.maxOrder ∧ (p ≤ st.alm.maxOrder → st' = st) ∧
      f.Is c' p w ∧ ∀ j ≤ p, ∀ k : ℤ, |k| ≤ j →
        Ap u (3 * p + 33) (∑ n ∈ range (p + 1), m2lA (fun m => ‖a n m‖) (fun m =>
            ‖(rpw F (F.rnd (1 / F.nrm3 (F.vsub c c'))) 1 (j + n + 1) : ℂ)
              * yv F (2 * p) (F.rcos (F.sph (F.vsub c c') 1)) (F.sph (F.vsub c c') 2) (j + n) m‖) j n k) (w j k)
          (∑ n ∈ range (p + 1), m2lPart (a n) (fun m =>
            (rpw F (F.rnd (1 / F.nrm3 (F.vsub c c'))) 1 (j + n + 1) : ℂ)
              * yv F (2 * p) (F.rcos (F.sph (F.vsub c c') 1)) (F.sph (F.vsub c c') 2) (j + n) m) j n k) := by
  obtain ⟨st', f, h1, h2, h3, h4, h5⟩ := Exp3.new_ok st hst c' p hp
  set v' := F.vsub c c' with hv
  obtain ⟨Y, hY, hYv⟩ := ylm_ok F (2 * p) (F.sph v' 1) (F.sph v' 2) (hF.rcos_le _)
  obtain ⟨pw, hpw, hps, hpv⟩ := powTable_ok F (F.rnd (1 / F.nrm3 v')) (2 * p + 1)
  have hex : ∀ (j : ℕ) (k : ℤ), ∃ w, j ≤ p → |k| ≤ j → m2lCoeff F st' p e Y pw j k = .ok w ∧
      Ap u (3 * p + 33) (∑ n ∈ range (p + 1), m2lA (fun m => ‖a n m‖) (fun m =>
            ‖(rpw F (F.rnd (1 / F.nrm3 v')) 1 (j + n + 1) : ℂ)
              * yv F (2 * p) (F.rcos (F.sph v' 1)) (F.sph v' 2) (j + n) m‖) j n k) w
          (∑ n ∈ range (p + 1), m2lPart (a n) (fun m =>
            (rpw F (F.rnd (1 / F.nrm3 v')) 1 (j + n + 1) : ℂ)
              * yv F (2 * p) (F.rcos (F.sph v' 1)) (F.sph v' 2) (j + n) m) j n k) := by
    intro j k
    by_cases h : j ≤ p ∧ |k| ≤ j
    · obtain ⟨w, h1⟩ := m2lCoeff_ap hF h2 he hp0 hp h3 hYv hps hpv h.1 h.2
      exact ⟨w, fun _ _ => h1⟩
    · exact ⟨0, fun h1 h2 => absurd ⟨h1, h2⟩ h⟩
  choose w hw using hex
  unfold leOfMe
  rw [he.order, h1, ok_bind]
  simp only [h5.center, h5.order, he.center, sph0]
  rw [← hv, hY, ok_bind, divR, if_neg hr, ok_bind, hpw, ok_bind]
  obtain ⟨d, g1, g2, g3⟩ := grid_rmw1 (p := p) (fun j c =>
    loopZ (-(j : ℤ)) j (fun k c => do
      let L ← m2lCoeff F st' p e Y pw j k
      c.wrZ (lmIndex j k) L) c) (fun n m _ => w n m) f.coeffs h5.size (by
      intro n hn c' hc'
      exact row_rmw hn _ (fun m _ => w n m) c' hc' fun m hm d hd => by
        rw [(hw n m hn hm).1, ok_bind, wrZ_cell hd hn hm])
  rw [g1, ok_bind]
  exact ⟨st', _, w, rfl, h2, h3, h4, ⟨rfl, rfl, g2, g3⟩, fun j hj k hk => (hw j k hj hk).2⟩

/-! ## Shift of local coefficients -/

/-- One degree of the shift of local coefficients with arbitrary harmonics. -/
noncomputable def l2lB (a y : ℤ → ℂ) (j n : ℕ) (k : ℤ) : ℂ :=
  (aSpec j k : ℂ) * ((-1) ^ (n + j) * ∑ m ∈ Icc (max (-(n : ℤ)) (k + j - n)) (min (n : ℤ) (k + n - j)),
    ((sg3 k m * aSpec (n - j) (m - k) / aSpec n m : ℝ) : ℂ) * (a m * y (m - k)))

theorem l2lB_eq (a : ℤ → ℂ) (h : Vec 3) (j n : ℕ) (k : ℤ) : l2lB a (rY h (n - j)) j n k = l2lPart a h j n k := rfl

theorem l2lA_eq (a y : ℤ → ℂ) {j n : ℕ} (hn : j ≤ n) (k : ℤ) : l2lA (fun m => ‖a m‖) (fun m => ‖y m‖) j n k
    = |aSpec j k| * ∑ m ∈ Icc (max (-(n : ℤ)) (k + j - n)) (min (n : ℤ) (k + n - j)),
      |sg3 k m * aSpec (n - j) (m - k) / aSpec n m| * (‖a m‖ * ‖y (m - k)‖) := by
  unfold l2lA
  rw [mul_sum]
  refine sum_congr rfl fun m _ => ?_
  rw [← l2l_wratio hn, abs_norm, abs_norm]
  ring

theorem norm_l2lB_sub (a y y₂ : ℤ → ℂ) {j n : ℕ} (hn : j ≤ n) (k : ℤ) :
    ‖l2lB a y j n k - l2lB a y₂ j n k‖ ≤ l2lA (fun m => ‖a m‖) (fun m => ‖y m - y₂ m‖) j n k := by
  rw [l2lA_eq a (fun m => y m - y₂ m) hn]
  unfold l2lB
  rw [← mul_sub, ← mul_sub, ← sum_sub_distrib, norm_mul, norm_mul, Complex.norm_real, Real.norm_eq_abs, norm_pow, norm_neg,
    norm_one, one_pow, one_mul]
  refine mul_le_mul_of_nonneg_left ((norm_sum_le _ _).trans (le_of_eq (sum_congr rfl fun m _ => ?_))) (abs_nonneg _)
  rw [← mul_sub, ← mul_sub, norm_mul, norm_mul, Complex.norm_real, Real.norm_eq_abs]

theorem leShiftCoeff_ap (hF : F.Ok u g) {st : Stat3} (hst : st.Good) {e : Exp3} {c : Vec 3} {p : ℕ} {a : ℕ → ℤ → ℂ}
    (he : e.Is c p a) (hp0 : 0 < p) (hp : p ≤ 42) (hM : p ≤ st.alm.maxOrder) {Y : YlmTable} {y : ℕ → ℤ → ℂ}
    (hY : ∀ l ≤ 2 * p, ∀ m : ℤ, |m| ≤ l → Y.get l m = .ok (y l m))
    {pow : Arr ℝ} {P : ℕ → ℝ} (hpow : pow.size = p + 1) (hpv : ∀ k ≤ p, pow.val k = P k) {j : ℕ} {k : ℤ} (hj : j ≤ p)
    (hk : |k| ≤ j) :
    ∃ w, leShiftCoeff F st e Y pow j k = .ok w ∧
      Ap u (3 * p + 33) (∑ n ∈ Ico j (p + 1), l2lA (fun m => ‖a n m‖) (fun m => ‖(P (n - j) : ℂ) * y (n - j) m‖) j n k) w
        (∑ n ∈ Ico j (p + 1), l2lB (a n) (fun m => (P (n - j) : ℂ) * y (n - j) m) j n k) := by
  have hu := hF.nonneg
  have hF' := hF.toOk
  unfold leShiftCoeff
  have hk' := hk
  rw [abs_le] at hk'
  rw [he.order, sum_Ico_eq_sum_range, sum_Ico_eq_sum_range]
  obtain ⟨r, h1, h2⟩ := loopM_ap hF' (p + 1 - j) (fun i L => do
    let n := j + i
    let acc ← loopZ (max (-(n : ℤ)) (k + j - n)) (min (n : ℤ) (k + n - j)) (fun m acc => do
      let s ← st.s3.get k m
      let a ← aGet F st (n - j) (m - k)
      let b ← aGet F st n m
      let A ← divR F (F.rnd (s * a)) b
      let o ← e.get n m
      let y ← Y.get (n - j) (m - k)
      .ok (F.cadd acc (F.rsc A (F.mul o y)))) 0
    let p ← pow.rd (n - j)
    .ok (F.cadd L (F.rsc (F.rnd (Exp3.parSign (n + j) * p)) acc)))
    (fun i => ((Exp3.parSign (j + i + j) * P (j + i - j) : ℝ) : ℂ) * (0 + ∑ m ∈ Icc (max (-((j + i : ℕ) : ℤ)) (k + j - (j + i : ℕ)))
        (min ((j + i : ℕ) : ℤ) (k + (j + i : ℕ) - j)),
      ((sg3 k m * aSpec (j + i - j) (m - k) / aSpec (j + i) m : ℝ) : ℂ) * (a (j + i) m * y (j + i - j) (m - k))))
    (fun i => ‖P (j + i - j)‖ * (0 + ∑ m ∈ Icc (max (-((j + i : ℕ) : ℤ)) (k + j - (j + i : ℕ)))
        (min ((j + i : ℕ) : ℤ) (k + (j + i : ℕ) - j)),
      |sg3 k m * aSpec (j + i - j) (m - k) / aSpec (j + i) m| * (‖a (j + i) m‖ * ‖y (j + i - j) (m - k)‖)))
    (c := 2 * p + 25) (n0 := 2 * p + 25) (s' := 0) (s := 0) (Ap.zero le_rfl hu) le_rfl
    (fun i hi => by
      simp only
      generalize hn : j + i = n
      obtain ⟨acc, g1, g2⟩ := loopZ_ap hF' (max (-(n : ℤ)) (k + j - n)) (min (n : ℤ) (k + n - j)) (fun m acc => do
          let s ← st.s3.get k m
          let a ← aGet F st (n - j) (m - k)
          let b ← aGet F st n m
          let A ← divR F (F.rnd (s * a)) b
          let o ← e.get n m
          let y ← Y.get (n - j) (m - k)
          .ok (F.cadd acc (F.rsc A (F.mul o y))))
        (fun m => ((sg3 k m * aSpec (n - j) (m - k) / aSpec n m : ℝ) : ℂ) * (a n m * y (n - j) (m - k)))
        (fun m => |sg3 k m * aSpec (n - j) (m - k) / aSpec n m| * (‖a n m‖ * ‖y (n - j) (m - k)‖))
        (c := 22) (n0 := 22) (s' := 0) (s := 0) (Ap.zero le_rfl hu) le_rfl
        (fun m hm1 hm2 => by
          have hm : |m| ≤ n := by rw [abs_le]; omega
          have hkm : |m - k| ≤ ((n - j : ℕ) : ℤ) := by rw [abs_le]; omega
          have k1 := hF.rrnd ((rl hu (sg3 k m) 0).mul hu (alm_ap hF (n := n - j) (m := m - k) (by omega) hkm))
          have i1 := alm_inv hF (n := n) (m := m) (by omega) hm
          have k2 := divR_ap hF k1 i1.1 i1.2
          refine ⟨F.rsc (F.rnd (F.rnd (sg3 k m * F.alm (n - j) (m - k) (aSpec (n - j) (m - k))) / F.alm n m (aSpec n m)))
            (F.mul (a n m) (y (n - j) (m - k))), fun b => ?_, ?_⟩
          · rw [SignTable.get_ok hst.s3 (by rw [hst.m3]; omega) (by rw [hst.m3]; omega) (by rw [hst.m3]; omega), ok_bind,
              aGet_ok hst (by omega) (by omega) hkm, ok_bind, aGet_ok hst (by omega) (by omega) hm, ok_bind, k2.1, ok_bind,
              he.get (by omega) hm, ok_bind, hY (n - j) (by omega) (m - k) hkm, ok_bind]
          · have k3 := hF.cmul (rl hu (a n m) 0) (rl hu (y (n - j) (m - k)) 0)
            have k4 := hF.rsc k2.2 k3
            rwa [Real.norm_eq_abs, ← abs_mul, ← abs_inv, ← abs_mul, ← div_eq_mul_inv] at k4)
      refine ⟨F.rsc (F.rnd (Exp3.parSign (n + j) * P (n - j))) acc, fun b => ?_, ?_⟩
      · rw [g1, ok_bind, Arr.rd_ok _ (by rw [hpow]; omega), ok_bind, hpv _ (by omega)]
      · have k1 := hF.rsc (hF.rrnd (rl hu (Exp3.parSign (n + j) * P (n - j)) 0)) g2
        rw [norm_mul, parSign_norm, one_mul] at k1
        exact k1.mono hu (by omega) le_rfl)
  rw [h1, ok_bind, aGet_ok hst (by omega) (by omega) hk, ok_bind]
  refine ⟨_, rfl, ?_⟩
  have h3 := hF.rsc (alm_ap hF (n := j) (m := k) (by omega) hk) h2
  refine (h3.mono hu (m := 3 * p + 33) (by omega) le_rfl).congr' ?_ ?_
  · rw [zero_add, mul_sum]
    refine sum_congr rfl fun i hi => ?_
    generalize hn : j + i = n
    rw [l2lA_eq (a n) (fun m => (P (n - j) : ℂ) * y (n - j) m) (by omega), zero_add, mul_sum]
    congr 1
    refine sum_congr rfl fun m _ => ?_
    rw [norm_mul, Complex.norm_real]; ring
  · rw [zero_add, mul_sum]
    refine sum_congr rfl fun i hi => ?_
    generalize hn : j + i = n
    unfold l2lB
    rw [zero_add, Exp3.parSign_eq]
    congr 1
    rw [mul_sum, mul_sum]
    exact sum_congr rfl fun m _ => by push_cast; ring

theorem leShift_ap (hF : F.Ok u g) {st : Stat3} (hst : st.Good) {e : Exp3} {c : Vec 3} {p : ℕ} {a : ℕ → ℤ → ℂ}
    (he : e.Is c p a) (hp0 : 0 < p) (hp : p ≤ 42) (hM : p ≤ st.alm.maxOrder) (v' : Vec 3) :
    ∃ (d : Arr ℂ) (w : ℕ → ℤ → ℂ), leShift F st e v' = .ok d ∧ d.size = (p + 1) * (p + 1) ∧
      ∀ j ≤ p, ∀ k : ℤ, |k| ≤ j → d.val (cell j k) = w j k ∧
      Ap u (3 * p + 33) (∑ n ∈ Ico j (p + 1), l2lA (fun m => ‖a n m‖)
          (fun m => ‖(rpw F (F.nrm3 v') 1 (n - j) : ℂ) * yv F (2 * p) (F.rcos (F.sph v' 1)) (F.sph v' 2) (n - j) m‖) j n k) (w j k)
        (∑ n ∈ Ico j (p + 1), l2lB (a n)
          (fun m => (rpw F (F.nrm3 v') 1 (n - j) : ℂ) * yv F (2 * p) (F.rcos (F.sph v' 1)) (F.sph v' 2) (n - j) m) j n k) := by
  obtain ⟨Y, hY, hYv⟩ := ylm_ok F (2 * p) (F.sph v' 1) (F.sph v' 2) (hF.rcos_le _)
  obtain ⟨pw, hpw, hps, hpv⟩ := powTable_ok F (F.nrm3 v') p
  have hex : ∀ (j : ℕ) (k : ℤ), ∃ w, j ≤ p → |k| ≤ j → leShiftCoeff F st e Y pw j k = .ok w ∧
      Ap u (3 * p + 33) (∑ n ∈ Ico j (p + 1), l2lA (fun m => ‖a n m‖)
          (fun m => ‖(rpw F (F.nrm3 v') 1 (n - j) : ℂ) * yv F (2 * p) (F.rcos (F.sph v' 1)) (F.sph v' 2) (n - j) m‖) j n k) w
        (∑ n ∈ Ico j (p + 1), l2lB (a n)
          (fun m => (rpw F (F.nrm3 v') 1 (n - j) : ℂ) * yv F (2 * p) (F.rcos (F.sph v' 1)) (F.sph v' 2) (n - j) m) j n k) := by
    intro j k
    by_cases h : j ≤ p ∧ |k| ≤ j
    · obtain ⟨w, h1⟩ := leShiftCoeff_ap hF hst he hp0 hp hM hYv hps hpv h.1 h.2
      exact ⟨w, fun _ _ => h1⟩
    · exact ⟨0, fun h1 h2 => absurd ⟨h1, h2⟩ h⟩
  choose w hw using hex
  obtain ⟨d, h1, h2, h3⟩ := grid_pos (p := p) (leShiftCoeff F st e Y pw) w he.size fun j hj k hk => (hw j k hj hk).1
  refine ⟨d, w, ?_, h2, fun j hj k hk => ⟨h3 j hj k hk, (hw j k hj hk).2⟩⟩
  unfold leShift
  simp only [he.order, sph0]
  rw [hY, ok_bind, hpw, ok_bind]
  exact h1

/-! ## Sources -/

theorem srcLoop (F : Flt3) {p : ℕ} {q : ℝ} {Y : YlmTable} {y : ℕ → ℤ → ℂ}
    (hY : ∀ l ≤ p, ∀ m : ℤ, |m| ≤ l → Y.get l m = .ok (y l m)) (step : ℝ → Outcome ℝ) (P : ℕ → ℝ)
    (hstep : ∀ i, step (P i) = .ok (P (i + 1))) (a : Arr ℂ) (ha : a.size = (p + 1) * (p + 1)) :
    ∃ a' : Arr ℂ, (do
      let (c, _) ← loopM (p + 1) (fun n (s : Arr ℂ × ℝ) => do
        let c ← loopZ (-(n : ℤ)) n (fun m (c : Arr ℂ) => do
          let a ← c.rdZ (lmIndex n m)
          let y ← Y.get n (-m)
          c.wrZ (lmIndex n m) (F.cadd a (F.rsc (F.rnd (q * s.2)) y))) s.1
        let rp ← step s.2
        .ok (c, rp)) (a, P 0)
      (Except.ok c : Outcome (Arr ℂ))) = .ok a' ∧ a'.size = (p + 1) * (p + 1) ∧
      ∀ n ≤ p, ∀ m : ℤ, |m| ≤ n → a'.val (cell n m) = F.cadd (a.val (cell n m)) (F.rsc (F.rnd (q * P n)) (y n (-m))) := by
  obtain ⟨a', h1, h2, h3⟩ := grid_rmw (p := p) (fun n (s : Arr ℂ × ℝ) => do
        let c ← loopZ (-(n : ℤ)) n (fun m c => do
          let a ← c.rdZ (lmIndex n m)
          let y ← Y.get n (-m)
          c.wrZ (lmIndex n m) (F.cadd a (F.rsc (F.rnd (q * s.2)) y))) s.1
        let rp ← step s.2
        .ok (c, rp))
    (fun n m x => F.cadd x (F.rsc (F.rnd (q * P n)) (y n (-m)))) P a ha
    (by
      intro n hn c' hc'
      obtain ⟨c'', h1, h2, h3⟩ := row_rmw hn (fun m c => do
          let a ← c.rdZ (lmIndex n m)
          let y ← Y.get n (-m)
          c.wrZ (lmIndex n m) (F.cadd a (F.rsc (F.rnd (q * P n)) y)))
        (fun m x => F.cadd x (F.rsc (F.rnd (q * P n)) (y n (-m)))) c' hc' (by
          intro m hm d hd
          rw [rdZ_cell hd hn hm, ok_bind, hY n hn (-m) (by rwa [abs_neg]), ok_bind, wrZ_cell hd hn hm])
      refine ⟨c'', ?_, h2, h3⟩
      simp only
      rw [h1, ok_bind, hstep, ok_bind])
  rw [h1]
  exact ⟨a', rfl, h2, h3⟩

theorem meAddSource_run (hF : F.Ok u g) (p : ℕ) (c : Vec 3) (s : Source 3) (a : Arr ℂ) (ha : a.size = (p + 1) * (p + 1)) :
    ∃ a', meAddSource F p c a s = .ok a' ∧ a'.size = (p + 1) * (p + 1) ∧
      ∀ n ≤ p, ∀ m : ℤ, |m| ≤ n → a'.val (cell n m) = F.cadd (a.val (cell n m))
        (F.rsc (F.rnd (s.q * rpw F (F.nrm3 (F.vsub s.pos c)) 1 n))
          (yv F p (F.rcos (F.sph (F.vsub s.pos c) 1)) (F.sph (F.vsub s.pos c) 2) n (-m))) := by
  unfold meAddSource
  set v' := F.vsub s.pos c with hv
  obtain ⟨Y, hY, hYv⟩ := ylm_ok F p (F.sph v' 1) (F.sph v' 2) (hF.rcos_le _)
  simp only [sph0]
  rw [hY, ok_bind]
  exact srcLoop F hYv (fun x => .ok (F.rnd (x * F.nrm3 v'))) (rpw F (F.nrm3 v') 1) (fun i => rfl) a ha

theorem leAddSource_run (hF : F.Ok u g) (p : ℕ) (c : Vec 3) (s : Source 3) (hr : F.nrm3 (F.vsub s.pos c) ≠ 0) (a : Arr ℂ)
    (ha : a.size = (p + 1) * (p + 1)) :
    ∃ a', leAddSource F p c a s = .ok a' ∧ a'.size = (p + 1) * (p + 1) ∧
      ∀ n ≤ p, ∀ m : ℤ, |m| ≤ n → a'.val (cell n m) = F.cadd (a.val (cell n m))
        (F.rsc (F.rnd (s.q * rdv F (F.nrm3 (F.vsub s.pos c)) (F.rnd (1 / F.nrm3 (F.vsub s.pos c))) n))
          (yv F p (F.rcos (F.sph (F.vsub s.pos c) 1)) (F.sph (F.vsub s.pos c) 2) n (-m))) := by
  unfold leAddSource
  set v' := F.vsub s.pos c with hv
  obtain ⟨Y, hY, hYv⟩ := ylm_ok F p (F.sph v' 1) (F.sph v' 2) (hF.rcos_le _)
  simp only [sph0]
  rw [hY, ok_bind, divR, if_neg hr, ok_bind]
  exact srcLoop F hYv (fun x => divR F x (F.nrm3 v')) (rdv F (F.nrm3 v') (F.rnd (1 / F.nrm3 v')))
    (fun i => by rw [divR, if_neg hr]; rfl) a ha

/-! ## Evaluation -/

theorem potLoop (hF : F.Ok u g) {e : Exp3} {c : Vec 3} {p : ℕ} {a : ℕ → ℤ → ℂ} (he : e.Is c p a) {Y : YlmTable} {y : ℕ → ℤ → ℂ}
    (hY : ∀ l ≤ p, ∀ m : ℤ, |m| ≤ l → Y.get l m = .ok (y l m)) (step : ℝ → Outcome ℝ) (P : ℕ → ℝ)
    (hstep : ∀ i, step (P i) = .ok (P (i + 1))) :
    ∃ z, (do
      let (pot, _) ← loopM (p + 1) (fun n (s : ℂ × ℝ) => do
        let pot ← loopZ (-(n : ℤ)) n (fun m pot => do
          let a ← e.get n m
          let y ← Y.get n m
          .ok (F.cadd pot (F.mul (F.rsc s.2 a) y))) s.1
        let rp ← step s.2
        .ok (pot, rp)) (0, P 0)
      (Except.ok (-pot.re) : Outcome ℝ)) = .ok (-z.re) ∧
      Ap u (2 + (p + 1) ^ 2) (∑ n ∈ range (p + 1), ∑ m ∈ Ir n, ‖a n m‖ * ‖(P n : ℂ) * y n m‖) z
        (∑ n ∈ range (p + 1), ∑ m ∈ Ir n, a n m * ((P n : ℂ) * y n m)) := by
  have hu := hF.nonneg
  have hF' := hF.toOk
  obtain ⟨⟨z, r⟩, h1, h2, h3⟩ := loopM_invariant
    (fun i (s : ℂ × ℝ) => Ap u (2 + i ^ 2) (∑ n ∈ range i, ∑ m ∈ Ir n, ‖a n m‖ * ‖(P n : ℂ) * y n m‖) s.1
        (∑ n ∈ range i, ∑ m ∈ Ir n, a n m * ((P n : ℂ) * y n m)) ∧ s.2 = P i)
    (fun n (s : ℂ × ℝ) => do
        let pot ← loopZ (-(n : ℤ)) n (fun m pot => do
          let a ← e.get n m
          let y ← Y.get n m
          .ok (F.cadd pot (F.mul (F.rsc s.2 a) y))) s.1
        let rp ← step s.2
        .ok (pot, rp)) (0, P 0) (p + 1) ⟨by simpa using (Ap.zero le_rfl hu : Ap u 2 0 (0 : ℂ) 0), rfl⟩
    (by
      rintro n hn ⟨z, r⟩ ⟨hz, rfl⟩
      simp only at hz ⊢
      obtain ⟨w, g1, g2⟩ := loopZ_ap hF' (-(n : ℤ)) n (fun m pot => do
          let a ← e.get n m
          let y ← Y.get n m
          .ok (F.cadd pot (F.mul (F.rsc (P n) a) y))) (fun m => a n m * ((P n : ℂ) * y n m))
        (fun m => ‖a n m‖ * ‖(P n : ℂ) * y n m‖) (c := 2) hz (by omega)
        (fun m hm1 hm2 => by
          refine ⟨F.mul (F.rsc (P n) (a n m)) (y n m), fun b => ?_, ?_⟩
          · rw [he.get (by omega) (by rw [abs_le]; omega), ok_bind, hY n (by omega) m (by rw [abs_le]; omega), ok_bind]
          · have k1 := hF.cmul (hF.rsc (rl hu (P n) 0) (rl hu (a n m) 0)) (rl hu (y n m) 0)
            refine k1.congr' ?_ ?_
            · rw [norm_mul, Complex.norm_real]; ring
            · ring)
      rw [g1, ok_bind, hstep, ok_bind]
      refine ⟨_, rfl, ?_, rfl⟩
      simp only
      rw [sum_range_succ, sum_range_succ]
      refine g2.mono hu ?_ le_rfl
      have : ((n : ℤ) + 1 - -(n : ℤ)).toNat = 2 * n + 1 := by omega
      rw [this]
      ring_nf
      omega)
  rw [h1, ok_bind]
  exact ⟨z, rfl, h2⟩

theorem lePot_run (hF : F.Ok u g) {e : Exp3} {c : Vec 3} {p : ℕ} {a : ℕ → ℤ → ℂ} (he : e.Is c p a) (x : Vec 3) :
    ∃ z, lePot F e x = .ok (-z.re) ∧ Ap u (2 + (p + 1) ^ 2)
      (∑ n ∈ range (p + 1), ∑ m ∈ Ir n, ‖a n m‖ * ‖(rpw F (F.nrm3 (F.vsub x c)) 1 n : ℂ)
        * yv F p (F.rcos (F.sph (F.vsub x c) 1)) (F.sph (F.vsub x c) 2) n m‖) z
      (∑ n ∈ range (p + 1), ∑ m ∈ Ir n, a n m * ((rpw F (F.nrm3 (F.vsub x c)) 1 n : ℂ)
        * yv F p (F.rcos (F.sph (F.vsub x c) 1)) (F.sph (F.vsub x c) 2) n m)) := by
  unfold lePot
  simp only [he.center, he.order, sph0]
  set v' := F.vsub x c with hv
  obtain ⟨Y, hY, hYv⟩ := ylm_ok F p (F.sph v' 1) (F.sph v' 2) (hF.rcos_le _)
  rw [hY, ok_bind]
  exact potLoop hF he hYv (fun x => .ok (F.rnd (x * F.nrm3 v'))) (rpw F (F.nrm3 v') 1) (fun i => rfl)

theorem mePot_run (hF : F.Ok u g) {e : Exp3} {c : Vec 3} {p : ℕ} {a : ℕ → ℤ → ℂ} (he : e.Is c p a) (x : Vec 3)
    (hr : F.nrm3 (F.vsub x c) ≠ 0) :
    ∃ z, mePot F e x = .ok (-z.re) ∧ Ap u (2 + (p + 1) ^ 2)
      (∑ n ∈ range (p + 1), ∑ m ∈ Ir n, ‖a n m‖ * ‖(rdv F (F.nrm3 (F.vsub x c)) (F.rnd (1 / F.nrm3 (F.vsub x c))) n : ℂ)
        * yv F p (F.rcos (F.sph (F.vsub x c) 1)) (F.sph (F.vsub x c) 2) n m‖) z
      (∑ n ∈ range (p + 1), ∑ m ∈ Ir n, a n m * ((rdv F (F.nrm3 (F.vsub x c)) (F.rnd (1 / F.nrm3 (F.vsub x c))) n : ℂ)
        * yv F p (F.rcos (F.sph (F.vsub x c) 1)) (F.sph (F.vsub x c) 2) n m)) := by
  unfold mePot
  simp only [he.center, he.order, sph0]
  set v' := F.vsub x c with hv
  obtain ⟨Y, hY, hYv⟩ := ylm_ok F p (F.sph v' 1) (F.sph v' 2) (hF.rcos_le _)
  rw [hY, ok_bind, divR, if_neg hr, ok_bind]
  exact potLoop hF he hYv (fun x => divR F x (F.nrm3 v')) (rdv F (F.nrm3 v') (F.rnd (1 / F.nrm3 v')))
    (fun i => by rw [divR, if_neg hr]; rfl)

end Fl3
end FMM
