import Verif.HighEval3
import Verif.LowForceTree3

/-!
# The evaluation of the forces in space does not overflow

The derivatives of the harmonics are bounded off the vertical; the division by the sine of the polar angle costs the exponent of the
angle.  The remaining bounds are those of `HighOps3.lean`.
-/

namespace FMM.Hi3
open FMM D64 Rounded Fl3 Finset
variable {F : Flt3} {L : Lib} {u g η ρ θ τ ν : ℝ} {p t α G κ κf k : ℕ}

/-- Both parts are finite. -/
def FinC (z : DC) : Prop := (∃ x, z.re = .fin x) ∧ ∃ y, z.im = .fin y

/-- The harmonics and their derivatives are finite off the vertical. -/
def YDFin (L : Lib) : Prop := ∀ (lmax : ℕ) (θ φ c : ℝ) (l : ℕ) (m : ℤ), lmax ≤ 42 → l ≤ lmax → |m| ≤ l → L.cos (.fin θ) = .fin c → |c| < 1 →
  FinC (L.ylmD lmax (.fin θ, .fin φ) l m).1 ∧ FinC (L.ylmD lmax (.fin θ, .fin φ) l m).2.1 ∧ FinC (L.ylmD lmax (.fin θ, .fin φ) l m).2.2

theorem FinC.bound {z : DC} {w : ℂ} {b : ℤ} (h : FinC z) (ha : AgrC z w) (hw : ‖w‖ ≤ 2 ^ b) : NC 1 b z := by
  obtain ⟨⟨x, hx⟩, y, hy⟩ := h
  constructor
  · rw [hx, ha.1 x hx]; exact .fin ((Complex.abs_re_le_norm _).trans hw)
  · rw [hy, ha.2 y hy]; exact .fin ((Complex.abs_im_le_norm _).trans hw)

/-- A direction off the vertical, by an angle of `2^-k`. -/
structure DirOk (L : Lib) (p k : ℕ) (d : DVec 3) : Prop where
  Y : ∀ (n : ℕ) (m : ℤ), n ≤ p → |m| ≤ n → NC 1 8 (L.ylmD p (L.ang d) n m).1 ∧ NC 1 8 (L.ylmD p (L.ang d) n m).2.1 ∧
    NC 1 8 (L.ylmD p (L.ang d) n m).2.2
  inv : ∃ R, L.sin (L.ang d).1 = .fin R ∧ R ≠ 0 ∧ |R|⁻¹ ≤ 2 ^ ((k : ℤ) + 2)
  st : N 1 1 (L.sin (L.ang d).1)
  ct : N 1 1 (L.cos (L.ang d).1)
  sp : N 1 1 (L.sin (L.ang d).2)
  cp : N 1 1 (L.cos (L.ang d).2)

theorem frame_pow (hu : u = 1 / 2 ^ 49) {s : ℝ} (hf : FrameCost u g s p κf) : (1 + u) ^ κf ≤ 2 := by
  refine D2.Hi.pow_two hu ?_
  have h := hf.small
  rw [hu, mul_one_div, div_le_iff₀ (by positivity)] at h
  have : (κf : ℝ) ≤ 2 ^ 48 := h.trans (by norm_num)
  exact_mod_cast this

theorem frame_g (hF : F.Low u g η ρ) (hu : u = 1 / 2 ^ 49) {s : ℝ} (hf : FrameCost u g s p κf) : g ≤ 1 := by
  have h1 := hf.tab.trans (frame_pow hu hf)
  have hg := Lo3.gpos hF
  have h2 := one_le_sqrtD p
  have hs0 := hf.pos
  have h3 : g ≤ 2 * g / s := by
    rw [le_div_iff₀ hs0]
    nlinarith [hf.le_one]
  have h4 : 2 * g / s ≤ Real.sqrt (2 * p + 1) * (2 * g / s) := le_mul_of_one_le_left (by positivity) h2
  linarith

section
variable (hD : F.LowD u g η ρ) (h64 : Is64 F) (hL : LibOf L F) (hY : YDFin L) (hu : u = 1 / 2 ^ 49) {s : ℝ} (hf : FrameCost u g s p κf)
  (hk : 1 ≤ s * 2 ^ k) (hp : p ≤ 42)
include hD h64 hL hY hu hf hk hp

theorem dirOk {x c : Vec 3} (hx : Mod x) (hcm : Mod c) (hc : Fl3.Clear s c x) (hη : 2 * η ≤ len3 (x - c)) : DirOk L p k (vsub x c) := by
  have hF := hD.toLow3
  have hu0 := hF.nonneg
  have hη' : η ≤ len3 (x - c) := by have := hF.eta; linarith
  have hv := Lo3.vsub_len hF.toLow x c le_rfl hη'
  obtain ⟨f1, f2, f3, -, -⟩ := Lo3.frame hD hf hv hc.ne hη hc.ang
  obtain ⟨r1, -, r2⟩ := Lo3.frame_sin hD hf hv hc.ne hη hc.ang
  obtain ⟨-, -, g3⟩ := geo_fin h64 hL hx hcm
  have hg := Lo3.gpos hF
  have hg1 := frame_g hF hu hf
  have hsin : ∀ a, |F.rsin a| ≤ 2 := fun a => by
    have h1 := hD.rsin a
    have h2 := Real.abs_sin_le_one a
    have h3 := abs_sub_abs_le_abs_sub (F.rsin a) (Real.sin a)
    linarith [hF.small]
  have hS : ∀ a, N 1 1 (L.sin (.fin a)) := fun a => by
    rw [hL.sin]; refine .fin ?_
    rw [zpow_one]; exact hsin a
  have hC : ∀ a, N 1 1 (L.cos (.fin a)) := fun a => by
    rw [hL.cos]; refine .fin ?_
    rw [zpow_one]; linarith [h64.cos a]
  rw [show (vsub x c) = vsub x c from rfl]
  refine ⟨fun n m hn hm => ?_, ?_, by rw [g3]; exact hS _, by rw [g3]; exact hC _, by rw [g3]; exact hS _, by rw [g3]; exact hC _⟩
  · rw [g3]
    obtain ⟨Y, y1, y2⟩ := Fl3.ylmD_ok F p (F.sph (F.vsub x c) 1) (F.sph (F.vsub x c) 2) f1
    obtain ⟨y3, y4, y5⟩ := y2 n hn m hm
    obtain ⟨a1, a2, a3⟩ := hL.ylmD p _ _ Y n m _ _ _ y1 hn hm y3 y4 y5
    obtain ⟨b1, b2, b3⟩ := hY p (F.sph (F.vsub x c) 1) (F.sph (F.vsub x c) 2) _ n m hp hn hm (hL.cos _) f1
    have hE : (1 + u) ^ (6 * n + 4) ≤ 2 := D2.Hi.pow_two hu (by omega)
    have hE1 := one_le_pow_u hu0 (6 * n + 4)
    have hn42 : (n : ℝ) ≤ 42 := by exact_mod_cast hn.trans hp
    have hn0 : (0 : ℝ) ≤ n := Nat.cast_nonneg n
    have hYn : ‖dv F (F.legD p (F.rcos (F.sph (F.vsub x c) 1))).1 (F.sph (F.vsub x c) 2) n m‖ ≤ 4 := by
      have e1 := Lo3.dvY_err hD f1 hn hm (v' := F.vsub x c)
      have e2 := Lo3.norm_le_l2 (s := Ir n) (x := rY (dirV (tht F (F.vsub x c)) ((F.vsub x c).toSpherical3 2)) n) (mem_Ir.mpr hm)
      rw [l2_rY, len3_dirV, one_pow] at e2
      have e3 := norm_le_norm_add_norm_sub' (dv F (F.legD p (F.rcos (F.sph (F.vsub x c) 1))).1 (F.sph (F.vsub x c) 2) n m)
        (rY (dirV (tht F (F.vsub x c)) ((F.vsub x c).toSpherical3 2)) n m)
      have e4 : ((1 + u) ^ (6 * n + 4) - 1) * ‖rY (dirV (tht F (F.vsub x c)) ((F.vsub x c).toSpherical3 2)) n m‖ ≤ 1 * 1 :=
        mul_le_mul (by linarith) e2 (norm_nonneg _) (by norm_num)
      have e5 : (1 + u) ^ (6 * n + 4) * g ≤ 2 * 1 := mul_le_mul hE hg1 hg (by norm_num)
      linarith
    have hDn : ‖dv F (F.legD p (F.rcos (F.sph (F.vsub x c) 1))).2 (F.sph (F.vsub x c) 2) n m‖ ≤ 168 := by
      have e1 := Lo3.dvD_err hD f1 hn hm (v' := F.vsub x c)
      have e2 := (Lo3.norm_le_l2 (s := Ir n) (x := rD (dirV (tht F (F.vsub x c)) ((F.vsub x c).toSpherical3 2))
        (thetaV (tht F (F.vsub x c)) ((F.vsub x c).toSpherical3 2)) n) (mem_Ir.mpr hm)).trans
        (l2_rD (len3_dirV _ _) (len3_thetaV _ _) (dot_dir_theta _ _) n)
      have e3 := norm_le_norm_add_norm_sub' (dv F (F.legD p (F.rcos (F.sph (F.vsub x c) 1))).2 (F.sph (F.vsub x c) 2) n m)
        (rD (dirV (tht F (F.vsub x c)) ((F.vsub x c).toSpherical3 2)) (thetaV (tht F (F.vsub x c)) ((F.vsub x c).toSpherical3 2)) n m)
      have e4 : ((1 + u) ^ (6 * n + 4) - 1) * ‖rD (dirV (tht F (F.vsub x c)) ((F.vsub x c).toSpherical3 2))
          (thetaV (tht F (F.vsub x c)) ((F.vsub x c).toSpherical3 2)) n m‖ ≤ 1 * 42 :=
        mul_le_mul (by linarith) (e2.trans hn42) (norm_nonneg _) (by norm_num)
      have e5 : (1 + u) ^ (6 * n + 4) * (g * n) ≤ 2 * (1 * 42) :=
        mul_le_mul hE (mul_le_mul hg1 hn42 hn0 (by norm_num)) (by positivity) (by norm_num)
      linarith
    refine ⟨b1.bound a1 (hYn.trans (by norm_num)), b2.bound a2 (hDn.trans (by norm_num)), ?_⟩
    generalize dv F (F.legD p (F.rcos (F.sph (F.vsub x c) 1))).1 (F.sph (F.vsub x c) 2) n m = y at *
    have hm42 : |(m : ℝ)| ≤ 42 := by
      have : |m| ≤ 42 := hm.trans (by exact_mod_cast hn.trans hp)
      exact_mod_cast this
    have key : ∀ w : ℝ, |w| ≤ ‖y‖ → |rndU ((m : ℝ) * w)| ≤ 2 ^ (8 : ℤ) := fun w hw => by
      refine (rnd64_fin (b := 8) ?_ (by norm_num) (by norm_num)).2
      rw [abs_mul]
      exact (mul_le_mul hm42 (hw.trans hYn) (abs_nonneg _) (by norm_num)).trans (by norm_num)
    have e : F.mul (Complex.I * (m : ℂ)) y = ⟨rndU (-rndU ((m : ℝ) * y.im)), rndU (rndU ((m : ℝ) * y.re))⟩ := by
      rw [h64.mul]
      simp [rndU_zero]
    have k1 := (rnd64_fin (x := -rndU ((m : ℝ) * y.im)) (b := 8) (by rw [abs_neg]; exact key _ (Complex.abs_im_le_norm y)) (by norm_num) (by norm_num)).2
    have k2 := (rnd64_fin (x := rndU ((m : ℝ) * y.re)) (b := 8) (key _ (Complex.abs_re_le_norm y)) (by norm_num) (by norm_num)).2
    rw [e] at a3
    obtain ⟨⟨z, hz⟩, z', hz'⟩ := b3
    constructor
    · rw [hz, a3.1 z hz]; exact .fin k1
    · rw [hz', a3.2 z' hz']; exact .fin k2
  · refine ⟨_, by rw [g3]; exact hL.sin _, r1, ?_⟩
    have a := r2.norm
    rw [Real.norm_eq_abs, abs_inv] at a
    have hT0 : 0 < Real.sin (tht F (F.vsub x c)) := by linarith [mul_pos (by norm_num : (0 : ℝ) < 9 / 10) hf.pos]
    have h1 : (Real.sin (tht F (F.vsub x c)))⁻¹ ≤ 2 * 2 ^ k := by
      rw [inv_le_iff_one_le_mul₀ hT0]
      have : (0 : ℝ) < 2 ^ k := by positivity
      nlinarith
    refine a.trans ((mul_le_mul (frame_pow hu hf) h1 (inv_nonneg.mpr hT0.le) (by norm_num)).trans (le_of_eq ?_))
    rw [show (k : ℤ) + 2 = ((k + 2 : ℕ) : ℤ) by push_cast; ring, zpow_natCast, pow_add]
    ring

end

/-! ## Sums of vectors -/

section
variable {d : DVec 3} {m : ℕ} {b B ro β a K T : ℤ}

/-- The change of basis. -/
theorem toBasis_N (hd : DirOk L p k d) {v : DVec 3} (hv : ∀ j, N m b (v j)) (hm : 3 * m ≤ 2 ^ 50) (h0 : -1000 ≤ b) (hb : b + 2 ≤ 950) (j : Fin 3) :
    N (3 * m) (b + 2) (toBasis L v (L.ang d) j) := by
  have q : ∀ {e f : Dbl}, N 1 1 e → N m b f → N m (b + 1) (mul e f) := fun he hf => he.lmul hf (by omega) (by omega) (by omega) (by omega)
  have w := (q hd.st (hv 0)).add (q hd.ct (hv 1)) (by omega) (by omega) (by omega)
  have w1 := hd.cp.lmul w (by omega) (le_of_eq (by ring : 1 + (b + 1) = b + 2)) (by omega) (by omega)
  have w2 := hd.sp.lmul w (by omega) (le_of_eq (by ring : 1 + (b + 1) = b + 2)) (by omega) (by omega)
  have e3 : m + m + m = 3 * m := by ring
  unfold toBasis
  match j with
  | 0 =>
    have := w1.add ((q hd.sp (hv 2)).up (by omega : b + 1 ≤ b + 2)).neg (by omega) (by omega) (by omega)
    rw [e3] at this
    exact this
  | 1 =>
    have := w2.add ((q hd.cp (hv 2)).up (by omega : b + 1 ≤ b + 2)) (by omega) (by omega) (by omega)
    rw [e3] at this
    exact this
  | 2 =>
    have := (q hd.ct (hv 0)).add (q hd.st (hv 1)).neg (by omega) (by omega) (by omega)
    exact this.mono (by omega) (by omega)

/-- One term. -/
theorem forceTerm_N (hd : DirOk L p k d) {rpow : Dbl} {z : DC} {sub : Bool} {n i : ℕ} {mm : ℤ} {f : DVec 3} (hf : ∀ j, N m B (f j))
    (hr : N 1 ro rpow) (hz : NC 1 β z) (hn : n ≤ p) (hm : |mm| ≤ n) (hi : i ≤ 64) (h : m + 1 ≤ 2 ^ 50)
    (hβ0 : -1000 ≤ β) (hβ : β + 9 ≤ 950) (hr0 : -1000 ≤ ro) (hr1 : ro + 6 ≤ 950)
    (hB : ro + β + 15 ≤ B) (hB2 : ro + β + k + 11 ≤ B) (hB0 : -1000 ≤ ro + β) (hB1 : B ≤ 950) (j : Fin 3) :
    N (m + 1) B (forceTerm L (L.ylmD p (L.ang d) n mm) (L.ang d).1 rpow sub i z f j) := by
  obtain ⟨y1, y2, y3⟩ := hd.Y n mm hn hm
  have hk0 : (0 : ℤ) ≤ k := by positivity
  have c1 := (hz.mul y1 (c := β + 9) (by omega) (by omega) (by omega)).1
  have c2 := (hz.mul y2 (c := β + 9) (by omega) (by omega) (by omega)).1
  have c3 := (hz.mul y3 (c := β + 9) (by omega) (by omega) (by omega)).1
  have hi' : N 1 6 (.fin (i : ℝ)) := .fin (by
    rw [Nat.abs_cast]
    have : (i : ℝ) ≤ 64 := by exact_mod_cast hi
    exact this.trans (by norm_num))
  have t0 := (hr.mul1 hi' (c := ro + 6) (by norm_num) le_rfl (by omega) (by omega)).mul1 c1 (c := B) (by norm_num) (by omega) (by omega) hB1
  have t1 := hr.mul1 c2 (c := B) (by norm_num) (by omega) (by omega) hB1
  have t2 : N 1 B (div (mul rpow (cmul z (L.ylmD p (L.ang d) n mm).2.2).re) (L.sin (L.ang d).1)) := by
    obtain ⟨R, r1, r2, r3⟩ := hd.inv
    rw [r1]
    exact (hr.mul1 c3 (c := ro + β + 9) (by norm_num) (by omega) (by omega) (by omega)).div r2 r3 (by norm_num) (by omega) (by omega) hB1
  unfold D64.forceTerm
  match j with
  | 0 =>
    cases sub
    · exact (hf 0).add t0 h (by omega) hB1
    · exact (hf 0).add t0.neg h (by omega) hB1
  | 1 => exact (hf 1).add t1 h (by omega) hB1
  | 2 => exact (hf 2).add t2 h (by omega) hB1

theorem foldl_N {ι : Type} (l : List ι) (step : ι → DVec 3 → DVec 3) (M : ℕ)
    (h : ∀ i ∈ l, ∀ m f, m < M → (∀ j, N m B (f j)) → ∀ j, N (m + 1) B (step i f j)) {m : ℕ} {f : DVec 3} (hf : ∀ j, N m B (f j))
    (hM : m + l.length ≤ M) (j : Fin 3) : N (m + l.length) B (l.foldl (fun f i => step i f) f j) := by
  induction l generalizing m f with
  | nil => exact hf j
  | cons i l ih =>
    rw [List.length_cons] at hM
    rw [List.foldl_cons, List.length_cons, show m + (l.length + 1) = m + 1 + l.length by ring]
    exact ih (fun i hi => h i (by simp [hi])) (fun j => h i (by simp) m f (by omega) hf j) (by omega)

theorem leForce_fin (hp : p ≤ 42) (hT : |K| + 1 ≤ T) (h0 : 0 ≤ a) {c x : Vec 3} {e : Coeffs} (he : CB p 1 (fun n => a + (1 - K) * n) e)
    (hr : N 1 (K + 1) (norm3 (vsub x c))) (hd : DirOk L p k (vsub x c)) (hTp : T * p ≤ 900) (haT : a + T * p ≤ 930)
    (hk : k ≤ 21) (hB : a + 2 * p + T + 45 ≤ B) (hB' : B ≤ 950) (j : Fin 3) : N 1 B (leForce L p c e x j) := by
  have hp0 : (0 : ℤ) ≤ p := by positivity
  have hk0 : (k : ℤ) ≤ 21 := by exact_mod_cast hk
  have hT0 : 1 ≤ T := by have := abs_nonneg K; linarith
  have hK := abs_le.mp (show |K| ≤ T - 1 by linarith)
  have hlen : ((indices p).filter fun nm => 1 ≤ nm.1).length ≤ 2048 := (List.length_filter_le _ _).trans (by rw [indices_length]; exact sq_le hp)
  have key : ∀ j, N 2048 (a + 2 * p + T + 30) (((indices p).filter fun nm => 1 ≤ nm.1).foldl (fun f nm =>
      forceTerm L (L.ylmD p (L.ang (vsub x c)) nm.1 nm.2) (L.ang (vsub x c)).1 (pows (norm3 (vsub x c)) (nm.1 - 1)) false nm.1 (e nm.1 nm.2) f) (vzero 3) j) := by
    intro j
    have := foldl_N (B := a + 2 * p + T + 30) ((indices p).filter fun nm => 1 ≤ nm.1) (fun nm f =>
      forceTerm L (L.ylmD p (L.ang (vsub x c)) nm.1 nm.2) (L.ang (vsub x c)).1 (pows (norm3 (vsub x c)) (nm.1 - 1)) false nm.1 (e nm.1 nm.2) f) 2048
      (fun nm hnm m f hm hf j => by
        obtain ⟨i1, i2⟩ := List.mem_filter.mp hnm
        have i2 : 1 ≤ nm.1 := by simpa using i2
        obtain ⟨h1, h2⟩ := mem_indices i1
        obtain ⟨k1, k2⟩ := kb (up_T hT) (n := nm.1 - 1) (p := p) (by omega)
        obtain ⟨k3, k4⟩ := kb (dn_T hT) h1
        have e1 : ((nm.1 - 1 : ℕ) : ℤ) = nm.1 - 1 := by omega
        have hnp : (nm.1 : ℤ) ≤ p := by exact_mod_cast h1
        have hn1 : (1 : ℤ) ≤ nm.1 := by exact_mod_cast i2
        have hs : (K + 1) * ((nm.1 - 1 : ℕ) : ℤ) + (a + (1 - K) * nm.1) = a + 2 * nm.1 - K - 1 := by rw [e1]; ring
        exact forceTerm_N hd hf (pows_N hr (nm.1 - 1) (by linarith) (by linarith)) (he nm.1 h1 nm.2 h2) h1 h2 (by omega) (by omega)
          (by linarith) (by linarith) (by linarith) (by linarith) (by linarith) (by linarith) (by linarith) (by linarith) j)
      (m := 0) (f := vzero 3) (fun _ => .zero) (by omega) j
    exact this.mono (by omega) le_rfl
  unfold D64.leForce
  exact (toBasis_N hd key (by norm_num) (by linarith) (by linarith) j).lift 13 (by norm_num) (by push_cast; linarith)

theorem ipows_N' {f : Dbl} {y : ℝ} {b : ℤ} (hf : N 1 b f) (hy : y ≠ 0) (hy' : |y|⁻¹ ≤ 2 ^ a) (n : ℕ) (hb0 : -1000 ≤ b) (hb1 : b ≤ 950)
    (h0 : -1000 ≤ b + a * n) (h1 : b + a * n ≤ 950) : N 1 (b + a * n) (ipows f (.fin y) n) := by
  induction n with
  | zero => simpa [ipows] using hf
  | succ n ih =>
    push_cast at h0 h1 ⊢
    have e : b + a * (n + 1) = b + a * n + a := by ring
    rcases le_total 0 a with ha | ha
    · have : 0 ≤ a * n := by positivity
      exact (ih (by linarith) (by linarith)).div hy hy' (by norm_num) e.ge h0 h1
    · have : a * n ≤ 0 := mul_nonpos_of_nonpos_of_nonneg ha (by positivity)
      exact (ih (by linarith) (by linarith)).div hy hy' (by norm_num) e.ge h0 h1

/-- `1/(r r)`. -/
theorem sq_inv_N (hF : F.Low u g η ρ) (h64 : Is64 F) {y : ℝ} (hy0 : y ≠ 0) (hy1 : |y|⁻¹ ≤ 2 ^ a) (hy2 : |y| ≤ 2 ^ (302 : ℤ)) (hη : η ≤ |y * y|)
    (h0 : -1000 ≤ 2 * a + 1) (h1 : 2 * a + 1 ≤ 950) : N 1 (2 * a + 1) (div (.fin 1) (mul (.fin y) (.fin y))) := by
  have e1 : D64.mul (.fin y) (.fin y) = .fin (rndU (y * y)) := by
    refine (rnd64_fin (b := 604) ?_ (by norm_num) (by norm_num)).1
    rw [abs_mul]
    refine (mul_le_mul hy2 hy2 (abs_nonneg _) (two_pow_pos _).le).trans (le_of_eq ?_)
    rw [← zpow_add₀ (by norm_num)]; norm_num
  rw [e1]
  have h2 := hF.rnd (y * y)
  rw [h64.rnd, max_eq_left hη] at h2
  have hyy : 0 < |y * y| := abs_pos.mpr (mul_ne_zero hy0 hy0)
  have h3 : |y * y| / 2 ≤ |rndU (y * y)| := by
    have d1 := abs_sub_abs_le_abs_sub (y * y) (rndU (y * y))
    rw [abs_sub_comm] at d1
    have d2 := mul_le_mul_of_nonneg_right hF.small hyy.le
    linarith
  have h4 : rndU (y * y) ≠ 0 := by
    intro h
    rw [h, abs_zero] at h3
    linarith
  refine (N.fin (b := 0) (by simp)).div h4 ?_ (by norm_num) (by omega : 0 + (2 * a + 1) ≤ 2 * a + 1) h0 h1
  have h5 := inv_anti₀ (by linarith : 0 < |y * y| / 2) h3
  refine h5.trans ?_
  rw [inv_div, abs_mul, div_eq_mul_inv, mul_inv, zpow_add₀ (by norm_num), zpow_one, show 2 * a = a + a by ring, zpow_add₀ (by norm_num), mul_comm (2 : ℝ)]
  have := inv_nonneg.mpr (abs_nonneg y)
  exact mul_le_mul_of_nonneg_right (mul_le_mul hy1 hy1 this (two_pow_pos _).le) (by norm_num)

theorem meForce_fin (hF : F.Low u g η ρ) (h64 : Is64 F) (hp : p ≤ 42) (hT : |K| + 1 ≤ T) (h0 : 0 ≤ a) {c x : Vec 3} {e : Coeffs}
    (he : CB p 1 (fun n => a + K * n) e) {y : ℝ} (hy : norm3 (vsub x c) = .fin y) (hy0 : y ≠ 0) (hy1 : |y|⁻¹ ≤ 2 ^ (1 - K))
    (hy2 : |y| ≤ 2 ^ (302 : ℤ)) (hη : η ≤ |y * y|) (hd : DirOk L p k (vsub x c)) (hTp : T * (p + 2) ≤ 900) (haT : a + T * p ≤ 930)
    (hk : k ≤ 21) (hB : a + p + 2 * T + 48 ≤ B) (hB' : B ≤ 950) (j : Fin 3) : N 1 B (meForce L p c e x j) := by
  have hp0 : (0 : ℤ) ≤ p := by positivity
  have hk0 : (k : ℤ) ≤ 21 := by exact_mod_cast hk
  have hT0 : 1 ≤ T := by have := abs_nonneg K; linarith
  have hTp0 : 0 ≤ T * p := by positivity
  have hK := abs_le.mp (show |K| ≤ T - 1 by linarith)
  have hTe : T * (p + 2) = T * p + 2 * T := by ring
  have hlen : (indices p).length ≤ 2048 := by rw [indices_length]; exact sq_le hp
  have hfst : N 1 (2 * (1 - K) + 1) (div (.fin 1) (mul (.fin y) (.fin y))) := sq_inv_N hF h64 hy0 hy1 hy2 hη (by linarith) (by linarith)
  have key : ∀ j, N 2048 (a + p + 2 * T + 33) ((indices p).foldl (fun f nm =>
      forceTerm L (L.ylmD p (L.ang (vsub x c)) nm.1 nm.2) (L.ang (vsub x c)).1 (ipows (div (.fin 1) (mul (.fin y) (.fin y))) (.fin y) nm.1) true (nm.1 + 1) (e nm.1 nm.2) f) (vzero 3) j) := by
    intro j
    have := foldl_N (B := a + p + 2 * T + 33) (indices p) (fun nm f =>
      forceTerm L (L.ylmD p (L.ang (vsub x c)) nm.1 nm.2) (L.ang (vsub x c)).1 (ipows (div (.fin 1) (mul (.fin y) (.fin y))) (.fin y) nm.1) true (nm.1 + 1) (e nm.1 nm.2) f) 2048
      (fun nm hnm m f hm hf j => by
        obtain ⟨h1, h2⟩ := mem_indices hnm
        obtain ⟨k1, k2⟩ := kb (dn_T hT) h1
        obtain ⟨k3, k4⟩ := kb (show |K| ≤ T by linarith) h1
        have hnp : (nm.1 : ℤ) ≤ p := by exact_mod_cast h1
        have hn1 : (0 : ℤ) ≤ nm.1 := by positivity
        have hs : 2 * (1 - K) + 1 + (1 - K) * nm.1 + (a + K * nm.1) = a + nm.1 + 3 - 2 * K := by ring
        exact forceTerm_N hd hf (ipows_N' hfst hy0 hy1 nm.1 (by linarith) (by linarith) (by linarith) (by linarith)) (he nm.1 h1 nm.2 h2) h1 h2
          (by omega) (by omega)
          (by linarith) (by linarith) (by linarith) (by linarith) (by linarith) (by linarith) (by linarith) (by linarith) j)
      (m := 0) (f := vzero 3) (fun _ => .zero) (by omega) j
    exact this.mono (by omega) le_rfl
  unfold D64.meForce
  rw [hy]
  exact (toBasis_N hd key (by norm_num) (by linarith) (by linarith) j).lift 13 (by norm_num) (by push_cast; linarith)

end

/-! ## Direct sums -/

section
variable (hF : F.Low u g η ρ) (hsc : Scale3 u η θ τ ν p) (h64 : Is64 F) (hL : LibOf L F) (ht : Fit3 θ p t α G) (hu : u = 1 / 2 ^ 49) (hp0 : 0 < p)
include hF hsc h64 hL ht hu hp0

/-- One term of the force. -/
theorem forcefield_N (grav safe : Bool) {s : Source 3} {x : Vec 3} {eps : ℝ} (he : 0 ≤ eps) (he' : eps ≤ 1 / θ ^ 3) (heps : |eps| ≤ 2 ^ (906 : ℤ))
    (hs : Mod s.pos) (hx : Mod x) (hc : Lo3.Clear θ x s) (hqf : Flr τ |s.q|) (hq : |s.q| ≤ 2 ^ α) (hG : 7 * p + 3 ≤ G)
    (hsafe : safe = true ∨ s.pos ≠ x) (j : Fin 3) : N 1 (α + 2 * t + 2) (forcefield3 grav safe s x eps j) := by
  obtain ⟨g1, g2, -⟩ := geo_fin h64 hL hs hx
  obtain ⟨w1, w2⟩ := vsub_fin h64 hs hx
  have hroom := ht.room
  have hmul : 2 * (t + 1) ≤ (t + 1) * (p + 1) := by rw [mul_comm]; exact Nat.mul_le_mul_left _ (by omega)
  unfold forcefield3
  dsimp only
  rw [g1, w1]
  by_cases hz : F.nrm3 (F.vsub s.pos x) = 0
  · have e : s.pos = x := by
      by_contra hne
      exact (Lo3.far_inv hF hsc (hc.resolve_left hne)).1 hz
    have e2 : safe = true := hsafe.resolve_right fun h => h e
    rw [if_pos (by rw [e2, hz]; simp [isZero])]
    exact .zero
  · have hne : s.pos ≠ x := fun e => hz (by rw [e]; exact Lo3.dist_zero hF x)
    rw [if_neg (by simp [isZero, hz])]
    have hfar := hc.resolve_left hne
    have hu0 := hF.nonneg
    have hu32 : u ≤ 1 / 32 := by rw [hu]; norm_num
    have hr := dist2_pos hne
    have hDn : 0 < dist2 s.pos x ^ 3 + eps := by positivity
    have h1 := Lo3.denom_ap hF hsc hfar hp0 he
    obtain ⟨h3, h4⟩ := Ap.invk hF.nonneg 9 (Lo3.pow_nine_le hF hu32) hDn.ne' (by
      have := h1.1
      rwa [Real.norm_eq_abs (dist2 s.pos x ^ 3 + eps), abs_of_pos hDn])
    rw [Real.norm_eq_abs, abs_of_pos hDn] at h4
    have hl := hfar.1
    have hl' := hfar.2
    rw [len3_eq_dist2] at hl hl'
    have h5a := (Ap.refl (u := u) (x := s.q) (M := |s.q|) le_rfl).mul hF.nonneg h4
    have h5 := hF.rrnd h5a (by
      have := hqf.mulge (Lo3.quot_ge hsc hr hl' he he') hsc.tau0.le (mul_nonneg hsc.nu0 (pow_nonneg hsc.th0.le 3))
      refine this.mono ((hsc.fl1 (i := 1) (k := 3) (by omega) (by omega)).trans (le_of_eq (by ring))))
    have hd := Lo3.vsub_comp hF s.pos x j (hsc.le hl)
    have h6 := (hd.mul hF.nonneg h5).norm
    have h5n := h5a.norm
    -- the denominator
    have d1 : D64.mul (.fin (F.nrm3 (F.vsub s.pos x))) (.fin (F.nrm3 (F.vsub s.pos x))) =
        .fin (F.rnd (F.nrm3 (F.vsub s.pos x) * F.nrm3 (F.vsub s.pos x))) ∧ |F.rnd (F.nrm3 (F.vsub s.pos x) * F.nrm3 (F.vsub s.pos x))| ≤ 2 ^ (604 : ℤ) := by
      rw [h64.rnd]
      refine rnd64_fin ?_ (by norm_num) (by norm_num)
      rw [abs_mul]
      refine (mul_le_mul g2 g2 (abs_nonneg _) (two_pow_pos _).le).trans (le_of_eq ?_)
      rw [← zpow_add₀ (by norm_num)]; norm_num
    rw [d1.1]
    have d2 : D64.mul (.fin (F.rnd (F.nrm3 (F.vsub s.pos x) * F.nrm3 (F.vsub s.pos x)))) (.fin (F.nrm3 (F.vsub s.pos x))) =
        .fin (F.rnd (F.rnd (F.nrm3 (F.vsub s.pos x) * F.nrm3 (F.vsub s.pos x)) * F.nrm3 (F.vsub s.pos x))) ∧
        |F.rnd (F.rnd (F.nrm3 (F.vsub s.pos x) * F.nrm3 (F.vsub s.pos x)) * F.nrm3 (F.vsub s.pos x))| ≤ 2 ^ (906 : ℤ) := by
      rw [h64.rnd (F.rnd (F.nrm3 (F.vsub s.pos x) * F.nrm3 (F.vsub s.pos x)) * F.nrm3 (F.vsub s.pos x))]
      refine rnd64_fin (b := 906) ?_ (by norm_num) (by norm_num)
      rw [abs_mul]
      refine (mul_le_mul d1.2 g2 (abs_nonneg _) (two_pow_pos _).le).trans (le_of_eq ?_)
      rw [← zpow_add₀ (by norm_num)]; norm_num
    rw [d2.1]
    have d3 : D64.add (.fin (F.rnd (F.rnd (F.nrm3 (F.vsub s.pos x) * F.nrm3 (F.vsub s.pos x)) * F.nrm3 (F.vsub s.pos x)))) (.fin eps) =
        .fin (F.rnd (F.rnd (F.rnd (F.nrm3 (F.vsub s.pos x) * F.nrm3 (F.vsub s.pos x)) * F.nrm3 (F.vsub s.pos x)) + eps)) := by
      rw [h64.rnd (_ + eps)]
      refine (rnd64_fin (b := 907) ?_ (by norm_num) (by norm_num)).1
      refine (abs_add_le _ _).trans ((add_le_add d2.2 heps).trans (le_of_eq ?_))
      rw [show (907 : ℤ) = 906 + 1 by norm_num, zpow_add₀ (by norm_num), zpow_one]; ring
    rw [d3]
    generalize F.rnd (F.rnd (F.rnd (F.nrm3 (F.vsub s.pos x) * F.nrm3 (F.vsub s.pos x)) * F.nrm3 (F.vsub s.pos x)) + eps) = D at *
    -- bounds
    have ht0 : (0 : ℝ) < 2 ^ t := by positivity
    have hinv : (dist2 s.pos x)⁻¹ ≤ 2 ^ t := by
      rw [inv_le_iff_one_le_mul₀ hr, mul_comm]
      exact ht.th.trans (mul_le_mul_of_nonneg_right hl (by positivity))
    have hDinv : (dist2 s.pos x ^ 3 + eps)⁻¹ ≤ (dist2 s.pos x)⁻¹ ^ 3 := by
      rw [inv_pow]; exact inv_anti₀ (by positivity) (by linarith)
    have hi0 : 0 ≤ (dist2 s.pos x)⁻¹ := inv_nonneg.mpr hr.le
    have hq0 := abs_nonneg s.q
    have b1 : |s.q| * (dist2 s.pos x ^ 3 + eps)⁻¹ ≤ 2 ^ α * (2 ^ t) ^ 3 :=
      mul_le_mul hq (hDinv.trans (pow_le_pow_left₀ hi0 hinv 3)) (inv_nonneg.mpr hDn.le) (by positivity)
    have b2 : dist2 s.pos x * (|s.q| * (dist2 s.pos x ^ 3 + eps)⁻¹) ≤ 2 ^ α * (2 ^ t) ^ 2 := by
      have : dist2 s.pos x * (dist2 s.pos x)⁻¹ ^ 3 = (dist2 s.pos x)⁻¹ ^ 2 := by field_simp
      calc dist2 s.pos x * (|s.q| * (dist2 s.pos x ^ 3 + eps)⁻¹) ≤ dist2 s.pos x * (|s.q| * (dist2 s.pos x)⁻¹ ^ 3) := by gcongr
        _ = |s.q| * (dist2 s.pos x)⁻¹ ^ 2 := by rw [← this]; ring
        _ ≤ _ := mul_le_mul hq (pow_le_pow_left₀ hi0 hinv 2) (by positivity) (by positivity)
    have dq : D64.div (.fin s.q) (.fin D) = .fin (F.rnd (s.q * D⁻¹)) := by
      show (if D = 0 then _ else rnd64 (s.q / D)) = _
      rw [if_neg h3, div_eq_mul_inv, h64.rnd]
      refine (rnd64_fin (b := α + 3 * t + 2) ?_ (by omega) (by omega)).1
      rw [Real.norm_eq_abs] at h5n
      refine h5n.trans ((mul_le_mul (D2.Hi.pow_two hu (by norm_num)) b1 (by have := inv_nonneg.mpr hDn.le; positivity) (by norm_num)).trans ?_)
      rw [show (α : ℤ) + 3 * t + 2 = ((α + t * 3 + 2 : ℕ) : ℤ) by push_cast; ring, zpow_natCast, pow_add, pow_add, pow_mul]
      have : (0 : ℝ) < 2 ^ α * (2 ^ t) ^ 3 := by positivity
      linarith
    rw [dq]
    have key : N 1 ((α : ℤ) + 2 * t + 2) (rnd64 (F.vsub s.pos x j * F.rnd (s.q * D⁻¹))) := by
      refine rnd_N (by norm_num) (by omega) (by omega) ?_
      rw [Nat.cast_one, one_mul]
      rw [Real.norm_eq_abs] at h6
      refine h6.trans ((mul_le_mul (D2.Hi.pow_two hu (by norm_num)) b2 (by have := inv_nonneg.mpr hDn.le; positivity) (by norm_num)).trans ?_)
      rw [show (α : ℤ) + 2 * t + 2 = ((α + t * 2 + 2 : ℕ) : ℤ) by push_cast; ring, zpow_natCast, pow_add, pow_add, pow_mul]
      have : (0 : ℝ) < 2 ^ α * (2 ^ t) ^ 2 := by positivity
      linarith
    cases grav
    · exact key.neg
    · exact key

theorem forcefieldSum_N (grav safe : Bool) {S : List (Source 3)} {x : Vec 3} {eps : ℝ} (he : 0 ≤ eps) (he' : eps ≤ 1 / θ ^ 3) (heps : |eps| ≤ 2 ^ (906 : ℤ))
    (hx : Mod x) (hG : 7 * p + 3 ≤ G)
    (h : ∀ s ∈ S, Mod s.pos ∧ Lo3.Clear θ x s ∧ Flr τ |s.q| ∧ |s.q| ≤ 2 ^ α ∧ (safe = true ∨ s.pos ≠ x)) (hS : S.length ≤ 2 ^ 50) (j : Fin 3) :
    N S.length (α + 2 * t + 2) (forcefieldSum3 grav safe S x eps j) := by
  have hroom := ht.room
  have hmul : 2 * (t + 1) ≤ (t + 1) * (p + 1) := by rw [mul_comm]; exact Nat.mul_le_mul_left _ (by omega)
  have := foldl_N (B := α + 2 * t + 2) S (fun s f => vadd f (forcefield3 grav safe s x eps)) (2 ^ 50) (fun s hs m f hm hf j => by
    obtain ⟨h1, h2, h3, h4, h5⟩ := h s hs
    exact (hf j).add (forcefield_N hF hsc h64 hL ht hu hp0 grav safe he he' heps h1 hx h2 h3 h4 hG h5 j) (by omega) (by omega) (by omega))
    (m := 0) (f := vzero 3) (fun _ => .zero) (by omega) j
  rwa [zero_add] at this

end

end FMM.Hi3
