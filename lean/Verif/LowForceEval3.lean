import Verif.LowEval3
import Verif.LowForceAp3
import Verif.LowForceDirect3
import Verif.FltForceEval3

/-!
# Evaluation of the force of a tree in space, with gradual underflow

The statements of `FltForceEval3`, for operations with a floor.
-/

namespace FMM.Lo3
open Rounded Finset
open Fl3 hiding leForce_ap meForce_ap zpt_close laws LocalOf LocalOf.force W_force
open Fl (far farAt farAt_last split_perm W_geo)
variable {F : Flt3} {u g η ρ₀ θ τ ν : ℝ}
variable {r : Box 3} {h p k n m κ κf N : ℕ} {c : Vec 3} {e : Exp3} {S : List (Source 3)} {s eps : ℝ}

theorem two_eta (hs : Scale3 u η θ τ ν p) {l : ℝ} (h : θ ≤ l) : 2 * η ≤ l := by
  have h1 := hs.fl1 (i := 1) (k := 1) (by omega) (by omega)
  have h2 : τ * (ν ^ 1 * θ ^ 1) ≤ 1 * (1 / 2 * θ) := by
    rw [pow_one, pow_one]
    have hν : ν ≤ 1 / 2 := hs.nu_le.trans (hs.u1.trans (by norm_num))
    exact mul_le_mul hs.tau1 (mul_le_mul_of_nonneg_right hν hs.th0.le) (mul_nonneg hs.nu0 hs.th0.le) (by norm_num)
  have h3 : τ * ν ^ 1 * θ ^ 1 = τ * (ν ^ 1 * θ ^ 1) := by ring
  linarith

theorem majorF_ge (hs : Scale3 u η θ τ ν p) (hsp : Span θ r h) (hr : 0 < r.len) (hp0 : 0 < p) : θ ^ 2 ≤ majorF3 r h p := by
  have h1 := side_anti hr (Nat.zero_le h)
  rw [side_zero] at h1
  have h2 := side_pos hr h
  have h3 := pow_le_pow_left₀ hs.th0.le (hsp.inv hr h2 (by linarith)) 2
  have hp1 : (1 : ℝ) ≤ p := by exact_mod_cast hp0
  have h4 : (1 : ℝ) ≤ p * Real.sqrt (2 * p + 1) := one_le_mul_of_one_le_of_one_le hp1 (one_le_sqrtD p)
  refine h3.trans ?_
  unfold majorF3
  rw [inv_pow, ← one_div]
  exact div_le_div_of_nonneg_right (by linarith) (by positivity)

theorem majorF_flr (hs : Scale3 u η θ τ ν p) (hsp : Span θ r h) (hr : 0 < r.len) (hp0 : 0 < p) {A : ℝ} (hA : Flr τ A) :
    Flr η (A * majorF3 r h p) := by
  refine (hA.mulge (majorF_ge hs hsp hr hp0) hs.tau0.le (pow_nonneg hs.th0.le 2)).mono ?_
  have := hs.fl1 (i := 0) (k := 2) (by omega) (by omega)
  rwa [pow_zero, mul_one] at this

theorem LocalOf.force (hF : F.LowD u g η ρ₀) (hsc : Scale3 u η θ τ ν p) (hsp : Span θ r h) (hp0 : 0 < p) (hκ : FrameCost u g s p κf) (hr : 0 < r.len) (hk : k ≤ h)
    (H : LocalOf u τ p r h c k n e S) {x : Vec 3}
    (hx : len3 (x - c) ≤ rad r k) (hc : Fl3.Clear s c x) (hη : 2 * η ≤ len3 (x - c)) (he : 0 ≤ eps) :
    ∃ f t : Vec 3, leForce F e x = .ok f ∧ (∀ i, Ap u (n + fcostL p κf) (totalStrength S * majorF3 r h p) (f i) (t i)) ∧
      dist2 t (directField true S x eps) ≤ totalStrength S * forceTail3 u s r h p eps := by
  obtain ⟨b, b1, b2⟩ := H.loc.app
  have hu := hF.nonneg
  have hs0 := hκ.pos
  have hA := totalStrength_nonneg S
  have hsk := side_pos hr k
  have hsh := side_pos hr h
  have hle := side_anti hr hk
  have hrad : rad r k = 22 / 25 * side r k := rfl
  obtain ⟨f, f1, f2⟩ := leForce_ap hF hsc hp0 hκ b1 (H.mflr hsc hsp hr) (hsp.rad_le hr hsc.th0 k) (hsp.rad hr hk) hx hc.ne hη hc.ang
  have hzc := zpt_close hF hκ hc.ne hη hc.ang
  have hzl := zpt_len F x c
  refine ⟨f, leF b p (zpt F x c - c), f1, fun i => (f2 i).mono hu le_rfl ?_, ?_⟩
  · have e1 : 3 * ((p : ℝ) * (totalStrength S * major3 r h p) / rad r k)
        = totalStrength S * (375 / 22 * p * Real.sqrt (2 * p + 1) / (side r h * side r k)) := by
      unfold major3; rw [hrad]; field_simp; ring
    rw [e1]
    refine mul_le_mul_of_nonneg_left ?_ hA
    unfold majorF3
    refine div_le_div₀ (by positivity) ?_ (by positivity) ?_
    · have : 0 ≤ (p : ℝ) * Real.sqrt (2 * p + 1) := by positivity
      nlinarith
    · rw [sq]; exact mul_le_mul_of_nonneg_left hle hsh.le
  · have a1 := (b2 (zpt F x c) (by rw [hzl]; exact hx)).2
    have hd : ∀ y, len3 (y - c) = len3 (x - c) → ∀ s ∈ S, side r k / 5 ≤ len3 (s.pos - y) := fun y hy s hs => by
      have k1 := H.loc.sep s hs
      have k2 := len3_tri s.pos y c
      linarith
    have a2 := field_move (S := S) (z := zpt F x c) (x := x) (δ := side r k / 5) (by positivity) he (hd _ hzl) (hd x rfl)
    have a3 := dist2_triangle3 (leF b p (zpt F x c - c)) (directField true S (zpt F x c) 0) (directField true S x eps)
    have a4 : 4 * len3 (zpt F x c - x) / (side r k / 5) ^ 3 + eps / (side r k / 5) ^ 5
        ≤ 8800 * (u / s) / side r h ^ 2 + 3125 * eps / side r h ^ 5 := by
      refine add_le_add ?_ ?_
      · have k1 : 4 * len3 (zpt F x c - x) ≤ 4 * (20 * u / s * (22 / 25 * side r k)) := by
          have := mul_le_mul_of_nonneg_left hx (show 0 ≤ 20 * u / s by positivity)
          rw [hrad] at this
          linarith
        refine (div_le_div_of_nonneg_right k1 (by positivity)).trans ?_
        have e2 : 4 * (20 * u / s * (22 / 25 * side r k)) / (side r k / 5) ^ 3 = 8800 * (u / s) / side r k ^ 2 := by field_simp; ring
        rw [e2]
        exact div_le_div_of_nonneg_left (by positivity) (by positivity) (pow_le_pow_left₀ hsh.le hle 2)
      · have e2 : eps / (side r k / 5) ^ 5 = 3125 * eps / side r k ^ 5 := by field_simp; ring
        rw [e2]
        exact div_le_div_of_nonneg_left (by positivity) (by positivity) (pow_le_pow_left₀ hsh.le hle 5)
    have a5 := mul_le_mul_of_nonneg_left a4 hA
    unfold forceTail3
    rw [mul_add]
    linarith

section
variable {T : PTree} {cen : Path → Vec 3} {src : Path → List (Source 3)}

/-- A node in list W: force. -/
theorem W_force (hF : F.LowD u g η ρ₀) (hsc : Scale3 u η θ τ ν p) (hsp : Span θ r h) (hp0 : 0 < p) (hκ : FrameCost u g s p κf) (G : Geo r cen h) (hS : Srcs T r h N src) {R ρ : Path} {x : Vec 3}
    (hx : Within r h R x) (hρ : T.Mem ρ) (hl : ρ.length ≤ h) (hlen : R.length ≤ ρ.length) (ha : ¬ (boxAt r ρ).adjacent (boxAt r R))
    (hc : Fl3.Clear s (cen ρ) x) (hq : ∀ s ∈ src ρ, Flr τ |s.q|)
    {n : ℕ} {e : Exp3} (he : AppM3 u n e (cen ρ) p (meCoeff3 (cen ρ) (src ρ)) (totalStrength (src ρ)) (rad r ρ.length)) (heps : 0 ≤ eps) :
    ∃ f t : Vec 3, meForce F e x = .ok f ∧ (∀ i, Ap u (n + fcostL p κf) (totalStrength (src ρ) * majorF3 r h p) (f i) (t i)) ∧
      dist2 t (directField true (src ρ) x eps) ≤ totalStrength (src ρ) * forceTail3 u s r h p eps := by
  have a := G.sep_point hl hlen ha hx
  have hu := hF.nonneg
  have hs0 := hκ.pos
  have hs := side_pos G.hr ρ.length
  have hsh := side_pos G.hr h
  have hle := side_anti G.hr hl
  have hA := totalStrength_nonneg (src ρ)
  have hrad : rad r ρ.length = 22 / 25 * side r ρ.length := rfl
  have hR0 := rad_pos G.hr ρ.length
  have hlt : rad r ρ.length < 149 / 100 * side r ρ.length := by rw [hrad]; linarith
  have hp1 : (1 : ℝ) ≤ p := by exact_mod_cast hp0
  have hfar := hsp.far G.hr hl (by norm_num) a (len_le_root G.hr (hx.root G.hr) fun j => G.root hl j)
  have hη := two_eta hsc hfar.1
  obtain ⟨f, f1, f2⟩ := meForce_ap hF hsc hp0 hκ he (totalStrength_flr hq) hA (hsp.rad G.hr hl) hlt
    (hsp.inv G.hr (by linarith) (by linarith [side_anti G.hr (Nat.zero_le ρ.length), side_zero (r := r)])) a hfar hc.ang
  have hzc := zpt_close hF hκ hc.ne hη hc.ang
  have hzl := zpt_len F x (cen ρ)
  have hW : ∀ s ∈ src ρ, len3 (s.pos - cen ρ) ≤ rad r ρ.length := fun s hs' => G.within hl (hS.within ρ hρ s hs')
  refine ⟨f, meF (meCoeff3 (cen ρ) (src ρ)) p (zpt F x (cen ρ) - cen ρ), f1, fun i => (f2 i).mono hu le_rfl ?_, ?_⟩
  · have e1 : 3 * (totalStrength (src ρ) * (149 / 100 * side r ρ.length - rad r ρ.length)⁻¹ ^ 2)
        = totalStrength (src ρ) * (30000 / 3721 / side r ρ.length ^ 2) := by
      rw [hrad, show 149 / 100 * side r ρ.length - 22 / 25 * side r ρ.length = 61 / 100 * side r ρ.length by ring]
      field_simp; ring
    rw [e1]
    refine mul_le_mul_of_nonneg_left ?_ hA
    unfold majorF3
    have hq := one_le_sqrtD p
    have h1 : (30000 / 3721 : ℝ) ≤ 18 * p * Real.sqrt (2 * p + 1) := by
      have : (1 : ℝ) ≤ p * Real.sqrt (2 * p + 1) := one_le_mul_of_one_le_of_one_le hp1 hq
      linarith
    exact div_le_div₀ (by positivity) h1 (by positivity) (pow_le_pow_left₀ hsh.le hle 2)
  · have a1 := me_force_bound3 (cen ρ) (zpt F x (cen ρ)) p (src ρ) hR0.le (fun s hs' => by rw [← len3_eq_dist2]; exact hW s hs') hlt
      (by rw [← len3_eq_dist2, hzl]; exact a)
    have a1' : totalStrength (src ρ) * gB (p + 1) (rad r ρ.length) (149 / 100 * side r ρ.length) ≤ totalStrength (src ρ) * tailF3 r h p := by
      refine mul_le_mul_of_nonneg_left ((tailF3_le (p := p + 1) G.hr hle hR0.le (by rw [hrad]; linarith) (by rw [hrad]; linarith)
        (by linarith)).trans ?_) hA
      unfold tailF3
      rw [pow_succ, mul_assoc]
      refine mul_le_mul_of_nonneg_left ?_ (by positivity)
      rw [← mul_div_assoc]
      refine div_le_div_of_nonneg_right ?_ (by positivity)
      push_cast
      linarith
    set L := len3 (x - cen ρ) with hL
    have hL0 : 0 < L := by linarith
    have hd : ∀ y, len3 (y - cen ρ) = L → ∀ s ∈ src ρ, 2 / 5 * L ≤ len3 (s.pos - y) := fun y hy s hs' => by
      have k1 := hW s hs'
      have k2 := len3_tri y s.pos (cen ρ)
      rw [len3_sub_comm y s.pos] at k2
      rw [hrad] at k1
      linarith
    have a2 := field_move (S := src ρ) (z := zpt F x (cen ρ)) (x := x) (δ := 2 / 5 * L) (by positivity) heps (hd _ hzl) (hd x rfl)
    have a3 := dist2_triangle3 (meF (meCoeff3 (cen ρ) (src ρ)) p (zpt F x (cen ρ) - cen ρ)) (directField true (src ρ) (zpt F x (cen ρ)) 0)
      (directField true (src ρ) x eps)
    have hLs : side r h ≤ L := by linarith
    have a4 : 4 * len3 (zpt F x (cen ρ) - x) / (2 / 5 * L) ^ 3 + eps / (2 / 5 * L) ^ 5
        ≤ 8800 * (u / s) / side r h ^ 2 + 3125 * eps / side r h ^ 5 := by
      refine add_le_add ?_ ?_
      · have k1 : 4 * len3 (zpt F x (cen ρ) - x) ≤ 4 * (20 * u / s * L) := by linarith
        refine (div_le_div_of_nonneg_right k1 (by positivity)).trans ?_
        have e2 : 4 * (20 * u / s * L) / (2 / 5 * L) ^ 3 = 1250 * (u / s) / L ^ 2 := by field_simp; ring
        rw [e2]
        have : 0 ≤ u / s := by positivity
        exact div_le_div₀ (by positivity) (by linarith) (by positivity) (pow_le_pow_left₀ hsh.le hLs 2)
      · have e2 : eps / (2 / 5 * L) ^ 5 = 3125 / 32 * eps / L ^ 5 := by field_simp; ring
        rw [e2]
        exact div_le_div₀ (by positivity) (by linarith) (by positivity) (pow_le_pow_left₀ hsh.le hLs 5)
    have a5 := mul_le_mul_of_nonneg_left a4 hA
    have a6 : dist2 (meF (meCoeff3 (cen ρ) (src ρ)) p (zpt F x (cen ρ) - cen ρ)) (directField true (src ρ) (zpt F x (cen ρ)) 0)
        ≤ totalStrength (src ρ) * tailF3 r h p := a1.trans a1'
    unfold forceTail3
    rw [mul_add]
    linarith

end
end FMM.Lo3
