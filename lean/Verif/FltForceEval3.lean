import Verif.FltEval3
import Verif.FltForceAp3

/-!
# Evaluation of the force of a tree in space, in floating-point arithmetic

At points that are not in a cone around the vertical axis through the centre of their leaf, nor of a node of list W of the leaf.
-/

namespace FMM.Fl3
open Rounded Finset
open Fl (far farAt farAt_last evalLeaf_ap split_perm W_geo)
variable {F : Flt3} {u g : ℝ}

/-! ## The exact field at a displaced point -/

theorem kernel_move {a b : Vec 3} {δ : ℝ} (hδ : 0 < δ) (ha : δ ≤ len3 a) (hb : δ ≤ len3 b) :
    len3 ((len3 a ^ 3)⁻¹ • a - (len3 b ^ 3)⁻¹ • b) ≤ 4 * len3 (a - b) / δ ^ 3 := by
  have hα : 0 < len3 a := by linarith
  have hβ : 0 < len3 b := by linarith
  have e : (len3 a ^ 3)⁻¹ • a - (len3 b ^ 3)⁻¹ • b = (len3 a ^ 3)⁻¹ • (a - b) + ((len3 a ^ 3)⁻¹ - (len3 b ^ 3)⁻¹) • b := by
    rw [smul_sub, sub_smul]; abel
  have hab := abs_len3_sub a b
  have hd := len3_nonneg (a - b)
  rw [e]
  refine (len3_add_le _ _).trans ?_
  rw [len3_smul, len3_smul]
  have hx : (len3 a)⁻¹ ≤ δ⁻¹ := inv_anti₀ hδ ha
  have hy : (len3 b)⁻¹ ≤ δ⁻¹ := inv_anti₀ hδ hb
  have hx0 : 0 < (len3 a)⁻¹ := inv_pos.mpr hα
  have hy0 : 0 < (len3 b)⁻¹ := inv_pos.mpr hβ
  have hd0 : 0 < δ⁻¹ := inv_pos.mpr hδ
  have h1 : |(len3 a ^ 3)⁻¹| ≤ (δ ^ 3)⁻¹ := by
    rw [abs_of_pos (by positivity)]
    exact inv_anti₀ (by positivity) (pow_le_pow_left₀ hδ.le ha 3)
  have h2 : |(len3 a ^ 3)⁻¹ - (len3 b ^ 3)⁻¹| * len3 b ≤ 3 * (δ ^ 3)⁻¹ * len3 (a - b) := by
    have e2 : |(len3 a ^ 3)⁻¹ - (len3 b ^ 3)⁻¹| * len3 b
        = |len3 a - len3 b| * ((len3 a)⁻¹ * ((len3 a)⁻¹ ^ 2 + (len3 a)⁻¹ * (len3 b)⁻¹ + (len3 b)⁻¹ ^ 2)) := by
      have e3 : (len3 a ^ 3)⁻¹ - (len3 b ^ 3)⁻¹
          = -((len3 a - len3 b) * ((len3 a)⁻¹ * ((len3 a)⁻¹ ^ 2 + (len3 a)⁻¹ * (len3 b)⁻¹ + (len3 b)⁻¹ ^ 2))) * (len3 b)⁻¹ := by
        field_simp; ring
      rw [e3, abs_mul, abs_neg, abs_mul, abs_of_pos hy0, abs_of_pos (a := (len3 a)⁻¹ * _) (by positivity)]
      field_simp
    rw [e2]
    have h3 : (len3 a)⁻¹ * ((len3 a)⁻¹ ^ 2 + (len3 a)⁻¹ * (len3 b)⁻¹ + (len3 b)⁻¹ ^ 2) ≤ 3 * (δ ^ 3)⁻¹ := by
      have k1 := mul_le_mul hx hx hx0.le hd0.le
      have k2 := mul_le_mul hx hy hy0.le hd0.le
      have k3 := mul_le_mul hy hy hy0.le hd0.le
      have k4 := mul_le_mul hx (add_le_add (add_le_add k1 k2) k3) (by positivity) hd0.le
      refine le_trans (le_of_eq (by ring)) (k4.trans (le_of_eq ?_))
      field_simp; norm_num
    rw [mul_comm (3 * (δ ^ 3)⁻¹)]
    exact mul_le_mul hab h3 (by positivity) hd
  have h4 := mul_le_mul_of_nonneg_right h1 hd
  rw [mul_div_assoc, div_eq_mul_inv]
  linarith

theorem kernel_eps {b : Vec 3} {δ eps : ℝ} (hδ : 0 < δ) (he : 0 ≤ eps) (hb : δ ≤ len3 b) :
    len3 ((len3 b ^ 3)⁻¹ • b - (len3 b ^ 3 + eps)⁻¹ • b) ≤ eps / δ ^ 5 := by
  have hβ : 0 < len3 b := by linarith
  rw [← sub_smul, len3_smul]
  have e : (len3 b ^ 3)⁻¹ - (len3 b ^ 3 + eps)⁻¹ = eps / (len3 b ^ 3 * (len3 b ^ 3 + eps)) := by
    have : len3 b ^ 3 + eps ≠ 0 := by positivity
    field_simp
    ring
  rw [e, abs_of_nonneg (by positivity)]
  have e2 : eps / (len3 b ^ 3 * (len3 b ^ 3 + eps)) * len3 b = eps / (len3 b ^ 2 * (len3 b ^ 3 + eps)) := by
    have : len3 b ^ 3 + eps ≠ 0 := by positivity
    field_simp
  rw [e2]
  refine div_le_div_of_nonneg_left he (by positivity) ?_
  have h2 := pow_le_pow_left₀ hδ.le hb 2
  have h3 := pow_le_pow_left₀ hδ.le hb 3
  calc δ ^ 5 = δ ^ 2 * δ ^ 3 := by ring
    _ ≤ len3 b ^ 2 * (len3 b ^ 3 + eps) := mul_le_mul h2 (by linarith) (by positivity) (by positivity)

theorem fieldTerm3 {s : Source 3} {x : Vec 3} (eps : ℝ) (h : 0 < len3 (s.pos - x)) :
    directFieldTerm true x eps s = s.q • ((len3 (s.pos - x) ^ 3 + eps)⁻¹ • (s.pos - x)) := by
  have hne : s.pos ≠ x := fun e => by rw [e, sub_self, len3_zero] at h; exact lt_irrefl _ h
  funext j
  unfold directFieldTerm
  rw [if_neg hne, len3_eq_dist2]
  simp [fieldSpec, forceDenom, sgn]
  ring

/-- The field at a displaced point, without smoothing. -/
theorem field_move {S : List (Source 3)} {z x : Vec 3} {δ eps : ℝ} (hδ : 0 < δ) (he : 0 ≤ eps)
    (h1 : ∀ s ∈ S, δ ≤ len3 (s.pos - z)) (h2 : ∀ s ∈ S, δ ≤ len3 (s.pos - x)) :
    dist2 (directField true S z 0) (directField true S x eps) ≤ totalStrength S * (4 * len3 (z - x) / δ ^ 3 + eps / δ ^ 5) := by
  induction S with
  | nil => simp [directField, totalStrength_nil, dist2]
  | cons s S ih =>
    have a1 := h1 s (by simp)
    have a2 := h2 s (by simp)
    have b := ih (fun t ht => h1 t (by simp [ht])) (fun t ht => h2 t (by simp [ht]))
    rw [directField_cons, directField_cons, totalStrength_cons, add_mul]
    rw [← len3_eq_dist2] at b ⊢
    have e : directFieldTerm true z 0 s + directField true S z 0 - (directFieldTerm true x eps s + directField true S x eps)
        = (directFieldTerm true z 0 s - directFieldTerm true x eps s) + (directField true S z 0 - directField true S x eps) := by abel
    rw [e]
    refine (len3_add_le _ _).trans (add_le_add ?_ b)
    rw [fieldTerm3 0 (by linarith), fieldTerm3 eps (by linarith), ← smul_sub, len3_smul, add_zero]
    refine mul_le_mul_of_nonneg_left ?_ (abs_nonneg _)
    have c1 := kernel_move hδ a1 a2
    have c2 := kernel_eps hδ he a2
    rw [show s.pos - z - (s.pos - x) = -(z - x) by abel, len3_neg] at c1
    have e3 : (len3 (s.pos - z) ^ 3)⁻¹ • (s.pos - z) - (len3 (s.pos - x) ^ 3 + eps)⁻¹ • (s.pos - x)
        = ((len3 (s.pos - z) ^ 3)⁻¹ • (s.pos - z) - (len3 (s.pos - x) ^ 3)⁻¹ • (s.pos - x))
          + ((len3 (s.pos - x) ^ 3)⁻¹ • (s.pos - x) - (len3 (s.pos - x) ^ 3 + eps)⁻¹ • (s.pos - x)) := by abel
    rw [e3]
    exact (len3_add_le _ _).trans (add_le_add c1 c2)

/-! ## Expansions of nodes -/

/-- The sine of the angle between `x - c` and the vertical axis is at least `s`. -/
structure Clear (s : ℝ) (c x : Vec 3) : Prop where
  ne : x - c ≠ 0
  ang : s * len3 (x - c) ≤ Vec.hypot ((x - c) 0) ((x - c) 1)

/-- Factor of the rounding errors of the far forces. -/
noncomputable def majorF3 (r : Box 3) (h p : ℕ) : ℝ := 18 * p * Real.sqrt (2 * p + 1) / side r h ^ 2

/-- Factor of the errors of the forces of the far sources: truncation, displacement of the evaluation point, smoothing. -/
noncomputable def forceTail3 (u s : ℝ) (r : Box 3) (h p : ℕ) (eps : ℝ) : ℝ :=
  tailF3 r h p + (8800 * (u / s) / side r h ^ 2 + 3125 * eps / side r h ^ 5)

variable {r : Box 3} {h p k n m κ κf N : ℕ} {c : Vec 3} {e : Exp3} {S : List (Source 3)} {s eps : ℝ}

theorem majorF3_nonneg (r : Box 3) (h p : ℕ) : 0 ≤ majorF3 r h p := by unfold majorF3; positivity

theorem forceTail3_nonneg (hr : 0 < r.len) (hu : 0 ≤ u) (hs : 0 < s) (he : 0 ≤ eps) : 0 ≤ forceTail3 u s r h p eps := by
  have h1 := tailF3_nonneg hr h p
  have h2 := side_pos hr h
  unfold forceTail3; positivity

theorem LocalOf.force (hF : F.OkD u g) (hκ : FrameCost u g s p κf) (hr : 0 < r.len) (hk : k ≤ h) (H : LocalOf u p r h c k n e S) {x : Vec 3}
    (hx : len3 (x - c) ≤ rad r k) (hc : Clear s c x) (he : 0 ≤ eps) :
    ∃ f t : Vec 3, leForce F e x = .ok f ∧ (∀ i, Ap u (n + fcost p κf) (totalStrength S * majorF3 r h p) (f i) (t i)) ∧
      dist2 t (directField true S x eps) ≤ totalStrength S * forceTail3 u s r h p eps := by
  obtain ⟨b, b1, b2⟩ := H.app
  have hu := hF.nonneg
  have hs0 := hκ.pos
  have hA := totalStrength_nonneg S
  have hsk := side_pos hr k
  have hsh := side_pos hr h
  have hle := side_anti hr hk
  have hrad : rad r k = 22 / 25 * side r k := rfl
  obtain ⟨f, f1, f2⟩ := leForce_ap hF hκ b1 hx hc.ne hc.ang
  have hzc := zpt_close hF hκ hc.ne hc.ang
  have hzl := zpt_len F x c
  refine ⟨f, leF b p (zpt F x c - c), f1, fun i => (f2 i).mono hu le_rfl ?_, ?_⟩
  · have e1 : 3 * ((p : ℝ) * (totalStrength S * major3 r h p) / rad r k)
        = totalStrength S * (375 / 22 * p * Real.sqrt (2 * p + 1) / (side r h * side r k)) := by
      unfold major3; rw [hrad]; field_simp; ring
    rw [e1]
    refine mul_le_mul_of_nonneg_left ?_ hA
    unfold majorF3
    refine div_le_div₀ (by positivity) ?_ (by positivity) ?_
    · have : 0 ≤ (p : ℝ) * Real.sqrt (2 * p + 1) := by positivity
      nlinarith
    · rw [sq]; exact mul_le_mul_of_nonneg_left hle hsh.le
  · have a1 := (b2 (zpt F x c) (by rw [hzl]; exact hx)).2
    have hd : ∀ y, len3 (y - c) = len3 (x - c) → ∀ s ∈ S, side r k / 5 ≤ len3 (s.pos - y) := fun y hy s hs => by
      have k1 := H.sep s hs
      have k2 := len3_tri s.pos y c
      linarith
    have a2 := field_move (S := S) (z := zpt F x c) (x := x) (δ := side r k / 5) (by positivity) he (hd _ hzl) (hd x rfl)
    have a3 := dist2_triangle3 (leF b p (zpt F x c - c)) (directField true S (zpt F x c) 0) (directField true S x eps)
    have a4 : 4 * len3 (zpt F x c - x) / (side r k / 5) ^ 3 + eps / (side r k / 5) ^ 5
        ≤ 8800 * (u / s) / side r h ^ 2 + 3125 * eps / side r h ^ 5 := by
      refine add_le_add ?_ ?_
      · have k1 : 4 * len3 (zpt F x c - x) ≤ 4 * (20 * u / s * (22 / 25 * side r k)) := by
          have := mul_le_mul_of_nonneg_left hx (show 0 ≤ 20 * u / s by positivity)
          rw [hrad] at this
          linarith
        refine (div_le_div_of_nonneg_right k1 (by positivity)).trans ?_
        have e2 : 4 * (20 * u / s * (22 / 25 * side r k)) / (side r k / 5) ^ 3 = 8800 * (u / s) / side r k ^ 2 := by field_simp; ring
        rw [e2]
        exact div_le_div_of_nonneg_left (by positivity) (by positivity) (pow_le_pow_left₀ hsh.le hle 2)
      · have e2 : eps / (side r k / 5) ^ 5 = 3125 * eps / side r k ^ 5 := by field_simp; ring
        rw [e2]
        exact div_le_div_of_nonneg_left (by positivity) (by positivity) (pow_le_pow_left₀ hsh.le hle 5)
    have a5 := mul_le_mul_of_nonneg_left a4 hA
    unfold forceTail3
    rw [mul_add]
    linarith

section
variable {T : PTree} {cen : Path → Vec 3} {src : Path → List (Source 3)}

/-- A node in list W: force. -/
theorem W_force (hF : F.OkD u g) (hκ : FrameCost u g s p κf) (hp0 : 0 < p) (G : Geo r cen h) (hS : Srcs T r h N src) {R ρ : Path} {x : Vec 3}
    (hx : Within r h R x) (hρ : T.Mem ρ) (hl : ρ.length ≤ h) (hlen : R.length ≤ ρ.length) (ha : ¬ (boxAt r ρ).adjacent (boxAt r R))
    (hc : Clear s (cen ρ) x)
    {n : ℕ} {e : Exp3} (he : AppM3 u n e (cen ρ) p (meCoeff3 (cen ρ) (src ρ)) (totalStrength (src ρ)) (rad r ρ.length)) (heps : 0 ≤ eps) :
    ∃ f t : Vec 3, meForce F e x = .ok f ∧ (∀ i, Ap u (n + fcost p κf) (totalStrength (src ρ) * majorF3 r h p) (f i) (t i)) ∧
      dist2 t (directField true (src ρ) x eps) ≤ totalStrength (src ρ) * forceTail3 u s r h p eps := by
  have a := G.sep_point hl hlen ha hx
  have hu := hF.nonneg
  have hs0 := hκ.pos
  have hs := side_pos G.hr ρ.length
  have hsh := side_pos G.hr h
  have hle := side_anti G.hr hl
  have hA := totalStrength_nonneg (src ρ)
  have hrad : rad r ρ.length = 22 / 25 * side r ρ.length := rfl
  have hR0 := rad_pos G.hr ρ.length
  have hlt : rad r ρ.length < 149 / 100 * side r ρ.length := by rw [hrad]; linarith
  have hp1 : (1 : ℝ) ≤ p := by exact_mod_cast hp0
  obtain ⟨f, f1, f2⟩ := meForce_ap hF hκ he hA hR0.le hlt a hc.ang
  have hzc := zpt_close hF hκ hc.ne hc.ang
  have hzl := zpt_len F x (cen ρ)
  have hW : ∀ s ∈ src ρ, len3 (s.pos - cen ρ) ≤ rad r ρ.length := fun s hs' => G.within hl (hS.within ρ hρ s hs')
  refine ⟨f, meF (meCoeff3 (cen ρ) (src ρ)) p (zpt F x (cen ρ) - cen ρ), f1, fun i => (f2 i).mono hu le_rfl ?_, ?_⟩
  · have e1 : 3 * (totalStrength (src ρ) * (149 / 100 * side r ρ.length - rad r ρ.length)⁻¹ ^ 2)
        = totalStrength (src ρ) * (30000 / 3721 / side r ρ.length ^ 2) := by
      rw [hrad, show 149 / 100 * side r ρ.length - 22 / 25 * side r ρ.length = 61 / 100 * side r ρ.length by ring]
      field_simp; ring
    rw [e1]
    refine mul_le_mul_of_nonneg_left ?_ hA
    unfold majorF3
    have hq := one_le_sqrtD p
    have h1 : (30000 / 3721 : ℝ) ≤ 18 * p * Real.sqrt (2 * p + 1) := by
      have : (1 : ℝ) ≤ p * Real.sqrt (2 * p + 1) := one_le_mul_of_one_le_of_one_le hp1 hq
      linarith
    exact div_le_div₀ (by positivity) h1 (by positivity) (pow_le_pow_left₀ hsh.le hle 2)
  · have a1 := me_force_bound3 (cen ρ) (zpt F x (cen ρ)) p (src ρ) hR0.le (fun s hs' => by rw [← len3_eq_dist2]; exact hW s hs') hlt
      (by rw [← len3_eq_dist2, hzl]; exact a)
    have a1' : totalStrength (src ρ) * gB (p + 1) (rad r ρ.length) (149 / 100 * side r ρ.length) ≤ totalStrength (src ρ) * tailF3 r h p := by
      refine mul_le_mul_of_nonneg_left ((tailF3_le (p := p + 1) G.hr hle hR0.le (by rw [hrad]; linarith) (by rw [hrad]; linarith)
        (by linarith)).trans ?_) hA
      unfold tailF3
      rw [pow_succ, mul_assoc]
      refine mul_le_mul_of_nonneg_left ?_ (by positivity)
      rw [← mul_div_assoc]
      refine div_le_div_of_nonneg_right ?_ (by positivity)
      push_cast
      linarith
    set L := len3 (x - cen ρ) with hL
    have hL0 : 0 < L := by linarith
    have hd : ∀ y, len3 (y - cen ρ) = L → ∀ s ∈ src ρ, 2 / 5 * L ≤ len3 (s.pos - y) := fun y hy s hs' => by
      have k1 := hW s hs'
      have k2 := len3_tri y s.pos (cen ρ)
      rw [len3_sub_comm y s.pos] at k2
      rw [hrad] at k1
      linarith
    have a2 := field_move (S := src ρ) (z := zpt F x (cen ρ)) (x := x) (δ := 2 / 5 * L) (by positivity) heps (hd _ hzl) (hd x rfl)
    have a3 := dist2_triangle3 (meF (meCoeff3 (cen ρ) (src ρ)) p (zpt F x (cen ρ) - cen ρ)) (directField true (src ρ) (zpt F x (cen ρ)) 0)
      (directField true (src ρ) x eps)
    have hLs : side r h ≤ L := by linarith
    have a4 : 4 * len3 (zpt F x (cen ρ) - x) / (2 / 5 * L) ^ 3 + eps / (2 / 5 * L) ^ 5
        ≤ 8800 * (u / s) / side r h ^ 2 + 3125 * eps / side r h ^ 5 := by
      refine add_le_add ?_ ?_
      · have k1 : 4 * len3 (zpt F x (cen ρ) - x) ≤ 4 * (20 * u / s * L) := by linarith
        refine (div_le_div_of_nonneg_right k1 (by positivity)).trans ?_
        have e2 : 4 * (20 * u / s * L) / (2 / 5 * L) ^ 3 = 1250 * (u / s) / L ^ 2 := by field_simp; ring
        rw [e2]
        have : 0 ≤ u / s := by positivity
        exact div_le_div₀ (by positivity) (by linarith) (by positivity) (pow_le_pow_left₀ hsh.le hLs 2)
      · have e2 : eps / (2 / 5 * L) ^ 5 = 3125 / 32 * eps / L ^ 5 := by field_simp; ring
        rw [e2]
        exact div_le_div₀ (by positivity) (by linarith) (by positivity) (pow_le_pow_left₀ hsh.le hLs 5)
    have a5 := mul_le_mul_of_nonneg_left a4 hA
    have a6 : dist2 (meF (meCoeff3 (cen ρ) (src ρ)) p (zpt F x (cen ρ) - cen ρ)) (directField true (src ρ) (zpt F x (cen ρ)) 0)
        ≤ totalStrength (src ρ) * tailF3 r h p := a1.trans a1'
    unfold forceTail3
    rw [mul_add]
    linarith

end
end FMM.Fl3
