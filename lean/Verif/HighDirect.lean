import Verif.HighLaws
import Verif.DoubleAgreeTree2

/-!
# The direct sums and the evaluation of a leaf do not overflow
-/

namespace FMM.D2.Hi
open FMM D64 Rounded
variable {F : Flt} {log : DC → DC} {u η ρ θ τ : ℝ} {p t α : ℕ}

section
variable (h64 : Is64 F) (hF : F.Low u η ρ) (hsc : Scale η ρ θ τ p) (ht : Fit θ p t α) {s : Source 2} {x : Vec 2}
include h64 hF hsc ht

/-- One term of the potential. -/
theorem potential_hi (grav safe : Bool) (hs : Mod s.pos) (hx : Mod x) (hc : Lo.Clear θ x s) (hq : |s.q| ≤ 2 ^ α) :
    Sim (R1 1 (α + 8)) (Fl.potential F grav safe s x) (.ok (potential2 grav safe s x)) := by
  obtain ⟨d1, d2⟩ := vsub_fin h64 hs hx
  unfold Fl.potential potential2
  dsimp only
  rw [d1, norm2_fin h64 d2]
  have hr0 : 0 ≤ F.nrm (F.vsub s.pos x) := by rw [h64.nrm]; exact rndU_nonneg (Real.sqrt_nonneg _)
  have hroom := ht.room
  by_cases h1 : safe = true ∧ F.nrm (F.vsub s.pos x) = 0
  · rw [if_pos h1, if_pos (by rw [h1.1, h1.2]; simp [isZero])]
    exact Sim.ok .zero
  · rw [if_neg h1]
    refine Sim.ite_err fun h2 => ?_
    have hz : ¬ (safe && isZero (.fin (F.nrm (F.vsub s.pos x)))) = true := by simp [isZero, h2]
    rw [if_neg hz]
    have hpos : 0 < F.nrm (F.vsub s.pos x) := lt_of_le_of_ne hr0 (Ne.symm h2)
    have hne : s.pos ≠ x := fun e => h2 (by rw [e]; exact Lo.dist_zero hF x)
    obtain ⟨c1, c2⟩ := hc.ne hne
    have c3 := (Lo.dist_ne hF hsc c1).2
    have c4 := Lo.pow_small hF (k := 4) (by omega)
    have hb : |Real.log (F.nrm (F.vsub s.pos x))| ≤ 2 ^ 8 := by
      have l2 : Real.log 2 ≤ 1 := by
        have := Real.log_le_sub_one_of_pos (x := 2) (by norm_num); linarith
      have l2' : 0 ≤ Real.log 2 := Real.log_nonneg (by norm_num)
      have ht0 : (0 : ℝ) ≤ t := Nat.cast_nonneg t
      have ht1 : (t : ℝ) ≤ 190 := by exact_mod_cast ht.small
      have hd0 : 0 < dist2 s.pos x := hsc.th0.trans_le c1
      have hi := inv_th hsc ht
      have hp : (0 : ℝ) < 2 ^ t := by positivity
      have h4 : |Real.log (dist2 s.pos x)| ≤ t := by
        rw [abs_le]
        constructor
        · have h5 : -Real.log (dist2 s.pos x) ≤ Real.log (2 ^ t) := by
            rw [← Real.log_inv]
            refine Real.log_le_log (by positivity) ?_
            rw [inv_le_iff_one_le_mul₀ hd0]
            have := mul_le_mul_of_nonneg_right c1 hp.le
            linarith [ht.th]
          rw [Real.log_pow] at h5
          nlinarith
        · have h6 : 2 / θ = 2 * (1 / θ) := by ring
          have h5 := Real.log_le_log hd0 (by linarith : dist2 s.pos x ≤ 2 ^ t)
          rw [Real.log_pow] at h5
          nlinarith
      have e : (2 : ℝ) ^ 8 = 256 := by norm_num
      have h7 := abs_sub_abs_le_abs_sub (Real.log (F.nrm (F.vsub s.pos x))) (Real.log (dist2 s.pos x))
      rw [e]; linarith
    have hl : R1 1 8 (D64.log (.fin (F.nrm (F.vsub s.pos x)))) (F.rlog (F.nrm (F.vsub s.pos x))) := by
      unfold D64.log
      dsimp only
      rw [if_neg h2, if_neg (not_lt.mpr hr0), h64.rlog _ hpos]
      exact rnd_R1 (by norm_num) (by norm_num) (by simpa using hb)
    have hq' : R1 1 α (.fin s.q) s.q := .fin (by simpa using hq)
    have := hq'.mul hl (by norm_num) (by unfold coExp at hroom; omega)
    rw [← h64.rnd] at this
    cases grav
    · exact Sim.ok this.neg
    · exact Sim.ok this

/-- Partial sums. -/
theorem potentialSum_hi (grav safe : Bool) {S : List (Source 2)} (hx : Mod x) (hS : ∀ s ∈ S, Mod s.pos ∧ Lo.Clear θ x s ∧ |s.q| ≤ 2 ^ α)
    (hN : S.length ≤ 2 ^ 50) : Sim (R1 S.length (α + 8)) (Fl.potentialSum F grav safe S x) (.ok (potentialSum2 grav safe S x)) := by
  have hroom := ht.room
  unfold Fl.potentialSum potentialSum2
  have key : ∀ (l : List (Source 2)) (n : ℕ) (d : Dbl) (v : ℝ), (∀ s ∈ l, s ∈ S) → n + l.length ≤ 2 ^ 50 → R1 n (α + 8) d v →
      Sim (R1 (n + l.length) (α + 8)) (l.foldlM (fun pot s => do
        let p ← Fl.potential F grav safe s x
        .ok (F.rnd (pot + p))) v) (.ok (l.foldl (fun acc s => add acc (potential2 grav safe s x)) d)) := by
    intro l
    induction l with
    | nil => intro n d v _ _ h; exact Sim.ok h
    | cons s l ih =>
      intro n d v hl hn h
      rw [List.foldlM_cons, List.foldl_cons]
      intro w hw
      obtain ⟨y, y1, y2⟩ := bind_ok hw
      obtain ⟨z, z1, z2⟩ := bind_ok y1
      injection z2 with z2
      obtain ⟨h1, h2, h3⟩ := hS s (hl s (by simp))
      obtain ⟨e, e1, e2⟩ := potential_hi h64 hF hsc ht grav safe h1 hx h2 h3 z z1
      injection e1 with e1
      subst e1
      rw [List.length_cons] at hn
      have := h.add e2 (by omega) (by unfold coExp at hroom; omega)
      rw [← h64.rnd, z2] at this
      obtain ⟨q, q1, q2⟩ := ih (n + 1) _ y (fun s hs => hl s (by simp [hs])) (by omega) this w y2
      refine ⟨q, q1, ?_⟩
      rw [List.length_cons, show n + (l.length + 1) = n + 1 + l.length by omega]
      exact q2
  have := key S 0 (.fin 0) 0 (fun _ h => h) (by omega) .zero
  rwa [Nat.zero_add] at this

omit h64 ht in
/-- The divisor of the force. -/
theorem den_lo (hp0 : 0 < p) (h5 : θ ≤ 1 / 5) (h : θ ≤ dist2 s.pos x) {eps : ℝ} (h0 : 0 ≤ eps) :
    θ ^ 2 / 2 ≤ F.rnd (F.normSq (F.vsub s.pos x) + eps) := by
  obtain ⟨g1, g2⟩ := Lo.eta_dist hsc hp0 h5 (le_refl θ)
  obtain ⟨n1, -⟩ := Lo.normSq_ap hF hsc hp0 h5 h
  rw [Real.norm_eq_abs] at n1
  have hu := hF.nonneg
  have c4 : (1 + u) ^ 4 ≤ 13 / 10 := by
    refine (pow_le_pow_left₀ (by linarith) (by linarith [hF.small] : 1 + u ≤ 1 + 1 / 16) 4).trans ?_
    norm_num
  have hD : θ ^ 2 ≤ dist2 s.pos x ^ 2 := pow_le_pow_left₀ hsc.th0.le h 2
  have hθ : 0 < θ ^ 2 := pow_pos hsc.th0 2
  have n2 := abs_le.mp n1
  have n3 : 7 / 10 * θ ^ 2 ≤ F.normSq (F.vsub s.pos x) + eps := by nlinarith
  have n4 := hF.rnd (F.normSq (F.vsub s.pos x) + eps)
  have n5 : max |F.normSq (F.vsub s.pos x) + eps| η = F.normSq (F.vsub s.pos x) + eps := by
    rw [abs_of_nonneg (by linarith), max_eq_left (by linarith)]
  rw [n5] at n4
  have n6 := (abs_le.mp n4).1
  have n7 := mul_le_mul_of_nonneg_right hF.small (by linarith : 0 ≤ F.normSq (F.vsub s.pos x) + eps)
  linarith

/-- One term of the force. -/
theorem forcefield_hi (grav safe : Bool) (hs : Mod s.pos) (hx : Mod x) (hc : Lo.Clear θ x s) (hq : |s.q| ≤ 2 ^ α) (hp0 : 0 < p) (h5 : θ ≤ 1 / 5)
    {eps : ℝ} (h0 : 0 ≤ eps) (heps : |eps| ≤ 2 ^ (1000 : ℤ)) (hsf : safe = true ∨ s.pos ≠ x) :
    Sim (VHi 1 (α + 3 * t)) (Fl.forcefield F grav safe s x eps) (.ok (forcefield2 grav safe s x eps)) := by
  obtain ⟨d1, d2⟩ := vsub_fin h64 hs hx
  have hroom := ht.room
  have hth := hsc.th0
  have hi := inv_th hsc ht
  have hden := fun h => den_lo hF hsc hp0 h5 (s := s) (x := x) h h0
  have hup := fun h => csub_up hF hsc ht (x := toC s.pos) (y := toC x) h
  rw [← toC_vsub] at hup
  unfold Fl.forcefield forcefield2
  dsimp only
  rw [d1]
  set v := F.vsub s.pos x with hv
  have sq : ∀ j, |v j * v j| ≤ 2 ^ (510 : ℤ) := fun j => by
    rw [abs_mul, show (510 : ℤ) = 255 + 255 by norm_num, zpow_add₀ (by norm_num)]
    exact mul_le_mul (d2 j) (d2 j) (abs_nonneg _) (two_pow_pos _).le
  obtain ⟨a1, a2⟩ := rnd64_fin (sq 0) (by norm_num) (by norm_num)
  obtain ⟨b1, b2⟩ := rnd64_fin (sq 1) (by norm_num) (by norm_num)
  obtain ⟨c1, c2⟩ := rnd64_fin (sum_le a2 b2) (by norm_num) (by norm_num)
  have hn : D64.normSq (fun j => .fin (v j)) = .fin (F.normSq v) := by
    show add (rnd64 (v 0 * v 0)) (rnd64 (v 1 * v 1)) = _
    rw [a1, b1]
    unfold Flt.normSq
    rw [h64.rnd, h64.rnd, h64.rnd]
    exact c1
  have hr : |F.normSq v| ≤ 2 ^ (1000 : ℤ) := by
    unfold Flt.normSq
    rw [h64.rnd, h64.rnd, h64.rnd]
    exact c2.trans (two_pow_mono (by norm_num))
  have ha : add (.fin (F.normSq v)) (.fin eps) = .fin (F.rnd (F.normSq v + eps)) := by
    rw [h64.rnd]
    exact (rnd64_fin (sum_le hr heps) (by norm_num) (by norm_num)).1
  rw [hn, ha]
  by_cases h1 : safe = true ∧ F.normSq v = 0
  · rw [if_pos h1, if_pos (by rw [h1.1, h1.2]; simp [isZero])]
    exact Sim.ok fun j => .zero
  · rw [if_neg h1]
    refine Sim.ite_err fun h2 => ?_
    have hz : ¬ (safe && isZero (.fin (F.normSq v))) = true := by
      simp only [Bool.and_eq_true, not_and]; intro h; simp only [isZero, decide_eq_true_eq]; exact fun h0 => h1 ⟨h, h0⟩
    rw [if_neg hz]
    have hne : s.pos ≠ x := by
      rcases hsf with h | h
      · intro e
        refine h1 ⟨h, ?_⟩
        rw [hv, e, Lo.vsub_self hF x]
        unfold Flt.normSq
        simp [hF.rnd0]
      · exact h
    obtain ⟨e1, e2⟩ := hc.ne hne
    have hden := hden e1
    have hup := hup (by rw [norm_toC_sub]; exact e2)
    generalize F.rnd (F.normSq v + eps) = den at h2 hden ⊢
    have hd0 : 0 < den := lt_of_lt_of_le (by positivity) hden
    have hb : |s.q / den| ≤ 2 ^ (α + 2 * t) := by
      rw [abs_div, abs_of_pos hd0, div_le_iff₀ hd0]
      have k1 : (1 : ℝ) ≤ 2 ^ (2 * t) * den := by
        have k2 : (4 : ℝ) ^ 2 ≤ (θ * 2 ^ t) ^ 2 := pow_le_pow_left₀ (by norm_num) ht.th 2
        have k3 : (θ * 2 ^ t) ^ 2 = 2 ^ (2 * t) * θ ^ 2 := by rw [mul_pow, ← pow_mul, mul_comm t 2]; ring
        have k4 := mul_le_mul_of_nonneg_left hden (by positivity : (0 : ℝ) ≤ 2 ^ (2 * t))
        linarith
      rw [pow_add, mul_assoc]
      exact hq.trans (le_mul_of_one_le_right (by positivity) k1)
    have hq' : R1 1 (α + 2 * t) (div (.fin s.q) (.fin den)) (F.rnd (s.q / den)) := by
      show R1 1 _ (if den = 0 then _ else rnd64 (s.q / den)) _
      rw [if_neg hd0.ne', h64.rnd]
      exact rnd_R1 (by norm_num) (by unfold coExp pwExp at hroom; nlinarith) (by simpa using hb)
    have hvj : ∀ j, |v j| ≤ 2 ^ t := fun j => by
      refine le_trans ?_ hup
      fin_cases j
      · exact Complex.abs_re_le_norm (toC v)
      · exact Complex.abs_im_le_norm (toC v)
    have key : VHi 1 (α + 3 * t) (D64.vscale (fun j => .fin (v j)) (div (.fin s.q) (.fin den))) (F.vscale v (F.rnd (s.q / den))) := fun j => by
      have := (R1.fin (m := 1) (b := t) (by simpa using hvj j)).mul hq' (by norm_num) (by unfold coExp pwExp at hroom; nlinarith)
      show R1 _ _ _ (F.rnd (v j * F.rnd (s.q / den)))
      rw [h64.rnd (v j * _)]
      exact this.mono (by norm_num) (by omega)
    cases grav
    · rw [if_neg (by decide), if_neg (by decide)]
      refine Sim.ok fun j => ?_
      have := (key j).neg
      rw [show (F.vscale v (F.rnd (s.q / den))).neg j = -(F.vscale v (F.rnd (s.q / den)) j) from mul_neg_one _]
      exact this
    · exact Sim.ok key

theorem forcefieldSum_hi (grav safe : Bool) {S : List (Source 2)} (hx : Mod x) (hp0 : 0 < p) (h5 : θ ≤ 1 / 5) {eps : ℝ} (h0 : 0 ≤ eps)
    (heps : |eps| ≤ 2 ^ (1000 : ℤ))
    (hS : ∀ s ∈ S, Mod s.pos ∧ Lo.Clear θ x s ∧ |s.q| ≤ 2 ^ α) (hsf : safe = true ∨ ∀ s ∈ S, s.pos ≠ x)
    (hN : S.length ≤ 2 ^ 50) : Sim (VHi S.length (α + 3 * t)) (Fl.forcefieldSum F grav safe S x eps) (.ok (forcefieldSum2 grav safe S x eps)) := by
  have hroom := ht.room
  unfold Fl.forcefieldSum forcefieldSum2
  have key : ∀ (l : List (Source 2)) (n : ℕ) (d : DVec 2) (v : Vec 2), (∀ s ∈ l, s ∈ S) → n + l.length ≤ 2 ^ 50 → VHi n (α + 3 * t) d v →
      Sim (VHi (n + l.length) (α + 3 * t)) (l.foldlM (fun frc s => do
        let f ← Fl.forcefield F grav safe s x eps
        .ok (F.vadd frc f)) v) (.ok (l.foldl (fun acc s => D64.vadd acc (forcefield2 grav safe s x eps)) d)) := by
    intro l
    induction l with
    | nil => intro n d v _ _ h; exact Sim.ok h
    | cons s l ih =>
      intro n d v hl hn h
      rw [List.foldlM_cons, List.foldl_cons]
      intro w hw
      obtain ⟨y, y1, y2⟩ := bind_ok hw
      obtain ⟨z, z1, z2⟩ := bind_ok y1
      injection z2 with z2
      obtain ⟨h1, h2, h3⟩ := hS s (hl s (by simp))
      obtain ⟨e, e1, e2⟩ := forcefield_hi h64 hF hsc ht grav safe h1 hx h2 h3 hp0 h5 h0 heps (hsf.imp id fun h => h s (hl s (by simp))) z z1
      injection e1 with e1
      subst e1
      rw [List.length_cons] at hn
      have : VHi (n + 1) (α + 3 * t) (D64.vadd d (forcefield2 grav safe s x eps)) y := fun j => by
        have := (h j).add (e2 j) (by omega) (by unfold coExp pwExp at hroom; nlinarith)
        rw [← h64.rnd] at this
        rw [← z2]
        exact this
      obtain ⟨q, q1, q2⟩ := ih (n + 1) _ y (fun s hs => hl s (by simp [hs])) (by omega) this w y2
      refine ⟨q, q1, ?_⟩
      rw [List.length_cons, show n + (l.length + 1) = n + 1 + l.length by omega]
      exact q2
  have := key S 0 (fun _ => .fin 0) (Vec.fill 0) (fun _ h => h) (by omega) fun j => .zero
  rwa [Nat.zero_add] at this

end

end FMM.D2.Hi
