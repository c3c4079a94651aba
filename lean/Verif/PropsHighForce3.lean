import Verif.HighForceTree3
import Verif.PropsHigh3
import Verif.PropsLowForce3
import Verif.PropsLowForceBalanced3

/-!
# C114: no overflow in the trees in space: forces

If the strengths and the order of the expansions are not too large for the sizes of the boxes, the forces computed with
`double`s off the axes of the boxes are finite vectors, with the errors of C89 and C90.
-/

namespace FMM
open Rounded D64
variable {F : Flt3} {L : Lib} {θ τ C : ℝ} {r : RBox ℝ 3} {S : List (Source 3)} {max fuel h p m e q perCell k : ℕ}

/-- The spherical harmonics and the derivatives that are computed from what GSL returns are finite off the vertical, up to degree 42. -/
def HarmonicsFiniteD (L : Lib) : Prop := ∀ (lmax : ℕ) (θ φ c : ℝ) (l : ℕ) (m : ℤ), lmax ≤ 42 → l ≤ lmax → |m| ≤ l →
  L.cos (.fin θ) = .fin c → |c| < 1 →
  ∃ x y x₁ y₁ x₂ y₂, L.ylmD lmax (.fin θ, .fin φ) l m = (⟨.fin x, .fin y⟩, ⟨.fin x₁, .fin y₁⟩, ⟨.fin x₂, .fin y₂⟩)

theorem HarmonicsFiniteD.ydfin (h : HarmonicsFiniteD L) : Hi3.YDFin L := fun lmax θ φ c l m h1 h2 h3 h4 h5 => by
  obtain ⟨x, y, x₁, y₁, x₂, y₂, e⟩ := h lmax θ φ c l m h1 h2 h3 h4 h5
  rw [e]
  exact ⟨⟨⟨x, rfl⟩, ⟨y, rfl⟩⟩, ⟨⟨x₁, rfl⟩, ⟨y₁, rfl⟩⟩, ⟨⟨x₂, rfl⟩, ⟨y₂, rfl⟩⟩⟩

/-- The computed vector is finite and its components differ from those of `v` by at most `e`. -/
def VFinNear3 (P : Outcome (DVec 3)) (v : Vec 3) (e : ℝ) : Prop := ∃ w : Vec 3, P = .ok (fun j => .fin (w j)) ∧ ∀ j, |w j - v j| ≤ e

theorem VNearOrBad3.fin {P : Outcome (DVec 3)} {v : Vec 3} {e : ℝ} (h : VNearOrBad3 P v e) (h' : ∃ w : Vec 3, P = .ok (fun j => .fin (w j))) :
    VFinNear3 P v e := by
  obtain ⟨d, h1, h2⟩ := h
  obtain ⟨w, h3⟩ := h'
  rw [h3] at h1
  injection h1 with h1
  exact ⟨w, h3, fun j => h2 j (w j) (by rw [← h1])⟩

theorem scale_two (k : ℕ) : (1 : ℝ) ≤ 1 / 2 ^ k * 2 ^ k := by
  rw [one_div_mul_cancel (by positivity)]

/-- **C114** `double`s: the constructor returns a tree; the force at a point of a leaf is finite and has the error of C89, if
the boxes have sides between `25/22 θ` and `1/(4θ)`, the distances to the sources are at least `θ` or zero, and the directions
from the centres of the boxes of the leaf and of its list W have an angle of at least `2 ^ -k` with the vertical. -/
theorem C114_adaptive (hF : Is64 F) (hlib : LibAccurateD F) (hlf : LibOf L F) (hY : HarmonicsFinite L) (hYD : HarmonicsFiniteD L) (hM : Moderate3 S p θ τ) (hB : NotLarge3 S p θ e q) (hk' : k ≤ 21)
    (hlo : θ ≤ 22 / 25 * (r.len / 2 ^ h)) (hhi : θ * (4 * r.len) ≤ 1) (hL : 0 < r.len) (hC : ∀ i, |r.center i| ≤ C) {eps : ℝ}
    (hord : Rounded.expansionOrder F.rnd F.rlog (Rounded.totalStrength F.rnd S) eps = .ok p) (hp0 : 0 < p) (hp : p ≤ 42)
    (hbox : Rounded.sourceBox F.rnd S = some r) (hin : ∀ s ∈ S, r.exact.contains s.pos) {st : BuildState 3 (Source 3)} {nb : Nbh}
    (hb : Rounded.adaptiveLists F.rnd F.nrm3 fuel Source.pos r S max = .ok (st, h, nb)) (hf : h < fuel)
    (hk : 100 * ((8 * h + 15) * (1 / 2 ^ 49 * (4 * (C + r.len)))) < r.len / 2 ^ (h + 1)) (hm : Fl.ListsLe st.heap nb m)
    (hn : roundings3 (2 ^ 37) S.length h m ≤ 2 ^ 48) {sch : ℕ → List Path → List Path} (hsch : Schedule sch) :
    ∃ T, Rounded.adaptiveFmm F.rnd F.rlog F.nrm3 (kit64 L) fuel sch () S max eps = .ok T ∧ T.order = p ∧ T.height = h ∧
      ∀ x, ∃ lf, Rounded.getContainingLeaf F.rnd fuel T.heap x = .ok lf ∧ ∀ l, lf = some l → (∀ s ∈ S, s.pos = x ∨ θ ≤ dist2 s.pos x) →
        (∀ j, |x j| ≤ 2 ^ (300 : ℤ)) → OffCentre (1 / 2 ^ k) (2 ^ (-1021 : ℤ)) (Rounded.boxAt F.rnd r l).center x →
        (∀ ρ ∈ nb.W l, OffAxis (1 / 2 ^ k) (Rounded.boxAt F.rnd r ρ).center x) → ∀ grav, ∀ feps, 0 ≤ feps → feps ≤ 1 / θ ^ 3 →
        VFinNear3 (dblForce3 F L feps fuel grav T S x) (directField grav S x feps)
          (forceErrorLow3 (1 / 2 ^ 49) (1 / 2 ^ k) (2 ^ 37) (2 ^ (2 * k + 5)) (r.len / 2 ^ h) S p h m feps x) := by
  have hsp := span3_of hL hlo hhi
  have hroot := in_root3 hin hL
  have hC0 : 0 ≤ C := (abs_nonneg _).trans (hC 0)
  have hS : ∀ s ∈ S, ∀ j, |s.pos j| ≤ 2 ^ (297 : ℤ) := fun s hs j =>
    (Hi3.root_le (hM.scale hp) hB.fit hsp rfl hL hC0 hC hk (hroot s hs) j).trans (two_pow_mono (by norm_num))
  obtain ⟨T, t1, t2, t3, t4⟩ := C112_adaptive hF hlib hlf hM hk' hlo hhi hS reachable3_init hL hC hord hp0 hp hbox hin hb hf hk hm hsch
  have hq' : ∀ s ∈ S, Flr τ |s.q| := fun s hs => (hM.strength s hs).imp_left fun e => by rw [e, abs_zero]
  obtain ⟨T', u1, u2⟩ := Hi3.adaptive_hi_force hF hlib hlf hY.yfin hYD.ydfin (double_angle51 hp hk').frame (scale_two k) hk' rfl (hM.scale hp) hB.fit hsp
    (double_cost51 hp).cost hL hC hord hp0 hp hbox hin hb hk hm hq' hB.total hn
  have hT : T = T' := by
    have := (t1.symm.trans (u1 sch hsch))
    injection this
  subst hT
  refine ⟨T, t1, t2, t3, fun x => ?_⟩
  obtain ⟨lf, g1, g2⟩ := u2 x
  refine ⟨lf, g1 fuel hf, fun l hl hd hx hc hW grav feps hfe hfe' => ?_⟩
  subst hl
  exact (t4 x l (g1 fuel hf) hd hx hc hW grav feps hfe hfe').fin
    (g2 l rfl hd hc.1.clear hc.far (fun ρ hρ => (hW ρ hρ).clear) fuel hf grav S feps hfe hfe' (hM.eps hp0 hfe hfe'))

/-- **C114** At distances between `θ` and `1/θ` from all sources, off the axes of the boxes down to the height of the tree, the force is
finite with the error of C89, in and outside of the leaves. -/
theorem C114_everywhere (hF : Is64 F) (hlib : LibAccurateD F) (hlf : LibOf L F) (hY : HarmonicsFinite L) (hYD : HarmonicsFiniteD L) (hM : Moderate3 S p θ τ) (hB : NotLarge3 S p θ e q) (hk' : k ≤ 21)
    (hlo : θ ≤ 22 / 25 * (r.len / 2 ^ h)) (hhi : θ * (4 * r.len) ≤ 1) (hL : 0 < r.len) (hC : ∀ i, |r.center i| ≤ C) {eps : ℝ}
    (hord : Rounded.expansionOrder F.rnd F.rlog (Rounded.totalStrength F.rnd S) eps = .ok p) (hp0 : 0 < p) (hp : p ≤ 42)
    (hbox : Rounded.sourceBox F.rnd S = some r) (hin : ∀ s ∈ S, r.exact.contains s.pos) {st : BuildState 3 (Source 3)} {nb : Nbh}
    (hb : Rounded.adaptiveLists F.rnd F.nrm3 fuel Source.pos r S max = .ok (st, h, nb)) (hf : h < fuel)
    (hk : 100 * ((8 * h + 15) * (1 / 2 ^ 49 * (4 * (C + r.len)))) < r.len / 2 ^ (h + 1)) (hm : Fl.ListsLe st.heap nb m)
    (hn : roundings3 (2 ^ 37) S.length h m ≤ 2 ^ 48) {sch : ℕ → List Path → List Path} (hsch : Schedule sch) :
    ∃ T, Rounded.adaptiveFmm F.rnd F.rlog F.nrm3 (kit64 L) fuel sch () S max eps = .ok T ∧ T.order = p ∧ T.height = h ∧
      ∀ x, (∀ s ∈ S, θ ≤ dist2 s.pos x ∧ dist2 s.pos x ≤ 1 / θ) →
        (∀ π : Path, π.length ≤ h → OffCentre (1 / 2 ^ k) (2 ^ (-1021 : ℤ)) (Rounded.boxAt F.rnd r π).center x) → ∀ grav, ∀ feps, 0 ≤ feps → feps ≤ 1 / θ ^ 3 →
        VFinNear3 (dblForce3 F L feps fuel grav T S x) (directField grav S x feps)
          (forceErrorLow3 (1 / 2 ^ 49) (1 / 2 ^ k) (2 ^ 37) (2 ^ (2 * k + 5)) (r.len / 2 ^ h) S p h m feps x) := by
  have hsp := span3_of hL hlo hhi
  have hroot := in_root3 hin hL
  have hC0 : 0 ≤ C := (abs_nonneg _).trans (hC 0)
  have hsc := hM.scale hp
  have hSb : ∀ s ∈ S, ∀ j, |s.pos j| ≤ 2 ^ (250 : ℤ) := fun s hs j => Hi3.root_le hsc hB.fit hsp rfl hL hC0 hC hk (hroot s hs) j
  obtain ⟨T, t1, t2, t3, t4⟩ := C114_adaptive hF hlib hlf hY hYD hM hB hk' hlo hhi hL hC hord hp0 hp hbox hin hb hf hk hm hn hsch
  have hq' : ∀ s ∈ S, Flr τ |s.q| := fun s hs => (hM.strength s hs).imp_left fun e => by rw [e, abs_zero]
  obtain ⟨T₀, w1, w2, -, w4⟩ := C112_floor hlib hsc (double_cost51 hp) (double_angle51 hp hk') hlo hhi hM.strength reachable3_init hL hC hord
    hp0 hp hbox hin hb hk hm
  obtain ⟨T', z1, -, -, z4, -⟩ := D64.C98_adaptive hF hlf reachable3_init.good.1 (fun s hs j => (hSb s hs j).trans (two_pow_mono (by norm_num)))
    (w1 sch hsch) (by rw [w2]; exact hp0) (by rw [w2]; exact hp)
  have hT : T = T' := by
    have := t1.symm.trans z1
    injection this
  subst hT
  refine ⟨T, t1, t2, t3, fun x hx hax grav feps hfe hfe' => ?_⟩
  have h0 := hM.th0
  obtain ⟨s0, hs0⟩ : ∃ s, s ∈ S := by
    cases S with
    | nil => simp [Rounded.sourceBox] at hbox
    | cons s S => exact ⟨s, by simp⟩
  have hxb : ∀ j, |x j| ≤ 2 ^ (300 : ℤ) := fun j => by
    have h1 := (hx s0 hs0).2
    have h2 := abs_le_dist2 s0.pos x j
    have h3 := hSb s0 hs0 j
    have h4 := hM.inv hp0
    have h5 : |x j| ≤ |s0.pos j| + |s0.pos j - x j| := by
      have := abs_sub (s0.pos j) (s0.pos j - x j)
      rwa [sub_sub_cancel] at this
    have h6 : (2 : ℝ) ^ (251 : ℤ) = 2 * 2 ^ (250 : ℤ) := by
      rw [show (251 : ℤ) = 1 + 250 by norm_num, zpow_add₀ (by norm_num), zpow_one]
    have h7 : (2 : ℝ) ^ (251 : ℤ) ≤ 2 ^ (300 : ℤ) := two_pow_mono (by norm_num)
    have h8 : (2 : ℝ) ^ (169 : ℤ) ≤ 2 ^ (250 : ℤ) := two_pow_mono (by norm_num)
    rw [h6] at h7
    refine le_trans ?_ h7
    linarith
  obtain ⟨lf, g1, g2⟩ := t4 x
  obtain ⟨lf', i1, i2, -⟩ := w4 x
  have hlf' : lf' = lf := by
    have := i1 fuel hf
    rw [← z4, g1] at this
    injection this with this
    exact this.symm
  subst hlf'
  cases lf' with
  | some l =>
    exact g2 l rfl (fun s hs => Or.inr (hx s hs).1) hxb (hax l (i2 l rfl).1) (fun ρ hρ => (hax ρ ((i2 l rfl).2 ρ hρ)).1) grav feps hfe hfe'
  | none =>
    have hne : ∀ s ∈ S, s.pos ≠ x := fun s hs e => by
      have := (hx s hs).1
      rw [(dist2_eq_zero_iff _ _).mpr e] at this
      linarith
    have hN : S.length ≤ 2 ^ 50 := le_trans (by unfold roundings3; omega) (hn.trans (by norm_num : 2 ^ 48 ≤ 2 ^ 50))
    have hcl : ∀ s ∈ S, Lo3.Clear θ x s := fun s hs => Or.inr (far_of_dist h0 (hx s hs).1 (hx s hs).2)
    have hu32 := (double_angle51 hp hk').u_le32
    have hfe2 := hM.eps hp0 hfe hfe'
    obtain ⟨v, v1, v2⟩ := Lo3.forcefieldSum_unsafe hlib.toLow3 hsc hu32 hp0 grav S x feps hfe hfe' hcl hq' hne
    have k1 := D64.forcefieldSum_agr hF hlf grav false (fun s hs j => (hSb s hs j).trans (two_pow_mono (by norm_num))) hxb hfe2 v1
    have k2 : ∀ j, ∃ y, D64.forcefieldSum3 grav false S x feps j = .fin y := fun j => by
      obtain ⟨y, y1, -⟩ := Hi3.forcefieldSum_N hlib.toLow3 hsc hF hlf hB.fit rfl hp0 grav false (S := S) hfe hfe' hfe2 hxb le_rfl (fun s hs =>
        ⟨fun j => (hSb s hs j).trans (two_pow_mono (by norm_num)), hcl s hs, hq' s hs, (Hi3.strength_le hs).trans hB.total, Or.inr (hne s hs)⟩) hN j
      exact ⟨y, y1⟩
    choose w hw using k2
    refine ⟨w, ?_, fun j => ?_⟩
    · unfold dblForce3 Rounded.adaptiveEval
      rw [g1]
      show (Except.ok (D64.forcefieldSum3 grav false S x feps) : Outcome (DVec 3)) = _
      exact congrArg Except.ok (funext hw)
    · rw [k1 j (w j) (hw j)]
      exact ((v2 j).1 : |v j - directField grav S x feps j| ≤ _).trans
        (direct_le_forceErrorLow3 hlib.nonneg (double_angle51 hp hk').1 (by positivity) hfe _)

/-- **C114** Hypotheses about the sources only. -/
theorem C114_well_placed {M a : ℝ} {n : ℕ} (hF : Is64 F) (hlib : LibAccurateD F) (hlf : LibOf L F) (hY : HarmonicsFinite L) (hYD : HarmonicsFiniteD L)
    (hM : Moderate3 S p θ τ) (hB : NotLarge3 S p θ e q) (hk' : k ≤ 21) (hW : WellPlaced (1 / 2 ^ 49) S M a n) (hlo : θ ≤ 44 / 25 * (a / 2 ^ n)) (hhi : θ * (12 * M) ≤ 1)
    (hmax : 1 ≤ max) {eps : ℝ} (hord : Rounded.expansionOrder F.rnd F.rlog (Rounded.totalStrength F.rnd S) eps = .ok p)
    (hp0 : 0 < p) (hp : p ≤ 42) (hn : roundings3 (2 ^ 37) S.length n (8 * (n * S.length) + 1) ≤ 2 ^ 48) :
    ∃ r h fuel, Rounded.sourceBox F.rnd S = some r ∧ 2 * a < r.len ∧ r.len ≤ 3 * M ∧ (∀ s ∈ S, r.exact.contains s.pos) ∧ h ≤ n ∧ ∀ f ≥ fuel, ∀ sch, Schedule sch →
      ∃ T, Rounded.adaptiveFmm F.rnd F.rlog F.nrm3 (kit64 L) f sch () S max eps = .ok T ∧ T.order = p ∧ T.height = h ∧
        ∀ x, (∀ s ∈ S, θ ≤ dist2 s.pos x ∧ dist2 s.pos x ≤ 1 / θ) →
          (∀ π : Path, π.length ≤ h → OffCentre (1 / 2 ^ k) (2 ^ (-1021 : ℤ)) (Rounded.boxAt F.rnd r π).center x) → ∀ grav, ∀ feps, 0 ≤ feps → feps ≤ 1 / θ ^ 3 →
          VFinNear3 (dblForce3 F L feps f grav T S x) (directField grav S x feps)
            (forceErrorLow3 (1 / 2 ^ 49) (1 / 2 ^ k) (2 ^ 37) (2 ^ (2 * k + 5)) (r.len / 2 ^ h) S p h (8 * (h * S.length) + 1) feps x) := by
  have hθ0 := hM.th0
  have hθ := hM.theta hp0
  have ha := hW.pos
  have haM : a ≤ M := by
    obtain ⟨s, hs, h1⟩ := hW.high 0
    exact h1.trans ((le_abs_self _).trans (hW.bound s hs 0))
  have hη1 : (2 : ℝ) ^ (-1021 : ℤ) ≤ 1 / 100000 :=
    (two_pow_mono (by norm_num : (-1021 : ℤ) ≤ -20)).trans (by norm_num)
  have hηM : 1000 * (2 : ℝ) ^ (-1021 : ℤ) ≤ M := by
    have h1 : θ ≤ 44 / 25 * a := by
      refine hlo.trans (mul_le_mul_of_nonneg_left (div_le_self ha.le (one_le_pow₀ (by norm_num))) (by norm_num))
    have h2 : (2 : ℝ) ^ (-1021 : ℤ) ≤ 2 ^ (-181 : ℤ) := two_pow_mono (by norm_num)
    have h3 : (2 : ℝ) ^ (-169 : ℤ) = 2 ^ (-181 : ℤ) * 4096 := by
      rw [show (-169 : ℤ) = -181 + 12 by norm_num, zpow_add₀ (by norm_num)]; norm_num
    have := two_pow_pos (-181)
    linarith
  have hsc := hM.scale hp
  obtain ⟨r, h0, h1, h2, h3, h4⟩ := hW.box_low hlib.toLow3.toLow hη1 (by linarith)
  have hL : 0 < r.len := by linarith
  have hθη : (2 : ℝ) ^ (-1021 : ℤ) ≤ θ := hsc.le le_rfl
  have hη0 := hsc.eta
  obtain ⟨fuel, st, h, nb, hh, hf, hk, hm⟩ := hW.lists_low hlib.toLow3.toLow hlib.nrm3 (by linarith) (by
    have : (44 : ℝ) / 25 * (a / 2 ^ n) ≤ 2 * a / 2 ^ n := by
      rw [mul_div_assoc]; exact mul_le_mul_of_nonneg_right (by norm_num) (by positivity)
    linarith) h1 h2 h3 h4 hmax
  have e1 : 2 * a / 2 ^ n ≤ r.len / 2 ^ h := by
    refine (div_le_div_of_nonneg_right h1.le (by positivity)).trans ?_
    exact div_le_div_of_nonneg_left hL.le (by positivity) (pow_le_pow_right₀ (by norm_num) hh)
  refine ⟨r, h, fuel + h + 1, h0, h1, h2, h4, hh, fun f hge sch hsch => ?_⟩
  have hmm : 8 * (h * S.length) + 1 ≤ 8 * (n * S.length) + 1 := by
    have := Nat.mul_le_mul_right S.length hh
    omega
  exact C114_everywhere (m := 8 * (h * S.length) + 1) hF hlib hlf hY hYD hM hB hk' (by rw [mul_div_assoc] at e1; linarith) (by nlinarith) hL h3 hord hp0 hp h0 h4
    (hf f (by omega)) (by omega) hk hm (by
      refine le_trans ?_ hn
      unfold roundings3
      have := Nat.mul_le_mul hh (by omega : 2 * 2 ^ 37 + 10 + (8 * (h * S.length) + 1) ≤ 2 * 2 ^ 37 + 10 + (8 * (n * S.length) + 1))
      omega) hsch

/-- **C114** The balanced tree: the force at a point with indices in range, off the axis of its leaf, is finite and has the error of C90; at
every other point the evaluation fails with the error of the index computation. -/
theorem C114_balanced (hF : Is64 F) (hlib : LibAccurateD F) (hlf : LibOf L F) (hY : HarmonicsFinite L) (hYD : HarmonicsFiniteD L) (hM : Moderate3 S p θ τ)
    (hB : NotLarge3 S p θ e q) (hk' : k ≤ 21)
    (hlo : θ ≤ 22 / 25 * (r.len / 2 ^ h)) (hhi : θ * (4 * r.len) ≤ 1) (hL : 0 < r.len) (hC : ∀ i, |r.center i| ≤ C) {eps : ℝ}
    (hord : Rounded.expansionOrder F.rnd F.rlog (Rounded.totalStrength F.rnd S) eps = .ok p) (hp0 : 0 < p) (hp : p ≤ 42)
    (hht : Rounded.balancedHeight F.rnd F.rlog 3 S.length perCell = .ok h) (h10 : h ≤ 10)
    (hbox : Rounded.sourceBox F.rnd S = some r)
    (hk : 100 * ((8 * h + 15) * (1 / 2 ^ 49 * (4 * (C + r.len)))) < r.len / 2 ^ (h + 1))
    (h0 : h = 0 → ∀ s ∈ S, r.exact.contains s.pos)
    (hx : h = 0 ∨ ∀ s ∈ S, ∃ idx, Rounded.leafIndices F.rnd r h s.pos = .ok idx) (hn : S.length ≤ 2 ^ 47) :
    ∃ fuel0, ∀ fuel ≥ fuel0, ∀ sch, Schedule sch →
      ∃ T, Rounded.balancedFmm F.rnd F.rlog F.nrm3 (kit64 L) fuel sch () S perCell eps = .ok T ∧ T.order = p ∧ T.height = h ∧
        ∀ x grav, (∀ e, Rounded.leafIndices F.rnd r h x = .error e → ∀ feps, dblForceB3 F L feps grav T x = .error e) ∧
          (∀ idx, Rounded.leafIndices F.rnd r h x = .ok idx → (∀ s ∈ S, s.pos = x ∨ θ ≤ dist2 s.pos x) →
            OffCentre (1 / 2 ^ k) (2 ^ (-1021 : ℤ)) (Rounded.boxAt F.rnd r (pathOfGrid h idx)).center x → ∀ feps, 0 ≤ feps → feps ≤ 1 / θ ^ 3 →
            VFinNear3 (dblForceB3 F L feps grav T x) (directField grav S x feps)
              (forceErrorLow3 (1 / 2 ^ 49) (1 / 2 ^ k) (2 ^ 37) (2 ^ (2 * k + 5)) (r.len / 2 ^ h) S p h 27 feps x)) := by
  have hq' : ∀ s ∈ S, Flr τ |s.q| := fun s hs => (hM.strength s hs).imp_left fun e => by rw [e, abs_zero]
  obtain ⟨f1, t1⟩ := C113_balanced hF hlib hlf hM hk' hlo hhi hL hC hord hp0 hp hht h10 hbox hk h0 hx
  obtain ⟨T', u1, -, -, -, u2⟩ := Hi3.balanced_hi_force hF hlib hlf hY.yfin hYD.ydfin (double_angle51 hp hk').frame (scale_two k) hk' rfl (hM.scale hp) hB.fit
    (span3_of hL hlo hhi) (double_cost51 hp).cost hL hC hord hp0 hp hht h10 hbox hk h0 hx hq' hB.total (by
      unfold Fl3.evalCount
      have := Nat.mul_le_mul_right (2 * 2 ^ 37 + 10 + 27) h10
      omega)
  refine ⟨Max.max f1 (off (2 ^ 3) (h + 1)), fun fuel hf sch hsch => ?_⟩
  obtain ⟨T, t2, t3, t4, t5⟩ := t1 fuel (by omega) sch hsch
  have hT : T = T' := by
    have := t2.symm.trans (u1 fuel (by omega) sch hsch)
    injection this
  subst hT
  refine ⟨T, t2, t3, t4, fun x grav => ⟨(t5 x grav).1, fun idx hi hd hc feps hfe hfe' => ?_⟩⟩
  exact ((t5 x grav).2 idx hi hd hc feps hfe hfe').fin
    ((((u2 x grav feps).2 idx hi).2) hd hc.1.clear hc.far hfe hfe' (hM.eps hp0 hfe hfe'))

/-- **C114** Hypotheses about the sources only: the construction succeeds, and at the sources and at all points further than the
rounding error from the faces of the root box the force is finite and has the error of C90, if the distances to the sources
are at least `θ` or zero and the point is off the axes of the leaves. -/
theorem C114_placed {M a : ℝ} {n : ℕ} (hF : Is64 F) (hlib : LibAccurateD F) (hlf : LibOf L F) (hY : HarmonicsFinite L) (hYD : HarmonicsFiniteD L) (hM : Moderate3 S p θ τ)
    (hB : NotLarge3 S p θ e q) (hk' : k ≤ 21)
    (hW : Placed (1 / 2 ^ 49) S M a n) (hlo : θ ≤ 44 / 25 * (a / 2 ^ h)) (hhi : θ * (12 * M) ≤ 1) {eps : ℝ}
    (hord : Rounded.expansionOrder F.rnd F.rlog (Rounded.totalStrength F.rnd S) eps = .ok p) (hp0 : 0 < p) (hp : p ≤ 42)
    (hht : Rounded.balancedHeight F.rnd F.rlog 3 S.length perCell = .ok h) (hhk : h ≤ n) (h10 : h ≤ 10) (hn : S.length ≤ 2 ^ 47) :
    ∃ r fuel0, Rounded.sourceBox F.rnd S = some r ∧ 2 * a < r.len ∧ r.len ≤ 3 * M ∧ (∀ s ∈ S, r.exact.contains s.pos) ∧
      ∀ fuel ≥ fuel0, ∀ sch, Schedule sch →
        ∃ T, Rounded.balancedFmm F.rnd F.rlog F.nrm3 (kit64 L) fuel sch () S perCell eps = .ok T ∧ T.order = p ∧ T.height = h ∧
          ∀ x, (x ∈ S.map Source.pos ∨ ∀ i, |x i - r.center i| < r.len / 2 - 180 * (1 / 2 ^ 49 * M)) →
            (∀ s ∈ S, s.pos = x ∨ θ ≤ dist2 s.pos x) →
            (∀ π : Path, π.length = h → OffCentre (1 / 2 ^ k) (2 ^ (-1021 : ℤ)) (Rounded.boxAt F.rnd r π).center x) →
            ∀ grav, ∀ feps, 0 ≤ feps → feps ≤ 1 / θ ^ 3 → VFinNear3 (dblForceB3 F L feps grav T x) (directField grav S x feps)
              (forceErrorLow3 (1 / 2 ^ 49) (1 / 2 ^ k) (2 ^ 37) (2 ^ (2 * k + 5)) (r.len / 2 ^ h) S p h 27 feps x) := by
  have hθ0 := hM.th0
  have hθ := hM.theta hp0
  have ha := hW.pos
  have hsc := hM.scale hp
  have hη1 : (2 : ℝ) ^ (-1021 : ℤ) ≤ 1 / 100000 :=
    (two_pow_mono (by norm_num : (-1021 : ℤ) ≤ -20)).trans (by norm_num)
  have haM : a ≤ M := by
    obtain ⟨s, hs, h1⟩ := hW.high 0
    exact h1.trans ((le_abs_self _).trans (hW.bound s hs 0))
  have hηM : 1000 * (2 : ℝ) ^ (-1021 : ℤ) ≤ M := by
    have h1 : θ ≤ 44 / 25 * a := by
      refine hlo.trans (mul_le_mul_of_nonneg_left (div_le_self ha.le (one_le_pow₀ (by norm_num))) (by norm_num))
    have h2 : (2 : ℝ) ^ (-1021 : ℤ) ≤ 2 ^ (-181 : ℤ) := two_pow_mono (by norm_num)
    have h3 : (2 : ℝ) ^ (-169 : ℤ) = 2 ^ (-181 : ℤ) * 4096 := by
      rw [show (-169 : ℤ) = -181 + 12 by norm_num, zpow_add₀ (by norm_num)]; norm_num
    have := two_pow_pos (-181)
    linarith
  obtain ⟨r, h0, h1, h2, h3, h4⟩ := hW.margin_low hlib.toLow3.toLow hη1 (by linarith)
  have hu : (0 : ℝ) ≤ 1 / 2 ^ 49 := hlib.nonneg
  have hL : 0 < r.len := by linarith
  have hM0 : 0 ≤ 2 * M := by linarith
  have hM00 : 0 ≤ M := by linarith
  have h5 : ∀ s ∈ S, r.exact.contains s.pos := fun s hs => by
    rw [Box.contains_iff]
    intro i
    have a1 := abs_lt.mp (h4 s hs i)
    have := mul_nonneg hu hM00
    simp only [Rounded.RBox.exact]
    constructor <;> linarith [a1.1, a1.2]
  have hk := hW.fine' hu h1 h2 h hhk
  have hk0 := hW.fine' hu h1 h2 0 (Nat.zero_le _)
  have e1 : 2 * a / 2 ^ h ≤ r.len / 2 ^ h := div_le_div_of_nonneg_right h1.le (by positivity)
  have hlo' : θ ≤ 22 / 25 * (r.len / 2 ^ h) := by rw [mul_div_assoc] at e1; linarith
  have hhi' : θ * (4 * r.len) ≤ 1 := by nlinarith
  have A := Lo3.acc_of hlib.toLow3 hsc (span_of3 hL hlo' hhi') hL hM0 hk
  have hin : ∀ x : Vec 3, (∀ i, |x i - r.center i| < r.len / 2 - 180 * (1 / 2 ^ 49 * M)) →
      ∃ idx, Rounded.leafIndices F.rnd r h x = .ok idx := by
    intro x hx
    refine Rounded.inside_on hu (Rounded.small_u hu hL hM0 hk) hL hM0 A.on A.ix h3 (by omega) ?_ x fun i => ?_
    · have : (0 : ℝ) ≤ 1 / 2 ^ 49 * (4 * (2 * M + r.len)) := by positivity
      simp only [Nat.cast_zero, mul_zero, zero_add, pow_one] at hk0
      linarith
    · refine lt_of_lt_of_le (hx i) ?_
      linarith
  obtain ⟨fu, t1⟩ := C114_balanced hF hlib hlf hY hYD hM hB hk' hlo' hhi' hL h3 hord hp0 hp hht h10 h0 hk (fun _ => h5)
    (Or.inr fun s hs => hin _ (h4 s hs)) hn
  refine ⟨r, fu, h0, h1, h2, h5, fun fuel hf sch hsch => ?_⟩
  obtain ⟨T, t2, t3, t4, t5⟩ := t1 fuel hf sch hsch
  refine ⟨T, t2, t3, t4, fun x hx hd hax grav feps hfe hfe' => ?_⟩
  have hi : ∃ idx, Rounded.leafIndices F.rnd r h x = .ok idx := by
    rcases hx with hx | hx
    · obtain ⟨s, hs, rfl⟩ := List.mem_map.mp hx
      exact hin _ (h4 s hs)
    · exact hin _ hx
  obtain ⟨idx, hi⟩ := hi
  exact (t5 x grav).2 idx hi hd (hax _ (pathOfGrid_length h idx)) feps hfe hfe'

/-! ## An instance -/

theorem harmonicsFiniteD_libOf : HarmonicsFiniteD (libOf F) := fun lmax θ φ c l m _ _ _ _ _ => by
  show ∃ x y x₁ y₁ x₂ y₂, (match Fl3.ylmD F lmax θ φ with
    | .ok Y => (cfin (val 0 (Y.Y l m)), cfin (val 0 (Y.dYdtheta l m)), cfin (val 0 (Fl3.dYdphi F Y l m)))
    | .error _ => (czero, czero, czero)) = _
  cases Fl3.ylmD F lmax θ φ with
  | ok Y => exact ⟨_, _, _, _, _, _, rfl⟩
  | error _ => exact ⟨0, 0, 0, 0, 0, 0, rfl⟩

/-- Non-vacuity: the force of eight charges at `(5/2, 0, 0)`. -/
example : ∃ r h f T, Rounded.sourceBox flt64.rnd S8 = some r ∧ h ≤ 1 ∧
    Rounded.adaptiveFmm flt64.rnd flt64.rlog flt64.nrm3 (kit64 (libOf flt64)) f (fun _ l => l.reverse) () S8 1 4 = .ok T ∧ T.order = 1 ∧
    VFinNear3 (dblForce3 flt64 (libOf flt64) 0 f true T S8 ![5 / 2, 0, 0]) (directField true S8 ![5 / 2, 0, 0] 0)
      (forceErrorLow3 (1 / 2 ^ 49) (1 / 2 ^ 5) (2 ^ 37) (2 ^ 15) (r.len / 2 ^ h) S8 1 h (8 * (h * 8) + 1) 0 ![5 / 2, 0, 0]) := by
  obtain ⟨r, h, f, h0, k1, k2, k3, h1, h2⟩ := C114_well_placed (max := 1) (k := 5) flt64_is lowD_flt64 lib64 harmonicsFinite_libOf harmonicsFiniteD_libOf S8_moderate S8_notLarge (by norm_num) S8_placed
    (by norm_num) (by norm_num) le_rfl S8_order64 one_pos (by norm_num) (by simp [roundings3, S8])
  obtain ⟨T, t1, t2, t3, t4⟩ := h2 f le_rfl (fun _ (l : List Path) => l.reverse) (fun _ l => l.reverse_perm)
  exact ⟨r, h, f, T, h0, h1, t1, t2, t4 ![5 / 2, 0, 0] S8_dist5 (fun π hπ => S8_axes64 (by linarith) (by linarith) k3 h1 hπ) true 0 le_rfl
    (by norm_num)⟩

/-- Non-vacuity: the force of eight charges at `(5/2, 0, 0)`, with smoothing and the Coulomb sign. -/
example : ∃ r f T, Rounded.sourceBox flt64.rnd S8 = some r ∧
    Rounded.balancedFmm flt64.rnd flt64.rlog flt64.nrm3 (kit64 (libOf flt64)) f (fun _ l => l.reverse) () S8 1 4 = .ok T ∧
    T.order = 1 ∧ T.height = 1 ∧
    VFinNear3 (dblForceB3 flt64 (libOf flt64) (1 / 1000) false T ![5 / 2, 0, 0]) (directField false S8 ![5 / 2, 0, 0] (1 / 1000))
      (forceErrorLow3 (1 / 2 ^ 49) (1 / 2 ^ 5) (2 ^ 37) (2 ^ 15) (r.len / 2 ^ 1) S8 1 1 27 (1 / 1000) ![5 / 2, 0, 0]) := by
  obtain ⟨r, f, h0, h1, h2, h3, h4⟩ := C114_placed (k := 5) (n := 1) flt64_is lowD_flt64 lib64 harmonicsFinite_libOf harmonicsFiniteD_libOf S8_moderate S8_notLarge (by norm_num)
    S8_placed.toPlaced (by norm_num) (by norm_num) S8_order64 one_pos (by norm_num) S8_height64 le_rfl (by norm_num) (by simp [S8])
  obtain ⟨T, t1, t2, t3, t4⟩ := h4 f le_rfl (fun _ (l : List BAddr) => l.reverse) (fun _ l => l.reverse_perm)
  refine ⟨r, f, T, h0, t1, t2, t3, t4 ![5 / 2, 0, 0] (Or.inr fun i => ?_) (fun s hs => Or.inr (S8_dist5 s hs).1)
    (fun π hπ => S8_axes64 (by linarith) (by linarith) h3 le_rfl hπ.le) false (1 / 1000) (by norm_num) (by norm_num)⟩
  have c1 := (Box.contains_iff _ _).mp (h3 ⟨![3, 3, 3], 1⟩ (by simp [S8])) i
  have c2 := (Box.contains_iff _ _).mp (h3 ⟨![-3, -3, -3], 1⟩ (by simp [S8])) i
  have e1 : (![3, 3, 3] : Vec 3) i = 3 := by fin_cases i <;> rfl
  have e2 : (![-3, -3, -3] : Vec 3) i = -3 := by fin_cases i <;> rfl
  have e3 : 0 ≤ (![5 / 2, 0, 0] : Vec 3) i ∧ (![5 / 2, 0, 0] : Vec 3) i ≤ 5 / 2 := by fin_cases i <;> norm_num
  simp only [e1, e2, Rounded.RBox.exact] at c1 c2
  rw [abs_lt]
  constructor <;> linarith [c1.1, c1.2, c2.1, c2.2, e3.1, e3.2]

end FMM
