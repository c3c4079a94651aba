import Verif.HighTree3
import Verif.PropsLow3
import Verif.PropsHigh
import Verif.HighBalanced3
import Verif.PropsLowBalanced3

/-!
# C110: no overflow in the trees in space: potentials

If the strengths and the order of the expansions are not too large for the sizes of the boxes, the potentials computed with
`double`s are finite numbers, with the errors of C85 and C86.
-/

namespace FMM
open Rounded D64
variable {F : Flt3} {L : Lib} {θ τ C : ℝ} {r : RBox ℝ 3} {S : List (Source 3)} {max fuel h p m e q perCell : ℕ}

/-- Strengths and sizes that do not overflow with expansions of order `p`: `θ`, the smallest length, is at least `2 ^ (-e)`,
and the strengths add up to at most `2 ^ q`. -/
structure NotLarge3 (S : List (Source 3)) (p : ℕ) (θ : ℝ) (e q : ℕ) : Prop where
  theta : 1 ≤ θ * 2 ^ e
  small : e ≤ 190
  strength : (S.map fun s => |s.q|).sum ≤ 2 ^ q
  powers : (e + 1) * (2 * p + 1) ≤ 900
  range : q + e + 9 * p + 27 + (e + 1) * (p + 1) ≤ 930

/-- The spherical harmonics that GSL returns are finite up to degree 84. -/
def HarmonicsFinite (L : Lib) : Prop := ∀ (lmax : ℕ) (θ φ : ℝ) (l : ℕ) (m : ℤ), lmax ≤ 84 → l ≤ lmax → |m| ≤ l →
  ∃ x y, L.ylm lmax (.fin θ, .fin φ) l m = ⟨.fin x, .fin y⟩

theorem HarmonicsFinite.yfin (h : HarmonicsFinite L) : Hi3.YFin L := fun lmax θ φ l m h1 h2 h3 => by
  obtain ⟨x, y, e⟩ := h lmax θ φ l m h1 h2 h3
  rw [e]
  exact ⟨⟨x, rfl⟩, ⟨y, rfl⟩⟩

theorem NotLarge3.fit (hB : NotLarge3 S p θ e q) : Hi3.Fit3 θ p e q (7 * p + 3) where
  th := hB.theta
  small := hB.small
  pw := hB.powers
  room := by
    have := hB.range
    omega

theorem NotLarge3.total (hB : NotLarge3 S p θ e q) : FMM.totalStrength S ≤ 2 ^ q := by
  rw [← totalStrength_sum]; exact hB.strength

theorem span3_of (hL : 0 < r.len) (hlo : θ ≤ 22 / 25 * (r.len / 2 ^ h)) (hhi : θ * (4 * r.len) ≤ 1) : Lo3.Span θ r.exact h :=
  ⟨hlo, by rw [inv_eq_one_div, le_div_iff₀ (by simp only [RBox.exact]; linarith)]; exact hhi⟩

theorem in_root3 (hin : ∀ s ∈ S, r.exact.contains s.pos) (hL : 0 < r.len) : ∀ s ∈ S, ∀ j, |s.pos j - r.center j| ≤ r.len := fun s hs j => by
  have := (Box.contains_iff _ _).mp (hin s hs) j
  rw [show r.exact.center = r.center from rfl, show r.exact.len = r.len from rfl] at this
  rw [abs_le]
  constructor <;> linarith [this.1, this.2]

/-- **C110** `double`s: the constructor returns a tree; the potential at a point of a leaf is finite and has the error of C85, if
the boxes have sides between `25/22 θ` and `1/(4θ)` and the distances to the sources are at least `θ` or zero. -/
theorem C110_adaptive (hF : Is64 F) (hlib : LibAccurate F) (hlf : LibOf L F) (hY : HarmonicsFinite L) (hM : Moderate3 S p θ τ) (hB : NotLarge3 S p θ e q)
    (hlo : θ ≤ 22 / 25 * (r.len / 2 ^ h)) (hhi : θ * (4 * r.len) ≤ 1) (hL : 0 < r.len) (hC : ∀ i, |r.center i| ≤ C) {eps : ℝ}
    (hord : Rounded.expansionOrder F.rnd F.rlog (Rounded.totalStrength F.rnd S) eps = .ok p) (hp0 : 0 < p) (hp : p ≤ 42)
    (hbox : Rounded.sourceBox F.rnd S = some r) (hin : ∀ s ∈ S, r.exact.contains s.pos) {st : BuildState 3 (Source 3)} {nb : Nbh}
    (hb : Rounded.adaptiveLists F.rnd F.nrm3 fuel Source.pos r S max = .ok (st, h, nb)) (hf : h < fuel)
    (hk : 100 * ((8 * h + 15) * (1 / 2 ^ 49 * (4 * (C + r.len)))) < r.len / 2 ^ (h + 1)) (hm : Fl.ListsLe st.heap nb m)
    (hn : roundings3 (2 ^ 37) S.length h m ≤ 2 ^ 48) {sch : ℕ → List Path → List Path} (hsch : Schedule sch) :
    ∃ T, Rounded.adaptiveFmm F.rnd F.rlog F.nrm3 (kit64 L) fuel sch () S max eps = .ok T ∧ T.order = p ∧ T.height = h ∧
      ∀ x, ∃ lf, Rounded.getContainingLeaf F.rnd fuel T.heap x = .ok lf ∧ (lf ≠ none → (∀ s ∈ S, s.pos = x ∨ θ ≤ dist2 s.pos x) →
        (∀ j, |x j| ≤ 2 ^ (300 : ℤ)) → ∀ grav, FinNear (dblPotential3 F L fuel grav T S x) (directPotential grav S x)
          (potError3 (1 / 2 ^ 49) (2 ^ 37) (r.len / 2 ^ h) S p h m x)) := by
  have hsp := span3_of hL hlo hhi
  have hroot := in_root3 hin hL
  have hC0 : 0 ≤ C := (abs_nonneg _).trans (hC 0)
  have hS : ∀ s ∈ S, ∀ j, |s.pos j| ≤ 2 ^ (297 : ℤ) := fun s hs j =>
    (Hi3.root_le (hM.scale hp) hB.fit hsp rfl hL hC0 hC hk (hroot s hs) j).trans (two_pow_mono (by norm_num))
  obtain ⟨T, t1, t2, t3, t4⟩ := C108_adaptive hF hlib hlf hM hlo hhi hS reachable3_init hL hC hord hp0 hp hbox hin hb hf hk hm hsch
  have hq' : ∀ s ∈ S, Flr τ |s.q| := fun s hs => (hM.strength s hs).imp_left fun e => by rw [e, abs_zero]
  obtain ⟨T', u1, u2⟩ := Hi3.adaptive_hi hF hlib hlf hY.yfin rfl (hM.scale hp) hB.fit hsp (double_cost51 hp).cost hL hC hord hp0 hp hbox hin hb hk hm hq'
    hB.total hn
  have hT : T = T' := by
    have := (t1.symm.trans (u1 sch hsch))
    injection this
  subst hT
  refine ⟨T, t1, t2, t3, fun x => ?_⟩
  obtain ⟨lf, g1, g2⟩ := u2 x
  refine ⟨lf, g1 fuel hf, fun hne hd hx grav => ?_⟩
  obtain ⟨l, rfl⟩ := Option.ne_none_iff_exists'.mp hne
  exact (t4 x l (g1 fuel hf) hd hx grav).fin (g2 l rfl hd fuel hf grav S)

/-- **C110** At distances between `θ` and `1/θ` from all sources, the potential is finite with the error of C85, in and
outside of the leaves. -/
theorem C110_everywhere (hF : Is64 F) (hlib : LibAccurate F) (hlf : LibOf L F) (hY : HarmonicsFinite L) (hM : Moderate3 S p θ τ) (hB : NotLarge3 S p θ e q)
    (hlo : θ ≤ 22 / 25 * (r.len / 2 ^ h)) (hhi : θ * (4 * r.len) ≤ 1) (hL : 0 < r.len) (hC : ∀ i, |r.center i| ≤ C) {eps : ℝ}
    (hord : Rounded.expansionOrder F.rnd F.rlog (Rounded.totalStrength F.rnd S) eps = .ok p) (hp0 : 0 < p) (hp : p ≤ 42)
    (hbox : Rounded.sourceBox F.rnd S = some r) (hin : ∀ s ∈ S, r.exact.contains s.pos) {st : BuildState 3 (Source 3)} {nb : Nbh}
    (hb : Rounded.adaptiveLists F.rnd F.nrm3 fuel Source.pos r S max = .ok (st, h, nb)) (hf : h < fuel)
    (hk : 100 * ((8 * h + 15) * (1 / 2 ^ 49 * (4 * (C + r.len)))) < r.len / 2 ^ (h + 1)) (hm : Fl.ListsLe st.heap nb m)
    (hn : roundings3 (2 ^ 37) S.length h m ≤ 2 ^ 48) {sch : ℕ → List Path → List Path} (hsch : Schedule sch) :
    ∃ T, Rounded.adaptiveFmm F.rnd F.rlog F.nrm3 (kit64 L) fuel sch () S max eps = .ok T ∧ T.order = p ∧ T.height = h ∧
      ∀ x, (∀ s ∈ S, θ ≤ dist2 s.pos x ∧ dist2 s.pos x ≤ 1 / θ) → ∀ grav,
        FinNear (dblPotential3 F L fuel grav T S x) (directPotential grav S x)
          (potError3 (1 / 2 ^ 49) (2 ^ 37) (r.len / 2 ^ h) S p h m x) := by
  have hsp := span3_of hL hlo hhi
  have hroot := in_root3 hin hL
  have hC0 : 0 ≤ C := (abs_nonneg _).trans (hC 0)
  have hsc := hM.scale hp
  have hSb : ∀ s ∈ S, ∀ j, |s.pos j| ≤ 2 ^ (250 : ℤ) := fun s hs j => Hi3.root_le hsc hB.fit hsp rfl hL hC0 hC hk (hroot s hs) j
  obtain ⟨T, t1, t2, t3, t4⟩ := C110_adaptive hF hlib hlf hY hM hB hlo hhi hL hC hord hp0 hp hbox hin hb hf hk hm hn hsch
  have hq' : ∀ s ∈ S, Flr τ |s.q| := fun s hs => (hM.strength s hs).imp_left fun e => by rw [e, abs_zero]
  refine ⟨T, t1, t2, t3, fun x hx grav => ?_⟩
  have h0 := hM.th0
  obtain ⟨s0, hs0⟩ : ∃ s, s ∈ S := by
    cases S with
    | nil => simp [Rounded.sourceBox] at hbox
    | cons s S => exact ⟨s, by simp⟩
  have hxb : ∀ j, |x j| ≤ 2 ^ (300 : ℤ) := fun j => by
    have h1 := (hx s0 hs0).2
    have h2 := abs_le_dist2 s0.pos x j
    have h3 := hSb s0 hs0 j
    have h4 := hM.inv hp0
    have h5 : |x j| ≤ |s0.pos j| + |s0.pos j - x j| := by
      have := abs_sub (s0.pos j) (s0.pos j - x j)
      rwa [sub_sub_cancel] at this
    have h6 : (2 : ℝ) ^ (251 : ℤ) = 2 * 2 ^ (250 : ℤ) := by
      rw [show (251 : ℤ) = 1 + 250 by norm_num, zpow_add₀ (by norm_num), zpow_one]
    have h7 : (2 : ℝ) ^ (251 : ℤ) ≤ 2 ^ (300 : ℤ) := two_pow_mono (by norm_num)
    have h8 : (2 : ℝ) ^ (169 : ℤ) ≤ 2 ^ (250 : ℤ) := two_pow_mono (by norm_num)
    rw [h6] at h7
    refine le_trans ?_ h7
    linarith
  obtain ⟨lf, g1, g2⟩ := t4 x
  cases lf with
  | some l => exact g2 (by simp) (fun s hs => Or.inr (hx s hs).1) hxb grav
  | none =>
    have hne : ∀ s ∈ S, s.pos ≠ x := fun s hs e => by
      have := (hx s hs).1
      rw [(dist2_eq_zero_iff _ _).mpr e] at this
      linarith
    have hN : S.length ≤ 2 ^ 50 := le_trans (by unfold roundings3; omega) (hn.trans (by norm_num : 2 ^ 48 ≤ 2 ^ 50))
    have hcl : ∀ s ∈ S, Lo3.Clear θ x s := fun s hs => Or.inr (far_of_dist h0 (hx s hs).1 (hx s hs).2)
    obtain ⟨v, v1, v2⟩ := Lo3.potentialSum_unsafe hlib hsc grav S x hcl hq' hne
    have k1 := D64.potentialSum_agr hF hlf grav false (fun s hs j => (hSb s hs j).trans (two_pow_mono (by norm_num))) hxb v1
    obtain ⟨y, y1, -⟩ := Hi3.potentialSum_N hlib hsc hF hlf hB.fit grav false hxb (S := S) (fun s hs =>
      ⟨fun j => (hSb s hs j).trans (two_pow_mono (by norm_num)), hcl s hs, (Hi3.strength_le hs).trans hB.total, Or.inr (hne s hs)⟩) hN
    refine ⟨y, ?_, ?_⟩
    · unfold dblPotential3 Rounded.adaptiveEval
      rw [g1]
      show (Except.ok (D64.potentialSum3 grav false S x) : Outcome Dbl) = _
      rw [y1]
    · rw [k1 y y1]
      exact (v2.1 : |v - directPotential grav S x| ≤ _).trans (direct_le_potError3 hlib.nonneg (by positivity) _)

/-- **C110** Hypotheses about the sources only. -/
theorem C110_well_placed {M a : ℝ} {k : ℕ} (hF : Is64 F) (hlib : LibAccurate F) (hlf : LibOf L F) (hY : HarmonicsFinite L)
    (hM : Moderate3 S p θ τ) (hB : NotLarge3 S p θ e q) (hW : WellPlaced (1 / 2 ^ 49) S M a k) (hlo : θ ≤ 44 / 25 * (a / 2 ^ k)) (hhi : θ * (12 * M) ≤ 1)
    (hmax : 1 ≤ max) {eps : ℝ} (hord : Rounded.expansionOrder F.rnd F.rlog (Rounded.totalStrength F.rnd S) eps = .ok p)
    (hp0 : 0 < p) (hp : p ≤ 42) (hn : roundings3 (2 ^ 37) S.length k (8 * (k * S.length) + 1) ≤ 2 ^ 48) :
    ∃ r h fuel, Rounded.sourceBox F.rnd S = some r ∧ 2 * a < r.len ∧ r.len ≤ 3 * M ∧ h ≤ k ∧ ∀ f ≥ fuel, ∀ sch, Schedule sch →
      ∃ T, Rounded.adaptiveFmm F.rnd F.rlog F.nrm3 (kit64 L) f sch () S max eps = .ok T ∧ T.order = p ∧ T.height = h ∧
        ∀ x, (∀ s ∈ S, θ ≤ dist2 s.pos x ∧ dist2 s.pos x ≤ 1 / θ) → ∀ grav,
          FinNear (dblPotential3 F L f grav T S x) (directPotential grav S x)
            (potError3 (1 / 2 ^ 49) (2 ^ 37) (r.len / 2 ^ h) S p h (8 * (h * S.length) + 1) x) := by
  have hθ0 := hM.th0
  have hθ := hM.theta hp0
  have ha := hW.pos
  have haM : a ≤ M := by
    obtain ⟨s, hs, h1⟩ := hW.high 0
    exact h1.trans ((le_abs_self _).trans (hW.bound s hs 0))
  have hη1 : (2 : ℝ) ^ (-1021 : ℤ) ≤ 1 / 100000 :=
    (two_pow_mono (by norm_num : (-1021 : ℤ) ≤ -20)).trans (by norm_num)
  have hηM : 1000 * (2 : ℝ) ^ (-1021 : ℤ) ≤ M := by
    have h1 : θ ≤ 44 / 25 * a := by
      refine hlo.trans (mul_le_mul_of_nonneg_left (div_le_self ha.le (one_le_pow₀ (by norm_num))) (by norm_num))
    have h2 : (2 : ℝ) ^ (-1021 : ℤ) ≤ 2 ^ (-181 : ℤ) := two_pow_mono (by norm_num)
    have h3 : (2 : ℝ) ^ (-169 : ℤ) = 2 ^ (-181 : ℤ) * 4096 := by
      rw [show (-169 : ℤ) = -181 + 12 by norm_num, zpow_add₀ (by norm_num)]; norm_num
    have := two_pow_pos (-181)
    linarith
  have hsc := hM.scale hp
  obtain ⟨r, h0, h1, h2, h3, h4⟩ := hW.box_low hlib.toLow hη1 (by linarith)
  have hL : 0 < r.len := by linarith
  have hθη : (2 : ℝ) ^ (-1021 : ℤ) ≤ θ := hsc.le le_rfl
  have hη0 := hsc.eta
  obtain ⟨fuel, st, h, nb, hh, hf, hk, hm⟩ := hW.lists_low hlib.toLow hlib.nrm3 (by linarith) (by
    have : (44 : ℝ) / 25 * (a / 2 ^ k) ≤ 2 * a / 2 ^ k := by
      rw [mul_div_assoc]; exact mul_le_mul_of_nonneg_right (by norm_num) (by positivity)
    linarith) h1 h2 h3 h4 hmax
  have e1 : 2 * a / 2 ^ k ≤ r.len / 2 ^ h := by
    refine (div_le_div_of_nonneg_right h1.le (by positivity)).trans ?_
    exact div_le_div_of_nonneg_left hL.le (by positivity) (pow_le_pow_right₀ (by norm_num) hh)
  refine ⟨r, h, fuel + h + 1, h0, h1, h2, hh, fun f hge sch hsch => ?_⟩
  have hmm : 8 * (h * S.length) + 1 ≤ 8 * (k * S.length) + 1 := by
    have := Nat.mul_le_mul_right S.length hh
    omega
  exact C110_everywhere (m := 8 * (h * S.length) + 1) hF hlib hlf hY hM hB (by rw [mul_div_assoc] at e1; linarith) (by nlinarith) hL h3 hord hp0 hp h0 h4
    (hf f (by omega)) (by omega) hk hm (by
      refine le_trans ?_ hn
      unfold roundings3
      have := Nat.mul_le_mul hh (by omega : 2 * 2 ^ 37 + 10 + (8 * (h * S.length) + 1) ≤ 2 * 2 ^ 37 + 10 + (8 * (k * S.length) + 1))
      omega) hsch

/-- **C110** The balanced tree: the potential at a point with indices in range is finite and has the error of C86; at every other
point the evaluation fails with the error of the index computation. -/
theorem C110_balanced (hF : Is64 F) (hlib : LibAccurate F) (hlf : LibOf L F) (hY : HarmonicsFinite L) (hM : Moderate3 S p θ τ) (hB : NotLarge3 S p θ e q)
    (hlo : θ ≤ 22 / 25 * (r.len / 2 ^ h)) (hhi : θ * (4 * r.len) ≤ 1) (hL : 0 < r.len) (hC : ∀ i, |r.center i| ≤ C) {eps : ℝ}
    (hord : Rounded.expansionOrder F.rnd F.rlog (Rounded.totalStrength F.rnd S) eps = .ok p) (hp0 : 0 < p) (hp : p ≤ 42)
    (hht : Rounded.balancedHeight F.rnd F.rlog 3 S.length perCell = .ok h) (h10 : h ≤ 10)
    (hbox : Rounded.sourceBox F.rnd S = some r)
    (hk : 100 * ((8 * h + 15) * (1 / 2 ^ 49 * (4 * (C + r.len)))) < r.len / 2 ^ (h + 1))
    (h0 : h = 0 → ∀ s ∈ S, r.exact.contains s.pos)
    (hx : h = 0 ∨ ∀ s ∈ S, ∃ idx, Rounded.leafIndices F.rnd r h s.pos = .ok idx) (hn : S.length ≤ 2 ^ 47) :
    ∃ fuel0, ∀ fuel ≥ fuel0, ∀ sch, Schedule sch →
      ∃ T, Rounded.balancedFmm F.rnd F.rlog F.nrm3 (kit64 L) fuel sch () S perCell eps = .ok T ∧ T.order = p ∧ T.height = h ∧
        ∀ x grav, (∀ e, Rounded.leafIndices F.rnd r h x = .error e → dblPotentialB3 F L grav T x = .error e) ∧
          ((∃ idx, Rounded.leafIndices F.rnd r h x = .ok idx) → (∀ s ∈ S, s.pos = x ∨ θ ≤ dist2 s.pos x) →
            FinNear (dblPotentialB3 F L grav T x) (directPotential grav S x)
              (potError3 (1 / 2 ^ 49) (2 ^ 37) (r.len / 2 ^ h) S p h 27 x)) := by
  have hq' : ∀ s ∈ S, Flr τ |s.q| := fun s hs => (hM.strength s hs).imp_left fun e => by rw [e, abs_zero]
  obtain ⟨f1, t1⟩ := C109_balanced hF hlib hlf hM hlo hhi hL hC hord hp0 hp hht h10 hbox hk h0 hx
  obtain ⟨T', u1, -, -, -, u2⟩ := Hi3.balanced_hi hF hlib hlf hY.yfin rfl (hM.scale hp) hB.fit (span3_of hL hlo hhi) (double_cost51 hp).cost hL hC hord hp0 hp
    hht h10 hbox hk h0 hx hq' hB.total (by
      unfold Fl3.evalCount
      have := Nat.mul_le_mul_right (2 * 2 ^ 37 + 10 + 27) h10
      omega)
  refine ⟨Max.max f1 (off (2 ^ 3) (h + 1)), fun fuel hf sch hsch => ?_⟩
  obtain ⟨T, t2, t3, t4, t5⟩ := t1 fuel (by omega) sch hsch
  have hT : T = T' := by
    have := t2.symm.trans (u1 fuel (by omega) sch hsch)
    injection this
  subst hT
  refine ⟨T, t2, t3, t4, fun x grav => ⟨(t5 x grav).1, fun hi hd => ?_⟩⟩
  exact ((t5 x grav).2 hi hd).fin (((u2 x grav).2 hi).2 hd)

/-- **C110** Hypotheses about the sources only: the construction succeeds, and at the sources and at all points further than the
rounding error from the faces of the root box the potential is finite and has the error of C86, if the distances to the
sources are at least `θ` or zero. -/
theorem C110_placed {M a : ℝ} {k : ℕ} (hF : Is64 F) (hlib : LibAccurate F) (hlf : LibOf L F) (hY : HarmonicsFinite L) (hM : Moderate3 S p θ τ) (hB : NotLarge3 S p θ e q)
    (hW : Placed (1 / 2 ^ 49) S M a k) (hlo : θ ≤ 44 / 25 * (a / 2 ^ h)) (hhi : θ * (12 * M) ≤ 1) {eps : ℝ}
    (hord : Rounded.expansionOrder F.rnd F.rlog (Rounded.totalStrength F.rnd S) eps = .ok p) (hp0 : 0 < p) (hp : p ≤ 42)
    (hht : Rounded.balancedHeight F.rnd F.rlog 3 S.length perCell = .ok h) (hhk : h ≤ k) (h10 : h ≤ 10)
    (hn : S.length ≤ 2 ^ 47) :
    ∃ r fuel0, Rounded.sourceBox F.rnd S = some r ∧ 2 * a < r.len ∧ r.len ≤ 3 * M ∧ (∀ s ∈ S, r.exact.contains s.pos) ∧
      ∀ fuel ≥ fuel0, ∀ sch, Schedule sch →
        ∃ T, Rounded.balancedFmm F.rnd F.rlog F.nrm3 (kit64 L) fuel sch () S perCell eps = .ok T ∧ T.order = p ∧ T.height = h ∧
          ∀ x, (x ∈ S.map Source.pos ∨ ∀ i, |x i - r.center i| < r.len / 2 - 180 * (1 / 2 ^ 49 * M)) →
            (∀ s ∈ S, s.pos = x ∨ θ ≤ dist2 s.pos x) → ∀ grav, FinNear (dblPotentialB3 F L grav T x) (directPotential grav S x)
              (potError3 (1 / 2 ^ 49) (2 ^ 37) (r.len / 2 ^ h) S p h 27 x) := by
  have hθ0 := hM.th0
  have hθ := hM.theta hp0
  have ha := hW.pos
  have hsc := hM.scale hp
  have hη1 : (2 : ℝ) ^ (-1021 : ℤ) ≤ 1 / 100000 :=
    (two_pow_mono (by norm_num : (-1021 : ℤ) ≤ -20)).trans (by norm_num)
  have haM : a ≤ M := by
    obtain ⟨s, hs, h1⟩ := hW.high 0
    exact h1.trans ((le_abs_self _).trans (hW.bound s hs 0))
  have hηM : 1000 * (2 : ℝ) ^ (-1021 : ℤ) ≤ M := by
    have h1 : θ ≤ 44 / 25 * a := by
      refine hlo.trans (mul_le_mul_of_nonneg_left (div_le_self ha.le (one_le_pow₀ (by norm_num))) (by norm_num))
    have h2 : (2 : ℝ) ^ (-1021 : ℤ) ≤ 2 ^ (-181 : ℤ) := two_pow_mono (by norm_num)
    have h3 : (2 : ℝ) ^ (-169 : ℤ) = 2 ^ (-181 : ℤ) * 4096 := by
      rw [show (-169 : ℤ) = -181 + 12 by norm_num, zpow_add₀ (by norm_num)]; norm_num
    have := two_pow_pos (-181)
    linarith
  obtain ⟨r, h0, h1, h2, h3, h4⟩ := hW.margin_low hlib.toLow hη1 (by linarith)
  have hu : (0 : ℝ) ≤ 1 / 2 ^ 49 := hlib.nonneg
  have hL : 0 < r.len := by linarith
  have hM0 : 0 ≤ 2 * M := by linarith
  have hM00 : 0 ≤ M := by linarith
  have h5 : ∀ s ∈ S, r.exact.contains s.pos := fun s hs => by
    rw [Box.contains_iff]
    intro i
    have a1 := abs_lt.mp (h4 s hs i)
    have := mul_nonneg hu hM00
    simp only [Rounded.RBox.exact]
    constructor <;> linarith [a1.1, a1.2]
  have hk := hW.fine' hu h1 h2 h hhk
  have hk0 := hW.fine' hu h1 h2 0 (Nat.zero_le _)
  have e1 : 2 * a / 2 ^ h ≤ r.len / 2 ^ h := div_le_div_of_nonneg_right h1.le (by positivity)
  have hlo' : θ ≤ 22 / 25 * (r.len / 2 ^ h) := by rw [mul_div_assoc] at e1; linarith
  have hhi' : θ * (4 * r.len) ≤ 1 := by nlinarith
  have A := Lo3.acc_of hlib hsc (span_of3 hL hlo' hhi') hL hM0 hk
  have hin : ∀ x : Vec 3, (∀ i, |x i - r.center i| < r.len / 2 - 180 * (1 / 2 ^ 49 * M)) →
      ∃ idx, Rounded.leafIndices F.rnd r h x = .ok idx := by
    intro x hx
    refine Rounded.inside_on hu (Rounded.small_u hu hL hM0 hk) hL hM0 A.on A.ix h3 (by omega) ?_ x fun i => ?_
    · have : (0 : ℝ) ≤ 1 / 2 ^ 49 * (4 * (2 * M + r.len)) := by positivity
      simp only [Nat.cast_zero, mul_zero, zero_add, pow_one] at hk0
      linarith
    · refine lt_of_lt_of_le (hx i) ?_
      linarith
  obtain ⟨fu, t1⟩ := C110_balanced hF hlib hlf hY hM hB hlo' hhi' hL h3 hord hp0 hp hht h10 h0 hk (fun _ => h5)
    (Or.inr fun s hs => hin _ (h4 s hs)) hn
  refine ⟨r, fu, h0, h1, h2, h5, fun fuel hf sch hsch => ?_⟩
  obtain ⟨T, t2, t3, t4, t5⟩ := t1 fuel hf sch hsch
  refine ⟨T, t2, t3, t4, fun x hx hd grav => (t5 x grav).2 ?_ hd⟩
  rcases hx with hx | hx
  · obtain ⟨s, hs, rfl⟩ := List.mem_map.mp hx
    exact hin _ (h4 s hs)
  · exact hin _ hx

/-! ## An instance -/

theorem S8_notLarge : NotLarge3 S8 1 (1 / 36) 6 3 where
  theta := by norm_num
  small := by norm_num
  strength := by
    simp only [S8, List.map_cons, List.map_nil, List.sum_cons, List.sum_nil, abs_one]
    norm_num
  powers := by norm_num
  range := by norm_num

theorem harmonicsFinite_libOf : HarmonicsFinite (libOf F) := fun lmax θ φ l m _ _ _ => by
  show ∃ x y, (match Fl3.ylm F lmax θ φ with | .ok Y => cfin (val 0 (Y.get l m)) | .error _ => czero) = _
  cases Fl3.ylm F lmax θ φ with
  | ok Y => exact ⟨_, _, rfl⟩
  | error _ => exact ⟨0, 0, rfl⟩

/-- Non-vacuity: the potential of eight charges at the centre of their cube. -/
example : ∃ r h f T, Rounded.sourceBox flt64.rnd S8 = some r ∧ h ≤ 1 ∧
    Rounded.adaptiveFmm flt64.rnd flt64.rlog flt64.nrm3 (kit64 (libOf flt64)) f (fun _ l => l.reverse) () S8 1 4 = .ok T ∧ T.order = 1 ∧
    FinNear (dblPotential3 flt64 (libOf flt64) f true T S8 0) (directPotential true S8 0)
      (potError3 (1 / 2 ^ 49) (2 ^ 37) (r.len / 2 ^ h) S8 1 h (8 * (h * 8) + 1) 0) := by
  obtain ⟨r, h, f, h0, -, -, h1, h2⟩ := C110_well_placed (max := 1) flt64_is low3_flt64 lib64 harmonicsFinite_libOf S8_moderate S8_notLarge S8_placed
    (by norm_num) (by norm_num) le_rfl S8_order64 one_pos (by norm_num) (by simp [roundings3, S8])
  obtain ⟨T, t1, t2, t3, t4⟩ := h2 f le_rfl (fun _ (l : List Path) => l.reverse) (fun _ l => l.reverse_perm)
  exact ⟨r, h, f, T, h0, h1, t1, t2, t4 0 S8_dist true⟩

/-- Non-vacuity: the potential of eight charges at one of them. -/
example : ∃ r f T, Rounded.sourceBox flt64.rnd S8 = some r ∧
    Rounded.balancedFmm flt64.rnd flt64.rlog flt64.nrm3 (kit64 (libOf flt64)) f (fun _ l => l.reverse) () S8 1 4 = .ok T ∧
    T.order = 1 ∧ T.height = 1 ∧
    FinNear (dblPotentialB3 flt64 (libOf flt64) true T ![3, 3, 3]) (directPotential true S8 ![3, 3, 3])
      (potError3 (1 / 2 ^ 49) (2 ^ 37) (r.len / 2 ^ 1) S8 1 1 27 ![3, 3, 3]) := by
  obtain ⟨r, f, h0, -, -, -, h4⟩ := C110_placed (k := 1) flt64_is low3_flt64 lib64 harmonicsFinite_libOf S8_moderate S8_notLarge
    S8_placed.toPlaced (by norm_num) (by norm_num) S8_order64 one_pos (by norm_num) S8_height64 le_rfl (by norm_num) (by simp [S8])
  obtain ⟨T, t1, t2, t3, t4⟩ := h4 f le_rfl (fun _ (l : List BAddr) => l.reverse) (fun _ l => l.reverse_perm)
  refine ⟨r, f, T, h0, t1, t2, t3, t4 ![3, 3, 3] (Or.inl (by simp [S8])) (fun s hs => ?_) true⟩
  simp only [S8, List.mem_cons, List.not_mem_nil, or_false] at hs
  rcases hs with rfl | rfl | rfl | rfl | rfl | rfl | rfl | rfl
  · left; rfl
  all_goals
    right
    unfold dist2
    refine Real.le_sqrt_of_sq_le ?_
    rw [Fin.sum_univ_three]
    simp
    norm_num

end FMM
