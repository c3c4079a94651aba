import Verif.PropsLowForce3

/-!
# C113: underflow in the balanced tree in space: forces

The error bounds of C90 hold with gradual underflow and with `double`s, if the boxes, the distances and the strengths are
not too small or too large for the order `p` of the expansions.
-/

namespace FMM
open Rounded D64
variable {F : Flt3} {L : Lib} {u g s η ρ θ τ ν C : ℝ} {r : RBox ℝ 3} {S : List (Source 3)} {perCell h p κ κ' k : ℕ}

/-- **C113** C90 with gradual underflow: errors are relative above the floor `η` only. -/
theorem C113_floor (hF : F.LowD u g η ρ) (hsc : Scale3 u η θ τ ν p) (hκ : OpCost u g p κ) (ha : AngleCost u g s p κ')
    (hlo : θ ≤ 22 / 25 * (r.len / 2 ^ h))
    (hhi : θ * (4 * r.len) ≤ 1) (hq : ∀ s ∈ S, s.q = 0 ∨ τ ≤ |s.q|) {t : Stat3} (ht : Reachable3 t) (hL : 0 < r.len)
    (hC : ∀ i, |r.center i| ≤ C) {eps : ℝ}
    (hord : Rounded.expansionOrder F.rnd F.rlog (Rounded.totalStrength F.rnd S) eps = .ok p) (hp0 : 0 < p) (hp : p ≤ 42)
    (hht : Rounded.balancedHeight F.rnd F.rlog 3 S.length perCell = .ok h) (h10 : h ≤ 10)
    (hbox : Rounded.sourceBox F.rnd S = some r)
    (hk : 100 * ((8 * h + 15) * (u * (4 * (C + r.len)))) < r.len / 2 ^ (h + 1))
    (h0 : h = 0 → ∀ s ∈ S, r.exact.contains s.pos)
    (hx : h = 0 ∨ ∀ s ∈ S, ∃ idx, Rounded.leafIndices F.rnd r h s.pos = .ok idx) :
    ∃ T, BuiltByB3 F t S perCell eps T ∧ T.order = p ∧ T.height = h ∧ ∀ x grav,
      (∀ e, Rounded.leafIndices F.rnd r h x = .error e → ∀ feps, flForceB3 F feps grav T x = .error e) ∧
      (∀ idx, Rounded.leafIndices F.rnd r h x = .ok idx → (∀ s ∈ S, s.pos = x ∨ θ ≤ dist2 s.pos x) →
        OffCentre s η (Rounded.boxAt F.rnd r (pathOfGrid h idx)).center x → ∀ feps, 0 ≤ feps → feps ≤ 1 / θ ^ 3 →
        ∃ v, flForceB3 F feps grav T x = .ok v ∧
          ∀ j, |v j - directField grav S x feps j| ≤ forceErrorLow3 u s κ κ' (r.len / 2 ^ h) S p h 27 feps x) := by
  have hq' : ∀ s ∈ S, Flr τ |s.q| := fun s hs => (hq s hs).imp_left fun e => by rw [e, abs_zero]
  obtain ⟨T, h1, h2, h3, -, -, h4⟩ := Lo3.balanced_low_force hF hsc (span_of3 hL hlo hhi) hκ.cost ha.frame ht.good.1 hL hC hord hp0 hp hht h10 hbox hk h0
    hx hq'
  simp only [forceBoundL_eq] at h4
  exact ⟨T, ⟨_, h1⟩, h2, h3, fun x grav => ⟨(h4 x grav).1, fun idx hi hd hc feps hfe hfe' =>
    ((h4 x grav).2 idx hi).2 hd hc.1.clear hc.far feps hfe hfe'⟩⟩

/-- The force computed with `double`s. -/
noncomputable def dblForceB3 (F : Flt3) (L : Lib) (feps : ℝ) (grav : Bool) (T : BalancedFmm (kit64 L)) (x : Vec 3) : Outcome (DVec 3) :=
  Rounded.balancedEval F.rnd vadd vneg (force64 L feps) grav T x

/-- **C113** `double`s: with enough steps and for every schedule the constructor returns a tree; the components of the force at a point with
indices in range are not finite or have the error of C90, if the boxes have sides between `25/22 θ` and `1/(4θ)` and the
distances to the sources are at least `θ` or zero, and the direction from the centre of the leaf has an angle of at least `2 ^ -k`
with the vertical; at every other point the evaluation fails with the error of the index
computation. -/
theorem C113_balanced (hF : Is64 F) (hlib : LibAccurateD F) (hlf : LibOf L F) (hM : Moderate3 S p θ τ) (hk' : k ≤ 21)
    (hlo : θ ≤ 22 / 25 * (r.len / 2 ^ h)) (hhi : θ * (4 * r.len) ≤ 1) (hL : 0 < r.len) (hC : ∀ i, |r.center i| ≤ C) {eps : ℝ}
    (hord : Rounded.expansionOrder F.rnd F.rlog (Rounded.totalStrength F.rnd S) eps = .ok p) (hp0 : 0 < p) (hp : p ≤ 42)
    (hht : Rounded.balancedHeight F.rnd F.rlog 3 S.length perCell = .ok h) (h10 : h ≤ 10)
    (hbox : Rounded.sourceBox F.rnd S = some r)
    (hk : 100 * ((8 * h + 15) * (1 / 2 ^ 49 * (4 * (C + r.len)))) < r.len / 2 ^ (h + 1))
    (h0 : h = 0 → ∀ s ∈ S, r.exact.contains s.pos)
    (hx : h = 0 ∨ ∀ s ∈ S, ∃ idx, Rounded.leafIndices F.rnd r h s.pos = .ok idx) :
    ∃ fuel0, ∀ fuel ≥ fuel0, ∀ sch, Schedule sch →
      ∃ T, Rounded.balancedFmm F.rnd F.rlog F.nrm3 (kit64 L) fuel sch () S perCell eps = .ok T ∧ T.order = p ∧ T.height = h ∧
        ∀ x grav, (∀ e, Rounded.leafIndices F.rnd r h x = .error e → ∀ feps, dblForceB3 F L feps grav T x = .error e) ∧
          (∀ idx, Rounded.leafIndices F.rnd r h x = .ok idx → (∀ s ∈ S, s.pos = x ∨ θ ≤ dist2 s.pos x) →
            OffCentre (1 / 2 ^ k) (2 ^ (-1021 : ℤ)) (Rounded.boxAt F.rnd r (pathOfGrid h idx)).center x → ∀ feps, 0 ≤ feps → feps ≤ 1 / θ ^ 3 →
            VNearOrBad3 (dblForceB3 F L feps grav T x) (directField grav S x feps)
              (forceErrorLow3 (1 / 2 ^ 49) (1 / 2 ^ k) (2 ^ 37) (2 ^ (2 * k + 5)) (r.len / 2 ^ h) S p h 27 feps x)) := by
  have hq' : ∀ s ∈ S, Flr τ |s.q| := fun s hs => (hM.strength s hs).imp_left fun e => by rw [e, abs_zero]
  have hC0 : 0 ≤ C := (abs_nonneg _).trans (hC 0)
  obtain ⟨T, h1, h2, h3, ⟨n, n1, n2⟩, h4, h5⟩ := Lo3.balanced_low_force hlib (hM.scale hp) (span_of3 hL hlo hhi) (double_cost51 hp).cost
    (double_angle51 hp hk').frame
    reachable3_init.good.1 hL hC hord hp0 hp hht h10 hbox hk h0 hx hq'
  simp only [forceBoundL_eq] at h5
  have hle : ∀ {v : Vec 3}, (∀ j, |v j - r.center j| ≤ r.len) → ∀ j, |v j| ≤ 2 ^ (297 : ℤ) := fun hv j =>
    root_le3 hM hp0 hhi hL hC0 hC hk hv j
  refine ⟨off (2 ^ 3) (h + 1), fun fuel hf sch hsch => ?_⟩
  obtain ⟨T', u1, u2, u3, u4, -, -, -, -, u8⟩ := D64.C98_balanced hF hlf reachable3_init.good.1 (fun s hs => hle (h4 s hs))
    (h1 fuel hf sch hsch) (by rw [h2]; exact hp0) (by rw [h2]; exact hp)
  refine ⟨T', u1, u2.trans h2, u3.trans h3, fun x grav => ⟨fun e he feps => ?_, fun idx hi hd hc feps hfe hfe' => ?_⟩⟩
  · unfold dblForceB3 Rounded.balancedEval
    rw [u4, u3.trans h3, n1, ok_bind, n2, he, err_bind]
  · obtain ⟨w1, w2⟩ := (h5 x grav).2 idx hi
    obtain ⟨v, v1, v2⟩ := w2 hd hc.1.clear hc.far feps hfe hfe'
    refine vnear_of_same3 ((u8 x (fun j => (hle w1 j).trans (two_pow_mono (by norm_num))) grav).2 feps (hM.eps hp0 hfe hfe') v ?_) v2
    rw [neg_fun3]; exact v1

/-- **C113** Hypotheses about the sources only: the construction succeeds, and at the sources and at all points further than the
rounding error from the faces of the root box the components of the force are not finite or have the error of C90, if the
distances to the sources are at least `θ` or zero and the point is off the axes of the leaves. -/
theorem C113_placed {M a : ℝ} {n : ℕ} (hF : Is64 F) (hlib : LibAccurateD F) (hlf : LibOf L F) (hM : Moderate3 S p θ τ) (hk' : k ≤ 21)
    (hW : Placed (1 / 2 ^ 49) S M a n) (hlo : θ ≤ 44 / 25 * (a / 2 ^ h)) (hhi : θ * (12 * M) ≤ 1) {eps : ℝ}
    (hord : Rounded.expansionOrder F.rnd F.rlog (Rounded.totalStrength F.rnd S) eps = .ok p) (hp0 : 0 < p) (hp : p ≤ 42)
    (hht : Rounded.balancedHeight F.rnd F.rlog 3 S.length perCell = .ok h) (hhk : h ≤ n) (h10 : h ≤ 10) :
    ∃ r fuel0, Rounded.sourceBox F.rnd S = some r ∧ 2 * a < r.len ∧ r.len ≤ 3 * M ∧ (∀ s ∈ S, r.exact.contains s.pos) ∧
      ∀ fuel ≥ fuel0, ∀ sch, Schedule sch →
        ∃ T, Rounded.balancedFmm F.rnd F.rlog F.nrm3 (kit64 L) fuel sch () S perCell eps = .ok T ∧ T.order = p ∧ T.height = h ∧
          ∀ x, (x ∈ S.map Source.pos ∨ ∀ i, |x i - r.center i| < r.len / 2 - 180 * (1 / 2 ^ 49 * M)) →
            (∀ s ∈ S, s.pos = x ∨ θ ≤ dist2 s.pos x) →
            (∀ π : Path, π.length = h → OffCentre (1 / 2 ^ k) (2 ^ (-1021 : ℤ)) (Rounded.boxAt F.rnd r π).center x) →
            ∀ grav, ∀ feps, 0 ≤ feps → feps ≤ 1 / θ ^ 3 → VNearOrBad3 (dblForceB3 F L feps grav T x) (directField grav S x feps)
              (forceErrorLow3 (1 / 2 ^ 49) (1 / 2 ^ k) (2 ^ 37) (2 ^ (2 * k + 5)) (r.len / 2 ^ h) S p h 27 feps x) := by
  have hθ0 := hM.th0
  have hθ := hM.theta hp0
  have ha := hW.pos
  have hsc := hM.scale hp
  have hη1 : (2 : ℝ) ^ (-1021 : ℤ) ≤ 1 / 100000 :=
    (two_pow_mono (by norm_num : (-1021 : ℤ) ≤ -20)).trans (by norm_num)
  have haM : a ≤ M := by
    obtain ⟨s, hs, h1⟩ := hW.high 0
    exact h1.trans ((le_abs_self _).trans (hW.bound s hs 0))
  have hηM : 1000 * (2 : ℝ) ^ (-1021 : ℤ) ≤ M := by
    have h1 : θ ≤ 44 / 25 * a := by
      refine hlo.trans (mul_le_mul_of_nonneg_left (div_le_self ha.le (one_le_pow₀ (by norm_num))) (by norm_num))
    have h2 : (2 : ℝ) ^ (-1021 : ℤ) ≤ 2 ^ (-181 : ℤ) := two_pow_mono (by norm_num)
    have h3 : (2 : ℝ) ^ (-169 : ℤ) = 2 ^ (-181 : ℤ) * 4096 := by
      rw [show (-169 : ℤ) = -181 + 12 by norm_num, zpow_add₀ (by norm_num)]; norm_num
    have := two_pow_pos (-181)
    linarith
  obtain ⟨r, h0, h1, h2, h3, h4⟩ := hW.margin_low hlib.toLow3.toLow hη1 (by linarith)
  have hu : (0 : ℝ) ≤ 1 / 2 ^ 49 := hlib.nonneg
  have hL : 0 < r.len := by linarith
  have hM0 : 0 ≤ 2 * M := by linarith
  have hM00 : 0 ≤ M := by linarith
  have h5 : ∀ s ∈ S, r.exact.contains s.pos := fun s hs => by
    rw [Box.contains_iff]
    intro i
    have a1 := abs_lt.mp (h4 s hs i)
    have := mul_nonneg hu hM00
    simp only [Rounded.RBox.exact]
    constructor <;> linarith [a1.1, a1.2]
  have hk := hW.fine' hu h1 h2 h hhk
  have hk0 := hW.fine' hu h1 h2 0 (Nat.zero_le _)
  have e1 : 2 * a / 2 ^ h ≤ r.len / 2 ^ h := div_le_div_of_nonneg_right h1.le (by positivity)
  have hlo' : θ ≤ 22 / 25 * (r.len / 2 ^ h) := by rw [mul_div_assoc] at e1; linarith
  have hhi' : θ * (4 * r.len) ≤ 1 := by nlinarith
  have A := Lo3.acc_of hlib.toLow3 hsc (span_of3 hL hlo' hhi') hL hM0 hk
  have hin : ∀ x : Vec 3, (∀ i, |x i - r.center i| < r.len / 2 - 180 * (1 / 2 ^ 49 * M)) →
      ∃ idx, Rounded.leafIndices F.rnd r h x = .ok idx := by
    intro x hx
    refine Rounded.inside_on hu (Rounded.small_u hu hL hM0 hk) hL hM0 A.on A.ix h3 (by omega) ?_ x fun i => ?_
    · have : (0 : ℝ) ≤ 1 / 2 ^ 49 * (4 * (2 * M + r.len)) := by positivity
      simp only [Nat.cast_zero, mul_zero, zero_add, pow_one] at hk0
      linarith
    · refine lt_of_lt_of_le (hx i) ?_
      linarith
  obtain ⟨fu, t1⟩ := C113_balanced hF hlib hlf hM hk' hlo' hhi' hL h3 hord hp0 hp hht h10 h0 hk (fun _ => h5)
    (Or.inr fun s hs => hin _ (h4 s hs))
  refine ⟨r, fu, h0, h1, h2, h5, fun fuel hf sch hsch => ?_⟩
  obtain ⟨T, t2, t3, t4, t5⟩ := t1 fuel hf sch hsch
  refine ⟨T, t2, t3, t4, fun x hx hd hax grav feps hfe hfe' => ?_⟩
  have hi : ∃ idx, Rounded.leafIndices F.rnd r h x = .ok idx := by
    rcases hx with hx | hx
    · obtain ⟨s, hs, rfl⟩ := List.mem_map.mp hx
      exact hin _ (h4 s hs)
    · exact hin _ hx
  obtain ⟨idx, hi⟩ := hi
  exact (t5 x grav).2 idx hi hd (hax _ (pathOfGrid_length h idx)) feps hfe hfe'

/-! ## An instance -/

/-- Non-vacuity: the force of eight charges at `(5/2, 0, 0)`, with smoothing and the Coulomb sign. -/
example : ∃ r f T, Rounded.sourceBox flt64.rnd S8 = some r ∧
    Rounded.balancedFmm flt64.rnd flt64.rlog flt64.nrm3 (kit64 (libOf flt64)) f (fun _ l => l.reverse) () S8 1 4 = .ok T ∧
    T.order = 1 ∧ T.height = 1 ∧
    VNearOrBad3 (dblForceB3 flt64 (libOf flt64) (1 / 1000) false T ![5 / 2, 0, 0]) (directField false S8 ![5 / 2, 0, 0] (1 / 1000))
      (forceErrorLow3 (1 / 2 ^ 49) (1 / 2 ^ 5) (2 ^ 37) (2 ^ 15) (r.len / 2 ^ 1) S8 1 1 27 (1 / 1000) ![5 / 2, 0, 0]) := by
  obtain ⟨r, f, h0, h1, h2, h3, h4⟩ := C113_placed (k := 5) (n := 1) flt64_is lowD_flt64 lib64 S8_moderate (by norm_num)
    S8_placed.toPlaced (by norm_num) (by norm_num) S8_order64 one_pos (by norm_num) S8_height64 le_rfl (by norm_num)
  obtain ⟨T, t1, t2, t3, t4⟩ := h4 f le_rfl (fun _ (l : List BAddr) => l.reverse) (fun _ l => l.reverse_perm)
  refine ⟨r, f, T, h0, t1, t2, t3, t4 ![5 / 2, 0, 0] (Or.inr fun i => ?_) (fun s hs => Or.inr (S8_dist5 s hs).1)
    (fun π hπ => S8_axes64 (by linarith) (by linarith) h3 le_rfl hπ.le) false (1 / 1000) (by norm_num) (by norm_num)⟩
  have c1 := (Box.contains_iff _ _).mp (h3 ⟨![3, 3, 3], 1⟩ (by simp [S8])) i
  have c2 := (Box.contains_iff _ _).mp (h3 ⟨![-3, -3, -3], 1⟩ (by simp [S8])) i
  have e1 : (![3, 3, 3] : Vec 3) i = 3 := by fin_cases i <;> rfl
  have e2 : (![-3, -3, -3] : Vec 3) i = -3 := by fin_cases i <;> rfl
  have e3 : 0 ≤ (![5 / 2, 0, 0] : Vec 3) i ∧ (![5 / 2, 0, 0] : Vec 3) i ≤ 5 / 2 := by fin_cases i <;> norm_num
  simp only [e1, e2, Rounded.RBox.exact] at c1 c2
  rw [abs_lt]
  constructor <;> linarith [c1.1, c1.2, c2.1, c2.2, e3.1, e3.2]

end FMM
