import Verif.HighBalanced
import Verif.PropsHigh
import Verif.PropsFltBalanced

/-!
# C107: underflow and overflow in the balanced tree in the plane

The error bounds of C79 hold with gradual underflow, and with `double`s, where all results are finite, if the boxes, the distances
and the strengths are not too small or too large for the order `p` of the expansions.
-/

namespace FMM
open Rounded D64
variable {F : Flt} {log : DC → DC} {u η ρ θ τ C : ℝ} {r : RBox ℝ 2} {S : List (Source 2)} {perCell h p e q : ℕ}

/-- **C107** C79 with gradual underflow: errors are relative above the floor `η` only, and divisors below `ρ` are not covered. -/
theorem C107_floor (hF : F.Low u η ρ) (hsc : Scale η ρ θ τ p) (h5 : θ ≤ 1 / 5) (hlo : θ ≤ 18 / 25 * (r.len / 2 ^ h))
    (hhi : θ * (2 * r.len) ≤ 1) (hq : ∀ s ∈ S, s.q = 0 ∨ τ ≤ |s.q|) {t : BinomialTable} (ht : Reachable t) (hL : 0 < r.len)
    (hC : ∀ i, |r.center i| ≤ C) {eps : ℝ}
    (hord : Rounded.expansionOrder F.rnd F.rlog (Rounded.totalStrength F.rnd S) eps = .ok p) (hp0 : 0 < p) (hp : p ≤ 1029)
    (hht : Rounded.balancedHeight F.rnd F.rlog 2 S.length perCell = .ok h) (h16 : h ≤ 16)
    (hbox : Rounded.sourceBox F.rnd S = some r)
    (hk : 100 * ((8 * h + 15) * (u * (4 * (C + r.len)))) < r.len / 2 ^ (h + 1))
    (h0 : h = 0 → ∀ s ∈ S, r.exact.contains s.pos)
    (hx : h = 0 ∨ ∀ s ∈ S, ∃ idx, Rounded.leafIndices F.rnd r h s.pos = .ok idx) :
    ∃ T, BuiltByB F t S perCell eps T ∧ T.order = p ∧ T.height = h ∧ ∀ x grav,
      (∀ e, Rounded.leafIndices F.rnd r h x = .error e →
        flPotentialB F grav T x = .error e ∧ ∀ feps, flForceB F feps grav T x = .error e) ∧
      ((∃ idx, Rounded.leafIndices F.rnd r h x = .ok idx) → (∀ s ∈ S, s.pos = x ∨ θ ≤ dist2 s.pos x) →
        (∃ v, flPotentialB F grav T x = .ok v ∧ |v - directPotential grav S x| ≤ potError u r.len S p h 9 x) ∧
        ∀ feps, 0 ≤ feps → feps ≤ 1 / θ ^ 2 → ∃ v, flForceB F feps grav T x = .ok v ∧
          dist2 v (directField grav S x feps) ≤ forceError u (r.len / 2 ^ h) S p h 9 feps x) := by
  have hq' : ∀ s ∈ S, Flr τ |s.q| := fun s hs => (hq s hs).imp_left fun e => by rw [e, abs_zero]
  obtain ⟨T, h1, h2, h3, h4⟩ := Lo.balanced_low hF hsc (span_of hL hlo hhi) h5 ht.good hL hC hord hp0 hp hht h16 hbox hk h0 hx hq'
  simp only [potBound_eq, forceBound_eq] at h4
  exact ⟨T, ⟨_, h1⟩, h2, h3, h4⟩

/-- The potential computed with `double`s. -/
noncomputable def dblPotentialB (F : Flt) (log : DC → DC) (grav : Bool) (T : BalancedFmm (D2.kit log)) (x : Vec 2) : Outcome Dbl :=
  Rounded.balancedEval F.rnd D64.add D64.neg (D2.pot log) grav T x

/-- The force computed with `double`s. -/
noncomputable def dblForceB (F : Flt) (log : DC → DC) (feps : ℝ) (grav : Bool) (T : BalancedFmm (D2.kit log)) (x : Vec 2) :
    Outcome (DVec 2) :=
  Rounded.balancedEval F.rnd vadd vneg (D2.force log feps) grav T x

/-- What was computed with `double`s: with enough steps, the constructor returned `T`, whatever the order in which the threads
processed the nodes. -/
def BuiltByD (F : Flt) (log : DC → DC) (t : BinomialTable) (S : List (Source 2)) (perCell : ℕ) (eps : ℝ)
    (T : BalancedFmm (D2.kit log)) : Prop :=
  ∃ fuel0, ∀ fuel ≥ fuel0, ∀ sch, Schedule sch →
    Rounded.balancedFmm F.rnd F.rlog F.nrm (D2.kit log) fuel sch t S perCell eps = .ok T

/-- **C107** `double`s: the constructor returns a tree, the same for every schedule of the passes; potential and force at a point
with indices in range are finite and have the errors of C79, if the boxes have sides between `25/18 θ` and `1/(2θ)` and the
distances to the sources are at least `θ` or zero; at every other point the evaluation fails with the error of the index
computation. -/
theorem C107_balanced (hF : D2.Is64 F) (hlog : LogAccurate F) (hlf : LogExact log F) (hM : Moderate S p θ τ) (hB : NotLarge S p θ e q)
    (hlo : θ ≤ 18 / 25 * (r.len / 2 ^ h)) (hhi : θ * (2 * r.len) ≤ 1)
    {t : BinomialTable} (ht : Reachable t) (hL : 0 < r.len) (hC : ∀ i, |r.center i| ≤ C) {eps : ℝ}
    (hord : Rounded.expansionOrder F.rnd F.rlog (Rounded.totalStrength F.rnd S) eps = .ok p) (hp0 : 0 < p)
    (hht : Rounded.balancedHeight F.rnd F.rlog 2 S.length perCell = .ok h) (h16 : h ≤ 16)
    (hbox : Rounded.sourceBox F.rnd S = some r)
    (hk : 100 * ((8 * h + 15) * (1 / 2 ^ 49 * (4 * (C + r.len)))) < r.len / 2 ^ (h + 1))
    (h0 : h = 0 → ∀ s ∈ S, r.exact.contains s.pos)
    (hx : h = 0 ∨ ∀ s ∈ S, ∃ idx, Rounded.leafIndices F.rnd r h s.pos = .ok idx)
    (hn : roundings S.length p h 9 ≤ 2 ^ 48) :
    ∃ T, BuiltByD F log t S perCell eps T ∧ T.order = p ∧ T.height = h ∧ ∀ x grav,
      (∀ e, Rounded.leafIndices F.rnd r h x = .error e →
        dblPotentialB F log grav T x = .error e ∧ ∀ feps, dblForceB F log feps grav T x = .error e) ∧
      ((∃ idx, Rounded.leafIndices F.rnd r h x = .ok idx) → (∀ s ∈ S, s.pos = x ∨ θ ≤ dist2 s.pos x) →
        FinNear (dblPotentialB F log grav T x) (directPotential grav S x) (potError (1 / 2 ^ 49) r.len S p h 9 x) ∧
        ∀ feps, 0 ≤ feps → feps ≤ 1 / θ ^ 2 → VFinNear (dblForceB F log feps grav T x) (directField grav S x feps)
          (forceError (1 / 2 ^ 49) (r.len / 2 ^ h) S p h 9 feps x)) := by
  have hsp := span_of hL hlo hhi
  have hp : p ≤ 1029 := by have := hB.range; omega
  have hC0 : 0 ≤ C := (abs_nonneg _).trans (hC 0)
  have hq' : ∀ s ∈ S, Flr τ |s.q| := fun s hs => (hM.strength s hs).imp_left fun e => by rw [e, abs_zero]
  have hlow := hM.low hF hlog
  obtain ⟨T', u1, u2, u3, u4, u5⟩ := D2.Hi.balanced_hi hF hlow hlf rfl hM.scale hB.fit hsp hM.th1 ht.good hL hC hord hp0 hp hht h16
    hbox hk h0 hx hq' hB.total hn
  have hle : ∀ {v : Vec 2}, (∀ j, |v j - r.center j| ≤ r.len) → ∀ j, |v j| ≤ 2 ^ (250 : ℤ) := fun hv j =>
    D2.Hi.root_le hM.scale hB.fit hsp rfl hL hC0 hC hk hv j
  obtain ⟨T, ⟨fu, t1⟩, t2, t3, t4⟩ := C107_floor hlow hM.scale hM.th1 hlo hhi hM.strength ht hL hC hord hp0 hp hht h16 hbox hk h0 hx
  refine ⟨T', ⟨_, u1⟩, u2, u3, fun x grav => ⟨(u5 x grav).1, fun hi hd => ?_⟩⟩
  obtain ⟨w1, w2⟩ := (u5 x grav).2 hi
  obtain ⟨a, b⟩ := w2 hd
  obtain ⟨⟨v, v1, v2⟩, g3⟩ := (t4 x grav).2 hi hd
  have hS : ∀ s ∈ S, ∀ j, |s.pos j| ≤ 2 ^ (251 : ℤ) := fun s hs j => (hle (u4 s hs) j).trans (two_pow_mono (by norm_num))
  obtain ⟨T'', k1, -, -, -, -, -, -, -, k8⟩ := D2.C100_balanced hF hlf.of hS
    (t1 (Max.max fu (off (2 ^ 2) (h + 1))) (le_max_left _ _) (fun _ l => l) (fun _ _ => List.Perm.refl _))
  have hT : T'' = T' := by
    have := k1.symm.trans (u1 (Max.max fu (off (2 ^ 2) (h + 1))) (le_max_right _ _) (fun _ l => l) (fun _ _ => List.Perm.refl _))
    injection this
  subst hT
  have hxb : ∀ j, |x j| ≤ 2 ^ (254 : ℤ) := fun j => (hle w1 j).trans (two_pow_mono (by norm_num))
  obtain ⟨c, d⟩ := k8 x hxb grav
  refine ⟨(near_of_same (c v v1) v2).fin a, fun feps he he' => ?_⟩
  obtain ⟨w, w3, w4⟩ := g3 feps he he'
  have hee := he'.trans (hM.eps hp0)
  refine (vnear_of_same (d feps (by rw [abs_of_nonneg he]; exact hee) w ?_) w4).fin (b feps he he' hee)
  rw [neg_fun]; exact w3

/-- **C107** Hypotheses about the sources only: the construction succeeds, and at the sources and at all points further than the
rounding error from the faces of the root box potential and force are finite with the errors of C79, if their distances to the
sources are at least `θ` or zero. -/
theorem C107_placed {M a : ℝ} {k : ℕ} (hF : D2.Is64 F) (hlog : LogAccurate F) (hlf : LogExact log F)
    (hM : Moderate S p θ τ) (hB : NotLarge S p θ e q) (hW : Placed (1 / 2 ^ 49) S M a k) (hlo : θ ≤ 36 / 25 * (a / 2 ^ h)) (hhi : θ * (6 * M) ≤ 1)
    {t : BinomialTable} (ht : Reachable t) {eps : ℝ}
    (hord : Rounded.expansionOrder F.rnd F.rlog (Rounded.totalStrength F.rnd S) eps = .ok p) (hp0 : 0 < p)
    (hht : Rounded.balancedHeight F.rnd F.rlog 2 S.length perCell = .ok h) (hhk : h ≤ k) (h16 : h ≤ 16)
    (hn : roundings S.length p h 9 ≤ 2 ^ 48) :
    ∃ r T, Rounded.sourceBox F.rnd S = some r ∧ 2 * a < r.len ∧ r.len ≤ 3 * M ∧ (∀ s ∈ S, r.exact.contains s.pos) ∧
      BuiltByD F log t S perCell eps T ∧ T.order = p ∧ T.height = h ∧
      ∀ x, (x ∈ S.map Source.pos ∨ ∀ i, |x i - r.center i| < r.len / 2 - 180 * (1 / 2 ^ 49 * M)) →
        (∀ s ∈ S, s.pos = x ∨ θ ≤ dist2 s.pos x) → ∀ grav,
          FinNear (dblPotentialB F log grav T x) (directPotential grav S x) (potError (1 / 2 ^ 49) r.len S p h 9 x) ∧
          ∀ feps, 0 ≤ feps → feps ≤ 1 / θ ^ 2 → VFinNear (dblForceB F log feps grav T x) (directField grav S x feps)
            (forceError (1 / 2 ^ 49) (r.len / 2 ^ h) S p h 9 feps x) := by
  have hθ0 := hM.th0
  have hη := hM.floor_le hp0
  have hθ := hM.theta hp0
  have ha := hW.pos
  have hlow := hM.low hF hlog
  have hsc := hM.scale
  have hη1 : floor64 θ ≤ 1 / 100000 :=
    hη.trans ((two_pow_mono (by norm_num : (-507 : ℤ) ≤ -20)).trans (by norm_num))
  have haM : a ≤ M := by
    obtain ⟨s, hs, h1⟩ := hW.high 0
    exact h1.trans ((le_abs_self _).trans (hW.bound s hs 0))
  have hηM : 1000 * floor64 θ ≤ M := by
    have h1 : θ ≤ 36 / 25 * a := by
      refine hlo.trans (mul_le_mul_of_nonneg_left (div_le_self ha.le (one_le_pow₀ (by norm_num))) (by norm_num))
    have h2 : (2 : ℝ) ^ (-507 : ℤ) ≤ 2 ^ (-140 : ℤ) := two_pow_mono (by norm_num)
    have h3 : (2 : ℝ) ^ (-128 : ℤ) = 2 ^ (-140 : ℤ) * 4096 := by
      rw [show (-128 : ℤ) = -140 + 12 by norm_num, zpow_add₀ (by norm_num)]; norm_num
    have := two_pow_pos (-140)
    linarith
  obtain ⟨r, h0, h1, h2, h3, h4⟩ := hW.margin_low hlow hη1 (by linarith)
  have hu : (0 : ℝ) ≤ 1 / 2 ^ 49 := hlow.nonneg
  have hL : 0 < r.len := by linarith
  have hM0 : 0 ≤ 2 * M := by linarith
  have hM00 : 0 ≤ M := by linarith
  have h5 : ∀ s ∈ S, r.exact.contains s.pos := fun s hs => by
    rw [Box.contains_iff]
    intro i
    have a1 := abs_lt.mp (h4 s hs i)
    have := mul_nonneg hu hM00
    simp only [Rounded.RBox.exact]
    constructor <;> linarith [a1.1, a1.2]
  have hk := hW.fine' hu h1 h2 h hhk
  have hk0 := hW.fine' hu h1 h2 0 (Nat.zero_le _)
  have e1 : 2 * a / 2 ^ h ≤ r.len / 2 ^ h := div_le_div_of_nonneg_right h1.le (by positivity)
  have hlo' : θ ≤ 18 / 25 * (r.len / 2 ^ h) := by rw [mul_div_assoc] at e1; linarith
  have hhi' : θ * (2 * r.len) ≤ 1 := by nlinarith
  have A := Lo.acc_of hlow hsc (span_of hL hlo' hhi') hL hM0 hk
  have hin : ∀ x : Vec 2, (∀ i, |x i - r.center i| < r.len / 2 - 180 * (1 / 2 ^ 49 * M)) →
      ∃ idx, Rounded.leafIndices F.rnd r h x = .ok idx := by
    intro x hx
    refine Rounded.inside_on hu (Rounded.small_u hu hL hM0 hk) hL hM0 A.on A.ix h3 (by omega) ?_ x fun i => ?_
    · have : (0 : ℝ) ≤ 1 / 2 ^ 49 * (4 * (2 * M + r.len)) := by positivity
      simp only [Nat.cast_zero, mul_zero, zero_add, pow_one] at hk0
      linarith
    · refine lt_of_lt_of_le (hx i) ?_
      linarith
  obtain ⟨T, t1, t2, t3, t4⟩ := C107_balanced hF hlog hlf hM hB hlo' hhi' ht hL h3 hord hp0 hht h16 h0 hk (fun _ => h5)
    (Or.inr fun s hs => hin _ (h4 s hs)) hn
  refine ⟨r, T, h0, h1, h2, h5, t1, t2, t3, fun x hx hd grav => (t4 x grav).2 ?_ hd⟩
  rcases hx with hx | hx
  · obtain ⟨s, hs, rfl⟩ := List.mem_map.mp hx
    exact hin _ (h4 s hs)
  · exact hin _ hx

/-! ## An instance -/

/-- Four sources, one per cell: the height is 1. -/
theorem S4_height64 : Rounded.balancedHeight D2.flt64.rnd D2.flt64.rlog 2 S4.length 1 = .ok 1 := by
  have big : ∀ x : ℝ, 1 ≤ |x| → rndU x = Rounded.rndNE x := fun x hx => by
    unfold rndU
    rw [if_neg]
    exact not_lt.mpr (le_trans ((two_pow_mono (by norm_num : (-1022 : ℤ) ≤ 0)).trans (by norm_num)) hx)
  have e1 : rndU (1 : ℝ) = 1 := by
    rw [big _ (by norm_num)]
    have := rndNE_mantissa (n := 2 ^ 52) (e := -52) (by norm_num) (by norm_num)
    norm_num at this; exact this
  have e4 : rndU (4 : ℝ) = 4 := by
    rw [big _ (by norm_num)]
    have := rndNE_mantissa (n := 2 ^ 52) (e := -50) (by norm_num) (by norm_num)
    norm_num at this; exact this
  have hl : D2.flt64.rlog 4 ≠ 0 := by
    intro h0
    have := (S4_moderate.low D2.flt64_is logAccurate_flt64).rlog 4 (by norm_num)
    have hlog : (1 : ℝ) / 2 ≤ Real.log 4 := by
      have : Real.log 2 ≤ Real.log 4 := Real.log_le_log (by norm_num) (by norm_num)
      linarith [Real.log_two_gt_d9]
    have hfl := S4_moderate.floor_le one_pos
    have hfl' : (2 : ℝ) ^ (-507 : ℤ) ≤ 1 / 2 := (two_pow_mono (by norm_num : (-507 : ℤ) ≤ -1)).trans (by norm_num)
    rw [h0, zero_sub, abs_neg, abs_of_pos (by linarith), max_eq_left (hfl.trans (hfl'.trans hlog))] at this
    norm_num at this
    linarith
  have hlen : S4.length = 4 := rfl
  have hc : ((2 ^ 2 : ℕ) : ℝ) = 4 := by norm_num
  have hr : ∀ x, D2.flt64.rnd x = rndU x := fun _ => rfl
  unfold Rounded.balancedHeight
  rw [hlen, if_neg (by norm_num), hc]
  simp only [hr]
  push_cast
  rw [e1, e4, div_one, e4, div_self hl, e1]
  simp

/-- Non-vacuity: the potential of four charges at one of them, and the force at the centre of their square. -/
example : ∃ r T, Rounded.sourceBox D2.flt64.rnd S4 = some r ∧
    BuiltByD D2.flt64 (D2.logOf D2.flt64) BinomialTable.init S4 1 2 T ∧ T.order = 1 ∧ T.height = 1 ∧
    FinNear (dblPotentialB D2.flt64 (D2.logOf D2.flt64) true T ![3, 3]) (directPotential true S4 ![3, 3])
      (potError (1 / 2 ^ 49) r.len S4 1 1 9 ![3, 3]) ∧
    VFinNear (dblForceB D2.flt64 (D2.logOf D2.flt64) 0 false T 0) (directField false S4 0 0)
      (forceError (1 / 2 ^ 49) (r.len / 2 ^ 1) S4 1 1 9 0 0) := by
  obtain ⟨r, T, h0, h1, h2, h3, h4, h5, h6, h7⟩ := C107_placed (k := 1) D2.flt64_is logAccurate_flt64 logExact_logOf S4_moderate S4_notLarge
    S4_placed.toPlaced (by norm_num) (by norm_num) reachable_init S4_order64 one_pos S4_height64 le_rfl (by norm_num) (by simp [roundings, S4])
  refine ⟨r, T, h0, h4, h5, h6, (h7 ![3, 3] (Or.inl (by simp [S4])) (fun s hs => ?_) true).1,
    (h7 0 (Or.inr fun i => ?_) (fun s hs => Or.inr (S4_dist s hs).1) false).2 0 le_rfl (by norm_num)⟩
  · simp only [S4, List.mem_cons, List.not_mem_nil, or_false] at hs
    rcases hs with rfl | rfl | rfl | rfl
    · left; rfl
    all_goals
      right
      unfold dist2
      refine Real.le_sqrt_of_sq_le ?_
      rw [Fin.sum_univ_two]
      norm_num
  · have c := (Box.contains_iff _ _).mp (h3 ⟨![3, 3], 1⟩ (by simp [S4])) i
    have c' := (Box.contains_iff _ _).mp (h3 ⟨![-3, -3], 1⟩ (by simp [S4])) i
    have e1 : (![3, 3] : Vec 2) i = 3 := by fin_cases i <;> rfl
    have e2 : (![-3, -3] : Vec 2) i = -3 := by fin_cases i <;> rfl
    simp only [e1, e2, Rounded.RBox.exact] at c c'
    rw [Pi.zero_apply, abs_lt]
    constructor <;> norm_num <;> linarith [c.1, c.2, c'.1, c'.2]

end FMM
