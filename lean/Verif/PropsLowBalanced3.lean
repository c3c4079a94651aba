import Verif.LowBalanced3
import Verif.PropsLow3
import Verif.PropsFltBalanced3

/-!
# C109: underflow in the balanced tree in space: potentials

The error bounds of C86 hold with gradual underflow and with `double`s, if the boxes, the distances and the strengths are
not too small or too large for the order `p` of the expansions.
-/

namespace FMM
open Rounded D64
variable {F : Flt3} {L : Lib} {u g η ρ θ τ ν C : ℝ} {r : RBox ℝ 3} {S : List (Source 3)} {perCell h p κ : ℕ}

theorem span_of3 (hL : 0 < r.len) (hlo : θ ≤ 22 / 25 * (r.len / 2 ^ h)) (hhi : θ * (4 * r.len) ≤ 1) : Lo3.Span θ r.exact h :=
  ⟨hlo, by rw [inv_eq_one_div, le_div_iff₀ (by simp only [RBox.exact]; linarith)]; exact hhi⟩

/-- **C109** C86 with gradual underflow: errors are relative above the floor `η` only. -/
theorem C109_floor (hF : F.Low u g η ρ) (hsc : Scale3 u η θ τ ν p) (hκ : OpCost u g p κ) (hlo : θ ≤ 22 / 25 * (r.len / 2 ^ h))
    (hhi : θ * (4 * r.len) ≤ 1) (hq : ∀ s ∈ S, s.q = 0 ∨ τ ≤ |s.q|) {t : Stat3} (ht : Reachable3 t) (hL : 0 < r.len)
    (hC : ∀ i, |r.center i| ≤ C) {eps : ℝ}
    (hord : Rounded.expansionOrder F.rnd F.rlog (Rounded.totalStrength F.rnd S) eps = .ok p) (hp0 : 0 < p) (hp : p ≤ 42)
    (hht : Rounded.balancedHeight F.rnd F.rlog 3 S.length perCell = .ok h) (h10 : h ≤ 10)
    (hbox : Rounded.sourceBox F.rnd S = some r)
    (hk : 100 * ((8 * h + 15) * (u * (4 * (C + r.len)))) < r.len / 2 ^ (h + 1))
    (h0 : h = 0 → ∀ s ∈ S, r.exact.contains s.pos)
    (hx : h = 0 ∨ ∀ s ∈ S, ∃ idx, Rounded.leafIndices F.rnd r h s.pos = .ok idx) :
    ∃ T, BuiltByB3 F t S perCell eps T ∧ T.order = p ∧ T.height = h ∧ ∀ x grav,
      (∀ e, Rounded.leafIndices F.rnd r h x = .error e → flPotentialB3 F grav T x = .error e) ∧
      ((∃ idx, Rounded.leafIndices F.rnd r h x = .ok idx) → (∀ s ∈ S, s.pos = x ∨ θ ≤ dist2 s.pos x) →
        ∃ v, flPotentialB3 F grav T x = .ok v ∧ |v - directPotential grav S x| ≤ potError3 u κ (r.len / 2 ^ h) S p h 27 x) := by
  have hq' : ∀ s ∈ S, Flr τ |s.q| := fun s hs => (hq s hs).imp_left fun e => by rw [e, abs_zero]
  obtain ⟨T, h1, h2, h3, -, -, h4⟩ := Lo3.balanced_low hF hsc (span_of3 hL hlo hhi) hκ.cost ht.good.1 hL hC hord hp0 hp hht h10 hbox hk h0
    hx hq'
  simp only [potBound3_eq] at h4
  exact ⟨T, ⟨_, h1⟩, h2, h3, fun x grav => ⟨(h4 x grav).1, fun hi => ((h4 x grav).2 hi).2⟩⟩

/-- The potential computed with `double`s. -/
noncomputable def dblPotentialB3 (F : Flt3) (L : Lib) (grav : Bool) (T : BalancedFmm (kit64 L)) (x : Vec 3) : Outcome Dbl :=
  Rounded.balancedEval F.rnd D64.add D64.neg (pot64 L) grav T x

/-- Coordinates near the root box are not large. -/
theorem root_le3 (hM : Moderate3 S p θ τ) (hp0 : 0 < p) (hhi : θ * (4 * r.len) ≤ 1) (hL : 0 < r.len) (hC0 : 0 ≤ C)
    (hC : ∀ i, |r.center i| ≤ C) (hk : 100 * ((8 * h + 15) * (1 / 2 ^ 49 * (4 * (C + r.len)))) < r.len / 2 ^ (h + 1)) {x : Vec 3}
    (hx : ∀ j, |x j - r.center j| ≤ r.len) (j : Fin 3) : |x j| ≤ 2 ^ (297 : ℤ) := by
  have h0 := hM.th0
  have h1 : r.len ≤ 1 / θ := by rw [le_div_iff₀ h0]; nlinarith
  have h2 := h1.trans (hM.inv hp0)
  have h3 : r.len / 2 ^ (h + 1) ≤ r.len := div_le_self hL.le (one_le_pow₀ (by norm_num))
  have h4 : (0 : ℝ) ≤ h := Nat.cast_nonneg h
  have h5 : 15 * (1 / 2 ^ 49 * (4 * (C + r.len))) ≤ (8 * h + 15) * (1 / 2 ^ 49 * (4 * (C + r.len))) :=
    mul_le_mul_of_nonneg_right (by linarith) (by positivity)
  have h6 : C + r.len ≤ 2 ^ 49 * r.len := by
    have : 100 * (15 * (1 / 2 ^ 49 * (4 * (C + r.len)))) ≤ r.len := by linarith
    norm_num at this ⊢
    linarith
  have h7 : |x j| ≤ |x j - r.center j| + |r.center j| := by
    have := abs_add_le (x j - r.center j) (r.center j)
    rwa [sub_add_cancel] at this
  have h8 : (2 : ℝ) ^ (218 : ℤ) = 2 ^ 49 * 2 ^ (169 : ℤ) := by
    rw [show (218 : ℤ) = ((49 : ℕ) : ℤ) + 169 by norm_num, zpow_add₀ (by norm_num), zpow_natCast]
  have h9 : (2 : ℝ) ^ (218 : ℤ) ≤ 2 ^ (297 : ℤ) := two_pow_mono (by norm_num)
  refine le_trans ?_ h9
  rw [h8]
  have h10 := mul_le_mul_of_nonneg_left h2 (show (0 : ℝ) ≤ 2 ^ 49 by positivity)
  linarith [hx j, hC j]

/-- **C109** `double`s: with enough steps and for every schedule the constructor returns a tree; the potential at a point with
indices in range is not finite or has the error of C86, if the boxes have sides between `25/22 θ` and `1/(4θ)` and the
distances to the sources are at least `θ` or zero; at every other point the evaluation fails with the error of the index
computation. -/
theorem C109_balanced (hF : Is64 F) (hlib : LibAccurate F) (hlf : LibOf L F) (hM : Moderate3 S p θ τ)
    (hlo : θ ≤ 22 / 25 * (r.len / 2 ^ h)) (hhi : θ * (4 * r.len) ≤ 1) (hL : 0 < r.len) (hC : ∀ i, |r.center i| ≤ C) {eps : ℝ}
    (hord : Rounded.expansionOrder F.rnd F.rlog (Rounded.totalStrength F.rnd S) eps = .ok p) (hp0 : 0 < p) (hp : p ≤ 42)
    (hht : Rounded.balancedHeight F.rnd F.rlog 3 S.length perCell = .ok h) (h10 : h ≤ 10)
    (hbox : Rounded.sourceBox F.rnd S = some r)
    (hk : 100 * ((8 * h + 15) * (1 / 2 ^ 49 * (4 * (C + r.len)))) < r.len / 2 ^ (h + 1))
    (h0 : h = 0 → ∀ s ∈ S, r.exact.contains s.pos)
    (hx : h = 0 ∨ ∀ s ∈ S, ∃ idx, Rounded.leafIndices F.rnd r h s.pos = .ok idx) :
    ∃ fuel0, ∀ fuel ≥ fuel0, ∀ sch, Schedule sch →
      ∃ T, Rounded.balancedFmm F.rnd F.rlog F.nrm3 (kit64 L) fuel sch () S perCell eps = .ok T ∧ T.order = p ∧ T.height = h ∧
        ∀ x grav, (∀ e, Rounded.leafIndices F.rnd r h x = .error e → dblPotentialB3 F L grav T x = .error e) ∧
          ((∃ idx, Rounded.leafIndices F.rnd r h x = .ok idx) → (∀ s ∈ S, s.pos = x ∨ θ ≤ dist2 s.pos x) →
            NearOrBad (dblPotentialB3 F L grav T x) (directPotential grav S x)
              (potError3 (1 / 2 ^ 49) (2 ^ 37) (r.len / 2 ^ h) S p h 27 x)) := by
  have hq' : ∀ s ∈ S, Flr τ |s.q| := fun s hs => (hM.strength s hs).imp_left fun e => by rw [e, abs_zero]
  have hC0 : 0 ≤ C := (abs_nonneg _).trans (hC 0)
  obtain ⟨T, h1, h2, h3, ⟨n, n1, n2⟩, h4, h5⟩ := Lo3.balanced_low hlib (hM.scale hp) (span_of3 hL hlo hhi) (double_cost51 hp).cost
    reachable3_init.good.1 hL hC hord hp0 hp hht h10 hbox hk h0 hx hq'
  simp only [potBound3_eq] at h5
  have hle : ∀ {v : Vec 3}, (∀ j, |v j - r.center j| ≤ r.len) → ∀ j, |v j| ≤ 2 ^ (297 : ℤ) := fun hv j =>
    root_le3 hM hp0 hhi hL hC0 hC hk hv j
  refine ⟨off (2 ^ 3) (h + 1), fun fuel hf sch hsch => ?_⟩
  obtain ⟨T', u1, u2, u3, u4, -, -, -, -, u8⟩ := D64.C98_balanced hF hlf reachable3_init.good.1 (fun s hs => hle (h4 s hs))
    (h1 fuel hf sch hsch) (by rw [h2]; exact hp0) (by rw [h2]; exact hp)
  refine ⟨T', u1, u2.trans h2, u3.trans h3, fun x grav => ⟨fun e he => ?_, fun hi hd => ?_⟩⟩
  · unfold dblPotentialB3 Rounded.balancedEval
    rw [u4, u3.trans h3, n1, ok_bind, n2, he, err_bind]
  · obtain ⟨w1, w2⟩ := (h5 x grav).2 hi
    obtain ⟨v, v1, v2⟩ := w2 hd
    exact near_of_same ((u8 x (fun j => (hle w1 j).trans (two_pow_mono (by norm_num))) grav).1 v v1) v2

/-- **C109** Hypotheses about the sources only: the construction succeeds, and at the sources and at all points further than the
rounding error from the faces of the root box the potential is not finite or has the error of C86, if the distances to the
sources are at least `θ` or zero. -/
theorem C109_placed {M a : ℝ} {k : ℕ} (hF : Is64 F) (hlib : LibAccurate F) (hlf : LibOf L F) (hM : Moderate3 S p θ τ)
    (hW : Placed (1 / 2 ^ 49) S M a k) (hlo : θ ≤ 44 / 25 * (a / 2 ^ h)) (hhi : θ * (12 * M) ≤ 1) {eps : ℝ}
    (hord : Rounded.expansionOrder F.rnd F.rlog (Rounded.totalStrength F.rnd S) eps = .ok p) (hp0 : 0 < p) (hp : p ≤ 42)
    (hht : Rounded.balancedHeight F.rnd F.rlog 3 S.length perCell = .ok h) (hhk : h ≤ k) (h10 : h ≤ 10) :
    ∃ r fuel0, Rounded.sourceBox F.rnd S = some r ∧ 2 * a < r.len ∧ r.len ≤ 3 * M ∧ (∀ s ∈ S, r.exact.contains s.pos) ∧
      ∀ fuel ≥ fuel0, ∀ sch, Schedule sch →
        ∃ T, Rounded.balancedFmm F.rnd F.rlog F.nrm3 (kit64 L) fuel sch () S perCell eps = .ok T ∧ T.order = p ∧ T.height = h ∧
          ∀ x, (x ∈ S.map Source.pos ∨ ∀ i, |x i - r.center i| < r.len / 2 - 180 * (1 / 2 ^ 49 * M)) →
            (∀ s ∈ S, s.pos = x ∨ θ ≤ dist2 s.pos x) → ∀ grav, NearOrBad (dblPotentialB3 F L grav T x) (directPotential grav S x)
              (potError3 (1 / 2 ^ 49) (2 ^ 37) (r.len / 2 ^ h) S p h 27 x) := by
  have hθ0 := hM.th0
  have hθ := hM.theta hp0
  have ha := hW.pos
  have hsc := hM.scale hp
  have hη1 : (2 : ℝ) ^ (-1021 : ℤ) ≤ 1 / 100000 :=
    (two_pow_mono (by norm_num : (-1021 : ℤ) ≤ -20)).trans (by norm_num)
  have haM : a ≤ M := by
    obtain ⟨s, hs, h1⟩ := hW.high 0
    exact h1.trans ((le_abs_self _).trans (hW.bound s hs 0))
  have hηM : 1000 * (2 : ℝ) ^ (-1021 : ℤ) ≤ M := by
    have h1 : θ ≤ 44 / 25 * a := by
      refine hlo.trans (mul_le_mul_of_nonneg_left (div_le_self ha.le (one_le_pow₀ (by norm_num))) (by norm_num))
    have h2 : (2 : ℝ) ^ (-1021 : ℤ) ≤ 2 ^ (-181 : ℤ) := two_pow_mono (by norm_num)
    have h3 : (2 : ℝ) ^ (-169 : ℤ) = 2 ^ (-181 : ℤ) * 4096 := by
      rw [show (-169 : ℤ) = -181 + 12 by norm_num, zpow_add₀ (by norm_num)]; norm_num
    have := two_pow_pos (-181)
    linarith
  obtain ⟨r, h0, h1, h2, h3, h4⟩ := hW.margin_low hlib.toLow hη1 (by linarith)
  have hu : (0 : ℝ) ≤ 1 / 2 ^ 49 := hlib.nonneg
  have hL : 0 < r.len := by linarith
  have hM0 : 0 ≤ 2 * M := by linarith
  have hM00 : 0 ≤ M := by linarith
  have h5 : ∀ s ∈ S, r.exact.contains s.pos := fun s hs => by
    rw [Box.contains_iff]
    intro i
    have a1 := abs_lt.mp (h4 s hs i)
    have := mul_nonneg hu hM00
    simp only [Rounded.RBox.exact]
    constructor <;> linarith [a1.1, a1.2]
  have hk := hW.fine' hu h1 h2 h hhk
  have hk0 := hW.fine' hu h1 h2 0 (Nat.zero_le _)
  have e1 : 2 * a / 2 ^ h ≤ r.len / 2 ^ h := div_le_div_of_nonneg_right h1.le (by positivity)
  have hlo' : θ ≤ 22 / 25 * (r.len / 2 ^ h) := by rw [mul_div_assoc] at e1; linarith
  have hhi' : θ * (4 * r.len) ≤ 1 := by nlinarith
  have A := Lo3.acc_of hlib hsc (span_of3 hL hlo' hhi') hL hM0 hk
  have hin : ∀ x : Vec 3, (∀ i, |x i - r.center i| < r.len / 2 - 180 * (1 / 2 ^ 49 * M)) →
      ∃ idx, Rounded.leafIndices F.rnd r h x = .ok idx := by
    intro x hx
    refine Rounded.inside_on hu (Rounded.small_u hu hL hM0 hk) hL hM0 A.on A.ix h3 (by omega) ?_ x fun i => ?_
    · have : (0 : ℝ) ≤ 1 / 2 ^ 49 * (4 * (2 * M + r.len)) := by positivity
      simp only [Nat.cast_zero, mul_zero, zero_add, pow_one] at hk0
      linarith
    · refine lt_of_lt_of_le (hx i) ?_
      linarith
  obtain ⟨fu, t1⟩ := C109_balanced hF hlib hlf hM hlo' hhi' hL h3 hord hp0 hp hht h10 h0 hk (fun _ => h5)
    (Or.inr fun s hs => hin _ (h4 s hs))
  refine ⟨r, fu, h0, h1, h2, h5, fun fuel hf sch hsch => ?_⟩
  obtain ⟨T, t2, t3, t4, t5⟩ := t1 fuel hf sch hsch
  refine ⟨T, t2, t3, t4, fun x hx hd grav => (t5 x grav).2 ?_ hd⟩
  rcases hx with hx | hx
  · obtain ⟨s, hs, rfl⟩ := List.mem_map.mp hx
    exact hin _ (h4 s hs)
  · exact hin _ hx

/-! ## An instance -/

/-- Eight sources, one per cell: the height is 1. -/
theorem S8_height64 : Rounded.balancedHeight flt64.rnd flt64.rlog 3 S8.length 1 = .ok 1 := by
  have big : ∀ x : ℝ, 1 ≤ |x| → rndU x = Rounded.rndNE x := fun x hx =>
    rndU_big (le_trans ((two_pow_mono (by norm_num : (-1022 : ℤ) ≤ 0)).trans (by norm_num)) hx)
  have e1 : rndU (1 : ℝ) = 1 := by
    rw [big _ (by norm_num)]
    have := rndNE_mantissa (n := 2 ^ 52) (e := -52) (by norm_num) (by norm_num)
    norm_num at this; exact this
  have e8 : rndU (8 : ℝ) = 8 := by rw [big _ (by norm_num)]; exact rndNE_eight
  have hl : flt64.rlog 8 ≠ 0 := by
    intro h0
    have := low3_flt64.rlog 8 (by norm_num)
    have hlog : (1 : ℝ) / 2 ≤ Real.log 8 := by
      have : Real.log 2 ≤ Real.log 8 := Real.log_le_log (by norm_num) (by norm_num)
      linarith [Real.log_two_gt_d9]
    have hfl : (2 : ℝ) ^ (-1021 : ℤ) ≤ 1 / 2 := (two_pow_mono (by norm_num : (-1021 : ℤ) ≤ -1)).trans (by norm_num)
    rw [h0, zero_sub, abs_neg, abs_of_pos (by linarith), max_eq_left (hfl.trans hlog)] at this
    norm_num at this
    linarith
  have hlen : S8.length = 8 := rfl
  have hc : ((2 ^ 3 : ℕ) : ℝ) = 8 := by norm_num
  have hr : ∀ x, flt64.rnd x = rndU x := fun _ => rfl
  unfold Rounded.balancedHeight
  rw [hlen, if_neg (by norm_num), hc]
  simp only [hr]
  push_cast
  rw [e1, e8, div_one, e8, div_self hl, e1]
  simp

/-- Non-vacuity: the potential of eight charges at one of them. -/
example : ∃ r f T, Rounded.sourceBox flt64.rnd S8 = some r ∧
    Rounded.balancedFmm flt64.rnd flt64.rlog flt64.nrm3 (kit64 (libOf flt64)) f (fun _ l => l.reverse) () S8 1 4 = .ok T ∧
    T.order = 1 ∧ T.height = 1 ∧
    NearOrBad (dblPotentialB3 flt64 (libOf flt64) true T ![3, 3, 3]) (directPotential true S8 ![3, 3, 3])
      (potError3 (1 / 2 ^ 49) (2 ^ 37) (r.len / 2 ^ 1) S8 1 1 27 ![3, 3, 3]) := by
  obtain ⟨r, f, h0, -, -, -, h4⟩ := C109_placed (k := 1) flt64_is low3_flt64 lib64 S8_moderate
    S8_placed.toPlaced (by norm_num) (by norm_num) S8_order64 one_pos (by norm_num) S8_height64 le_rfl (by norm_num)
  obtain ⟨T, t1, t2, t3, t4⟩ := h4 f le_rfl (fun _ (l : List BAddr) => l.reverse) (fun _ l => l.reverse_perm)
  refine ⟨r, f, T, h0, t1, t2, t3, t4 ![3, 3, 3] (Or.inl (by simp [S8])) (fun s hs => ?_) true⟩
  simp only [S8, List.mem_cons, List.not_mem_nil, or_false] at hs
  rcases hs with rfl | rfl | rfl | rfl | rfl | rfl | rfl | rfl
  · left; rfl
  all_goals
    right
    unfold dist2
    refine Real.le_sqrt_of_sq_le ?_
    rw [Fin.sum_univ_three]
    simp
    norm_num

end FMM
