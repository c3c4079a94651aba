import Verif.LowTree3
import Verif.LowIeee3
import Verif.PropsLow64
import Verif.PropsFltTree3
import Verif.PropsDoubleAgree3

/-!
# C108: underflow in the adaptive tree in space: potentials

The error bounds of C85 hold with gradual underflow and with `double`s, if the boxes, the distances and the strengths are
not too small or too large for the order `p` of the expansions.
-/

namespace FMM
open Rounded
variable {F : Flt3} {u g η ρ θ τ ν C : ℝ} {r : RBox ℝ 3} {S : List (Source 3)} {max fuel h p m κ : ℕ}

/-! ## Arithmetic with a floor -/

/-- **C108** C85 with gradual underflow: errors are relative above the floor `η` only. -/
theorem C108_floor (hF : F.Low u g η ρ) (hsc : Scale3 u η θ τ ν p) (hκ : OpCost u g p κ) (hlo : θ ≤ 22 / 25 * (r.len / 2 ^ h))
    (hhi : θ * (4 * r.len) ≤ 1) (hq : ∀ s ∈ S, s.q = 0 ∨ τ ≤ |s.q|) {t : Stat3} (ht : Reachable3 t) (hL : 0 < r.len)
    (hC : ∀ i, |r.center i| ≤ C) {eps : ℝ}
    (hord : Rounded.expansionOrder F.rnd F.rlog (Rounded.totalStrength F.rnd S) eps = .ok p) (hp0 : 0 < p) (hp : p ≤ 42)
    (hbox : Rounded.sourceBox F.rnd S = some r) (hin : ∀ s ∈ S, r.exact.contains s.pos) {st : BuildState 3 (Source 3)} {nb : Nbh}
    (hb : Rounded.adaptiveLists F.rnd F.nrm3 fuel Source.pos r S max = .ok (st, h, nb))
    (hk : 100 * ((8 * h + 15) * (u * (4 * (C + r.len)))) < r.len / 2 ^ (h + 1)) (hm : Fl.ListsLe st.heap nb m) :
    ∃ T, BuiltBy3 F fuel t S max eps T ∧ T.order = p ∧ T.height = h ∧
      ∀ x, ∃ lf, (∀ f > h, Rounded.getContainingLeaf F.rnd f T.heap x = .ok lf) ∧ ∀ f > h, ∀ grav cur,
        (lf ≠ none → (∀ s ∈ S, s.pos = x ∨ θ ≤ dist2 s.pos x) → ∃ v, flPotential3 F f grav T cur x = .ok v ∧
          |v - directPotential grav S x| ≤ potError3 u κ (r.len / 2 ^ h) S p h m x) ∧
        (lf = none → flPotential3 F f grav T cur x = Fl3.potentialSum F grav false cur x) := by
  have hsp : Lo3.Span θ r.exact h := ⟨hlo, by
    rw [inv_eq_one_div, le_div_iff₀ (by simp only [RBox.exact]; linarith)]; exact hhi⟩
  have hq' : ∀ s ∈ S, Flr τ |s.q| := fun s hs => (hq s hs).imp_left fun e => by rw [e, abs_zero]
  obtain ⟨T, h1, h2, h3, h4, h6⟩ := Lo3.adaptive_low hF hsc hsp hκ.cost ht.good.1 hL hC hord hp0 hp hbox hin hb hk hm hq'
  refine ⟨T, h1, h2, h3, fun x => ?_⟩
  obtain ⟨lf, g1, g2⟩ := h6 x
  rw [h4]
  refine ⟨lf, g1, fun f hf grav cur => ⟨fun hne hd => ?_, fun hn => ?_⟩⟩
  · obtain ⟨l, rfl⟩ := Option.ne_none_iff_exists'.mp hne
    have := g2 l rfl hd f hf grav cur
    rw [potBound3_eq] at this
    exact this
  · subst hn
    unfold flPotential3 Rounded.adaptiveEval
    rw [h4, g1 f hf]
    rfl

theorem far_of_dist (h0 : 0 < θ) {a x : Vec 3} (h1 : θ ≤ dist2 a x) (h2 : dist2 a x ≤ 1 / θ) : Lo3.Far θ (a - x) := by
  unfold Lo3.Far
  rw [len3_eq_dist2]
  refine ⟨h1, ?_⟩
  rw [le_inv_comm₀ h0 (h0.trans_le h1), inv_eq_one_div]
  exact h2

/-- **C108** At distances between `θ` and `1/θ` of all sources the bounds hold in and outside of the leaves. -/
theorem C108_floor_everywhere (hF : F.Low u g η ρ) (hsc : Scale3 u η θ τ ν p) (hκ : OpCost u g p κ)
    (hlo : θ ≤ 22 / 25 * (r.len / 2 ^ h)) (hhi : θ * (4 * r.len) ≤ 1) (hq : ∀ s ∈ S, s.q = 0 ∨ τ ≤ |s.q|) {t : Stat3}
    (ht : Reachable3 t) (hL : 0 < r.len) (hC : ∀ i, |r.center i| ≤ C) {eps : ℝ}
    (hord : Rounded.expansionOrder F.rnd F.rlog (Rounded.totalStrength F.rnd S) eps = .ok p) (hp0 : 0 < p) (hp : p ≤ 42)
    (hbox : Rounded.sourceBox F.rnd S = some r) (hin : ∀ s ∈ S, r.exact.contains s.pos) {st : BuildState 3 (Source 3)} {nb : Nbh}
    (hb : Rounded.adaptiveLists F.rnd F.nrm3 fuel Source.pos r S max = .ok (st, h, nb))
    (hk : 100 * ((8 * h + 15) * (u * (4 * (C + r.len)))) < r.len / 2 ^ (h + 1)) (hm : Fl.ListsLe st.heap nb m) :
    ∃ T, BuiltBy3 F fuel t S max eps T ∧ T.order = p ∧ T.height = h ∧
      ∀ x, (∀ s ∈ S, θ ≤ dist2 s.pos x ∧ dist2 s.pos x ≤ 1 / θ) → ∀ f > h, ∀ grav,
        ∃ v, flPotential3 F f grav T S x = .ok v ∧ |v - directPotential grav S x| ≤ potError3 u κ (r.len / 2 ^ h) S p h m x := by
  obtain ⟨T, h1, h2, h3, h6⟩ := C108_floor hF hsc hκ hlo hhi hq ht hL hC hord hp0 hp hbox hin hb hk hm
  have hq' : ∀ s ∈ S, Flr τ |s.q| := fun s hs => (hq s hs).imp_left fun e => by rw [e, abs_zero]
  refine ⟨T, h1, h2, h3, fun x hx f hf grav => ?_⟩
  have hne : ∀ s ∈ S, s.pos ≠ x := fun s hs e => by
    have := (hx s hs).1
    rw [(dist2_eq_zero_iff _ _).mpr e] at this
    linarith [hsc.th0]
  obtain ⟨lf, -, g2⟩ := h6 x
  obtain ⟨a, b⟩ := g2 f hf grav S
  by_cases hl : lf = none
  · rw [b hl]
    obtain ⟨v, v1, v2⟩ := Lo3.potentialSum_unsafe hF hsc grav S x
      (fun s hs => Or.inr (far_of_dist hsc.th0 (hx s hs).1 (hx s hs).2)) hq' hne
    exact ⟨v, v1, (v2.1 : |v - directPotential grav S x| ≤ _).trans (direct_le_potError3 hF.nonneg (by positivity) _)⟩
  · exact a hl fun s hs => Or.inr (hx s hs).1

/-- **C108** The same for well placed sources: everything follows from properties of the sources. -/
theorem C108_floor_well_placed {M a : ℝ} {k : ℕ} (hF : F.Low u g η ρ) (hsc : Scale3 u η θ τ ν p) (hκ : OpCost u g p κ)
    (hη : η ≤ 1 / 100000) (hW : WellPlaced u S M a k) (hlo : θ ≤ 44 / 25 * (a / 2 ^ k)) (hhi : θ * (12 * M) ≤ 1)
    (hMη : 1000 * η ≤ M) (hq : ∀ s ∈ S, s.q = 0 ∨ τ ≤ |s.q|) (hmax : 1 ≤ max) {t : Stat3} (ht : Reachable3 t) {eps : ℝ}
    (hord : Rounded.expansionOrder F.rnd F.rlog (Rounded.totalStrength F.rnd S) eps = .ok p) (hp0 : 0 < p) (hp : p ≤ 42) :
    ∃ r h fuel T, Rounded.sourceBox F.rnd S = some r ∧ 2 * a < r.len ∧ r.len ≤ 3 * M ∧ (∀ s ∈ S, r.exact.contains s.pos) ∧
      h ≤ k ∧ (∀ f ≥ fuel, BuiltBy3 F f t S max eps T) ∧ T.order = p ∧ T.height = h ∧
      ∀ x, (∀ s ∈ S, θ ≤ dist2 s.pos x ∧ dist2 s.pos x ≤ 1 / θ) → ∀ f > h, ∀ grav, ∃ v, flPotential3 F f grav T S x = .ok v ∧
        |v - directPotential grav S x| ≤ potError3 u κ (r.len / 2 ^ h) S p h (8 * (h * S.length) + 1) x := by
  obtain ⟨r, h0, h1, h2, h3, h4⟩ := hW.box_low hF.toLow hη (by linarith)
  have ha := hW.pos
  have hL : 0 < r.len := by linarith
  have hθη : η ≤ θ := hsc.le le_rfl
  have hη0 := hsc.eta
  obtain ⟨fuel, st, h, nb, hh, hf, hk, hm⟩ := hW.lists_low hF.toLow hF.nrm3 (by linarith) (by
    have : (44 : ℝ) / 25 * (a / 2 ^ k) ≤ 2 * a / 2 ^ k := by
      rw [mul_div_assoc]; exact mul_le_mul_of_nonneg_right (by norm_num) (by positivity)
    linarith) h1 h2 h3 h4 hmax
  have e1 : 2 * a / 2 ^ k ≤ r.len / 2 ^ h := by
    refine (div_le_div_of_nonneg_right h1.le (by positivity)).trans ?_
    exact div_le_div_of_nonneg_left hL.le (by positivity) (pow_le_pow_right₀ (by norm_num) hh)
  obtain ⟨T, t1, t2, t3, t4⟩ := C108_floor_everywhere hF hsc hκ (by rw [mul_div_assoc] at e1; linarith)
    (by have := hsc.th0; nlinarith) hq ht hL h3 hord hp0 hp h0 h4 (hf fuel le_rfl) hk hm
  exact ⟨r, h, fuel, T, h0, h1, h2, h4, hh, fun f hge => t1.of_fuel h0 ((hf fuel le_rfl).trans (hf f hge).symm), t2, t3, t4⟩

/-! ## `double`s -/

open D64
variable {L : Lib}

/-- Strengths and sizes that `double`s can handle with expansions of order `p`: the strengths are zero or at least `τ`, and
`θ`, the smallest distance, is not too small for the order. -/
structure Moderate3 (S : List (Source 3)) (p : ℕ) (θ τ : ℝ) : Prop where
  th0 : 0 < θ
  th1 : θ ≤ 1
  tau0 : 0 < τ
  tau1 : τ ≤ 1
  strength : ∀ s ∈ S, s.q = 0 ∨ τ ≤ |s.q|
  range : 2 ^ (-844 : ℤ) * Real.sqrt ((2 * p).factorial) ≤ τ * θ ^ (3 * p + 2)

/-- Operations and library functions have relative errors of at most `2^-49` above `2^-1021`, Legendre functions absolute errors
of about `2^-51`. -/
abbrev LibAccurate (F : Flt3) : Prop := F.Low (1 / 2 ^ 49) (1 / 2 ^ 51) (2 ^ (-1021 : ℤ)) 1

theorem Moderate3.scale (hM : Moderate3 S p θ τ) (hp : p ≤ 42) : Scale3 (1 / 2 ^ 49) (2 ^ (-1021 : ℤ)) θ τ (1 / 2 ^ 59) p where
  th0 := hM.th0
  th1 := hM.th1
  tau0 := hM.tau0
  tau1 := hM.tau1
  nu0 := by positivity
  nu := by
    have hp' : (p : ℝ) ≤ 42 := by exact_mod_cast hp
    have h1 : Real.sqrt (4 * p + 1) ≤ 13 := by rw [Real.sqrt_le_left (by norm_num)]; linarith
    have h2 : ((p : ℝ) + 1) * Real.sqrt (4 * p + 1) ≤ 43 * 13 := mul_le_mul (by linarith) h1 (Real.sqrt_nonneg _) (by norm_num)
    have := mul_le_mul_of_nonneg_left h2 (show (0 : ℝ) ≤ 1 / 2 ^ 59 by positivity)
    refine this.trans (by norm_num)
  u0 := by positivity
  u1 := by norm_num
  eta := (two_pow_pos _).le
  floor := by
    have h := hM.range
    have e : (2 : ℝ) ^ (-1021 : ℤ) = (1 / 2 ^ 59) ^ 3 * 2 ^ (-844 : ℤ) := by
      rw [show (-1021 : ℤ) = -177 + -844 by norm_num, zpow_add₀ (by norm_num)]
      congr 1
      rw [zpow_neg]
      norm_num
    have h2 := mul_le_mul_of_nonneg_left h (show (0 : ℝ) ≤ (1 / 2 ^ 59) ^ 3 by positivity)
    rw [e]
    generalize (2 : ℝ) ^ (-844 : ℤ) = w at *
    generalize ((1 : ℝ) / 2 ^ 59) ^ 3 = n at *
    calc n * w * Real.sqrt ((2 * p).factorial) = n * (w * Real.sqrt ((2 * p).factorial)) := by ring
      _ ≤ n * (τ * θ ^ (3 * p + 2)) := h2
      _ = τ * n * θ ^ (3 * p + 2) := by ring

theorem Moderate3.theta (hM : Moderate3 S p θ τ) (hp : 0 < p) : (2 : ℝ) ^ (-169 : ℤ) ≤ θ := by
  have h0 := hM.th0
  by_contra hc
  push Not at hc
  have h1 : θ ^ (3 * p + 2) ≤ θ ^ 5 := pow_le_pow_of_le_one h0.le hM.th1 (by omega)
  have h2 : τ * θ ^ (3 * p + 2) ≤ θ ^ (3 * p + 2) := mul_le_of_le_one_left (by positivity) hM.tau1
  have h3 : θ ^ 5 ≤ ((2 : ℝ) ^ (-169 : ℤ)) ^ 5 := pow_le_pow_left₀ h0.le hc.le 5
  have h4 : ((2 : ℝ) ^ (-169 : ℤ)) ^ 5 = 2 ^ (-845 : ℤ) := by
    rw [← zpow_natCast, ← zpow_mul]; norm_num
  have h5 : (2 : ℝ) ^ (-845 : ℤ) < 2 ^ (-844 : ℤ) := zpow_lt_zpow_right₀ (by norm_num) (by norm_num)
  have h6 : (2 : ℝ) ^ (-844 : ℤ) ≤ 2 ^ (-844 : ℤ) * Real.sqrt ((2 * p).factorial) :=
    le_mul_of_one_le_right (two_pow_pos _).le (sqrt_fact_ge _)
  linarith [hM.range]

theorem Moderate3.inv (hM : Moderate3 S p θ τ) (hp : 0 < p) : 1 / θ ≤ 2 ^ (169 : ℤ) := by
  rw [div_le_iff₀ hM.th0]
  refine le_trans (le_of_eq ?_) (mul_le_mul_of_nonneg_left (hM.theta hp) (two_pow_pos _).le)
  rw [← zpow_add₀ (by norm_num)]; norm_num

/-- The potential computed with `double`s. -/
noncomputable def dblPotential3 (F : Flt3) (L : Lib) (fuel : ℕ) (grav : Bool) (T : AdaptiveFmm (kit64 L)) (cur : List (Source 3))
    (x : Vec 3) : Outcome Dbl :=
  Rounded.adaptiveEval F.rnd D64.add D64.neg (pot64 L) fuel grav T cur x

/-- **C108** `double`s: the constructor returns a tree; the potential at a point of a leaf is not finite or has the error
of C85, if the boxes have sides between `25/22 θ` and `1/(4θ)` and the distances to the sources are at least `θ` or
zero. -/
theorem C108_adaptive (hF : Is64 F) (hlib : LibAccurate F) (hlf : LibOf L F) (hM : Moderate3 S p θ τ)
    (hlo : θ ≤ 22 / 25 * (r.len / 2 ^ h)) (hhi : θ * (4 * r.len) ≤ 1) (hS : ∀ s ∈ S, ∀ j, |s.pos j| ≤ 2 ^ (297 : ℤ))
    {t : Stat3} (ht : Reachable3 t) (hL : 0 < r.len) (hC : ∀ i, |r.center i| ≤ C) {eps : ℝ}
    (hord : Rounded.expansionOrder F.rnd F.rlog (Rounded.totalStrength F.rnd S) eps = .ok p) (hp0 : 0 < p) (hp : p ≤ 42)
    (hbox : Rounded.sourceBox F.rnd S = some r) (hin : ∀ s ∈ S, r.exact.contains s.pos) {st : BuildState 3 (Source 3)} {nb : Nbh}
    (hb : Rounded.adaptiveLists F.rnd F.nrm3 fuel Source.pos r S max = .ok (st, h, nb)) (hf : h < fuel)
    (hk : 100 * ((8 * h + 15) * (1 / 2 ^ 49 * (4 * (C + r.len)))) < r.len / 2 ^ (h + 1)) (hm : Fl.ListsLe st.heap nb m)
    {sch : ℕ → List Path → List Path} (hsch : Schedule sch) :
    ∃ T, Rounded.adaptiveFmm F.rnd F.rlog F.nrm3 (kit64 L) fuel sch () S max eps = .ok T ∧ T.order = p ∧ T.height = h ∧
      ∀ x l, Rounded.getContainingLeaf F.rnd fuel T.heap x = .ok (some l) → (∀ s ∈ S, s.pos = x ∨ θ ≤ dist2 s.pos x) →
        (∀ j, |x j| ≤ 2 ^ (300 : ℤ)) → ∀ grav, NearOrBad (dblPotential3 F L fuel grav T S x) (directPotential grav S x)
          (potError3 (1 / 2 ^ 49) (2 ^ 37) (r.len / 2 ^ h) S p h m x) := by
  obtain ⟨T, t1, t2, t3, t4⟩ := C108_floor hlib (hM.scale hp) (double_cost51 hp) hlo hhi hM.strength ht hL hC hord hp0 hp hbox hin hb
    hk hm
  obtain ⟨T', u1, u2, u3, u4, -, -, -, u8⟩ := D64.C98_adaptive hF hlf ht.good.1 hS (t1 sch hsch) (by rw [t2]; exact hp0) (by rw [t2]; exact hp)
  refine ⟨T', u1, u2.trans t2, u3.trans t3, fun x l hl hd hx grav => ?_⟩
  obtain ⟨lf, g1, g2⟩ := t4 x
  rw [u4, g1 fuel hf] at hl
  injection hl with hl
  obtain ⟨v, v1, v2⟩ := (g2 fuel hf grav S).1 (by rw [hl]; simp) hd
  exact near_of_same ((u8 x hx grav).1 v v1) v2

/-- **C108** `double`s, hypotheses about the sources only: at distances between `θ` and `1/θ` from all sources, the potential
is not finite or has the error of C85. -/
theorem C108_well_placed {M a : ℝ} {k : ℕ} (hF : Is64 F) (hlib : LibAccurate F) (hlf : LibOf L F)
    (hM : Moderate3 S p θ τ) (hW : WellPlaced (1 / 2 ^ 49) S M a k) (hlo : θ ≤ 44 / 25 * (a / 2 ^ k)) (hhi : θ * (12 * M) ≤ 1)
    (hmax : 1 ≤ max) {eps : ℝ} (hord : Rounded.expansionOrder F.rnd F.rlog (Rounded.totalStrength F.rnd S) eps = .ok p)
    (hp0 : 0 < p) (hp : p ≤ 42) :
    ∃ r h fuel, Rounded.sourceBox F.rnd S = some r ∧ 2 * a < r.len ∧ r.len ≤ 3 * M ∧ h ≤ k ∧ ∀ f ≥ fuel, ∀ sch, Schedule sch →
      ∃ T, Rounded.adaptiveFmm F.rnd F.rlog F.nrm3 (kit64 L) f sch () S max eps = .ok T ∧ T.order = p ∧ T.height = h ∧
        ∀ x, (∀ s ∈ S, θ ≤ dist2 s.pos x ∧ dist2 s.pos x ≤ 1 / θ) → ∀ grav,
          NearOrBad (dblPotential3 F L f grav T S x) (directPotential grav S x)
            (potError3 (1 / 2 ^ 49) (2 ^ 37) (r.len / 2 ^ h) S p h (8 * (h * S.length) + 1) x) := by
  have h0 := hM.th0
  have hθ := hM.theta hp0
  have hinv := hM.inv hp0
  have ha := hW.pos
  obtain ⟨s0, hs0, -⟩ := hW.low 0
  have haM : a ≤ M := by
    obtain ⟨s, hs, h1⟩ := hW.high 0
    exact h1.trans ((le_abs_self _).trans (hW.bound s hs 0))
  have hMb : M ≤ 2 ^ (169 : ℤ) := by
    have : M ≤ 1 / θ := by rw [le_div_iff₀ h0]; nlinarith
    linarith
  have hη1 : (2 : ℝ) ^ (-1021 : ℤ) ≤ 1 / 100000 :=
    (two_pow_mono (by norm_num : (-1021 : ℤ) ≤ -20)).trans (by norm_num)
  have hηM : 1000 * (2 : ℝ) ^ (-1021 : ℤ) ≤ M := by
    have h1 : θ ≤ 44 / 25 * a := by
      refine hlo.trans (mul_le_mul_of_nonneg_left (div_le_self ha.le (one_le_pow₀ (by norm_num))) (by norm_num))
    have h2 : (2 : ℝ) ^ (-1021 : ℤ) ≤ 2 ^ (-181 : ℤ) := two_pow_mono (by norm_num)
    have h3 : (2 : ℝ) ^ (-169 : ℤ) = 2 ^ (-181 : ℤ) * 4096 := by
      rw [show (-169 : ℤ) = -181 + 12 by norm_num, zpow_add₀ (by norm_num)]; norm_num
    have := two_pow_pos (-181)
    linarith
  obtain ⟨r, h, fuel, T, t0, t1, t2, -, t3, t4, t5, t6, t7⟩ := C108_floor_well_placed hlib (hM.scale hp) (double_cost51 hp) hη1 hW hlo hhi
    hηM hM.strength hmax reachable3_init hord hp0 hp
  refine ⟨r, h, fuel + h + 1, t0, t1, t2, t3, fun f hf sch hsch => ?_⟩
  obtain ⟨T', u1, u2, u3, -, -, -, -, u8⟩ := D64.C98_adaptive hF hlf reachable3_init.good.1 (fun s hs j => by
    refine (hW.bound s hs j).trans (hMb.trans (two_pow_mono (by norm_num)))) (t4 f (by omega) sch hsch) (by rw [t5]; exact hp0) (by rw [t5]; exact hp)
  refine ⟨T', u1, u2.trans t5, u3.trans t6, fun x hx grav => ?_⟩
  have hxb : ∀ j, |x j| ≤ 2 ^ (300 : ℤ) := fun j => by
    have h1 := (hx s0 hs0).2
    have h2 := abs_le_dist2 s0.pos x j
    have h3 := hW.bound s0 hs0 j
    have h5 : |x j| ≤ |s0.pos j| + |s0.pos j - x j| := by
      have := abs_sub (s0.pos j) (s0.pos j - x j)
      rwa [sub_sub_cancel] at this
    have h6 : (2 : ℝ) ^ (170 : ℤ) = 2 * 2 ^ (169 : ℤ) := by
      rw [show (170 : ℤ) = 1 + 169 by norm_num, zpow_add₀ (by norm_num), zpow_one]
    have h7 : (2 : ℝ) ^ (170 : ℤ) ≤ 2 ^ (300 : ℤ) := two_pow_mono (by norm_num)
    rw [h6] at h7
    refine le_trans ?_ h7
    clear hηM hη1 hθ h6 h7
    generalize (2 : ℝ) ^ (169 : ℤ) = w at *
    linarith
  obtain ⟨v, v1, v2⟩ := t7 x hx f (by omega) grav
  exact near_of_same ((u8 x hxb grav).1 v v1) v2

/-! ## An instance -/

theorem S8_moderate : Moderate3 S8 1 (1 / 36) 1 where
  th0 := by norm_num
  th1 := by norm_num
  tau0 := one_pos
  tau1 := le_rfl
  strength := by
    intro s hs
    simp only [S8, List.mem_cons, List.not_mem_nil, or_false] at hs
    rcases hs with rfl | rfl | rfl | rfl | rfl | rfl | rfl | rfl <;> simp
  range := by
    have h1 : (2 : ℝ) ^ (-844 : ℤ) ≤ 2 ^ (-60 : ℤ) := two_pow_mono (by norm_num)
    have h2 : Real.sqrt (((2 * 1).factorial : ℕ)) ≤ 2 := by
      rw [Real.sqrt_le_left (by norm_num)]
      norm_num [Nat.factorial]
    calc (2 : ℝ) ^ (-844 : ℤ) * Real.sqrt (((2 * 1).factorial : ℕ)) ≤ 2 ^ (-60 : ℤ) * 2 :=
          mul_le_mul h1 h2 (Real.sqrt_nonneg _) (two_pow_pos _).le
      _ ≤ 1 * (1 / 36) ^ (3 * 1 + 2) := by norm_num

/-- Eight unit charges, accuracy 4: the order computed with `double`s is 1. -/
theorem S8_order64 : Rounded.expansionOrder flt64.rnd flt64.rlog (Rounded.totalStrength flt64.rnd S8) 4 = .ok 1 := by
  have big : ∀ x : ℝ, 1 ≤ |x| → rndU x = Rounded.rndNE x := fun x hx =>
    rndU_big (le_trans ((two_pow_mono (by norm_num : (-1022 : ℤ) ≤ 0)).trans (by norm_num)) hx)
  have e1 : rndU (1 : ℝ) = 1 := by
    rw [big _ (by norm_num)]
    have := rndNE_mantissa (n := 2 ^ 52) (e := -52) (by norm_num) (by norm_num)
    norm_num at this; exact this
  have e2 : rndU (2 : ℝ) = 2 := by
    rw [big _ (by norm_num)]
    have := rndNE_mantissa (n := 2 ^ 52) (e := -51) (by norm_num) (by norm_num)
    norm_num at this; exact this
  have e3 : rndU (3 : ℝ) = 3 := by
    rw [big _ (by norm_num)]
    have := rndNE_mantissa (n := 3 * 2 ^ 51) (e := -51) (by norm_num) (by norm_num)
    norm_num at this; exact this
  have e4 : rndU (4 : ℝ) = 4 := by rw [big _ (by norm_num)]; exact rndNE_four
  have e5 : rndU (5 : ℝ) = 5 := by
    rw [big _ (by norm_num)]
    have := rndNE_mantissa (n := 5 * 2 ^ 50) (e := -50) (by norm_num) (by norm_num)
    norm_num at this; exact this
  have e6 : rndU (6 : ℝ) = 6 := by
    rw [big _ (by norm_num)]
    have := rndNE_mantissa (n := 6 * 2 ^ 50) (e := -50) (by norm_num) (by norm_num)
    norm_num at this; exact this
  have e7 : rndU (7 : ℝ) = 7 := by
    rw [big _ (by norm_num)]
    have := rndNE_mantissa (n := 7 * 2 ^ 50) (e := -50) (by norm_num) (by norm_num)
    norm_num at this; exact this
  have e8 : rndU (8 : ℝ) = 8 := by rw [big _ (by norm_num)]; exact rndNE_eight
  have hr : ∀ x, flt64.rnd x = rndU x := fun _ => rfl
  have hA : Rounded.totalStrength flt64.rnd S8 = 8 := by
    unfold Rounded.totalStrength S8
    simp only [hr, List.foldl_cons, List.foldl_nil, abs_one, zero_add]
    norm_num [e1, e2, e3, e4, e5, e6, e7, e8]
  have hd : flt64.rnd (8 / 4) = 2 := by
    rw [hr]
    norm_num [e2]
  have hl : flt64.rlog 2 ≠ 0 := by
    intro h0
    have := low3_flt64.rlog 2 (by norm_num)
    have hlog : (1 : ℝ) / 2 ≤ Real.log 2 := by linarith [Real.log_two_gt_d9]
    have hfl : (2 : ℝ) ^ (-1021 : ℤ) ≤ 1 / 2 := (two_pow_mono (by norm_num : (-1021 : ℤ) ≤ -1)).trans (by norm_num)
    rw [h0, zero_sub, abs_neg, abs_of_pos (by linarith), max_eq_left (hfl.trans hlog)] at this
    norm_num at this
    linarith
  unfold Rounded.expansionOrder
  rw [hA, hd, if_neg (by norm_num), div_self hl, hr, e1, Int.ceil_one]
  rfl

theorem S8_dist (s : Source 3) (hs : s ∈ S8) : 1 / 36 ≤ dist2 s.pos 0 ∧ dist2 s.pos 0 ≤ 1 / (1 / 36) := by
  have h : dist2 s.pos 0 = Real.sqrt 27 := by
    simp only [S8, List.mem_cons, List.not_mem_nil, or_false] at hs
    rcases hs with rfl | rfl | rfl | rfl | rfl | rfl | rfl | rfl <;> (unfold dist2; rw [Fin.sum_univ_three]; simp; norm_num)
  rw [h]
  constructor
  · exact Real.le_sqrt_of_sq_le (by norm_num)
  · rw [Real.sqrt_le_left (by norm_num)]; norm_num

/-- Non-vacuity: the potential of eight charges at the centre of their cube. -/
example : ∃ r h f T, Rounded.sourceBox flt64.rnd S8 = some r ∧ h ≤ 1 ∧
    Rounded.adaptiveFmm flt64.rnd flt64.rlog flt64.nrm3 (kit64 (libOf flt64)) f (fun _ l => l.reverse) () S8 1 4 = .ok T ∧ T.order = 1 ∧
    NearOrBad (dblPotential3 flt64 (libOf flt64) f true T S8 0) (directPotential true S8 0)
      (potError3 (1 / 2 ^ 49) (2 ^ 37) (r.len / 2 ^ h) S8 1 h (8 * (h * 8) + 1) 0) := by
  obtain ⟨r, h, f, h0, -, -, h1, h2⟩ := C108_well_placed (max := 1) flt64_is low3_flt64 lib64 S8_moderate S8_placed
    (by norm_num) (by norm_num) le_rfl S8_order64 one_pos (by norm_num)
  obtain ⟨T, t1, t2, t3, t4⟩ := h2 f le_rfl (fun _ (l : List Path) => l.reverse) (fun _ l => l.reverse_perm)
  exact ⟨r, h, f, T, h0, h1, t1, t2, t4 0 S8_dist true⟩

end FMM
