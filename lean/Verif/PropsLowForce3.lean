import Verif.LowForceTree3
import Verif.LowForceIeee3
import Verif.PropsLowBalanced3
import Verif.PropsFltForceTree3

/-!
# C112: underflow in the adaptive tree in space: forces

The error bounds of C89 hold with gradual underflow and with `double`s, if the boxes, the distances and the strengths are
not too small or too large for the order `p` of the expansions.  Components of the force of a source can be arbitrarily small:
rounding errors of the direct sums are relative to the norms of the forces of the sources.
-/

namespace FMM
open Rounded
variable {F : Flt3} {u g s η ρ θ τ ν C : ℝ} {r : RBox ℝ 3} {S : List (Source 3)} {max fuel h p m κ κ' k : ℕ}

/-- Number of roundings of the evaluation of the force of an expansion of order `p`, above the floor. -/
def forceRoundingsLow (p κ : ℕ) : ℕ := (p + 1) ^ 2 + 11 * p + 4 * κ + 30

/-- Sum of the norms of the forces of the sources other than at `x`. -/
noncomputable def sumForces3 (S : List (Source 3)) (x : Vec 3) (feps : ℝ) : ℝ :=
  (S.map fun s => open Classical in if s.pos = x then 0 else |s.q| / (dist2 s.pos x ^ 3 + feps) * dist2 s.pos x).sum

/-- Bound of the error of the components of the computed force, as in C89, with the sum of the norms of the forces of the
sources in place of the sums of the components. -/
noncomputable def forceErrorLow3 (u s : ℝ) (κ κ' : ℕ) (a : ℝ) (S : List (Source 3)) (p h m : ℕ) (feps : ℝ) (x : Vec 3) : ℝ :=
  (S.map fun s => |s.q|).sum * ((8 / 9) ^ p * ((5 * p + 35) / a ^ 2) + 8800 * (u / s) / a ^ 2 + 3125 * feps / a ^ 5)
    + ((1 + u) ^ (roundings3 κ S.length h m + forceRoundingsLow p κ') - 1)
      * ((S.map fun s => |s.q|).sum * (18 * p * Real.sqrt (2 * p + 1) / a ^ 2) + sumForces3 S x feps)

theorem sumForces3_eq (x : Vec 3) (feps : ℝ) : absNorm3 S x feps = sumForces3 S x feps := rfl

theorem forceBoundL_eq (feps : ℝ) (x : Vec 3) :
    Lo3.forceBoundL u s κ κ' r.exact S p h m feps x = forceErrorLow3 u s κ κ' (r.len / 2 ^ h) S p h m feps x := by
  unfold Lo3.forceBoundL forceErrorLow3 Fl3.forceTail3 Fl3.tailF3 Fl3.majorF3 Fl3.evalCount roundings3 Fl3.side Lo3.fcostL forceRoundingsLow
  rw [totalStrength_sum, sumForces3_eq]
  simp only [Rounded.RBox.exact]
  ring

theorem direct_le_forceErrorLow3 (hu : 0 ≤ u) (hs : 0 < s) {a : ℝ} (ha : 0 < a) {feps : ℝ} (hf : 0 ≤ feps) (x : Vec 3) :
    ((1 + u) ^ (S.length + 21) - 1) * absNorm3 S x feps ≤ forceErrorLow3 u s κ κ' a S p h m feps x := by
  have h1 : (1 + u) ^ (S.length + 21) ≤ (1 + u) ^ (roundings3 κ S.length h m + forceRoundingsLow p κ') :=
    pow_le_pow_right₀ (by linarith) (by unfold roundings3; nlinarith [Nat.zero_le (h * (2 * κ + 10 + m))])
  have h2 : (1 : ℝ) ≤ (1 + u) ^ (roundings3 κ S.length h m + forceRoundingsLow p κ') := one_le_pow₀ (by linarith)
  have hA : 0 ≤ (S.map fun s => |s.q|).sum := by rw [totalStrength_sum]; exact totalStrength_nonneg S
  have hB := absNorm3_nonneg S x hf
  unfold forceErrorLow3
  rw [← sumForces3_eq]
  have h3 : ((1 + u) ^ (S.length + 21) - 1) * absNorm3 S x feps
      ≤ ((1 + u) ^ (roundings3 κ S.length h m + forceRoundingsLow p κ') - 1) * absNorm3 S x feps :=
    mul_le_mul_of_nonneg_right (by linarith) hB
  have h4 : 0 ≤ ((1 + u) ^ (roundings3 κ S.length h m + forceRoundingsLow p κ') - 1)
      * ((S.map fun s => |s.q|).sum * (18 * p * Real.sqrt (2 * p + 1) / a ^ 2)) :=
    mul_nonneg (by linarith) (by positivity)
  have h5 : 0 ≤ (S.map fun s => |s.q|).sum * ((8 / 9) ^ p * ((5 * p + 35) / a ^ 2) + 8800 * (u / s) / a ^ 2 + 3125 * feps / a ^ 5) := by
    positivity
  rw [mul_add]
  linarith

/-- `x` is off the vertical through `c`, at a distance of at least `2 η` of `c`. -/
def OffCentre (s η : ℝ) (c x : Vec 3) : Prop := OffAxis s c x ∧ 2 * η ≤ dist2 x c

theorem OffCentre.far {c x : Vec 3} (h : OffCentre s η c x) : 2 * η ≤ len3 (x - c) := by rw [len3_eq_dist2]; exact h.2

/-! ## Arithmetic with a floor -/

/-- **C112** C89 with gradual underflow: errors are relative above the floor `η` only. -/
theorem C112_floor (hF : F.LowD u g η ρ) (hsc : Scale3 u η θ τ ν p) (hκ : OpCost u g p κ) (ha : AngleCost u g s p κ')
    (hlo : θ ≤ 22 / 25 * (r.len / 2 ^ h))
    (hhi : θ * (4 * r.len) ≤ 1) (hq : ∀ s ∈ S, s.q = 0 ∨ τ ≤ |s.q|) {t : Stat3} (ht : Reachable3 t) (hL : 0 < r.len)
    (hC : ∀ i, |r.center i| ≤ C) {eps : ℝ}
    (hord : Rounded.expansionOrder F.rnd F.rlog (Rounded.totalStrength F.rnd S) eps = .ok p) (hp0 : 0 < p) (hp : p ≤ 42)
    (hbox : Rounded.sourceBox F.rnd S = some r) (hin : ∀ s ∈ S, r.exact.contains s.pos) {st : BuildState 3 (Source 3)} {nb : Nbh}
    (hb : Rounded.adaptiveLists F.rnd F.nrm3 fuel Source.pos r S max = .ok (st, h, nb))
    (hk : 100 * ((8 * h + 15) * (u * (4 * (C + r.len)))) < r.len / 2 ^ (h + 1)) (hm : Fl.ListsLe st.heap nb m) :
    ∃ T, BuiltBy3 F fuel t S max eps T ∧ T.order = p ∧ T.height = h ∧
      ∀ x, ∃ lf, (∀ f > h, Rounded.getContainingLeaf F.rnd f T.heap x = .ok lf) ∧
        (∀ l, lf = some l → l.length ≤ h ∧ ∀ ρ ∈ nb.W l, ρ.length ≤ h) ∧ ∀ f > h, ∀ grav cur, ∀ feps, 0 ≤ feps → feps ≤ 1 / θ ^ 3 →
        (∀ l, lf = some l → (∀ s ∈ S, s.pos = x ∨ θ ≤ dist2 s.pos x) → OffCentre s η (Rounded.boxAt F.rnd r l).center x →
          (∀ ρ ∈ nb.W l, OffAxis s (Rounded.boxAt F.rnd r ρ).center x) →
          ∃ v, flForce3 F feps f grav T cur x = .ok v ∧
            ∀ j, |v j - directField grav S x feps j| ≤ forceErrorLow3 u s κ κ' (r.len / 2 ^ h) S p h m feps x) ∧
        (lf = none → flForce3 F feps f grav T cur x = Fl3.forcefieldSum F grav false cur x feps) := by
  have hq' : ∀ s ∈ S, Flr τ |s.q| := fun s hs => (hq s hs).imp_left fun e => by rw [e, abs_zero]
  obtain ⟨T, h1, h2, h3, h4, h5⟩ := Lo3.adaptive_low_force hF hsc (span_of3 hL hlo hhi) hκ.cost ha.frame ht.good.1 hL hC hord hp0 hp hbox hin
    hb hk hm hq'
  refine ⟨T, h1, h2, h3, fun x => ?_⟩
  obtain ⟨lf, g1, g2⟩ := h5 x
  rw [h4]
  refine ⟨lf, g1, fun l hl => (g2 l hl).1, fun f hf grav cur feps hfe hfe' => ⟨fun l hl hd hc hW => ?_, fun hn => ?_⟩⟩
  · have := (g2 l hl).2 hd hc.1.clear hc.far (fun ρ hρ => (hW ρ hρ).clear) f hf grav cur feps hfe hfe'
    simp only [forceBoundL_eq] at this
    exact this
  · subst hn
    unfold flForce3 Rounded.adaptiveEval
    rw [h4, g1 f hf]
    rfl

/-- **C112** At distances between `θ` and `1/θ` of all sources, off the axes of all computed boxes down to the height of the tree,
the bound holds in and outside of the leaves. -/
theorem C112_floor_everywhere (hF : F.LowD u g η ρ) (hsc : Scale3 u η θ τ ν p) (hκ : OpCost u g p κ) (ha : AngleCost u g s p κ')
    (hlo : θ ≤ 22 / 25 * (r.len / 2 ^ h))
    (hhi : θ * (4 * r.len) ≤ 1) (hq : ∀ s ∈ S, s.q = 0 ∨ τ ≤ |s.q|) {t : Stat3} (ht : Reachable3 t) (hL : 0 < r.len)
    (hC : ∀ i, |r.center i| ≤ C) {eps : ℝ}
    (hord : Rounded.expansionOrder F.rnd F.rlog (Rounded.totalStrength F.rnd S) eps = .ok p) (hp0 : 0 < p) (hp : p ≤ 42)
    (hbox : Rounded.sourceBox F.rnd S = some r) (hin : ∀ s ∈ S, r.exact.contains s.pos) {st : BuildState 3 (Source 3)} {nb : Nbh}
    (hb : Rounded.adaptiveLists F.rnd F.nrm3 fuel Source.pos r S max = .ok (st, h, nb))
    (hk : 100 * ((8 * h + 15) * (u * (4 * (C + r.len)))) < r.len / 2 ^ (h + 1)) (hm : Fl.ListsLe st.heap nb m) :
    ∃ T, BuiltBy3 F fuel t S max eps T ∧ T.order = p ∧ T.height = h ∧
      ∀ x, (∀ s ∈ S, θ ≤ dist2 s.pos x ∧ dist2 s.pos x ≤ 1 / θ) →
        (∀ π : Path, π.length ≤ h → OffCentre s η (Rounded.boxAt F.rnd r π).center x) → ∀ f > h, ∀ grav,
        ∀ feps, 0 ≤ feps → feps ≤ 1 / θ ^ 3 → ∃ v, flForce3 F feps f grav T S x = .ok v ∧
          ∀ j, |v j - directField grav S x feps j| ≤ forceErrorLow3 u s κ κ' (r.len / 2 ^ h) S p h m feps x := by
  obtain ⟨T, h1, h2, h3, h6⟩ := C112_floor hF hsc hκ ha hlo hhi hq ht hL hC hord hp0 hp hbox hin hb hk hm
  have hq' : ∀ s ∈ S, Flr τ |s.q| := fun s hs => (hq s hs).imp_left fun e => by rw [e, abs_zero]
  refine ⟨T, h1, h2, h3, fun x hx hax f hf grav feps hfe hfe' => ?_⟩
  have hne : ∀ s ∈ S, s.pos ≠ x := fun s hs e => by
    have := (hx s hs).1
    rw [(dist2_eq_zero_iff _ _).mpr e] at this
    linarith [hsc.th0]
  obtain ⟨lf, -, g1, g2⟩ := h6 x
  obtain ⟨a, b⟩ := g2 f hf grav S feps hfe hfe'
  cases lf with
  | none =>
    rw [b rfl]
    obtain ⟨v, v1, v2⟩ := Lo3.forcefieldSum_unsafe hF.toLow3 hsc ha.u_le32 hp0 grav S x feps hfe hfe'
      (fun s hs => Or.inr (far_of_dist hsc.th0 (hx s hs).1 (hx s hs).2)) hq' hne
    exact ⟨v, v1, fun j => ((v2 j).1 : |v j - directField grav S x feps j| ≤ _).trans
      (direct_le_forceErrorLow3 hF.nonneg ha.1 (by positivity) hfe _)⟩
  | some l => exact a l rfl (fun s hs => Or.inr (hx s hs).1) (hax l (g1 l rfl).1) fun ρ hρ => (hax ρ ((g1 l rfl).2 ρ hρ)).1

/-- **C112** The same for well placed sources: everything follows from properties of the sources. -/
theorem C112_floor_well_placed {M a : ℝ} (hF : F.LowD u g η ρ) (hsc : Scale3 u η θ τ ν p) (hκ : OpCost u g p κ) (hc : AngleCost u g s p κ')
    (hη : η ≤ 1 / 100000) (hW : WellPlaced u S M a k) (hlo : θ ≤ 44 / 25 * (a / 2 ^ k)) (hhi : θ * (12 * M) ≤ 1)
    (hMη : 1000 * η ≤ M) (hq : ∀ s ∈ S, s.q = 0 ∨ τ ≤ |s.q|) (hmax : 1 ≤ max) {t : Stat3} (ht : Reachable3 t) {eps : ℝ}
    (hord : Rounded.expansionOrder F.rnd F.rlog (Rounded.totalStrength F.rnd S) eps = .ok p) (hp0 : 0 < p) (hp : p ≤ 42) :
    ∃ r h fuel T, Rounded.sourceBox F.rnd S = some r ∧ 2 * a < r.len ∧ r.len ≤ 3 * M ∧ (∀ s ∈ S, r.exact.contains s.pos) ∧
      h ≤ k ∧ (∀ f ≥ fuel, BuiltBy3 F f t S max eps T) ∧ T.order = p ∧ T.height = h ∧
      ∀ x, (∀ s ∈ S, θ ≤ dist2 s.pos x ∧ dist2 s.pos x ≤ 1 / θ) →
        (∀ π : Path, π.length ≤ h → OffCentre s η (Rounded.boxAt F.rnd r π).center x) → ∀ f > h, ∀ grav,
        ∀ feps, 0 ≤ feps → feps ≤ 1 / θ ^ 3 → ∃ v, flForce3 F feps f grav T S x = .ok v ∧
          ∀ j, |v j - directField grav S x feps j| ≤ forceErrorLow3 u s κ κ' (r.len / 2 ^ h) S p h (8 * (h * S.length) + 1) feps x := by
  obtain ⟨r, h0, h1, h2, h3, h4⟩ := hW.box_low hF.toLow3.toLow hη (by linarith)
  have ha := hW.pos
  have hL : 0 < r.len := by linarith
  have hθη : η ≤ θ := hsc.le le_rfl
  have hη0 := hsc.eta
  obtain ⟨fuel, st, h, nb, hh, hf, hk, hm⟩ := hW.lists_low hF.toLow3.toLow hF.nrm3 (by linarith) (by
    have : (44 : ℝ) / 25 * (a / 2 ^ k) ≤ 2 * a / 2 ^ k := by
      rw [mul_div_assoc]; exact mul_le_mul_of_nonneg_right (by norm_num) (by positivity)
    linarith) h1 h2 h3 h4 hmax
  have e1 : 2 * a / 2 ^ k ≤ r.len / 2 ^ h := by
    refine (div_le_div_of_nonneg_right h1.le (by positivity)).trans ?_
    exact div_le_div_of_nonneg_left hL.le (by positivity) (pow_le_pow_right₀ (by norm_num) hh)
  obtain ⟨T, t1, t2, t3, t4⟩ := C112_floor_everywhere hF hsc hκ hc (by rw [mul_div_assoc] at e1; linarith)
    (by have := hsc.th0; nlinarith) hq ht hL h3 hord hp0 hp h0 h4 (hf fuel le_rfl) hk hm
  exact ⟨r, h, fuel, T, h0, h1, h2, h4, hh, fun f hge => t1.of_fuel h0 ((hf fuel le_rfl).trans (hf f hge).symm), t2, t3, t4⟩

/-! ## `double`s -/

open D64
variable {L : Lib}

/-- As `LibAccurate`, with the derivatives of the Legendre functions. -/
abbrev LibAccurateD (F : Flt3) : Prop := F.LowD (1 / 2 ^ 49) (1 / 2 ^ 51) (2 ^ (-1021 : ℤ)) 1

/-- For `double`s, angles of at least `2 ^ -k` cost `2 ^ (2 k + 5)` roundings. -/
theorem double_angle51 {p k : ℕ} (hp : p ≤ 42) (hk : k ≤ 21) : AngleCost (1 / 2 ^ 49) (1 / 2 ^ 51) (1 / 2 ^ k) p (2 ^ (2 * k + 5)) :=
  have h := ieee_frame51 hp hk
  ⟨h.pos, h.le_one, h.le, h.small, h.tab⟩

/-- The computed vector has components that are not finite, or differ from those of `v` by at most `e`. -/
def VNearOrBad3 (P : Outcome (DVec 3)) (v : Vec 3) (e : ℝ) : Prop :=
  ∃ d, P = .ok d ∧ ∀ j y, d j = .fin y → |y - v j| ≤ e

theorem vnear_of_same3 {P : Outcome (DVec 3)} {w v : Vec 3} {e : ℝ} (h : VSameOrBad P w) (hw : ∀ j, |w j - v j| ≤ e) :
    VNearOrBad3 P v e := by
  obtain ⟨d, h1, h2⟩ := h
  refine ⟨d, h1, fun j y hy => ?_⟩
  rcases h2 j with h3 | h3
  · rw [hy] at h3
    injection h3 with h3
    rw [h3]; exact hw j
  · rw [hy] at h3; exact h3.elim

/-- The force computed with `double`s. -/
noncomputable def dblForce3 (F : Flt3) (L : Lib) (feps : ℝ) (fuel : ℕ) (grav : Bool) (T : AdaptiveFmm (kit64 L)) (cur : List (Source 3))
    (x : Vec 3) : Outcome (DVec 3) :=
  Rounded.adaptiveEval F.rnd vadd vneg (force64 L feps) fuel grav T cur x

theorem neg_fun3 : (Vec.neg : Vec 3 → Vec 3) = fun a => -a := by
  funext v j
  show v j * (-1) = -v j
  ring

theorem Moderate3.eps (hM : Moderate3 S p θ τ) (hp : 0 < p) {feps : ℝ} (h0 : 0 ≤ feps) (h : feps ≤ 1 / θ ^ 3) : |feps| ≤ 2 ^ (906 : ℤ) := by
  rw [abs_of_nonneg h0]
  have h1 := pow_le_pow_left₀ (by have := hM.th0; positivity) (hM.inv hp) 3
  rw [div_pow, one_pow] at h1
  refine h.trans (h1.trans ?_)
  rw [← zpow_natCast, ← zpow_mul]
  exact two_pow_mono (by norm_num)

/-- **C112** `double`s: the constructor returns a tree; the components of the force at a point of a leaf are not finite or have the
error of C89, if the boxes have sides between `25/22 θ` and `1/(4θ)`, the distances to the sources are at least `θ` or
zero, and the directions from the centres of the boxes of the leaf and of its list W have an angle of at least `2 ^ -k` with
the vertical. -/
theorem C112_adaptive (hF : Is64 F) (hlib : LibAccurateD F) (hlf : LibOf L F) (hM : Moderate3 S p θ τ) (hk' : k ≤ 21)
    (hlo : θ ≤ 22 / 25 * (r.len / 2 ^ h)) (hhi : θ * (4 * r.len) ≤ 1) (hS : ∀ s ∈ S, ∀ j, |s.pos j| ≤ 2 ^ (297 : ℤ))
    {t : Stat3} (ht : Reachable3 t) (hL : 0 < r.len) (hC : ∀ i, |r.center i| ≤ C) {eps : ℝ}
    (hord : Rounded.expansionOrder F.rnd F.rlog (Rounded.totalStrength F.rnd S) eps = .ok p) (hp0 : 0 < p) (hp : p ≤ 42)
    (hbox : Rounded.sourceBox F.rnd S = some r) (hin : ∀ s ∈ S, r.exact.contains s.pos) {st : BuildState 3 (Source 3)} {nb : Nbh}
    (hb : Rounded.adaptiveLists F.rnd F.nrm3 fuel Source.pos r S max = .ok (st, h, nb)) (hf : h < fuel)
    (hk : 100 * ((8 * h + 15) * (1 / 2 ^ 49 * (4 * (C + r.len)))) < r.len / 2 ^ (h + 1)) (hm : Fl.ListsLe st.heap nb m)
    {sch : ℕ → List Path → List Path} (hsch : Schedule sch) :
    ∃ T, Rounded.adaptiveFmm F.rnd F.rlog F.nrm3 (kit64 L) fuel sch () S max eps = .ok T ∧ T.order = p ∧ T.height = h ∧
      ∀ x l, Rounded.getContainingLeaf F.rnd fuel T.heap x = .ok (some l) → (∀ s ∈ S, s.pos = x ∨ θ ≤ dist2 s.pos x) →
        (∀ j, |x j| ≤ 2 ^ (300 : ℤ)) → OffCentre (1 / 2 ^ k) (2 ^ (-1021 : ℤ)) (Rounded.boxAt F.rnd r l).center x →
        (∀ ρ ∈ nb.W l, OffAxis (1 / 2 ^ k) (Rounded.boxAt F.rnd r ρ).center x) → ∀ grav, ∀ feps, 0 ≤ feps → feps ≤ 1 / θ ^ 3 →
        VNearOrBad3 (dblForce3 F L feps fuel grav T S x) (directField grav S x feps)
          (forceErrorLow3 (1 / 2 ^ 49) (1 / 2 ^ k) (2 ^ 37) (2 ^ (2 * k + 5)) (r.len / 2 ^ h) S p h m feps x) := by
  obtain ⟨T, t1, t2, t3, t4⟩ := C112_floor hlib (hM.scale hp) (double_cost51 hp) (double_angle51 hp hk') hlo hhi hM.strength ht hL hC hord
    hp0 hp hbox hin hb hk hm
  obtain ⟨T', u1, u2, u3, u4, -, -, -, u8⟩ := D64.C98_adaptive hF hlf ht.good.1 hS (t1 sch hsch) (by rw [t2]; exact hp0) (by rw [t2]; exact hp)
  refine ⟨T', u1, u2.trans t2, u3.trans t3, fun x l hl hd hx hc hW grav feps hfe hfe' => ?_⟩
  obtain ⟨lf, g1, -, g2⟩ := t4 x
  rw [u4, g1 fuel hf] at hl
  injection hl with hl
  obtain ⟨v, v1, v2⟩ := (g2 fuel hf grav S feps hfe hfe').1 l hl hd hc hW
  refine vnear_of_same3 ((u8 x hx grav).2 feps (hM.eps hp0 hfe hfe') v ?_) v2
  rw [neg_fun3]; exact v1

/-- **C112** `double`s, hypotheses about the sources only: at distances between `θ` and `1/θ` from all sources and off the axes of
the boxes down to the height of the tree, the components of the force are not finite or have the error of C89. -/
theorem C112_well_placed {M a : ℝ} {n : ℕ} (hF : Is64 F) (hlib : LibAccurateD F) (hlf : LibOf L F)
    (hM : Moderate3 S p θ τ) (hk' : k ≤ 21) (hW : WellPlaced (1 / 2 ^ 49) S M a n) (hlo : θ ≤ 44 / 25 * (a / 2 ^ n)) (hhi : θ * (12 * M) ≤ 1)
    (hmax : 1 ≤ max) {eps : ℝ} (hord : Rounded.expansionOrder F.rnd F.rlog (Rounded.totalStrength F.rnd S) eps = .ok p)
    (hp0 : 0 < p) (hp : p ≤ 42) :
    ∃ r h fuel, Rounded.sourceBox F.rnd S = some r ∧ 2 * a < r.len ∧ r.len ≤ 3 * M ∧ (∀ s ∈ S, r.exact.contains s.pos) ∧ h ≤ n ∧
      ∀ f ≥ fuel, ∀ sch, Schedule sch →
      ∃ T, Rounded.adaptiveFmm F.rnd F.rlog F.nrm3 (kit64 L) f sch () S max eps = .ok T ∧ T.order = p ∧ T.height = h ∧
        ∀ x, (∀ s ∈ S, θ ≤ dist2 s.pos x ∧ dist2 s.pos x ≤ 1 / θ) →
          (∀ π : Path, π.length ≤ h → OffCentre (1 / 2 ^ k) (2 ^ (-1021 : ℤ)) (Rounded.boxAt F.rnd r π).center x) → ∀ grav,
          ∀ feps, 0 ≤ feps → feps ≤ 1 / θ ^ 3 → VNearOrBad3 (dblForce3 F L feps f grav T S x) (directField grav S x feps)
            (forceErrorLow3 (1 / 2 ^ 49) (1 / 2 ^ k) (2 ^ 37) (2 ^ (2 * k + 5)) (r.len / 2 ^ h) S p h (8 * (h * S.length) + 1) feps x) := by
  have h0 := hM.th0
  have hθ := hM.theta hp0
  have hinv := hM.inv hp0
  have ha := hW.pos
  obtain ⟨s0, hs0, -⟩ := hW.low 0
  have haM : a ≤ M := by
    obtain ⟨s, hs, h1⟩ := hW.high 0
    exact h1.trans ((le_abs_self _).trans (hW.bound s hs 0))
  have hMb : M ≤ 2 ^ (169 : ℤ) := by
    have : M ≤ 1 / θ := by rw [le_div_iff₀ h0]; nlinarith
    linarith
  have hη1 : (2 : ℝ) ^ (-1021 : ℤ) ≤ 1 / 100000 :=
    (two_pow_mono (by norm_num : (-1021 : ℤ) ≤ -20)).trans (by norm_num)
  have hηM : 1000 * (2 : ℝ) ^ (-1021 : ℤ) ≤ M := by
    have h1 : θ ≤ 44 / 25 * a := by
      refine hlo.trans (mul_le_mul_of_nonneg_left (div_le_self ha.le (one_le_pow₀ (by norm_num))) (by norm_num))
    have h2 : (2 : ℝ) ^ (-1021 : ℤ) ≤ 2 ^ (-181 : ℤ) := two_pow_mono (by norm_num)
    have h3 : (2 : ℝ) ^ (-169 : ℤ) = 2 ^ (-181 : ℤ) * 4096 := by
      rw [show (-169 : ℤ) = -181 + 12 by norm_num, zpow_add₀ (by norm_num)]; norm_num
    have := two_pow_pos (-181)
    linarith
  obtain ⟨r, h, fuel, T, t0, t1, t2, tc, t3, t4, t5, t6, t7⟩ := C112_floor_well_placed hlib (hM.scale hp) (double_cost51 hp)
    (double_angle51 hp hk') hη1 hW hlo hhi hηM hM.strength hmax reachable3_init hord hp0 hp
  refine ⟨r, h, fuel + h + 1, t0, t1, t2, tc, t3, fun f hf sch hsch => ?_⟩
  obtain ⟨T', u1, u2, u3, -, -, -, -, u8⟩ := D64.C98_adaptive hF hlf reachable3_init.good.1 (fun s hs j => by
    refine (hW.bound s hs j).trans (hMb.trans (two_pow_mono (by norm_num)))) (t4 f (by omega) sch hsch) (by rw [t5]; exact hp0) (by rw [t5]; exact hp)
  refine ⟨T', u1, u2.trans t5, u3.trans t6, fun x hx hax grav feps hfe hfe' => ?_⟩
  have hxb : ∀ j, |x j| ≤ 2 ^ (300 : ℤ) := fun j => by
    have h1 := (hx s0 hs0).2
    have h2 := abs_le_dist2 s0.pos x j
    have h3 := hW.bound s0 hs0 j
    have h5 : |x j| ≤ |s0.pos j| + |s0.pos j - x j| := by
      have := abs_sub (s0.pos j) (s0.pos j - x j)
      rwa [sub_sub_cancel] at this
    have h6 : (2 : ℝ) ^ (170 : ℤ) = 2 * 2 ^ (169 : ℤ) := by
      rw [show (170 : ℤ) = 1 + 169 by norm_num, zpow_add₀ (by norm_num), zpow_one]
    have h7 : (2 : ℝ) ^ (170 : ℤ) ≤ 2 ^ (300 : ℤ) := two_pow_mono (by norm_num)
    rw [h6] at h7
    refine le_trans ?_ h7
    clear hηM hη1 hθ h6 h7
    generalize (2 : ℝ) ^ (169 : ℤ) = w at *
    linarith
  obtain ⟨v, v1, v2⟩ := t7 x hx hax f (by omega) grav feps hfe hfe'
  refine vnear_of_same3 ((u8 x hxb grav).2 feps (hM.eps hp0 hfe hfe') v ?_) v2
  rw [neg_fun3]; exact v1

/-! ## An instance -/

theorem offCentre_of {c x : Vec 3} {a B : ℝ} (h : a ≤ |x 0 - c 0| ∨ a ≤ |x 1 - c 1|) (hB : ∀ j, |x j - c j| ≤ B) (ha : 0 < a)
    (hs0 : 0 ≤ s) (hs : s * (2 * B) ≤ a) (hη : 2 * η ≤ a) : OffCentre s η c x := by
  refine ⟨offAxis_of h hB ha hs0 hs, hη.trans ?_⟩
  rcases h with h | h
  · exact h.trans (abs_le_dist2 x c 0)
  · exact h.trans (abs_le_dist2 x c 1)

/-- The boxes of the tree over the eight charges, up to depth 1. -/
theorem S8_axes64 {r : Rounded.RBox ℝ 3} (h1 : 6 < r.len) (h2 : r.len ≤ 9) (h3 : ∀ s ∈ S8, r.exact.contains s.pos) (hh : h ≤ 1) {π : Path}
    (hπ : π.length ≤ h) : OffCentre (1 / 2 ^ 5) (2 ^ (-1021 : ℤ)) (Rounded.boxAt flt64.rnd r π).center ![5 / 2, 0, 0] := by
  have hc : ∀ i, |r.center i| ≤ r.len / 2 - 3 := fun i => by
    have c1 := (Box.contains_iff _ _).mp (h3 ⟨![3, 3, 3], 1⟩ (by simp [S8])) i
    have c2 := (Box.contains_iff _ _).mp (h3 ⟨![-3, -3, -3], 1⟩ (by simp [S8])) i
    have e1 : (![3, 3, 3] : Vec 3) i = 3 := by fin_cases i <;> rfl
    have e2 : (![-3, -3, -3] : Vec 3) i = -3 := by fin_cases i <;> rfl
    simp only [e1, e2, Rounded.RBox.exact] at c1 c2
    rw [abs_le]
    constructor <;> linarith [c1.1, c1.2, c2.1, c2.2]
  have hL : 0 < r.len := by linarith
  have hh' : (h : ℝ) ≤ 1 := by exact_mod_cast hh
  have hp2 : (2 : ℝ) ^ (h + 1) ≤ 2 ^ 2 := pow_le_pow_right₀ (by norm_num) (by omega)
  have hη : (2 : ℝ) ^ (-1021 : ℤ) ≤ 1 / 10 := (two_pow_mono (by norm_num : (-1021 : ℤ) ≤ -4)).trans (by norm_num)
  have H := low3_flt64.toLow.rndOn (B := 4 * (2 + r.len)) (by linarith)
  have G := Fl3.geo_on (h := h) (C := 2) low3_flt64.nonneg hL (by norm_num) H (fun i => (hc i).trans (by linarith)) (by
    refine lt_of_lt_of_le (b := 1) ?_ ?_
    · have : 100 * ((8 * (h : ℝ) + 15) * (1 / 2 ^ 49 * (4 * (2 + r.len)))) ≤ 100 * ((8 * 1 + 15) * (1 / 2 ^ 49 * (4 * (2 + 9)))) := by
        gcongr
      refine this.trans_lt (by norm_num)
    · rw [le_div_iff₀ (by positivity)]; linarith)
  have hn : ∀ j, |(Rounded.boxAt flt64.rnd r π).center j - (boxAt r.exact π).center j| ≤ 1 / 40 := fun j => by
    refine (G.near π hπ j).trans ?_
    have : r.exact.len / 2 ^ h ≤ r.exact.len := div_le_self hL.le (one_le_pow₀ (by norm_num))
    have e : r.exact.len = r.len := rfl
    rw [e] at this ⊢
    linarith
  have x0 : (![5 / 2, 0, 0] : Vec 3) 0 = 5 / 2 := rfl
  have x1 : (![5 / 2, 0, 0] : Vec 3) 1 = 0 := rfl
  have xj : ∀ j, |(![5 / 2, 0, 0] : Vec 3) j| ≤ 5 / 2 := fun j => by fin_cases j <;> norm_num [abs_of_pos]
  match π, hπ with
  | [], _ =>
    have hn0 : ∀ j, |(Rounded.boxAt flt64.rnd r []).center j| ≤ 8 / 5 := fun j => by
      have a := hc j
      show |r.center j| ≤ 8 / 5
      linarith
    refine offCentre_of (a := 9 / 10) (B := 41 / 10) (Or.inl ?_) (fun j => ?_) (by norm_num) (by norm_num) (by norm_num) (by linarith)
    · rw [x0]
      have := abs_le.mp (hn0 0)
      exact le_trans (by linarith [this.1, this.2]) (le_abs_self _)
    · exact (abs_sub _ _).trans (by linarith [xj j, hn0 j])
  | [i], _ =>
    have hcc : ∀ j, |(boxAt r.exact [i]).center j - r.center j| = r.len / 4 := fun j => by
      have := Fl3.child_center r.exact i [] j
      rw [List.length_nil, zero_add] at this
      have e : |Fl3.side r.exact 1 / 2| = r.len / 4 := by
        have : Fl3.side r.exact 1 / 2 = r.len / 4 := by
          show r.len / 2 ^ 1 / 2 = r.len / 4
          ring
        rw [this, abs_of_pos (by linarith)]
      rw [e] at this
      exact this
    refine offCentre_of (a := 7 / 10) (B := 7) (Or.inr ?_) (fun j => ?_) (by norm_num) (by norm_num) (by norm_num) (by linarith)
    · rw [x1, zero_sub, abs_neg]
      have a1 := hn 1
      have a2 := hcc 1
      have a3 := hc 1
      have a4 := abs_sub_abs_le_abs_sub ((boxAt r.exact [i]).center 1 - r.center 1) (-r.center 1)
      have a5 := abs_sub_abs_le_abs_sub ((boxAt r.exact [i]).center 1) ((Rounded.boxAt flt64.rnd r [i]).center 1)
      rw [abs_sub_comm] at a5
      rw [sub_neg_eq_add, sub_add_cancel, abs_neg] at a4
      linarith
    · have a1 := hn j
      have a2 := hcc j
      have a3 := hc j
      have a4 := abs_sub_le (![5 / 2, 0, 0] j) 0 ((Rounded.boxAt flt64.rnd r [i]).center j)
      have a5 := abs_sub_le 0 ((boxAt r.exact [i]).center j) ((Rounded.boxAt flt64.rnd r [i]).center j)
      have a6 := abs_sub_le 0 (r.center j) ((boxAt r.exact [i]).center j)
      rw [sub_zero] at a4
      rw [zero_sub, abs_neg, zero_sub, abs_neg, abs_sub_comm] at a6
      rw [zero_sub, abs_neg, zero_sub, abs_neg, abs_sub_comm ((boxAt r.exact [i]).center j)] at a5
      rw [zero_sub, abs_neg] at a4
      linarith [xj j]
  | _ :: _ :: _, hπ => simp at hπ; omega

theorem S8_dist5 (s : Source 3) (hs : s ∈ S8) : 1 / 36 ≤ dist2 s.pos ![5 / 2, 0, 0] ∧ dist2 s.pos ![5 / 2, 0, 0] ≤ 1 / (1 / 36) := by
  simp only [S8, List.mem_cons, List.not_mem_nil, or_false] at hs
  rcases hs with rfl | rfl | rfl | rfl | rfl | rfl | rfl | rfl <;>
    (unfold dist2; rw [Fin.sum_univ_three]; simp; constructor
     · exact Real.le_sqrt_of_sq_le (by norm_num)
     · rw [Real.sqrt_le_left (by norm_num)]; norm_num)

/-- Non-vacuity: the force of eight charges at `(5/2, 0, 0)`. -/
example : ∃ r h f T, Rounded.sourceBox flt64.rnd S8 = some r ∧ h ≤ 1 ∧
    Rounded.adaptiveFmm flt64.rnd flt64.rlog flt64.nrm3 (kit64 (libOf flt64)) f (fun _ l => l.reverse) () S8 1 4 = .ok T ∧ T.order = 1 ∧
    VNearOrBad3 (dblForce3 flt64 (libOf flt64) 0 f true T S8 ![5 / 2, 0, 0]) (directField true S8 ![5 / 2, 0, 0] 0)
      (forceErrorLow3 (1 / 2 ^ 49) (1 / 2 ^ 5) (2 ^ 37) (2 ^ 15) (r.len / 2 ^ h) S8 1 h (8 * (h * 8) + 1) 0 ![5 / 2, 0, 0]) := by
  obtain ⟨r, h, f, h0, k1, k2, k3, h1, h2⟩ := C112_well_placed (max := 1) (k := 5) flt64_is lowD_flt64 lib64 S8_moderate (by norm_num) S8_placed
    (by norm_num) (by norm_num) le_rfl S8_order64 one_pos (by norm_num)
  obtain ⟨T, t1, t2, t3, t4⟩ := h2 f le_rfl (fun _ (l : List Path) => l.reverse) (fun _ l => l.reverse_perm)
  exact ⟨r, h, f, T, h0, h1, t1, t2, t4 ![5 / 2, 0, 0] S8_dist5 (fun π hπ => S8_axes64 (by linarith) (by linarith) k3 h1 hπ) true 0 le_rfl
    (by norm_num)⟩

end FMM
