import Verif.HighTree
import Verif.PropsLow64

/-!
# C106: no overflow in the two-dimensional solver

If the strengths and the order of the expansions are not too large for the sizes of the boxes, the potentials and forces computed
with `double`s are finite numbers, with the errors of C77.
-/

namespace FMM
open Rounded D64
variable {F : Flt} {log : DC → DC} {θ τ C : ℝ} {r : RBox ℝ 2} {S : List (Source 2)} {max fuel h p m e q : ℕ}

/-- Strengths and sizes that do not overflow with expansions of order `p`: `θ`, the smallest length, is at least `2 ^ (2 - e)`,
and the strengths add up to at most `2 ^ q`. -/
structure NotLarge (S : List (Source 2)) (p : ℕ) (θ : ℝ) (e q : ℕ) : Prop where
  theta : 4 ≤ θ * 2 ^ e
  strength : (S.map fun s => |s.q|).sum ≤ 2 ^ q
  range : q + p * e + 2 * ((p + 3) * (e + 2)) + 3 * p + 23 ≤ 930

/-- The complex logarithm of the library on finite numbers. -/
def LogExact (log : DC → DC) (F : Flt) : Prop := ∀ z : ℂ, z ≠ 0 → log (D2.cfin z) = D2.cfin (F.log z)

/-- The computed number is finite and differs from `v` by at most `e`. -/
def FinNear (P : Outcome Dbl) (v e : ℝ) : Prop := ∃ y, P = .ok (.fin y) ∧ |y - v| ≤ e

/-- The computed vector is finite and differs from `v` by at most `e`. -/
def VFinNear (P : Outcome (DVec 2)) (v : Vec 2) (e : ℝ) : Prop := ∃ y : Vec 2, P = .ok (fun j => .fin (y j)) ∧ dist2 y v ≤ e

theorem NotLarge.fit (hB : NotLarge S p θ e q) : D2.Hi.Fit θ p e q where
  th := hB.theta
  small := by
    have := hB.range
    nlinarith [Nat.zero_le (p * e)]
  room := by
    have := hB.range
    unfold D2.Hi.coExp D2.Hi.pwExp
    omega

theorem NotLarge.total (hB : NotLarge S p θ e q) : FMM.totalStrength S ≤ 2 ^ q := by
  rw [totalStrength_eq]; exact hB.strength

theorem LogExact.of (h : LogExact log F) : D2.LogOf log F := fun z hz => by
  rw [h z hz]; exact D2.agr_cfin _

theorem NearOrBad.fin {P : Outcome Dbl} {v e : ℝ} (h : NearOrBad P v e) (h' : ∃ y, P = .ok (.fin y)) : FinNear P v e := by
  obtain ⟨d, h1, h2⟩ := h
  obtain ⟨y, h3⟩ := h'
  rw [h3] at h1
  injection h1 with h1
  exact ⟨y, h3, h2 y h1.symm⟩

theorem VNearOrBad.fin {P : Outcome (DVec 2)} {v : Vec 2} {e : ℝ} (h : VNearOrBad P v e) (h' : ∃ y : Vec 2, P = .ok (fun j => .fin (y j))) :
    VFinNear P v e := by
  obtain ⟨d, h1, h2⟩ := h
  obtain ⟨y, h3⟩ := h'
  rw [h3] at h1
  injection h1 with h1
  exact ⟨y, h3, h2 y fun j => by rw [← h1]⟩

theorem span_of (hL : 0 < r.len) (hlo : θ ≤ 18 / 25 * (r.len / 2 ^ h)) (hhi : θ * (2 * r.len) ≤ 1) : Lo.Span θ r.exact h :=
  ⟨hlo, by rw [inv_eq_one_div, le_div_iff₀ (by simp only [RBox.exact]; linarith)]; exact hhi⟩

theorem in_root (hin : ∀ s ∈ S, r.exact.contains s.pos) (hL : 0 < r.len) : ∀ s ∈ S, ∀ j, |s.pos j - r.center j| ≤ r.len := fun s hs j => by
  have := (Box.contains_iff _ _).mp (hin s hs) j
  rw [D2.Hi.exact_center, D2.Hi.exact_len] at this
  rw [abs_le]
  constructor <;> linarith [this.1, this.2]

/-- **C106** `double`s: the constructor returns a tree; potential and force at a point of a leaf are finite and have the errors of
C77, if the boxes have sides between `25/18 θ` and `1/(2θ)` and the distances to the sources are at least `θ` or zero. -/
theorem C106_adaptive (hF : D2.Is64 F) (hlog : LogAccurate F) (hlf : LogExact log F) (hM : Moderate S p θ τ) (hB : NotLarge S p θ e q)
    (hlo : θ ≤ 18 / 25 * (r.len / 2 ^ h)) (hhi : θ * (2 * r.len) ≤ 1)
    {t : BinomialTable} (ht : Reachable t) (hL : 0 < r.len) (hC : ∀ i, |r.center i| ≤ C) {eps : ℝ}
    (hord : Rounded.expansionOrder F.rnd F.rlog (Rounded.totalStrength F.rnd S) eps = .ok p) (hp0 : 0 < p)
    (hbox : Rounded.sourceBox F.rnd S = some r) (hin : ∀ s ∈ S, r.exact.contains s.pos) {st : BuildState 2 (Source 2)} {nb : Nbh}
    (hb : Rounded.adaptiveLists F.rnd F.nrm fuel Source.pos r S max = .ok (st, h, nb)) (hf : h < fuel)
    (hk : 100 * ((8 * h + 15) * (1 / 2 ^ 49 * (4 * (C + r.len)))) < r.len / 2 ^ (h + 1)) (hm : Fl.ListsLe st.heap nb m)
    (hn : roundings S.length p h m ≤ 2 ^ 48) {sch : ℕ → List Path → List Path} (hsch : Schedule sch) :
    ∃ T, Rounded.adaptiveFmm F.rnd F.rlog F.nrm (D2.kit log) fuel sch t S max eps = .ok T ∧ T.order = p ∧ T.height = h ∧
      ∀ x l, Rounded.getContainingLeaf F.rnd fuel T.heap x = .ok (some l) → (∀ s ∈ S, s.pos = x ∨ θ ≤ dist2 s.pos x) →
        (∀ j, |x j| ≤ 2 ^ (254 : ℤ)) → ∀ grav,
          FinNear (dblPotential F log fuel grav T S x) (directPotential grav S x) (potError (1 / 2 ^ 49) r.len S p h m x) ∧
          ∀ feps, 0 ≤ feps → feps ≤ 1 / θ ^ 2 → VFinNear (dblForce F log feps fuel grav T S x) (directField grav S x feps)
            (forceError (1 / 2 ^ 49) (r.len / 2 ^ h) S p h m feps x) := by
  have hsp := span_of hL hlo hhi
  have hp : p ≤ 1029 := by have := hB.range; omega
  have hroot := in_root hin hL
  have hC0 : 0 ≤ C := (abs_nonneg _).trans (hC 0)
  have hS : ∀ s ∈ S, ∀ j, |s.pos j| ≤ 2 ^ (251 : ℤ) := fun s hs j =>
    (D2.Hi.root_le hM.scale hB.fit hsp rfl hL hC0 hC hk (hroot s hs) j).trans (two_pow_mono (by norm_num))
  obtain ⟨T, t1, t2, t3, t4⟩ := C105_adaptive hF hlog hlf.of hM hlo hhi hS ht hL hC hord hp0 hp hbox hin hb hf hk hm hsch
  have hq' : ∀ s ∈ S, Flr τ |s.q| := fun s hs => (hM.strength s hs).imp_left fun e => by rw [e, abs_zero]
  obtain ⟨T', u1, u2⟩ := D2.Hi.adaptive_hi hF (hM.low hF hlog) hlf rfl hM.scale hB.fit hsp hM.th1 ht.good hL hC hord hp0 hp hbox hin hb hk hm hq'
    hB.total hn
  have hT : T = T' := by
    have := (t1.symm.trans (u1 sch hsch))
    injection this
  subst hT
  refine ⟨T, t1, t2, t3, fun x l hl hd hx grav => ?_⟩
  obtain ⟨lf, g1, g2⟩ := u2 x
  have hl' := hl
  rw [g1 fuel hf] at hl'
  injection hl' with hl'
  obtain ⟨a, b⟩ := t4 x l hl hd hx grav
  obtain ⟨c, d⟩ := g2 l hl' hd fuel hf grav S
  exact ⟨a.fin c, fun feps h0 h1 => (b feps h0 h1).fin (d feps h0 h1 (h1.trans (hM.eps hp0)))⟩

/-- **C106** At distances between `θ` and `2/θ` from all sources, potential and force are finite with the errors of C77, in and
outside of the leaves. -/
theorem C106_everywhere (hF : D2.Is64 F) (hlog : LogAccurate F) (hlf : LogExact log F) (hM : Moderate S p θ τ) (hB : NotLarge S p θ e q)
    (hlo : θ ≤ 18 / 25 * (r.len / 2 ^ h)) (hhi : θ * (2 * r.len) ≤ 1)
    {t : BinomialTable} (ht : Reachable t) (hL : 0 < r.len) (hC : ∀ i, |r.center i| ≤ C) {eps : ℝ}
    (hord : Rounded.expansionOrder F.rnd F.rlog (Rounded.totalStrength F.rnd S) eps = .ok p) (hp0 : 0 < p)
    (hbox : Rounded.sourceBox F.rnd S = some r) (hin : ∀ s ∈ S, r.exact.contains s.pos) {st : BuildState 2 (Source 2)} {nb : Nbh}
    (hb : Rounded.adaptiveLists F.rnd F.nrm fuel Source.pos r S max = .ok (st, h, nb)) (hf : h < fuel)
    (hk : 100 * ((8 * h + 15) * (1 / 2 ^ 49 * (4 * (C + r.len)))) < r.len / 2 ^ (h + 1)) (hm : Fl.ListsLe st.heap nb m)
    (hn : roundings S.length p h m ≤ 2 ^ 48) {sch : ℕ → List Path → List Path} (hsch : Schedule sch) :
    ∃ T, Rounded.adaptiveFmm F.rnd F.rlog F.nrm (D2.kit log) fuel sch t S max eps = .ok T ∧ T.order = p ∧ T.height = h ∧
      ∀ x, (∀ s ∈ S, θ ≤ dist2 s.pos x ∧ dist2 s.pos x ≤ 2 / θ) → ∀ grav,
          FinNear (dblPotential F log fuel grav T S x) (directPotential grav S x) (potError (1 / 2 ^ 49) r.len S p h m x) ∧
          ∀ feps, 0 ≤ feps → feps ≤ 1 / θ ^ 2 → VFinNear (dblForce F log feps fuel grav T S x) (directField grav S x feps)
            (forceError (1 / 2 ^ 49) (r.len / 2 ^ h) S p h m feps x) := by
  have hsp := span_of hL hlo hhi
  have hp : p ≤ 1029 := by have := hB.range; omega
  have hroot := in_root hin hL
  have hC0 : 0 ≤ C := (abs_nonneg _).trans (hC 0)
  have hSb : ∀ s ∈ S, ∀ j, |s.pos j| ≤ 2 ^ (250 : ℤ) := fun s hs j =>
    D2.Hi.root_le hM.scale hB.fit hsp rfl hL hC0 hC hk (hroot s hs) j
  obtain ⟨T, t1, t2, t3, t4⟩ := C106_adaptive hF hlog hlf hM hB hlo hhi ht hL hC hord hp0 hbox hin hb hf hk hm hn hsch
  have hlow := hM.low hF hlog
  have hq' : ∀ s ∈ S, Flr τ |s.q| := fun s hs => (hM.strength s hs).imp_left fun e => by rw [e, abs_zero]
  obtain ⟨T', u1, u2⟩ := D2.Hi.adaptive_hi hF hlow hlf rfl hM.scale hB.fit hsp hM.th1 ht.good hL hC hord hp0 hp hbox hin hb hk hm hq'
    hB.total hn
  have hT : T = T' := by
    have := (t1.symm.trans (u1 sch hsch))
    injection this
  subst hT
  refine ⟨T, t1, t2, t3, fun x hx grav => ?_⟩
  have h0 := hM.th0
  obtain ⟨s0, hs0⟩ : ∃ s, s ∈ S := by
    cases S with
    | nil => simp [Rounded.sourceBox] at hbox
    | cons s S => exact ⟨s, by simp⟩
  have hxb : ∀ j, |x j| ≤ 2 ^ (254 : ℤ) := fun j => by
    have h1 := (hx s0 hs0).2
    have h2 : |s0.pos j - x j| ≤ dist2 s0.pos x := by
      rw [← norm_toC_sub]
      fin_cases j
      · exact Complex.abs_re_le_norm (toC s0.pos - toC x)
      · exact Complex.abs_im_le_norm (toC s0.pos - toC x)
    have h3 := hSb s0 hs0 j
    have h4 : 2 / θ ≤ 2 * 2 ^ (128 : ℤ) := by rw [show 2 / θ = 2 * (1 / θ) by ring]; linarith [hM.inv hp0]
    have h5 : |x j| ≤ |s0.pos j| + |s0.pos j - x j| := by
      have := abs_sub (s0.pos j) (s0.pos j - x j)
      rwa [sub_sub_cancel] at this
    have h6 : (2 : ℝ) ^ (254 : ℤ) = 2 ^ (250 : ℤ) * 16 := by rw [show (254 : ℤ) = 250 + 4 by norm_num, zpow_add₀ (by norm_num)]; norm_num
    have h7 : (2 : ℝ) ^ (128 : ℤ) ≤ 2 ^ (250 : ℤ) := two_pow_mono (by norm_num)
    linarith
  obtain ⟨lf, g1, g2⟩ := u2 x
  cases lf with
  | some l => exact t4 x l (g1 fuel hf) (fun s hs => Or.inr (hx s hs).1) hxb grav
  | none =>
    have hne : ∀ s ∈ S, s.pos ≠ x := fun s hs e => by
      have := (hx s hs).1
      rw [e, ← norm_toC_sub, sub_self, norm_zero] at this
      linarith
    have hN : S.length ≤ 2 ^ 50 := le_trans (by unfold roundings; omega) (hn.trans (by norm_num : 2 ^ 48 ≤ 2 ^ 50))
    have hcl : ∀ s ∈ S, Lo.Clear θ x s := fun s hs => Or.inr (hx s hs)
    have hall : ∀ s ∈ S, D2.Mod s.pos ∧ Lo.Clear θ x s ∧ |s.q| ≤ 2 ^ q := fun s hs =>
      ⟨fun j => (hSb s hs j).trans (two_pow_mono (by norm_num)), hcl s hs, (D2.Hi.strength_le hs).trans hB.total⟩
    constructor
    · obtain ⟨v, v1, v2⟩ := Lo.potentialSum_unsafe hlow hM.scale grav S x hcl hq' hne
      obtain ⟨w, k1, k2⟩ := D2.Hi.potentialSum_hi hF hlow hM.scale hB.fit grav false hxb hall hN v v1
      refine ⟨v, ?_, (v2.1 : |v - directPotential grav S x| ≤ _).trans (direct_le_potError hlow.nonneg _ _)⟩
      unfold dblPotential Rounded.adaptiveEval
      rw [g1 fuel hf]
      show (Except.ok (D64.potentialSum2 grav false S x) : Outcome Dbl) = _
      rw [k1, k2.1]
    · intro feps he he'
      obtain ⟨v, v1, v2⟩ := Lo.forcefieldSum_unsafe hlow hM.scale hp0 hM.th1 grav S x feps he he' hcl hq' hne
      obtain ⟨w, k1, k2⟩ := D2.Hi.forcefieldSum_hi hF hlow hM.scale hB.fit grav false hxb hp0 hM.th1 he
        (by rw [abs_of_nonneg he]; exact he'.trans (hM.eps hp0)) hall (Or.inr hne) hN v v1
      refine ⟨v, ?_, ?_⟩
      · unfold dblForce Rounded.adaptiveEval
        rw [g1 fuel hf]
        show (Except.ok (D64.forcefieldSum2 grav false S x feps) : Outcome (DVec 2)) = _
        rw [k1]
        congr 1
        exact funext fun j => (k2 j).1
      · have e : dist2 v (directField grav S x feps) = ‖toC v - toC (directField grav S x feps)‖ := (norm_toC_sub _ _).symm
        rw [e]
        exact (v2.1).trans (direct_le_forceError hlow.nonneg (by positivity) _ he)

/-- **C106** Hypotheses about the sources only. -/
theorem C106_well_placed {M a : ℝ} {k : ℕ} (hF : D2.Is64 F) (hlog : LogAccurate F) (hlf : LogExact log F)
    (hM : Moderate S p θ τ) (hB : NotLarge S p θ e q) (hW : WellPlaced (1 / 2 ^ 49) S M a k) (hlo : θ ≤ 36 / 25 * (a / 2 ^ k)) (hhi : θ * (6 * M) ≤ 1)
    (hmax : 1 ≤ max) {t : BinomialTable} (ht : Reachable t) {eps : ℝ}
    (hord : Rounded.expansionOrder F.rnd F.rlog (Rounded.totalStrength F.rnd S) eps = .ok p) (hp0 : 0 < p)
    (hn : roundings S.length p k (4 * (k * S.length) + 1) ≤ 2 ^ 48) :
    ∃ r h fuel, Rounded.sourceBox F.rnd S = some r ∧ 2 * a < r.len ∧ r.len ≤ 3 * M ∧ h ≤ k ∧ ∀ f ≥ fuel, ∀ sch, Schedule sch →
      ∃ T, Rounded.adaptiveFmm F.rnd F.rlog F.nrm (D2.kit log) f sch t S max eps = .ok T ∧ T.order = p ∧ T.height = h ∧
        ∀ x, (∀ s ∈ S, θ ≤ dist2 s.pos x ∧ dist2 s.pos x ≤ 2 / θ) → ∀ grav,
          FinNear (dblPotential F log f grav T S x) (directPotential grav S x)
            (potError (1 / 2 ^ 49) r.len S p h (4 * (h * S.length) + 1) x) ∧
          ∀ feps, 0 ≤ feps → feps ≤ 1 / θ ^ 2 → VFinNear (dblForce F log feps f grav T S x) (directField grav S x feps)
            (forceError (1 / 2 ^ 49) (r.len / 2 ^ h) S p h (4 * (h * S.length) + 1) feps x) := by
  have hθ0 := hM.th0
  have hη := hM.floor_le hp0
  have hθ := hM.theta hp0
  have ha := hW.pos
  have hη1 : floor64 θ ≤ 1 / 100000 :=
    hη.trans ((two_pow_mono (by norm_num : (-507 : ℤ) ≤ -20)).trans (by norm_num))
  have haM : a ≤ M := by
    obtain ⟨s, hs, h1⟩ := hW.high 0
    exact h1.trans ((le_abs_self _).trans (hW.bound s hs 0))
  have hηM : 1000 * floor64 θ ≤ M := by
    have h1 : θ ≤ 36 / 25 * a := by
      refine hlo.trans (mul_le_mul_of_nonneg_left (div_le_self ha.le (one_le_pow₀ (by norm_num))) (by norm_num))
    have h2 : (2 : ℝ) ^ (-507 : ℤ) ≤ 2 ^ (-140 : ℤ) := two_pow_mono (by norm_num)
    have h3 : (2 : ℝ) ^ (-128 : ℤ) = 2 ^ (-140 : ℤ) * 4096 := by
      rw [show (-128 : ℤ) = -140 + 12 by norm_num, zpow_add₀ (by norm_num)]; norm_num
    have := two_pow_pos (-140)
    linarith
  have hlow := hM.low hF hlog
  have hsc := hM.scale
  obtain ⟨r, h0, h1, h2, h3, h4⟩ := hW.box_low hlow hη1 (by linarith)
  have hL : 0 < r.len := by linarith
  have hθη : floor64 θ ≤ θ := hsc.le le_rfl
  have hη0 := hsc.eta
  obtain ⟨fuel, st, h, nb, hh, hf, hk, hm⟩ := hW.lists_low hlow hlow.nrm (by linarith) (by
    have : (36 : ℝ) / 25 * (a / 2 ^ k) ≤ 2 * a / 2 ^ k := by
      rw [mul_div_assoc]; exact mul_le_mul_of_nonneg_right (by norm_num) (by positivity)
    linarith) h1 h2 h3 h4 hmax
  have e1 : 2 * a / 2 ^ k ≤ r.len / 2 ^ h := by
    refine (div_le_div_of_nonneg_right h1.le (by positivity)).trans ?_
    exact div_le_div_of_nonneg_left hL.le (by positivity) (pow_le_pow_right₀ (by norm_num) hh)
  refine ⟨r, h, fuel + h + 1, h0, h1, h2, hh, fun f hge sch hsch => ?_⟩
  have hmm : 4 * (h * S.length) + 1 ≤ 4 * (k * S.length) + 1 := by
    have := Nat.mul_le_mul_right S.length hh
    omega
  exact C106_everywhere (m := 4 * (h * S.length) + 1) hF hlog hlf hM hB (by rw [mul_div_assoc] at e1; linarith) (by nlinarith) ht hL h3 hord hp0 h0 h4 (hf f (by omega)) (by omega)
    hk hm (by
      refine le_trans ?_ hn
      unfold roundings
      have := Nat.mul_le_mul hh (by omega : 6 * p + 9 + (4 * (h * S.length) + 1) ≤ 6 * p + 9 + (4 * (k * S.length) + 1))
      omega) hsch

/-! ## An instance -/

theorem S4_notLarge : NotLarge S4 1 (1 / 18) 7 2 where
  theta := by norm_num
  strength := by
    simp only [S4, List.map_cons, List.map_nil, List.sum_cons, List.sum_nil, abs_one]
    norm_num
  range := by norm_num

theorem logExact_logOf : LogExact (D2.logOf F) F := fun _ _ => rfl

/-- Non-vacuity: the potential and the force of four charges at the centre of their square. -/
example : ∃ r h f T, Rounded.sourceBox D2.flt64.rnd S4 = some r ∧ h ≤ 1 ∧
    Rounded.adaptiveFmm D2.flt64.rnd D2.flt64.rlog D2.flt64.nrm (D2.kit (D2.logOf D2.flt64)) f (fun _ l => l.reverse) BinomialTable.init S4 1 2 = .ok T ∧
    T.order = 1 ∧
    FinNear (dblPotential D2.flt64 (D2.logOf D2.flt64) f true T S4 0) (directPotential true S4 0)
      (potError (1 / 2 ^ 49) r.len S4 1 h (4 * (h * 4) + 1) 0) ∧
    VFinNear (dblForce D2.flt64 (D2.logOf D2.flt64) 0 f true T S4 0) (directField true S4 0 0)
      (forceError (1 / 2 ^ 49) (r.len / 2 ^ h) S4 1 h (4 * (h * 4) + 1) 0 0) := by
  obtain ⟨r, h, f, h0, -, -, h1, h2⟩ := C106_well_placed (max := 1) D2.flt64_is logAccurate_flt64 logExact_logOf S4_moderate S4_notLarge S4_placed
    (by norm_num) (by norm_num) le_rfl reachable_init S4_order64 one_pos (by simp [roundings, S4])
  obtain ⟨T, t1, t2, t3, t4⟩ := h2 f le_rfl (fun _ (l : List Path) => l.reverse) (fun _ l => l.reverse_perm)
  obtain ⟨a, b⟩ := t4 0 S4_dist true
  exact ⟨r, h, f, T, h0, h1, t1, t2, a, b 0 le_rfl (by norm_num)⟩

end FMM
