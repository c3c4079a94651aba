import Verif.FltOpsLE3
import Verif.FltIeee3
import Verif.PropsExp3

/-!
# C83, C84: the expansions in space and their translations in floating-point arithmetic

Every bound is the sum of the truncation error (exact arithmetic) and a multiple `(1 + u)^n - 1` of a majorant of the terms
that are summed up; `u` is the accuracy of a single operation, `g` that of the Legendre functions of the library.
-/

namespace FMM
open Finset

/-- Error of the spherical harmonics of degree `l`.  The last term is of order `√u`: the library gets `cos θ` and recovers
`sin θ` from it. -/
noncomputable def harmonicError (u g : ℝ) (l : ℕ) : ℝ :=
  ((1 + u) ^ (6 * l + 4) - 1) + (1 + u) ^ (6 * l + 4) * (Real.sqrt (2 * l + 1) * g) + l * (Real.sqrt (18 * u) + 2 * u)

/-- Error of one operation on expansions of order `p`. -/
noncomputable def opError (u g : ℝ) (p : ℕ) : ℝ :=
  Real.sqrt (2 * p + 1) * ((1 + u) ^ ((p + 1) ^ 2 + 15 * p + 46) * (1 + harmonicError u g (2 * p)) - 1)

/-- `κ` roundings are as much as one operation on expansions of order `p`. -/
def OpCost (u g : ℝ) (p κ : ℕ) : Prop := 1 + opError u g p ≤ (1 + u) ^ κ

theorem opError_eq (u g : ℝ) (p : ℕ) : Fl3.kap u g p = opError u g p := by
  unfold Fl3.kap opError Fl3.eta Fl3.eps Fl3.tEr Fl3.roundings
  have : (p + 1) ^ 2 + 15 * p + 46 = (p + 1) ^ 2 + 3 * p + 40 + (12 * p + 6) := by ring
  rw [this, pow_add (1 + u) ((p + 1) ^ 2 + 3 * p + 40)]
  show _ * ((1 + u) ^ _ * (1 + ((1 + u) ^ _ * (1 + harmonicError u g (2 * p)) - 1)) - 1) = _
  ring

theorem OpCost.cost {u g : ℝ} {p κ : ℕ} (h : OpCost u g p κ) : Fl3.Cost u g p κ := by
  unfold Fl3.Cost; rw [opError_eq]; exact h

/-- There always is such a number. -/
theorem OpCost.exists {u g : ℝ} (hu : 0 < u) (p : ℕ) : ∃ κ, OpCost u g p κ :=
  (pow_unbounded_of_one_lt (1 + opError u g p) (by linarith : 1 < 1 + u)).imp fun _ h => h.le

variable {F : Flt3} {u g : ℝ}

/-- The multipole expansions of the groups `G` of sources about their own centres, one after the other. -/
noncomputable def groupMEs3 (F : Flt3) (order : ℕ) :
    List (Vec 3 × List (Source 3)) → Stat3 → Outcome (Stat3 × List Exp3)
  | [], st => .ok (st, [])
  | g :: G, st => do
      let (st, e) ← Fl3.meOfSources F st g.1 order g.2
      let (st, es) ← groupMEs3 F order G st
      .ok (st, e :: es)

/-- Evaluation of a computed multipole expansion. -/
theorem AppM3.eval (hF : F.Ok u g) {n p κ : ℕ} (hκ : OpCost u g p κ) {e : Exp3} {c : Vec 3} {S : List (Source 3)} {R r : ℝ}
    (hR : 0 ≤ R) (he : Fl3.AppM3 u n e c p (meCoeff3 c S) (totalStrength S) R) (hS : ∀ s ∈ S, dist2 s.pos c ≤ R) {x : Vec 3}
    (hr : R < r) (hx : r ≤ dist2 x c) :
    ∃ v, Fl3.mePot F e x = .ok v ∧ |v - directPotential true S x| ≤
      (S.map fun s => |s.q|).sum / (r - R) * ((R / r) ^ (p + 1) + ((1 + u) ^ (n + κ) - 1)) := by
  obtain ⟨v, h1, h2, -⟩ := Fl3.mePot_ap hF hκ.cost he (totalStrength_nonneg S) hR hr (by rw [len3_eq_dist2]; exact hx)
  refine ⟨v, h1, ?_⟩
  have h3 := me_bound3 c x p S hS hr hx
  rw [Real.norm_eq_abs] at h2
  have := abs_sub_le v (-(meSum3 (meCoeff3 c S) p (x - c)).re) (directPotential true S x)
  rw [totalStrength_sum]
  have e : totalStrength S / (r - R) * ((R / r) ^ (p + 1) + ((1 + u) ^ (n + κ) - 1))
      = totalStrength S * ((R / r) ^ (p + 1) / (r - R)) + ((1 + u) ^ (n + κ) - 1) * (totalStrength S * (r - R)⁻¹) := by
    rw [← one_div (r - R)]; ring
  rw [e]
  linarith

/-- **C83** Potential of the computed multipole expansion of sources within distance `R` of its centre, at a point at
distance at least `r > R`. -/
theorem C83_multipole (hF : F.Ok u g) {p κ : ℕ} (hκ : OpCost u g p κ) (st : Stat3) (hst : Reachable3 st) (center : Vec 3)
    (hp : p ≤ 42) (S : List (Source 3)) (x : Vec 3) {R r : ℝ} (hR : 0 ≤ R) (hS : ∀ s ∈ S, dist2 s.pos center ≤ R)
    (hr : R < r) (hx : r ≤ dist2 x center) :
    ∃ st' e v, Fl3.meOfSources F st center p S = .ok (st', e) ∧ Fl3.mePot F e x = .ok v ∧
      |v - directPotential true S x| ≤
        (S.map fun s => |s.q|).sum / (r - R) * ((R / r) ^ (p + 1) + ((1 + u) ^ (S.length + 2 * κ) - 1)) := by
  obtain ⟨st', e, h1, -, -, -, h2⟩ := Fl3.meOfSources_ap hF hκ.cost st hst.good.1 center hp (R := R) S
    fun s hs => by rw [len3_eq_dist2]; exact hS s hs
  obtain ⟨v, h3, h4⟩ := AppM3.eval hF hκ hR h2 hS hr hx
  rw [show S.length + κ + κ = S.length + 2 * κ by omega] at h4
  exact ⟨st', e, v, h1, h3, h4⟩

/-- The multipole expansions of groups of sources. -/
theorem groupMEs3_ap (hF : F.Ok u g) {p κ : ℕ} (hκ : OpCost u g p κ) (hp : p ≤ 42) {R : ℝ} (hR : 0 ≤ R) {N : ℕ}
    (G : List (Vec 3 × List (Source 3))) (hG : ∀ g ∈ G, g.2.length ≤ N ∧ ∀ s ∈ g.2, dist2 s.pos g.1 ≤ R)
    (st : Stat3) (hst : st.Good) :
    ∃ st' es, groupMEs3 F p G st = .ok (st', es) ∧ st'.Good ∧ List.Forall₂ (fun g e =>
      Fl3.AppM3 u (N + κ) e g.1 p (meCoeff3 g.1 g.2) (totalStrength g.2) R) G es := by
  induction G generalizing st with
  | nil => exact ⟨st, [], rfl, hst, .nil⟩
  | cons g G ih =>
    obtain ⟨hn, hs⟩ := hG g (by simp)
    obtain ⟨st1, e, h1, h2, -, -, h3⟩ := Fl3.meOfSources_ap hF hκ.cost st hst g.1 hp (R := R) g.2
      fun s h => by rw [len3_eq_dist2]; exact hs s h
    obtain ⟨st2, es, h4, h5, h6⟩ := ih (fun g' hg' => hG g' (by simp [hg'])) st1 h2
    refine ⟨st2, e :: es, ?_, h5, .cons (h3.mono hF.nonneg (by omega) le_rfl (totalStrength_nonneg _) hR le_rfl) h6⟩
    rw [groupMEs3, h1, ok_bind]
    simp only
    rw [h4, ok_bind]

/-- **C83** The same after translation: groups of at most `N` sources, each within `R` of the centre of its group, whose
expansions are translated to a common centre at distance at most `σ` from the centres of the groups and added up. -/
theorem C83_translated (hF : F.Ok u g) {p κ : ℕ} (hκ : OpCost u g p κ) (st : Stat3) (hst : Reachable3 st) (center : Vec 3)
    (hp0 : 0 < p) (hp : p ≤ 42) (G : List (Vec 3 × List (Source 3))) (hne : G ≠ []) {N : ℕ} (x : Vec 3) {R σ r : ℝ} (hR : 0 ≤ R)
    (hG : ∀ g ∈ G, g.2.length ≤ N ∧ (∀ s ∈ g.2, dist2 s.pos g.1 ≤ R) ∧ dist2 g.1 center ≤ σ) (hr : R + σ < r)
    (hx : r ≤ dist2 x center) :
    ∃ st' es st'' e v, groupMEs3 F p G st = .ok (st', es) ∧ Fl3.meOfMes F st' center es = .ok (st'', e) ∧
      Fl3.mePot F e x = .ok v ∧
      |v - directPotential true (G.flatMap (·.2)) x| ≤ ((G.flatMap (·.2)).map fun s => |s.q|).sum / (r - (R + σ)) *
        (((R + σ) / r) ^ (p + 1) + ((1 + u) ^ (N + G.length + 3 * κ) - 1)) := by
  have hσ : 0 ≤ σ := by
    obtain ⟨g, hg⟩ := List.exists_mem_of_ne_nil G hne
    exact (dist2_nonneg _ _).trans (hG g hg).2.2
  obtain ⟨st', es, h1, h2, h3⟩ := groupMEs3_ap hF hκ hp hR G (N := N) (fun g hg => ⟨(hG g hg).1, (hG g hg).2.1⟩) st hst.good.1
  have hlen := h3.length_eq
  let L : List (Exp3 × Vec 3 × List (Source 3)) := (List.zip G es).map fun y => (y.2, y.1.1, y.1.2)
  have hL1 : L.map (·.1) = es := by
    simp only [L, List.map_map]
    exact List.map_snd_zip hlen.ge
  have hL2 : L.flatMap (·.2.2) = G.flatMap (·.2) := by
    have : G = (List.zip G es).map Prod.fst := (List.map_fst_zip hlen.le).symm
    conv_rhs => rw [this]
    simp only [L, List.flatMap_map]
  have hL3 : L.length = G.length := by simp [L, ← hlen]
  obtain ⟨st'', e, h4, -, -, -, h5⟩ := Fl3.meOfMes_ap hF hκ.cost st' h2 center hp hp0 (n := N + κ) (σ := σ) hR L (by
      intro h; rw [h] at hL3; exact hne (List.eq_nil_of_length_eq_zero hL3.symm)) (by
    intro y hy
    obtain ⟨⟨g, e⟩, hz, rfl⟩ := List.mem_map.mp hy
    refine ⟨(List.forall₂_iff_zip.mp h3).2 hz, ?_⟩
    rw [len3_eq_dist2]
    exact (hG g (List.of_mem_zip hz).1).2.2)
  rw [hL1] at h4
  rw [hL2, hL3] at h5
  have hS' : ∀ s ∈ G.flatMap (·.2), dist2 s.pos center ≤ R + σ := by
    intro s hs
    obtain ⟨g, hg, hsg⟩ := List.mem_flatMap.mp hs
    have a := (hG g hg).2.1 s hsg
    have b := (hG g hg).2.2
    have := dist2_triangle3 s.pos g.1 center
    linarith
  obtain ⟨v, h6, h7⟩ := AppM3.eval hF hκ (add_nonneg hR hσ) h5 hS' hr hx
  rw [show N + κ + κ + G.length + κ = N + G.length + 3 * κ by omega] at h7
  exact ⟨st', es, st'', e, v, h1, h4, h6, h7⟩

/-! ## Local expansions -/

/-- **C84** Potential of the computed local expansion of sources at distance at least `D` from its centre, at a point at
distance at most `r < D`. -/
theorem C84_sources (hF : F.Ok u g) {p κ : ℕ} (hκ : OpCost u g p κ) (st : Stat3) (hst : Reachable3 st) (center : Vec 3)
    (hp : p ≤ 42) (S : List (Source 3)) (x : Vec 3) {r D : ℝ} (hr : 0 ≤ r) (hrD : r < D)
    (hS : ∀ s ∈ S, D ≤ dist2 s.pos center) (hx : dist2 x center ≤ r) :
    ∃ st' e v, Fl3.leOfSources F st center p S = .ok (st', e) ∧ Fl3.lePot F e x = .ok v ∧
      |v - directPotential true S x| ≤
        (S.map fun s => |s.q|).sum / (D - r) * ((r / D) ^ (p + 1) + ((1 + u) ^ (S.length + 2 * κ) - 1)) := by
  obtain ⟨st', e, h1, -, -, -, h2⟩ := Fl3.leOfSources_ap hF hκ.cost st hst.good.1 center hp hr hrD S
    fun s hs => by rw [len3_eq_dist2]; exact hS s hs
  obtain ⟨v, h3, h4, -⟩ := Fl3.lePot_ap hF hκ.cost h2 (x := x) (by rw [len3_eq_dist2]; exact hx)
  refine ⟨st', e, v, h1, h3, ?_⟩
  have h5 := le_bound3 center x p S hx hrD hS
  rw [Real.norm_eq_abs, show S.length + κ + κ = S.length + 2 * κ by omega] at h4
  have := abs_sub_le v (-(leSum3 (leCoeff3 center S) p (x - center)).re) (directPotential true S x)
  rw [totalStrength_sum]
  have e : totalStrength S / (D - r) * ((r / D) ^ (p + 1) + ((1 + u) ^ (S.length + 2 * κ) - 1))
      = totalStrength S * ((r / D) ^ (p + 1) / (D - r)) + ((1 + u) ^ (S.length + 2 * κ) - 1) * (totalStrength S * (D - r)⁻¹) := by
    rw [← one_div (D - r)]; ring
  rw [e]
  linarith

/-- **C84** The whole chain: multipole expansion about `c`, conversion to a local expansion about `c'`, translation to
`c''`, evaluation at `x`. -/
theorem C84_chain (hF : F.Ok u g) {p κ : ℕ} (hκ : OpCost u g p κ) (st : Stat3) (hst : Reachable3 st) (c c' c'' : Vec 3)
    (hp0 : 0 < p) (hp : p ≤ 42) (S : List (Source 3)) (x : Vec 3) {R r D : ℝ} (hR : 0 ≤ R) (hS : ∀ s ∈ S, dist2 s.pos c ≤ R)
    (hx : dist2 x c'' + dist2 c' c'' ≤ r) (hD : D ≤ dist2 c c') (hRD : R + r < D) :
    ∃ st1 e st2 f st3 g v, Fl3.meOfSources F st c p S = .ok (st1, e) ∧ Fl3.leOfMe F st1 c' e = .ok (st2, f) ∧
      Fl3.leOfLe F st2 c'' f = .ok (st3, g) ∧ Fl3.lePot F g x = .ok v ∧
      |v - directPotential true S x| ≤ (S.map fun s => |s.q|).sum / (D - (R + r)) *
        (((R + r) / D) ^ (p + 1) + Real.sqrt (2 * p + 1) * ((1 + u) ^ (S.length + 4 * κ) - 1)) := by
  have hr : 0 ≤ r := le_trans (add_nonneg (dist2_nonneg _ _) (dist2_nonneg _ _)) hx
  have hA := totalStrength_nonneg S
  obtain ⟨st1, e, h1, h2, -, -, h3⟩ := Fl3.meOfSources_ap hF hκ.cost st hst.good.1 c hp (R := R) S
    fun s hs => by rw [len3_eq_dist2]; exact hS s hs
  obtain ⟨st2, f, h4, h5, -, -, h6⟩ := Fl3.leOfMe_ap hF hκ.cost st1 h2 h3 hA hR hp hp0 c' hr hRD
    (by rw [len3_eq_dist2]; exact hD)
  obtain ⟨st3, g, h7, -, -, -, h8⟩ := Fl3.leOfLe_ap hF hκ.cost st2 h5 h6 hp hp0 c'' (R' := dist2 x c'') (dist2_nonneg _ _)
    (by rw [len3_eq_dist2]; exact hx)
  obtain ⟨v, h9, h10, -⟩ := Fl3.lePot_ap hF hκ.cost h8 (x := x) (by rw [len3_eq_dist2])
  refine ⟨st1, e, st2, f, st3, g, v, h1, h4, h7, h9, ?_⟩
  have hxc : dist2 x c' ≤ r := by
    have := dist2_triangle3 x c'' c'
    rw [dist2_comm c'' c'] at this
    linarith
  have h11 := m2l_bound3 c c' x p S hS hxc hD (by linarith)
  rw [l2lC_exact, show x - c'' - (c' - c'') = x - c' by abel, Real.norm_eq_abs,
    show S.length + κ + κ + κ + κ = S.length + 4 * κ by omega] at h10
  have := abs_sub_le v (-(leSum3 (m2lC p (meCoeff3 c S) (c - c')) p (x - c')).re) (directPotential true S x)
  rw [totalStrength_sum]
  have e : totalStrength S / (D - (R + r)) * (((R + r) / D) ^ (p + 1) + Real.sqrt (2 * p + 1) * ((1 + u) ^ (S.length + 4 * κ) - 1))
      = totalStrength S * (((r + R) / D) ^ (p + 1) / (D - (r + R)))
        + ((1 + u) ^ (S.length + 4 * κ) - 1) * (Real.sqrt (2 * p + 1) * totalStrength S * (D - R - r)⁻¹) := by
    rw [← one_div (D - R - r), add_comm R r, sub_sub, add_comm R r]; ring
  rw [e]
  linarith

/-! ## `double`s -/

theorem pow_le_one_add {v : ℝ} (hv : 0 ≤ v) (n : ℕ) (h : n * v ≤ 1 / 2) : (1 + v) ^ n ≤ 1 + 2 * (n * v) := by
  induction n with
  | zero => simp
  | succ n ih =>
    push_cast at h ⊢
    have h0 : 0 ≤ (n : ℝ) * v := by positivity
    have := ih (by nlinarith)
    rw [pow_succ]
    have h2 : (1 + v) ^ n * (1 + v) ≤ (1 + 2 * (n * v)) * (1 + v) := mul_le_mul_of_nonneg_right this (by linarith)
    nlinarith

/-- For `double`s and orders at most 42, one operation has a relative error below `2^-12`, as much as `2^37` roundings. -/
theorem double_cost {p : ℕ} (hp : p ≤ 42) : OpCost (1 / 2 ^ 49) (1 / 2 ^ 52) p (2 ^ 37) := by
  have hp' : (p : ℝ) ≤ 42 := by exact_mod_cast hp
  have hsq : Real.sqrt (18 * (1 / 2 ^ 49)) ≤ 1 / 5000000 := by
    rw [Real.sqrt_le_left (by norm_num)]; norm_num
  have hs1 : Real.sqrt (2 * p + 1) ≤ 10 := by
    rw [Real.sqrt_le_left (by norm_num)]; linarith
  have hs2 : Real.sqrt (2 * (2 * p : ℕ) + 1) ≤ 14 := by
    rw [Real.sqrt_le_left (by norm_num)]; push_cast; linarith
  have hpow : ∀ n : ℕ, n ≤ 2600 → ((1 : ℝ) + 1 / 2 ^ 49) ^ n ≤ 1 + 1 / 10 ^ 11 := by
    intro n hn
    have hn' : (n : ℝ) ≤ 2600 := by exact_mod_cast hn
    have h1 : (n : ℝ) * (1 / 2 ^ 49) ≤ 2600 * (1 / 2 ^ 49) := mul_le_mul_of_nonneg_right hn' (by norm_num)
    refine (pow_le_one_add (by norm_num) n (h1.trans (by norm_num))).trans ?_
    have : (2600 : ℝ) * (1 / 2 ^ 49) ≤ 1 / (2 * 10 ^ 11) := by norm_num
    linarith
  have hh : harmonicError (1 / 2 ^ 49) (1 / 2 ^ 52) (2 * p) ≤ 171 / 10 ^ 7 := by
    unfold harmonicError
    have a := hpow (6 * (2 * p) + 4) (by omega)
    have b : Real.sqrt (2 * (2 * p : ℕ) + 1) * (1 / 2 ^ 52) ≤ 14 * (1 / 2 ^ 52) := mul_le_mul_of_nonneg_right hs2 (by norm_num)
    have b0 : 0 ≤ Real.sqrt (2 * (2 * p : ℕ) + 1) * (1 / 2 ^ 52) := by positivity
    have c : ((1 : ℝ) + 1 / 2 ^ 49) ^ (6 * (2 * p) + 4) * (Real.sqrt (2 * (2 * p : ℕ) + 1) * (1 / 2 ^ 52)) ≤ 2 * (14 * (1 / 2 ^ 52)) :=
      mul_le_mul (a.trans (by norm_num)) b b0 (by norm_num)
    have d : ((2 * p : ℕ) : ℝ) * (Real.sqrt (18 * (1 / 2 ^ 49)) + 2 * (1 / 2 ^ 49)) ≤ 84 * (1 / 5000000 + 2 * (1 / 2 ^ 49)) :=
      mul_le_mul (by push_cast; linarith) (by linarith) (by positivity) (by norm_num)
    refine (add_le_add (add_le_add (sub_le_sub_right a 1) c) d).trans ?_
    norm_num
  have h0 : 0 ≤ harmonicError (1 / 2 ^ 49) (1 / 2 ^ 52) (2 * p) := Fl3.yEr_nonneg (by norm_num) (by norm_num) _
  unfold OpCost opError
  have a := hpow ((p + 1) ^ 2 + 15 * p + 46) (by
    have : (p + 1) ^ 2 ≤ 43 ^ 2 := Nat.pow_le_pow_left (by omega) 2
    omega)
  have e1 : ((1 : ℝ) + 1 / 2 ^ 49) ^ ((p + 1) ^ 2 + 15 * p + 46) * (1 + harmonicError (1 / 2 ^ 49) (1 / 2 ^ 52) (2 * p)) - 1
      ≤ (1 + 1 / 10 ^ 11) * (1 + 171 / 10 ^ 7) - 1 :=
    sub_le_sub_right (mul_le_mul a (by linarith) (by linarith) (by norm_num)) 1
  have e2 : (0 : ℝ) ≤ (1 + 1 / 10 ^ 11) * (1 + 171 / 10 ^ 7) - 1 := by norm_num
  have e3 := mul_le_mul_of_nonneg_left e1 (Real.sqrt_nonneg (2 * p + 1))
  have e4 := mul_le_mul_of_nonneg_right hs1 e2
  have e5 : 1 + (2 ^ 37 : ℕ) * (1 / 2 ^ 49 : ℝ) ≤ (1 + 1 / 2 ^ 49) ^ (2 ^ 37) :=
    one_add_mul_le_pow (by norm_num) _
  refine le_trans ?_ e5
  refine (add_le_add le_rfl (e3.trans e4)).trans ?_
  norm_num

/-- Non-vacuity: `double`s, two sources near the origin, a point at distance 4, order 5. -/
example : ∃ v, (∃ st' e, Fl3.meOfSources Flt3.ieee (Stat3.init 0 0 0) 0 5
      [(⟨![1, 0, 0], 1⟩ : Source 3), ⟨![0, 0, -1], 2⟩] = .ok (st', e) ∧ Fl3.mePot Flt3.ieee e ![0, 4, 0] = .ok v) ∧
    |v - directPotential true [(⟨![1, 0, 0], 1⟩ : Source 3), ⟨![0, 0, -1], 2⟩] ![0, 4, 0]| ≤ 1 / 500 := by
  have hs : ∀ s ∈ [(⟨![1, 0, 0], 1⟩ : Source 3), ⟨![0, 0, -1], 2⟩], dist2 s.pos 0 ≤ 1 := by
    intro s hs
    simp only [List.mem_cons, List.not_mem_nil, or_false] at hs
    unfold dist2
    rcases hs with rfl | rfl <;> simp [Fin.sum_univ_three]
  have hd : (4 : ℝ) ≤ dist2 (![0, 4, 0] : Vec 3) 0 := by
    unfold dist2
    refine Real.le_sqrt_of_sq_le ?_
    simp [Fin.sum_univ_three]
  obtain ⟨st', e, v, h1, h2, h3⟩ := C83_multipole Flt3.ieee_ok (double_cost (p := 5) (by norm_num)) _ reachable3_init 0
    (by norm_num) _ ![0, 4, 0] (R := 1) (r := 4) (by norm_num) hs (by norm_num) hd
  refine ⟨v, ⟨st', e, h1, h2⟩, h3.trans ?_⟩
  have e1 : ([(⟨![1, 0, 0], 1⟩ : Source 3), ⟨![0, 0, -1], 2⟩].map fun s => |s.q|).sum = 3 := by simp; norm_num
  have e2 := pow_le_one_add (v := 1 / 2 ^ 49) (by norm_num) ([(⟨![1, 0, 0], 1⟩ : Source 3), ⟨![0, 0, -1], 2⟩].length + 2 * 2 ^ 37)
    (by norm_num)
  rw [e1]
  have e3 : (([(⟨![1, 0, 0], 1⟩ : Source 3), ⟨![0, 0, -1], 2⟩].length + 2 * 2 ^ 37 : ℕ) : ℝ) * (1 / 2 ^ 49) ≤ 1 / 2000 := by
    norm_num
  have e4 := e2.trans (add_le_add le_rfl (mul_le_mul_of_nonneg_left e3 (by norm_num : (0 : ℝ) ≤ 2)))
  generalize ((1 : ℝ) + 1 / 2 ^ 49) ^ (_ : ℕ) = t at e4 ⊢
  norm_num at e4 ⊢
  linarith

/-- Non-vacuity of the chain: there are sources, centres and a point that satisfy the requirements. -/
example : ∃ (S : List (Source 3)) (c c' c'' x : Vec 3) (R r D : ℝ), S ≠ [] ∧ 0 ≤ R ∧ (∀ s ∈ S, dist2 s.pos c ≤ R) ∧
    dist2 x c'' + dist2 c' c'' ≤ r ∧ D ≤ dist2 c c' ∧ R + r < D := by
  refine ⟨[⟨![1, 0, 0], 1⟩], 0, ![4, 0, 0], ![4, 1 / 2, 0], ![4, 1, 0], 1, 1, 4, by simp, by norm_num, ?_, ?_, ?_, by norm_num⟩
  · simp [dist2, Fin.sum_univ_three]
  · have h1 : dist2 (![4, 1, 0] : Vec 3) ![4, 1 / 2, 0] = 1 / 2 := by
      unfold dist2; simp [Fin.sum_univ_three]; rw [Real.sqrt_eq_iff_mul_self_eq] <;> norm_num
    have h2 : dist2 (![4, 0, 0] : Vec 3) ![4, 1 / 2, 0] = 1 / 2 := by
      unfold dist2; simp [Fin.sum_univ_three]
    rw [h1, h2]; norm_num
  · unfold dist2; simp [Fin.sum_univ_three]

end FMM
