import Verif.FltBalanced3
import Verif.PropsFltTree3

/-!
# C86: the balanced tree in space, in floating-point arithmetic: potentials
-/

namespace FMM
variable {F : Flt3} {u g C : ℝ} {r : Rounded.RBox ℝ 3} {S : List (Source 3)} {perCell h p κ : ℕ}

/-- What was computed: with enough steps, the constructor returned `T`, whatever the order in which the threads processed
the nodes. -/
def BuiltByB3 (F : Flt3) (t : Stat3) (S : List (Source 3)) (perCell : ℕ) (eps : ℝ) (T : BalancedFmm (Fl3.kit F)) : Prop :=
  ∃ fuel0, ∀ fuel ≥ fuel0, ∀ sch, Schedule sch →
    Rounded.balancedFmm F.rnd F.rlog F.nrm3 (Fl3.kit F) fuel sch t S perCell eps = .ok T

/-- The computed potential. -/
noncomputable def flPotentialB3 (F : Flt3) (grav : Bool) (T : BalancedFmm (Fl3.kit F)) (x : Vec 3) : Outcome ℝ :=
  Rounded.balancedEval F.rnd (fun a b => F.rnd (a + b)) (fun a => -a) (Fl3.pot F) grav T x

/-- **C86** The constructor of the balanced tree in space in floating-point arithmetic, for a computed height `h`: if the
leaves are large against the rounding errors of the coordinates and the computed indices of all sources are in range, it
returns a tree, the same for every schedule of the passes.  At a point whose computed indices are in range (sources included),
the potential has the error bound of C85, with at most 27 near neighbours; at every other point the evaluation fails with the
error of the index computation. -/
theorem C86_balanced (hF : F.Ok u g) (hκ : OpCost u g p κ) {t : Stat3} (ht : Reachable3 t) (hL : 0 < r.len)
    (hC : ∀ i, |r.center i| ≤ C) {eps : ℝ}
    (hord : Rounded.expansionOrder F.rnd F.rlog (Rounded.totalStrength F.rnd S) eps = .ok p) (hp0 : 0 < p) (hp : p ≤ 42)
    (hht : Rounded.balancedHeight F.rnd F.rlog 3 S.length perCell = .ok h) (h10 : h ≤ 10)
    (hbox : Rounded.sourceBox F.rnd S = some r)
    (hk : 100 * ((8 * h + 15) * (u * (4 * (C + r.len)))) < r.len / 2 ^ (h + 1))
    (h0 : h = 0 → ∀ s ∈ S, r.exact.contains s.pos)
    (hx : h = 0 ∨ ∀ s ∈ S, ∃ idx, Rounded.leafIndices F.rnd r h s.pos = .ok idx) :
    ∃ T, BuiltByB3 F t S perCell eps T ∧ T.order = p ∧ T.height = h ∧ ∀ x grav,
      (∀ e, Rounded.leafIndices F.rnd r h x = .error e → flPotentialB3 F grav T x = .error e) ∧
      ((∃ idx, Rounded.leafIndices F.rnd r h x = .ok idx) →
        ∃ v, flPotentialB3 F grav T x = .ok v ∧ |v - directPotential grav S x| ≤ potError3 u κ (r.len / 2 ^ h) S p h 27 x) := by
  obtain ⟨T, h1, h2, h3, h4⟩ := Fl3.balanced_flt hF hκ.cost ht.good.1 hL hC hord hp0 hp hht h10 hbox hk h0 hx
  simp only [potBound3_eq] at h4
  exact ⟨T, ⟨_, h1⟩, h2, h3, h4⟩

/-- **C86** For sources around the origin everything follows from their positions and the computed height: the root box
contains them, the construction succeeds, and the potential at the sources and at all points further than the rounding
error from the faces of the root box has the stated error. -/
theorem C86_placed {M a : ℝ} {k : ℕ} (hF : F.Ok u g) (hκ : OpCost u g p κ) (hW : Placed u S M a k) {t : Stat3} (ht : Reachable3 t)
    {eps : ℝ} (hord : Rounded.expansionOrder F.rnd F.rlog (Rounded.totalStrength F.rnd S) eps = .ok p) (hp0 : 0 < p) (hp : p ≤ 42)
    (hht : Rounded.balancedHeight F.rnd F.rlog 3 S.length perCell = .ok h) (hhk : h ≤ k) (h10 : h ≤ 10) :
    ∃ r T, Rounded.sourceBox F.rnd S = some r ∧ 2 * a < r.len ∧ r.len ≤ 3 * M ∧ (∀ s ∈ S, r.exact.contains s.pos) ∧
      BuiltByB3 F t S perCell eps T ∧ T.order = p ∧ T.height = h ∧
      ∀ x, (x ∈ S.map Source.pos ∨ ∀ i, |x i - r.center i| < r.len / 2 - 180 * (u * M)) → ∀ grav,
        ∃ v, flPotentialB3 F grav T x = .ok v ∧ |v - directPotential grav S x| ≤ potError3 u κ (r.len / 2 ^ h) S p h 27 x := by
  obtain ⟨r, h0, h1, h2, h3, h4⟩ := hW.box hF.toOk
  have h5 := hW.contains hF.toOk h4
  have hu := hF.nonneg
  have ha := hW.pos
  have hL : 0 < r.len := by linarith
  have hM : 0 ≤ 2 * M := by linarith
  have hk := hW.fine' hu h1 h2 h hhk
  have hk0 := hW.fine' hu h1 h2 0 (Nat.zero_le _)
  have hin : ∀ x : Vec 3, (∀ i, |x i - r.center i| < r.len / 2 - 180 * (u * M)) →
      ∃ idx, Rounded.leafIndices F.rnd r h x = .ok idx := by
    intro x hx
    refine Rounded.C69_inside hF.rnd hu (Rounded.small_u hu hL hM hk) hL hM h3 (by omega) ?_ x fun i => ?_
    · have : 0 ≤ u * (4 * (2 * M + r.len)) := by positivity
      simp only [Nat.cast_zero, mul_zero, zero_add, pow_one] at hk0
      linarith
    · refine lt_of_lt_of_le (hx i) ?_
      have : u * (4 * (2 * M + r.len)) ≤ 20 * (u * M) := by nlinarith
      linarith
  obtain ⟨T, t1, t2, t3, t4⟩ := C86_balanced hF hκ ht hL h3 hord hp0 hp hht h10 h0 hk (fun _ => h5)
    (Or.inr fun s hs => hin _ (h4 s hs))
  refine ⟨r, T, h0, h1, h2, h5, t1, t2, t3, fun x hx grav => (t4 x grav).2 ?_⟩
  rcases hx with hx | hx
  · obtain ⟨s, hs, rfl⟩ := List.mem_map.mp hx
    exact hin _ (h4 s hs)
  · exact hin _ hx

/-! ## `double`s -/

/-- Eight sources, one per cell: with `double`s the height is 1. -/
theorem S8_height : Rounded.balancedHeight Flt3.ieee.rnd Flt3.ieee.rlog 3 S8.length 1 = .ok 1 := by
  have e1 : Rounded.rndNE (1 : ℝ) = 1 := by
    have := rndNE_mantissa (n := 2 ^ 52) (e := -52) (by norm_num) (by norm_num)
    norm_num at this; exact this
  have hl : Flt3.ieee.rlog 8 ≠ 0 := by
    intro h0
    have := Flt3.ieee_ok.rlog 8 (by norm_num)
    rw [h0, zero_sub, abs_neg] at this
    have hpos : 0 < |Real.log 8| := abs_pos.mpr (Real.log_pos (by norm_num)).ne'
    norm_num at this
  have hlen : S8.length = 8 := rfl
  have hc : ((2 ^ 3 : ℕ) : ℝ) = 8 := by norm_num
  have hr : ∀ x, Flt3.ieee.rnd x = Rounded.rndNE x := fun _ => rfl
  unfold Rounded.balancedHeight
  rw [hlen, if_neg (by norm_num), hc]
  simp only [hr]
  push_cast
  rw [e1, rndNE_eight, div_one, rndNE_eight, div_self hl, e1]
  simp

/-- Non-vacuity: eight charges, one source per cell, `double`s: the tree is built, and the potentials at a source and at the
centre of the cube (on the planes between the leaves) are computed with the stated errors. -/
example : ∃ r T v w, Rounded.sourceBox Flt3.ieee.rnd S8 = some r ∧ BuiltByB3 Flt3.ieee (Stat3.init 0 0 0) S8 1 4 T ∧
    T.order = 1 ∧ T.height = 1 ∧ flPotentialB3 Flt3.ieee true T ![3, 3, 3] = .ok v ∧
    |v - directPotential true S8 ![3, 3, 3]| ≤ potError3 (1 / 2 ^ 49) (2 ^ 37) (r.len / 2 ^ 1) S8 1 1 27 ![3, 3, 3] ∧
    flPotentialB3 Flt3.ieee false T 0 = .ok w ∧
    |w - directPotential false S8 0| ≤ potError3 (1 / 2 ^ 49) (2 ^ 37) (r.len / 2 ^ 1) S8 1 1 27 0 := by
  obtain ⟨r, T, h0, h1, h2, h3, h4, h5, h6, h7⟩ := C86_placed (k := 1) Flt3.ieee_ok (double_cost (p := 1) (by norm_num))
    S8_placed.toPlaced reachable3_init S8_order one_pos (by norm_num) S8_height le_rfl (by norm_num)
  obtain ⟨v, v1, v2⟩ := h7 ![3, 3, 3] (Or.inl (by simp [S8])) true
  obtain ⟨w, w1, w2⟩ := h7 0 (Or.inr fun i => by
    obtain ⟨r', b0, -, -, -, b4⟩ := S8_placed.toPlaced.box Flt3.ieee_ok.toOk
    rw [show Flt3.ieee.toFlt.rnd = Flt3.ieee.rnd from rfl, h0] at b0
    cases b0
    have c1 := abs_lt.mp (b4 ⟨![3, 3, 3], 1⟩ (by simp [S8]) i)
    have c2 := abs_lt.mp (b4 ⟨![-3, -3, -3], 1⟩ (by simp [S8]) i)
    have e1 : (![3, 3, 3] : Vec 3) i = 3 := by fin_cases i <;> rfl
    have e2 : (![-3, -3, -3] : Vec 3) i = -3 := by fin_cases i <;> rfl
    simp only [e1, e2] at c1 c2
    rw [abs_lt, Pi.zero_apply]
    constructor <;> linarith [c1.1, c1.2, c2.1, c2.2]) false
  exact ⟨r, T, v, w, h0, h4, h5, h6, v1, v2, w1, w2⟩

end FMM
