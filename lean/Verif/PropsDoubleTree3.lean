import Verif.DoubleTrees3
import Verif.PropsFltBalanced3

/-!
# C97: trees in space whose boxes are too large or too small for the order of the expansions

The geometry (root box, boxes, lists, indices) is computed in floating-point arithmetic without underflow and overflow; strengths, expansions and sums are
`double`s with infinities and NaN.  The library functions and the static tables are arbitrary.
-/

namespace FMM.D64
open FMM Rounded
variable {F : Flt3} {u g C : ℝ} {max fuel h p perCell : ℕ} {r : RBox ℝ 3} {S : List (Source 3)} (L : Lib)

/-- The computed potential and all components of the computed force are infinite or NaN. -/
def AllBad (P : Outcome Dbl) (f : ℝ → Outcome (DVec 3)) : Prop :=
  (∃ v, P = .ok v ∧ NF v) ∧ ∀ feps, ∃ v, f feps = .ok v ∧ ∀ j, NF (v j)

/-- Order and side length of the root box such that the powers of the distances overflow: the distance between the centres of boxes of depth 1 and 2 is at
least `2^k` and its power `p - 1` overflows. -/
def TooLarge (len : ℝ) (p : ℕ) : Prop := ∃ k : ℕ, (2 : ℝ) ^ k ≤ 99 / 800 * len ∧ 1024 ≤ k * (p - 1)

/-- Order and side length of a box such that the inverse powers of the distances to the members of its interaction list overflow. -/
def TooSmall (side : ℝ) (p : ℕ) : Prop := ∃ k : ℕ, k ≤ 1021 ∧ side * 2 ^ (k + 3) ≤ 1 ∧ 1024 ≤ k * (2 * p + 1)

theorem TooSmall.le {side : ℝ} (h : TooSmall side p) : ∃ k : ℕ, k ≤ 1021 ∧ side ≤ 2 ^ (-(k : ℤ) - 3) ∧ 1024 ≤ k * (2 * p + 1) := by
  obtain ⟨k, h1, h2, h3⟩ := h
  refine ⟨k, h1, ?_, h3⟩
  rw [show (-(k : ℤ) - 3) = -((k + 3 : ℕ) : ℤ) by push_cast; ring, zpow_neg, zpow_natCast, ← one_div]
  rwa [le_div_iff₀ (by positivity)]

/-- **C97** The adaptive tree is built whatever overflows, the same for every order of the nodes in the passes, and its height is that of the tree in exact
arithmetic.  Potential and force are infinite or NaN at every point of a leaf of depth at least 2 if the root box is too large for the order, and at every
point of a leaf that lies in a box too small for the order with a non-empty interaction list. -/
theorem C97_adaptive (hF : F.Ok u g) (hL : 0 < r.len) (hC : ∀ i, |r.center i| ≤ C) {eps : ℝ}
    (hord : Rounded.expansionOrder F.rnd F.rlog (Rounded.totalStrength F.rnd S) eps = .ok p) (hp : 0 < p)
    (hbox : sourceBox F.rnd S = some r) {st : BuildState 3 (Source 3)} {nb : Nbh}
    (hb : Rounded.adaptiveLists F.rnd F.nrm3 fuel Source.pos r S max = .ok (st, h, nb))
    (hk : 100 * ((8 * h + 15) * (u * (4 * (C + r.len)))) < r.len / 2 ^ (h + 1)) :
    ∃ T : AdaptiveFmm (kit64 L), (∀ sch, Schedule sch → Rounded.adaptiveFmm F.rnd F.rlog F.nrm3 (kit64 L) fuel sch () S max eps = .ok T) ∧
      T.order = p ∧ T.height = h ∧ ∀ x, ∃ lf, (∀ f > h, Rounded.getContainingLeaf F.rnd f T.heap x = .ok lf) ∧
        ∀ l, lf = some l → (2 ≤ l.length ∧ TooLarge r.len p) ∨ (∃ π, π <:+ l ∧ T.nb.inter π ≠ [] ∧ TooSmall (r.len / 2 ^ π.length) p) →
          ∀ f > h, ∀ grav cur, AllBad (Rounded.adaptiveEval F.rnd add neg (pot64 L) f grav T cur x)
            fun feps => Rounded.adaptiveEval F.rnd vadd vneg (force64 L feps) f grav T cur x := by
  obtain ⟨T, t1, t2, t3, t4, t5, t6⟩ := adaptive64 L hF hL hC hord hbox hb hk
  have G := Fl3.geo_of hF.rnd hF.nonneg hL ((abs_nonneg _).trans (hC 0)) hC hk
  refine ⟨T, t1, t2, t3, fun x => ?_⟩
  obtain ⟨lf, l1, l2⟩ := t6 x
  rw [t4]
  refine ⟨lf, l1, fun l hl hbad f hf grav cur => ?_⟩
  obtain ⟨P, src, p1, p2, p3, p4, p5, p6⟩ := l2 l hl
  rcases hbad with ⟨h2, k, k1, k2⟩ | ⟨π, h1, h2, h3⟩
  · have := p6 f hf grav cur 1 hp (bad_large G (p4 _ p1) h2 (by rw [zpow_natCast]; exact k1) hp k2)
    exact ⟨this.1, this.2 le_rfl⟩
  · obtain ⟨k, k1, k2, k3⟩ := h3.le
    have hπ := p1.suffix h1
    rw [t5, p5 _ hπ] at h2
    have := p6 f hf grav cur p le_rfl (bad_small p3 G h1 hπ (p4 _ hπ) h2 k1 k2 k3)
    exact ⟨this.1, this.2 hp⟩

/-- **C97** The balanced tree of height at least 2: if the root box is too large or the leaves are too small for the order, potential and force are infinite
or NaN at every point of the tree. -/
theorem C97_balanced (hF : F.Ok u g) (hL : 0 < r.len) (hC : ∀ i, |r.center i| ≤ C) {eps : ℝ}
    (hord : Rounded.expansionOrder F.rnd F.rlog (Rounded.totalStrength F.rnd S) eps = .ok p) (hp : 0 < p)
    (hht : Rounded.balancedHeight F.rnd F.rlog 3 S.length perCell = .ok h) (h2 : 2 ≤ h) (h10 : h ≤ 10)
    (hbox : sourceBox F.rnd S = some r)
    (hk : 100 * ((8 * h + 15) * (u * (4 * (C + r.len)))) < r.len / 2 ^ (h + 1))
    (hx : ∀ s ∈ S, ∃ idx, Rounded.leafIndices F.rnd r h s.pos = .ok idx) (hbad : TooLarge r.len p ∨ TooSmall (r.len / 2 ^ h) p) :
    ∃ T : BalancedFmm (kit64 L), (∃ fuel0, ∀ fuel ≥ fuel0, ∀ sch, Schedule sch →
        Rounded.balancedFmm F.rnd F.rlog F.nrm3 (kit64 L) fuel sch () S perCell eps = .ok T) ∧
      T.order = p ∧ T.height = h ∧ ∀ x, (∃ idx, Rounded.leafIndices F.rnd r h x = .ok idx) → ∀ grav,
        AllBad (Rounded.balancedEval F.rnd add neg (pot64 L) grav T x) fun feps => Rounded.balancedEval F.rnd vadd vneg (force64 L feps) grav T x := by
  obtain ⟨T, t1, t2, t3, t4⟩ := balanced64 L hF hL hC hord hht h10 hbox hk (Or.inr hx)
  have G := Fl3.geo_of hF.rnd hF.nonneg hL ((abs_nonneg _).trans (hC 0)) hC hk
  refine ⟨T, ⟨_, t1⟩, t2, t3, fun x hxt grav => ?_⟩
  obtain ⟨l, src, l1, l2, l3⟩ := t4 x hxt
  rcases hbad with ⟨k, k1, k2⟩ | h3
  · have := l3 grav 1 hp (bad_large G l2.le (by omega) (by rw [zpow_natCast]; exact k1) hp k2)
    exact ⟨this.1, this.2 le_rfl⟩
  · obtain ⟨k, k1, k2, k3⟩ := h3.le
    have := l3 grav p le_rfl (bad_small (fullTree_adjOf _ _) G List.suffix_rfl l1 l2.le
      (inter_ne (r := r.exact) hL l1 (by omega)) k1 (by rw [l2]; exact k2) k3)
    exact ⟨this.1, this.2 hp⟩

/-- **C97** Hypotheses about the sources only: they lie around the origin, with coordinates of at most `M`, beyond `a` on both sides; the tree is balanced
and of height at least 2. -/
theorem C97_placed {M a : ℝ} {k : ℕ} (hF : F.Ok u g) (hW : Placed u S M a k) {eps : ℝ}
    (hord : Rounded.expansionOrder F.rnd F.rlog (Rounded.totalStrength F.rnd S) eps = .ok p) (hp : 0 < p)
    (hht : Rounded.balancedHeight F.rnd F.rlog 3 S.length perCell = .ok h) (hhk : h ≤ k) (h2 : 2 ≤ h) (h10 : h ≤ 10)
    (hbad : TooLarge (2 * a) p ∨ TooSmall (3 * M / 2 ^ h) p) :
    ∃ (r : RBox ℝ 3) (T : BalancedFmm (kit64 L)), sourceBox F.rnd S = some r ∧ (∃ fuel0, ∀ fuel ≥ fuel0, ∀ sch, Schedule sch →
        Rounded.balancedFmm F.rnd F.rlog F.nrm3 (kit64 L) fuel sch () S perCell eps = .ok T) ∧
      T.order = p ∧ T.height = h ∧ ∀ x, (x ∈ S.map Source.pos ∨ ∀ i, |x i - r.center i| < r.len / 2 - 180 * (u * M)) → ∀ grav,
        AllBad (Rounded.balancedEval F.rnd add neg (pot64 L) grav T x) fun feps => Rounded.balancedEval F.rnd vadd vneg (force64 L feps) grav T x := by
  obtain ⟨r, h0, h1, h2', h3, h4⟩ := hW.box hF.toOk
  have hu := hF.nonneg
  have ha := hW.pos
  have hL : 0 < r.len := by linarith
  have hM : 0 ≤ 2 * M := by linarith
  have hk := hW.fine' hu h1 h2' h hhk
  have hk0 := hW.fine' hu h1 h2' 0 (Nat.zero_le _)
  have hin : ∀ x : Vec 3, (∀ i, |x i - r.center i| < r.len / 2 - 180 * (u * M)) →
      ∃ idx, Rounded.leafIndices F.rnd r h x = .ok idx := by
    intro x hx
    refine Rounded.C69_inside hF.rnd hu (Rounded.small_u hu hL hM hk) hL hM h3 (by omega) ?_ x fun i => ?_
    · have : 0 ≤ u * (4 * (2 * M + r.len)) := by positivity
      simp only [Nat.cast_zero, mul_zero, zero_add, pow_one] at hk0
      linarith
    · refine lt_of_lt_of_le (hx i) ?_
      have : u * (4 * (2 * M + r.len)) ≤ 20 * (u * M) := by nlinarith
      linarith
  have hbad' : TooLarge r.len p ∨ TooSmall (r.len / 2 ^ h) p := by
    rcases hbad with ⟨k, k1, k2⟩ | ⟨k, k1, k2, k3⟩
    · exact Or.inl ⟨k, k1.trans (by linarith), k2⟩
    · refine Or.inr ⟨k, k1, le_trans ?_ k2, k3⟩
      gcongr
  obtain ⟨T, t1, t2, t3, t4⟩ := C97_balanced L hF hL h3 hord hp hht h2 h10 h0 hk (fun s hs => hin _ (h4 s hs)) hbad'
  refine ⟨r, T, h0, t1, t2, t3, fun x hx grav => t4 x ?_ grav⟩
  rcases hx with hx | hx
  · obtain ⟨s, hs, rfl⟩ := List.mem_map.mp hx
    exact hin _ (h4 s hs)
  · exact hin _ hx

/-! ## Nine charges at distances of nanometres -/

/-- A length of about one nanometre. -/
noncomputable def nm : ℝ := 1 / 2 ^ 30

/-- Nine unit charges: the corners of a cube of side length 6 nm, and its centre. -/
noncomputable def S9 : List (Source 3) := [⟨![3 * nm, 3 * nm, 3 * nm], 1⟩, ⟨![3 * nm, 3 * nm, -(3 * nm)], 1⟩, ⟨![3 * nm, -(3 * nm), 3 * nm], 1⟩,
  ⟨![3 * nm, -(3 * nm), -(3 * nm)], 1⟩, ⟨![-(3 * nm), 3 * nm, 3 * nm], 1⟩, ⟨![-(3 * nm), 3 * nm, -(3 * nm)], 1⟩,
  ⟨![-(3 * nm), -(3 * nm), 3 * nm], 1⟩, ⟨![-(3 * nm), -(3 * nm), -(3 * nm)], 1⟩, ⟨![0, 0, 0], 1⟩]

theorem nm_pos : 0 < nm := by unfold nm; norm_num

theorem S9_placed : Placed (1 / 2 ^ 49) S9 (3 * nm) (3 * nm) 2 where
  pos := by linarith [nm_pos]
  bound := by
    have h0 := nm_pos
    have h1 : |3 * nm| ≤ 3 * nm := (abs_of_pos (by linarith)).le
    have h2 : |-(3 * nm)| ≤ 3 * nm := by rw [abs_neg]; exact h1
    have h3 : |(0 : ℝ)| ≤ 3 * nm := by rw [abs_zero]; linarith
    intro s hs i
    simp only [S9, List.mem_cons, List.not_mem_nil, or_false] at hs
    rcases hs with rfl | rfl | rfl | rfl | rfl | rfl | rfl | rfl | rfl <;> fin_cases i <;> first | exact h1 | exact h2 | exact h3
  low := fun i => ⟨⟨![-(3 * nm), -(3 * nm), -(3 * nm)], 1⟩, by simp [S9], by fin_cases i <;> exact le_rfl⟩
  high := fun i => ⟨⟨![3 * nm, 3 * nm, 3 * nm], 1⟩, by simp [S9], by fin_cases i <;> exact le_rfl⟩
  pad := by unfold nm; norm_num
  fine := by unfold nm; norm_num

theorem rnd_quot (hF : F.Ok u g) (hu : u ≤ 1 / 2 ^ 49) {x y a b : ℝ} (hx : 1 < x) (hy : 1 < y) (ha : 0 ≤ a) (h1 : a * Real.log y ≤ Real.log x)
    (h2 : Real.log x ≤ b * Real.log y) : 999 / 1000 * a ≤ F.rnd (F.rlog x / F.rlog y) ∧ F.rnd (F.rlog x / F.rlog y) ≤ 1001 / 1000 * b := by
  have X := Real.log_pos hx
  have Y := Real.log_pos hy
  have cx := abs_le.mp (hF.rlog x (by linarith))
  have cy := abs_le.mp (hF.rlog y (by linarith))
  rw [abs_of_pos X] at cx
  rw [abs_of_pos Y] at cy
  have h0 := hF.nonneg
  have hu' : u ≤ 1 / 10000 := hu.trans (by norm_num)
  have uX : u * Real.log x ≤ 1 / 10000 * Real.log x := mul_le_mul_of_nonneg_right hu' X.le
  have uY : u * Real.log y ≤ 1 / 10000 * Real.log y := mul_le_mul_of_nonneg_right hu' Y.le
  have py : 0 < F.rlog y := by linarith [cy.1]
  have hb : 0 ≤ b := by
    by_contra hb
    nlinarith [mul_pos (neg_pos.mpr (not_le.mp hb)) Y]
  have q1 : 9997 / 10000 * a ≤ F.rlog x / F.rlog y := by
    rw [le_div_iff₀ py]
    have : a * F.rlog y ≤ a * (10001 / 10000 * Real.log y) := mul_le_mul_of_nonneg_left (by linarith [cy.2]) ha
    have h3 : 0 ≤ a * Real.log y := by positivity
    nlinarith [cx.1]
  have q2 : F.rlog x / F.rlog y ≤ 10003 / 10000 * b := by
    rw [div_le_iff₀ py]
    have : b * (9999 / 10000 * Real.log y) ≤ b * F.rlog y := mul_le_mul_of_nonneg_left (by linarith [cy.1]) hb
    have h3 : 0 ≤ b * Real.log y := by positivity
    nlinarith [cx.2]
  have q0 : 0 ≤ F.rlog x / F.rlog y := le_trans (by positivity) q1
  have cr := abs_le.mp (hF.rnd (F.rlog x / F.rlog y))
  rw [abs_of_nonneg q0] at cr
  have uq : u * (F.rlog x / F.rlog y) ≤ 1 / 10000 * (F.rlog x / F.rlog y) := mul_le_mul_of_nonneg_right hu' q0
  constructor
  · nlinarith [cr.1]
  · nlinarith [cr.2]

theorem rndNE_nat {n : ℕ} (h1 : 2 ^ 52 ≤ n) (h2 : n < 2 ^ 53) (e : ℤ) {x : ℝ} (hx : x = (n : ℝ) * 2 ^ e) : Flt3.ieee.rnd x = x := by
  rw [hx]
  have := rndNE_mantissa (n := (n : ℤ)) (e := e) (by rw [Nat.abs_cast]; exact_mod_cast h1) (by rw [Nat.abs_cast]; exact_mod_cast h2)
  exact_mod_cast this

/-- Nine unit charges, accuracy `2^-20`: the order computed with `double`s is between 20 and 25. -/
theorem S9_order : ∃ p, 20 ≤ p ∧ p ≤ 25 ∧
    Rounded.expansionOrder Flt3.ieee.rnd Flt3.ieee.rlog (Rounded.totalStrength Flt3.ieee.rnd S9) (1 / 2 ^ 20) = .ok p := by
  have hA : Rounded.totalStrength Flt3.ieee.rnd S9 = 9 := by
    have e1 : Flt3.ieee.rnd 1 = 1 := rndNE_nat (n := 2 ^ 52) (by norm_num) (by norm_num) (-52) (by norm_num)
    have e2 : Flt3.ieee.rnd 2 = 2 := rndNE_nat (n := 2 ^ 52) (by norm_num) (by norm_num) (-51) (by norm_num)
    have e3 : Flt3.ieee.rnd 3 = 3 := rndNE_nat (n := 3 * 2 ^ 51) (by norm_num) (by norm_num) (-51) (by norm_num)
    have e4 : Flt3.ieee.rnd 4 = 4 := rndNE_nat (n := 2 ^ 52) (by norm_num) (by norm_num) (-50) (by norm_num)
    have e5 : Flt3.ieee.rnd 5 = 5 := rndNE_nat (n := 5 * 2 ^ 50) (by norm_num) (by norm_num) (-50) (by norm_num)
    have e6 : Flt3.ieee.rnd 6 = 6 := rndNE_nat (n := 6 * 2 ^ 50) (by norm_num) (by norm_num) (-50) (by norm_num)
    have e7 : Flt3.ieee.rnd 7 = 7 := rndNE_nat (n := 7 * 2 ^ 50) (by norm_num) (by norm_num) (-50) (by norm_num)
    have e8 : Flt3.ieee.rnd 8 = 8 := rndNE_nat (n := 2 ^ 52) (by norm_num) (by norm_num) (-49) (by norm_num)
    have e9 : Flt3.ieee.rnd 9 = 9 := rndNE_nat (n := 9 * 2 ^ 49) (by norm_num) (by norm_num) (-49) (by norm_num)
    unfold Rounded.totalStrength S9
    simp only [List.foldl_cons, List.foldl_nil, abs_one, zero_add]
    norm_num [e1, e2, e3, e4, e5, e6, e7, e8, e9]
  have hd : Flt3.ieee.rnd (9 / (1 / 2 ^ 20)) = 9 * 2 ^ 20 := by
    rw [rndNE_nat (n := 9 * 2 ^ 49) (by norm_num) (by norm_num) (-29) (by norm_num)]
    norm_num
  have l2 : 0 < Real.log 2 := Real.log_pos (by norm_num)
  have l9 : Real.log (9 * 2 ^ 20) = Real.log 9 + 20 * Real.log 2 := by
    rw [Real.log_mul (by norm_num) (by norm_num), Real.log_pow]; norm_num
  have l8 : 3 * Real.log 2 ≤ Real.log 9 := by
    rw [show (3 : ℝ) * Real.log 2 = Real.log (2 ^ 3) by rw [Real.log_pow]; norm_num]
    exact Real.log_le_log (by norm_num) (by norm_num)
  have l16 : Real.log 9 ≤ 4 * Real.log 2 := by
    rw [show (4 : ℝ) * Real.log 2 = Real.log (2 ^ 4) by rw [Real.log_pow]; norm_num]
    exact Real.log_le_log (by norm_num) (by norm_num)
  obtain ⟨q1, q2⟩ := rnd_quot Flt3.ieee_ok (x := 9 * 2 ^ 20) (y := 2) (a := 23) (b := 24) le_rfl (by norm_num) (by norm_num) (by norm_num)
    (by rw [l9]; linarith) (by rw [l9]; linarith)
  set q := Flt3.ieee.rnd (Flt3.ieee.rlog (9 * 2 ^ 20) / Flt3.ieee.rlog 2) with hq
  have c1 : (20 : ℤ) ≤ ⌈q⌉ := by
    have : (19 : ℤ) < ⌈q⌉ := Int.lt_ceil.mpr (by push_cast; linarith)
    omega
  have c2 : ⌈q⌉ ≤ 25 := Int.ceil_le.mpr (by push_cast; linarith)
  refine ⟨⌈q⌉.toNat, by omega, by omega, ?_⟩
  unfold Rounded.expansionOrder
  rw [hA, hd, if_neg (by norm_num), ← hq]
  unfold toU32
  rw [if_pos ⟨by omega, by omega⟩]

/-- One source per cell: the height computed with `double`s is 2. -/
theorem S9_height : Rounded.balancedHeight Flt3.ieee.rnd Flt3.ieee.rlog 3 S9.length 1 = .ok 2 := by
  have e1 : Flt3.ieee.rnd 1 = 1 := rndNE_nat (n := 2 ^ 52) (by norm_num) (by norm_num) (-52) (by norm_num)
  have e9 : Flt3.ieee.rnd 9 = 9 := rndNE_nat (n := 9 * 2 ^ 49) (by norm_num) (by norm_num) (-49) (by norm_num)
  have hlen : S9.length = 9 := rfl
  have hc : ((2 ^ 3 : ℕ) : ℝ) = 8 := by norm_num
  have l8 : 0 < Real.log 8 := Real.log_pos (by norm_num)
  obtain ⟨q1, q2⟩ := rnd_quot Flt3.ieee_ok (x := 9) (y := 8) (a := 21 / 20) (b := 3 / 2) le_rfl (by norm_num) (by norm_num) (by norm_num)
    (by
      have : 21 * Real.log 8 ≤ 20 * Real.log 9 := by
        rw [show (21 : ℝ) * Real.log 8 = Real.log (8 ^ 21) by rw [Real.log_pow]; norm_num,
          show (20 : ℝ) * Real.log 9 = Real.log (9 ^ 20) by rw [Real.log_pow]; norm_num]
        exact Real.log_le_log (by norm_num) (by norm_num)
      linarith)
    (by
      have : 2 * Real.log 9 ≤ 3 * Real.log 8 := by
        rw [show (2 : ℝ) * Real.log 9 = Real.log (9 ^ 2) by rw [Real.log_pow]; norm_num,
          show (3 : ℝ) * Real.log 8 = Real.log (8 ^ 3) by rw [Real.log_pow]; norm_num]
        exact Real.log_le_log (by norm_num) (by norm_num)
      linarith)
  have c : ⌈Flt3.ieee.rnd (Flt3.ieee.rlog 9 / Flt3.ieee.rlog 8)⌉ = 2 := by
    rw [Int.ceil_eq_iff]
    push_cast
    constructor <;> linarith
  unfold Rounded.balancedHeight
  rw [hlen, if_neg (by norm_num), hc]
  push_cast
  rw [e1, e9, div_one, e9, c]
  rfl

/-- Non-vacuity: nine unit charges in a cube of side length 6 nm, positions in metres, accuracy `2^-20`, one source per cell.  The balanced tree is built
without any error; potential and force are infinite or NaN at all sources and at all points up to the margin of the root box. -/
example : ∃ (r : RBox ℝ 3) (T : BalancedFmm (kit64 L)), sourceBox Flt3.ieee.rnd S9 = some r ∧ (∃ fuel0, ∀ fuel ≥ fuel0, ∀ sch, Schedule sch →
      Rounded.balancedFmm Flt3.ieee.rnd Flt3.ieee.rlog Flt3.ieee.nrm3 (kit64 L) fuel sch () S9 1 (1 / 2 ^ 20) = .ok T) ∧
    T.order ≤ 25 ∧ T.height = 2 ∧ ∀ x, (x ∈ S9.map Source.pos ∨ ∀ i, |x i - r.center i| < r.len / 2 - 180 * (1 / 2 ^ 49 * (3 * nm))) → ∀ grav,
      AllBad (Rounded.balancedEval Flt3.ieee.rnd add neg (pot64 L) grav T x)
        fun feps => Rounded.balancedEval Flt3.ieee.rnd vadd vneg (force64 L feps) grav T x := by
  obtain ⟨p, p1, p2, p3⟩ := S9_order
  obtain ⟨r, T, h1, h2, h3, h4, h5⟩ := C97_placed (k := 2) L Flt3.ieee_ok S9_placed p3 (by omega) S9_height le_rfl le_rfl (by norm_num)
    (Or.inr ⟨25, by norm_num, by unfold nm; norm_num, by omega⟩)
  exact ⟨r, T, h1, h2, by omega, h4, h5⟩

end FMM.D64
