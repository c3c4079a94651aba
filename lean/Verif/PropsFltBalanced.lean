import Verif.FltBalanced
import Verif.PropsFltTree
import Verif.PropsFltOrder

/-!
# C79, C80: the balanced tree in the plane, in floating-point arithmetic
-/

namespace FMM
variable {F : Flt} {u C : ℝ} {r : Rounded.RBox ℝ 2} {S : List (Source 2)} {perCell h p : ℕ}

/-! ## C79: potentials and forces -/

/-- What was computed: with enough steps, the constructor returned `T`, whatever the order in which the threads processed
the nodes. -/
def BuiltByB (F : Flt) (t : BinomialTable) (S : List (Source 2)) (perCell : ℕ) (eps : ℝ) (T : BalancedFmm (Fl.kit F)) : Prop :=
  ∃ fuel0, ∀ fuel ≥ fuel0, ∀ sch, Schedule sch →
    Rounded.balancedFmm F.rnd F.rlog F.nrm (Fl.kit F) fuel sch t S perCell eps = .ok T

/-- The computed potential. -/
noncomputable def flPotentialB (F : Flt) (grav : Bool) (T : BalancedFmm (Fl.kit F)) (x : Vec 2) : Outcome ℝ :=
  Rounded.balancedEval F.rnd (fun a b => F.rnd (a + b)) (fun a => -a) (Fl.pot F) grav T x

/-- The computed force. -/
noncomputable def flForceB (F : Flt) (feps : ℝ) (grav : Bool) (T : BalancedFmm (Fl.kit F)) (x : Vec 2) : Outcome (Vec 2) :=
  Rounded.balancedEval F.rnd F.vadd (fun a => -a) (Fl.force F feps) grav T x

/-- **C79** The constructor of the balanced tree in floating-point arithmetic, for a computed height `h`: if the leaves are
large against the rounding errors of the coordinates and the computed indices of all sources are in range, it returns a tree,
the same for every schedule of the passes.  At a point whose computed indices are in range (sources included), potential and
force have the error bounds of C77, with at most nine near neighbours; at every other point the evaluation fails with the
error of the index computation. -/
theorem C79_balanced (hF : F.Ok u) {t : BinomialTable} (ht : Reachable t) (hL : 0 < r.len) (hC : ∀ i, |r.center i| ≤ C) {eps : ℝ}
    (hord : Rounded.expansionOrder F.rnd F.rlog (Rounded.totalStrength F.rnd S) eps = .ok p) (hp0 : 0 < p) (hp : p ≤ 1029)
    (hht : Rounded.balancedHeight F.rnd F.rlog 2 S.length perCell = .ok h) (h16 : h ≤ 16)
    (hbox : Rounded.sourceBox F.rnd S = some r)
    (hk : 100 * ((8 * h + 15) * (u * (4 * (C + r.len)))) < r.len / 2 ^ (h + 1))
    (h0 : h = 0 → ∀ s ∈ S, r.exact.contains s.pos)
    (hx : h = 0 ∨ ∀ s ∈ S, ∃ idx, Rounded.leafIndices F.rnd r h s.pos = .ok idx) :
    ∃ T, BuiltByB F t S perCell eps T ∧ T.order = p ∧ T.height = h ∧ ∀ x grav,
      (∀ e, Rounded.leafIndices F.rnd r h x = .error e →
        flPotentialB F grav T x = .error e ∧ ∀ feps, flForceB F feps grav T x = .error e) ∧
      ((∃ idx, Rounded.leafIndices F.rnd r h x = .ok idx) →
        (∃ v, flPotentialB F grav T x = .ok v ∧ |v - directPotential grav S x| ≤ potError u r.len S p h 9 x) ∧
        ∀ feps, 0 ≤ feps → ∃ v, flForceB F feps grav T x = .ok v ∧
          dist2 v (directField grav S x feps) ≤ forceError u (r.len / 2 ^ h) S p h 9 feps x) := by
  obtain ⟨T, h1, h2, h3, h4⟩ := Fl.balanced_flt hF ht.good hL hC hord hp0 hp hht h16 hbox hk h0 hx
  simp only [potBound_eq, forceBound_eq] at h4
  exact ⟨T, ⟨_, h1⟩, h2, h3, h4⟩

/-- **C79** For sources around the origin everything follows from their positions and the computed height: the root box
contains them, the construction succeeds, and potential and force at the sources and at all points further than the rounding
error from the faces of the root box have the stated errors. -/
theorem C79_placed {M a : ℝ} {k : ℕ} (hF : F.Ok u) (hW : Placed u S M a k) {t : BinomialTable} (ht : Reachable t) {eps : ℝ}
    (hord : Rounded.expansionOrder F.rnd F.rlog (Rounded.totalStrength F.rnd S) eps = .ok p) (hp0 : 0 < p) (hp : p ≤ 1029)
    (hht : Rounded.balancedHeight F.rnd F.rlog 2 S.length perCell = .ok h) (hhk : h ≤ k) (h16 : h ≤ 16) :
    ∃ r T, Rounded.sourceBox F.rnd S = some r ∧ 2 * a < r.len ∧ r.len ≤ 3 * M ∧ (∀ s ∈ S, r.exact.contains s.pos) ∧
      BuiltByB F t S perCell eps T ∧ T.order = p ∧ T.height = h ∧
      ∀ x, (x ∈ S.map Source.pos ∨ ∀ i, |x i - r.center i| < r.len / 2 - 180 * (u * M)) → ∀ grav,
        (∃ v, flPotentialB F grav T x = .ok v ∧ |v - directPotential grav S x| ≤ potError u r.len S p h 9 x) ∧
        ∀ feps, 0 ≤ feps → ∃ v, flForceB F feps grav T x = .ok v ∧
          dist2 v (directField grav S x feps) ≤ forceError u (r.len / 2 ^ h) S p h 9 feps x := by
  obtain ⟨r, h0, h1, h2, h3, h4⟩ := hW.box hF
  have h5 := hW.contains hF h4
  have hu := hF.nonneg
  have ha := hW.pos
  have hL : 0 < r.len := by linarith
  have hM : 0 ≤ 2 * M := by linarith
  have hk := hW.fine' hu h1 h2 h hhk
  have hk0 := hW.fine' hu h1 h2 0 (Nat.zero_le _)
  have hin : ∀ x : Vec 2, (∀ i, |x i - r.center i| < r.len / 2 - 180 * (u * M)) →
      ∃ idx, Rounded.leafIndices F.rnd r h x = .ok idx := by
    intro x hx
    refine Rounded.C69_inside hF.rnd hu (Rounded.small_u hu hL hM hk) hL hM h3 (by omega) ?_ x fun i => ?_
    · have : 0 ≤ u * (4 * (2 * M + r.len)) := by positivity
      simp only [Nat.cast_zero, mul_zero, zero_add, pow_one] at hk0
      linarith
    · refine lt_of_lt_of_le (hx i) ?_
      have : u * (4 * (2 * M + r.len)) ≤ 20 * (u * M) := by nlinarith
      linarith
  obtain ⟨T, t1, t2, t3, t4⟩ := C79_balanced hF ht hL h3 hord hp0 hp hht h16 h0 hk (fun _ => h5)
    (Or.inr fun s hs => hin _ (h4 s hs))
  refine ⟨r, T, h0, h1, h2, h5, t1, t2, t3, fun x hx grav => (t4 x grav).2 ?_⟩
  rcases hx with hx | hx
  · obtain ⟨s, hs, rfl⟩ := List.mem_map.mp hx
    exact hin _ (h4 s hs)
  · exact hin _ hx

/-! ## C80: the height -/

/-- Bound of the error of the logarithm of `N / s` to base `2^d`: two conversions, a division, two logarithms, a division. -/
noncomputable def heightSlack (u : ℝ) (d N s : ℕ) : ℝ :=
  4 * u * |Real.log (N / s : ℝ) / Real.log (2 ^ d : ℕ)| + 4 * (5 * u)

theorem count_err {rnd : ℝ → ℝ} (hu : 0 ≤ u) (hu' : u ≤ 1 / 16) (H : ∀ x, |rnd x - x| ≤ u * |x|) {N s : ℝ} (hN : 0 < N) (hs : 0 < s) :
    |rnd (rnd N / rnd s) - N / s| ≤ 5 * u * (N / s) := by
  have a := H N
  have b := H s
  rw [abs_of_pos hN, abs_le] at a
  rw [abs_of_pos hs, abs_le] at b
  have s0 : 0 < rnd s := by nlinarith [b.1]
  have n0 : 0 < rnd N := by nlinarith [a.1]
  have q0 : 0 < rnd N / rnd s := by positivity
  have c := H (rnd N / rnd s)
  rw [abs_of_pos q0] at c
  set q := N / s with hq
  have hqp : 0 < q := by rw [hq]; positivity
  have hNq : N = q * s := by rw [hq]; field_simp
  have up : rnd N / rnd s ≤ (1 + 9 / 4 * u) * q := by
    rw [div_le_iff₀ s0]
    have h1 : (1 + 9 / 4 * u) * q * ((1 - u) * s) ≤ (1 + 9 / 4 * u) * q * rnd s :=
      mul_le_mul_of_nonneg_left (by linarith [b.1]) (by positivity)
    have h2 : (1 + u) * (q * s) ≤ (1 + 9 / 4 * u) * q * ((1 - u) * s) := by
      have e : (1 + 9 / 4 * u) * q * ((1 - u) * s) - (1 + u) * (q * s) = q * s * (u * (1 / 4 - 9 / 4 * u)) := by ring
      have : 0 ≤ q * s * (u * (1 / 4 - 9 / 4 * u)) := mul_nonneg (by positivity) (mul_nonneg hu (by linarith))
      linarith
    have h3 : rnd N ≤ (1 + u) * (q * s) := by rw [← hNq]; linarith [a.2]
    linarith
  have lo : (1 - 2 * u) * q ≤ rnd N / rnd s := by
    rw [le_div_iff₀ s0]
    have h1 : (1 - 2 * u) * q * rnd s ≤ (1 - 2 * u) * q * ((1 + u) * s) :=
      mul_le_mul_of_nonneg_left (by linarith [b.2]) (mul_nonneg (by linarith) hqp.le)
    have h2 : (1 - 2 * u) * q * ((1 + u) * s) ≤ (1 - u) * (q * s) := by
      have e : (1 - u) * (q * s) - (1 - 2 * u) * q * ((1 + u) * s) = q * s * (2 * (u * u)) := by ring
      have : 0 ≤ q * s * (2 * (u * u)) := by positivity
      linarith
    have h3 : (1 - u) * (q * s) ≤ rnd N := by rw [← hNq]; linarith [a.1]
    linarith
  have h4 : |rnd N / rnd s - q| ≤ 9 / 4 * u * q := by
    rw [abs_le]
    have := mul_nonneg hu hqp.le
    constructor <;> linarith
  have h5 := abs_sub_le (rnd (rnd N / rnd s)) (rnd N / rnd s) q
  have h6 : u * (rnd N / rnd s) ≤ u * ((1 + 9 / 4 * u) * q) := mul_le_mul_of_nonneg_left up hu
  have h7 : u * ((1 + 9 / 4 * u) * q) ≤ u * (2 * q) :=
    mul_le_mul_of_nonneg_left (mul_le_mul_of_nonneg_right (by linarith) hqp.le) hu
  have : 0 ≤ u * q := mul_nonneg hu hqp.le
  nlinarith

/-- **C80** With rounding, the height is computed without error whenever there is on average at least one source per requested
cell; up to a factor close to one, the leaves then hold at most `s` sources on average, and one level less would not be
enough. -/
theorem C80_height {d : ℕ} (hd : 1 ≤ d) {rnd rlog : ℝ → ℝ} (hu : 0 ≤ u) (hu' : u ≤ 1 / 20) (H : ∀ x, |rnd x - x| ≤ u * |x|)
    (HL : ∀ x, 0 < x → |rlog x - Real.log x| ≤ u * |Real.log x|) {N s : ℕ} (hs : 0 < s) (hNs : s ≤ N)
    (hsl : heightSlack u d N s < 1) :
    ∃ h, Rounded.balancedHeight rnd rlog d N s = .ok h ∧
      (N : ℝ) ≤ s * (2 ^ d) ^ h * (2 ^ d : ℝ) ^ heightSlack u d N s ∧
      (h ≠ 0 → s * (2 ^ d) ^ (h - 1) < N * (2 ^ d : ℝ) ^ heightSlack u d N s) := by
  have hN : 0 < N := by omega
  have hN' : (0 : ℝ) < N := by exact_mod_cast hN
  have hs' : (0 : ℝ) < s := by exact_mod_cast hs
  have hq : (0 : ℝ) < N / s := by positivity
  have hB : (2 : ℝ) ≤ ((2 ^ d : ℕ) : ℝ) := by
    push_cast
    calc (2 : ℝ) = 2 ^ 1 := by norm_num
      _ ≤ 2 ^ d := pow_le_pow_right₀ (by norm_num) hd
  obtain ⟨-, b1⟩ := logb_err hB hu (by linarith) H HL hq (g := 5 * u) (by linarith) (b := rnd (rnd N / rnd s))
    (count_err hu (by linarith) H hN' hs')
  change |rnd (rlog (rnd (rnd N / rnd s)) / rlog ((2 ^ d : ℕ) : ℝ)) - _| ≤ heightSlack u d N s at b1
  have hBB : ((2 ^ d : ℕ) : ℝ) = 2 ^ d := by push_cast; rfl
  set L := Real.log (N / s : ℝ) / Real.log ((2 ^ d : ℕ) : ℝ) with hLdef
  set Q := rnd (rlog (rnd (rnd N / rnd s)) / rlog ((2 ^ d : ℕ) : ℝ)) with hQ
  set δ := heightSlack u d N s
  have lB : 0 < Real.log ((2 ^ d : ℕ) : ℝ) := Real.log_pos (by linarith)
  have hL0 : 0 ≤ L := by
    refine div_nonneg (Real.log_nonneg ?_) lB.le
    rw [le_div_iff₀ hs', one_mul]
    exact_mod_cast hNs
  have hpow : (N : ℝ) / s = (2 ^ d : ℝ) ^ L := by
    rw [← hBB, Real.rpow_def_of_pos (by linarith), hLdef, mul_div_cancel₀ _ lB.ne', Real.exp_log hq]
  have hNeq : (N : ℝ) = s * (2 ^ d : ℝ) ^ L := by rw [← hpow]; field_simp
  have hB1 : (1 : ℝ) ≤ 2 ^ d := by rw [← hBB]; linarith
  have hBp : (0 : ℝ) < 2 ^ d := by linarith
  have b2 := abs_le.mp b1
  have d1 := Int.le_ceil Q
  have d2 := Int.ceil_lt_add_one Q
  have hz : 0 ≤ ⌈Q⌉ := by
    have : ((-1 : ℤ) : ℝ) < (⌈Q⌉ : ℝ) := by push_cast; linarith [b2.1]
    have := Int.cast_lt.mp this
    omega
  have ht : ((⌈Q⌉.toNat : ℕ) : ℝ) = (⌈Q⌉ : ℝ) := by
    have : ((⌈Q⌉.toNat : ℤ)) = ⌈Q⌉ := Int.toNat_of_nonneg hz
    exact_mod_cast this
  refine ⟨⌈Q⌉.toNat, ?_, ?_, fun h0 => ?_⟩
  · unfold Rounded.balancedHeight
    rw [if_neg (by omega)]
    simp only
    exact if_neg (not_lt.mpr hz)
  · rw [hNeq, mul_assoc]
    refine mul_le_mul_of_nonneg_left ?_ hs'.le
    rw [← Real.rpow_natCast (2 ^ d : ℝ), ← Real.rpow_add hBp]
    exact Real.rpow_le_rpow_of_exponent_le hB1 (by rw [ht]; linarith [b2.1])
  · rw [hNeq, mul_assoc]
    refine mul_lt_mul_of_pos_left ?_ hs'
    rw [← Real.rpow_natCast (2 ^ d : ℝ), ← Real.rpow_add hBp]
    refine Real.rpow_lt_rpow_of_exponent_lt (by rw [← hBB]; linarith) ?_
    rw [Nat.cast_sub (Nat.one_le_iff_ne_zero.mpr h0), ht]
    push_cast
    linarith [b2.2]

/-! ## `double`s -/

/-- Four sources, one per cell: with `double`s the height is 1. -/
theorem S4_height : Rounded.balancedHeight Flt.ieee.rnd Flt.ieee.rlog 2 S4.length 1 = .ok 1 := by
  have e1 : Rounded.rndNE (1 : ℝ) = 1 := by
    have := rndNE_mantissa (n := 2 ^ 52) (e := -52) (by norm_num) (by norm_num)
    norm_num at this; exact this
  have e4 : Rounded.rndNE (4 : ℝ) = 4 := by
    have := rndNE_mantissa (n := 2 ^ 52) (e := -50) (by norm_num) (by norm_num)
    norm_num at this; exact this
  have hl : Flt.ieee.rlog 4 ≠ 0 := by
    intro h0
    have := Flt.ieee_ok.rlog 4 (by norm_num)
    rw [h0, zero_sub, abs_neg] at this
    have hpos : 0 < |Real.log 4| := abs_pos.mpr (Real.log_pos (by norm_num)).ne'
    norm_num at this
  have hlen : S4.length = 4 := rfl
  have hc : ((2 ^ 2 : ℕ) : ℝ) = 4 := by norm_num
  have hr : ∀ x, Flt.ieee.rnd x = Rounded.rndNE x := fun _ => rfl
  unfold Rounded.balancedHeight
  rw [hlen, if_neg (by norm_num), hc]
  simp only [hr]
  push_cast
  rw [e1, e4, div_one, e4, div_self hl, e1]
  simp

/-- Non-vacuity: four charges, one source per cell, `double`s: the tree is built, and the potential at a source and the force at
the centre of the square (on the planes between the leaves) are computed with the stated errors. -/
example : ∃ r T v w, Rounded.sourceBox Flt.ieee.rnd S4 = some r ∧ BuiltByB Flt.ieee BinomialTable.init S4 1 2 T ∧
    T.order = 1 ∧ T.height = 1 ∧ flPotentialB Flt.ieee true T ![3, 3] = .ok v ∧
    |v - directPotential true S4 ![3, 3]| ≤ potError (1 / 2 ^ 49) r.len S4 1 1 9 ![3, 3] ∧
    flForceB Flt.ieee 0 false T 0 = .ok w ∧
    dist2 w (directField false S4 0 0) ≤ forceError (1 / 2 ^ 49) (r.len / 2 ^ 1) S4 1 1 9 0 0 := by
  obtain ⟨r, T, h0, h1, h2, h3, h4, h5, h6, h7⟩ := C79_placed (k := 1) Flt.ieee_ok S4_placed.toPlaced reachable_init S4_order
    one_pos (by norm_num) S4_height le_rfl (by norm_num)
  obtain ⟨v, v1, v2⟩ := (h7 ![3, 3] (Or.inl (by simp [S4])) true).1
  obtain ⟨w, w1, w2⟩ := (h7 0 (Or.inr fun i => by
    obtain ⟨r', b0, -, -, -, b4⟩ := S4_placed.toPlaced.box Flt.ieee_ok
    rw [h0] at b0
    cases b0
    have c1 := abs_lt.mp (b4 ⟨![3, 3], 1⟩ (by simp [S4]) i)
    have c2 := abs_lt.mp (b4 ⟨![-3, -3], 1⟩ (by simp [S4]) i)
    have e1 : (![3, 3] : Vec 2) i = 3 := by fin_cases i <;> rfl
    have e2 : (![-3, -3] : Vec 2) i = -3 := by fin_cases i <;> rfl
    simp only [e1, e2] at c1 c2
    rw [abs_lt, Pi.zero_apply]
    constructor <;> linarith [c1.1, c1.2, c2.1, c2.2]) false).2 0 le_rfl
  exact ⟨r, T, v, w, h0, h4, h5, h6, v1, v2, w1, w2⟩

/-- Non-vacuity: 1000 sources, 10 per cell, `double`s. -/
example : ∃ h, Rounded.balancedHeight Flt.ieee.rnd Flt.ieee.rlog 3 1000 10 = .ok h := by
  obtain ⟨h, h1, -⟩ := C80_height (d := 3) (N := 1000) (s := 10) (by norm_num) (by positivity) (by norm_num) Flt.ieee_ok.rnd
    Flt.ieee_ok.rlog (by norm_num) (by norm_num) (by
      unfold heightSlack
      have l2 : 0.69 < Real.log 2 := by linarith [Real.log_two_gt_d9]
      have e : Real.log ((2 ^ 3 : ℕ) : ℝ) = 3 * Real.log 2 := by rw [Nat.cast_pow, Real.log_pow]; norm_num
      have e2 : Real.log (((1000 : ℕ) : ℝ) / ((10 : ℕ) : ℝ)) ≤ 7 * Real.log 2 := by
        rw [show (7 : ℝ) * Real.log 2 = Real.log (2 ^ 7) by rw [Real.log_pow]; norm_num]
        exact Real.log_le_log (by norm_num) (by norm_num)
      have e3 : 0 ≤ Real.log (((1000 : ℕ) : ℝ) / ((10 : ℕ) : ℝ)) := Real.log_nonneg (by norm_num)
      rw [e, abs_of_nonneg (div_nonneg e3 (by linarith))]
      have : Real.log (((1000 : ℕ) : ℝ) / ((10 : ℕ) : ℝ)) / (3 * Real.log 2) ≤ 3 := by
        rw [div_le_iff₀ (by linarith)]; linarith
      linarith)
  exact ⟨h, h1⟩

end FMM
