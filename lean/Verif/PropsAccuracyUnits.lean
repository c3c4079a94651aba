import Verif.PropsAccuracySharp
import Verif.PropsUnits
import Verif.SolidOps

/-!
# C41: in three dimensions the parameter `eps` bounds nothing

In three dimensions the potential has the dimension charge over length, and the expansion order depends on the charges alone.  A tree of height two whose
error is known exactly is scaled down: the order stays, the error grows without bound.
-/

namespace FMM
open Finset

/-! ## The kernel of a tree of height two -/

section
variable {d : ℕ} {V : Type} [AddCommGroup V] [Module ℝ V]

/-- A list without repetitions picks the only path that matches. -/
theorem sum_pick {l : List Path} (hl : l.Nodup) {R : Path} (hlen : ∀ ρ ∈ l, ρ.length = R.length) {r : Box d} {y : Vec d} (hy : route r y R.length = R) (f : Path → V) :
    (l.map fun ρ => if route r y ρ.length = ρ then f ρ else 0).sum = if R ∈ l then f R else 0 := by
  induction l with
  | nil => simp
  | cons ρ l ih =>
    obtain ⟨h1, h2⟩ := List.nodup_cons.mp hl
    rw [List.map_cons, List.sum_cons, ih h2 fun ν hν => hlen ν (List.mem_cons_of_mem _ hν), hlen ρ (List.mem_cons_self ..), hy]
    by_cases e : R = ρ
    · subst e; rw [if_pos rfl, if_neg h1, add_zero, if_pos (List.mem_cons_self ..)]
    · rw [if_neg e, zero_add]
      by_cases h : R ∈ l
      · rw [if_pos h, if_pos (List.mem_cons_of_mem _ h)]
      · rw [if_neg h, if_neg (by rw [List.mem_cons]; exact fun h' => h'.elim e h)]

theorem adjacent_depth_one {r : Box d} (hr : 0 < r.len) (i j : ℕ) : (boxAt r [i]).adjacent (boxAt r [j]) := by
  rw [adjacent_iff_inter r hr]
  have hc : ∀ k : ℕ, (boxAt r [k]).contains r.center := by
    intro k
    rw [Box.contains_iff]
    intro m
    simp only [boxAt, Box.child, Pi.add_apply, Pi.smul_apply, smul_eq_mul]
    rcases childDir_eq (d := d) k m with e | e <;> rw [e] <;> constructor <;> linarith
  exact ⟨r.center, hc i, hc j⟩

theorem inter_depth_one {r : Box d} (hr : 0 < r.len) {h i : ℕ} (hi : (fullTree r h).Mem [i]) : (fullTree r h).inter [i] = [] := by
  rw [List.eq_nil_iff_forall_not_mem]
  intro ρ hρ
  obtain ⟨-, h2, j, ν, rfl, h3, -⟩ := (PTree.mem_inter ((fullTree_adjOf r h).laws hr) hi ρ).mp hρ
  have : ν = [] := List.eq_nil_of_length_eq_zero h3
  subst this
  rw [fullTree_adjOf r h] at h2
  simp [adjacent_depth_one hr i j] at h2

open Lin in
/-- A source whose leaf is not adjacent to that of `x` enters through the expansions of the two leaves. -/
theorem kern_two_far {K : Kit d} {O : Obs K V} {p : ℕ} {L : FmmLaws K O p} (Q : LinLaws L) {r : Box d} (hr : 0 < r.len) (x y : Vec d)
    (hadj : ¬ (boxAt r (route r x 2)).adjacent (boxAt r (route r y 2))) :
    kern Q (fullTree r 2) r 3 (fun _ => 2) x y = Q.m2l (boxAt r (route r y 2)).center (boxAt r (route r x 2)).center ⟨y, 1⟩ x := by
  have hA := fullTree_adjOf r 2
  have hL := hA.laws hr
  have hmem : ∀ z, (fullTree r 2).Mem (route r z 2) := fun z => (fullTree_mem r 2 _).mpr ⟨route_valid r z 2, (route_length r z 2).le⟩
  have hleaf : ∀ z, (fullTree r 2).leaf (route r z 2) = true := fun z => by simp [fullTree, route_length]
  have hh : ∀ π, (fullTree r 2).Mem π → π.length < 3 := fun π hπ => Nat.lt_succ_of_le ((fullTree_mem r 2 π).mp hπ).2
  have hny : (fullTree r 2).adj (route r x 2) (route r y 2) = false := by rw [hA]; simp [hadj]
  have hyl : route r y (route r y 2).length = route r y 2 := by rw [route_length]
  have hnear : ((((fullTree r 2).nbhAfter ((fullTree r 2).order 3)).near (route r x 2)).map fun ρ =>
      if route r y ρ.length = ρ then Q.p2p ⟨y, 1⟩ x else 0).sum = 0 := by
    rw [sum_pick (PTree.nodup_near_leaf hL hh (hmem x)) (R := route r y 2) _ hyl, if_neg]
    · intro hm
      rw [((PTree.mem_near_leaf hL hh (hmem x) (hleaf x) _).mp hm).2.2] at hny
      cases hny
    · intro ρ hρ
      obtain ⟨u1, u2, -⟩ := (PTree.mem_near_leaf hL hh (hmem x) (hleaf x) ρ).mp hρ
      have := (fullTree_mem r 2 ρ).mp u1
      have : 2 ≤ ρ.length := by simpa [fullTree] using u2
      rw [route_length]; omega
  have hin : route r y 2 ∈ (fullTree r 2).inter (route r x 2) := by
    have hx1 : route r x 2 = getOrthant (boxAt r (route r x 1)).center x :: route r x 1 := rfl
    have hy1 : route r y 2 = getOrthant (boxAt r (route r y 1)).center y :: route r y 1 := rfl
    rw [hx1, PTree.mem_inter hL (hx1 ▸ hmem x), ← hx1]
    refine ⟨hmem y, hny, _, _, hy1, by rw [route_length, route_length], ?_⟩
    rw [hA]
    exact decide_eq_true (adjacent_depth_one hr (getOrthant (boxAt r (route r x 0)).center x) (getOrthant (boxAt r (route r y 0)).center y))
  have hfar : farT Q (fullTree r 2) r ⟨y, 1⟩ (route r x 2) x
      = Q.m2l (boxAt r (route r y 2)).center (boxAt r (route r x 2)).center ⟨y, 1⟩ x := by
    have hmx := hmem x
    have hlx := route_length r x 2
    have hs := sum_pick (PTree.nodup_inter hL hmx) (R := route r y 2) (fun ρ hρ => by rw [PTree.inter_length hL hmx hρ, route_length, route_length]) hyl
      fun ρ => Q.m2l (boxAt r ρ).center (boxAt r (route r x 2)).center ⟨y, 1⟩ x
    rw [if_pos hin] at hs
    generalize route r x 2 = R at *
    match R, hmx, hlx with
    | [i, j], hmx, _ =>
      simp only [farT]
      rw [inter_depth_one hr hmx.tail, xl_one hmx.tail, fullTree_xl hr hmx]
      simp only [List.map_nil, List.sum_nil, add_zero]
      rw [Pi.zero_apply, zero_add]
      exact hs
  unfold kern term
  rw [hfar, fullTree_W hr, hnear]
  simp

end

/-! ## One source on the line through the centres of two leaves -/

theorem sK_smul (n : ℕ) (a : ℝ) (x s : Vec 3) : sK n (a • x) s = (a : ℂ) ^ n * sK n x s := by
  unfold sK
  rw [mul_sum]
  refine sum_congr rfl fun m _ => ?_
  rw [sR_smul]
  ring

/-- At the centre of the local expansion only its constant term counts. -/
theorem sT_centre (n : ℕ) (v h : Vec 3) (j : ℕ) (hj : j ≤ n) : sT n j 0 v h = if j = 0 then sK n v h else 0 := by
  have hz : ∀ i, 0 < i → sT n i 0 v h = 0 := by
    intro i hi
    have := sT_smul n i 0 (0 : Vec 3) v h
    rwa [smul_zero, Complex.ofReal_zero, zero_pow hi.ne', zero_mul] at this
  by_cases h0 : j = 0
  · subst h0
    rw [if_pos rfl]
    have := sK_add n 0 v h
    rw [zero_add, sum_range_succ', sum_eq_zero (fun i _ => hz (i + 1) (Nat.succ_pos i)), zero_add] at this
    exact this.symm
  · rw [if_neg h0]; exact hz j (Nat.pos_of_ne_zero h0)

/-- The computed contribution of a source on the line through the two centres, evaluated at the centre of the local expansion, is a truncated geometric series. -/
theorem m2l_line {p : ℕ} {c c' : Vec 3} (hne : c ≠ c') (a : ℝ) :
    leSum3L p (c' - c') (m2l3L p (c - c') (uME3 c (c - a • (c - c')))) = -((∑ n ∈ range (p + 1), a ^ n) / len3 (c - c')) := by
  have hl : (len3 (c - c') : ℂ) ≠ 0 := by
    have := len3_pos (v := c - c') (sub_ne_zero.mpr hne)
    exact_mod_cast this.ne'
  have h := m2lC_sources p c (c - c') [⟨c - a • (c - c'), 1⟩] (c' - c')
  have e : leSum3L p (c' - c') (m2l3L p (c - c') (uME3 c (c - a • (c - c'))))
      = -(leSum3 (m2lC p (meCoeff3 c [⟨c - a • (c - c'), 1⟩]) (c - c')) p (c' - c')).re := rfl
  rw [e, h, List.map_cons, List.map_nil, List.sum_cons, List.sum_nil, add_zero, Complex.ofReal_one, one_mul, sub_self]
  have hv : -(c - a • (c - c') - c) = a • (c - c') := by abel
  simp only [hv]
  have hs : ∑ x ∈ range (p + 1) ×ˢ range (p + 1), sT (x.1 + x.2) x.1 0 (a • (c - c')) (c - c') / (len3 (c - c') : ℂ) ^ (2 * (x.1 + x.2) + 1)
      = ((∑ n ∈ range (p + 1), a ^ n) / len3 (c - c') : ℝ) := by
    rw [sum_product, sum_range_succ', sum_eq_zero, zero_add]
    · push_cast
      rw [sum_div]
      refine sum_congr rfl fun n _ => ?_
      rw [zero_add, sT_centre _ _ _ _ (Nat.zero_le _), if_pos rfl, sK_smul, sK_self]
      push_cast
      rw [pow_succ]
      field_simp
    · intro i _
      refine sum_eq_zero fun n _ => ?_
      rw [sT_centre _ _ _ _ (Nat.le_add_right _ _), if_neg (Nat.succ_ne_zero i), zero_div]
  rw [hs, Complex.ofReal_re]

/-! ## The tree -/

/-- One source of strength 1 and eight sources of strength zero at the corners of a cube: with the padding the root box is `[-1, 1]³`. -/
noncomputable def S42 : List (Source 3) :=
  [⟨![k41, k41, k41], 0⟩, ⟨![-k41, k41, k41], 0⟩, ⟨![k41, -k41, k41], 0⟩, ⟨![-k41, -k41, k41], 0⟩, ⟨![k41, k41, -k41], 0⟩, ⟨![-k41, k41, -k41], 0⟩,
    ⟨![k41, -k41, -k41], 0⟩, ⟨![-k41, -k41, -k41], 0⟩, ⟨![1 / 8, -(1 / 4), -(1 / 4)], 1⟩]

/-- The centre of the leaf `[-1, -1/2) × [-1/2, 0) × [-1/2, 0)`. -/
noncomputable def x42 : Vec 3 := ![-(3 / 4), -(1 / 4), -(1 / 4)]

noncomputable def u42 : Vec 3 := ![1 / 8, -(1 / 4), -(1 / 4)]

noncomputable def box42 : Box 3 := ⟨fun _ => 0, 2⟩

theorem S42_box : rootBox (S42.map Source.pos) = some box42 := by
  have h := rootBox_eq (S42.map Source.pos) (fun _ => -k41) (fun _ => k41) (2 * k41) ?_ ?_ ?_ ?_
  · rw [h]
    unfold box42
    congr 2
    · funext i; simp
    · norm_num [k41, paddingFactor]
  · intro i
    constructor
    · exact ⟨![-k41, -k41, -k41], by simp [S42], by fin_cases i <;> rfl⟩
    · intro p hp
      simp [S42] at hp
      rcases hp with rfl | rfl | rfl | rfl | rfl | rfl | rfl | rfl | rfl <;> fin_cases i <;> norm_num [k41]
  · intro i
    constructor
    · exact ⟨![k41, k41, k41], by simp [S42], by fin_cases i <;> rfl⟩
    · intro p hp
      simp [S42] at hp
      rcases hp with rfl | rfl | rfl | rfl | rfl | rfl | rfl | rfl | rfl <;> fin_cases i <;> norm_num [k41]
  · intro i; linarith
  · exact ⟨0, by ring⟩

theorem S42_inside : ∀ s ∈ S42, box42.containsHO s.pos := by
  intro s hs
  simp [S42] at hs
  rcases hs with rfl | rfl | rfl | rfl | rfl | rfl | rfl | rfl | rfl <;> intro i <;> rw [Box.lower_apply, Box.upper_apply] <;>
    fin_cases i <;> norm_num [box42, k41]

theorem x42_inside : box42.containsHO x42 := by
  intro i; rw [Box.lower_apply, Box.upper_apply]
  fin_cases i <;> norm_num [box42, x42]

theorem S42_balanced : BalancedInput S42 1 box42 2 := ⟨S42_box, S42_inside, height9, by norm_num⟩

theorem S42_strength : totalStrength S42 = 1 := by
  rw [totalStrength_eq]; simp [S42]

theorem orth3 (c x : Vec 3) : getOrthant c x
    = ((if c 0 ≤ x 0 then 1 else 0) <<< 1 ||| (if c 1 ≤ x 1 then 1 else 0)) <<< 1 ||| (if c 2 ≤ x 2 then 1 else 0) := by
  simp [getOrthant, List.finRange]

theorem center_x42 : boxAt box42 [3, 0] = ⟨x42, 1 / 2⟩ := by
  simp only [boxAt, Box.child, box42, x42]
  congr 1
  · funext j; fin_cases j <;> norm_num [childDir, show Nat.testBit 3 1 = true from rfl, show Nat.testBit 3 2 = false from rfl]
  · norm_num

theorem center_u42 : boxAt box42 [3, 4] = ⟨![1 / 4, -(1 / 4), -(1 / 4)], 1 / 2⟩ := by
  simp only [boxAt, Box.child, box42]
  congr 1
  · funext j; fin_cases j <;> norm_num [childDir, show Nat.testBit 3 1 = true from rfl, show Nat.testBit 3 2 = false from rfl,
      show Nat.testBit 4 1 = false from rfl, show Nat.testBit 4 2 = true from rfl]
  · norm_num

theorem center_04 (i : ℕ) : (boxAt box42 [i]).center = fun j => (1 / 2) * childDir 3 i j := by
  funext j
  simp only [boxAt, Box.child, box42, Pi.add_apply, Pi.smul_apply, smul_eq_mul]
  norm_num

theorem x42_0 : x42 0 = -(3 / 4) := rfl
theorem x42_1 : x42 1 = -(1 / 4) := rfl
theorem x42_2 : x42 2 = -(1 / 4) := rfl
theorem u42_0 : u42 0 = 1 / 8 := rfl
theorem u42_1 : u42 1 = -(1 / 4) := rfl
theorem u42_2 : u42 2 = -(1 / 4) := rfl

theorem route_x42 : route box42 x42 2 = [3, 0] := by
  have h1 : route box42 x42 1 = [0] := by
    rw [route, orth3, if_neg (by norm_num [route, boxAt, box42, x42_0]), if_neg (by norm_num [route, boxAt, box42, x42_1]),
      if_neg (by norm_num [route, boxAt, box42, x42_2])]
    rfl
  rw [route, h1, orth3, center_04, if_neg (by norm_num [x42_0, childDir]), if_pos (by norm_num [x42_1, childDir]), if_pos (by norm_num [x42_2, childDir])]
  rfl

theorem route_u42 : route box42 u42 2 = [3, 4] := by
  have h1 : route box42 u42 1 = [4] := by
    rw [route, orth3, if_pos (by norm_num [route, boxAt, box42, u42_0]), if_neg (by norm_num [route, boxAt, box42, u42_1]),
      if_neg (by norm_num [route, boxAt, box42, u42_2])]
    rfl
  rw [route, h1, orth3, center_04, if_neg (by norm_num [u42_0, childDir, show Nat.testBit 4 2 = true from rfl]),
    if_pos (by norm_num [u42_1, childDir, show Nat.testBit 4 1 = false from rfl]), if_pos (by norm_num [u42_2, childDir])]
  rfl

theorem not_adj42 : ¬ (boxAt box42 (route box42 x42 2)).adjacent (boxAt box42 (route box42 u42 2)) := by
  rw [route_x42, route_u42, center_x42, center_u42]
  intro h
  have := h 0
  simp only [Box.lower_apply, Box.upper_apply, Pi.sub_apply, Vec.fill, x42] at this
  norm_num at this

theorem len42 : len3 (![1 / 4, -(1 / 4), -(1 / 4)] - x42) = 1 := by
  unfold len3
  rw [Real.sqrt_eq_one]
  unfold dot3
  rw [Pi.sub_apply, Pi.sub_apply, Pi.sub_apply, x42_0, x42_1, x42_2]
  show (1 / 4 - -(3 / 4) : ℝ) * (1 / 4 - -(3 / 4)) + (-(1 / 4) - -(1 / 4)) * (-(1 / 4) - -(1 / 4)) + (-(1 / 4) - -(1 / 4)) * (-(1 / 4) - -(1 / 4)) = 1
  norm_num

theorem kern42 (p : ℕ) (hp : p ≤ 42) : Lin.kern (lin3Pot p hp) (fullTree box42 2) box42 3 (fun _ => 2) x42 u42 = -∑ n ∈ range (p + 1), (1 / 8 : ℝ) ^ n := by
  rw [kern_two_far (lin3Pot p hp) (by norm_num [box42]) x42 u42 not_adj42, route_x42, route_u42, center_x42, center_u42]
  have hu : u42 = ![1 / 4, -(1 / 4), -(1 / 4)] - (1 / 8 : ℝ) • ((![1 / 4, -(1 / 4), -(1 / 4)] : Vec 3) - x42) := by
    funext i; fin_cases i <;> norm_num [u42, x42]
  have hne : (![1 / 4, -(1 / 4), -(1 / 4)] : Vec 3) ≠ x42 := by
    intro h
    have := congrFun h 0
    norm_num [x42] at this
  have := m2l_line (p := p) hne (1 / 8)
  rw [← hu, len42, div_one] at this
  show (1 : ℝ) • leSum3L p (x42 - x42) _ = _
  rw [one_smul]
  exact this

theorem dist42 : dist2 u42 x42 = 7 / 8 := by
  unfold dist2
  rw [Fin.sum_univ_three, u42_0, u42_1, u42_2, x42_0, x42_1, x42_2, show ((1 / 8 - -(3 / 4) : ℝ) ^ 2 + (-(1 / 4) - -(1 / 4)) ^ 2 + (-(1 / 4) - -(1 / 4)) ^ 2) = (7 / 8) ^ 2 by norm_num]
  exact Real.sqrt_sq (by norm_num)

theorem direct42 : directPotential true S42 x42 = -(8 / 7) := by
  have hzero : ∀ y : Vec 3, directTerm true x42 ⟨y, 0⟩ = 0 := by
    intro y
    unfold directTerm kernelSpec
    by_cases h : y = x42
    · rw [if_pos h]
    · rw [if_neg h]; simp
  have hne : u42 ≠ x42 := by
    intro h
    have := congrFun h 0
    rw [u42_0, x42_0] at this
    norm_num at this
  have h1 : directTerm true x42 ⟨u42, 1⟩ = -(8 / 7) := by
    unfold directTerm kernelSpec
    rw [if_neg hne, dist42]
    norm_num [sgn]
  unfold directPotential S42
  simp only [List.map_cons, List.map_nil, List.sum_cons, List.sum_nil, hzero, zero_add, add_zero]
  exact h1

theorem superpose42 (h : Vec 3 → Vec 3 → ℝ) : superpose h S42 x42 = h x42 u42 := by
  unfold superpose S42
  simp only [List.map_cons, List.map_nil, List.sum_cons, List.sum_nil, zero_smul, one_smul, zero_add, add_zero]
  rfl

theorem geom8 (p : ℕ) : (8 / 7 : ℝ) - ∑ n ∈ range (p + 1), (1 / 8 : ℝ) ^ n = 1 / (7 * 8 ^ p) := by
  induction p with
  | zero => norm_num
  | succ p ih =>
    rw [sum_range_succ, ← sub_sub, ih, div_pow, one_pow]
    have : (8 : ℝ) ^ p ≠ 0 := by positivity
    rw [pow_succ]
    field_simp
    norm_num

theorem directPotential_scale {c : ℝ} (hc : 0 < c) (grav : Bool) (S : List (Source 3)) (x : Vec 3) :
    directPotential grav (S.map (Source.scale c)) (c • x) = c⁻¹ * directPotential grav S x := by
  unfold directPotential
  rw [List.map_map, ← List.sum_map_mul_left]
  refine congrArg List.sum (List.map_congr_left fun s _ => ?_)
  rw [Function.comp_apply]
  have hp : (Source.scale c s).pos = c • s.pos := rfl
  have hq : (Source.scale c s).q = s.q := rfl
  by_cases h : s.pos = x
  · have h' : (Source.scale c s).pos = c • x := by rw [hp, h]
    unfold directTerm
    rw [if_pos h', if_pos h, mul_zero]
  · have h' : ¬ (Source.scale c s).pos = c • x := fun h' => h ((Sc.smul_inj hc).mp h')
    unfold directTerm
    rw [if_neg h', if_neg h]
    unfold kernelSpec
    rw [if_neg (by norm_num), if_neg (by norm_num), hp, hq, Sc.dist2_scale hc, mul_comm c, ← div_div]
    field_simp

/-- **C41** is false in three dimensions, by any amount: whatever the order `p` that the tables support and whatever the bound `M`, there are sources of total strength
1, and a point of the root box, for which the balanced tree built in a fresh program with `eps = 2⁻ᵖ` returns a potential that is off by more than `M`. -/
theorem C41_unbounded_3d (p : ℕ) (hp0 : 1 ≤ p) (hp : p ≤ 42) (M : ℝ) : ∃ (S : List (Source 3)) (r : Box 3) (x : Vec 3),
    (S.map fun s => |s.q|).sum = 1 ∧ rootBox (S.map Source.pos) = some r ∧ r.containsHO x ∧ (∀ s ∈ S, r.containsHO s.pos) ∧
    ∃ (fuel0 : ℕ) (T : BalancedFmm kit3) (v : ℝ),
      (∀ fuel ≥ fuel0, ∀ sch, Schedule sch → balancedFmm kit3 fuel sch (Stat3.init 0 0 0) S 1 (1 / 2 ^ p) = .ok T) ∧
      balancedEval pot3 true T x = .ok v ∧ M < |v - directPotential true S x| := by
  have hord : expansionOrder (totalStrength S42) (1 / 2 ^ p) = .ok p := by rw [S42_strength]; exact order_pow p (by omega)
  set c : ℝ := 1 / (7 * 8 ^ p * (|M| + 1)) with hc'
  have hM : 0 < |M| + 1 := by positivity
  have hc : 0 < c := by positivity
  obtain ⟨f, T, T', h1, h2⟩ := (C117_balanced_3d (p := p) (c := c) reachable3_init S42_balanced hp0 hp hc).1 (1 / 2 ^ p) hord
  obtain ⟨f2, T2, k1, k2⟩ := balanced_superposed (lin3Pot p hp) (t := Stat3.init 0 0 0) ⟨reachable3_init.good.1, Or.inl hp0⟩ (by norm_num) S42_balanced
    (by norm_num) (by norm_num [box42]) (by norm_num) S42 (1 / 2 ^ p) (List.Perm.refl _) hord
  have hT : T2 = T := by
    have a := k1 (max f f2) (le_max_right _ _) (fun _ l => l) (fun _ l => List.Perm.refl l)
    have b := (h1 (max f f2) (le_max_left _ _) (fun _ l => l) (fun _ l => List.Perm.refl l)).1
    rw [a] at b
    exact Except.ok.inj b
  obtain ⟨v, hv, hw⟩ := h2 x42 x42_inside trivial true
  have hv' := k2 x42 x42_inside trivial true
  rw [hT, hv, if_pos rfl, superpose42, kern42] at hv'
  have hv2 : v = -∑ n ∈ range (p + 1), (1 / 8 : ℝ) ^ n := Except.ok.inj hv'
  have hI := Sc.balancedInput hc S42_balanced
  refine ⟨S42.map (Source.scale c), box42.scale c, c • x42, ?_, hI.box, (Sc.containsHO hc _ _).mpr x42_inside, hI.inside, f, T', _,
    fun fuel hf sch hs => (h1 fuel hf sch hs).2, hw, ?_⟩
  · rw [← totalStrength_eq, Sc.totalStrength, S42_strength]
  · rw [directPotential_scale hc, direct42, hv2, smul_zero, add_zero, smul_eq_mul, ← mul_sub,
      show (-∑ n ∈ range (p + 1), (1 / 8 : ℝ) ^ n) - -(8 / 7) = (8 / 7 : ℝ) - ∑ n ∈ range (p + 1), (1 / 8 : ℝ) ^ n by ring, geom8, hc', one_div, inv_inv,
      show (7 * 8 ^ p * (|M| + 1)) * (1 / (7 * 8 ^ p) : ℝ) = |M| + 1 by field_simp, abs_of_pos hM]
    linarith [le_abs_self M]

end FMM
