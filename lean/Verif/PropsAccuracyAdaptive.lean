import Verif.PropsAccuracyUnits

/-!
# C41 for adaptive trees

The witnesses of `C41_sharp` and `C41_unbounded_3d` for the adaptive tree.  A source that is found in the interaction list of the leaf of the evaluation
point is counted there and nowhere else (C19), so its contribution is the converted expansion whatever the rest of the tree looks like.
-/

namespace FMM
open Finset

section
variable {d : ℕ} {V : Type} [AddCommGroup V] [Module ℝ V]

theorem cnt_zero {r : Box d} {y : Vec d} {l : List Path} (h : Sc.cnt r y l = 0) : ∀ ρ ∈ l, route r y ρ.length ≠ ρ := by
  intro ρ hρ e
  unfold Sc.cnt at h
  have := List.sum_eq_zero_iff.mp h _ (List.mem_map.mpr ⟨ρ, hρ, rfl⟩)
  rw [if_pos e] at this
  omega

theorem cnt_pos {r : Box d} {y : Vec d} {l : List Path} {ρ : Path} (hρ : ρ ∈ l) (e : route r y ρ.length = ρ) : 1 ≤ Sc.cnt r y l := by
  rcases Nat.eq_zero_or_pos (Sc.cnt r y l) with h | h
  · exact absurd e (cnt_zero h ρ hρ)
  · exact h

theorem sum_none {r : Box d} {y : Vec d} {l : List Path} (h : Sc.cnt r y l = 0) (f : Path → V) :
    (l.map fun ρ => if route r y ρ.length = ρ then f ρ else 0).sum = 0 := by
  refine List.sum_eq_zero fun v hv => ?_
  obtain ⟨ρ, hρ, rfl⟩ := List.mem_map.mp hv
  rw [if_neg (cnt_zero h ρ hρ)]

open Lin in
theorem farT_none {K : Kit d} {O : Obs K V} {p : ℕ} {L : FmmLaws K O p} (Q : LinLaws L) (T : PTree) (r : Box d) (y x : Vec d) :
    ∀ π, Sc.cntFar T r y π = 0 → farT Q T r ⟨y, 1⟩ π x = 0
  | [], _ => rfl
  | i :: τ, h => by
    rw [Sc.cntFar] at h
    simp only [farT]
    rw [farT_none Q T r y x τ (by omega), sum_none (by omega), sum_none (by omega)]
    simp

open Lin in
/-- A source in the interaction list of the leaf of `x` enters through the expansions of the two nodes, and only there. -/
theorem kern_far {K : Kit d} {O : Obs K V} {p : ℕ} {L : FmmLaws K O p} (Q : LinLaws L) {T : PTree} {r : Box d} (hA : AdjOf T r) (hr : 0 < r.len)
    (hcc : T.c = 2 ^ d) {n : ℕ} (hh : ∀ π, T.Mem π → π.length < n) {k : Vec d → ℕ} {x y : Vec d} {R ρ : Path} (hR : route r x (k x) = R)
    (hk1 : T.Mem R) (hk2 : T.leaf R = true) (hρ : ρ ∈ T.inter R) (hy : route r y ρ.length = ρ) :
    kern Q T r n k x y = Q.m2l (boxAt r ρ).center (boxAt r R).center ⟨y, 1⟩ x := by
  have hL := hA.laws hr
  have hone := Sc.slots_cnt hA hr hcc hh y hk1 hk2
  have hpos := cnt_pos hρ hy
  cases R with
  | nil => simp [PTree.inter] at hρ
  | cons i τ =>
    rw [Sc.cntFar] at hone
    have z1 : Sc.cnt r y ((T.nbhAfter (T.order n)).near (i :: τ)) = 0 := by omega
    have z2 : Sc.cnt r y ((T.nbhAfter (T.order n)).W (i :: τ)) = 0 := by omega
    have z3 : Sc.cntFar T r y τ = 0 := by omega
    have z4 : Sc.cnt r y (T.xl (i :: τ)) = 0 := by omega
    unfold kern term
    rw [hR, sum_none z1, sum_none z2]
    simp only [farT]
    rw [farT_none Q T r y x τ z3, sum_none z4,
      sum_pick (PTree.nodup_inter hL hk1) (R := ρ) (fun σ hσ => by rw [PTree.inter_length hL hk1 hσ, PTree.inter_length hL hk1 hρ]) hy, if_pos hρ]
    simp

/-- Two leaves of depth two that are not adjacent are in each other's interaction lists. -/
theorem inter_two {T : PTree} {r : Box d} (hA : AdjOf T r) (hr : 0 < r.len) {i j k l : ℕ} (h1 : T.Mem [i, j]) (h2 : T.Mem [k, l])
    (hn : ¬ (boxAt r [i, j]).adjacent (boxAt r [k, l])) : [k, l] ∈ T.inter [i, j] := by
  rw [PTree.mem_inter (hA.laws hr) h1]
  refine ⟨h2, by rw [hA]; exact decide_eq_false hn, k, [l], rfl, rfl, ?_⟩
  rw [hA]
  exact decide_eq_true (adjacent_depth_one hr j l)

/-- A node of depth two of the adaptive tree. -/
theorem mem_two {r : Box d} {S : List (Source d)} {max : ℕ} {i j : ℕ} (hi : i < 2 ^ d) (hj : j < 2 ^ d) (h0 : max < S.length)
    (h1 : max < (itemsAt Source.pos r S [j]).length) : (fmmTree Source.pos r S max).Mem [i, j] := by
  refine ⟨fun a ha => ?_, fun ρ a hs => ?_⟩
  · simp only [List.mem_cons, List.not_mem_nil, or_false] at ha
    rcases ha with rfl | rfl
    · exact hi
    · exact hj
  · have hall : itemsAt Source.pos r S [] = S := by
      unfold itemsAt
      rw [List.filter_eq_self]
      intro s _
      simp [route]
    rcases List.suffix_cons_iff.mp hs with h | h
    · cases h
      simpa [fmmTree] using h1
    · rcases List.suffix_cons_iff.mp h with h | h
      · cases h
        simp only [fmmTree, hall]
        simpa using h0
      · have := h.length_le
        simp at this

/-- The leaf of a point is unique. -/
theorem depth_unique {T : PTree} {r : Box d} {x : Vec d} {k m : ℕ} (h1 : T.Mem (route r x k)) (h2 : T.leaf (route r x k) = true)
    (h3 : T.Mem (route r x m)) (h4 : T.leaf (route r x m) = true) : route r x k = route r x m := by
  rcases Nat.le_total k m with h | h
  · exact h3.eq_of_leaf_suffix h2 (route_suffix r x h)
  · exact (h1.eq_of_leaf_suffix h4 (route_suffix r x h)).symm

end

/-! ## In space -/

/-- The source, and sources of strength zero that span the root box and divide the octants of the source and of the evaluation point. -/
noncomputable def S43 : List (Source 3) :=
  [⟨![-k41, -k41, -k41], 0⟩, ⟨![k41, k41, k41], 0⟩, ⟨![-(1 / 8), -(1 / 8), -(1 / 8)], 0⟩, ⟨![k41, -k41, -k41], 0⟩, ⟨![1 / 8, -(1 / 4), -(1 / 4)], 1⟩]

theorem S43_box : rootBox (S43.map Source.pos) = some box42 := by
  have h := rootBox_eq (S43.map Source.pos) (fun _ => -k41) (fun _ => k41) (2 * k41) ?_ ?_ ?_ ?_
  · rw [h]
    unfold box42
    congr 2
    · funext i; simp
    · norm_num [k41, paddingFactor]
  · intro i
    constructor
    · exact ⟨![-k41, -k41, -k41], by simp [S43], by fin_cases i <;> rfl⟩
    · intro p hp
      simp [S43] at hp
      rcases hp with rfl | rfl | rfl | rfl | rfl <;> fin_cases i <;> norm_num [k41]
  · intro i
    constructor
    · exact ⟨![k41, k41, k41], by simp [S43], by fin_cases i <;> rfl⟩
    · intro p hp
      simp [S43] at hp
      rcases hp with rfl | rfl | rfl | rfl | rfl <;> fin_cases i <;> norm_num [k41]
  · intro i; linarith
  · exact ⟨0, by ring⟩

theorem S43_inside : ∀ s ∈ S43, box42.contains s.pos := by
  intro s hs
  simp [S43] at hs
  rcases hs with rfl | rfl | rfl | rfl | rfl <;> refine containsHO_contains fun i => ?_ <;> rw [Box.lower_apply, Box.upper_apply] <;>
    fin_cases i <;> norm_num [box42, k41]

theorem S43_mult (x : Vec 3) : (S43.filter fun s => decide (s.pos = x)).length ≤ 1 := by
  have hnd : (S43.map Source.pos).Nodup := by
    refine List.Nodup.of_map (fun v : Vec 3 => v 0 + v 1 / 16) ?_
    simp [S43]
    norm_num [k41]
  rw [← List.countP_eq_length_filter]
  have : List.countP (fun s : Source 3 => decide (s.pos = x)) S43 = (S43.map Source.pos).count x := by
    rw [List.count, List.countP_map]
    refine List.countP_congr fun s _ => ?_
    simp
  rw [this]
  exact List.nodup_iff_count_le_one.mp hnd x

theorem S43_adaptive : AdaptiveInput S43 1 box42 := ⟨S43_box, S43_inside, S43_mult⟩

theorem S43_strength : totalStrength S43 = 1 := by
  rw [totalStrength_eq]; simp [S43]

/-- Routes of depth one and two in the root box `[-1, 1]³`. -/
theorem route43 (v : Vec 3) (i j : ℕ) (h1 : (((if 0 ≤ v 0 then 1 else 0) <<< 1 ||| (if 0 ≤ v 1 then 1 else 0)) <<< 1 ||| (if 0 ≤ v 2 then 1 else 0)) = j)
    (h2 : (((if 1 / 2 * childDir 3 j 0 ≤ v 0 then 1 else 0) <<< 1 ||| (if 1 / 2 * childDir 3 j 1 ≤ v 1 then 1 else 0)) <<< 1 |||
      (if 1 / 2 * childDir 3 j 2 ≤ v 2 then 1 else 0)) = i) : route box42 v 2 = [i, j] := by
  have a : route box42 v 1 = [j] := by
    rw [route, orth3]
    show [_] = [j]
    rw [← h1]
    rfl
  rw [route, a, orth3, center_04]
  rw [h2]

theorem route_one {d : ℕ} {r : Box d} {v : Vec d} {i j : ℕ} (h : route r v 2 = [i, j]) : route r v 1 = [j] := by
  have e : route r v 2 = getOrthant (boxAt r (route r v 1)).center v :: route r v 1 := rfl
  rw [h] at e
  exact (List.cons.inj e).2.symm

theorem ra : route box42 ![-k41, -k41, -k41] 2 = [0, 0] :=
  route43 _ 0 0 (by
    show ((if (0 : ℝ) ≤ -k41 then 1 else 0) <<< 1 ||| (if (0 : ℝ) ≤ -k41 then 1 else 0)) <<< 1 ||| (if (0 : ℝ) ≤ -k41 then 1 else 0) = 0
    rw [if_neg (by norm_num [k41])]; rfl) (by
    show ((if (1 / 2 * -1 : ℝ) ≤ -k41 then 1 else 0) <<< 1 ||| (if (1 / 2 * -1 : ℝ) ≤ -k41 then 1 else 0)) <<< 1 ||| (if (1 / 2 * -1 : ℝ) ≤ -k41 then 1 else 0) = 0
    rw [if_neg (by norm_num [k41])]; rfl)

theorem rb : route box42 ![k41, k41, k41] 2 = [7, 7] :=
  route43 _ 7 7 (by
    show ((if (0 : ℝ) ≤ k41 then 1 else 0) <<< 1 ||| (if (0 : ℝ) ≤ k41 then 1 else 0)) <<< 1 ||| (if (0 : ℝ) ≤ k41 then 1 else 0) = 7
    rw [if_pos (by norm_num [k41])]; rfl) (by
    show ((if (1 / 2 * 1 : ℝ) ≤ k41 then 1 else 0) <<< 1 ||| (if (1 / 2 * 1 : ℝ) ≤ k41 then 1 else 0)) <<< 1 ||| (if (1 / 2 * 1 : ℝ) ≤ k41 then 1 else 0) = 7
    rw [if_pos (by norm_num [k41])]; rfl)

theorem rc : route box42 ![-(1 / 8), -(1 / 8), -(1 / 8)] 2 = [7, 0] :=
  route43 _ 7 0 (by
    show ((if (0 : ℝ) ≤ -(1 / 8) then 1 else 0) <<< 1 ||| (if (0 : ℝ) ≤ -(1 / 8) then 1 else 0)) <<< 1 ||| (if (0 : ℝ) ≤ -(1 / 8) then 1 else 0) = 0
    rw [if_neg (by norm_num)]; rfl) (by
    show ((if (1 / 2 * -1 : ℝ) ≤ -(1 / 8) then 1 else 0) <<< 1 ||| (if (1 / 2 * -1 : ℝ) ≤ -(1 / 8) then 1 else 0)) <<< 1 |||
      (if (1 / 2 * -1 : ℝ) ≤ -(1 / 8) then 1 else 0) = 7
    rw [if_pos (by norm_num)]; rfl)

theorem rd : route box42 ![k41, -k41, -k41] 2 = [4, 4] :=
  route43 _ 4 4 (by
    show ((if (0 : ℝ) ≤ k41 then 1 else 0) <<< 1 ||| (if (0 : ℝ) ≤ -k41 then 1 else 0)) <<< 1 ||| (if (0 : ℝ) ≤ -k41 then 1 else 0) = 4
    rw [if_pos (by norm_num [k41]), if_neg (by norm_num [k41])]; rfl) (by
    show ((if (1 / 2 * 1 : ℝ) ≤ k41 then 1 else 0) <<< 1 ||| (if (1 / 2 * -1 : ℝ) ≤ -k41 then 1 else 0)) <<< 1 ||| (if (1 / 2 * -1 : ℝ) ≤ -k41 then 1 else 0) = 4
    rw [if_pos (by norm_num [k41]), if_neg (by norm_num [k41])]; rfl)

theorem ru : route box42 ![1 / 8, -(1 / 4), -(1 / 4)] 2 = [3, 4] := route_u42

theorem items43_one (j : ℕ) : (itemsAt Source.pos box42 S43 [j]).length = ([0, 7, 0, 4, 4].filter (· = j)).length := by
  unfold itemsAt S43
  simp only [List.filter_cons, List.filter_nil, List.length_singleton, route_one ra, route_one rb, route_one rc, route_one rd, route_one ru, List.cons.injEq, and_true,
    decide_eq_true_eq]
  repeat' split
  all_goals rfl

theorem items43_two : itemsAt Source.pos box42 S43 [3, 0] = [] ∧ (itemsAt Source.pos box42 S43 [3, 4]).length = 1 := by
  unfold itemsAt S43
  simp only [List.filter_cons, List.filter_nil, List.length_cons, List.length_nil, Nat.reduceAdd, ra, rb, rc, rd, ru]
  simp

theorem mem43 : (fmmTree Source.pos box42 S43 1).Mem [3, 0] ∧ (fmmTree Source.pos box42 S43 1).Mem [3, 4] :=
  ⟨mem_two (by norm_num) (by norm_num) (by simp [S43]) (by rw [items43_one]; decide),
   mem_two (by norm_num) (by norm_num) (by simp [S43]) (by rw [items43_one]; decide)⟩

theorem leaf43 : (fmmTree Source.pos box42 S43 1).leaf [3, 0] = true := by
  simp [fmmTree, items43_two.1]

theorem direct43 : directPotential true S43 x42 = -(8 / 7) := by
  have hzero : ∀ y : Vec 3, directTerm true x42 ⟨y, 0⟩ = 0 := by
    intro y
    unfold directTerm kernelSpec
    by_cases h : y = x42
    · rw [if_pos h]
    · rw [if_neg h]; simp
  have h := direct42
  unfold directPotential S42 at h
  unfold directPotential S43
  simp only [List.map_cons, List.map_nil, List.sum_cons, List.sum_nil, hzero, zero_add, add_zero] at h ⊢
  exact h

theorem superpose43 (h : Vec 3 → Vec 3 → ℝ) : superpose h S43 x42 = h x42 u42 := by
  unfold superpose S43
  simp only [List.map_cons, List.map_nil, List.sum_cons, List.sum_nil, zero_smul, one_smul, zero_add, add_zero]
  rfl

/-- **C41** The same for adaptive trees: the error exceeds any bound `M`, for sources of total strength 1 and `eps = 2⁻ᵖ`. -/
theorem C41_unbounded_adaptive_3d (p : ℕ) (hp0 : 1 ≤ p) (hp : p ≤ 42) (M : ℝ) : ∃ (S : List (Source 3)) (r : Box 3) (x : Vec 3),
    (S.map fun s => |s.q|).sum = 1 ∧ rootBox (S.map Source.pos) = some r ∧ r.contains x ∧ (∀ s ∈ S, r.contains s.pos) ∧
    ∃ (fuel0 : ℕ) (T : AdaptiveFmm kit3) (v : ℝ),
      (∀ fuel ≥ fuel0, ∀ sch, Schedule sch → adaptiveFmm kit3 fuel sch (Stat3.init 0 0 0) S 1 (1 / 2 ^ p) = .ok T) ∧
      (∀ fuel ≥ fuel0, adaptiveEval pot3 fuel true T [] x = .ok v) ∧ M < |v - directPotential true S x| := by
  have hord : expansionOrder (totalStrength S43) (1 / 2 ^ p) = .ok p := by rw [S43_strength]; exact order_pow p (by omega)
  have hN : 1 < S43.length := by simp [S43]
  have hr : 0 < box42.len := by norm_num [box42]
  have hxr := containsHO_contains x42_inside
  set c : ℝ := 1 / (7 * 8 ^ p * (|M| + 1)) with hc'
  have hM : 0 < |M| + 1 := by positivity
  have hc : 0 < c := by positivity
  obtain ⟨f, T, T', h1, -, h2⟩ := (C117_adaptive_3d (p := p) (c := c) reachable3_init S43_adaptive hp0 hp hc).1 (1 / 2 ^ p) hord
  obtain ⟨hh, k, d1, d2, d3, d4, d5⟩ := adaptive_depths S43_adaptive hN
  obtain ⟨f2, T2, k1, -, k2⟩ := adaptive_superposed (lin3Pot p hp) (t := Stat3.init 0 0 0) ⟨reachable3_init.good.1, Or.inl hp0⟩ S43_adaptive hN d1 d2 d3 d4
    S43 (1 / 2 ^ p) (List.Perm.refl _) hord
  have hT : T2 = T := by
    have a := k1 (max f f2) (le_max_right _ _) (fun _ l => l) (fun _ l => List.Perm.refl l)
    have b := (h1 (max f f2) (le_max_left _ _) (fun _ l => l) (fun _ l => List.Perm.refl l)).1
    rw [a] at b
    exact Except.ok.inj b
  have hkern : Lin.kern (lin3Pot p hp) (fmmTree Source.pos box42 S43 1) box42 (hh + 1) k x42 u42 = -∑ n ∈ range (p + 1), (1 / 8 : ℝ) ^ n := by
    have hR : route box42 x42 (k x42) = [3, 0] := by
      rw [depth_unique (d3 x42) (d4 x42) (m := 2) (by rw [route_x42]; exact mem43.1) (by rw [route_x42]; exact leaf43), route_x42]
    have hA : AdjOf (fmmTree Source.pos box42 S43 1) box42 := Sc.adjOf_fmmTree _ _ _
    have hn := not_adj42
    rw [route_x42, route_u42] at hn
    rw [kern_far (lin3Pot p hp) hA hr rfl (fun π hπ => Nat.lt_succ_of_le (d5 π hπ)) hR mem43.1 leaf43 (inter_two hA hr mem43.1 mem43.2 hn) route_u42]
    have e := kern42 p hp
    rw [kern_two_far (lin3Pot p hp) hr x42 u42 not_adj42, route_x42, route_u42] at e
    exact e
  obtain ⟨v, hv⟩ := h2 x42 hxr trivial true
  have hv' := k2 x42 hxr (fun _ _ => trivial) true [] (max f f2) (le_max_right _ _)
  rw [hT, (hv [] (max f f2) (le_max_left _ _)).1, if_pos rfl, superpose43, hkern] at hv'
  have hv2 : v = -∑ n ∈ range (p + 1), (1 / 8 : ℝ) ^ n := Except.ok.inj hv'
  have hI := Sc.adaptiveInput hc S43_adaptive
  refine ⟨S43.map (Source.scale c), box42.scale c, c • x42, ?_, hI.box, (Sc.contains hc _ _).mpr hxr, hI.inside, f, T', _,
    fun fuel hf sch hs => (h1 fuel hf sch hs).2, fun fuel hf => (hv [] fuel hf).2, ?_⟩
  · rw [← totalStrength_eq, Sc.totalStrength, S43_strength]
  · rw [directPotential_scale hc, direct43, hv2, smul_zero, add_zero, smul_eq_mul, ← mul_sub,
      show (-∑ n ∈ range (p + 1), (1 / 8 : ℝ) ^ n) - -(8 / 7) = (8 / 7 : ℝ) - ∑ n ∈ range (p + 1), (1 / 8 : ℝ) ^ n by ring, geom8, hc', one_div, inv_inv,
      show (7 * 8 ^ p * (|M| + 1)) * (1 / (7 * 8 ^ p) : ℝ) = |M| + 1 by field_simp, abs_of_pos hM]
    linarith [le_abs_self M]

/-! ## In the plane -/

/-- The sources of `C41_sharp` and one more of strength zero, which divides the quadrant of the evaluation point. -/
noncomputable def SA (g : ℝ) : List (Source 2) := ⟨![-(1 / 8), -(1 / 8)], 0⟩ :: SG g

/-- Routes of depth two in the root box `[-1, 1]²`. -/
theorem route44 (v : Vec 2) (i j : ℕ) (h1 : ((if 0 ≤ v 0 then 1 else 0) <<< 1 ||| (if 0 ≤ v 1 then 1 else 0)) = j)
    (h2 : ((if 1 / 2 * childDir 2 j 0 ≤ v 0 then 1 else 0) <<< 1 ||| (if 1 / 2 * childDir 2 j 1 ≤ v 1 then 1 else 0)) = i) : route box41 v 2 = [i, j] := by
  have a : route box41 v 1 = [j] := by
    rw [route, orth2]
    show [_] = [j]
    rw [← h1]
    rfl
  have e : (boxAt box41 [j]).center = fun i => 1 / 2 * childDir 2 j i := by
    funext i
    simp only [boxAt, Box.child, box41, Pi.add_apply, Pi.smul_apply, smul_eq_mul]
    norm_num
  rw [route, a, orth2, e]
  rw [h2]

theorem route_pp : route box41 ![k41, k41] 2 = [3, 3] :=
  route44 _ 3 3 (by
    show (if (0 : ℝ) ≤ k41 then 1 else 0) <<< 1 ||| (if (0 : ℝ) ≤ k41 then 1 else 0) = 3
    rw [if_pos (by norm_num [k41])]; rfl) (by
    show (if (1 / 2 * 1 : ℝ) ≤ k41 then 1 else 0) <<< 1 ||| (if (1 / 2 * 1 : ℝ) ≤ k41 then 1 else 0) = 3
    rw [if_pos (by norm_num [k41])]; rfl)

theorem route_mp : route box41 ![-k41, k41] 2 = [1, 1] :=
  route44 _ 1 1 (by
    show (if (0 : ℝ) ≤ -k41 then 1 else 0) <<< 1 ||| (if (0 : ℝ) ≤ k41 then 1 else 0) = 1
    rw [if_neg (by norm_num [k41]), if_pos (by norm_num [k41])]; rfl) (by
    show (if (1 / 2 * -1 : ℝ) ≤ -k41 then 1 else 0) <<< 1 ||| (if (1 / 2 * 1 : ℝ) ≤ k41 then 1 else 0) = 1
    rw [if_neg (by norm_num [k41]), if_pos (by norm_num [k41])]; rfl)

theorem route_pm : route box41 ![k41, -k41] 2 = [2, 2] :=
  route44 _ 2 2 (by
    show (if (0 : ℝ) ≤ k41 then 1 else 0) <<< 1 ||| (if (0 : ℝ) ≤ -k41 then 1 else 0) = 2
    rw [if_pos (by norm_num [k41]), if_neg (by norm_num [k41])]; rfl) (by
    show (if (1 / 2 * 1 : ℝ) ≤ k41 then 1 else 0) <<< 1 ||| (if (1 / 2 * -1 : ℝ) ≤ -k41 then 1 else 0) = 2
    rw [if_pos (by norm_num [k41]), if_neg (by norm_num [k41])]; rfl)

theorem route_mm : route box41 ![-k41, -k41] 2 = [0, 0] :=
  route44 _ 0 0 (by
    show (if (0 : ℝ) ≤ -k41 then 1 else 0) <<< 1 ||| (if (0 : ℝ) ≤ -k41 then 1 else 0) = 0
    rw [if_neg (by norm_num [k41])]; rfl) (by
    show (if (1 / 2 * -1 : ℝ) ≤ -k41 then 1 else 0) <<< 1 ||| (if (1 / 2 * -1 : ℝ) ≤ -k41 then 1 else 0) = 0
    rw [if_neg (by norm_num [k41])]; rfl)

theorem route_8 : route box41 ![-(1 / 8), -(1 / 8)] 2 = [3, 0] :=
  route44 _ 3 0 (by
    show (if (0 : ℝ) ≤ -(1 / 8) then 1 else 0) <<< 1 ||| (if (0 : ℝ) ≤ -(1 / 8) then 1 else 0) = 0
    rw [if_neg (by norm_num)]; rfl) (by
    show (if (1 / 2 * -1 : ℝ) ≤ -(1 / 8) then 1 else 0) <<< 1 ||| (if (1 / 2 * -1 : ℝ) ≤ -(1 / 8) then 1 else 0) = 3
    rw [if_pos (by norm_num)]; rfl)

section
variable {g : ℝ} (h0 : 0 < g) (h1 : g < 1 / 4)
include h0 h1

theorem SA_box : rootBox ((SA g).map Source.pos) = some box41 := by
  have h := rootBox_eq ((SA g).map Source.pos) (fun _ => -k41) (fun _ => k41) (2 * k41) ?_ ?_ ?_ ?_
  · rw [h]
    unfold box41
    congr 2
    · funext i; simp
    · norm_num [k41, paddingFactor]
  · intro i
    constructor
    · exact ⟨![-k41, -k41], by simp [SA, SG], by fin_cases i <;> rfl⟩
    · intro p hp
      simp [SA, SG] at hp
      rcases hp with rfl | rfl | rfl | rfl | rfl | rfl <;> fin_cases i <;> norm_num [k41, uG] <;> linarith
  · intro i
    constructor
    · exact ⟨![k41, k41], by simp [SA, SG], by fin_cases i <;> rfl⟩
    · intro p hp
      simp [SA, SG] at hp
      rcases hp with rfl | rfl | rfl | rfl | rfl | rfl <;> fin_cases i <;> norm_num [k41, uG] <;> linarith
  · intro i; linarith
  · exact ⟨0, by ring⟩

theorem SA_inside : ∀ s ∈ SA g, box41.contains s.pos := by
  intro s hs
  rcases List.mem_cons.mp hs with rfl | hs
  · refine containsHO_contains fun i => ?_
    rw [Box.lower_apply, Box.upper_apply]
    fin_cases i <;> norm_num [box41]
  · exact containsHO_contains (SG_inside h0 h1 s hs)

theorem SA_routes : (SA g).map (fun s => route box41 s.pos 2) = [[3, 0], [3, 3], [1, 1], [2, 2], [0, 0], [1, 2]] := by
  unfold SA SG
  simp only [List.map_cons, List.map_nil]
  rw [route_8, route_pp, route_mp, route_pm, route_mm, route_uG h0 h1]

theorem SA_mult (x : Vec 2) : ((SA g).filter fun s => decide (s.pos = x)).length ≤ 1 := by
  have hnd : ((SA g).map Source.pos).Nodup := by
    have h : (((SA g).map Source.pos).map fun v : Vec 2 => route box41 v 2).Nodup := by
      have e : ((SA g).map Source.pos).map (fun v : Vec 2 => route box41 v 2) = (SA g).map fun s => route box41 s.pos 2 := by
        rw [List.map_map, Function.comp_def]
      rw [e, SA_routes h0 h1]
      decide
    exact List.Nodup.of_map _ h
  rw [← List.countP_eq_length_filter]
  have : List.countP (fun s : Source 2 => decide (s.pos = x)) (SA g) = ((SA g).map Source.pos).count x := by
    rw [List.count, List.countP_map]
    refine List.countP_congr fun s _ => ?_
    simp
  rw [this]
  exact List.nodup_iff_count_le_one.mp hnd x

theorem SA_adaptive : AdaptiveInput (SA g) 1 box41 := ⟨SA_box h0 h1, SA_inside h0 h1, SA_mult h0 h1⟩

theorem itemsA_two (π : Path) (hπ : π.length = 2) : (itemsAt Source.pos box41 (SA g) π).length
    = ([[3, 0], [3, 3], [1, 1], [2, 2], [0, 0], [1, 2]].filter fun ρ => decide (ρ = π)).length := by
  unfold itemsAt
  rw [← SA_routes h0 h1, List.filter_map, List.length_map, hπ]
  rfl

theorem itemsA_one (j : ℕ) : (itemsAt Source.pos box41 (SA g) [j]).length
    = ([[3, 0], [3, 3], [1, 1], [2, 2], [0, 0], [1, 2]].filter fun ρ => decide (ρ.drop 1 = [j])).length := by
  unfold itemsAt
  rw [← SA_routes h0 h1, List.filter_map, List.length_map]
  congr 1

theorem memA : (fmmTree Source.pos box41 (SA g) 1).Mem [1, 0] ∧ (fmmTree Source.pos box41 (SA g) 1).Mem [1, 2] :=
  ⟨mem_two (by norm_num) (by norm_num) (by simp [SA, SG]) (by rw [itemsA_one h0 h1]; decide),
   mem_two (by norm_num) (by norm_num) (by simp [SA, SG]) (by rw [itemsA_one h0 h1]; decide)⟩

theorem leafA : (fmmTree Source.pos box41 (SA g) 1).leaf [1, 0] = true := by
  simp only [fmmTree]
  rw [itemsA_two h0 h1 _ rfl]
  decide
end

theorem SA_strength (g : ℝ) : totalStrength (SA g) = 1 := by
  rw [totalStrength_eq]; simp [SA, SG, uG]

/-- **C41** The square root is sharp for adaptive trees too: for every `m` with `p = 8 m + 6 ≤ 1029` there is an adaptive tree over six sources of total
strength 1, built in a fresh program with `eps = 2⁻ᵖ`, that returns a potential off by more than `√eps / (6 (p + 2))`. -/
theorem C41_sharp_adaptive (m : ℕ) (hm : 8 * m + 6 ≤ 1029) : ∃ (S : List (Source 2)) (r : Box 2) (x : Vec 2),
    (S.map fun s => |s.q|).sum = 1 ∧ rootBox (S.map Source.pos) = some r ∧ r.contains x ∧ (∀ s ∈ S, r.contains s.pos) ∧
    ∃ (fuel0 : ℕ) (T : AdaptiveFmm kit2) (v : ℝ),
      (∀ fuel ≥ fuel0, ∀ sch, Schedule sch → adaptiveFmm kit2 fuel sch BinomialTable.init S 1 (1 / 2 ^ (8 * m + 6)) = .ok T) ∧
      (∀ fuel ≥ fuel0, ∀ cur, adaptiveEval pot2 fuel true T cur x = .ok v) ∧
      Real.sqrt (1 / 2 ^ (8 * m + 6)) / (6 * (((8 * m + 6 : ℕ) : ℝ) + 2)) < |v - directPotential true S x| := by
  obtain ⟨g, h0, h1, h2⟩ := gap_sharp m
  have hI := SA_adaptive h0 h1
  have hN : 1 < (SA g).length := by simp [SA, SG]
  have hr : 0 < box41.len := by norm_num [box41]
  have hx := containsHO_contains (xG_inside h0 h1)
  obtain ⟨hh, k, d1, d2, d3, d4, d5⟩ := adaptive_depths hI hN
  set Q := lin2Pot (8 * m + 6) (by omega) hm (8 * m + 6) with hQ
  obtain ⟨f, T, k1, -, k2⟩ := adaptive_superposed Q (t := BinomialTable.init) ⟨reachable_init.good, by simp [BinomialTable.init]⟩ hI hN d1 d2 d3 d4
    (SA g) (1 / 2 ^ (8 * m + 6)) (List.Perm.refl _) (by rw [SA_strength]; exact order_pow _ hm)
  have hA : AdjOf (fmmTree Source.pos box41 (SA g) 1) box41 := Sc.adjOf_fmmTree _ _ _
  have hR : route box41 (xG g) (k (xG g)) = [1, 0] := by
    rw [depth_unique (d3 _) (d4 _) (m := 2) (by rw [route_xG h0 h1]; exact (memA h0 h1).1) (by rw [route_xG h0 h1]; exact leafA h0 h1), route_xG h0 h1]
  have hkern : Lin.kern Q (fmmTree Source.pos box41 (SA g) 1) box41 (hh + 1) k (xG g) (uG g).pos = ((SG g).map (exactTerm (8 * m + 6) box41 (xG g))).sum := by
    rw [kern_far Q hA hr rfl (fun π hπ => Nat.lt_succ_of_le (d5 π hπ)) hR (memA h0 h1).1 (leafA h0 h1)
      (inter_two hA hr (memA h0 h1).1 (memA h0 h1).2 not_adj41) (route_uG h0 h1)]
    unfold SG
    simp only [List.map_cons, List.map_nil, List.sum_cons, List.sum_nil]
    rw [zero_exact rfl, zero_exact rfl, zero_exact rfl, zero_exact rfl]
    unfold exactTerm
    rw [route_xG h0 h1, route_uG h0 h1, if_neg not_adj41]
    simp only [zero_add, add_zero]
    show (1 : ℝ) • m2lVal (8 * m + 6) _ _ (uG g) (xG g) = _
    rw [one_smul]
  have hv := k2 (xG g) hx (fun _ _ => trivial) true
  have hs : superpose (Lin.kern Q (fmmTree Source.pos box41 (SA g) 1) box41 (hh + 1) k) (SA g) (xG g) = ((SG g).map (exactTerm (8 * m + 6) box41 (xG g))).sum := by
    rw [← hkern]
    unfold superpose SA SG
    simp only [List.map_cons, List.map_nil, List.sum_cons, List.sum_nil, zero_smul, zero_add, add_zero]
    exact one_smul ℝ _
  rw [if_pos rfl, hs] at hv
  have hd : directPotential true (SA g) (xG g) = directPotential true (SG g) (xG g) := by
    unfold directPotential SA
    rw [List.map_cons, List.sum_cons]
    have : directTerm true (xG g) ⟨![-(1 / 8), -(1 / 8)], 0⟩ = 0 := by
      unfold directTerm kernelSpec
      simp
    rw [this, zero_add]
  refine ⟨SA g, box41, xG g, by rw [← totalStrength_eq]; exact SA_strength g, hI.box, hx, hI.inside, f, T, _, k1, fun fuel hf cur => hv cur fuel hf, ?_⟩
  rw [hd]
  exact h2.trans_le (le_abs_self _)

end FMM
