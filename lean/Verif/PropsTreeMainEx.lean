import Verif.PropsTreeMain
import Verif.Example3D

/-!
# A run of the test program for the trees that is terminated (C104)

The second source is exactly in the centre of its leaf.
-/

namespace FMM
open TreeMain

noncomputable def S4c : List (Source 3) :=
  [⟨![-1, -1, -1], 1⟩, ⟨fun _ => (1 + paddingFactor) / 2, 1⟩, ⟨![1, 1, -1], 1⟩, ⟨![-1, -1, 1], 1⟩]

noncomputable def box4c : Box 3 := ⟨fun _ => (1 + paddingFactor) * (((-1) + 1) / 2), (1 + paddingFactor) * 2⟩

theorem S4c_box : rootBox (S4c.map Source.pos) = some box4c := by
  refine rootBox_eq _ (fun _ => -1) (fun _ => 1) 2 ?_ ?_ ?_ ?_
  · intro i
    constructor
    · exact ⟨![-1, -1, -1], by simp [S4c], by fin_cases i <;> rfl⟩
    · intro p hp
      simp [S4c] at hp
      rcases hp with rfl | rfl | rfl | rfl <;> fin_cases i <;> norm_num [paddingFactor]
  · intro i
    constructor
    · fin_cases i
      · exact ⟨![1, 1, -1], by simp [S4c], rfl⟩
      · exact ⟨![1, 1, -1], by simp [S4c], rfl⟩
      · exact ⟨![-1, -1, 1], by simp [S4c], rfl⟩
    · intro p hp
      simp [S4c] at hp
      rcases hp with rfl | rfl | rfl | rfl <;> fin_cases i <;> norm_num [paddingFactor]
  · intro i; norm_num
  · exact ⟨0, by norm_num⟩

theorem S4c_inside : ∀ s ∈ S4c, box4c.contains s.pos := by
  intro s hs
  simp [S4c] at hs
  rw [Box.contains_iff]
  rcases hs with rfl | rfl | rfl | rfl <;> intro i <;> fin_cases i <;> norm_num [box4c, paddingFactor]

theorem S4c_mult (x : Vec 3) : (S4c.filter fun s => decide (s.pos = x)).length ≤ 1 := by
  have hnd : (S4c.map Source.pos).Nodup := by
    refine List.Nodup.of_map (fun v : Vec 3 => v 0 + v 1 + 5 * v 2) ?_
    simp [S4c]
    norm_num [paddingFactor]
  rw [← List.countP_eq_length_filter]
  have : List.countP (fun s : Source 3 => decide (s.pos = x)) S4c = (S4c.map Source.pos).count x := by
    rw [List.count, List.countP_map]
    refine List.countP_congr fun s _ => ?_
    simp
  rw [this]
  exact List.nodup_iff_count_le_one.mp hnd x

theorem S4c_adaptive : AdaptiveInput S4c 1 box4c := ⟨S4c_box, S4c_inside, S4c_mult⟩

theorem S4c_order : expansionOrder (totalStrength S4c) 1 = .ok 2 := by
  have : totalStrength S4c = 4 := by
    rw [totalStrength_eq]; simp [S4c]; norm_num
  rw [this]
  refine order_eq 4 1 2 (by norm_num) (by norm_num) (by norm_num) ?_ (by norm_num)
  intro q hq
  interval_cases q <;> norm_num

theorem route4c (x : Vec 3) :
    route box4c x 1 = [(if 0 ≤ x 0 then 4 else 0) + (if 0 ≤ x 1 then 2 else 0) + (if 0 ≤ x 2 then 1 else 0)] := by
  have h : ∀ i, box4c.center i = 0 := fun i => by simp [box4c]
  have e : route box4c x 1 = [((((0 <<< 1 ||| (if 0 ≤ x 0 then 1 else 0)) <<< 1) ||| (if 0 ≤ x 1 then 1 else 0)) <<< 1) ||| (if 0 ≤ x 2 then 1 else 0)] := by
    show [getOrthant box4c.center x] = _
    unfold getOrthant
    simp only [h]
    rfl
  rw [e]
  by_cases h0 : 0 ≤ x 0 <;> by_cases h1 : 0 ≤ x 1 <;> by_cases h2 : 0 ≤ x 2 <;> simp [h0, h1, h2]

theorem S4c_route : route box4c (fun _ => (1 + paddingFactor) / 2) 1 = [7] := by
  rw [route4c]
  norm_num [paddingFactor]

theorem S4c_items : (itemsAt Source.pos box4c S4c [7]).length = 1 := by
  unfold itemsAt
  simp only [List.length_singleton, route4c]
  have e1 : (![-1, -1, -1] : Vec 3) 2 = -1 := rfl
  have e2 : (![1, 1, -1] : Vec 3) 2 = -1 := rfl
  have e3 : (![-1, -1, 1] : Vec 3) 2 = 1 := rfl
  norm_num [S4c, List.filter_cons, paddingFactor, e1, e2, e3]

/-- **C104** The second source is the centre of its leaf: the program is terminated, whatever the schedules. -/
example : ∃ fuel0, ∀ fuel ≥ fuel0, ∀ sch, Schedule sch → ∀ ordE ordF refE refF,
    report fuel sch ordE ordF refE refF (Stat3.init 0 0 0) S4c 1 1 0 = .error .gslAbort := by
  obtain ⟨f, T, h1, h2⟩ := C104_aborts (st := Stat3.init 0 0 0) ⟨0, 0, 0, [], rfl⟩ S4c_adaptive (by simp [S4c]) (by simp [S4c]) S4c_order (by norm_num) (by norm_num)
  refine ⟨f, h2 [7] (fun fuel hf => ?_) ?_ ?_⟩
  · obtain ⟨r, st, a1, a2, a3, -⟩ := adaptiveFmm_inv (h1 f le_rfl (fun _ l => l) fun _ l => List.Perm.refl l)
    rw [S4c_box] at a1
    obtain rfl := Option.some.inj a1
    obtain ⟨b1, b2, -⟩ := adaptiveBuild_ok a2
    have hm : (fmmTree Source.pos box4c S4c 1).Mem (route box4c (fun _ => (1 + paddingFactor) / 2) 1) := by
      rw [S4c_route]
      refine ⟨fun i hi => ?_, fun ρ i hs => ?_⟩
      · simp at hi; subst hi; simp [fmmTree]
      · rw [List.suffix_cons_iff] at hs
        rcases hs with hs | hs
        · injection hs with h h'
          subst h'
          simp [fmmTree, itemsAt_nil, S4c]
        · simp at hs
    have hl : (fmmTree Source.pos box4c S4c 1).leaf (route box4c (fun _ => (1 + paddingFactor) / 2) 1) = true := by
      rw [S4c_route]
      simp [fmmTree, S4c_items]
    have hpos : 1 ≤ T.height := by
      have := b2 _ hm
      rwa [S4c_route] at this
    rw [a3, b1]
    have := getContainingLeaf_ok _ rfl box4c (itemsAt Source.pos box4c S4c) _ 1 hm hl fuel (by omega)
    rw [if_pos (route_contains _ _ (S4c_inside ⟨fun _ => (1 + paddingFactor) / 2, 1⟩ (by simp [S4c])) 1), S4c_route] at this
    exact this
  · show (1 + paddingFactor) / 2 = _
    norm_num [boxAt, Box.child, childDir, box4c, paddingFactor, Nat.testBit, Nat.shiftRight]
    decide
  · show (1 + paddingFactor) / 2 = _
    norm_num [boxAt, Box.child, childDir, box4c, paddingFactor, Nat.testBit, Nat.shiftRight]
    decide

end FMM
