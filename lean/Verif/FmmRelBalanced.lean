import Verif.FmmRelTrees
import Verif.PropsRoundingBalanced

/-!
# The balanced tree constructed in floating-point arithmetic, and the result of the passes on it
-/

namespace FMM.Rel
variable {d : ℕ} {K : Kit d}

section
variable {pos : Source d → Vec d} {r : Box d} {items : List (Source d)} {h p : ℕ} {nb : BNbh}

/-- The tree with the boxes `bx`. -/
theorem balanced_treeR (bx : BAddr → Box d) {cen : Path → Vec d} (hcen : ∀ π, ValidPath d π → cen π = (bx (baddr d h π)).center)
    (hr : 0 < r.len) (hdh : d * h ≤ 32) (hnb : BNbhAfter r h (off (2 ^ d) (h + 1)) nb) :
    TreeR (fullTree r h) r cen (itemsAt pos r items)
      (balancedShape (Rounded.liftM bx (bfull r h)) (specSrc' pos r items h) nb) (baddr d h) h := by
  have hm := fullTree_mem r h
  refine ⟨rfl, fullTree_adjOf r h, hr, fun π hπ => ((hm π).mp hπ).2,
    fun π ρ hπ hρ e => baddr_inj ((hm π).mp hπ).1 ((hm ρ).mp hρ).1 e, fun π hπ => ?_⟩
  obtain ⟨hv, hl⟩ := (hm π).mp hπ
  obtain ⟨n, h1, h2, -, h3, h4⟩ := bfull_get_path r hv hl
  obtain ⟨k1, k2⟩ := hnb.at hv hl
  refine ⟨_, by unfold balancedShape; rw [Rounded.liftM_get_ok h1, ok_bind], (hcen π hv).symm, h3, fun hlf => ?_, k2, ?_, fun hlf => ⟨?_, ?_, ?_⟩⟩
  · have hlt : π.length < h := by simpa [fullTree] using hlf
    simp only [h4]
    refine List.map_congr_left fun i hi => ?_
    rw [if_pos ⟨List.mem_range.mp hi, hlt⟩]
  · simp [fullTree_xl hr hπ]
  · have hle : h ≤ π.length := by simpa [fullTree] using hlf
    have hlen : π.length = h := by omega
    simp only [baddr_leaf hlen]
    exact specSrc'_get pos r h hdh items hv hlen
  · rw [fullTree_near hr hπ]; exact k1
  · rw [fullTree_W hr]; rfl

/-- The passes on the tree with the boxes `bx`. -/
theorem passes_balanced (bx : BAddr → Box d) {cen : Path → Vec d}
    (hcen : ∀ π, ValidPath d π → cen π = (bx (baddr d h π)).center) (hd : 2 ≤ d) (hr : 0 < r.len) (hdh : d * h ≤ 32)
    (hnb : BNbhAfter r h (off (2 ^ d) (h + 1)) nb)
    (L : PassLaws K p (fullTree r h) cen (itemsAt pos r items)) {t : K.T} (ht : L.good t) :
    ∃ s0 s1, forEach (initNode K (balancedShape (Rounded.liftM bx (bfull r h)) (specSrc' pos r items h) nb) p)
        ((List.range (bfull r h).nNodes).map BAddr.node ++ (List.range (bfull r h).nLeaves).map BAddr.leaf)
        ⟨t, fun _ => none, fun _ => none⟩ = .ok s0 ∧ Done L (baddr d h) s1 ∧ (h = 0 → s1 = s0) ∧
      (h ≠ 0 → RaceFreePasses K (balancedShape (Rounded.liftM bx (bfull r h)) (specSrc' pos r items h) nb) p
          (balancedLE K (balancedShape (Rounded.liftM bx (bfull r h)) (specSrc' pos r items h) nb))
          [balancedLeafLoop (bfull r h).nLeaves] (balancedUp d h) (balancedDown d h (bfull r h).nLeaves) s0 ∧
        ∀ sch, Schedule sch → passes K (balancedShape (Rounded.liftM bx (bfull r h)) (specSrc' pos r items h) nb) p
          (balancedLE K (balancedShape (Rounded.liftM bx (bfull r h)) (specSrc' pos r items h) nb)) sch
          [balancedLeafLoop (bfull r h).nLeaves] (balancedUp d h) (balancedDown d h (bfull r h).nLeaves) s0 = .ok s1) := by
  have hT := balanced_treeR (pos := pos) (items := items) bx hcen hr hdh hnb
  have hl := balanced_loopsOK (r := r) (h := h)
  have hm := fullTree_mem r h
  set sh := balancedShape (Rounded.liftM bx (bfull r h)) (specSrc' pos r items h) nb with hsh
  obtain ⟨s0, a1, a2⟩ := initAll_ok L.toLeafLaws hT ((List.range (off (2 ^ d) h)).map (gpath (2 ^ d)) ++ leafPaths d h) (by
      intro π hπ
      rw [hm]
      rcases List.mem_append.mp hπ with hπ | hπ
      · obtain ⟨i, hi, rfl⟩ := List.mem_map.mp hπ
        exact ⟨gpath_valid _ (by positivity) _,
          ((gpath_length_lt _ (by positivity) i h).mpr (List.mem_range.mp hi)).le⟩
      · obtain ⟨k1, k2⟩ := (mem_levelPaths h π).mp hπ
        exact ⟨k1, k2.le⟩) (by
      intro π hπ
      obtain ⟨k1, k2⟩ := (hm π).mp hπ
      rcases Nat.lt_or_ge π.length h with hlt | hge
      · refine List.mem_append_left _ (List.mem_map.mpr ⟨gidx (2 ^ d) π, ?_, gpath_gidx _ _ k1⟩)
        rw [List.mem_range, ← gpath_length_lt _ (by positivity), gpath_gidx _ _ k1]
        exact hlt
      · exact List.mem_append_right _ ((mem_levelPaths h π).mpr ⟨k1, by omega⟩))
    ⟨t, fun _ => none, fun _ => none⟩ ht
  rw [← balancedInit_list (r := r)] at a1
  by_cases h0 : h = 0
  · refine ⟨s0, s0, a1, a2.done L fun π hπ => ?_, fun _ => rfl, fun h' => absurd h0 h'⟩
    have := hT.hH π hπ
    omega
  · have hh : 1 ≤ h := by omega
    obtain ⟨b1, s1, b2, b3⟩ := passes_ok L hT hl hh a2
    have eL : leafLoops (baddr d h) [leafPaths d h] = [balancedLeafLoop (bfull r h).nLeaves] := by
      show [_] = [balancedLeafLoop ((2 ^ d) ^ h)]
      rw [balancedLeafLoop_eq]
    have eU := balancedUp_eq (h := h) hd
    have eD : balancedDown d h (bfull r h).nLeaves = downLoops (baddr d h) h (leafPaths d) := balancedDown_eq hd hh
    have eB : constructLE K sh p = balancedLE K sh := balancedLE_eq _ _ _ p
    rw [eL, ← eU, ← eD, eB] at b1 b2
    exact ⟨s0, s1, a1, b3, fun h' => absurd h' h0, fun _ => ⟨b1, b2⟩⟩

end

/-! ## The rounded constructor -/

section
open Rounded
variable {rnd rlog : ℝ → ℝ} {nrm : Vec d → ℝ} {u C : ℝ} {r : RBox ℝ d} {items : List (Source d)} {perCell h p : ℕ}

/-- The arrays and buckets that the floating-point constructor creates, as seen by the passes. -/
noncomputable def bshape (rnd : ℝ → ℝ) (r : RBox ℝ d) (items : List (Source d)) (h : ℕ) (nb : BNbh) : Shape d BAddr :=
  balancedShape (Rounded.liftM (bxB rnd r h) (bfull r.exact h)) (specSrc' (fun s => bshadow rnd r h s.pos) r.exact items h) nb

/-- The floating-point constructor, given the order, the height and the root box it computes: the same tree for every
schedule, without data races. -/
theorem roundedB_on (hd : 2 ≤ d) (hu : 0 ≤ u) (hL : 0 < r.len)
    (hC0 : 0 ≤ C) (H : RndOn rnd u (4 * (C + r.len))) (I : RndIx rnd u r.len) (hC : ∀ i, |r.center i| ≤ C)
    (hnrm : ∀ v, r.len / 2 ^ h ≤ Vec.norm v → 999 / 1000 * Vec.norm v ≤ nrm v) {eps : ℝ}
    (hord : Rounded.expansionOrder rnd rlog (Rounded.totalStrength rnd items) eps = .ok p)
    (hht : Rounded.balancedHeight rnd rlog d items.length perCell = .ok h)
    (hbox : sourceBox rnd items = some r) (hdh : d * h ≤ 32)
    (hk : 100 * ((8 * h + 15) * (u * (4 * (C + r.len)))) < r.len / 2 ^ (h + 1))
    (hx : h = 0 ∨ ∀ s ∈ items, InTree rnd r h s.pos) :
    ∃ nb, BNbhAfter r.exact h (off (2 ^ d) (h + 1)) nb ∧
      TreeR (fullTree r.exact h) r.exact (fun π => (bxR rnd r π).center)
        (itemsAt (fun s => bshadow rnd r h s.pos) r.exact items) (bshape rnd r items h nb) (baddr d h) h ∧
      ∀ (L : PassLaws K p (fullTree r.exact h) (fun π => (bxR rnd r π).center)
        (itemsAt (fun s => bshadow rnd r h s.pos) r.exact items)) (t : K.T), L.good t →
      ∃ s0 s1, (∀ fuel ≥ off (2 ^ d) (h + 1), Rounded.balancedInit rnd rlog nrm K fuel t items perCell eps
          = .ok ⟨p, h, Rounded.liftM (bxB rnd r h) (bfull r.exact h), specSrc' (fun s => bshadow rnd r h s.pos) r.exact items h, nb, s0⟩) ∧
        (h ≠ 0 → RaceFreePasses K (bshape rnd r items h nb) p (balancedLE K (bshape rnd r items h nb))
          [balancedLeafLoop (bfull r.exact h).nLeaves] (balancedUp d h) (balancedDown d h (bfull r.exact h).nLeaves) s0) ∧
        (∀ fuel ≥ off (2 ^ d) (h + 1), ∀ sch, Schedule sch → Rounded.balancedFmm rnd rlog nrm K fuel sch t items perCell eps
          = .ok ⟨p, h, Rounded.liftM (bxB rnd r h) (bfull r.exact h), specSrc' (fun s => bshadow rnd r h s.pos) r.exact items h, nb, s1⟩) ∧
        Done L (baddr d h) s1 := by
  obtain ⟨nb, n1, n2⟩ := balancedLists_on (pos := Source.pos) hd hu hL hC0 H I hC hnrm hdh hk hx
  have hcen : ∀ π, ValidPath d π → (bxR rnd r π).center = (bxB rnd r h (baddr d h π)).center := fun π hπ => by
    rw [bxB_baddr hπ]
  refine ⟨nb, n1, balanced_treeR _ hcen hL hdh n1, fun L t ht => ?_⟩
  obtain ⟨s0, s1, a1, a2, a3, a4⟩ := passes_balanced (bxB rnd r h) hcen hd hL hdh n1 L ht
  have hinit : ∀ fuel ≥ off (2 ^ d) (h + 1), Rounded.balancedInit rnd rlog nrm K fuel t items perCell eps
      = .ok ⟨p, h, Rounded.liftM (bxB rnd r h) (bfull r.exact h), specSrc' (fun s => bshadow rnd r h s.pos) r.exact items h, nb, s0⟩ := by
    intro fuel hf
    unfold Rounded.balancedInit
    rw [hord, ok_bind, hht, ok_bind, hbox]
    simp only
    rw [n2 fuel hf, ok_bind]
    simp only
    have e : ((List.range (Rounded.liftM (bxB rnd r h) (bfull r.exact h)).nNodes).map BAddr.node
        ++ (List.range (Rounded.liftM (bxB rnd r h) (bfull r.exact h)).nLeaves).map BAddr.leaf)
        = ((List.range (bfull r.exact h).nNodes).map BAddr.node ++ (List.range (bfull r.exact h).nLeaves).map BAddr.leaf) := rfl
    rw [e, a1, ok_bind]
  refine ⟨s0, s1, hinit, fun h0 => (a4 h0).1, fun fuel hf sch hsch => ?_, a2⟩
  unfold Rounded.balancedFmm
  rw [hinit fuel hf, ok_bind]
  simp only
  by_cases h0 : h = 0
  · rw [if_pos h0, a3 h0]
  · rw [if_neg h0]
    unfold BalancedFmm.shape
    have := (a4 h0).2 sch hsch
    show (passes K _ _ _ sch [balancedLeafLoop (bfull r.exact h).nLeaves] (balancedUp d h) (balancedDown d h (bfull r.exact h).nLeaves) s0 >>= _) = _
    rw [this, ok_bind]

theorem roundedB_ok (hd : 2 ≤ d) (H : ∀ x, |rnd x - x| ≤ u * |x|) (hu : 0 ≤ u) (hL : 0 < r.len)
    (hC0 : 0 ≤ C) (hC : ∀ i, |r.center i| ≤ C) (hnrm : ∀ v, 999 / 1000 * Vec.norm v ≤ nrm v) {eps : ℝ}
    (hord : Rounded.expansionOrder rnd rlog (Rounded.totalStrength rnd items) eps = .ok p)
    (hht : Rounded.balancedHeight rnd rlog d items.length perCell = .ok h)
    (hbox : sourceBox rnd items = some r) (hdh : d * h ≤ 32)
    (hk : 100 * ((8 * h + 15) * (u * (4 * (C + r.len)))) < r.len / 2 ^ (h + 1))
    (hx : h = 0 ∨ ∀ s ∈ items, InTree rnd r h s.pos) :
    ∃ nb, BNbhAfter r.exact h (off (2 ^ d) (h + 1)) nb ∧
      TreeR (fullTree r.exact h) r.exact (fun π => (bxR rnd r π).center)
        (itemsAt (fun s => bshadow rnd r h s.pos) r.exact items) (bshape rnd r items h nb) (baddr d h) h ∧
      ∀ (L : PassLaws K p (fullTree r.exact h) (fun π => (bxR rnd r π).center)
        (itemsAt (fun s => bshadow rnd r h s.pos) r.exact items)) (t : K.T), L.good t →
      ∃ s0 s1, (∀ fuel ≥ off (2 ^ d) (h + 1), Rounded.balancedInit rnd rlog nrm K fuel t items perCell eps
          = .ok ⟨p, h, Rounded.liftM (bxB rnd r h) (bfull r.exact h), specSrc' (fun s => bshadow rnd r h s.pos) r.exact items h, nb, s0⟩) ∧
        (h ≠ 0 → RaceFreePasses K (bshape rnd r items h nb) p (balancedLE K (bshape rnd r items h nb))
          [balancedLeafLoop (bfull r.exact h).nLeaves] (balancedUp d h) (balancedDown d h (bfull r.exact h).nLeaves) s0) ∧
        (∀ fuel ≥ off (2 ^ d) (h + 1), ∀ sch, Schedule sch → Rounded.balancedFmm rnd rlog nrm K fuel sch t items perCell eps
          = .ok ⟨p, h, Rounded.liftM (bxB rnd r h) (bfull r.exact h), specSrc' (fun s => bshadow rnd r h s.pos) r.exact items h, nb, s1⟩) ∧
        Done L (baddr d h) s1 :=
  roundedB_on hd hu hL hC0 (RndOn.of_rel H hu) (RndIx.of_rel H hu hL) hC (fun v _ => hnrm v) hord hht hbox hdh hk hx

end
end FMM.Rel
