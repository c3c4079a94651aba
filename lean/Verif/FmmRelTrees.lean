import Verif.FmmRel
import Verif.FmmResults
import Verif.RoundedFmm
import Verif.PropsRoundingTree

/-!
# The adaptive tree constructed in floating-point arithmetic, and the result of the passes on it
-/

namespace FMM.Rel
variable {d : ℕ} {K : Kit d}

section
variable {pos : Source d → Vec d} {r : Box d} {items : List (Source d)} {max fuel h : ℕ} {st : BuildState d (Source d)} {nb : Nbh}

theorem liftH_shape {T : PTree} {it : Path → List (Source d)} (bx : Path → Box d) {π : Path} (hπ : T.Mem π) :
    adaptiveShape (Rounded.liftH bx (treeHeap T r it)) nb π = .ok
      { center := (bx π).center, parent := π.tail?,
        children := (List.range (2 ^ d)).map fun i => if T.leaf π = false ∧ i < T.c then some (i :: π) else none,
        near := nb.near π, inter := nb.inter π, X := nb.X π, W := nb.W π,
        sources := if T.leaf π then .ok (if T.leaf π then it π else []) else .error .ub } := by
  unfold adaptiveShape
  rw [Rounded.liftH_get, treeHeap_get T it hπ]
  rfl

/-- The tree with the boxes `bx`. -/
theorem adaptive_treeR (bx : Path → Box d) (hr : 0 < r.len) (hb : adaptiveLists fuel pos r items max = .ok (st, h, nb)) :
    TreeR (fmmTree pos r items max) r (fun π => (bx π).center) (itemsAt pos r items)
      (adaptiveShape (Rounded.liftH bx st.heap) nb) id h := by
  obtain ⟨-, h1, h2, h3⟩ := lists_result (Or.inl hr) hb
  refine ⟨rfl, fmmTree_adjOf, hr, fun π hπ => Nat.lt_succ_iff.mp (h2 π hπ), fun _ _ _ _ h => h, fun π hπ => ?_⟩
  rw [h1]
  refine ⟨_, liftH_shape bx hπ, rfl, ?_, fun hl => ?_, ?_, ?_, fun hl => ⟨?_, ?_, ?_⟩⟩
  · simp
  · refine List.map_congr_left fun i hi => ?_
    rw [if_pos ⟨hl, List.mem_range.mp hi⟩]; rfl
  · rw [h3]
    simp only [List.map_id]
    exact PTree.nbh_inter h2 hπ
  · rw [h3]
    simp only [List.map_id]
    exact PTree.nbh_X h2 hπ
  · simp [hl]
  · rw [h3]; simp
  · rw [h3]; simp

theorem height_pos (hN : max < items.length)
    (hb : adaptiveLists fuel pos r items max = .ok (st, h, nb)) (hr : 0 < r.len) : 1 ≤ h := by
  obtain ⟨-, -, h2, -⟩ := lists_result (Or.inl hr) hb
  have hl : (fmmTree pos r items max).leaf [] = false := by
    simp only [fmmTree, itemsAt_nil, decide_eq_false_iff_not]; omega
  have : (fmmTree pos r items max).Mem [0] := PTree.mem_nil.cons hl (by show 0 < 2 ^ d; positivity)
  have := h2 _ this
  simp at this
  omega

theorem levels (hN : max < items.length) (hr : 0 < r.len)
    (hb : adaptiveLists fuel pos r items max = .ok (st, h, nb)) :
    st.nodes = (List.range h).map (nodeLevel pos r items max) ∧
      st.leaves = (List.range (h + 1)).map (leafLevel pos r items max) := by
  obtain ⟨h0, -, -, -⟩ := lists_result (Or.inl hr) hb
  obtain ⟨-, -, h3⟩ := adaptiveBuild_ok h0
  rcases h3 with ⟨h3, -⟩ | ⟨-, -, h3, h4⟩
  · omega
  · exact ⟨h3, h4⟩

/-- A tree of a single leaf. -/
theorem single (hN : items.length ≤ max) (hr : 0 < r.len)
    (hb : adaptiveLists fuel pos r items max = .ok (st, h, nb)) :
    h = 0 ∧ st.nodes = [] ∧ st.leaves = [[[]]] := by
  obtain ⟨h0, -, -, -⟩ := lists_result (Or.inl hr) hb
  unfold adaptiveBuild at h0
  rw [if_pos hN] at h0
  cases h0
  exact ⟨rfl, rfl, rfl⟩

/-- Nodes and leaves of a level. -/
noncomputable def fullLevel (pos : Source d → Vec d) (r : Box d) (items : List (Source d)) (max k : ℕ) : List Path :=
  nodeLevel pos r items max k ++ leafLevel pos r items max k

theorem mem_fullLevel (hN : max < items.length) (k : ℕ) (π : Path) :
    π ∈ fullLevel pos r items max k ↔ (fmmTree pos r items max).Mem π ∧ π.length = k := by
  unfold fullLevel
  rw [List.mem_append, mem_nodeLevel, mem_leafLevel, fmmTree_eq hN]
  cases (fmmTree pos r items max).leaf π <;> simp

theorem loopsOK (hN : max < items.length) (hr : 0 < r.len)
    (hb : adaptiveLists fuel pos r items max = .ok (st, h, nb)) :
    LoopsOK (fmmTree pos r items max) h st.leaves (nodeLevel pos r items max) (fullLevel pos r items max) := by
  obtain ⟨hn, hl⟩ := levels hN hr hb
  obtain ⟨-, -, h2, -⟩ := lists_result (Or.inl hr) hb
  have e := fmmTree_eq (pos := pos) (r := r) hN
  refine ⟨?_, ?_, ?_, fun k => nodup_nodeLevel _ _ _ _ k, ?_, fun k => ?_, fun k _ _ π => mem_fullLevel hN k π⟩
  · intro l hl'
    rw [hl] at hl'
    obtain ⟨k, -, rfl⟩ := List.mem_map.mp hl'
    exact nodup_leafLevel _ _ _ _ k
  · intro l hl' π hπ
    rw [hl] at hl'
    obtain ⟨k, -, rfl⟩ := List.mem_map.mp hl'
    have := (mem_leafLevel _ _ _ _ k π).mp hπ
    rw [e] at this
    exact ⟨this.1, this.2.2⟩
  · intro π hπ hlf
    refine ⟨leafLevel pos r items max π.length, ?_, ?_⟩
    · rw [hl]; exact List.mem_map.mpr ⟨_, List.mem_range.mpr (h2 π hπ), rfl⟩
    · rw [mem_leafLevel, e]; exact ⟨hπ, rfl, hlf⟩
  · intro k _ _ π
    rw [mem_nodeLevel, e]
  · unfold fullLevel
    rw [List.nodup_append]
    refine ⟨nodup_nodeLevel _ _ _ _ k, nodup_leafLevel _ _ _ _ k, ?_⟩
    rintro a ha b hb' rfl
    have h1 := ((mem_nodeLevel _ _ _ _ k a).mp ha).2.2
    have h2 := ((mem_leafLevel _ _ _ _ k a).mp hb').2.2
    rw [h1] at h2; simp at h2

theorem up_ok (hN : max < items.length) (hr : 0 < r.len)
    (hb : adaptiveLists fuel pos r items max = .ok (st, h, nb)) :
    adaptiveUp st.nodes h = .ok (upLoops id h (nodeLevel pos r items max)) := by
  obtain ⟨hn, hl⟩ := levels hN hr hb
  unfold adaptiveUp upLoops
  refine (mapM_ok _ (fun i => (nodeLevel pos r items max (h - 1 - i)).map id) _ ?_)
  intro i hi
  have hi := List.mem_range.mp hi
  have : st.nodes[h - 1 - i]? = some (nodeLevel pos r items max (h - 1 - i)) := by
    rw [hn, List.getElem?_map, List.getElem?_range (by omega)]; rfl
  simp [vecGet, this]

theorem down_ok (hN : max < items.length) (hr : 0 < r.len)
    (hb : adaptiveLists fuel pos r items max = .ok (st, h, nb)) :
    adaptiveDown st.nodes st.leaves h = .ok (downLoops id h (fullLevel pos r items max)) := by
  obtain ⟨hn, hl⟩ := levels hN hr hb
  have hpos := height_pos hN hb hr
  obtain ⟨-, -, h2, -⟩ := lists_result (Or.inl hr) hb
  have e := fmmTree_eq (pos := pos) (r := r) hN
  have hgn : ∀ k < h, st.nodes[k]? = some (nodeLevel pos r items max k) := by
    intro k hk; rw [hn, List.getElem?_map, List.getElem?_range hk]; rfl
  have hgl : ∀ k < h + 1, st.leaves[k]? = some (leafLevel pos r items max k) := by
    intro k hk; rw [hl, List.getElem?_map, List.getElem?_range hk]; rfl
  unfold adaptiveDown
  rw [mapM_ok _ (fun i => fullLevel pos r items max (i + 2)) _ (by
    intro i hi
    have hi := List.mem_range.mp hi
    simp only [vecGet]
    rw [hgn _ (by omega), hgl _ (by omega)]
    rfl), ok_bind]
  have hlast : fullLevel pos r items max h = leafLevel pos r items max h := by
    unfold fullLevel
    have : nodeLevel pos r items max h = [] := by
      rw [List.eq_nil_iff_forall_not_mem]
      intro π hπ
      obtain ⟨k1, k2, k3⟩ := (mem_nodeLevel _ _ _ _ _ _).mp hπ
      rw [e] at k1 k3
      have := h2 _ (k1.cons k3 (i := 0) (by show 0 < 2 ^ d; positivity))
      simp at this; omega
    rw [this, List.nil_append]
  simp only [vecAt]
  rw [hgl h (by omega)]
  simp only [ok_bind]
  congr 1
  unfold downLoops firstLevel
  by_cases h1 : h = 1
  · subst h1
    simp [hlast]
  · obtain ⟨n, rfl⟩ : ∃ n, h = n + 2 := ⟨h - 2, by omega⟩
    have e1 : n + 2 + 1 - min 2 (n + 2) = n + 1 := by omega
    have e2 : min 2 (n + 2) = 2 := by omega
    rw [e1, e2, List.range_succ, List.map_append, ← hlast]
    simp [Nat.add_comm]

theorem all_nodes (hr : 0 < r.len)
    (hb : adaptiveLists fuel pos r items max = .ok (st, h, nb)) (π : Path) :
    π ∈ st.nodes.flatten ++ st.leaves.flatten ↔ (fmmTree pos r items max).Mem π := by
  obtain ⟨-, -, h2, -⟩ := lists_result (Or.inl hr) hb
  by_cases hN : max < items.length
  · obtain ⟨hn, hl⟩ := levels hN hr hb
    have e := fmmTree_eq (pos := pos) (r := r) hN
    rw [hn, hl, List.mem_append]
    simp only [List.mem_flatten, List.mem_map, List.mem_range]
    constructor
    · rintro (⟨l, ⟨k, -, rfl⟩, hk⟩ | ⟨l, ⟨k, -, rfl⟩, hk⟩)
      · rw [mem_nodeLevel, e] at hk; exact hk.1
      · rw [mem_leafLevel, e] at hk; exact hk.1
    · intro hπ
      by_cases hlf : (fmmTree pos r items max).leaf π = true
      · exact Or.inr ⟨_, ⟨π.length, h2 π hπ, rfl⟩, by rw [mem_leafLevel, e]; exact ⟨hπ, rfl, hlf⟩⟩
      · have hlf : (fmmTree pos r items max).leaf π = false := by simpa using hlf
        refine Or.inl ⟨_, ⟨π.length, ?_, rfl⟩, by rw [mem_nodeLevel, e]; exact ⟨hπ, rfl, hlf⟩⟩
        have := h2 _ (hπ.cons hlf (i := 0) (by show 0 < 2 ^ d; positivity))
        simp at this; omega
  · obtain ⟨h1, hn, hl⟩ := single (not_lt.mp hN) hr hb
    subst h1
    rw [hn, hl]
    constructor
    · intro hπ
      have : π = [] := by simpa using hπ
      subst this
      exact PTree.mem_nil
    · intro hπ
      have := h2 π hπ
      have : π = [] := List.eq_nil_of_length_eq_zero (by omega)
      simp [this]

variable {p : ℕ}

/-- The passes on the tree with the boxes `bx`. -/
theorem passes_adaptive (bx : Path → Box d) (hr : 0 < r.len) (hb : adaptiveLists fuel pos r items max = .ok (st, h, nb))
    (L : PassLaws K p (fmmTree pos r items max) (fun π => (bx π).center) (itemsAt pos r items)) {t : K.T} (ht : L.good t) :
    ∃ s0 s1, forEach (initNode K (adaptiveShape (Rounded.liftH bx st.heap) nb) p) (st.nodes.flatten ++ st.leaves.flatten)
        ⟨t, fun _ => none, fun _ => none⟩ = .ok s0 ∧ Done L id s1 ∧
      (items.length ≤ max → s1 = s0) ∧
      (max < items.length → st.nodes.length = h ∧ st.leaves.length = h + 1 ∧
        ∃ up down, adaptiveUp st.nodes h = .ok up ∧ adaptiveDown st.nodes st.leaves h = .ok down ∧
        RaceFreePasses K (adaptiveShape (Rounded.liftH bx st.heap) nb) p
          (constructLE K (adaptiveShape (Rounded.liftH bx st.heap) nb) p) st.leaves up down s0 ∧
        ∀ sch, Schedule sch → passes K (adaptiveShape (Rounded.liftH bx st.heap) nb) p
          (constructLE K (adaptiveShape (Rounded.liftH bx st.heap) nb) p) sch st.leaves up down s0 = .ok s1) := by
  have hT := adaptive_treeR bx hr hb
  have hall := all_nodes hr hb
  obtain ⟨s0, a1, a2⟩ := initAll_ok L.toLeafLaws hT (st.nodes.flatten ++ st.leaves.flatten) (fun π hπ => (hall π).mp hπ)
    (fun π hπ => (hall π).mpr hπ) ⟨t, fun _ => none, fun _ => none⟩ ht
  rw [List.map_id] at a1
  by_cases hN : max < items.length
  · obtain ⟨b1, s1, b2, b3⟩ := passes_ok L hT (loopsOK hN hr hb) (height_pos hN hb hr) a2
    have eL : leafLoops id st.leaves = st.leaves := by unfold leafLoops; simp
    rw [eL] at b1 b2
    obtain ⟨hn, hl⟩ := levels hN hr hb
    refine ⟨s0, s1, a1, b3, fun h' => absurd h' (by omega), fun _ => ⟨by rw [hn]; simp, by rw [hl]; simp, _, _,
      up_ok hN hr hb, down_ok hN hr hb, b1, b2⟩⟩
  · refine ⟨s0, s0, a1, a2.done L fun π hπ => ?_, fun _ => rfl, fun h' => absurd h' hN⟩
    have := hT.hH π hπ
    have h0 := (single (not_lt.mp hN) hr hb).1
    omega

end

/-! ## The rounded constructor -/

section
open Rounded
variable {rnd rlog : ℝ → ℝ} {nrm : Vec d → ℝ} {u C : ℝ} {r : RBox ℝ d} {items : List (Source d)} {max fuel h : ℕ}
  {st : BuildState d (Source d)} {nb : Nbh} {p : ℕ}

/-- The floating-point constructor, given the order and the root box it computes: the same tree for every schedule, without
data races; its structure is that of an exact construction from the shadows of the positions, and its expansions satisfy the
given laws. -/
theorem rounded_on (hu : 0 ≤ u) (hL : 0 < r.len)
    (hC0 : 0 ≤ C) (H : RndOn rnd u (4 * (C + r.len))) (hC : ∀ i, |r.center i| ≤ C) (hnrm : ∀ v, r.len / 2 ^ h ≤ Vec.norm v → 999 / 1000 * Vec.norm v ≤ nrm v) {eps : ℝ}
    (hord : Rounded.expansionOrder rnd rlog (Rounded.totalStrength rnd items) eps = .ok p)
    (hbox : sourceBox rnd items = some r)
    (hb : Rounded.adaptiveLists rnd nrm fuel Source.pos r items max = .ok (st, h, nb))
    (hk : 100 * ((8 * h + 15) * (u * (4 * (C + r.len)))) < r.len / 2 ^ (h + 1)) :
    ∃ stE fuel' n, h ≤ n ∧
      FMM.adaptiveLists fuel' (fun s => shadow rnd r n s.pos) r.exact items max = .ok (stE, h, nb) ∧
      st.heap = liftH (bxR rnd r) stE.heap ∧
      ∀ (L : PassLaws K p (fmmTree (fun s => shadow rnd r n s.pos) r.exact items max) (fun π => (bxR rnd r π).center)
        (itemsAt (fun s => shadow rnd r n s.pos) r.exact items)) (t : K.T), L.good t →
      ∃ s0 s1, Rounded.adaptiveInit rnd rlog nrm K fuel t items max eps = .ok ⟨p, h, st.heap, st.nodes, st.leaves, nb, s0⟩ ∧
        (max < items.length → ∀ up down, adaptiveUp st.nodes h = .ok up → adaptiveDown st.nodes st.leaves h = .ok down →
          RaceFreePasses K (adaptiveShape st.heap nb) p (constructLE K (adaptiveShape st.heap nb) p) st.leaves up down s0) ∧
        (∀ sch, Schedule sch → Rounded.adaptiveFmm rnd rlog nrm K fuel sch t items max eps
          = .ok ⟨p, h, st.heap, st.nodes, st.leaves, nb, s1⟩) ∧
        Done L id s1 := by
  obtain ⟨stE, fuel', n, hE, e, hn⟩ := lists_on hu hL hC0 H hC hnrm hb hk
  refine ⟨stE, fuel', n, hn, hE, by rw [e]; rfl, fun L t ht => ?_⟩
  obtain ⟨s0, s1, a1, a2, a3, a4⟩ := passes_adaptive (bxR rnd r) hL hE L ht
  have e1 : st.heap = liftH (bxR rnd r) stE.heap := by rw [e]; rfl
  have e2 : st.nodes = stE.nodes := by rw [e]; rfl
  have e3 : st.leaves = stE.leaves := by rw [e]; rfl
  rw [← e1, ← e2, ← e3] at a1 a4
  have hinit : Rounded.adaptiveInit rnd rlog nrm K fuel t items max eps = .ok ⟨p, h, st.heap, st.nodes, st.leaves, nb, s0⟩ := by
    unfold Rounded.adaptiveInit
    rw [hord, ok_bind, hbox]
    simp only
    rw [hb, ok_bind]
    simp only
    rw [a1, ok_bind]
  refine ⟨s0, s1, hinit, fun hN up down hu' hd => ?_, fun sch hsch => ?_, a2⟩
  · obtain ⟨-, -, up', down', b1, b2, b3, -⟩ := a4 hN
    rw [b1] at hu'
    rw [b2] at hd
    cases hu'; cases hd
    exact b3
  · unfold Rounded.adaptiveFmm
    rw [hinit, ok_bind]
    simp only
    by_cases hN : items.length ≤ max
    · rw [if_pos hN, a3 hN]
    · obtain ⟨b1, b2, up', down', b3, b4, -, b5⟩ := a4 (not_le.mp hN)
      rw [if_neg hN, if_neg (by omega), b3, ok_bind, b4, ok_bind]
      unfold AdaptiveFmm.shape
      rw [b5 sch hsch, ok_bind]

theorem rounded_ok (H : ∀ x, |rnd x - x| ≤ u * |x|) (hu : 0 ≤ u) (hL : 0 < r.len)
    (hC0 : 0 ≤ C) (hC : ∀ i, |r.center i| ≤ C) (hnrm : ∀ v, 999 / 1000 * Vec.norm v ≤ nrm v) {eps : ℝ}
    (hord : Rounded.expansionOrder rnd rlog (Rounded.totalStrength rnd items) eps = .ok p)
    (hbox : sourceBox rnd items = some r)
    (hb : Rounded.adaptiveLists rnd nrm fuel Source.pos r items max = .ok (st, h, nb))
    (hk : 100 * ((8 * h + 15) * (u * (4 * (C + r.len)))) < r.len / 2 ^ (h + 1)) :
    ∃ stE fuel' n, h ≤ n ∧
      FMM.adaptiveLists fuel' (fun s => shadow rnd r n s.pos) r.exact items max = .ok (stE, h, nb) ∧
      st.heap = liftH (bxR rnd r) stE.heap ∧
      ∀ (L : PassLaws K p (fmmTree (fun s => shadow rnd r n s.pos) r.exact items max) (fun π => (bxR rnd r π).center)
        (itemsAt (fun s => shadow rnd r n s.pos) r.exact items)) (t : K.T), L.good t →
      ∃ s0 s1, Rounded.adaptiveInit rnd rlog nrm K fuel t items max eps = .ok ⟨p, h, st.heap, st.nodes, st.leaves, nb, s0⟩ ∧
        (max < items.length → ∀ up down, adaptiveUp st.nodes h = .ok up → adaptiveDown st.nodes st.leaves h = .ok down →
          RaceFreePasses K (adaptiveShape st.heap nb) p (constructLE K (adaptiveShape st.heap nb) p) st.leaves up down s0) ∧
        (∀ sch, Schedule sch → Rounded.adaptiveFmm rnd rlog nrm K fuel sch t items max eps
          = .ok ⟨p, h, st.heap, st.nodes, st.leaves, nb, s1⟩) ∧
        Done L id s1 :=
  rounded_on hu hL hC0 (RndOn.of_rel H hu) hC (fun v _ => hnrm v) hord hbox hb hk

end
end FMM.Rel
