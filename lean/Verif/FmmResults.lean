import Verif.FmmTrees
import Verif.FmmRun
import Verif.PropsBalanced

/-!
# Result of the constructors and of an evaluation, for any expansions that satisfy the laws
-/

namespace FMM
variable {d : ℕ} {K : Kit d} {V : Type} [AddCommGroup V] {O : Obs K V} {p : ℕ}

/-! ## Adaptive tree -/

section
variable {r : Box d} {items : List (Source d)} {max fuel h : ℕ} {st : BuildState d (Source d)} {nb : Nbh}

theorem adaptiveShape_ok {T : PTree} {it : Path → List (Source d)} {π : Path} (hπ : T.Mem π) :
    adaptiveShape (treeHeap T r it) nb π = .ok
      { center := (boxAt r π).center, parent := π.tail?,
        children := (List.range (2 ^ d)).map fun i => if T.leaf π = false ∧ i < T.c then some (i :: π) else none,
        near := nb.near π, inter := nb.inter π, X := nb.X π, W := nb.W π,
        sources := if T.leaf π then .ok (if T.leaf π then it π else []) else .error .ub } := by
  unfold adaptiveShape
  rw [treeHeap_get T it hπ, ok_bind]

theorem adaptive_treeOK (hr : 0 < r.len) (hin : ∀ s ∈ items, r.contains s.pos)
    (hb : adaptiveLists fuel Source.pos r items max = .ok (st, h, nb)) :
    TreeOK (fmmTree Source.pos r items max) r items (adaptiveShape st.heap nb) id h := by
  obtain ⟨-, h1, h2, h3⟩ := lists_result (Or.inl hr) hb
  refine ⟨rfl, fmmTree_adjOf, hr, fun π hπ => Nat.lt_succ_iff.mp (h2 π hπ), hin, fun _ _ _ _ h => h, fun π hπ => ?_⟩
  rw [h1]
  refine ⟨_, adaptiveShape_ok hπ, rfl, ?_, fun hl => ?_, ?_, ?_, fun hl => ⟨?_, ?_, ?_⟩⟩
  · simp
  · refine List.map_congr_left fun i hi => ?_
    rw [if_pos ⟨hl, List.mem_range.mp hi⟩]; rfl
  · rw [h3]
    simp only [List.map_id]
    exact PTree.nbh_inter h2 hπ
  · rw [h3]
    simp only [List.map_id]
    exact PTree.nbh_X h2 hπ
  · simp [hl]
  · rw [h3]; simp
  · rw [h3]; simp

theorem adaptive_height_pos (hN : max < items.length)
    (hb : adaptiveLists fuel Source.pos r items max = .ok (st, h, nb)) (hr : 0 < r.len) : 1 ≤ h := by
  obtain ⟨-, -, h2, -⟩ := lists_result (Or.inl hr) hb
  have hl : (fmmTree Source.pos r items max).leaf [] = false := by
    simp only [fmmTree, itemsAt_nil, decide_eq_false_iff_not]; omega
  have : (fmmTree Source.pos r items max).Mem [0] := PTree.mem_nil.cons hl (by show 0 < 2 ^ d; positivity)
  have := h2 _ this
  simp at this
  omega

theorem adaptive_levels (hN : max < items.length) (hr : 0 < r.len)
    (hb : adaptiveLists fuel Source.pos r items max = .ok (st, h, nb)) :
    st.nodes = (List.range h).map (nodeLevel Source.pos r items max) ∧
      st.leaves = (List.range (h + 1)).map (leafLevel Source.pos r items max) := by
  obtain ⟨h0, -, -, -⟩ := lists_result (Or.inl hr) hb
  obtain ⟨-, -, h3⟩ := adaptiveBuild_ok h0
  rcases h3 with ⟨h3, -⟩ | ⟨-, -, h3, h4⟩
  · omega
  · exact ⟨h3, h4⟩

/-- Nodes and leaves of a level. -/
noncomputable def fullLevel (r : Box d) (items : List (Source d)) (max k : ℕ) : List Path :=
  nodeLevel Source.pos r items max k ++ leafLevel Source.pos r items max k

theorem mem_fullLevel (hN : max < items.length) (k : ℕ) (π : Path) :
    π ∈ fullLevel r items max k ↔ (fmmTree Source.pos r items max).Mem π ∧ π.length = k := by
  unfold fullLevel
  rw [List.mem_append, mem_nodeLevel, mem_leafLevel, fmmTree_eq hN]
  cases (fmmTree Source.pos r items max).leaf π <;> simp

theorem adaptive_loopsOK (hN : max < items.length) (hr : 0 < r.len)
    (hb : adaptiveLists fuel Source.pos r items max = .ok (st, h, nb)) :
    LoopsOK (fmmTree Source.pos r items max) h st.leaves (nodeLevel Source.pos r items max) (fullLevel r items max) := by
  obtain ⟨hn, hl⟩ := adaptive_levels hN hr hb
  obtain ⟨-, -, h2, -⟩ := lists_result (Or.inl hr) hb
  have e := fmmTree_eq (pos := Source.pos) (r := r) hN
  refine ⟨?_, ?_, ?_, fun k => nodup_nodeLevel _ _ _ _ k, ?_, fun k => ?_, fun k _ _ π => mem_fullLevel hN k π⟩
  · intro l hl'
    rw [hl] at hl'
    obtain ⟨k, -, rfl⟩ := List.mem_map.mp hl'
    exact nodup_leafLevel _ _ _ _ k
  · intro l hl' π hπ
    rw [hl] at hl'
    obtain ⟨k, -, rfl⟩ := List.mem_map.mp hl'
    have := (mem_leafLevel _ _ _ _ k π).mp hπ
    rw [e] at this
    exact ⟨this.1, this.2.2⟩
  · intro π hπ hlf
    refine ⟨leafLevel Source.pos r items max π.length, ?_, ?_⟩
    · rw [hl]; exact List.mem_map.mpr ⟨_, List.mem_range.mpr (h2 π hπ), rfl⟩
    · rw [mem_leafLevel, e]; exact ⟨hπ, rfl, hlf⟩
  · intro k _ _ π
    rw [mem_nodeLevel, e]
  · unfold fullLevel
    rw [List.nodup_append]
    refine ⟨nodup_nodeLevel _ _ _ _ k, nodup_leafLevel _ _ _ _ k, ?_⟩
    rintro a ha b hb' rfl
    have h1 := ((mem_nodeLevel _ _ _ _ k a).mp ha).2.2
    have h2 := ((mem_leafLevel _ _ _ _ k a).mp hb').2.2
    rw [h1] at h2; simp at h2

theorem map_id_fun {α : Type} (l : List (List α)) : l.map (List.map id) = l := by simp

theorem adaptive_up (hN : max < items.length) (hr : 0 < r.len)
    (hb : adaptiveLists fuel Source.pos r items max = .ok (st, h, nb)) :
    adaptiveUp st.nodes h = .ok (upLoops id h (nodeLevel Source.pos r items max)) := by
  obtain ⟨hn, hl⟩ := adaptive_levels hN hr hb
  unfold adaptiveUp upLoops
  refine (mapM_ok _ (fun i => (nodeLevel Source.pos r items max (h - 1 - i)).map id) _ ?_)
  intro i hi
  have hi := List.mem_range.mp hi
  have : st.nodes[h - 1 - i]? = some (nodeLevel Source.pos r items max (h - 1 - i)) := by
    rw [hn, List.getElem?_map, List.getElem?_range (by omega)]; rfl
  simp [vecGet, this]

theorem adaptive_down (hN : max < items.length) (hr : 0 < r.len)
    (hb : adaptiveLists fuel Source.pos r items max = .ok (st, h, nb)) :
    adaptiveDown st.nodes st.leaves h = .ok (downLoops id h (fullLevel r items max)) := by
  obtain ⟨hn, hl⟩ := adaptive_levels hN hr hb
  have hpos := adaptive_height_pos hN hb hr
  obtain ⟨-, -, h2, -⟩ := lists_result (Or.inl hr) hb
  have e := fmmTree_eq (pos := Source.pos) (r := r) hN
  have hgn : ∀ k < h, st.nodes[k]? = some (nodeLevel Source.pos r items max k) := by
    intro k hk; rw [hn, List.getElem?_map, List.getElem?_range hk]; rfl
  have hgl : ∀ k < h + 1, st.leaves[k]? = some (leafLevel Source.pos r items max k) := by
    intro k hk; rw [hl, List.getElem?_map, List.getElem?_range hk]; rfl
  unfold adaptiveDown
  rw [mapM_ok _ (fun i => fullLevel r items max (i + 2)) _ (by
    intro i hi
    have hi := List.mem_range.mp hi
    simp only [vecGet]
    rw [hgn _ (by omega), hgl _ (by omega)]
    rfl), ok_bind]
  have hlast : fullLevel r items max h = leafLevel Source.pos r items max h := by
    unfold fullLevel
    have : nodeLevel Source.pos r items max h = [] := by
      rw [List.eq_nil_iff_forall_not_mem]
      intro π hπ
      obtain ⟨k1, k2, k3⟩ := (mem_nodeLevel _ _ _ _ _ _).mp hπ
      rw [e] at k1 k3
      have := h2 _ (k1.cons k3 (i := 0) (by show 0 < 2 ^ d; positivity))
      simp at this; omega
    rw [this, List.nil_append]
  simp only [vecAt]
  rw [hgl h (by omega)]
  simp only [ok_bind]
  congr 1
  unfold downLoops firstLevel
  by_cases h1 : h = 1
  · subst h1
    simp [hlast]
  · obtain ⟨n, rfl⟩ : ∃ n, h = n + 2 := ⟨h - 2, by omega⟩
    have e1 : n + 2 + 1 - min 2 (n + 2) = n + 1 := by omega
    have e2 : min 2 (n + 2) = 2 := by omega
    rw [e1, e2, List.range_succ, List.map_append, ← hlast]
    simp [Nat.add_comm]

theorem adaptive_all (hN : max < items.length) (hr : 0 < r.len)
    (hb : adaptiveLists fuel Source.pos r items max = .ok (st, h, nb)) (π : Path) :
    π ∈ st.nodes.flatten ++ st.leaves.flatten ↔ (fmmTree Source.pos r items max).Mem π := by
  obtain ⟨hn, hl⟩ := adaptive_levels hN hr hb
  obtain ⟨-, -, h2, -⟩ := lists_result (Or.inl hr) hb
  have e := fmmTree_eq (pos := Source.pos) (r := r) hN
  rw [hn, hl, List.mem_append]
  simp only [List.mem_flatten, List.mem_map, List.mem_range]
  constructor
  · rintro (⟨l, ⟨k, -, rfl⟩, hk⟩ | ⟨l, ⟨k, -, rfl⟩, hk⟩)
    · rw [mem_nodeLevel, e] at hk; exact hk.1
    · rw [mem_leafLevel, e] at hk; exact hk.1
  · intro hπ
    by_cases hlf : (fmmTree Source.pos r items max).leaf π = true
    · exact Or.inr ⟨_, ⟨π.length, h2 π hπ, rfl⟩, by rw [mem_leafLevel, e]; exact ⟨hπ, rfl, hlf⟩⟩
    · have hlf : (fmmTree Source.pos r items max).leaf π = false := by simpa using hlf
      refine Or.inl ⟨_, ⟨π.length, ?_, rfl⟩, by rw [mem_nodeLevel, e]; exact ⟨hπ, rfl, hlf⟩⟩
      have := h2 _ (hπ.cons hlf (i := 0) (by show 0 < 2 ^ d; positivity))
      simp at this; omega

/-- The constructor: for every schedule the same tree, without data races; its expansions are what they should be. -/
theorem adaptiveFmm_ok (L : FmmLaws K O p) {t : K.T} (ht : L.good t) {eps : ℝ} (hN : max < items.length) (hr : 0 < r.len)
    (hin : ∀ s ∈ items, r.contains s.pos) (hbox : rootBox (items.map Source.pos) = some r)
    (hord : expansionOrder (totalStrength items) eps = .ok p)
    (hb : adaptiveLists fuel Source.pos r items max = .ok (st, h, nb)) :
    ∃ s0 s1, adaptiveInit K fuel t items max eps = .ok ⟨p, h, st.heap, st.nodes, st.leaves, nb, s0⟩ ∧
      (∀ up down, adaptiveUp st.nodes h = .ok up → adaptiveDown st.nodes st.leaves h = .ok down →
        RaceFreePasses K (adaptiveShape st.heap nb) p (constructLE K (adaptiveShape st.heap nb) p) st.leaves up down s0) ∧
      (∀ sch, Schedule sch → adaptiveFmm K fuel sch t items max eps
        = .ok ⟨p, h, st.heap, st.nodes, st.leaves, nb, s1⟩) ∧
      Done L (fmmTree Source.pos r items max) r items id s1 := by
  have hT := adaptive_treeOK hr hin hb
  have hl := adaptive_loopsOK hN hr hb
  have hall := adaptive_all hN hr hb
  obtain ⟨s0, a1, a2⟩ := initAll_ok L hT (st.nodes.flatten ++ st.leaves.flatten) (fun π hπ => (hall π).mp hπ)
    (fun π hπ => (hall π).mpr hπ) ⟨t, fun _ => none, fun _ => none⟩ ht
  rw [List.map_id] at a1
  obtain ⟨b1, s1, b2, b3⟩ := passes_ok L hT hl (adaptive_height_pos hN hb hr) a2
  have eL : leafLoops id st.leaves = st.leaves := by unfold leafLoops; simp
  rw [eL] at b1 b2
  have hinit : adaptiveInit K fuel t items max eps = .ok ⟨p, h, st.heap, st.nodes, st.leaves, nb, s0⟩ := by
    unfold adaptiveInit
    rw [hord, ok_bind, hbox]
    simp only
    rw [hb, ok_bind]
    simp only
    rw [a1, ok_bind]
  refine ⟨s0, s1, hinit, ?_, ?_, b3⟩
  · intro up down hu hd
    rw [adaptive_up hN hr hb] at hu
    rw [adaptive_down hN hr hb] at hd
    cases hu; cases hd
    exact b1
  · intro sch hsch
    obtain ⟨hn, hl'⟩ := adaptive_levels hN hr hb
    unfold adaptiveFmm
    rw [hinit, ok_bind]
    simp only
    rw [if_neg (by omega), if_neg (by rw [hn, hl']; simp), adaptive_up hN hr hb, ok_bind, adaptive_down hN hr hb, ok_bind]
    have := b2 sch hsch
    unfold AdaptiveFmm.shape
    rw [this, ok_bind]

/-- Evaluation at a point of the root box. -/
theorem adaptiveEval_ok (L : FmmLaws K O p) (hr : 0 < r.len) (hin : ∀ s ∈ items, r.contains s.pos)
    (hb : adaptiveLists fuel Source.pos r items max = .ok (st, h, nb)) {s1 : Exps K Path}
    (hd : Done L (fmmTree Source.pos r items max) r items id s1) {x : Vec d} (hx : r.contains x) (grav : Bool)
    (cur : List (Source d)) (ha : ∀ π, (fmmTree Source.pos r items max).Mem π → L.adm (boxAt r π).center x) :
    ∃ v, (∀ fuel' > h, adaptiveEval O fuel' grav ⟨p, h, st.heap, st.nodes, st.leaves, nb, s1⟩ cur x
        = .ok (if grav then v else -v)) ∧
      L.nrm (v - L.direct items x) ≤ L.B (r.len / 2 ^ h) * totalStrength items := by
  have hT := adaptive_treeOK hr hin hb
  obtain ⟨-, h1, h2, -⟩ := lists_result (Or.inl hr) hb
  obtain ⟨k, k0, k1, k2⟩ := exists_leaf_route (fmmTree Source.pos r items max) rfl r x h hT.hH
  obtain ⟨v, v1, v2⟩ := evalLeaf_ok L hT hd hx k1 k2 grav (ha _ k1) fun ρ hρ =>
    ha ρ ((PTree.mem_W (fun π hπ => Nat.lt_succ_of_le (hT.hH π hπ)) _ ρ).mp hρ).1
  refine ⟨v, fun fuel' hf => ?_, v2⟩
  unfold adaptiveEval
  rw [h1, getContainingLeaf_ok _ rfl r _ x k k1 k2 fuel' (by omega), ok_bind, if_pos (route_contains r x hx k)]
  simp only [AdaptiveFmm.shape]
  rw [h1] at v1
  exact v1

/-- The leaf in which a point of the root box is looked up. -/
theorem adaptive_leaf (hr : 0 < r.len) (hin : ∀ s ∈ items, r.contains s.pos)
    (hb : adaptiveLists fuel Source.pos r items max = .ok (st, h, nb)) {x : Vec d} (hx : r.contains x) :
    ∃ k ≤ h, (fmmTree Source.pos r items max).Mem (route r x k) ∧
      (fmmTree Source.pos r items max).leaf (route r x k) = true ∧
      ∀ fuel' > h, getContainingLeaf fuel' st.heap x = .ok (some (route r x k)) := by
  have hT := adaptive_treeOK hr hin hb
  obtain ⟨-, h1, h2, -⟩ := lists_result (Or.inl hr) hb
  obtain ⟨k, k0, k1, k2⟩ := exists_leaf_route (fmmTree Source.pos r items max) rfl r x h hT.hH
  refine ⟨k, k0, k1, k2, fun fuel' hf => ?_⟩
  rw [h1, getContainingLeaf_ok _ rfl r _ x k k1 k2 fuel' (by omega), if_pos (route_contains r x hx k)]

theorem adaptiveEval_error (L : FmmLaws K O p) (hr : 0 < r.len) (hin : ∀ s ∈ items, r.contains s.pos)
    (hb : adaptiveLists fuel Source.pos r items max = .ok (st, h, nb)) {s1 : Exps K Path}
    (hd : Done L (fmmTree Source.pos r items max) r items id s1) {x : Vec d} (hx : r.contains x) (grav : Bool)
    (cur : List (Source d)) {er : Err} (O' : Obs K V)
    (hbad : ∀ π, (boxAt r π).contains x → (∀ fuel' > h, getContainingLeaf fuel' st.heap x = .ok (some π)) →
      ∀ e φ, L.isLE e (boxAt r π).center φ → O'.le e x = .error er) :
    ∀ fuel' > h, adaptiveEval O' fuel' grav ⟨p, h, st.heap, st.nodes, st.leaves, nb, s1⟩ cur x = .error er := by
  intro fuel' hf
  have hT := adaptive_treeOK hr hin hb
  obtain ⟨k, -, k1, k2, k3⟩ := adaptive_leaf hr hin hb hx
  have v1 := evalLeaf_error L hT hd k1 grav O'
    (hbad _ (route_contains r x hx k) k3)
  have k3 := k3 fuel' hf
  unfold adaptiveEval
  rw [k3, ok_bind]
  simp only [AdaptiveFmm.shape]
  exact v1

end

/-! ## Balanced tree -/

section
variable {r : Box d} {items : List (Source d)} {fuel h : ℕ} {nb : BNbh}

theorem containsHO_contains {b : Box d} {x : Vec d} (h : b.containsHO x) : b.contains x := by
  intro i
  have := h i
  rintro (h | h) <;> linarith

theorem balanced_treeOK (hr : 0 < r.len) (hdh : d * h ≤ 32) (hin : ∀ s ∈ items, r.contains s.pos)
    (hnb : BNbhAfter r h (off (2 ^ d) (h + 1)) nb) :
    TreeOK (fullTree r h) r items (balancedShape (bfull r h) (specSrc' Source.pos r items h) nb) (baddr d h) h := by
  have hm := fullTree_mem r h
  refine ⟨rfl, fullTree_adjOf r h, hr, fun π hπ => ((hm π).mp hπ).2, hin,
    fun π ρ hπ hρ e => baddr_inj ((hm π).mp hπ).1 ((hm ρ).mp hρ).1 e, fun π hπ => ?_⟩
  obtain ⟨hv, hl⟩ := (hm π).mp hπ
  obtain ⟨n, h1, h2, -, h3, h4⟩ := bfull_get_path r hv hl
  obtain ⟨k1, k2⟩ := hnb.at hv hl
  refine ⟨_, by unfold balancedShape; rw [h1, ok_bind], ?_, h3, fun hlf => ?_, k2, ?_, fun hlf => ⟨?_, ?_, ?_⟩⟩
  · rw [h2]
  · have hlt : π.length < h := by simpa [fullTree] using hlf
    simp only [h4]
    refine List.map_congr_left fun i hi => ?_
    rw [if_pos ⟨List.mem_range.mp hi, hlt⟩]
  · simp [fullTree_xl hr hπ]
  · have hle : h ≤ π.length := by simpa [fullTree] using hlf
    have hlen : π.length = h := by omega
    simp only [baddr_leaf hlen]
    exact specSrc'_get Source.pos r h hdh items hv hlen
  · rw [fullTree_near hr hπ]; exact k1
  · rw [fullTree_W hr]; rfl

theorem mem_levelPaths (k : ℕ) (π : Path) : π ∈ leafPaths d k ↔ ValidPath d π ∧ π.length = k := by
  rw [mem_leafPaths ⟨0, 1⟩ k π, fullTree_mem]
  simp only [fullTree, decide_eq_true_eq]
  constructor
  · rintro ⟨⟨h1, h2⟩, h3⟩; exact ⟨h1, by omega⟩
  · rintro ⟨h1, h2⟩; exact ⟨⟨h1, by omega⟩, by omega⟩

theorem balanced_loopsOK : LoopsOK (fullTree r h) h [leafPaths d h] (leafPaths d) (leafPaths d) := by
  have hm := fullTree_mem r h
  refine ⟨?_, ?_, ?_, fun k => nodup_leafPaths k, ?_, fun k => nodup_leafPaths k, ?_⟩
  · intro l hl
    rw [List.mem_singleton.mp hl]; exact nodup_leafPaths h
  · intro l hl π hπ
    rw [List.mem_singleton.mp hl] at hπ
    exact (mem_leafPaths r h π).mp hπ
  · intro π hπ hlf
    exact ⟨_, by simp, (mem_leafPaths r h π).mpr ⟨hπ, hlf⟩⟩
  · intro k hk hkh π
    rw [mem_levelPaths, hm]
    simp only [fullTree, decide_eq_false_iff_not]
    constructor
    · rintro ⟨h1, h2⟩; exact ⟨⟨h1, by omega⟩, h2, by omega⟩
    · rintro ⟨⟨h1, -⟩, h2, -⟩; exact ⟨h1, h2⟩
  · intro k hk hkh π
    rw [mem_levelPaths, hm]
    constructor
    · rintro ⟨h1, h2⟩; exact ⟨⟨h1, by omega⟩, h2⟩
    · rintro ⟨⟨h1, -⟩, h2⟩; exact ⟨h1, h2⟩

theorem levelAddrs_eq (hd : 2 ≤ d) {k : ℕ} (hk : k < h) : levelAddrs d k = (leafPaths d k).map (baddr d h) := by
  unfold levelAddrs leafPaths
  rw [List.map_map]
  refine List.map_congr_left fun i hi => ?_
  have hi := List.mem_range.mp hi
  have hl := gpath_leaf_length (d := d) k i hi
  simp only [Function.comp]
  rw [baddr_node (gpath_valid _ (by positivity) _) (by omega), hl, pathIndex_gpath k i hi,
    off_eq_div' _ (by calc 2 = 2 ^ 1 := rfl
      _ ≤ 2 ^ d := Nat.pow_le_pow_right (by norm_num) (by omega))]

theorem balancedLeafLoop_eq : balancedLeafLoop ((2 ^ d) ^ h) = (leafPaths d h).map (baddr d h) := by
  unfold balancedLeafLoop leafPaths
  rw [List.map_map]
  refine List.map_congr_left fun i hi => ?_
  have hi := List.mem_range.mp hi
  simp only [Function.comp]
  rw [baddr_leaf (gpath_leaf_length h i hi), pathIndex_gpath h i hi]

theorem balancedUp_eq (hd : 2 ≤ d) : balancedUp d h = upLoops (baddr d h) h (leafPaths d) := by
  unfold balancedUp upLoops
  refine List.map_congr_left fun i hi => ?_
  have hi := List.mem_range.mp hi
  exact levelAddrs_eq hd (by omega)

theorem balancedDown_eq (hd : 2 ≤ d) (hh : 1 ≤ h) : balancedDown d h ((2 ^ d) ^ h) = downLoops (baddr d h) h (leafPaths d) := by
  unfold balancedDown downLoops firstLevel
  rw [balancedLeafLoop_eq]
  by_cases h1 : h = 1
  · subst h1; simp
  · obtain ⟨n, rfl⟩ : ∃ n, h = n + 2 := ⟨h - 2, by omega⟩
    have e1 : n + 2 + 1 - min 2 (n + 2) = n + 1 := by omega
    have e2 : min 2 (n + 2) = 2 := by omega
    rw [e1, e2, List.range_succ, List.map_append, Nat.add_sub_cancel]
    congr 1
    · refine List.map_congr_left fun i hi => ?_
      have hi := List.mem_range.mp hi
      rw [Nat.add_comm 2 i]
      exact levelAddrs_eq hd (by omega)
    · simp [Nat.add_comm]

theorem balancedInit_list : (List.range (bfull r h).nNodes).map BAddr.node ++ (List.range (bfull r h).nLeaves).map BAddr.leaf
    = ((List.range (off (2 ^ d) h)).map (gpath (2 ^ d)) ++ leafPaths d h).map (baddr d h) := by
  rw [List.map_append]
  congr 1
  · show (List.range (off (2 ^ d) h)).map BAddr.node = _
    rw [List.map_map]
    refine List.map_congr_left fun i hi => ?_
    have hi := List.mem_range.mp hi
    simp only [Function.comp]
    rw [baddr_gpath, glob, if_pos hi]
  · exact balancedLeafLoop_eq

theorem balancedLE_eq (m : BMem d) (src : BSrc (Source d)) (nb : BNbh) (order : ℕ) :
    constructLE K (balancedShape m src nb) order = balancedLE K (balancedShape m src nb) := by
  funext a s
  unfold constructLE balancedLE
  rcases hm : m.get a with e | n
  · have : balancedShape m src nb a = .error e := by unfold balancedShape; rw [hm]; rfl
    unfold localToLocal
    rw [this]; rfl
  · have hX : ∀ s', sourceToLocal K (balancedShape m src nb) order a s' = .ok s' := by
      intro s'
      unfold sourceToLocal balancedShape
      rw [hm]; rfl
    have e : ∀ (o : Outcome (Exps K BAddr)), (do let s ← o; sourceToLocal K (balancedShape m src nb) order a s) = o := by
      intro o
      cases o with
      | error e => rfl
      | ok s' => exact hX s'
    cases localToLocal K (balancedShape m src nb) a s with
    | error e => rfl
    | ok s' => exact e _

/-- The constructor. -/
theorem balancedFmm_ok (L : FmmLaws K O p) {t : K.T} (ht : L.good t) {eps : ℝ} {perCell : ℕ} (hd : 2 ≤ d) (hh : 1 ≤ h)
    (hr : 0 < r.len) (hdh : d * h ≤ 32) (hin : ∀ s ∈ items, r.containsHO s.pos)
    (hbox : rootBox (items.map Source.pos) = some r)
    (hord : expansionOrder (totalStrength items) eps = .ok p) (hht : balancedHeight d items.length perCell = .ok h) :
    ∃ nb s0 s1, BNbhAfter r h (off (2 ^ d) (h + 1)) nb ∧ (∀ fuel ≥ off (2 ^ d) (h + 1),
        balancedInit K fuel t items perCell eps = .ok ⟨p, h, bfull r h, specSrc' Source.pos r items h, nb, s0⟩) ∧
      RaceFreePasses K (balancedShape (bfull r h) (specSrc' Source.pos r items h) nb) p
        (balancedLE K (balancedShape (bfull r h) (specSrc' Source.pos r items h) nb))
        [balancedLeafLoop (bfull r h).nLeaves] (balancedUp d h) (balancedDown d h (bfull r h).nLeaves) s0 ∧
      (∀ fuel ≥ off (2 ^ d) (h + 1), ∀ sch, Schedule sch → balancedFmm K fuel sch t items perCell eps
        = .ok ⟨p, h, bfull r h, specSrc' Source.pos r items h, nb, s1⟩) ∧
      Done L (fullTree r h) r items (baddr d h) s1 := by
  have hin' : ∀ s ∈ items, r.contains s.pos := fun s hs => containsHO_contains (hin s hs)
  obtain ⟨nb, hnb, hlists⟩ := balancedLists_ok hd Source.pos (Or.inl hr) hdh items (Or.inr hin)
  have hT := balanced_treeOK hr hdh hin' hnb
  have hl := balanced_loopsOK (r := r) (h := h)
  have hm := fullTree_mem r h
  set sh := balancedShape (bfull r h) (specSrc' Source.pos r items h) nb with hsh
  obtain ⟨s0, a1, a2⟩ := initAll_ok L hT ((List.range (off (2 ^ d) h)).map (gpath (2 ^ d)) ++ leafPaths d h) (by
      intro π hπ
      rw [hm]
      rcases List.mem_append.mp hπ with hπ | hπ
      · obtain ⟨i, hi, rfl⟩ := List.mem_map.mp hπ
        exact ⟨gpath_valid _ (by positivity) _,
          ((gpath_length_lt _ (by positivity) i h).mpr (List.mem_range.mp hi)).le⟩
      · obtain ⟨k1, k2⟩ := (mem_levelPaths h π).mp hπ
        exact ⟨k1, k2.le⟩) (by
      intro π hπ
      obtain ⟨k1, k2⟩ := (hm π).mp hπ
      rcases Nat.lt_or_ge π.length h with hlt | hge
      · refine List.mem_append_left _ (List.mem_map.mpr ⟨gidx (2 ^ d) π, ?_, gpath_gidx _ _ k1⟩)
        rw [List.mem_range, ← gpath_length_lt _ (by positivity), gpath_gidx _ _ k1]
        exact hlt
      · exact List.mem_append_right _ ((mem_levelPaths h π).mpr ⟨k1, by omega⟩))
    ⟨t, fun _ => none, fun _ => none⟩ ht
  obtain ⟨b1, s1, b2, b3⟩ := passes_ok L hT hl hh a2
  have eL : leafLoops (baddr d h) [leafPaths d h] = [balancedLeafLoop (bfull r h).nLeaves] := by
    show [_] = [balancedLeafLoop ((2 ^ d) ^ h)]
    rw [balancedLeafLoop_eq]
  have eU := balancedUp_eq (h := h) hd
  have eD : balancedDown d h (bfull r h).nLeaves = downLoops (baddr d h) h (leafPaths d) := balancedDown_eq hd hh
  have eB : constructLE K sh p = balancedLE K sh := balancedLE_eq _ _ _ p
  rw [eL, ← eU, ← eD, eB] at b1 b2
  have hinit : ∀ fuel ≥ off (2 ^ d) (h + 1),
        balancedInit K fuel t items perCell eps = .ok ⟨p, h, bfull r h, specSrc' Source.pos r items h, nb, s0⟩ := by
    intro fuel hf
    unfold balancedInit
    rw [hord, ok_bind, hht, ok_bind, hbox]
    simp only
    rw [hlists fuel hf, ok_bind]
    simp only
    rw [balancedInit_list, a1, ok_bind]
  refine ⟨nb, s0, s1, hnb, hinit, b1, fun fuel hf sch hsch => ?_, b3⟩
  unfold balancedFmm
  rw [hinit fuel hf, ok_bind]
  simp only
  rw [if_neg (by omega)]
  unfold BalancedFmm.shape
  rw [b2 sch hsch, ok_bind]

/-- Evaluation at a point of the half-open root box. -/
theorem balancedEval_ok (L : FmmLaws K O p) (hd : 2 ≤ d) (hr : 0 < r.len) (hdh : d * h ≤ 32) (hmor : h < 64 / d)
    (hin : ∀ s ∈ items, r.contains s.pos)
    (hnb : BNbhAfter r h (off (2 ^ d) (h + 1)) nb) {s1 : Exps K BAddr}
    (hdone : Done L (fullTree r h) r items (baddr d h) s1) {x : Vec d} (hx : r.containsHO x) (grav : Bool)
    (ha : L.adm (boxAt r (route r x h)).center x) :
    ∃ v, balancedEval O grav ⟨p, h, bfull r h, specSrc' Source.pos r items h, nb, s1⟩ x = .ok (if grav then v else -v) ∧
      L.nrm (v - L.direct items x) ≤ L.B (r.len / 2 ^ h) * totalStrength items := by
  have hT := balanced_treeOK hr hdh hin hnb
  have hxc : r.contains x := containsHO_contains hx
  have hlen := route_length r x h
  have hv := route_valid r x h
  obtain ⟨v, v1, v2⟩ := evalLeaf_ok L hT hdone hxc (k := h) ((fullTree_mem r h _).mpr ⟨hv, hlen.le⟩)
    (by simp [fullTree, hlen]) grav ha (by rw [fullTree_W hr]; simp)
  refine ⟨v, ?_, v2⟩
  have hh : h < 32 := by nlinarith
  have hroot : ∃ n, (bfull r h).get (rootAddr h) = .ok n ∧ n.box = r := by
    obtain ⟨n, h1, h2, -⟩ := bfull_get_path r (π := []) (h := h) (fun _ h => by simp at h) (by simp)
    refine ⟨n, ?_, h2⟩
    rw [← h1, baddr, gidx, ← glob_root (d := d)]
  obtain ⟨n, n1, n2⟩ := hroot
  have := lookupLeaf_ok (by omega) hr hh hmor hx
  unfold lookupLeaf at this
  unfold balancedEval
  rw [n1, ok_bind, n2]
  rw [baddr_leaf hlen] at v1
  cases h5 : getLeafBoxIndices r h x with
  | error e => rw [h5, err_bind] at this; simp at this
  | ok idx =>
    rw [h5, ok_bind] at this
    rw [ok_bind, this, ok_bind]
    exact v1

theorem balancedEval_error (L : FmmLaws K O p) (hd : 2 ≤ d) (hr : 0 < r.len) (hdh : d * h ≤ 32) (hmor : h < 64 / d)
    (hin : ∀ s ∈ items, r.contains s.pos)
    (hnb : BNbhAfter r h (off (2 ^ d) (h + 1)) nb) {s1 : Exps K BAddr}
    (hdone : Done L (fullTree r h) r items (baddr d h) s1) {x : Vec d} (hx : r.containsHO x) (grav : Bool) {er : Err}
    (O' : Obs K V) (hbad : ∀ e φ, L.isLE e (boxAt r (route r x h)).center φ → O'.le e x = .error er) :
    balancedEval O' grav ⟨p, h, bfull r h, specSrc' Source.pos r items h, nb, s1⟩ x = .error er := by
  have hT := balanced_treeOK hr hdh hin hnb
  have hlen := route_length r x h
  have hv := route_valid r x h
  have v1 := evalLeaf_error L hT hdone ((fullTree_mem r h _).mpr ⟨hv, hlen.le⟩) grav O' hbad
  have hh : h < 32 := by nlinarith
  have hroot : ∃ n, (bfull r h).get (rootAddr h) = .ok n ∧ n.box = r := by
    obtain ⟨n, h1, h2, -⟩ := bfull_get_path r (π := []) (h := h) (fun _ h => by simp at h) (by simp)
    refine ⟨n, ?_, h2⟩
    rw [← h1, baddr, gidx, ← glob_root (d := d)]
  obtain ⟨n, n1, n2⟩ := hroot
  have := lookupLeaf_ok (by omega) hr hh hmor hx
  unfold lookupLeaf at this
  unfold balancedEval
  rw [n1, ok_bind, n2]
  rw [baddr_leaf hlen] at v1
  cases h5 : getLeafBoxIndices r h x with
  | error e => rw [h5, err_bind] at this; simp at this
  | ok idx =>
    rw [h5, ok_bind] at this
    rw [ok_bind, this, ok_bind]
    exact v1

end
end FMM
