import Verif.DumpLemmas
import Verif.PropsLists

/-!
# C56: the files written by `toFile`
-/

namespace FMM
namespace Dump
variable {d : ℕ}

/-- **C56** The line of a leaf determines its number and its sources. -/
theorem C56_line_readable (id id' : ℕ) (l l' : List (Source d)) (h : sourceLine id l = sourceLine id' l') :
    id = id' ∧ l = l' := by
  unfold sourceLine at h
  injection h with h1 h2
  injection h1 with h1
  exact ⟨h1, sourceFields_inj l l' h2⟩

theorem C56_point_line_readable (hd : 0 < d) (id id' : ℕ) (l l' : List (Vec d)) (h : pointLine id l = pointLine id' l') :
    id = id' ∧ l = l' := by
  unfold pointLine at h
  injection h with h1 h2
  injection h1 with h1
  exact ⟨h1, pointFields_inj hd l l' h2⟩

/-- **C56** (adaptive tree) The dump of every adaptive tree succeeds.  With `order` the list of all nodes, each once, level by
level and from left to right (`gidx` is the breadth-first number of a path in the complete tree): line `i` of the geometry,
neighbour, interaction and X files belongs to `order[i]` and carries the number `i`; the data and W files have one line
for every leaf, in the same order and with the same numbers; and the sources on the data lines together are the sources
of the tree. -/
theorem C56_adaptive (r : Box d) (S : List (Source d)) (max : ℕ) (hr : 0 < r.len ∨ S.length ≤ max) (fuel : ℕ)
    (st : BuildState d (Source d)) (h : ℕ) (nb : Nbh) (hb : adaptiveLists fuel Source.pos r S max = .ok (st, h, nb)) :
    ∃ order : List Path, (∀ π, π ∈ order ↔ IsNode st.heap π) ∧
      order.Pairwise (fun a b => gidx (2 ^ d) a < gidx (2 ^ d) b) ∧
      ∃ D fuel0, (∀ fuel ≥ fuel0, toFileAdaptive fuel st.heap nb = .ok D) ∧
        D.geometry = order.zipIdx.map (fun p =>
          [.nat p.2, .flag (leafAt st.heap p.1), .nat p.1.length, .num (boxAt r p.1).len] ++ coords (boxAt r p.1).center) ∧
        D.data = (order.zipIdx.filter fun p => leafAt st.heap p.1).map (fun p => sourceLine p.2 (storedIn st.heap p.1)) ∧
        ((order.filter (leafAt st.heap)).flatMap (storedIn st.heap)).Perm S ∧
        D.near = order.zipIdx.map (fun p =>
          [.nat p.2, .flag (leafAt st.heap p.1), .nat p.1.length, .num (boxAt r p.1).len] ++ coords (boxAt r p.1).center
            ++ (nb.near p.1).flatMap fun ρ => coords (boxAt r ρ).center) ∧
        D.inter = order.zipIdx.map (fun p =>
          [.nat p.2, .flag (leafAt st.heap p.1), .nat p.1.length, .num (boxAt r p.1).len] ++ coords (boxAt r p.1).center
            ++ (nb.inter p.1).flatMap fun ρ => coords (boxAt r ρ).center) ∧
        D.X = order.zipIdx.map (fun p =>
          [.nat p.2, .flag (leafAt st.heap p.1), .nat p.1.length, .num (boxAt r p.1).len] ++ coords (boxAt r p.1).center
            ++ (nb.X p.1).flatMap fun ρ => coords (boxAt r ρ).center) ∧
        D.W = (order.zipIdx.filter fun p => leafAt st.heap p.1).map (fun p =>
          [.nat p.2, .flag (leafAt st.heap p.1), .nat p.1.length, .num (boxAt r p.1).len]
            ++ (nb.W p.1).flatMap fun ρ => coords (boxAt r ρ).center) := by
  obtain ⟨hb', h1, hh, rfl⟩ := lists_result hr hb
  obtain ⟨hp, -, -⟩ := C11_partition fuel st h hb'
  have hV : ∀ π ∈ (fmmTree Source.pos r S max).order (h + 1), (fmmTree Source.pos r S max).Mem π :=
    fun π hπ => ((PTree.mem_order _ _).mp hπ).1
  rw [h1] at hp ⊢
  refine ⟨(fmmTree Source.pos r S max).order (h + 1), ?_,
    PTree.order_gidx (T := fmmTree Source.pos r S max) _, _, _,
    fun fuel hf => toFileAdaptive_ok _ r _ rfl (h + 1) hh _ hV fuel hf, rfl, rfl, ?_, rfl, rfl, rfl, rfl⟩
  · intro π
    rw [PTree.mem_order, isNode_treeHeap]
    exact ⟨And.left, fun hm => ⟨hm, hh π hm⟩⟩
  · refine List.Perm.trans (List.Perm.flatMap_right _ ?_) hp.perm
    rw [List.perm_ext_iff_of_nodup ((PTree.nodup_order _).filter _) hp.nodup]
    intro π
    rw [List.mem_filter, PTree.mem_order, hp.leaf_iff]
    constructor
    · rintro ⟨⟨hm, -⟩, hl⟩
      rw [leafAt_treeHeap _ _ _ hm] at hl
      exact (isLeafOf_treeHeap (it := itemsAt Source.pos r S) π).mpr ⟨hm, hl⟩
    · intro hl
      obtain ⟨hm, hl⟩ := (isLeafOf_treeHeap (it := itemsAt Source.pos r S) π).mp hl
      exact ⟨⟨hm, hh π hm⟩, by rw [leafAt_treeHeap _ _ _ hm]; exact hl⟩

/-- **C56** (point tree) -/
theorem C56_points (r : Box d) (ps : List (Vec d)) (max : ℕ) (fuel : ℕ) (st : BuildState d (Vec d)) (h : ℕ)
    (hb : buildPointTree fuel id r ps max = .ok (st, h)) :
    ∃ order : List Path, (∀ π, π ∈ order ↔ IsNode st.heap π) ∧
      order.Pairwise (fun a b => gidx (2 ^ d) a < gidx (2 ^ d) b) ∧
      ∃ D fuel0, (∀ fuel ≥ fuel0, toFilePoints fuel st.heap = .ok D) ∧
        D.geometry = order.zipIdx.map (fun p =>
          [.nat p.2, .flag (leafAt st.heap p.1), .nat p.1.length, .num (boxAt r p.1).len] ++ coords (boxAt r p.1).center) ∧
        D.data = (order.zipIdx.filter fun p => leafAt st.heap p.1).map (fun p => pointLine p.2 (storedIn st.heap p.1)) ∧
        ((order.filter (leafAt st.heap)).flatMap (storedIn st.heap)).Perm ps := by
  obtain ⟨hp, -, -⟩ := C11_partition_points fuel st h hb
  obtain ⟨hh, e⟩ := buildPointTree_inv hb
  have h1 : st.heap = treeHeap (adaptiveTree id r ps max) r (itemsAt id r ps) := by
    rw [← e]; exact specHeap_final hh
  have hlt : ∀ π, (adaptiveTree id r ps max).Mem π → π.length < h + 1 := fun π hm => Nat.lt_succ_of_le (mem_length_le hh hm)
  rw [h1] at hp ⊢
  refine ⟨(adaptiveTree id r ps max).order (h + 1), ?_,
    PTree.order_gidx (T := adaptiveTree id r ps max) _, _, _,
    fun fuel hf => toFilePoints_ok _ r _ rfl (h + 1) hlt fuel hf, rfl, rfl, ?_⟩
  · intro π
    rw [PTree.mem_order, isNode_treeHeap]
    exact ⟨And.left, fun hm => ⟨hm, hlt π hm⟩⟩
  · refine List.Perm.trans (List.Perm.flatMap_right _ ?_) hp.perm
    rw [List.perm_ext_iff_of_nodup ((PTree.nodup_order _).filter _) hp.nodup]
    intro π
    rw [List.mem_filter, PTree.mem_order, hp.leaf_iff]
    constructor
    · rintro ⟨⟨hm, -⟩, hl⟩
      rw [leafAt_treeHeap _ _ _ hm] at hl
      exact (isLeafOf_treeHeap (it := itemsAt id r ps) π).mpr ⟨hm, hl⟩
    · intro hl
      obtain ⟨hm, hl⟩ := (isLeafOf_treeHeap (it := itemsAt id r ps) π).mp hl
      exact ⟨⟨hm, hlt π hm⟩, by rw [leafAt_treeHeap _ _ _ hm]; exact hl⟩

/-! ## Balanced tree -/

/-- The box of an element of the arrays. -/
noncomputable def boxOf (m : BMem d) (a : BAddr) : Box d := match m.get a with | .ok n => n.box | .error _ => ⟨0, 0⟩

/-- The depth of an element of the arrays. -/
noncomputable def depthOf (m : BMem d) (a : BAddr) : ℕ := match m.get a with | .ok n => n.depth | .error _ => 0

/-- The elements of the two arrays. -/
def addresses (m : BMem d) : List BAddr := (List.range m.nNodes).map .node ++ (List.range m.nLeaves).map .leaf

/-- Contents of the files when the first `k` elements have been visited. -/
noncomputable def balancedFiles (m : BMem d) (src : BSrc (Source d)) (nb : BNbh) (h k : ℕ) : Files where
  n := k
  geometry := (List.range k).map fun i => [.nat i, .nat (depthOf m (glob (2 ^ d) h i)),
    .num (boxOf m (glob (2 ^ d) h i)).len] ++ coords (boxOf m (glob (2 ^ d) h i)).center
  data := (List.range (k - m.nNodes)).map fun i => sourceLine (m.nNodes + i) (src.getD i)
  near := (List.range k).map fun i => [.nat i, .nat (depthOf m (glob (2 ^ d) h i)),
    .num (boxOf m (glob (2 ^ d) h i)).len] ++ coords (boxOf m (glob (2 ^ d) h i)).center
      ++ centerFields (fun b => (boxOf m b).center) (nb.near (glob (2 ^ d) h i))
  inter := (List.range k).map fun i => [.nat i, .nat (depthOf m (glob (2 ^ d) h i)),
    .num (boxOf m (glob (2 ^ d) h i)).len] ++ coords (boxOf m (glob (2 ^ d) h i)).center
      ++ centerFields (fun b => (boxOf m b).center) (nb.inter (glob (2 ^ d) h i))
  W := []
  X := []

theorem addresses_bfull (r : Box d) (h : ℕ) :
    addresses (bfull r h) = (List.range (off (2 ^ d) (h + 1))).map (glob (2 ^ d) h) := by
  have e1 : (bfull r h).nNodes = off (2 ^ d) h := rfl
  have e2 : (bfull r h).nLeaves = (2 ^ d) ^ h := rfl
  unfold addresses
  rw [e1, e2, off_succ, List.range_add, List.map_append, List.map_map]
  congr 1
  · refine List.map_congr_left fun i hi => ?_
    unfold glob; rw [if_pos (List.mem_range.mp hi)]
  · refine List.map_congr_left fun i _ => ?_
    exact (glob_leaf _ _ _).symm

theorem toFileBalanced_ok (r : Box d) (h : ℕ) (hdh : d * h ≤ 32) (S : List (Source d)) (nb : BNbh)
    (hnb : BNbhAfter r h (off (2 ^ d) (h + 1)) nb) (fuel : ℕ) (hf : off (2 ^ d) (h + 1) ≤ fuel) :
    toFileBalanced fuel h (bfull r h) (specSrc' Source.pos r S h) nb
      = .ok (balancedFiles (bfull r h) (specSrc' Source.pos r S h) nb h (off (2 ^ d) (h + 1))) := by
  have hpos : 0 < 2 ^ d := by positivity
  have ho := bfsOrder_glob (2 ^ d) h (h + 1) le_rfl
  obtain ⟨s', _, h2, h3⟩ := traverseBFS_eq (2 ^ d)
    (fun _ a => do let n ← (bfull r h).get a; .ok n.child)
    (visitBalanced (bfull r h) (specSrc' Source.pos r S h) nb) (bkids (2 ^ d) h) (glob (2 ^ d) h 0)
    (fun done s => s = balancedFiles (bfull r h) (specSrc' Source.pos r S h) nb h done.length) (h + 1)
    (bfsLevel_glob_end _ _) (by
      intro d1 a d2 e s hs
      rw [ho] at e
      subst hs
      have hk : d1.length < off (2 ^ d) (h + 1) := by
        have := congrArg List.length e
        simp at this; omega
      have ha : a = glob (2 ^ d) h d1.length := by
        have h1 : (d1 ++ a :: d2)[d1.length]? = some a := by simp
        rw [← e] at h1
        simp [hk] at h1
        exact h1.symm
      generalize hkk : d1.length = k at *
      have hlen : (d1 ++ [a]).length = k + 1 := by simp [hkk]
      rw [hlen]
      subst ha
      have hget := bfull_get r h k hk
      have hv := gpath_valid (2 ^ d) hpos k
      have hl : (gpath (2 ^ d) k).length ≤ h := by
        have := (gpath_length_lt _ hpos k (h + 1)).mpr hk; omega
      have hmem : (fullTree r h).Mem (gpath (2 ^ d) k) := (fullTree_mem r h _).mpr ⟨hv, hl⟩
      obtain ⟨n1, n2⟩ := hnb k hk
      rw [if_pos hk] at n1 n2
      have hcen : ∀ l : List Path, (∀ ν ∈ l, (fullTree r h).Mem ν) → ∀ b ∈ l.map (baddr d h),
          (do let n ← (bfull r h).get b; .ok n.box.center) = (.ok (boxOf (bfull r h) b).center : Outcome (Vec d)) := by
        intro l hl b hb
        obtain ⟨ν, hν, rfl⟩ := List.mem_map.mp hb
        obtain ⟨m1, m2⟩ := (fullTree_mem r h ν).mp (hl ν hν)
        obtain ⟨n, g1, -⟩ := bfull_get_path r m1 m2
        unfold boxOf
        rw [g1, ok_bind]
      have hbox : boxOf (bfull r h) (glob (2 ^ d) h k) = (specB r h (off (2 ^ d) (h + 1)) k).box := by
        unfold boxOf; rw [hget]
      have hdep : depthOf (bfull r h) (glob (2 ^ d) h k) = (specB r h (off (2 ^ d) (h + 1)) k).depth := by
        unfold depthOf; rw [hget]
      have hw1 := writeCenters_ok (fun b => do let n ← (bfull r h).get b; .ok n.box.center)
        (fun b => (boxOf (bfull r h) b).center) (nb.near (glob (2 ^ d) h k)) (by
          rw [n1]; exact hcen _ (PTree.own_Mem hmem))
      have hw2 := writeCenters_ok (fun b => do let n ← (bfull r h).get b; .ok n.box.center)
        (fun b => (boxOf (bfull r h) b).center) (nb.inter (glob (2 ^ d) h k)) (by
          rw [n2]; exact hcen _ (PTree.inter_Mem hmem))
      have hnn : (bfull r h).nNodes = off (2 ^ d) h := rfl
      have hoff := off_succ (2 ^ d) h
      refine ⟨balancedFiles (bfull r h) (specSrc' Source.pos r S h) nb h (k + 1), _, ?_, rfl, ?_,
        pushKids_bst r h (off (2 ^ d) (h + 1)) k ?_ ?_⟩
      · unfold visitBalanced
        rw [hget, ok_bind]
        simp only
        rw [hw1, hw2]
        by_cases hlf : k < off (2 ^ d) h
        · have hch : (specB r h (off (2 ^ d) (h + 1)) k).child 0 = some (glob (2 ^ d) h (2 ^ d * k + 1 + 0)) := by
            simp only [specB]
            rw [if_pos]
            refine ⟨hpos, ?_⟩
            have e1 : off (2 ^ d) (h + 1) = 2 ^ d * off (2 ^ d) h + 1 := rfl
            have : 2 ^ d * (k + 1) ≤ 2 ^ d * off (2 ^ d) h := Nat.mul_le_mul_left _ hlf
            rw [Nat.mul_add] at this
            omega
          rw [hch]
          simp only [ok_bind, balancedFiles, List.range_succ, List.map_append, List.map_cons, List.map_nil, hbox, hdep]
          have z1 : k - (bfull r h).nNodes = 0 := by rw [hnn]; omega
          have z2 : k + 1 - (bfull r h).nNodes = 0 := by rw [hnn]; omega
          rw [z1, z2]
        · have hch : (specB r h (off (2 ^ d) (h + 1)) k).child 0 = none := by
            simp only [specB]
            rw [if_neg]
            rintro ⟨-, hh⟩
            have e1 : off (2 ^ d) (h + 1) = 2 ^ d * off (2 ^ d) h + 1 := rfl
            have : 2 ^ d * off (2 ^ d) h ≤ 2 ^ d * k := Nat.mul_le_mul_left _ (by omega)
            omega
          rw [hch]
          have hgl : glob (2 ^ d) h k = .leaf (k - off (2 ^ d) h) := by unfold glob; rw [if_neg hlf]
          have hll : (gpath (2 ^ d) k).length = h := by
            have := (gpath_length_lt _ hpos k h).not.mpr hlf
            omega
          have hpi : pathIndex d (gpath (2 ^ d) k) = k - off (2 ^ d) h := by
            have := gidx_gpath (2 ^ d) k
            rw [gidx_leaf hll] at this
            omega
          have hsrc := specSrc'_get Source.pos r h hdh S hv hll
          have hsrcD := specSrc'_getD (pos := Source.pos) (r := r) (items := S) hdh hv hll
          rw [hpi] at hsrc hsrcD
          have z2 : k + 1 - (bfull r h).nNodes = (k - (bfull r h).nNodes) + 1 := by rw [hnn]; omega
          have z3 : (bfull r h).nNodes + (k - (bfull r h).nNodes) = k := by rw [hnn]; omega
          simp only [balancedFiles, List.range_succ, List.map_append, List.map_cons, List.map_nil, hbox, hdep, z2, z3]
          rw [hnn, hsrcD]
          simp only [hgl, hsrc, ok_bind, writeSources_eq, sourceLine]
          rfl
      · rw [hget, ok_bind]
      · by_cases hlf : k < off (2 ^ d) h
        · left
          have e1 : off (2 ^ d) (h + 1) = 2 ^ d * off (2 ^ d) h + 1 := rfl
          have : 2 ^ d * (k + 1) ≤ 2 ^ d * off (2 ^ d) h := Nat.mul_le_mul_left _ hlf
          omega
        · right; exact ⟨by omega, le_rfl⟩
      · by_cases hlf : k < off (2 ^ d) h
        · left; exact hlf
        · right; exact ⟨by omega, le_rfl⟩)
    Files.empty (by simp [balancedFiles, Files.empty])
  have hlen : (bfsOrder (bkids (2 ^ d) h) (glob (2 ^ d) h 0) (h + 1)).length = off (2 ^ d) (h + 1) := by
    rw [ho]; simp
  rw [hlen] at h2 h3
  subst h2
  unfold toFileBalanced
  rw [← glob_root (d := d)]
  exact h3 fuel hf

/-- **C56** (balanced tree) The dump of every balanced tree succeeds.  The nodes are numbered as in the arrays `nodes` and
`leaves` one after the other; every node has a line with its number in the geometry, neighbour and interaction files, every
leaf has a line with its number and its sources in the data file, and the sources on these lines together are the sources
of the tree. -/
theorem C56_balanced (hd : 2 ≤ d) (r : Box d) (S : List (Source d)) (h : ℕ) (hr : 0 < r.len ∨ h = 0) (hdh : d * h ≤ 32)
    (hx : h = 0 ∨ ∀ s ∈ S, r.containsHO s.pos) :
    ∃ m src nb, (∃ fuel0, ∀ fuel ≥ fuel0, balancedLists fuel Source.pos r S h = .ok (m, src, nb)) ∧
      ∃ D fuel0, (∀ fuel ≥ fuel0, toFileBalanced fuel h m src nb = .ok D) ∧
        D.geometry = (addresses m).zipIdx.map (fun p =>
          [.nat p.2, .nat (depthOf m p.1), .num (boxOf m p.1).len] ++ coords (boxOf m p.1).center) ∧
        D.data = (List.range m.nLeaves).map (fun k => sourceLine (m.nNodes + k) (src.getD k)) ∧
        ((List.range m.nLeaves).flatMap src.getD).Perm S ∧
        D.near = (addresses m).zipIdx.map (fun p =>
          [.nat p.2, .nat (depthOf m p.1), .num (boxOf m p.1).len] ++ coords (boxOf m p.1).center
            ++ (nb.near p.1).flatMap fun b => coords (boxOf m b).center) ∧
        D.inter = (addresses m).zipIdx.map (fun p =>
          [.nat p.2, .nat (depthOf m p.1), .num (boxOf m p.1).len] ++ coords (boxOf m p.1).center
            ++ (nb.inter p.1).flatMap fun b => coords (boxOf m b).center) := by
  obtain ⟨nb, h1, h2⟩ := balancedLists_ok hd Source.pos hr hdh S hx
  have hz : ∀ f : BAddr × ℕ → Line, (addresses (bfull r h)).zipIdx.map f
      = (List.range (off (2 ^ d) (h + 1))).map fun i => f (glob (2 ^ d) h i, i) := by
    intro f
    rw [addresses_bfull]
    refine List.ext_getElem (by simp) fun i _ _ => ?_
    simp
  refine ⟨bfull r h, specSrc' Source.pos r S h, nb, ⟨_, h2⟩, _, _, toFileBalanced_ok r h hdh S nb h1, ?_, ?_, ?_, ?_, ?_⟩
  · rw [hz]; rfl
  · have : off (2 ^ d) (h + 1) - (bfull r h).nNodes = (bfull r h).nLeaves := by
      show off (2 ^ d) (h + 1) - off (2 ^ d) h = (2 ^ d) ^ h
      rw [off_succ]; omega
    simp only [balancedFiles]
    rw [this]
  · have hp := itemsAt_perm (pos := Source.pos) (r := r) (items := S) (fullTree r h) rfl h
      (fun π hm => ((fullTree_mem r h π).mp hm).2) (leafPaths d h) (nodup_leafPaths h) (mem_leafPaths r h)
    refine List.Perm.trans (List.Perm.of_eq ?_) hp
    unfold leafPaths
    rw [List.flatMap_map]
    refine List.flatMap_congr fun k hk => ?_
    have hk' : k < (2 ^ d) ^ h := List.mem_range.mp hk
    have := specSrc'_getD (pos := Source.pos) (r := r) (items := S) hdh
      (gpath_valid (2 ^ d) (by positivity) _) (gpath_leaf_length (d := d) h k hk')
    rw [pathIndex_gpath h k hk'] at this
    exact this
  · rw [hz]; rfl
  · rw [hz]; rfl

/-- The data file of a balanced tree of height 1 with two sources has four lines, numbered 1 to 4. -/
example : ∃ m src nb D, balancedLists 1000 Source.pos (⟨0, 4⟩ : Box 2) [⟨fun _ => 1, 1⟩, ⟨fun _ => -1, 3⟩] 1
      = .ok (m, src, nb) ∧ toFileBalanced 1000 1 m src nb = .ok D ∧ D.geometry.length = 5 ∧ D.data.length = 4 ∧
      D.data[2]? = some (sourceLine 3 (src.getD 2)) := by
  obtain ⟨nb, h1, h2⟩ := balancedLists_ok (d := 2) (r := ⟨0, 4⟩) (h := 1) le_rfl Source.pos (Or.inl (by norm_num))
    (by norm_num) [⟨fun _ => 1, 1⟩, ⟨fun _ => -1, 3⟩] (Or.inr (by
      intro s hs j
      rw [Box.lower_apply, Box.upper_apply]
      rcases List.mem_cons.mp hs with rfl | hs
      · norm_num
      · rw [List.mem_singleton] at hs; subst hs; norm_num))
  refine ⟨_, _, nb, _, h2 1000 (by norm_num [off]), toFileBalanced_ok _ 1 (by norm_num) _ nb h1 1000 (by norm_num [off]), ?_⟩
  have e1 : off (2 ^ 2) 2 = 5 := by norm_num [off]
  have e2 : (bfull (⟨0, 4⟩ : Box 2) 1).nNodes = 1 := by show off (2 ^ 2) 1 = 1; norm_num [off]
  refine ⟨?_, ?_, ?_⟩
  · simp only [balancedFiles, List.length_map, List.length_range]; exact e1
  · simp only [balancedFiles, List.length_map, List.length_range, e2]
    rw [show off (2 ^ 2) (1 + 1) = 5 from e1]
  · simp only [balancedFiles, e2]
    rw [show off (2 ^ 2) (1 + 1) = 5 from e1]; rfl

/-- The hypotheses of `C56_adaptive` and `C56_points` can be satisfied by a tree that is split. -/
example : ∃ st h nb st' h',
    (∃ fuel, adaptiveLists fuel Source.pos (⟨0, 4⟩ : Box 2) [⟨fun _ => 1, 1⟩, ⟨fun _ => -1, 3⟩] 1 = .ok (st, h, nb)) ∧
    ∃ fuel, buildPointTree fuel id (⟨0, 4⟩ : Box 2) [fun _ => 1, fun _ => -1] 1 = .ok (st', h') := by
  have hne : (fun _ => 1 : Vec 2) ≠ fun _ => -1 := by
    intro h; have := congrFun h 0; norm_num at this
  have hin : ∀ x ∈ [(fun _ => 1 : Vec 2), fun _ => -1], (⟨0, 4⟩ : Box 2).contains x := by
    intro x hx j
    rw [Box.lower_apply, Box.upper_apply]
    rcases List.mem_cons.mp hx with rfl | hx
    · norm_num
    · rw [List.mem_singleton] at hx; subst hx; norm_num
  obtain ⟨st, _, h, _, f0, hf⟩ := C12_terminates Source.pos (⟨0, 4⟩ : Box 2)
    [⟨fun _ => 1, 1⟩, ⟨fun _ => -1, 3⟩] 1 (by norm_num) (by
      intro s hs
      refine hin s.pos ?_
      rcases List.mem_cons.mp hs with rfl | hs
      · simp
      · rw [List.mem_singleton] at hs; subst hs; simp) (by
      intro x
      simp only [List.filter_cons, List.filter_nil]
      by_cases h1 : (fun _ => 1 : Vec 2) = x
      · have h2 : ¬ (fun _ => -1 : Vec 2) = x := fun h => hne (h1.trans h.symm)
        rw [if_pos (decide_eq_true h1), if_neg (by simpa using h2)]; simp
      · rw [if_neg (by simpa using h1)]
        split_ifs <;> simp)
  obtain ⟨_, st', _, h', f1, hf1⟩ := C12_terminates id (⟨0, 4⟩ : Box 2)
    [(fun _ => 1 : Vec 2), fun _ => -1] 1 (by norm_num) hin (by
      intro x
      simp only [List.filter_cons, List.filter_nil, id_eq]
      by_cases h1 : (fun _ => 1 : Vec 2) = x
      · have h2 : ¬ (fun _ => -1 : Vec 2) = x := fun h => hne (h1.trans h.symm)
        rw [if_pos (decide_eq_true h1), if_neg (by simpa using h2)]; simp
      · rw [if_neg (by simpa using h1)]
        split_ifs <;> simp)
  obtain ⟨nb, f2, hn⟩ := C16_adaptive_no_throw (r := ⟨0, 4⟩) (Or.inl (by norm_num)) f0 st h (hf f0 le_rfl).1
  exact ⟨st, h, nb, st', h', ⟨f2, hn f2 le_rfl⟩, f1, (hf1 f1 le_rfl).2⟩

end Dump
end FMM
