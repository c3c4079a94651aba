import Verif.BalancedTree
import Verif.PropsLists

/-!
# C08-C10, C15-C17: the balanced tree
-/

namespace FMM
variable {d : ℕ} {α : Type}

/-! ## Inverse of `bfull_get_path` -/

theorem bfull_get_inv {r : Box d} {h : ℕ} {a : BAddr} {n : BNode d} (hg : (bfull r h).get a = .ok n) :
    ∃ π, ValidPath d π ∧ π.length ≤ h ∧ a = baddr d h π := by
  have hpos : 0 < 2 ^ d := by positivity
  have key : ∀ k < off (2 ^ d) (h + 1), a = glob (2 ^ d) h k →
      ∃ π, ValidPath d π ∧ π.length ≤ h ∧ a = baddr d h π := by
    intro k hk e
    refine ⟨gpath (2 ^ d) k, gpath_valid _ hpos k, ?_, by rw [baddr_gpath, e]⟩
    have := (gpath_length_lt _ hpos k (h + 1)).mpr hk
    omega
  have hs := off_succ (2 ^ d) h
  cases a with
  | node i =>
    by_cases hi : i < off (2 ^ d) h
    · exact key i (by omega) (by unfold glob; rw [if_pos hi])
    · simp only [BMem.get] at hg
      rw [if_neg (show ¬ i < (bfull r h).nNodes from hi)] at hg
      simp at hg
  | leaf i =>
    by_cases hi : i < (2 ^ d) ^ h
    · exact key (off (2 ^ d) h + i) (by omega) (glob_leaf _ _ _).symm
    · simp only [BMem.get] at hg
      rw [if_neg (show ¬ i < (bfull r h).nLeaves from hi)] at hg
      simp at hg

theorem baddr_leaf {h : ℕ} {π : Path} (hl : π.length = h) : baddr d h π = .leaf (pathIndex d π) := by
  unfold baddr; rw [gidx_leaf hl, glob_leaf]

theorem baddr_node {h : ℕ} {π : Path} (hπ : ValidPath d π) (hl : π.length < h) :
    baddr d h π = .node (off (2 ^ d) π.length + pathIndex d π) := by
  unfold baddr glob
  rw [if_pos, gidx_eq]
  rw [← gpath_length_lt _ (by positivity), gpath_gidx _ _ hπ]; exact hl

/-! ## C08 -/

/-- **C08** The arrays of the balanced tree: both are filled completely and never overrun, the nodes of depth `k` occupy
exactly the slice starting at `(c^k-1)/(c-1)`, the pointers between parents and children are consistent, and the `i`-th leaf
is the one whose index tuple has Morton index `i`. -/
theorem C08_arrays (hd : 2 ≤ d) (r : Box d) (h : ℕ) (hh : d * h < 64) :
    ∃ m fuel0, (∀ fuel ≥ fuel0, balancedNodes fuel r h = .ok m) ∧
      m.nLeaves = (2 ^ d) ^ h ∧ (2 ^ d - 1) * m.nNodes + 1 = (2 ^ d) ^ h ∧
      m.nodeOffset = m.nNodes ∧ m.leafOffset = m.nLeaves ∧
      (∀ i < m.nNodes, ∃ n, m.nodes i = some n ∧ n.depth < h ∧
        (n.parent = none ↔ i = 0) ∧
        ∀ j < 2 ^ d, ∃ c cn, n.child j = some c ∧ m.get c = .ok cn ∧ cn.parent = some (.node i) ∧ cn.box = n.box.child j ∧
          cn.depth = n.depth + 1 ∧ ((∃ i', c = .leaf i') ↔ n.depth + 1 = h)) ∧
      (∀ i n k, i < m.nNodes → m.nodes i = some n → (n.depth = k ↔
        ((2 ^ d) ^ k - 1) / (2 ^ d - 1) ≤ i ∧ i < ((2 ^ d) ^ k - 1) / (2 ^ d - 1) + (2 ^ d) ^ k)) ∧
      ∀ i < m.nLeaves, ∃ n, m.leaves i = some n ∧ n.depth = h ∧ (∀ j, n.child j = none) ∧ n.box.len = r.len / 2 ^ h ∧
        ∃ idx : Fin d → ℕ, (∀ j, idx j < 2 ^ h) ∧ (∀ j, n.box.lower j = r.lower j + idx j * (r.len / 2 ^ h)) ∧
          (h < 64 / d → getMortonIndex h idx = .ok i) := by
  have hpos : 0 < 2 ^ d := by positivity
  have hc2 : 2 ≤ 2 ^ d := by
    have : 2 ^ 1 ≤ 2 ^ d := Nat.pow_le_pow_right (by norm_num) (by omega)
    omega
  have hs := off_succ (2 ^ d) h
  have e1 : off (2 ^ d) (h + 1) = 2 ^ d * off (2 ^ d) h + 1 := rfl
  refine ⟨bfull r h, off (2 ^ d) (h + 1), fun fuel hf => balancedNodes_ok hd r h hh fuel hf, rfl,
    off_mul _ hpos h, ?_, ?_, ?_, ?_, ?_⟩
  · show min (off (2 ^ d) (h + 1)) (off (2 ^ d) h) = off (2 ^ d) h
    omega
  · show off (2 ^ d) (h + 1) - off (2 ^ d) h = (2 ^ d) ^ h
    omega
  · intro i hi
    have hi : i < off (2 ^ d) h := hi
    have hdep : (gpath (2 ^ d) i).length < h := (gpath_length_lt _ hpos i h).mpr hi
    refine ⟨specB r h (off (2 ^ d) (h + 1)) i, if_pos ⟨by omega, hi⟩, hdep, ?_, ?_⟩
    · simp only [specB]
      by_cases h0 : i = 0
      · simp [h0]
      · simp [h0]
    · intro j hj
      have hmul : 2 ^ d * (i + 1) ≤ 2 ^ d * off (2 ^ d) h := Nat.mul_le_mul_left _ hi
      have hmul' : 2 ^ d * (i + 1) = 2 ^ d * i + 2 ^ d := by ring
      have hlt : 2 ^ d * i + 1 + j < off (2 ^ d) (h + 1) := by omega
      refine ⟨_, _, if_pos ⟨hj, hlt⟩, bfull_get r h _ hlt, ?_, ?_, ?_, ?_⟩
      · simp only [specB]
        rw [if_neg (by omega), show 2 ^ d * i + 1 + j - 1 = 2 ^ d * i + j by omega, Nat.mul_add_div hpos,
          Nat.div_eq_of_lt hj, add_zero]
        unfold glob; rw [if_pos hi]
      · simp only [specB]; rw [gpath_child _ _ _ hj]; rfl
      · simp only [specB]; rw [gpath_child _ _ _ hj]; rfl
      · have h3 := gpath_length_lt (2 ^ d) hpos (2 ^ d * i + 1 + j) h
        rw [gpath_child _ _ _ hj] at h3
        simp only [List.length_cons] at h3
        show (∃ i', glob (2 ^ d) h (2 ^ d * i + 1 + j) = .leaf i') ↔ (gpath (2 ^ d) i).length + 1 = h
        unfold glob
        split_ifs with hlt2
        · simp; omega
        · simp; omega
  · intro i n k hi hn
    have hi : i < off (2 ^ d) h := hi
    have : n = specB r h (off (2 ^ d) (h + 1)) i := by
      have e : (bfull r h).nodes i = some (specB r h (off (2 ^ d) (h + 1)) i) := if_pos ⟨by omega, hi⟩
      rw [e] at hn; exact (Option.some.inj hn).symm
    subst this
    rw [off_eq_div' _ hc2, ← off_succ]
    show (gpath (2 ^ d) i).length = k ↔ _
    rw [← gpath_length_lt _ hpos i (k + 1)]
    have := gpath_length_lt _ hpos i k
    omega
  · intro i hi
    have hi : i < (2 ^ d) ^ h := hi
    have hl := gpath_leaf_length h i hi
    refine ⟨specB r h (off (2 ^ d) (h + 1)) (off (2 ^ d) h + i), if_pos ⟨by omega, hi⟩, hl, ?_, ?_, ?_⟩
    · intro j
      simp only [specB]
      rw [if_neg]
      rintro ⟨_, hlt⟩
      have hmul : 2 ^ d * off (2 ^ d) h ≤ 2 ^ d * (off (2 ^ d) h + i) := Nat.mul_le_mul_left _ (by omega)
      omega
    · show (boxAt r _).len = _
      rw [boxAt_len, hl]
    · refine ⟨grid d (gpath (2 ^ d) (off (2 ^ d) h + i)), fun j => ?_, fun j => ?_, fun hm => ?_⟩
      · have := grid_lt (gpath (2 ^ d) (off (2 ^ d) h + i)) j
        rwa [hl] at this
      · show (boxAt r _).lower j = _
        rw [boxAt_lower, hl]
      · have hv := gpath_valid (2 ^ d) hpos (off (2 ^ d) h + i)
        have := getMortonIndex_grid (by omega) _ hv (by rw [hl]; exact hm)
        rw [hl] at this
        rw [this]
        have h2 := gidx_gpath (2 ^ d) (off (2 ^ d) h + i)
        rw [gidx_leaf hl] at h2
        congr 1; omega

/-! ## C09 -/

/-- `getMortonIndex(getLeafBoxIndices(x))` (balanced_fmm_tree.hpp:208, 246). -/
noncomputable def lookupLeaf (r : Box d) (h : ℕ) (x : Vec d) : Outcome ℕ := do
  let idx ← getLeafBoxIndices r h x
  getMortonIndex h idx

theorem lookupLeaf_ok (hd : 0 < d) {r : Box d} (hr : 0 < r.len) {h : ℕ} (hh : h < 32) (hm : h < 64 / d) {x : Vec d}
    (hx : r.containsHO x) : lookupLeaf r h x = .ok (pathIndex d (route r x h)) := by
  unfold lookupLeaf
  rw [C05_indices_eq_descent r hr h hh x hx, ok_bind]
  have hl := route_length r x h
  have := getMortonIndex_grid hd (route r x h) (route_valid _ _ _) (by rw [hl]; exact hm)
  rwa [hl] at this

/-- All valid paths of length `h`, in array order. -/
def leafPaths (d h : ℕ) : List Path := (List.range ((2 ^ d) ^ h)).map fun k => gpath (2 ^ d) (off (2 ^ d) h + k)

theorem mem_leafPaths (r : Box d) (h : ℕ) (π : Path) :
    π ∈ leafPaths d h ↔ (fullTree r h).Mem π ∧ (fullTree r h).leaf π = true := by
  have hpos : 0 < 2 ^ d := by positivity
  rw [fullTree_mem]
  simp only [leafPaths, List.mem_map, List.mem_range, fullTree, decide_eq_true_eq]
  constructor
  · rintro ⟨k, hk, rfl⟩
    have := gpath_leaf_length (d := d) h k hk
    exact ⟨⟨gpath_valid _ hpos _, by omega⟩, by omega⟩
  · rintro ⟨⟨h1, h2⟩, h3⟩
    have hl : π.length = h := by omega
    refine ⟨pathIndex d π, by rw [← hl]; exact pathIndex_lt π h1, ?_⟩
    rw [← gidx_leaf hl, gpath_gidx _ _ h1]

theorem nodup_leafPaths (h : ℕ) : (leafPaths d h).Nodup := by
  refine List.nodup_range.map ?_
  intro a b hab
  have := congrArg (gidx (2 ^ d)) hab
  simp only [gidx_gpath] at this
  omega

theorem pathIndex_gpath (h k : ℕ) (hk : k < (2 ^ d) ^ h) : pathIndex d (gpath (2 ^ d) (off (2 ^ d) h + k)) = k := by
  have h2 := gidx_gpath (2 ^ d) (off (2 ^ d) h + k)
  rw [gidx_leaf (gpath_leaf_length h k hk)] at h2
  omega

/-- The content of a leaf; `[]` if it cannot be read. -/
def BSrc.getD (s : BSrc α) (k : ℕ) : List α := match s.get k with | .ok l => l | .error _ => []

section
variable {pos : α → Vec d} {r : Box d} {items : List α} {h : ℕ}

theorem specSrc'_getD (hdh : d * h ≤ 32) {π : Path} (hπ : ValidPath d π) (hl : π.length = h) :
    (specSrc' pos r items h).getD (pathIndex d π) = itemsAt pos r items π := by
  unfold BSrc.getD; rw [specSrc'_get pos r h hdh items hπ hl]

theorem balanced_result (hd : 2 ≤ d) (hr : 0 < r.len ∨ h = 0) (hdh : d * h ≤ 32)
    (hx : h = 0 ∨ ∀ s ∈ items, r.containsHO (pos s)) {fuel : ℕ} {m : BMem d} {src : BSrc α} {nb : BNbh}
    (hf : off (2 ^ d) (h + 1) ≤ fuel)
    (hb : balancedLists fuel pos r items h = .ok (m, src, nb)) :
    m = bfull r h ∧ src = specSrc' pos r items h ∧ BNbhAfter r h (off (2 ^ d) (h + 1)) nb := by
  obtain ⟨nb', h1, h2⟩ := balancedLists_ok hd pos hr hdh items hx
  rw [h2 fuel hf] at hb
  have := Except.ok.inj hb
  simp only [Prod.mk.injEq] at this
  obtain ⟨rfl, rfl, rfl⟩ := this
  exact ⟨rfl, rfl, h1⟩

theorem specSrc'_ptr (k : ℕ) (hk : k < (2 ^ d) ^ h) : (specSrc' pos r items h).ptr k
    = some (flatPath d h (gpath (2 ^ d) (off (2 ^ d) h + k))) := by
  unfold specSrc'
  split_ifs with h0
  · subst h0
    have : k = 0 := by simpa using hk
    subst this
    simp [off, gpath, flatPath, getFlatIndex_eq]
    have := flatSpec_lt 0 (grid d []) (fun j => by simp [grid])
    simp at this
    omega
  · exact if_pos hk

theorem specSrc'_perm (hdh : d * h ≤ 32) :
    ((List.range ((2 ^ d) ^ h)).flatMap (specSrc' pos r items h).getD).Perm items := by
  have hpos : 0 < 2 ^ d := by positivity
  have e : (List.range ((2 ^ d) ^ h)).flatMap (specSrc' pos r items h).getD
      = (leafPaths d h).flatMap (itemsAt pos r items) := by
    unfold leafPaths
    rw [List.flatMap_map]
    refine List.flatMap_congr fun k hk => ?_
    have hk := List.mem_range.mp hk
    have := specSrc'_getD (pos := pos) (r := r) (items := items) hdh (gpath_valid (2 ^ d) hpos (off (2 ^ d) h + k))
      (gpath_leaf_length h k hk)
    rwa [pathIndex_gpath h k hk] at this
  show ((List.range ((2 ^ d) ^ h)).flatMap _).Perm _
  rw [e]
  exact itemsAt_perm (fullTree r h) rfl h (fun π hπ => ((fullTree_mem r h π).mp hπ).2) _ (nodup_leafPaths h)
    (mem_leafPaths r h)

theorem specSrc'_own (hdh : d * h ≤ 32) (f : ℕ) (hf : f < (2 ^ d) ^ h) : ∃ k, k < (2 ^ d) ^ h ∧
    (specSrc' pos r items h).ptr k = some f ∧
    ∀ k' < (2 ^ d) ^ h, (specSrc' pos r items h).ptr k' = some f → k' = k := by
  have hpos : 0 < 2 ^ d := by positivity
  have hf : f < 2 ^ (d * h) := by rw [pow_mul]; exact hf
  obtain ⟨idx, i1, i2⟩ := (C06_flat_bijective h hdh).2.2 f hf
  have hv := pathOfGrid_valid h idx
  have hl := pathOfGrid_length h idx
  have hk : pathIndex d (pathOfGrid h idx) < (2 ^ d) ^ h := by
    have := pathIndex_lt _ hv; rwa [hl] at this
  have e2 : gpath (2 ^ d) (off (2 ^ d) h + pathIndex d (pathOfGrid h idx)) = pathOfGrid h idx := by
    rw [← gidx_leaf hl, gpath_gidx _ _ hv]
  have e3 : flatPath d h (pathOfGrid h idx) = f := by unfold flatPath; rw [grid_pathOfGrid h idx i1, i2]
  refine ⟨pathIndex d (pathOfGrid h idx), hk, ?_, ?_⟩
  · rw [specSrc'_ptr _ hk, e2, e3]
  · intro k' hk' hk2
    rw [specSrc'_ptr _ hk', ← e3] at hk2
    have := flatPath_inj hdh (gpath_valid (2 ^ d) hpos _) hv (gpath_leaf_length h k' hk') hl (Option.some.inj hk2)
    rw [← this, pathIndex_gpath h k' hk']

/-- **C09** Construction succeeds for every source list in the half-open root box; the sources stored in a leaf are exactly
those in its half-open cell (in input order, with multiplicity); together the leaves hold every source exactly once; every
bucket allocated by `distributePointSources` is owned by exactly one leaf (so it is neither leaked nor deleted twice). -/
theorem C09_distribution (hd : 2 ≤ d) (hr : 0 < r.len) (hdh : d * h ≤ 32) (hx : ∀ s ∈ items, r.containsHO (pos s)) :
    ∃ m src nb fuel0, (∀ fuel ≥ fuel0, balancedLists fuel pos r items h = .ok (m, src, nb)) ∧
      (∀ k < m.nLeaves, ∃ n, m.leaves k = some n ∧
        ∃ l, src.get k = .ok l ∧ l.Sublist items ∧ ∀ s ∈ items, (s ∈ l ↔ n.box.containsHO (pos s))) ∧
      ((List.range m.nLeaves).flatMap src.getD).Perm items ∧
      (∀ k < m.nLeaves, ∃ f < m.nLeaves, src.ptr k = some f) ∧
      (∀ f < m.nLeaves, ∃ k, k < m.nLeaves ∧ src.ptr k = some f ∧ ∀ k' < m.nLeaves, src.ptr k' = some f → k' = k) := by
  have hpos : 0 < 2 ^ d := by positivity
  obtain ⟨nb, h1, h2⟩ := balancedLists_ok hd pos (Or.inl hr) hdh items (Or.inr hx)
  have hs := off_succ (2 ^ d) h
  refine ⟨_, _, nb, _, h2, ?_, specSrc'_perm hdh, ?_, specSrc'_own hdh⟩
  · intro k hk
    have hk : k < (2 ^ d) ^ h := hk
    have hv := gpath_valid (2 ^ d) hpos (off (2 ^ d) h + k)
    have hl := gpath_leaf_length h k hk
    have hg := specSrc'_get pos r h hdh items hv hl
    rw [pathIndex_gpath h k hk] at hg
    refine ⟨_, if_pos ⟨by omega, hk⟩, _, hg, List.filter_sublist, fun s hsm => ?_⟩
    simp only [itemsAt, List.mem_filter, hsm, true_and, decide_eq_true_eq, hl]
    show _ ↔ (boxAt r _).containsHO _
    constructor
    · intro e; rw [← e]; exact route_containsHO r _ (hx s hsm) h
    · intro hc
      have hrl := route_length r (pos s) h
      refine grid_injective (route_valid _ _ _) hv (by rw [hrl, hl]) ?_
      exact cell_unique r hr _ _ (by rw [hrl, hl]) (pos s) (route_containsHO r _ (hx s hsm) h) hc
  · intro k hk
    exact ⟨_, flatPath_lt (gpath_leaf_length h k hk), specSrc'_ptr k hk⟩

/-- **C09** The leaf looked up by an evaluation at a point of the half-open root box is the one whose half-open cell
contains the point; at a source position it is the leaf that stores the source. -/
theorem C09_lookup (hd : 2 ≤ d) (hr : 0 < r.len) (hdh : d * h ≤ 32) (hm : h < 64 / d) (hx : ∀ s ∈ items, r.containsHO (pos s))
    (fuel : ℕ) (m : BMem d) (src : BSrc α) (nb : BNbh) (hf : off (2 ^ d) (h + 1) ≤ fuel)
    (hb : balancedLists fuel pos r items h = .ok (m, src, nb)) (x : Vec d) (hxr : r.containsHO x) :
    ∃ k n, lookupLeaf r h x = .ok k ∧ k < m.nLeaves ∧ m.leaves k = some n ∧ n.box.containsHO x ∧
      ∀ s ∈ items, pos s = x → s ∈ src.getD k := by
  have hpos : 0 < 2 ^ d := by positivity
  obtain ⟨rfl, rfl, -⟩ := balanced_result hd (Or.inl hr) hdh (Or.inr hx) hf hb
  have hh : h < 32 := by nlinarith
  have hl := route_length r x h
  have hv := route_valid r x h
  have hs := off_succ (2 ^ d) h
  have hk : pathIndex d (route r x h) < (2 ^ d) ^ h := by have := pathIndex_lt _ hv; rwa [hl] at this
  refine ⟨_, _, lookupLeaf_ok (by omega) hr hh hm hxr, hk, if_pos ⟨by omega, hk⟩, ?_, ?_⟩
  · show (boxAt r _).containsHO _
    rw [← gidx_leaf hl, gpath_gidx _ _ hv]
    exact route_containsHO r x hxr h
  · intro s hs' e
    rw [specSrc'_getD hdh hv hl]
    simp [itemsAt, hs', hl, e]

/-! ## C15, C16 -/

/-- **C16** (balanced tree) The neighbourhood pass never throws. -/
theorem C16_balanced_no_throw (hd : 2 ≤ d) (hr : 0 < r.len) (hh : d * h < 64) :
    ∃ m nb fuel0, ∀ fuel ≥ fuel0, balancedNodes fuel r h = .ok m ∧ bNeighbourhoods fuel m h = .ok nb := by
  obtain ⟨nb, -, -, h3⟩ := bNeighbourhoods_ok (d := d) (r := r) (h := h) (Or.inl hr) (off (2 ^ d) (h + 1)) le_rfl
  exact ⟨bfull r h, nb, off (2 ^ d) (h + 1), fun fuel hf => ⟨balancedNodes_ok hd r h hh fuel hf, h3 fuel hf⟩⟩

theorem nbh_result (hd : 2 ≤ d) (hr : 0 < r.len) (hh : d * h < 64) {fuel : ℕ} {m : BMem d} {nb : BNbh}
    (hf : off (2 ^ d) (h + 1) ≤ fuel) (hb : balancedNodes fuel r h = .ok m) (hn : bNeighbourhoods fuel m h = .ok nb) :
    m = bfull r h ∧ BNbhAfter r h (off (2 ^ d) (h + 1)) nb := by
  rw [balancedNodes_ok hd r h hh fuel hf] at hb
  have := Except.ok.inj hb
  subst this
  obtain ⟨nb', h1, h2, -⟩ := bNeighbourhoods_ok (d := d) (r := r) (h := h) (Or.inl hr) fuel hf
  rw [h1] at hn
  have := Except.ok.inj hn
  subst this
  exact ⟨rfl, h2⟩

theorem mem_map_baddr {l : List Path} {b : BAddr} : b ∈ l.map (baddr d h) ↔ ∃ ρ ∈ l, b = baddr d h ρ := by
  rw [List.mem_map]
  exact ⟨fun ⟨ρ, a, b⟩ => ⟨ρ, a, b.symm⟩, fun ⟨ρ, a, b⟩ => ⟨ρ, a, b.symm⟩⟩

theorem near_core (hr : 0 < r.len) {nb : BNbh} (hnb : BNbhAfter r h (off (2 ^ d) (h + 1)) nb) (a : BAddr) (n : BNode d)
    (ha : (bfull r h).get a = .ok n) :
    (nb.near a).Nodup ∧ ∀ b, b ∈ nb.near a ↔ ∃ n', (bfull r h).get b = .ok n' ∧ n'.depth = n.depth ∧ touch n.box n'.box := by
  have hA := fullTree_adjOf r h
  have hT := hA.laws hr
  obtain ⟨π, hv, hl, rfl⟩ := bfull_get_inv ha
  obtain ⟨n', g1, g2, g3, -⟩ := bfull_get_path r hv hl
  rw [ha] at g1
  have := Except.ok.inj g1
  subst this
  have hm : (fullTree r h).Mem π := (fullTree_mem r h π).mpr ⟨hv, hl⟩
  rw [(hnb.at hv hl).1]
  constructor
  · refine (PTree.nodup_own hT hm).map_on ?_
    intro x hx y hy e
    exact baddr_inj (fullTree_own_mem hr hm hx).1 (fullTree_own_mem hr hm hy).1 e
  · intro b
    rw [mem_map_baddr]
    constructor
    · rintro ⟨ρ, hρ, rfl⟩
      obtain ⟨m1, m2, m3⟩ := fullTree_own_mem hr hm hρ
      obtain ⟨n2, k1, k2, k3, -⟩ := bfull_get_path r m1 m3
      refine ⟨n2, k1, by rw [k3, g3, m2], ?_⟩
      rw [g2, k2]
      exact (adj_iff_touch hr hA _ _).mp ((PTree.mem_own hT hm ρ).mp hρ).2.1
    · rintro ⟨n2, k1, k2, k3⟩
      obtain ⟨ρ, m1, m2, rfl⟩ := bfull_get_inv k1
      obtain ⟨n3, q1, q2, q3, -⟩ := bfull_get_path r m1 m2
      rw [k1] at q1
      have := Except.ok.inj q1
      subst this
      refine ⟨ρ, (PTree.mem_own hT hm ρ).mpr ⟨(fullTree_mem r h ρ).mpr ⟨m1, m2⟩, ?_, Or.inl ⟨by omega, ?_⟩⟩, rfl⟩
      · rw [adj_iff_touch hr hA, ← g2, ← q2]; exact k3
      · intro hle
        simp only [fullTree, decide_eq_true_eq] at hle ⊢
        omega

/-- **C15** The near neighbours of a node are exactly the nodes of the same depth whose boxes touch it, each once. -/
theorem C15_near (hd : 2 ≤ d) (hr : 0 < r.len) (hh : d * h < 64) (fuel : ℕ) (hf : off (2 ^ d) (h + 1) ≤ fuel) (m : BMem d)
    (nb : BNbh) (hb : balancedNodes fuel r h = .ok m) (hn : bNeighbourhoods fuel m h = .ok nb) (a : BAddr) (n : BNode d)
    (ha : m.get a = .ok n) :
    (nb.near a).Nodup ∧ ∀ b, b ∈ nb.near a ↔ ∃ n', m.get b = .ok n' ∧ n'.depth = n.depth ∧ touch n.box n'.box := by
  obtain ⟨rfl, hnb⟩ := nbh_result hd hr hh hf hb hn
  exact near_core hr hnb a n ha

theorem inter_core (hr : 0 < r.len) {nb : BNbh} (hnb : BNbhAfter r h (off (2 ^ d) (h + 1)) nb) (a : BAddr) (n : BNode d)
    (ha : (bfull r h).get a = .ok n) :
    (∀ b, b ∈ nb.inter a ↔ ∃ n' p p' np np', (bfull r h).get b = .ok n' ∧ n'.depth = n.depth ∧ ¬ touch n.box n'.box ∧
      n.parent = some p ∧ n'.parent = some p' ∧ (bfull r h).get p = .ok np ∧ (bfull r h).get p' = .ok np' ∧ touch np.box np'.box) ∧
    (∀ b ∈ nb.inter a, ∀ n', (bfull r h).get b = .ok n' → 2 * n.box.len ≤ Vec.norm (n.box.center - n'.box.center)) ∧
    (nb.inter a).Nodup ∧ (nb.inter a).length ≤ 6 ^ d - 3 ^ d := by
  have hA := fullTree_adjOf r h
  have hT := hA.laws hr
  obtain ⟨π, hv, hl, rfl⟩ := bfull_get_inv ha
  obtain ⟨n', g1, g2, g3, g4, -⟩ := bfull_get_path r hv hl
  rw [ha] at g1
  have := Except.ok.inj g1
  subst this
  have hm : (fullTree r h).Mem π := (fullTree_mem r h π).mpr ⟨hv, hl⟩
  rw [(hnb.at hv hl).2]
  have hinter : ∀ ρ ∈ (fullTree r h).inter π, ValidPath d ρ ∧ ρ.length ≤ h := by
    intro ρ hρ
    cases π with
    | nil => simp [PTree.inter] at hρ
    | cons i τ => exact (fullTree_mem r h ρ).mp ((PTree.mem_inter hT hm ρ).mp hρ).1
  refine ⟨fun b => ?_, ?_, ?_, ?_⟩
  · rw [mem_map_baddr]
    constructor
    · rintro ⟨ρ, hρ, rfl⟩
      cases π with
      | nil => simp [PTree.inter] at hρ
      | cons i τ =>
        obtain ⟨m1, m2, j, σ, rfl, m3, m4⟩ := (PTree.mem_inter hT hm ρ).mp hρ
        have hv' := (fullTree_mem r h _).mp m1
        obtain ⟨n2, k1, k2, k3, k4, -⟩ := bfull_get_path r hv'.1 hv'.2
        obtain ⟨np, p1, p2, -⟩ := bfull_get_path r (h := h) (π := τ) (fun x hx => hv x (by simp [hx])) (by simp at hl; omega)
        obtain ⟨np', p1', p2', -⟩ := bfull_get_path r (h := h) (π := σ) (fun x hx => hv'.1 x (by simp [hx]))
          (by have := hv'.2; simp at this; omega)
        refine ⟨n2, _, _, np, np', k1, by rw [k3, g3]; simp [m3], ?_, g4, k4, p1, p1', ?_⟩
        · rw [g2, k2]; exact (adj_false_iff hr hA _ _).mp m2
        · rw [p2, p2']; exact (adj_iff_touch hr hA _ _).mp m4
    · rintro ⟨n2, p, p', np, np', k1, k2, k3, k4, k5, k6, k7, k8⟩
      obtain ⟨ρ, m1, m2, rfl⟩ := bfull_get_inv k1
      obtain ⟨n3, q1, q2, q3, q4, -⟩ := bfull_get_path r m1 m2
      rw [k1] at q1
      have := Except.ok.inj q1
      subst this
      cases π with
      | nil => rw [g4] at k4; simp at k4
      | cons i τ =>
        cases ρ with
        | nil => rw [q4] at k5; simp at k5
        | cons j σ =>
          rw [g4] at k4
          rw [q4] at k5
          simp only [List.tail?, Option.map_some, Option.some.injEq] at k4 k5
          subst k4 k5
          obtain ⟨np2, p1, p2, -⟩ := bfull_get_path r (h := h) (π := τ) (fun x hx => hv x (by simp [hx])) (by simp at hl; omega)
          obtain ⟨np2', p1', p2', -⟩ := bfull_get_path r (h := h) (π := σ) (fun x hx => m1 x (by simp [hx]))
            (by simp at m2; omega)
          rw [k6] at p1
          rw [k7] at p1'
          have := Except.ok.inj p1
          subst this
          have := Except.ok.inj p1'
          subst this
          refine ⟨j :: σ, (PTree.mem_inter hT hm _).mpr ⟨(fullTree_mem r h _).mpr ⟨m1, m2⟩, ?_, j, σ, rfl, ?_, ?_⟩, rfl⟩
          · rw [adj_false_iff hr hA, ← g2, ← q2]; exact k3
          · rw [q3, g3] at k2; simpa using k2
          · rw [adj_iff_touch hr hA, ← p2, ← p2']; exact k8
  · intro b hb' n2 k1
    obtain ⟨ρ, hρ, rfl⟩ := mem_map_baddr.mp hb'
    obtain ⟨m1, m2⟩ := hinter ρ hρ
    obtain ⟨n3, q1, q2, -⟩ := bfull_get_path r m1 m2
    rw [k1] at q1
    have := Except.ok.inj q1
    subst this
    have hlen := PTree.inter_length hT hm hρ
    cases π with
    | nil => simp [PTree.inter] at hρ
    | cons i τ =>
      have m2 := ((PTree.mem_inter hT hm ρ).mp hρ).2.1
      obtain ⟨k, hk⟩ := center_dist_of_not_adjacent r hr (i :: τ) ρ hlen.symm (by
        have := hA (i :: τ) ρ; rw [m2] at this; simpa using this)
      rw [g2, q2]
      exact hk.trans (Vec.abs_le_norm ((boxAt r (i :: τ)).center - (boxAt r ρ).center) k)
  · refine (PTree.nodup_inter hT hm).map_on ?_
    intro x hx y hy e
    exact baddr_inj (hinter x hx).1 (hinter y hy).1 e
  · rw [List.length_map]; exact inter_card hr hA rfl hm

/-- **C16** (balanced tree) Members of an interaction list: same depth, parents touch, boxes do not touch, centres at least
two box lengths apart; no duplicates and at most `6^d - 3^d` members. -/
theorem C16_balanced_separated (hd : 2 ≤ d) (hr : 0 < r.len) (hh : d * h < 64) (fuel : ℕ) (hf : off (2 ^ d) (h + 1) ≤ fuel)
    (m : BMem d) (nb : BNbh) (hb : balancedNodes fuel r h = .ok m) (hn : bNeighbourhoods fuel m h = .ok nb) (a : BAddr)
    (n : BNode d) (ha : m.get a = .ok n) :
    (∀ b, b ∈ nb.inter a ↔ ∃ n' p p' np np', m.get b = .ok n' ∧ n'.depth = n.depth ∧ ¬ touch n.box n'.box ∧
      n.parent = some p ∧ n'.parent = some p' ∧ m.get p = .ok np ∧ m.get p' = .ok np' ∧ touch np.box np'.box) ∧
    (∀ b ∈ nb.inter a, ∀ n', m.get b = .ok n' → 2 * n.box.len ≤ Vec.norm (n.box.center - n'.box.center)) ∧
    (nb.inter a).Nodup ∧ (nb.inter a).length ≤ 6 ^ d - 3 ^ d := by
  obtain ⟨rfl, hnb⟩ := nbh_result hd hr hh hf hb hn
  exact inter_core hr hnb a n ha

/-! ## C17 -/

/-- A node and its ancestors, following at most `k` parent pointers. -/
def bchain (m : BMem d) : ℕ → BAddr → List BAddr
  | 0, a => [a]
  | k + 1, a => a :: match m.get a with
    | .ok n => (match n.parent with | some p => bchain m k p | none => [])
    | .error _ => []

theorem bchain_path {π : Path} (hv : ValidPath d π) (hl : π.length ≤ h) (k : ℕ) (hk : π.length ≤ k) :
    bchain (bfull r h) k (baddr d h π) = π.tails.map (baddr d h) := by
  induction π generalizing k with
  | nil =>
    cases k with
    | zero => simp [bchain]
    | succ k =>
      obtain ⟨n, g1, -, -, g4, -⟩ := bfull_get_path r hv hl
      simp [bchain, g1, g4]
  | cons i τ ih =>
    cases k with
    | zero => simp at hk
    | succ k =>
      obtain ⟨n, g1, -, -, g4, -⟩ := bfull_get_path r hv hl
      simp only [bchain, g1, g4, List.tail?, Option.map_some, List.tails, List.map_cons, List.cons.injEq, true_and]
      simp only [List.length_cons] at hl hk
      exact ih (fun x hx => hv x (by simp [hx])) (by omega) k (by omega)

/-- The sources stored in the leaves of which `b` is an ancestor (or which are `b`). -/
def bstoredBelow (m : BMem d) (src : BSrc α) (h : ℕ) (b : BAddr) : List α :=
  ((List.range m.nLeaves).filter fun k => decide (b ∈ bchain m h (.leaf k))).flatMap src.getD

theorem fullTree_xl {π : Path} (hr : 0 < r.len) (hπ : (fullTree r h).Mem π) : (fullTree r h).xl π = [] := by
  cases π with
  | nil => rfl
  | cons i τ =>
    rw [List.eq_nil_iff_forall_not_mem]
    intro ρ hρ
    have := (PTree.mem_xl ((fullTree_adjOf r h).laws hr) hπ ρ).mp hρ
    have h1 := ((fullTree_mem r h _).mp hπ).2
    have h2 := this.2.1
    simp only [fullTree, decide_eq_true_eq] at h2
    omega

theorem fullTree_near {L : Path} (hr : 0 < r.len) (hL : (fullTree r h).Mem L) :
    ((fullTree r h).nbhAfter ((fullTree r h).order (h + 1))).near L = (fullTree r h).own L := by
  have hT := (fullTree_adjOf r h).laws hr
  simp only [PTree.nbhAfter]
  rw [if_pos ((PTree.mem_order _ _).mpr ⟨hL, Nat.lt_succ_of_le ((fullTree_mem r h _).mp hL).2⟩)]
  have : (((fullTree r h).order (h + 1)).filter fun π => decide (L ∈ (fullTree r h).back π)) = [] := by
    rw [List.filter_eq_nil_iff]
    intro π hπ
    have hπ := ((PTree.mem_order _ _).mp hπ).1
    simp only [decide_eq_true_eq]
    intro hin
    cases π with
    | nil => simp [PTree.back] at hin
    | cons i τ =>
      obtain ⟨-, h2, -, h3, -⟩ := (PTree.mem_back hT hπ L).mp hin
      have h1 := ((fullTree_mem r h _).mp hπ).2
      simp only [fullTree, decide_eq_true_eq] at h2
      omega
  rw [this, List.append_nil]

theorem fullTree_W {L : Path} (hr : 0 < r.len) :
    ((fullTree r h).nbhAfter ((fullTree r h).order (h + 1))).W L = [] := by
  simp only [PTree.nbhAfter]
  rw [List.filter_eq_nil_iff]
  intro π hπ
  rw [fullTree_xl hr ((PTree.mem_order _ _).mp hπ).1]
  simp

theorem fullTree_slots {L : Path} (hr : 0 < r.len) (hL : (fullTree r h).Mem L) :
    (fullTree r h).slots (h + 1) L = (fullTree r h).own L ++ L.tails.flatMap (fullTree r h).inter := by
  have hh : ∀ π, (fullTree r h).Mem π → π.length < h + 1 := fun π hπ => Nat.lt_succ_of_le ((fullTree_mem r h _).mp hπ).2
  unfold PTree.slots
  rw [fullTree_near hr hL, fullTree_W hr, List.nil_append]
  congr 1
  refine List.flatMap_congr fun A hA => ?_
  have hm : (fullTree r h).Mem A := hL.suffix ((List.mem_tails ..).mp hA)
  rw [PTree.nbh_inter hh hm, PTree.nbh_X hh hm, fullTree_xl hr hm, List.append_nil]

/-- Content of the leaf behind a pointer. -/
def bstored (src : BSrc α) : BAddr → List α
  | .leaf k => src.getD k
  | .node _ => []

theorem once_core (hr : 0 < r.len) (hdh : d * h ≤ 32) {nb : BNbh} (hnb : BNbhAfter r h (off (2 ^ d) (h + 1)) nb)
    (k : ℕ) (hk : k < (2 ^ d) ^ h) :
    ((nb.near (.leaf k)).flatMap (bstored (specSrc' pos r items h)) ++
      (bchain (bfull r h) h (.leaf k)).flatMap fun a => (nb.inter a).flatMap (bstoredBelow (bfull r h) (specSrc' pos r items h) h)).Perm items := by
  have hpos : 0 < 2 ^ d := by positivity
  have hA := fullTree_adjOf r h
  have hT := hA.laws hr
  have hh : ∀ π, (fullTree r h).Mem π → π.length < h + 1 := fun π hπ => Nat.lt_succ_of_le ((fullTree_mem r h _).mp hπ).2
  obtain ⟨L, hL⟩ : ∃ L, L = gpath (2 ^ d) (off (2 ^ d) h + k) := ⟨_, rfl⟩
  have hv : ValidPath d L := by rw [hL]; exact gpath_valid _ hpos _
  have hl : L.length = h := by rw [hL]; exact gpath_leaf_length h k hk
  have hmem : (fullTree r h).Mem L := (fullTree_mem r h L).mpr ⟨hv, hl.le⟩
  have hleaf : (fullTree r h).leaf L = true := by simp [fullTree, hl]
  have haddr : BAddr.leaf k = baddr d h L := by rw [baddr_leaf hl, hL, pathIndex_gpath h k hk]
  have hstored : ∀ ρ, ValidPath d ρ → ρ.length = h → bstored (specSrc' pos r items h) (baddr d h ρ) = itemsAt pos r items ρ := by
    intro ρ h1 h2
    rw [baddr_leaf h2]
    exact specSrc'_getD hdh h1 h2
  -- sources below a node
  have hbelow : ∀ ρ, (fullTree r h).Mem ρ →
      (bstoredBelow (bfull r h) (specSrc' pos r items h) h (baddr d h ρ)).Perm (itemsAt pos r items ρ) := by
    intro ρ hρ
    have hρv := ((fullTree_mem r h ρ).mp hρ).1
    refine List.Perm.trans (List.Perm.of_eq ?_)
      (PTree.below_perm hh rfl pos r items (leafPaths d h) (nodup_leafPaths h) (mem_leafPaths r h) hρ)
    unfold bstoredBelow leafPaths
    rw [List.filter_map, List.flatMap_map]
    show ((List.range ((2 ^ d) ^ h)).filter _).flatMap _ = _
    have e : (List.range ((2 ^ d) ^ h)).filter (fun k => decide (baddr d h ρ ∈ bchain (bfull r h) h (.leaf k)))
        = (List.range ((2 ^ d) ^ h)).filter ((fun π => decide (ρ <:+ π)) ∘ fun k => gpath (2 ^ d) (off (2 ^ d) h + k)) := by
      refine List.filter_congr fun k' hk' => ?_
      have hk' := List.mem_range.mp hk'
      have hv' := gpath_valid (2 ^ d) hpos (off (2 ^ d) h + k')
      have hl' := gpath_leaf_length (d := d) h k' hk'
      have ha' : BAddr.leaf k' = baddr d h (gpath (2 ^ d) (off (2 ^ d) h + k')) := by
        rw [baddr_leaf hl', pathIndex_gpath h k' hk']
      rw [ha', bchain_path hv' hl'.le h hl'.le]
      refine decide_eq_decide.mpr ?_
      rw [mem_map_baddr]
      constructor
      · rintro ⟨σ, hσ, e⟩
        have hσ := (List.mem_tails ..).mp hσ
        have : ValidPath d σ := fun x hx => hv' x (hσ.subset hx)
        rw [baddr_inj hρv this e]; exact hσ
      · intro hσ; exact ⟨ρ, (List.mem_tails ..).mpr hσ, rfl⟩
    rw [e]
    refine List.flatMap_congr fun k' hk' => ?_
    have hk' := List.mem_range.mp (List.mem_filter.mp hk').1
    have := specSrc'_getD (pos := pos) (r := r) (items := items) hdh (gpath_valid (2 ^ d) hpos (off (2 ^ d) h + k'))
      (gpath_leaf_length h k' hk')
    rwa [pathIndex_gpath h k' hk'] at this
  refine List.Perm.trans ?_ (PTree.slots_perm (r := r) (pos := pos) (items := items) hT hh rfl hmem hleaf)
  rw [fullTree_slots hr hmem, List.flatMap_append, haddr, (hnb.at hv hl.le).1, bchain_path hv hl.le h hl.le]
  refine List.Perm.append (List.Perm.of_eq ?_) ?_
  · rw [List.flatMap_map]
    refine List.flatMap_congr fun ρ hρ => ?_
    obtain ⟨m1, m2, -⟩ := fullTree_own_mem hr hmem hρ
    exact hstored ρ m1 (by rw [m2, hl])
  · rw [List.flatMap_map, List.flatMap_assoc]
    refine List.Perm.flatMap_left _ fun A hAm => ?_
    have hAs := (List.mem_tails ..).mp hAm
    have hAm : (fullTree r h).Mem A := hmem.suffix hAs
    obtain ⟨a1, a2⟩ := (fullTree_mem r h A).mp hAm
    rw [(hnb.at a1 a2).2, List.flatMap_map]
    refine List.Perm.flatMap_left _ fun ρ hρ => hbelow ρ ?_
    cases A with
    | nil => simp [PTree.inter] at hρ
    | cons i τ => exact ((PTree.mem_inter hT hAm ρ).mp hρ).1

/-- **C17** For every leaf: the sources in its near neighbours and the sources below the members of the interaction lists of
the leaf and all its ancestors are together exactly all sources, each as often as in the input. -/
theorem C17_exactly_once (hd : 2 ≤ d) (hr : 0 < r.len) (hdh : d * h ≤ 32) (hx : ∀ s ∈ items, r.containsHO (pos s))
    (fuel : ℕ) (m : BMem d) (src : BSrc α) (nb : BNbh) (hf : off (2 ^ d) (h + 1) ≤ fuel)
    (hb : balancedLists fuel pos r items h = .ok (m, src, nb)) (k : ℕ) (hk : k < m.nLeaves) :
    ((nb.near (.leaf k)).flatMap (bstored src) ++
      (bchain m h (.leaf k)).flatMap fun a => (nb.inter a).flatMap (bstoredBelow m src h)).Perm items := by
  obtain ⟨rfl, rfl, hnb⟩ := balanced_result hd (Or.inl hr) hdh (Or.inr hx) hf hb
  exact once_core hr hdh hnb k hk

end

/-! ## C10 -/

/-- **C10** The height is the least `h` with `N <= sources_per_cell * (2^d)^h`, unless `N <= sources_per_cell / 2^d`, where
the conversion of a negative value to `size_t` is undefined. -/
theorem C10_height (hd : 1 ≤ d) (N s : ℕ) (hN : 1 ≤ N) (hs : 1 ≤ s) :
    (s < N * 2 ^ d → ∃ h, balancedHeight d N s = .ok h ∧ N ≤ s * (2 ^ d) ^ h ∧ ∀ k < h, s * (2 ^ d) ^ k < N) ∧
    (N * 2 ^ d ≤ s → balancedHeight d N s = .error .ub) := by
  have hc : (1 : ℝ) < ((2 ^ d : ℕ) : ℝ) := by
    have : 1 < 2 ^ d := Nat.one_lt_two_pow (by omega)
    exact_mod_cast this
  have hcp : (0 : ℝ) < ((2 ^ d : ℕ) : ℝ) := by linarith
  have hlog : 0 < Real.log ((2 ^ d : ℕ) : ℝ) := Real.log_pos hc
  have hN' : (0 : ℝ) < N := by exact_mod_cast hN
  have hs' : (0 : ℝ) < s := by exact_mod_cast hs
  have hq : (0 : ℝ) < (N : ℝ) / s := by positivity
  -- comparison with an integer
  have key : ∀ k : ℕ, Real.log ((N : ℝ) / s) / Real.log ((2 ^ d : ℕ) : ℝ) ≤ k ↔ N ≤ s * (2 ^ d) ^ k := by
    intro k
    rw [div_le_iff₀ hlog, ← Real.log_pow, Real.log_le_log_iff hq (by positivity), div_le_iff₀ hs']
    constructor
    · intro h; have : ((N : ℕ) : ℝ) ≤ ((s * (2 ^ d) ^ k : ℕ) : ℝ) := by push_cast; push_cast at h; linarith
      exact_mod_cast this
    · intro h
      have : ((N : ℕ) : ℝ) ≤ ((s * (2 ^ d) ^ k : ℕ) : ℝ) := by exact_mod_cast h
      push_cast at this; push_cast; linarith
  have keyneg : Real.log ((N : ℝ) / s) / Real.log ((2 ^ d : ℕ) : ℝ) ≤ -1 ↔ N * 2 ^ d ≤ s := by
    rw [div_le_iff₀ hlog, neg_one_mul, ← Real.log_inv, Real.log_le_log_iff hq (by positivity), div_le_iff₀ hs',
      inv_mul_eq_div, le_div_iff₀ hcp]
    constructor
    · intro h
      have : ((N * 2 ^ d : ℕ) : ℝ) ≤ (s : ℝ) := by push_cast; push_cast at h; exact h
      exact_mod_cast this
    · intro h
      have : ((N * 2 ^ d : ℕ) : ℝ) ≤ (s : ℝ) := by exact_mod_cast h
      push_cast at this; push_cast; exact this
  unfold balancedHeight
  rw [if_neg (by omega)]
  constructor
  · intro h
    have h1 : ¬ ⌈Real.log ((N : ℝ) / s) / Real.log ((2 ^ d : ℕ) : ℝ)⌉ < 0 := by
      intro hneg
      have : ⌈Real.log ((N : ℝ) / s) / Real.log ((2 ^ d : ℕ) : ℝ)⌉ ≤ -1 := by omega
      rw [Int.ceil_le] at this
      push_cast at this
      have := keyneg.mp (by push_cast; exact this)
      omega
    simp only
    rw [if_neg h1]
    refine ⟨_, rfl, ?_, ?_⟩
    · rw [← key]
      have := Int.le_ceil (Real.log ((N : ℝ) / s) / Real.log ((2 ^ d : ℕ) : ℝ))
      refine this.trans ?_
      have e : ((⌈Real.log ((N : ℝ) / s) / Real.log ((2 ^ d : ℕ) : ℝ)⌉.toNat : ℤ) : ℝ)
          = (⌈Real.log ((N : ℝ) / s) / Real.log ((2 ^ d : ℕ) : ℝ)⌉ : ℝ) := by
        rw [Int.toNat_of_nonneg (by omega)]
      rw [← e]; exact le_of_eq (by norm_cast)
    · intro k hk
      by_contra hc'
      push Not at hc'
      have := (key k).mpr hc'
      have h2 : ⌈Real.log ((N : ℝ) / s) / Real.log ((2 ^ d : ℕ) : ℝ)⌉ ≤ (k : ℤ) := Int.ceil_le.mpr (by exact_mod_cast this)
      omega
  · intro h
    simp only
    rw [if_pos]
    have h2 : ⌈Real.log ((N : ℝ) / s) / Real.log ((2 ^ d : ℕ) : ℝ)⌉ ≤ (-1 : ℤ) := Int.ceil_le.mpr (by
      have := keyneg.mpr h; push_cast; push_cast at this; exact this)
    omega

/-- **C10** The documented capacity is not respected: `N` coinciding sources always end up in one leaf, however small
`sources_per_cell` and whatever the height. -/
theorem C10_capacity_exceeded (hd : 2 ≤ d) (r : Box d) (hr : 0 < r.len) (h : ℕ) (hdh : d * h ≤ 32) (x : Vec d)
    (hx : r.containsHO x) (N : ℕ) :
    ∃ m src nb fuel k, balancedLists fuel (fun x : Vec d => x) r (List.replicate N x) h = .ok (m, src, nb) ∧
      k < m.nLeaves ∧ (src.getD k).length = N := by
  obtain ⟨nb, -, h2⟩ := balancedLists_ok hd (fun x : Vec d => x) (Or.inl hr) hdh (List.replicate N x) (h := h) (Or.inr (by
    intro s hs
    rw [List.eq_of_mem_replicate hs]; exact hx))
  have hl := route_length r x h
  have hv := route_valid r x h
  refine ⟨_, _, nb, _, pathIndex d (route r x h), h2 _ le_rfl, ?_, ?_⟩
  · have := pathIndex_lt _ hv; rw [hl] at this; exact this
  · rw [specSrc'_getD hdh hv hl]
    simp [itemsAt, hl]

/-- 5 sources, 4 per cell, 2D: height 1. -/
example : ∃ h, balancedHeight 2 5 4 = .ok h ∧ h = 1 := by
  obtain ⟨h, h1, h2, h3⟩ := (C10_height (d := 2) (by norm_num) 5 4 (by norm_num) (by norm_num)).1 (by norm_num)
  refine ⟨h, h1, ?_⟩
  have h0 : h ≠ 0 := by rintro rfl; norm_num at h2
  by_contra hne
  have := h3 1 (by omega)
  norm_num at this

/-- 1 source, 4 per cell, 2D: undefined behaviour. -/
example : balancedHeight 2 1 4 = .error .ub := (C10_height (d := 2) (by norm_num) 1 4 (by norm_num) (by norm_num)).2 (by norm_num)

/-- Non-vacuity of C09, C15-C17: a balanced tree of height 2 over three points. -/
example : ∃ fuel m src nb, off (2 ^ 2) 3 ≤ fuel ∧ balancedLists fuel (fun x : Vec 2 => x) ⟨0, 2⟩ [0, fun _ => 1 / 2, fun _ => -1 / 2] 2
    = .ok (m, src, nb) ∧ m.nLeaves = 16 := by
  obtain ⟨nb, -, h2⟩ := balancedLists_ok (d := 2) le_rfl (fun x : Vec 2 => x) (r := ⟨0, 2⟩) (h := 2) (Or.inl (by norm_num))
    (by norm_num) [0, fun _ => 1 / 2, fun _ => -1 / 2] (Or.inr (by
      intro s hs j
      simp only [List.mem_cons, List.not_mem_nil, or_false] at hs
      rw [Box.lower_apply, Box.upper_apply]
      rcases hs with rfl | rfl | rfl <;> norm_num))
  exact ⟨_, _, _, nb, le_rfl, h2 _ le_rfl, by norm_num [bfull, bst]⟩

end FMM
