import Verif.AdaptiveTree

/-!
# C11-C13: construction of the adaptive tree, look-up of a leaf
-/

namespace FMM
variable {d : ℕ} {α : Type}

/-- The items stored in the leaf `π` of a heap. -/
def storedIn (heap : AHeap d α) (π : Path) : List α := ((heap π).map ANode.items).getD []

section
variable {pos : α → Vec d} {r : Box d} {items : List α} {max : ℕ}

/-- A tree that could be the result of either constructor. -/
theorem mem_leaves_flatten {h : ℕ} (hh : IsHeight pos r items max h) (π : Path) :
    π ∈ ((List.range (h + 1)).map (leafLevel pos r items max)).flatten ↔
      (adaptiveTree pos r items max).Mem π ∧ (adaptiveTree pos r items max).leaf π = true := by
  simp only [List.mem_flatten, List.mem_map, List.mem_range]
  constructor
  · rintro ⟨l, ⟨k, _, rfl⟩, hl⟩
    obtain ⟨h1, _, h3⟩ := (mem_leafLevel _ _ _ _ _ _).mp hl
    exact ⟨h1, h3⟩
  · rintro ⟨h1, h2⟩
    exact ⟨_, ⟨π.length, Nat.lt_succ_of_le (mem_length_le hh h1), rfl⟩, (mem_leafLevel _ _ _ _ _ _).mpr ⟨h1, rfl, h2⟩⟩

theorem nodup_leaves_flatten (h : ℕ) : ((List.range (h + 1)).map (leafLevel pos r items max)).flatten.Nodup := by
  rw [List.nodup_flatten]
  refine ⟨?_, ?_⟩
  · intro l hl
    obtain ⟨k, _, rfl⟩ := List.mem_map.mp hl
    exact nodup_leafLevel _ _ _ _ _
  · rw [List.pairwise_map]
    refine List.Pairwise.imp ?_ List.nodup_range
    intro i j hij π h1 h2
    exact hij (((mem_leafLevel _ _ _ _ _ _).mp h1).2.1.symm.trans ((mem_leafLevel _ _ _ _ _ _).mp h2).2.1)

theorem itemsAt_perm (T : PTree) (hc : T.c = 2 ^ d) (h : ℕ) (hh : ∀ π, T.Mem π → π.length ≤ h) (l : List Path)
    (hl : l.Nodup) (hmem : ∀ π, π ∈ l ↔ T.Mem π ∧ T.leaf π = true) :
    (l.flatMap (itemsAt pos r items)).Perm items := by
  refine flatMap_filter_perm l (fun π s => decide (route r (pos s) π.length = π)) items ?_
  intro s _
  obtain ⟨k, _, hk, lk⟩ := exists_leaf_route T hc r (pos s) h hh
  have hin := (hmem _).mpr ⟨hk, lk⟩
  have e : l.countP (fun π => decide (route r (pos s) π.length = π)) = l.count (route r (pos s) k) := by
    rw [List.count]
    refine List.countP_congr fun π hπ => ?_
    obtain ⟨h1, h2⟩ := (hmem π).mp hπ
    simp only [decide_eq_true_eq, beq_iff_eq]
    rw [leaf_mem_of_route T r (pos s) hk lk h1]
    constructor
    · intro h; exact hk.eq_of_leaf_suffix h2 h
    · rintro rfl; exact List.suffix_refl _
  rw [e, List.count_eq_one_of_mem hl hin]

theorem treeHeap_eq_some (T : PTree) (it : Path → List α) {π : Path} {n : ANode d α}
    (h : treeHeap T r it π = some n) : T.Mem π ∧ n =
      { box := boxAt r π, depth := π.length, parent := π.tail?, isLeaf := T.leaf π
        child := fun i => if T.leaf π = false ∧ i < T.c then some (i :: π) else none
        items := if T.leaf π then it π else [] } := by
  unfold treeHeap at h
  by_cases hm : T.Mem π
  · rw [if_pos hm] at h
    exact ⟨hm, (Option.some.inj h).symm⟩
  · rw [if_neg hm] at h; simp at h

theorem treeHeap_stored (T : PTree) (it : Path → List α) {π : Path} (hm : T.Mem π) (hl : T.leaf π = true) :
    storedIn (treeHeap T r it) π = it π := by
  unfold storedIn treeHeap
  rw [if_pos hm]; simp [hl]

/-- What **C11** claims about a heap and its list of leaves. -/
structure Partitioned (pos : α → Vec d) (r : Box d) (items : List α) (max : ℕ) (heap : AHeap d α)
    (leaves : List Path) : Prop where
  /-- the leaves together hold every item as often as the input does -/
  perm : (leaves.flatMap (storedIn heap)).Perm items
  nodup : leaves.Nodup
  /-- the leaf list is the list of all leaf nodes of the heap -/
  leaf_iff : ∀ π, π ∈ leaves ↔ ∃ n, heap π = some n ∧ n.isLeaf = true
  /-- a leaf stores, in the original order, the items routed to it; not more than the capacity -/
  stored : ∀ π n, heap π = some n → n.isLeaf = true →
    n.items = items.filter (fun s => decide (route r (pos s) π.length = π)) ∧ n.items.length ≤ max
  /-- every other node than the root is split only because more items than the capacity are routed to it -/
  refined : ∀ π n, heap π = some n → n.isLeaf = false → π ≠ [] →
    max < (items.filter (fun s => decide (route r (pos s) π.length = π))).length
  /-- boxes, depths and pointers -/
  shape : ∀ π n, heap π = some n → n.box = boxAt r π ∧ n.depth = π.length ∧
    (n.parent = none ↔ π = []) ∧ (∀ ρ, n.parent = some ρ → ∃ i < 2 ^ d, π = i :: ρ ∧ ∃ m, heap ρ = some m ∧ m.child i = some π) ∧
    (n.isLeaf = true → ∀ i, n.child i = none) ∧
    (n.isLeaf = false → ∀ i < 2 ^ d, n.child i = some (i :: π) ∧ ∃ m, heap (i :: π) = some m ∧ m.parent = some π)

theorem partitioned_of_tree (T : PTree) (hc : T.c = 2 ^ d) (h : ℕ) (hh : ∀ π, T.Mem π → π.length ≤ h)
    (l : List Path) (hl : l.Nodup) (hmem : ∀ π, π ∈ l ↔ T.Mem π ∧ T.leaf π = true)
    (hle : ∀ π, T.Mem π → T.leaf π = true → (itemsAt pos r items π).length ≤ max)
    (hgt : ∀ π, π ≠ [] → T.leaf π = false → max < (itemsAt pos r items π).length) :
    Partitioned pos r items max (treeHeap T r (itemsAt pos r items)) l where
  perm := by
    have : l.flatMap (storedIn (treeHeap T r (itemsAt pos r items))) = l.flatMap (itemsAt pos r items) := by
      refine List.flatMap_congr fun π hπ => ?_
      obtain ⟨h1, h2⟩ := (hmem π).mp hπ
      exact treeHeap_stored T _ h1 h2
    rw [this]
    exact itemsAt_perm T hc h hh l hl hmem
  nodup := hl
  leaf_iff π := by
    rw [hmem]
    constructor
    · rintro ⟨h1, h2⟩
      refine ⟨_, if_pos h1, ?_⟩
      exact h2
    · rintro ⟨n, h1, h2⟩
      obtain ⟨h3, rfl⟩ := treeHeap_eq_some T _ h1
      exact ⟨h3, h2⟩
  stored π n h1 h2 := by
    obtain ⟨h3, rfl⟩ := treeHeap_eq_some T _ h1
    have h2 : T.leaf π = true := h2
    simp only [h2, if_true]
    exact ⟨rfl, hle π h3 h2⟩
  refined π n h1 h2 h0 := by
    obtain ⟨h3, rfl⟩ := treeHeap_eq_some T _ h1
    exact hgt π h0 h2
  shape π n h1 := by
    obtain ⟨h3, rfl⟩ := treeHeap_eq_some T _ h1
    refine ⟨rfl, rfl, ?_, ?_, ?_, ?_⟩
    · cases π <;> simp [List.tail?]
    · intro ρ hρ
      cases π with
      | nil => simp [List.tail?] at hρ
      | cons i τ =>
        obtain rfl : τ = ρ := by simpa [List.tail?] using hρ
        refine ⟨i, by rw [← hc]; exact h3.lt, rfl, _, if_pos h3.tail, ?_⟩
        simp [h3.parent_not_leaf, h3.lt]
    · intro hl i
      simp only at hl
      simp [hl]
    · intro hl i hi
      have hl : T.leaf π = false := hl
      rw [← hc] at hi
      refine ⟨by simp [hl, hi], _, if_pos (h3.cons hl hi), rfl⟩

/-- **C11** for `AdaptiveFmmTree`: whenever construction terminates the sources are partitioned among the leaves,
leaves respect the capacity, and the heap is a well-formed tree. -/
theorem C11_partition (fuel : ℕ) (st : BuildState d α) (h : ℕ)
    (hb : adaptiveBuild fuel pos r items max = .ok (st, h)) :
    Partitioned pos r items max st.heap st.leaves.flatten ∧ st.leaves.length = h + 1 ∧ st.nodes.length = h := by
  obtain ⟨h1, h2, h3⟩ := adaptiveBuild_ok hb
  rw [h1]
  have hle : ∀ π, (fmmTree pos r items max).Mem π → (fmmTree pos r items max).leaf π = true →
      (itemsAt pos r items π).length ≤ max := fun π _ hl => by simpa [fmmTree] using hl
  have hgt : ∀ π, π ≠ [] → (fmmTree pos r items max).leaf π = false → max < (itemsAt pos r items π).length :=
    fun π _ hl => by simpa [fmmTree] using hl
  rcases h3 with ⟨hN, rfl, hn, hl⟩ | ⟨hN, hh, hn, hl⟩
  · refine ⟨partitioned_of_tree _ rfl 0 h2 _ ?_ ?_ hle hgt, by simp [hl], by simp [hn]⟩
    · simp [hl]
    · intro π
      rw [hl]
      simp only [List.flatten_cons, List.flatten_nil, List.append_nil, List.mem_singleton]
      constructor
      · rintro rfl; exact ⟨PTree.mem_nil, by simp [fmmTree, itemsAt_nil, hN]⟩
      · rintro ⟨hm, _⟩
        have := h2 π hm
        exact List.eq_nil_of_length_eq_zero (by omega)
  · refine ⟨partitioned_of_tree _ rfl h h2 _ ?_ ?_ hle hgt, by simp [hl], by simp [hn]⟩
    · rw [hl]; exact nodup_leaves_flatten h
    · intro π; rw [hl, mem_leaves_flatten hh, fmmTree_eq hN]

/-- What a successful construction of an `AdaptivePointOrthtree` returns. -/
theorem buildPointTree_inv {fuel : ℕ} {st : BuildState d α} {h : ℕ}
    (hb : buildPointTree fuel pos r items max = .ok (st, h)) : IsHeight pos r items max h ∧
      specBuild pos r items max h ((List.range (h + 1)).map (nodeLevel pos r items max)) = st := by
  rcases buildTree_total pos r items max with ⟨h', hh'⟩ | hdiv
  · rcases Nat.lt_or_ge fuel h' with hf | hf
    · exfalso
      have : ∀ f k, k + f < h' → buildLoopP pos max f k
          (specBuild pos r items max k ((List.range (k + 1)).map (nodeLevel pos r items max))) = .error .fuel := by
        intro f
        induction f with
        | zero => intro k _; rfl
        | succ f ih =>
          intro k hk
          have hnk : (List.map (nodeLevel pos r items max) (List.range (k + 1)))[k]?
              = some (nodeLevel pos r items max k) := by simp
          have hn1 := hh'.2.2 (k + 1) (by omega) (by omega)
          unfold buildLoopP
          simp only [specBuild, hnk]
          rw [level_step, ok_bind]
          simp only
          rw [if_neg (by simp), if_pos hn1]
          rw [← ih (k + 1) (by omega)]
          congr 1
          unfold specBuild
          congr 1
          · rw [List.range_succ (n := k + 1), List.map_append]; rfl
          · rw [List.range_succ (n := k + 1), List.map_append]; rfl
      have := this fuel 0 (by omega)
      unfold buildPointTree at hb
      rw [buildTree_init pos r items max, this] at hb
      simp at hb
    · rw [buildPointTree_ok pos r items max h' hh' fuel hf] at hb
      obtain ⟨e, rfl⟩ : _ = st ∧ h' = h := by simpa using hb
      exact ⟨hh', e⟩
  · rw [(hdiv fuel).2] at hb; simp at hb

/-- **C11** for `AdaptivePointOrthtree`, whose root is always refined. -/
theorem C11_partition_points (fuel : ℕ) (st : BuildState d α) (h : ℕ)
    (hb : buildPointTree fuel pos r items max = .ok (st, h)) :
    Partitioned pos r items max st.heap st.leaves.flatten ∧ st.leaves.length = h + 1 ∧ st.nodes.length = h + 1 := by
  obtain ⟨hh, e⟩ := buildPointTree_inv hb
  subst e
  refine ⟨?_, by simp [specBuild], by simp [specBuild]⟩
  show Partitioned pos r items max (specHeap pos r items max _) _
  rw [specHeap_final hh]
  refine partitioned_of_tree _ rfl h (fun π => mem_length_le hh) _ (nodup_leaves_flatten h) (mem_leaves_flatten hh) ?_ ?_
  · intro π _ hl
    have : π ≠ [] ∧ (itemsAt pos r items π).length ≤ max := by simpa [adaptiveTree] using hl
    exact this.2
  · intro π h0 hl
    simpa [adaptiveTree, h0] using hl

/-- Items inside the root box are stored in leaves whose boxes contain them. -/
theorem C11_contained {heap : AHeap d α} {leaves : List Path} (hp : Partitioned pos r items max heap leaves)
    (hin : ∀ s ∈ items, r.contains (pos s)) (π : Path) (n : ANode d α) (h : heap π = some n) (hl : n.isLeaf = true) :
    ∀ s ∈ n.items, n.box.contains (pos s) := by
  intro s hs
  rw [(hp.stored π n h hl).1] at hs
  obtain ⟨h1, h2⟩ := List.mem_filter.mp hs
  have h2 : route r (pos s) π.length = π := by simpa using h2
  rw [(hp.shape π n h).1, ← h2]
  exact route_contains r (pos s) (hin s h1) _

end

/-- **C12** Construction terminates (for both classes) if the items lie in the root box and no point carries more than
`max` of them. -/
theorem C12_terminates (pos : α → Vec d) (r : Box d) (items : List α) (max : ℕ) (hr : 0 ≤ r.len)
    (hin : ∀ s ∈ items, r.contains (pos s))
    (hmult : ∀ x, (items.filter fun s => decide (pos s = x)).length ≤ max) :
    ∃ st st' h h' fuel0, ∀ fuel ≥ fuel0, adaptiveBuild fuel pos r items max = .ok (st, h) ∧
      buildPointTree fuel pos r items max = .ok (st', h') := by
  obtain ⟨h, hh⟩ := terminates (pos := pos) (r := r) (items := items) (max := max) hr hin hmult
  have e : ∀ fuel, adaptiveBuild fuel pos r items max = if items.length ≤ max then
    .ok ({ heap := rootHeap r true items, nodes := [], leaves := [[[]]], nodeSources := [] }, 0)
    else buildTree fuel pos r items max := fun _ => rfl
  by_cases hN : items.length ≤ max
  · exact ⟨_, _, _, _, h, fun fuel hf => ⟨(e fuel).trans (if_pos hN), buildPointTree_ok pos r items max h hh fuel hf⟩⟩
  · exact ⟨_, _, _, _, h, fun fuel hf => ⟨((e fuel).trans (if_neg hN)).trans (buildTree_ok pos r items max h hh fuel hf),
      buildPointTree_ok pos r items max h hh fuel hf⟩⟩

/-- **C12** If more than `max` items share a position, construction never terminates (no number of steps suffices),
for every root box. -/
theorem C12_diverges (pos : α → Vec d) (r : Box d) (items : List α) (max : ℕ) (x : Vec d)
    (hx : max < (items.filter fun s => decide (pos s = x)).length) (fuel : ℕ) :
    adaptiveBuild fuel pos r items max = .error .fuel ∧ buildPointTree fuel pos r items max = .error .fuel := by
  have hne := diverges (r := r) x hx
  have hN : ¬ items.length ≤ max := by
    have := List.length_filter_le (fun s => decide (pos s = x)) items
    omega
  refine ⟨?_, ?_⟩
  · unfold adaptiveBuild buildTree
    rw [if_neg hN, buildTree_init pos r items max]
    exact buildLoop_diverges pos r items max hne fuel 0
  · unfold buildPointTree
    rw [buildTree_init pos r items max]
    exact buildLoopP_diverges pos r items max hne fuel 0

/-- **C12** If more than `max` items lie below the lower corner of the root box, construction never terminates even if
they are all different. -/
theorem C12_outside_diverges (pos : α → Vec d) (r : Box d) (hr : 0 ≤ r.len) (items : List α) (max : ℕ)
    (hx : max < (items.filter fun s => decide (∀ j, pos s j < r.lower j)).length) (fuel : ℕ) :
    adaptiveBuild fuel pos r items max = .error .fuel ∧ buildPointTree fuel pos r items max = .error .fuel := by
  have hne := diverges_below (r := r) hr hx
  have hN : ¬ items.length ≤ max := by
    have := List.length_filter_le (fun s => decide (∀ j, pos s j < r.lower j)) items
    omega
  refine ⟨?_, ?_⟩
  · unfold adaptiveBuild buildTree
    rw [if_neg hN, buildTree_init pos r items max]
    exact buildLoop_diverges pos r items max hne fuel 0
  · unfold buildPointTree
    rw [buildTree_init pos r items max]
    exact buildLoopP_diverges pos r items max hne fuel 0

/-- **C12** The root box computed by the constructor really produces this situation: three different sources, at most
one per leaf, and construction never terminates. (The padding moves the box away from the two sources closest to the
origin.) -/
theorem C12_padding_diverges : ∃ (ps : List (Vec 2)) (r : Box 2), ps.Nodup ∧ rootBox ps = some r ∧
    ∀ fuel, adaptiveBuild fuel id r ps 1 = .error .fuel ∧ buildPointTree fuel id r ps 1 = .error .fuel := by
  obtain ⟨r, lo, hi, E, h1, h2, h3, h4, h5, h6, h7⟩ := rootBox_spec (d := 1)
    [(fun _ => 1), (fun _ => 1 + 1 / 1000000), (fun _ => 2)] (by simp)
  have hlo : ∀ i, lo i = 1 := by
    intro i
    obtain ⟨⟨p, hp, e⟩, hle⟩ := h2 i
    have := hle (fun _ => 1) (by simp)
    simp only [List.mem_cons, List.not_mem_nil, or_false] at hp
    rcases hp with rfl | rfl | rfl <;> simp at e this ⊢ <;> linarith
  have hhi : ∀ i, hi i = 2 := by
    intro i
    obtain ⟨⟨p, hp, e⟩, hle⟩ := h3 i
    have := hle (fun _ => 2) (by simp)
    simp only [List.mem_cons, List.not_mem_nil, or_false] at hp
    rcases hp with rfl | rfl | rfl <;> simp at e this ⊢ <;> linarith
  obtain ⟨i, hE⟩ := h5
  rw [hlo, hhi] at hE
  have hlow : ∀ j, r.lower j = 1 + 1 / 100000 := by
    intro j
    rw [Box.lower_apply, h7, h6, hlo, hhi, ← hE]
    unfold paddingFactor; norm_num
  have hne : ∀ a b : ℝ, a ≠ b → (fun _ => a : Vec 2) ≠ fun _ => b := fun a b h e => h (congrFun e 0)
  refine ⟨_, r, ?_, h1, C12_outside_diverges id r ?_ _ 1 ?_⟩
  · simp only [List.nodup_cons, List.mem_cons, List.not_mem_nil, or_false, not_or, List.nodup_nil, and_true, not_false_eq_true]
    exact ⟨⟨hne _ _ (by norm_num), hne _ _ (by norm_num)⟩, hne _ _ (by norm_num)⟩
  · rw [h6, ← hE]; unfold paddingFactor; norm_num
  · simp only [id, hlow]
    rw [List.filter_cons_of_pos (by simp), List.filter_cons_of_pos (by simp; norm_num)]
    simp

/-- Two items at the same place and capacity one: construction does not terminate. -/
example (fuel : ℕ) : adaptiveBuild fuel (fun x : Vec 2 => x) ⟨0, 1⟩ [0, 0] 1 = .error .fuel :=
  (C12_diverges _ _ _ 1 0 (by simp) fuel).1

/-- Two different items: construction terminates. -/
example : ∃ st h fuel, adaptiveBuild fuel (fun x : Vec 2 => x) ⟨0, 2⟩ [0, fun _ => 1] 1 = .ok (st, h) := by
  have hne : (0 : Vec 2) ≠ fun _ => 1 := fun h => by simpa using congrFun h 0
  obtain ⟨st, _, h, _, f, hf⟩ := C12_terminates (fun x : Vec 2 => x) ⟨0, 2⟩ [0, fun _ => 1] 1 (by norm_num) (by
    intro s hs
    rw [Box.contains_iff]
    rcases List.mem_pair.mp hs with rfl | rfl <;> intro j <;> simp) (by
    intro x
    by_cases h1 : (0 : Vec 2) = x
    · have h2 : ¬ (fun _ => 1 : Vec 2) = x := fun h2 => hne (h1.trans h2.symm)
      simp [h1, h2]
    · rw [List.filter_cons_of_neg (by simpa using h1)]
      exact (List.length_filter_le _ _).trans (by simp))
  exact ⟨st, h, f, (hf f le_rfl).1⟩

/-- **C13** The look-up of the containing leaf always finishes; it returns a leaf of the tree whose box contains
the point if the root box does, otherwise the null pointer.  A source position is looked up in the leaf that
stores the source. -/
theorem C13_containing_leaf (pos : α → Vec d) (r : Box d) (hr : 0 ≤ r.len) (items : List α) (max fuel0 : ℕ)
    (st : BuildState d α) (h : ℕ) (hb : adaptiveBuild fuel0 pos r items max = .ok (st, h)) (x : Vec d) :
    ∃ o : Option Path, (∀ fuel > h, getContainingLeaf fuel st.heap x = .ok o) ∧
      (o = none ↔ ¬ r.contains x) ∧
      (∀ π, o = some π → π ∈ st.leaves.flatten ∧ (∃ n, st.heap π = some n ∧ n.isLeaf = true ∧ n.box.contains x) ∧
        ∀ s ∈ items, pos s = x → s ∈ storedIn st.heap π) := by
  obtain ⟨hp, -, -⟩ := C11_partition fuel0 st h hb
  obtain ⟨h1, h2, -⟩ := adaptiveBuild_ok hb
  obtain ⟨k, hkh, hk, lk⟩ := exists_leaf_route (fmmTree pos r items max) rfl r x h h2
  have hsub : ∀ π : Path, (boxAt r π).contains x → r.contains x := by
    intro π
    induction π with
    | nil => exact id
    | cons i π ih =>
      intro hx
      refine ih (child_contains_sub (boxAt r π) ?_ i x hx)
      rw [boxAt_len]; positivity
  refine ⟨if (boxAt r (route r x k)).contains x then some (route r x k) else none, fun fuel hf => ?_, ?_, ?_⟩
  · rw [h1]; exact getContainingLeaf_ok _ rfl r _ x k hk lk fuel (by omega)
  · by_cases hx : r.contains x
    · have := route_contains r x hx k
      simp [this, hx]
    · have : ¬ (boxAt r (route r x k)).contains x := fun h => hx (hsub _ h)
      simp [this, hx]
  · intro π hπ
    by_cases hx : (boxAt r (route r x k)).contains x
    · rw [if_pos hx] at hπ
      obtain rfl := Option.some.inj hπ
      have hget := treeHeap_get (r := r) (fmmTree pos r items max) (itemsAt pos r items) hk
      refine ⟨?_, ?_, ?_⟩
      · rw [hp.leaf_iff, h1]
        exact ⟨_, if_pos hk, lk⟩
      · rw [h1]
        exact ⟨_, if_pos hk, lk, hx⟩
      · intro s hs hsx
        rw [h1, treeHeap_stored _ _ hk lk]
        refine List.mem_filter.mpr ⟨hs, ?_⟩
        simp [hsx]
    · rw [if_neg hx] at hπ; simp at hπ

/-- A look-up that succeeds and one that fails, in the same tree. -/
example : ∃ st h, (adaptiveBuild 0 (fun x : Vec 2 => x) ⟨0, 2⟩ [0] 1 = .ok (st, h)) ∧
    getContainingLeaf 1 st.heap 0 = .ok (some []) ∧ getContainingLeaf 1 st.heap (fun _ => 3) = .ok none := by
  refine ⟨_, _, rfl, ?_, ?_⟩
  · have h : (⟨0, 2⟩ : Box 2).contains 0 := by rw [Box.contains_iff]; simp
    simp [getContainingLeaf, descend, AHeap.get, rootHeap, ok_bind, h]
  · have h : ¬ (⟨0, 2⟩ : Box 2).contains (fun _ => 3) := by
      rw [Box.contains_iff]; push Not; exact ⟨0, fun _ => by norm_num⟩
    simp [getContainingLeaf, descend, AHeap.get, rootHeap, ok_bind, h]

end FMM
