import Verif.AdaptiveLists

/-!
# C16, C18, C19: the lists of the adaptive tree

`π` is a node of the tree if the heap has a record for it; `touch` says that two closed boxes have a common point.
-/

namespace FMM
variable {d : ℕ} {α : Type}

/-- Two closed boxes have a common point. -/
def touch (a b : Box d) : Prop := ∃ x, a.contains x ∧ b.contains x

/-- A node of the heap. -/
def IsNode (heap : AHeap d α) (π : Path) : Prop := ∃ n, heap π = some n

/-- A leaf of the heap. -/
def IsLeafOf (heap : AHeap d α) (π : Path) : Prop := ∃ n, heap π = some n ∧ n.isLeaf = true

section
variable {T : PTree} {r : Box d} {it : Path → List α}

theorem isNode_treeHeap (π : Path) : IsNode (treeHeap T r it) π ↔ T.Mem π := by
  constructor
  · rintro ⟨n, h⟩; exact (treeHeap_eq_some T it h).1
  · intro h; exact ⟨_, if_pos h⟩

theorem isLeafOf_treeHeap (π : Path) : IsLeafOf (treeHeap T r it) π ↔ T.Mem π ∧ T.leaf π = true := by
  constructor
  · rintro ⟨n, h, hl⟩
    obtain ⟨h1, rfl⟩ := treeHeap_eq_some T it h
    exact ⟨h1, hl⟩
  · rintro ⟨h, hl⟩; exact ⟨_, if_pos h, hl⟩

theorem adj_iff_touch (hr : 0 < r.len) (hA : AdjOf T r) (π ρ : Path) :
    T.adj π ρ = true ↔ touch (boxAt r π) (boxAt r ρ) := by
  rw [hA, decide_eq_true_eq]; exact C03_adjacent_iff_touch r hr π ρ

theorem adj_false_iff (hr : 0 < r.len) (hA : AdjOf T r) (π ρ : Path) :
    T.adj π ρ = false ↔ ¬ touch (boxAt r π) (boxAt r ρ) := by
  rw [← adj_iff_touch hr hA]; simp
end

section
variable {pos : α → Vec d} {r : Box d} {items : List α} {max : ℕ}

/-- **C16** (adaptive tree) Once the nodes are built the neighbourhood pass succeeds: it neither throws "Node too close"
nor dereferences a null pointer nor modifies a list while iterating over it. -/
theorem C16_adaptive_no_throw (hr : 0 < r.len ∨ items.length ≤ max) (fuel : ℕ) (st : BuildState d α) (h : ℕ)
    (hb : adaptiveBuild fuel pos r items max = .ok (st, h)) :
    ∃ nb fuel0, ∀ fuel ≥ fuel0, adaptiveLists fuel pos r items max = .ok (st, h, nb) :=
  ⟨_, fuel + ((fmmTree pos r items max).order (h + 1)).length, fun fuel' hf =>
    adaptiveLists_ok hr hb fuel' (by omega) (by omega)⟩

/-- **C16** (adaptive tree) Members of an interaction list: same depth, parents touch, boxes do not touch, centres at least
two box lengths apart; at most `6^d - 3^d` members. -/
theorem C16_adaptive_separated (hr : 0 < r.len) (fuel : ℕ) (st : BuildState d α) (h : ℕ) (nb : Nbh)
    (hb : adaptiveLists fuel pos r items max = .ok (st, h, nb)) (π : Path) (hπ : IsNode st.heap π) :
    (∀ ρ ∈ nb.inter π, IsNode st.heap ρ ∧ ρ.length = π.length ∧ ¬ touch (boxAt r π) (boxAt r ρ) ∧
      (∃ i j τ σ, π = i :: τ ∧ ρ = j :: σ ∧ touch (boxAt r τ) (boxAt r σ)) ∧
      2 * (boxAt r π).len ≤ Vec.norm ((boxAt r π).center - (boxAt r ρ).center)) ∧
    (nb.inter π).length ≤ 6 ^ d - 3 ^ d := by
  obtain ⟨-, h1, hh, rfl⟩ := lists_result (Or.inl hr) hb
  have hA : AdjOf (fmmTree pos r items max) r := fmmTree_adjOf
  have hT := hA.laws hr
  rw [h1, isNode_treeHeap] at hπ
  rw [PTree.nbh_inter hh hπ, h1]
  refine ⟨fun ρ hρ => ?_, inter_card hr hA rfl hπ⟩
  cases π with
  | nil => simp [PTree.inter] at hρ
  | cons i τ =>
    have hl := PTree.inter_length hT hπ hρ
    obtain ⟨m1, m2, j, σ, rfl, m3, m4⟩ := (PTree.mem_inter hT hπ ρ).mp hρ
    have hn := (adj_false_iff hr hA _ _).mp m2
    refine ⟨(isNode_treeHeap _).mpr m1, hl, hn, ⟨i, j, τ, σ, rfl, rfl, (adj_iff_touch hr hA _ _).mp m4⟩, ?_⟩
    obtain ⟨k, hk⟩ := center_dist_of_not_adjacent r hr (i :: τ) (j :: σ) hl.symm (by
      have := hA (i :: τ) (j :: σ); rw [m2] at this; simpa using this)
    exact hk.trans (Vec.abs_le_norm ((boxAt r (i :: τ)).center - (boxAt r (j :: σ)).center) k)

/-- **C18** List U: the near neighbours of a leaf are exactly the leaves (of any depth) that touch it. -/
theorem C18_U (hr : 0 < r.len) (fuel : ℕ) (st : BuildState d α) (h : ℕ) (nb : Nbh)
    (hb : adaptiveLists fuel pos r items max = .ok (st, h, nb)) (L : Path) (hL : IsLeafOf st.heap L) :
    (nb.near L).Nodup ∧ ∀ ρ, ρ ∈ nb.near L ↔ IsLeafOf st.heap ρ ∧ touch (boxAt r L) (boxAt r ρ) := by
  obtain ⟨-, h1, hh, rfl⟩ := lists_result (Or.inl hr) hb
  have hA : AdjOf (fmmTree pos r items max) r := fmmTree_adjOf
  have hT := hA.laws hr
  rw [h1, isLeafOf_treeHeap] at hL
  refine ⟨PTree.nodup_near_leaf hT hh hL.1, fun ρ => ?_⟩
  rw [PTree.mem_near_leaf hT hh hL.1 hL.2, h1, isLeafOf_treeHeap, adj_iff_touch hr hA, and_assoc]

/-- **C18** The near neighbours of an internal node: the touching nodes of the same depth and the touching coarser leaves. -/
theorem C18_near_internal (hr : 0 < r.len) (fuel : ℕ) (st : BuildState d α) (h : ℕ) (nb : Nbh)
    (hb : adaptiveLists fuel pos r items max = .ok (st, h, nb)) (π : Path) (hπ : IsNode st.heap π)
    (hl : ¬ IsLeafOf st.heap π) :
    (nb.near π).Nodup ∧ ∀ ρ, ρ ∈ nb.near π ↔ IsNode st.heap ρ ∧ touch (boxAt r π) (boxAt r ρ) ∧
      (ρ.length = π.length ∨ IsLeafOf st.heap ρ ∧ ρ.length < π.length) := by
  obtain ⟨-, h1, hh, rfl⟩ := lists_result (Or.inl hr) hb
  have hA : AdjOf (fmmTree pos r items max) r := fmmTree_adjOf
  have hT := hA.laws hr
  rw [h1, isNode_treeHeap] at hπ
  rw [h1, isLeafOf_treeHeap] at hl
  have hl' : (fmmTree pos r items max).leaf π = false := by
    by_contra h; exact hl ⟨hπ, by simpa using h⟩
  rw [PTree.near_node hT hh hπ hl']
  refine ⟨PTree.nodup_own hT hπ, fun ρ => ?_⟩
  rw [PTree.mem_own hT hπ, h1, isNode_treeHeap, isLeafOf_treeHeap, adj_iff_touch hr hA, hl']
  constructor
  · rintro ⟨a, b, c | c⟩
    · exact ⟨a, b, Or.inl c.1⟩
    · exact ⟨a, b, Or.inr ⟨⟨a, c.1⟩, c.2⟩⟩
  · rintro ⟨a, b, c | c⟩
    · exact ⟨a, b, Or.inl ⟨c, by simp⟩⟩
    · exact ⟨a, b, Or.inr ⟨c.1.2, c.2⟩⟩

/-- **C18** List V: nodes of the same depth that do not touch the node although their parents do. -/
theorem C18_V (hr : 0 < r.len) (fuel : ℕ) (st : BuildState d α) (h : ℕ) (nb : Nbh)
    (hb : adaptiveLists fuel pos r items max = .ok (st, h, nb)) (i : ℕ) (τ : Path) (hπ : IsNode st.heap (i :: τ)) :
    (nb.inter (i :: τ)).Nodup ∧ ∀ ρ, ρ ∈ nb.inter (i :: τ) ↔ IsNode st.heap ρ ∧
      ¬ touch (boxAt r (i :: τ)) (boxAt r ρ) ∧
      ∃ j σ, ρ = j :: σ ∧ σ.length = τ.length ∧ touch (boxAt r τ) (boxAt r σ) := by
  obtain ⟨-, h1, hh, rfl⟩ := lists_result (Or.inl hr) hb
  have hA : AdjOf (fmmTree pos r items max) r := fmmTree_adjOf
  have hT := hA.laws hr
  rw [h1, isNode_treeHeap] at hπ
  rw [PTree.nbh_inter hh hπ]
  refine ⟨PTree.nodup_inter hT hπ, fun ρ => ?_⟩
  rw [PTree.mem_inter hT hπ, h1, isNode_treeHeap, adj_false_iff hr hA]
  simp only [adj_iff_touch hr hA]

/-- **C18** List X: coarser leaves which touch the parent but not the node. -/
theorem C18_X (hr : 0 < r.len) (fuel : ℕ) (st : BuildState d α) (h : ℕ) (nb : Nbh)
    (hb : adaptiveLists fuel pos r items max = .ok (st, h, nb)) (i : ℕ) (τ : Path) (hπ : IsNode st.heap (i :: τ)) :
    (nb.X (i :: τ)).Nodup ∧ ∀ ρ, ρ ∈ nb.X (i :: τ) ↔ IsLeafOf st.heap ρ ∧ ρ.length < (i :: τ).length ∧
      touch (boxAt r τ) (boxAt r ρ) ∧ ¬ touch (boxAt r (i :: τ)) (boxAt r ρ) := by
  obtain ⟨-, h1, hh, rfl⟩ := lists_result (Or.inl hr) hb
  have hA : AdjOf (fmmTree pos r items max) r := fmmTree_adjOf
  have hT := hA.laws hr
  rw [h1, isNode_treeHeap] at hπ
  rw [PTree.nbh_X hh hπ]
  refine ⟨PTree.nodup_xl hT hπ, fun ρ => ?_⟩
  rw [PTree.mem_xl hT hπ, h1, isLeafOf_treeHeap, adj_false_iff hr hA, adj_iff_touch hr hA]
  tauto

/-- **C18** List W: finer nodes which do not touch the leaf although their parents do; W and X are dual. -/
theorem C18_W (hr : 0 < r.len) (fuel : ℕ) (st : BuildState d α) (h : ℕ) (nb : Nbh)
    (hb : adaptiveLists fuel pos r items max = .ok (st, h, nb)) (L : Path) (hL : IsLeafOf st.heap L) :
    (nb.W L).Nodup ∧ (∀ ρ, ρ ∈ nb.W L ↔ IsNode st.heap ρ ∧ L.length < ρ.length ∧
      ¬ touch (boxAt r L) (boxAt r ρ) ∧ ∃ j σ, ρ = j :: σ ∧ touch (boxAt r L) (boxAt r σ)) ∧
    ∀ ρ, ρ ∈ nb.W L ↔ IsNode st.heap ρ ∧ L ∈ nb.X ρ := by
  obtain ⟨-, h1, hh, rfl⟩ := lists_result (Or.inl hr) hb
  have hA : AdjOf (fmmTree pos r items max) r := fmmTree_adjOf
  have hT := hA.laws hr
  rw [h1, isLeafOf_treeHeap] at hL
  refine ⟨PTree.nodup_W L, fun ρ => ?_, fun ρ => ?_⟩
  · rw [PTree.mem_W hh, h1, isNode_treeHeap]
    cases ρ with
    | nil => simp [PTree.xl]
    | cons j σ =>
      constructor
      · rintro ⟨a, b⟩
        obtain ⟨m1, m2, m3, m4, m5⟩ := (PTree.mem_xl hT a L).mp b
        rw [hT.symm] at m4 m5
        exact ⟨a, m3, (adj_false_iff hr hA _ _).mp m5, j, σ, rfl, (adj_iff_touch hr hA _ _).mp m4⟩
      · rintro ⟨a, m3, m5, j', σ', e, m4⟩
        obtain ⟨rfl, rfl⟩ := List.cons.inj e
        refine ⟨a, (PTree.mem_xl hT a L).mpr ⟨hL.1, hL.2, m3, ?_, ?_⟩⟩
        · rw [hT.symm]; exact (adj_iff_touch hr hA _ _).mpr m4
        · rw [hT.symm]; exact (adj_false_iff hr hA _ _).mpr m5
  · rw [PTree.mem_W hh, h1, isNode_treeHeap]
    constructor
    · rintro ⟨a, b⟩; exact ⟨a, by rw [PTree.nbh_X hh a]; exact b⟩
    · rintro ⟨a, b⟩; exact ⟨a, by rw [PTree.nbh_X hh a] at b; exact b⟩

/-- The sources stored in the leaves below (or at) a node. -/
def storedBelow (heap : AHeap d α) (leaves : List Path) (ρ : Path) : List α :=
  (leaves.filter fun π => decide (ρ <:+ π)).flatMap (storedIn heap)

/-- **C19** For every leaf `L`: the sources in the near neighbours, below the members of list W, below the members of the
V lists of `L` and all its ancestors, and in the members of the X lists of `L` and all its ancestors are together exactly
all sources (each as often as in the input). -/
theorem C19_exactly_once (hr : 0 < r.len) (fuel : ℕ) (st : BuildState d α) (h : ℕ) (nb : Nbh)
    (hb : adaptiveLists fuel pos r items max = .ok (st, h, nb)) (L : Path) (hL : IsLeafOf st.heap L) :
    ((nb.near L).flatMap (storedIn st.heap) ++ ((nb.W L).flatMap (storedBelow st.heap st.leaves.flatten) ++
      L.tails.flatMap fun A => (nb.inter A).flatMap (storedBelow st.heap st.leaves.flatten) ++
        (nb.X A).flatMap (storedIn st.heap))).Perm items := by
  obtain ⟨hb', h1, hh, rfl⟩ := lists_result (Or.inl hr) hb
  have hA : AdjOf (fmmTree pos r items max) r := fmmTree_adjOf
  have hT := hA.laws hr
  obtain ⟨hp, -, -⟩ := C11_partition fuel st h hb'
  have hlmem : ∀ π, π ∈ st.leaves.flatten ↔ (fmmTree pos r items max).Mem π ∧ (fmmTree pos r items max).leaf π = true := by
    intro π
    rw [hp.leaf_iff, h1]
    exact isLeafOf_treeHeap π
  rw [h1, isLeafOf_treeHeap] at hL
  refine List.Perm.trans ?_ (PTree.slots_perm (r := r) (pos := pos) (items := items) hT hh rfl hL.1 hL.2)
  unfold PTree.slots
  rw [List.flatMap_append, List.flatMap_append]
  have hstored : ∀ l : List Path, (∀ ρ ∈ l, (fmmTree pos r items max).Mem ρ ∧ (fmmTree pos r items max).leaf ρ = true) →
      (l.flatMap (storedIn st.heap)) = l.flatMap (itemsAt pos r items) := by
    intro l hl
    refine List.flatMap_congr fun ρ hρ => ?_
    rw [h1, treeHeap_stored _ _ (hl ρ hρ).1 (hl ρ hρ).2]
  have hbelow1 : ∀ ρ, (fmmTree pos r items max).Mem ρ →
      (storedBelow st.heap st.leaves.flatten ρ).Perm (itemsAt pos r items ρ) := by
    intro ρ hρ
    unfold storedBelow
    rw [hstored _ (fun π hπ => (hlmem π).mp (List.mem_filter.mp hπ).1)]
    exact PTree.below_perm hh rfl pos r items _ hp.nodup hlmem hρ
  have hbelow : ∀ l : List Path, (∀ ρ ∈ l, (fmmTree pos r items max).Mem ρ) →
      (l.flatMap (storedBelow st.heap st.leaves.flatten)).Perm (l.flatMap (itemsAt pos r items)) := by
    intro l hl
    exact List.Perm.flatMap_left l fun ρ hρ => hbelow1 ρ (hl ρ hρ)
  refine List.Perm.append (List.Perm.of_eq (hstored _ ?_)) (List.Perm.append (hbelow _ ?_) ?_)
  · intro ρ hρ
    have := (PTree.mem_near_leaf hT hh hL.1 hL.2 ρ).mp hρ
    exact ⟨this.1, this.2.1⟩
  · intro ρ hρ; exact ((PTree.mem_W hh L ρ).mp hρ).1
  · rw [List.flatMap_assoc]
    refine List.Perm.flatMap_left _ fun A hAm => ?_
    have hAm : (fmmTree pos r items max).Mem A := hL.1.suffix ((List.mem_tails ..).mp hAm)
    rw [List.flatMap_append]
    refine List.Perm.append (hbelow _ ?_) (List.Perm.of_eq (hstored _ ?_))
    · intro ρ hρ
      rw [PTree.nbh_inter hh hAm] at hρ
      cases A with
      | nil => simp [PTree.inter] at hρ
      | cons i τ => exact ((PTree.mem_inter hT hAm ρ).mp hρ).1
    · intro ρ hρ
      rw [PTree.nbh_X hh hAm] at hρ
      cases A with
      | nil => simp [PTree.xl] at hρ
      | cons i τ =>
        have := (PTree.mem_xl hT hAm ρ).mp hρ
        exact ⟨this.1, this.2.1⟩

end

/-- A tree on which all of this is not vacuous: two different points, one per leaf, hence a tree of height at least one. -/
example : ∃ fuel st h nb, adaptiveLists fuel (fun x : Vec 2 => x) ⟨0, 2⟩ [0, fun _ => 1] 1 = .ok (st, h, nb) ∧ 0 < h := by
  have hne : (0 : Vec 2) ≠ fun _ => 1 := fun h => by simpa using congrFun h 0
  obtain ⟨st, _, h, _, f, hf⟩ := C12_terminates (fun x : Vec 2 => x) ⟨0, 2⟩ [0, fun _ => 1] 1 (by norm_num) (by
    intro s hs
    rw [Box.contains_iff]
    rcases List.mem_pair.mp hs with rfl | rfl <;> intro j <;> simp) (by
    intro x
    by_cases h1 : (0 : Vec 2) = x
    · have h2 : ¬ (fun _ => 1 : Vec 2) = x := fun h2 => hne (h1.trans h2.symm)
      simp [h1, h2]
    · rw [List.filter_cons_of_neg (by simpa using h1)]
      exact (List.length_filter_le _ _).trans (by simp))
  have hb := (hf f le_rfl).1
  obtain ⟨nb, f0, hf0⟩ := C16_adaptive_no_throw (Or.inl (by norm_num)) f st h hb
  refine ⟨f0, st, h, nb, hf0 f0 le_rfl, ?_⟩
  obtain ⟨-, -, h3⟩ := adaptiveBuild_ok hb
  rcases h3 with ⟨h3, -⟩ | ⟨-, h3, -⟩
  · simp at h3
  · exact h3.1

end FMM
