import Verif.Lists
import Verif.LoopLemmas
import Verif.Bfs
import Verif.DataRange

/-!
# `AdaptiveFmmTree::buildTree`, `AdaptivePointOrthtree::buildTree`

The nodes allocated with `new` are addressed by their path from the root; the pointers `parent` and
`children[i]` are stored in the node records, and a record read through an address that was never allocated is
undefined behaviour.  The two classes store items of different types (`PointSource` and `Vector`); the
model is parametric in the item type `α` and its position.

The member `local_expansion(center, expansion_order)` of `FmmNode` is not read while the tree is built; its
construction is modelled in `FmmPasses`.
-/

namespace FMM
variable {d : ℕ} {α : Type}

/-- `BaseNode` with the members of `FmmNode`/`FmmLeaf` that describe the tree (abstract_orthtree.hpp:51-69,
adaptive_fmm_tree.hpp:62-106, adaptive_point_orthtree.hpp:37-61). -/
@[ext] structure ANode (d : ℕ) (α : Type) where
  box : Box d
  depth : ℕ
  parent : Option Path
  isLeaf : Bool
  child : ℕ → Option Path
  items : List α

/-- The heap. -/
abbrev AHeap (d : ℕ) (α : Type) := Path → Option (ANode d α)

/-- Dereferencing a node pointer. -/
def AHeap.get (h : AHeap d α) (π : Path) : Outcome (ANode d α) :=
  match h π with
  | some n => .ok n
  | none => .error .ub

/-- `refineOrthant` (adaptive_fmm_tree.hpp:421-434, adaptive_point_orthtree.hpp:83-97): the array
`child_sources` has `n_children` entries. -/
noncomputable def refineOrthant (pos : α → Vec d) (center : Vec d) (items : List α) :
    Outcome (ℕ → List α) :=
  items.foldlM (fun cs s =>
    let index := getOrthant center (pos s)
    if index < 2 ^ d then .ok (Function.update cs index (cs index ++ [s])) else .error .ub) (fun _ => [])

/-- The variables changed by the loops of `buildTree` within one level. -/
structure LevelState (d : ℕ) (α : Type) where
  heap : AHeap d α
  nextNodes : List Path
  nextLeaves : List Path
  temp : List (List α)

/-- Body of the loop over the children (adaptive_fmm_tree.hpp:470-493,
adaptive_point_orthtree.hpp:129-150). -/
noncomputable def buildChild (max : ℕ) (π : Path) (cs : ℕ → List α) (st : LevelState d α) (i : ℕ) :
    Outcome (LevelState d α) := do
  let node ← st.heap.get π
  let leaf := ¬ max < (cs i).length
  let child : ANode d α :=
    { box := node.box.child i, depth := node.depth + 1, parent := some π, isLeaf := decide leaf,
      child := fun _ => none, items := if leaf then cs i else [] }
  let heap := Function.update
    (Function.update st.heap π (some { node with child := Function.update node.child i (some (i :: π)) }))
    (i :: π) (some child)
  if leaf then
    .ok { st with heap := heap, nextLeaves := st.nextLeaves ++ [i :: π] }
  else
    .ok { st with heap := heap, nextNodes := st.nextNodes ++ [i :: π], temp := st.temp ++ [cs i] }

/-- Body of the loop over the nodes of a level (adaptive_fmm_tree.hpp:458-494,
adaptive_point_orthtree.hpp:117-151). -/
noncomputable def buildNode (pos : α → Vec d) (max depth : ℕ) (level : List Path) (nodeSources : List (List α))
    (st : LevelState d α) (i : ℕ) : Outcome (LevelState d α) := do
  match level[i]?, nodeSources[i]? with
  | some π, some src => do
      let node ← st.heap.get π
      if node.depth + 1 ≠ depth then .error .assertFail
      else do
        let cs ← refineOrthant pos node.box.center src
        (List.range (2 ^ d)).foldlM (buildChild max π cs) st
  | _, _ => .error .ub

/-- Members of the tree object and the variables of `buildTree` that survive a level. -/
structure BuildState (d : ℕ) (α : Type) where
  heap : AHeap d α
  nodes : List (List Path)
  leaves : List (List Path)
  nodeSources : List (List α)

/-- The `while(refine)` loop of `AdaptiveFmmTree::buildTree` (adaptive_fmm_tree.hpp:436-505); the result contains the
height. -/
noncomputable def buildLoop (pos : α → Vec d) (max : ℕ) : ℕ → ℕ → BuildState d α → Outcome (BuildState d α × ℕ)
  | 0, _, _ => .error .fuel
  | fuel + 1, depth, st =>
      match st.nodes[depth]? with
      | none => .error .ub
      | some level => do
          let r ← (List.range level.length).foldlM (buildNode pos max (depth + 1) level st.nodeSources)
            { heap := st.heap, nextNodes := [], nextLeaves := [], temp := [] }
          let refine := r.nextNodes ≠ []
          let st' : BuildState d α :=
            { heap := r.heap, nodeSources := r.temp, leaves := st.leaves ++ [r.nextLeaves],
              nodes := if refine then st.nodes ++ [r.nextNodes] else st.nodes }
          if refine then buildLoop pos max fuel (depth + 1) st' else .ok (st', depth + 1)

/-- The `while(refine)` loop of `AdaptivePointOrthtree::buildTree` (adaptive_point_orthtree.hpp:99-161): here a level is
appended to `nodes` even if it is empty. -/
noncomputable def buildLoopP (pos : α → Vec d) (max : ℕ) : ℕ → ℕ → BuildState d α → Outcome (BuildState d α × ℕ)
  | 0, _, _ => .error .fuel
  | fuel + 1, depth, st =>
      match st.nodes[depth]? with
      | none => .error .ub
      | some level => do
          let r ← (List.range level.length).foldlM (buildNode pos max (depth + 1) level st.nodeSources)
            { heap := st.heap, nextNodes := [], nextLeaves := [], temp := [] }
          let refine := r.nextNodes ≠ []
          let st' : BuildState d α :=
            { heap := r.heap, nodeSources := r.temp, leaves := st.leaves ++ [r.nextLeaves],
              nodes := st.nodes ++ [r.nextNodes] }
          if st'.nodeSources.length ≠ r.nextNodes.length then .error .assertFail
          else if refine then buildLoopP pos max fuel (depth + 1) st' else .ok (st', depth + 1)

/-- The heap that contains only the root. -/
def rootHeap (r : Box d) (isLeaf : Bool) (items : List α) : AHeap d α := fun π =>
  if π = [] then some { box := r, depth := 0, parent := none, isLeaf := isLeaf, child := fun _ => none, items := items }
  else none

/-- `AdaptiveFmmTree::buildTree` called from the constructor (adaptive_fmm_tree.hpp:136-144). -/
noncomputable def buildTree (fuel : ℕ) (pos : α → Vec d) (r : Box d) (items : List α) (max : ℕ) :
    Outcome (BuildState d α × ℕ) :=
  buildLoop pos max fuel 0
    { heap := rootHeap r false [], nodes := [[[]]], leaves := [[]], nodeSources := [items] }

/-- `AdaptivePointOrthtree::buildTree` called from the constructor (adaptive_point_orthtree.hpp:63-81). -/
noncomputable def buildPointTree (fuel : ℕ) (pos : α → Vec d) (r : Box d) (items : List α) (max : ℕ) :
    Outcome (BuildState d α × ℕ) :=
  buildLoopP pos max fuel 0
    { heap := rootHeap r false [], nodes := [[[]]], leaves := [[]], nodeSources := [items] }

/-! ## Specification -/

/-- The items which `getOrthant` sends to the node `π`. -/
noncomputable def itemsAt (pos : α → Vec d) (r : Box d) (items : List α) (π : Path) : List α :=
  items.filter fun s => decide (route r (pos s) π.length = π)

/-- The tree of paths that `buildTree` is supposed to produce: a node other than the root is a leaf iff at most `max`
items are routed to it. -/
noncomputable def adaptiveTree (pos : α → Vec d) (r : Box d) (items : List α) (max : ℕ) : PTree where
  c := 2 ^ d
  leaf π := decide (π ≠ [] ∧ (itemsAt pos r items π).length ≤ max)
  adj π ρ := decide ((boxAt r π).adjacent (boxAt r ρ))

variable (pos : α → Vec d) (r : Box d) (items : List α) (max : ℕ)

/-- The node record at `π` if exactly the nodes satisfying `Al` are allocated. -/
noncomputable def specNode (Al : Path → Prop) (π : Path) : ANode d α :=
  open Classical in
  { box := boxAt r π, depth := π.length, parent := π.tail?
    isLeaf := (adaptiveTree pos r items max).leaf π
    child := fun i => if Al (i :: π) then some (i :: π) else none
    items := if (adaptiveTree pos r items max).leaf π then itemsAt pos r items π else [] }

/-- The heap with exactly the nodes satisfying `Al`. -/
noncomputable def specHeap (Al : Path → Prop) : AHeap d α := fun π =>
  open Classical in if Al π then some (specNode pos r items max Al π) else none

/-- Internal nodes of depth `k` from left to right. -/
noncomputable def nodeLevel : ℕ → List Path
  | 0 => [[]]
  | k + 1 => ((nodeLevel k).flatMap (adaptiveTree pos r items max).kids).filter
      fun π => !(adaptiveTree pos r items max).leaf π

/-- Leaves of depth `k` from left to right. -/
noncomputable def leafLevel : ℕ → List Path
  | 0 => []
  | k + 1 => ((nodeLevel pos r items max k).flatMap (adaptiveTree pos r items max).kids).filter
      fun π => (adaptiveTree pos r items max).leaf π

variable {pos r items max}

theorem itemsAt_nil : itemsAt pos r items [] = items := by
  simp [itemsAt, route]

theorem itemsAt_cons (i : ℕ) (π : Path) : itemsAt pos r items (i :: π)
    = (itemsAt pos r items π).filter fun s => decide (getOrthant (boxAt r π).center (pos s) = i) := by
  unfold itemsAt
  rw [List.filter_filter]
  refine List.filter_congr fun s _ => ?_
  simp only [List.length_cons, route]
  rw [← Bool.decide_and]
  refine decide_eq_decide.mpr ?_
  constructor
  · intro h
    obtain ⟨h1, h2⟩ := List.cons.inj h
    rw [h2] at h1
    exact ⟨h1, h2⟩
  · rintro ⟨h1, h2⟩
    rw [h2, h1]

theorem refineOrthant_ok (center : Vec d) (l : List α) :
    refineOrthant pos center l
      = .ok fun i => l.filter fun s => decide (getOrthant center (pos s) = i) := by
  have key : ∀ (cs : ℕ → List α), l.foldlM (fun cs s =>
      let index := getOrthant center (pos s)
      if index < 2 ^ d then (.ok (Function.update cs index (cs index ++ [s])) : Outcome (ℕ → List α))
      else .error .ub) cs
      = .ok fun i => cs i ++ l.filter fun s => decide (getOrthant center (pos s) = i) := by
    induction l with
    | nil => intro cs; simp only [List.foldlM_nil, List.filter_nil, List.append_nil]; rfl
    | cons s l ih =>
      intro cs
      simp only [List.foldlM_cons]
      rw [if_pos (getOrthant_lt _ _), ok_bind, ih]
      congr 1
      funext i
      by_cases h : getOrthant center (pos s) = i
      · subst h; simp
      · rw [Function.update_of_ne (Ne.symm h), List.filter_cons_of_neg (by simpa using h)]
  unfold refineOrthant
  rw [key]; simp

theorem leaf_cons (i : ℕ) (π : Path) : (adaptiveTree pos r items max).leaf (i :: π)
    = decide (¬ max < (itemsAt pos r items (i :: π)).length) := by
  simp [adaptiveTree]

theorem specHeap_get {Al : Path → Prop} {π : Path} (h : Al π) :
    (specHeap pos r items max Al).get π = .ok (specNode pos r items max Al π) := by
  unfold AHeap.get specHeap
  rw [if_pos h]

theorem specNode_congr {Al Al' : Path → Prop} {π : Path} (h : ∀ j, Al (j :: π) ↔ Al' (j :: π)) :
    specNode pos r items max Al π = specNode pos r items max Al' π := by
  classical
  refine ANode.ext rfl rfl rfl rfl ?_ rfl
  funext j
  simp only [specNode]
  by_cases h1 : Al (j :: π)
  · rw [if_pos h1, if_pos ((h j).mp h1)]
  · rw [if_neg h1, if_neg fun h2 => h1 ((h j).mpr h2)]

theorem specHeap_congr {Al Al' : Path → Prop} (h : ∀ π, Al π ↔ Al' π) :
    specHeap pos r items max Al = specHeap pos r items max Al' := by
  have : Al = Al' := funext fun π => propext (h π)
  rw [this]

/-- Allocating one child. -/
theorem buildChild_ok (Al : Path → Prop) (π : Path) (i : ℕ) (hπ : Al π) (hi : ¬ Al (i :: π))
    (hsub : ∀ j, ¬ Al (j :: i :: π)) (nn nl : List Path) (tmp : List (List α)) :
    buildChild max π (fun j => itemsAt pos r items (j :: π))
        { heap := specHeap pos r items max Al, nextNodes := nn, nextLeaves := nl, temp := tmp } i
      = .ok { heap := specHeap pos r items max (fun ρ => Al ρ ∨ ρ = i :: π)
              nextNodes := nn ++ [i :: π].filter fun ρ => !(adaptiveTree pos r items max).leaf ρ
              nextLeaves := nl ++ [i :: π].filter fun ρ => (adaptiveTree pos r items max).leaf ρ
              temp := tmp ++ ([i :: π].filter fun ρ => !(adaptiveTree pos r items max).leaf ρ).map
                (itemsAt pos r items) } := by
  classical
  unfold buildChild
  rw [specHeap_get hπ, ok_bind]
  have hheap : Function.update (Function.update (specHeap pos r items max Al) π
        (some { specNode pos r items max Al π with
          child := Function.update (specNode pos r items max Al π).child i (some (i :: π)) }))
        (i :: π) (some { box := (specNode pos r items max Al π).box.child i
                         depth := (specNode pos r items max Al π).depth + 1, parent := some π
                         isLeaf := decide (¬ max < (itemsAt pos r items (i :: π)).length)
                         child := fun _ => none
                         items := if ¬ max < (itemsAt pos r items (i :: π)).length
                           then itemsAt pos r items (i :: π) else [] })
      = specHeap pos r items max (fun ρ => Al ρ ∨ ρ = i :: π) := by
    funext ρ
    by_cases h1 : ρ = i :: π
    · subst h1
      rw [Function.update_self]
      unfold specHeap
      rw [if_pos (Or.inr rfl)]
      congr 1
      unfold specNode
      simp only [List.length_cons, List.tail?_cons, leaf_cons, boxAt]
      congr 1
      · funext j
        rw [if_neg]
        rintro (h | h)
        · exact hsub j h
        · have := congrArg List.length h
          simp at this
      · simp
    · rw [Function.update_of_ne h1]
      by_cases h2 : ρ = π
      · subst h2
        rw [Function.update_self]
        unfold specHeap
        rw [if_pos (Or.inl hπ)]
        congr 1
        refine ANode.ext rfl rfl rfl rfl ?_ rfl
        funext j
        simp only [specNode]
        by_cases hj : j = i
        · subst hj; rw [Function.update_self, if_pos (Or.inr rfl)]
        · rw [Function.update_of_ne hj]
          by_cases h : Al (j :: ρ)
          · rw [if_pos h, if_pos (Or.inl h)]
          · rw [if_neg h, if_neg]
            rintro (h' | h')
            · exact h h'
            · exact hj (List.cons.inj h').1
      · rw [Function.update_of_ne h2]
        unfold specHeap
        by_cases h3 : Al ρ
        · rw [if_pos h3, if_pos (Or.inl h3)]
          congr 1
          refine specNode_congr fun j => ⟨Or.inl, ?_⟩
          rintro (h | h)
          · exact h
          · exact absurd (List.cons.inj h).2 h2
        · rw [if_neg h3, if_neg]
          rintro (h | h)
          · exact h3 h
          · exact h1 h
  simp only
  rw [hheap]
  by_cases hl : max < (itemsAt pos r items (i :: π)).length
  · have : (adaptiveTree pos r items max).leaf (i :: π) = false := by rw [leaf_cons]; simpa using hl
    rw [if_neg (by simpa using hl)]
    simp [this]
  · have : (adaptiveTree pos r items max).leaf (i :: π) = true := by rw [leaf_cons]; simpa using hl
    rw [if_pos hl]
    simp [this]


section
variable (pos r items max)

/-- State of the level loops after the nodes `done` of a level. -/
noncomputable def specLevel (Al : Path → Prop) (kidsDone : List Path) : LevelState d α where
  heap := specHeap pos r items max fun ρ => Al ρ ∨ ρ ∈ kidsDone
  nextNodes := kidsDone.filter fun ρ => !(adaptiveTree pos r items max).leaf ρ
  nextLeaves := kidsDone.filter fun ρ => (adaptiveTree pos r items max).leaf ρ
  temp := (kidsDone.filter fun ρ => !(adaptiveTree pos r items max).leaf ρ).map (itemsAt pos r items)
end

theorem buildChildren_ok (Al : Path → Prop) (D : List Path) (π : Path) (hπ : Al π)
    (hi : ∀ i, ¬ Al (i :: π) ∧ (i :: π) ∉ D) (hsub : ∀ i j, ¬ Al (j :: i :: π) ∧ (j :: i :: π) ∉ D) (m : ℕ) :
    (List.range m).foldlM (buildChild max π fun j => itemsAt pos r items (j :: π)) (specLevel pos r items max Al D)
      = .ok (specLevel pos r items max Al (D ++ (List.range m).map (· :: π))) := by
  induction m with
  | zero => simp; rfl
  | succ m ih =>
    rw [List.range_succ, List.foldlM_append, ih, ok_bind]
    simp only [List.foldlM_cons, List.foldlM_nil]
    have := buildChild_ok (pos := pos) (r := r) (items := items) (max := max)
      (fun ρ => Al ρ ∨ ρ ∈ D ++ (List.range m).map (· :: π)) π m (Or.inl hπ) (by
        rintro (h | h)
        · exact (hi m).1 h
        · rcases List.mem_append.mp h with h | h
          · exact (hi m).2 h
          · obtain ⟨j, hj, h⟩ := List.mem_map.mp h
            rw [(List.cons.inj h).1] at hj
            simp at hj) (by
        intro j
        rintro (h | h)
        · exact (hsub m j).1 h
        · rcases List.mem_append.mp h with h | h
          · exact (hsub m j).2 h
          · obtain ⟨j', _, h⟩ := List.mem_map.mp h
            have := congrArg List.length h
            simp at this)
      (specLevel pos r items max Al (D ++ (List.range m).map (· :: π))).nextNodes
      (specLevel pos r items max Al (D ++ (List.range m).map (· :: π))).nextLeaves
      (specLevel pos r items max Al (D ++ (List.range m).map (· :: π))).temp
    have e : specLevel pos r items max Al (D ++ (List.range m).map (· :: π))
        = { heap := specHeap pos r items max fun ρ => Al ρ ∨ ρ ∈ D ++ (List.range m).map (· :: π)
            nextNodes := (specLevel pos r items max Al (D ++ (List.range m).map (· :: π))).nextNodes
            nextLeaves := (specLevel pos r items max Al (D ++ (List.range m).map (· :: π))).nextLeaves
            temp := (specLevel pos r items max Al (D ++ (List.range m).map (· :: π))).temp } := rfl
    rw [e, this, ok_bind]
    show Except.ok _ = Except.ok _
    congr 1
    unfold specLevel
    congr 1
    · refine specHeap_congr fun ρ => ?_
      simp only [List.map_append, List.map_cons, List.map_nil, List.mem_append, List.mem_singleton]
      tauto
    · simp only [List.map_append, List.map_cons, List.map_nil, List.filter_append, List.append_assoc]
    · simp only [List.map_append, List.map_cons, List.map_nil, List.filter_append, List.append_assoc]
    · simp only [List.map_append, List.map_cons, List.map_nil, List.filter_append, List.append_assoc]

theorem buildLevel_ok (Al : Path → Prop) (k : ℕ) (level : List Path) (hnd : level.Nodup)
    (hlev : ∀ π ∈ level, Al π ∧ π.length = k) (hAl : ∀ π, Al π → π.length ≤ k) :
    (List.range level.length).foldlM
        (buildNode pos max (k + 1) level (level.map (itemsAt pos r items)))
        { heap := specHeap pos r items max Al, nextNodes := [], nextLeaves := [], temp := [] }
      = .ok (specLevel pos r items max Al (level.flatMap (adaptiveTree pos r items max).kids)) := by
  have key : ∀ m ≤ level.length, (List.range m).foldlM
        (buildNode pos max (k + 1) level (level.map (itemsAt pos r items)))
        { heap := specHeap pos r items max Al, nextNodes := [], nextLeaves := [], temp := [] }
      = .ok (specLevel pos r items max Al ((level.take m).flatMap (adaptiveTree pos r items max).kids)) := by
    intro m
    induction m with
    | zero =>
      intro _
      show Except.ok _ = Except.ok _
      congr 1
      simp [specLevel]
    | succ m ih =>
      intro hm
      rw [List.range_succ, List.foldlM_append, ih (by omega), ok_bind]
      simp only [List.foldlM_cons, List.foldlM_nil]
      have hm' : m < level.length := by omega
      set π := level[m] with hπd
      have hπm : π ∈ level := List.getElem_mem hm'
      obtain ⟨hπA, hπl⟩ := hlev π hπm
      have htake : level.take (m + 1) = level.take m ++ [π] := by
        rw [List.take_add_one, List.getElem?_eq_getElem hm']; rfl
      have hD : ∀ ρ ∈ (level.take m).flatMap (adaptiveTree pos r items max).kids,
          ρ.length = k + 1 ∧ ∀ i, ρ ≠ i :: π := by
        intro ρ hρ
        obtain ⟨τ, hτ, hρ⟩ := List.mem_flatMap.mp hρ
        obtain ⟨i, _, rfl⟩ := PTree.mem_kids.mp hρ
        refine ⟨by rw [List.length_cons, (hlev τ (List.mem_of_mem_take hτ)).2], ?_⟩
        rintro j h
        have h := (List.cons.inj h).2
        rw [h, hπd, List.mem_take_iff_getElem] at hτ
        obtain ⟨i', hi', he⟩ := hτ
        have := (List.Nodup.getElem_inj_iff hnd).mp he
        omega
      have hget : (specLevel pos r items max Al
          ((level.take m).flatMap (adaptiveTree pos r items max).kids)).heap.get π
          = .ok (specNode pos r items max (fun ρ => Al ρ ∨ ρ ∈
            (level.take m).flatMap (adaptiveTree pos r items max).kids) π) := specHeap_get (Or.inl hπA)
      have hb : buildNode pos max (k + 1) level (level.map (itemsAt pos r items))
          (specLevel pos r items max Al ((level.take m).flatMap (adaptiveTree pos r items max).kids)) m
          = .ok (specLevel pos r items max Al
            ((level.take m).flatMap (adaptiveTree pos r items max).kids ++ (List.range (2 ^ d)).map (· :: π))) := by
        unfold buildNode
        rw [List.getElem?_map, List.getElem?_eq_getElem hm']
        simp only [Option.map_some]
        rw [← hπd, hget, ok_bind]
        rw [if_neg (by simp [specNode, hπl])]
        simp only [specNode]
        rw [refineOrthant_ok, ok_bind]
        have : (fun i => (itemsAt pos r items π).filter fun s => decide (getOrthant (boxAt r π).center (pos s) = i))
            = fun j => itemsAt pos r items (j :: π) := funext fun i => (itemsAt_cons i π).symm
        rw [this]
        refine buildChildren_ok Al _ π hπA ?_ ?_ (2 ^ d)
        · intro i
          refine ⟨fun h => ?_, fun h => (hD _ h).2 i rfl⟩
          have := hAl _ h
          simp at this; omega
        · intro i j
          refine ⟨fun h => ?_, fun h => ?_⟩
          · have := hAl _ h
            simp at this; omega
          · have := (hD _ h).1
            simp at this; omega
      rw [hb, ok_bind, htake]
      simp only [List.flatMap_append, List.flatMap_cons, List.flatMap_nil, List.append_nil]
      rfl
  have := key level.length le_rfl
  rwa [List.take_length] at this

/-! ## Levels -/

section
variable (pos r items max)
/-- Shorthand. -/
local notation "𝒯" => adaptiveTree pos r items max

theorem mem_nodeLevel (k : ℕ) (π : Path) :
    π ∈ nodeLevel pos r items max k ↔ (𝒯).Mem π ∧ π.length = k ∧ (𝒯).leaf π = false := by
  induction k generalizing π with
  | zero =>
    simp only [nodeLevel, List.mem_singleton]
    constructor
    · rintro rfl; exact ⟨PTree.mem_nil, rfl, by simp [adaptiveTree]⟩
    · rintro ⟨-, h, -⟩; exact List.length_eq_zero_iff.mp h
  | succ k ih =>
    simp only [nodeLevel, List.mem_filter, List.mem_flatMap, Bool.not_eq_true']
    constructor
    · rintro ⟨⟨τ, hτ, h⟩, hl⟩
      obtain ⟨i, hi, rfl⟩ := PTree.mem_kids.mp h
      obtain ⟨h1, h2, h3⟩ := (ih τ).mp hτ
      exact ⟨h1.cons h3 hi, by simp [h2], hl⟩
    · rintro ⟨h1, h2, h3⟩
      cases π with
      | nil => simp at h2
      | cons i τ =>
        refine ⟨⟨τ, (ih τ).mpr ⟨h1.tail, by simpa using h2, h1.parent_not_leaf⟩, ?_⟩, h3⟩
        exact PTree.mem_kids.mpr ⟨i, h1.lt, rfl⟩

theorem mem_leafLevel (k : ℕ) (π : Path) :
    π ∈ leafLevel pos r items max k ↔ (𝒯).Mem π ∧ π.length = k ∧ (𝒯).leaf π = true := by
  cases k with
  | zero =>
    simp only [leafLevel, List.not_mem_nil, false_iff]
    rintro ⟨-, h, h'⟩
    rw [List.length_eq_zero_iff.mp h] at h'
    simp [adaptiveTree] at h'
  | succ k =>
    simp only [leafLevel, List.mem_filter, List.mem_flatMap]
    constructor
    · rintro ⟨⟨τ, hτ, h⟩, hl⟩
      obtain ⟨i, hi, rfl⟩ := PTree.mem_kids.mp h
      obtain ⟨h1, h2, h3⟩ := (mem_nodeLevel pos r items max k τ).mp hτ
      exact ⟨h1.cons h3 hi, by simp [h2], hl⟩
    · rintro ⟨h1, h2, h3⟩
      cases π with
      | nil => simp at h2
      | cons i τ =>
        refine ⟨⟨τ, (mem_nodeLevel pos r items max k τ).mpr ⟨h1.tail, by simpa using h2, h1.parent_not_leaf⟩, ?_⟩, h3⟩
        exact PTree.mem_kids.mpr ⟨i, h1.lt, rfl⟩

theorem nodup_flatMap_kids' {T : PTree} {l : List Path} (h : l.Nodup) : (l.flatMap T.kids).Nodup := by
  rw [List.nodup_flatMap]
  refine ⟨fun π _ => PTree.nodup_kids π, List.Pairwise.imp ?_ h⟩
  intro a b hab x h1 h2
  obtain ⟨i, _, rfl⟩ := PTree.mem_kids.mp h1
  obtain ⟨j, _, h⟩ := PTree.mem_kids.mp h2
  exact hab (List.cons.inj h).2

theorem nodup_nodeLevel (k : ℕ) : (nodeLevel pos r items max k).Nodup := by
  induction k with
  | zero => simp [nodeLevel]
  | succ k ih => exact (nodup_flatMap_kids' ih).filter _

theorem nodup_leafLevel (k : ℕ) : (leafLevel pos r items max k).Nodup := by
  cases k with
  | zero => simp [leafLevel]
  | succ k => exact (nodup_flatMap_kids' (nodup_nodeLevel pos r items max k)).filter _

/-- The variables of `buildTree` after `k` levels. -/
noncomputable def specBuild (k : ℕ) (nodes : List (List Path)) : BuildState d α where
  heap := specHeap pos r items max fun π => (𝒯).Mem π ∧ π.length ≤ k
  nodes := nodes
  leaves := (List.range (k + 1)).map (leafLevel pos r items max)
  nodeSources := (nodeLevel pos r items max k).map (itemsAt pos r items)

theorem level_step (k : ℕ) : (List.range (nodeLevel pos r items max k).length).foldlM
      (buildNode pos max (k + 1) (nodeLevel pos r items max k)
        ((nodeLevel pos r items max k).map (itemsAt pos r items)))
      { heap := specHeap pos r items max fun π => (𝒯).Mem π ∧ π.length ≤ k
        nextNodes := [], nextLeaves := [], temp := [] }
    = .ok { heap := specHeap pos r items max fun π => (𝒯).Mem π ∧ π.length ≤ k + 1
            nextNodes := nodeLevel pos r items max (k + 1)
            nextLeaves := leafLevel pos r items max (k + 1)
            temp := (nodeLevel pos r items max (k + 1)).map (itemsAt pos r items) } := by
  rw [buildLevel_ok _ k _ (nodup_nodeLevel pos r items max k)]
  · congr 1
    unfold specLevel
    congr 1
    refine specHeap_congr fun ρ => ?_
    simp only [List.mem_flatMap]
    constructor
    · rintro (h | ⟨τ, hτ, h⟩)
      · exact ⟨h.1, by omega⟩
      · obtain ⟨i, hi, rfl⟩ := PTree.mem_kids.mp h
        obtain ⟨h1, h2, h3⟩ := (mem_nodeLevel pos r items max k τ).mp hτ
        exact ⟨h1.cons h3 hi, by simp [h2]⟩
    · rintro ⟨h1, h2⟩
      rcases Nat.lt_or_ge k ρ.length with h | h
      · right
        cases ρ with
        | nil => simp at h
        | cons i τ =>
          refine ⟨τ, (mem_nodeLevel pos r items max k τ).mpr ⟨h1.tail, ?_, h1.parent_not_leaf⟩,
            PTree.mem_kids.mpr ⟨i, h1.lt, rfl⟩⟩
          simp only [List.length_cons] at h h2
          omega
      · exact Or.inl ⟨h1, h⟩
  · intro π hπ
    obtain ⟨h1, h2, -⟩ := (mem_nodeLevel pos r items max k π).mp hπ
    exact ⟨⟨h1, h2.le⟩, h2⟩
  · rintro π ⟨-, h⟩; exact h

/-- `buildTree` from level `k` on, with `h` the first empty level of internal nodes. -/
theorem buildLoop_ok (h k : ℕ) (hk : k < h) (hne : ∀ j, k < j → j < h → nodeLevel pos r items max j ≠ [])
    (hh : nodeLevel pos r items max h = []) (fuel : ℕ) (hf : h - k ≤ fuel) :
    buildLoop pos max fuel k
        (specBuild pos r items max k ((List.range (k + 1)).map (nodeLevel pos r items max)))
      = .ok (specBuild pos r items max h ((List.range h).map (nodeLevel pos r items max)), h) := by
  obtain ⟨n, hn⟩ : ∃ n, h = k + n + 1 := ⟨h - k - 1, by omega⟩
  subst hn
  induction n generalizing k fuel with
  | zero =>
    obtain ⟨f, rfl⟩ : ∃ f, fuel = f + 1 := ⟨fuel - 1, by omega⟩
    have hnk : (List.map (nodeLevel pos r items max) (List.range (k + 1)))[k]?
        = some (nodeLevel pos r items max k) := by simp
    unfold buildLoop
    simp only [specBuild, hnk]
    rw [level_step, ok_bind]
    simp only [add_zero] at hh ⊢
    rw [if_neg (by simpa using hh), if_neg (by simpa using hh)]
    rw [List.range_succ (n := k + 1), List.map_append]
    rfl
  | succ n ih =>
    obtain ⟨f, rfl⟩ : ∃ f, fuel = f + 1 := ⟨fuel - 1, by omega⟩
    have hnk : (List.map (nodeLevel pos r items max) (List.range (k + 1)))[k]?
        = some (nodeLevel pos r items max k) := by simp
    have hn1 := hne (k + 1) (by omega) (by omega)
    unfold buildLoop
    simp only [specBuild, hnk]
    rw [level_step, ok_bind]
    simp only
    rw [if_pos hn1, if_pos hn1]
    have := ih (k + 1) f (by omega) (fun j h1 h2 => hne j (by omega) (by omega)) (by
      rw [show k + 1 + n + 1 = k + (n + 1) + 1 by ring]; exact hh) (by omega)
    rw [show k + 1 + n + 1 = k + (n + 1) + 1 by ring] at this
    refine Eq.trans ?_ this
    congr 1
    unfold specBuild
    congr 1
    · rw [List.range_succ (n := k + 1), List.map_append]; rfl
    · rw [List.range_succ (n := k + 1), List.map_append]; rfl

theorem specHeap_root : rootHeap r false [] = specHeap pos r items max fun π => (𝒯).Mem π ∧ π.length ≤ 0 := by
  classical
  funext π
  unfold rootHeap specHeap
  by_cases h : π = []
  · subst h
    rw [if_pos rfl, if_pos ⟨PTree.mem_nil, le_rfl⟩]
    congr 1
    refine ANode.ext rfl rfl rfl ?_ ?_ ?_
    · simp [specNode, adaptiveTree]
    · funext i
      simp only [specNode]
      rw [if_neg]
      rintro ⟨-, h⟩
      simp at h
    · simp [specNode, adaptiveTree]
  · rw [if_neg h, if_neg]
    rintro ⟨-, h'⟩
    exact h (List.length_eq_zero_iff.mp (by omega))

theorem buildTree_init : ({ heap := rootHeap r false [], nodes := [[[]]], leaves := [[]], nodeSources := [items] } :
    BuildState d α) = specBuild pos r items max 0 ((List.range 1).map (nodeLevel pos r items max)) := by
  unfold specBuild
  rw [← specHeap_root]
  simp [nodeLevel, leafLevel, itemsAt_nil]

/-- `h` is the height of the tree: the first positive depth without internal nodes. -/
def IsHeight (h : ℕ) : Prop :=
  0 < h ∧ nodeLevel pos r items max h = [] ∧ ∀ j, 0 < j → j < h → nodeLevel pos r items max j ≠ []

theorem buildTree_ok (h : ℕ) (hh : IsHeight pos r items max h) (fuel : ℕ) (hf : h ≤ fuel) :
    buildTree fuel pos r items max
      = .ok (specBuild pos r items max h ((List.range h).map (nodeLevel pos r items max)), h) := by
  unfold buildTree
  rw [buildTree_init pos r items max]
  exact buildLoop_ok pos r items max h 0 hh.1 (fun j h1 h2 => hh.2.2 j h1 h2) hh.2.1 fuel (by omega)

theorem buildLoopP_ok (h k : ℕ) (hk : k < h) (hne : ∀ j, k < j → j < h → nodeLevel pos r items max j ≠ [])
    (hh : nodeLevel pos r items max h = []) (fuel : ℕ) (hf : h - k ≤ fuel) :
    buildLoopP pos max fuel k
        (specBuild pos r items max k ((List.range (k + 1)).map (nodeLevel pos r items max)))
      = .ok (specBuild pos r items max h ((List.range (h + 1)).map (nodeLevel pos r items max)), h) := by
  obtain ⟨n, hn⟩ : ∃ n, h = k + n + 1 := ⟨h - k - 1, by omega⟩
  subst hn
  induction n generalizing k fuel with
  | zero =>
    obtain ⟨f, rfl⟩ : ∃ f, fuel = f + 1 := ⟨fuel - 1, by omega⟩
    have hnk : (List.map (nodeLevel pos r items max) (List.range (k + 1)))[k]?
        = some (nodeLevel pos r items max k) := by simp
    unfold buildLoopP
    simp only [specBuild, hnk]
    rw [level_step, ok_bind]
    simp only [add_zero] at hh ⊢
    rw [if_neg (by simp), if_neg (by simpa using hh)]
    rw [List.range_succ (n := k + 1), List.map_append, List.map_append]
    rfl
  | succ n ih =>
    obtain ⟨f, rfl⟩ : ∃ f, fuel = f + 1 := ⟨fuel - 1, by omega⟩
    have hnk : (List.map (nodeLevel pos r items max) (List.range (k + 1)))[k]?
        = some (nodeLevel pos r items max k) := by simp
    have hn1 := hne (k + 1) (by omega) (by omega)
    unfold buildLoopP
    simp only [specBuild, hnk]
    rw [level_step, ok_bind]
    simp only
    rw [if_neg (by simp), if_pos hn1]
    have := ih (k + 1) f (by omega) (fun j h1 h2 => hne j (by omega) (by omega)) (by
      rw [show k + 1 + n + 1 = k + (n + 1) + 1 by ring]; exact hh) (by omega)
    rw [show k + 1 + n + 1 = k + (n + 1) + 1 by ring] at this
    refine Eq.trans ?_ this
    congr 1
    unfold specBuild
    congr 1
    · rw [List.range_succ (n := k + 1), List.map_append]; rfl
    · rw [List.range_succ (n := k + 1), List.map_append]; rfl

theorem buildPointTree_ok (h : ℕ) (hh : IsHeight pos r items max h) (fuel : ℕ) (hf : h ≤ fuel) :
    buildPointTree fuel pos r items max
      = .ok (specBuild pos r items max h ((List.range (h + 1)).map (nodeLevel pos r items max)), h) := by
  unfold buildPointTree
  rw [buildTree_init pos r items max]
  exact buildLoopP_ok pos r items max h 0 hh.1 (fun j h1 h2 => hh.2.2 j h1 h2) hh.2.1 fuel (by omega)

/-! ## Non-termination -/

theorem buildLoop_diverges (hne : ∀ j, nodeLevel pos r items max j ≠ []) (fuel k : ℕ) :
    buildLoop pos max fuel k
        (specBuild pos r items max k ((List.range (k + 1)).map (nodeLevel pos r items max)))
      = .error .fuel := by
  induction fuel generalizing k with
  | zero => rfl
  | succ f ih =>
    have hnk : (List.map (nodeLevel pos r items max) (List.range (k + 1)))[k]?
        = some (nodeLevel pos r items max k) := by simp
    have hn1 := hne (k + 1)
    unfold buildLoop
    simp only [specBuild, hnk]
    rw [level_step, ok_bind]
    simp only
    rw [if_pos hn1, if_pos hn1]
    rw [← ih (k + 1)]
    congr 1
    unfold specBuild
    congr 1
    · rw [List.range_succ (n := k + 1), List.map_append]; rfl
    · rw [List.range_succ (n := k + 1), List.map_append]; rfl

theorem buildLoopP_diverges (hne : ∀ j, nodeLevel pos r items max j ≠ []) (fuel k : ℕ) :
    buildLoopP pos max fuel k
        (specBuild pos r items max k ((List.range (k + 1)).map (nodeLevel pos r items max)))
      = .error .fuel := by
  induction fuel generalizing k with
  | zero => rfl
  | succ f ih =>
    have hnk : (List.map (nodeLevel pos r items max) (List.range (k + 1)))[k]?
        = some (nodeLevel pos r items max k) := by simp
    have hn1 := hne (k + 1)
    unfold buildLoopP
    simp only [specBuild, hnk]
    rw [level_step, ok_bind]
    simp only
    rw [if_neg (by simp), if_pos hn1]
    rw [← ih (k + 1)]
    congr 1
    unfold specBuild
    congr 1
    · rw [List.range_succ (n := k + 1), List.map_append]; rfl
    · rw [List.range_succ (n := k + 1), List.map_append]; rfl

theorem nodeLevel_nil_mono (j k : ℕ) (h : j ≤ k) (hj : nodeLevel pos r items max j = []) :
    nodeLevel pos r items max k = [] := by
  obtain ⟨m, rfl⟩ := Nat.exists_eq_add_of_le h
  induction m with
  | zero => exact hj
  | succ m ih => rw [← add_assoc]; simp [nodeLevel, ih (by omega)]

theorem exists_isHeight (k : ℕ) (hk : nodeLevel pos r items max k = []) : ∃ h ≤ k, IsHeight pos r items max h := by
  classical
  have hex : ∃ k, nodeLevel pos r items max k = [] := ⟨k, hk⟩
  refine ⟨Nat.find hex, Nat.find_min' hex hk, ?_, Nat.find_spec hex, ?_⟩
  · rw [Nat.find_pos]; simp [nodeLevel]
  · intro j _ hj; exact Nat.find_min hex hj

/-- The run ends, for some and then for all larger numbers of iterations, or never. -/
theorem buildTree_total : (∃ h, IsHeight pos r items max h) ∨
    ∀ fuel, buildTree fuel pos r items max = .error .fuel ∧ buildPointTree fuel pos r items max = .error .fuel := by
  by_cases hex : ∃ k, nodeLevel pos r items max k = []
  · obtain ⟨k, hk⟩ := hex
    obtain ⟨h, _, hh⟩ := exists_isHeight pos r items max k hk
    exact Or.inl ⟨h, hh⟩
  · right
    push Not at hex
    intro fuel
    unfold buildTree buildPointTree
    rw [buildTree_init pos r items max]
    exact ⟨buildLoop_diverges pos r items max hex fuel 0, buildLoopP_diverges pos r items max hex fuel 0⟩

end

end FMM
