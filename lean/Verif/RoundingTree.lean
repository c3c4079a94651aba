import Verif.PropsLists
import Verif.RoundingRoute

/-!
# Construction of the adaptive tree with rounding

`AdaptiveFmmTree::buildTree` and `computeNodeNeighbourhood` (see `AdaptiveBuild`, `AdaptiveNbh`) with a function `rnd`
applied to the result of every arithmetic operation on coordinates.  The heap records hold the rounded boxes.
-/

namespace FMM.Rounded
variable {d : ℕ} {α : Type}

/-- The box of a heap record. -/
def toR (b : Box d) : RBox ℝ d := ⟨b.center, b.len⟩

section model
variable (rnd : ℝ → ℝ)

/-- Body of the loop over the children (adaptive_fmm_tree.hpp:470-493). -/
noncomputable def buildChild (max : ℕ) (π : Path) (cs : ℕ → List α) (st : LevelState d α) (i : ℕ) :
    Outcome (LevelState d α) := do
  let node ← st.heap.get π
  let leaf := ¬ max < (cs i).length
  let child : ANode d α :=
    { box := ((toR node.box).child rnd i).exact, depth := node.depth + 1, parent := some π, isLeaf := decide leaf,
      child := fun _ => none, items := if leaf then cs i else [] }
  let heap := Function.update
    (Function.update st.heap π (some { node with child := Function.update node.child i (some (i :: π)) }))
    (i :: π) (some child)
  if leaf then
    .ok { st with heap := heap, nextLeaves := st.nextLeaves ++ [i :: π] }
  else
    .ok { st with heap := heap, nextNodes := st.nextNodes ++ [i :: π], temp := st.temp ++ [cs i] }

/-- Body of the loop over the nodes of a level (adaptive_fmm_tree.hpp:458-494). -/
noncomputable def buildNode (pos : α → Vec d) (max depth : ℕ) (level : List Path) (nodeSources : List (List α))
    (st : LevelState d α) (i : ℕ) : Outcome (LevelState d α) := do
  match level[i]?, nodeSources[i]? with
  | some π, some src => do
      let node ← st.heap.get π
      if node.depth + 1 ≠ depth then .error .assertFail
      else do
        let cs ← refineOrthant pos node.box.center src
        (List.range (2 ^ d)).foldlM (buildChild rnd max π cs) st
  | _, _ => .error .ub

/-- The `while(refine)` loop (adaptive_fmm_tree.hpp:436-505). -/
noncomputable def buildLoop (pos : α → Vec d) (max : ℕ) : ℕ → ℕ → BuildState d α → Outcome (BuildState d α × ℕ)
  | 0, _, _ => .error .fuel
  | fuel + 1, depth, st =>
      match st.nodes[depth]? with
      | none => .error .ub
      | some level => do
          let r ← (List.range level.length).foldlM (buildNode rnd pos max (depth + 1) level st.nodeSources)
            { heap := st.heap, nextNodes := [], nextLeaves := [], temp := [] }
          let refine := r.nextNodes ≠ []
          let st' : BuildState d α :=
            { heap := r.heap, nodeSources := r.temp, leaves := st.leaves ++ [r.nextLeaves],
              nodes := if refine then st.nodes ++ [r.nextNodes] else st.nodes }
          if refine then buildLoop pos max fuel (depth + 1) st' else .ok (st', depth + 1)

/-- The part of the constructor that allocates the nodes (adaptive_fmm_tree.hpp:121-144). -/
noncomputable def adaptiveBuild (fuel : ℕ) (pos : α → Vec d) (r : RBox ℝ d) (items : List α) (max : ℕ) :
    Outcome (BuildState d α × ℕ) :=
  if items.length ≤ max then
    .ok ({ heap := rootHeap r.exact true items, nodes := [], leaves := [[[]]], nodeSources := [] }, 0)
  else buildLoop rnd pos max fuel 0
    { heap := rootHeap r.exact false [], nodes := [[[]]], leaves := [[]], nodeSources := [items] }

variable (nrm : Vec d → ℝ)

/-- The condition of the sanity check (adaptive_fmm_tree.hpp:557-558); `nrm` is the computed norm. -/
def tooClose (a b : Box d) : Prop :=
  nrm (vsub rnd a.center b.center) < rnd (rnd (199 / 100) * a.len)

open Classical in
/-- Body of the loop over the children of a parent neighbour (adaptive_fmm_tree.hpp:541-564). -/
noncomputable def nbhChild (heap : AHeap d α) (π par : Path) (node : ANode d α) (child : ℕ → Option Path) (st : Nbh)
    (i : ℕ) : Outcome Nbh :=
  match child i with
  | none => .error .ub
  | some c => do
      let cn ← heap.get c
      if (toR node.box).adjacent rnd (toR cn.box) then
        if !node.isLeaf || cn.isLeaf then pushNear par π c st else .ok st
      else if tooClose rnd nrm node.box cn.box then .error .logicError
      else .ok { st with inter := pushAt st.inter π c }

/-- Body of the loop over the near neighbours of the parent (adaptive_fmm_tree.hpp:521-566). -/
noncomputable def nbhStep (heap : AHeap d α) (π par : Path) (node : ANode d α) (st : Nbh) (ν : Path) : Outcome Nbh := do
  let pn ← heap.get ν
  if pn.isLeaf then
    if (toR node.box).adjacent rnd (toR pn.box) then do
      let st ← pushNear par π ν st
      if node.isLeaf then pushNear par ν π st else .ok st
    else .ok { st with X := pushAt st.X π ν, W := pushAt st.W ν π }
  else (List.range (2 ^ d)).foldlM (nbhChild rnd nrm heap π par node pn.child) st

/-- `computeNodeNeighbourhood` (adaptive_fmm_tree.hpp:507-567). -/
noncomputable def computeNodeNeighbourhood (heap : AHeap d α) (st : Nbh) (π : Path) : Outcome Nbh := do
  let node ← heap.get π
  match node.parent with
  | none => .ok { st with near := pushAt st.near π π }
  | some par => (st.near par).foldlM (nbhStep rnd nrm heap π par node) st

/-- Neighbourhoods of all nodes (adaptive_fmm_tree.hpp:144-147). -/
noncomputable def computeNeighbourhoods (fuel : ℕ) (heap : AHeap d α) : Outcome Nbh :=
  traverseBFS (2 ^ d) (fun _ π => do let n ← heap.get π; .ok n.child) (computeNodeNeighbourhood rnd nrm heap) fuel []
    Nbh.empty

/-- Construction of the nodes and of their lists (adaptive_fmm_tree.hpp:121-147). -/
noncomputable def adaptiveLists (fuel : ℕ) (pos : α → Vec d) (r : RBox ℝ d) (items : List α) (max : ℕ) :
    Outcome (BuildState d α × ℕ × Nbh) := do
  let (st, h) ← adaptiveBuild rnd fuel pos r items max
  if items.length ≤ max then do
    let nb ← computeNodeNeighbourhood rnd nrm st.heap Nbh.empty []
    .ok (st, h, nb)
  else do
    let nb ← computeNeighbourhoods rnd nrm fuel st.heap
    .ok (st, h, nb)

end model

/-! ## Without rounding -/

theorem toR_exact (b : Box d) : (toR b).exact = b := rfl

theorem buildChild_id : (buildChild id : ℕ → Path → (ℕ → List α) → LevelState d α → ℕ → _) = FMM.buildChild := by
  funext max π cs st i
  unfold buildChild FMM.buildChild
  simp only [child_id, toR_exact]

theorem buildLoop_id (pos : α → Vec d) (max : ℕ) : buildLoop id pos max = FMM.buildLoop pos max := by
  have hn : ∀ depth, (buildNode id pos max depth : List Path → _) = FMM.buildNode pos max depth := by
    intro depth
    funext level ns st i
    unfold buildNode FMM.buildNode
    rw [buildChild_id]
    cases level[i]? <;> cases ns[i]? <;> rfl
  funext fuel
  induction fuel with
  | zero => funext k st; rfl
  | succ f ih =>
    funext k st
    unfold buildLoop FMM.buildLoop
    rw [hn, ih]
    cases st.nodes[k]? <;> rfl

theorem adaptiveBuild_id (fuel : ℕ) (pos : α → Vec d) (r : RBox ℝ d) (items : List α) (max : ℕ) :
    adaptiveBuild id fuel pos r items max = FMM.adaptiveBuild fuel pos r.exact items max := by
  unfold adaptiveBuild FMM.adaptiveBuild FMM.buildTree
  rw [buildLoop_id]

theorem nbhChild_id : (nbhChild id Vec.norm : AHeap d α → _) = FMM.nbhChild := by
  funext heap π par node child st i
  unfold nbhChild FMM.nbhChild
  cases child i with
  | none => rfl
  | some c =>
    simp only
    congr 1
    funext cn
    have h1 : ((toR node.box).adjacent id (toR cn.box) = true) ↔ node.box.adjacent cn.box := by
      rw [adjacent_id]; rfl
    have h2 : tooClose id Vec.norm node.box cn.box ↔
        Vec.norm (node.box.center - cn.box.center) < 199 / 100 * node.box.len := by
      unfold tooClose
      have : vsub id node.box.center cn.box.center = node.box.center - cn.box.center := by
        funext i; simp [vsub, vadd, vneg, vscale, sub_eq_add_neg]
      rw [this]; rfl
    by_cases ha : node.box.adjacent cn.box
    · rw [if_pos ha, if_pos (h1.mpr ha)]
    · rw [if_neg ha, if_neg (fun h => ha (h1.mp h))]
      by_cases hb : tooClose id Vec.norm node.box cn.box
      · rw [if_pos hb, if_pos (h2.mp hb)]
      · rw [if_neg hb, if_neg (fun h => hb (h2.mpr h))]

theorem nbhStep_id : (nbhStep id Vec.norm : AHeap d α → _) = FMM.nbhStep := by
  funext heap π par node st ν
  unfold nbhStep FMM.nbhStep
  rw [nbhChild_id]
  congr 1
  funext pn
  have h1 : ((toR node.box).adjacent id (toR pn.box) = true) ↔ node.box.adjacent pn.box := by
    rw [adjacent_id]; rfl
  by_cases ha : node.box.adjacent pn.box
  · rw [if_pos ha, if_pos (h1.mpr ha)]
  · rw [if_neg ha, if_neg (fun h => ha (h1.mp h))]

/-- With `rnd = id` and the exact norm this is the exact model. -/
theorem adaptiveLists_id (fuel : ℕ) (pos : α → Vec d) (r : RBox ℝ d) (items : List α) (max : ℕ) :
    adaptiveLists id Vec.norm fuel pos r items max = FMM.adaptiveLists fuel pos r.exact items max := by
  have h : (computeNodeNeighbourhood id Vec.norm : AHeap d α → _) = FMM.computeNodeNeighbourhood := by
    funext heap st π
    unfold computeNodeNeighbourhood FMM.computeNodeNeighbourhood
    rw [nbhStep_id]
    congr 1
  unfold adaptiveLists FMM.adaptiveLists computeNeighbourhoods FMM.computeNeighbourhoods
  rw [h, adaptiveBuild_id]

/-! ## Simulation of the construction by the exact one -/

/-- Replace the boxes of a heap. -/
def liftH (bx : Path → Box d) (h : AHeap d α) : AHeap d α := fun π => (h π).map fun n => { n with box := bx π }
/-- Replace the boxes. -/
def liftL (bx : Path → Box d) (st : LevelState d α) : LevelState d α := { st with heap := liftH bx st.heap }
/-- Replace the boxes. -/
def liftB (bx : Path → Box d) (st : BuildState d α) : BuildState d α := { st with heap := liftH bx st.heap }

variable {rnd : ℝ → ℝ} {r : RBox ℝ d}

/-- The rounded boxes. -/
noncomputable def bxR (rnd : ℝ → ℝ) (r : RBox ℝ d) (π : Path) : Box d := (boxAt rnd r π).exact

theorem liftH_get (bx : Path → Box d) (h : AHeap d α) (π : Path) :
    (liftH bx h).get π = (h.get π).map fun n => { n with box := bx π } := by
  unfold AHeap.get liftH
  cases h π <;> rfl

theorem foldlM_sim {S X : Type} (lift : S → S) (I : S → Prop) (f g : S → X → Outcome S) (l : List X)
    (hs : ∀ s, I s → ∀ x ∈ l, g (lift s) x = (f s x).map lift)
    (hI : ∀ s, I s → ∀ x ∈ l, ∀ s', f s x = .ok s' → I s') (s : S) (h : I s) :
    l.foldlM g (lift s) = (l.foldlM f s).map lift := by
  induction l generalizing s with
  | nil => rfl
  | cons x l ih =>
    rw [List.foldlM_cons, List.foldlM_cons, hs s h x (by simp)]
    cases hf : f s x with
    | error e => rfl
    | ok s' =>
      show List.foldlM g (lift s') l = Except.map lift (List.foldlM f s' l)
      exact ih (fun s h y hy => hs s h y (by simp [hy])) (fun s h y hy => hI s h y (by simp [hy])) s' (hI s h x (by simp) s' hf)

theorem buildChild_sim (max : ℕ) (π : Path) (cs : ℕ → List α) (st : LevelState d α) (i : ℕ) :
    buildChild rnd max π cs (liftL (bxR rnd r) st) i = (FMM.buildChild max π cs st i).map (liftL (bxR rnd r)) := by
  unfold buildChild FMM.buildChild
  have e : (liftL (bxR rnd r) st).heap = liftH (bxR rnd r) st.heap := rfl
  rw [e, liftH_get]
  cases hg : st.heap.get π with
  | error e => rfl
  | ok n =>
    show (do let node ← (Except.ok { n with box := bxR rnd r π } : Outcome (ANode d α)); _) = Except.map _ _
    rw [ok_bind, ok_bind]
    have hh : Function.update
        (Function.update (liftH (bxR rnd r) st.heap) π
          (some { { n with box := bxR rnd r π } with child := Function.update n.child i (some (i :: π)) })) (i :: π)
        (some { box := ((toR (bxR rnd r π)).child rnd i).exact, depth := n.depth + 1, parent := some π,
                isLeaf := decide ¬ max < (cs i).length, child := fun _ => none,
                items := if ¬ max < (cs i).length then cs i else [] })
        = liftH (bxR rnd r) (Function.update
        (Function.update st.heap π (some { n with child := Function.update n.child i (some (i :: π)) })) (i :: π)
        (some { box := n.box.child i, depth := n.depth + 1, parent := some π,
                isLeaf := decide ¬ max < (cs i).length, child := fun _ => none,
                items := if ¬ max < (cs i).length then cs i else [] })) := by
      funext ρ
      by_cases h1 : ρ = i :: π
      · subst h1; simp only [liftH, Function.update_self, Option.map_some]; rfl
      · by_cases h2 : ρ = π
        · subst h2; simp only [liftH, Function.update_of_ne h1, Function.update_self, Option.map_some]
        · simp only [liftH, Function.update_of_ne h1, Function.update_of_ne h2]
    simp only
    rw [hh]
    by_cases hl : ¬ max < (cs i).length
    · simp only [if_pos hl]; rfl
    · simp only [if_neg hl]; rfl

/-- The boxes of the exact heap. -/
def Boxed (r : Box d) (h : AHeap d α) : Prop := ∀ π n, h π = some n → n.box = FMM.boxAt r π

theorem buildChild_boxed {b : Box d} {max : ℕ} {π : Path} {cs : ℕ → List α} {st st' : LevelState d α} {i : ℕ} (h : Boxed b st.heap)
    (hc : FMM.buildChild max π cs st i = .ok st') : Boxed b st'.heap := by
  unfold FMM.buildChild at hc
  cases hg : st.heap.get π with
  | error e => rw [hg] at hc; cases hc
  | ok n =>
    rw [hg, ok_bind] at hc
    have hn : st.heap π = some n := by
      unfold AHeap.get at hg
      cases h' : st.heap π with
      | none => rw [h'] at hg; cases hg
      | some m => rw [h'] at hg; cases hg; rfl
    have key : Boxed b (Function.update
        (Function.update st.heap π (some { n with child := Function.update n.child i (some (i :: π)) })) (i :: π)
        (some { box := n.box.child i, depth := n.depth + 1, parent := some π,
                isLeaf := decide ¬ max < (cs i).length, child := fun _ => none,
                items := if ¬ max < (cs i).length then cs i else [] })) := by
      intro ρ m hm
      by_cases h1 : ρ = i :: π
      · subst h1
        rw [Function.update_self] at hm
        cases hm
        show n.box.child i = (FMM.boxAt b π).child i
        rw [h π n hn]
      · rw [Function.update_of_ne h1] at hm
        by_cases h2 : ρ = π
        · subst h2; rw [Function.update_self] at hm; cases hm; exact h _ n hn
        · rw [Function.update_of_ne h2] at hm; exact h ρ m hm
    simp only at hc
    by_cases hl : ¬ max < (cs i).length
    · rw [if_pos hl] at hc; cases hc; exact key
    · rw [if_neg hl] at hc; cases hc; exact key

theorem foldlM_inv' {S X : Type} (I : S → Prop) (f : S → X → Outcome S) (l : List X)
    (hI : ∀ s, I s → ∀ x ∈ l, ∀ s', f s x = .ok s' → I s') (s s' : S) (h : I s) (hf : l.foldlM f s = .ok s') : I s' := by
  induction l generalizing s with
  | nil => cases hf; exact h
  | cons x l ih =>
    rw [List.foldlM_cons] at hf
    cases hx : f s x with
    | error e => rw [hx] at hf; cases hf
    | ok t => rw [hx, ok_bind] at hf; exact ih (fun s h y hy => hI s h y (by simp [hy])) t (hI s h x (by simp) t hx) hf

theorem refineOrthant_congr (pos pos' : α → Vec d) (c c' : Vec d) (l : List α)
    (h : ∀ s ∈ l, FMM.getOrthant c (pos s) = FMM.getOrthant c' (pos' s)) : refineOrthant pos c l = refineOrthant pos' c' l := by
  rw [refineOrthant_ok, refineOrthant_ok]
  congr 1
  funext i
  refine List.filter_congr fun s hs => ?_
  rw [h s hs]

theorem buildNode_sim (pos pos' : α → Vec d) (max depth : ℕ) (level : List Path) (ns : List (List α))
    (hag : ∀ (i : ℕ) (π : Path) (src : List α), level[i]? = some π → ns[i]? = some src → ∀ s ∈ src,
      FMM.getOrthant (bxR rnd r π).center (pos s) = FMM.getOrthant (FMM.boxAt r.exact π).center (pos' s))
    (st : LevelState d α) (hb : Boxed r.exact st.heap) (i : ℕ) :
    buildNode rnd pos max depth level ns (liftL (bxR rnd r) st) i
      = (FMM.buildNode pos' max depth level ns st i).map (liftL (bxR rnd r)) := by
  unfold buildNode FMM.buildNode
  cases h1 : level[i]? with
  | none => rfl
  | some π =>
    cases h2 : ns[i]? with
    | none => rfl
    | some src =>
      simp only
      have e : (liftL (bxR rnd r) st).heap = liftH (bxR rnd r) st.heap := rfl
      rw [e, liftH_get]
      cases hg : st.heap.get π with
      | error e => rfl
      | ok n =>
        have hn : st.heap π = some n := by
          unfold AHeap.get at hg
          cases h' : st.heap π with
          | none => rw [h'] at hg; cases hg
          | some m => rw [h'] at hg; cases hg; rfl
        show (do let node ← (Except.ok { n with box := bxR rnd r π } : Outcome (ANode d α)); _) = Except.map _ _
        rw [ok_bind, ok_bind]
        by_cases hd : n.depth + 1 ≠ depth
        · simp only; rw [if_pos hd, if_pos hd]; rfl
        · simp only
          rw [if_neg hd, if_neg hd, hb π n hn,
            refineOrthant_congr pos pos' (bxR rnd r π).center (FMM.boxAt r.exact π).center src (hag i π src h1 h2)]
          rw [refineOrthant_ok, ok_bind, ok_bind]
          exact foldlM_sim (liftL (bxR rnd r)) (fun _ => True) _ _ _ (fun s _ x _ => buildChild_sim max π _ s x)
            (fun _ _ _ _ _ _ => trivial) st trivial

theorem buildNode_boxed {b : Box d} {pos : α → Vec d} {max depth : ℕ} {level : List Path} {ns : List (List α)}
    {st st' : LevelState d α} {i : ℕ} (h : Boxed b st.heap) (hc : FMM.buildNode pos max depth level ns st i = .ok st') :
    Boxed b st'.heap := by
  unfold FMM.buildNode at hc
  cases h1 : level[i]? with
  | none => simp [h1] at hc
  | some π =>
    cases h2 : ns[i]? with
    | none => simp [h1, h2] at hc
    | some src =>
      simp only [h1, h2] at hc
      cases hg : st.heap.get π with
      | error e => rw [hg] at hc; cases hc
      | ok n =>
        rw [hg, ok_bind] at hc
        by_cases hd : n.depth + 1 ≠ depth
        · rw [if_pos hd] at hc; cases hc
        · rw [if_neg hd, refineOrthant_ok, ok_bind] at hc
          exact foldlM_inv' (fun s : LevelState d α => Boxed b s.heap) _ _ (fun s hs x _ s' hx => buildChild_boxed hs hx) _ _ h hc

end FMM.Rounded
