import Verif.RoundingNbh
import Verif.PropsRounding
import Verif.PropsBalanced

/-!
# Construction of the balanced tree with rounding

`BalancedFmmTree::expandNode`, `distributePointSources` and `computeNodeNeighbourhood` (see `BalancedBuild`, `BalancedTree`)
with a function `rnd` applied to the result of every arithmetic operation on coordinates.
-/

namespace FMM.Rounded
variable {d : ℕ} {α : Type}

section model
variable (rnd : ℝ → ℝ)

/-- Body of the two loops of `expandNode` (balanced_fmm_tree.hpp:409-419 and 422-434). -/
noncomputable def expandChild (inner : Bool) (a : BAddr) (box : Box d) (depth : ℕ) (m : BMem d) (j : ℕ) :
    Outcome (BMem d) := do
  let c := if inner then BAddr.node m.nodeOffset else BAddr.leaf m.leafOffset
  let m := if inner then { m with nodeOffset := m.nodeOffset + 1 } else { m with leafOffset := m.leafOffset + 1 }
  let m ← m.set c { box := ((toR box).child rnd j).exact, depth := depth + 1, parent := some a, child := fun _ => none }
  let n ← m.get a
  m.set a { n with child := Function.update n.child j (some c) }

/-- `expandNode` (balanced_fmm_tree.hpp:401-436). -/
noncomputable def expandNode (h : ℕ) (m : BMem d) (a : BAddr) : Outcome (BMem d) := do
  let node ← m.get a
  if node.depth + 1 < h then (List.range (2 ^ d)).foldlM (expandChild rnd true a node.box node.depth) m
  else if node.depth + 1 = h then (List.range (2 ^ d)).foldlM (expandChild rnd false a node.box node.depth) m
  else .ok m

/-- Construction of nodes and leaves (balanced_fmm_tree.hpp:100-101, 110-113, 128-141). -/
noncomputable def balancedNodes (fuel : ℕ) (r : RBox ℝ d) (h : ℕ) : Outcome (BMem d) := do
  let nLeaves ← balancedLeaves d h
  let root : BNode d := { box := r.exact, depth := 0, parent := none, child := fun _ => none }
  if h = 0 then
    BMem.set ⟨0, nLeaves, fun _ => none, fun _ => none, 0, 1⟩ (.leaf 0) root
  else do
    let m ← BMem.set ⟨(2 ^ d) ^ h / (2 ^ d - 1), nLeaves, fun _ => none, fun _ => none, 1, 0⟩ (.node 0) root
    traverseBFS (2 ^ d) (fun m a => do let n ← m.get a; .ok n.child) (expandNode rnd h) fuel (rootAddr h) m

/-- `getFlatIndex(getLeafBoxIndices(x))`. -/
noncomputable def flatOf (r : RBox ℝ d) (h : ℕ) (x : Vec d) : Outcome ℕ := do
  let idx ← leafIndices rnd r h x
  let nBoxes ← toU32 (2 ^ h)
  .ok (getFlatIndex nBoxes idx)

/-- `distributePointSources` (balanced_fmm_tree.hpp:438-466). -/
noncomputable def distributePointSources (pos : α → Vec d) (m : BMem d) (h : ℕ) (items : List α) :
    Outcome (BSrc α) := do
  let root ← m.get (rootAddr h)
  let buckets ← items.foldlM (fun (b : ℕ → List α) s => do
      let k ← flatOf rnd (toR root.box) h (pos s)
      if k < m.nLeaves then .ok (Function.update b k (b k ++ [s])) else .error .ub) (fun _ => [])
  let ptr ← (List.range m.nLeaves).foldlM (fun (p : ℕ → Option ℕ) k => do
      let leaf ← m.get (.leaf k)
      let f ← flatOf rnd (toR root.box) h leaf.box.center
      if f < m.nLeaves then .ok (Function.update p k (some f)) else .error .ub) (fun _ => none)
  .ok ⟨buckets, ptr⟩

variable (nrm : Vec d → ℝ)

open Classical in
/-- Body of the inner loop (balanced_fmm_tree.hpp:381-396). -/
noncomputable def bnbhChild (m : BMem d) (a par : BAddr) (node : BNode d) (child : ℕ → Option BAddr) (st : BNbh) (i : ℕ) :
    Outcome BNbh :=
  match child i with
  | none => .error .ub
  | some c => do
      let cn ← m.get c
      if (toR node.box).adjacent rnd (toR cn.box) then
        if a = par then .error .ub else .ok { st with near := Function.update st.near a (st.near a ++ [c]) }
      else if tooClose rnd nrm node.box cn.box then .error .logicError
      else .ok { st with inter := Function.update st.inter a (st.inter a ++ [c]) }

/-- `computeNodeNeighbourhood` (balanced_fmm_tree.hpp:358-399). -/
noncomputable def bNeighbourhood (m : BMem d) (st : BNbh) (a : BAddr) : Outcome BNbh := do
  let node ← m.get a
  match node.parent with
  | none => .ok { st with near := Function.update st.near a (st.near a ++ [a]) }
  | some par => (st.near par).foldlM (fun st ν => do
      let pn ← m.get ν
      (List.range (2 ^ d)).foldlM (bnbhChild rnd nrm m a par node pn.child) st) st

/-- The neighbourhoods of all nodes (balanced_fmm_tree.hpp:146-148; for height 0 line 115). -/
noncomputable def bNeighbourhoods (fuel : ℕ) (m : BMem d) (h : ℕ) : Outcome BNbh :=
  traverseBFS (2 ^ d) (fun _ a => do let n ← m.get a; .ok n.child) (bNeighbourhood rnd nrm m) fuel (rootAddr h)
    ⟨fun _ => [], fun _ => []⟩

/-- Nodes, sources and lists of a balanced tree of height `h` (balanced_fmm_tree.hpp:110-148). -/
noncomputable def balancedLists (fuel : ℕ) (pos : α → Vec d) (r : RBox ℝ d) (items : List α) (h : ℕ) :
    Outcome (BMem d × BSrc α × BNbh) := do
  let m ← balancedNodes rnd fuel r h
  let src ← if h = 0 then .ok ⟨fun k => if k = 0 then items else [], fun k => if k = 0 then some 0 else none⟩
    else distributePointSources rnd pos m h items
  let nb ← bNeighbourhoods rnd nrm fuel m h
  .ok (m, src, nb)

end model

/-! ## Without rounding -/

theorem balancedNodes_id (fuel : ℕ) (r : RBox ℝ d) (h : ℕ) : balancedNodes id fuel r h = FMM.balancedNodes fuel r.exact h := by
  have h1 : (expandChild id : Bool → BAddr → Box d → _) = FMM.expandChild := by
    funext inner a box depth m j
    unfold expandChild FMM.expandChild
    simp only [child_id, toR_exact]
  have h2 : (expandNode id h : BMem d → _) = FMM.expandNode h := by
    funext m a
    unfold expandNode FMM.expandNode
    rw [h1]
  unfold balancedNodes FMM.balancedNodes
  rw [h2]

theorem flatOf_id (r : RBox ℝ d) (h : ℕ) (hh : h < 32) (x : Vec d) : flatOf id r h x = FMM.flatOf r.exact h x := by
  unfold flatOf FMM.flatOf
  rw [leafIndices_id r h hh]

theorem distributePointSources_id (pos : α → Vec d) (m : BMem d) (h : ℕ) (hh : h < 32) (items : List α) :
    distributePointSources id pos m h items = FMM.distributePointSources pos m h items := by
  unfold distributePointSources FMM.distributePointSources
  cases m.get (rootAddr h) with
  | error e => rw [err_bind, err_bind]
  | ok root =>
    have e : flatOf id (toR root.box) h = FMM.flatOf root.box h := by
      funext x; rw [flatOf_id _ h hh]; rfl
    rw [ok_bind, ok_bind, e]

theorem bNeighbourhoods_id (fuel : ℕ) (m : BMem d) (h : ℕ) :
    bNeighbourhoods id Vec.norm fuel m h = FMM.bNeighbourhoods fuel m h := by
  have h1 : (bnbhChild id Vec.norm m : BAddr → _) = FMM.bnbhChild m := by
    funext a par node child st i
    unfold bnbhChild FMM.bnbhChild
    cases child i with
    | none => rfl
    | some c =>
      simp only
      congr 1
      funext cn
      have h1 : ((toR node.box).adjacent id (toR cn.box) = true) ↔ node.box.adjacent cn.box := by
        rw [adjacent_id]; rfl
      have h2 : tooClose id Vec.norm node.box cn.box ↔
          Vec.norm (node.box.center - cn.box.center) < 199 / 100 * node.box.len := by
        unfold tooClose
        have : vsub id node.box.center cn.box.center = node.box.center - cn.box.center := by
          funext i; simp [vsub, vadd, vneg, vscale, sub_eq_add_neg]
        rw [this]; rfl
      by_cases ha : node.box.adjacent cn.box
      · rw [if_pos ha, if_pos (h1.mpr ha)]
      · rw [if_neg ha, if_neg (fun h => ha (h1.mp h))]
        by_cases hb : tooClose id Vec.norm node.box cn.box
        · rw [if_pos hb, if_pos (h2.mp hb)]
        · rw [if_neg hb, if_neg (fun h => hb (h2.mpr h))]
  have h2 : bNeighbourhood id Vec.norm m = FMM.bNeighbourhood m := by
    funext st a
    unfold bNeighbourhood FMM.bNeighbourhood
    rw [h1]
    congr 1
  unfold bNeighbourhoods FMM.bNeighbourhoods
  rw [h2]

/-- With `rnd = id` and the exact norm this is the exact model. -/
theorem balancedLists_id (fuel : ℕ) (pos : α → Vec d) (r : RBox ℝ d) (items : List α) (h : ℕ) (hh : h < 32) :
    balancedLists id Vec.norm fuel pos r items h = FMM.balancedLists fuel pos r.exact items h := by
  unfold balancedLists FMM.balancedLists
  rw [balancedNodes_id]
  simp only [distributePointSources_id pos _ h hh, bNeighbourhoods_id]

/-! ## The arrays -/

/-- Replace the boxes. -/
def liftM (bx : BAddr → Box d) (m : BMem d) : BMem d :=
  { m with nodes := fun i => (m.nodes i).map fun n => { n with box := bx (.node i) }
           leaves := fun i => (m.leaves i).map fun n => { n with box := bx (.leaf i) } }

theorem liftM_get (bx : BAddr → Box d) (m : BMem d) (a : BAddr) :
    (liftM bx m).get a = (m.get a).map fun n => { n with box := bx a } := by
  cases a with
  | node i =>
    have e : (liftM bx m).nodes i = (m.nodes i).map fun n => { n with box := bx (.node i) } := rfl
    simp only [BMem.get]
    by_cases h : i < m.nNodes
    · have h' : i < (liftM bx m).nNodes := h
      rw [if_pos h, if_pos h', e]; cases m.nodes i <;> rfl
    · have h' : ¬ i < (liftM bx m).nNodes := h
      rw [if_neg h, if_neg h']; rfl
  | leaf i =>
    have e : (liftM bx m).leaves i = (m.leaves i).map fun n => { n with box := bx (.leaf i) } := rfl
    simp only [BMem.get]
    by_cases h : i < m.nLeaves
    · have h' : i < (liftM bx m).nLeaves := h
      rw [if_pos h, if_pos h', e]; cases m.leaves i <;> rfl
    · have h' : ¬ i < (liftM bx m).nLeaves := h
      rw [if_neg h, if_neg h']; rfl

theorem liftM_set (bx : BAddr → Box d) (m : BMem d) (a : BAddr) (n n' : BNode d) (hn : n' = { n with box := bx a }) :
    (liftM bx m).set a n' = (m.set a n).map (liftM bx) := by
  subst hn
  cases a with
  | node i =>
    simp only [BMem.set]
    by_cases h : i < m.nNodes
    · have h' : i < (liftM bx m).nNodes := h
      rw [if_pos h, if_pos h']
      simp only [Except.map, liftM]
      congr 2
      funext j
      by_cases hj : j = i
      · subst hj; simp
      · simp [Function.update_of_ne hj]
    · have h' : ¬ i < (liftM bx m).nNodes := h
      rw [if_neg h, if_neg h']; rfl
  | leaf i =>
    simp only [BMem.set]
    by_cases h : i < m.nLeaves
    · have h' : i < (liftM bx m).nLeaves := h
      rw [if_pos h, if_pos h']
      simp only [Except.map, liftM]
      congr 2
      funext j
      by_cases hj : j = i
      · subst hj; simp
      · simp [Function.update_of_ne hj]
    · have h' : ¬ i < (liftM bx m).nLeaves := h
      rw [if_neg h, if_neg h']; rfl

variable {rnd : ℝ → ℝ} {r : RBox ℝ d} {h : ℕ}

/-- Breadth-first number of an array element. -/
def bnum (c h : ℕ) : BAddr → ℕ
  | .node i => i
  | .leaf i => off c h + i

theorem bnum_glob (c h n : ℕ) : bnum c h (glob c h n) = n := by
  unfold glob
  by_cases hn : n < off c h
  · rw [if_pos hn]; rfl
  · rw [if_neg hn]; simp only [bnum]; omega

/-- The rounded boxes. -/
noncomputable def bxB (rnd : ℝ → ℝ) (r : RBox ℝ d) (h : ℕ) (a : BAddr) : Box d := bxR rnd r (gpath (2 ^ d) (bnum (2 ^ d) h a))

theorem bxB_glob (n : ℕ) : bxB rnd r h (glob (2 ^ d) h n) = bxR rnd r (gpath (2 ^ d) n) := by
  unfold bxB; rw [bnum_glob]

theorem expandChild_lift (inner : Bool) (a : BAddr) (box box' : Box d) (depth : ℕ) (m : BMem d) (j : ℕ)
    (bx : BAddr → Box d)
    (hc : bx (if inner then BAddr.node m.nodeOffset else BAddr.leaf m.leafOffset) = ((toR box').child rnd j).exact) :
    expandChild rnd inner a box' depth (liftM bx m) j = (FMM.expandChild inner a box depth m j).map (liftM bx) := by
  unfold expandChild FMM.expandChild
  have e1 : (if inner = true then BAddr.node (liftM bx m).nodeOffset else BAddr.leaf (liftM bx m).leafOffset)
      = (if inner = true then BAddr.node m.nodeOffset else BAddr.leaf m.leafOffset) := rfl
  have e2 : (if inner = true then { liftM bx m with nodeOffset := (liftM bx m).nodeOffset + 1 }
        else { liftM bx m with leafOffset := (liftM bx m).leafOffset + 1 })
      = liftM bx (if inner = true then { m with nodeOffset := m.nodeOffset + 1 } else { m with leafOffset := m.leafOffset + 1 }) := by
    cases inner <;> rfl
  simp only [e1, e2]
  generalize (if inner = true then BAddr.node m.nodeOffset else BAddr.leaf m.leafOffset) = c at *
  generalize (if inner = true then { m with nodeOffset := m.nodeOffset + 1 } else { m with leafOffset := m.leafOffset + 1 }) = m1
  rw [liftM_set bx m1 c { box := box.child j, depth := depth + 1, parent := some a, child := fun _ => none } _
    (by rw [hc])]
  cases m1.set c { box := box.child j, depth := depth + 1, parent := some a, child := fun _ => none } with
  | error e => rfl
  | ok m2 =>
    show (do let n ← (liftM bx m2).get a; _) = Except.map _ (do let n ← m2.get a; _)
    rw [liftM_get]
    cases m2.get a with
    | error e => rfl
    | ok n => exact liftM_set bx m2 a { n with child := Function.update n.child j (some c) } _ rfl

theorem expandLoop_lift (m : ℕ) (hm : m < off (2 ^ d) h) (inner : Bool)
    (hin : ∀ j < 2 ^ d, inner = decide (2 ^ d * m + 1 + j < off (2 ^ d) h)) (k : ℕ) (hk : k ≤ 2 ^ d) :
    (List.range k).foldlM (expandChild rnd inner (glob (2 ^ d) h m) (bxR rnd r (gpath (2 ^ d) m)) (gpath (2 ^ d) m).length)
      (liftM (bxB rnd r h) (bst r.exact h (2 ^ d * m + 1))) = .ok (liftM (bxB rnd r h) (bst r.exact h (2 ^ d * m + 1 + k))) := by
  induction k with
  | zero => rfl
  | succ k ih =>
    rw [List.range_succ, List.foldlM_append, ih (by omega), ok_bind, List.foldlM_cons,
      expandChild_lift inner _ (FMM.boxAt r.exact (gpath (2 ^ d) m)), expandChild_ok r.exact h m k (by omega) hm inner (hin k (by omega))]
    · rfl
    · have e : (if inner = true then BAddr.node (bst r.exact h (2 ^ d * m + 1 + k)).nodeOffset
          else BAddr.leaf (bst r.exact h (2 ^ d * m + 1 + k)).leafOffset) = glob (2 ^ d) h (2 ^ d * m + 1 + k) := by
        rw [hin k (by omega)]
        simp only [decide_eq_true_eq, bst, glob]
        by_cases hlt : 2 ^ d * m + 1 + k < off (2 ^ d) h
        · rw [if_pos hlt, if_pos hlt, min_eq_left hlt.le]
        · rw [if_neg hlt, if_neg hlt]
      rw [e, bxB_glob, gpath_child _ _ _ (by omega)]
      rfl

/-- One visit of the construction traversal. -/
theorem expandNode_lift (m : ℕ) (hm : m < off (2 ^ d) (h + 1)) :
    expandNode rnd h (liftM (bxB rnd r h) (bst r.exact h (min (2 ^ d * m + 1) (off (2 ^ d) (h + 1))))) (glob (2 ^ d) h m)
      = .ok (liftM (bxB rnd r h) (bst r.exact h (min (2 ^ d * (m + 1) + 1) (off (2 ^ d) (h + 1))))) := by
  have hpos : 0 < 2 ^ d := by positivity
  have hle : m < 2 ^ d * m + 1 := by
    have : 1 * m ≤ 2 ^ d * m := Nat.mul_le_mul_right _ Nat.one_le_two_pow
    omega
  have e1 : off (2 ^ d) (h + 1) = 2 ^ d * off (2 ^ d) h + 1 := rfl
  unfold expandNode
  rw [liftM_get, bst_get r.exact h _ m (by omega) hm]
  show (do let node ← Except.ok _; _) = _
  rw [ok_bind]
  have hdep : ∀ k, (gpath (2 ^ d) m).length < k ↔ m < off (2 ^ d) k := gpath_length_lt _ hpos m
  have f1 : ∀ a, (specB r.exact h a m).depth = (gpath (2 ^ d) m).length := fun _ => rfl
  simp only [f1, bxB_glob]
  by_cases hi : m < off (2 ^ d) h
  · have hmul : 2 ^ d * (m + 1) ≤ 2 ^ d * off (2 ^ d) h := Nat.mul_le_mul_left _ hi
    have hmul' : 2 ^ d * (m + 1) = 2 ^ d * m + 2 ^ d := by ring
    rw [min_eq_left (by omega), min_eq_left (by omega)]
    have hchild : ∀ j < 2 ^ d, ((2 ^ d * m + 1 + j < off (2 ^ d) h) ↔ (gpath (2 ^ d) m).length + 1 < h) := by
      intro j hj
      rw [← gpath_length_lt _ hpos, gpath_child _ _ _ hj]; simp
    have hend : 2 ^ d * m + 1 + 2 ^ d = 2 ^ d * (m + 1) + 1 := by ring
    by_cases h1 : (gpath (2 ^ d) m).length + 1 < h
    · rw [if_pos h1, expandLoop_lift m hi true (fun j hj => by simpa using (hchild j hj).mpr h1) (2 ^ d) le_rfl, hend]
    · have h2 : (gpath (2 ^ d) m).length + 1 = h := by have := (hdep h).mpr hi; omega
      rw [if_neg h1, if_pos h2, expandLoop_lift m hi false (fun j hj => by
        symm; rw [decide_eq_false_iff_not, hchild j hj]; exact h1) (2 ^ d) le_rfl, hend]
  · have h1 : h ≤ (gpath (2 ^ d) m).length := by
      by_contra hc; exact hi ((hdep h).mp (by omega))
    have hmul : 2 ^ d * off (2 ^ d) h ≤ 2 ^ d * m := Nat.mul_le_mul_left _ (by omega)
    have hmul' : 2 ^ d * (m + 1) = 2 ^ d * m + 2 ^ d := by ring
    rw [if_neg (by omega), if_neg (by omega), min_eq_right (by omega), min_eq_right (by omega)]

theorem liftM_root (m : BMem d) (a : BAddr) (n : BNode d) (hb : n.box = bxB rnd r h a) (hm : liftM (bxB rnd r h) m = m) :
    m.set a n = (m.set a n).map (liftM (bxB rnd r h)) := by
  have := liftM_set (bxB rnd r h) m a n n (by rw [← hb])
  rwa [hm] at this

theorem bxB_root : bxB rnd r h (rootAddr h) = r.exact := by
  rw [← glob_root (d := d), bxB_glob]; simp [gpath, bxR, boxAt]

/-- The arrays built with rounding: those of the exact construction with the rounded boxes. -/
theorem balancedNodes_lift (hd : 2 ≤ d) (hh : d * h < 64) (fuel : ℕ) (hf : off (2 ^ d) (h + 1) ≤ fuel) :
    balancedNodes rnd fuel r h = .ok (liftM (bxB rnd r h) (bfull r.exact h)) := by
  have hE := balancedNodes_ok hd r.exact h hh fuel hf
  have hpos : 0 < 2 ^ d := by positivity
  have hc : 3 ≤ 2 ^ d := by
    have : 2 ^ 2 ≤ 2 ^ d := Nat.pow_le_pow_right (by norm_num) hd
    omega
  unfold FMM.balancedNodes balancedLeaves at hE
  unfold balancedNodes balancedLeaves
  have hsz : (2 ^ d) ^ h < 2 ^ 64 := by rw [← pow_mul]; exact Nat.pow_lt_pow_right (by norm_num) hh
  rw [if_pos hsz, ok_bind] at hE ⊢
  by_cases h0 : h = 0
  · subst h0
    simp only [if_true] at hE ⊢
    have hb : r.exact = bxB rnd r 0 (.leaf 0) := by
      have := bxB_root (rnd := rnd) (r := r) (h := 0)
      rw [show rootAddr 0 = .leaf 0 from rfl] at this
      exact this.symm
    rw [liftM_root (rnd := rnd) (r := r) (h := 0) _ _ _ hb rfl, hE]
    rfl
  · have hoff : 0 < off (2 ^ d) h := by
      obtain ⟨k, rfl⟩ : ∃ k, h = k + 1 := ⟨h - 1, by omega⟩
      show 0 < _ + 1
      omega
    rw [if_neg h0, off_eq_div _ hc]
    have hset : BMem.set (⟨off (2 ^ d) h, (2 ^ d) ^ h, fun _ => none, fun _ => none, 1, 0⟩ : BMem d) (.node 0)
        ⟨r.exact, 0, none, fun _ => none⟩ = .ok (bst r.exact h 1) := by
      simp only [BMem.set]
      rw [if_pos hoff]
      congr 1
      unfold bst
      simp only [BMem.mk.injEq, true_and]
      refine ⟨?_, ?_, by omega, by omega⟩
      · funext i
        by_cases hi : i = 0
        · subst hi
          rw [Function.update_self, if_pos ⟨by omega, hoff⟩]
          congr 1
          simp only [specB, gpath, FMM.boxAt, List.length_nil, if_true, BNode.mk.injEq, true_and]
          funext j
          rw [if_neg (by omega)]
        · rw [Function.update_of_ne hi, if_neg (by omega)]
      · funext i
        rw [if_neg (by omega)]
    have hroot : rootAddr h = glob (2 ^ d) h 0 := (glob_root (d := d) h).symm
    have hb : r.exact = bxB rnd r h (.node 0) := by
      have := bxB_root (rnd := rnd) (r := r) (h := h)
      rw [show rootAddr h = .node 0 from if_neg h0] at this
      exact this.symm
    rw [liftM_root (rnd := rnd) (r := r) (h := h) _ _ _ hb rfl, hset]
    show (do let m ← Except.ok (liftM (bxB rnd r h) (bst r.exact h 1)); _) = _
    rw [ok_bind, hroot]
    have e1 : off (2 ^ d) (h + 1) = 2 ^ d * off (2 ^ d) h + 1 := rfl
    obtain ⟨s', -, h2, h3⟩ := traverseBFS_eq (2 ^ d) (fun (m : BMem d) a => do let n ← m.get a; .ok n.child)
      (expandNode rnd h) (bkids (2 ^ d) h) (glob (2 ^ d) h 0)
      (fun done s => s = liftM (bxB rnd r h) (bst r.exact h (min (2 ^ d * done.length + 1) (off (2 ^ d) (h + 1))))) (h + 1)
      (bfsLevel_glob_end _ h) (by
        intro d1 a d2 e s hs
        rw [bfsOrder_glob _ h _ le_rfl] at e
        have hlen : d1.length < off (2 ^ d) (h + 1) := by
          have := congrArg List.length e
          simp at this; omega
        have ha : a = glob (2 ^ d) h d1.length := by
          have := congrArg (fun l => l[d1.length]?) e
          simp only [List.getElem?_map, List.getElem?_range hlen, Option.map_some, List.getElem?_append_right le_rfl,
            Nat.sub_self, List.getElem?_cons_zero] at this
          exact (Option.some.inj this).symm
        subst ha hs
        refine ⟨_, (specB r.exact h (min (2 ^ d * (d1.length + 1) + 1) (off (2 ^ d) (h + 1))) d1.length).child,
          expandNode_lift d1.length hlen, ?_, ?_, ?_⟩
        · rw [List.length_append]; rfl
        · have : 1 * (d1.length + 1) ≤ 2 ^ d * (d1.length + 1) := Nat.mul_le_mul_right _ Nat.one_le_two_pow
          rw [liftM_get, bst_get r.exact h _ _ (by omega) hlen]
          rfl
        · by_cases hi : d1.length < off (2 ^ d) h
          · have hmul : 2 ^ d * (d1.length + 1) ≤ 2 ^ d * off (2 ^ d) h := Nat.mul_le_mul_left _ hi
            exact pushKids_bst r.exact h _ _ (Or.inl (by omega)) (Or.inl hi)
          · exact pushKids_bst r.exact h _ _ (Or.inr ⟨by omega, by omega⟩) (Or.inr ⟨by omega, by omega⟩))
      (liftM (bxB rnd r h) (bst r.exact h 1)) (by
        simp only [List.length_nil, Nat.mul_zero, Nat.zero_add]; rw [min_eq_left (by omega)])
    rw [bfsOrder_glob _ h _ le_rfl] at h2 h3
    simp only [List.length_map, List.length_range] at h2 h3
    rw [h3 fuel hf, h2]
    have : 1 * off (2 ^ d) (h + 1) ≤ 2 ^ d * off (2 ^ d) (h + 1) := Nat.mul_le_mul_right _ Nat.one_le_two_pow
    rw [min_eq_right (by omega)]
    rfl

end FMM.Rounded
