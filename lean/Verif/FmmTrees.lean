import Verif.FmmPasses
import Verif.AdaptiveLists
import Verif.BalancedTree

/-!
# The constructors and evaluation functions of `AdaptiveFmmTree` and `BalancedFmmTree`
-/

namespace FMM
variable {d : ℕ} {V : Type}

/-- `v[i]`. -/
def vecGet {α : Type} (v : List α) (i : ℕ) : Outcome α := match v[i]? with | some a => .ok a | none => .error .ub

/-- `v.at(i)`. -/
def vecAt {α : Type} (v : List α) (i : ℕ) : Outcome α := match v[i]? with | some a => .ok a | none => .error .outOfRange

/-! ## Adaptive tree -/

/-- The structure of an adaptive tree as seen by the passes. -/
def adaptiveShape (heap : AHeap d (Source d)) (nb : Nbh) : Shape d Path := fun π => do
  let n ← heap.get π
  .ok { center := n.box.center, parent := n.parent, children := (List.range (2 ^ d)).map n.child,
        near := nb.near π, inter := nb.inter π, X := nb.X π, W := nb.W π,
        sources := if n.isLeaf then .ok n.items else .error .ub }

/-- An `AdaptiveFmmTree` object; the member `sources` is a reference and not part of the object. -/
structure AdaptiveFmm (K : Kit d) where
  order : ℕ
  height : ℕ
  heap : AHeap d (Source d)
  nodes : List (List Path)
  leaves : List (List Path)
  nb : Nbh
  exps : Exps K Path

def AdaptiveFmm.shape {K : Kit d} (T : AdaptiveFmm K) : Shape d Path := adaptiveShape T.heap T.nb

/-- The iterations of the loops of the upward pass over inner nodes (adaptive_fmm_tree.hpp:167-169). -/
def adaptiveUp (nodes : List (List Path)) (h : ℕ) : Outcome (List (List Path)) :=
  (List.range (h - 2)).mapM fun i => vecGet nodes (h - 1 - i)

/-- The iterations of the loops of the downward pass (adaptive_fmm_tree.hpp:189-214): all nodes and leaves of a level are
processed in one parallel region without an intermediate barrier. -/
def adaptiveDown (nodes leaves : List (List Path)) (h : ℕ) : Outcome (List (List Path)) := do
  let down ← (List.range (h - 2)).mapM fun i => do
    let a ← vecGet nodes (i + 2)
    let b ← vecGet leaves (i + 2)
    .ok (a ++ b)
  let final ← vecAt leaves h
  .ok (down ++ [final])

/-- Everything that happens before the passes: expansion order (abstract_fmm_tree.hpp:37-42), root box and tree
(adaptive_fmm_tree.hpp:114-147), default values of the expansions (adaptive_fmm_tree.hpp:73-77). -/
noncomputable def adaptiveInit (K : Kit d) (fuel : ℕ) (t : K.T) (sources : List (Source d)) (max : ℕ) (eps : ℝ) :
    Outcome (AdaptiveFmm K) := do
  let order ← expansionOrder (totalStrength sources) eps
  match rootBox (sources.map Source.pos) with
  | none => .error .ub
  | some r => do
    let (st, h, nb) ← adaptiveLists fuel Source.pos r sources max
    let s ← forEach (initNode K (adaptiveShape st.heap nb) order) (st.nodes.flatten ++ st.leaves.flatten)
      ⟨t, fun _ => none, fun _ => none⟩
    .ok ⟨order, h, st.heap, st.nodes, st.leaves, nb, s⟩

/-- Constructor (adaptive_fmm_tree.hpp:108-220). -/
noncomputable def adaptiveFmm (K : Kit d) (fuel : ℕ) (sch : ℕ → List Path → List Path) (t : K.T)
    (sources : List (Source d)) (max : ℕ) (eps : ℝ) : Outcome (AdaptiveFmm K) := do
  let T ← adaptiveInit K fuel t sources max eps
  if sources.length ≤ max then .ok T
  else if T.height ≠ T.nodes.length ∨ T.height + 1 ≠ T.leaves.length then .error .assertFail
  else do
    let up ← adaptiveUp T.nodes T.height
    let down ← adaptiveDown T.nodes T.leaves T.height
    let s ← passes K T.shape T.order (constructLE K T.shape T.order) sch T.leaves up down T.exps
    .ok { T with exps := s }

/-- `evaluatePotential` / `evaluateForcefield` (adaptive_fmm_tree.hpp:222-318); `sources`: the current contents of the
vector that was passed to the constructor. -/
noncomputable def adaptiveEval {K : Kit d} [AddCommGroup V] (O : Obs K V) (fuel : ℕ) (grav : Bool) (T : AdaptiveFmm K)
    (sources : List (Source d)) (x : Vec d) : Outcome V := do
  let leaf ← getContainingLeaf fuel T.heap x
  match leaf with
  | none => O.sum grav false sources x
  | some leaf => evalLeaf O T.shape grav T.exps leaf x

/-! ## Balanced tree -/

/-- The structure of a balanced tree as seen by the passes. -/
def balancedShape (m : BMem d) (src : BSrc (Source d)) (nb : BNbh) : Shape d BAddr := fun a => do
  let n ← m.get a
  .ok { center := n.box.center, parent := n.parent, children := (List.range (2 ^ d)).map n.child,
        near := nb.near a, inter := nb.inter a, X := [], W := [],
        sources := match a with | .leaf k => src.get k | .node _ => .error .ub }

/-- A `BalancedFmmTree` object. -/
structure BalancedFmm (K : Kit d) where
  order : ℕ
  height : ℕ
  mem : BMem d
  src : BSrc (Source d)
  nb : BNbh
  exps : Exps K BAddr

def BalancedFmm.shape {K : Kit d} (T : BalancedFmm K) : Shape d BAddr := balancedShape T.mem T.src T.nb

/-- The nodes of a level, `nodes[offset + i]` (balanced_fmm_tree.hpp:160-168, 187-194). -/
def levelAddrs (d depth : ℕ) : List BAddr :=
  (List.range ((2 ^ d) ^ depth)).map fun i => .node (((2 ^ d) ^ depth - 1) / (2 ^ d - 1) + i)

def balancedUp (d h : ℕ) : List (List BAddr) := (List.range (h - 2)).map fun i => levelAddrs d (h - 1 - i)
def balancedLeafLoop (n : ℕ) : List BAddr := (List.range n).map .leaf
def balancedDown (d h n : ℕ) : List (List BAddr) :=
  ((List.range (h - 2)).map fun i => levelAddrs d (i + 2)) ++ [balancedLeafLoop n]

/-- Everything before the passes (balanced_fmm_tree.hpp:90-148). -/
noncomputable def balancedInit (K : Kit d) (fuel : ℕ) (t : K.T) (sources : List (Source d)) (perCell : ℕ) (eps : ℝ) :
    Outcome (BalancedFmm K) := do
  let order ← expansionOrder (totalStrength sources) eps
  let h ← balancedHeight d sources.length perCell
  match rootBox (sources.map Source.pos) with
  | none => .error .ub
  | some r => do
    let (m, src, nb) ← balancedLists fuel Source.pos r sources h
    let s ← forEach (initNode K (balancedShape m src nb) order)
      ((List.range m.nNodes).map .node ++ (List.range m.nLeaves).map .leaf) ⟨t, fun _ => none, fun _ => none⟩
    .ok ⟨order, h, m, src, nb, s⟩

/-- Constructor (balanced_fmm_tree.hpp:90-203). -/
noncomputable def balancedFmm (K : Kit d) (fuel : ℕ) (sch : ℕ → List BAddr → List BAddr) (t : K.T)
    (sources : List (Source d)) (perCell : ℕ) (eps : ℝ) : Outcome (BalancedFmm K) := do
  let T ← balancedInit K fuel t sources perCell eps
  if T.height = 0 then .ok T
  else do
    let s ← passes K T.shape T.order (balancedLE K T.shape) sch [balancedLeafLoop T.mem.nLeaves] (balancedUp d T.height)
      (balancedDown d T.height T.mem.nLeaves) T.exps
    .ok { T with exps := s }

/-- `evaluatePotential` / `evaluateForcefield` (balanced_fmm_tree.hpp:205-279). -/
noncomputable def balancedEval {K : Kit d} [AddCommGroup V] (O : Obs K V) (grav : Bool) (T : BalancedFmm K) (x : Vec d) :
    Outcome V := do
  let root ← T.mem.get (rootAddr T.height)
  let idx ← getLeafBoxIndices root.box T.height x
  let k ← getMortonIndex T.height idx
  evalLeaf O T.shape grav T.exps (.leaf k) x

/-- `evaluateParticlePotentialEnergies` / `evaluateParticleForces` (abstract_fmm_tree.hpp:62-89): the parallel loop, with
its iterations executed in the order `order`, writes `result[i]`. -/
def particleLoop {W : Type} [Zero W] (smul : ℝ → V → W) (eval : Vec d → Outcome V) (sources : List (Source d))
    (order : List ℕ) : Outcome (Arr W) :=
  order.foldlM (fun (res : Arr W) i => do
      let s ← vecGet sources i
      let v ← eval s.pos
      if i < res.size then .ok ⟨res.size, Function.update res.val i (smul s.q v)⟩ else .error .ub)
    ⟨sources.length, fun _ => 0⟩

end FMM
