import Verif.BalancedTree
import Verif.AdaptiveLists

/-!
# `toFile`: dumping a tree to text files

A line of a file is the list of its comma separated fields; a file is the list of its lines.  How a number is printed
(`setprecision`) is not modelled: a field is the number itself.
-/

namespace FMM
namespace Dump
variable {d : ℕ}

/-- One field of a line. -/
inductive Field
  | nat (n : ℕ)
  | flag (b : Bool)
  | num (x : ℝ)

/-- One line. -/
abbrev Line := List Field

/-- `for(auto coord : v.data()) file << ", " << coord;` -/
noncomputable def coords (v : Vec d) : Line := (List.ofFn v).map .num

/-- The files and the variable `n_node`. -/
structure Files where
  n : ℕ
  geometry : List Line
  data : List Line
  near : List Line
  inter : List Line
  W : List Line
  X : List Line

def Files.empty : Files := ⟨0, [], [], [], [], [], []⟩

/-- The loops that print the centres of the members of a list (balanced_fmm_tree.hpp:340-352,
adaptive_fmm_tree.hpp:382-386, 394-414). -/
noncomputable def writeCenters {A : Type} (center : A → Outcome (Vec d)) (l : List A) (line : Line) : Outcome Line :=
  l.foldlM (fun ln a => do
    let c ← center a
    .ok (ln ++ coords c)) line

/-- The loop that prints the sources of a leaf (balanced_fmm_tree.hpp:322-327, adaptive_fmm_tree.hpp:372-377). -/
noncomputable def writeSources (l : List (Source d)) (line : Line) : Line :=
  l.foldl (fun ln s => (ln ++ coords s.pos) ++ [.num s.q]) line

/-- The loop that prints the points of a leaf (adaptive_point_orthtree.hpp:202-206). -/
noncomputable def writePoints (l : List (Vec d)) (line : Line) : Line :=
  l.foldl (fun ln p => ln ++ coords p) line

/-- The visitor of `BalancedFmmTree::toFile` (balanced_fmm_tree.hpp:303-356): the cast of a node without children to a leaf
is undefined behaviour if it is not one. -/
noncomputable def visitBalanced (m : BMem d) (src : BSrc (Source d)) (nb : BNbh) (st : Files) (a : BAddr) :
    Outcome Files := do
  let node ← m.get a
  let geometry := ([.nat st.n, .nat node.depth, .num node.box.len] : Line) ++ coords node.box.center
  let data ← match node.child 0 with
    | some _ => .ok st.data
    | none => match a with
      | .node _ => .error .ub
      | .leaf k => do
          let l ← src.get k
          .ok (st.data ++ [writeSources l [.nat st.n]])
  let head := ([.nat st.n, .nat node.depth, .num node.box.len] : Line) ++ coords node.box.center
  let near ← writeCenters (fun b => do let n ← m.get b; .ok n.box.center) (nb.near a) head
  let inter ← writeCenters (fun b => do let n ← m.get b; .ok n.box.center) (nb.inter a) head
  .ok { st with n := st.n + 1, geometry := st.geometry ++ [geometry], data := data, near := st.near ++ [near]
                inter := st.inter ++ [inter] }

/-- `BalancedFmmTree::toFile` (balanced_fmm_tree.hpp:281-357). -/
noncomputable def toFileBalanced (fuel : ℕ) (h : ℕ) (m : BMem d) (src : BSrc (Source d)) (nb : BNbh) : Outcome Files :=
  traverseBFS (2 ^ d) (fun _ a => do let n ← m.get a; .ok n.child) (visitBalanced m src nb) fuel (rootAddr h) Files.empty

/-- The visitor of `AdaptiveFmmTree::toFile` (adaptive_fmm_tree.hpp:346-418). -/
noncomputable def visitAdaptive (heap : AHeap d (Source d)) (nb : Nbh) (st : Files) (π : Path) : Outcome Files := do
  let node ← heap.get π
  let head : Line := [.nat st.n, .flag node.isLeaf, .nat node.depth, .num node.box.len]
  let geometry := head ++ coords node.box.center
  let center := fun b => do let n ← heap.get b; .ok n.box.center
  let (data, W) ← if node.isLeaf then do
      let w ← writeCenters center (nb.W π) head
      .ok (st.data ++ [writeSources node.items [.nat st.n]], st.W ++ [w])
    else .ok (st.data, st.W)
  let head := head ++ coords node.box.center
  let near ← writeCenters center (nb.near π) head
  let inter ← writeCenters center (nb.inter π) head
  let X ← writeCenters center (nb.X π) head
  .ok { n := st.n + 1, geometry := st.geometry ++ [geometry], data := data, near := st.near ++ [near]
        inter := st.inter ++ [inter], W := W, X := st.X ++ [X] }

/-- `AdaptiveFmmTree::toFile` (adaptive_fmm_tree.hpp:320-419). -/
noncomputable def toFileAdaptive (fuel : ℕ) (heap : AHeap d (Source d)) (nb : Nbh) : Outcome Files :=
  traverseBFS (2 ^ d) (fun _ π => do let n ← heap.get π; .ok n.child) (visitAdaptive heap nb) fuel [] Files.empty

/-- The visitor of `AdaptivePointOrthtree::toFile` (adaptive_point_orthtree.hpp:184-210): only a `Leaf` may be cast to
one. -/
noncomputable def visitPoints (heap : AHeap d (Vec d)) (st : Files) (π : Path) : Outcome Files := do
  let node ← heap.get π
  let isLeaf := (node.child 0).isNone
  let geometry := ([.nat st.n, .flag isLeaf, .nat node.depth, .num node.box.len] : Line) ++ coords node.box.center
  let data ← if isLeaf then
      if node.isLeaf then .ok (st.data ++ [writePoints node.items [.nat st.n]]) else .error .ub
    else .ok st.data
  .ok { st with n := st.n + 1, geometry := st.geometry ++ [geometry], data := data }

/-- `AdaptivePointOrthtree::toFile` (adaptive_point_orthtree.hpp:172-214). -/
noncomputable def toFilePoints (fuel : ℕ) (heap : AHeap d (Vec d)) : Outcome Files :=
  traverseBFS (2 ^ d) (fun _ π => do let n ← heap.get π; .ok n.child) (visitPoints heap) fuel [] Files.empty

end Dump
end FMM
