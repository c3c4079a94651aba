import Verif.Fields
import Verif.Order

/-!
# Upward and downward passes, evaluation

The parts of the constructors of `BalancedFmmTree` and `AdaptiveFmmTree` that run after the tree and its lists are
complete, `localToLocal`, `multipoleToLocal`, `sourceToLocal`, `constructLocalExpansion`, `evaluatePotential` and
`evaluateForcefield`.  The code is a template over the dimension, which selects the expansion classes; the model is
parametric in these (`Kit`) and in the type `A` of node addresses.

Parallel loops: a schedule `sch` is an arbitrary function that assigns to the number of the loop and the list of its
iterations the order in which the iterations are executed (a permutation).
-/

namespace FMM

/-- The expansion classes of a given dimension: `MultipoleExpansion<d>`, `LocalExpansion<d>` and their static tables. -/
structure Kit (d : ℕ) where
  /-- state of the static tables -/
  T : Type
  /-- `SeriesExpansion<d>` -/
  E : Type
  /-- default-constructed expansion -/
  empty : E
  /-- `coefficients.size()` -/
  size : E → ℕ
  /-- `LE(center, order)` -/
  leNew : T → Vec d → ℕ → Outcome (T × E)
  /-- `ME(center, order, sources)` -/
  meSrc : T → Vec d → ℕ → List (Source d) → Outcome (T × E)
  /-- `ME(center, std::vector<const ME*>)` -/
  meMes : T → Vec d → List E → Outcome (T × E)
  /-- `LE(center, order, sources)` -/
  leSrc : T → Vec d → ℕ → List (Source d) → Outcome (T × E)
  /-- `LE(center, std::vector<const ME*>)` -/
  leMes : T → Vec d → List E → Outcome (T × E)
  /-- `LE(center, const LE&)` -/
  leLe : T → Vec d → E → Outcome (T × E)
  /-- `operator+=` -/
  addEq : E → E → Outcome E

/-- The operations used by one of the two evaluation functions. -/
structure Obs {d : ℕ} (K : Kit d) (V : Type) where
  /-- `LE::evaluatePotential` / `LE::evaluateForcefield` -/
  le : K.E → Vec d → Outcome V
  /-- `ME::evaluatePotential` / `ME::evaluateForcefield` -/
  me : K.E → Vec d → Outcome V
  /-- `fields::potential<d, grav, safe>(sources, x)` / `fields::forcefield<d, grav, safe>(sources, x, eps)` -/
  sum : Bool → Bool → List (Source d) → Vec d → Outcome V

/-- What the passes read of a node: `BaseNode`, `FmmNode`, `FmmLeaf` (abstract_orthtree.hpp:51-69,
adaptive_fmm_tree.hpp:62-106, balanced_fmm_tree.hpp:57-89). -/
structure NodeRec (d : ℕ) (A : Type) where
  center : Vec d
  parent : Option A
  children : List (Option A)
  near : List A
  inter : List A
  X : List A
  W : List A
  /-- `static_cast<FmmLeaf*>(node)->sources`, undefined if the node is not a leaf -/
  sources : Outcome (List (Source d))

/-- The finished tree structure: dereferencing a pointer. -/
abbrev Shape (d : ℕ) (A : Type) := A → Outcome (NodeRec d A)

variable {d : ℕ} {K : Kit d} {A : Type}

/-- Static tables and the members `multipole_expansion`, `local_expansion` of the nodes; `none`: no such node. -/
@[ext] structure Exps (K : Kit d) (A : Type) where
  t : K.T
  me : A → Option K.E
  le : A → Option K.E

namespace Exps

def rdMe (s : Exps K A) (a : A) : Outcome K.E := match s.me a with | some e => .ok e | none => .error .ub
def rdLe (s : Exps K A) (a : A) : Outcome K.E := match s.le a with | some e => .ok e | none => .error .ub

variable [DecidableEq A]

def setMe (s : Exps K A) (a : A) (e : K.E) : Exps K A := { s with me := Function.update s.me a (some e) }
def setLe (s : Exps K A) (a : A) (e : K.E) : Exps K A := { s with le := Function.update s.le a (some e) }

end Exps

section
variable [DecidableEq A]

/-- Construction of a node: the multipole expansion is default-constructed, the local expansion is
`local_expansion(center, expansion_order)` (adaptive_fmm_tree.hpp:73-77, balanced_fmm_tree.hpp:67-71). -/
def initNode (K : Kit d) (sh : Shape d A) (order : ℕ) (a : A) (s : Exps K A) : Outcome (Exps K A) := do
  let n ← sh a
  let (t, e) ← K.leNew s.t n.center order
  .ok (({ s with t := t }.setMe a K.empty).setLe a e)

/-- `leaf->multipole_expansion = ME(leaf->center, order, leaf->sources)` (adaptive_fmm_tree.hpp:159-160,
balanced_fmm_tree.hpp:155-156). -/
def leafME (K : Kit d) (sh : Shape d A) (order : ℕ) (a : A) (s : Exps K A) : Outcome (Exps K A) := do
  let n ← sh a
  let src ← n.sources
  let (t, e) ← K.meSrc s.t n.center order src
  .ok ({ s with t := t }.setMe a e)

/-- Reading the multipole expansion of a child through the pointer `node->children[i]`. -/
def childME (s : Exps K A) (c : Option A) : Outcome K.E :=
  match c with
  | some c => s.rdMe c
  | none => .error .ub

/-- `node->multipole_expansion = ME(node->center, children_expansions)` (adaptive_fmm_tree.hpp:174-183,
balanced_fmm_tree.hpp:170-180). -/
def nodeME (K : Kit d) (sh : Shape d A) (a : A) (s : Exps K A) : Outcome (Exps K A) := do
  let n ← sh a
  let es ← n.children.mapM (childME s)
  let (t, e) ← K.meMes s.t n.center es
  .ok ({ s with t := t }.setMe a e)

/-- `localToLocal` (abstract_fmm_tree.hpp:115-125). -/
def localToLocal (K : Kit d) (sh : Shape d A) (a : A) (s : Exps K A) : Outcome (Exps K A) := do
  let n ← sh a
  match n.parent with
  | none => .error .assertFail
  | some p => do
    let pe ← s.rdLe p
    if K.size pe = 0 then .error .assertFail
    else do
      let (t, e) ← K.leLe s.t n.center pe
      let cur ← s.rdLe a
      let e ← K.addEq cur e
      .ok ({ s with t := t }.setLe a e)

/-- `multipoleToLocal` (abstract_fmm_tree.hpp:128-140). -/
def multipoleToLocal (K : Kit d) (sh : Shape d A) (a : A) (s : Exps K A) : Outcome (Exps K A) := do
  let n ← sh a
  let incoming ← n.inter.mapM s.rdMe
  if incoming.length > 0 then do
    let (t, e) ← K.leMes s.t n.center incoming
    let cur ← s.rdLe a
    let e ← K.addEq cur e
    .ok ({ s with t := t }.setLe a e)
  else .ok s

/-- Body of the loop of `sourceToLocal`. -/
def sourceToLocalStep (K : Kit d) (sh : Shape d A) (order : ℕ) (center : Vec d) (a : A) (s : Exps K A) (b : A) :
    Outcome (Exps K A) := do
  let m ← sh b
  let src ← m.sources
  let (t, e) ← K.leSrc s.t center order src
  let cur ← s.rdLe a
  let e ← K.addEq cur e
  .ok ({ s with t := t }.setLe a e)

/-- `sourceToLocal` (adaptive_fmm_tree.hpp:569-575). -/
def sourceToLocal (K : Kit d) (sh : Shape d A) (order : ℕ) (a : A) (s : Exps K A) : Outcome (Exps K A) := do
  let n ← sh a
  n.X.foldlM (sourceToLocalStep K sh order n.center a) s

/-- `constructLocalExpansion` (adaptive_fmm_tree.hpp:577-583). -/
def constructLE (K : Kit d) (sh : Shape d A) (order : ℕ) (a : A) (s : Exps K A) : Outcome (Exps K A) := do
  let s ← localToLocal K sh a s
  let s ← multipoleToLocal K sh a s
  sourceToLocal K sh order a s

/-- The body of the downward loops of the balanced tree (balanced_fmm_tree.hpp:196-197, 207-208). -/
def balancedLE (K : Kit d) (sh : Shape d A) (a : A) (s : Exps K A) : Outcome (Exps K A) := do
  let s ← localToLocal K sh a s
  multipoleToLocal K sh a s

omit [DecidableEq A] in
/-- A loop over nodes, executed in the given order. -/
def forEach (body : A → Exps K A → Outcome (Exps K A)) (l : List A) (s : Exps K A) : Outcome (Exps K A) :=
  l.foldlM (fun s a => body a s) s

omit [DecidableEq A] in
/-- A sequence of parallel loops, numbered from `k`, with a barrier after each of them. -/
def runLoops (body : A → Exps K A → Outcome (Exps K A)) (sch : ℕ → List A → List A) :
    ℕ → List (List A) → Exps K A → Outcome (Exps K A)
  | _, [], s => .ok s
  | k, l :: ls, s => do
      let s ← forEach body (sch k l) s
      runLoops body sch (k + 1) ls s

/-- Upward and downward pass; the iterations of the parallel loops are given as lists of nodes. -/
def passes (K : Kit d) (sh : Shape d A) (order : ℕ) (leBody : A → Exps K A → Outcome (Exps K A))
    (sch : ℕ → List A → List A) (leafLoops upLoops downLoops : List (List A)) (s : Exps K A) : Outcome (Exps K A) := do
  let s ← runLoops (leafME K sh order) sch 0 leafLoops s
  let s ← runLoops (nodeME K sh) sch leafLoops.length upLoops s
  runLoops leBody sch (leafLoops.length + upLoops.length) downLoops s

/-- `evaluatePotential` / `evaluateForcefield` after the containing leaf has been found (adaptive_fmm_tree.hpp:235-268,
284-317; balanced_fmm_tree.hpp:210-238, 249-278; in the balanced tree there is no list W). -/
def evalLeaf {V : Type} [AddCommGroup V] (O : Obs K V) (sh : Shape d A) (grav : Bool) (s : Exps K A) (leaf : A) (x : Vec d) :
    Outcome V := do
  let n ← sh leaf
  let e ← s.rdLe leaf
  let v ← O.le e x
  let v ← n.W.foldlM (fun v a => do
    let e ← s.rdMe a
    let w ← O.me e x
    .ok (v + w)) v
  let v ← n.near.foldlM (fun v a => do
    let m ← sh a
    let src ← m.sources
    let w ← O.sum true (decide (a = leaf)) src x
    .ok (v + w)) v
  .ok (if grav then v else -v)

end
end FMM
