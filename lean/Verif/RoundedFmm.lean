import Verif.FmmTrees
import Verif.RoundingTree
import Verif.RoundingBalanced
import Verif.PropsRoundingRoot

/-!
# The constructors and evaluation functions of the FMM trees in floating-point arithmetic

As `FmmTrees.lean`, with rounded expansion order, root box, boxes of the nodes, adjacency and containment tests and sums of
the contributions.  The arithmetic of the expansions is that of the kit `K` and of the observable `O`.
-/

namespace FMM.Rounded
variable {d : ℕ} {V : Type}

section model
variable (rnd rlog : ℝ → ℝ) (nrm : Vec d → ℝ)

/-- `std::accumulate` of the absolute source strengths (abstract_fmm_tree.hpp:38-40). -/
noncomputable def totalStrength (sources : List (Source d)) : ℝ := sources.foldl (fun acc src => rnd (acc + |src.q|)) 0

/-- `order = ceil(log(A/eps) / log(2))` (abstract_fmm_tree.hpp:42); `ceil` is exact. -/
noncomputable def expansionOrder (A eps : ℝ) : Outcome ℕ :=
  if eps = 0 ∨ rnd (A / eps) ≤ 0 then .error .ub
  else toU32 ⌈rnd (rlog (rnd (A / eps)) / rlog 2)⌉

/-- The root box of a non-empty list of sources (abstract_fmm_tree.hpp:91-113, adaptive_fmm_tree.hpp:114-119,
balanced_fmm_tree.hpp:103-108). -/
noncomputable def sourceBox (sources : List (Source d)) : Option (RBox ℝ d) :=
  if sources = [] then none else some (rootBox rnd (rnd (1 / 100000)) (sources.map Source.pos))

/-- Everything before the passes (adaptive_fmm_tree.hpp:108-147). -/
noncomputable def adaptiveInit (K : Kit d) (fuel : ℕ) (t : K.T) (sources : List (Source d)) (max : ℕ) (eps : ℝ) :
    Outcome (AdaptiveFmm K) := do
  let order ← expansionOrder rnd rlog (totalStrength rnd sources) eps
  match sourceBox rnd sources with
  | none => .error .ub
  | some r => do
    let (st, h, nb) ← adaptiveLists rnd nrm fuel Source.pos r sources max
    let s ← forEach (initNode K (adaptiveShape st.heap nb) order) (st.nodes.flatten ++ st.leaves.flatten)
      ⟨t, fun _ => none, fun _ => none⟩
    .ok ⟨order, h, st.heap, st.nodes, st.leaves, nb, s⟩

/-- Constructor (adaptive_fmm_tree.hpp:108-220). -/
noncomputable def adaptiveFmm (K : Kit d) (fuel : ℕ) (sch : ℕ → List Path → List Path) (t : K.T)
    (sources : List (Source d)) (max : ℕ) (eps : ℝ) : Outcome (AdaptiveFmm K) := do
  let T ← adaptiveInit rnd rlog nrm K fuel t sources max eps
  if sources.length ≤ max then .ok T
  else if T.height ≠ T.nodes.length ∨ T.height + 1 ≠ T.leaves.length then .error .assertFail
  else do
    let up ← adaptiveUp T.nodes T.height
    let down ← adaptiveDown T.nodes T.leaves T.height
    let s ← passes K T.shape T.order (constructLE K T.shape T.order) sch T.leaves up down T.exps
    .ok { T with exps := s }

/-- `getContainingLeaf` (adaptive_fmm_tree.hpp:585-598): the descent compares coordinates, the test at the end uses the computed
bounds of the leaf. -/
noncomputable def getContainingLeaf {α : Type} (fuel : ℕ) (heap : AHeap d α) (x : Vec d) : Outcome (Option Path) := do
  let cur ← descend heap x fuel []
  let node ← heap.get cur
  if (toR node.box).contains rnd x then .ok (some cur) else .ok none

variable (add : V → V → V) (neg : V → V)

/-- `evaluatePotential` / `evaluateForcefield` after the containing leaf has been found (adaptive_fmm_tree.hpp:235-268,
284-317; balanced_fmm_tree.hpp:210-238, 249-278); `add`: the rounded addition; a change of sign is exact. -/
def evalLeaf {A : Type} [DecidableEq A] {K : Kit d} (O : Obs K V) (sh : Shape d A) (grav : Bool) (s : Exps K A) (leaf : A)
    (x : Vec d) : Outcome V := do
  let n ← sh leaf
  let e ← s.rdLe leaf
  let v ← O.le e x
  let v ← n.W.foldlM (fun v a => do
    let e ← s.rdMe a
    let w ← O.me e x
    .ok (add v w)) v
  let v ← n.near.foldlM (fun v a => do
    let m ← sh a
    let src ← m.sources
    let w ← O.sum true (decide (a = leaf)) src x
    .ok (add v w)) v
  .ok (if grav then v else neg v)

/-- `evaluatePotential` / `evaluateForcefield` (adaptive_fmm_tree.hpp:222-318). -/
noncomputable def adaptiveEval {K : Kit d} (O : Obs K V) (fuel : ℕ) (grav : Bool) (T : AdaptiveFmm K)
    (sources : List (Source d)) (x : Vec d) : Outcome V := do
  let leaf ← getContainingLeaf rnd fuel T.heap x
  match leaf with
  | none => O.sum grav false sources x
  | some leaf => evalLeaf add neg O T.shape grav T.exps leaf x

/-! ### Balanced tree -/

/-- `height = ceil(log((double)N / sources_per_cell) / log(n_children))` (balanced_fmm_tree.hpp:97-98); `ceil` is exact. -/
noncomputable def balancedHeight (d N s : ℕ) : Outcome ℕ :=
  if N = 0 ∨ s = 0 then .error .ub
  else
    let z := ⌈rnd (rlog (rnd (rnd N / rnd s)) / rlog (2 ^ d : ℕ))⌉
    if z < 0 then .error .ub else .ok z.toNat

/-- Everything before the passes (balanced_fmm_tree.hpp:90-148). -/
noncomputable def balancedInit (K : Kit d) (fuel : ℕ) (t : K.T) (sources : List (Source d)) (perCell : ℕ) (eps : ℝ) :
    Outcome (BalancedFmm K) := do
  let order ← expansionOrder rnd rlog (totalStrength rnd sources) eps
  let h ← balancedHeight rnd rlog d sources.length perCell
  match sourceBox rnd sources with
  | none => .error .ub
  | some r => do
    let (m, src, nb) ← balancedLists rnd nrm fuel Source.pos r sources h
    let s ← forEach (initNode K (balancedShape m src nb) order)
      ((List.range m.nNodes).map .node ++ (List.range m.nLeaves).map .leaf) ⟨t, fun _ => none, fun _ => none⟩
    .ok ⟨order, h, m, src, nb, s⟩

/-- Constructor (balanced_fmm_tree.hpp:90-203). -/
noncomputable def balancedFmm (K : Kit d) (fuel : ℕ) (sch : ℕ → List BAddr → List BAddr) (t : K.T)
    (sources : List (Source d)) (perCell : ℕ) (eps : ℝ) : Outcome (BalancedFmm K) := do
  let T ← balancedInit rnd rlog nrm K fuel t sources perCell eps
  if T.height = 0 then .ok T
  else do
    let s ← passes K T.shape T.order (balancedLE K T.shape) sch [balancedLeafLoop T.mem.nLeaves] (balancedUp d T.height)
      (balancedDown d T.height T.mem.nLeaves) T.exps
    .ok { T with exps := s }

/-- `evaluatePotential` / `evaluateForcefield` (balanced_fmm_tree.hpp:205-279). -/
noncomputable def balancedEval {K : Kit d} (O : Obs K V) (grav : Bool) (T : BalancedFmm K) (x : Vec d) : Outcome V := do
  let root ← T.mem.get (rootAddr T.height)
  let idx ← leafIndices rnd (toR root.box) T.height x
  let k ← getMortonIndex T.height idx
  evalLeaf add neg O T.shape grav T.exps (.leaf k) x

end model

/-! ## Without rounding -/

theorem totalStrength_id (S : List (Source d)) : totalStrength id S = FMM.totalStrength S := rfl

theorem expansionOrder_id (A eps : ℝ) : expansionOrder id Real.log A eps = FMM.expansionOrder A eps := rfl

theorem extremum_lower (l : List ℝ) : extremum (fun a b => decide (a < b)) l = l.foldl lowerStep none := by
  cases l with
  | nil => rfl
  | cons a l =>
    show some _ = l.foldl lowerStep (some a)
    induction l generalizing a with
    | nil => rfl
    | cons b l ih =>
      rw [List.foldl_cons, List.foldl_cons]
      rw [ih (if decide (b < a) then b else a)]
      simp [lowerStep]

theorem extremum_upper (l : List ℝ) : extremum (fun a b => decide (a > b)) l = l.foldl upperStep none := by
  cases l with
  | nil => rfl
  | cons a l =>
    show some _ = l.foldl upperStep (some a)
    induction l generalizing a with
    | nil => rfl
    | cons b l ih =>
      rw [List.foldl_cons, List.foldl_cons]
      rw [ih (if decide (b > a) then b else a)]
      simp [upperStep]

theorem extremum_maxElement (l : List ℝ) : (extremum (fun a b => decide (a > b)) l).getD 0 = maxElement l := by
  cases l with
  | nil => rfl
  | cons a l =>
    show l.foldl _ a = l.foldl max a
    congr 1
    funext a b
    by_cases h : b > a
    · simp [h, max_eq_right h.le]
    · simp [h, max_eq_left (not_lt.mp h)]

theorem sourceBox_id (S : List (Source d)) : (sourceBox id S).map RBox.exact = FMM.rootBox (S.map Source.pos) := by
  unfold sourceBox FMM.rootBox getDataRange
  by_cases h : S = []
  · simp [h]
  · rw [if_neg h, if_neg (by simpa using h)]
    simp only [Option.map_some, Option.some.injEq]
    unfold rootBox rootBoxOf dataRange RBox.exact
    have e1 : ∀ i : Fin d, (extremum (fun a b => decide (a < b)) ((S.map Source.pos).map (· i))).getD 0
        = (rawLower (S.map Source.pos) i).getD 0 := by
      intro i; rw [extremum_lower, rawLower, List.foldl_map]
    have e2 : ∀ i : Fin d, (extremum (fun a b => decide (a > b)) ((S.map Source.pos).map (· i))).getD 0
        = (rawUpper (S.map Source.pos) i).getD 0 := by
      intro i; rw [extremum_upper, rawUpper, List.foldl_map]
    simp only [Box.mk.injEq]
    constructor
    · funext i
      simp only [vscale, vadd, id, e1, e2, Pi.smul_apply, Pi.add_apply, smul_eq_mul, paddingFactor]
      ring
    · rw [extremum_maxElement]
      congr 1
      rw [← List.ofFn_eq_map]
      congr 1
      funext i
      simp only [vsub, vneg, vscale, vadd, id, e1, e2, Pi.smul_apply, Pi.add_apply, smul_eq_mul, paddingFactor, Pi.sub_apply]
      ring

theorem adaptiveFmm_id (K : Kit d) (fuel : ℕ) (sch : ℕ → List Path → List Path) (t : K.T) (S : List (Source d)) (max : ℕ)
    (eps : ℝ) : adaptiveFmm id Real.log Vec.norm K fuel sch t S max eps = FMM.adaptiveFmm K fuel sch t S max eps := by
  have : adaptiveInit id Real.log Vec.norm K fuel t S max eps = FMM.adaptiveInit K fuel t S max eps := by
    unfold adaptiveInit FMM.adaptiveInit
    rw [totalStrength_id, expansionOrder_id, ← sourceBox_id]
    cases FMM.expansionOrder (FMM.totalStrength S) eps with
    | error e => rfl
    | ok p =>
      rw [ok_bind, ok_bind]
      cases sourceBox id S with
      | none => rfl
      | some r =>
        simp only [Option.map_some]
        rw [adaptiveLists_id]
  unfold adaptiveFmm FMM.adaptiveFmm
  rw [this]

theorem getContainingLeaf_id {α : Type} (fuel : ℕ) (heap : AHeap d α) (x : Vec d) :
    getContainingLeaf id fuel heap x = FMM.getContainingLeaf fuel heap x := by
  unfold getContainingLeaf FMM.getContainingLeaf
  have h : ∀ b : Box d, (toR b).contains id x = true ↔ b.contains x := fun b => contains_id (toR b) x
  cases descend heap x fuel [] with
  | error e => rfl
  | ok cur =>
    rw [ok_bind, ok_bind]
    cases heap.get cur with
    | error e => rfl
    | ok n =>
      rw [ok_bind, ok_bind]
      by_cases hb : n.box.contains x
      · rw [if_pos hb, if_pos ((h _).mpr hb)]
      · rw [if_neg hb, if_neg (fun hh => hb ((h _).mp hh))]

theorem evalLeaf_id {A : Type} [DecidableEq A] [AddCommGroup V] {K : Kit d} (O : Obs K V) (sh : Shape d A) (grav : Bool)
    (s : Exps K A) (leaf : A) (x : Vec d) :
    evalLeaf (· + ·) (- ·) O sh grav s leaf x = FMM.evalLeaf O sh grav s leaf x := rfl

theorem adaptiveEval_id [AddCommGroup V] {K : Kit d} (O : Obs K V) (fuel : ℕ) (grav : Bool) (T : AdaptiveFmm K)
    (S : List (Source d)) (x : Vec d) :
    adaptiveEval id (· + ·) (- ·) O fuel grav T S x = FMM.adaptiveEval O fuel grav T S x := by
  unfold adaptiveEval FMM.adaptiveEval
  rw [getContainingLeaf_id]
  rfl

theorem balancedHeight_id (d N s : ℕ) : balancedHeight id Real.log d N s = FMM.balancedHeight d N s := rfl

theorem balancedFmm_id (K : Kit d) (fuel : ℕ) (sch : ℕ → List BAddr → List BAddr) (t : K.T) (S : List (Source d)) (perCell : ℕ)
    (eps : ℝ) (hh : ∀ h, FMM.balancedHeight d S.length perCell = .ok h → h < 32) :
    balancedFmm id Real.log Vec.norm K fuel sch t S perCell eps = FMM.balancedFmm K fuel sch t S perCell eps := by
  have : balancedInit id Real.log Vec.norm K fuel t S perCell eps = FMM.balancedInit K fuel t S perCell eps := by
    unfold balancedInit FMM.balancedInit
    rw [totalStrength_id, expansionOrder_id, ← sourceBox_id, balancedHeight_id]
    cases FMM.expansionOrder (FMM.totalStrength S) eps with
    | error e => rfl
    | ok p =>
      rw [ok_bind, ok_bind]
      cases hb : FMM.balancedHeight d S.length perCell with
      | error e => rfl
      | ok h =>
        rw [ok_bind, ok_bind]
        cases sourceBox id S with
        | none => rfl
        | some r =>
          simp only [Option.map_some]
          rw [balancedLists_id _ _ _ _ h (hh h hb)]
  unfold balancedFmm FMM.balancedFmm
  rw [this]

theorem balancedEval_id [AddCommGroup V] {K : Kit d} (O : Obs K V) (grav : Bool) (T : BalancedFmm K) (hh : T.height < 32)
    (x : Vec d) : balancedEval id (· + ·) (- ·) O grav T x = FMM.balancedEval O grav T x := by
  unfold balancedEval FMM.balancedEval
  cases T.mem.get (rootAddr T.height) with
  | error e => rw [err_bind, err_bind]
  | ok root =>
    rw [ok_bind, ok_bind, leafIndices_id _ _ hh]
    rfl

end FMM.Rounded
