import Verif.AdaptiveTree
import Verif.Index
import Mathlib.Algebra.Order.Floor.Semiring
import Mathlib.Algebra.Order.Round
import Mathlib.Data.Rat.Floor

/-!
# The geometric layer with rounding

The functions of `vector.hpp`, `abstract_orthtree.hpp`, `adaptive_orthtree.hpp` and `balanced_orthtree.hpp` that decide which
box a point or a neighbour belongs to, with a function `rnd` applied to the result of every arithmetic operation.  With
`rnd = id` they are the functions of the exact model (`Geometry`, `Index`, `DataRange`).  The numbers are the elements of an
ordered field `K`, so that the same definitions can be evaluated on rational numbers.  Comparisons are exact.  Overflow and
underflow are not modelled.
-/

namespace FMM.Rounded
variable {K : Type} [Field K] [LinearOrder K] {d : ℕ}

/-- A point. -/
abbrev Pt (K : Type) (d : ℕ) := Fin d → K

/-- The geometric part of `BaseNode` (abstract_orthtree.hpp:52-56). -/
structure RBox (K : Type) (d : ℕ) where
  center : Pt K d
  len : K

section ops
variable (rnd : K → K)

/-- `operator+` (vector.hpp:23-29). -/
def vadd (a b : Pt K d) : Pt K d := fun i => rnd (a i + b i)
/-- `operator*` (vector.hpp:31-35). -/
def vscale (a : Pt K d) (s : K) : Pt K d := fun i => rnd (a i * s)
/-- unary `operator-` (vector.hpp:37). -/
def vneg (a : Pt K d) : Pt K d := vscale rnd a (-1)
/-- `operator-` (vector.hpp:38). -/
def vsub (a b : Pt K d) : Pt K d := vadd rnd a (vneg rnd b)

/-- `center - box_length/2 * ones` (abstract_orthtree.hpp:76, 78, 104). -/
def RBox.lower (b : RBox K d) : Pt K d := vsub rnd b.center (vscale rnd (fun _ => 1) (rnd (b.len / 2)))
/-- `center + box_length/2 * ones` (abstract_orthtree.hpp:77, 79, 105). -/
def RBox.upper (b : RBox K d) : Pt K d := vadd rnd b.center (vscale rnd (fun _ => 1) (rnd (b.len / 2)))

/-- `BaseNode::adjacent` (abstract_orthtree.hpp:72-98). -/
def RBox.adjacent (a b : RBox K d) : Bool :=
  let tolerance : Pt K d := fun _ => rnd (min a.len b.len / 2)
  let diffs1 := vsub rnd (vsub rnd (b.lower rnd) (a.upper rnd)) tolerance
  let diffs2 := vsub rnd (vsub rnd (a.lower rnd) (b.upper rnd)) tolerance
  decide (∀ i : Fin d, ¬ (diffs1 i > 0 ∨ diffs2 i > 0))

/-- `BaseNode::contains` (abstract_orthtree.hpp:100-113). -/
def RBox.contains (b : RBox K d) (x : Pt K d) : Bool :=
  decide (∀ i : Fin d, ¬ (x i < b.lower rnd i ∨ x i > b.upper rnd i))

/-- `getChildCenterDirections` (abstract_orthtree.hpp:137-169). -/
def dir (d i : ℕ) : Pt K d := fun j => if i.testBit (d - j - 1) then 1 else -1

/-- Geometry of child `i` (adaptive_fmm_tree.hpp:462-473, balanced_fmm_tree.hpp:405-413). -/
def RBox.child (b : RBox K d) (i : ℕ) : RBox K d where
  len := rnd (b.len / 2)
  center := vadd rnd b.center (vscale rnd (dir d i) (rnd (rnd (b.len / 2) / 2)))

/-- Geometry of the node at address `π`. -/
def boxAt (r : RBox K d) : Path → RBox K d
  | [] => r
  | i :: π => (boxAt r π).child rnd i

/-- `getOrthant` (adaptive_orthtree.hpp:24-35). -/
def getOrthant (center point : Pt K d) : ℕ :=
  (List.finRange d).foldl
    (fun orthantIndex i => (orthantIndex <<< 1) ||| (if point i ≥ center i then 1 else 0)) 0

/-- `getContainingLeaf` (adaptive_fmm_tree.hpp:585-598) on the tree that `buildTree` (adaptive_fmm_tree.hpp:436-513) creates,
restricted to the nodes which the look-up visits: `items` are the sources of the current node.  `true`: the leaf is
returned, `false`: the null pointer. -/
def lookup (max : ℕ) : ℕ → RBox K d → List (Pt K d) → Pt K d → Outcome Bool
  | 0, _, _, _ => .error .fuel
  | fuel + 1, b, items, x =>
      if items.length ≤ max then .ok (b.contains rnd x)
      else lookup max fuel (b.child rnd (getOrthant b.center x))
        (items.filter fun s => getOrthant b.center s == getOrthant b.center x) x

/-- The loops of `getDataRange` (abstract_fmm_tree.hpp:92-99) for one coordinate of a non-empty list. -/
def extremum (better : K → K → Bool) : List K → Option K
  | [] => none
  | a :: l => some (l.foldl (fun acc p => if better p acc then p else acc) a)

/-- `getDataRange` (abstract_fmm_tree.hpp:85-108); `padding`: the `double` nearest to `1E-5`. -/
def dataRange (padding : K) (ps : List (Pt K d)) : Pt K d × Pt K d :=
  let lo : Pt K d := fun i => (extremum (fun a b => decide (a < b)) (ps.map (· i))).getD 0
  let hi : Pt K d := fun i => (extremum (fun a b => decide (a > b)) (ps.map (· i))).getD 0
  (vadd rnd lo (vscale rnd lo padding), vadd rnd hi (vscale rnd hi padding))

/-- Root box (adaptive_fmm_tree.hpp:115-119); `std::max_element` of the extents. -/
def rootBox (padding : K) (ps : List (Pt K d)) : RBox K d :=
  let (lo, hi) := dataRange rnd padding ps
  let extents := List.ofFn (vsub rnd hi lo)
  ⟨vscale rnd (vadd rnd lo hi) (1 / 2), (extremum (fun a b => decide (a > b)) extents).getD 0⟩

/-- The number that `getLeafBoxIndices` (balanced_orthtree.hpp:29-42) rounds down, for one coordinate. -/
def leafRatio (r : RBox K d) (h : ℕ) (point : Pt K d) (i : Fin d) : K :=
  rnd (vscale rnd (vsub rnd point (vsub rnd r.center (vscale rnd (fun _ => 1) (rnd (r.len / 2))))) (rnd (1 / r.len)) i * 2 ^ h)

/-- `getLeafBoxIndices` (balanced_orthtree.hpp:25-50) for a tree with root box `r` and height `h < 32`; `floor` is exact. -/
def leafIndices [FloorRing K] (r : RBox K d) (h : ℕ) (point : Pt K d) : Outcome (Fin d → ℕ) :=
  if r.len = 0 then .error .ub
  else seqFin fun i => do
    let index ← toU32 ⌊leafRatio rnd r h point i⌋
    if index ≥ 2 ^ h then .error .runtimeError else .ok index

end ops

/-! ## Without rounding these are the functions of the exact model -/

/-- The box of the exact model. -/
def RBox.exact (b : RBox ℝ d) : Box d := ⟨b.center, b.len⟩

theorem lower_id (b : RBox ℝ d) : b.lower id = b.exact.lower := by
  funext i; simp [RBox.lower, vsub, vadd, vneg, vscale, RBox.exact, Box.lower_apply, sub_eq_add_neg]
theorem upper_id (b : RBox ℝ d) : b.upper id = b.exact.upper := by
  funext i; simp [RBox.upper, vadd, vscale, RBox.exact, Box.upper_apply]

theorem adjacent_id (a b : RBox ℝ d) : a.adjacent id b = true ↔ a.exact.adjacent b.exact := by
  unfold RBox.adjacent Box.adjacent
  rw [decide_eq_true_iff]
  simp only [lower_id, upper_id]
  simp only [vsub, vadd, vneg, vscale, id, Pi.sub_apply, Pi.add_apply, Pi.neg_apply, Vec.fill, RBox.exact, mul_neg, mul_one,
    sub_eq_add_neg]

theorem contains_id (b : RBox ℝ d) (x : Vec d) : b.contains id x = true ↔ b.exact.contains x := by
  unfold RBox.contains Box.contains
  rw [decide_eq_true_iff, lower_id, upper_id]

theorem dir_eq (d i : ℕ) : (dir d i : Pt ℝ d) = childDir d i := rfl

theorem child_id (b : RBox ℝ d) (i : ℕ) : (b.child id i).exact = b.exact.child i := by
  simp only [RBox.exact, RBox.child, Box.child, id]
  congr 1
  funext j
  simp [vadd, vscale, dir_eq, mul_comm]

theorem boxAt_id (r : RBox ℝ d) (π : Path) : (boxAt id r π).exact = FMM.boxAt r.exact π := by
  induction π with
  | nil => rfl
  | cons i π ih => rw [boxAt, child_id, ih, FMM.boxAt]

theorem getOrthant_eq (c x : Vec d) : Rounded.getOrthant c x = FMM.getOrthant c x := rfl

theorem leafIndices_id (r : RBox ℝ d) (h : ℕ) (hh : h < 32) (x : Vec d) :
    leafIndices id r h x = getLeafBoxIndices r.exact h x := by
  unfold leafIndices getLeafBoxIndices
  by_cases hr : r.len = 0
  · rw [if_pos hr, if_pos (show r.exact.len = 0 from hr)]
  · rw [if_neg hr, if_neg (show ¬ r.exact.len = 0 from hr)]
    have h2 : toU32 (2 ^ h) = .ok (2 ^ h) := by
      unfold toU32
      have : (2 : ℤ) ^ h < 2 ^ 32 := pow_lt_pow_right₀ (by norm_num) hh
      rw [if_pos ⟨by positivity, this⟩]
      congr 1
    generalize hN : (2 ^ h : ℕ) = N at h2
    rw [h2, ok_bind]
    subst hN
    refine congrArg seqFin (funext fun i => ?_)
    have e : leafRatio id r h x i = ((1 / r.exact.len) • (x - r.exact.lower)) i * ((2 ^ h : ℕ) : ℝ) := by
      simp [leafRatio, vscale, vsub, vadd, vneg, RBox.exact, Box.lower_apply]
      ring
    unfold leafBoxIndex
    rw [e]

/-- The look-up of the exact tree. -/
theorem lookup_id (r : RBox ℝ d) (items : List (Vec d)) (max : ℕ) (x : Vec d) (k fuel : ℕ) (j : ℕ)
    (hj : j ≤ k) (hf : k - j < fuel)
    (hk : ((itemsAt id r.exact items (route r.exact x k)).length ≤ max))
    (hlt : ∀ i < k, max < (itemsAt id r.exact items (route r.exact x i)).length) :
    lookup id max fuel ⟨(FMM.boxAt r.exact (route r.exact x j)).center, (FMM.boxAt r.exact (route r.exact x j)).len⟩
      (itemsAt id r.exact items (route r.exact x j)) x
      = .ok (decide ((FMM.boxAt r.exact (route r.exact x k)).contains x)) := by
  induction fuel generalizing j with
  | zero => omega
  | succ fuel ih =>
    unfold lookup
    rcases hj.eq_or_lt with rfl | hjk
    · rw [if_pos hk]
      congr 1
      rw [Bool.eq_iff_iff, contains_id, decide_eq_true_iff]
      rfl
    · rw [if_neg (not_le.mpr (hlt j hjk))]
      have e : ((itemsAt id r.exact items (route r.exact x j)).filter fun s =>
          Rounded.getOrthant (FMM.boxAt r.exact (route r.exact x j)).center s ==
            Rounded.getOrthant (FMM.boxAt r.exact (route r.exact x j)).center x) =
          itemsAt id r.exact items (route r.exact x (j + 1)) := by
        rw [itemsAt, List.filter_filter]
        unfold itemsAt
        refine List.filter_congr fun s _ => ?_
        rw [Bool.eq_iff_iff]
        simp only [Bool.and_eq_true, beq_iff_eq, decide_eq_true_iff, route, List.length_cons, getOrthant_eq, id,
          List.cons.injEq]
        constructor
        · rintro ⟨h1, h2⟩; exact ⟨by rw [h2]; exact h1, h2⟩
        · rintro ⟨h1, h2⟩; rw [h2] at h1; exact ⟨h1, h2⟩
      have := ih (j + 1) hjk (by omega)
      rw [← e] at this
      rw [← this]
      have c := child_id ⟨(FMM.boxAt r.exact (route r.exact x j)).center, (FMM.boxAt r.exact (route r.exact x j)).len⟩
        (Rounded.getOrthant (FMM.boxAt r.exact (route r.exact x j)).center x)
      have c' : ∀ a b : RBox ℝ d, a.exact = b.exact → a = b := by
        rintro ⟨_, _⟩ ⟨_, _⟩ h
        simpa [RBox.exact] using h
      congr 1
      exact c' _ _ c

/-- The exact look-up of the model, after the tree has been built. -/
theorem lookup_exact (r : Box d) (hr : 0 ≤ r.len) (items : List (Vec d)) (max fuel0 : ℕ) (st : BuildState d (Vec d)) (h : ℕ)
    (hb : adaptiveBuild fuel0 id r items max = .ok (st, h)) (x : Vec d) (fuel : ℕ) (hf : h < fuel) :
    ∃ o : Option Path, getContainingLeaf fuel st.heap x = .ok o ∧
      lookup id max fuel (⟨r.center, r.len⟩ : RBox ℝ d) items x = .ok o.isSome := by
  obtain ⟨h1, h2, -⟩ := adaptiveBuild_ok hb
  obtain ⟨k, hkh, hk, lk⟩ := exists_leaf_route (fmmTree id r items max) rfl r x h h2
  refine ⟨_, by rw [h1]; exact getContainingLeaf_ok _ rfl r _ x k hk lk fuel (by omega), ?_⟩
  have := lookup_id ⟨r.center, r.len⟩ items max x k fuel 0 (Nat.zero_le _) (by omega) (by
    have : (itemsAt id r items (route r x k)).length ≤ max := by simpa [fmmTree] using lk
    exact this) (by
    intro i hi
    have hs : route r x (i + 1) <:+ route r x k := route_suffix r x hi
    have := hk.2 (route r x i) _ hs
    have : max < (itemsAt id r items (route r x i)).length := by simpa [fmmTree] using this
    exact this)
  rw [show route (RBox.exact ⟨r.center, r.len⟩) x 0 = [] from rfl, itemsAt_nil] at this
  refine Eq.trans this ?_
  congr 1
  show decide ((FMM.boxAt r (route r x k)).contains x) = _
  by_cases hc : (FMM.boxAt r (route r x k)).contains x
  · rw [if_pos hc]; simpa using hc
  · rw [if_neg hc]; simpa using hc

end FMM.Rounded
