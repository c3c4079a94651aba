import Verif.Bfs
import Verif.Index
import Verif.LoopLemmas

/-!
# `BalancedFmmTree`: construction of the node and leaf arrays

Nodes and leaves live in two arrays allocated with `new FmmNode[n_nodes]` and `new FmmLeaf[n_leaves]`; a pointer is
an index into one of them.  A default-constructed element has no initialised members (`none`); reading it and every
access outside the arrays is undefined behaviour.
-/

namespace FMM
variable {d : ℕ}

/-- A pointer `nodes + i` or `leaves + i`. -/
inductive BAddr
  | node (i : ℕ)
  | leaf (i : ℕ)
  deriving DecidableEq

/-- `BaseNode` (abstract_orthtree.hpp:51-69). -/
@[ext] structure BNode (d : ℕ) where
  box : Box d
  depth : ℕ
  parent : Option BAddr
  child : ℕ → Option BAddr

/-- The two arrays and the two offsets (balanced_fmm_tree.hpp:29-33, 131-132). -/
@[ext] structure BMem (d : ℕ) where
  nNodes : ℕ
  nLeaves : ℕ
  nodes : ℕ → Option (BNode d)
  leaves : ℕ → Option (BNode d)
  nodeOffset : ℕ
  leafOffset : ℕ

/-- Reading through a pointer. -/
def BMem.get (m : BMem d) : BAddr → Outcome (BNode d)
  | .node i => if i < m.nNodes then (match m.nodes i with | some n => .ok n | none => .error .ub) else .error .ub
  | .leaf i => if i < m.nLeaves then (match m.leaves i with | some n => .ok n | none => .error .ub) else .error .ub

/-- Assignment through a pointer. -/
def BMem.set (m : BMem d) (a : BAddr) (n : BNode d) : Outcome (BMem d) :=
  match a with
  | .node i => if i < m.nNodes then .ok { m with nodes := Function.update m.nodes i (some n) } else .error .ub
  | .leaf i => if i < m.nLeaves then .ok { m with leaves := Function.update m.leaves i (some n) } else .error .ub

/-- `height = ceil(log(N/sources_per_cell) / log(n_children))`, converted to `size_t`
(balanced_fmm_tree.hpp:97-98). -/
noncomputable def balancedHeight (d N s : ℕ) : Outcome ℕ :=
  if N = 0 ∨ s = 0 then .error .ub
  else
    let z := ⌈Real.log ((N : ℝ) / s) / Real.log (2 ^ d : ℕ)⌉
    if z < 0 then .error .ub else .ok z.toNat

/-- Body of the two loops of `expandNode` (balanced_fmm_tree.hpp:409-419 and 422-434): `inner` says whether the children
are nodes. -/
noncomputable def expandChild (inner : Bool) (a : BAddr) (box : Box d) (depth : ℕ) (m : BMem d) (j : ℕ) :
    Outcome (BMem d) := do
  let c := if inner then BAddr.node m.nodeOffset else BAddr.leaf m.leafOffset
  let m := if inner then { m with nodeOffset := m.nodeOffset + 1 } else { m with leafOffset := m.leafOffset + 1 }
  let m ← m.set c { box := box.child j, depth := depth + 1, parent := some a, child := fun _ => none }
  let n ← m.get a
  m.set a { n with child := Function.update n.child j (some c) }

/-- `expandNode` (balanced_fmm_tree.hpp:401-436). -/
noncomputable def expandNode (h : ℕ) (m : BMem d) (a : BAddr) : Outcome (BMem d) := do
  let node ← m.get a
  if node.depth + 1 < h then (List.range (2 ^ d)).foldlM (expandChild true a node.box node.depth) m
  else if node.depth + 1 = h then (List.range (2 ^ d)).foldlM (expandChild false a node.box node.depth) m
  else .ok m

/-- The root pointer. -/
def rootAddr (h : ℕ) : BAddr := if h = 0 then .leaf 0 else .node 0

/-- `n_leaves = std::pow(n_children, height)` (balanced_fmm_tree.hpp:101): the conversion of a `double` of `2^64` or more
is undefined. -/
def balancedLeaves (d h : ℕ) : Outcome ℕ := if (2 ^ d) ^ h < 2 ^ 64 then .ok ((2 ^ d) ^ h) else .error .ub

/-- Construction of nodes and leaves (balanced_fmm_tree.hpp:100-101, 110-113, 128-141): for height 0 the only element is the
leaf `leaves[0]`. -/
noncomputable def balancedNodes (fuel : ℕ) (r : Box d) (h : ℕ) : Outcome (BMem d) := do
  let nLeaves ← balancedLeaves d h
  let root : BNode d := { box := r, depth := 0, parent := none, child := fun _ => none }
  if h = 0 then
    BMem.set ⟨0, nLeaves, fun _ => none, fun _ => none, 0, 1⟩ (.leaf 0) root
  else do
    let m ← BMem.set ⟨(2 ^ d) ^ h / (2 ^ d - 1), nLeaves, fun _ => none, fun _ => none, 1, 0⟩ (.node 0) root
    traverseBFS (2 ^ d) (fun m a => do let n ← m.get a; .ok n.child) (expandNode h) fuel (rootAddr h) m

/-! ## Breadth-first numbering of the complete tree -/

/-- Number of nodes of depth less than `k`. -/
def off (c : ℕ) : ℕ → ℕ
  | 0 => 0
  | k + 1 => c * off c k + 1

theorem off_succ (c k : ℕ) : off c (k + 1) = off c k + c ^ k := by
  induction k with
  | zero => simp [off]
  | succ k ih =>
    have : off c (k + 2) = c * off c (k + 1) + 1 := rfl
    rw [this, ih, pow_succ]
    have : off c (k + 1) = c * off c k + 1 := rfl
    rw [ih] at this
    nlinarith

theorem off_mono (c : ℕ) {i j : ℕ} (h : i ≤ j) : off c i ≤ off c j := by
  induction h with
  | refl => exact le_rfl
  | step _ ih => rw [Nat.succ_eq_add_one, off_succ]; omega

theorem off_mul (c : ℕ) (hc : 0 < c) (k : ℕ) : (c - 1) * off c k + 1 = c ^ k := by
  induction k with
  | zero => simp [off]
  | succ k ih => 
    rw [off_succ, mul_add, pow_succ]
    obtain ⟨b, rfl⟩ : ∃ b, c = b + 1 := ⟨c - 1, by omega⟩
    rw [Nat.add_sub_cancel] at ih ⊢
    nlinarith

/-- The closed form used by the code for the number of nodes. -/
theorem off_eq_div (c : ℕ) (hc : 3 ≤ c) (k : ℕ) : c ^ k / (c - 1) = off c k := by
  have := off_mul c (by omega) k
  rw [← this, Nat.mul_add_div (by omega), Nat.div_eq_of_lt (by omega), add_zero]

/-- The closed form used by the code for the first node of depth `k`. -/
theorem off_eq_div' (c : ℕ) (hc : 2 ≤ c) (k : ℕ) : (c ^ k - 1) / (c - 1) = off c k := by
  have := off_mul c (by omega) k
  rw [← this, Nat.add_sub_cancel, Nat.mul_div_cancel_left _ (by omega)]

/-- Path of the node with a given breadth-first number. -/
def gpath (c : ℕ) : ℕ → Path
  | 0 => []
  | n + 1 => n % c :: gpath c (n / c)
  termination_by n => n
  decreasing_by exact Nat.lt_succ_of_le (Nat.div_le_self n c)

/-- Breadth-first number of a path. -/
def gidx (c : ℕ) : Path → ℕ
  | [] => 0
  | i :: τ => c * gidx c τ + 1 + i

theorem gpath_child (c : ℕ) (n j : ℕ) (hj : j < c) : gpath c (c * n + 1 + j) = j :: gpath c n := by
  have e : c * n + 1 + j = (c * n + j) + 1 := by ring
  rw [e, gpath, Nat.mul_add_mod, Nat.mod_eq_of_lt hj, Nat.mul_add_div (by omega), Nat.div_eq_of_lt hj, add_zero]

theorem gpath_gidx (c : ℕ) (π : Path) (hπ : ∀ i ∈ π, i < c) : gpath c (gidx c π) = π := by
  induction π with
  | nil => simp [gidx, gpath]
  | cons i τ ih =>
    rw [gidx, gpath_child _ _ _ (hπ i (by simp)), ih fun j hj => hπ j (by simp [hj])]

theorem gidx_gpath (c : ℕ) (n : ℕ) : gidx c (gpath c n) = n := by
  induction n using Nat.strong_induction_on with
  | _ n ih =>
    cases n with
    | zero => simp [gpath, gidx]
    | succ n =>
      rw [gpath, gidx, ih (n / c) (Nat.lt_succ_of_le (Nat.div_le_self n c))]
      have := Nat.div_add_mod n c
      omega

theorem gpath_valid (c : ℕ) (hc : 0 < c) (n : ℕ) : ∀ i ∈ gpath c n, i < c := by
  induction n using Nat.strong_induction_on with
  | _ n ih =>
    cases n with
    | zero => simp [gpath]
    | succ n =>
      rw [gpath]
      intro i hi
      rcases List.mem_cons.mp hi with rfl | hi
      · exact Nat.mod_lt _ hc
      · exact ih (n / c) (Nat.lt_succ_of_le (Nat.div_le_self n c)) i hi

theorem gidx_eq (π : Path) : gidx (2 ^ d) π = off (2 ^ d) π.length + pathIndex d π := by
  induction π with
  | nil => simp [gidx, off, pathIndex]
  | cons i τ ih =>
    rw [gidx, ih, List.length_cons]
    have : off (2 ^ d) (τ.length + 1) = 2 ^ d * off (2 ^ d) τ.length + 1 := rfl
    rw [this, pathIndex]; ring

theorem gpath_length_lt (c : ℕ) (hc : 0 < c) (n k : ℕ) : (gpath c n).length < k ↔ n < off c k := by
  induction n using Nat.strong_induction_on generalizing k with
  | _ n ih =>
    cases k with
    | zero => simp [off]
    | succ k =>
      cases n with
      | zero => simp [gpath, off]
      | succ n =>
        rw [gpath, List.length_cons, Nat.succ_lt_succ_iff, ih (n / c) (Nat.lt_succ_of_le (Nat.div_le_self n c)) k]
        show n / c < off c k ↔ n + 1 < c * off c k + 1
        rw [Nat.div_lt_iff_lt_mul hc, Nat.mul_comm]; omega

/-- The pointer to the element with a given breadth-first number. -/
def glob (c h n : ℕ) : BAddr := if n < off c h then .node n else .leaf (n - off c h)

theorem glob_injective (c h : ℕ) : Function.Injective (glob c h) := by
  intro a b hab
  unfold glob at hab
  split_ifs at hab with h1 h2
  · simpa using hab
  · have : a - off c h = b - off c h := by simpa using hab
    omega

/-- The children of an element of the complete tree. -/
def bkids (c h : ℕ) : BAddr → List BAddr
  | .node i => (List.range c).map fun j => glob c h (c * i + 1 + j)
  | .leaf _ => []

theorem range_flatMap_range {A : Type} (c n : ℕ) (f : ℕ → A) :
    ((List.range n).flatMap fun i => (List.range c).map fun j => f (c * i + j)) = (List.range (c * n)).map f := by
  induction n with
  | zero => simp
  | succ n ih =>
    rw [List.range_succ, List.flatMap_append, ih, Nat.mul_succ, List.range_add, List.map_append]
    simp

theorem bfsLevel_glob (c h : ℕ) (k : ℕ) (hk : k ≤ h) :
    bfsLevel (bkids c h) (glob c h 0) k = (List.range (c ^ k)).map fun i => glob c h (off c k + i) := by
  induction k with
  | zero => simp [bfsLevel, off]
  | succ k ih =>
    rw [bfsLevel, ih (by omega), List.flatMap_map]
    have : ∀ i ∈ List.range (c ^ k), bkids c h (glob c h (off c k + i))
        = (List.range c).map fun j => (fun t => glob c h (off c (k + 1) + t)) (c * i + j) := by
      intro i hi
      have hi := List.mem_range.mp hi
      have hlt : off c k + i < off c h := by
        have := off_succ c k
        have := off_mono c hk
        omega
      unfold glob
      rw [if_pos hlt]
      simp only [bkids]
      refine List.map_congr_left fun j _ => ?_
      have : c * (off c k + i) + 1 + j = off c (k + 1) + (c * i + j) := by
        show _ = c * off c k + 1 + _
        ring
      rw [this]; rfl
    rw [List.flatMap_congr this, range_flatMap_range c (c ^ k) (fun t => glob c h (off c (k + 1) + t)), pow_succ, Nat.mul_comm]

theorem bfsOrder_glob (c h : ℕ) (k : ℕ) (hk : k ≤ h + 1) :
    bfsOrder (bkids c h) (glob c h 0) k = (List.range (off c k)).map (glob c h) := by
  induction k with
  | zero => simp [bfsOrder, off]
  | succ k ih =>
    rw [bfsOrder_succ, ih (by omega), bfsLevel_glob c h k (by omega), off_succ, List.range_add, List.map_append,
      List.map_map]
    rfl

theorem bfsLevel_glob_end (c h : ℕ) : bfsLevel (bkids c h) (glob c h 0) (h + 1) = [] := by
  rw [bfsLevel, bfsLevel_glob c h h le_rfl, List.flatMap_map, List.flatMap_eq_nil_iff]
  intro i _
  unfold glob
  rw [if_neg (by omega)]
  rfl

/-! ## The construction -/

/-- The element with number `n` when `a` elements have been allocated. -/
noncomputable def specB (r : Box d) (h a n : ℕ) : BNode d where
  box := boxAt r (gpath (2 ^ d) n)
  depth := (gpath (2 ^ d) n).length
  parent := if n = 0 then none else some (glob (2 ^ d) h ((n - 1) / 2 ^ d))
  child := fun j => if j < 2 ^ d ∧ 2 ^ d * n + 1 + j < a then some (glob (2 ^ d) h (2 ^ d * n + 1 + j)) else none

/-- The arrays when the first `a` elements have been allocated. -/
noncomputable def bst (r : Box d) (h a : ℕ) : BMem d where
  nNodes := off (2 ^ d) h
  nLeaves := (2 ^ d) ^ h
  nodes i := if i < a ∧ i < off (2 ^ d) h then some (specB r h a i) else none
  leaves i := if off (2 ^ d) h + i < a ∧ i < (2 ^ d) ^ h then some (specB r h a (off (2 ^ d) h + i)) else none
  nodeOffset := min a (off (2 ^ d) h)
  leafOffset := a - off (2 ^ d) h

theorem bst_get (r : Box d) (h a n : ℕ) (hn : n < a) (hn2 : n < off (2 ^ d) (h + 1)) :
    (bst r h a).get (glob (2 ^ d) h n) = .ok (specB r h a n) := by
  unfold glob
  rw [off_succ] at hn2
  split_ifs with h1
  · have e : (bst r h a).nodes n = some (specB r h a n) := if_pos ⟨hn, h1⟩
    simp only [BMem.get]
    rw [if_pos (show n < (bst r h a).nNodes from h1), e]
  · have e1 : off (2 ^ d) h + (n - off (2 ^ d) h) = n := by omega
    have e : (bst r h a).leaves (n - off (2 ^ d) h) = some (specB r h a n) := by
      simp only [bst]; rw [e1]; exact if_pos ⟨hn, by omega⟩
    simp only [BMem.get]
    rw [if_pos (show n - off (2 ^ d) h < (bst r h a).nLeaves by simp only [bst]; omega), e]

theorem expandChild_ok (r : Box d) (h m j : ℕ) (hj : j < 2 ^ d) (hm : m < off (2 ^ d) h) (inner : Bool)
    (hin : inner = decide (2 ^ d * m + 1 + j < off (2 ^ d) h)) :
    expandChild inner (glob (2 ^ d) h m) (boxAt r (gpath (2 ^ d) m)) (gpath (2 ^ d) m).length
      (bst r h (2 ^ d * m + 1 + j)) j = .ok (bst r h (2 ^ d * m + 1 + j + 1)) := by
  have hlt : 2 ^ d * m + 1 + j < off (2 ^ d) (h + 1) := by
    show _ < 2 ^ d * off (2 ^ d) h + 1
    have : 2 ^ d * (m + 1) ≤ 2 ^ d * off (2 ^ d) h := Nat.mul_le_mul_left _ hm
    rw [Nat.mul_add] at this
    omega
  have hmc : m < 2 ^ d * m + 1 + j := by
    have : 1 * m ≤ 2 ^ d * m := Nat.mul_le_mul_right _ Nat.one_le_two_pow
    omega
  have hglobm : glob (2 ^ d) h m = .node m := if_pos hm
  have hnew : (⟨(boxAt r (gpath (2 ^ d) m)).child j, (gpath (2 ^ d) m).length + 1,
      some (glob (2 ^ d) h m), fun _ => none⟩ : BNode d)
      = specB r h (2 ^ d * m + 1 + j + 1) (2 ^ d * m + 1 + j) := by
    unfold specB
    congr 1
    · rw [gpath_child _ _ _ hj]; rfl
    · rw [gpath_child _ _ _ hj]; rfl
    · rw [if_neg (by omega)]
      have : (2 ^ d * m + 1 + j - 1) / 2 ^ d = m := by
        rw [show 2 ^ d * m + 1 + j - 1 = 2 ^ d * m + j by omega, Nat.mul_add_div (by positivity), Nat.div_eq_of_lt hj,
          add_zero]
      rw [this]
    · funext i
      rw [if_neg]
      rintro ⟨_, h2⟩
      have : 1 * (2 ^ d * m + 1 + j) ≤ 2 ^ d * (2 ^ d * m + 1 + j) := Nat.mul_le_mul_right _ Nat.one_le_two_pow
      omega
  -- other elements: only the child pointer of `m` changes
  have hrest : ∀ n, n < 2 ^ d * m + 1 + j → n ≠ m → specB r h (2 ^ d * m + 1 + j) n = specB r h (2 ^ d * m + 1 + j + 1) n := by
    intro n _ hne
    unfold specB
    congr 1
    funext i
    refine if_congr ?_ rfl rfl
    constructor
    · rintro ⟨h1, h2⟩; exact ⟨h1, by omega⟩
    · rintro ⟨h1, h2⟩
      refine ⟨h1, ?_⟩
      rcases Nat.lt_or_ge (2 ^ d * n + 1 + i) (2 ^ d * m + 1 + j) with h3 | h3
      · exact h3
      · exfalso
        have e : 2 ^ d * n + i = 2 ^ d * m + j := by omega
        have e1 : (2 ^ d * n + i) / 2 ^ d = n := by
          rw [Nat.mul_add_div (by positivity), Nat.div_eq_of_lt h1, add_zero]
        have e2 : (2 ^ d * m + j) / 2 ^ d = m := by
          rw [Nat.mul_add_div (by positivity), Nat.div_eq_of_lt hj, add_zero]
        rw [e, e2] at e1
        exact hne e1.symm
  have hself : ({ specB r h (2 ^ d * m + 1 + j) m with child := Function.update (specB r h (2 ^ d * m + 1 + j) m).child j (some (glob (2 ^ d) h (2 ^ d * m + 1 + j))) } : BNode d)
      = specB r h (2 ^ d * m + 1 + j + 1) m := by
    refine BNode.ext rfl rfl rfl ?_
    simp only [specB]
    funext i
    by_cases hi : i = j
    · subst hi
      rw [Function.update_self, if_pos ⟨hj, by omega⟩]
    · rw [Function.update_of_ne hi]
      refine if_congr ?_ rfl rfl
      constructor
      · rintro ⟨h1, h2⟩; exact ⟨h1, by omega⟩
      · rintro ⟨h1, h2⟩; exact ⟨h1, by omega⟩
  unfold expandChild
  by_cases hi : 2 ^ d * m + 1 + j < off (2 ^ d) h
  · have : inner = true := by rw [hin]; simpa using hi
    subst this
    simp only [if_true]
    have ho : (bst r h (2 ^ d * m + 1 + j)).nodeOffset = 2 ^ d * m + 1 + j := by simp [bst]; omega
    have hg : glob (2 ^ d) h (2 ^ d * m + 1 + j) = .node (2 ^ d * m + 1 + j) := if_pos hi
    rw [ho, hnew]
    simp only [BMem.set]
    rw [if_pos (by simpa [bst] using hi), ok_bind, hglobm]
    simp only [BMem.get]
    rw [if_pos (by simpa [bst] using hm), Function.update_of_ne (by omega)]
    have hn : (bst r h (2 ^ d * m + 1 + j)).nodes m = some (specB r h (2 ^ d * m + 1 + j) m) := if_pos ⟨hmc, hm⟩
    rw [hn]
    simp only
    rw [ok_bind, if_pos (by simpa [bst] using hm), ← hg, hself]
    congr 1
    unfold bst
    simp only [BMem.mk.injEq, true_and]
    refine ⟨?_, ?_, by omega, by omega⟩
    · funext i
      by_cases h1 : i = m
      · subst h1; rw [Function.update_self, if_pos ⟨by omega, hm⟩]
      · rw [Function.update_of_ne h1]
        by_cases h2 : i = 2 ^ d * m + 1 + j
        · subst h2; rw [Function.update_self, if_pos ⟨by omega, hi⟩]
        · rw [Function.update_of_ne h2]
          by_cases h3 : i < 2 ^ d * m + 1 + j ∧ i < off (2 ^ d) h
          · rw [if_pos h3, if_pos ⟨by omega, h3.2⟩, hrest i h3.1 h1]
          · rw [if_neg h3, if_neg (by omega)]
    · funext i
      rw [if_neg (by omega), if_neg (by omega)]
  · have : inner = false := by rw [hin]; simpa using hi
    subst this
    simp only [Bool.false_eq_true, if_false]
    have ho : (bst r h (2 ^ d * m + 1 + j)).leafOffset = 2 ^ d * m + 1 + j - off (2 ^ d) h := rfl
    have hg : glob (2 ^ d) h (2 ^ d * m + 1 + j) = .leaf (2 ^ d * m + 1 + j - off (2 ^ d) h) := if_neg hi
    rw [off_succ] at hlt
    rw [ho, hnew]
    simp only [BMem.set]
    rw [if_pos (by simp only [bst]; omega), ok_bind, hglobm]
    simp only [BMem.get]
    rw [if_pos (by simpa [bst] using hm)]
    have hn : (bst r h (2 ^ d * m + 1 + j)).nodes m = some (specB r h (2 ^ d * m + 1 + j) m) := if_pos ⟨hmc, hm⟩
    rw [hn]
    simp only
    rw [ok_bind, if_pos (by simpa [bst] using hm), ← hg, hself]
    congr 1
    unfold bst
    simp only [BMem.mk.injEq, true_and]
    refine ⟨?_, ?_, by omega, by omega⟩
    · funext i
      by_cases h1 : i = m
      · subst h1; rw [Function.update_self, if_pos ⟨by omega, hm⟩]
      · rw [Function.update_of_ne h1]
        by_cases h3 : i < 2 ^ d * m + 1 + j ∧ i < off (2 ^ d) h
        · rw [if_pos h3, if_pos ⟨by omega, h3.2⟩, hrest i h3.1 h1]
        · rw [if_neg h3, if_neg (by omega)]
    · funext i
      by_cases h2 : i = 2 ^ d * m + 1 + j - off (2 ^ d) h
      · subst h2
        have e : off (2 ^ d) h + (2 ^ d * m + 1 + j - off (2 ^ d) h) = 2 ^ d * m + 1 + j := by omega
        rw [Function.update_self, e, if_pos ⟨by omega, by omega⟩]
      · rw [Function.update_of_ne h2]
        by_cases h3 : off (2 ^ d) h + i < 2 ^ d * m + 1 + j ∧ i < (2 ^ d) ^ h
        · rw [if_pos h3, if_pos ⟨by omega, h3.2⟩, hrest _ h3.1 (by omega)]
        · rw [if_neg h3, if_neg (by omega)]

theorem expandLoop_ok (r : Box d) (h m : ℕ) (hm : m < off (2 ^ d) h) (inner : Bool)
    (hin : ∀ j < 2 ^ d, inner = decide (2 ^ d * m + 1 + j < off (2 ^ d) h)) (k : ℕ) (hk : k ≤ 2 ^ d) :
    (List.range k).foldlM (expandChild inner (glob (2 ^ d) h m) (boxAt r (gpath (2 ^ d) m)) (gpath (2 ^ d) m).length)
      (bst r h (2 ^ d * m + 1)) = .ok (bst r h (2 ^ d * m + 1 + k)) := by
  induction k with
  | zero => rfl
  | succ k ih =>
    rw [List.range_succ, List.foldlM_append, ih (by omega), ok_bind, List.foldlM_cons,
      expandChild_ok r h m k (by omega) hm inner (hin k (by omega)), ok_bind]
    rfl

/-- One visit of the construction traversal. -/
theorem expandNode_ok (r : Box d) (h m : ℕ) (hm : m < off (2 ^ d) (h + 1)) :
    expandNode h (bst r h (min (2 ^ d * m + 1) (off (2 ^ d) (h + 1)))) (glob (2 ^ d) h m)
      = .ok (bst r h (min (2 ^ d * (m + 1) + 1) (off (2 ^ d) (h + 1)))) := by
  have hpos : 0 < 2 ^ d := by positivity
  have hle : m < 2 ^ d * m + 1 := by
    have : 1 * m ≤ 2 ^ d * m := Nat.mul_le_mul_right _ Nat.one_le_two_pow
    omega
  have e1 : off (2 ^ d) (h + 1) = 2 ^ d * off (2 ^ d) h + 1 := rfl
  unfold expandNode
  rw [bst_get r h _ m (by omega) hm, ok_bind]
  have hdep : ∀ k, (gpath (2 ^ d) m).length < k ↔ m < off (2 ^ d) k := gpath_length_lt _ hpos m
  have f1 : ∀ a, (specB r h a m).depth = (gpath (2 ^ d) m).length := fun _ => rfl
  have f2 : ∀ a, (specB r h a m).box = boxAt r (gpath (2 ^ d) m) := fun _ => rfl
  rw [f1, f2]
  by_cases hi : m < off (2 ^ d) h
  · have hmul : 2 ^ d * (m + 1) ≤ 2 ^ d * off (2 ^ d) h := Nat.mul_le_mul_left _ hi
    have hmul' : 2 ^ d * (m + 1) = 2 ^ d * m + 2 ^ d := by ring
    rw [min_eq_left (by omega), min_eq_left (by omega)]
    have hchild : ∀ j < 2 ^ d, ((2 ^ d * m + 1 + j < off (2 ^ d) h) ↔ (gpath (2 ^ d) m).length + 1 < h) := by
      intro j hj
      rw [← gpath_length_lt _ hpos, gpath_child _ _ _ hj]; simp
    have hend : 2 ^ d * m + 1 + 2 ^ d = 2 ^ d * (m + 1) + 1 := by ring
    by_cases h1 : (gpath (2 ^ d) m).length + 1 < h
    · rw [if_pos h1, expandLoop_ok r h m hi true (fun j hj => by simpa using (hchild j hj).mpr h1) (2 ^ d) le_rfl, hend]
    · have h2 : (gpath (2 ^ d) m).length + 1 = h := by have := (hdep h).mpr hi; omega
      rw [if_neg h1, if_pos h2, expandLoop_ok r h m hi false (fun j hj => by
        symm; rw [decide_eq_false_iff_not, hchild j hj]; exact h1) (2 ^ d) le_rfl, hend]
  · have h1 : h ≤ (gpath (2 ^ d) m).length := by
      by_contra hc; exact hi ((hdep h).mp (by omega))
    have hmul : 2 ^ d * off (2 ^ d) h ≤ 2 ^ d * m := Nat.mul_le_mul_left _ (by omega)
    have hmul' : 2 ^ d * (m + 1) = 2 ^ d * m + 2 ^ d := by ring
    rw [if_neg (by omega), if_neg (by omega), min_eq_right (by omega), min_eq_right (by omega)]

/-- The finished arrays. -/
noncomputable def bfull (r : Box d) (h : ℕ) : BMem d := bst r h (off (2 ^ d) (h + 1))

theorem pushKids_bst (r : Box d) (h a m : ℕ) (ha : 2 ^ d * (m + 1) + 1 ≤ a ∨ (off (2 ^ d) h ≤ m ∧ a ≤ off (2 ^ d) (h + 1)))
    (hm : m < off (2 ^ d) h ∨ off (2 ^ d) h ≤ m ∧ a ≤ off (2 ^ d) (h + 1)) :
    pushKids (2 ^ d) (specB r h a m).child = bkids (2 ^ d) h (glob (2 ^ d) h m) := by
  unfold pushKids
  simp only [specB]
  rcases hm with hm | ⟨hm, ha'⟩
  · have ha : 2 ^ d * (m + 1) + 1 ≤ a := by omega
    have hmul' : 2 ^ d * (m + 1) = 2 ^ d * m + 2 ^ d := by ring
    have hg : glob (2 ^ d) h m = .node m := if_pos hm
    rw [hg]
    simp only [bkids]
    rw [← List.filterMap_eq_map]
    refine List.filterMap_congr fun j hj => ?_
    have hj := List.mem_range.mp hj
    rw [if_pos ⟨hj, by omega⟩]; rfl
  · have hg : glob (2 ^ d) h m = .leaf (m - off (2 ^ d) h) := if_neg (by omega)
    rw [hg]
    simp only [bkids]
    rw [List.filterMap_eq_nil_iff]
    intro j _
    have e1 : off (2 ^ d) (h + 1) = 2 ^ d * off (2 ^ d) h + 1 := rfl
    have hmul : 2 ^ d * off (2 ^ d) h ≤ 2 ^ d * m := Nat.mul_le_mul_left _ (by omega)
    rw [if_neg]
    rintro ⟨_, h2⟩
    omega

theorem balancedNodes_ok (hd : 2 ≤ d) (r : Box d) (h : ℕ) (hh : d * h < 64) (fuel : ℕ)
    (hf : off (2 ^ d) (h + 1) ≤ fuel) : balancedNodes fuel r h = .ok (bfull r h) := by
  have hpos : 0 < 2 ^ d := by positivity
  have hc : 3 ≤ 2 ^ d := by
    have : 2 ^ 2 ≤ 2 ^ d := Nat.pow_le_pow_right (by norm_num) hd
    omega
  unfold balancedNodes balancedLeaves
  have hsz : (2 ^ d) ^ h < 2 ^ 64 := by rw [← pow_mul]; exact Nat.pow_lt_pow_right (by norm_num) hh
  rw [if_pos hsz, ok_bind]
  by_cases h0 : h = 0
  · subst h0
    simp only [if_true, BMem.set]
    rw [if_pos (by simp)]
    congr 1
    unfold bfull bst
    simp only [BMem.mk.injEq]
    have e : off (2 ^ d) (0 + 1) = 1 := by simp [off]
    have e0 : off (2 ^ d) 0 = 0 := rfl
    rw [e, e0]
    refine ⟨rfl, by simp, by funext i; simp, ?_, by simp, ?_⟩
    · funext i
      by_cases hi : i = 0
      · subst hi
        simp [specB, gpath, boxAt]
      · rw [Function.update_of_ne hi, if_neg (by omega)]
    · rfl
  · have hoff : 0 < off (2 ^ d) h := by
      obtain ⟨k, rfl⟩ : ∃ k, h = k + 1 := ⟨h - 1, by omega⟩
      show 0 < _ + 1
      omega
    rw [if_neg h0, off_eq_div _ hc]
    have hset : BMem.set (⟨off (2 ^ d) h, (2 ^ d) ^ h, fun _ => none, fun _ => none, 1, 0⟩ : BMem d) (.node 0)
        ⟨r, 0, none, fun _ => none⟩ = .ok (bst r h 1) := by
      simp only [BMem.set]
      rw [if_pos hoff]
      congr 1
      unfold bst
      simp only [BMem.mk.injEq, true_and]
      refine ⟨?_, ?_, by omega, by omega⟩
      · funext i
        by_cases hi : i = 0
        · subst hi
          rw [Function.update_self, if_pos ⟨by omega, hoff⟩]
          congr 1
          simp only [specB, gpath, boxAt, List.length_nil, if_true, BNode.mk.injEq, true_and]
          funext j
          rw [if_neg (by omega)]
        · rw [Function.update_of_ne hi, if_neg (by omega)]
      · funext i
        rw [if_neg (by omega)]
    rw [hset, ok_bind]
    have hroot : rootAddr h = glob (2 ^ d) h 0 := by
      unfold rootAddr glob; rw [if_neg h0, if_pos hoff]
    rw [hroot]
    have e1 : off (2 ^ d) (h + 1) = 2 ^ d * off (2 ^ d) h + 1 := rfl
    obtain ⟨s', -, h2, h3⟩ := traverseBFS_eq (2 ^ d) (fun (m : BMem d) a => do let n ← m.get a; .ok n.child)
      (expandNode h) (bkids (2 ^ d) h) (glob (2 ^ d) h 0)
      (fun done s => s = bst r h (min (2 ^ d * done.length + 1) (off (2 ^ d) (h + 1)))) (h + 1)
      (bfsLevel_glob_end _ h) (by
        intro d1 a d2 e s hs
        rw [bfsOrder_glob _ h _ le_rfl] at e
        have hlen : d1.length < off (2 ^ d) (h + 1) := by
          have := congrArg List.length e
          simp at this; omega
        have ha : a = glob (2 ^ d) h d1.length := by
          have := congrArg (fun l => l[d1.length]?) e
          simp only [List.getElem?_map, List.getElem?_range hlen, Option.map_some, List.getElem?_append_right le_rfl,
            Nat.sub_self, List.getElem?_cons_zero] at this
          exact (Option.some.inj this).symm
        subst ha hs
        refine ⟨_, (specB r h (min (2 ^ d * (d1.length + 1) + 1) (off (2 ^ d) (h + 1))) d1.length).child,
          expandNode_ok r h d1.length hlen, ?_, ?_, ?_⟩
        · rw [List.length_append]; rfl
        · have : 1 * (d1.length + 1) ≤ 2 ^ d * (d1.length + 1) := Nat.mul_le_mul_right _ Nat.one_le_two_pow
          rw [bst_get r h _ _ (by omega) hlen, ok_bind]
        · by_cases hi : d1.length < off (2 ^ d) h
          · have hmul : 2 ^ d * (d1.length + 1) ≤ 2 ^ d * off (2 ^ d) h := Nat.mul_le_mul_left _ hi
            exact pushKids_bst r h _ _ (Or.inl (by omega)) (Or.inl hi)
          · exact pushKids_bst r h _ _ (Or.inr ⟨by omega, by omega⟩) (Or.inr ⟨by omega, by omega⟩)) (bst r h 1) (by
        simp only [List.length_nil, Nat.mul_zero, Nat.zero_add]; rw [min_eq_left (by omega)])
    rw [bfsOrder_glob _ h _ le_rfl] at h2 h3
    simp only [List.length_map, List.length_range] at h2 h3
    rw [h3 fuel hf, h2]
    have : 1 * off (2 ^ d) (h + 1) ≤ 2 ^ d * off (2 ^ d) (h + 1) := Nat.mul_le_mul_right _ Nat.one_le_two_pow
    rw [min_eq_right (by omega)]
    rfl

end FMM
