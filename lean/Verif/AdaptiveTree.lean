import Verif.AdaptiveBuild
import Mathlib.Data.List.Perm.Basic
import Mathlib.Data.List.ProdSigma

/-!
# The adaptive tree as built by the constructors

First part of the constructor of `AdaptiveFmmTree` (adaptive_fmm_tree.hpp:108-144), the look-up of the
containing leaf, and the description of the resulting heap.
-/

namespace FMM
variable {d : ℕ} {α : Type}

/-- The part of the constructor of `AdaptiveFmmTree` that allocates the nodes (adaptive_fmm_tree.hpp:121-144) for a
given root box: a single leaf if there are at most `max` sources. -/
noncomputable def adaptiveBuild (fuel : ℕ) (pos : α → Vec d) (r : Box d) (items : List α) (max : ℕ) :
    Outcome (BuildState d α × ℕ) :=
  if items.length ≤ max then
    .ok ({ heap := rootHeap r true items, nodes := [], leaves := [[[]]], nodeSources := [] }, 0)
  else buildTree fuel pos r items max

/-- The `while` loop of `getContainingLeaf` (adaptive_fmm_tree.hpp:589-594). -/
noncomputable def descend (heap : AHeap d α) (x : Vec d) : ℕ → Path → Outcome Path
  | 0, _ => .error .fuel
  | fuel + 1, cur => do
      let node ← heap.get cur
      if node.isLeaf then .ok cur
      else
        match node.child (getOrthant node.box.center x) with
        | none => .error .ub
        | some c => descend heap x fuel c

/-- `getContainingLeaf` (adaptive_fmm_tree.hpp:585-598). -/
noncomputable def getContainingLeaf (fuel : ℕ) (heap : AHeap d α) (x : Vec d) : Outcome (Option Path) := do
  let cur ← descend heap x fuel []
  let node ← heap.get cur
  if node.box.contains x then .ok (some cur) else .ok none

/-! ## Description of the result -/

/-- The heap of a complete tree of paths. -/
noncomputable def treeHeap (T : PTree) (r : Box d) (it : Path → List α) : AHeap d α := fun π =>
  open Classical in
  if T.Mem π then
    some { box := boxAt r π, depth := π.length, parent := π.tail?, isLeaf := T.leaf π
           child := fun i => if T.leaf π = false ∧ i < T.c then some (i :: π) else none
           items := if T.leaf π then it π else [] }
  else none

/-- The tree of an `AdaptiveFmmTree`: a node is a leaf iff at most `max` items are routed to it. -/
noncomputable def fmmTree (pos : α → Vec d) (r : Box d) (items : List α) (max : ℕ) : PTree where
  c := 2 ^ d
  leaf π := decide ((itemsAt pos r items π).length ≤ max)
  adj π ρ := decide ((boxAt r π).adjacent (boxAt r ρ))

variable {pos : α → Vec d} {r : Box d} {items : List α} {max : ℕ}

theorem fmmTree_eq (h : max < items.length) : adaptiveTree pos r items max = fmmTree pos r items max := by
  unfold adaptiveTree fmmTree
  congr 1
  funext π
  refine decide_eq_decide.mpr ?_
  constructor
  · exact fun h => h.2
  · intro h'
    refine ⟨?_, h'⟩
    rintro rfl
    rw [itemsAt_nil] at h'; omega

theorem treeHeap_get (T : PTree) (it : Path → List α) {π : Path} (h : T.Mem π) :
    (treeHeap T r it).get π = .ok
      { box := boxAt r π, depth := π.length, parent := π.tail?, isLeaf := T.leaf π
        child := fun i => if T.leaf π = false ∧ i < T.c then some (i :: π) else none
        items := if T.leaf π then it π else [] } := by
  unfold AHeap.get treeHeap
  rw [if_pos h]

theorem mem_length_le {h : ℕ} (hh : IsHeight pos r items max h) {π : Path}
    (hm : (adaptiveTree pos r items max).Mem π) : π.length ≤ h := by
  by_contra hlt
  push Not at hlt
  obtain ⟨i, hi⟩ := PTree.trunc_succ π h hlt
  have h1 : (adaptiveTree pos r items max).Mem (i :: PTree.trunc π h) := by
    rw [← hi]; exact hm.suffix (PTree.trunc_suffix _ _)
  have h2 : PTree.trunc π h ∈ nodeLevel pos r items max h :=
    (mem_nodeLevel _ _ _ _ _ _).mpr ⟨h1.tail, PTree.trunc_length _ _ hlt.le, h1.parent_not_leaf⟩
  rw [hh.2.1] at h2
  simp at h2

theorem specHeap_final {h : ℕ} (hh : IsHeight pos r items max h) :
    specHeap pos r items max (fun π => (adaptiveTree pos r items max).Mem π ∧ π.length ≤ h)
      = treeHeap (adaptiveTree pos r items max) r (itemsAt pos r items) := by
  classical
  have hAl : ∀ π, ((adaptiveTree pos r items max).Mem π ∧ π.length ≤ h) ↔ (adaptiveTree pos r items max).Mem π :=
    fun π => ⟨And.left, fun hm => ⟨hm, mem_length_le hh hm⟩⟩
  rw [specHeap_congr hAl]
  funext π
  unfold specHeap treeHeap
  by_cases hm : (adaptiveTree pos r items max).Mem π
  · rw [if_pos hm, if_pos hm]
    congr 1
    refine ANode.ext rfl rfl rfl rfl ?_ rfl
    funext i
    simp only [specNode]
    by_cases hc : (adaptiveTree pos r items max).Mem (i :: π)
    · rw [if_pos hc, if_pos ⟨hc.parent_not_leaf, hc.lt⟩]
    · rw [if_neg hc, if_neg]
      rintro ⟨h1, h2⟩
      exact hc (hm.cons h1 h2)
  · rw [if_neg hm, if_neg hm]

theorem rootHeap_leaf (T : PTree) (it : Path → List α) (hl : T.leaf [] = true) (hit : it [] = items) :
    rootHeap r true items = treeHeap T r it := by
  classical
  funext π
  unfold rootHeap treeHeap
  by_cases h : π = []
  · subst h
    rw [if_pos rfl, if_pos PTree.mem_nil]
    congr 1
    refine ANode.ext rfl rfl rfl hl.symm ?_ ?_
    · funext i; simp [hl]
    · simp [hl, hit]
  · rw [if_neg h, if_neg]
    intro hm
    exact h (hm.eq_of_leaf_suffix hl (List.nil_suffix)).symm

/-- With too little fuel the loop does not finish. -/
theorem buildTree_short {h : ℕ} (hh : IsHeight pos r items max h) {fuel : ℕ} (hf : fuel < h) :
    buildTree fuel pos r items max = .error .fuel := by
  have : ∀ f k, k + f < h → buildLoop pos max f k
      (specBuild pos r items max k ((List.range (k + 1)).map (nodeLevel pos r items max))) = .error .fuel := by
    intro f
    induction f with
    | zero => intro k _; rfl
    | succ f ih =>
      intro k hk
      have hnk : (List.map (nodeLevel pos r items max) (List.range (k + 1)))[k]?
          = some (nodeLevel pos r items max k) := by simp
      have hn1 := hh.2.2 (k + 1) (by omega) (by omega)
      unfold buildLoop
      simp only [specBuild, hnk]
      rw [level_step, ok_bind]
      simp only
      rw [if_pos hn1, if_pos hn1]
      rw [← ih (k + 1) (by omega)]
      congr 1
      unfold specBuild
      congr 1
      · rw [List.range_succ (n := k + 1), List.map_append]; rfl
      · rw [List.range_succ (n := k + 1), List.map_append]; rfl
  unfold buildTree
  rw [buildTree_init pos r items max]
  exact this fuel 0 (by omega)

/-- The result of the allocation phase. -/
theorem adaptiveBuild_ok {fuel : ℕ} {st : BuildState d α} {h : ℕ}
    (hb : adaptiveBuild fuel pos r items max = .ok (st, h)) :
    st.heap = treeHeap (fmmTree pos r items max) r (itemsAt pos r items) ∧
      (∀ π, (fmmTree pos r items max).Mem π → π.length ≤ h) ∧
      ((items.length ≤ max ∧ h = 0 ∧ st.nodes = [] ∧ st.leaves = [[[]]]) ∨
        (max < items.length ∧ IsHeight pos r items max h ∧
          st.nodes = (List.range h).map (nodeLevel pos r items max) ∧
          st.leaves = (List.range (h + 1)).map (leafLevel pos r items max))) := by
  unfold adaptiveBuild at hb
  by_cases hN : items.length ≤ max
  · rw [if_pos hN] at hb
    obtain ⟨rfl, rfl⟩ : _ = st ∧ 0 = h := by simpa using hb
    have hl : (fmmTree pos r items max).leaf [] = true := by simp [fmmTree, itemsAt_nil, hN]
    refine ⟨rootHeap_leaf _ _ hl itemsAt_nil, ?_, Or.inl ⟨hN, rfl, rfl, rfl⟩⟩
    intro π hm
    rw [← hm.eq_of_leaf_suffix hl List.nil_suffix]; simp
  · rw [if_neg hN] at hb
    push Not at hN
    rcases buildTree_total pos r items max with ⟨h', hh'⟩ | hdiv
    · -- terminates
      rcases Nat.lt_or_ge fuel h' with hf | hf
      · rw [buildTree_short hh' hf] at hb; simp at hb
      · rw [buildTree_ok pos r items max h' hh' fuel hf] at hb
        obtain ⟨rfl, rfl⟩ : _ = st ∧ h' = h := by simpa using hb
        refine ⟨?_, ?_, Or.inr ⟨hN, hh', rfl, rfl⟩⟩
        · show specHeap pos r items max _ = _
          rw [specHeap_final hh', fmmTree_eq hN]
        · rw [← fmmTree_eq hN]; exact fun π => mem_length_le hh'
    · rw [(hdiv fuel).1] at hb
      simp at hb

/-- The result does not depend on the fuel. -/
theorem adaptiveBuild_mono {fuel fuel' : ℕ} (hf : fuel ≤ fuel') {x : BuildState d α × ℕ}
    (hb : adaptiveBuild fuel pos r items max = .ok x) : adaptiveBuild fuel' pos r items max = .ok x := by
  unfold adaptiveBuild at hb ⊢
  by_cases hN : items.length ≤ max
  · rw [if_pos hN] at hb ⊢; exact hb
  · rw [if_neg hN] at hb ⊢
    rcases buildTree_total pos r items max with ⟨h', hh'⟩ | hdiv
    · rcases Nat.lt_or_ge fuel h' with h | h
      · rw [buildTree_short hh' h] at hb; simp at hb
      · rw [buildTree_ok pos r items max h' hh' fuel h] at hb
        rw [buildTree_ok pos r items max h' hh' fuel' (h.trans hf), hb]
    · rw [(hdiv fuel).1] at hb; simp at hb

/-! ## Routes -/

theorem route_suffix (r : Box d) (x : Vec d) {j k : ℕ} (h : j ≤ k) : route r x j <:+ route r x k := by
  rw [← route_drop r x k j h]; exact List.drop_suffix _ _

theorem route_trunc (r : Box d) (x : Vec d) {j k : ℕ} (h : j ≤ k) : PTree.trunc (route r x k) j = route r x j := by
  unfold PTree.trunc; rw [route_length]; exact route_drop r x k j h

/-- If all nodes have depth at most `h`, every point is routed to exactly one leaf. -/
theorem exists_leaf_route (T : PTree) (hc : T.c = 2 ^ d) (r : Box d) (x : Vec d) (h : ℕ)
    (hh : ∀ π, T.Mem π → π.length ≤ h) : ∃ k ≤ h, T.Mem (route r x k) ∧ T.leaf (route r x k) = true := by
  by_contra hno
  push Not at hno
  have : ∀ k ≤ h + 1, T.Mem (route r x k) := by
    intro k
    induction k with
    | zero => intro _; exact PTree.mem_nil
    | succ k ih =>
      intro hk
      have h1 := ih (by omega)
      have h2 := hno k (by omega) h1
      exact h1.cons (by simpa using h2) (by rw [hc]; exact getOrthant_lt _ _)
  have := hh _ (this (h + 1) le_rfl)
  rw [route_length] at this
  omega

theorem leaf_route_unique (T : PTree) (r : Box d) (x : Vec d) {j k : ℕ} (hj : T.Mem (route r x j))
    (hk : T.Mem (route r x k)) (lj : T.leaf (route r x j) = true) (lk : T.leaf (route r x k) = true) : j = k := by
  rcases Nat.le_total j k with h | h
  · have := hk.eq_of_leaf_suffix lj (route_suffix r x h)
    simpa using congrArg List.length this
  · have := hj.eq_of_leaf_suffix lk (route_suffix r x h)
    simpa using (congrArg List.length this).symm

/-- The depth of the leaf to which a point is routed. -/
theorem leaf_mem_of_route (T : PTree) (r : Box d) (x : Vec d) {k : ℕ}
    (_hk : T.Mem (route r x k)) (lk : T.leaf (route r x k) = true) {π : Path} (hπ : T.Mem π) :
    route r x π.length = π ↔ π <:+ route r x k := by
  constructor
  · intro h
    rcases Nat.le_total π.length k with hl | hl
    · rw [← h]; exact route_suffix r x hl
    · have : route r x k = π := by
        refine hπ.eq_of_leaf_suffix lk ?_
        conv_rhs => rw [← h]
        exact route_suffix r x hl
      rw [this]
  · intro h
    have hl : π.length ≤ k := by have := h.length_le; rwa [route_length] at this
    rw [PTree.eq_trunc_of_suffix h, PTree.trunc_length _ _ (by rwa [route_length]), route_trunc r x hl]

/-! ## Descent -/

theorem descend_ok (T : PTree) (hc : T.c = 2 ^ d) (r : Box d) (it : Path → List α) (x : Vec d) (k : ℕ)
    (hk : T.Mem (route r x k)) (lk : T.leaf (route r x k) = true) (fuel : ℕ) (hf : k < fuel) :
    descend (treeHeap T r it) x fuel [] = .ok (route r x k) := by
  have key : ∀ f j, j ≤ k → k - j < f → descend (treeHeap T r it) x f (route r x j) = .ok (route r x k) := by
    intro f
    induction f with
    | zero => intro j _ h; omega
    | succ f ih =>
      intro j hj hlt
      have hm : T.Mem (route r x j) := hk.suffix (route_suffix r x hj)
      unfold descend
      rw [treeHeap_get T it hm, ok_bind]
      by_cases hl : T.leaf (route r x j) = true
      · rw [if_pos hl, leaf_route_unique T r x hm hk hl lk]
      · have hl' : T.leaf (route r x j) = false := by simpa using hl
        have hjk : j ≠ k := by rintro rfl; exact hl lk
        rw [if_neg hl]
        simp only
        rw [if_pos ⟨hl', by rw [hc]; exact getOrthant_lt _ _⟩]
        exact ih (j + 1) (by omega) (by omega)
  exact key fuel 0 (by omega) (by omega)

theorem getContainingLeaf_ok (T : PTree) (hc : T.c = 2 ^ d) (r : Box d) (it : Path → List α) (x : Vec d) (k : ℕ)
    (hk : T.Mem (route r x k)) (lk : T.leaf (route r x k) = true) (fuel : ℕ) (hf : k < fuel) :
    getContainingLeaf fuel (treeHeap T r it) x
      = .ok (if (boxAt r (route r x k)).contains x then some (route r x k) else none) := by
  unfold getContainingLeaf
  rw [descend_ok T hc r it x k hk lk fuel hf, ok_bind, treeHeap_get T it hk, ok_bind]
  simp only
  split_ifs <;> rfl

/-! ## Partition -/

theorem flatMap_filter_perm {κ : Type} (l : List κ) (P : κ → α → Bool) (items : List α)
    (h : ∀ s ∈ items, l.countP (fun π => P π s) = 1) :
    (l.flatMap fun π => items.filter (P π)).Perm items := by
  classical
  rw [List.perm_iff_count]
  intro a
  rw [List.count_flatMap]
  have h1 : ∀ π, List.count a (items.filter (P π)) = if P π a then List.count a items else 0 := by
    intro π
    split_ifs with h
    · exact List.count_filter h
    · rw [List.count_eq_zero]
      intro hm
      exact h (List.mem_filter.mp hm).2
  have h2 : (l.map (List.count a ∘ fun π => items.filter (P π))).sum = l.countP (fun π => P π a) * List.count a items := by
    clear h
    induction l with
    | nil => simp
    | cons π l ih =>
      rw [List.map_cons, List.sum_cons, ih, Function.comp_apply, h1, List.countP_cons]
      split_ifs
      · rw [add_mul, one_mul, add_comm]
      · simp
  rw [h2]
  by_cases ha : a ∈ items
  · rw [h a ha, one_mul]
  · rw [List.count_eq_zero.mpr ha, mul_zero]

/-- Small boxes separate points. -/
theorem exists_separation (ps : List (Vec d)) :
    ∃ δ > 0, ∀ x ∈ ps, ∀ y ∈ ps, x ≠ y → ∃ j, δ ≤ |x j - y j| := by
  have key : ∀ l : List (Vec d × Vec d), ∃ δ > 0, ∀ p ∈ l, p.1 ≠ p.2 → ∃ j, δ ≤ |p.1 j - p.2 j| := by
    intro l
    induction l with
    | nil => exact ⟨1, one_pos, by simp⟩
    | cons p l ih =>
      obtain ⟨δ, hδ, h⟩ := ih
      by_cases hp : p.1 = p.2
      · refine ⟨δ, hδ, fun q hq hne => ?_⟩
        rcases List.mem_cons.mp hq with rfl | hq
        · exact absurd hp hne
        · exact h q hq hne
      · obtain ⟨j, hj⟩ := Function.ne_iff.mp hp
        have hpos : 0 < |p.1 j - p.2 j| := abs_pos.mpr (sub_ne_zero.mpr hj)
        refine ⟨min δ |p.1 j - p.2 j|, lt_min hδ hpos, fun q hq hne => ?_⟩
        rcases List.mem_cons.mp hq with rfl | hq
        · exact ⟨j, min_le_right _ _⟩
        · obtain ⟨i, hi⟩ := h q hq hne
          exact ⟨i, (min_le_left _ _).trans hi⟩
  obtain ⟨δ, hδ, h⟩ := key (ps ×ˢ ps)
  exact ⟨δ, hδ, fun x hx y hy hne => h (x, y) (List.mem_product.mpr ⟨hx, hy⟩) hne⟩

theorem terminates (hr : 0 ≤ r.len) (hin : ∀ s ∈ items, r.contains (pos s))
    (hmult : ∀ x, (items.filter fun s => decide (pos s = x)).length ≤ max) :
    ∃ h, IsHeight pos r items max h := by
  obtain ⟨δ, hδ, hsep⟩ := exists_separation (items.map pos)
  obtain ⟨k, hk⟩ : ∃ k : ℕ, r.len / 2 ^ k < δ := by
    obtain ⟨k, hk⟩ := exists_nat_gt (r.len / δ)
    refine ⟨k, ?_⟩
    rw [div_lt_iff₀ (by positivity)]
    rw [div_lt_iff₀ hδ] at hk
    have h2 : (k : ℝ) < 2 ^ k := by exact_mod_cast Nat.lt_two_pow_self
    nlinarith
  obtain ⟨h, -, hh⟩ := exists_isHeight pos r items max (k + 1) (by
    rw [List.eq_nil_iff_forall_not_mem]
    intro π hπ
    obtain ⟨-, hl, hleaf⟩ := (mem_nodeLevel _ _ _ _ _ _).mp hπ
    have hne : π ≠ [] := by rintro rfl; simp at hl
    have hgt : max < (itemsAt pos r items π).length := by
      by_contra hle
      push Not at hle
      simp [adaptiveTree, hne] at hleaf
      omega
    -- all items of the box have the same position
    obtain ⟨s, hs⟩ : ∃ s, s ∈ itemsAt pos r items π := by
      rcases hA : itemsAt pos r items π with - | ⟨s, l⟩
      · rw [hA] at hgt; simp at hgt
      · exact ⟨s, by simp⟩
    have hbox : ∀ t ∈ itemsAt pos r items π, t ∈ items ∧ (boxAt r π).contains (pos t) := by
      intro t ht
      obtain ⟨h1, h2⟩ := List.mem_filter.mp ht
      refine ⟨h1, ?_⟩
      have h2 : route r (pos t) π.length = π := by simpa using h2
      have := route_contains r (pos t) (hin t h1) π.length
      rwa [h2] at this
    have hsame : ∀ t ∈ itemsAt pos r items π, pos t = pos s := by
      intro t ht
      by_contra hne
      obtain ⟨t1, t2⟩ := hbox t ht
      obtain ⟨s1, s2⟩ := hbox s hs
      obtain ⟨j, hj⟩ := hsep (pos t) (List.mem_map_of_mem t1) (pos s) (List.mem_map_of_mem s1) hne
      rw [Box.contains_iff] at t2 s2
      have hlen : (boxAt r π).len = r.len / 2 ^ (k + 1) := by rw [boxAt_len, hl]
      have h3 : r.len / 2 ^ (k + 1) ≤ r.len / 2 ^ k := by
        refine div_le_div_of_nonneg_left hr (by positivity) ?_
        exact pow_le_pow_right₀ (by norm_num) (by omega)
      have h4 : |pos t j - pos s j| ≤ (boxAt r π).len := by
        rw [abs_le]
        constructor <;> linarith [(t2 j).1, (t2 j).2, (s2 j).1, (s2 j).2]
      rw [hlen] at h4
      linarith
    have : (itemsAt pos r items π).length ≤ (items.filter fun t => decide (pos t = pos s)).length := by
      refine List.Sublist.length_le ?_
      have e : itemsAt pos r items π = (items.filter fun t => decide (pos t = pos s)).filter
          fun t => decide (route r (pos t) π.length = π) := by
        rw [List.filter_filter]
        unfold itemsAt
        refine List.filter_congr fun t ht => ?_
        by_cases h2 : route r (pos t) π.length = π
        · have := hsame t (List.mem_filter.mpr ⟨ht, by simpa using h2⟩)
          simp [this]
        · simp [h2]
      rw [e]
      exact List.filter_sublist
    have := hmult (pos s)
    omega)
  exact ⟨h, hh⟩

theorem diverges_of_route (x : Vec d) (hcnt : ∀ k, max < (itemsAt pos r items (route r x k)).length) (k : ℕ) :
    nodeLevel pos r items max k ≠ [] := by
  have hl : ∀ k, (adaptiveTree pos r items max).leaf (route r x k) = false := by
    intro k; simp [adaptiveTree, hcnt k]
  have hmem : ∀ k, (adaptiveTree pos r items max).Mem (route r x k) := by
    intro k
    induction k with
    | zero => exact PTree.mem_nil
    | succ k ih => exact ih.cons (hl k) (getOrthant_lt _ _)
  have := (mem_nodeLevel pos r items max k (route r x k)).mpr ⟨hmem k, route_length r x k, hl k⟩
  exact List.ne_nil_of_mem this

theorem diverges (x : Vec d) (hx : max < (items.filter fun s => decide (pos s = x)).length) (k : ℕ) :
    nodeLevel pos r items max k ≠ [] := by
  refine diverges_of_route x (fun k => ?_) k
  refine hx.trans_le (List.Sublist.length_le ?_)
  have e : (items.filter fun s => decide (pos s = x))
      = (itemsAt pos r items (route r x k)).filter fun s => decide (pos s = x) := by
    unfold itemsAt
    rw [List.filter_filter]
    refine List.filter_congr fun t _ => ?_
    by_cases h : pos t = x
    · simp [h]
    · simp [h]
  rw [e]
  exact List.filter_sublist

/-- A point below the lower corner of the root box is always routed to the first child. -/
theorem route_below (hr : 0 ≤ r.len) (x : Vec d) (hx : ∀ j, x j < r.lower j) (k : ℕ) :
    route r x k = List.replicate k 0 := by
  induction k with
  | zero => rfl
  | succ k ih =>
    rw [route, List.replicate_succ, ih]
    congr 1
    refine eq_of_testBit_lt (getOrthant_lt _ _) (by positivity) fun j => ?_
    rw [testBit_getOrthant, Nat.zero_testBit, decide_eq_false_iff_not, not_le]
    have h1 := hx j
    have h2 := boxAt_lower r (List.replicate k 0) j
    have h3 : (boxAt r (List.replicate k 0)).lower j = (boxAt r (List.replicate k 0)).center j
      - (boxAt r (List.replicate k 0)).len / 2 := Box.lower_apply _ _
    have h4 : 0 ≤ (boxAt r (List.replicate k 0)).len := by rw [boxAt_len]; positivity
    have h5 : (0 : ℝ) ≤ grid d (List.replicate k 0) j * (r.len / 2 ^ (List.replicate k 0).length) := by positivity
    nlinarith

theorem diverges_below (hr : 0 ≤ r.len)
    (hx : max < (items.filter fun s => decide (∀ j, pos s j < r.lower j)).length) (k : ℕ) :
    nodeLevel pos r items max k ≠ [] := by
  obtain ⟨s, hs⟩ := List.exists_mem_of_length_pos (lt_of_le_of_lt (Nat.zero_le _) hx)
  have hs2 : ∀ j, pos s j < r.lower j := by simpa using (List.mem_filter.mp hs).2
  refine diverges_of_route (pos s) (fun k => ?_) k
  refine hx.trans_le (List.Sublist.length_le ?_)
  have e : (items.filter fun s => decide (∀ j, pos s j < r.lower j))
      = (itemsAt pos r items (route r (pos s) k)).filter fun s => decide (∀ j, pos s j < r.lower j) := by
    unfold itemsAt
    rw [List.filter_filter]
    refine List.filter_congr fun t _ => ?_
    by_cases h : ∀ j, pos t j < r.lower j
    · simp [h, route_below hr _ hs2, route_below hr _ h]
    · simp [h]
  rw [e]
  exact List.filter_sublist

end FMM
