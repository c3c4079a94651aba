import Verif.BalancedBuild
import Verif.Accounting
import Verif.PropsIndex

/-!
# `BalancedFmmTree`: distribution of the sources and neighbourhoods
-/

namespace FMM
variable {d : ℕ} {α : Type}

/-! ## Model -/

/-- `getFlatIndex(getLeafBoxIndices(x))`. -/
noncomputable def flatOf (r : Box d) (h : ℕ) (x : Vec d) : Outcome ℕ := do
  let idx ← getLeafBoxIndices r h x
  let nBoxes ← toU32 (2 ^ h)
  .ok (getFlatIndex nBoxes idx)

/-- The vectors allocated by `distributePointSources` and the pointers `leaf.sources`. -/
structure BSrc (α : Type) where
  buckets : ℕ → List α
  ptr : ℕ → Option ℕ

/-- `distributePointSources` (balanced_fmm_tree.hpp:438-466). -/
noncomputable def distributePointSources (pos : α → Vec d) (m : BMem d) (h : ℕ) (items : List α) :
    Outcome (BSrc α) := do
  let root ← m.get (rootAddr h)
  let buckets ← items.foldlM (fun (b : ℕ → List α) s => do
      let k ← flatOf root.box h (pos s)
      if k < m.nLeaves then .ok (Function.update b k (b k ++ [s])) else .error .ub) (fun _ => [])
  let ptr ← (List.range m.nLeaves).foldlM (fun (p : ℕ → Option ℕ) k => do
      let leaf ← m.get (.leaf k)
      let f ← flatOf root.box h leaf.box.center
      if f < m.nLeaves then .ok (Function.update p k (some f)) else .error .ub) (fun _ => none)
  .ok ⟨buckets, ptr⟩

/-- `*leaves[k].sources`. -/
def BSrc.get (s : BSrc α) (k : ℕ) : Outcome (List α) :=
  match s.ptr k with
  | some f => .ok (s.buckets f)
  | none => .error .ub

/-- The members `near_neighbours` and `interaction_list` of all nodes (balanced_fmm_tree.hpp:60-61). -/
structure BNbh where
  near : BAddr → List BAddr
  inter : BAddr → List BAddr

/-- Body of the inner loop (balanced_fmm_tree.hpp:381-396). Appending to the list that the outer loop iterates over is
undefined behaviour. -/
noncomputable def bnbhChild (m : BMem d) (a par : BAddr) (node : BNode d) (child : ℕ → Option BAddr) (st : BNbh) (i : ℕ) :
    Outcome BNbh :=
  match child i with
  | none => .error .ub
  | some c => do
      let cn ← m.get c
      if node.box.adjacent cn.box then
        if a = par then .error .ub else .ok { st with near := Function.update st.near a (st.near a ++ [c]) }
      else if Vec.norm (node.box.center - cn.box.center) < 199 / 100 * node.box.len then .error .logicError
      else .ok { st with inter := Function.update st.inter a (st.inter a ++ [c]) }

/-- `computeNodeNeighbourhood` (balanced_fmm_tree.hpp:358-399). -/
noncomputable def bNeighbourhood (m : BMem d) (st : BNbh) (a : BAddr) : Outcome BNbh := do
  let node ← m.get a
  match node.parent with
  | none => .ok { st with near := Function.update st.near a (st.near a ++ [a]) }
  | some par => (st.near par).foldlM (fun st ν => do
      let pn ← m.get ν
      (List.range (2 ^ d)).foldlM (bnbhChild m a par node pn.child) st) st

/-- The neighbourhoods of all nodes (balanced_fmm_tree.hpp:146-148; for height 0 line 115). -/
noncomputable def bNeighbourhoods (fuel : ℕ) (m : BMem d) (h : ℕ) : Outcome BNbh :=
  traverseBFS (2 ^ d) (fun _ a => do let n ← m.get a; .ok n.child) (bNeighbourhood m) fuel (rootAddr h)
    ⟨fun _ => [], fun _ => []⟩

/-- Nodes, sources and lists of a balanced tree of height `h` (balanced_fmm_tree.hpp:110-148). -/
noncomputable def balancedLists (fuel : ℕ) (pos : α → Vec d) (r : Box d) (items : List α) (h : ℕ) :
    Outcome (BMem d × BSrc α × BNbh) := do
  let m ← balancedNodes fuel r h
  let src ← if h = 0 then .ok ⟨fun k => if k = 0 then items else [], fun k => if k = 0 then some 0 else none⟩
    else distributePointSources pos m h items
  let nb ← bNeighbourhoods fuel m h
  .ok (m, src, nb)

/-! ## Sources -/

/-- The complete tree of height `h`. -/
noncomputable def fullTree (r : Box d) (h : ℕ) : PTree where
  c := 2 ^ d
  leaf π := decide (h ≤ π.length)
  adj π ρ := decide ((boxAt r π).adjacent (boxAt r ρ))

theorem fullTree_adjOf (r : Box d) (h : ℕ) : AdjOf (fullTree r h) r := fun _ _ => rfl

theorem fullTree_mem (r : Box d) (h : ℕ) (π : Path) : (fullTree r h).Mem π ↔ ValidPath d π ∧ π.length ≤ h := by
  constructor
  · rintro ⟨h1, h2⟩
    refine ⟨h1, ?_⟩
    cases π with
    | nil => simp
    | cons i τ =>
      have := h2 τ i List.suffix_rfl
      simp [fullTree] at this
      simp; omega
  · rintro ⟨h1, h2⟩
    refine ⟨h1, fun ρ i hs => ?_⟩
    have := hs.length_le
    simp [fullTree] at this ⊢
    omega

/-- The flat index of a leaf. -/
def flatPath (d h : ℕ) (π : Path) : ℕ := getFlatIndex (2 ^ h) (grid d π)

theorem flatPath_lt {h : ℕ} {π : Path} (hl : π.length = h) : flatPath d h π < (2 ^ d) ^ h := by
  rw [← pow_mul]
  unfold flatPath
  rw [getFlatIndex_eq]
  exact (Nat.mod_le _ _).trans_lt (flatSpec_lt h _ fun j => by rw [← hl]; exact grid_lt π j)

theorem flatPath_inj {h : ℕ} (hd : d * h ≤ 32) {π ρ : Path} (hπ : ValidPath d π) (hρ : ValidPath d ρ) (hl : π.length = h)
    (hl' : ρ.length = h) (e : flatPath d h π = flatPath d h ρ) : π = ρ := by
  have := (C06_flat_bijective h hd).2.1 _ _ (fun j => by rw [← hl]; exact grid_lt π j)
    (fun j => by rw [← hl']; exact grid_lt ρ j) e
  exact grid_injective hπ hρ (hl.trans hl'.symm) this

theorem flatOf_route (r : Box d) (hr : 0 < r.len) (h : ℕ) (hh : h < 32) (x : Vec d)
    (hx : ∀ j, r.lower j ≤ x j ∧ x j < r.upper j) : flatOf r h x = .ok (flatPath d h (route r x h)) := by
  unfold flatOf
  rw [C05_indices_eq_descent r hr h hh x hx, ok_bind, toU32_pow _ hh, ok_bind]
  rfl

theorem flatOf_center (r : Box d) (hr : 0 < r.len) {h : ℕ} (hh : h < 32) (π : Path) (hl : π.length = h) :
    flatOf r h (boxAt r π).center = .ok (flatPath d h π) := by
  have hc : (boxAt r π).containsHO (boxAt r π).center := by
    intro j
    have := boxAt_len_pos r hr π
    rw [Box.lower_apply, Box.upper_apply]
    constructor <;> linarith
  have := getLeafBoxIndices_of_cell r hr π (by rw [hl]; exact hh) _ hc
  rw [hl] at this
  unfold flatOf
  rw [this, ok_bind, toU32_pow _ hh, ok_bind]
  rfl

/-- What `distributePointSources` computes. -/
noncomputable def specSrc (pos : α → Vec d) (r : Box d) (items : List α) (h : ℕ) : BSrc α where
  buckets f := items.filter fun s => decide (flatPath d h (route r (pos s) h) = f)
  ptr k := if k < (2 ^ d) ^ h then some (flatPath d h (gpath (2 ^ d) (off (2 ^ d) h + k))) else none

theorem gpath_leaf_length (h k : ℕ) (hk : k < (2 ^ d) ^ h) : (gpath (2 ^ d) (off (2 ^ d) h + k)).length = h := by
  have hpos : 0 < 2 ^ d := by positivity
  have h1 : ¬ (gpath (2 ^ d) (off (2 ^ d) h + k)).length < h := by
    rw [gpath_length_lt _ hpos]; omega
  have h2 : (gpath (2 ^ d) (off (2 ^ d) h + k)).length < h + 1 := by
    rw [gpath_length_lt _ hpos, off_succ]; omega
  omega

theorem glob_leaf (c h k : ℕ) : glob c h (off c h + k) = .leaf k := by
  unfold glob
  rw [if_neg (by omega), Nat.add_sub_cancel_left]

theorem glob_root (h : ℕ) : glob (2 ^ d) h 0 = rootAddr h := by
  unfold rootAddr glob
  cases h with
  | zero => simp [off]
  | succ k => rw [if_pos (by show 0 < _ + 1; omega), if_neg (by omega)]

theorem off_pos (c h : ℕ) : 0 < off c (h + 1) := by show 0 < _ + 1; omega

theorem bfull_get (r : Box d) (h n : ℕ) (hn : n < off (2 ^ d) (h + 1)) :
    (bfull r h).get (glob (2 ^ d) h n) = .ok (specB r h (off (2 ^ d) (h + 1)) n) := bst_get r h _ n hn hn

theorem distribute_ok (pos : α → Vec d) (r : Box d) (hr : 0 < r.len) (h : ℕ) (hh : h < 32)
    (items : List α) (hx : ∀ s ∈ items, ∀ j, r.lower j ≤ pos s j ∧ pos s j < r.upper j) :
    distributePointSources pos (bfull r h) h items = .ok (specSrc pos r items h) := by
  unfold distributePointSources
  rw [← glob_root (d := d), bfull_get r h 0 (off_pos _ _), ok_bind]
  have hbox : (specB r h (off (2 ^ d) (h + 1)) 0).box = r := by simp [specB, gpath, boxAt]
  rw [hbox]
  have hnl : (bfull r h).nLeaves = (2 ^ d) ^ h := rfl
  rw [hnl]
  have h1 : ∀ (l l0 : List α), (∀ s ∈ l, s ∈ items) → l.foldlM (fun (b : ℕ → List α) s => do
      let k ← flatOf r h (pos s)
      if k < (2 ^ d) ^ h then (.ok (Function.update b k (b k ++ [s])) : Outcome _) else .error .ub)
        (fun f => l0.filter fun s => decide (flatPath d h (route r (pos s) h) = f))
      = .ok (fun f => (l0 ++ l).filter fun s => decide (flatPath d h (route r (pos s) h) = f)) := by
    intro l
    induction l with
    | nil => intro l0 _; simp; rfl
    | cons s l ih =>
      intro l0 hl
      have hs := hx s (hl s (by simp))
      rw [List.foldlM_cons, flatOf_route r hr h hh _ hs, ok_bind, if_pos (flatPath_lt (route_length _ _ _)), ok_bind]
      have e : (Function.update (fun f => l0.filter fun s => decide (flatPath d h (route r (pos s) h) = f))
          (flatPath d h (route r (pos s) h)) (l0.filter (fun s' => decide (flatPath d h (route r (pos s') h)
            = flatPath d h (route r (pos s) h))) ++ [s]))
          = fun f => (l0 ++ [s]).filter fun s => decide (flatPath d h (route r (pos s) h) = f) := by
        funext f
        by_cases hf : f = flatPath d h (route r (pos s) h)
        · subst hf; rw [Function.update_self, List.filter_append]; simp
        · rw [Function.update_of_ne hf, List.filter_append]
          simp [Ne.symm hf]
      rw [e, ih (l0 ++ [s]) fun s' h' => hl s' (by simp [h'])]
      simp
  have h1' := h1 items [] (fun _ h => h)
  simp only [List.filter_nil, List.nil_append] at h1'
  rw [h1', ok_bind]
  have h2 : ∀ n ≤ (2 ^ d) ^ h, (List.range n).foldlM (fun (p : ℕ → Option ℕ) k => do
      let leaf ← (bfull r h).get (.leaf k)
      let f ← flatOf r h leaf.box.center
      if f < (2 ^ d) ^ h then (.ok (Function.update p k (some f)) : Outcome _) else .error .ub) (fun _ => none)
      = .ok (fun k => if k < n then some (flatPath d h (gpath (2 ^ d) (off (2 ^ d) h + k))) else none) := by
    intro n
    induction n with
    | zero => intro _; simp; rfl
    | succ n ih =>
      intro hn
      have hlt : off (2 ^ d) h + n < off (2 ^ d) (h + 1) := by rw [off_succ]; omega
      have hl := gpath_leaf_length (d := d) h n (by omega)
      have hb : (specB r h (off (2 ^ d) (h + 1)) (off (2 ^ d) h + n)).box = boxAt r (gpath (2 ^ d) (off (2 ^ d) h + n)) := rfl
      rw [List.range_succ, List.foldlM_append, ih (by omega), ok_bind, List.foldlM_cons, ← glob_leaf (2 ^ d) h n,
        bfull_get r h _ hlt, ok_bind, hb, flatOf_center r hr hh _ hl, ok_bind, if_pos (flatPath_lt hl), ok_bind]
      show Except.ok _ = _
      congr 1
      funext k
      by_cases hk : k = n
      · subst hk; rw [Function.update_self, if_pos (by omega)]
      · rw [Function.update_of_ne hk]
        exact if_congr (by omega) rfl rfl
  rw [h2 _ le_rfl, ok_bind]
  rfl

theorem gidx_leaf {h : ℕ} {π : Path} (hl : π.length = h) : gidx (2 ^ d) π = off (2 ^ d) h + pathIndex d π := by
  rw [gidx_eq, hl]

theorem specSrc_get (pos : α → Vec d) (r : Box d) (h : ℕ) (hd : d * h ≤ 32) (items : List α) {π : Path}
    (hπ : ValidPath d π) (hl : π.length = h) :
    (specSrc pos r items h).get (pathIndex d π) = .ok (itemsAt pos r items π) := by
  have hk : pathIndex d π < (2 ^ d) ^ h := by rw [← hl]; exact pathIndex_lt π hπ
  simp only [BSrc.get, specSrc]
  rw [if_pos hk]
  simp only
  rw [← gidx_leaf hl, gpath_gidx _ _ hπ]
  congr 1
  unfold itemsAt
  refine List.filter_congr fun s _ => ?_
  rw [hl]
  refine decide_eq_decide.mpr ⟨fun e => ?_, fun e => by rw [e]⟩
  exact flatPath_inj hd (route_valid _ _ _) hπ (route_length _ _ _) hl e

/-! ## Neighbourhoods -/

/-- Pointer to a node given by its path. -/
def baddr (d h : ℕ) (π : Path) : BAddr := glob (2 ^ d) h (gidx (2 ^ d) π)

theorem gidx_lt {h : ℕ} {π : Path} (hπ : ValidPath d π) (hl : π.length ≤ h) : gidx (2 ^ d) π < off (2 ^ d) (h + 1) := by
  rw [← gpath_length_lt _ (by positivity), gpath_gidx _ _ hπ]; omega

theorem baddr_inj {h : ℕ} {π ρ : Path} (hπ : ValidPath d π) (hρ : ValidPath d ρ) (e : baddr d h π = baddr d h ρ) : π = ρ := by
  have := glob_injective _ _ e
  rw [← gpath_gidx _ _ hπ, this, gpath_gidx _ _ hρ]

theorem baddr_gpath (h n : ℕ) : baddr d h (gpath (2 ^ d) n) = glob (2 ^ d) h n := by
  unfold baddr; rw [gidx_gpath]

/-- The record of a node. -/
theorem bfull_get_path (r : Box d) {h : ℕ} {π : Path} (hπ : ValidPath d π) (hl : π.length ≤ h) :
    ∃ n : BNode d, (bfull r h).get (baddr d h π) = .ok n ∧ n.box = boxAt r π ∧ n.depth = π.length ∧
      n.parent = π.tail?.map (baddr d h) ∧
      n.child = fun i => if i < 2 ^ d ∧ π.length < h then some (baddr d h (i :: π)) else none := by
  refine ⟨_, bfull_get r h _ (gidx_lt hπ hl), ?_, ?_, ?_, ?_⟩
  · simp only [specB]; rw [gpath_gidx _ _ hπ]
  · simp only [specB]; rw [gpath_gidx _ _ hπ]
  · simp only [specB]
    cases π with
    | nil => simp [gidx]
    | cons i τ =>
      have hi : i < 2 ^ d := hπ i (by simp)
      rw [if_neg (by simp [gidx])]
      simp only [List.tail?, Option.map_some, baddr, gidx]
      rw [show 2 ^ d * gidx (2 ^ d) τ + 1 + i - 1 = 2 ^ d * gidx (2 ^ d) τ + i by omega, Nat.mul_add_div (by positivity),
        Nat.div_eq_of_lt hi, add_zero]
  · simp only [specB]
    funext i
    refine if_congr ⟨fun ⟨h1, h2⟩ => ⟨h1, ?_⟩, fun ⟨h1, h2⟩ => ⟨h1, ?_⟩⟩ rfl rfl
    · have h3 : gidx (2 ^ d) (i :: π) < off (2 ^ d) (h + 1) := h2
      rw [← gpath_length_lt _ (by positivity), gpath_gidx] at h3
      · simp at h3; omega
      · intro j hj
        rcases List.mem_cons.mp hj with rfl | hj
        · exact h1
        · exact hπ j hj
    · have : gidx (2 ^ d) (i :: π) < off (2 ^ d) (h + 1) := gidx_lt (fun j hj => by
        rcases List.mem_cons.mp hj with rfl | hj
        · exact h1
        · exact hπ j hj) (by simp; omega)
      exact this

/-- Appending to the two lists of one node. -/
def bpush (a : BAddr) (L1 L2 : List BAddr) (st : BNbh) : BNbh where
  near := Function.update st.near a (st.near a ++ L1)
  inter := Function.update st.inter a (st.inter a ++ L2)

theorem bpush_bpush (a : BAddr) (L1 L2 M1 M2 : List BAddr) (st : BNbh) :
    bpush a M1 M2 (bpush a L1 L2 st) = bpush a (L1 ++ M1) (L2 ++ M2) st := by
  unfold bpush; simp

theorem bpush_nil (a : BAddr) (st : BNbh) : bpush a [] [] st = st := by unfold bpush; simp

variable {r : Box d} {h : ℕ}

theorem bnbhLoop_ok (hr : 0 < r.len) {i : ℕ} {τ ν : Path} (hπ : ValidPath d (i :: τ)) (hν : ValidPath d ν)
    (hlen : ν.length = τ.length) (hlt : τ.length < h) (node : BNode d) (hbox : node.box = boxAt r (i :: τ)) (n : ℕ)
    (hn : n ≤ 2 ^ d) (st : BNbh) :
    (List.range n).foldlM (bnbhChild (bfull r h) (baddr d h (i :: τ)) (baddr d h τ) node
        (fun i => if i < 2 ^ d ∧ ν.length < h then some (baddr d h (i :: ν)) else none)) st
      = .ok (bpush (baddr d h (i :: τ))
        ((((List.range n).map (· :: ν)).filter fun c => (fullTree r h).adj (i :: τ) c).map (baddr d h))
        ((((List.range n).map (· :: ν)).filter fun c => !(fullTree r h).adj (i :: τ) c).map (baddr d h)) st) := by
  have hne : baddr d h (i :: τ) ≠ baddr d h τ := by
    intro e
    have := congrArg List.length (baddr_inj hπ (fun j hj => hπ j (by simp [hj])) e)
    simp at this
  induction n with
  | zero => simp [bpush_nil]; rfl
  | succ n ih =>
    rw [List.range_succ, List.foldlM_append, ih (by omega), ok_bind, List.foldlM_cons]
    have hv : ValidPath d (n :: ν) := fun j hj => by
      rcases List.mem_cons.mp hj with rfl | hj
      · omega
      · exact hν j hj
    obtain ⟨cn, g1, g2, -⟩ := bfull_get_path r (h := h) hv (by simp; omega)
    unfold bnbhChild
    simp only
    rw [if_pos ⟨by omega, by omega⟩]
    simp only
    rw [g1, ok_bind, g2, hbox]
    simp only [List.map_append, List.filter_append, List.map_cons, List.map_nil]
    by_cases h1 : (boxAt r (i :: τ)).adjacent (boxAt r (n :: ν))
    · have h1' : (fullTree r h).adj (i :: τ) (n :: ν) = true := by simpa [fullTree] using h1
      rw [if_pos h1, if_neg hne, ok_bind, List.foldlM_nil]
      show Except.ok _ = _
      congr 1
      simp [bpush, h1']
    · have h1' : (fullTree r h).adj (i :: τ) (n :: ν) = false := by simpa [fullTree] using h1
      rw [if_neg h1]
      obtain ⟨j, hj⟩ := center_dist_of_not_adjacent r hr (i :: τ) (n :: ν) (by simp [hlen]) h1
      have hnorm := Vec.abs_le_norm ((boxAt r (i :: τ)).center - (boxAt r (n :: ν)).center) j
      have hpos := boxAt_len_pos r hr (i :: τ)
      rw [Pi.sub_apply] at hnorm
      rw [if_neg (by linarith), ok_bind, List.foldlM_nil]
      show Except.ok _ = _
      congr 1
      simp [bpush, h1']

/-- In a complete tree all near neighbours have the same depth. -/
theorem fullTree_own (hr : 0 < r.len) {i : ℕ} {τ : Path} (hπ : (fullTree r h).Mem (i :: τ)) :
    (fullTree r h).own (i :: τ) = ((fullTree r h).own τ).flatMap fun ν =>
      ((fullTree r h).kids ν).filter fun c => (fullTree r h).adj (i :: τ) c := by
  have hT := (fullTree_adjOf r h).laws hr
  simp only [PTree.own]
  refine List.flatMap_congr fun ν hν => ?_
  have hm := ((fullTree_mem r h _).mp hπ).2
  have h1 := (PTree.own_lengths hT hπ.tail ν hν).1
  have hl : (fullTree r h).leaf ν = false := by
    simp only [List.length_cons] at hm
    simp [fullTree]; omega
  have h2 := (PTree.own_lengths hT hπ.tail ν hν).2 hl
  rw [if_neg (by simp [hl])]
  refine List.filter_congr fun c hc => ?_
  obtain ⟨j, _, rfl⟩ := PTree.mem_kids.mp hc
  have : (!(fullTree r h).leaf (i :: τ) || (fullTree r h).leaf (j :: ν)) = true := by
    simp [fullTree, h2]
  rw [this, Bool.and_true]

theorem fullTree_inter (hr : 0 < r.len) {i : ℕ} {τ : Path} (hπ : (fullTree r h).Mem (i :: τ)) :
    (fullTree r h).inter (i :: τ) = ((fullTree r h).own τ).flatMap fun ν =>
      ((fullTree r h).kids ν).filter fun c => !(fullTree r h).adj (i :: τ) c := by
  have hT := (fullTree_adjOf r h).laws hr
  simp only [PTree.inter]
  refine List.flatMap_congr fun ν hν => ?_
  have hm := ((fullTree_mem r h _).mp hπ).2
  have h1 := (PTree.own_lengths hT hπ.tail ν hν).1
  have hl : (fullTree r h).leaf ν = false := by
    simp only [List.length_cons] at hm
    simp [fullTree]; omega
  rw [if_neg (by simp [hl])]

theorem fullTree_own_mem (hr : 0 < r.len) {τ ν : Path} (hτ : (fullTree r h).Mem τ) (hν : ν ∈ (fullTree r h).own τ) :
    ValidPath d ν ∧ ν.length = τ.length ∧ ν.length ≤ h := by
  have hT := (fullTree_adjOf r h).laws hr
  have h0 := (PTree.mem_own hT hτ ν).mp hν
  have h1 := (fullTree_mem r h ν).mp h0.1
  have h2 := (fullTree_mem r h τ).mp hτ
  have h3 := PTree.own_lengths hT hτ ν hν
  refine ⟨h1.1, ?_, h1.2⟩
  by_cases hl : (fullTree r h).leaf ν = true
  · simp [fullTree] at hl; omega
  · exact h3.2 (by simpa using hl)

/-- The lists after the first `k` nodes have been visited. -/
def BNbhAfter (r : Box d) (h k : ℕ) (st : BNbh) : Prop :=
  ∀ n < off (2 ^ d) (h + 1),
    st.near (glob (2 ^ d) h n) = (if n < k then ((fullTree r h).own (gpath (2 ^ d) n)).map (baddr d h) else []) ∧
    st.inter (glob (2 ^ d) h n) = if n < k then ((fullTree r h).inter (gpath (2 ^ d) n)).map (baddr d h) else []

theorem bvisit_ok (hr : 0 < r.len ∨ h = 0) (k : ℕ) (hk : k < off (2 ^ d) (h + 1)) (st : BNbh) (hst : BNbhAfter r h k st) :
    ∃ st', bNeighbourhood (bfull r h) st (glob (2 ^ d) h k) = .ok st' ∧ BNbhAfter r h (k + 1) st' := by
  have hpos : 0 < 2 ^ d := by positivity
  have hv := gpath_valid (2 ^ d) hpos k
  have hl : (gpath (2 ^ d) k).length ≤ h := by
    have := (gpath_length_lt _ hpos k (h + 1)).mpr hk; omega
  have hmem : (fullTree r h).Mem (gpath (2 ^ d) k) := (fullTree_mem r h _).mpr ⟨hv, hl⟩
  obtain ⟨node, g1, g2, g3, g4, g5⟩ := bfull_get_path r hv hl
  rw [baddr_gpath] at g1
  -- pushing to node `k` establishes the invariant for `k + 1`
  have hafter : ∀ L1 L2, L1 = ((fullTree r h).own (gpath (2 ^ d) k)).map (baddr d h) →
      L2 = ((fullTree r h).inter (gpath (2 ^ d) k)).map (baddr d h) →
      BNbhAfter r h (k + 1) (bpush (glob (2 ^ d) h k) L1 L2 st) := by
    intro L1 L2 e1 e2 n hn
    obtain ⟨h1, h2⟩ := hst n hn
    by_cases hnk : n = k
    · subst hnk
      rw [if_neg (by omega)] at h1 h2
      simp [bpush, h1, h2, e1, e2]
    · have hne : glob (2 ^ d) h n ≠ glob (2 ^ d) h k := fun e => hnk (glob_injective _ _ e)
      simp only [bpush, Function.update_of_ne hne, h1, h2]
      exact ⟨if_congr (by omega) rfl rfl, if_congr (by omega) rfl rfl⟩
  unfold bNeighbourhood
  rw [g1, ok_bind, g4]
  rcases hp : gpath (2 ^ d) k with _ | ⟨i, τ⟩
  · have hg : glob (2 ^ d) h k = baddr d h [] := by rw [← baddr_gpath, hp]
    refine ⟨bpush (glob (2 ^ d) h k) [glob (2 ^ d) h k] [] st, ?_, ?_⟩
    · simp [bpush]
    · refine hafter _ _ ?_ ?_
      · rw [hp]; simp [PTree.own, hg]
      · rw [hp]; simp [PTree.inter]
  · rw [hp] at hv hl hmem g2
    have hr : 0 < r.len := by
      rcases hr with hr | hr
      · exact hr
      · subst hr; simp at hl
    have hτv : ValidPath d τ := fun j hj => hv j (by simp [hj])
    simp only [List.length_cons] at hl
    have hτlt : gidx (2 ^ d) τ < k := by
      have e : k = 2 ^ d * gidx (2 ^ d) τ + 1 + i := by
        have := gidx_gpath (2 ^ d) k
        rw [hp] at this; rw [← this]; rfl
      have : 1 * gidx (2 ^ d) τ ≤ 2 ^ d * gidx (2 ^ d) τ := Nat.mul_le_mul_right _ Nat.one_le_two_pow
      omega
    have hnear : st.near (baddr d h τ) = ((fullTree r h).own τ).map (baddr d h) := by
      have := (hst (gidx (2 ^ d) τ) (by omega)).1
      rw [if_pos hτlt, gpath_gidx _ _ hτv] at this
      exact this
    simp only [List.tail?, Option.map_some]
    rw [hnear, List.foldlM_map]
    have hg : glob (2 ^ d) h k = baddr d h (i :: τ) := by rw [← baddr_gpath, hp]
    rw [hg]
    have key : ∀ l : List Path, (∀ ν ∈ l, ν ∈ (fullTree r h).own τ) → ∀ st : BNbh,
        l.foldlM (fun st ν => do
          let pn ← (bfull r h).get (baddr d h ν)
          (List.range (2 ^ d)).foldlM (bnbhChild (bfull r h) (baddr d h (i :: τ)) (baddr d h τ) node pn.child) st) st
        = .ok (bpush (baddr d h (i :: τ))
          ((l.flatMap fun ν => ((fullTree r h).kids ν).filter fun c => (fullTree r h).adj (i :: τ) c).map (baddr d h))
          ((l.flatMap fun ν => ((fullTree r h).kids ν).filter fun c => !(fullTree r h).adj (i :: τ) c).map (baddr d h)) st) := by
      intro l
      induction l with
      | nil => intro _ st; simp [bpush_nil]; rfl
      | cons ν l ih =>
        intro hl' st
        obtain ⟨m1, m2, m3⟩ := fullTree_own_mem hr hmem.tail (hl' ν (by simp))
        obtain ⟨pn, p1, -, -, -, p5⟩ := bfull_get_path r (h := h) m1 m3
        rw [List.foldlM_cons, p1, ok_bind, p5, bnbhLoop_ok hr hv m1 m2 (by omega) node g2 (2 ^ d) le_rfl st, ok_bind,
          ih (fun ν' h' => hl' ν' (by simp [h'])), bpush_bpush]
        simp only [List.flatMap_cons, List.map_append]
        rfl
    refine ⟨_, key _ (fun _ h => h) st, ?_⟩
    rw [← hg]
    refine hafter _ _ ?_ ?_
    · rw [hp, fullTree_own hr hmem]
    · rw [hp, fullTree_inter hr hmem]

theorem bNeighbourhoods_ok (hr : 0 < r.len ∨ h = 0) (fuel : ℕ) (hf : off (2 ^ d) (h + 1) ≤ fuel) :
    ∃ nb, bNeighbourhoods fuel (bfull r h) h = .ok nb ∧ BNbhAfter r h (off (2 ^ d) (h + 1)) nb ∧
      ∀ fuel ≥ off (2 ^ d) (h + 1), bNeighbourhoods fuel (bfull r h) h = .ok nb := by
  have hpos : 0 < 2 ^ d := by positivity
  unfold bNeighbourhoods
  rw [← glob_root (d := d)]
  have e1 : off (2 ^ d) (h + 1) = 2 ^ d * off (2 ^ d) h + 1 := rfl
  obtain ⟨s', -, h2, h3⟩ := traverseBFS_eq (2 ^ d) (fun (_ : BNbh) a => do let n ← (bfull r h).get a; .ok n.child)
    (bNeighbourhood (bfull r h)) (bkids (2 ^ d) h) (glob (2 ^ d) h 0)
    (fun done s => BNbhAfter r h done.length s) (h + 1)
    (bfsLevel_glob_end _ h) (by
      intro d1 a d2 e s hs
      rw [bfsOrder_glob _ h _ le_rfl] at e
      have hlen : d1.length < off (2 ^ d) (h + 1) := by
        have := congrArg List.length e
        simp at this; omega
      have ha : a = glob (2 ^ d) h d1.length := by
        have := congrArg (fun l => l[d1.length]?) e
        simp only [List.getElem?_map, List.getElem?_range hlen, Option.map_some, List.getElem?_append_right le_rfl,
          Nat.sub_self, List.getElem?_cons_zero] at this
        exact (Option.some.inj this).symm
      subst ha
      obtain ⟨st', v1, v2⟩ := bvisit_ok hr d1.length hlen s hs
      refine ⟨st', (specB r h (off (2 ^ d) (h + 1)) d1.length).child, v1, ?_, ?_, ?_⟩
      · rw [List.length_append]; exact v2
      · rw [bfull_get r h _ hlen, ok_bind]
      · by_cases hi : d1.length < off (2 ^ d) h
        · have hmul : 2 ^ d * (d1.length + 1) ≤ 2 ^ d * off (2 ^ d) h := Nat.mul_le_mul_left _ hi
          exact pushKids_bst r h _ _ (Or.inl (by omega)) (Or.inl hi)
        · exact pushKids_bst r h _ _ (Or.inr ⟨by omega, by omega⟩) (Or.inr ⟨by omega, by omega⟩))
    ⟨fun _ => [], fun _ => []⟩ (by intro n _; simp)
  rw [bfsOrder_glob _ h _ le_rfl] at h2 h3
  simp only [List.length_map, List.length_range] at h2 h3
  exact ⟨s', h3 fuel hf, h2, fun fuel hf => h3 fuel hf⟩

/-- The lists of a node given by its path. -/
theorem BNbhAfter.at {nb : BNbh} (hn : BNbhAfter r h (off (2 ^ d) (h + 1)) nb) {π : Path} (hπ : ValidPath d π)
    (hl : π.length ≤ h) : nb.near (baddr d h π) = ((fullTree r h).own π).map (baddr d h) ∧
      nb.inter (baddr d h π) = ((fullTree r h).inter π).map (baddr d h) := by
  have hlt := gidx_lt hπ hl
  have := hn _ hlt
  rw [if_pos hlt, if_pos hlt, gpath_gidx _ _ hπ] at this
  exact this

/-- The sources of a tree of any height. -/
noncomputable def specSrc' (pos : α → Vec d) (r : Box d) (items : List α) (h : ℕ) : BSrc α :=
  if h = 0 then ⟨fun k => if k = 0 then items else [], fun k => if k = 0 then some 0 else none⟩ else specSrc pos r items h

theorem specSrc'_get (pos : α → Vec d) (r : Box d) (h : ℕ) (hd : d * h ≤ 32) (items : List α) {π : Path}
    (hπ : ValidPath d π) (hl : π.length = h) :
    (specSrc' pos r items h).get (pathIndex d π) = .ok (itemsAt pos r items π) := by
  unfold specSrc'
  split_ifs with h0
  · subst h0
    have : π = [] := List.length_eq_zero_iff.mp hl
    subst this
    simp [BSrc.get, pathIndex, itemsAt_nil]
  · exact specSrc_get pos r h hd items hπ hl

/-- Construction of a balanced tree succeeds for all sources in the half-open root box. -/
theorem balancedLists_ok' (hd : 2 ≤ d) (pos : α → Vec d) (hr : 0 < r.len ∨ h = 0) (hdh : d * h < 64) (hh : h < 32)
    (items : List α) (hx : h = 0 ∨ ∀ s ∈ items, ∀ j, r.lower j ≤ pos s j ∧ pos s j < r.upper j) :
    ∃ nb, BNbhAfter r h (off (2 ^ d) (h + 1)) nb ∧ ∀ fuel ≥ off (2 ^ d) (h + 1),
      balancedLists fuel pos r items h = .ok (bfull r h, specSrc' pos r items h, nb) := by
  obtain ⟨nb, -, h2, h3⟩ := bNeighbourhoods_ok hr (off (2 ^ d) (h + 1)) le_rfl
  refine ⟨nb, h2, fun fuel hf => ?_⟩
  unfold balancedLists specSrc'
  rw [balancedNodes_ok hd r h hdh fuel hf, ok_bind]
  by_cases h0 : h = 0
  · rw [if_pos h0, if_pos h0, ok_bind, h3 fuel hf]; rfl
  · have hr : 0 < r.len := hr.resolve_right h0
    rw [if_neg h0, if_neg h0, distribute_ok pos r hr h hh items (hx.resolve_left h0), ok_bind, h3 fuel hf]; rfl

theorem balancedLists_ok (hd : 2 ≤ d) (pos : α → Vec d) (hr : 0 < r.len ∨ h = 0) (hdh : d * h ≤ 32)
    (items : List α) (hx : h = 0 ∨ ∀ s ∈ items, ∀ j, r.lower j ≤ pos s j ∧ pos s j < r.upper j) :
    ∃ nb, BNbhAfter r h (off (2 ^ d) (h + 1)) nb ∧ ∀ fuel ≥ off (2 ^ d) (h + 1),
      balancedLists fuel pos r items h = .ok (bfull r h, specSrc' pos r items h, nb) :=
  balancedLists_ok' hd pos hr (by omega) (by nlinarith) items hx

end FMM
