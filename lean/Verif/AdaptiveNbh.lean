import Verif.TreeOrder

/-!
# `AdaptiveFmmTree::computeNodeNeighbourhood`
-/

namespace FMM
variable {d : ℕ} {α : Type}

/-- The members `near_neighbours`, `interaction_list`, `X_list` and `W_list` of all nodes
(adaptive_fmm_tree.hpp:62-106). -/
structure Nbh where
  near : Path → List Path
  inter : Path → List Path
  X : Path → List Path
  W : Path → List Path

/-- Empty lists. -/
def Nbh.empty : Nbh := ⟨fun _ => [], fun _ => [], fun _ => [], fun _ => []⟩

/-- `push_back` on the list of one node. -/
def pushAt (f : Path → List Path) (p x : Path) : Path → List Path := Function.update f p (f p ++ [x])

/-- `push_back` on a near-neighbour list; undefined behaviour if that list is being iterated over. -/
def pushNear (iter : Path) (p x : Path) (st : Nbh) : Outcome Nbh :=
  if p = iter then .error .ub else .ok { st with near := pushAt st.near p x }

/-- Body of the loop over the children of a parent neighbour (adaptive_fmm_tree.hpp:541-564). -/
noncomputable def nbhChild (heap : AHeap d α) (π par : Path) (node : ANode d α) (child : ℕ → Option Path) (st : Nbh)
    (i : ℕ) : Outcome Nbh :=
  match child i with
  | none => .error .ub
  | some c => do
      let cn ← heap.get c
      if node.box.adjacent cn.box then
        if !node.isLeaf || cn.isLeaf then pushNear par π c st else .ok st
      else if Vec.norm (node.box.center - cn.box.center) < 199 / 100 * node.box.len then .error .logicError
      else .ok { st with inter := pushAt st.inter π c }

/-- Body of the loop over the near neighbours of the parent (adaptive_fmm_tree.hpp:521-566). -/
noncomputable def nbhStep (heap : AHeap d α) (π par : Path) (node : ANode d α) (st : Nbh) (ν : Path) : Outcome Nbh := do
  let pn ← heap.get ν
  if pn.isLeaf then
    if node.box.adjacent pn.box then do
      let st ← pushNear par π ν st
      if node.isLeaf then pushNear par ν π st else .ok st
    else .ok { st with X := pushAt st.X π ν, W := pushAt st.W ν π }
  else (List.range (2 ^ d)).foldlM (nbhChild heap π par node pn.child) st

/-- `computeNodeNeighbourhood` (adaptive_fmm_tree.hpp:507-567). -/
noncomputable def computeNodeNeighbourhood (heap : AHeap d α) (st : Nbh) (π : Path) : Outcome Nbh := do
  let node ← heap.get π
  match node.parent with
  | none => .ok { st with near := pushAt st.near π π }
  | some par => (st.near par).foldlM (nbhStep heap π par node) st

/-- Neighbourhoods of all nodes (adaptive_fmm_tree.hpp:144-147; the single-leaf tree of lines 121-132 has
only the call for the root, which is the same). -/
noncomputable def computeNeighbourhoods (fuel : ℕ) (heap : AHeap d α) : Outcome Nbh :=
  traverseBFS (2 ^ d) (fun _ π => do let n ← heap.get π; .ok n.child) (computeNodeNeighbourhood heap) fuel [] Nbh.empty

/-! ## Specification of the lists -/

namespace PTree

/-- Leaves into whose near-neighbour list a node enters itself when visited. -/
def back (T : PTree) : Path → List Path
  | [] => []
  | i :: τ => if T.leaf (i :: τ) then (T.own τ).filter fun ν => T.leaf ν && T.adj (i :: τ) ν else []

/-- One entry of the parent's list: contribution to `own`. -/
def ownStep (T : PTree) (π ν : Path) : List Path :=
  if T.leaf ν then (if T.adj π ν then [ν] else [])
  else (T.kids ν).filter fun c => T.adj π c && (!T.leaf π || T.leaf c)

/-- The lists after visiting the nodes in `V`. -/
def nbhAfter (T : PTree) (V : List Path) : Nbh where
  near σ := (if σ ∈ V then T.own σ else []) ++ V.filter fun π => decide (σ ∈ T.back π)
  inter σ := if σ ∈ V then T.inter σ else []
  X σ := if σ ∈ V then T.xl σ else []
  W σ := V.filter fun π => decide (σ ∈ T.xl π)

end PTree

variable {T : PTree} {r : Box d} {it : Path → List α}

/-- Effect of the loop body on the lists. -/
def stepF (T : PTree) (π : Path) (st : Nbh) (ν : Path) : Nbh where
  near σ := st.near σ ++ ((if σ = π then T.ownStep π ν else []) ++
    if σ = ν ∧ T.leaf π = true ∧ T.leaf ν = true ∧ T.adj π ν = true then [π] else [])
  inter σ := st.inter σ ++ if σ = π then (if T.leaf ν then [] else (T.kids ν).filter fun c => !T.adj π c) else []
  X σ := st.X σ ++ if σ = π then (if T.leaf ν && !T.adj π ν then [ν] else []) else []
  W σ := st.W σ ++ if σ = ν ∧ T.leaf ν = true ∧ T.adj π ν = false then [π] else []

/-- Agreement of the abstract adjacency relation with the boxes. -/
def AdjOf (T : PTree) (r : Box d) : Prop := ∀ π ρ, T.adj π ρ = decide ((boxAt r π).adjacent (boxAt r ρ))

theorem AdjOf.laws (h : AdjOf T r) (hr : 0 < r.len) : T.Laws where
  refl π := by rw [h]; simpa using adjacent_of_suffix r hr π []
  symm π ρ := by rw [h, h]; exact decide_eq_decide.mpr (adjacent_comm r hr π ρ)
  mono i π ρ := by
    rw [h, h]
    intro ha
    have := adjacent_mono_suffix r hr π [i] ρ [] (by simpa using ha)
    simpa using this

theorem nbhChildren_ok (hr : 0 < r.len) (hA : AdjOf T r) (hc : T.c = 2 ^ d) (π par ν : Path) (hπ : T.Mem π)
    (hν : T.Mem ν) (hνl : T.leaf ν = false) (hlen : ν.length + 1 = π.length) (hpar : π ≠ par) (node : ANode d α)
    (hbox : node.box = boxAt r π) (hleaf : node.isLeaf = T.leaf π) (n : ℕ) (hn : n ≤ 2 ^ d) (st : Nbh) :
    (List.range n).foldlM (nbhChild (treeHeap T r it) π par node
        (fun i => if T.leaf ν = false ∧ i < T.c then some (i :: ν) else none)) st
      = .ok { st with
        near := fun σ => st.near σ ++ if σ = π then ((List.range n).map (· :: ν)).filter
          (fun c => T.adj π c && (!T.leaf π || T.leaf c)) else []
        inter := fun σ => st.inter σ ++ if σ = π then ((List.range n).map (· :: ν)).filter
          (fun c => !T.adj π c) else [] } := by
  induction n with
  | zero =>
    simp only [List.range_zero, List.foldlM_nil, List.map_nil, List.filter_nil, ite_self, List.append_nil]
    rfl
  | succ n ih =>
    rw [List.range_succ, List.foldlM_append, ih (by omega), ok_bind, List.foldlM_cons]
    have hcm : T.Mem (n :: ν) := hν.cons hνl (by rw [hc]; omega)
    unfold nbhChild
    simp only
    rw [if_pos ⟨hνl, by rw [hc]; omega⟩]
    simp only
    rw [treeHeap_get T it hcm, ok_bind]
    simp only [hbox, hleaf]
    have had : T.adj π (n :: ν) = decide ((boxAt r π).adjacent (boxAt r (n :: ν))) := hA _ _
    simp only [List.map_append, List.filter_append, List.map_cons, List.map_nil]
    by_cases h1 : (boxAt r π).adjacent (boxAt r (n :: ν))
    · have h1' : T.adj π (n :: ν) = true := by rw [had]; simpa using h1
      rw [if_pos h1]
      by_cases h2 : (!T.leaf π || T.leaf (n :: ν)) = true
      · rw [if_pos h2]
        unfold pushNear
        rw [if_neg hpar, ok_bind, List.foldlM_nil]
        show Except.ok _ = _
        congr 1
        simp only [Nbh.mk.injEq, and_true]
        refine ⟨?_, ?_⟩
        · funext σ
          by_cases hσ : σ = π
          · subst hσ; simp [pushAt, h1', h2]
          · simp [pushAt, hσ]
        · funext σ; simp [h1']
      · rw [if_neg h2, ok_bind, List.foldlM_nil]
        show Except.ok _ = _
        congr 1
        simp only [Nbh.mk.injEq, and_true]
        refine ⟨?_, ?_⟩
        · have h2' : (!T.leaf π || T.leaf (n :: ν)) = false := by simpa only [Bool.not_eq_true] using h2
          funext σ; simp only [List.filter_cons, h1', h2', Bool.true_and, Bool.false_eq_true, if_false, List.filter_nil, List.append_nil]
        · funext σ; simp [h1']
    · have h1' : T.adj π (n :: ν) = false := by rw [had]; simpa using h1
      rw [if_neg h1]
      obtain ⟨j, hj⟩ := center_dist_of_not_adjacent r hr π (n :: ν) (by simp [hlen]) h1
      have hnorm := Vec.abs_le_norm ((boxAt r π).center - (boxAt r (n :: ν)).center) j
      have hpos := boxAt_len_pos r hr π
      rw [Pi.sub_apply] at hnorm
      rw [if_neg (by linarith), ok_bind, List.foldlM_nil]
      show Except.ok _ = _
      congr 1
      simp only [Nbh.mk.injEq, and_true]
      refine ⟨?_, ?_⟩
      · funext σ; simp [h1']
      · funext σ
        by_cases hσ : σ = π
        · subst hσ; simp [pushAt, h1']
        · simp [pushAt, hσ]

theorem nbhStep_ok (hr : 0 < r.len) (hA : AdjOf T r) (hc : T.c = 2 ^ d) (i : ℕ) (τ ν : Path) (hπ : T.Mem (i :: τ))
    (hν : ν ∈ T.own τ) (node : ANode d α) (hbox : node.box = boxAt r (i :: τ))
    (hleaf : node.isLeaf = T.leaf (i :: τ)) (st : Nbh) :
    nbhStep (treeHeap T r it) (i :: τ) τ node st ν = .ok (stepF T (i :: τ) st ν) := by
  have hT := hA.laws hr
  obtain ⟨m1, m2, m3⟩ := (PTree.mem_own hT hπ.tail ν).mp hν
  have hlen : ν.length ≤ τ.length := (PTree.own_lengths hT hπ.tail ν hν).1
  have hne : i :: τ ≠ τ := by intro h; simpa using congrArg List.length h
  have hne2 : ν ≠ i :: τ := by rintro rfl; simp at hlen
  unfold nbhStep
  rw [treeHeap_get T it m1, ok_bind]
  simp only
  have had : T.adj (i :: τ) ν = decide ((boxAt r (i :: τ)).adjacent (boxAt r ν)) := hA _ _
  by_cases hl : T.leaf ν = true
  · rw [if_pos hl, hbox]
    by_cases h1 : (boxAt r (i :: τ)).adjacent (boxAt r ν)
    · have h1' : T.adj (i :: τ) ν = true := by rw [had]; simpa using h1
      rw [if_pos h1]
      have hντ : ν ≠ τ := by rintro rfl; rw [hπ.parent_not_leaf] at hl; simp at hl
      simp only [pushNear]
      rw [if_neg hne, ok_bind, hleaf]
      by_cases h2 : T.leaf (i :: τ) = true
      · rw [if_pos h2, if_neg hντ]
        congr 1
        simp only [stepF, Nbh.mk.injEq]
        refine ⟨?_, ?_, ?_, ?_⟩
        · funext σ
          by_cases hσ : σ = i :: τ
          · subst hσ; simp [pushAt, PTree.ownStep, hl, h1', hne2.symm]
          · by_cases hσ2 : σ = ν
            · subst hσ2; simp [pushAt, hne2, hl, h1', h2]
            · simp [pushAt, hσ, hσ2]
        · funext σ; simp [hl]
        · funext σ; simp [h1']
        · funext σ; simp [h1']
      · rw [if_neg h2]
        congr 1
        simp only [stepF, Nbh.mk.injEq]
        refine ⟨?_, ?_, ?_, ?_⟩
        · funext σ
          by_cases hσ : σ = i :: τ
          · subst hσ; simp [pushAt, PTree.ownStep, hl, h1', h2]
          · simp [pushAt, hσ, h2]
        · funext σ; simp [hl]
        · funext σ; simp [h1']
        · funext σ; simp [h1']
    · have h1' : T.adj (i :: τ) ν = false := by rw [had]; simpa using h1
      rw [if_neg h1]
      congr 1
      simp only [stepF, Nbh.mk.injEq]
      refine ⟨?_, ?_, ?_, ?_⟩
      · funext σ; simp [PTree.ownStep, hl, h1']
      · funext σ; simp [hl]
      · funext σ
        by_cases hσ : σ = i :: τ
        · subst hσ; simp [pushAt, hl, h1']
        · simp [pushAt, hσ]
      · funext σ
        by_cases hσ : σ = ν
        · subst hσ; simp [pushAt, hl, h1']
        · simp [pushAt, hσ]
  · have hl' : T.leaf ν = false := by simpa using hl
    rw [if_neg hl]
    have hlen' := (PTree.own_lengths hT hπ.tail ν hν).2 hl'
    rw [nbhChildren_ok hr hA hc (i :: τ) τ ν hπ m1 hl' (by simp [hlen']) hne node hbox hleaf (2 ^ d) le_rfl st]
    congr 1
    simp only [stepF, Nbh.mk.injEq]
    refine ⟨?_, ?_, ?_, ?_⟩
    · funext σ; simp [PTree.ownStep, hl', PTree.kids, hc]
    · funext σ; simp [hl', PTree.kids, hc]
    · funext σ; simp [hl']
    · funext σ; simp [hl']

theorem foldl_stepF (π : Path) (l : List Path) (st : Nbh) :
    l.foldl (stepF T π) st =
      { near := fun σ => st.near σ ++ l.flatMap fun ν => ((if σ = π then T.ownStep π ν else []) ++
          if σ = ν ∧ T.leaf π = true ∧ T.leaf ν = true ∧ T.adj π ν = true then [π] else [])
        inter := fun σ => st.inter σ ++ l.flatMap fun ν => if σ = π then (if T.leaf ν then [] else
          (T.kids ν).filter fun c => !T.adj π c) else []
        X := fun σ => st.X σ ++ l.flatMap fun ν => if σ = π then (if T.leaf ν && !T.adj π ν then [ν] else []) else []
        W := fun σ => st.W σ ++ l.flatMap fun ν => if σ = ν ∧ T.leaf ν = true ∧ T.adj π ν = false then [π] else [] } := by
  induction l generalizing st with
  | nil => simp
  | cons ν l ih => rw [List.foldl_cons, ih]; simp [stepF]

theorem flatMap_single {l : List Path} (hl : l.Nodup) (σ π : Path) (P : Path → Prop) [DecidablePred P] :
    (l.flatMap fun ν => if σ = ν ∧ P ν then [π] else []) = if σ ∈ l ∧ P σ then [π] else [] := by
  induction l with
  | nil => simp
  | cons ν l ih =>
    rw [List.nodup_cons] at hl
    rw [List.flatMap_cons, ih hl.2]
    by_cases h : σ = ν
    · subst h
      by_cases hP : P σ <;> simp [hP, hl.1]
    · simp [h]

/-- Visiting one more node in breadth-first order. -/
theorem visit_ok (hr : 0 < r.len) (hA : AdjOf T r) (hc : T.c = 2 ^ d) {h : ℕ} {d1 d2 : List Path} {π : Path}
    (e : T.order h = d1 ++ π :: d2) :
    computeNodeNeighbourhood (treeHeap T r it) (T.nbhAfter d1) π = .ok (T.nbhAfter (d1 ++ [π])) := by
  have hT := hA.laws hr
  obtain ⟨hπ, hnot, hbefore, hd1⟩ := PTree.order_prefix e
  unfold computeNodeNeighbourhood
  rw [treeHeap_get T it hπ, ok_bind]
  -- no pushes to `π` so far
  have hback : ∀ ρ ∈ d1, π ∉ T.back ρ := by
    intro ρ hρ hin
    obtain ⟨m, hle⟩ := hd1 ρ hρ
    cases ρ with
    | nil => simp [PTree.back] at hin
    | cons j σ =>
      simp only [PTree.back] at hin
      split_ifs at hin
      · have := PTree.own_length (List.mem_filter.mp hin).1
        simp at hle; omega
      · simp at hin
  have hbackf : (d1.filter fun ρ => decide (π ∈ T.back ρ)) = [] := by
    rw [List.filter_eq_nil_iff]; intro ρ hρ; simpa using hback ρ hρ
  cases π with
  | nil =>
    simp only [List.tail?]
    have hd1e : d1 = [] := by
      rw [List.eq_nil_iff_forall_not_mem]
      intro ρ hρ
      have h0 := (hd1 ρ hρ).2
      have : ρ = [] := List.eq_nil_of_length_eq_zero (by simpa using h0)
      subst this; exact hnot hρ
    subst hd1e
    congr 1
    simp only [PTree.nbhAfter, Nbh.mk.injEq]
    refine ⟨?_, ?_, ?_, ?_⟩
    · funext σ
      by_cases hσ : σ = []
      · subst hσ; simp [pushAt, PTree.own, PTree.back]
      · simp [pushAt, hσ, PTree.back]
    · funext σ
      by_cases hσ : σ = []
      · subst hσ; simp [PTree.inter]
      · simp [hσ]
    · funext σ
      by_cases hσ : σ = []
      · subst hσ; simp [PTree.xl]
      · simp [hσ]
    · funext σ; simp [PTree.xl]
  | cons i τ =>
    simp only [List.tail?]
    have hτ : τ ∈ d1 := hbefore τ hπ.tail (by simp)
    have hnear : (T.nbhAfter d1).near τ = T.own τ := by
      simp only [PTree.nbhAfter, if_pos hτ]
      have : (d1.filter fun ρ => decide (τ ∈ T.back ρ)) = [] := by
        rw [List.filter_eq_nil_iff]
        intro ρ _
        simp only [decide_eq_true_eq]
        intro hin
        have hl : T.leaf τ = true := by
          cases ρ with
          | nil => simp [PTree.back] at hin
          | cons j σ =>
            simp only [PTree.back] at hin
            split_ifs at hin
            · have := (List.mem_filter.mp hin).2
              simp only [Bool.and_eq_true] at this; exact this.1
            · simp at hin
        rw [hπ.parent_not_leaf] at hl; simp at hl
      rw [this, List.append_nil]
    rw [hnear]
    have hfold : (T.own τ).foldlM (nbhStep (treeHeap T r it) (i :: τ) τ
        { box := boxAt r (i :: τ), depth := (i :: τ).length, parent := some τ, isLeaf := T.leaf (i :: τ)
          child := fun j => if T.leaf (i :: τ) = false ∧ j < T.c then some (j :: i :: τ) else none
          items := if T.leaf (i :: τ) then it (i :: τ) else [] }) (T.nbhAfter d1)
        = .ok ((T.own τ).foldl (stepF T (i :: τ)) (T.nbhAfter d1)) := by
      generalize T.nbhAfter d1 = st
      have : ∀ l : List Path, (∀ ν ∈ l, ν ∈ T.own τ) → ∀ st, l.foldlM (nbhStep (treeHeap T r it) (i :: τ) τ
          { box := boxAt r (i :: τ), depth := (i :: τ).length, parent := some τ, isLeaf := T.leaf (i :: τ)
            child := fun j => if T.leaf (i :: τ) = false ∧ j < T.c then some (j :: i :: τ) else none
            items := if T.leaf (i :: τ) then it (i :: τ) else [] }) st
          = .ok (l.foldl (stepF T (i :: τ)) st) := by
        intro l
        induction l with
        | nil => intro _ st; rfl
        | cons ν l ih =>
          intro hl st
          rw [List.foldlM_cons, nbhStep_ok hr hA hc i τ ν hπ (hl ν (by simp)) _ rfl rfl, ok_bind,
            ih (fun ν' h' => hl ν' (by simp [h']))]
          rfl
      exact this _ (fun ν h => h) st
    refine hfold.trans ?_
    congr 1
    rw [foldl_stepF]
    have hown : T.own (i :: τ) = (T.own τ).flatMap (T.ownStep (i :: τ)) := rfl
    have hnd := PTree.nodup_own hT hπ.tail
    simp only [PTree.nbhAfter, Nbh.mk.injEq]
    refine ⟨?_, ?_, ?_, ?_⟩
    · funext σ
      rw [List.filter_append]
      by_cases hσ : σ = i :: τ
      · subst hσ
        rw [if_neg hnot, hbackf, if_pos (by simp)]
        simp only [List.nil_append, if_true]
        have h1 : ∀ ν ∈ T.own τ, (T.ownStep (i :: τ) ν ++ if i :: τ = ν ∧ T.leaf (i :: τ) = true ∧ T.leaf ν = true ∧
            T.adj (i :: τ) ν = true then [i :: τ] else []) = T.ownStep (i :: τ) ν := by
          intro ν hν
          have := PTree.own_length hν
          rw [if_neg, List.append_nil]
          rintro ⟨rfl, _⟩
          simp at this
        rw [List.flatMap_congr h1, hown]
        have h2 : i :: τ ∉ T.back (i :: τ) := by
          simp only [PTree.back]
          split_ifs
          · intro h
            have := PTree.own_length (List.mem_filter.mp h).1
            simp at this
          · simp
        simp [h2]
      · have h0 : (σ ∈ d1 ++ [i :: τ]) ↔ σ ∈ d1 := by simp [hσ]
        simp only [hσ, h0, if_false, List.nil_append]
        rw [List.append_assoc]
        congr 2
        have := flatMap_single hnd σ (i :: τ) (fun ν => T.leaf (i :: τ) = true ∧ T.leaf ν = true ∧ T.adj (i :: τ) ν = true)
        rw [this]
        by_cases hl : T.leaf (i :: τ) = true
        · by_cases h3 : σ ∈ T.own τ ∧ T.leaf σ = true ∧ T.adj (i :: τ) σ = true
          · simp [PTree.back, hl, h3]
          · rw [if_neg (fun h => h3 ⟨h.1, h.2.2⟩), List.filter_cons_of_neg (by simpa [PTree.back, hl] using h3)]
            simp
        · simp [PTree.back, hl]
    · funext σ
      by_cases hσ : σ = i :: τ
      · subst hσ; simp [hnot, PTree.inter]
      · simp [hσ]
    · funext σ
      by_cases hσ : σ = i :: τ
      · subst hσ
        simp only [hnot, if_false, List.nil_append, if_true, List.mem_append, List.mem_singleton, or_true, PTree.xl]
        generalize T.own τ = l
        induction l with
        | nil => rfl
        | cons a l ih =>
          rw [List.flatMap_cons, ih, List.filter_cons]
          split_ifs <;> simp
      · simp [hσ]
    · funext σ
      rw [List.filter_append]
      congr 1
      have := flatMap_single hnd σ (i :: τ) (fun ν => T.leaf ν = true ∧ T.adj (i :: τ) ν = false)
      rw [this]
      by_cases h3 : σ ∈ T.own τ ∧ T.leaf σ = true ∧ T.adj (i :: τ) σ = false
      · simp [PTree.xl, h3]
      · rw [if_neg h3, List.filter_cons_of_neg (by simpa [PTree.xl] using h3)]
        simp

theorem pushKids_tree (T : PTree) (hc : T.c = 2 ^ d) (π : Path) :
    pushKids (2 ^ d) (fun i => if T.leaf π = false ∧ i < T.c then some (i :: π) else none) = T.ch π := by
  unfold pushKids PTree.ch PTree.kids
  by_cases hl : T.leaf π = true
  · simp [hl]
  · have hl' : T.leaf π = false := by simpa using hl
    rw [if_neg hl, hc]
    rw [← List.filterMap_eq_map]
    refine List.filterMap_congr fun i hi => ?_
    rw [if_pos ⟨hl', List.mem_range.mp hi⟩]; rfl

/-- The neighbourhood pass succeeds on every complete finite tree and computes the specified lists. -/
theorem computeNeighbourhoods_ok (hr : 0 < r.len) (hA : AdjOf T r) (hc : T.c = 2 ^ d) (h : ℕ)
    (hh : ∀ π, T.Mem π → π.length < h) (fuel : ℕ) (hf : (T.order h).length ≤ fuel) :
    computeNeighbourhoods fuel (treeHeap T r it) = .ok (T.nbhAfter (T.order h)) := by
  obtain ⟨s', _, h2, h3⟩ := traverseBFS_eq (2 ^ d)
    (fun _ π => do let n ← (treeHeap T r it).get π; .ok n.child) (computeNodeNeighbourhood (treeHeap T r it))
    T.ch [] (fun done s => s = T.nbhAfter done) h (PTree.level_nil hh) (by
      intro d1 a d2 e s hs
      subst hs
      have hm := (PTree.order_prefix e).1
      refine ⟨_, _, visit_ok hr hA hc e, rfl, ?_, pushKids_tree T hc a⟩
      rw [treeHeap_get T it hm, ok_bind]) Nbh.empty (by
      simp [PTree.nbhAfter, Nbh.empty])
  subst h2
  exact h3 fuel hf

end FMM
