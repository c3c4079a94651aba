import Verif.RoundingSim

/-!
# The lists computed with rounding

If the rounded adjacency test gives the exact answer for all pairs of nodes, and the sanity check does not fire for separated
nodes of equal depth, then the neighbourhood pass on the rounded boxes computes the lists of the exact pass.
-/

namespace FMM.Rounded
variable {d : ℕ} {α : Type}

/-- The tests on the boxes `bx` of the nodes of `T` give the exact results. -/
structure TestsOk (T : PTree) (r : Box d) (rnd : ℝ → ℝ) (nrm : Vec d → ℝ) (bx : Path → Box d) : Prop where
  adj : ∀ π ρ, T.Mem π → T.Mem ρ →
    ((toR (bx π)).adjacent rnd (toR (bx ρ)) = true ↔ (FMM.boxAt r π).adjacent (FMM.boxAt r ρ))
  far : ∀ π ρ, T.Mem π → T.Mem ρ → π.length = ρ.length → ¬ (FMM.boxAt r π).adjacent (FMM.boxAt r ρ) →
    ¬ tooClose rnd nrm (bx π) (bx ρ)

variable {T : PTree} {r : Box d} {it : Path → List α} {rnd : ℝ → ℝ} {nrm : Vec d → ℝ} {bx : Path → Box d}

theorem nbhChild_sim (hr : 0 < r.len) (hT : TestsOk T r rnd nrm bx) (π par : Path) (hπ : T.Mem π) (node : ANode d α)
    (hbox : node.box = FMM.boxAt r π) (child : ℕ → Option Path) (i : ℕ) (c : Path) (hci : child i = some c) (hc : T.Mem c)
    (hl : π.length = c.length) (st : Nbh) :
    nbhChild rnd nrm (liftH bx (treeHeap T r it)) π par { node with box := bx π } child st i
      = FMM.nbhChild (treeHeap T r it) π par node child st i := by
  unfold nbhChild FMM.nbhChild
  rw [hci]
  simp only
  rw [liftH_get, treeHeap_get T it hc]
  show (do let cn ← Except.ok _; _) = _
  rw [ok_bind, ok_bind]
  simp only [hbox]
  by_cases ha : (FMM.boxAt r π).adjacent (FMM.boxAt r c)
  · rw [if_pos ha, if_pos ((hT.adj π c hπ hc).mpr ha)]
  · rw [if_neg ha, if_neg (fun h => ha ((hT.adj π c hπ hc).mp h)), if_neg (hT.far π c hπ hc hl ha)]
    obtain ⟨j, hj⟩ := center_dist_of_not_adjacent r hr π c hl ha
    have hnorm := Vec.abs_le_norm ((FMM.boxAt r π).center - (FMM.boxAt r c).center) j
    have hpos := boxAt_len_pos r hr π
    rw [Pi.sub_apply] at hnorm
    rw [if_neg (by linarith)]

theorem foldlM_congr' {S X : Type} (f g : S → X → Outcome S) (l : List X) (h : ∀ x ∈ l, ∀ s, f s x = g s x) (s : S) :
    l.foldlM f s = l.foldlM g s := by
  induction l generalizing s with
  | nil => rfl
  | cons x l ih =>
    rw [List.foldlM_cons, List.foldlM_cons, h x (by simp)]
    congr 1
    funext s'
    exact ih (fun y hy => h y (by simp [hy])) s'

theorem nbhStep_sim (hr : 0 < r.len) (hA : AdjOf T r) (hc : T.c = 2 ^ d) (hT : TestsOk T r rnd nrm bx) (i : ℕ) (τ ν : Path)
    (hπ : T.Mem (i :: τ)) (hν : ν ∈ T.own τ) (node : ANode d α) (hbox : node.box = FMM.boxAt r (i :: τ)) (st : Nbh) :
    nbhStep rnd nrm (liftH bx (treeHeap T r it)) (i :: τ) τ { node with box := bx (i :: τ) } st ν
      = FMM.nbhStep (treeHeap T r it) (i :: τ) τ node st ν := by
  have hL := hA.laws hr
  obtain ⟨m1, -, -⟩ := (PTree.mem_own hL hπ.tail ν).mp hν
  unfold nbhStep FMM.nbhStep
  rw [liftH_get, treeHeap_get T it m1]
  show (do let cn ← Except.ok _; _) = _
  rw [ok_bind, ok_bind]
  simp only [hbox]
  by_cases hl : T.leaf ν = true
  · rw [if_pos hl, if_pos hl]
    by_cases ha : (FMM.boxAt r (i :: τ)).adjacent (FMM.boxAt r ν)
    · rw [if_pos ha, if_pos ((hT.adj _ _ hπ m1).mpr ha)]
    · rw [if_neg ha, if_neg (fun h => ha ((hT.adj _ _ hπ m1).mp h))]
  · rw [if_neg hl, if_neg hl]
    have hl' : T.leaf ν = false := by simpa using hl
    have hlen := (PTree.own_lengths hL hπ.tail ν hν).2 hl'
    refine foldlM_congr' _ _ _ (fun j hj s => ?_) st
    have hj := List.mem_range.mp hj
    exact nbhChild_sim hr hT (i :: τ) τ hπ node hbox _ j (j :: ν) (if_pos ⟨hl', by rw [hc]; exact hj⟩)
      (m1.cons hl' (by rw [hc]; exact hj)) (by simp [hlen]) s

theorem near_parent {d1 : List Path} {i : ℕ} {τ : Path} (hπ : T.Mem (i :: τ)) (hτ : τ ∈ d1) :
    (T.nbhAfter d1).near τ = T.own τ := by
  simp only [PTree.nbhAfter, if_pos hτ]
  have : (d1.filter fun ρ => decide (τ ∈ T.back ρ)) = [] := by
    rw [List.filter_eq_nil_iff]
    intro ρ _
    simp only [decide_eq_true_eq]
    intro hin
    have hl : T.leaf τ = true := by
      cases ρ with
      | nil => simp [PTree.back] at hin
      | cons j σ =>
        simp only [PTree.back] at hin
        split_ifs at hin
        · have := (List.mem_filter.mp hin).2
          simp only [Bool.and_eq_true] at this; exact this.1
        · simp at hin
    rw [hπ.parent_not_leaf] at hl; simp at hl
  rw [this, List.append_nil]

theorem visit_sim (hr : 0 < r.len) (hA : AdjOf T r) (hc : T.c = 2 ^ d) (hT : TestsOk T r rnd nrm bx) {h : ℕ}
    {d1 d2 : List Path} {π : Path} (e : T.order h = d1 ++ π :: d2) :
    computeNodeNeighbourhood rnd nrm (liftH bx (treeHeap T r it)) (T.nbhAfter d1) π = .ok (T.nbhAfter (d1 ++ [π])) := by
  rw [← visit_ok (it := it) hr hA hc e]
  obtain ⟨hπ, hnot, hbefore, hd1⟩ := PTree.order_prefix e
  unfold computeNodeNeighbourhood FMM.computeNodeNeighbourhood
  rw [liftH_get, treeHeap_get T it hπ]
  show (do let cn ← Except.ok _; _) = _
  rw [ok_bind, ok_bind]
  cases π with
  | nil => rfl
  | cons i τ =>
    simp only [List.tail?]
    rw [near_parent hπ (hbefore τ hπ.tail (by simp))]
    exact foldlM_congr' _ _ _ (fun ν hν s => nbhStep_sim (it := it) hr hA hc hT i τ ν hπ hν
      { box := FMM.boxAt r (i :: τ), depth := (i :: τ).length, parent := some τ, isLeaf := T.leaf (i :: τ)
        child := fun j => if T.leaf (i :: τ) = false ∧ j < T.c then some (j :: i :: τ) else none
        items := if T.leaf (i :: τ) then it (i :: τ) else [] } rfl s) _

/-- The neighbourhood pass on the boxes `bx`. -/
theorem computeNeighbourhoods_sim (hr : 0 < r.len) (hA : AdjOf T r) (hc : T.c = 2 ^ d) (hT : TestsOk T r rnd nrm bx) (h : ℕ)
    (hh : ∀ π, T.Mem π → π.length < h) (fuel : ℕ) (hf : (T.order h).length ≤ fuel) :
    computeNeighbourhoods rnd nrm fuel (liftH bx (treeHeap T r it)) = .ok (T.nbhAfter (T.order h)) := by
  obtain ⟨s', _, h2, h3⟩ := traverseBFS_eq (2 ^ d)
    (fun _ π => do let n ← (liftH bx (treeHeap T r it)).get π; .ok n.child)
    (computeNodeNeighbourhood rnd nrm (liftH bx (treeHeap T r it)))
    T.ch [] (fun done s => s = T.nbhAfter done) h (PTree.level_nil hh) (by
      intro d1 a d2 e s hs
      subst hs
      have hm := (PTree.order_prefix e).1
      refine ⟨_, _, visit_sim hr hA hc hT e, rfl, ?_, pushKids_tree T hc a⟩
      rw [liftH_get, treeHeap_get T it hm]
      rfl) Nbh.empty (by
      simp [PTree.nbhAfter, Nbh.empty])
  subst h2
  exact h3 fuel hf

end FMM.Rounded
