import Verif.Accounting
import Verif.PropsAdaptive

/-!
# The adaptive tree with its lists
-/

namespace FMM
variable {d : ℕ} {α : Type}

/-- Construction of the nodes and of their lists (adaptive_fmm_tree.hpp:121-147). -/
noncomputable def adaptiveLists (fuel : ℕ) (pos : α → Vec d) (r : Box d) (items : List α) (max : ℕ) :
    Outcome (BuildState d α × ℕ × Nbh) := do
  let (st, h) ← adaptiveBuild fuel pos r items max
  if items.length ≤ max then do
    let nb ← computeNodeNeighbourhood st.heap Nbh.empty []
    .ok (st, h, nb)
  else do
    let nb ← computeNeighbourhoods fuel st.heap
    .ok (st, h, nb)

variable {pos : α → Vec d} {r : Box d} {items : List α} {max : ℕ}

theorem fmmTree_adjOf : AdjOf (fmmTree pos r items max) r := fun _ _ => rfl

/-- Laws hold trivially for the single-leaf tree, also if the root box is degenerate. -/
theorem order_single (T : PTree) (hl : T.leaf [] = true) (h : ℕ) (hpos : 0 < h) : T.order h = [[]] := by
  obtain ⟨h, rfl⟩ := Nat.exists_eq_succ_of_ne_zero hpos.ne'
  induction h with
  | zero => rfl
  | succ h ih =>
    have e : T.order (h + 1 + 1) = T.order (h + 1) ++ T.level (h + 1) := bfsOrder_succ _ _ _
    rw [e, ih (by omega)]
    have : T.level (h + 1) = [] := by
      rw [List.eq_nil_iff_forall_not_mem]
      intro π hπ
      obtain ⟨h1, h2⟩ := (PTree.mem_level _ _).mp hπ
      rw [← h1.eq_of_leaf_suffix hl List.nil_suffix] at h2
      simp at h2
    rw [this, List.append_nil]

theorem adaptiveLists_ok (hr : 0 < r.len ∨ items.length ≤ max) {fuel : ℕ} {st : BuildState d α} {h : ℕ}
    (hb : adaptiveBuild fuel pos r items max = .ok (st, h)) :
    ∀ fuel' ≥ fuel, ((fmmTree pos r items max).order (h + 1)).length ≤ fuel' →
      adaptiveLists fuel' pos r items max
        = .ok (st, h, (fmmTree pos r items max).nbhAfter ((fmmTree pos r items max).order (h + 1))) := by
  intro fuel' hf hlen
  obtain ⟨h1, h2, -⟩ := adaptiveBuild_ok hb
  have hb' := adaptiveBuild_mono hf hb
  unfold adaptiveLists
  rw [hb', ok_bind]
  by_cases hN : items.length ≤ max
  · have hl : (fmmTree pos r items max).leaf [] = true := by simp [fmmTree, itemsAt_nil, hN]
    simp only
    rw [if_pos hN, h1]
    have e := order_single (fmmTree pos r items max) hl (h + 1) (by omega)
    have hv : computeNodeNeighbourhood (treeHeap (fmmTree pos r items max) r (itemsAt pos r items)) Nbh.empty []
        = .ok ((fmmTree pos r items max).nbhAfter [[]]) := by
      unfold computeNodeNeighbourhood
      rw [treeHeap_get _ _ PTree.mem_nil, ok_bind]
      simp only [List.tail?]
      congr 1
      simp only [PTree.nbhAfter, Nbh.mk.injEq]
      refine ⟨?_, ?_, ?_, ?_⟩
      · funext σ
        by_cases hσ : σ = []
        · subst hσ; simp [pushAt, PTree.own, PTree.back, Nbh.empty]
        · simp [pushAt, hσ, PTree.back, Nbh.empty]
      · funext σ
        by_cases hσ : σ = []
        · subst hσ; simp [PTree.inter, Nbh.empty]
        · simp [hσ, Nbh.empty]
      · funext σ
        by_cases hσ : σ = []
        · subst hσ; simp [PTree.xl, Nbh.empty]
        · simp [hσ, Nbh.empty]
      · funext σ; simp [PTree.xl, Nbh.empty]
    rw [hv, ok_bind, e]
  · simp only
    rw [if_neg hN, h1]
    have hr' : 0 < r.len := hr.resolve_right hN
    rw [computeNeighbourhoods_ok hr' fmmTree_adjOf rfl (h + 1) (fun π hπ => Nat.lt_succ_of_le (h2 π hπ)) fuel' hlen, ok_bind]

/-- More fuel does not change a result. -/
theorem adaptiveLists_mono {fuel fuel' : ℕ} (hf : fuel ≤ fuel') {x : BuildState d α × ℕ × Nbh}
    (hb : adaptiveLists fuel pos r items max = .ok x) :
    adaptiveLists fuel' pos r items max = .ok x := by
  unfold adaptiveLists at hb ⊢
  rcases e : adaptiveBuild fuel pos r items max with y | ⟨st, h⟩
  · rw [e, err_bind] at hb; simp at hb
  · rw [e, ok_bind] at hb
    rw [adaptiveBuild_mono hf e, ok_bind]
    simp only at hb ⊢
    by_cases hN : items.length ≤ max
    · rw [if_pos hN] at hb ⊢; exact hb
    · rw [if_neg hN] at hb ⊢
      rcases e2 : computeNeighbourhoods fuel st.heap with y | nb
      · rw [e2, err_bind] at hb; simp at hb
      · rw [e2] at hb
        have : computeNeighbourhoods fuel' st.heap = .ok nb := bfsLoop_mono _ _ _ hf _ _ _ e2
        rw [this]; exact hb

/-- What a successful construction returns. -/
theorem lists_result (hr : 0 < r.len ∨ items.length ≤ max) {fuel : ℕ} {st : BuildState d α} {h : ℕ} {nb : Nbh}
    (hb : adaptiveLists fuel pos r items max = .ok (st, h, nb)) :
    adaptiveBuild fuel pos r items max = .ok (st, h) ∧
    st.heap = treeHeap (fmmTree pos r items max) r (itemsAt pos r items) ∧
      (∀ π, (fmmTree pos r items max).Mem π → π.length < h + 1) ∧
      nb = (fmmTree pos r items max).nbhAfter ((fmmTree pos r items max).order (h + 1)) := by
  rcases e : adaptiveBuild fuel pos r items max with x | ⟨st', h'⟩
  · unfold adaptiveLists at hb
    rw [e, err_bind] at hb; simp at hb
  · obtain ⟨h1, h2, -⟩ := adaptiveBuild_ok e
    have hbig := adaptiveLists_ok hr e (fuel + ((fmmTree pos r items max).order (h' + 1)).length) (by omega) (by omega)
    rw [adaptiveLists_mono (by omega) hb] at hbig
    simp only [Except.ok.injEq, Prod.mk.injEq] at hbig
    obtain ⟨rfl, rfl, rfl⟩ := hbig
    exact ⟨rfl, h1, fun π hπ => Nat.lt_succ_of_le (h2 π hπ), rfl⟩

end FMM
