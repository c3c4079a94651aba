import Verif.Lifetime
import Verif.PropsRoundingBalanced

/-!
# C72: the destructors free everything exactly once
-/

namespace FMM
variable {d : ℕ} {α : Type} {pos : α → Vec d} {items : List α} {max h : ℕ}

/-- **C72** Destroying an `AdaptiveFmmTree` frees every node exactly once. -/
theorem C72_adaptive {r : Box d} {fuel : ℕ} {st : BuildState d α} (hb : adaptiveBuild fuel pos r items max = .ok (st, h))
    (fuel' : ℕ) (hf : h < fuel') : destroyNode fuel' st.heap [] = .ok fun _ => none := by
  obtain ⟨e, hh, -⟩ := adaptiveBuild_ok hb
  rw [e]
  exact destroyNode_root (treeHeap_owned _ rfl _ _ hh) hf

/-- **C72** The same for an `AdaptivePointOrthtree`. -/
theorem C72_points {r : Box d} {fuel : ℕ} {st : BuildState d α} (hb : buildPointTree fuel pos r items max = .ok (st, h))
    (fuel' : ℕ) (hf : h < fuel') : destroyNode fuel' st.heap [] = .ok fun _ => none := by
  obtain ⟨hh, e⟩ := buildPointTree_inv hb
  subst e
  show destroyNode fuel' (specHeap pos r items max _) [] = _
  rw [specHeap_final hh]
  exact destroyNode_root (treeHeap_owned _ rfl _ _ fun π => mem_length_le hh) hf

/-- **C72** The same with any rounding of the coordinates. -/
theorem C72_adaptive_rounded {rnd : ℝ → ℝ} {r : Rounded.RBox ℝ d} (hr : 0 < r.len) {fuel : ℕ} {st : BuildState d α}
    (hb : Rounded.adaptiveBuild rnd fuel pos r items max = .ok (st, h)) (fuel' : ℕ) (hf : h < fuel') :
    destroyNode fuel' st.heap [] = .ok fun _ => none := by
  obtain ⟨stE, hE, rfl, -⟩ := Rounded.build_inv hr hb
  obtain ⟨e, hh, -⟩ := adaptiveBuild_ok hE
  have ho : Owned stE.heap h := by rw [e]; exact treeHeap_owned _ rfl _ _ hh
  refine destroyNode_root (heap := Rounded.liftH (Rounded.bxR rnd r) stE.heap) (h := h) ⟨?_, ?_, ?_, ?_⟩ hf
  · simpa [Rounded.liftH] using ho.root
  · intro π n hn i hi c hc
    obtain ⟨n0, h1, rfl⟩ := Option.map_eq_some_iff.mp hn
    obtain ⟨h2, h3⟩ := ho.kids π n0 h1 i hi c hc
    exact ⟨h2, by simpa [Rounded.liftH] using h3⟩
  · intro i π hne
    obtain ⟨n0, h1, h2, h3⟩ := ho.parent i π (by simpa [Rounded.liftH] using hne)
    refine ⟨{ n0 with box := Rounded.bxR rnd r π }, by simp [Rounded.liftH, h1], h2, h3⟩
  · intro π hne
    exact ho.height π (by simpa [Rounded.liftH] using hne)

/-- **C72** The trees have no copy constructor of their own: a copy shares the nodes, and destroying both the copy and the original
is undefined (shown here for any tree with at least the root). -/
theorem C72_copy {heap heap' : AHeap d α} {fuel fuel' : ℕ} (hd : destroyNode fuel heap [] = .ok heap') (hf : 0 < fuel') :
    destroyNode fuel' heap' [] = .error .ub := by
  cases fuel with
  | zero => cases hd
  | succ n =>
    unfold destroyNode at hd
    obtain ⟨a, -, hd⟩ := Rounded.bind_inv' hd
    obtain ⟨b, -, hd⟩ := Rounded.bind_inv' hd
    rw [← Except.ok.inj hd]
    cases fuel' with
    | zero => omega
    | succ m =>
      unfold destroyNode AHeap.get
      rw [Function.update_self]
      rfl

/-- **C72** Destroying a `BalancedFmmTree` frees the source vectors of all leaves exactly once, as long as the flat index fits. -/
theorem C72_balanced {r : Box d} (hd : 2 ≤ d) (hr : 0 < r.len) (hdh : d * h ≤ 32) (hx : ∀ s ∈ items, r.containsHO (pos s))
    {fuel : ℕ} {m : BMem d} {src : BSrc α} {nb : BNbh} (hf : off (2 ^ d) (h + 1) ≤ fuel)
    (hb : balancedLists fuel pos r items h = .ok (m, src, nb)) : destroyLeaves m src = .ok fun _ => false := by
  obtain ⟨m', src', nb', f0, h1, -, -, h2, h3⟩ := C09_distribution (pos := pos) (items := items) hd hr hdh hx
  obtain ⟨rfl, rfl, -⟩ := balanced_result hd (Or.inl hr) hdh (Or.inr hx) hf hb
  obtain ⟨rfl, rfl, -⟩ := balanced_result hd (Or.inl hr) hdh (Or.inr hx) (Nat.le_add_left _ f0) (h1 _ (Nat.le_add_right _ _))
  exact destroyLeaves_ok h2 h3

/-- **C72** The same with any rounding of the coordinates of relative error at most `u`. -/
theorem C72_balanced_rounded {rnd : ℝ → ℝ} {nrm : Vec d → ℝ} {u C : ℝ} {r : Rounded.RBox ℝ d} (hd : 2 ≤ d)
    (H : ∀ x, |rnd x - x| ≤ u * |x|) (hu : 0 ≤ u) (hL : 0 < r.len)
    (hC0 : 0 ≤ C) (hC : ∀ i, |r.center i| ≤ C) (hnrm : ∀ v, 999 / 1000 * Vec.norm v ≤ nrm v) (hdh : d * h ≤ 32)
    (hk : 100 * ((8 * h + 15) * (u * (4 * (C + r.len)))) < r.len / 2 ^ (h + 1))
    (fuel : ℕ) (hf : off (2 ^ d) (h + 1) ≤ fuel) (m : BMem d) (src : BSrc α) (nb : BNbh)
    (hb : Rounded.balancedLists rnd nrm fuel pos r items h = .ok (m, src, nb)) : destroyLeaves m src = .ok fun _ => false := by
  have hx := Rounded.balancedLists_inv hd hdh hf hb
  obtain ⟨nb', -, h2⟩ := Rounded.balancedLists_lift hd H hu hL hC0 hC hnrm hdh hk hx
  rw [h2 fuel hf] at hb
  have := Except.ok.inj hb
  simp only [Prod.mk.injEq] at this
  obtain ⟨rfl, rfl, rfl⟩ := this
  exact destroyLeaves_ok (fun k hk => ⟨_, flatPath_lt (gpath_leaf_length h k hk), specSrc'_ptr k hk⟩) (specSrc'_own hdh)

/-- **C72** Beyond that the construction still succeeds, but two leaves share a vector, and destroying the tree frees it twice. -/
theorem C72_balanced_wraps {r : Box d} (hd : 2 ≤ d) (hr : 0 < r.len) (hdh : 32 < d * h) (hdh' : d * h < 64) (hh : h < 32)
    (hx : ∀ s ∈ items, r.containsHO (pos s)) :
    ∃ m src nb fuel0, (∀ fuel ≥ fuel0, balancedLists fuel pos r items h = .ok (m, src, nb)) ∧ destroyLeaves m src = .error .ub := by
  obtain ⟨nb, -, h2⟩ := balancedLists_ok' hd pos (Or.inl hr) hdh' hh items (Or.inr hx)
  refine ⟨_, _, nb, _, h2, ?_⟩
  cases hD : destroyLeaves (bfull r h) (specSrc' pos r items h) with
  | ok live =>
    exfalso
    obtain ⟨-, hinj⟩ := destroy_keeps _ _ _ hD (by rw [List.nodup_reverse]; exact List.nodup_range)
    have key : ∀ k < (2 ^ d) ^ h, ∃ f < 2 ^ 32, (specSrc' pos r items h).ptr k = some f := fun k hk =>
      ⟨_, by unfold flatPath; rw [getFlatIndex_eq]; exact Nat.mod_lt _ (by norm_num), specSrc'_ptr k hk⟩
    choose! F hF1 hF2 using key
    obtain ⟨a, ha, b, hb, hne, he⟩ := Finset.exists_ne_map_eq_of_card_lt_of_maps_to
      (s := Finset.range ((2 ^ d) ^ h)) (t := Finset.range (2 ^ 32)) (f := F)
      (by rw [Finset.card_range, Finset.card_range, ← pow_mul]; exact Nat.pow_lt_pow_right (by norm_num) hdh)
      (fun k hk => Finset.mem_range.mpr (hF1 k (Finset.mem_range.mp hk)))
    have ha := Finset.mem_range.mp ha
    have hb := Finset.mem_range.mp hb
    exact hne (hinj a (by rw [List.mem_reverse]; exact List.mem_range.mpr ha) b
      (by rw [List.mem_reverse]; exact List.mem_range.mpr hb) (by rw [hF2 a ha, hF2 b hb, he]))
  | error e =>
    rw [destroy_err _ _ hD]

/-- A tree with more than one node is freed completely. -/
example : ∃ st h, (∃ fuel, adaptiveBuild (d := 2) fuel (fun x : Vec 2 => x) ⟨0, 2⟩ [![1/2, 1/2], ![-1/2, -1/2]] 1 = .ok (st, h)) ∧
    (∃ n, st.heap [3] = some n) ∧ destroyNode (h + 1) st.heap [] = .ok fun _ => none := by
  obtain ⟨st, _, h, _, fuel, hb⟩ := C12_terminates (d := 2) (fun x : Vec 2 => x) ⟨0, 2⟩ [![1/2, 1/2], ![-1/2, -1/2]] 1
    (by norm_num)
    (by
      intro s hs
      rw [Box.contains_iff]
      simp only [List.mem_cons, List.not_mem_nil, or_false] at hs
      intro i
      rcases hs with rfl | rfl <;> fin_cases i <;> norm_num)
    (by
      intro x
      by_cases h1 : (![1/2, 1/2] : Vec 2) = x
      · have : (![-1/2, -1/2] : Vec 2) ≠ x := by
          rw [← h1]; intro e; have := congrFun e 0; norm_num at this
        rw [List.filter_cons, if_pos (decide_eq_true h1), List.filter_cons, if_neg (by rw [decide_eq_true_iff]; exact this)]
        simp
      · rw [List.filter_cons, if_neg (by rw [decide_eq_true_iff]; exact h1)]
        exact List.length_filter_le _ _)
  have hb := (hb fuel le_rfl).1
  refine ⟨st, h, ⟨fuel, hb⟩, ?_, C72_adaptive hb _ (Nat.lt_succ_self h)⟩
  obtain ⟨e, -, -⟩ := adaptiveBuild_ok hb
  rw [e]
  unfold treeHeap
  rw [if_pos]
  · exact ⟨_, rfl⟩
  · refine PTree.mem_nil.cons ?_ (by simp [fmmTree])
    simp [fmmTree, itemsAt_nil]

/-- A balanced tree in the plane of height 17. -/
example : ∃ m src nb fuel0, (∀ fuel ≥ fuel0, balancedLists (d := 2) fuel (fun x : Vec 2 => x) ⟨0, 2⟩ [![1/2, 1/2]] 17 = .ok (m, src, nb)) ∧
    destroyLeaves m src = .error .ub :=
  C72_balanced_wraps le_rfl (by norm_num) (by norm_num) (by norm_num) (by norm_num) (by
    intro s hs j
    simp only [List.mem_cons, List.not_mem_nil, or_false] at hs
    subst hs
    rw [Box.lower_apply, Box.upper_apply]
    fin_cases j <;> norm_num)

end FMM
