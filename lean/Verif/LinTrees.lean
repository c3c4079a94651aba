import Verif.LinLaws

/-!
# The values computed by a tree are linear in the charges
-/

namespace FMM
variable {d : ℕ}

/-! ## Trees depend on the positions, not on the charges or the order of the sources -/

namespace Lin

theorem itemsAt_length {S S0 : List (Source d)} (h : (S.map Source.pos).Perm (S0.map Source.pos)) (r : Box d) (π : Path) :
    (itemsAt Source.pos r S π).length = (itemsAt Source.pos r S0 π).length := by
  have e : ∀ S : List (Source d), (itemsAt Source.pos r S π).length = ((S.map Source.pos).filter fun x => decide (route r x π.length = π)).length := by
    intro S
    unfold itemsAt
    rw [List.filter_map, List.length_map]
    rfl
  rw [e, e]
  exact (h.filter _).length_eq

theorem fmmTree_congr {S S0 : List (Source d)} (h : (S.map Source.pos).Perm (S0.map Source.pos)) (r : Box d) (max : ℕ) :
    fmmTree Source.pos r S max = fmmTree Source.pos r S0 max := by
  unfold fmmTree
  congr 1
  funext π
  rw [itemsAt_length h]

theorem adaptiveTree_congr {S S0 : List (Source d)} (h : (S.map Source.pos).Perm (S0.map Source.pos)) (r : Box d) (max : ℕ) :
    adaptiveTree Source.pos r S max = adaptiveTree Source.pos r S0 max := by
  unfold adaptiveTree
  congr 1
  funext π
  rw [itemsAt_length h]

theorem nodeLevel_congr {S S0 : List (Source d)} (h : (S.map Source.pos).Perm (S0.map Source.pos)) (r : Box d) (max : ℕ) :
    ∀ k, nodeLevel Source.pos r S max k = nodeLevel Source.pos r S0 max k
  | 0 => rfl
  | k + 1 => by simp only [nodeLevel]; rw [nodeLevel_congr h r max k, adaptiveTree_congr h]

theorem isHeight_congr {S S0 : List (Source d)} (h : (S.map Source.pos).Perm (S0.map Source.pos)) {r : Box d} {max n : ℕ}
    (hh : IsHeight Source.pos r S0 max n) : IsHeight Source.pos r S max n :=
  ⟨hh.1, by rw [nodeLevel_congr h]; exact hh.2.1, fun j h1 h2 => by rw [nodeLevel_congr h]; exact hh.2.2 j h1 h2⟩

theorem inside_congr {S S0 : List (Source d)} (h : (S.map Source.pos).Perm (S0.map Source.pos)) {P : Vec d → Prop}
    (h0 : ∀ s ∈ S0, P s.pos) : ∀ s ∈ S, P s.pos := by
  intro s hs
  obtain ⟨s0, h1, h2⟩ := List.mem_map.mp (h.mem_iff.mp (List.mem_map.mpr ⟨s, hs, rfl⟩))
  rw [← h2]
  exact h0 s0 h1

theorem length_congr {S S0 : List (Source d)} (h : (S.map Source.pos).Perm (S0.map Source.pos)) : S.length = S0.length := by
  have := h.length_eq
  rwa [List.length_map, List.length_map] at this

theorem lowerStep_some (a x : ℝ) : lowerStep (some a) x = some (min x a) := by
  unfold lowerStep
  rw [min_def]
  rcases lt_trichotomy x a with h | h | h
  · simp [h, h.le]
  · simp [h]
  · simp [h.not_gt, h.not_ge]

theorem upperStep_some (a x : ℝ) : upperStep (some a) x = some (max x a) := by
  unfold upperStep
  rw [max_def]
  rcases lt_trichotomy x a with h | h | h
  · simp [h, h.le, h.not_gt]
  · simp [h]
  · simp [h, h.not_ge]

theorem rawLower_perm {ps qs : List (Vec d)} (h : ps.Perm qs) (i : Fin d) : rawLower ps i = rawLower qs i := by
  unfold rawLower
  refine h.foldl_eq' (fun x _ y _ z => ?_) none
  cases z with
  | none =>
    show lowerStep (some _) _ = lowerStep (some _) _
    rw [lowerStep_some, lowerStep_some, min_comm]
  | some a => rw [lowerStep_some, lowerStep_some, lowerStep_some, lowerStep_some, min_left_comm]

theorem rawUpper_perm {ps qs : List (Vec d)} (h : ps.Perm qs) (i : Fin d) : rawUpper ps i = rawUpper qs i := by
  unfold rawUpper
  refine h.foldl_eq' (fun x _ y _ z => ?_) none
  cases z with
  | none =>
    show upperStep (some _) _ = upperStep (some _) _
    rw [upperStep_some, upperStep_some, max_comm]
  | some a => rw [upperStep_some, upperStep_some, upperStep_some, upperStep_some, max_left_comm]

theorem rootBox_perm {ps qs : List (Vec d)} (h : ps.Perm qs) : rootBox ps = rootBox qs := by
  unfold rootBox getDataRange
  by_cases h0 : ps = []
  · subst h0
    rw [List.nil_perm.mp h]
  · have h1 : qs ≠ [] := by rintro rfl; exact h0 (List.perm_nil.mp h)
    rw [if_neg h0, if_neg h1]
    have e1 : (fun i => (rawLower ps i).getD 0) = fun i => (rawLower qs i).getD 0 := funext fun i => by rw [rawLower_perm h]
    have e2 : (fun i => (rawUpper ps i).getD 0) = fun i => (rawUpper qs i).getD 0 := funext fun i => by rw [rawUpper_perm h]
    rw [e1, e2]

end Lin

section
variable {V : Type} [AddCommGroup V] [Module ℝ V] {p : ℕ}

/-- Superposition: the value computed at `x` is `∑ q_s h(x, y_s)`. -/
noncomputable def superpose (h : Vec d → Vec d → V) (S : List (Source d)) (x : Vec d) : V := (S.map fun s => s.q • h x s.pos).sum

theorem superpose_perm (h : Vec d → Vec d → V) {S S' : List (Source d)} (hp : S.Perm S') (x : Vec d) : superpose h S x = superpose h S' x :=
  (hp.map _).sum_eq

theorem superpose_scale (h : Vec d → Vec d → V) (S : List (Source d)) (c : ℝ) (x : Vec d) :
    superpose h (S.map fun s => ⟨s.pos, c * s.q⟩) x = c • superpose h S x := by
  unfold superpose
  rw [List.map_map, ← Lin.sum_smul]
  refine congrArg List.sum (List.map_congr_left fun s _ => ?_)
  simp [mul_smul]

/-- The adaptive trees with sources at the positions of `S0` are constructed, have height `H`, and compute `∑ q_s h(x, y_s)`. -/
def AdaptiveSuperposed {K : Kit d} (O : Obs K V) (t : K.T) (S0 : List (Source d)) (max : ℕ) (r : Box d) (p H : ℕ) (P : ℕ → Vec d → Prop)
    (h : Vec d → Vec d → V) : Prop :=
  ∀ (S : List (Source d)) (eps : ℝ), (S.map Source.pos).Perm (S0.map Source.pos) →
    expansionOrder (totalStrength S) eps = .ok p →
    ∃ (fuel0 : ℕ) (T : AdaptiveFmm K), (∀ fuel ≥ fuel0, ∀ sch, Schedule sch → adaptiveFmm K fuel sch t S max eps = .ok T) ∧
      T.height = H ∧ ∀ x, r.contains x → P T.height x → ∀ grav cur, ∀ fuel ≥ fuel0,
        adaptiveEval O fuel grav T cur x = .ok (if grav then superpose h S x else -superpose h S x)

/-- The same for balanced trees. -/
def BalancedSuperposed {K : Kit d} (O : Obs K V) (t : K.T) (S0 : List (Source d)) (perCell : ℕ) (r : Box d) (p : ℕ) (P : Vec d → Prop)
    (h : Vec d → Vec d → V) : Prop :=
  ∀ (S : List (Source d)) (eps : ℝ), (S.map Source.pos).Perm (S0.map Source.pos) →
    expansionOrder (totalStrength S) eps = .ok p →
    ∃ (fuel0 : ℕ) (T : BalancedFmm K), (∀ fuel ≥ fuel0, ∀ sch, Schedule sch → balancedFmm K fuel sch t S perCell eps = .ok T) ∧
      ∀ x, r.containsHO x → P x → ∀ grav, balancedEval O grav T x = .ok (if grav then superpose h S x else -superpose h S x)

/-- Superposition for the adaptive tree.  The values depend linearly on the charges: whatever the charges at the positions of `S0`, and in
whatever order the sources are given, if the tolerance leads to the expansion order `p` the tree is constructed, and the value computed at a point `x` of
the root box is `∑ q_s h(x, y_s)`, with a function `h` that does not depend on the charges, the tolerance and the order of the sources.  `P H x`
restricts the points; `H` is the height of the tree. -/
def AdaptiveSuperposition {K : Kit d} (O : Obs K V) (t : K.T) (S0 : List (Source d)) (max : ℕ) (r : Box d) (p : ℕ) (P : ℕ → Vec d → Prop) : Prop :=
  ∃ (H : ℕ) (h : Vec d → Vec d → V), AdaptiveSuperposed O t S0 max r p H P h

/-- Superposition for the balanced tree. -/
def BalancedSuperposition {K : Kit d} (O : Obs K V) (t : K.T) (S0 : List (Source d)) (perCell : ℕ) (r : Box d) (p : ℕ) (P : Vec d → Prop) : Prop :=
  ∃ h : Vec d → Vec d → V, BalancedSuperposed O t S0 perCell r p P h

theorem superpose_p2p {K : Kit d} {O : Obs K V} {L : FmmLaws K O p} (Q : LinLaws L) (S : List (Source d)) (x : Vec d) :
    superpose (fun x y => Q.p2p ⟨y, 1⟩ x) S x = L.direct S x := by
  rw [Q.direct]
  exact congrArg List.sum (List.map_congr_left fun s _ => (Q.p2p_smul s x).symm)

namespace Lin

/-- What a source of charge 1 at `y` contributes to the value computed at `x`, if `x` is in the leaf of depth `k x`. -/
noncomputable def kern {K : Kit d} {O : Obs K V} {L : FmmLaws K O p} (Q : LinLaws L) (T : PTree) (r : Box d) (n : ℕ) (k : Vec d → ℕ)
    (x y : Vec d) : V :=
  term Q T r ((T.nbhAfter (T.order n)).near (route r x (k x))) ((T.nbhAfter (T.order n)).W (route r x (k x))) (route r x (k x)) ⟨y, 1⟩ x

end Lin

open Lin in
/-- The adaptive tree with more than `max` sources: the contribution of a source of charge 1 at `y` to the value computed at `x` depends only on the
positions of the sources. -/
theorem adaptive_superposed {K : Kit (d + 1)} {O : Obs K V} {L : FmmLaws K O p} (Q : LinLaws L) {t : K.T} (ht : L.good t)
    {S0 : List (Source (d + 1))} {max : ℕ} {r : Box (d + 1)} (hI : AdaptiveInput S0 max r) (hN : max < S0.length) {hh : ℕ}
    (hterm0 : IsHeight Source.pos r S0 max hh) {k : Vec (d + 1) → ℕ} (hk0 : ∀ x, k x ≤ hh) (hk1 : ∀ x, (fmmTree Source.pos r S0 max).Mem (route r x (k x)))
    (hk2 : ∀ x, (fmmTree Source.pos r S0 max).leaf (route r x (k x)) = true) :
    AdaptiveSuperposed O t S0 max r p hh (fun H x => ∀ π : Path, π.length ≤ H → L.adm (boxAt r π).center x)
      (kern Q (fmmTree Source.pos r S0 max) r (hh + 1) k) := by
  have hr := hI.len_pos hN
  have hlist : ∀ S : List (Source (d + 1)), (S.map Source.pos).Perm (S0.map Source.pos) →
      ∀ fuel ≥ hh + 1 + ((fmmTree Source.pos r S0 max).order (hh + 1)).length, adaptiveLists fuel Source.pos r S max
        = .ok (specBuild Source.pos r S max hh ((List.range hh).map (nodeLevel Source.pos r S max)), hh,
          (fmmTree Source.pos r S0 max).nbhAfter ((fmmTree Source.pos r S0 max).order (hh + 1))) := by
    intro S hS fuel hf
    have hb : adaptiveBuild hh Source.pos r S max = .ok (specBuild Source.pos r S max hh
        ((List.range hh).map (nodeLevel Source.pos r S max)), hh) := by
      unfold adaptiveBuild
      rw [if_neg (by rw [length_congr hS]; omega)]
      exact buildTree_ok Source.pos r S max hh (isHeight_congr hS hterm0) hh le_rfl
    have := adaptiveLists_ok (Or.inl hr) hb fuel (by omega) (by rw [fmmTree_congr hS]; omega)
    rwa [fmmTree_congr hS] at this
  set fuel1 := hh + 1 + ((fmmTree Source.pos r S0 max).order (hh + 1)).length with hfuel1
  set nb := (fmmTree Source.pos r S0 max).nbhAfter ((fmmTree Source.pos r S0 max).order (hh + 1)) with hnb
  intro S eps hS hord
  have hin := inside_congr hS hI.inside
  have hN' : max < S.length := by rw [length_congr hS]; exact hN
  have hb := hlist S hS fuel1 le_rfl
  set st := specBuild Source.pos r S max hh ((List.range hh).map (nodeLevel Source.pos r S max)) with hst
  have hT := adaptive_treeOK hr hin hb
  have hl := adaptive_loopsOK hN' hr hb
  have hall := adaptive_all hN' hr hb
  obtain ⟨-, h1, h2, -⟩ := lists_result (Or.inl hr) hb
  obtain ⟨hn, hl'⟩ := adaptive_levels hN' hr hb
  have hu := adaptive_up hN' hr hb
  have hd := adaptive_down hN' hr hb
  have hpos := adaptive_height_pos hN' hb hr
  rw [fmmTree_congr hS] at hT hl hall h1
  set P := passLaws Q hT.hA hT.hr hT.hitems with hP
  obtain ⟨s0, a1, a2⟩ := Rel.initAll_ok P.toLeafLaws (treeR hT) (st.nodes.flatten ++ st.leaves.flatten) (fun π hπ => (hall π).mp hπ)
    (fun π hπ => (hall π).mpr hπ) ⟨t, fun _ => none, fun _ => none⟩ ht
  rw [List.map_id] at a1
  obtain ⟨-, s1, b2, b3⟩ := Rel.passes_ok P (treeR hT) hl hpos a2
  have eL : leafLoops id st.leaves = st.leaves := by unfold leafLoops; simp
  rw [eL] at b2
  refine ⟨fuel1, ⟨p, hh, st.heap, st.nodes, st.leaves, nb, s1⟩, fun fuel hf sch hsch => ?_, rfl, fun x hx ha' grav cur fuel hf => ?_⟩
  · have hinit : adaptiveInit K fuel t S max eps = .ok ⟨p, hh, st.heap, st.nodes, st.leaves, nb, s0⟩ := by
      unfold adaptiveInit
      rw [hord, ok_bind, rootBox_perm hS, hI.box]
      simp only
      rw [hlist S hS fuel hf, ok_bind]
      simp only
      rw [a1, ok_bind]
    unfold adaptiveFmm
    rw [hinit, ok_bind]
    simp only
    rw [if_neg (by omega), if_neg (by rw [hn, hl']; simp), hu, ok_bind, hd, ok_bind]
    have := b2 sch hsch
    unfold AdaptiveFmm.shape
    rw [this, ok_bind]
  · have ha : ∀ π, (fmmTree Source.pos r S0 max).Mem π → L.adm (boxAt r π).center x := fun π hπ => ha' π (hT.hH π hπ)
    have v1 := evalLeaf_lin Q hT b3 hx (hk1 x) (hk2 x) grav (ha _ (hk1 x)) fun ρ hρ =>
      ha ρ ((PTree.mem_W (fun π hπ => Nat.lt_succ_of_le (hT.hH π hπ)) _ ρ).mp hρ).1
    have e : superpose (kern Q (fmmTree Source.pos r S0 max) r (hh + 1) k) S x = (S.map fun s => term Q (fmmTree Source.pos r S0 max) r (nb.near (route r x (k x)))
          (nb.W (route r x (k x))) (route r x (k x)) s x).sum := by
      unfold superpose kern
      refine congrArg List.sum (List.map_congr_left fun s _ => ?_)
      rw [← term_smul]
    rw [e]
    unfold adaptiveEval
    simp only
    rw [h1, getContainingLeaf_ok _ rfl r _ x (k x) (hk1 x) (hk2 x) fuel (by have := hk0 x; omega), ok_bind, if_pos (route_contains r x hx (k x))]
    simp only [AdaptiveFmm.shape]
    rw [h1] at v1
    exact v1

open Lin in
/-- The balanced tree of positive height. -/
theorem balanced_superposed {K : Kit d} {O : Obs K V} {L : FmmLaws K O p} (Q : LinLaws L) {t : K.T} (ht : L.good t) (hd : 2 ≤ d)
    {S0 : List (Source d)} {perCell : ℕ} {r : Box d} {h : ℕ} (hI : BalancedInput S0 perCell r h) (hh : 1 ≤ h) (hr : 0 < r.len) (hmor : h < 64 / d) :
    BalancedSuperposed O t S0 perCell r p (fun x => L.adm (boxAt r (route r x h)).center x) (kern Q (fullTree r h) r (h + 1) fun _ => h) := by
  intro S eps hS hord
  have hinO := inside_congr hS hI.inside
  have hin : ∀ s ∈ S, r.contains s.pos := fun s hs => containsHO_contains (hinO s hs)
  obtain ⟨nb, hnb, hlists⟩ := balancedLists_ok hd Source.pos (Or.inl hr) hI.small S (Or.inr hinO)
  have hT := balanced_treeOK hr hI.small hin hnb
  have hl := balanced_loopsOK (r := r) (h := h)
  have hm := fullTree_mem r h
  set P := passLaws Q hT.hA hT.hr hT.hitems with hP
  set sh := balancedShape (bfull r h) (specSrc' Source.pos r S h) nb with hsh
  obtain ⟨s0, a1, a2⟩ := Rel.initAll_ok P.toLeafLaws (treeR hT) ((List.range (off (2 ^ d) h)).map (gpath (2 ^ d)) ++ leafPaths d h) (by
      intro π hπ
      rw [hm]
      rcases List.mem_append.mp hπ with hπ | hπ
      · obtain ⟨i, hi, rfl⟩ := List.mem_map.mp hπ
        exact ⟨gpath_valid _ (by positivity) _,
          ((gpath_length_lt _ (by positivity) i h).mpr (List.mem_range.mp hi)).le⟩
      · obtain ⟨k1, k2⟩ := (mem_levelPaths h π).mp hπ
        exact ⟨k1, k2.le⟩) (by
      intro π hπ
      obtain ⟨k1, k2⟩ := (hm π).mp hπ
      rcases Nat.lt_or_ge π.length h with hlt | hge
      · refine List.mem_append_left _ (List.mem_map.mpr ⟨gidx (2 ^ d) π, ?_, gpath_gidx _ _ k1⟩)
        rw [List.mem_range, ← gpath_length_lt _ (by positivity), gpath_gidx _ _ k1]
        exact hlt
      · exact List.mem_append_right _ ((mem_levelPaths h π).mpr ⟨k1, by omega⟩))
    ⟨t, fun _ => none, fun _ => none⟩ ht
  obtain ⟨-, s1, b2, b3⟩ := Rel.passes_ok P (treeR hT) hl hh a2
  have eL : leafLoops (baddr d h) [leafPaths d h] = [balancedLeafLoop (bfull r h).nLeaves] := by
    show [_] = [balancedLeafLoop ((2 ^ d) ^ h)]
    rw [balancedLeafLoop_eq]
  have eU := balancedUp_eq (h := h) hd
  have eD : balancedDown d h (bfull r h).nLeaves = downLoops (baddr d h) h (leafPaths d) := balancedDown_eq hd hh
  have eB : constructLE K sh p = balancedLE K sh := balancedLE_eq _ _ _ p
  rw [eL, ← eU, ← eD, eB] at b2
  refine ⟨off (2 ^ d) (h + 1), ⟨p, h, bfull r h, specSrc' Source.pos r S h, nb, s1⟩, fun fuel hf sch hsch => ?_, fun x hx ha grav => ?_⟩
  · have hinit : balancedInit K fuel t S perCell eps = .ok ⟨p, h, bfull r h, specSrc' Source.pos r S h, nb, s0⟩ := by
      unfold balancedInit
      rw [hord, ok_bind, length_congr hS, hI.height, ok_bind, rootBox_perm hS, hI.box]
      simp only
      rw [hlists fuel hf, ok_bind]
      simp only
      rw [balancedInit_list, a1, ok_bind]
    unfold balancedFmm
    rw [hinit, ok_bind]
    simp only
    rw [if_neg (by omega)]
    unfold BalancedFmm.shape
    rw [b2 sch hsch, ok_bind]
  · have hlen := route_length r x h
    have hv := route_valid r x h
    have v1 := evalLeaf_lin Q hT b3 (containsHO_contains hx) (k := h) ((fullTree_mem r h _).mpr ⟨hv, hlen.le⟩)
      (by simp [fullTree, hlen]) grav ha (by rw [fullTree_W hr]; simp)
    rw [fullTree_W hr] at v1
    have e : superpose (kern Q (fullTree r h) r (h + 1) fun _ => h) S x = (S.map fun s => term Q (fullTree r h) r
          (((fullTree r h).nbhAfter ((fullTree r h).order (h + 1))).near (route r x h)) [] (route r x h) s x).sum := by
      unfold superpose kern
      rw [fullTree_W hr]
      refine congrArg List.sum (List.map_congr_left fun s _ => ?_)
      rw [← term_smul]
    rw [e]
    have hh : h < 32 := by nlinarith [hI.small]
    have hroot : ∃ n, (bfull r h).get (rootAddr h) = .ok n ∧ n.box = r := by
      obtain ⟨n, h1, h2, -⟩ := bfull_get_path r (π := []) (h := h) (fun _ h => by simp at h) (by simp)
      refine ⟨n, ?_, h2⟩
      rw [← h1, baddr, gidx, ← glob_root (d := d)]
    obtain ⟨n, n1, n2⟩ := hroot
    have := lookupLeaf_ok (by omega) hr hh hmor hx
    unfold lookupLeaf at this
    unfold balancedEval
    rw [n1, ok_bind, n2]
    rw [baddr_leaf hlen] at v1
    cases h5 : getLeafBoxIndices r h x with
    | error e => rw [h5, err_bind] at this; simp at this
    | ok idx =>
      rw [h5, ok_bind] at this
      rw [ok_bind, this, ok_bind]
      exact v1

/-- The adaptive tree that is a single leaf. -/
theorem adaptive_superposed_one {K : Kit (d + 1)} {O : Obs K V} {L : FmmLaws K O p} (Q : LinLaws L) {t : K.T} (ht : L.good t)
    {S0 : List (Source (d + 1))} {max : ℕ} {r : Box (d + 1)} (hI : AdaptiveInput S0 max r) (hN : S0.length ≤ max) :
    AdaptiveSuperposed O t S0 max r p 0 (fun H x => ∀ π : Path, π.length ≤ H → L.adm (boxAt r π).center x) fun x y => Q.p2p ⟨y, 1⟩ x := by
  intro S eps hS hord
  obtain ⟨t', e, h1, -, -, h4⟩ := L.leNew t r.center ht
  obtain ⟨T, a1, a2, a3, a4, -⟩ := adaptive_single (O := O) (by rw [Lin.rootBox_perm hS]; exact hI.box)
    (show S.length ≤ max by rw [Lin.length_congr hS]; omega) hord h1 (P := L.adm r.center) (fun x hx => L.le_obs e _ _ x h4 hx)
    (direct := L.direct S) (L.sum_safe S)
  refine ⟨1, T, fun fuel hf sch _ => a1 fuel hf sch, a3, fun x hx hP grav cur fuel hf => ?_⟩
  rw [a4 x hx (hP [] (by simp)) grav cur fuel hf, superpose_p2p]

/-- Height and depth of the leaves. -/
theorem adaptive_depths {S0 : List (Source (d + 1))} {max : ℕ} {r : Box (d + 1)} (hI : AdaptiveInput S0 max r) (hN : max < S0.length) :
    ∃ (hh : ℕ) (k : Vec (d + 1) → ℕ), IsHeight Source.pos r S0 max hh ∧ (∀ x, k x ≤ hh) ∧
      (∀ x, (fmmTree Source.pos r S0 max).Mem (route r x (k x))) ∧ (∀ x, (fmmTree Source.pos r S0 max).leaf (route r x (k x)) = true) ∧
      ∀ π, (fmmTree Source.pos r S0 max).Mem π → π.length ≤ hh := by
  have hr := hI.len_pos hN
  obtain ⟨hh, hterm0⟩ := terminates (pos := Source.pos) hr.le hI.inside hI.mult
  have hb : adaptiveBuild hh Source.pos r S0 max = .ok (specBuild Source.pos r S0 max hh
      ((List.range hh).map (nodeLevel Source.pos r S0 max)), hh) := by
    unfold adaptiveBuild
    rw [if_neg (by omega)]
    exact buildTree_ok Source.pos r S0 max hh hterm0 hh le_rfl
  have hT0 := adaptive_treeOK hr hI.inside (adaptiveLists_ok (Or.inl hr) hb _ (Nat.le_add_right _ _) (Nat.le_add_left _ _))
  choose k hk0 hk1 hk2 using fun x => exists_leaf_route (fmmTree Source.pos r S0 max) rfl r x hh hT0.hH
  exact ⟨hh, k, hterm0, hk0, hk1, hk2, hT0.hH⟩

/-- The adaptive tree. -/
theorem adaptive_linear {K : Kit (d + 1)} {O : Obs K V} {L : FmmLaws K O p} (Q : LinLaws L) {t : K.T} (ht : L.good t)
    {S0 : List (Source (d + 1))} {max : ℕ} {r : Box (d + 1)} (hI : AdaptiveInput S0 max r) :
    AdaptiveSuperposition O t S0 max r p fun H x => ∀ π : Path, π.length ≤ H → L.adm (boxAt r π).center x := by
  by_cases hN : max < S0.length
  · obtain ⟨hh, k, h1, h2, h3, h4, -⟩ := adaptive_depths hI hN
    exact ⟨_, _, adaptive_superposed Q ht hI hN h1 h2 h3 h4⟩
  exact ⟨_, _, adaptive_superposed_one Q ht hI (by omega)⟩

/-- The balanced tree of height 0. -/
theorem balanced_superposed_one {K : Kit d} {O : Obs K V} {L : FmmLaws K O p} (Q : LinLaws L) {t : K.T} (ht : L.good t) (hd : 2 ≤ d) (hd' : d ≤ 64)
    {S0 : List (Source d)} {perCell : ℕ} {r : Box d} (hI : BalancedInput S0 perCell r 0) :
    BalancedSuperposed O t S0 perCell r p (fun x => L.adm (boxAt r (route r x 0)).center x) fun x y => Q.p2p ⟨y, 1⟩ x := by
  intro S eps hS hord
  obtain ⟨t', e, h1, -, -, h4⟩ := L.leNew t r.center ht
  obtain ⟨T, a1, a2, a3, a4⟩ := balanced_single (O := O) hd hd' (by rw [Lin.rootBox_perm hS]; exact hI.box)
    (by rw [Lin.length_congr hS]; exact hI.height) hord h1 (P := L.adm r.center) (fun x hx => L.le_obs e _ _ x h4 hx)
    (direct := L.direct S) (L.sum_safe S)
  refine ⟨1, T, fun fuel hf sch _ => a1 fuel hf sch, fun x hx hP grav => ?_⟩
  rw [a4 x hx hP grav, superpose_p2p]

/-- The balanced tree. -/
theorem balanced_linear {K : Kit d} {O : Obs K V} {L : FmmLaws K O p} (Q : LinLaws L) {t : K.T} (ht : L.good t) (hd : 2 ≤ d) (hd' : d ≤ 64)
    {S0 : List (Source d)} {perCell : ℕ} {r : Box d} {h : ℕ} (hI : BalancedInput S0 perCell r h) (hr : 0 < r.len) (hmor : h < 64 / d) :
    BalancedSuperposition O t S0 perCell r p fun x => L.adm (boxAt r (route r x h)).center x := by
  rcases Nat.eq_zero_or_pos h with rfl | hh
  · exact ⟨_, balanced_superposed_one Q ht hd hd' hI⟩
  · exact ⟨_, balanced_superposed Q ht hd hI hh hr hmor⟩

end
end FMM
