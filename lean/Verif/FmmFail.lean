import Verif.FmmRelTrees
import Verif.FmmRelBalanced
import Verif.FmmMain

/-!
# Constructors in which a translation fails

If the translation of local expansions fails for all pairs of a node and its parent, then the constructor of a tree with more
than one leaf fails, whatever the schedule: every iteration of the downward pass starts with such a translation.
-/

namespace FMM.Rel
variable {d : ℕ} {K : Kit d} {A : Type}

/-- If all iterations of the first loop fail, then so does the sequence of loops. -/
theorem runLoops_fail {body : A → Exps K A → Outcome (Exps K A)} {l : List A} {ls : List (List A)} {s : Exps K A} {er : Err}
    (hne : l ≠ []) (hb : ∀ a ∈ l, body a s = .error er) {sch : ℕ → List A → List A} (hs : Schedule sch) (k : ℕ) :
    runLoops body sch k (l :: ls) s = .error er := by
  have hp := hs k l
  rw [runLoops]
  cases h : sch k l with
  | nil => rw [h] at hp; exact absurd hp.nil_eq.symm hne
  | cons a as =>
    have ha : a ∈ l := hp.subset (by rw [h]; simp)
    unfold forEach
    rw [List.foldlM_cons, hb a ha]
    rfl

section
variable [DecidableEq A] {p H : ℕ} {T : PTree} {r : Box d} {cen : Path → Vec d} {src : Path → List (Source d)}
  {sh : Shape d A} {addr : Path → A} {leafP : List (List Path)} {up dn : ℕ → List Path} {er : Err}

/-- A translation of the local expansion of a parent fails. -/
def BadL2L (L : LeafLaws K p T cen src) (er : Err) : Prop :=
  ∀ t i τ e, L.cov t → T.Mem (i :: τ) → L.LX τ 0 e → K.size e ≠ 0 ∧ K.leLe t (cen (i :: τ)) e = .error er

/-- Putting together the multipole expansion of an inner node fails. -/
def BadM2M (L : LeafLaws K p T cen src) (er : Err) : Prop :=
  ∀ t π (f : ℕ → K.E), L.cov t → T.Mem π → T.leaf π = false → (∀ i < 2 ^ d, L.ME (i :: π) (f i)) →
    K.meMes t (cen π) ((List.range (2 ^ d)).map f) = .error er

theorem down_fail (L : LeafLaws K p T cen src) (hT : TreeR T r cen src sh addr H) (hl : LoopsOK T H leafP up dn)
    (hdeep : ∃ π, T.Mem π ∧ π.length = H) (hH : 1 ≤ H) (hbad : BadL2L L er) {s : Exps K A} (hs : Ready L addr s)
    {sch : ℕ → List A → List A} (hsch : Schedule sch) (k : ℕ) :
    runLoops (constructLE K sh p) sch k (downLoops addr H dn) s = .error er := by
  have h1 : 1 ≤ firstLevel H := by unfold firstLevel; omega
  have h2 : firstLevel H ≤ H := by unfold firstLevel; omega
  obtain ⟨n, hn⟩ : ∃ n, H + 1 - firstLevel H = n + 1 := ⟨H - firstLevel H, by omega⟩
  have hm := hl.dn_mem (firstLevel H) h1 h2
  unfold downLoops
  rw [hn, List.range_succ_eq_map, List.map_cons, Nat.add_zero]
  refine runLoops_fail ?_ ?_ hsch k
  · obtain ⟨π, hπ, hlen⟩ := hdeep
    have hσ : T.Mem (π.drop (H - firstLevel H)) := hπ.suffix (List.drop_suffix _ _)
    have : π.drop (H - firstLevel H) ∈ dn (firstLevel H) := (hm _).mpr ⟨hσ, by rw [List.length_drop]; omega⟩
    intro h
    rw [List.map_eq_nil_iff] at h
    rw [h] at this
    simp at this
  · intro a ha
    obtain ⟨π, hπ, rfl⟩ := List.mem_map.mp ha
    obtain ⟨h3, h4⟩ := (hm π).mp hπ
    cases π with
    | nil => simp at h4; omega
    | cons i τ =>
      obtain ⟨n, n1, n2, n3, -⟩ := hT.node _ h3
      obtain ⟨eτ, e1, e2⟩ := hs.zero τ (h3.suffix (List.suffix_cons _ _))
      obtain ⟨b1, b2⟩ := hbad s.t i τ eτ hs.cov h3 e2
      have : localToLocal K sh (addr (i :: τ)) s = .error er := by
        unfold localToLocal
        rw [n1, ok_bind, n3]
        simp only [List.tail?, Option.map_some, Exps.rdLe]
        rw [e1]
        simp only [ok_bind]
        rw [if_neg b1, n2, b2]
        rfl
      unfold constructLE
      rw [this]
      rfl

/-- The upward pass succeeds, the downward pass fails. -/
theorem passes_fail_down (L : UpLaws K p T cen src) (hT : TreeR T r cen src sh addr H) (hl : LoopsOK T H leafP up dn)
    (hdeep : ∃ π, T.Mem π ∧ π.length = H) (hH : 1 ≤ H) (hbad : BadL2L L.toLeafLaws er) {s : Exps K A}
    (hs : Ready L.toLeafLaws addr s) {sch : ℕ → List A → List A} (hsch : Schedule sch) :
    passes K sh p (constructLE K sh p) sch (leafLoops addr leafP) (upLoops addr H up) (downLoops addr H dn) s = .error er := by
  obtain ⟨-, s1, a2, a3, a4, a5⟩ := leaf_pass L.toLeafLaws hT hl hs.cov
  obtain ⟨-, s2, b2, b3, b4, -⟩ := up_pass L hT hl (s := s1) (by rw [a3]; exact hs.cov) a5
  unfold passes
  rw [a2 sch hsch, ok_bind, b2 sch hsch, ok_bind]
  refine down_fail L.toLeafLaws hT hl hdeep hH hbad ⟨by rw [b3, a3]; exact hs.cov, fun π hπ => ?_⟩ hsch _
  unfold LEzero
  rw [b4, a4]
  exact hs.zero π hπ

/-- The first translation fails, in whichever pass it occurs. -/
theorem passes_fail (L : LeafLaws K p T cen src) (hT : TreeR T r cen src sh addr H) (hl : LoopsOK T H leafP up dn)
    (hdeep : ∃ π, T.Mem π ∧ π.length = H) (hH : 1 ≤ H) (hbad : BadL2L L er) (hbad' : BadM2M L er) {s : Exps K A}
    (hs : Ready L addr s) {sch : ℕ → List A → List A} (hsch : Schedule sch) :
    passes K sh p (constructLE K sh p) sch (leafLoops addr leafP) (upLoops addr H up) (downLoops addr H dn) s = .error er := by
  obtain ⟨-, s1, a2, a3, a4, a5⟩ := leaf_pass L hT hl hs.cov
  have hs1 : Ready L addr s1 := ⟨by rw [a3]; exact hs.cov, fun π hπ => by
    unfold LEzero; rw [a4]; exact hs.zero π hπ⟩
  unfold passes
  rw [a2 sch hsch, ok_bind]
  by_cases h3 : H ≤ 2
  · have : upLoops addr H up = [] := by
      unfold upLoops
      rw [show H - 2 = 0 by omega]; rfl
    rw [this]
    simp only [runLoops, ok_bind]
    exact down_fail L hT hl hdeep hH hbad hs1 hsch _
  · obtain ⟨n, hn⟩ : ∃ n, H - 2 = n + 1 := ⟨H - 3, by omega⟩
    have hm := hl.up_mem (H - 1) (by omega) (by omega)
    have : runLoops (nodeME K sh) sch (leafLoops addr leafP).length (upLoops addr H up) s1 = .error er := by
      unfold upLoops
      rw [hn, List.range_succ_eq_map, List.map_cons, Nat.sub_zero]
      refine runLoops_fail ?_ ?_ hsch _
      · obtain ⟨π, hπ, hlen⟩ := hdeep
        cases π with
        | nil => simp at hlen; omega
        | cons i τ =>
          simp only [List.length_cons] at hlen
          have : τ ∈ up (H - 1) := (hm τ).mpr ⟨hπ.suffix (List.suffix_cons _ _), by omega, PTree.Mem.parent_not_leaf hπ⟩
          intro h
          rw [List.map_eq_nil_iff] at h
          rw [h] at this
          simp at this
      · intro a ha
        obtain ⟨π, hπ, rfl⟩ := List.mem_map.mp ha
        obtain ⟨c1, c2, c3⟩ := (hm π).mp hπ
        have hk : ∀ i < 2 ^ d, MEok L addr s1 (i :: π) := by
          intro i hi
          have hmem : T.Mem (i :: π) := c1.cons c3 (by rw [hT.hc]; exact hi)
          refine a5 _ hmem ?_
          by_contra hlf
          have := hT.hH _ (hmem.cons (by simpa using hlf) (i := 0) (by rw [hT.hc]; positivity))
          simp only [List.length_cons] at this
          omega
        have : Nonempty K.E := ⟨K.empty⟩
        choose! f hf using hk
        obtain ⟨n, h1, h2, -, h3, -⟩ := hT.node π c1
        have h4 := hbad' s1.t π f hs1.cov c1 c3 fun i hi => (hf i hi).2
        unfold nodeME
        rw [h1, ok_bind, h3 c3]
        have : ((List.range (2 ^ d)).map fun i => some (addr (i :: π))).mapM (childME s1)
            = .ok ((List.range (2 ^ d)).map f) := by
          rw [List.mapM_map]
          refine mapM_ok _ f _ ?_
          intro i hi
          have hi := List.mem_range.mp hi
          simp only [Function.comp, childME, Exps.rdMe]
          rw [(hf i hi).1]
        rw [this, ok_bind, h2, h4]
        rfl
    rw [this]
    rfl

end

/-! ## The constructors -/

section
variable {p : ℕ} {er : Err}

/-- The structure of an exact tree. -/
theorem treeR_of {T : PTree} {r : Box d} {items : List (Source d)} {sh : Shape d A} {addr : Path → A} {H : ℕ}
    (h : TreeOK T r items sh addr H) : TreeR T r (fun π => (boxAt r π).center) (itemsAt Source.pos r items) sh addr H :=
  ⟨h.hc, h.hA, h.hr, h.hH, h.inj, h.node⟩

/-- What fails: either the upward pass can be carried out and the translations of the downward pass fail, or all translations
fail in the same way. -/
def Fails (K : Kit d) (p : ℕ) (T : PTree) (cen : Path → Vec d) (src : Path → List (Source d)) (t : K.T) (er : Err) : Prop :=
  (∃ L : UpLaws K p T cen src, L.good t ∧ BadL2L L.toLeafLaws er) ∨ ∃ L : LeafLaws K p T cen src, L.good t ∧ BadL2L L er ∧ BadM2M L er

theorem Fails.passes [DecidableEq A] {H : ℕ} {T : PTree} {r : Box d} {cen : Path → Vec d} {src : Path → List (Source d)}
    {sh : Shape d A} {addr : Path → A} {leafP : List (List Path)} {up dn : ℕ → List Path} {t : K.T}
    (h : Fails K p T cen src t er) (hT : TreeR T r cen src sh addr H) (hl : LoopsOK T H leafP up dn)
    (hdeep : ∃ π, T.Mem π ∧ π.length = H) (hH : 1 ≤ H) (l : List Path) (hm : ∀ π ∈ l, T.Mem π) (hall : ∀ π, T.Mem π → π ∈ l) :
    ∃ s0, forEach (initNode K sh p) (l.map addr) ⟨t, fun _ => none, fun _ => none⟩ = .ok s0 ∧ ∀ sch, Schedule sch →
      FMM.passes K sh p (constructLE K sh p) sch (leafLoops addr leafP) (upLoops addr H up) (downLoops addr H dn) s0 = .error er := by
  rcases h with ⟨L, h1, h2⟩ | ⟨L, h1, h2, h3⟩
  · obtain ⟨s0, a1, a2⟩ := initAll_ok L.toLeafLaws hT l hm hall ⟨t, fun _ => none, fun _ => none⟩ h1
    exact ⟨s0, a1, fun sch hs => passes_fail_down L hT hl hdeep hH h2 a2 hs⟩
  · obtain ⟨s0, a1, a2⟩ := initAll_ok L hT l hm hall ⟨t, fun _ => none, fun _ => none⟩ h1
    exact ⟨s0, a1, fun sch hs => passes_fail L hT hl hdeep hH h2 h3 a2 hs⟩

end
end FMM.Rel

namespace FMM
open Rel
variable {p : ℕ} {er : Err}

theorem adaptive_fails {d : ℕ} {K : Kit (d + 1)} {t : K.T} {S : List (Source (d + 1))} {max : ℕ} {eps : ℝ} {r : Box (d + 1)}
    (hI : AdaptiveInput S max r) (hN : max < S.length) (hord : expansionOrder (totalStrength S) eps = .ok p)
    (hF : Fails K p (fmmTree Source.pos r S max) (fun π => (boxAt r π).center) (itemsAt Source.pos r S) t er) :
    ∃ fuel0, ∀ fuel ≥ fuel0, ∀ sch, Schedule sch → adaptiveFmm K fuel sch t S max eps = .error er := by
  have hr := hI.len_pos hN
  obtain ⟨hh, hterm⟩ := terminates (pos := Source.pos) hr.le hI.inside hI.mult
  have hb : adaptiveBuild hh Source.pos r S max = .ok (specBuild Source.pos r S max hh
      ((List.range hh).map (nodeLevel Source.pos r S max)), hh) := by
    unfold adaptiveBuild
    rw [if_neg (by omega)]
    exact buildTree_ok Source.pos r S max hh hterm hh le_rfl
  set st := specBuild Source.pos r S max hh ((List.range hh).map (nodeLevel Source.pos r S max)) with hst
  have hlists := adaptiveLists_ok (Or.inl hr) hb
  set nb := (fmmTree Source.pos r S max).nbhAfter ((fmmTree Source.pos r S max).order (hh + 1)) with hnb
  refine ⟨hh + 1 + ((fmmTree Source.pos r S max).order (hh + 1)).length, fun fuel hf sch hsch => ?_⟩
  have hl1 : adaptiveLists fuel Source.pos r S max = .ok (st, hh, nb) := hlists fuel (by omega) (by omega)
  have hT := treeR_of (adaptive_treeOK hr hI.inside hl1)
  have hdeep : ∃ π, (fmmTree Source.pos r S max).Mem π ∧ π.length = hh := by
    have hpos : 0 < hh := hterm.1
    have : ∃ π, (fmmTree Source.pos r S max).Mem π ∧ π.length = hh - 1 ∧ (fmmTree Source.pos r S max).leaf π = false := by
      rcases Nat.eq_or_lt_of_le hpos with h1 | h1
      · refine ⟨[], PTree.mem_nil, by simp; omega, ?_⟩
        simp only [fmmTree, itemsAt_nil, decide_eq_false_iff_not]; omega
      · obtain ⟨π, hπ⟩ := List.exists_mem_of_ne_nil _ (hterm.2.2 (hh - 1) (by omega) (by omega))
        rw [mem_nodeLevel, fmmTree_eq hN] at hπ
        exact ⟨π, hπ⟩
    obtain ⟨π, h1, h2, h3⟩ := this
    exact ⟨0 :: π, h1.cons h3 (by show 0 < 2 ^ (d + 1); positivity), by simp; omega⟩
  have hall := all_nodes hr hl1
  obtain ⟨hn, hl'⟩ := adaptive_levels hN hr hl1
  obtain ⟨s0, a1, a2⟩ := hF.passes hT (adaptive_loopsOK hN hr hl1) hdeep (adaptive_height_pos hN hl1 hr)
    (st.nodes.flatten ++ st.leaves.flatten) (fun π hπ => (hall π).mp hπ) (fun π hπ => (hall π).mpr hπ)
  rw [List.map_id] at a1
  have eL : leafLoops id st.leaves = st.leaves := by unfold leafLoops; simp
  have := a2 sch hsch
  rw [eL] at this
  unfold adaptiveFmm adaptiveInit
  rw [hord, ok_bind, hI.box]
  simp only
  rw [hl1, ok_bind]
  simp only
  rw [a1, ok_bind, ok_bind]
  simp only
  rw [if_neg (by omega), if_neg (by rw [hn, hl']; simp), adaptive_up hN hr hl1, ok_bind, adaptive_down hN hr hl1, ok_bind]
  unfold AdaptiveFmm.shape
  simp only
  rw [this]
  rfl

theorem balanced_fails {d : ℕ} {K : Kit d} {t : K.T} (hd : 2 ≤ d) {S : List (Source d)} {perCell : ℕ} {eps : ℝ} {r : Box d} {h : ℕ}
    (hI : BalancedInput S perCell r h) (hh : 1 ≤ h) (hr : 0 < r.len) (hord : expansionOrder (totalStrength S) eps = .ok p)
    (hF : Fails K p (fullTree r h) (fun π => (boxAt r π).center) (itemsAt Source.pos r S) t er) :
    ∃ fuel0, ∀ fuel ≥ fuel0, ∀ sch, Schedule sch → balancedFmm K fuel sch t S perCell eps = .error er := by
  have hin' : ∀ s ∈ S, r.contains s.pos := fun s hs => containsHO_contains (hI.inside s hs)
  obtain ⟨nb, hnb, hlists⟩ := balancedLists_ok hd Source.pos (Or.inl hr) hI.small S (Or.inr hI.inside)
  have hT := treeR_of (balanced_treeOK hr hI.small hin' hnb)
  have hl := balanced_loopsOK (r := r) (h := h)
  have hm := fullTree_mem r h
  refine ⟨off (2 ^ d) (h + 1), fun fuel hf sch hsch => ?_⟩
  set sh := balancedShape (bfull r h) (specSrc' Source.pos r S h) nb with hsh
  obtain ⟨s0, a1, a2⟩ := hF.passes hT hl (by
      refine ⟨List.replicate h 0, (hm _).mpr ⟨?_, by simp⟩, by simp⟩
      intro i hi
      rw [List.eq_of_mem_replicate hi]; positivity) hh ((List.range (off (2 ^ d) h)).map (gpath (2 ^ d)) ++ leafPaths d h) (by
      intro π hπ
      rw [hm]
      rcases List.mem_append.mp hπ with hπ | hπ
      · obtain ⟨i, hi, rfl⟩ := List.mem_map.mp hπ
        exact ⟨gpath_valid _ (by positivity) _,
          ((gpath_length_lt _ (by positivity) i h).mpr (List.mem_range.mp hi)).le⟩
      · obtain ⟨k1, k2⟩ := (mem_levelPaths h π).mp hπ
        exact ⟨k1, k2.le⟩) (by
      intro π hπ
      obtain ⟨k1, k2⟩ := (hm π).mp hπ
      rcases Nat.lt_or_ge π.length h with hlt | hge
      · refine List.mem_append_left _ (List.mem_map.mpr ⟨gidx (2 ^ d) π, ?_, gpath_gidx _ _ k1⟩)
        rw [List.mem_range, ← gpath_length_lt _ (by positivity), gpath_gidx _ _ k1]
        exact hlt
      · exact List.mem_append_right _ ((mem_levelPaths h π).mpr ⟨k1, by omega⟩))
  have eL : leafLoops (baddr d h) [leafPaths d h] = [balancedLeafLoop (bfull r h).nLeaves] := by
    show [_] = [balancedLeafLoop ((2 ^ d) ^ h)]
    rw [balancedLeafLoop_eq]
  have eU := balancedUp_eq (h := h) hd
  have eD : balancedDown d h (bfull r h).nLeaves = downLoops (baddr d h) h (leafPaths d) := balancedDown_eq hd hh
  have eB : constructLE K sh p = balancedLE K sh := balancedLE_eq _ _ _ p
  have := a2 sch hsch
  rw [eL, ← eU, ← eD, eB] at this
  unfold balancedFmm balancedInit
  rw [hord, ok_bind, hI.height, ok_bind, hI.box]
  simp only
  rw [hlists fuel hf, ok_bind]
  simp only
  rw [balancedInit_list, a1, ok_bind, ok_bind]
  simp only
  rw [if_neg (by omega)]
  unfold BalancedFmm.shape
  simp only
  rw [this]
  rfl

end FMM
