import Verif.Fmm2D
import Verif.FmmMain

/-!
# The exact value computed by a balanced tree of height two in two dimensions

The general theorems bound the error from above.  For a tree of height two the value can be written down: near sources are
summed directly, every other source enters through the expansions of its leaf and of the leaf of the evaluation point.
-/

namespace FMM
open Finset

/-- The laws of `laws2Pot` for a static table that has not been grown beyond order `p`. -/
noncomputable def laws2Fresh (p : ℕ) (hp0 : 0 < p) (hp : p ≤ 1029) : FmmLaws kit2 pot2 p :=
  { laws2Pot p hp0 hp with
    good := fun t => BinomialTable.Good t ∧ BinomialTable.maxOrder t ≤ p
    cov := fun t => BinomialTable.Good t ∧ BinomialTable.maxOrder t = p
    cov_good := fun _ h => ⟨h.1, h.2.le⟩
    leNew := fun t c ht => by
      obtain ⟨t', e, h1, h2, h3, h4, rfl⟩ := Exp2.new_ok t ht.1 c p hp
      exact ⟨t', _, h1, ⟨h2, by rw [h3]; exact max_eq_right ht.2⟩, fun h => h4 h.2.ge, fun _ => 0, ⟨rfl, rfl, rfl, fun _ _ => rfl⟩,
        fun y => by simp [leSum]⟩
    meSrc := fun t c S ht => meSrc_cov hp t c S ⟨ht.1, ht.2.ge⟩
    meMes := fun t c L ht => meMes_cov hp t c L ⟨ht.1, ht.2.ge⟩
    leLe := fun t e c c' φ ht => (laws2Pot p hp0 hp).leLe t e c c' φ ⟨ht.1, ht.2.ge⟩
    leMes := fun t b L ht => (laws2Pot p hp0 hp).leMes t b L ⟨ht.1, ht.2.ge⟩
    leSrc := fun t b S ht => (laws2Pot p hp0 hp).leSrc t b S ⟨ht.1, ht.2.ge⟩ }

/-- Value at `y` of the local expansion about `c'` that is converted from the multipole expansion of `s` about `c`, both of
order `p`, with a binomial table of order `p`. -/
noncomputable def m2lVal (p : ℕ) (c' c : Vec 2) (s : Source 2) (y : Vec 2) : ℝ :=
  (leSum (Exp2.m2lCoeff p p (meCoeff (toC c) [s]) (toC c - toC c')) p (toC y - toC c')).re

theorem m2l_list_val (p : ℕ) (c' c : Vec 2) (S : List (Source 2)) (y : Vec 2) :
    (leSum (Exp2.m2lCoeff p p (meCoeff (toC c) S) (toC c - toC c')) p (toC y - toC c')).re
      = (S.map fun s => m2lVal p c' c s y).sum := by
  induction S with
  | nil =>
    have : meCoeff (toC c) [] = fun _ => 0 := funext fun k => meCoeff_nil _ k
    rw [this]
    simp [leSum, Exp2.m2lCoeff]
  | cons s S ih =>
    have e : Exp2.m2lCoeff p p (meCoeff (toC c) (s :: S)) (toC c - toC c') = fun k =>
        Exp2.m2lCoeff p p (meCoeff (toC c) [s]) (toC c - toC c') k + Exp2.m2lCoeff p p (meCoeff (toC c) S) (toC c - toC c') k := by
      funext k; rw [meCoeff_cons', m2lCoeff_add]
    rw [e, leSum_add, Complex.add_re, ih, List.map_cons, List.sum_cons]
    rfl

section
variable {A : Type} [DecidableEq A] {T : PTree} {r : Box 2} {items : List (Source 2)} {sh : Shape 2 A} {addr : Path → A} {H : ℕ}
  {p : ℕ} {hp0 : 0 < p} {hp : p ≤ 1029}

/-- What the interaction list of a node contributes at `y`. -/
noncomputable def interVal (p : ℕ) (T : PTree) (r : Box 2) (items : List (Source 2)) (π : Path) (y : Vec 2) : ℝ :=
  ((T.inter π).map fun ρ => ((itemsAt Source.pos r items ρ).map fun s =>
    m2lVal p (boxAt r π).center (boxAt r ρ).center s y).sum).sum

theorem multipoleToLocal_exact (hT : TreeOK T r items sh addr H) {t : BinomialTable} (ht : t.Good ∧ t.maxOrder = p) {π : Path}
    (hπ : T.Mem π) {e0 : kit2.E} (h0 : (laws2Fresh p hp0 hp).isLE e0 (boxAt r π).center 0) {s : Exps kit2 A}
    (hm : ∀ ρ ∈ T.inter π, MEok (laws2Fresh p hp0 hp) r items addr s ρ) :
    ∃ e, (laws2Fresh p hp0 hp).isLE e (boxAt r π).center (interVal p T r items π) ∧
      ∀ s' : Exps kit2 A, s'.t = t → (∀ ρ ∈ T.inter π, s'.me (addr ρ) = s.me (addr ρ)) → s'.le (addr π) = some e0 →
        multipoleToLocal kit2 sh (addr π) s' = .ok (s'.setLe (addr π) e) := by
  have hL := hT.hA.laws hT.hr
  obtain ⟨n, h1, h2, -, -, h3, -⟩ := hT.node _ hπ
  have : Nonempty kit2.E := ⟨kit2.empty⟩
  choose! f hf using hm
  have hrd : ∀ s' : Exps kit2 A, (∀ ρ ∈ T.inter π, s'.me (addr ρ) = s.me (addr ρ)) →
      n.inter.mapM s'.rdMe = .ok ((T.inter π).map f) := by
    intro s' hs
    rw [h3, List.mapM_map]
    refine mapM_ok _ f _ fun ρ hρ => ?_
    simp only [Function.comp, Exps.rdMe]
    rw [hs ρ hρ, (hf ρ hρ).1]
  by_cases hne : T.inter π = []
  · refine ⟨e0, ?_, fun s' hs hm' ha => ?_⟩
    · have : interVal p T r items π = 0 := by funext y; simp [interVal, hne]
      rw [this]; exact h0
    · unfold multipoleToLocal
      rw [h1, ok_bind, hrd s' hm', ok_bind, if_neg (by simp [hne]), setLe_self _ _ _ ha]
  · let M : List (Exp2 × Box 2 × List (Source 2)) := (T.inter π).map fun ρ => (f ρ, boxAt r ρ, itemsAt Source.pos r items ρ)
    obtain ⟨e1, k1, k2⟩ := leMes_cov hp hp0 t (boxAt r π) (boxAt_len_pos r hT.hr π) M ⟨ht.1, ht.2.ge⟩ (by simpa [M] using hne) (by
      intro x hx
      obtain ⟨ρ, hρ, rfl⟩ := List.mem_map.mp hx
      have hlen := PTree.inter_length hL hπ hρ
      refine ⟨(hf ρ hρ).2, ?_⟩
      cases π with
      | nil => simp [PTree.inter] at hρ
      | cons i τ =>
        have m2 := ((PTree.mem_inter hL hπ ρ).mp hρ).2.1
        exact center_dist_of_not_adjacent r hT.hr (i :: τ) ρ hlen.symm (by
          have := hT.hA (i :: τ) ρ; rw [m2] at this; simpa using this))
    have k3 : (laws2Fresh p hp0 hp).isLE e1 (boxAt r π).center (interVal p T r items π) := by
      refine ⟨_, k2, fun y => ?_⟩
      have := m2l_list_leSum p p ((M.map (·.2)).map fun x => (toC x.1.center, meCoeff (toC x.1.center) x.2))
        (toC (boxAt r π).center) (toC y - toC (boxAt r π).center)
      simp only [List.map_map, Function.comp_def, M] at this
      simp only [List.map_map, Function.comp_def, M, ht.2]
      rw [this]
      unfold interVal
      generalize T.inter π = l
      induction l with
      | nil => simp
      | cons ρ l ih => rw [List.map_cons, List.sum_cons, ih, List.map_cons, List.sum_cons, Complex.add_re, m2l_list_val]
    obtain ⟨e2, h6, h7⟩ := (laws2Fresh p hp0 hp).add _ _ _ _ _ h0 k3
    rw [zero_add] at h7
    refine ⟨e2, h7, fun s' hs hm' ha => ?_⟩
    subst hs
    unfold multipoleToLocal
    rw [h1, ok_bind, hrd s' hm', ok_bind, if_pos (by simpa [List.length_pos_iff] using hne), h2]
    have e : M.map (·.1) = (T.inter π).map f := by simp only [M, List.map_map]; rfl
    have k1' : kit2.leMes s'.t (boxAt r π).center ((T.inter π).map f) = .ok (s'.t, e1) := by
      rw [e] at k1; exact k1
    rw [k1', ok_bind]
    simp only [Exps.rdLe]
    rw [ha]
    simp only [ok_bind]
    rw [h6, ok_bind]

/-- One iteration of the downward pass over the leaves when the parents have local expansions that vanish. -/
theorem balancedLE_exact (hT : TreeOK T r items sh addr H) {s : Exps kit2 A} (ht : (laws2Fresh p hp0 hp).cov s.t) {i : ℕ} {τ : Path}
    (hπ : T.Mem (i :: τ)) (hz : LEzero (laws2Fresh p hp0 hp) r addr s (i :: τ)) (hp' : LEzero (laws2Fresh p hp0 hp) r addr s τ)
    (hm : ∀ ρ ∈ T.inter (i :: τ), MEok (laws2Fresh p hp0 hp) r items addr s ρ) :
    ∃ e, (laws2Fresh p hp0 hp).isLE e (boxAt r (i :: τ)).center (interVal p T r items (i :: τ)) ∧
      ∀ s' : Exps kit2 A, s'.t = s.t → s'.me = s.me → s'.le (addr τ) = s.le (addr τ) →
        s'.le (addr (i :: τ)) = s.le (addr (i :: τ)) →
        balancedLE kit2 sh (addr (i :: τ)) s' = .ok (s'.setLe (addr (i :: τ)) e) := by
  obtain ⟨e0, z1, z2⟩ := hz
  obtain ⟨eτ, p1, p2⟩ := hp'
  obtain ⟨e1, a1, a2⟩ := localToLocal_ok (laws2Fresh p hp0 hp) hT ht hπ z2 p2
  obtain ⟨e2, b1, b3⟩ := multipoleToLocal_exact hT ht hπ a1 hm
  refine ⟨e2, b1, fun s' h1 h2 h3 h4 => ?_⟩
  unfold balancedLE
  rw [a2 s' h1 (by rw [h3, p1]) (by rw [h4, z1]), ok_bind,
    b3 (s'.setLe (addr (i :: τ)) e1) h1 (fun ρ _ => by show s'.me _ = _; rw [h2]) (setLe_le _ _ _), setLe_setLe]

end

/-! ## The tree of height two -/

/-- Contribution of a source at `x`: exact if its leaf is adjacent to that of `x`, through the expansions otherwise. -/
noncomputable def exactTerm (p : ℕ) (r : Box 2) (x : Vec 2) (s : Source 2) : ℝ :=
  open Classical in
  if (boxAt r (route r x 2)).adjacent (boxAt r (route r s.pos 2)) then directTerm true x s
  else m2lVal p (boxAt r (route r x 2)).center (boxAt r (route r s.pos 2)).center s x


variable {p : ℕ} {hp0 : 0 < p} {hp : p ≤ 1029} {r : Box 2} {S : List (Source 2)}

/-- The passes: the local expansion of every leaf. -/
theorem balanced_two_fmm {t : BinomialTable} (ht : t.Good ∧ t.maxOrder ≤ p) {eps : ℝ} {perCell : ℕ}
    (hI : BalancedInput S perCell r 2) (hr : 0 < r.len) (hord : expansionOrder (totalStrength S) eps = .ok p) :
    ∃ nb s1, BNbhAfter r 2 (off (2 ^ 2) (2 + 1)) nb ∧
      (∀ fuel ≥ off (2 ^ 2) (2 + 1), ∀ sch, Schedule sch → balancedFmm kit2 fuel sch t S perCell eps
        = .ok ⟨p, 2, bfull r 2, specSrc' Source.pos r S 2, nb, s1⟩) ∧
      ∀ π ∈ leafPaths 2 2, ∃ e, s1.le (baddr 2 2 π) = some e ∧
        (laws2Fresh p hp0 hp).isLE e (boxAt r π).center (interVal p (fullTree r 2) r S π) := by
  have hin' : ∀ s ∈ S, r.contains s.pos := fun s hs => containsHO_contains (hI.inside s hs)
  obtain ⟨nb, hnb, hlists⟩ := balancedLists_ok le_rfl Source.pos (Or.inl hr) hI.small S (Or.inr hI.inside)
  have hT := balanced_treeOK hr hI.small hin' hnb
  have hl := balanced_loopsOK (r := r) (h := 2)
  have hm := fullTree_mem r 2
  have hL := hT.hA.laws hT.hr
  set sh := balancedShape (bfull r 2) (specSrc' Source.pos r S 2) nb with hsh
  obtain ⟨s0, a1, a2⟩ := initAll_ok (laws2Fresh p hp0 hp) hT ((List.range (off (2 ^ 2) 2)).map (gpath (2 ^ 2)) ++ leafPaths 2 2) (by
      intro π hπ
      rw [hm]
      rcases List.mem_append.mp hπ with hπ | hπ
      · obtain ⟨i, hi, rfl⟩ := List.mem_map.mp hπ
        exact ⟨gpath_valid _ (by positivity) _,
          ((gpath_length_lt _ (by positivity) i 2).mpr (List.mem_range.mp hi)).le⟩
      · obtain ⟨k1, k2⟩ := (mem_levelPaths 2 π).mp hπ
        exact ⟨k1, k2.le⟩) (by
      intro π hπ
      obtain ⟨k1, k2⟩ := (hm π).mp hπ
      rcases Nat.lt_or_ge π.length 2 with hlt | hge
      · refine List.mem_append_left _ (List.mem_map.mpr ⟨gidx (2 ^ 2) π, ?_, gpath_gidx _ _ k1⟩)
        rw [List.mem_range, ← gpath_length_lt _ (by positivity), gpath_gidx _ _ k1]
        exact hlt
      · exact List.mem_append_right _ ((mem_levelPaths 2 π).mpr ⟨k1, by omega⟩))
    ⟨t, fun _ => none, fun _ => none⟩ ht
  obtain ⟨-, s1, b2, b3, b4, b5⟩ := leaf_pass (laws2Fresh p hp0 hp) hT hl a2.cov
  have hz : ∀ π, (fullTree r 2).Mem π → LEzero (laws2Fresh p hp0 hp) r (baddr 2 2) s1 π := by
    intro π hπ
    unfold LEzero
    rw [b4]
    exact a2.zero π hπ
  obtain ⟨-, s2, c2, -, -, c5, -⟩ := loop_le hT (body := balancedLE kit2 sh) (s := s1) (l := leafPaths 2 2)
    (nodup_leafPaths 2) (fun π hπ => ((mem_leafPaths r 2 π).mp hπ).1)
    (fun π e => (laws2Fresh p hp0 hp).isLE e (boxAt r π).center (interVal p (fullTree r 2) r S π)) (by
      intro π hπ
      have hπm := ((mem_leafPaths r 2 π).mp hπ).1
      have hlen := ((mem_levelPaths 2 π).mp hπ).2
      cases π with
      | nil => simp at hlen
      | cons i τ =>
        obtain ⟨e, d1, d2⟩ := balancedLE_exact hT (s := s1) (by rw [b3]; exact a2.cov) hπm (hz _ hπm) (hz _ hπm.tail) (by
          intro ρ hρ
          have hlen' := PTree.inter_length hL hπm hρ
          have hρm := ((PTree.mem_inter hL hπm ρ).mp hρ).1
          exact b5 ρ hρm (by simp [fullTree]; omega))
        refine ⟨e, d1, fun s' hs' => d2 s' hs'.1 hs'.2.1 (hs'.2.2 _ (Or.inr ?_)) (hs'.2.2 _ (Or.inl rfl))⟩
        rw [hT.mem_map (fun π hπ => ((mem_leafPaths r 2 π).mp hπ).1) hπm.tail, mem_levelPaths]
        simp only [List.length_cons] at hlen
        omega)
  have eL : leafLoops (baddr 2 2) [leafPaths 2 2] = [balancedLeafLoop (bfull r 2).nLeaves] := by
    show [_] = [balancedLeafLoop ((2 ^ 2) ^ 2)]
    rw [balancedLeafLoop_eq]
  have eB : balancedLeafLoop (bfull r 2).nLeaves = (leafPaths 2 2).map (baddr 2 2) := balancedLeafLoop_eq
  rw [eL] at b2
  refine ⟨nb, s2, hnb, fun fuel hf sch hsch => ?_, c5⟩
  have hinit : balancedInit kit2 fuel t S perCell eps = .ok ⟨p, 2, bfull r 2, specSrc' Source.pos r S 2, nb, s0⟩ := by
    unfold balancedInit
    rw [hord, ok_bind, hI.height, ok_bind, hI.box]
    simp only
    rw [hlists fuel hf, ok_bind]
    simp only
    rw [balancedInit_list, a1, ok_bind]
  unfold balancedFmm
  rw [hinit, ok_bind]
  simp only
  rw [if_neg (by omega)]
  unfold BalancedFmm.shape passes
  simp only
  rw [b2 sch hsch, ok_bind]
  have e1 : balancedUp 2 2 = [] := rfl
  have e2 : balancedDown 2 2 (bfull r 2).nLeaves = [balancedLeafLoop (bfull r 2).nLeaves] := rfl
  rw [e1, e2]
  simp only [runLoops]
  rw [ok_bind, eB, c2 _ (hsch _ _), ok_bind, ok_bind]

/-- The value computed by the tree. -/
theorem balanced_two_exact {t : BinomialTable} (ht : t.Good ∧ t.maxOrder ≤ p) (hp0 : 0 < p) (hp : p ≤ 1029) {eps : ℝ} {perCell : ℕ}
    (hI : BalancedInput S perCell r 2) (hr : 0 < r.len) (hord : expansionOrder (totalStrength S) eps = .ok p) :
    ∃ (fuel0 : ℕ) (T : BalancedFmm kit2),
      (∀ fuel ≥ fuel0, ∀ sch, Schedule sch → balancedFmm kit2 fuel sch t S perCell eps = .ok T) ∧
      ∀ x, r.containsHO x → balancedEval pot2 true T x = .ok (S.map (exactTerm p r x)).sum := by
  obtain ⟨nb, s1, hnb, h1, h2⟩ := balanced_two_fmm (hp0 := hp0) (hp := hp) ht hI hr hord
  refine ⟨_, _, h1, fun x hx => ?_⟩
  have hin' : ∀ s ∈ S, r.contains s.pos := fun s hs => containsHO_contains (hI.inside s hs)
  have hT := balanced_treeOK hr hI.small hin' hnb
  have hL := hT.hA.laws hT.hr
  have hh : ∀ π, (fullTree r 2).Mem π → π.length < 2 + 1 := fun π hπ => Nat.lt_succ_of_le (hT.hH π hπ)
  have hlen := route_length r x 2
  have hv := route_valid r x 2
  have hk : (fullTree r 2).Mem (route r x 2) := (fullTree_mem r 2 _).mpr ⟨hv, hlen.le⟩
  have hkl : (fullTree r 2).leaf (route r x 2) = true := by simp [fullTree, hlen]
  set R := route r x 2 with hR
  obtain ⟨e, l1, l2⟩ := h2 R ((mem_levelPaths 2 R).mpr ⟨hv, hlen⟩)
  obtain ⟨n, n1, n2, -, -, -, -, n3⟩ := hT.node R hk
  obtain ⟨-, n4, n5⟩ := n3 hkl
  rw [fullTree_W hr] at n5
  set U := ((fullTree r 2).nbhAfter ((fullTree r 2).order (2 + 1))).near R with hU
  have v1 : evalLeaf pot2 (balancedShape (bfull r 2) (specSrc' Source.pos r S 2) nb) true s1 (baddr 2 2 R) x
      = .ok (interVal p (fullTree r 2) r S R x + (U.map fun ρ => directPotential true (itemsAt Source.pos r S ρ) x).sum) := by
    unfold evalLeaf
    rw [n1, ok_bind]
    simp only [Exps.rdLe]
    rw [l1]
    simp only [ok_bind]
    rw [(laws2Fresh p hp0 hp).le_obs _ _ _ _ l2 trivial, ok_bind, n5]
    simp only [List.map_nil, List.foldlM_nil]
    rw [show (pure (interVal p (fullTree r 2) r S R x) : Outcome ℝ) = .ok (interVal p (fullTree r 2) r S R x) from rfl, ok_bind,
      n4, List.foldlM_map, foldlM_sum _ (fun ρ => directPotential true (itemsAt Source.pos r S ρ) x) U (by
        intro ρ hρ v
        obtain ⟨u1, u2, u3⟩ := (PTree.mem_near_leaf hL hh hk hkl ρ).mp hρ
        obtain ⟨m, m1, -, -, -, -, -, m2⟩ := hT.node ρ u1
        rw [m1, ok_bind, (m2 u2).1, ok_bind]
        by_cases hρR : ρ = R
        · rw [hρR, decide_eq_true rfl, (laws2Fresh p hp0 hp).sum_safe, ok_bind]; rfl
        · rw [decide_eq_false (fun h => hρR (hT.inj ρ R u1 hk h)), (laws2Fresh p hp0 hp).sum_unsafe, ok_bind]
          · rfl
          intro y hy hyx
          simp only [itemsAt, List.mem_filter, decide_eq_true_eq] at hy
          have h1 := hy.2
          rw [hyx] at h1
          exact hρR (hk.eq_of_leaf_suffix u2 ((leaf_mem_of_route (fullTree r 2) r x hk hkl u1).mp h1))), ok_bind]
    rfl
  have hval : interVal p (fullTree r 2) r S R x + (U.map fun ρ => directPotential true (itemsAt Source.pos r S ρ) x).sum
      = (S.map (exactTerm p r x)).sum := by
    have hperm := PTree.slots_perm hL hh hT.hc Source.pos r S hk hkl
    unfold PTree.slots at hperm
    rw [fullTree_W hr, List.nil_append, List.flatMap_append, List.flatMap_assoc] at hperm
    have hfar : (R.tails.flatMap fun A => (((fullTree r 2).nbhAfter ((fullTree r 2).order (2 + 1))).inter A ++
        ((fullTree r 2).nbhAfter ((fullTree r 2).order (2 + 1))).X A).flatMap (itemsAt Source.pos r S))
        = farSources (fullTree r 2) r S R := by
      unfold farSources
      refine List.flatMap_congr fun A hA => ?_
      have hA : (fullTree r 2).Mem A := hk.suffix ((List.mem_tails ..).mp hA)
      rw [PTree.nbh_inter hh hA, PTree.nbh_X hh hA]; rfl
    have hfar2 : farSources (fullTree r 2) r S R = ((fullTree r 2).inter R).flatMap (itemsAt Source.pos r S) := by
      have hnil : ownFar (fullTree r 2) r S [] = [] := by simp [ownFar, PTree.inter, PTree.xl]
      match R, hk, hlen with
      | [i, j], hk, _ =>
        rw [farSources_cons, farSources_cons, hT.depth_one hk.tail]
        have : farSources (fullTree r 2) r S [] = [] := by simp [farSources, hnil]
        rw [this]
        simp [ownFar, fullTree_xl hr hk]
    rw [hfar, hfar2] at hperm
    rw [← (hperm.map (exactTerm p r x)).sum_eq, List.map_append, List.sum_append, add_comm]
    have hroute : ∀ ρ s, ρ.length = 2 → s ∈ itemsAt Source.pos r S ρ → route r s.pos 2 = ρ := by
      intro ρ s hρ hs
      simp only [itemsAt, List.mem_filter, decide_eq_true_eq] at hs
      have := hs.2
      rwa [hρ] at this
    have hsum : ∀ (l : List Path) (g : Path → Source 2 → ℝ), (∀ ρ ∈ l, ∀ s ∈ itemsAt Source.pos r S ρ, exactTerm p r x s = g ρ s) →
        ((l.flatMap (itemsAt Source.pos r S)).map (exactTerm p r x)).sum
          = (l.map fun ρ => ((itemsAt Source.pos r S ρ).map (g ρ)).sum).sum := by
      intro l g hg
      induction l with
      | nil => simp
      | cons ρ l ih =>
        rw [List.flatMap_cons, List.map_append, List.sum_append, ih fun ρ h => hg ρ (by simp [h]), List.map_cons, List.sum_cons]
        congr 2
        exact List.map_congr_left fun s hs => hg ρ (by simp) s hs
    congr 1
    · rw [hsum U fun _ s => directTerm true x s]
      · rfl
      intro ρ hρ s hs
      obtain ⟨u1, u2, u3⟩ := (PTree.mem_near_leaf hL hh hk hkl ρ).mp hρ
      have hρl : ρ.length = 2 := by
        have := (fullTree_mem r 2 ρ).mp u1
        have : 2 ≤ ρ.length := by simpa [fullTree] using u2
        omega
      have hadj := hT.hA R ρ
      unfold exactTerm
      rw [hroute ρ s hρl hs, ← hR, if_pos (by rw [u3] at hadj; simpa using hadj)]
    · rw [hsum _ fun ρ s => m2lVal p (boxAt r R).center (boxAt r ρ).center s x]
      · rfl
      intro ρ hρ s hs
      have hρl : ρ.length = 2 := by rw [PTree.inter_length hL hk hρ, hlen]
      have u3 : (fullTree r 2).adj R ρ = false := by
        match R, hk, hlen, hρ with
        | [i, j], hk, _, hρ => exact ((PTree.mem_inter hL hk ρ).mp hρ).2.1
      have hadj := hT.hA R ρ
      unfold exactTerm
      rw [hroute ρ s hρl hs, ← hR, if_neg (by rw [u3] at hadj; simpa using hadj)]
  have hroot : ∃ n, (bfull r 2).get (rootAddr 2) = .ok n ∧ n.box = r := by
    obtain ⟨n, h1, h2, -⟩ := bfull_get_path r (π := []) (h := 2) (fun _ h => by simp at h) (by simp)
    refine ⟨n, ?_, h2⟩
    rw [← h1, baddr, gidx, ← glob_root (d := 2)]
  obtain ⟨n, m1, m2⟩ := hroot
  have := lookupLeaf_ok (d := 2) (by omega) hr (h := 2) (by omega) (by norm_num) hx
  unfold lookupLeaf at this
  unfold balancedEval
  rw [m1, ok_bind, m2]
  rw [baddr_leaf hlen, hval] at v1
  cases h5 : getLeafBoxIndices r 2 x with
  | error e => rw [h5, err_bind] at this; simp at this
  | ok idx =>
    rw [h5, ok_bind] at this
    rw [ok_bind, this, ok_bind]
    exact v1

end FMM
