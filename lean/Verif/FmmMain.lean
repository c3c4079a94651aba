import Verif.FmmResults

/-!
# The constructors and evaluations as a whole, for any expansions that satisfy the laws
-/

namespace FMM
variable {d : ℕ} {K : Kit d} {V : Type} [AddCommGroup V] {O : Obs K V} {p : ℕ}

/-- Requirements on the input of the adaptive tree: `r` is its root box, it contains the sources, and no point carries
more than `max` of them. -/
structure AdaptiveInput (S : List (Source d)) (max : ℕ) (r : Box d) : Prop where
  box : rootBox (S.map Source.pos) = some r
  inside : ∀ s ∈ S, r.contains s.pos
  mult : ∀ x, (S.filter fun s => decide (s.pos = x)).length ≤ max

/-- Requirements on the input of the balanced tree: `r` is its root box, which contains the sources (except on the upper
faces), and the tree height `h` is one for which the 32-bit leaf indices are unique. -/
structure BalancedInput (S : List (Source d)) (perCell : ℕ) (r : Box d) (h : ℕ) : Prop where
  box : rootBox (S.map Source.pos) = some r
  inside : ∀ s ∈ S, r.containsHO s.pos
  height : balancedHeight d S.length perCell = .ok h
  small : d * h ≤ 32

theorem contains_len_nonneg {r : Box (d + 1)} {x : Vec (d + 1)} (h : r.contains x) : 0 ≤ r.len := by
  rw [Box.contains_iff] at h
  have := h 0
  linarith [this.1, this.2]

theorem contains_len_zero {r : Box d} {x : Vec d} (h : r.contains x) (h0 : r.len = 0) : x = r.center := by
  rw [Box.contains_iff] at h
  funext j
  have := h j
  rw [h0] at this
  linarith [this.1, this.2]

theorem AdaptiveInput.len_pos {S : List (Source (d + 1))} {max : ℕ} {r : Box (d + 1)} (h : AdaptiveInput S max r)
    (hN : max < S.length) : 0 < r.len := by
  have hne : S ≠ [] := by rintro rfl; simp at hN
  obtain ⟨s, hs⟩ := List.exists_mem_of_ne_nil S hne
  rcases (contains_len_nonneg (h.inside s hs)).lt_or_eq with h0 | h0
  · exact h0
  · exfalso
    have := h.mult r.center
    rw [List.filter_eq_self.mpr] at this
    · omega
    · intro s hs
      simpa using contains_len_zero (h.inside s hs) h0.symm

/-- The adaptive tree with more than `max` sources. -/
theorem adaptive_full {K : Kit (d + 1)} {O : Obs K V} (L : FmmLaws K O p) {t : K.T} (ht : L.good t)
    {S : List (Source (d + 1))} {max : ℕ} {eps : ℝ} {r : Box (d + 1)} (hI : AdaptiveInput S max r) (hN : max < S.length)
    (hord : expansionOrder (totalStrength S) eps = .ok p) :
    ∃ (fuel0 : ℕ) (T : AdaptiveFmm K) (s0 : Exps K Path) (up down : List (List Path)),
      (∀ fuel ≥ fuel0, adaptiveInit K fuel t S max eps = .ok { T with exps := s0 }) ∧
      adaptiveUp T.nodes T.height = .ok up ∧ adaptiveDown T.nodes T.leaves T.height = .ok down ∧
      RaceFreePasses K T.shape T.order (constructLE K T.shape T.order) T.leaves up down s0 ∧
      (∀ fuel ≥ fuel0, ∀ sch, Schedule sch → adaptiveFmm K fuel sch t S max eps = .ok T) ∧
      T.order = p ∧
      (∀ fuel ≥ fuel0, ∃ st, adaptiveLists fuel Source.pos r S max = .ok (st, T.height, T.nb) ∧ st.heap = T.heap ∧
        st.leaves = T.leaves ∧ st.nodes = T.nodes) ∧
      (∀ x, r.contains x → (∀ π, (fmmTree Source.pos r S max).Mem π → L.adm (boxAt r π).center x) → ∀ grav cur, ∃ v,
        (∀ fuel ≥ fuel0, adaptiveEval O fuel grav T cur x = .ok (if grav then v else -v)) ∧
        L.nrm (v - L.direct S x) ≤ L.B (r.len / 2 ^ T.height) * totalStrength S) ∧
      (∀ x, ¬ r.contains x → ∀ grav cur, ∀ fuel ≥ fuel0, adaptiveEval O fuel grav T cur x = O.sum grav false cur x) ∧
      (∀ x, r.contains x → ∀ (O' : Obs K V) (er : Err), (∀ π, (boxAt r π).contains x →
        (∀ fuel > T.height, getContainingLeaf fuel T.heap x = .ok (some π)) →
        ∀ e φ, L.isLE e (boxAt r π).center φ → O'.le e x = .error er) →
        ∀ grav cur, ∀ fuel ≥ fuel0, adaptiveEval O' fuel grav T cur x = .error er) := by
  have hr := hI.len_pos hN
  obtain ⟨hh, hterm⟩ := terminates (pos := Source.pos) hr.le hI.inside hI.mult
  have hb : adaptiveBuild hh Source.pos r S max = .ok (specBuild Source.pos r S max hh
      ((List.range hh).map (nodeLevel Source.pos r S max)), hh) := by
    unfold adaptiveBuild
    rw [if_neg (by omega)]
    exact buildTree_ok Source.pos r S max hh hterm hh le_rfl
  set st := specBuild Source.pos r S max hh ((List.range hh).map (nodeLevel Source.pos r S max)) with hst
  have hlists := adaptiveLists_ok (Or.inl hr) hb
  set nb := (fmmTree Source.pos r S max).nbhAfter ((fmmTree Source.pos r S max).order (hh + 1)) with hnb
  set fuel1 := hh + 1 + ((fmmTree Source.pos r S max).order (hh + 1)).length with hfuel1
  have hl1 : ∀ fuel ≥ fuel1, adaptiveLists fuel Source.pos r S max = .ok (st, hh, nb) :=
    fun fuel hf => hlists fuel (by omega) (by omega)
  obtain ⟨s0, s1, a1, a2, a3, a4⟩ := adaptiveFmm_ok L ht (eps := eps) hN hr hI.inside hI.box hord (hl1 fuel1 le_rfl)
  obtain ⟨hn, hlv⟩ := adaptive_levels hN hr (hl1 fuel1 le_rfl)
  have hup := adaptive_up hN hr (hl1 fuel1 le_rfl)
  have hdn := adaptive_down hN hr (hl1 fuel1 le_rfl)
  have hT := adaptive_treeOK hr hI.inside (hl1 fuel1 le_rfl)
  -- the values do not depend on the fuel
  have hinit : ∀ fuel ≥ fuel1, adaptiveInit K fuel t S max eps = .ok ⟨p, hh, st.heap, st.nodes, st.leaves, nb, s0⟩ := by
    intro fuel hf
    rw [← a1]
    unfold adaptiveInit
    rw [hord, ok_bind, ok_bind, hI.box]
    simp only
    rw [hl1 fuel hf, hl1 fuel1 le_rfl]
  have hfmm : ∀ fuel ≥ fuel1, ∀ sch, Schedule sch → adaptiveFmm K fuel sch t S max eps
      = .ok ⟨p, hh, st.heap, st.nodes, st.leaves, nb, s1⟩ := by
    intro fuel hf sch hsch
    rw [← a3 sch hsch]
    unfold adaptiveFmm
    rw [hinit fuel hf, hinit fuel1 le_rfl]
  refine ⟨fuel1, ⟨p, hh, st.heap, st.nodes, st.leaves, nb, s1⟩, s0, _, _, hinit, hup, hdn, a2 _ _ hup hdn, hfmm, rfl,
    fun fuel hf => ⟨st, hl1 fuel hf, rfl, rfl, rfl⟩, ?_, ?_, ?_⟩
  · intro x hx ha grav cur
    obtain ⟨v, v1, v2⟩ := adaptiveEval_ok L hr hI.inside (hl1 fuel1 le_rfl) a4 hx grav cur ha
    exact ⟨v, fun fuel hf => v1 fuel (by omega), v2⟩
  · intro x hx grav cur fuel hf
    obtain ⟨o, o1, o2, -⟩ := C13_containing_leaf Source.pos r hr.le S max hh st hh hb x
    unfold adaptiveEval
    simp only
    rw [o1 fuel (by omega), ok_bind, o2.mpr hx]
  · intro x hx O' er hbad grav cur fuel hf
    exact adaptiveEval_error L hr hI.inside (hl1 fuel1 le_rfl) a4 hx grav cur O' hbad fuel (by omega)

theorem adaptive_main {K : Kit (d + 1)} {O : Obs K V} (L : FmmLaws K O p) {t : K.T} (ht : L.good t)
    {S : List (Source (d + 1))} {max : ℕ} {eps : ℝ} {r : Box (d + 1)} (hI : AdaptiveInput S max r) (hN : max < S.length)
    (hord : expansionOrder (totalStrength S) eps = .ok p) :
    ∃ (fuel0 : ℕ) (T : AdaptiveFmm K) (s0 : Exps K Path) (up down : List (List Path)),
      (∀ fuel ≥ fuel0, adaptiveInit K fuel t S max eps = .ok { T with exps := s0 }) ∧
      adaptiveUp T.nodes T.height = .ok up ∧ adaptiveDown T.nodes T.leaves T.height = .ok down ∧
      RaceFreePasses K T.shape T.order (constructLE K T.shape T.order) T.leaves up down s0 ∧
      (∀ fuel ≥ fuel0, ∀ sch, Schedule sch → adaptiveFmm K fuel sch t S max eps = .ok T) ∧
      T.order = p ∧
      (∀ fuel ≥ fuel0, ∃ st, adaptiveLists fuel Source.pos r S max = .ok (st, T.height, T.nb) ∧ st.heap = T.heap ∧
        st.leaves = T.leaves ∧ st.nodes = T.nodes) ∧
      (∀ x, r.contains x → (∀ π, (fmmTree Source.pos r S max).Mem π → L.adm (boxAt r π).center x) → ∀ grav cur, ∃ v,
        (∀ fuel ≥ fuel0, adaptiveEval O fuel grav T cur x = .ok (if grav then v else -v)) ∧
        L.nrm (v - L.direct S x) ≤ L.B (r.len / 2 ^ T.height) * totalStrength S) ∧
      (∀ x, ¬ r.contains x → ∀ grav cur, ∀ fuel ≥ fuel0, adaptiveEval O fuel grav T cur x = O.sum grav false cur x) := by
  obtain ⟨f, T, s0, up, down, h1, h2, h3, h4, h5, h6, h7, h8, h9, -⟩ := adaptive_full L ht hI hN hord
  exact ⟨f, T, s0, up, down, h1, h2, h3, h4, h5, h6, h7, h8, h9⟩

/-- The adaptive tree consisting of a single leaf. -/
theorem adaptive_single_full {K : Kit d} {O : Obs K V} {t t' : K.T} {e : K.E}
    {S : List (Source d)} {max : ℕ} {eps : ℝ} {r : Box d} (hbox : rootBox (S.map Source.pos) = some r)
    (hN : S.length ≤ max) (hord : expansionOrder (totalStrength S) eps = .ok p) (hnew : K.leNew t r.center p = .ok (t', e))
    {direct : Vec d → V} (hsum : ∀ x, O.sum true true S x = .ok (direct x)) :
    ∃ T : AdaptiveFmm K, (∀ fuel ≥ 1, ∀ sch, adaptiveFmm K fuel sch t S max eps = .ok T) ∧ T.order = p ∧ T.height = 0 ∧
      (∀ x, r.contains x → ∀ grav cur, ∀ fuel ≥ 1, adaptiveEval O fuel grav T cur x =
        (O.le e x >>= fun v => .ok (if grav then v + direct x else -(v + direct x)))) ∧
      (∀ x, ¬ r.contains x → ∀ grav cur, ∀ fuel ≥ 1, adaptiveEval O fuel grav T cur x = O.sum grav false cur x) := by
  have hl : (fmmTree Source.pos r S max).leaf [] = true := by simp [fmmTree, itemsAt_nil, hN]
  have hb : ∀ fuel, ∃ st, adaptiveBuild fuel Source.pos r S max = .ok (st, 0) ∧
      st = ⟨rootHeap r true S, [], [[[]]], []⟩ := fun fuel => ⟨_, by unfold adaptiveBuild; rw [if_pos hN], rfl⟩
  obtain ⟨st, hb0, hst⟩ := hb 0
  obtain ⟨h1, h2, -⟩ := adaptiveBuild_ok hb0
  have hord1 : (fmmTree Source.pos r S max).order (0 + 1) = [[]] := order_single _ hl 1 (by omega)
  set T := fmmTree Source.pos r S max with hTdef
  have hlists : ∀ fuel ≥ 1, adaptiveLists fuel Source.pos r S max = .ok (st, 0, T.nbhAfter [[]]) := by
    intro fuel hf
    have := adaptiveLists_ok (Or.inr hN) hb0 fuel (by omega) (by rw [← hTdef, hord1]; simpa using hf)
    rw [← hTdef, hord1] at this
    exact this
  set nb := T.nbhAfter [[]] with hnb
  have hsh : adaptiveShape st.heap nb [] = .ok
      { center := r.center, parent := none, children := (List.range (2 ^ d)).map fun _ => none,
        near := [[]], inter := nb.inter [], X := nb.X [], W := [], sources := .ok S } := by
    rw [h1, adaptiveShape_ok PTree.mem_nil]
    rw [hl, itemsAt_nil]
    have e1 : nb.near [] = [[]] := by simp [hnb, PTree.nbhAfter, PTree.own, PTree.back]
    have e2 : nb.W [] = [] := by simp [hnb, PTree.nbhAfter, PTree.xl]
    rw [e1, e2]
    simp [boxAt]
  have hinit : ∀ fuel ≥ 1, adaptiveInit K fuel t S max eps = .ok ⟨p, 0, st.heap, st.nodes, st.leaves, nb,
      (Exps.setMe ⟨t', fun _ => none, fun _ => none⟩ [] K.empty).setLe [] e⟩ := by
    intro fuel hf
    unfold adaptiveInit
    rw [hord, ok_bind, hbox]
    simp only
    rw [hlists fuel hf, ok_bind]
    have e3 : st.nodes.flatten ++ st.leaves.flatten = [[]] := by rw [hst]; rfl
    simp only [e3]
    unfold forEach
    rw [List.foldlM_cons]
    unfold initNode
    rw [hsh, ok_bind]
    simp only
    rw [hnew]
    rfl
  refine ⟨⟨p, 0, st.heap, st.nodes, st.leaves, nb,
      (Exps.setMe ⟨t', fun _ => none, fun _ => none⟩ [] K.empty).setLe [] e⟩, fun fuel hf sch => ?_, rfl, rfl, ?_, ?_⟩
  · unfold adaptiveFmm
    rw [hinit fuel hf, ok_bind, if_pos hN]
  · intro x hx grav cur fuel hf
    have hg := getContainingLeaf_ok T rfl r (itemsAt Source.pos r S) x (k := 0) (by exact PTree.mem_nil)
      hl fuel (by omega)
    unfold adaptiveEval
    simp only
    rw [h1, hg, ok_bind, if_pos (show (boxAt r (route r x 0)).contains x from hx)]
    simp only [AdaptiveFmm.shape]
    rw [← h1]
    show evalLeaf O (adaptiveShape st.heap nb) grav _ [] x = _
    unfold evalLeaf
    rw [hsh, ok_bind]
    simp only [Exps.rdLe, Exps.setLe, Exps.setMe, Function.update_self]
    rw [ok_bind]
    cases O.le e x with
    | error er => simp only [err_bind]
    | ok w =>
      rw [ok_bind, List.foldlM_nil]
      show (Except.ok w >>= _) = _
      rw [ok_bind, List.foldlM_cons, hsh, ok_bind]
      simp only [decide_true]
      rw [ok_bind, hsum, ok_bind]
      simp only [List.foldlM_nil]
      rfl
  · intro x hx grav cur fuel hf
    have hg := getContainingLeaf_ok T rfl r (itemsAt Source.pos r S) x (k := 0) (by exact PTree.mem_nil)
      hl fuel (by omega)
    unfold adaptiveEval
    simp only
    rw [h1, hg, ok_bind, if_neg (show ¬ (boxAt r (route r x 0)).contains x from hx)]

theorem adaptive_single {K : Kit d} {O : Obs K V} {t t' : K.T} {e : K.E}
    {S : List (Source d)} {max : ℕ} {eps : ℝ} {r : Box d} (hbox : rootBox (S.map Source.pos) = some r)
    (hN : S.length ≤ max) (hord : expansionOrder (totalStrength S) eps = .ok p) (hnew : K.leNew t r.center p = .ok (t', e))
    {P : Vec d → Prop} (hle : ∀ x, P x → O.le e x = .ok 0) {direct : Vec d → V} (hsum : ∀ x, O.sum true true S x = .ok (direct x)) :
    ∃ T : AdaptiveFmm K, (∀ fuel ≥ 1, ∀ sch, adaptiveFmm K fuel sch t S max eps = .ok T) ∧ T.order = p ∧ T.height = 0 ∧
      (∀ x, r.contains x → P x → ∀ grav cur, ∀ fuel ≥ 1,
        adaptiveEval O fuel grav T cur x = .ok (if grav then direct x else -direct x)) ∧
      (∀ x, ¬ r.contains x → ∀ grav cur, ∀ fuel ≥ 1, adaptiveEval O fuel grav T cur x = O.sum grav false cur x) := by
  obtain ⟨T, h1, h2, h3, h4, h5⟩ := adaptive_single_full (O := O) hbox hN hord hnew hsum
  refine ⟨T, h1, h2, h3, fun x hx hP grav cur fuel hf => ?_, h5⟩
  rw [h4 x hx grav cur fuel hf, hle x hP, ok_bind, zero_add]

/-- The balanced tree of positive height. -/
theorem balanced_full (L : FmmLaws K O p) {t : K.T} (ht : L.good t) (hd : 2 ≤ d)
    {S : List (Source d)} {perCell : ℕ} {eps : ℝ} {r : Box d} {h : ℕ} (hI : BalancedInput S perCell r h) (hh : 1 ≤ h)
    (hr : 0 < r.len) (hmor : h < 64 / d) (hord : expansionOrder (totalStrength S) eps = .ok p) :
    ∃ (fuel0 : ℕ) (T : BalancedFmm K) (s0 : Exps K BAddr),
      (∀ fuel ≥ fuel0, balancedInit K fuel t S perCell eps = .ok { T with exps := s0 }) ∧
      RaceFreePasses K T.shape T.order (balancedLE K T.shape) [balancedLeafLoop T.mem.nLeaves] (balancedUp d T.height)
        (balancedDown d T.height T.mem.nLeaves) s0 ∧
      (∀ fuel ≥ fuel0, ∀ sch, Schedule sch → balancedFmm K fuel sch t S perCell eps = .ok T) ∧
      T.order = p ∧ T.height = h ∧
      (∀ x, r.containsHO x → L.adm (boxAt r (route r x h)).center x → ∀ grav, ∃ v, balancedEval O grav T x = .ok (if grav then v else -v) ∧
        L.nrm (v - L.direct S x) ≤ L.B (r.len / 2 ^ h) * totalStrength S) ∧
      (∀ x, r.containsHO x → ∀ (O' : Obs K V) (er : Err),
        (∀ e φ, L.isLE e (boxAt r (route r x h)).center φ → O'.le e x = .error er) →
        ∀ grav, balancedEval O' grav T x = .error er) := by
  obtain ⟨nb, s0, s1, a1, a2, a3, a4, a5⟩ := balancedFmm_ok L ht (eps := eps) hd hh hr hI.small hI.inside hI.box hord hI.height
  exact ⟨_, ⟨p, h, bfull r h, specSrc' Source.pos r S h, nb, s1⟩, s0, a2, a3, a4, rfl, rfl, fun x hx ha grav =>
    balancedEval_ok L hd hr hI.small hmor (fun s hs => containsHO_contains (hI.inside s hs)) a1 a5 hx grav ha,
    fun x hx O' er hbad grav =>
      balancedEval_error L hd hr hI.small hmor (fun s hs => containsHO_contains (hI.inside s hs)) a1 a5 hx grav O' hbad⟩

theorem balanced_main (L : FmmLaws K O p) {t : K.T} (ht : L.good t) (hd : 2 ≤ d)
    {S : List (Source d)} {perCell : ℕ} {eps : ℝ} {r : Box d} {h : ℕ} (hI : BalancedInput S perCell r h) (hh : 1 ≤ h)
    (hr : 0 < r.len) (hmor : h < 64 / d) (hord : expansionOrder (totalStrength S) eps = .ok p) :
    ∃ (fuel0 : ℕ) (T : BalancedFmm K) (s0 : Exps K BAddr),
      (∀ fuel ≥ fuel0, balancedInit K fuel t S perCell eps = .ok { T with exps := s0 }) ∧
      RaceFreePasses K T.shape T.order (balancedLE K T.shape) [balancedLeafLoop T.mem.nLeaves] (balancedUp d T.height)
        (balancedDown d T.height T.mem.nLeaves) s0 ∧
      (∀ fuel ≥ fuel0, ∀ sch, Schedule sch → balancedFmm K fuel sch t S perCell eps = .ok T) ∧
      T.order = p ∧ T.height = h ∧
      (∀ x, r.containsHO x → L.adm (boxAt r (route r x h)).center x → ∀ grav, ∃ v, balancedEval O grav T x = .ok (if grav then v else -v) ∧
        L.nrm (v - L.direct S x) ≤ L.B (r.len / 2 ^ h) * totalStrength S) := by
  obtain ⟨f, T, s0, h1, h2, h3, h4, h5, h6, -⟩ := balanced_full L ht hd hI hh hr hmor hord
  exact ⟨f, T, s0, h1, h2, h3, h4, h5, h6⟩

/-- The balanced tree consisting of a single leaf. -/
theorem balanced_single_full {t t' : K.T} {e : K.E} (hd : 2 ≤ d) (hd' : d ≤ 64)
    {S : List (Source d)} {perCell : ℕ} {eps : ℝ} {r : Box d} (hbox : rootBox (S.map Source.pos) = some r)
    (hht : balancedHeight d S.length perCell = .ok 0) (hord : expansionOrder (totalStrength S) eps = .ok p)
    (hnew : K.leNew t r.center p = .ok (t', e))
    {direct : Vec d → V} (hsum : ∀ x, O.sum true true S x = .ok (direct x)) :
    ∃ T : BalancedFmm K, (∀ fuel ≥ 1, ∀ sch, balancedFmm K fuel sch t S perCell eps = .ok T) ∧ T.order = p ∧ T.height = 0 ∧
      (∀ x, r.containsHO x → ∀ grav, balancedEval O grav T x =
        (O.le e x >>= fun v => .ok (if grav then v + direct x else -(v + direct x)))) := by
  have hoff : off (2 ^ d) (0 + 1) = 1 := rfl
  obtain ⟨nb, hnb, hlists⟩ := balancedLists_ok hd Source.pos (r := r) (h := 0) (Or.inr rfl) (by omega) S (Or.inl rfl)
  have hpos : 0 < 2 ^ d := by positivity
  obtain ⟨n, n1, n2, n3, n4, n5⟩ := bfull_get_path r (π := []) (h := 0) (fun _ h => by simp at h) (by simp)
  have hroot : baddr d 0 [] = .leaf 0 := by
    rw [baddr_leaf (h := 0) rfl]; rfl
  rw [hroot] at n1
  have hn0 := hnb 0 (by rw [hoff]; omega)
  have hg0 : glob (2 ^ d) 0 0 = .leaf 0 := by
    rw [glob_root]; rfl
  rw [hg0, hoff, if_pos (by omega), if_pos (by omega)] at hn0
  have hgp : gpath (2 ^ d) 0 = [] := by rw [gpath]
  have hnear : nb.near (.leaf 0) = [.leaf 0] := by
    rw [hn0.1, hgp]
    simp [PTree.own, hroot]
  have hsrc : (specSrc' Source.pos r S 0).get 0 = .ok S := by
    unfold specSrc' BSrc.get; simp
  have hsh : balancedShape (bfull r 0) (specSrc' Source.pos r S 0) nb (.leaf 0) = .ok
      { center := r.center, parent := none, children := (List.range (2 ^ d)).map n.child,
        near := [.leaf 0], inter := nb.inter (.leaf 0), X := [], W := [], sources := .ok S } := by
    unfold balancedShape
    rw [n1, ok_bind]
    simp only
    rw [n2, n4, hnear, hsrc]
    rfl
  have hN1 : (bfull r 0).nNodes = 0 := rfl
  have hN2 : (bfull r 0).nLeaves = 1 := rfl
  have hinit : ∀ fuel ≥ 1, balancedInit K fuel t S perCell eps = .ok ⟨p, 0, bfull r 0, specSrc' Source.pos r S 0, nb,
      (Exps.setMe ⟨t', fun _ => none, fun _ => none⟩ (.leaf 0) K.empty).setLe (.leaf 0) e⟩ := by
    intro fuel hf
    unfold balancedInit
    rw [hord, ok_bind, hht, ok_bind, hbox]
    simp only
    rw [hlists fuel hf, ok_bind]
    simp only [hN1, hN2]
    unfold forEach
    show (List.foldlM _ _ [BAddr.leaf 0] >>= _) = _
    rw [List.foldlM_cons]
    unfold initNode
    rw [hsh, ok_bind]
    simp only
    rw [hnew]
    rfl
  refine ⟨⟨p, 0, bfull r 0, specSrc' Source.pos r S 0, nb,
      (Exps.setMe ⟨t', fun _ => none, fun _ => none⟩ (.leaf 0) K.empty).setLe (.leaf 0) e⟩,
    fun fuel hf sch => ?_, rfl, rfl, ?_⟩
  · unfold balancedFmm
    rw [hinit fuel hf, ok_bind, if_pos rfl]
  · intro x hx grav
    have hr : 0 < r.len := by
      have := hx ⟨0, by omega⟩
      rw [Box.lower_apply, Box.upper_apply] at this
      linarith [this.1, this.2]
    have h64 : 0 < 64 / d := Nat.div_pos hd' (by omega)
    have := lookupLeaf_ok (h := 0) (by omega) hr (by omega) h64 hx
    unfold lookupLeaf at this
    unfold balancedEval
    simp only
    have hra : rootAddr 0 = .leaf 0 := rfl
    rw [hra, n1, ok_bind, n2]
    show (getLeafBoxIndices r 0 x >>= _) = _
    cases h5 : getLeafBoxIndices r 0 x with
    | error e => rw [h5, err_bind] at this; simp at this
    | ok idx =>
      rw [h5, ok_bind] at this
      rw [ok_bind, this, ok_bind]
      show evalLeaf O (balancedShape (bfull r 0) (specSrc' Source.pos r S 0) nb) grav _ (.leaf 0) x = _
      unfold evalLeaf
      rw [hsh, ok_bind]
      simp only [Exps.rdLe, Exps.setLe, Exps.setMe, Function.update_self]
      rw [ok_bind]
      cases O.le e x with
      | error er => simp only [err_bind]
      | ok w =>
        rw [ok_bind, List.foldlM_nil]
        show (Except.ok w >>= _) = _
        rw [ok_bind, List.foldlM_cons, hsh, ok_bind]
        simp only [decide_true]
        rw [ok_bind, hsum, ok_bind]
        simp only [List.foldlM_nil]
        rfl

theorem balanced_single {t t' : K.T} {e : K.E} (hd : 2 ≤ d) (hd' : d ≤ 64)
    {S : List (Source d)} {perCell : ℕ} {eps : ℝ} {r : Box d} (hbox : rootBox (S.map Source.pos) = some r)
    (hht : balancedHeight d S.length perCell = .ok 0) (hord : expansionOrder (totalStrength S) eps = .ok p)
    (hnew : K.leNew t r.center p = .ok (t', e))
    {P : Vec d → Prop} (hle : ∀ x, P x → O.le e x = .ok 0) {direct : Vec d → V} (hsum : ∀ x, O.sum true true S x = .ok (direct x)) :
    ∃ T : BalancedFmm K, (∀ fuel ≥ 1, ∀ sch, balancedFmm K fuel sch t S perCell eps = .ok T) ∧ T.order = p ∧ T.height = 0 ∧
      (∀ x, r.containsHO x → P x → ∀ grav, balancedEval O grav T x = .ok (if grav then direct x else -direct x)) := by
  obtain ⟨T, h1, h2, h3, h4⟩ := balanced_single_full (O := O) hd hd' hbox hht hord hnew hsum
  refine ⟨T, h1, h2, h3, fun x hx hP grav => ?_⟩
  rw [h4 x hx grav, hle x hP, ok_bind, zero_add]

end FMM
