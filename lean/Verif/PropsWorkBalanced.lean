import Verif.PropsWork
import Verif.FltBalanced

/-!
# C115: the number of operations, balanced tree
-/

namespace FMM
variable {d : ℕ}

/-- Operations of the constructor of a balanced tree with `L` leaves. -/
structure BalancedWork (d N L : ℕ) (c : Op → ℕ) : Prop where
  p2m : c .p2m = N
  m2m : c .m2m ≤ 2 * L
  l2l : c .l2l ≤ 2 * L
  m2l : c .m2l ≤ 2 * L * (6 ^ d - 3 ^ d)
  p2l : c .p2l = 0

/-- Operations of the evaluations at `n` points, if no leaf holds more than `m` sources. -/
structure BalancedEvalWork (d n m : ℕ) (c : EvOp → ℕ) : Prop where
  l2p : c .l2p = n
  m2p : c .m2p = 0
  p2p : c .p2p ≤ n * (3 ^ d * m)

/-- The same tree with the same expansions, apart from the counter. -/
structure SameBalancedFmm {K : Kit d} (T : BalancedFmm K) (T' : BalancedFmm K.counted) : Prop where
  order : T'.order = T.order
  height : T'.height = T.height
  mem : T'.mem = T.mem
  src : T'.src = T.src
  nb : T'.nb = T.nb
  tables : T'.exps.t.1 = T.exps.t
  me : ∀ π e, T.exps.me π = some e → T'.exps.me π = some e
  le : ∀ π e, T.exps.le π = some e → T'.exps.le π = some e

namespace Work
variable {K : Kit d}

theorem sameB_of_sim {p : ℕ} {T : BalancedFmm K} {T' : BalancedFmm K.counted} (h : KitSim.BTree (sim K p) T T') : SameBalancedFmm T T' where
  order := h.order
  height := h.height
  mem := h.mem
  src := h.src
  nb := h.nb
  tables := (h.exps.t : T.exps.t = T'.exps.t.1).symm
  me := fun π e he => by obtain ⟨e', h1, h2⟩ := h.exps.me π e he; rw [h1]; exact congrArg some (h2 : e = e').symm
  le := fun π e he => by obtain ⟨e', h1, h2⟩ := h.exps.le π e he; rw [h1]; exact congrArg some (h2 : e = e').symm

/-- The steps of a successful constructor. -/
theorem run_invB {rnd rlog : ℝ → ℝ} {nrm : Vec d → ℝ} {fuel : ℕ} {sch : ℕ → List BAddr → List BAddr} {t : K.T} {S : List (Source d)} {n : ℕ} {eps : ℝ}
    {T : BalancedFmm K} {r : Rounded.RBox ℝ d} (hbox : Rounded.sourceBox rnd S = some r) (h0 : T.height ≠ 0)
    (h : Rounded.balancedFmm rnd rlog nrm K fuel sch t S n eps = .ok T) :
    ∃ s0, Rounded.balancedLists rnd nrm fuel Source.pos r S T.height = .ok (T.mem, T.src, T.nb) ∧
      forEach (initNode K T.shape T.order) ((List.range T.mem.nNodes).map BAddr.node ++ (List.range T.mem.nLeaves).map BAddr.leaf)
        ⟨t, fun _ => none, fun _ => none⟩ = .ok s0 ∧
      passes K T.shape T.order (balancedLE K T.shape) sch [balancedLeafLoop T.mem.nLeaves] (balancedUp d T.height)
        (balancedDown d T.height T.mem.nLeaves) s0 = .ok T.exps := by
  unfold Rounded.balancedFmm at h
  obtain ⟨T0, h1, h⟩ := bindOk h
  unfold Rounded.balancedInit at h1
  obtain ⟨order, -, h1⟩ := bindOk h1
  obtain ⟨hh, -, h1⟩ := bindOk h1
  rw [hbox] at h1
  simp only at h1
  obtain ⟨⟨m, src, nb⟩, h2, h1⟩ := bindOk h1
  simp only at h1
  obtain ⟨s, h3, h1⟩ := bindOk h1
  injection h1 with h1
  subst h1
  simp only at h
  by_cases hc : hh = 0
  · rw [if_pos hc] at h
    injection h with h
    subst h
    exact absurd hc h0
  · rw [if_neg hc] at h
    obtain ⟨s1, h6, h⟩ := bindOk h
    injection h with h
    subst h
    exact ⟨s, h2, h3, h6⟩

/-- Inner nodes of a full tree. -/
theorem off_le (hd : 1 ≤ d) (h : ℕ) : off (2 ^ d) h * (2 ^ d - 1) + 1 = (2 ^ d) ^ h := by
  have h2 : 2 ≤ 2 ^ d := by calc 2 = 2 ^ 1 := rfl
    _ ≤ 2 ^ d := Nat.pow_le_pow_right (by norm_num) hd
  induction h with
  | zero => simp [off]
  | succ h ih =>
    rw [off_succ, pow_succ, ← ih]
    obtain ⟨c, hc⟩ : ∃ c, 2 ^ d = c + 1 := ⟨2 ^ d - 1, by omega⟩
    rw [hc]
    simp only [Nat.add_sub_cancel]
    rw [hc] at ih
    simp only [Nat.add_sub_cancel] at ih
    ring

end Work

open Work Rounded in
/-- **C115** The balanced tree, in exact (`rnd = id`, `u = 0`) or floating-point arithmetic.  A constructor that counts its operations computes the
same tree with the same expansions, for every schedule; its counts are bounded by the number of leaves.  Evaluations that count their operations
compute the same values, with one local expansion, no multipole expansion and at most `3^d` leaves per point. -/
theorem C115_balanced {K : Kit d} {rnd rlog : ℝ → ℝ} {nrm : Vec d → ℝ} {u C : ℝ} {r : RBox ℝ d} {S : List (Source d)} {perCell fuel : ℕ} {eps : ℝ}
    {t : K.T} {sch : ℕ → List BAddr → List BAddr} {T : BalancedFmm K} (hd : 2 ≤ d) (hu : 0 ≤ u) (hL : 0 < r.len) (hC0 : 0 ≤ C)
    (H : RndOn rnd u (4 * (C + r.len))) (I : RndIx rnd u r.len)
    (hC : ∀ i, |r.center i| ≤ C) (hnrm : ∀ v, r.len / 2 ^ T.height ≤ Vec.norm v → 999 / 1000 * Vec.norm v ≤ nrm v)
    (hk : 100 * ((8 * T.height + 15) * (u * (4 * (C + r.len)))) < r.len / 2 ^ (T.height + 1))
    (hbox : sourceBox rnd S = some r) (hs : Schedule sch) (h0 : T.height ≠ 0) (hdh : d * T.height ≤ 32)
    (hf : off (2 ^ d) (T.height + 1) ≤ fuel)
    (hT : Rounded.balancedFmm rnd rlog nrm K fuel sch t S perCell eps = .ok T) :
    ∃ T', Rounded.balancedFmm rnd rlog nrm K.counted fuel sch (t, 0) S perCell eps = .ok T' ∧ SameBalancedFmm T T' ∧
      BalancedWork d S.length ((2 ^ d) ^ T.height) T'.exps.t.2 ∧
      ∀ (V : Type) (O : Obs K V) (add : V → V → V) (neg : V → V) (grav : Bool) (m : ℕ), (∀ k < (2 ^ d) ^ T.height, (T.src.getD k).length ≤ m) →
        ∀ (P : List (Vec d)) (vs : List V), (P.mapM fun x => Rounded.balancedEval rnd add neg O grav T x) = .ok vs →
        ∃ ws, (P.mapM fun x => Rounded.balancedEval rnd (addC add) (negC neg) O.counted grav T' x) = .ok ws ∧
          ws.map Prod.fst = vs ∧ BalancedEvalWork d P.length m (ws.map Prod.snd).sum := by
  obtain ⟨T', h1, h2⟩ := KitSim.balancedFmm (M := sim K T.order) (t := t) (t' := (t, 0)) sch rfl hT rfl (sh_true _)
  refine ⟨T', h1, sameB_of_sim h2, ?_⟩
  obtain ⟨s0, k1, k2, k3⟩ := run_invB hbox (by rw [h2.height]; exact h0) h1
  rw [h2.height] at k1 k3
  have hx := balancedLists_inv hd hdh hf k1
  obtain ⟨nb, n1, n2⟩ := balancedLists_on (pos := Source.pos) hd hu hL hC0 H I hC hnrm hdh hk hx
  have e := Except.ok.inj (k1.symm.trans (n2 fuel hf))
  have e1 : T'.mem = liftM (bxB rnd r T.height) (bfull r.exact T.height) := congrArg Prod.fst e
  have e2 : T'.src = specSrc' (fun s => bshadow rnd r T.height s.pos) r.exact S T.height := congrArg (fun x => x.2.1) e
  have e3 : T'.nb = nb := congrArg (fun x => x.2.2) e
  have hsh : T'.shape = Rel.bshape rnd r S T.height nb := by unfold BalancedFmm.shape; rw [e1, e2, e3]; rfl
  have hr : 0 < r.exact.len := hL
  have hTR : Rel.TreeR (fullTree r.exact T.height) r.exact (fun π => (bxR rnd r π).center)
      (itemsAt (fun s => bshadow rnd r T.height s.pos) r.exact S) (Rel.bshape rnd r S T.height nb) (baddr d T.height) T.height :=
    Rel.balanced_treeR _ (fun π hπ => by rw [bxB_baddr hπ]) hL hdh n1
  have hLo := balanced_loopsOK (r := r.exact) (h := T.height)
  have hh : 1 ≤ T.height := by omega
  have nL : T'.mem.nLeaves = (2 ^ d) ^ T.height := by rw [e1]; rfl
  have eL : leafLoops (baddr d T.height) [leafPaths d T.height] = [balancedLeafLoop ((2 ^ d) ^ T.height)] := by
    show [_] = [_]
    rw [balancedLeafLoop_eq]
  rw [nL, ← eL, balancedUp_eq hd, balancedDown_eq hd hh, hsh] at k3
  have hw := passes_workB hTR hh hLo hs k3
  have hs0 : s0.t.2 = 0 := by
    have := cost_forEach (c := fun _ => 0) (fun a s s1 h => by rw [cost_init h, add_zero]) k2
    rw [this]
    show (0 : Op → ℕ) + _ = 0
    rw [zero_add]
    exact List.sum_eq_zero fun x hx => by obtain ⟨_, _, rfl⟩ := List.mem_map.mp hx; rfl
  have hm := fullTree_mem r.exact T.height
  -- numbers of nodes
  have hoff := Work.off_le (d := d) (by omega) T.height
  have h4 : 4 ≤ 2 ^ d := by calc 4 = 2 ^ 2 := rfl
    _ ≤ 2 ^ d := Nat.pow_le_pow_right (by norm_num) hd
  have hI : off (2 ^ d) T.height * 3 ≤ off (2 ^ d) T.height * (2 ^ d - 1) := Nat.mul_le_mul_left _ (by omega)
  have hnodes : ∀ l : List Path, l.Nodup → (∀ π ∈ l, ValidPath d π ∧ π.length < T.height) → l.length ≤ off (2 ^ d) T.height := by
    intro l hn hl
    have := length_le_of_subset (m := (List.range (off (2 ^ d) T.height)).map (gpath (2 ^ d))) hn fun π hπ => by
      refine List.mem_map.mpr ⟨gidx (2 ^ d) π, ?_, gpath_gidx _ _ (hl π hπ).1⟩
      rw [List.mem_range, ← gpath_length_lt _ (by positivity), gpath_gidx _ _ (hl π hπ).1]
      exact (hl π hπ).2
    simpa using this
  have hall : ∀ l : List Path, l.Nodup → (∀ π ∈ l, ValidPath d π ∧ π.length ≤ T.height) → l.length ≤ off (2 ^ d) T.height + (2 ^ d) ^ T.height := by
    intro l hn hl
    rw [← off_succ]
    have := length_le_of_subset (m := (List.range (off (2 ^ d) (T.height + 1))).map (gpath (2 ^ d))) hn fun π hπ => by
      refine List.mem_map.mpr ⟨gidx (2 ^ d) π, ?_, gpath_gidx _ _ (hl π hπ).1⟩
      rw [List.mem_range, ← gpath_length_lt _ (by positivity), gpath_gidx _ _ (hl π hπ).1]
      exact Nat.lt_succ_of_le (hl π hπ).2
    simpa using this
  obtain ⟨u1, u2⟩ := upP_ok hLo
  obtain ⟨d1, d2⟩ := dnP_ok hh hLo
  have hup : (upP T.height (leafPaths d)).length ≤ off (2 ^ d) T.height := hnodes _ u1 fun π hπ => by
    obtain ⟨a, b⟩ := u2 π hπ
    exact ⟨((hm π).mp a).1, by simpa [fullTree] using b⟩
  have hdn : (dnP T.height (leafPaths d)).length ≤ 2 * (2 ^ d) ^ T.height := by
    have := hall _ d1 fun π hπ => (hm π).mp ((d2 π).mp hπ).1
    omega
  refine ⟨⟨?_, ?_, ?_, ?_, ?_⟩, ?_⟩
  · rw [hw, hs0]
    have := (itemsAt_perm (pos := fun s : Source d => bshadow rnd r T.height s.pos) (r := r.exact) (items := S) (fullTree r.exact T.height) rfl T.height
      (fun π hπ => ((hm π).mp hπ).2) (leafPaths d T.height) (nodup_leafPaths _) (mem_leafPaths r.exact T.height)).length_eq
    rw [List.length_flatMap] at this
    simpa using this
  · rw [hw, hs0]
    have h5 : (upP T.height (leafPaths d)).length * 2 ^ d ≤ off (2 ^ d) T.height * 2 ^ d := Nat.mul_le_mul_right _ hup
    have h6 : off (2 ^ d) T.height * 2 ^ d = off (2 ^ d) T.height * (2 ^ d - 1) + off (2 ^ d) T.height := by
      obtain ⟨c, hc⟩ : ∃ c, 2 ^ d = c + 1 := ⟨2 ^ d - 1, by omega⟩
      rw [hc, Nat.add_sub_cancel]; ring
    have : (upP T.height (leafPaths d)).length * 2 ^ d ≤ 2 * (2 ^ d) ^ T.height := by omega
    simpa using this
  · rw [hw, hs0]; simpa using hdn
  · rw [hw, hs0]
    have := (sum_le_mul (fun π => ((fullTree r.exact T.height).inter π).length) (dnP T.height (leafPaths d)) (6 ^ d - 3 ^ d)
      fun π hπ => inter_card hr (fullTree_adjOf _ _) rfl ((d2 π).mp hπ).1).trans (Nat.mul_le_mul_right _ hdn)
    simpa using this
  · rw [hw, hs0]; simp
  intro V O add neg grav m hmax P vs hvs
  have hbucket : ∀ π, ValidPath d π → π.length = T.height → (itemsAt (fun s => bshadow rnd r T.height s.pos) r.exact S π).length ≤ m := by
    intro π hv hl
    have a := hmax (pathIndex d π) (by rw [← hl]; exact pathIndex_lt π hv)
    rwa [← h2.src, e2, specSrc'_getD hdh hv hl] at a
  -- the operations of an evaluation
  have hcost : ∀ x w, Rounded.balancedEval rnd (addC add) (negC neg) O.counted grav T' x = .ok w →
      w.2 .l2p = 1 ∧ w.2 .m2p = 0 ∧ w.2 .p2p ≤ 3 ^ d * m := by
    intro x w hw
    unfold Rounded.balancedEval at hw
    obtain ⟨root, g1, hw⟩ := bindOk hw
    obtain ⟨idx, g2, hw⟩ := bindOk hw
    obtain ⟨k, g3, hw⟩ := bindOk hw
    rw [h2.height] at g2 g3
    have hpl := pathOfGrid_length T.height idx
    have hpv := pathOfGrid_valid T.height idx
    have hmor : getMortonIndex T.height idx = .ok (pathIndex d (pathOfGrid T.height idx)) := by
      have := getMortonIndex_grid (d := d) (by omega) (pathOfGrid T.height idx) hpv (by
        rw [hpl]
        refine Nat.lt_of_succ_le ((Nat.le_div_iff_mul_le (by omega)).mpr ?_)
        have : d * 1 ≤ d * T.height := Nat.mul_le_mul_left _ hh
        rw [Nat.succ_mul, Nat.mul_comm]
        omega)
      rwa [hpl, grid_pathOfGrid T.height idx fun j => (leafIndices_inv g2 j).1] at this
    have hkk : k = pathIndex d (pathOfGrid T.height idx) := Except.ok.inj (g3.symm.trans hmor)
    have hmem : (fullTree r.exact T.height).Mem (pathOfGrid T.height idx) := (hm _).mpr ⟨hpv, hpl.le⟩
    have hlf : (fullTree r.exact T.height).leaf (pathOfGrid T.height idx) = true := by simp [fullTree, hpl]
    rw [hkk, ← baddr_leaf hpl, hsh] at hw
    have c := cost_evalLeaf hw
    refine ⟨by rw [c]; simp [evCost], ?_, ?_⟩
    · rw [c]
      have := n_W hTR hmem hlf
      rw [fullTree_W hr] at this
      simpa [evCost] using this
    · rw [c]
      have := n_near hTR hmem hlf
      rw [fullTree_near hr hmem] at this
      have e : evCost (Rel.bshape rnd r S T.height nb) (baddr d T.height (pathOfGrid T.height idx)) .p2p
          = nOf (Rel.bshape rnd r S T.height nb) (fun n => (n.near.map (nSrc (Rel.bshape rnd r S T.height nb))).sum)
            (baddr d T.height (pathOfGrid T.height idx)) := by simp [evCost]
      rw [e, this]
      refine (sum_le_mul _ _ m fun ρ hρ => ?_).trans (Nat.mul_le_mul_right _ (Fl.own_card hr hmem))
      obtain ⟨a, b, -⟩ := fullTree_own_mem hr hmem hρ
      exact hbucket ρ a (b.trans hpl)
  set g : Vec d → EvOp → ℕ := fun x => match Rounded.balancedEval rnd (addC add) (negC neg) O.counted grav T' x with
    | .ok w => w.2
    | .error _ => 0 with hg
  obtain ⟨ws, w1, w2, w3⟩ := mapM_counted (f' := fun x => Rounded.balancedEval rnd (addC add) (negC neg) O.counted grav T' x) (g := g) P vs (by
    intro x _ v hv
    obtain ⟨w, a1, a2⟩ := KitSim.balancedEval (obsSim T.order O) (add' := addC add) (neg' := negC neg)
      (fun {v v' w w'} h h' => by show add v w = add v'.1 w'.1; rw [show v = v'.1 from h, show w = w'.1 from h'])
      (fun {v v'} h => by show neg v = neg v'.1; rw [show v = v'.1 from h]) grav h2 (sh_true _) (x := x) trivial hv
    exact ⟨w, a1, a2, by simp only [hg, a1]⟩) hvs
  refine ⟨ws, w1, w2, ?_⟩
  have hlen : ws.length = P.length := by rw [mapM_length P w1]
  have hall' : ∀ w ∈ ws, w.2 .l2p = 1 ∧ w.2 .m2p = 0 ∧ w.2 .p2p ≤ 3 ^ d * m := by
    have : ∀ (P : List (Vec d)) (ws : List (V × (EvOp → ℕ))),
        (P.mapM fun x => Rounded.balancedEval rnd (addC add) (negC neg) O.counted grav T' x) = .ok ws →
        ∀ w ∈ ws, w.2 .l2p = 1 ∧ w.2 .m2p = 0 ∧ w.2 .p2p ≤ 3 ^ d * m := by
      intro P
      induction P with
      | nil =>
        intro ws h w hw
        rw [List.mapM_nil] at h
        injection h with h
        subst h
        simp at hw
      | cons x P ih =>
        intro ws h w hw
        rw [List.mapM_cons] at h
        obtain ⟨v, g1, h⟩ := bindOk h
        obtain ⟨vs', g2, h⟩ := bindOk h
        injection h with h
        subst h
        rcases List.mem_cons.mp hw with rfl | hw
        · exact hcost x _ g1
        · exact ih vs' g2 w hw
    exact this P ws w1
  refine ⟨?_, ?_, ?_⟩
  · rw [Work.sum_apply, ← hlen]
    have : (ws.map fun a => a.2 EvOp.l2p) = ws.map fun _ => 1 := List.map_congr_left fun w hw => (hall' w hw).1
    rw [this]; simp
  · rw [Work.sum_apply]
    exact List.sum_eq_zero fun x hx => by obtain ⟨w, hw, rfl⟩ := List.mem_map.mp hx; exact (hall' w hw).2.1
  · rw [Work.sum_apply, ← hlen]
    exact sum_le_mul _ _ _ fun w hw => (hall' w hw).2.2

end FMM
