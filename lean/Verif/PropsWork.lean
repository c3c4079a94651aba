import Verif.WorkRun

/-!
# C115: the number of operations

The work of the constructor of the adaptive tree and of the evaluations at all sources is linear in the number of nodes, which is at most
`1 + 2^d N h / (max + 1)`; nothing here depends on the positions of the sources, except for the height `h` of the tree.
-/

namespace FMM
variable {d : ℕ}

/-- Operations of the constructor of an adaptive tree with `I` inner nodes and `L` leaves. -/
structure AdaptiveWork (d N max h I L : ℕ) (c : Op → ℕ) : Prop where
  p2m : c .p2m = N
  m2m : c .m2m ≤ I * 2 ^ d
  l2l : c .l2l ≤ I + L
  m2l : c .m2l ≤ (I + L) * (6 ^ d - 3 ^ d)
  p2l : c .p2l ≤ (I + L) * ((3 ^ d - 1) * max)
  inner : I * (max + 1) ≤ N * h
  nodes : I + L ≤ 1 + 2 ^ d * I

/-- Operations of the evaluations at all sources. -/
structure AdaptiveEvalWork (d N max I L : ℕ) (c : EvOp → ℕ) : Prop where
  l2p : c .l2p = N
  m2p : c .m2p ≤ max * ((I + L) * (3 ^ d - 1))
  p2p : c .p2p ≤ max * (max * (L * (3 ^ d + (3 ^ d - 1))))

/-- The same tree with the same expansions, apart from the counter. -/
structure SameFmm {K : Kit d} (T : AdaptiveFmm K) (T' : AdaptiveFmm K.counted) : Prop where
  order : T'.order = T.order
  height : T'.height = T.height
  heap : T'.heap = T.heap
  nodes : T'.nodes = T.nodes
  leaves : T'.leaves = T.leaves
  nb : T'.nb = T.nb
  tables : T'.exps.t.1 = T.exps.t
  me : ∀ π e, T.exps.me π = some e → T'.exps.me π = some e
  le : ∀ π e, T.exps.le π = some e → T'.exps.le π = some e

namespace Work
variable {K : Kit d}

theorem sh_true {A : Type} (sh : Shape d A) : KitSim.Sh (fun _ : Vec d => True) (fun _ : Source d => True) sh :=
  fun _ _ _ => ⟨trivial, fun _ _ _ _ => trivial⟩

theorem same_of_sim {p : ℕ} {T : AdaptiveFmm K} {T' : AdaptiveFmm K.counted} (h : KitSim.ATree (sim K p) T T') : SameFmm T T' where
  order := h.order
  height := h.height
  heap := h.heap
  nodes := h.nodes
  leaves := h.leaves
  nb := h.nb
  tables := (h.exps.t : T.exps.t = T'.exps.t.1).symm
  me := fun π e he => by obtain ⟨e', h1, h2⟩ := h.exps.me π e he; rw [h1]; exact congrArg some (h2 : e = e').symm
  le := fun π e he => by obtain ⟨e', h1, h2⟩ := h.exps.le π e he; rw [h1]; exact congrArg some (h2 : e = e').symm

/-- The steps of a successful constructor. -/
theorem run_inv {rnd rlog : ℝ → ℝ} {nrm : Vec d → ℝ} {fuel : ℕ} {sch : ℕ → List Path → List Path} {t : K.T} {S : List (Source d)} {max : ℕ} {eps : ℝ}
    {T : AdaptiveFmm K} {r : Rounded.RBox ℝ d} (hbox : Rounded.sourceBox rnd S = some r) (hN : max < S.length)
    (h : Rounded.adaptiveFmm rnd rlog nrm K fuel sch t S max eps = .ok T) :
    ∃ st nb s0 up down, Rounded.adaptiveLists rnd nrm fuel Source.pos r S max = .ok (st, T.height, nb) ∧ T.heap = st.heap ∧ T.nodes = st.nodes ∧
      T.leaves = st.leaves ∧ T.nb = nb ∧
      forEach (initNode K (adaptiveShape st.heap nb) T.order) (st.nodes.flatten ++ st.leaves.flatten) ⟨t, fun _ => none, fun _ => none⟩ = .ok s0 ∧
      adaptiveUp st.nodes T.height = .ok up ∧ adaptiveDown st.nodes st.leaves T.height = .ok down ∧
      passes K (adaptiveShape st.heap nb) T.order (constructLE K (adaptiveShape st.heap nb) T.order) sch st.leaves up down s0 = .ok T.exps := by
  unfold Rounded.adaptiveFmm at h
  obtain ⟨T0, h0, h⟩ := bindOk h
  rw [if_neg (by omega)] at h
  unfold Rounded.adaptiveInit at h0
  obtain ⟨order, h1, h0⟩ := bindOk h0
  rw [hbox] at h0
  simp only at h0
  obtain ⟨⟨st, h', nb⟩, h2, h0⟩ := bindOk h0
  simp only at h0
  obtain ⟨s, h3, h0⟩ := bindOk h0
  injection h0 with h0
  subst h0
  simp only at h
  by_cases hc : h' ≠ st.nodes.length ∨ h' + 1 ≠ st.leaves.length
  · rw [if_pos hc] at h; cases h
  · rw [if_neg hc] at h
    obtain ⟨up, h4, h⟩ := bindOk h
    obtain ⟨down, h5, h⟩ := bindOk h
    obtain ⟨s1, h6, h⟩ := bindOk h
    injection h with h
    subst h
    exact ⟨st, nb, s, up, down, h2, rfl, rfl, rfl, rfl, h3, h4, h5, h6⟩

theorem mapM_counted {V : Type} {α : Type} {f : α → Outcome V} {f' : α → Outcome (V × (EvOp → ℕ))} {g : α → EvOp → ℕ} :
    ∀ (l : List α) (vs : List V), (∀ a ∈ l, ∀ v, f a = .ok v → ∃ w, f' a = .ok w ∧ v = w.1 ∧ w.2 = g a) → l.mapM f = .ok vs →
      ∃ ws, l.mapM f' = .ok ws ∧ ws.map Prod.fst = vs ∧ ws.map Prod.snd = l.map g
  | [], vs, _, h => by
    rw [List.mapM_nil] at h
    injection h with h
    subst h
    exact ⟨[], List.mapM_nil, rfl, rfl⟩
  | a :: l, vs, hf, h => by
    rw [List.mapM_cons] at h
    obtain ⟨v, h1, h⟩ := bindOk h
    obtain ⟨vs', h2, h⟩ := bindOk h
    injection h with h
    subst h
    obtain ⟨w, k1, k2, k3⟩ := hf a (by simp) v h1
    obtain ⟨ws, j1, j2, j3⟩ := mapM_counted l vs' (fun b hb => hf b (by simp [hb])) h2
    refine ⟨w :: ws, by rw [List.mapM_cons, k1, ok_bind, j1, ok_bind]; rfl, ?_, ?_⟩
    · rw [List.map_cons, j2, k2]
    · rw [List.map_cons, j3, k3, List.map_cons]

theorem sum_apply {α : Type} (g : α → EvOp → ℕ) (o : EvOp) (l : List α) : (l.map g).sum o = (l.map fun a => g a o).sum := by
  induction l with
  | nil => rfl
  | cons a l ih => rw [List.map_cons, List.sum_cons, Pi.add_apply, ih, List.map_cons, List.sum_cons]

end Work

open Work Rounded in
/-- **C115** The adaptive tree, in exact (`rnd = id`, `u = 0`) or floating-point arithmetic.  A constructor that counts its operations computes the
same tree with the same expansions, for every schedule of the parallel loops; the counts are bounded.  Evaluations that count their operations
compute the same values; if the leaf of every source is found, the counts of all evaluations at the sources are bounded. -/
theorem C115_adaptive {K : Kit d} {rnd rlog : ℝ → ℝ} {nrm : Vec d → ℝ} {u C : ℝ} {r : RBox ℝ d} {S : List (Source d)} {max fuel : ℕ} {eps : ℝ} {t : K.T}
    {sch : ℕ → List Path → List Path} {T : AdaptiveFmm K} (hu : 0 ≤ u) (hL : 0 < r.len) (hC0 : 0 ≤ C) (H : RndOn rnd u (4 * (C + r.len)))
    (hC : ∀ i, |r.center i| ≤ C) (hnrm : ∀ v, r.len / 2 ^ T.height ≤ Vec.norm v → 999 / 1000 * Vec.norm v ≤ nrm v)
    (hk : 100 * ((8 * T.height + 15) * (u * (4 * (C + r.len)))) < r.len / 2 ^ (T.height + 1))
    (hbox : sourceBox rnd S = some r) (hs : Schedule sch) (hN : max < S.length)
    (hT : Rounded.adaptiveFmm rnd rlog nrm K fuel sch t S max eps = .ok T) :
    ∃ T', Rounded.adaptiveFmm rnd rlog nrm K.counted fuel sch (t, 0) S max eps = .ok T' ∧ SameFmm T T' ∧
      AdaptiveWork d S.length max T.height T.nodes.flatten.length T.leaves.flatten.length T'.exps.t.2 ∧
      ∀ (V : Type) (O : Obs K V) (add : V → V → V) (neg : V → V) (grav : Bool) (f : ℕ), T.height < f →
        (∀ s ∈ S, Rounded.getContainingLeaf rnd f T.heap s.pos ≠ .ok none) →
        ∀ vs, (S.mapM fun s => Rounded.adaptiveEval rnd add neg O f grav T S s.pos) = .ok vs →
        ∃ ws, (S.mapM fun s => Rounded.adaptiveEval rnd (addC add) (negC neg) O.counted f grav T' S s.pos) = .ok ws ∧
          ws.map Prod.fst = vs ∧
          AdaptiveEvalWork d S.length max T.nodes.flatten.length T.leaves.flatten.length (ws.map Prod.snd).sum := by
  obtain ⟨T', h1, h2⟩ := KitSim.adaptiveFmm (M := sim K T.order) (t := t) (t' := (t, 0)) sch rfl hT rfl (sh_true _)
  refine ⟨T', h1, same_of_sim h2, ?_⟩
  obtain ⟨st, nb, s0, up, down, k1, k2, k3, k4, k5, k6, k7, k8, k9⟩ := run_inv hbox hN h1
  rw [h2.height] at k1 k7 k8
  obtain ⟨stE, fuel', n, hE, rfl, hn⟩ := lists_on hu hL hC0 H hC hnrm k1 hk
  have hr : 0 < r.exact.len := hL
  have hup := Rel.up_ok hN hr hE
  have hdn := Rel.down_ok hN hr hE
  have e1 : up = upLoops id T.height (nodeLevel (fun s : Source d => shadow rnd r n s.pos) r.exact S max) :=
    Except.ok.inj (k7.symm.trans hup)
  have e2 : down = downLoops id T.height (Rel.fullLevel (fun s : Source d => shadow rnd r n s.pos) r.exact S max) :=
    Except.ok.inj (k8.symm.trans hdn)
  subst e1 e2
  have hTR := Rel.adaptive_treeR (bxR rnd r) hr hE
  have hLo := Rel.loopsOK hN hr hE
  have hH := Rel.height_pos hN hE hr
  have eL : stE.leaves = leafLoops id stE.leaves := by unfold leafLoops; simp
  have k9' : passes K.counted (adaptiveShape (liftH (bxR rnd r) stE.heap) nb) T'.order
      (constructLE K.counted (adaptiveShape (liftH (bxR rnd r) stE.heap) nb) T'.order) sch (leafLoops id stE.leaves)
      (upLoops id T.height (nodeLevel (fun s : Source d => shadow rnd r n s.pos) r.exact S max))
      (downLoops id T.height (Rel.fullLevel (fun s : Source d => shadow rnd r n s.pos) r.exact S max)) s0 = .ok T'.exps := by
    rw [← eL]; exact k9
  have hw := passes_work hTR hH hLo hs k9'
  have hs0 : s0.t.2 = 0 := by
    have := cost_forEach (c := fun _ => 0) (fun a s s1 h => by rw [cost_init h, add_zero]) k6
    rw [this]
    show (0 : Op → ℕ) + _ = 0
    rw [zero_add]
    exact List.sum_eq_zero fun x hx => by obtain ⟨_, _, rfl⟩ := List.mem_map.mp hx; rfl
  obtain ⟨b1, b2, b3, b4, b5, b6, b7⟩ := Work.bounds hN hr hE
  have f1 : T.nodes = stE.nodes := by rw [← h2.nodes, k3]; rfl
  have f2 : T.leaves = stE.leaves := by rw [← h2.leaves, k4]; rfl
  rw [f1, f2]
  refine ⟨⟨?_, ?_, ?_, ?_, ?_, b6, b7⟩, ?_⟩
  · rw [hw, hs0]; simpa using b1
  · rw [hw, hs0]; simpa using b2
  · rw [hw, hs0]; simpa using b3
  · rw [hw, hs0]; simpa using b4
  · rw [hw, hs0]; simpa using b5
  intro V O add neg grav f hf hfound vs hvs
  obtain ⟨-, q1, q2, q3⟩ := lists_result (Or.inl hr) hE
  have hHm : ∀ π, (fmmTree (fun s : Source d => shadow rnd r n s.pos) r.exact S max).Mem π → π.length ≤ T.height := hTR.hH
  have hheap : T.heap = liftH (bxR rnd r) (treeHeap (fmmTree (fun s : Source d => shadow rnd r n s.pos) r.exact S max) r.exact
      (itemsAt (fun s : Source d => shadow rnd r n s.pos) r.exact S)) := by
    rw [← h2.heap, k2, ← q1]; rfl
  have hshape : T'.shape = adaptiveShape (liftH (bxR rnd r) stE.heap) nb := by
    unfold AdaptiveFmm.shape; rw [k2, k5]; rfl
  -- the leaf of a source
  have hleaf : ∀ s ∈ S, ∃ π, Rounded.getContainingLeaf rnd f T.heap s.pos = .ok (some π) ∧
      (fmmTree (fun s : Source d => shadow rnd r n s.pos) r.exact S max).Mem π ∧
      (fmmTree (fun s : Source d => shadow rnd r n s.pos) r.exact S max).leaf π = true ∧
      ∀ ρ ∈ stE.leaves.flatten, s ∈ itemsAt (fun s : Source d => shadow rnd r n s.pos) r.exact S ρ → ρ = π := by
    intro s hs'
    obtain ⟨k, -, m1, m2, m3⟩ := Fl.lookup (rnd := rnd) (it := itemsAt (fun s : Source d => shadow rnd r n s.pos) r.exact S) hL hTR.hc hHm s.pos
    have m3 := m3 f hf
    rw [← hheap] at m3
    by_cases hc : (Rounded.boxAt rnd r (Rounded.route rnd r s.pos k)).contains rnd s.pos = true
    · rw [if_pos hc] at m3
      refine ⟨_, m3, m1, m2, fun ρ hρ hsρ => ?_⟩
      by_contra hne
      obtain ⟨a, b⟩ := ((flat_nodes hN hr hE).2.2.2.1 ρ).mp hρ
      exact Fl.other_leaf hL hn hHm m1 m2 ρ a b hne s hsρ rfl
    · rw [if_neg hc] at m3
      exact absurd m3 (hfound s hs')
  set g : Source d → EvOp → ℕ := fun s => match Rounded.getContainingLeaf rnd f T.heap s.pos with
    | .ok (some π) => evCost (adaptiveShape (liftH (bxR rnd r) stE.heap) nb) π
    | _ => 0 with hg
  obtain ⟨ws, w1, w2, w3⟩ := mapM_counted (f' := fun s => Rounded.adaptiveEval rnd (addC add) (negC neg) O.counted f grav T' S s.pos) (g := g) S vs (by
    intro s hs' v hv
    obtain ⟨w, a1, a2⟩ := KitSim.adaptiveEval (obsSim T.order O) (add' := addC add) (neg' := negC neg)
      (fun {v v' w w'} h h' => by show add v w = add v'.1 w'.1; rw [show v = v'.1 from h, show w = w'.1 from h'])
      (fun {v v'} h => by show neg v = neg v'.1; rw [show v = v'.1 from h]) (fun _ _ => trivial) grav h2 (sh_true _) (x := s.pos) trivial hv
    refine ⟨w, a1, a2, ?_⟩
    obtain ⟨π, p1, -⟩ := hleaf s hs'
    simp only [hg, p1]
    unfold Rounded.adaptiveEval at a1
    rw [h2.heap, p1, ok_bind] at a1
    simp only at a1
    rw [hshape] at a1
    exact cost_evalLeaf a1) hvs
  refine ⟨ws, w1, w2, ?_⟩
  rw [w3]
  have hgv : ∀ π ∈ stE.leaves.flatten, ∀ s ∈ itemsAt (fun s : Source d => shadow rnd r n s.pos) r.exact S π,
      g s = evCost (adaptiveShape (liftH (bxR rnd r) stE.heap) nb) π := by
    intro π hπ s hs'
    obtain ⟨ρ, p1, -, -, p2⟩ := hleaf s (List.mem_filter.mp hs').1
    rw [p2 π hπ hs']
    simp only [hg, p1]
  have hm := (flat_nodes hN hr hE).2.2.2.1
  obtain ⟨c1, c2⟩ := eval_bounds hN hr hE (fun s => g s .m2p) (fun s => g s .p2p)
    (fun π hπ s hs' => by
      show g s .m2p = _
      rw [hgv π hπ s hs', ← Work.n_W hTR ((hm π).mp hπ).1 ((hm π).mp hπ).2]
      simp [evCost])
    (fun π hπ s hs' => by
      show g s .p2p = _
      rw [hgv π hπ s hs', ← Work.n_near hTR ((hm π).mp hπ).1 ((hm π).mp hπ).2]
      simp [evCost])
  refine ⟨?_, ?_, ?_⟩
  · rw [Work.sum_apply]
    have : (S.map fun s => g s .l2p) = S.map fun _ => 1 := by
      refine List.map_congr_left fun s hs' => ?_
      obtain ⟨π, p1, -⟩ := hleaf s hs'
      simp only [hg, p1]
      simp [evCost]
    rw [this]; simp
  · rw [Work.sum_apply]; exact c1
  · rw [Work.sum_apply]; exact c2

end FMM
