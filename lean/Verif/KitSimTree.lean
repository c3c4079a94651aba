import Verif.KitSim

/-!
# The constructors and the evaluation functions with two arithmetics of the expansions
-/

namespace FMM.KitSim
variable {d : ℕ} {K K' : Kit d} {p : ℕ} {C : Vec d → Prop} {S : Source d → Prop} {M : KitSim K K' p C S}

/-- The same tree, with corresponding expansions. -/
structure ATree (M : KitSim K K' p C S) (T : AdaptiveFmm K) (T' : AdaptiveFmm K') : Prop where
  order : T'.order = T.order
  height : T'.height = T.height
  heap : T'.heap = T.heap
  nodes : T'.nodes = T.nodes
  leaves : T'.leaves = T.leaves
  nb : T'.nb = T.nb
  exps : M.St T.exps T'.exps

theorem ATree.shape {T : AdaptiveFmm K} {T' : AdaptiveFmm K'} (h : ATree M T T') : T'.shape = T.shape := by
  unfold AdaptiveFmm.shape
  rw [h.heap, h.nb]

/-- The same tree, with corresponding expansions. -/
structure BTree (M : KitSim K K' p C S) (T : BalancedFmm K) (T' : BalancedFmm K') : Prop where
  order : T'.order = T.order
  height : T'.height = T.height
  mem : T'.mem = T.mem
  src : T'.src = T.src
  nb : T'.nb = T.nb
  exps : M.St T.exps T'.exps

theorem BTree.shape {T : BalancedFmm K} {T' : BalancedFmm K'} (h : BTree M T T') : T'.shape = T.shape := by
  unfold BalancedFmm.shape
  rw [h.mem, h.src, h.nb]

theorem St.init {A : Type} {t : K.T} {t' : K'.T} (ht : M.RT t t') : M.St (A := A) ⟨t, fun _ => none, fun _ => none⟩ ⟨t', fun _ => none, fun _ => none⟩ :=
  ⟨ht, fun a e h => (by cases h), fun a e h => (by cases h)⟩

variable {rnd rlog : ℝ → ℝ} {nrm : Vec d → ℝ} {fuel : ℕ} {t : K.T} {t' : K'.T} {sources : List (Source d)} {n : ℕ} {eps : ℝ}

theorem adaptiveInit (ht : M.RT t t') {T : AdaptiveFmm K} (h : Rounded.adaptiveInit rnd rlog nrm K fuel t sources n eps = .ok T) (hp : T.order = p)
    (hsh : Sh C S T.shape) : ∃ T', Rounded.adaptiveInit rnd rlog nrm K' fuel t' sources n eps = .ok T' ∧ ATree M T T' := by
  unfold Rounded.adaptiveInit at h ⊢
  obtain ⟨order, h1, h⟩ := bindOk h
  rw [h1, ok_bind]
  cases hr : Rounded.sourceBox rnd sources with
  | none => rw [hr] at h; cases h
  | some r =>
    rw [hr] at h
    dsimp only at h ⊢
    obtain ⟨⟨st, ht', nb⟩, h2, h⟩ := bindOk h
    obtain ⟨s, h3, h⟩ := bindOk h
    injection h with h
    subst h
    dsimp only at hp
    subst hp
    obtain ⟨s', k1, k2⟩ := foldlM (M := M) (initNode (M := M) hsh) _ _ _ _ (St.init ht) h3
    refine ⟨⟨order, ht', st.heap, st.nodes, st.leaves, nb, s'⟩, ?_, rfl, rfl, rfl, rfl, rfl, rfl, k2⟩
    rw [h2, ok_bind]
    dsimp only
    exact (congrArg (fun z => z >>= fun s => Except.ok (⟨order, ht', st.heap, st.nodes, st.leaves, nb, s⟩ : AdaptiveFmm K')) k1)

theorem adaptiveFmm (sch : ℕ → List Path → List Path) (ht : M.RT t t') {T : AdaptiveFmm K}
    (h : Rounded.adaptiveFmm rnd rlog nrm K fuel sch t sources n eps = .ok T) (hp : T.order = p) (hsh : Sh C S T.shape) :
    ∃ T', Rounded.adaptiveFmm rnd rlog nrm K' fuel sch t' sources n eps = .ok T' ∧ ATree M T T' := by
  unfold Rounded.adaptiveFmm at h ⊢
  obtain ⟨T0, h0, h⟩ := bindOk h
  by_cases c1 : sources.length ≤ n
  · rw [if_pos c1] at h
    injection h with h
    subst h
    obtain ⟨T', k1, k2⟩ := adaptiveInit ht h0 hp hsh
    exact ⟨T', by rw [k1, ok_bind, if_pos c1], k2⟩
  · rw [if_neg c1] at h
    by_cases c2 : T0.height ≠ T0.nodes.length ∨ T0.height + 1 ≠ T0.leaves.length
    · rw [if_pos c2] at h; cases h
    · rw [if_neg c2] at h
      obtain ⟨up, h1, h⟩ := bindOk h
      obtain ⟨down, h2, h⟩ := bindOk h
      obtain ⟨s, h3, h⟩ := bindOk h
      injection h with h
      subst h
      have hp' : T0.order = p := hp
      have hsh' : Sh C S T0.shape := hsh
      obtain ⟨T', k1, k2⟩ := adaptiveInit ht h0 hp' hsh'
      rw [hp'] at h3
      obtain ⟨s', k3, k4⟩ := passes (M := M) hsh' (constructLE hsh') sch _ up down _ _ _ k2.exps h3
      refine ⟨{ T' with exps := s' }, ?_, k2.order, k2.height, k2.heap, k2.nodes, k2.leaves, k2.nb, k4⟩
      rw [k1, ok_bind, if_neg c1, k2.height, k2.nodes, k2.leaves, if_neg c2, h1, ok_bind, h2, ok_bind, k2.shape, k2.order, hp', k3, ok_bind]

theorem balancedInit (ht : M.RT t t') {T : BalancedFmm K} (h : Rounded.balancedInit rnd rlog nrm K fuel t sources n eps = .ok T) (hp : T.order = p)
    (hsh : Sh C S T.shape) : ∃ T', Rounded.balancedInit rnd rlog nrm K' fuel t' sources n eps = .ok T' ∧ BTree M T T' := by
  unfold Rounded.balancedInit at h ⊢
  obtain ⟨order, h1, h⟩ := bindOk h
  obtain ⟨ht', h0, h⟩ := bindOk h
  rw [h1, ok_bind, h0, ok_bind]
  cases hr : Rounded.sourceBox rnd sources with
  | none => rw [hr] at h; cases h
  | some r =>
    rw [hr] at h
    dsimp only at h ⊢
    obtain ⟨⟨m, src, nb⟩, h2, h⟩ := bindOk h
    obtain ⟨s, h3, h⟩ := bindOk h
    injection h with h
    subst h
    dsimp only at hp
    subst hp
    obtain ⟨s', k1, k2⟩ := foldlM (M := M) (initNode (M := M) hsh) _ _ _ _ (St.init ht) h3
    refine ⟨⟨order, ht', m, src, nb, s'⟩, ?_, rfl, rfl, rfl, rfl, rfl, k2⟩
    rw [h2, ok_bind]
    dsimp only
    exact (congrArg (fun z => z >>= fun s => Except.ok (⟨order, ht', m, src, nb, s⟩ : BalancedFmm K')) k1)

theorem balancedFmm (sch : ℕ → List BAddr → List BAddr) (ht : M.RT t t') {T : BalancedFmm K}
    (h : Rounded.balancedFmm rnd rlog nrm K fuel sch t sources n eps = .ok T) (hp : T.order = p) (hsh : Sh C S T.shape) :
    ∃ T', Rounded.balancedFmm rnd rlog nrm K' fuel sch t' sources n eps = .ok T' ∧ BTree M T T' := by
  unfold Rounded.balancedFmm at h ⊢
  obtain ⟨T0, h0, h⟩ := bindOk h
  by_cases c1 : T0.height = 0
  · rw [if_pos c1] at h
    injection h with h
    subst h
    obtain ⟨T', k1, k2⟩ := balancedInit ht h0 hp hsh
    exact ⟨T', by rw [k1, ok_bind, if_pos (k2.height.trans c1)], k2⟩
  · rw [if_neg c1] at h
    obtain ⟨s, h3, h⟩ := bindOk h
    injection h with h
    subst h
    have hp' : T0.order = p := hp
    have hsh' : Sh C S T0.shape := hsh
    obtain ⟨T', k1, k2⟩ := balancedInit ht h0 hp' hsh'
    rw [hp'] at h3
    obtain ⟨s', k3, k4⟩ := passes (M := M) hsh' (balancedLE hsh') sch _ _ _ _ _ _ k2.exps h3
    refine ⟨{ T' with exps := s' }, ?_, k2.order, k2.height, k2.mem, k2.src, k2.nb, k4⟩
    rw [k1, ok_bind, k2.height, if_neg c1, k2.shape, k2.order, hp', k2.mem, k3, ok_bind]

variable {V V' : Type} {O : Obs K V} {O' : Obs K' V'} {X : Vec d → Prop} {add : V → V → V} {neg : V → V} {add' : V' → V' → V'} {neg' : V' → V'}

theorem adaptiveEval (N : ObsSim M O O' X) (hadd : ∀ {v v' w w'}, N.RV v v' → N.RV w w' → N.RV (add v w) (add' v' w'))
    (hneg : ∀ {v v'}, N.RV v v' → N.RV (neg v) (neg' v')) (hS : ∀ s ∈ sources, S s) (grav : Bool) {T : AdaptiveFmm K} {T' : AdaptiveFmm K'}
    (h : ATree M T T') (hsh : Sh C S T.shape) {x : Vec d} (hx : X x) {v : V}
    (hv : Rounded.adaptiveEval rnd add neg O fuel grav T sources x = .ok v) :
    ∃ v', Rounded.adaptiveEval rnd add' neg' O' fuel grav T' sources x = .ok v' ∧ N.RV v v' := by
  unfold Rounded.adaptiveEval at hv ⊢
  obtain ⟨leaf, h1, hv⟩ := bindOk hv
  rw [h.heap, h1, ok_bind, h.shape]
  cases leaf with
  | none => exact N.sum hS hx hv
  | some leaf => exact evalLeaf N hadd hneg hsh grav h.exps leaf hx hv

theorem balancedEval (N : ObsSim M O O' X) (hadd : ∀ {v v' w w'}, N.RV v v' → N.RV w w' → N.RV (add v w) (add' v' w'))
    (hneg : ∀ {v v'}, N.RV v v' → N.RV (neg v) (neg' v')) (grav : Bool) {T : BalancedFmm K} {T' : BalancedFmm K'}
    (h : BTree M T T') (hsh : Sh C S T.shape) {x : Vec d} (hx : X x) {v : V}
    (hv : Rounded.balancedEval rnd add neg O grav T x = .ok v) :
    ∃ v', Rounded.balancedEval rnd add' neg' O' grav T' x = .ok v' ∧ N.RV v v' := by
  unfold Rounded.balancedEval at hv ⊢
  obtain ⟨root, h1, hv⟩ := bindOk hv
  obtain ⟨idx, h2, hv⟩ := bindOk hv
  obtain ⟨k, h3, hv⟩ := bindOk hv
  rw [h.mem, h.height, h1, ok_bind, h2, ok_bind, h3, ok_bind, h.shape]
  exact evalLeaf N hadd hneg hsh grav h.exps _ hx hv

end FMM.KitSim
