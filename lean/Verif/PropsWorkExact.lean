import Verif.PropsWorkBalanced
import Verif.PropsFmm2D

/-!
# C115: the number of operations in exact arithmetic, and for the trees in the plane
-/

namespace FMM
variable {d : ℕ}

/-- The evaluations at all sources, counting operations. -/
noncomputable def adaptiveCounted {K : Kit d} {V : Type} [AddCommGroup V] (O : Obs K V) (fuel : ℕ) (grav : Bool) (T : AdaptiveFmm K.counted)
    (S : List (Source d)) : Outcome (List (V × (EvOp → ℕ))) :=
  S.mapM fun s => Rounded.adaptiveEval id (addC (· + ·)) (negC (- ·)) O.counted fuel grav T S s.pos

/-- The evaluations at all points of a list, counting operations. -/
noncomputable def balancedCounted {K : Kit d} {V : Type} [AddCommGroup V] (O : Obs K V) (grav : Bool) (T : BalancedFmm K.counted)
    (P : List (Vec d)) : Outcome (List (V × (EvOp → ℕ))) :=
  P.mapM fun x => Rounded.balancedEval id (addC (· + ·)) (negC (- ·)) O.counted grav T x

namespace Work

theorem sourceBox_of {S : List (Source d)} {r : Box d} (h : rootBox (S.map Source.pos) = some r) :
    ∃ r', Rounded.sourceBox id S = some r' ∧ r'.exact = r := by
  rw [← Rounded.sourceBox_id] at h
  cases e : Rounded.sourceBox id S with
  | none => rw [e] at h; cases h
  | some r' => rw [e] at h; exact ⟨r', rfl, Option.some.inj h⟩

theorem abs_le_sum (v : Vec d) (i : Fin d) : |v i| ≤ ∑ j, |v j| :=
  Finset.single_le_sum (f := fun j => |v j|) (fun j _ => abs_nonneg _) (Finset.mem_univ i)

theorem mapM_congr {α β : Type} {f g : α → Outcome β} : ∀ (l : List α), (∀ a ∈ l, f a = g a) → l.mapM f = l.mapM g
  | [], _ => by rw [List.mapM_nil, List.mapM_nil]
  | a :: l, h => by rw [List.mapM_cons, List.mapM_cons, h a (by simp), mapM_congr l fun b hb => h b (by simp [hb])]

theorem mapM_exists {α β : Type} {f : α → Outcome β} : ∀ (l : List α), (∀ a ∈ l, ∃ b, f a = .ok b) → ∃ m, l.mapM f = .ok m
  | [], _ => ⟨[], List.mapM_nil⟩
  | a :: l, h => by
    obtain ⟨b, hb⟩ := h a (by simp)
    obtain ⟨m, hm⟩ := mapM_exists l fun c hc => h c (by simp [hc])
    exact ⟨b :: m, by rw [List.mapM_cons, hb, ok_bind, hm, ok_bind]; rfl⟩

end Work

open Work in
/-- **C115** Adaptive tree in exact arithmetic: every source is found in its leaf. -/
theorem C115_adaptive_exact {K : Kit d} {r : Box d} {S : List (Source d)} {max fuel : ℕ} {eps : ℝ} {t : K.T}
    {sch : ℕ → List Path → List Path} {T : AdaptiveFmm K} (hL : 0 < r.len) (hbox : rootBox (S.map Source.pos) = some r)
    (hin : ∀ s ∈ S, r.contains s.pos) (hs : Schedule sch) (hN : max < S.length) (hT : adaptiveFmm K fuel sch t S max eps = .ok T) :
    ∃ T', adaptiveFmm K.counted fuel sch (t, 0) S max eps = .ok T' ∧ SameFmm T T' ∧
      AdaptiveWork d S.length max T.height T.nodes.flatten.length T.leaves.flatten.length T'.exps.t.2 ∧
      ∀ (V : Type) [AddCommGroup V] (O : Obs K V) (grav : Bool) (f : ℕ), T.height < f →
        ∀ vs, (S.mapM fun s => adaptiveEval O f grav T S s.pos) = .ok vs →
        ∃ ws, adaptiveCounted O f grav T' S = .ok ws ∧ ws.map Prod.fst = vs ∧
          AdaptiveEvalWork d S.length max T.nodes.flatten.length T.leaves.flatten.length (ws.map Prod.snd).sum := by
  obtain ⟨r', hr', rfl⟩ := sourceBox_of hbox
  have hT0 := hT
  rw [← Rounded.adaptiveFmm_id] at hT
  obtain ⟨T', h1, h2, h3, h4⟩ := C115_adaptive (u := 0) (C := ∑ j, |r'.center j|) le_rfl hL (Finset.sum_nonneg fun j _ => abs_nonneg _)
    (Rounded.RndOn.of_rel (by simp) le_rfl) (abs_le_sum r'.center) (fun v _ => by
      have : 0 ≤ Vec.norm v := Vec.norm_nonneg v
      linarith)
    (by
      rw [zero_mul, mul_zero, mul_zero]
      have : 0 < r'.len := hL
      positivity) hr' hs hN hT
  have h1 := (Rounded.adaptiveFmm_id K.counted fuel sch (t, 0) S max eps).symm.trans h1
  refine ⟨T', h1, h2, h3, fun V _ O grav f hf vs hvs => ?_⟩
  refine h4 V O (· + ·) (- ·) grav f hf (fun s hs' => ?_) vs (by
    rw [← hvs]
    exact mapM_congr _ fun s _ => Rounded.adaptiveEval_id O f grav T S s.pos)
  obtain ⟨st, nb, s0, up, down, k1, k2, -⟩ := run_inv hr' hN hT
  rw [Rounded.adaptiveLists_id] at k1
  unfold adaptiveLists at k1
  obtain ⟨⟨st', h'⟩, k3, k1⟩ := bindOk k1
  simp only at k1
  rw [if_neg (by omega)] at k1
  obtain ⟨nb', -, k1⟩ := bindOk k1
  injection k1 with k1
  injection k1 with e1 e2
  injection e2 with e2 e3
  subst e1 e2
  obtain ⟨o, o1, o2, -⟩ := C13_containing_leaf Source.pos r'.exact (le_of_lt hL) S max fuel st' T.height k3 s.pos
  rw [Rounded.getContainingLeaf_id, k2, o1 f hf]
  intro e
  injection e with e
  exact o2.mp e (hin s hs')

open Work in
/-- **C115** Balanced tree in exact arithmetic; the number of leaves is less than `2^d` times what is needed for `perCell` sources per leaf. -/
theorem C115_balanced_exact {K : Kit d} {r : Box d} {S : List (Source d)} {perCell fuel : ℕ} {eps : ℝ} {t : K.T}
    {sch : ℕ → List BAddr → List BAddr} {T : BalancedFmm K} (hd : 2 ≤ d) (hL : 0 < r.len) (hbox : rootBox (S.map Source.pos) = some r)
    (hs : Schedule sch) (hpc : 1 ≤ perCell) (h0 : T.height ≠ 0) (hdh : d * T.height ≤ 32) (hf : off (2 ^ d) (T.height + 1) ≤ fuel)
    (hh : balancedHeight d S.length perCell = .ok T.height) (hT : balancedFmm K fuel sch t S perCell eps = .ok T) :
    perCell * (2 ^ d) ^ T.height < 2 ^ d * S.length ∧
    ∃ T', balancedFmm K.counted fuel sch (t, 0) S perCell eps = .ok T' ∧ SameBalancedFmm T T' ∧
      BalancedWork d S.length ((2 ^ d) ^ T.height) T'.exps.t.2 ∧
      ∀ (V : Type) [AddCommGroup V] (O : Obs K V) (grav : Bool) (m : ℕ), (∀ k < (2 ^ d) ^ T.height, (T.src.getD k).length ≤ m) →
        ∀ (P : List (Vec d)) (vs : List V), (P.mapM fun x => balancedEval O grav T x) = .ok vs →
        ∃ ws, balancedCounted O grav T' P = .ok ws ∧ ws.map Prod.fst = vs ∧ BalancedEvalWork d P.length m (ws.map Prod.snd).sum := by
  have hlt : T.height < 32 := by nlinarith
  have hS : 1 ≤ S.length := by
    rcases Nat.eq_zero_or_pos S.length with h | h
    · rw [h] at hh
      unfold balancedHeight at hh
      rw [if_pos (Or.inl rfl)] at hh
      cases hh
    · exact h
  refine ⟨?_, ?_⟩
  · obtain ⟨c1, c2⟩ := C10_height (d := d) (by omega) S.length perCell hS hpc
    rcases Nat.lt_or_ge perCell (S.length * 2 ^ d) with hc | hc
    · obtain ⟨h, a1, -, a2⟩ := c1 hc
      have e : T.height = h := Except.ok.inj (hh.symm.trans a1)
      obtain ⟨n, hn⟩ : ∃ n, T.height = n + 1 := Nat.exists_eq_succ_of_ne_zero h0
      have := a2 n (by rw [← e, hn]; exact Nat.lt_succ_self n)
      clear a2 c1
      rw [hn, pow_succ]
      have h2 : 0 < 2 ^ d := by positivity
      calc perCell * ((2 ^ d) ^ n * 2 ^ d) = 2 ^ d * (perCell * (2 ^ d) ^ n) := by ring
        _ < 2 ^ d * S.length := Nat.mul_lt_mul_of_pos_left this h2
    · rw [c2 hc] at hh; cases hh
  obtain ⟨r', hr', rfl⟩ := sourceBox_of hbox
  have hid : ∀ (K : Kit d) (t : K.T), Rounded.balancedFmm id Real.log Vec.norm K fuel sch t S perCell eps = balancedFmm K fuel sch t S perCell eps :=
    fun K t => Rounded.balancedFmm_id K fuel sch t S perCell eps fun h e => by rw [← Except.ok.inj (hh.symm.trans e)]; exact hlt
  rw [← hid] at hT
  obtain ⟨T', h1, h2, h3, h4⟩ := C115_balanced (u := 0) (C := ∑ j, |r'.center j|) hd le_rfl hL (Finset.sum_nonneg fun j _ => abs_nonneg _)
    (Rounded.RndOn.of_rel (by simp) le_rfl) (Rounded.RndIx.of_rel (by simp) le_rfl hL) (abs_le_sum r'.center) (fun v _ => by
      have : 0 ≤ Vec.norm v := Vec.norm_nonneg v
      linarith)
    (by
      rw [zero_mul, mul_zero, mul_zero]
      have : 0 < r'.len := hL
      positivity) hr' hs h0 hdh hf hT
  have h1 := (hid K.counted (t, 0)).symm.trans h1
  refine ⟨T', h1, h2, h3, fun V _ O grav m hm P vs hvs => ?_⟩
  refine h4 V O (· + ·) (- ·) grav m hm P vs ?_
  rw [← hvs]
  exact mapM_congr _ fun x _ => Rounded.balancedEval_id O grav T hlt x

section
variable {t : BinomialTable} {S : List (Source 2)} {p : ℕ} {r : Box 2} {eps : ℝ}

/-- **C115** Adaptive tree in the plane: construction and the potentials at all sources succeed, with at most this many operations. -/
theorem C115_adaptive_2d (ht : Reachable t) {max : ℕ} (hI : AdaptiveInput S max r) (hN : max < S.length)
    (hord : expansionOrder (totalStrength S) eps = .ok p) (hp0 : 1 ≤ p) (hp : p ≤ 1029) :
    ∃ (fuel0 : ℕ) (T : AdaptiveFmm kit2), ∀ fuel ≥ fuel0, ∀ sch, Schedule sch → adaptiveFmm kit2 fuel sch t S max eps = .ok T ∧
      ∃ T', adaptiveFmm kit2.counted fuel sch (t, 0) S max eps = .ok T' ∧ SameFmm T T' ∧
        AdaptiveWork 2 S.length max T.height T.nodes.flatten.length T.leaves.flatten.length T'.exps.t.2 ∧
        ∀ grav, ∃ vs ws, (S.mapM fun s => adaptiveEval pot2 fuel grav T S s.pos) = .ok vs ∧ adaptiveCounted pot2 fuel grav T' S = .ok ws ∧
          ws.map Prod.fst = vs ∧ AdaptiveEvalWork 2 S.length max T.nodes.flatten.length T.leaves.flatten.length (ws.map Prod.snd).sum := by
  obtain ⟨f0, T, h1, h2⟩ := C42_adaptive_2d ht hI hord hp0 hp
  refine ⟨f0 + (T.height + 1), T, fun fuel hf sch hs => ⟨h1 fuel (by omega) sch hs, ?_⟩⟩
  obtain ⟨T', a1, a2, a3, a4⟩ := C115_adaptive_exact (hI.len_pos hN) hI.box hI.inside hs hN (h1 fuel (by omega) sch hs)
  refine ⟨T', a1, a2, a3, fun grav => ?_⟩
  obtain ⟨vs, hvs⟩ := Work.mapM_exists (f := fun s => adaptiveEval pot2 fuel grav T S s.pos) S fun s hs => by
    obtain ⟨v, w, v1, -⟩ := h2 s hs grav
    exact ⟨v, v1 fuel (by omega)⟩
  obtain ⟨ws, w1, w2, w3⟩ := a4 ℝ pot2 grav fuel (by omega) vs hvs
  exact ⟨vs, ws, hvs, w1, w2, w3⟩

/-- **C115** Balanced tree in the plane. -/
theorem C115_balanced_2d (ht : Reachable t) {perCell h : ℕ} (hI : BalancedInput S perCell r h) (hh : 1 ≤ h) (hpc : 1 ≤ perCell)
    (hord : expansionOrder (totalStrength S) eps = .ok p) (hp0 : 1 ≤ p) (hp : p ≤ 1029) :
    perCell * 4 ^ h < 4 * S.length ∧
    ∃ (fuel0 : ℕ) (T : BalancedFmm kit2), T.height = h ∧ ∀ fuel ≥ fuel0, ∀ sch, Schedule sch → balancedFmm kit2 fuel sch t S perCell eps = .ok T ∧
      ∃ T', balancedFmm kit2.counted fuel sch (t, 0) S perCell eps = .ok T' ∧ SameBalancedFmm T T' ∧ BalancedWork 2 S.length (4 ^ h) T'.exps.t.2 ∧
        ∀ m, (∀ k < 4 ^ h, (T.src.getD k).length ≤ m) → ∀ P : List (Vec 2), (∀ x ∈ P, r.containsHO x) →
        ∀ grav, ∃ vs ws, (P.mapM fun x => balancedEval pot2 grav T x) = .ok vs ∧ balancedCounted pot2 grav T' P = .ok ws ∧
          ws.map Prod.fst = vs ∧ BalancedEvalWork 2 P.length m (ws.map Prod.snd).sum := by
  obtain ⟨f0, T, h1, -, h3, h4⟩ := C39_balanced ht hI hord hp0 hp
  subst h3
  have hsm := hI.small
  have key : ∀ fuel ≥ f0 + off (2 ^ 2) (T.height + 1), ∀ sch, Schedule sch → _ := fun fuel hf sch hs =>
    C115_balanced_exact (K := kit2) (T := T) le_rfl hI.len_pos hI.box hs hpc (by omega) (by omega) (by omega) hI.height (h1 fuel (by omega) sch hs)
  refine ⟨(key _ le_rfl (fun _ l => l) fun _ _ => List.Perm.refl _).1, f0 + off (2 ^ 2) (T.height + 1), T, rfl, fun fuel hf sch hs =>
    ⟨h1 fuel (by omega) sch hs, ?_⟩⟩
  obtain ⟨-, T', a1, a2, a3, a4⟩ := key fuel hf sch hs
  refine ⟨T', a1, a2, a3, fun m hm P hP grav => ?_⟩
  obtain ⟨vs, hvs⟩ := Work.mapM_exists (f := fun x => balancedEval pot2 grav T x) P fun x hx => by
    obtain ⟨v, v1, -⟩ := h4 x (hP x hx) grav
    exact ⟨v, v1⟩
  obtain ⟨ws, w1, w2, w3⟩ := a4 ℝ pot2 grav m hm P vs hvs
  exact ⟨vs, ws, hvs, w1, w2, w3⟩

end

/-- Five sources, at most one per leaf. -/
example : ∃ fuel T, adaptiveFmm kit2.counted fuel (fun _ (l : List Path) => l.reverse) (BinomialTable.init, 0) S5 1 1 = .ok T ∧
    T.exps.t.2 .p2m = 5 ∧ ∃ ws, adaptiveCounted pot2 fuel true T S5 = .ok ws ∧ (ws.map Prod.snd).sum .l2p = 5 ∧
      (ws.map Prod.snd).sum .p2p ≤ T.leaves.flatten.length * 17 := by
  obtain ⟨f, T, h⟩ := C115_adaptive_2d reachable_init S5_adaptive (by simp [S5]) S5_order (by norm_num) (by norm_num)
  obtain ⟨-, T', h1, h2, h3, h4⟩ := h f le_rfl (fun _ l => l.reverse) fun _ l => l.reverse_perm
  obtain ⟨vs, ws, -, w2, -, w4⟩ := h4 true
  refine ⟨f, T', h1, h3.p2m, ws, w2, w4.l2p, ?_⟩
  have := w4.p2p
  rw [h2.leaves]
  rw [one_mul, one_mul] at this
  exact this

/-- Five sources, height 2. -/
example : ∃ fuel T, balancedFmm kit2.counted fuel (fun _ (l : List BAddr) => l.reverse) (BinomialTable.init, 0) S5 1 1 = .ok T ∧
    T.exps.t.2 .p2m = 5 ∧ T.exps.t.2 .m2l ≤ 32 * 27 ∧ ∃ ws, balancedCounted pot2 true T [![1, 1]] = .ok ws ∧ (ws.map Prod.snd).sum .l2p = 1 ∧
      (ws.map Prod.snd).sum .m2p = 0 := by
  obtain ⟨-, f, T, hT, h⟩ := C115_balanced_2d reachable_init S5_balanced (by norm_num) (by norm_num) S5_order (by norm_num) (by norm_num)
  obtain ⟨-, T', h1, h2, h3, h4⟩ := h f le_rfl (fun _ l => l.reverse) fun _ l => l.reverse_perm
  obtain ⟨vs, ws, -, w2, -, w4⟩ := h4 (((List.range 16).map fun k => (T.src.getD k).length).sum) (fun k hk => by
      exact List.single_le_sum (fun _ _ => Nat.zero_le _) _ (List.mem_map.mpr ⟨k, List.mem_range.mpr (by simpa using hk), rfl⟩)) [![1, 1]]
    (fun x hx => by rw [List.mem_singleton.mp hx]; exact S5_insideHO ⟨![1, 1], 1⟩ (by simp [S5])) true
  exact ⟨f, T', h1, h3.p2m, by simpa using h3.m2l, ws, w2, w4.l2p, w4.m2p⟩

end FMM
