import Verif.LinScale
import Verif.Accounting

/-!
# Results in other units of length
-/

namespace FMM
variable {d : ℕ} {V : Type} [AddCommGroup V] [Module ℝ V] {p : ℕ}

/-- The operations in units of length that are smaller by a factor `c`: values are multiplied by `lam` and changed by `kap`. -/
structure ScaleLaws {K : Kit d} {O O' : Obs K V} {L : FmmLaws K O p} {L' : FmmLaws K O' p} (Q : LinLaws L) (Q' : LinLaws L') (c lam : ℝ) (kap : V) :
    Prop where
  m2l : ∀ a b u y : Vec d, a ≠ b → Q'.m2l (c • a) (c • b) ⟨c • u, 1⟩ (c • y) = lam • Q.m2l a b ⟨u, 1⟩ y + kap
  p2l : ∀ a u y : Vec d, u ≠ a → Q'.p2l (c • a) ⟨c • u, 1⟩ (c • y) = lam • Q.p2l a ⟨u, 1⟩ y + kap
  m2p : ∀ a u y : Vec d, y ≠ a → Q'.m2p (c • a) ⟨c • u, 1⟩ (c • y) = lam • Q.m2p a ⟨u, 1⟩ y + kap
  p2p : ∀ u y : Vec d, u ≠ y → Q'.p2p ⟨c • u, 1⟩ (c • y) = lam • Q.p2p ⟨u, 1⟩ y + kap
  p2p_self : ∀ u : Vec d, Q'.p2p ⟨c • u, 1⟩ (c • u) = lam • Q.p2p ⟨u, 1⟩ u

namespace Sc
open Lin
variable {K : Kit d} {O O' : Obs K V} {L : FmmLaws K O p} {L' : FmmLaws K O' p} {Q : LinLaws L} {Q' : LinLaws L'} {c lam : ℝ} {kap : V}

open Classical in
/-- Number of the nodes of `l` that contain `y`. -/
noncomputable def cnt (r : Box d) (y : Vec d) (l : List Path) : ℕ := (l.map fun ρ => if FMM.route r y ρ.length = ρ then 1 else 0).sum

/-- Number of the nodes containing `y` in the interaction lists and lists X of `π` and its ancestors. -/
noncomputable def cntFar (T : PTree) (r : Box d) (y : Vec d) : Path → ℕ
  | [] => 0
  | i :: τ => cntFar T r y τ + cnt r y (T.inter (i :: τ)) + cnt r y (T.xl (i :: τ))

open Classical in
theorem sum_cnt (r : Box d) (y : Vec d) (lam : ℝ) (kap : V) (f g : Path → V) :
    ∀ l : List Path, (∀ ρ ∈ l, FMM.route r y ρ.length = ρ → f ρ = lam • g ρ + kap) →
      (l.map fun ρ => if FMM.route r y ρ.length = ρ then f ρ else 0).sum
        = lam • (l.map fun ρ => if FMM.route r y ρ.length = ρ then g ρ else 0).sum + cnt r y l • kap
  | [], _ => by simp [cnt]
  | ρ :: l, h => by
    rw [List.map_cons, List.sum_cons, sum_cnt r y lam kap f g l fun σ hσ => h σ (by simp [hσ]), List.map_cons, List.sum_cons]
    have e : cnt r y (ρ :: l) = (if FMM.route r y ρ.length = ρ then 1 else 0) + cnt r y l := rfl
    rw [e, add_smul, smul_add]
    by_cases hρ : FMM.route r y ρ.length = ρ
    · rw [if_pos hρ, if_pos hρ, if_pos hρ, h ρ (by simp) hρ, one_smul]; abel
    · rw [if_neg hρ, if_neg hρ, if_neg hρ, zero_smul, smul_zero]; abel

/-- The box of a point. -/
theorem mem_box {r : Box d} {y : Vec d} (hy : r.contains y) {ρ : Path} (h : FMM.route r y ρ.length = ρ) : (FMM.boxAt r ρ).contains y := by
  have := route_contains r y hy ρ.length
  rwa [h] at this

theorem ne_of_dist {b : Box d} (hb : 0 < b.len) {y : Vec d} {j : Fin d} {m : ℝ} (hm : 0 < m) (h : m * b.len ≤ |y j - b.center j|) : y ≠ b.center := by
  rintro rfl
  rw [sub_self, abs_zero] at h
  nlinarith [mul_pos hm hb]

theorem farT_scale (H : ScaleLaws Q Q' c lam kap) (hc : 0 < c) {T : PTree} {r : Box d} (hA : AdjOf T r) (hr : 0 < r.len) {y : Vec d}
    (hy : r.contains y) (x : Vec d) : ∀ π, T.Mem π →
      farT Q' T (r.scale c) ⟨c • y, 1⟩ π (c • x) = lam • farT Q T r ⟨y, 1⟩ π x + cntFar T r y π • kap
  | [], _ => by simp [farT, cntFar]
  | i :: τ, hπ => by
    have hL := hA.laws hr
    have hb := boxAt_len_pos r hr
    simp only [farT, cntFar]
    rw [farT_scale H hc hA hr hy x τ (hπ.suffix (List.suffix_cons _ _))]
    simp only [route hc, boxAt]
    rw [sum_cnt r y lam kap _ (fun ρ => Q.m2l (FMM.boxAt r ρ).center (FMM.boxAt r (i :: τ)).center ⟨y, 1⟩ x) (T.inter (i :: τ)) (by
        intro ρ hρ _
        refine H.m2l _ _ _ _ ?_
        have hlen := PTree.inter_length hL hπ hρ
        have m2 := ((PTree.mem_inter hL hπ ρ).mp hρ).2.1
        obtain ⟨j, hj⟩ := center_dist_of_not_adjacent r hr (i :: τ) ρ hlen.symm (by have := hA (i :: τ) ρ; rw [m2] at this; simpa using this)
        rw [abs_sub_comm] at hj
        exact ne_of_dist (hb _) (by norm_num) hj),
      sum_cnt r y lam kap _ (fun ρ => Q.p2l (FMM.boxAt r (i :: τ)).center ⟨y, 1⟩ x) (T.xl (i :: τ)) (by
        intro ρ hρ hy'
        refine H.p2l _ _ _ ?_
        obtain ⟨-, -, h3, -, e⟩ := (PTree.mem_xl hL hπ ρ).mp hρ
        obtain ⟨j, hj⟩ := point_dist_of_not_adjacent r hr (i :: τ) ρ h3.le (by have := hA (i :: τ) ρ; rw [e] at this; simpa using this)
        exact ne_of_dist (hb _) (by norm_num) (hj y (mem_box hy hy')))]
    simp only [smul_add, add_smul]
    abel

/-- The nodes used for an evaluation. -/
theorem slots_cnt {T : PTree} {r : Box d} (hA : AdjOf T r) (hr : 0 < r.len) (hcc : T.c = 2 ^ d) {n : ℕ} (hh : ∀ π, T.Mem π → π.length < n) (y : Vec d)
    {R : Path} (hR : T.Mem R) (hRl : T.leaf R = true) :
    cnt r y ((T.nbhAfter (T.order n)).near R) + cnt r y ((T.nbhAfter (T.order n)).W R) + cntFar T r y R = 1 := by
  have h1 := (PTree.slots_perm (hA.laws hr) hh hcc (fun z : Vec d => z) r [y] hR hRl).length_eq
  have e : ∀ ρ, (FMM.itemsAt (fun z : Vec d => z) r [y] ρ).length = (open Classical in if FMM.route r y ρ.length = ρ then 1 else 0) := by
    intro ρ
    unfold FMM.itemsAt
    by_cases h : FMM.route r y ρ.length = ρ
    · simp [h]
    · simp [h]
  have e2 : ∀ l : List Path, (l.flatMap (FMM.itemsAt (fun z : Vec d => z) r [y])).length = cnt r y l := by
    intro l
    rw [List.length_flatMap]
    exact congrArg List.sum (List.map_congr_left fun ρ _ => e ρ)
  have e3 : ∀ l m : List Path, cnt r y (l ++ m) = cnt r y l + cnt r y m := by intro l m; simp [cnt]
  have e4 : ∀ π, T.Mem π → cnt r y (π.tails.flatMap fun A => (T.nbhAfter (T.order n)).inter A ++ (T.nbhAfter (T.order n)).X A) = cntFar T r y π := by
    intro π
    induction π with
    | nil =>
      intro hm
      rw [show ([] : Path).tails = [[]] from rfl, List.flatMap_singleton, PTree.nbh_inter hh hm, PTree.nbh_X hh hm]
      simp [PTree.inter, PTree.xl, cnt, cntFar]
    | cons i τ ih =>
      intro hm
      rw [List.tails_cons, List.flatMap_cons, e3, e3, ih (hm.suffix (List.suffix_cons _ _)), PTree.nbh_inter hh hm, PTree.nbh_X hh hm, cntFar]
      omega
  rw [e2] at h1
  unfold PTree.slots at h1
  rw [e3, e3, e4 R hR] at h1
  simpa [add_assoc] using h1

open Classical in
/-- The contribution of a source. -/
theorem kern_scale (H : ScaleLaws Q Q' c lam kap) (hc : 0 < c) {T : PTree} {r : Box d} (hA : AdjOf T r) (hr : 0 < r.len) (hcc : T.c = 2 ^ d) {n : ℕ}
    (hh : ∀ π, T.Mem π → π.length < n) {k k' : Vec d → ℕ} {x : Vec d} (hx : r.contains x) (hk1 : T.Mem (FMM.route r x (k x)))
    (hk2 : T.leaf (FMM.route r x (k x)) = true) (hk' : k' (c • x) = k x) {y : Vec d} (hy : r.contains y) :
    kern Q' T (r.scale c) n k' (c • x) (c • y) = lam • kern Q T r n k x y + if y = x then 0 else kap := by
  have hL := hA.laws hr
  unfold kern term
  rw [hk', route hc]
  set R := FMM.route r x (k x) with hR
  have hone := slots_cnt hA hr hcc hh y hk1 hk2
  rw [farT_scale H hc hA hr hy x R hk1]
  simp only [route hc, boxAt]
  rw [sum_cnt r y lam kap _ (fun ρ => Q.m2p (FMM.boxAt r ρ).center ⟨y, 1⟩ x) ((T.nbhAfter (T.order n)).W R) (by
      intro ρ hρ _
      refine H.m2p _ _ _ ?_
      obtain ⟨w1, w2⟩ := (PTree.mem_W hh R ρ).mp hρ
      have w4 : R.length ≤ ρ.length ∧ T.adj ρ R = false := by
        cases ρ with
        | nil => simp [PTree.xl] at w2
        | cons i τ =>
          obtain ⟨-, -, c, -, e⟩ := (PTree.mem_xl hL w1 R).mp w2
          exact ⟨c.le, e⟩
      obtain ⟨j, hj⟩ := point_dist_of_not_adjacent r hr ρ R w4.1 (by have := hA ρ R; rw [w4.2] at this; simpa using this)
      exact ne_of_dist (boxAt_len_pos r hr ρ) (by norm_num) (hj x (route_contains r x hx (k x))))]
  by_cases hyx : y = x
  · subst hyx
    rw [if_pos rfl, add_zero]
    have hmem : R ∈ (T.nbhAfter (T.order n)).near R :=
      (PTree.mem_near_leaf hL hh hk1 hk2 R).mpr ⟨hk1, hk2, hL.refl R⟩
    have hpos : 1 ≤ cnt r y ((T.nbhAfter (T.order n)).near R) := by
      unfold cnt
      refine List.single_le_sum (fun _ _ => Nat.zero_le _) 1 (List.mem_map.mpr ⟨R, hmem, ?_⟩)
      rw [if_pos (by rw [hR, route_length])]
    have e1 : cnt r y ((T.nbhAfter (T.order n)).W R) = 0 := by omega
    have e2 : cntFar T r y R = 0 := by omega
    rw [e1, e2, zero_smul, add_zero, add_zero, smul_add, smul_add, ← Lin.sum_smul lam (fun ρ => if FMM.route r y ρ.length = ρ then Q.p2p ⟨y, 1⟩ y else 0)]
    congr 2
    refine List.map_congr_left fun ρ _ => ?_
    by_cases h : FMM.route r y ρ.length = ρ
    · rw [if_pos h, if_pos h]; exact H.p2p_self y
    · rw [if_neg h, if_neg h, smul_zero]
  · rw [if_neg hyx, sum_cnt r y lam kap _ (fun ρ => Q.p2p ⟨y, 1⟩ x) ((T.nbhAfter (T.order n)).near R) (fun ρ _ _ => H.p2p y x hyx)]
    have : kap = (cnt r y ((T.nbhAfter (T.order n)).near R) + cnt r y ((T.nbhAfter (T.order n)).W R) + cntFar T r y R) • kap := by rw [hone, one_smul]
    conv_rhs => rw [this]
    simp only [smul_add, add_smul]
    abel

open Classical in
/-- The values. -/
theorem superpose_scale {h h' : Vec d → Vec d → V} {x : Vec d} (S : List (Source d))
    (H : ∀ s ∈ S, h' (c • x) (c • s.pos) = lam • h x s.pos + if s.pos = x then 0 else kap) :
    superpose h' (S.map (Source.scale c)) (c • x) = lam • superpose h S x + ((S.filter fun s => s.pos ≠ x).map Source.q).sum • kap := by
  unfold superpose
  induction S with
  | nil => simp
  | cons s S ih =>
    have ih := ih fun s hs => H s (by simp [hs])
    rw [List.map_cons, List.map_cons, List.sum_cons, ih, List.map_cons, List.sum_cons]
    show s.q • h' (c • x) (c • s.pos) + _ = _
    rw [H s (by simp)]
    by_cases hs : s.pos = x
    · rw [if_pos hs, List.filter_cons_of_neg (by simp [hs])]
      module
    · rw [if_neg hs, List.filter_cons_of_pos (by simp [hs]), List.map_cons, List.sum_cons]
      module

end Sc

open Classical in
/-- Total charge of the sources that are not at `x`. -/
noncomputable def chargeOff (S : List (Source d)) (x : Vec d) : ℝ := ((S.filter fun s => s.pos ≠ x).map Source.q).sum

/-- The adaptive tree in units of length that are smaller by a factor `c`: the tree is constructed with the same height, and the value computed at a
point is multiplied by `lam` and changed by `kap` per unit of charge.  `O'` may have another smoothing parameter. -/
def AdaptiveUnits {K : Kit d} (O O' : Obs K V) (t : K.T) (S : List (Source d)) (max : ℕ) (r : Box d) (p : ℕ) (P : ℕ → Vec d → Prop) (c lam : ℝ)
    (kap : V) : Prop :=
  ∀ eps : ℝ, expansionOrder (totalStrength S) eps = .ok p →
    ∃ (fuel0 : ℕ) (T T' : AdaptiveFmm K), (∀ fuel ≥ fuel0, ∀ sch, Schedule sch → adaptiveFmm K fuel sch t S max eps = .ok T ∧
        adaptiveFmm K fuel sch t (S.map (Source.scale c)) max eps = .ok T') ∧ T'.height = T.height ∧
      ∀ x, r.contains x → P T.height x → ∀ grav : Bool, ∃ v, ∀ cur, ∀ fuel ≥ fuel0, adaptiveEval O fuel grav T cur x = .ok v ∧
        adaptiveEval O' fuel grav T' (cur.map (Source.scale c)) (c • x) = .ok (lam • v + ((if grav then 1 else -1) * chargeOff S x) • kap)

/-- The balanced tree in other units of length. -/
def BalancedUnits {K : Kit d} (O O' : Obs K V) (t : K.T) (S : List (Source d)) (perCell : ℕ) (r : Box d) (p : ℕ) (P : Vec d → Prop) (c lam : ℝ)
    (kap : V) : Prop :=
  ∀ eps : ℝ, expansionOrder (totalStrength S) eps = .ok p →
    ∃ (fuel0 : ℕ) (T T' : BalancedFmm K), (∀ fuel ≥ fuel0, ∀ sch, Schedule sch → balancedFmm K fuel sch t S perCell eps = .ok T ∧
        balancedFmm K fuel sch t (S.map (Source.scale c)) perCell eps = .ok T') ∧
      ∀ x, r.containsHO x → P x → ∀ grav : Bool, ∃ v, balancedEval O grav T x = .ok v ∧
        balancedEval O' grav T' (c • x) = .ok (lam • v + ((if grav then 1 else -1) * chargeOff S x) • kap)

namespace Sc

theorem sign_value (grav : Bool) (lam a : ℝ) (v kap : V) :
    (if grav then lam • v + a • kap else -(lam • v + a • kap)) = lam • (if grav then v else -v) + ((if grav then 1 else -1) * a) • kap := by
  cases grav
  · simp only [Bool.false_eq_true, if_false]; module
  · simp only [if_true]; module

theorem adjOf_fmmTree (r : Box d) (S : List (Source d)) (max : ℕ) : AdjOf (FMM.fmmTree Source.pos r S max) r := fun _ _ => rfl

theorem adjOf_fullTree (r : Box d) (h : ℕ) : AdjOf (FMM.fullTree r h) r := fun _ _ => rfl

/-- From the values of single sources to the tree. -/
theorem adaptive_of {K : Kit d} {O O' : Obs K V} {t : K.T} {S : List (Source d)} {max : ℕ} {r : Box d} {n : ℕ} {P P' : ℕ → Vec d → Prop}
    {h h' : Vec d → Vec d → V} (hc : 0 < c) (h1 : AdaptiveSuperposed O t S max r p n P h)
    (h2 : AdaptiveSuperposed O' t (S.map (Source.scale c)) max (r.scale c) p n P' h') (hP : ∀ x, P n x → P' n (c • x))
    (hh : open Classical in ∀ x, r.contains x → ∀ s ∈ S, h' (c • x) (c • s.pos) = lam • h x s.pos + if s.pos = x then 0 else kap) :
    AdaptiveUnits O O' t S max r p P c lam kap := by
  intro eps ho
  obtain ⟨f1, T1, a1, e1, b1⟩ := h1 S eps (List.Perm.refl _) ho
  obtain ⟨f2, T2, a2, e2, b2⟩ := h2 _ eps (List.Perm.refl _) (by rw [totalStrength]; exact ho)
  refine ⟨f1 + f2, T1, T2, fun fuel hf sch hs => ⟨a1 fuel (by omega) sch hs, a2 fuel (by omega) sch hs⟩, e2.trans e1.symm,
    fun x hx hp grav => ⟨_, fun cur fuel hf => ⟨b1 x hx hp grav cur fuel (by omega), ?_⟩⟩⟩
  rw [b2 (c • x) ((contains hc _ _).mpr hx) (by rw [e2]; rw [e1] at hp; exact hP x hp) grav _ fuel (by omega), superpose_scale S (hh x hx), sign_value]
  rfl

theorem balanced_of {K : Kit d} {O O' : Obs K V} {t : K.T} {S : List (Source d)} {perCell : ℕ} {r : Box d} {P P' : Vec d → Prop}
    {h h' : Vec d → Vec d → V} (hc : 0 < c) (h1 : BalancedSuperposed O t S perCell r p P h)
    (h2 : BalancedSuperposed O' t (S.map (Source.scale c)) perCell (r.scale c) p P' h') (hP : ∀ x, P x → P' (c • x))
    (hh : open Classical in ∀ x, r.containsHO x → ∀ s ∈ S, h' (c • x) (c • s.pos) = lam • h x s.pos + if s.pos = x then 0 else kap) :
    BalancedUnits O O' t S perCell r p P c lam kap := by
  intro eps ho
  obtain ⟨f1, T1, a1, b1⟩ := h1 S eps (List.Perm.refl _) ho
  obtain ⟨f2, T2, a2, b2⟩ := h2 _ eps (List.Perm.refl _) (by rw [totalStrength]; exact ho)
  refine ⟨f1 + f2, T1, T2, fun fuel hf sch hs => ⟨a1 fuel (by omega) sch hs, a2 fuel (by omega) sch hs⟩,
    fun x hx hp grav => ⟨_, b1 x hx hp grav, ?_⟩⟩
  rw [b2 (c • x) ((containsHO hc _ _).mpr hx) (hP x hp) grav, superpose_scale S (hh x hx), sign_value]
  rfl

theorem p2p_all {K : Kit d} {O O' : Obs K V} {L : FmmLaws K O p} {L' : FmmLaws K O' p} {Q : LinLaws L} {Q' : LinLaws L'}
    (H : ScaleLaws Q Q' c lam kap) (x y : Vec d) :
    Q'.p2p ⟨c • y, 1⟩ (c • x) = lam • Q.p2p ⟨y, 1⟩ x + (open Classical in if y = x then 0 else kap) := by
  by_cases h : y = x
  · rw [if_pos h, h, H.p2p_self, add_zero]
  · rw [if_neg h, H.p2p _ _ h]

end Sc

open Sc

/-- The adaptive tree. -/
theorem adaptive_units {K : Kit (d + 1)} {O O' : Obs K V} {L : FmmLaws K O p} {L' : FmmLaws K O' p} {Q : LinLaws L} {Q' : LinLaws L'} {c lam : ℝ}
    {kap : V} (H : ScaleLaws Q Q' c lam kap) (hc : 0 < c) (hadm : ∀ a x, L.adm a x → L'.adm (c • a) (c • x)) {t : K.T} (ht : L.good t) (ht' : L'.good t)
    {S : List (Source (d + 1))} {max : ℕ} {r : Box (d + 1)} (hI : AdaptiveInput S max r) :
    AdaptiveUnits O O' t S max r p (fun n x => ∀ π : Path, π.length ≤ n → L.adm (boxAt r π).center x) c lam kap := by
  have hI' := Sc.adaptiveInput hc hI
  have hP : ∀ (n : ℕ) (x : Vec (d + 1)), (∀ π : Path, π.length ≤ n → L.adm (boxAt r π).center x) →
      ∀ π : Path, π.length ≤ n → L'.adm (boxAt (r.scale c) π).center (c • x) := fun n x h π hπ => by
    rw [Sc.boxAt]; exact hadm _ _ (h π hπ)
  by_cases hN : max < S.length
  · have hr := hI.len_pos hN
    obtain ⟨hh, k, h1, h2, h3, h4, h5⟩ := adaptive_depths hI hN
    refine adaptive_of hc (adaptive_superposed Q ht hI hN h1 h2 h3 h4)
      (adaptive_superposed Q' ht' hI' (by rw [List.length_map]; exact hN) (Sc.isHeight hc h1) (k := fun x => k (c⁻¹ • x)) (fun x => h2 _) (fun x => ?_)
        fun x => ?_) (hP hh) fun x hx s hs => ?_
    · have := Sc.route hc r (c⁻¹ • x) (k (c⁻¹ • x))
      rw [smul_inv_smul₀ hc.ne'] at this
      rw [this, Sc.fmmTree hc]; exact h3 _
    · have := Sc.route hc r (c⁻¹ • x) (k (c⁻¹ • x))
      rw [smul_inv_smul₀ hc.ne'] at this
      rw [this, Sc.fmmTree hc]; exact h4 _
    · rw [Sc.fmmTree hc]
      exact kern_scale H hc (adjOf_fmmTree r S max) hr rfl (fun π hπ => Nat.lt_succ_of_le (h5 π hπ)) hx (h3 x) (h4 x)
        (by simp only [inv_smul_smul₀ hc.ne']) (hI.inside s hs)
  · exact adaptive_of hc (adaptive_superposed_one Q ht hI (by omega))
      (adaptive_superposed_one Q' ht' hI' (by rw [List.length_map]; omega)) (hP 0) fun x _ s _ => p2p_all H x s.pos

/-- The balanced tree. -/
theorem balanced_units {K : Kit d} {O O' : Obs K V} {L : FmmLaws K O p} {L' : FmmLaws K O' p} {Q : LinLaws L} {Q' : LinLaws L'} {c lam : ℝ}
    {kap : V} (H : ScaleLaws Q Q' c lam kap) (hc : 0 < c) (hadm : ∀ a x, L.adm a x → L'.adm (c • a) (c • x)) {t : K.T} (ht : L.good t) (ht' : L'.good t)
    (hd : 2 ≤ d) (hd' : d ≤ 64) {S : List (Source d)} {perCell : ℕ} {r : Box d} {h : ℕ} (hI : BalancedInput S perCell r h) (hr : 0 < r.len)
    (hmor : h < 64 / d) : BalancedUnits O O' t S perCell r p (fun x => L.adm (boxAt r (route r x h)).center x) c lam kap := by
  have hI' := Sc.balancedInput hc hI
  have hP : ∀ x : Vec d, L.adm (boxAt r (route r x h)).center x → L'.adm (boxAt (r.scale c) (route (r.scale c) (c • x) h)).center (c • x) :=
    fun x hx => by rw [Sc.route hc, Sc.boxAt]; exact hadm _ _ hx
  rcases Nat.eq_zero_or_pos h with rfl | hh
  · exact balanced_of hc (balanced_superposed_one Q ht hd hd' hI) (balanced_superposed_one Q' ht' hd hd' hI') hP fun x _ s _ => p2p_all H x s.pos
  · refine balanced_of hc (balanced_superposed Q ht hd hI hh hr hmor) (balanced_superposed Q' ht' hd hI' hh (mul_pos hc hr) hmor) hP fun x hx s hs => ?_
    rw [Sc.fullTree hc]
    exact kern_scale H hc (adjOf_fullTree r h) hr rfl (fun π hπ => Nat.lt_succ_of_le ((fullTree_mem r h π).mp hπ).2) (containsHO_contains hx)
      ((fullTree_mem r h _).mpr ⟨route_valid r x h, (route_length r x h).le⟩) (by simp [FMM.fullTree, route_length]) rfl
      (containsHO_contains (hI.inside s hs))

end FMM
