import Verif.MiTree

/-!
# Reflections of axes: results
-/

namespace FMM
variable {d : ℕ} {V : Type} [AddCommGroup V] [Module ℝ V] {p : ℕ}

/-- The operations with reflected axes: values are changed by `φ` (nothing for potentials, signs of the components for forces). -/
structure MiLaws {K : Kit d} {O : Obs K V} {L : FmmLaws K O p} (Q : LinLaws L) (e : Fin d → ℝ) (φ : V →ₗ[ℝ] V) : Prop where
  m2l : ∀ a b u y : Vec d, Q.m2l (mV e a) (mV e b) ⟨mV e u, 1⟩ (mV e y) = φ (Q.m2l a b ⟨u, 1⟩ y)
  p2l : ∀ a u y : Vec d, Q.p2l (mV e a) ⟨mV e u, 1⟩ (mV e y) = φ (Q.p2l a ⟨u, 1⟩ y)
  m2p : ∀ a u y : Vec d, Q.m2p (mV e a) ⟨mV e u, 1⟩ (mV e y) = φ (Q.m2p a ⟨u, 1⟩ y)
  p2p : ∀ u y : Vec d, Q.p2p ⟨mV e u, 1⟩ (mV e y) = φ (Q.p2p ⟨u, 1⟩ y)

namespace Mi
open Lin
open Ax (TIso)
variable {e : Fin d → ℝ} {K : Kit d} {O : Obs K V} {L : FmmLaws K O p} {Q : LinLaws L} {φ : V →ₗ[ℝ] V}

open Classical in
/-- Sums over renamed nodes. -/
theorem sum_mi (he : Signs e) {r : Box d} {y : Vec d} (hy : OffFaces r y) {l l' : List Path} (hp : l'.Perm (l.map (List.map (po e))))
    (hv : ∀ ρ ∈ l, ∀ i ∈ ρ, i < 2 ^ d) (F G : Path → V) (h : ∀ ρ, F (pm e ρ) = φ (G ρ)) :
    (l'.map fun ρ => if FMM.route (r.mi e) (mV e y) ρ.length = ρ then F ρ else 0).sum
      = φ (l.map fun ρ => if FMM.route r y ρ.length = ρ then G ρ else 0).sum := by
  rw [(hp.map _).sum_eq, Ax.map_sum, List.map_map, List.map_map]
  refine congrArg List.sum (List.map_congr_left fun ρ hρ => ?_)
  have e' := route_iff he hy (hv ρ hρ)
  unfold pm at e'
  simp only [Function.comp_apply]
  by_cases hr : FMM.route r y ρ.length = ρ
  · rw [if_pos hr, if_pos (e'.mpr hr)]; exact h ρ
  · rw [if_neg hr, if_neg (fun h => hr (e'.mp h)), map_zero]

theorem farT_mi (H : MiLaws Q e φ) (he : Signs e) {T T' : PTree} (HT : TIso T T' (po e)) (hc : T.c = 2 ^ d) {r : Box d} (hA : AdjOf T r)
    (hA' : AdjOf T' (r.mi e)) (hr : 0 < r.len) (x : Vec d) {y : Vec d} (hy : OffFaces r y) : ∀ π, T.Mem π →
      farT Q T' (r.mi e) ⟨mV e y, 1⟩ (pm e π) (mV e x) = φ (farT Q T r ⟨y, 1⟩ π x)
  | [], _ => by simp [farT, pm]
  | i :: τ, hπ => by
    have hL := hA.laws hr
    have hL' := hA'.laws (show 0 < (r.mi e).len from hr)
    have ih := farT_mi H he HT hc hA hA' hr x hy τ hπ.tail
    have e' : pm e (i :: τ) = po e i :: pm e τ := rfl
    rw [e']
    simp only [farT]
    rw [ih, map_add, map_add, ← e']
    refine congrArg₂ (· + ·) (congrArg₂ (· + ·) rfl ?_) ?_
    · refine sum_mi he hy (HT.inter hL hL' hπ) (fun ρ hρ => by have := (TIso.inter_mem hL hπ hρ).1; rwa [hc] at this) _ _ fun ρ => ?_
      rw [boxAt he, boxAt he]
      exact H.m2l (FMM.boxAt r ρ).center (FMM.boxAt r (i :: τ)).center y x
    · refine sum_mi he hy (HT.xl hL hL' hπ) (fun ρ hρ => by have := (TIso.xl_mem hL hπ hρ).1; rwa [hc] at this) _ _ fun ρ => ?_
      rw [boxAt he]
      exact H.p2l (FMM.boxAt r (i :: τ)).center y x

/-- The contribution of a source. -/
theorem kern_mi (H : MiLaws Q e φ) (he : Signs e) {T T' : PTree} (HT : TIso T T' (po e)) (hc : T.c = 2 ^ d) {r : Box d} (hA : AdjOf T r)
    (hA' : AdjOf T' (r.mi e)) (hr : 0 < r.len) {n n' : ℕ} (hh : ∀ π, T.Mem π → π.length < n) (hh' : ∀ π, T'.Mem π → π.length < n') {k k' : Vec d → ℕ}
    {x : Vec d} (hk1 : T.Mem (FMM.route r x (k x))) (hk2 : T.leaf (FMM.route r x (k x)) = true) (hk' : k' (mV e x) = k x) (hx : OffFaces r x)
    {y : Vec d} (hy : OffFaces r y) : kern Q T' (r.mi e) n' k' (mV e x) (mV e y) = φ (kern Q T r n k x y) := by
  have hL := hA.laws hr
  have hL' := hA'.laws (show 0 < (r.mi e).len from hr)
  unfold kern term
  rw [hk', route he hx, farT_mi H he HT hc hA hA' hr x hy _ hk1, map_add, map_add]
  refine congrArg₂ (· + ·) (congrArg₂ (· + ·) rfl ?_) ?_
  · refine sum_mi he hy (HT.W hh hh' hL hL' hk1) (fun ρ hρ => by have := ((PTree.mem_W hh _ ρ).mp hρ).1.1; rwa [hc] at this) _ _ fun ρ => ?_
    rw [boxAt he]
    exact H.m2p (FMM.boxAt r ρ).center y x
  · exact sum_mi he hy (HT.near hh hh' hL hL' hk1 hk2)
      (fun ρ hρ => by have := ((PTree.mem_near_leaf hL hh hk1 hk2 ρ).mp hρ).1.1; rwa [hc] at this) _ _ fun ρ => H.p2p _ _

theorem superpose_mi {h h' : Vec d → Vec d → V} {x : Vec d} (S : List (Source d)) (H : ∀ s ∈ S, h' (mV e x) (mV e s.pos) = φ (h x s.pos)) :
    superpose h' (S.map (Source.mi e)) (mV e x) = φ (superpose h S x) := by
  unfold superpose
  rw [Ax.map_sum, List.map_map, List.map_map]
  refine congrArg List.sum (List.map_congr_left fun s hs => ?_)
  simp only [Function.comp_apply, map_smul]
  rw [← H s hs]
  rfl

end Mi

/-- The adaptive tree with reflected axes: it is constructed with the same height, and the value computed at the reflected point is the reflected value. -/
def AdaptiveMirror {K : Kit d} (O : Obs K V) (t : K.T) (S : List (Source d)) (max : ℕ) (r : Box d) (p : ℕ) (P : ℕ → Vec d → Prop) (e : Fin d → ℝ)
    (φ : V →ₗ[ℝ] V) : Prop :=
  ∀ eps : ℝ, expansionOrder (totalStrength S) eps = .ok p →
    ∃ (fuel0 : ℕ) (T T' : AdaptiveFmm K), (∀ fuel ≥ fuel0, ∀ sch, Schedule sch → adaptiveFmm K fuel sch t S max eps = .ok T ∧
        adaptiveFmm K fuel sch t (S.map (Source.mi e)) max eps = .ok T') ∧ T'.height = T.height ∧
      ∀ x, r.contains x → OffFaces r x → P T.height x → ∀ grav : Bool, ∃ v, ∀ cur, ∀ fuel ≥ fuel0, adaptiveEval O fuel grav T cur x = .ok v ∧
        adaptiveEval O fuel grav T' (cur.map (Source.mi e)) (mV e x) = .ok (φ v)

/-- The balanced tree with reflected axes. -/
def BalancedMirror {K : Kit d} (O : Obs K V) (t : K.T) (S : List (Source d)) (perCell : ℕ) (r : Box d) (p : ℕ) (P : Vec d → Prop) (e : Fin d → ℝ)
    (φ : V →ₗ[ℝ] V) : Prop :=
  ∀ eps : ℝ, expansionOrder (totalStrength S) eps = .ok p →
    ∃ (fuel0 : ℕ) (T T' : BalancedFmm K), (∀ fuel ≥ fuel0, ∀ sch, Schedule sch → balancedFmm K fuel sch t S perCell eps = .ok T ∧
        balancedFmm K fuel sch t (S.map (Source.mi e)) perCell eps = .ok T') ∧
      ∀ x, r.containsHO x → OffFaces r x → P x → ∀ grav : Bool, ∃ v, balancedEval O grav T x = .ok v ∧ balancedEval O grav T' (mV e x) = .ok (φ v)

namespace Mi
variable {e : Fin d → ℝ} {φ : V →ₗ[ℝ] V}

theorem adaptive_of {K : Kit d} {O : Obs K V} {t : K.T} {S : List (Source d)} {max : ℕ} {r : Box d} {n : ℕ} {P P' R : ℕ → Vec d → Prop}
    {h h' : Vec d → Vec d → V} (he : Signs e) (h1 : AdaptiveSuperposed O t S max r p n P h)
    (h2 : AdaptiveSuperposed O t (S.map (Source.mi e)) max (r.mi e) p n P' h') (hR : ∀ x, R n x → P n x)
    (hP : ∀ x, R n x → P' n (mV e x)) (hh : ∀ x, r.contains x → OffFaces r x → ∀ s ∈ S, h' (mV e x) (mV e s.pos) = φ (h x s.pos)) :
    AdaptiveMirror O t S max r p R e φ := by
  intro eps ho
  obtain ⟨f1, T1, a1, e1, b1⟩ := h1 S eps (List.Perm.refl _) ho
  obtain ⟨f2, T2, a2, e2, b2⟩ := h2 _ eps (List.Perm.refl _) (by rw [totalStrength]; exact ho)
  refine ⟨f1 + f2, T1, T2, fun fuel hf sch hs => ⟨a1 fuel (by omega) sch hs, a2 fuel (by omega) sch hs⟩, e2.trans e1.symm,
    fun x hx ho hp grav => ⟨_, fun cur fuel hf => ⟨b1 x hx (by rw [e1] at hp ⊢; exact hR x hp) grav cur fuel (by omega), ?_⟩⟩⟩
  rw [b2 (mV e x) ((contains he _ _).mpr hx) (by rw [e2]; rw [e1] at hp; exact hP x hp) grav _ fuel (by omega), superpose_mi S (hh x hx ho), Ax.sign_value]

theorem balanced_of {K : Kit d} {O : Obs K V} {t : K.T} {S : List (Source d)} {perCell : ℕ} {r : Box d} {P P' R : Vec d → Prop}
    {h h' : Vec d → Vec d → V} (he : Signs e) (h1 : BalancedSuperposed O t S perCell r p P h)
    (h2 : BalancedSuperposed O t (S.map (Source.mi e)) perCell (r.mi e) p P' h') (hR : ∀ x, R x → P x)
    (hP : ∀ x, OffFaces r x → R x → P' (mV e x)) (hh : ∀ x, r.containsHO x → OffFaces r x → ∀ s ∈ S, h' (mV e x) (mV e s.pos) = φ (h x s.pos)) :
    BalancedMirror O t S perCell r p R e φ := by
  intro eps ho
  obtain ⟨f1, T1, a1, b1⟩ := h1 S eps (List.Perm.refl _) ho
  obtain ⟨f2, T2, a2, b2⟩ := h2 _ eps (List.Perm.refl _) (by rw [totalStrength]; exact ho)
  refine ⟨f1 + f2, T1, T2, fun fuel hf sch hs => ⟨a1 fuel (by omega) sch hs, a2 fuel (by omega) sch hs⟩,
    fun x hx ho hp grav => ⟨_, b1 x hx (hR x hp) grav, ?_⟩⟩
  rw [b2 (mV e x) (containsHO he ho hx) (hP x ho hp) grav, superpose_mi S (hh x hx ho), Ax.sign_value]

end Mi

open Mi

/-- The adaptive tree. -/
theorem adaptive_mirror {K : Kit (d + 1)} {O : Obs K V} {L : FmmLaws K O p} {Q : LinLaws L} {e : Fin (d + 1) → ℝ} {φ : V →ₗ[ℝ] V}
    (H : MiLaws Q e φ) (he : Signs e) {t : K.T} (ht : L.good t)
    {S : List (Source (d + 1))} {max : ℕ} {r : Box (d + 1)} (hI : AdaptiveInput S max r) (hS : ∀ s ∈ S, OffFaces r s.pos) :
    AdaptiveMirror O t S max r p (fun n x => ∀ π : Path, π.length ≤ n → L.adm (boxAt r π).center x ∧ L.adm (mV e (boxAt r π).center) (mV e x)) e φ := by
  have hI' := Mi.adaptiveInput he hI
  by_cases hN : max < S.length
  · have hN' : max < (S.map (Source.mi e)).length := by rw [List.length_map]; exact hN
    have hr := hI.len_pos hN
    obtain ⟨hh, k, h1, h2, h3, h4, h5⟩ := adaptive_depths hI hN
    obtain ⟨hh', k', h1', h2', h3', h4', h5'⟩ := adaptive_depths hI' hN'
    have HT := Mi.fmmTree he hS max
    have e1 := Mi.isHeight he hS hI.inside h1
    have ehh : hh' = hh := by
      rcases Nat.lt_trichotomy hh' hh with h | h | h
      · exact absurd h1'.2.1 (e1.2.2 hh' h1'.1 h)
      · exact h
      · exact absurd e1.2.1 (h1'.2.2 hh e1.1 h)
    subst ehh
    have ek : ∀ x, OffFaces r x → k' (mV e x) = k x := fun x hx => by
      have a := HT.mem (h3 x)
      have b := (HT.leaf _ (h3 x).1).trans (h4 x)
      have c := Mi.route he hx (k x)
      unfold pm at c
      rw [← c] at a b
      exact depth_unique (h3' _) (h4' _) a b
    refine adaptive_of (P' := fun n x => ∀ π : Path, π.length ≤ n → L.adm (boxAt (r.mi e) π).center x) he (adaptive_superposed Q ht hI hN h1 h2 h3 h4)
      (adaptive_superposed Q ht hI' hN' h1' h2' h3' h4')
      (fun _ h π hπ => (h π hπ).1) ?_ fun x hx ho s hs => ?_
    · intro x hx π hπ
      rw [Mi.boxAt_mi he]
      exact (hx _ (by rw [pm_length]; exact hπ)).2
    · exact kern_mi H he HT rfl (Sc.adjOf_fmmTree _ _ _) (Sc.adjOf_fmmTree _ _ _) hr (fun π hπ => Nat.lt_succ_of_le (h5 π hπ))
        (fun π hπ => Nat.lt_succ_of_le (h5' π hπ)) (h3 x) (h4 x) (ek x ho) ho (hS s hs)
  · refine adaptive_of he (adaptive_superposed_one Q ht hI (by omega))
      (adaptive_superposed_one Q ht hI' (by rw [List.length_map]; omega)) (fun _ h π hπ => (h π hπ).1) ?_ fun x _ _ s _ => H.p2p _ _
    intro x hx π hπ
    have : π = [] := by simpa using hπ
    subst this
    exact (hx [] le_rfl).2

/-- The balanced tree. -/
theorem balanced_mirror {K : Kit (d + 1)} {O : Obs K V} {L : FmmLaws K O p} {Q : LinLaws L} {e : Fin (d + 1) → ℝ} {φ : V →ₗ[ℝ] V}
    (H : MiLaws Q e φ) (he : Signs e) {t : K.T} (ht : L.good t)
    (hd : 2 ≤ d + 1) (hd' : d + 1 ≤ 64) {S : List (Source (d + 1))} {perCell : ℕ} {r : Box (d + 1)} {h : ℕ} (hI : BalancedInput S perCell r h) (hr : 0 < r.len)
    (hmor : h < 64 / (d + 1)) (hS : ∀ s ∈ S, OffFaces r s.pos) : BalancedMirror O t S perCell r p
      (fun x => L.adm (boxAt r (route r x h)).center x ∧ L.adm (mV e (boxAt r (route r x h)).center) (mV e x)) e φ := by
  have hI' := Mi.balancedInput he hS hI
  have hP : ∀ x : Vec (d + 1), OffFaces r x → L.adm (boxAt r (route r x h)).center x ∧ L.adm (mV e (boxAt r (route r x h)).center) (mV e x) →
      L.adm (boxAt (r.mi e) (route (r.mi e) (mV e x) h)).center (mV e x) :=
    fun x ho hx => by rw [Mi.route he ho, Mi.boxAt he]; exact hx.2
  rcases Nat.eq_zero_or_pos h with rfl | hh
  · exact balanced_of he (balanced_superposed_one Q ht hd hd' hI) (balanced_superposed_one Q ht hd hd' hI') (fun _ h => h.1) hP fun x _ _ s _ => H.p2p _ _
  · refine balanced_of he (balanced_superposed Q ht hd hI hh hr hmor) (balanced_superposed Q ht hd hI' hh hr hmor) (fun _ h => h.1) hP fun x hx ho s hs => ?_
    exact kern_mi H he (Mi.fullTree he r h) rfl (Sc.adjOf_fullTree r h) (Sc.adjOf_fullTree _ h) hr
      (fun π hπ => Nat.lt_succ_of_le ((fullTree_mem r h π).mp hπ).2) (fun π hπ => Nat.lt_succ_of_le ((fullTree_mem _ h π).mp hπ).2)
      ((fullTree_mem r h _).mpr ⟨route_valid r x h, (route_length r x h).le⟩) (by simp [FMM.fullTree, route_length]) rfl ho (hS s hs)

end FMM
