import Verif.AxTree

/-!
# Exchange of coordinate axes: results
-/

namespace FMM
variable {d : ℕ} {V : Type} [AddCommGroup V] [Module ℝ V] {p : ℕ}

/-- The operations with exchanged axes: values are changed by `φ` (nothing for potentials, an exchange of the components for forces). -/
structure AxLaws {K : Kit d} {O : Obs K V} {L : FmmLaws K O p} (Q : LinLaws L) (σ : Fin d → Fin d) (φ : V →ₗ[ℝ] V) : Prop where
  m2l : ∀ a b u y : Vec d, Q.m2l (axV σ a) (axV σ b) ⟨axV σ u, 1⟩ (axV σ y) = φ (Q.m2l a b ⟨u, 1⟩ y)
  p2l : ∀ a u y : Vec d, Q.p2l (axV σ a) ⟨axV σ u, 1⟩ (axV σ y) = φ (Q.p2l a ⟨u, 1⟩ y)
  m2p : ∀ a u y : Vec d, Q.m2p (axV σ a) ⟨axV σ u, 1⟩ (axV σ y) = φ (Q.m2p a ⟨u, 1⟩ y)
  p2p : ∀ u y : Vec d, Q.p2p ⟨axV σ u, 1⟩ (axV σ y) = φ (Q.p2p ⟨u, 1⟩ y)

namespace Ax
open Lin
variable {σ : Fin d → Fin d} {K : Kit d} {O : Obs K V} {L : FmmLaws K O p} {Q : LinLaws L} {φ : V →ₗ[ℝ] V}

theorem map_sum (φ : V →ₗ[ℝ] V) : ∀ l : List V, φ l.sum = (l.map φ).sum
  | [] => by simp
  | a :: l => by simp [map_sum φ l]

open Classical in
/-- Sums over renamed nodes. -/
theorem sum_ax (hσ : Function.Involutive σ) (r : Box d) (y : Vec d) {l l' : List Path} (hp : l'.Perm (l.map (List.map (po σ))))
    (hv : ∀ ρ ∈ l, ∀ i ∈ ρ, i < 2 ^ d) (F G : Path → V) (h : ∀ ρ, F (pm σ ρ) = φ (G ρ)) :
    (l'.map fun ρ => if FMM.route (r.ax σ) (axV σ y) ρ.length = ρ then F ρ else 0).sum
      = φ (l.map fun ρ => if FMM.route r y ρ.length = ρ then G ρ else 0).sum := by
  rw [(hp.map _).sum_eq, map_sum, List.map_map, List.map_map]
  refine congrArg List.sum (List.map_congr_left fun ρ hρ => ?_)
  have e := route_iff hσ r y (hv ρ hρ)
  unfold pm at e
  simp only [Function.comp_apply]
  by_cases hr : FMM.route r y ρ.length = ρ
  · rw [if_pos hr, if_pos (e.mpr hr)]; exact h ρ
  · rw [if_neg hr, if_neg (fun h => hr (e.mp h)), map_zero]

theorem farT_ax (H : AxLaws Q σ φ) (hσ : Function.Involutive σ) {T T' : PTree} (HT : TIso T T' (po σ)) (hc : T.c = 2 ^ d) {r : Box d} (hA : AdjOf T r)
    (hA' : AdjOf T' (r.ax σ)) (hr : 0 < r.len) (x y : Vec d) : ∀ π, T.Mem π →
      farT Q T' (r.ax σ) ⟨axV σ y, 1⟩ (pm σ π) (axV σ x) = φ (farT Q T r ⟨y, 1⟩ π x)
  | [], _ => by simp [farT, pm]
  | i :: τ, hπ => by
    have hL := hA.laws hr
    have hL' := hA'.laws (show 0 < (r.ax σ).len from hr)
    have ih := farT_ax H hσ HT hc hA hA' hr x y τ hπ.tail
    have e : pm σ (i :: τ) = po σ i :: pm σ τ := rfl
    rw [e]
    simp only [farT]
    rw [ih, map_add, map_add, ← e]
    refine congrArg₂ (· + ·) (congrArg₂ (· + ·) rfl ?_) ?_
    · refine sum_ax hσ r y (HT.inter hL hL' hπ) (fun ρ hρ => by have := (TIso.inter_mem hL hπ hρ).1; rwa [hc] at this) _ _ fun ρ => ?_
      rw [boxAt, boxAt]
      exact H.m2l (FMM.boxAt r ρ).center (FMM.boxAt r (i :: τ)).center y x
    · refine sum_ax hσ r y (HT.xl hL hL' hπ) (fun ρ hρ => by have := (TIso.xl_mem hL hπ hρ).1; rwa [hc] at this) _ _ fun ρ => ?_
      rw [boxAt]
      exact H.p2l (FMM.boxAt r (i :: τ)).center y x

/-- The contribution of a source. -/
theorem kern_ax (H : AxLaws Q σ φ) (hσ : Function.Involutive σ) {T T' : PTree} (HT : TIso T T' (po σ)) (hc : T.c = 2 ^ d) {r : Box d} (hA : AdjOf T r)
    (hA' : AdjOf T' (r.ax σ)) (hr : 0 < r.len) {n n' : ℕ} (hh : ∀ π, T.Mem π → π.length < n) (hh' : ∀ π, T'.Mem π → π.length < n') {k k' : Vec d → ℕ}
    {x : Vec d} (hk1 : T.Mem (FMM.route r x (k x))) (hk2 : T.leaf (FMM.route r x (k x)) = true) (hk' : k' (axV σ x) = k x) (y : Vec d) :
    kern Q T' (r.ax σ) n' k' (axV σ x) (axV σ y) = φ (kern Q T r n k x y) := by
  have hL := hA.laws hr
  have hL' := hA'.laws (show 0 < (r.ax σ).len from hr)
  unfold kern term
  rw [hk', route, farT_ax H hσ HT hc hA hA' hr x y _ hk1, map_add, map_add]
  refine congrArg₂ (· + ·) (congrArg₂ (· + ·) rfl ?_) ?_
  · refine sum_ax hσ r y (HT.W hh hh' hL hL' hk1) (fun ρ hρ => by have := ((PTree.mem_W hh _ ρ).mp hρ).1.1; rwa [hc] at this) _ _ fun ρ => ?_
    rw [boxAt]
    exact H.m2p (FMM.boxAt r ρ).center y x
  · exact sum_ax hσ r y (HT.near hh hh' hL hL' hk1 hk2)
      (fun ρ hρ => by have := ((PTree.mem_near_leaf hL hh hk1 hk2 ρ).mp hρ).1.1; rwa [hc] at this) _ _ fun ρ => H.p2p _ _

theorem superpose_ax {h h' : Vec d → Vec d → V} {x : Vec d} (S : List (Source d)) (H : ∀ s ∈ S, h' (axV σ x) (axV σ s.pos) = φ (h x s.pos)) :
    superpose h' (S.map (Source.ax σ)) (axV σ x) = φ (superpose h S x) := by
  unfold superpose
  rw [map_sum, List.map_map, List.map_map]
  refine congrArg List.sum (List.map_congr_left fun s hs => ?_)
  simp only [Function.comp_apply, map_smul]
  rw [← H s hs]
  rfl

end Ax

/-- The adaptive tree with exchanged axes: it is constructed with the same height, and the value computed at the exchanged point is the exchanged value. -/
def AdaptiveAxes {K : Kit d} (O : Obs K V) (t : K.T) (S : List (Source d)) (max : ℕ) (r : Box d) (p : ℕ) (P : ℕ → Vec d → Prop) (σ : Fin d → Fin d)
    (φ : V →ₗ[ℝ] V) : Prop :=
  ∀ eps : ℝ, expansionOrder (totalStrength S) eps = .ok p →
    ∃ (fuel0 : ℕ) (T T' : AdaptiveFmm K), (∀ fuel ≥ fuel0, ∀ sch, Schedule sch → adaptiveFmm K fuel sch t S max eps = .ok T ∧
        adaptiveFmm K fuel sch t (S.map (Source.ax σ)) max eps = .ok T') ∧ T'.height = T.height ∧
      ∀ x, r.contains x → P T.height x → ∀ grav : Bool, ∃ v, ∀ cur, ∀ fuel ≥ fuel0, adaptiveEval O fuel grav T cur x = .ok v ∧
        adaptiveEval O fuel grav T' (cur.map (Source.ax σ)) (axV σ x) = .ok (φ v)

/-- The balanced tree with exchanged axes. -/
def BalancedAxes {K : Kit d} (O : Obs K V) (t : K.T) (S : List (Source d)) (perCell : ℕ) (r : Box d) (p : ℕ) (P : Vec d → Prop) (σ : Fin d → Fin d)
    (φ : V →ₗ[ℝ] V) : Prop :=
  ∀ eps : ℝ, expansionOrder (totalStrength S) eps = .ok p →
    ∃ (fuel0 : ℕ) (T T' : BalancedFmm K), (∀ fuel ≥ fuel0, ∀ sch, Schedule sch → balancedFmm K fuel sch t S perCell eps = .ok T ∧
        balancedFmm K fuel sch t (S.map (Source.ax σ)) perCell eps = .ok T') ∧
      ∀ x, r.containsHO x → P x → ∀ grav : Bool, ∃ v, balancedEval O grav T x = .ok v ∧ balancedEval O grav T' (axV σ x) = .ok (φ v)

namespace Ax
variable {σ : Fin d → Fin d} {φ : V →ₗ[ℝ] V}

theorem sign_value (grav : Bool) (v : V) : (if grav then φ v else -φ v) = φ (if grav then v else -v) := by cases grav <;> simp

theorem adaptive_of {K : Kit d} {O : Obs K V} {t : K.T} {S : List (Source d)} {max : ℕ} {r : Box d} {n : ℕ} {P P' R : ℕ → Vec d → Prop}
    {h h' : Vec d → Vec d → V} (hσ : Function.Involutive σ) (h1 : AdaptiveSuperposed O t S max r p n P h)
    (h2 : AdaptiveSuperposed O t (S.map (Source.ax σ)) max (r.ax σ) p n P' h') (hR : ∀ x, R n x → P n x)
    (hP : ∀ x, R n x → P' n (axV σ x)) (hh : ∀ x, r.contains x → ∀ s ∈ S, h' (axV σ x) (axV σ s.pos) = φ (h x s.pos)) :
    AdaptiveAxes O t S max r p R σ φ := by
  intro eps ho
  obtain ⟨f1, T1, a1, e1, b1⟩ := h1 S eps (List.Perm.refl _) ho
  obtain ⟨f2, T2, a2, e2, b2⟩ := h2 _ eps (List.Perm.refl _) (by rw [totalStrength]; exact ho)
  refine ⟨f1 + f2, T1, T2, fun fuel hf sch hs => ⟨a1 fuel (by omega) sch hs, a2 fuel (by omega) sch hs⟩, e2.trans e1.symm,
    fun x hx hp grav => ⟨_, fun cur fuel hf => ⟨b1 x hx (by rw [e1] at hp ⊢; exact hR x hp) grav cur fuel (by omega), ?_⟩⟩⟩
  rw [b2 (axV σ x) ((contains hσ _ _).mpr hx) (by rw [e2]; rw [e1] at hp; exact hP x hp) grav _ fuel (by omega), superpose_ax S (hh x hx), sign_value]

theorem balanced_of {K : Kit d} {O : Obs K V} {t : K.T} {S : List (Source d)} {perCell : ℕ} {r : Box d} {P P' R : Vec d → Prop}
    {h h' : Vec d → Vec d → V} (hσ : Function.Involutive σ) (h1 : BalancedSuperposed O t S perCell r p P h)
    (h2 : BalancedSuperposed O t (S.map (Source.ax σ)) perCell (r.ax σ) p P' h') (hR : ∀ x, R x → P x)
    (hP : ∀ x, R x → P' (axV σ x)) (hh : ∀ x, r.containsHO x → ∀ s ∈ S, h' (axV σ x) (axV σ s.pos) = φ (h x s.pos)) :
    BalancedAxes O t S perCell r p R σ φ := by
  intro eps ho
  obtain ⟨f1, T1, a1, b1⟩ := h1 S eps (List.Perm.refl _) ho
  obtain ⟨f2, T2, a2, b2⟩ := h2 _ eps (List.Perm.refl _) (by rw [totalStrength]; exact ho)
  refine ⟨f1 + f2, T1, T2, fun fuel hf sch hs => ⟨a1 fuel (by omega) sch hs, a2 fuel (by omega) sch hs⟩,
    fun x hx hp grav => ⟨_, b1 x hx (hR x hp) grav, ?_⟩⟩
  rw [b2 (axV σ x) ((containsHO hσ _ _).mpr hx) (hP x hp) grav, superpose_ax S (hh x hx), sign_value]

end Ax

open Ax

/-- The adaptive tree. -/
theorem adaptive_axes {K : Kit (d + 1)} {O : Obs K V} {L : FmmLaws K O p} {Q : LinLaws L} {σ : Fin (d + 1) → Fin (d + 1)} {φ : V →ₗ[ℝ] V}
    (H : AxLaws Q σ φ) (hσ : Function.Involutive σ) {t : K.T} (ht : L.good t)
    {S : List (Source (d + 1))} {max : ℕ} {r : Box (d + 1)} (hI : AdaptiveInput S max r) :
    AdaptiveAxes O t S max r p (fun n x => ∀ π : Path, π.length ≤ n → L.adm (boxAt r π).center x ∧ L.adm (axV σ (boxAt r π).center) (axV σ x)) σ φ := by
  have hI' := Ax.adaptiveInput hσ hI
  by_cases hN : max < S.length
  · have hr := hI.len_pos hN
    obtain ⟨hh, k, h1, h2, h3, h4, h5⟩ := adaptive_depths hI hN
    have HT := Ax.fmmTree hσ r S max
    have e : ∀ x, route (r.ax σ) x (k (axV σ x)) = pm σ (route r (axV σ x) (k (axV σ x))) := fun x => by
      rw [← Ax.route, axV_axV hσ]
    have h3' : ∀ x, (fmmTree Source.pos (r.ax σ) (S.map (Source.ax σ)) max).Mem (route (r.ax σ) x (k (axV σ x))) := fun x => by
      rw [e]; exact HT.mem (h3 _)
    have h4' : ∀ x, (fmmTree Source.pos (r.ax σ) (S.map (Source.ax σ)) max).leaf (route (r.ax σ) x (k (axV σ x))) = true := fun x => by
      rw [e]; exact (HT.leaf _ (h3 _).1).trans (h4 _)
    have h5' : ∀ π, (fmmTree Source.pos (r.ax σ) (S.map (Source.ax σ)) max).Mem π → π.length < hh + 1 := fun π hπ => by
      have := h5 _ (HT.symm.mem hπ)
      rw [List.length_map] at this
      omega
    refine adaptive_of (P' := fun n x => ∀ π : Path, π.length ≤ n → L.adm (boxAt (r.ax σ) π).center x) hσ (adaptive_superposed Q ht hI hN h1 h2 h3 h4)
      (adaptive_superposed Q ht hI' (by rw [List.length_map]; exact hN) (Ax.isHeight hσ h1) (k := fun x => k (axV σ x)) (fun x => h2 _) h3' h4')
      (fun _ h π hπ => (h π hπ).1) ?_ fun x hx s hs => ?_
    · intro x hx π hπ
      rw [Ax.boxAt_ax hσ]
      exact (hx _ (by rw [pm_length]; exact hπ)).2
    · exact kern_ax H hσ HT rfl (Sc.adjOf_fmmTree _ _ _) (Sc.adjOf_fmmTree _ _ _) hr (fun π hπ => Nat.lt_succ_of_le (h5 π hπ)) h5' (h3 x) (h4 x)
        (by simp only [axV_axV hσ]) _
  · refine adaptive_of hσ (adaptive_superposed_one Q ht hI (by omega))
      (adaptive_superposed_one Q ht hI' (by rw [List.length_map]; omega)) (fun _ h π hπ => (h π hπ).1) ?_ fun x _ s _ => H.p2p _ _
    intro x hx π hπ
    have : π = [] := by simpa using hπ
    subst this
    exact (hx [] le_rfl).2

/-- The balanced tree. -/
theorem balanced_axes {K : Kit d} {O : Obs K V} {L : FmmLaws K O p} {Q : LinLaws L} {σ : Fin d → Fin d} {φ : V →ₗ[ℝ] V}
    (H : AxLaws Q σ φ) (hσ : Function.Involutive σ) {t : K.T} (ht : L.good t)
    (hd : 2 ≤ d) (hd' : d ≤ 64) {S : List (Source d)} {perCell : ℕ} {r : Box d} {h : ℕ} (hI : BalancedInput S perCell r h) (hr : 0 < r.len)
    (hmor : h < 64 / d) : BalancedAxes O t S perCell r p
      (fun x => L.adm (boxAt r (route r x h)).center x ∧ L.adm (axV σ (boxAt r (route r x h)).center) (axV σ x)) σ φ := by
  have hI' := Ax.balancedInput hσ hI
  have hP : ∀ x : Vec d, L.adm (boxAt r (route r x h)).center x ∧ L.adm (axV σ (boxAt r (route r x h)).center) (axV σ x) → L.adm (boxAt (r.ax σ) (route (r.ax σ) (axV σ x) h)).center (axV σ x) :=
    fun x hx => by rw [Ax.route, Ax.boxAt]; exact hx.2
  rcases Nat.eq_zero_or_pos h with rfl | hh
  · exact balanced_of hσ (balanced_superposed_one Q ht hd hd' hI) (balanced_superposed_one Q ht hd hd' hI') (fun _ h => h.1) hP fun x _ s _ => H.p2p _ _
  · refine balanced_of hσ (balanced_superposed Q ht hd hI hh hr hmor) (balanced_superposed Q ht hd hI' hh hr hmor) (fun _ h => h.1) hP fun x hx s hs => ?_
    exact kern_ax H hσ (Ax.fullTree hσ r h) rfl (Sc.adjOf_fullTree r h) (Sc.adjOf_fullTree _ h) hr
      (fun π hπ => Nat.lt_succ_of_le ((fullTree_mem r h π).mp hπ).2) (fun π hπ => Nat.lt_succ_of_le ((fullTree_mem _ h π).mp hπ).2)
      ((fullTree_mem r h _).mpr ⟨route_valid r x h, (route_length r x h).le⟩) (by simp [FMM.fullTree, route_length]) rfl _

end FMM
