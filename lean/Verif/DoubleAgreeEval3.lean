import Verif.DoubleAgree3

/-!
# Evaluation of expansions and direct sums in binary64 and without upper limit of the exponent
-/

namespace FMM.D64
open FMM Rounded
variable {F : Flt3} {L : Lib}

/-! ## Loops -/

theorem loopM_inv {σ τ : Type} (R : ℕ → σ → τ → Prop) (n : ℕ) (f : ℕ → σ → Outcome σ) (g : τ → ℕ → τ)
    (h : ∀ i < n, ∀ s t s', R i s t → f i s = .ok s' → R (i + 1) s' (g t i)) {s s' : σ} {t : τ} (h0 : R 0 s t) (e : loopM n f s = .ok s') :
    R n s' ((List.range n).foldl g t) := by
  induction n generalizing s' with
  | zero => injection e with e; subst e; exact h0
  | succ n ih =>
    rw [loopM_succ] at e
    obtain ⟨s1, e1, e2⟩ := bind_ok e
    rw [List.range_succ, List.foldl_append]
    exact h n (by omega) _ _ _ (ih (fun i hi => h i (by omega)) e1) e2

theorem loopZ_inv {σ τ : Type} (R : σ → τ → Prop) (lo hi : ℤ) (f : ℤ → σ → Outcome σ) (g : τ → ℤ → τ)
    (h : ∀ m, lo ≤ m → m ≤ hi → ∀ s t s', R s t → f m s = .ok s' → R s' (g t m)) {s s' : σ} {t : τ} (h0 : R s t) (e : loopZ lo hi f s = .ok s') :
    R s' ((zrange lo hi).foldl g t) := by
  unfold loopZ at e
  unfold zrange
  rw [List.foldl_map]
  exact loopM_inv (fun _ => R) _ _ (fun t (i : ℕ) => g t (lo + i)) (fun i hi' => h _ (by omega) (by omega)) h0 e

/-- The double loop from degree 1. -/
theorem foldl_indices1 {τ : Type*} (g : τ → ℕ × ℤ → τ) (order : ℕ) (t : τ) :
    ((indices order).filter fun nm => 1 ≤ nm.1).foldl g t
      = (List.range order).foldl (fun t (i : ℕ) => (zrange (-((i + 1 : ℕ) : ℤ)) ((i + 1 : ℕ) : ℤ)).foldl (fun t m => g t (i + 1, m)) t) t := by
  rw [List.foldl_filter, foldl_indices, List.range_succ_eq_map, List.foldl_cons, List.foldl_map]
  have e : ∀ (l : List ℤ) (t : τ), l.foldl (fun t (m : ℤ) => if decide (1 ≤ ((0 : ℕ), m).1) = true then g t (0, m) else t) t = t := by
    intro l
    induction l with
    | nil => intro t; rfl
    | cons a l ih => intro t; rw [List.foldl_cons]; exact ih t
  rw [e]
  congr 1

/-! ## Potentials of expansions -/

theorem get_agr {p : ℕ} {c : Vec 3} {e : Exp64} {f : Exp3} (h : CAgr p c e f) {n : ℕ} (hn : n ≤ p) {m : ℤ} (hm : |m| ≤ n) {a : ℂ}
    (ha : f.get n m = .ok a) : AgrC (e.c n m) a := by
  rw [← ok_inj (h.is.get hn hm) ha]
  exact h.cells.val n hn m hm

theorem potLoop_agr (hF : Is64 F) {p : ℕ} {c : Vec 3} {e : Exp64} {f : Exp3} (he : CAgr p c e f) {Y : YlmTable} {Y' : ℕ → ℤ → DC}
    (hY : ∀ l ≤ p, ∀ m : ℤ, |m| ≤ l → ∀ y, Y.get l m = .ok y → AgrC (Y' l m) y) {P' : ℕ → Dbl} (step : ℝ → Outcome ℝ) (x0 : ℝ) (h0 : Agr (P' 0) x0)
    (hstep : ∀ i x x', Agr (P' i) x → step x = .ok x' → Agr (P' (i + 1)) x') {v : ℝ} (hv : (do
      let (pot, _) ← loopM (p + 1) (fun n (s : ℂ × ℝ) => do
        let pot ← loopZ (-(n : ℤ)) n (fun m pot => do
          let a ← f.get n m
          let y ← Y.get n m
          .ok (F.cadd pot (F.mul (F.rsc s.2 a) y))) s.1
        let rp ← step s.2
        .ok (pot, rp)) (0, x0)
      (Except.ok (-pot.re) : Outcome ℝ)) = .ok v) :
    Agr (neg ((indices p).foldl (fun pot nm => cadd pot (cmul (rsc (P' nm.1) (e.c nm.1 nm.2)) (Y' nm.1 nm.2))) czero).re) v := by
  obtain ⟨⟨pot, rp⟩, h1, h2⟩ := bind_ok hv
  injection h2 with h2
  rw [← h2, foldl_indices]
  have key := loopM_inv (fun i (s : ℂ × ℝ) t => AgrC t s.1 ∧ Agr (P' i) s.2) (p + 1) (fun n (s : ℂ × ℝ) => do
        let pot ← loopZ (-(n : ℤ)) n (fun m pot => do
          let a ← f.get n m
          let y ← Y.get n m
          .ok (F.cadd pot (F.mul (F.rsc s.2 a) y))) s.1
        let rp ← step s.2
        .ok (pot, rp)) (fun t (n : ℕ) => (zrange (-(n : ℤ)) n).foldl (fun t m => cadd t (cmul (rsc (P' n) (e.c n m)) (Y' n m))) t)
    (by
      rintro n hn ⟨z, r⟩ t ⟨z', r'⟩ ⟨hz, hr⟩ h
      obtain ⟨w, k1, k2⟩ := bind_ok h
      obtain ⟨r2, k3, k4⟩ := bind_ok k2
      injection k4 with k4
      injection k4 with e1 e2
      subst e1 e2
      refine ⟨?_, hstep n _ _ hr k3⟩
      refine loopZ_inv (fun (z : ℂ) t => AgrC t z) _ _ _ (fun t m => cadd t (cmul (rsc (P' n) (e.c n m)) (Y' n m))) ?_ hz k1
      intro m hm1 hm2 z t z' hzt h
      have hm : |m| ≤ n := by rw [abs_le]; omega
      obtain ⟨a, a1, h⟩ := bind_ok h
      obtain ⟨y, y1, h⟩ := bind_ok h
      injection h with h
      rw [← h]
      exact hzt.cadd hF (AgrC.cmul hF (hr.rsc' hF (get_agr he (by omega) hm a1)) (hY n (by omega) m hm y y1)))
    (s := (0, x0)) (t := czero) ⟨agrC_zero, h0⟩ h1
  exact key.1.1.neg

/-- Potential of a local expansion. -/
theorem lePot_agr (hF : Is64 F) (hL : LibOf L F) {p : ℕ} {e : Exp64} {f : Exp3} (he : PAgr p f e) {x : Vec 3} (hx : Mod x) {v : ℝ}
    (hv : Fl3.lePot F f x = .ok v) : Agr (lePot L e.order e.center e.c x) v := by
  obtain ⟨h0, he⟩ := he
  obtain ⟨g1, -, g3⟩ := geo_fin hF hL hx h0
  unfold Fl3.lePot at hv
  simp only [he.order', he.center', Fl3.sph0] at hv
  obtain ⟨Y, hY, hv⟩ := bind_ok hv
  unfold lePot
  dsimp only
  rw [g1, g3, he.order]
  exact potLoop_agr hF he (fun l hl m hm y hy => hL.ylm p _ _ Y l m y hY hl hm hy) (P' := pows (.fin (F.nrm3 (F.vsub x e.center))))
    (fun y => .ok (F.rnd (y * F.nrm3 (F.vsub x e.center)))) 1 (agr_fin 1)
    (fun i y y' h h' => by injection h' with h'; rw [← h']; exact h.rmul hF (agr_fin _)) hv

/-- Division of finite numbers. -/
theorem divR_agr (hF : Is64 F) {a : Dbl} {x b y : ℝ} (ha : Agr a x) (h : Fl3.divR F x b = .ok y) : Agr (div a (.fin b)) y := by
  unfold Fl3.divR at h
  by_cases hb : b = 0
  · rw [if_pos hb] at h; cases h
  · rw [if_neg hb] at h
    injection h with h
    rw [← h]
    exact ha.rdiv hF b

/-- Potential of a multipole expansion. -/
theorem mePot_agr (hF : Is64 F) (hL : LibOf L F) {p : ℕ} {e : Exp64} {f : Exp3} (he : PAgr p f e) {x : Vec 3} (hx : Mod x) {v : ℝ}
    (hv : Fl3.mePot F f x = .ok v) : Agr (mePot L e.order e.center e.c x) v := by
  obtain ⟨h0, he⟩ := he
  obtain ⟨g1, -, g3⟩ := geo_fin hF hL hx h0
  unfold Fl3.mePot at hv
  simp only [he.order', he.center', Fl3.sph0] at hv
  obtain ⟨Y, hY, hv⟩ := bind_ok hv
  obtain ⟨ri, hri, hv⟩ := bind_ok hv
  unfold mePot
  dsimp only
  rw [g1, g3, he.order]
  exact potLoop_agr hF he (fun l hl m hm y hy => hL.ylm p _ _ Y l m y hY hl hm hy)
    (P' := ipows (div (.fin 1) (.fin (F.nrm3 (F.vsub x e.center)))) (.fin (F.nrm3 (F.vsub x e.center))))
    (fun y => Fl3.divR F y (F.nrm3 (F.vsub x e.center))) ri (divR_agr hF (agr_fin 1) hri)
    (fun i y y' h h' => divR_agr hF h h') hv

/-! ## Forces of expansions -/

/-- Componentwise. -/
def VAgr (v : DVec 3) (w : Vec 3) : Prop := ∀ j, Agr (v j) (w j)

theorem vagr3 {a b c : Dbl} {x y z : ℝ} (h0 : Agr a x) (h1 : Agr b y) (h2 : Agr c z) : VAgr ![a, b, c] ![x, y, z] := by
  intro j
  match j with
  | 0 => exact h0
  | 1 => exact h1
  | 2 => exact h2

theorem toBasis_agr (hF : Is64 F) (hL : LibOf L F) {v : DVec 3} {w : Vec 3} (h : VAgr v w) (θ φ : ℝ) :
    VAgr (toBasis L v (.fin θ, .fin φ)) (F.toBasis w θ φ) := by
  unfold toBasis Flt3.toBasis
  dsimp only
  rw [hL.sin, hL.sin, hL.cos, hL.cos]
  have a := fun (s : ℝ) j => (agr_fin s).rmul hF (h j)
  simp only [hF.rnd] at a ⊢
  exact vagr3 (((agr_fin _).mul ((a _ 0).add (a _ 1))).sub (a _ 2)) (((agr_fin _).mul ((a _ 0).add (a _ 1))).add (a _ 2)) ((a _ 0).sub (a _ 1))

theorem forceTerm_agr (hF : Is64 F) (hL : LibOf L F) {Y : YlmDerivTable} {Y' : DC × DC × DC} {n : ℕ} {m : ℤ} {θ : ℝ}
    (hY : ∀ y dt dp, Y.Y n m = .ok y → Y.dYdtheta n m = .ok dt → Fl3.dYdphi F Y n m = .ok dp → AgrC Y'.1 y ∧ AgrC Y'.2.1 dt ∧ AgrC Y'.2.2 dp)
    {P : Dbl} {x : ℝ} (hP : Agr P x) (sub : Bool) (k : ℕ) {a' : DC} {a : ℂ} (ha : AgrC a' a) {v : DVec 3} {w w' : Vec 3} (h : VAgr v w)
    (hw : Fl3.forceTerm F Y θ x sub k a n m w = .ok w') : VAgr (forceTerm L Y' (.fin θ) P sub k a' v) w' := by
  unfold Fl3.forceTerm at hw
  obtain ⟨y, y1, hw⟩ := bind_ok hw
  obtain ⟨dt, y2, hw⟩ := bind_ok hw
  obtain ⟨dp, y3, hw⟩ := bind_ok hw
  obtain ⟨d, d1, hw⟩ := bind_ok hw
  obtain ⟨z1, z2, z3⟩ := hY y dt dp y1 y2 y3
  injection hw with hw
  rw [← hw]
  unfold forceTerm
  rw [hL.sin]
  have t := (hP.rmul hF (agr_fin (k : ℝ))).rmul hF (ha.cmul hF z1).1
  refine vagr3 ?_ ?_ ?_
  · cases sub
    · simp only [hF.rnd] at t ⊢
      exact (h 0).add t
    · simp only [hF.rnd] at t ⊢
      exact (h 0).sub t
  · have := (h 1).add (hP.rmul hF (ha.cmul hF z2).1)
    rw [hF.rnd]; exact this
  · have := (h 2).add (divR_agr hF (hP.rmul hF (ha.cmul hF z3).1) d1)
    rw [hF.rnd]; exact this

theorem forceLoop_agr (hF : Is64 F) (hL : LibOf L F) {p : ℕ} {c : Vec 3} {e : Exp64} {f : Exp3} (he : CAgr p c e f) {Y : YlmDerivTable}
    {Y' : ℕ → ℤ → DC × DC × DC} {θ : ℝ}
    (hY : ∀ l ≤ p, ∀ m : ℤ, |m| ≤ l → ∀ y dt dp, Y.Y l m = .ok y → Y.dYdtheta l m = .ok dt → Fl3.dYdphi F Y l m = .ok dp →
      AgrC (Y' l m).1 y ∧ AgrC (Y' l m).2.1 dt ∧ AgrC (Y' l m).2.2 dp)
    {P' : ℕ → Dbl} (sub : Bool) (N : ℕ) (dg : ℕ → ℕ) (hdg : ∀ i < N, dg i ≤ p) (step : ℝ → Outcome ℝ) (x0 : ℝ) (h0 : Agr (P' 0) x0)
    (hstep : ∀ i x x', Agr (P' i) x → step x = .ok x' → Agr (P' (i + 1)) x') {w : Vec 3} {rp : ℝ} (hv :
      loopM N (fun i (s : Vec 3 × ℝ) => do
        let f ← loopZ (-((dg i : ℕ) : ℤ)) (dg i : ℕ) (fun m v => do
          let a ← f.get (dg i) m
          Fl3.forceTerm F Y θ s.2 sub (i + 1) a (dg i) m v) s.1
        let rp ← step s.2
        .ok (f, rp)) (0, x0) = .ok (w, rp)) :
    VAgr ((List.range N).foldl (fun v (i : ℕ) => (zrange (-((dg i : ℕ) : ℤ)) (dg i : ℕ)).foldl (fun v m =>
      forceTerm L (Y' (dg i) m) (.fin θ) (P' i) sub (i + 1) (e.c (dg i) m) v) v) (vzero 3)) w := by
  have key := loopM_inv (fun i (s : Vec 3 × ℝ) t => VAgr t s.1 ∧ Agr (P' i) s.2) N (fun i (s : Vec 3 × ℝ) => do
        let f ← loopZ (-((dg i : ℕ) : ℤ)) (dg i : ℕ) (fun m v => do
          let a ← f.get (dg i) m
          Fl3.forceTerm F Y θ s.2 sub (i + 1) a (dg i) m v) s.1
        let rp ← step s.2
        .ok (f, rp)) (fun v (i : ℕ) => (zrange (-((dg i : ℕ) : ℤ)) (dg i : ℕ)).foldl (fun v m =>
      forceTerm L (Y' (dg i) m) (.fin θ) (P' i) sub (i + 1) (e.c (dg i) m) v) v)
    (by
      rintro n hn ⟨z, r⟩ t ⟨z', r'⟩ ⟨hz, hr⟩ h
      obtain ⟨w, k1, k2⟩ := bind_ok h
      obtain ⟨r2, k3, k4⟩ := bind_ok k2
      injection k4 with k4
      injection k4 with e1 e2
      subst e1 e2
      refine ⟨?_, hstep n _ _ hr k3⟩
      refine loopZ_inv (fun (z : Vec 3) t => VAgr t z) _ _ _ (fun v m => forceTerm L (Y' (dg n) m) (.fin θ) (P' n) sub (n + 1) (e.c (dg n) m) v) ?_ hz k1
      intro m hm1 hm2 z t z' hzt h
      have hm : |m| ≤ (dg n : ℕ) := by rw [abs_le]; omega
      obtain ⟨a, a1, h⟩ := bind_ok h
      exact forceTerm_agr hF hL (hY (dg n) (hdg n hn) m hm) hr sub (n + 1) (get_agr he (hdg n hn) hm a1) hzt h)
    (s := (0, x0)) (t := vzero 3) ⟨fun j => agr_fin 0, h0⟩ hv
  exact key.1

/-- Force of a multipole expansion. -/
theorem meForce_agr (hF : Is64 F) (hL : LibOf L F) {p : ℕ} {e : Exp64} {f : Exp3} (he : PAgr p f e) {x : Vec 3} (hx : Mod x) {v : Vec 3}
    (hv : Fl3.meForce F f x = .ok v) : VAgr (meForce L e.order e.center e.c x) v := by
  obtain ⟨h0, he⟩ := he
  obtain ⟨g1, g2, g3⟩ := geo_fin hF hL hx h0
  unfold Fl3.meForce at hv
  simp only [he.order', he.center', Fl3.sph0] at hv
  obtain ⟨Y, hY, hv⟩ := bind_ok hv
  obtain ⟨ri, hri, hv⟩ := bind_ok hv
  obtain ⟨⟨w, rp⟩, hw, hv⟩ := bind_ok hv
  injection hv with hv
  rw [← hv]
  unfold meForce
  dsimp only
  rw [g1, g3, he.order, foldl_indices]
  refine toBasis_agr hF hL ?_ _ _
  refine forceLoop_agr hF hL he (Y' := L.ylmD p (.fin (F.sph (F.vsub x e.center) 1), .fin (F.sph (F.vsub x e.center) 2)))
    (fun l hl m hm y dt dp => hL.ylmD p _ _ Y l m y dt dp hY hl hm)
    (P' := ipows (div (.fin 1) (mul (.fin (F.nrm3 (F.vsub x e.center))) (.fin (F.nrm3 (F.vsub x e.center))))) (.fin (F.nrm3 (F.vsub x e.center))))
    true (p + 1) id (fun i hi => by simp only [id]; omega)
    (fun y => Fl3.divR F y (F.nrm3 (F.vsub x e.center))) ri ?_ (fun i y y' h h' => divR_agr hF h h') hw
  have h1 : |F.nrm3 (F.vsub x e.center) * F.nrm3 (F.vsub x e.center)| ≤ 2 ^ (604 : ℤ) := by
    rw [abs_mul, show (604 : ℤ) = 302 + 302 by norm_num, zpow_add₀ (by norm_num)]
    exact mul_le_mul g2 g2 (abs_nonneg _) (two_pow_pos _).le
  have h2 : mul (.fin (F.nrm3 (F.vsub x e.center))) (.fin (F.nrm3 (F.vsub x e.center))) = .fin (F.rnd (F.nrm3 (F.vsub x e.center) * F.nrm3 (F.vsub x e.center))) := by
    rw [hF.rnd]; exact (rnd64_fin h1 (by norm_num) (by norm_num)).1
  show Agr (div (.fin 1) (mul _ _)) ri
  rw [h2]
  exact divR_agr hF (agr_fin 1) hri

/-- Force of a local expansion. -/
theorem leForce_agr (hF : Is64 F) (hL : LibOf L F) {p : ℕ} {e : Exp64} {f : Exp3} (he : PAgr p f e) {x : Vec 3} (hx : Mod x) {v : Vec 3}
    (hv : Fl3.leForce F f x = .ok v) : VAgr (leForce L e.order e.center e.c x) v := by
  obtain ⟨h0, he⟩ := he
  obtain ⟨g1, g2, g3⟩ := geo_fin hF hL hx h0
  unfold Fl3.leForce at hv
  simp only [he.order', he.center', Fl3.sph0] at hv
  obtain ⟨Y, hY, hv⟩ := bind_ok hv
  obtain ⟨⟨w, rp⟩, hw, hv⟩ := bind_ok hv
  injection hv with hv
  rw [← hv]
  unfold leForce
  dsimp only
  rw [g1, g3, he.order, foldl_indices1]
  refine toBasis_agr hF hL ?_ _ _
  exact forceLoop_agr hF hL he (Y' := L.ylmD p (.fin (F.sph (F.vsub x e.center) 1), .fin (F.sph (F.vsub x e.center) 2)))
    (fun l hl m hm y dt dp => hL.ylmD p _ _ Y l m y dt dp hY hl hm) (P' := pows (.fin (F.nrm3 (F.vsub x e.center))))
    false p (fun i => i + 1) (fun i hi => hi) (fun y => .ok (F.rnd (y * F.nrm3 (F.vsub x e.center)))) 1 (agr_fin 1)
    (fun i y y' h h' => by injection h' with h'; rw [← h']; exact h.rmul hF (agr_fin _)) hw

/-! ## Direct sums -/

theorem potential_agr (hF : Is64 F) (hL : LibOf L F) (grav safe : Bool) {s : Source 3} (hs : Mod s.pos) {x : Vec 3} (hx : Mod x) {v : ℝ}
    (hv : Fl3.potential F grav safe s x = .ok v) : Agr (potential3 grav safe s x) v := by
  obtain ⟨g1, -, -⟩ := geo_fin hF hL hs hx
  unfold Fl3.potential at hv
  unfold potential3
  dsimp only at hv ⊢
  rw [g1]
  set r := F.nrm3 (F.vsub s.pos x) with hr
  by_cases h1 : safe = true ∧ r = 0
  · rw [if_pos h1] at hv
    injection hv with hv
    rw [← hv, if_pos (by rw [h1.1, h1.2]; simp [isZero])]
    exact agr_fin 0
  · rw [if_neg h1] at hv
    by_cases h2 : r = 0
    · rw [if_pos h2] at hv; cases hv
    · rw [if_neg h2] at hv
      injection hv with hv
      rw [← hv, if_neg (by simp [isZero, h2])]
      have := (agr_fin (-s.q)).rdiv hF r
      cases grav
      · exact this.neg
      · exact this

theorem potentialSum_agr (hF : Is64 F) (hL : LibOf L F) (grav safe : Bool) {S : List (Source 3)} (hS : ∀ s ∈ S, Mod s.pos) {x : Vec 3} (hx : Mod x) {v : ℝ}
    (hv : Fl3.potentialSum F grav safe S x = .ok v) : Agr (potentialSum3 grav safe S x) v := by
  unfold Fl3.potentialSum at hv
  unfold potentialSum3
  refine foldlM_agr (fun (a b : Source 3) => a = b ∧ Mod a.pos) (fun y d => Agr d y) _ _ ?_ (forall₂_self (fun s => Mod s.pos) S hS) (agr_fin 0) hv
  rintro a b y d y' ⟨rfl, hq⟩ h e
  obtain ⟨z, z1, z2⟩ := bind_ok e
  injection z2 with z2
  rw [← z2, hF.rnd]
  exact h.add (potential_agr hF hL grav safe hq hx z1)

theorem forcefield_agr (hF : Is64 F) (hL : LibOf L F) (grav safe : Bool) {s : Source 3} (hs : Mod s.pos) {x : Vec 3} (hx : Mod x) {eps : ℝ}
    (heps : |eps| ≤ 2 ^ (906 : ℤ)) {v : Vec 3} (hv : Fl3.forcefield F grav safe s x eps = .ok v) : VAgr (forcefield3 grav safe s x eps) v := by
  obtain ⟨g1, g2, -⟩ := geo_fin hF hL hs hx
  obtain ⟨d1, -⟩ := vsub_fin hF hs hx
  unfold Fl3.forcefield at hv
  unfold forcefield3
  dsimp only at hv ⊢
  rw [g1, d1]
  set r := F.nrm3 (F.vsub s.pos x) with hr
  by_cases h1 : safe = true ∧ r = 0
  · rw [if_pos h1] at hv
    injection hv with hv
    rw [← hv, if_pos (by rw [h1.1, h1.2]; simp [isZero])]
    exact fun j => agr_fin 0
  · rw [if_neg h1] at hv
    have b1 : |r * r| ≤ 2 ^ (604 : ℤ) := by
      rw [abs_mul, show (604 : ℤ) = 302 + 302 by norm_num, zpow_add₀ (by norm_num)]
      exact mul_le_mul g2 g2 (abs_nonneg _) (two_pow_pos _).le
    obtain ⟨c1, c2⟩ := rnd64_fin b1 (by norm_num) (by norm_num)
    have b2 : |rndU (r * r) * r| ≤ 2 ^ (906 : ℤ) := by
      rw [abs_mul, show (906 : ℤ) = 604 + 302 by norm_num, zpow_add₀ (by norm_num)]
      exact mul_le_mul c2 g2 (abs_nonneg _) (two_pow_pos _).le
    obtain ⟨c3, c4⟩ := rnd64_fin b2 (by norm_num) (by norm_num)
    have b3 : |rndU (rndU (r * r) * r) + eps| ≤ 2 ^ (907 : ℤ) := by
      have e := two_mul_pow 906
      norm_num only at e
      rw [← e]
      generalize (2 : ℝ) ^ (906 : ℤ) = Q at c4 heps ⊢
      exact (abs_add_le _ _).trans (by linarith)
    obtain ⟨c5, -⟩ := rnd64_fin b3 (by norm_num) (by norm_num)
    have hden : add (mul (mul (.fin r) (.fin r)) (.fin r)) (.fin eps) = .fin (F.rnd (F.rnd (F.rnd (r * r) * r) + eps)) := by
      show add (mul (rnd64 (r * r)) (.fin r)) (.fin eps) = _
      rw [c1]
      show add (rnd64 (rndU (r * r) * r)) (.fin eps) = _
      rw [c3, hF.rnd, hF.rnd, hF.rnd]
      exact c5
    rw [hden, if_neg (by simp only [Bool.and_eq_true, not_and]; intro h; simp only [isZero, decide_eq_true_eq]; exact fun h0 => h1 ⟨h, h0⟩)]
    set den := F.rnd (F.rnd (F.rnd (r * r) * r) + eps) with hd
    by_cases h2 : den = 0
    · rw [if_pos h2] at hv; cases hv
    · rw [if_neg h2] at hv
      injection hv with hv
      rw [← hv]
      have key : VAgr (vscale (fun j => .fin (F.vsub s.pos x j)) (div (.fin s.q) (.fin den))) (F.vscale (F.vsub s.pos x) (F.rnd (s.q / den))) :=
        fun j => (agr_fin _).rmul hF ((agr_fin s.q).rdiv hF den)
      cases grav
      · intro j
        rw [if_neg (by decide), if_neg (by decide)]
        have := (key j).neg
        rw [show (F.vscale (F.vsub s.pos x) (F.rnd (s.q / den))).neg j = -(F.vscale (F.vsub s.pos x) (F.rnd (s.q / den)) j) from mul_neg_one _]
        exact this
      · exact key

theorem forcefieldSum_agr (hF : Is64 F) (hL : LibOf L F) (grav safe : Bool) {S : List (Source 3)} (hS : ∀ s ∈ S, Mod s.pos) {x : Vec 3} (hx : Mod x) {eps : ℝ}
    (heps : |eps| ≤ 2 ^ (906 : ℤ)) {v : Vec 3} (hv : Fl3.forcefieldSum F grav safe S x eps = .ok v) : VAgr (forcefieldSum3 grav safe S x eps) v := by
  unfold Fl3.forcefieldSum at hv
  unfold forcefieldSum3
  refine foldlM_agr (fun (a b : Source 3) => a = b ∧ Mod a.pos) (fun y d => VAgr d y) _ _ ?_ (forall₂_self (fun s => Mod s.pos) S hS)
    (fun j => agr_fin 0) hv
  rintro a b y d y' ⟨rfl, hq⟩ h e
  obtain ⟨z, z1, z2⟩ := bind_ok e
  injection z2 with z2
  rw [← z2]
  intro j
  have := (h j).add (forcefield_agr hF hL grav safe hq hx heps z1 j)
  show Agr _ (F.rnd (y j + z j))
  rw [hF.rnd]
  exact this

end FMM.D64
