import Verif.DoubleAgreeEval3
import Verif.KitSimTree

/-!
# The trees in binary64 and without upper limit of the exponent
-/

namespace FMM.D64
open FMM Rounded
variable {F : Flt3} {L : Lib}

/-! ## Expansions without coefficients -/

theorem loop1 {σ : Type} {f : ℕ → σ → Outcome σ} {s s' : σ} (h : loopM (0 + 1) f s = .ok s') : f 0 s = .ok s' := h

theorem loopZ1 {σ : Type} {f : ℤ → σ → Outcome σ} {s s' : σ} (h : loopZ (-((0 : ℕ) : ℤ)) ((0 : ℕ) : ℤ) f s = .ok s') : f 0 s = .ok s' := h

theorem empty_get (n : ℕ) (m : ℤ) (a : ℂ) : Exp3.empty.get n m ≠ .ok a := by
  intro h
  unfold Exp3.get Arr.rdZ Exp3.empty at h
  by_cases h0 : 0 ≤ lmIndex n m
  · rw [if_pos h0] at h
    unfold Arr.rd at h
    rw [if_neg (by simp)] at h
    cases h
  · rw [if_neg h0] at h
    cases h

theorem empty_shift {st : Stat3} {v : Vec 3} {a : Arr ℂ} : Fl3.meShift F st Exp3.empty v ≠ .ok a := by
  intro h
  unfold Fl3.meShift at h
  dsimp only [Exp3.empty] at h
  obtain ⟨Y, -, h⟩ := bind_ok h
  obtain ⟨pow, -, h⟩ := bind_ok h
  obtain ⟨s, h, -⟩ := bind_ok h
  have h := loopZ1 (loop1 h)
  obtain ⟨c, h, -⟩ := bind_ok h
  unfold Fl3.meShiftCoeff at h
  obtain ⟨c, h, -⟩ := bind_ok h
  have h := loop1 h
  obtain ⟨c, h, -⟩ := bind_ok h
  have h : _ = Except.ok c := loopZ1 h
  obtain ⟨_, -, h⟩ := bind_ok h
  obtain ⟨_, -, h⟩ := bind_ok h
  obtain ⟨_, -, h⟩ := bind_ok h
  obtain ⟨_, h, -⟩ := bind_ok h
  exact empty_get _ _ _ h

theorem empty_convert {st : Stat3} {v : Vec 3} {r : Stat3 × Exp3} : Fl3.leOfMe F st v Exp3.empty ≠ .ok r := by
  intro h
  unfold Fl3.leOfMe at h
  obtain ⟨⟨st', e⟩, he, h⟩ := bind_ok h
  dsimp only at h
  have hord : e.order = 0 := by
    unfold Exp3.new at he
    obtain ⟨_, _, he⟩ := bind_ok he
    injection he with he
    injection he with e1 e2
    rw [← e2]; rfl
  rw [hord] at h
  obtain ⟨Y, -, h⟩ := bind_ok h
  obtain ⟨ri, -, h⟩ := bind_ok h
  obtain ⟨pow, -, h⟩ := bind_ok h
  obtain ⟨s, h, -⟩ := bind_ok h
  have h := loopZ1 (loop1 h)
  obtain ⟨c, h, -⟩ := bind_ok h
  unfold Fl3.m2lCoeff at h
  obtain ⟨c, h, -⟩ := bind_ok h
  have h := loop1 h
  obtain ⟨c, h, -⟩ := bind_ok h
  have h := loopZ1 h
  obtain ⟨_, -, h⟩ := bind_ok h
  obtain ⟨_, -, h⟩ := bind_ok h
  obtain ⟨_, -, h⟩ := bind_ok h
  obtain ⟨_, -, h⟩ := bind_ok h
  obtain ⟨_, h, -⟩ := bind_ok h
  exact empty_get _ _ _ h

theorem empty_pot {x : Vec 3} {v : ℝ} : Fl3.mePot F Exp3.empty x ≠ .ok v := by
  intro h
  unfold Fl3.mePot at h
  obtain ⟨Y, -, h⟩ := bind_ok h
  obtain ⟨ri, -, h⟩ := bind_ok h
  obtain ⟨s, h, -⟩ := bind_ok h
  have h := loop1 h
  obtain ⟨c, h, -⟩ := bind_ok h
  have h := loopZ1 h
  obtain ⟨_, h, -⟩ := bind_ok h
  exact empty_get _ _ _ h

theorem empty_force {x : Vec 3} {v : Vec 3} : Fl3.meForce F Exp3.empty x ≠ .ok v := by
  intro h
  unfold Fl3.meForce at h
  obtain ⟨Y, -, h⟩ := bind_ok h
  obtain ⟨ri, -, h⟩ := bind_ok h
  obtain ⟨s, h, -⟩ := bind_ok h
  have h := loop1 h
  obtain ⟨c, h, -⟩ := bind_ok h
  have h := loopZ1 h
  obtain ⟨_, h, -⟩ := bind_ok h
  exact empty_get _ _ _ h

/-- Multipole expansions of nodes: those that have not been constructed are empty. -/
def MAgr (p : ℕ) (f : Exp3) (e : Exp64) : Prop := PAgr p f e ∨ f = Exp3.empty

theorem foldlM_each {α σ : Type} {f : σ → α → Outcome σ} {P : α → Prop} (h : ∀ s a s', f s a = .ok s' → P a) :
    ∀ {l : List α} {s s' : σ}, l.foldlM f s = .ok s' → ∀ a ∈ l, P a
  | [], _, _, _, a, ha => by cases ha
  | b :: l, s, s', e, a, ha => by
    rw [List.foldlM_cons] at e
    obtain ⟨s1, e1, e2⟩ := bind_ok e
    rcases List.mem_cons.mp ha with rfl | ha
    · exact h _ _ _ e1
    · exact foldlM_each h e2 a ha

theorem forall_pagr {p : ℕ} {fs : List Exp3} {es : List Exp64} (h : List.Forall₂ (MAgr p) fs es) (h' : ∀ f ∈ fs, f ≠ Exp3.empty) :
    List.Forall₂ (PAgr p) fs es := by
  induction h with
  | nil => exact .nil
  | cons a _ ih =>
    refine .cons (a.resolve_right (h' _ (by simp))) (ih fun f hf => h' f (by simp [hf]))

theorem meMes_nonempty {st : Stat3} {c : Vec 3} {fs : List Exp3} {r : Stat3 × Exp3} (h : Fl3.meOfMes F st c fs = .ok r) :
    ∀ f ∈ fs, f ≠ Exp3.empty := by
  cases fs with
  | nil => cases h
  | cons f fs =>
    unfold Fl3.meOfMes at h
    obtain ⟨⟨st', e⟩, -, h⟩ := bind_ok h
    obtain ⟨a, h, -⟩ := bind_ok h
    refine foldlM_each ?_ h
    rintro s a s' h rfl
    obtain ⟨sh, h, -⟩ := bind_ok h
    exact empty_shift h

theorem leMes_nonempty {st : Stat3} {c : Vec 3} {fs : List Exp3} {r : Stat3 × Exp3} (h : Fl3.leOfMes F st c fs = .ok r) :
    ∀ f ∈ fs, f ≠ Exp3.empty := by
  cases fs with
  | nil => cases h
  | cons f fs =>
    unfold Fl3.leOfMes at h
    obtain ⟨⟨st', e⟩, -, h⟩ := bind_ok h
    refine foldlM_each ?_ h
    rintro s a s' h rfl
    obtain ⟨sh, h, -⟩ := bind_ok h
    exact empty_convert h

/-- The expansion classes in binary64 follow those without upper limit of the exponent. -/
noncomputable def sim64 (hF : Is64 F) (hL : LibOf L F) {p : ℕ} (hp0 : 0 < p) (hp : p ≤ 42) :
    KitSim (Fl3.kit F) (kit64 L) p Mod (fun s => Mod s.pos) where
  RT := fun (st : Stat3) _ => st.Good
  RM := MAgr p
  RL := PAgr p
  empty := .inr rfl
  size := by
    rintro f e ⟨-, h⟩
    exact (h.cells.size).trans h.size.symm
  leNew := by
    intro st t' c t1 e hst hc h
    obtain ⟨h1, -, h3⟩ := new_agr (st := st) hst hp h
    exact ⟨(), Exp64.new c p, rfl, h1, hc, h3⟩
  meSrc := by
    intro st t' c src t1 e hst hc hs h
    obtain ⟨h1, h3⟩ := meOfSources_agr hF hL hp hc hs (st := st) hst h
    exact ⟨(), _, rfl, h1, .inl ⟨hc, h3⟩⟩
  leSrc := by
    intro st t' c src t1 e hst hc hs h
    obtain ⟨h1, h3⟩ := leOfSources_agr hF hL hp hc hs (st := st) hst h
    exact ⟨(), _, rfl, h1, hc, h3⟩
  meMes := by
    intro st t' c fs es t1 e hst hc hs h
    obtain ⟨d, h1, h2, h3⟩ := meOfMes_agr hF hL (st := st) hst hp0 hp hc (forall_pagr hs (meMes_nonempty h)) h
    refine ⟨(), d, by show (meMes L c es).map _ = _; rw [h1]; rfl, h2, .inl ?_⟩
    have : d.center = c := h3.center
    subst this
    exact ⟨hc, h3⟩
  leMes := by
    intro st t' c fs es t1 e hst hc hs h
    obtain ⟨d, h1, h2, h3⟩ := leOfMes_agr hF hL (st := st) hst hp0 hp hc (forall_pagr hs (leMes_nonempty h)) h
    refine ⟨(), d, by show (leMes L c es).map _ = _; rw [h1]; rfl, h2, ?_⟩
    have : d.center = c := h3.center
    subst this
    exact ⟨hc, h3⟩
  leLe := by
    intro st t' c f e t1 g hst hc hs h
    obtain ⟨h2, h3⟩ := leOfLe_agr hF hL (st := st) hst hp0 hp hc hs h
    exact ⟨(), _, rfl, h2, hc, h3⟩
  addEq := by
    rintro f e f' e' g ⟨h0, h1⟩ ⟨h0', h1'⟩ h
    have hc : e'.center = e.center := by
      have h : Fl3.addEq F f f' = .ok g := h
      unfold Fl3.addEq at h
      by_cases hh : f.center = f'.center
      · rw [← h1.center', hh, h1'.center']
      · rw [if_pos (.inr hh)] at h; cases h
    rw [hc] at h1'
    obtain ⟨d, d1, d2⟩ := addEq_agr hF h1 h1' h
    have : d.center = e.center := d2.center
    exact ⟨d, d1, by rw [this]; exact h0, by rw [this]; exact d2⟩

/-- Potentials. -/
noncomputable def simPot64 (hF : Is64 F) (hL : LibOf L F) {p : ℕ} (hp0 : 0 < p) (hp : p ≤ 42) :
    ObsSim (sim64 hF hL hp0 hp) (Fl3.pot F) (pot64 L) Mod where
  RV := fun v d => Agr d v
  le := fun {f e x v} h hx hv => ⟨_, rfl, lePot_agr hF hL h hx hv⟩
  me := fun {f e x v} h hx hv => by
    rcases h with h | h
    · exact ⟨_, rfl, mePot_agr hF hL h hx hv⟩
    · subst h; exact absurd hv empty_pot
  sum := fun {grav safe src x v} hs hx hv => ⟨_, rfl, potentialSum_agr hF hL grav safe hs hx hv⟩

/-- Forces. -/
noncomputable def simForce64 (hF : Is64 F) (hL : LibOf L F) {p : ℕ} (hp0 : 0 < p) (hp : p ≤ 42) {eps : ℝ} (heps : |eps| ≤ 2 ^ (906 : ℤ)) :
    ObsSim (sim64 hF hL hp0 hp) (Fl3.force F eps) (force64 L eps) Mod where
  RV := fun v d => VAgr d v
  le := fun {f e x v} h hx hv => ⟨_, rfl, leForce_agr hF hL h hx hv⟩
  me := fun {f e x v} h hx hv => by
    rcases h with h | h
    · exact ⟨_, rfl, meForce_agr hF hL h hx hv⟩
    · subst h; exact absurd hv empty_force
  sum := fun {grav safe src x v} hs hx hv => ⟨_, rfl, forcefieldSum_agr hF hL grav safe hs hx heps hv⟩

end FMM.D64
