import Verif.ReproTree
import Verif.DoubleExp2
import Verif.DoubleTree3

/-!
# Static tables are not changed during the passes

Every constructor of an expansion refreshes the static tables only if its order exceeds the order of the tables; after the construction of the first node
this does not happen any more.
-/

namespace FMM.Repro
open Rounded.Inv (bok)

theorem new2 {bt bt' : BinomialTable} {c : Vec 2} {o : ℕ} {e : Exp2} (h : Exp2.new bt c o = .ok (bt', e)) :
    o ≤ bt'.maxOrder ∧ e.order = o ∧ (o ≤ bt.maxOrder → bt' = bt) := by
  unfold Exp2.new at h
  by_cases c1 : o > bt.maxOrder
  · simp only [if_pos c1] at h
    obtain ⟨b, h1, h⟩ := bok h
    obtain ⟨rfl, rfl⟩ := Prod.mk.inj (Except.ok.inj h)
    unfold BinomialTable.refresh at h1
    rw [if_neg (by omega)] at h1
    dsimp only at h1
    obtain ⟨tbl, -, h1⟩ := bok h1
    obtain rfl := (Except.ok.inj h1).symm
    exact ⟨Nat.le_refl _, rfl, fun h => absurd h (by omega)⟩
  · simp only [if_neg c1] at h
    obtain ⟨rfl, rfl⟩ := Prod.mk.inj (Except.ok.inj h)
    exact ⟨by omega, rfl, fun _ => rfl⟩

theorem newD {bt bt' : BinomialTable} {c : Vec 2} {o : ℕ} {e : D2.ExpD} (h : D2.new bt c o = .ok (bt', e)) :
    o ≤ bt'.maxOrder ∧ e.order = o ∧ (o ≤ bt.maxOrder → bt' = bt) := by
  unfold D2.new at h
  by_cases c1 : o > bt.maxOrder
  · simp only [if_pos c1] at h
    obtain ⟨b, h1, h⟩ := bok h
    obtain ⟨rfl, rfl⟩ := Prod.mk.inj (Except.ok.inj h)
    unfold BinomialTable.refresh at h1
    rw [if_neg (by omega)] at h1
    dsimp only at h1
    obtain ⟨tbl, -, h1⟩ := bok h1
    obtain rfl := (Except.ok.inj h1).symm
    exact ⟨Nat.le_refl _, rfl, fun h => absurd h (by omega)⟩
  · simp only [if_neg c1] at h
    obtain ⟨rfl, rfl⟩ := Prod.mk.inj (Except.ok.inj h)
    exact ⟨by omega, rfl, fun _ => rfl⟩

theorem new3 {st st' : Stat3} {c : Vec 3} {o : ℕ} {e : Exp3} (h : Exp3.new st c o = .ok (st', e)) :
    o ≤ st'.alm.maxOrder ∧ e.order = o ∧ (o ≤ st.alm.maxOrder → st' = st) := by
  unfold Exp3.new at h
  by_cases c1 : o > st.alm.maxOrder
  · simp only [if_pos c1] at h
    obtain ⟨alm, h1, h⟩ := bok h
    obtain ⟨s1, -, h⟩ := bok h
    obtain ⟨s2, -, h⟩ := bok h
    obtain ⟨s3, -, h⟩ := bok h
    obtain ⟨rfl, rfl⟩ := Prod.mk.inj (Except.ok.inj h)
    unfold AlmTable.refresh at h1
    rw [if_neg (by omega)] at h1
    dsimp only at h1
    obtain ⟨tbl, -, h1⟩ := bok h1
    obtain rfl := (Except.ok.inj h1).symm
    exact ⟨Nat.le_refl _, rfl, fun h => absurd h (by omega)⟩
  · simp only [if_neg c1] at h
    obtain ⟨rfl, rfl⟩ := Prod.mk.inj (Except.ok.inj h)
    exact ⟨by omega, rfl, fun _ => rfl⟩

theorem settles2_leMe (F : Flt) {p : ℕ} {t t' : BinomialTable} {c : Vec 2} {x e : Exp2} (ht : p ≤ t.maxOrder) (hx : x.order ≤ p)
    (h : Fl.leOfMe F t c x = .ok (t', e)) : t' = t ∧ e.order ≤ p := by
  unfold Fl.leOfMe at h
  obtain ⟨⟨b, y⟩, h1, h⟩ := bok h
  obtain ⟨k1, k2, k3⟩ := new2 h1
  dsimp only at h
  by_cases c1 : x.order > 0
  · rw [if_pos c1] at h
    obtain ⟨c', -, h⟩ := bok h
    obtain ⟨rfl, rfl⟩ := Prod.mk.inj (Except.ok.inj h)
    exact ⟨k3 (by omega), by dsimp only; omega⟩
  · rw [if_neg c1] at h; cases h

def settles2 (F : Flt) (p : ℕ) : Settles (Fl.kit F) p where
  settled := fun t : BinomialTable => p ≤ t.maxOrder
  ord := fun e : Exp2 => e.order ≤ p
  empty := Nat.zero_le _
  leNew := by
    intro t c t' e h
    obtain ⟨k1, k2, -⟩ := new2 h
    exact ⟨k1, k2.le⟩
  meSrc := by
    intro t c S t' e (ht : p ≤ t.maxOrder) h
    change Fl.meOfSources F t c p S = .ok (t', e) at h
    unfold Fl.meOfSources at h
    obtain ⟨⟨b, y⟩, h1, h⟩ := bok h
    obtain ⟨k1, k2, k3⟩ := new2 h1
    obtain ⟨c0, -, h⟩ := bok h
    obtain ⟨c1, -, h⟩ := bok h
    obtain ⟨rfl, rfl⟩ := Prod.mk.inj (Except.ok.inj h)
    exact ⟨k3 ht, k2.le⟩
  meMes := by
    intro t c es t' e (ht : p ≤ t.maxOrder) (hes : ∀ x ∈ es, x.order ≤ p) h
    change Fl.meOfMes F t c es = .ok (t', e) at h
    unfold Fl.meOfMes at h
    cases es with
    | nil => cases h
    | cons x es =>
      dsimp only at h
      obtain ⟨⟨b, y⟩, h1, h⟩ := bok h
      obtain ⟨k1, k2, k3⟩ := new2 h1
      obtain ⟨c', -, h⟩ := bok h
      obtain ⟨rfl, rfl⟩ := Prod.mk.inj (Except.ok.inj h)
      have := hes x (List.mem_cons_self ..)
      refine ⟨k3 (by omega), ?_⟩
      show y.order ≤ p
      omega
  leSrc := by
    intro t c S t' e (ht : p ≤ t.maxOrder) h
    change Fl.leOfSources F t c p S = .ok (t', e) at h
    unfold Fl.leOfSources at h
    obtain ⟨⟨b, y⟩, h1, h⟩ := bok h
    obtain ⟨k1, k2, k3⟩ := new2 h1
    obtain ⟨c0, -, h⟩ := bok h
    obtain ⟨c1, -, h⟩ := bok h
    obtain ⟨rfl, rfl⟩ := Prod.mk.inj (Except.ok.inj h)
    exact ⟨k3 ht, k2.le⟩
  leMes := by
    intro t c es t' e (ht : p ≤ t.maxOrder) (hes : ∀ x ∈ es, x.order ≤ p) h
    change Fl.leOfMes F t c es = .ok (t', e) at h
    unfold Fl.leOfMes at h
    cases es with
    | nil => cases h
    | cons x es =>
      dsimp only at h
      obtain ⟨⟨b, y⟩, h1, hf⟩ := bok h
      obtain ⟨k1, k2, k3⟩ := new2 h1
      have hx := hes x (List.mem_cons_self ..)
      obtain rfl : b = t := k3 (by omega)
      refine Rounded.foldlM_inv' (fun s : BinomialTable × Exp2 => s.1 = b ∧ s.2.order ≤ p) _ _ ?_ (b, y) (t', e) ⟨rfl, by dsimp only; omega⟩ hf
      intro s hs z hz s' e'
      obtain ⟨⟨b', y'⟩, h2, e'⟩ := bok e'
      obtain ⟨k4, k5⟩ := settles2_leMe F (by rw [hs.1]; exact ht) (hes z hz) h2
      obtain ⟨w, h3, e'⟩ := bok e'
      obtain rfl := (Except.ok.inj e').symm
      refine ⟨k4.trans hs.1, ?_⟩
      unfold Fl.addEq at h3
      by_cases c1 : s.2.coeffs.size ≠ y'.coeffs.size ∨ s.2.center ≠ y'.center
      · rw [if_pos c1] at h3; cases h3
      · rw [if_neg c1] at h3
        obtain rfl := (Except.ok.inj h3).symm
        exact hs.2
  leLe := by
    intro t c x t' e (ht : p ≤ t.maxOrder) (hx : x.order ≤ p) h
    change Fl.leOfLe F t c x = .ok (t', e) at h
    unfold Fl.leOfLe at h
    obtain ⟨⟨b, y⟩, h1, h⟩ := bok h
    obtain ⟨k1, k2, k3⟩ := new2 h1
    dsimp only at h
    by_cases c1 : x.order > 0
    · rw [if_pos c1] at h
      obtain ⟨c', -, h⟩ := bok h
      obtain ⟨rfl, rfl⟩ := Prod.mk.inj (Except.ok.inj h)
      refine ⟨k3 (by omega), ?_⟩
      show y.order ≤ p
      omega
    · rw [if_neg c1] at h; cases h
  addEq := by
    intro e f g (he : e.order ≤ p) _ h
    change Fl.addEq F e f = .ok g at h
    unfold Fl.addEq at h
    by_cases c1 : e.coeffs.size ≠ f.coeffs.size ∨ e.center ≠ f.center
    · rw [if_pos c1] at h; cases h
    · rw [if_neg c1] at h
      obtain rfl := (Except.ok.inj h).symm
      exact he

theorem settlesD_leMe (log : D64.DC → D64.DC) {p : ℕ} {t t' : BinomialTable} {c : Vec 2} {x e : D2.ExpD} (ht : p ≤ t.maxOrder) (hx : x.order ≤ p)
    (h : D2.leOfMe log t c x = .ok (t', e)) : t' = t ∧ e.order ≤ p := by
  unfold D2.leOfMe at h
  obtain ⟨⟨b, y⟩, h1, h⟩ := bok h
  obtain ⟨k1, k2, k3⟩ := newD h1
  dsimp only at h
  by_cases c1 : x.order > 0
  · rw [if_pos c1] at h
    obtain ⟨c', -, h⟩ := bok h
    obtain ⟨rfl, rfl⟩ := Prod.mk.inj (Except.ok.inj h)
    exact ⟨k3 (by omega), by dsimp only; omega⟩
  · rw [if_neg c1] at h; cases h

def settlesD (log : D64.DC → D64.DC) (p : ℕ) : Settles (D2.kit log) p where
  settled := fun t : BinomialTable => p ≤ t.maxOrder
  ord := fun e : D2.ExpD => e.order ≤ p
  empty := Nat.zero_le _
  leNew := by
    intro t c t' e h
    obtain ⟨k1, k2, -⟩ := newD h
    exact ⟨k1, k2.le⟩
  meSrc := by
    intro t c S t' e (ht : p ≤ t.maxOrder) h
    change D2.meOfSources t c p S = .ok (t', e) at h
    unfold D2.meOfSources at h
    obtain ⟨⟨b, y⟩, h1, h⟩ := bok h
    obtain ⟨k1, k2, k3⟩ := newD h1
    obtain ⟨c0, -, h⟩ := bok h
    obtain ⟨c1, -, h⟩ := bok h
    obtain ⟨rfl, rfl⟩ := Prod.mk.inj (Except.ok.inj h)
    exact ⟨k3 ht, k2.le⟩
  meMes := by
    intro t c es t' e (ht : p ≤ t.maxOrder) (hes : ∀ x ∈ es, x.order ≤ p) h
    change D2.meOfMes t c es = .ok (t', e) at h
    unfold D2.meOfMes at h
    cases es with
    | nil => cases h
    | cons x es =>
      dsimp only at h
      obtain ⟨⟨b, y⟩, h1, h⟩ := bok h
      obtain ⟨k1, k2, k3⟩ := newD h1
      obtain ⟨c', -, h⟩ := bok h
      obtain ⟨rfl, rfl⟩ := Prod.mk.inj (Except.ok.inj h)
      have := hes x (List.mem_cons_self ..)
      refine ⟨k3 (by omega), ?_⟩
      show y.order ≤ p
      omega
  leSrc := by
    intro t c S t' e (ht : p ≤ t.maxOrder) h
    change D2.leOfSources log t c p S = .ok (t', e) at h
    unfold D2.leOfSources at h
    obtain ⟨⟨b, y⟩, h1, h⟩ := bok h
    obtain ⟨k1, k2, k3⟩ := newD h1
    obtain ⟨c0, -, h⟩ := bok h
    obtain ⟨c1, -, h⟩ := bok h
    obtain ⟨rfl, rfl⟩ := Prod.mk.inj (Except.ok.inj h)
    exact ⟨k3 ht, k2.le⟩
  leMes := by
    intro t c es t' e (ht : p ≤ t.maxOrder) (hes : ∀ x ∈ es, x.order ≤ p) h
    change D2.leOfMes log t c es = .ok (t', e) at h
    unfold D2.leOfMes at h
    cases es with
    | nil => cases h
    | cons x es =>
      dsimp only at h
      obtain ⟨⟨b, y⟩, h1, hf⟩ := bok h
      obtain ⟨k1, k2, k3⟩ := newD h1
      have hx := hes x (List.mem_cons_self ..)
      obtain rfl : b = t := k3 (by omega)
      refine Rounded.foldlM_inv' (fun s : BinomialTable × D2.ExpD => s.1 = b ∧ s.2.order ≤ p) _ _ ?_ (b, y) (t', e) ⟨rfl, by dsimp only; omega⟩ hf
      intro s hs z hz s' e'
      obtain ⟨⟨b', y'⟩, h2, e'⟩ := bok e'
      obtain ⟨k4, k5⟩ := settlesD_leMe log (by rw [hs.1]; exact ht) (hes z hz) h2
      obtain ⟨w, h3, e'⟩ := bok e'
      obtain rfl := (Except.ok.inj e').symm
      refine ⟨k4.trans hs.1, ?_⟩
      unfold D2.addEq at h3
      by_cases c1 : s.2.coeffs.size ≠ y'.coeffs.size ∨ s.2.center ≠ y'.center
      · rw [if_pos c1] at h3; cases h3
      · rw [if_neg c1] at h3
        obtain rfl := (Except.ok.inj h3).symm
        exact hs.2
  leLe := by
    intro t c x t' e (ht : p ≤ t.maxOrder) (hx : x.order ≤ p) h
    change D2.leOfLe t c x = .ok (t', e) at h
    unfold D2.leOfLe at h
    obtain ⟨⟨b, y⟩, h1, h⟩ := bok h
    obtain ⟨k1, k2, k3⟩ := newD h1
    dsimp only at h
    by_cases c1 : x.order > 0
    · rw [if_pos c1] at h
      obtain ⟨c', -, h⟩ := bok h
      obtain ⟨rfl, rfl⟩ := Prod.mk.inj (Except.ok.inj h)
      refine ⟨k3 (by omega), ?_⟩
      show y.order ≤ p
      omega
    · rw [if_neg c1] at h; cases h
  addEq := by
    intro e f g (he : e.order ≤ p) _ h
    change D2.addEq e f = .ok g at h
    unfold D2.addEq at h
    by_cases c1 : e.coeffs.size ≠ f.coeffs.size ∨ e.center ≠ f.center
    · rw [if_pos c1] at h; cases h
    · rw [if_neg c1] at h
      obtain rfl := (Except.ok.inj h).symm
      exact he

theorem settles3_leMe (F : Flt3) {p : ℕ} {t t' : Stat3} {c : Vec 3} {x e : Exp3} (ht : p ≤ t.alm.maxOrder) (hx : x.order ≤ p)
    (h : Fl3.leOfMe F t c x = .ok (t', e)) : t' = t ∧ e.order ≤ p := by
  unfold Fl3.leOfMe at h
  obtain ⟨⟨b, y⟩, h1, h⟩ := bok h
  obtain ⟨k1, k2, k3⟩ := new3 h1
  dsimp only at h
  obtain ⟨Y, -, h⟩ := bok h
  obtain ⟨ri, -, h⟩ := bok h
  obtain ⟨pw, -, h⟩ := bok h
  obtain ⟨c', -, h⟩ := bok h
  obtain ⟨rfl, rfl⟩ := Prod.mk.inj (Except.ok.inj h)
  exact ⟨k3 (by omega), by dsimp only; omega⟩

def settles3 (F : Flt3) (p : ℕ) : Settles (Fl3.kit F) p where
  settled := fun t : Stat3 => p ≤ t.alm.maxOrder
  ord := fun e : Exp3 => e.order ≤ p
  empty := Nat.zero_le _
  leNew := by
    intro t c t' e h
    obtain ⟨k1, k2, -⟩ := new3 h
    exact ⟨k1, k2.le⟩
  meSrc := by
    intro t c S t' e (ht : p ≤ t.alm.maxOrder) h
    change Fl3.meOfSources F t c p S = .ok (t', e) at h
    unfold Fl3.meOfSources at h
    obtain ⟨⟨b, y⟩, h1, h⟩ := bok h
    obtain ⟨k1, k2, k3⟩ := new3 h1
    obtain ⟨c0, -, h⟩ := bok h
    obtain ⟨rfl, rfl⟩ := Prod.mk.inj (Except.ok.inj h)
    exact ⟨k3 ht, k2.le⟩
  meMes := by
    intro t c es t' e (ht : p ≤ t.alm.maxOrder) (hes : ∀ x ∈ es, x.order ≤ p) h
    change Fl3.meOfMes F t c es = .ok (t', e) at h
    unfold Fl3.meOfMes at h
    cases es with
    | nil => cases h
    | cons x es =>
      dsimp only at h
      obtain ⟨⟨b, y⟩, h1, h⟩ := bok h
      obtain ⟨k1, k2, k3⟩ := new3 h1
      obtain ⟨c', -, h⟩ := bok h
      obtain ⟨rfl, rfl⟩ := Prod.mk.inj (Except.ok.inj h)
      have := hes x (List.mem_cons_self ..)
      refine ⟨k3 (by omega), ?_⟩
      show y.order ≤ p
      omega
  leSrc := by
    intro t c S t' e (ht : p ≤ t.alm.maxOrder) h
    change Fl3.leOfSources F t c p S = .ok (t', e) at h
    unfold Fl3.leOfSources at h
    obtain ⟨⟨b, y⟩, h1, h⟩ := bok h
    obtain ⟨k1, k2, k3⟩ := new3 h1
    obtain ⟨c0, -, h⟩ := bok h
    obtain ⟨rfl, rfl⟩ := Prod.mk.inj (Except.ok.inj h)
    exact ⟨k3 ht, k2.le⟩
  leMes := by
    intro t c es t' e (ht : p ≤ t.alm.maxOrder) (hes : ∀ x ∈ es, x.order ≤ p) h
    change Fl3.leOfMes F t c es = .ok (t', e) at h
    unfold Fl3.leOfMes at h
    cases es with
    | nil => cases h
    | cons x es =>
      dsimp only at h
      obtain ⟨⟨b, y⟩, h1, hf⟩ := bok h
      obtain ⟨k1, k2, k3⟩ := new3 h1
      have hx := hes x (List.mem_cons_self ..)
      obtain rfl : b = t := k3 (by omega)
      refine Rounded.foldlM_inv' (fun s : Stat3 × Exp3 => s.1 = b ∧ s.2.order ≤ p) _ _ ?_ (b, y) (t', e) ⟨rfl, by dsimp only; omega⟩ hf
      intro s hs z hz s' e'
      obtain ⟨⟨b', y'⟩, h2, e'⟩ := bok e'
      obtain ⟨k4, k5⟩ := settles3_leMe F (by rw [hs.1]; exact ht) (hes z hz) h2
      obtain ⟨w, h3, e'⟩ := bok e'
      obtain rfl := (Except.ok.inj e').symm
      refine ⟨k4.trans hs.1, ?_⟩
      unfold Fl3.addEq at h3
      by_cases c1 : s.2.coeffs.size ≠ y'.coeffs.size ∨ s.2.center ≠ y'.center
      · rw [if_pos c1] at h3; cases h3
      · rw [if_neg c1] at h3
        obtain rfl := (Except.ok.inj h3).symm
        exact hs.2
  leLe := by
    intro t c x t' e (ht : p ≤ t.alm.maxOrder) (hx : x.order ≤ p) h
    change Fl3.leOfLe F t c x = .ok (t', e) at h
    unfold Fl3.leOfLe at h
    obtain ⟨⟨b, y⟩, h1, h⟩ := bok h
    obtain ⟨k1, k2, k3⟩ := new3 h1
    dsimp only at h
    obtain ⟨c', -, h⟩ := bok h
    obtain ⟨rfl, rfl⟩ := Prod.mk.inj (Except.ok.inj h)
    refine ⟨k3 (by omega), ?_⟩
    show y.order ≤ p
    omega
  addEq := by
    intro e f g (he : e.order ≤ p) _ h
    change Fl3.addEq F e f = .ok g at h
    unfold Fl3.addEq at h
    by_cases c1 : e.coeffs.size ≠ f.coeffs.size ∨ e.center ≠ f.center
    · rw [if_pos c1] at h; cases h
    · rw [if_neg c1] at h
      obtain rfl := (Except.ok.inj h).symm
      exact he

theorem settlesE_leMe {p : ℕ} {t t' : Stat3} {c : Vec 3} {x e : Exp3} (ht : p ≤ t.alm.maxOrder) (hx : x.order ≤ p)
    (h : Exp3.leOfMe t c x = .ok (t', e)) : t' = t ∧ e.order ≤ p := by
  unfold Exp3.leOfMe at h
  obtain ⟨⟨b, y⟩, h1, h⟩ := bok h
  obtain ⟨k1, k2, k3⟩ := new3 h1
  dsimp only at h
  obtain ⟨Y, -, h⟩ := bok h
  obtain ⟨ri, -, h⟩ := bok h
  obtain ⟨pw, -, h⟩ := bok h
  obtain ⟨c', -, h⟩ := bok h
  obtain ⟨rfl, rfl⟩ := Prod.mk.inj (Except.ok.inj h)
  exact ⟨k3 (by omega), by dsimp only; omega⟩

def settlesE (p : ℕ) : Settles kit3 p where
  settled := fun t : Stat3 => p ≤ t.alm.maxOrder
  ord := fun e : Exp3 => e.order ≤ p
  empty := Nat.zero_le _
  leNew := by
    intro t c t' e h
    obtain ⟨k1, k2, -⟩ := new3 h
    exact ⟨k1, k2.le⟩
  meSrc := by
    intro t c S t' e (ht : p ≤ t.alm.maxOrder) h
    change Exp3.meOfSources t c p S = .ok (t', e) at h
    unfold Exp3.meOfSources at h
    obtain ⟨⟨b, y⟩, h1, h⟩ := bok h
    obtain ⟨k1, k2, k3⟩ := new3 h1
    obtain ⟨c0, -, h⟩ := bok h
    obtain ⟨rfl, rfl⟩ := Prod.mk.inj (Except.ok.inj h)
    exact ⟨k3 ht, k2.le⟩
  meMes := by
    intro t c es t' e (ht : p ≤ t.alm.maxOrder) (hes : ∀ x ∈ es, x.order ≤ p) h
    change Exp3.meOfMes t c es = .ok (t', e) at h
    unfold Exp3.meOfMes at h
    cases es with
    | nil => cases h
    | cons x es =>
      dsimp only at h
      obtain ⟨⟨b, y⟩, h1, h⟩ := bok h
      obtain ⟨k1, k2, k3⟩ := new3 h1
      obtain ⟨c', -, h⟩ := bok h
      obtain ⟨rfl, rfl⟩ := Prod.mk.inj (Except.ok.inj h)
      have := hes x (List.mem_cons_self ..)
      refine ⟨k3 (by omega), ?_⟩
      show y.order ≤ p
      omega
  leSrc := by
    intro t c S t' e (ht : p ≤ t.alm.maxOrder) h
    change Exp3.leOfSources t c p S = .ok (t', e) at h
    unfold Exp3.leOfSources at h
    obtain ⟨⟨b, y⟩, h1, h⟩ := bok h
    obtain ⟨k1, k2, k3⟩ := new3 h1
    obtain ⟨c0, -, h⟩ := bok h
    obtain ⟨rfl, rfl⟩ := Prod.mk.inj (Except.ok.inj h)
    exact ⟨k3 ht, k2.le⟩
  leMes := by
    intro t c es t' e (ht : p ≤ t.alm.maxOrder) (hes : ∀ x ∈ es, x.order ≤ p) h
    change Exp3.leOfMes t c es = .ok (t', e) at h
    unfold Exp3.leOfMes at h
    cases es with
    | nil => cases h
    | cons x es =>
      dsimp only at h
      obtain ⟨⟨b, y⟩, h1, hf⟩ := bok h
      obtain ⟨k1, k2, k3⟩ := new3 h1
      have hx := hes x (List.mem_cons_self ..)
      obtain rfl : b = t := k3 (by omega)
      refine Rounded.foldlM_inv' (fun s : Stat3 × Exp3 => s.1 = b ∧ s.2.order ≤ p) _ _ ?_ (b, y) (t', e) ⟨rfl, by dsimp only; omega⟩ hf
      intro s hs z hz s' e'
      obtain ⟨⟨b', y'⟩, h2, e'⟩ := bok e'
      obtain ⟨k4, k5⟩ := settlesE_leMe (by rw [hs.1]; exact ht) (hes z hz) h2
      obtain ⟨w, h3, e'⟩ := bok e'
      obtain rfl := (Except.ok.inj e').symm
      refine ⟨k4.trans hs.1, ?_⟩
      unfold Exp3.addEq at h3
      by_cases c1 : s.2.coeffs.size ≠ y'.coeffs.size ∨ s.2.center ≠ y'.center
      · rw [if_pos c1] at h3; cases h3
      · rw [if_neg c1] at h3
        obtain rfl := (Except.ok.inj h3).symm
        exact hs.2
  leLe := by
    intro t c x t' e (ht : p ≤ t.alm.maxOrder) (hx : x.order ≤ p) h
    change Exp3.leOfLe t c x = .ok (t', e) at h
    unfold Exp3.leOfLe at h
    obtain ⟨⟨b, y⟩, h1, h⟩ := bok h
    obtain ⟨k1, k2, k3⟩ := new3 h1
    dsimp only at h
    obtain ⟨c', -, h⟩ := bok h
    obtain ⟨rfl, rfl⟩ := Prod.mk.inj (Except.ok.inj h)
    refine ⟨k3 (by omega), ?_⟩
    show y.order ≤ p
    omega
  addEq := by
    intro e f g (he : e.order ≤ p) _ h
    change Exp3.addEq e f = .ok g at h
    unfold Exp3.addEq at h
    by_cases c1 : e.coeffs.size ≠ f.coeffs.size ∨ e.center ≠ f.center
    · rw [if_pos c1] at h; cases h
    · rw [if_neg c1] at h
      obtain rfl := (Except.ok.inj h).symm
      exact he

theorem map_ok {α β : Type} {x : Outcome α} {f : α → β} {b : β} (h : x.map f = .ok b) : ∃ a, x = .ok a ∧ f a = b := by
  cases x with
  | error e => cases h
  | ok a => exact ⟨a, rfl, Except.ok.inj h⟩

/-- The static tables of this kit are constants. -/
def settles64 (L : D64.Lib) (p : ℕ) : Settles (D64.kit64 L) p where
  settled := fun _ => True
  ord := fun _ => True
  empty := trivial
  leNew := fun _ => ⟨trivial, trivial⟩
  meSrc := fun _ _ => ⟨rfl, trivial⟩
  meMes := fun _ _ _ => ⟨rfl, trivial⟩
  leSrc := fun _ _ => ⟨rfl, trivial⟩
  leMes := fun _ _ _ => ⟨rfl, trivial⟩
  leLe := fun _ _ _ => ⟨rfl, trivial⟩
  addEq := fun _ _ _ => trivial

end FMM.Repro
