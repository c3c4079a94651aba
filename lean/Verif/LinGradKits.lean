import Verif.LinGrad
import Verif.LinScaleKits
import Verif.PropsExp2

/-!
# Gradients of the contributions of single sources
-/

namespace FMM
namespace Gr

/-- A single source. -/
theorem single {d : ℕ} (hd : d = 2 ∨ d = 3) (u y : Vec d) (h : u ≠ y) :
    HasFDerivAt (fun z => directTerm true z ⟨u, 1⟩) (minusGrad (directFieldTerm true y 0 ⟨u, 1⟩)) y := by
  obtain ⟨φ, F, h1, h2, h3⟩ := C31_single_source true true hd ⟨u, 1⟩ y h
  have hF : F = directFieldTerm true y 0 ⟨u, 1⟩ := by
    have := forcefield_of_ne true true ⟨u, 1⟩ y 0 le_rfl h
    rw [h2] at this
    unfold directFieldTerm
    rw [if_neg h]
    simpa using this
  rw [← hF]
  refine h3.congr_of_eventuallyEq ?_
  filter_upwards [isOpen_ne.mem_nhds h.symm] with z hz
  have := potential_of_ne true true ⟨u, 1⟩ z (fun e => hz e.symm)
  rw [h1 z fun e => hz e.symm] at this
  unfold directTerm
  rw [if_neg fun e => hz e.symm]
  simpa using this.symm

/-! ## Two dimensions -/

theorem le2 (a : ℕ → ℂ) (p : ℕ) (c y : Vec 2) : HasFDerivAt (fun z => leSumL p (toC z - toC c) a) (minusGrad (leDerivL p (toC y - toC c) a)) y := by
  have hE : (⟨p, toC c, ⟨p + 1, a⟩⟩ : Exp2).Is (toC c) p a := ⟨rfl, rfl, rfl, fun _ _ => rfl⟩
  obtain ⟨φ, F, h1, h2, h3⟩ := C31_local ⟨p, toC c, ⟨p + 1, a⟩⟩ (Nat.succ_pos p) y
  have e1 : φ = fun z => leSumL p (toC z - toC c) a := by
    funext z
    have := h1 z
    rw [Exp2.lePot_ok hE] at this
    exact (Except.ok.inj this).symm
  have e2 : F = leDerivL p (toC y - toC c) a := by
    rw [Exp2.leForce_ok hE] at h2
    exact (Except.ok.inj h2).symm
  rw [← e1, ← e2]
  exact h3

theorem me2 (a : ℕ → ℂ) (ha : (a 0).im = 0) (p : ℕ) (c y : Vec 2) (hy : y ≠ c) :
    HasFDerivAt (fun z => meSumL p (toC z - toC c) a) (minusGrad (meDerivL p (toC y - toC c) a)) y := by
  have hE : (⟨p, toC c, ⟨p + 1, a⟩⟩ : Exp2).Is (toC c) p a := ⟨rfl, rfl, rfl, fun _ _ => rfl⟩
  obtain ⟨φ, F, h1, h2, h3⟩ := C31_multipole ⟨p, toC c, ⟨p + 1, a⟩⟩ (Nat.succ_pos p) ha y (Sc.toC_ne hy)
  have e2 : F = meDerivL p (toC y - toC c) a := by
    rw [Exp2.meForce_ok hE ha y (Sc.toC_ne hy)] at h2
    exact (Except.ok.inj h2).symm
  rw [← e2]
  refine h3.congr_of_eventuallyEq ?_
  filter_upwards [isOpen_ne.mem_nhds hy] with z hz
  have := h1 z (Sc.toC_ne hz)
  rw [Exp2.mePot_ok hE ha z (Sc.toC_ne hz)] at this
  exact Except.ok.inj this

theorem grad2 (p : ℕ) (hp0 : 0 < p) (hp : p ≤ 1029) (M : ℕ) : GradLaws (lin2Pot p hp0 hp M) (lin2Force p hp0 hp M) where
  m2l := by
    intro a b u y
    show HasFDerivAt (fun z => (1 : ℝ) • leSumL p (toC z - toC b) (m2lL M p (toC a - toC b) (uME2 (toC a) u)))
      (minusGrad ((1 : ℝ) • leDerivL p (toC y - toC b) (m2lL M p (toC a - toC b) (uME2 (toC a) u)))) y
    simp only [one_smul]
    exact le2 _ p b y
  p2l := by
    intro a u y
    show HasFDerivAt (fun z => (1 : ℝ) • leSumL p (toC z - toC a) (uLE2 (toC a) u)) (minusGrad ((1 : ℝ) • leDerivL p (toC y - toC a) (uLE2 (toC a) u))) y
    simp only [one_smul]
    exact le2 _ p a y
  m2p := by
    intro a u y h
    show HasFDerivAt (fun z => (1 : ℝ) • meSumL p (toC z - toC a) (uME2 (toC a) u)) (minusGrad ((1 : ℝ) • meDerivL p (toC y - toC a) (uME2 (toC a) u))) y
    simp only [one_smul]
    exact me2 _ (by rw [Sc.uME2_zero]; simp) p a y h
  p2p := fun u y h => single (Or.inl rfl) u y h
  direct := fun _ _ => rfl
  self := fun u => by
    show directFieldTerm true u 0 ⟨u, 1⟩ = 0
    unfold directFieldTerm
    simp

/-! ## Three dimensions -/

theorem grad3 (p : ℕ) (hp0 : 0 < p) (hp : p ≤ 42) : GradLaws (lin3Pot p hp) (lin3Force p hp0 hp) where
  m2l := by
    intro a b u y
    show HasFDerivAt (fun z => (1 : ℝ) • leSum3L p (z - b) (m2l3L p (a - b) (uME3 a u)))
      (minusGrad ((1 : ℝ) • leGrad3L p (y - b) (m2l3L p (a - b) (uME3 a u)))) y
    simp only [one_smul]
    exact leSum3_hasFDerivAt _ p b y
  p2l := by
    intro a u y
    show HasFDerivAt (fun z => (1 : ℝ) • leSum3L p (z - a) (uLE3 a u)) (minusGrad ((1 : ℝ) • leGrad3L p (y - a) (uLE3 a u))) y
    simp only [one_smul]
    exact leSum3_hasFDerivAt _ p a y
  m2p := by
    intro a u y h
    show HasFDerivAt (fun z => (1 : ℝ) • meSum3L p (z - a) (uME3 a u)) (minusGrad ((1 : ℝ) • meGrad3L p (y - a) (uME3 a u))) y
    simp only [one_smul]
    exact meSum3_hasFDerivAt _ p a y h
  p2p := fun u y h => single (Or.inr rfl) u y h
  direct := fun _ _ => rfl
  self := fun u => by
    show directFieldTerm true u 0 ⟨u, 1⟩ = 0
    unfold directFieldTerm
    simp

end Gr
end FMM
