import Verif.Wolfram
import Verif.PropsLibrary

/-!
# The Wolfram Language package: C124

The declarations in `MathematicaFMM.wl` agree with what the C functions read: every call that evaluates passes its arguments to
the library unchanged. The usage messages of eight of the twelve functions show a parameter that does not exist, so calls
written after them stay unevaluated; and so do two of the three calls of the test script.
-/

namespace FMM.Wolfram

open FMM.Glue

/-! ## Specification -/

/-- A number: an inexact one, or an exact integer. -/
def Num (v : WVal) (x : ℝ) : Prop := v = .real x ∨ ∃ z : ℤ, v = .int z ∧ x = z

/-- An integer that fits in a machine word, seen as `std::size_t`. -/
def Word (z : ℤ) (n : ℕ) : Prop := (0 ≤ z ∧ z < 2 ^ 63 ∧ (n : ℤ) = z) ∨ (-2 ^ 63 ≤ z ∧ z < 0 ∧ (n : ℤ) = z + 2 ^ 64)

/-! ## Conversions -/

theorem convert_tensor {v : WVal} {a : MArg} : convert .tensor v = some a ↔ ∃ l, v = .vec l ∧ a = .tensor (tensorOf l) := by
  cases v <;> simp [convert, eq_comm]

theorem convert_real {v : WVal} {a : MArg} : convert .real v = some a ↔ ∃ x, Num v x ∧ a = .real x := by
  cases v <;> simp [convert, Num, eq_comm]

theorem convert_boolean {v : WVal} {a : MArg} : convert .boolean v = some a ↔ ∃ b, v = .bool b ∧ a = .boolean b := by
  cases v <;> simp [convert, eq_comm]

theorem word_sizeT {z : ℤ} (h : -2 ^ 63 ≤ z ∧ z < 2 ^ 63) : Word z (sizeT z) := by
  unfold Word sizeT
  omega

theorem word_unique {z : ℤ} {n : ℕ} (h : Word z n) : (-2 ^ 63 ≤ z ∧ z < 2 ^ 63) ∧ sizeT z = n := by
  unfold Word at h
  unfold sizeT
  omega

theorem convert_integer {v : WVal} {a : MArg} :
    convert .integer v = some a ↔ ∃ z, v = .int z ∧ (-2 ^ 63 ≤ z ∧ z < 2 ^ 63) ∧ a = .integer z := by
  cases v with
  | int z =>
    show (if -2 ^ 63 ≤ z ∧ z < 2 ^ 63 then some (MArg.integer z) else none) = some a ↔ _
    by_cases h : -2 ^ 63 ≤ z ∧ z < 2 ^ 63
    · rw [if_pos h]
      constructor
      · intro e; exact ⟨z, rfl, h, (Option.some.inj e).symm⟩
      · rintro ⟨z', e, -, rfl⟩; injection e with e; rw [e]
    · rw [if_neg h]
      constructor
      · intro e; cases e
      · rintro ⟨z', e, h', -⟩; injection e with e; subst e; exact absurd h' h
  | _ => simp [convert]

theorem marshal_nil {vs : List WVal} {as : List MArg} : marshal [] vs = some as ↔ vs = [] ∧ as = [] := by
  cases vs <;> simp [marshal, eq_comm]

theorem marshal_cons {t : MTy} {ts : List MTy} {vs : List WVal} {as : List MArg} : marshal (t :: ts) vs = some as ↔
    ∃ v vs' a as', vs = v :: vs' ∧ as = a :: as' ∧ convert t v = some a ∧ marshal ts vs' = some as' := by
  cases vs with
  | nil => simp [marshal]
  | cons v vs =>
    simp only [marshal, Option.bind_eq_bind, Option.bind_eq_some_iff, Option.some.injEq]
    constructor
    · rintro ⟨a, h1, as', h2, rfl⟩; exact ⟨v, vs, a, as', rfl, rfl, h1, h2⟩
    · rintro ⟨v', vs', a, as', e, rfl, h1, h2⟩
      injection e with e1 e2
      subst e1 e2
      exact ⟨a, h1, as', h2, rfl⟩

theorem marshal_length {ts : List MTy} {vs : List WVal} {as : List MArg} (h : marshal ts vs = some as) :
    vs.length = ts.length := by
  induction ts generalizing vs as with
  | nil => rw [(marshal_nil.mp h).1]; rfl
  | cons t ts ih =>
    obtain ⟨v, vs', a, as', rfl, -, -, h2⟩ := marshal_cons.mp h
    simp [ih h2]

theorem invoke_of {name : String} {l : Loaded} (h : (package.find? fun l => l.name == name) = some l) (vals : List WVal) :
    invoke name vals = (marshal l.types vals).map fun args => (l.lib, readArgs l.fn args) := by
  unfold invoke
  rw [h]
  show (marshal l.types vals).bind (fun args => some (l.lib, readArgs l.fn args)) = _
  cases marshal l.types vals <;> rfl

theorem invoke_arity {name : String} {l : Loaded} (h : (package.find? fun l => l.name == name) = some l) {vals : List WVal}
    (hn : vals.length ≠ l.types.length) : invoke name vals = none := by
  rw [invoke_of h]
  cases hm : marshal l.types vals with
  | none => rfl
  | some args => exact absurd (marshal_length hm) hn

/-! ## The calls that evaluate -/

/-- **C124** `FMM?DGravParticleForces`: the calls that evaluate, and what reaches the library. -/
theorem C124_forces {s : String} {L : Lib}
    (h : (s, L) ∈ [("FMM2DGravParticleForces", Lib.grav2), ("FMM3DGravParticleForces", Lib.grav3)]) (vals : List WVal)
    (r : Lib × Outcome Call) : invoke s vals = some r ↔ ∃ P Q z n a e b f, vals = [.vec P, .vec Q, .int z, a, b] ∧ Word z n ∧
      Num a e ∧ Num b f ∧ r = (L, .ok (.fmmForces (tensorOf P) (tensorOf Q) n e f)) := by
  have key : invoke s vals = (marshal [.tensor, .tensor, .integer, .real, .real] vals).map
      fun args => (L, readArgs .fmmForces args) := by
    simp only [List.mem_cons, Prod.mk.injEq, List.not_mem_nil, or_false] at h
    rcases h with ⟨rfl, rfl⟩ | ⟨rfl, rfl⟩
    · exact invoke_of (l := ⟨"FMM2DGravParticleForces", .grav2, .fmmForces, [.tensor, .tensor, .integer, .real, .real]⟩) rfl vals
    · exact invoke_of (l := ⟨"FMM3DGravParticleForces", .grav3, .fmmForces, [.tensor, .tensor, .integer, .real, .real]⟩) rfl vals
  rw [key, Option.map_eq_some_iff]
  simp only [marshal_cons, marshal_nil, convert_tensor, convert_integer, convert_real]
  constructor
  · rintro ⟨_, ⟨_, _, _, _, rfl, rfl, ⟨P, rfl, rfl⟩, _, _, _, _, rfl, rfl, ⟨Q, rfl, rfl⟩, _, _, _, _, rfl, rfl, ⟨z, rfl, hz, rfl⟩,
      a, _, _, _, rfl, rfl, ⟨e, he, rfl⟩, b, _, _, _, rfl, rfl, ⟨f, hf, rfl⟩, rfl, rfl⟩, rfl⟩
    exact ⟨P, Q, z, sizeT z, a, e, b, f, rfl, word_sizeT hz, he, hf, rfl⟩
  · rintro ⟨P, Q, z, n, a, e, b, f, rfl, hw, he, hf, rfl⟩
    obtain ⟨hz, rfl⟩ := word_unique hw
    exact ⟨_, ⟨_, _, _, _, rfl, rfl, ⟨P, rfl, rfl⟩, _, _, _, _, rfl, rfl, ⟨Q, rfl, rfl⟩, _, _, _, _, rfl, rfl, ⟨z, rfl, hz, rfl⟩,
      a, _, _, _, rfl, rfl, ⟨e, he, rfl⟩, b, _, _, _, rfl, rfl, ⟨f, hf, rfl⟩, rfl, rfl⟩, rfl⟩

/-- **C124** `FMM?DGravParticlePotentialEnergies`. -/
theorem C124_energies {s : String} {L : Lib}
    (h : (s, L) ∈ [("FMM2DGravParticlePotentialEnergies", Lib.grav2), ("FMM3DGravParticlePotentialEnergies", Lib.grav3)])
    (vals : List WVal) (r : Lib × Outcome Call) : invoke s vals = some r ↔ ∃ P Q z n a e, vals = [.vec P, .vec Q, .int z, a] ∧
      Word z n ∧ Num a e ∧ r = (L, .ok (.fmmEnergies (tensorOf P) (tensorOf Q) n e)) := by
  have key : invoke s vals = (marshal [.tensor, .tensor, .integer, .real] vals).map
      fun args => (L, readArgs .fmmEnergies args) := by
    simp only [List.mem_cons, Prod.mk.injEq, List.not_mem_nil, or_false] at h
    rcases h with ⟨rfl, rfl⟩ | ⟨rfl, rfl⟩
    · exact invoke_of (l := ⟨"FMM2DGravParticlePotentialEnergies", .grav2, .fmmEnergies, [.tensor, .tensor, .integer, .real]⟩) rfl vals
    · exact invoke_of (l := ⟨"FMM3DGravParticlePotentialEnergies", .grav3, .fmmEnergies, [.tensor, .tensor, .integer, .real]⟩) rfl vals
  rw [key, Option.map_eq_some_iff]
  simp only [marshal_cons, marshal_nil, convert_tensor, convert_integer, convert_real]
  constructor
  · rintro ⟨_, ⟨_, _, _, _, rfl, rfl, ⟨P, rfl, rfl⟩, _, _, _, _, rfl, rfl, ⟨Q, rfl, rfl⟩, _, _, _, _, rfl, rfl, ⟨z, rfl, hz, rfl⟩,
      a, _, _, _, rfl, rfl, ⟨e, he, rfl⟩, rfl, rfl⟩, rfl⟩
    exact ⟨P, Q, z, sizeT z, a, e, rfl, word_sizeT hz, he, rfl⟩
  · rintro ⟨P, Q, z, n, a, e, rfl, hw, he, rfl⟩
    obtain ⟨hz, rfl⟩ := word_unique hw
    exact ⟨_, ⟨_, _, _, _, rfl, rfl, ⟨P, rfl, rfl⟩, _, _, _, _, rfl, rfl, ⟨Q, rfl, rfl⟩, _, _, _, _, rfl, rfl, ⟨z, rfl, hz, rfl⟩,
      a, _, _, _, rfl, rfl, ⟨e, he, rfl⟩, rfl, rfl⟩, rfl⟩

/-- **C124** `FMM?DGravEvaluatePotentials`. -/
theorem C124_potentials {s : String} {L : Lib}
    (h : (s, L) ∈ [("FMM2DGravEvaluatePotentials", Lib.grav2), ("FMM3DGravEvaluatePotentials", Lib.grav3)])
    (vals : List WVal) (r : Lib × Outcome Call) : invoke s vals = some r ↔ ∃ P Q z n a e R b,
      vals = [.vec P, .vec Q, .int z, a, .vec R, .bool b] ∧ Word z n ∧ Num a e ∧
      r = (L, .ok (.fmmPotentials (tensorOf P) (tensorOf Q) n e (tensorOf R) b)) := by
  have key : invoke s vals = (marshal [.tensor, .tensor, .integer, .real, .tensor, .boolean] vals).map
      fun args => (L, readArgs .fmmPotentials args) := by
    simp only [List.mem_cons, Prod.mk.injEq, List.not_mem_nil, or_false] at h
    rcases h with ⟨rfl, rfl⟩ | ⟨rfl, rfl⟩
    · exact invoke_of (l := ⟨"FMM2DGravEvaluatePotentials", .grav2, .fmmPotentials, [.tensor, .tensor, .integer, .real, .tensor, .boolean]⟩) rfl vals
    · exact invoke_of (l := ⟨"FMM3DGravEvaluatePotentials", .grav3, .fmmPotentials, [.tensor, .tensor, .integer, .real, .tensor, .boolean]⟩) rfl vals
  rw [key, Option.map_eq_some_iff]
  simp only [marshal_cons, marshal_nil, convert_tensor, convert_integer, convert_real, convert_boolean]
  constructor
  · rintro ⟨_, ⟨_, _, _, _, rfl, rfl, ⟨P, rfl, rfl⟩, _, _, _, _, rfl, rfl, ⟨Q, rfl, rfl⟩, _, _, _, _, rfl, rfl, ⟨z, rfl, hz, rfl⟩,
      a, _, _, _, rfl, rfl, ⟨e, he, rfl⟩, _, _, _, _, rfl, rfl, ⟨R, rfl, rfl⟩, _, _, _, _, rfl, rfl, ⟨b, rfl, rfl⟩, rfl, rfl⟩, rfl⟩
    exact ⟨P, Q, z, sizeT z, a, e, R, b, rfl, word_sizeT hz, he, rfl⟩
  · rintro ⟨P, Q, z, n, a, e, R, b, rfl, hw, he, rfl⟩
    obtain ⟨hz, rfl⟩ := word_unique hw
    exact ⟨_, ⟨_, _, _, _, rfl, rfl, ⟨P, rfl, rfl⟩, _, _, _, _, rfl, rfl, ⟨Q, rfl, rfl⟩, _, _, _, _, rfl, rfl, ⟨z, rfl, hz, rfl⟩,
      a, _, _, _, rfl, rfl, ⟨e, he, rfl⟩, _, _, _, _, rfl, rfl, ⟨R, rfl, rfl⟩, _, _, _, _, rfl, rfl, ⟨b, rfl, rfl⟩, rfl, rfl⟩, rfl⟩

/-- **C124** `Direct?DGravParticleForces`. -/
theorem C124_direct_forces {s : String} {L : Lib}
    (h : (s, L) ∈ [("Direct2DGravParticleForces", Lib.grav2), ("Direct3DGravParticleForces", Lib.grav3)])
    (vals : List WVal) (r : Lib × Outcome Call) : invoke s vals = some r ↔ ∃ P Q b f, vals = [.vec P, .vec Q, b] ∧ Num b f ∧
      r = (L, .ok (.directForces (tensorOf P) (tensorOf Q) f)) := by
  have key : invoke s vals = (marshal [.tensor, .tensor, .real] vals).map fun args => (L, readArgs .directForces args) := by
    simp only [List.mem_cons, Prod.mk.injEq, List.not_mem_nil, or_false] at h
    rcases h with ⟨rfl, rfl⟩ | ⟨rfl, rfl⟩
    · exact invoke_of (l := ⟨"Direct2DGravParticleForces", .grav2, .directForces, [.tensor, .tensor, .real]⟩) rfl vals
    · exact invoke_of (l := ⟨"Direct3DGravParticleForces", .grav3, .directForces, [.tensor, .tensor, .real]⟩) rfl vals
  rw [key, Option.map_eq_some_iff]
  simp only [marshal_cons, marshal_nil, convert_tensor, convert_real]
  constructor
  · rintro ⟨_, ⟨_, _, _, _, rfl, rfl, ⟨P, rfl, rfl⟩, _, _, _, _, rfl, rfl, ⟨Q, rfl, rfl⟩, b, _, _, _, rfl, rfl, ⟨f, hf, rfl⟩,
      rfl, rfl⟩, rfl⟩
    exact ⟨P, Q, b, f, rfl, hf, rfl⟩
  · rintro ⟨P, Q, b, f, rfl, hf, rfl⟩
    exact ⟨_, ⟨_, _, _, _, rfl, rfl, ⟨P, rfl, rfl⟩, _, _, _, _, rfl, rfl, ⟨Q, rfl, rfl⟩, b, _, _, _, rfl, rfl, ⟨f, hf, rfl⟩,
      rfl, rfl⟩, rfl⟩

/-- **C124** `Direct?DGravParticlePotentialEnergies`. -/
theorem C124_direct_energies {s : String} {L : Lib}
    (h : (s, L) ∈ [("Direct2DGravParticlePotentialEnergies", Lib.grav2), ("Direct3DGravParticlePotentialEnergies", Lib.grav3)])
    (vals : List WVal) (r : Lib × Outcome Call) : invoke s vals = some r ↔ ∃ P Q, vals = [.vec P, .vec Q] ∧
      r = (L, .ok (.directEnergies (tensorOf P) (tensorOf Q))) := by
  have key : invoke s vals = (marshal [.tensor, .tensor] vals).map fun args => (L, readArgs .directEnergies args) := by
    simp only [List.mem_cons, Prod.mk.injEq, List.not_mem_nil, or_false] at h
    rcases h with ⟨rfl, rfl⟩ | ⟨rfl, rfl⟩
    · exact invoke_of (l := ⟨"Direct2DGravParticlePotentialEnergies", .grav2, .directEnergies, [.tensor, .tensor]⟩) rfl vals
    · exact invoke_of (l := ⟨"Direct3DGravParticlePotentialEnergies", .grav3, .directEnergies, [.tensor, .tensor]⟩) rfl vals
  rw [key, Option.map_eq_some_iff]
  simp only [marshal_cons, marshal_nil, convert_tensor]
  constructor
  · rintro ⟨_, ⟨_, _, _, _, rfl, rfl, ⟨P, rfl, rfl⟩, _, _, _, _, rfl, rfl, ⟨Q, rfl, rfl⟩, rfl, rfl⟩, rfl⟩
    exact ⟨P, Q, rfl, rfl⟩
  · rintro ⟨P, Q, rfl, rfl⟩
    exact ⟨_, ⟨_, _, _, _, rfl, rfl, ⟨P, rfl, rfl⟩, _, _, _, _, rfl, rfl, ⟨Q, rfl, rfl⟩, rfl, rfl⟩, rfl⟩

/-- **C124** `Direct?DGravEvaluatePotentials`. -/
theorem C124_direct_potentials {s : String} {L : Lib}
    (h : (s, L) ∈ [("Direct2DGravEvaluatePotentials", Lib.grav2), ("Direct3DGravEvaluatePotentials", Lib.grav3)])
    (vals : List WVal) (r : Lib × Outcome Call) : invoke s vals = some r ↔ ∃ P Q R, vals = [.vec P, .vec Q, .vec R] ∧
      r = (L, .ok (.directPotentials (tensorOf P) (tensorOf Q) (tensorOf R))) := by
  have key : invoke s vals = (marshal [.tensor, .tensor, .tensor] vals).map fun args => (L, readArgs .directPotentials args) := by
    simp only [List.mem_cons, Prod.mk.injEq, List.not_mem_nil, or_false] at h
    rcases h with ⟨rfl, rfl⟩ | ⟨rfl, rfl⟩
    · exact invoke_of (l := ⟨"Direct2DGravEvaluatePotentials", .grav2, .directPotentials, [.tensor, .tensor, .tensor]⟩) rfl vals
    · exact invoke_of (l := ⟨"Direct3DGravEvaluatePotentials", .grav3, .directPotentials, [.tensor, .tensor, .tensor]⟩) rfl vals
  rw [key, Option.map_eq_some_iff]
  simp only [marshal_cons, marshal_nil, convert_tensor]
  constructor
  · rintro ⟨_, ⟨_, _, _, _, rfl, rfl, ⟨P, rfl, rfl⟩, _, _, _, _, rfl, rfl, ⟨Q, rfl, rfl⟩, _, _, _, _, rfl, rfl, ⟨R, rfl, rfl⟩,
      rfl, rfl⟩, rfl⟩
    exact ⟨P, Q, R, rfl, rfl⟩
  · rintro ⟨P, Q, R, rfl, rfl⟩
    exact ⟨_, ⟨_, _, _, _, rfl, rfl, ⟨P, rfl, rfl⟩, _, _, _, _, rfl, rfl, ⟨Q, rfl, rfl⟩, _, _, _, _, rfl, rfl, ⟨R, rfl, rfl⟩,
      rfl, rfl⟩, rfl⟩

/-- **C124** No call that evaluates misreads an argument, whatever symbol it uses. -/
theorem C124_no_misread (s : String) (vals : List WVal) {L : Lib} {o : Outcome Call} (h : invoke s vals = some (L, o)) :
    ∃ c, o = .ok c := by
  have h0 := h
  unfold invoke at h
  simp only [Option.bind_eq_bind, Option.bind_eq_some_iff] at h
  obtain ⟨l, hl, -⟩ := h
  have hname : l.name = s := by simpa using List.find?_some hl
  have hm := List.mem_of_find?_eq_some hl
  simp only [package, List.mem_cons, List.not_mem_nil, or_false] at hm
  rcases hm with rfl | rfl | rfl | rfl | rfl | rfl | rfl | rfl | rfl | rfl | rfl | rfl <;> simp only at hname <;> subst hname
  · obtain ⟨_, _, _, _, _, _, _, _, -, -, -, -, e⟩ := (C124_forces (L := .grav2) (by simp) _ _).mp h0; exact ⟨_, congrArg Prod.snd e⟩
  · obtain ⟨_, _, _, _, _, _, -, -, -, e⟩ := (C124_energies (L := .grav2) (by simp) _ _).mp h0; exact ⟨_, congrArg Prod.snd e⟩
  · obtain ⟨_, _, _, _, _, _, _, _, -, -, -, e⟩ := (C124_potentials (L := .grav2) (by simp) _ _).mp h0
    exact ⟨_, congrArg Prod.snd e⟩
  · obtain ⟨_, _, _, _, -, -, e⟩ := (C124_direct_forces (L := .grav2) (by simp) _ _).mp h0; exact ⟨_, congrArg Prod.snd e⟩
  · obtain ⟨_, _, -, e⟩ := (C124_direct_energies (L := .grav2) (by simp) _ _).mp h0; exact ⟨_, congrArg Prod.snd e⟩
  · obtain ⟨_, _, _, -, e⟩ := (C124_direct_potentials (L := .grav2) (by simp) _ _).mp h0; exact ⟨_, congrArg Prod.snd e⟩
  · obtain ⟨_, _, _, _, _, _, _, _, -, -, -, -, e⟩ := (C124_forces (L := .grav3) (by simp) _ _).mp h0; exact ⟨_, congrArg Prod.snd e⟩
  · obtain ⟨_, _, _, _, _, _, -, -, -, e⟩ := (C124_energies (L := .grav3) (by simp) _ _).mp h0; exact ⟨_, congrArg Prod.snd e⟩
  · obtain ⟨_, _, _, _, _, _, _, _, -, -, -, e⟩ := (C124_potentials (L := .grav3) (by simp) _ _).mp h0
    exact ⟨_, congrArg Prod.snd e⟩
  · obtain ⟨_, _, _, _, -, -, e⟩ := (C124_direct_forces (L := .grav3) (by simp) _ _).mp h0; exact ⟨_, congrArg Prod.snd e⟩
  · obtain ⟨_, _, -, e⟩ := (C124_direct_energies (L := .grav3) (by simp) _ _).mp h0; exact ⟨_, congrArg Prod.snd e⟩
  · obtain ⟨_, _, _, -, e⟩ := (C124_direct_potentials (L := .grav3) (by simp) _ _).mp h0; exact ⟨_, congrArg Prod.snd e⟩

/-! ## Usage messages and script -/

/-- The functions that compute forces. -/
def forceFunctions : List String :=
  ["FMM2DGravParticleForces", "Direct2DGravParticleForces", "FMM3DGravParticleForces", "Direct3DGravParticleForces"]

/-- **C124** A call with the arguments that the usage message shows never evaluates, except for the functions computing forces. -/
theorem C124_usage_rejected {s : String} {ps : List String} (h : (s, ps) ∈ usage) (hs : s ∉ forceFunctions) (vals : List WVal)
    (hv : vals.length = ps.length) : invoke s vals = none := by
  simp only [usage, List.mem_cons, Prod.mk.injEq, List.not_mem_nil, or_false] at h
  rcases h with ⟨rfl, rfl⟩ | ⟨rfl, rfl⟩ | ⟨rfl, rfl⟩ | ⟨rfl, rfl⟩ | ⟨rfl, rfl⟩ | ⟨rfl, rfl⟩ | ⟨rfl, rfl⟩ | ⟨rfl, rfl⟩ | ⟨rfl, rfl⟩ |
    ⟨rfl, rfl⟩ | ⟨rfl, rfl⟩ | ⟨rfl, rfl⟩ <;>
  first
  | (refine absurd ?_ hs; simp [forceFunctions]; done)
  | exact invoke_arity (l := ⟨"FMM2DGravParticlePotentialEnergies", .grav2, .fmmEnergies, [.tensor, .tensor, .integer, .real]⟩) rfl (by rw [hv]; decide)
  | exact invoke_arity (l := ⟨"FMM2DGravEvaluatePotentials", .grav2, .fmmPotentials, [.tensor, .tensor, .integer, .real, .tensor, .boolean]⟩) rfl (by rw [hv]; decide)
  | exact invoke_arity (l := ⟨"Direct2DGravParticlePotentialEnergies", .grav2, .directEnergies, [.tensor, .tensor]⟩) rfl (by rw [hv]; decide)
  | exact invoke_arity (l := ⟨"Direct2DGravEvaluatePotentials", .grav2, .directPotentials, [.tensor, .tensor, .tensor]⟩) rfl (by rw [hv]; decide)
  | exact invoke_arity (l := ⟨"FMM3DGravParticlePotentialEnergies", .grav3, .fmmEnergies, [.tensor, .tensor, .integer, .real]⟩) rfl (by rw [hv]; decide)
  | exact invoke_arity (l := ⟨"FMM3DGravEvaluatePotentials", .grav3, .fmmPotentials, [.tensor, .tensor, .integer, .real, .tensor, .boolean]⟩) rfl (by rw [hv]; decide)
  | exact invoke_arity (l := ⟨"Direct3DGravParticlePotentialEnergies", .grav3, .directEnergies, [.tensor, .tensor]⟩) rfl (by rw [hv]; decide)
  | exact invoke_arity (l := ⟨"Direct3DGravEvaluatePotentials", .grav3, .directPotentials, [.tensor, .tensor, .tensor]⟩) rfl (by rw [hv]; decide)

/-- **C124** The usage messages of the functions computing forces are right: with lists for the first two parameters, an integer
for `items_per_leaf` and numbers for the others, the call evaluates. -/
theorem C124_usage_forces {P Q : List ℝ} {z : ℤ} (hz : -2 ^ 63 ≤ z ∧ z < 2 ^ 63) {a b : WVal} {e f : ℝ} (ha : Num a e)
    (hb : Num b f) {s : String} {ps : List String} (h : (s, ps) ∈ usage) (hs : s ∈ forceFunctions) :
    ∃ r, invoke s (ps.map fun p => if p = "items_per_leaf" then .int z else if p = "acc_eps" then a else
      if p = "force_smoothing_eps" then b else if p = "positions" then .vec P else .vec Q) = some r := by
  simp only [usage, List.mem_cons, Prod.mk.injEq, List.not_mem_nil, or_false] at h
  rcases h with ⟨rfl, rfl⟩ | ⟨rfl, rfl⟩ | ⟨rfl, rfl⟩ | ⟨rfl, rfl⟩ | ⟨rfl, rfl⟩ | ⟨rfl, rfl⟩ | ⟨rfl, rfl⟩ | ⟨rfl, rfl⟩ | ⟨rfl, rfl⟩ |
    ⟨rfl, rfl⟩ | ⟨rfl, rfl⟩ | ⟨rfl, rfl⟩ <;>
  first
  | (refine absurd hs ?_; simp [forceFunctions]; done)
  | exact ⟨_, (C124_forces (s := "FMM2DGravParticleForces") (L := .grav2) (by simp) _ _).mpr
      ⟨P, Q, z, _, a, e, b, f, rfl, word_sizeT hz, ha, hb, rfl⟩⟩
  | exact ⟨_, (C124_forces (s := "FMM3DGravParticleForces") (L := .grav3) (by simp) _ _).mpr
      ⟨P, Q, z, _, a, e, b, f, rfl, word_sizeT hz, ha, hb, rfl⟩⟩
  | exact ⟨_, (C124_direct_forces (s := "Direct2DGravParticleForces") (L := .grav2) (by simp) _ _).mpr ⟨P, Q, b, f, rfl, hb, rfl⟩⟩
  | exact ⟨_, (C124_direct_forces (s := "Direct3DGravParticleForces") (L := .grav3) (by simp) _ _).mpr ⟨P, Q, b, f, rfl, hb, rfl⟩⟩

/-- **C124** Of the calls in the test script, only the direct summation evaluates: the other two use symbols without a value. -/
theorem C124_script (P Q : List ℝ) : (scriptCalls P Q).map (fun c => scriptInvoke c.1 c.2) =
    [none, none, some (.grav2, .ok (.directEnergies (tensorOf P) (tensorOf Q)))] := rfl

/-- **C124** In the script the six assigned symbols mean functions of the plane, and all other symbols, the twelve functions of the package among them, what
they mean in the package. -/
theorem C124_script_symbols (vals : List WVal) :
    (∀ e ∈ [("FMMForces", "FMM2DGravParticleForces"), ("FMMPotentials", "FMM2DGravParticlePotentialEnergies"),
      ("FMMPointEvalPotentials", "FMM2DGravEvaluatePotentials"), ("DirectPotentials", "Direct2DGravParticlePotentialEnergies"),
      ("DirectForces", "Direct2DGravParticleForces"), ("DirectPointEvalPotentials", "Direct2DGravEvaluatePotentials")],
      scriptInvoke e.1 vals = invoke e.2 vals) ∧
    (∀ s, s ∉ ["FMMForces", "FMMPotentials", "FMMPointEvalPotentials", "DirectPotentials", "DirectForces", "DirectPointEvalPotentials"] →
      scriptInvoke s vals = invoke s vals) ∧
    ∀ e ∈ usage, scriptInvoke e.1 vals = invoke e.1 vals := by
  have h2 : ∀ s, s ∉ ["FMMForces", "FMMPotentials", "FMMPointEvalPotentials", "DirectPotentials", "DirectForces", "DirectPointEvalPotentials"] →
      scriptInvoke s vals = invoke s vals := by
    intro s hs
    unfold scriptInvoke
    have : scriptDefs.find? (fun e => e.1 == s) = none := by
      rw [List.find?_eq_none]
      intro e he h
      simp only [beq_iff_eq] at h
      subst h
      refine hs ?_
      have : e.1 ∈ scriptDefs.map Prod.fst := List.mem_map_of_mem he
      exact this
    rw [this]
  refine ⟨?_, h2, ?_⟩
  · intro e he
    simp only [List.mem_cons, List.not_mem_nil, or_false] at he
    rcases he with rfl | rfl | rfl | rfl | rfl | rfl <;> rfl
  · intro e he
    refine h2 _ ?_
    revert e
    decide

/-- **C124** With the symbols that the script assigns, all three calls evaluate. -/
theorem C124_script_intended (P Q : List ℝ) :
    scriptInvoke "FMMForces" [.vec P, .vec Q, .int 20, .real (1 / 100), .int 0]
      = some (.grav2, .ok (.fmmForces (tensorOf P) (tensorOf Q) 20 (1 / 100) 0)) ∧
    scriptInvoke "FMMPotentials" [.vec P, .vec Q, .int 20, .real (1 / 100)]
      = some (.grav2, .ok (.fmmEnergies (tensorOf P) (tensorOf Q) 20 (1 / 100))) := by
  constructor
  · exact (C124_forces (s := "FMM2DGravParticleForces") (L := .grav2) (by simp) _ _).mpr
      ⟨P, Q, 20, 20, _, 1 / 100, _, 0, rfl, .inl (by norm_num), .inl rfl, .inr ⟨0, rfl, by norm_num⟩, rfl⟩
  · exact (C124_energies (s := "FMM2DGravParticlePotentialEnergies") (L := .grav2) (by simp) _ _).mpr
      ⟨P, Q, 20, 20, _, 1 / 100, rfl, .inl (by norm_num), .inl rfl, rfl⟩

/-! ## What the calls compute -/

/-- **C124** A negative number of items per leaf is accepted, and stands for more items than any list has elements. -/
theorem C124_negative_items {z : ℤ} {n : ℕ} (hz : z < 0) (h : Word z n) : 2 ^ 63 ≤ n := by
  unfold Word at h
  omega

/-- **C124** `FMM2DGravParticlePotentialEnergies[P, Q, z, e]`: one number for each two coordinates, near the sum over all pairs. -/
theorem C124_energies_2d {t : BinomialTable} (ht : Reachable t) {P Q : List ℝ} {z : ℤ} {n p : ℕ} {a : WVal} {e : ℝ} {r : Box 2}
    (hz : Word z n) (ha : Num a e) (hc : P.length / 2 ≤ Q.length) (hi : P.length ≤ 2 ^ 31)
    (hI : AdaptiveInput (tensorSources 2 (tensorOf P) (tensorOf Q)) n r)
    (hord : expansionOrder (totalStrength (tensorSources 2 (tensorOf P) (tensorOf Q))) e = .ok p) (hp0 : 1 ≤ p) (hp : p ≤ 1029) :
    ∃ fuel0, ∀ X : Exec, fuel0 ≤ X.fuel → Schedule X.sch → X.t2 = t → (∃ m, X.ord.Valid (P.length / 2) m (P.length / 2)) →
      ∃ out, Evaluates X "FMM2DGravParticlePotentialEnergies" [.vec P, .vec Q, .int z, a] out ∧ out.size = P.length / 2 ∧
        ∀ i < P.length / 2, |out.val i - Q.getD i 0 *
            directPotential true (tensorSources 2 (tensorOf P) (tensorOf Q)) (tensorPoint 2 (tensorOf P) i)| ≤
          |Q.getD i 0| * (((tensorSources 2 (tensorOf P) (tensorOf Q)).map fun s => |s.q|).sum * errPot p) := by
  obtain ⟨fuel0, H⟩ := C48_fmm_energies_2d ht (pos := tensorOf P) (chg := tensorOf Q) hc hi hI hord hp0 hp
  refine ⟨fuel0, ?_⟩
  rintro X hf hs rfl ⟨m, hv⟩
  obtain ⟨out, h1, h2, h3⟩ := H X.fuel hf X.sch hs true X.ord X.junk m hv
  exact ⟨out, ⟨.grav2, _, (C124_energies (by simp) _ _).mpr ⟨P, Q, z, n, a, e, rfl, hz, ha, rfl⟩, h1⟩, h2, h3⟩

/-- **C124** `FMM2DGravParticleForces[P, Q, z, e, f]`. -/
theorem C124_forces_2d {t : BinomialTable} (ht : Reachable t) {P Q : List ℝ} {z : ℤ} {n p : ℕ} {a b : WVal} {e f : ℝ} {r : Box 2}
    (hz : Word z n) (ha : Num a e) (hb : Num b f) (hf : 0 ≤ f) (hc : P.length / 2 ≤ Q.length) (hi : P.length ≤ 2 ^ 31)
    (hI : AdaptiveInput (tensorSources 2 (tensorOf P) (tensorOf Q)) n r)
    (hord : expansionOrder (totalStrength (tensorSources 2 (tensorOf P) (tensorOf Q))) e = .ok p) (hp0 : 1 ≤ p) (hp : p ≤ 1029) :
    ∃ fuel0 h, ∀ X : Exec, fuel0 ≤ X.fuel → Schedule X.sch → X.t2 = t → (∃ m, X.ord.Valid (P.length / 2) m (P.length / 2)) →
      ∃ out, Evaluates X "FMM2DGravParticleForces" [.vec P, .vec Q, .int z, a, b] out ∧ out.size = P.length / 2 * 2 ∧
        ∀ i < P.length / 2, dist2 (tensorPoint 2 out i) (fun j => Q.getD i 0 *
            directField true (tensorSources 2 (tensorOf P) (tensorOf Q)) (tensorPoint 2 (tensorOf P) i) f j) ≤
          |Q.getD i 0| * (((tensorSources 2 (tensorOf P) (tensorOf Q)).map fun s => |s.q|).sum *
            (errForce p (r.len / 2 ^ h) + f / (r.len / 2 ^ h) ^ 3)) := by
  obtain ⟨fuel0, h, H⟩ := C48_fmm_forces_2d ht (pos := tensorOf P) (chg := tensorOf Q) hc hi hI hord hp0 hp hf
  refine ⟨fuel0, h, ?_⟩
  rintro X hfu hs rfl ⟨m, hv⟩
  obtain ⟨out, h1, h2, h3⟩ := H X.fuel hfu X.sch hs true X.ord X.junk m hv
  exact ⟨out, ⟨.grav2, _, (C124_forces (by simp) _ _).mpr ⟨P, Q, z, n, a, e, b, f, rfl, hz, ha, hb, rfl⟩, h1⟩, h2, h3⟩

/-- **C124** `FMM3DGravParticlePotentialEnergies[P, Q, z, e]`. -/
theorem C124_energies_3d {t : Stat3} (ht : Reachable3 t) {P Q : List ℝ} {z : ℤ} {n p : ℕ} {a : WVal} {e : ℝ} {r : Box 3}
    (hz : Word z n) (ha : Num a e) (hc : P.length / 3 ≤ Q.length) (hi : P.length ≤ 2 ^ 31)
    (hI : AdaptiveInput (tensorSources 3 (tensorOf P) (tensorOf Q)) n r)
    (hord : expansionOrder (totalStrength (tensorSources 3 (tensorOf P) (tensorOf Q))) e = .ok p) (hp0 : 1 ≤ p) (hp : p ≤ 42) :
    ∃ fuel0 h, ∀ X : Exec, fuel0 ≤ X.fuel → Schedule X.sch → X.t3 = t → (∃ m, X.ord.Valid (P.length / 3) m (P.length / 3)) →
      ∃ out, Evaluates X "FMM3DGravParticlePotentialEnergies" [.vec P, .vec Q, .int z, a] out ∧ out.size = P.length / 3 ∧
        ∀ i < P.length / 3, |out.val i - Q.getD i 0 *
            directPotential true (tensorSources 3 (tensorOf P) (tensorOf Q)) (tensorPoint 3 (tensorOf P) i)| ≤
          |Q.getD i 0| * (((tensorSources 3 (tensorOf P) (tensorOf Q)).map fun s => |s.q|).sum * errPot3 p (r.len / 2 ^ h)) := by
  obtain ⟨fuel0, h, H⟩ := C48_fmm_energies_3d ht (pos := tensorOf P) (chg := tensorOf Q) hc hi hI hord hp0 hp
  refine ⟨fuel0, h, ?_⟩
  rintro X hf hs rfl ⟨m, hv⟩
  obtain ⟨out, h1, h2, h3⟩ := H X.fuel hf X.sch hs true X.ord X.junk m hv
  exact ⟨out, ⟨.grav3, _, (C124_energies (by simp) _ _).mpr ⟨P, Q, z, n, a, e, rfl, hz, ha, rfl⟩, h1⟩, h2, h3⟩

/-- **C124** `Direct?DGravEvaluatePotentials[P, Q, R]`: the direct sum at every point. -/
theorem C124_direct_potentials_exact {P Q R : List ℝ} (X : Exec) :
    (P.length / 2 ≤ Q.length → P.length ≤ 2 ^ 31 → R.length ≤ 2 ^ 31 → X.ord.Valid (P.length / 2) (R.length / 2) (R.length / 2) →
      ∃ out, Evaluates X "Direct2DGravEvaluatePotentials" [.vec P, .vec Q, .vec R] out ∧ out.size = R.length / 2 ∧
        ∀ i < R.length / 2, out.val i =
          directPotential true (tensorSources 2 (tensorOf P) (tensorOf Q)) (tensorPoint 2 (tensorOf R) i)) ∧
    (P.length / 3 ≤ Q.length → P.length ≤ 2 ^ 31 → R.length ≤ 2 ^ 31 → X.ord.Valid (P.length / 3) (R.length / 3) (R.length / 3) →
      ∃ out, Evaluates X "Direct3DGravEvaluatePotentials" [.vec P, .vec Q, .vec R] out ∧ out.size = R.length / 3 ∧
        ∀ i < R.length / 3, out.val i =
          directPotential true (tensorSources 3 (tensorOf P) (tensorOf Q)) (tensorPoint 3 (tensorOf R) i)) := by
  constructor
  · intro hc hi hi' ho
    obtain ⟨out, h1, h2, h3⟩ := C48_direct_potentials (d := 2) (pos := tensorOf P) (chg := tensorOf Q) (pts := tensorOf R) hc hi hi'
      true X.ord X.junk ho
    exact ⟨out, ⟨.grav2, _, (C124_direct_potentials (by simp) _ _).mpr ⟨P, Q, R, rfl, rfl⟩, h1⟩, h2, h3⟩
  · intro hc hi hi' ho
    obtain ⟨out, h1, h2, h3⟩ := C48_direct_potentials (d := 3) (pos := tensorOf P) (chg := tensorOf Q) (pts := tensorOf R) hc hi hi'
      true X.ord X.junk ho
    exact ⟨out, ⟨.grav3, _, (C124_direct_potentials (by simp) _ _).mpr ⟨P, Q, R, rfl, rfl⟩, h1⟩, h2, h3⟩

/-! ## Examples -/

/-- The potential of two masses at a third point, in the plane. -/
example : ∃ out, Evaluates ⟨0, fun _ (l : List Path) => l, BinomialTable.init, Stat3.init 0 0 0, ⟨[1, 0], [0], [0, 1], [0]⟩, fun _ => 7⟩
    "Direct2DGravEvaluatePotentials" [.vec [0, 0, 1, 0], .vec [2, 3], .vec [5, 5]] out ∧ out.size = 1 := by
  obtain ⟨out, h1, h2, -⟩ := (C124_direct_potentials_exact (P := [0, 0, 1, 0]) (Q := [2, 3]) (R := [5, 5])
    ⟨0, fun _ (l : List Path) => l, BinomialTable.init, Stat3.init 0 0 0, ⟨[1, 0], [0], [0, 1], [0]⟩, fun _ => 7⟩).1
    (by norm_num) (by norm_num) (by norm_num) ⟨by decide, by decide, by decide, by decide⟩
  exact ⟨out, h1, h2⟩

/-- The kind of the member that was stored. -/
def kind : MArg → MTy
  | .tensor _ => .tensor
  | .integer _ => .integer
  | .real _ => .real
  | .boolean _ => .boolean

/-- The kinds of the members that a function reads, in order. -/
def wants : Fn → List MTy
  | .fmmForces => [.tensor, .tensor, .integer, .real, .real]
  | .fmmEnergies => [.tensor, .tensor, .integer, .real]
  | .fmmPotentials => [.tensor, .tensor, .integer, .real, .tensor, .boolean]
  | .directForces => [.tensor, .tensor, .real]
  | .directEnergies => [.tensor, .tensor]
  | .directPotentials => [.tensor, .tensor, .tensor]

/-- **C124** The C functions check neither the number of their arguments (`Argc`) nor which member of the union was stored: called with anything but what
they want, in the order they want it, they read an argument that is not there or the wrong member. Arguments after these are ignored. -/
theorem C124_unchecked (f : Fn) (args : List MArg) :
    (wants f <+: args.map kind → ∃ c, readArgs f args = .ok c) ∧ (¬ wants f <+: args.map kind → readArgs f args = .error .ub) := by
  cases f <;>
  · rcases args with _ | ⟨a, args⟩
    · simp [wants, readArgs, getTensor, err_bind]
    cases a <;> try simp [wants, kind, readArgs, getTensor, err_bind]
    rcases args with _ | ⟨a, args⟩
    · simp [ok_bind, err_bind]
    cases a <;> try simp [kind, ok_bind, err_bind]
    try
      rcases args with _ | ⟨a, args⟩
      · simp [getInteger, getReal, getTensor, err_bind]
      cases a <;> try simp [kind, getInteger, getReal, getTensor, ok_bind, err_bind]
      try
        rcases args with _ | ⟨a, args⟩
        · simp [getReal, err_bind]
        cases a <;> try simp [kind, getReal, ok_bind, err_bind]
        try
          rcases args with _ | ⟨a, args⟩
          · simp [getTensor, err_bind]
          cases a <;> try simp [kind, getTensor, ok_bind, err_bind]
          try
            rcases args with _ | ⟨a, args⟩
            · simp [getBoolean, err_bind]
            cases a <;> try simp [kind, getBoolean, ok_bind, err_bind]

/-- An integer instead of the real number. -/
example (P Q : Arr ℝ) : readArgs .directForces [.tensor P, .tensor Q, .integer 0] = .error .ub :=
  (C124_unchecked _ _).2 (by simp [wants, kind])

/-- The call that the usage message of the energies suggests stays unevaluated. -/
example : invoke "FMM2DGravParticlePotentialEnergies" [.vec [0, 0, 1, 0], .vec [2, 3], .int 1, .real (1 / 100), .real 0] = none :=
  C124_usage_rejected (ps := ["positions", "charges", "items_per_leaf", "acc_eps", "force_smoothing_eps"]) (by simp [usage])
    (by simp [forceFunctions]) _ rfl

/-- `-1` items per leaf are `2^64 - 1`. -/
example : invoke "FMM3DGravParticlePotentialEnergies" [.vec [], .vec [], .int (-1), .int 1]
    = some (.grav3, .ok (.fmmEnergies (tensorOf []) (tensorOf []) (2 ^ 64 - 1) 1)) :=
  (C124_energies (L := .grav3) (by simp) _ _).mpr
    ⟨[], [], -1, 2 ^ 64 - 1, _, 1, rfl, .inr (by norm_num), .inr ⟨1, rfl, by norm_num⟩, rfl⟩

end FMM.Wolfram
