import Verif.LinScale
import Verif.PropsFields

/-!
# The origin of coordinates

Adding a vector `w` to all positions adds `(1 + 10⁻⁵) w` to the centre of the root box.
-/

namespace FMM
variable {d : ℕ}

/-- The box moved by `w`. -/
noncomputable def Box.shift (w : Vec d) (b : Box d) : Box d := ⟨b.center + w, b.len⟩

/-- The source moved by `w`. -/
noncomputable def Source.shift (w : Vec d) (s : Source d) : Source d := ⟨s.pos + w, s.q⟩

namespace Sh
variable {w : Vec d}

theorem lower (b : Box d) (i : Fin d) : (b.shift w).lower i = b.lower i + w i := by
  rw [Box.lower_apply, Box.lower_apply]; simp [Box.shift]; ring

theorem upper (b : Box d) (i : Fin d) : (b.shift w).upper i = b.upper i + w i := by
  rw [Box.upper_apply, Box.upper_apply]; simp [Box.shift]; ring

/-! ## Root box -/

theorem foldl_lower (i : Fin d) : ∀ (ps : List (Vec d)) (a : Option ℝ),
    (ps.map (· + w)).foldl (fun acc p => lowerStep acc (p i)) (a.map (· + w i)) = (ps.foldl (fun acc p => lowerStep acc (p i)) a).map (· + w i)
  | [], _ => rfl
  | p :: ps, a => by
    rw [List.map_cons, List.foldl_cons, List.foldl_cons, ← foldl_lower i ps]
    congr 1
    cases a with
    | none => rfl
    | some a => rw [Option.map_some, Lin.lowerStep_some, Lin.lowerStep_some, Option.map_some, ← min_add_add_right]; rfl

theorem foldl_upper (i : Fin d) : ∀ (ps : List (Vec d)) (a : Option ℝ),
    (ps.map (· + w)).foldl (fun acc p => upperStep acc (p i)) (a.map (· + w i)) = (ps.foldl (fun acc p => upperStep acc (p i)) a).map (· + w i)
  | [], _ => rfl
  | p :: ps, a => by
    rw [List.map_cons, List.foldl_cons, List.foldl_cons, ← foldl_upper i ps]
    congr 1
    cases a with
    | none => rfl
    | some a => rw [Option.map_some, Lin.upperStep_some, Lin.upperStep_some, Option.map_some, ← max_add_add_right]; rfl

theorem isSome_lower (i : Fin d) : ∀ (ps : List (Vec d)) (a : Option ℝ), (ps ≠ [] ∨ a.isSome) →
    (ps.foldl (fun acc p => lowerStep acc (p i)) a).isSome
  | [], a, h => by simpa using h
  | p :: ps, a, _ => by
    rw [List.foldl_cons]
    refine isSome_lower i ps _ (.inr ?_)
    cases a with
    | none => rfl
    | some a => rw [Lin.lowerStep_some]; rfl

theorem isSome_upper (i : Fin d) : ∀ (ps : List (Vec d)) (a : Option ℝ), (ps ≠ [] ∨ a.isSome) →
    (ps.foldl (fun acc p => upperStep acc (p i)) a).isSome
  | [], a, h => by simpa using h
  | p :: ps, a, _ => by
    rw [List.foldl_cons]
    refine isSome_upper i ps _ (.inr ?_)
    cases a with
    | none => rfl
    | some a => rw [Lin.upperStep_some]; rfl

theorem getD_map {e : ℝ} {a : Option ℝ} (h : a.isSome) : (a.map (· + e)).getD 0 = a.getD 0 + e := by
  cases a with
  | none => cases h
  | some a => rfl

theorem rootBox (ps : List (Vec d)) :
    FMM.rootBox (ps.map (· + w)) = (FMM.rootBox ps).map (Box.shift ((1 + paddingFactor) • w)) := by
  unfold FMM.rootBox getDataRange
  by_cases h : ps = []
  · subst h; rfl
  · rw [if_neg h, if_neg (by simpa using h)]
    have e1 : (fun i => (rawLower (ps.map (· + w)) i).getD 0) = (fun i => (rawLower ps i).getD 0) + w := by
      funext i
      have h1 := getD_map (e := w i) (isSome_lower i ps none (.inl h))
      rw [← foldl_lower] at h1
      exact h1
    have e2 : (fun i => (rawUpper (ps.map (· + w)) i).getD 0) = (fun i => (rawUpper ps i).getD 0) + w := by
      funext i
      have h1 := getD_map (e := w i) (isSome_upper i ps none (.inl h))
      rw [← foldl_upper] at h1
      exact h1
    rw [e1, e2]
    set lo := fun i => (rawLower ps i).getD 0
    set hi := fun i => (rawUpper ps i).getD 0
    simp only [Option.map_some, Option.some.injEq]
    unfold rootBoxOf Box.shift
    simp only [Box.mk.injEq]
    constructor
    · ext i
      simp only [Pi.add_apply, Pi.smul_apply, smul_eq_mul]
      ring
    · refine congrArg FMM.maxElement (List.map_congr_left fun i _ => ?_)
      simp only [Pi.sub_apply, Pi.add_apply, Pi.smul_apply, smul_eq_mul]
      ring

theorem map_pos (S : List (Source d)) : (S.map (Source.shift w)).map Source.pos = (S.map Source.pos).map (· + w) := by
  rw [List.map_map, List.map_map]; rfl

theorem totalStrength (S : List (Source d)) : FMM.totalStrength (S.map (Source.shift w)) = FMM.totalStrength S := by
  rw [totalStrength_eq, totalStrength_eq, List.map_map]; rfl

theorem directTerm (grav : Bool) (x : Vec d) (s : Source d) : FMM.directTerm grav (x + w) (s.shift w) = FMM.directTerm grav x s := by
  have h2 : dist2 (s.shift w).pos (x + w) = dist2 s.pos x := by unfold dist2; simp [Source.shift]
  have h3 : (s.shift w).pos = x + w ↔ s.pos = x := add_left_inj w
  unfold FMM.directTerm
  simp only [h2, h3]
  rfl

theorem directPotential (grav : Bool) (S : List (Source d)) (x : Vec d) :
    FMM.directPotential grav (S.map (Source.shift w)) (x + w) = FMM.directPotential grav S x := by
  unfold FMM.directPotential
  rw [List.map_map]
  exact congrArg List.sum (List.map_congr_left fun s _ => directTerm grav x s)

theorem absSum (S : List (Source d)) : ((S.map (Source.shift w)).map fun s => |s.q|).sum = (S.map fun s => |s.q|).sum := by
  rw [List.map_map]; rfl

theorem mult {S : List (Source d)} {max : ℕ} (h : ∀ x, (S.filter fun s => decide (s.pos = x)).length ≤ max) (x : Vec d) :
    ((S.map (Source.shift w)).filter fun s => decide (s.pos = x)).length ≤ max := by
  rw [List.filter_map, List.length_map]
  convert h (x - w) using 4 with s
  simp only [Function.comp_apply]
  rw [show (s.shift w).pos = s.pos + w from rfl, decide_eq_decide, eq_sub_iff_add_eq]

end Sh
end FMM
