import Verif.LinTrees

/-!
# Units of length

Multiplying all positions by `c > 0` multiplies the boxes by `c` and does not change anything else.
-/

namespace FMM
variable {d : ℕ}

/-- The box in other units. -/
noncomputable def Box.scale (c : ℝ) (b : Box d) : Box d := ⟨c • b.center, c * b.len⟩

/-- The source in other units of length. -/
noncomputable def Source.scale (c : ℝ) (s : Source d) : Source d := ⟨c • s.pos, s.q⟩

namespace Sc
variable {c : ℝ}

theorem lower (b : Box d) (i : Fin d) : (b.scale c).lower i = c * b.lower i := by
  rw [Box.lower_apply, Box.lower_apply]; simp [Box.scale]; ring

theorem upper (b : Box d) (i : Fin d) : (b.scale c).upper i = c * b.upper i := by
  rw [Box.upper_apply, Box.upper_apply]; simp [Box.scale]; ring

theorem child (b : Box d) (i : ℕ) : (b.scale c).child i = (b.child i).scale c := by
  unfold Box.child Box.scale
  simp only [Box.mk.injEq]
  constructor
  · rw [smul_add, smul_smul]; congr 2; ring
  · ring

theorem boxAt (r : Box d) : ∀ π, FMM.boxAt (r.scale c) π = (FMM.boxAt r π).scale c
  | [] => rfl
  | i :: π => by simp only [FMM.boxAt]; rw [boxAt r π, child]

theorem getOrthant (hc : 0 < c) (a x : Vec d) : FMM.getOrthant (c • a) (c • x) = FMM.getOrthant a x := by
  unfold FMM.getOrthant
  congr 1
  funext o i
  have : (c • x) i ≥ (c • a) i ↔ x i ≥ a i := by
    simp only [Pi.smul_apply, smul_eq_mul, ge_iff_le]
    exact mul_le_mul_iff_right₀ hc
  simp only [this]

theorem route (hc : 0 < c) (r : Box d) (x : Vec d) : ∀ k, FMM.route (r.scale c) (c • x) k = FMM.route r x k
  | 0 => rfl
  | k + 1 => by
    simp only [FMM.route]
    rw [route hc r x k, boxAt]
    exact congrArg (· :: _) (getOrthant hc _ _)

theorem adjacent (hc : 0 < c) (a b : Box d) : (a.scale c).adjacent (b.scale c) ↔ a.adjacent b := by
  unfold Box.adjacent
  refine forall_congr' fun i => not_congr (or_congr ?_ ?_)
  all_goals
    simp only [Pi.sub_apply, lower, upper, Vec.fill]
    have : min (a.scale c).len (b.scale c).len = c * min a.len b.len := by
      simp only [Box.scale]; rw [mul_min_of_nonneg _ _ hc.le]
    rw [this, gt_iff_lt, gt_iff_lt]
  · rw [show c * b.lower i - c * a.upper i - c * min a.len b.len / 2 = c * (b.lower i - a.upper i - min a.len b.len / 2) by ring]
    exact mul_pos_iff_of_pos_left hc
  · rw [show c * a.lower i - c * b.upper i - c * min a.len b.len / 2 = c * (a.lower i - b.upper i - min a.len b.len / 2) by ring]
    exact mul_pos_iff_of_pos_left hc

theorem contains (hc : 0 < c) (b : Box d) (x : Vec d) : (b.scale c).contains (c • x) ↔ b.contains x := by
  unfold Box.contains
  refine forall_congr' fun i => not_congr (or_congr ?_ ?_)
  · rw [lower, Pi.smul_apply, smul_eq_mul]; exact mul_lt_mul_iff_right₀ hc
  · rw [upper, Pi.smul_apply, smul_eq_mul]; exact mul_lt_mul_iff_right₀ hc

theorem containsHO (hc : 0 < c) (b : Box d) (x : Vec d) : (b.scale c).containsHO (c • x) ↔ b.containsHO x := by
  unfold Box.containsHO
  refine forall_congr' fun i => and_congr ?_ ?_
  · rw [lower, Pi.smul_apply, smul_eq_mul]; exact mul_le_mul_iff_right₀ hc
  · rw [upper, Pi.smul_apply, smul_eq_mul]; exact mul_lt_mul_iff_right₀ hc

theorem smul_inj (hc : 0 < c) {x y : Vec d} : c • x = c • y ↔ x = y := smul_right_injective _ hc.ne' |>.eq_iff

/-! ## Root box -/

theorem foldl_lower (hc : 0 < c) (i : Fin d) : ∀ (ps : List (Vec d)) (a : Option ℝ),
    (ps.map (c • ·)).foldl (fun acc p => lowerStep acc (p i)) (a.map (c * ·)) = (ps.foldl (fun acc p => lowerStep acc (p i)) a).map (c * ·)
  | [], _ => rfl
  | p :: ps, a => by
    rw [List.map_cons, List.foldl_cons, List.foldl_cons, ← foldl_lower hc i ps]
    congr 1
    cases a with
    | none => rfl
    | some a => rw [Option.map_some, Lin.lowerStep_some, Lin.lowerStep_some, Option.map_some, mul_min_of_nonneg _ _ hc.le]; rfl

theorem foldl_upper (hc : 0 < c) (i : Fin d) : ∀ (ps : List (Vec d)) (a : Option ℝ),
    (ps.map (c • ·)).foldl (fun acc p => upperStep acc (p i)) (a.map (c * ·)) = (ps.foldl (fun acc p => upperStep acc (p i)) a).map (c * ·)
  | [], _ => rfl
  | p :: ps, a => by
    rw [List.map_cons, List.foldl_cons, List.foldl_cons, ← foldl_upper hc i ps]
    congr 1
    cases a with
    | none => rfl
    | some a => rw [Option.map_some, Lin.upperStep_some, Lin.upperStep_some, Option.map_some, mul_max_of_nonneg _ _ hc.le]; rfl

theorem getD_map (c : ℝ) (a : Option ℝ) : (a.map (c * ·)).getD 0 = c * a.getD 0 := by cases a <;> simp

theorem maxElement (hc : 0 < c) (l : List ℝ) : FMM.maxElement (l.map (c * ·)) = c * FMM.maxElement l := by
  cases l with
  | nil => simp [FMM.maxElement]
  | cons a l =>
    simp only [FMM.maxElement, List.map_cons]
    induction l generalizing a with
    | nil => rfl
    | cons b l ih =>
      simp only [List.map_cons, List.foldl_cons]
      rw [← mul_max_of_nonneg _ _ hc.le]; exact ih _

theorem rootBox (hc : 0 < c) (ps : List (Vec d)) : FMM.rootBox (ps.map (c • ·)) = (FMM.rootBox ps).map (Box.scale c) := by
  unfold FMM.rootBox getDataRange
  by_cases h : ps = []
  · subst h; rfl
  · rw [if_neg h, if_neg (by simpa using h)]
    have e1 : (fun i => (rawLower (ps.map (c • ·)) i).getD 0) = c • fun i => (rawLower ps i).getD 0 := by
      funext i
      show _ = c * _
      rw [← getD_map, rawLower, rawLower, ← foldl_lower hc]
      rfl
    have e2 : (fun i => (rawUpper (ps.map (c • ·)) i).getD 0) = c • fun i => (rawUpper ps i).getD 0 := by
      funext i
      show _ = c * _
      rw [← getD_map, rawUpper, rawUpper, ← foldl_upper hc]
      rfl
    rw [e1, e2]
    set lo := fun i => (rawLower ps i).getD 0
    set hi := fun i => (rawUpper ps i).getD 0
    simp only [Option.map_some, Option.some.injEq]
    unfold rootBoxOf Box.scale
    simp only [Box.mk.injEq]
    constructor
    · ext i
      simp only [Pi.sub_apply, Pi.add_apply, Pi.smul_apply, smul_eq_mul]
      ring
    · rw [← maxElement hc, List.map_map]
      refine congrArg FMM.maxElement (List.map_congr_left fun i _ => ?_)
      simp only [Function.comp_apply, Pi.sub_apply, Pi.add_apply, Pi.smul_apply, smul_eq_mul]
      ring

/-! ## Trees -/

theorem map_pos (S : List (Source d)) : (S.map (Source.scale c)).map Source.pos = (S.map Source.pos).map (c • ·) := by
  rw [List.map_map, List.map_map]; rfl

theorem itemsAt (hc : 0 < c) (r : Box d) (S : List (Source d)) (π : Path) :
    FMM.itemsAt Source.pos (r.scale c) (S.map (Source.scale c)) π = (FMM.itemsAt Source.pos r S π).map (Source.scale c) := by
  unfold FMM.itemsAt
  rw [List.filter_map]
  congr 2
  funext s
  simp only [Function.comp_apply]
  rw [show (s.scale c).pos = c • s.pos from rfl, route hc]

theorem fmmTree (hc : 0 < c) (r : Box d) (S : List (Source d)) (max : ℕ) :
    FMM.fmmTree Source.pos (r.scale c) (S.map (Source.scale c)) max = FMM.fmmTree Source.pos r S max := by
  unfold FMM.fmmTree
  congr 1
  · funext π; rw [itemsAt hc, List.length_map]
  · funext π ρ; simp only [boxAt, adjacent hc]

theorem adaptiveTree (hc : 0 < c) (r : Box d) (S : List (Source d)) (max : ℕ) :
    FMM.adaptiveTree Source.pos (r.scale c) (S.map (Source.scale c)) max = FMM.adaptiveTree Source.pos r S max := by
  unfold FMM.adaptiveTree
  congr 1
  · funext π; rw [itemsAt hc, List.length_map]
  · funext π ρ; simp only [boxAt, adjacent hc]

theorem fullTree (hc : 0 < c) (r : Box d) (h : ℕ) : FMM.fullTree (r.scale c) h = FMM.fullTree r h := by
  unfold FMM.fullTree
  congr 1
  funext π ρ; simp only [boxAt, adjacent hc]

theorem nodeLevel (hc : 0 < c) (r : Box d) (S : List (Source d)) (max : ℕ) :
    ∀ k, FMM.nodeLevel Source.pos (r.scale c) (S.map (Source.scale c)) max k = FMM.nodeLevel Source.pos r S max k
  | 0 => rfl
  | k + 1 => by simp only [FMM.nodeLevel]; rw [nodeLevel hc r S max k, adaptiveTree hc]

theorem isHeight (hc : 0 < c) {r : Box d} {S : List (Source d)} {max n : ℕ} (hh : IsHeight Source.pos r S max n) :
    IsHeight Source.pos (r.scale c) (S.map (Source.scale c)) max n :=
  ⟨hh.1, by rw [nodeLevel hc]; exact hh.2.1, fun j h1 h2 => by rw [nodeLevel hc]; exact hh.2.2 j h1 h2⟩

theorem adaptiveInput (hc : 0 < c) {r : Box d} {S : List (Source d)} {max : ℕ} (hI : AdaptiveInput S max r) :
    AdaptiveInput (S.map (Source.scale c)) max (r.scale c) where
  box := by rw [map_pos, rootBox hc, hI.box]; rfl
  inside := by
    intro s hs
    obtain ⟨s0, h0, rfl⟩ := List.mem_map.mp hs
    exact (contains hc _ _).mpr (hI.inside s0 h0)
  mult := by
    intro x
    rw [List.filter_map, List.length_map]
    convert hI.mult (c⁻¹ • x) using 4 with s
    simp only [Function.comp_apply]
    rw [show (s.scale c).pos = c • s.pos from rfl, decide_eq_decide, eq_inv_smul_iff₀ hc.ne']

theorem balancedInput (hc : 0 < c) {r : Box d} {S : List (Source d)} {perCell h : ℕ} (hI : BalancedInput S perCell r h) :
    BalancedInput (S.map (Source.scale c)) perCell (r.scale c) h where
  box := by rw [map_pos, rootBox hc, hI.box]; rfl
  inside := by
    intro s hs
    obtain ⟨s0, h0, rfl⟩ := List.mem_map.mp hs
    exact (containsHO hc _ _).mpr (hI.inside s0 h0)
  height := by rw [List.length_map]; exact hI.height
  small := hI.small

theorem totalStrength (S : List (Source d)) : FMM.totalStrength (S.map (Source.scale c)) = FMM.totalStrength S := by
  rw [totalStrength_eq, totalStrength_eq, List.map_map]; rfl

end Sc
end FMM
