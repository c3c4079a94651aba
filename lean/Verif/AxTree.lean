import Verif.LinScaleTree
import Verif.PropsGeometry

/-!
# Exchange of coordinate axes: boxes and trees

An exchange `σ` of axes permutes the child indices of a box.  The tree of the exchanged sources is the old one with renamed nodes.
-/

namespace FMM
variable {d : ℕ}

/-- The vector with exchanged coordinates. -/
def axV (σ : Fin d → Fin d) (v : Vec d) : Vec d := fun i => v (σ i)

/-- The box with exchanged axes. -/
def Box.ax (σ : Fin d → Fin d) (b : Box d) : Box d := ⟨axV σ b.center, b.len⟩

/-- The source with exchanged coordinates. -/
def Source.ax (σ : Fin d → Fin d) (s : Source d) : Source d := ⟨axV σ s.pos, s.q⟩

namespace Ax
variable {σ : Fin d → Fin d}

theorem axV_axV (hσ : Function.Involutive σ) (v : Vec d) : axV σ (axV σ v) = v := by
  funext i; simp only [axV, hσ i]

theorem axV_inj (hσ : Function.Involutive σ) {v w : Vec d} : axV σ v = axV σ w ↔ v = w :=
  ⟨fun h => by rw [← axV_axV hσ v, h, axV_axV hσ], fun h => by rw [h]⟩

/-- The child index with exchanged axes. -/
noncomputable def po (σ : Fin d → Fin d) (j : ℕ) : ℕ := FMM.getOrthant (0 : Vec d) (axV σ (childDir d j))

theorem po_lt (j : ℕ) : po σ j < 2 ^ d := getOrthant_lt _ _

theorem childDir_po (j : ℕ) : childDir d (po σ j) = axV σ (childDir d j) := by
  funext i
  unfold po
  rw [childDir_getOrthant]
  show (if (0 : ℝ) ≤ childDir d j (σ i) then (1 : ℝ) else -1) = childDir d j (σ i)
  rcases childDir_eq (d := d) j (σ i) with h | h <;> rw [h] <;> norm_num

theorem po_po (hσ : Function.Involutive σ) {j : ℕ} (hj : j < 2 ^ d) : po σ (po σ j) = j :=
  C01_directions_injective _ _ (po_lt _) hj (by rw [childDir_po, childDir_po, axV_axV hσ])

theorem getOrthant (a x : Vec d) : FMM.getOrthant (axV σ a) (axV σ x) = po σ (FMM.getOrthant a x) := by
  refine C01_directions_injective _ _ (getOrthant_lt _ _) (po_lt _) ?_
  rw [childDir_po]
  funext i
  rw [childDir_getOrthant]
  show _ = childDir d (FMM.getOrthant a x) (σ i)
  rw [childDir_getOrthant]
  rfl

/-- The node with exchanged axes. -/
noncomputable def pm (σ : Fin d → Fin d) (π : Path) : Path := List.map (po σ) π

theorem pm_length (π : Path) : (pm σ π).length = π.length := List.length_map ..

theorem pm_pm (hσ : Function.Involutive σ) {π : Path} (h : ∀ i ∈ π, i < 2 ^ d) : pm σ (pm σ π) = π := by
  unfold pm
  rw [List.map_map]
  conv_rhs => rw [← List.map_id π]
  exact List.map_congr_left fun i hi => po_po hσ (h i hi)

theorem pm_valid (π : Path) : ∀ i ∈ pm σ π, i < 2 ^ d := by
  intro i hi
  obtain ⟨j, -, rfl⟩ := List.mem_map.mp hi
  exact po_lt _

theorem child (b : Box d) (j : ℕ) : (b.ax σ).child (po σ j) = (b.child j).ax σ := by
  unfold Box.child Box.ax
  rw [childDir_po]
  rfl

theorem boxAt (r : Box d) : ∀ π, FMM.boxAt (r.ax σ) (pm σ π) = (FMM.boxAt r π).ax σ
  | [] => rfl
  | i :: π => by
    show (FMM.boxAt (r.ax σ) (pm σ π)).child (po σ i) = _
    rw [boxAt r π, child]; rfl

theorem boxAt_ax (hσ : Function.Involutive σ) (r : Box d) : ∀ π, FMM.boxAt (r.ax σ) π = (FMM.boxAt r (pm σ π)).ax σ
  | [] => rfl
  | i :: π => by
    show (FMM.boxAt (r.ax σ) π).child i = ((FMM.boxAt r (pm σ π)).child (po σ i)).ax σ
    rw [boxAt_ax hσ r π]
    unfold Box.child Box.ax
    rw [childDir_po]
    simp only [Box.mk.injEq, and_true]
    funext k
    show _ = _ + _ * childDir d i (σ (σ k))
    rw [hσ k]
    rfl

theorem route (r : Box d) (x : Vec d) : ∀ k, FMM.route (r.ax σ) (axV σ x) k = pm σ (FMM.route r x k)
  | 0 => rfl
  | k + 1 => by
    simp only [FMM.route]
    rw [route r x k, boxAt]
    exact congrArg (· :: _) (getOrthant _ _)

theorem route_iff (hσ : Function.Involutive σ) (r : Box d) (x : Vec d) {π : Path} (h : ∀ i ∈ π, i < 2 ^ d) :
    FMM.route (r.ax σ) (axV σ x) (pm σ π).length = pm σ π ↔ FMM.route r x π.length = π := by
  rw [route, pm_length]
  constructor
  · intro e
    rw [← pm_pm hσ h, ← e, pm_pm hσ (route_valid r x _), route_length]
  · intro e; rw [e]

theorem lower (b : Box d) (i : Fin d) : (b.ax σ).lower i = b.lower (σ i) := by
  rw [Box.lower_apply, Box.lower_apply]; rfl

theorem upper (b : Box d) (i : Fin d) : (b.ax σ).upper i = b.upper (σ i) := by
  rw [Box.upper_apply, Box.upper_apply]; rfl

theorem adjacent (hσ : Function.Involutive σ) (a b : Box d) : (a.ax σ).adjacent (b.ax σ) ↔ a.adjacent b := by
  unfold Box.adjacent
  conv_rhs => rw [hσ.surjective.forall]
  refine forall_congr' fun i => ?_
  simp only [Pi.sub_apply, lower, upper, Vec.fill]
  rfl

theorem contains (hσ : Function.Involutive σ) (b : Box d) (x : Vec d) : (b.ax σ).contains (axV σ x) ↔ b.contains x := by
  unfold Box.contains
  conv_rhs => rw [hσ.surjective.forall]
  refine forall_congr' fun i => ?_
  rw [lower, upper]
  rfl

theorem containsHO (hσ : Function.Involutive σ) (b : Box d) (x : Vec d) : (b.ax σ).containsHO (axV σ x) ↔ b.containsHO x := by
  unfold Box.containsHO
  conv_rhs => rw [hσ.surjective.forall]
  refine forall_congr' fun i => ?_
  rw [lower, upper]
  rfl

/-! ## Root box -/

theorem maxElement (hσ : Function.Involutive σ) (f : Fin d → ℝ) :
    FMM.maxElement ((List.finRange d).map fun i => f (σ i)) = FMM.maxElement ((List.finRange d).map f) := by
  cases d with
  | zero => rfl
  | succ d =>
    obtain ⟨a1, a2⟩ := maxElement_spec ((List.finRange (d + 1)).map fun i => f (σ i)) (by simp)
    obtain ⟨b1, b2⟩ := maxElement_spec ((List.finRange (d + 1)).map f) (by simp)
    refine le_antisymm (b2 _ ?_) (a2 _ ?_)
    · obtain ⟨i, -, h⟩ := List.mem_map.mp a1
      exact List.mem_map.mpr ⟨σ i, List.mem_finRange _, h⟩
    · obtain ⟨i, -, h⟩ := List.mem_map.mp b1
      exact List.mem_map.mpr ⟨σ i, List.mem_finRange _, by rw [hσ i]; exact h⟩

theorem rootBox (hσ : Function.Involutive σ) (ps : List (Vec d)) : FMM.rootBox (ps.map (axV σ)) = (FMM.rootBox ps).map (Box.ax σ) := by
  unfold FMM.rootBox getDataRange
  by_cases h : ps = []
  · subst h; rfl
  · rw [if_neg h, if_neg (by simpa using h)]
    have e1 : ∀ i, rawLower (ps.map (axV σ)) i = rawLower ps (σ i) := fun i => by unfold rawLower; rw [List.foldl_map]; rfl
    have e2 : ∀ i, rawUpper (ps.map (axV σ)) i = rawUpper ps (σ i) := fun i => by unfold rawUpper; rw [List.foldl_map]; rfl
    simp only [e1, e2, Option.map_some, Option.some.injEq]
    unfold rootBoxOf Box.ax
    simp only [Box.mk.injEq]
    constructor
    · rfl
    · exact maxElement hσ fun i => ((fun i => (rawUpper ps i).getD 0) + paddingFactor • (fun i => (rawUpper ps i).getD 0)
        - ((fun i => (rawLower ps i).getD 0) + paddingFactor • (fun i => (rawLower ps i).getD 0)) : Vec d) i

/-! ## Trees with renamed nodes -/

/-- `T'` is `T` with child indices renamed by the involution `f`. -/
structure TIso (T T' : PTree) (f : ℕ → ℕ) : Prop where
  c : T'.c = T.c
  lt : ∀ i < T.c, f i < T.c
  inv : ∀ i < T.c, f (f i) = i
  leaf : ∀ π : Path, (∀ i ∈ π, i < T.c) → T'.leaf (π.map f) = T.leaf π
  adj : ∀ π ρ : Path, (∀ i ∈ π, i < T.c) → (∀ i ∈ ρ, i < T.c) → T'.adj (π.map f) (ρ.map f) = T.adj π ρ

namespace TIso
variable {T T' : PTree} {f : ℕ → ℕ}

theorem valid (H : TIso T T' f) {π : Path} (h : ∀ i ∈ π, i < T.c) : ∀ i ∈ π.map f, i < T.c := by
  intro i hi
  obtain ⟨j, hj, rfl⟩ := List.mem_map.mp hi
  exact H.lt j (h j hj)

theorem map_map (H : TIso T T' f) {π : Path} (h : ∀ i ∈ π, i < T.c) : (π.map f).map f = π := by
  rw [List.map_map]
  conv_rhs => rw [← List.map_id π]
  exact List.map_congr_left fun i hi => H.inv i (h i hi)

theorem symm (H : TIso T T' f) : TIso T' T f where
  c := H.c.symm
  lt := by rw [H.c]; exact H.lt
  inv := by rw [H.c]; exact H.inv
  leaf := by
    rw [H.c]
    intro π h
    rw [← H.leaf _ (H.valid h), H.map_map h]
  adj := by
    rw [H.c]
    intro π ρ h h'
    rw [← H.adj _ _ (H.valid h) (H.valid h'), H.map_map h, H.map_map h']

theorem mem (H : TIso T T' f) : ∀ {π : Path}, T.Mem π → T'.Mem (π.map f)
  | [], _ => ⟨by simp, by simp⟩
  | i :: π, h => PTree.Mem.cons (H.mem h.tail) (by rw [H.leaf π h.tail.1]; exact h.parent_not_leaf) (by rw [H.c]; exact H.lt i h.lt)

theorem perm (H : TIso T T' f) {l l' : List Path} (hl : l.Nodup) (hl' : l'.Nodup) (hm : ∀ ρ ∈ l, T.Mem ρ) (hm' : ∀ ρ ∈ l', T'.Mem ρ)
    (h1 : ∀ ρ ∈ l, ρ.map f ∈ l') (h2 : ∀ ρ ∈ l', ρ.map f ∈ l) : l'.Perm (l.map (List.map f)) := by
  refine (List.perm_ext_iff_of_nodup hl' ((List.nodup_map_iff_inj_on hl).mpr ?_)).mpr fun ρ => ⟨fun h => ?_, fun h => ?_⟩
  · intro a ha b hb e
    rw [← H.map_map (hm a ha).1, ← H.map_map (hm b hb).1, e]
  · exact List.mem_map.mpr ⟨_, h2 ρ h, H.symm.map_map (hm' ρ h).1⟩
  · obtain ⟨a, ha, rfl⟩ := List.mem_map.mp h
    exact h1 a ha

theorem inter_sub (H : TIso T T' f) (hL : T.Laws) (hL' : T'.Laws) {π ρ : Path} (hπ : T.Mem π) (h : ρ ∈ T.inter π) : ρ.map f ∈ T'.inter (π.map f) := by
  cases π with
  | nil => simp [PTree.inter] at h
  | cons i τ =>
    obtain ⟨h1, h2, j, ν, rfl, h3, h4⟩ := (PTree.mem_inter hL hπ ρ).mp h
    refine (PTree.mem_inter hL' (H.mem hπ) _).mpr ⟨H.mem h1, ?_, f j, ν.map f, rfl, by simpa using h3, ?_⟩
    · exact (H.adj _ _ hπ.1 h1.1).trans h2
    · exact (H.adj _ _ hπ.tail.1 h1.tail.1).trans h4

theorem xl_sub (H : TIso T T' f) (hL : T.Laws) (hL' : T'.Laws) {π ρ : Path} (hπ : T.Mem π) (h : ρ ∈ T.xl π) : ρ.map f ∈ T'.xl (π.map f) := by
  cases π with
  | nil => simp [PTree.xl] at h
  | cons i τ =>
    obtain ⟨h1, h2, h3, h4, h5⟩ := (PTree.mem_xl hL hπ ρ).mp h
    refine (PTree.mem_xl hL' (H.mem hπ) _).mpr ⟨H.mem h1, (H.leaf _ h1.1).trans h2, by simpa using h3, ?_, ?_⟩
    · exact (H.adj _ _ hπ.tail.1 h1.1).trans h4
    · exact (H.adj _ _ hπ.1 h1.1).trans h5

theorem inter_mem (hL : T.Laws) {π ρ : Path} (hπ : T.Mem π) (h : ρ ∈ T.inter π) : T.Mem ρ := by
  cases π with
  | nil => simp [PTree.inter] at h
  | cons i τ => exact ((PTree.mem_inter hL hπ ρ).mp h).1

theorem xl_mem (hL : T.Laws) {π ρ : Path} (hπ : T.Mem π) (h : ρ ∈ T.xl π) : T.Mem ρ := by
  cases π with
  | nil => simp [PTree.xl] at h
  | cons i τ => exact ((PTree.mem_xl hL hπ ρ).mp h).1

theorem inter (H : TIso T T' f) (hL : T.Laws) (hL' : T'.Laws) {π : Path} (hπ : T.Mem π) :
    (T'.inter (π.map f)).Perm ((T.inter π).map (List.map f)) :=
  H.perm (PTree.nodup_inter hL hπ) (PTree.nodup_inter hL' (H.mem hπ)) (fun _ => inter_mem hL hπ) (fun _ => inter_mem hL' (H.mem hπ))
    (fun _ => H.inter_sub hL hL' hπ) fun ρ h => by
      have := H.symm.inter_sub hL' hL (H.mem hπ) h
      rwa [H.map_map hπ.1] at this

theorem xl (H : TIso T T' f) (hL : T.Laws) (hL' : T'.Laws) {π : Path} (hπ : T.Mem π) :
    (T'.xl (π.map f)).Perm ((T.xl π).map (List.map f)) :=
  H.perm (PTree.nodup_xl hL hπ) (PTree.nodup_xl hL' (H.mem hπ)) (fun _ => xl_mem hL hπ) (fun _ => xl_mem hL' (H.mem hπ))
    (fun _ => H.xl_sub hL hL' hπ) fun ρ h => by
      have := H.symm.xl_sub hL' hL (H.mem hπ) h
      rwa [H.map_map hπ.1] at this

variable {n n' : ℕ} (hh : ∀ π, T.Mem π → π.length < n) (hh' : ∀ π, T'.Mem π → π.length < n')
include hh hh'

theorem near (H : TIso T T' f) (hL : T.Laws) (hL' : T'.Laws) {π : Path} (hπ : T.Mem π) (hl : T.leaf π = true) :
    ((T'.nbhAfter (T'.order n')).near (π.map f)).Perm (((T.nbhAfter (T.order n)).near π).map (List.map f)) := by
  have hl' : T'.leaf (π.map f) = true := (H.leaf _ hπ.1).trans hl
  refine H.perm (PTree.nodup_near_leaf hL hh hπ) (PTree.nodup_near_leaf hL' hh' (H.mem hπ)) (fun ρ h => ((PTree.mem_near_leaf hL hh hπ hl ρ).mp h).1)
    (fun ρ h => ((PTree.mem_near_leaf hL' hh' (H.mem hπ) hl' ρ).mp h).1) (fun ρ h => ?_) fun ρ h => ?_
  · obtain ⟨h1, h2, h3⟩ := (PTree.mem_near_leaf hL hh hπ hl ρ).mp h
    exact (PTree.mem_near_leaf hL' hh' (H.mem hπ) hl' _).mpr ⟨H.mem h1, (H.leaf _ h1.1).trans h2, (H.adj _ _ hπ.1 h1.1).trans h3⟩
  · obtain ⟨h1, h2, h3⟩ := (PTree.mem_near_leaf hL' hh' (H.mem hπ) hl' ρ).mp h
    refine (PTree.mem_near_leaf hL hh hπ hl _).mpr ⟨H.symm.mem h1, (H.symm.leaf _ h1.1).trans h2, ?_⟩
    have := H.symm.adj _ _ (H.mem hπ).1 h1.1
    rw [H.map_map hπ.1] at this
    exact this.trans h3

theorem W (H : TIso T T' f) (hL : T.Laws) (hL' : T'.Laws) {π : Path} (hπ : T.Mem π) :
    ((T'.nbhAfter (T'.order n')).W (π.map f)).Perm (((T.nbhAfter (T.order n)).W π).map (List.map f)) := by
  refine H.perm (PTree.nodup_W π) (PTree.nodup_W _) (fun ρ h => ((PTree.mem_W hh π ρ).mp h).1) (fun ρ h => ((PTree.mem_W hh' _ ρ).mp h).1)
    (fun ρ h => ?_) fun ρ h => ?_
  · obtain ⟨h1, h2⟩ := (PTree.mem_W hh π ρ).mp h
    exact (PTree.mem_W hh' _ _).mpr ⟨H.mem h1, H.xl_sub hL hL' h1 h2⟩
  · obtain ⟨h1, h2⟩ := (PTree.mem_W hh' _ ρ).mp h
    refine (PTree.mem_W hh _ _).mpr ⟨H.symm.mem h1, ?_⟩
    have := H.symm.xl_sub hL' hL h1 h2
    rwa [H.map_map hπ.1] at this

end TIso

/-! ## The two trees -/

theorem itemsAt (hσ : Function.Involutive σ) (r : Box d) (S : List (Source d)) {π : Path} (h : ∀ i ∈ π, i < 2 ^ d) :
    FMM.itemsAt Source.pos (r.ax σ) (S.map (Source.ax σ)) (pm σ π) = (FMM.itemsAt Source.pos r S π).map (Source.ax σ) := by
  unfold FMM.itemsAt
  rw [List.filter_map]
  congr 1
  refine List.filter_congr fun s _ => ?_
  simp only [Function.comp_apply]
  exact decide_eq_decide.mpr (route_iff hσ r s.pos h)

theorem fmmTree (hσ : Function.Involutive σ) (r : Box d) (S : List (Source d)) (max : ℕ) :
    TIso (FMM.fmmTree Source.pos r S max) (FMM.fmmTree Source.pos (r.ax σ) (S.map (Source.ax σ)) max) (po σ) where
  c := rfl
  lt _ _ := po_lt _
  inv _ h := po_po hσ h
  leaf π h := by
    have := itemsAt hσ r S h
    simp only [FMM.fmmTree]
    unfold pm at this
    rw [this, List.length_map]
  adj π ρ _ _ := by
    have h1 := boxAt (σ := σ) r π
    have h2 := boxAt (σ := σ) r ρ
    unfold pm at h1 h2
    simp only [FMM.fmmTree]
    rw [h1, h2]
    exact decide_eq_decide.mpr (adjacent hσ _ _)

theorem fullTree (hσ : Function.Involutive σ) (r : Box d) (h : ℕ) : TIso (FMM.fullTree r h) (FMM.fullTree (r.ax σ) h) (po σ) where
  c := rfl
  lt _ _ := po_lt _
  inv _ h := po_po hσ h
  leaf π _ := by simp [FMM.fullTree]
  adj π ρ _ _ := by
    have h1 := boxAt (σ := σ) r π
    have h2 := boxAt (σ := σ) r ρ
    unfold pm at h1 h2
    simp only [FMM.fullTree]
    rw [h1, h2]
    exact decide_eq_decide.mpr (adjacent hσ _ _)

theorem map_pos (S : List (Source d)) : (S.map (Source.ax σ)).map Source.pos = (S.map Source.pos).map (axV σ) := by
  rw [List.map_map, List.map_map]; rfl

theorem adaptiveInput (hσ : Function.Involutive σ) {r : Box d} {S : List (Source d)} {max : ℕ} (hI : AdaptiveInput S max r) :
    AdaptiveInput (S.map (Source.ax σ)) max (r.ax σ) where
  box := by rw [map_pos, rootBox hσ, hI.box]; rfl
  inside := by
    intro s hs
    obtain ⟨s0, h0, rfl⟩ := List.mem_map.mp hs
    exact (contains hσ _ _).mpr (hI.inside s0 h0)
  mult := by
    intro x
    rw [List.filter_map, List.length_map]
    convert hI.mult (axV σ x) using 4 with s
    simp only [Function.comp_apply]
    refine decide_eq_decide.mpr ?_
    show axV σ s.pos = x ↔ s.pos = axV σ x
    rw [← axV_inj hσ, axV_axV hσ]

theorem balancedInput (hσ : Function.Involutive σ) {r : Box d} {S : List (Source d)} {perCell h : ℕ} (hI : BalancedInput S perCell r h) :
    BalancedInput (S.map (Source.ax σ)) perCell (r.ax σ) h where
  box := by rw [map_pos, rootBox hσ, hI.box]; rfl
  inside := by
    intro s hs
    obtain ⟨s0, h0, rfl⟩ := List.mem_map.mp hs
    exact (containsHO hσ _ _).mpr (hI.inside s0 h0)
  height := by rw [List.length_map]; exact hI.height
  small := hI.small

theorem totalStrength (S : List (Source d)) : FMM.totalStrength (S.map (Source.ax σ)) = FMM.totalStrength S := by
  rw [totalStrength_eq, totalStrength_eq, List.map_map]; rfl

/-! ## Height -/

theorem mem_nodeLevel_sub (hσ : Function.Involutive σ) {r : Box d} {S : List (Source d)} {max : ℕ} :
    ∀ {k : ℕ} {π : Path}, π ∈ FMM.nodeLevel Source.pos r S max k → (∀ i ∈ π, i < 2 ^ d) ∧
      pm σ π ∈ FMM.nodeLevel Source.pos (r.ax σ) (S.map (Source.ax σ)) max k
  | 0, π, h => by
    simp only [FMM.nodeLevel, List.mem_singleton] at h ⊢
    subst h
    exact ⟨by simp, rfl⟩
  | k + 1, π, h => by
    simp only [FMM.nodeLevel, List.mem_filter, List.mem_flatMap, PTree.mem_kids, Bool.not_eq_true'] at h ⊢
    obtain ⟨⟨ρ, h1, i, hi, rfl⟩, h2⟩ := h
    obtain ⟨a, b⟩ := mem_nodeLevel_sub hσ h1
    have hi' : i < 2 ^ d := hi
    have hv : ∀ j ∈ i :: ρ, j < 2 ^ d := by
      intro j hj
      rcases List.mem_cons.mp hj with rfl | hj
      · exact hi'
      · exact a j hj
    refine ⟨hv, ⟨pm σ ρ, b, po σ i, po_lt _, rfl⟩, ?_⟩
    simp only [FMM.adaptiveTree] at h2 ⊢
    rw [itemsAt hσ r S hv, List.length_map]
    simpa [pm] using h2

theorem ax_ax (hσ : Function.Involutive σ) (r : Box d) : (r.ax σ).ax σ = r := by
  unfold Box.ax; simp only [axV_axV hσ]

theorem map_ax_ax (hσ : Function.Involutive σ) (S : List (Source d)) : (S.map (Source.ax σ)).map (Source.ax σ) = S := by
  rw [List.map_map]
  conv_rhs => rw [← List.map_id S]
  refine List.map_congr_left fun s _ => ?_
  simp only [Function.comp_apply, Source.ax, axV_axV hσ, id]

theorem nodeLevel_nil (hσ : Function.Involutive σ) {r : Box d} {S : List (Source d)} {max : ℕ} (k : ℕ) :
    FMM.nodeLevel Source.pos (r.ax σ) (S.map (Source.ax σ)) max k = [] ↔ FMM.nodeLevel Source.pos r S max k = [] := by
  have key : ∀ (r : Box d) (S : List (Source d)), FMM.nodeLevel Source.pos (r.ax σ) (S.map (Source.ax σ)) max k = [] →
      FMM.nodeLevel Source.pos r S max k = [] := fun r S h => by
    rw [List.eq_nil_iff_forall_not_mem]
    intro π hπ
    have := (mem_nodeLevel_sub hσ hπ).2
    rw [h] at this
    simp at this
  refine ⟨key r S, fun h => key _ _ ?_⟩
  rw [ax_ax hσ, map_ax_ax hσ]
  exact h

theorem isHeight (hσ : Function.Involutive σ) {r : Box d} {S : List (Source d)} {max n : ℕ} (hh : IsHeight Source.pos r S max n) :
    IsHeight Source.pos (r.ax σ) (S.map (Source.ax σ)) max n :=
  ⟨hh.1, (nodeLevel_nil hσ n).mpr hh.2.1, fun j h1 h2 h => hh.2.2 j h1 h2 ((nodeLevel_nil hσ j).mp h)⟩

end Ax
end FMM
