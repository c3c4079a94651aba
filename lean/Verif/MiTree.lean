import Verif.AxLaws
import Verif.Example2D

/-!
# Reflections of axes: boxes and trees

A reflection of some axes permutes the child indices of a box.  A point on the common boundary of two boxes belongs to the upper one, so that the
reflected tree is the old one with renamed nodes only for sources off the boundaries of boxes.
-/

namespace FMM
variable {d : ℕ}

/-- The vector with the signs `e` of the coordinates. -/
def mV (e : Fin d → ℝ) (v : Vec d) : Vec d := fun i => e i * v i

/-- `e` consists of signs. -/
def Signs (e : Fin d → ℝ) : Prop := ∀ i, e i = 1 ∨ e i = -1

/-- The reflected box. -/
def Box.mi (e : Fin d → ℝ) (b : Box d) : Box d := ⟨mV e b.center, b.len⟩

/-- The reflected source. -/
def Source.mi (e : Fin d → ℝ) (s : Source d) : Source d := ⟨mV e s.pos, s.q⟩

/-- `x` is on no face of a box of a tree with root box `r`, whatever its depth. -/
def OffFaces (r : Box d) (x : Vec d) : Prop := ∀ (i : Fin d) (k m : ℕ), x i ≠ r.lower i + m * (r.len / 2 ^ k)

namespace Mi
open Ax (TIso)
variable {e : Fin d → ℝ}

theorem sq (he : Signs e) (i : Fin d) : e i * e i = 1 := by rcases he i with h | h <;> rw [h] <;> norm_num

theorem mV_mV (he : Signs e) (v : Vec d) : mV e (mV e v) = v := by
  funext i; simp only [mV]; rw [← mul_assoc, sq he, one_mul]

theorem mV_inj (he : Signs e) {v w : Vec d} : mV e v = mV e w ↔ v = w :=
  ⟨fun h => by rw [← mV_mV he v, h, mV_mV he], fun h => by rw [h]⟩

/-- The reflected child index. -/
noncomputable def po (e : Fin d → ℝ) (j : ℕ) : ℕ := FMM.getOrthant (0 : Vec d) (mV e (childDir d j))

theorem po_lt (j : ℕ) : po e j < 2 ^ d := getOrthant_lt _ _

theorem childDir_po (he : Signs e) (j : ℕ) : childDir d (po e j) = mV e (childDir d j) := by
  funext i
  unfold po
  rw [childDir_getOrthant]
  show (if (0 : ℝ) ≤ e i * childDir d j i then (1 : ℝ) else -1) = e i * childDir d j i
  rcases childDir_eq (d := d) j i with h | h <;> rcases he i with h' | h' <;> rw [h, h'] <;> norm_num

theorem po_po (he : Signs e) {j : ℕ} (hj : j < 2 ^ d) : po e (po e j) = j :=
  C01_directions_injective _ _ (po_lt _) hj (by rw [childDir_po he, childDir_po he, mV_mV he])

theorem getOrthant (he : Signs e) {a x : Vec d} (hx : ∀ i, x i ≠ a i) : FMM.getOrthant (mV e a) (mV e x) = po e (FMM.getOrthant a x) := by
  refine C01_directions_injective _ _ (getOrthant_lt _ _) (po_lt _) ?_
  rw [childDir_po he]
  funext i
  rw [childDir_getOrthant]
  show _ = e i * childDir d (FMM.getOrthant a x) i
  rw [childDir_getOrthant]
  show (if e i * a i ≤ e i * x i then (1 : ℝ) else -1) = e i * if a i ≤ x i then (1 : ℝ) else -1
  rcases he i with h | h <;> rw [h]
  · simp
  · rcases lt_or_gt_of_ne (hx i) with h' | h'
    · rw [if_pos (by linarith), if_neg (by linarith)]; norm_num
    · rw [if_neg (by linarith), if_pos (by linarith)]; norm_num

/-- The reflected node. -/
noncomputable def pm (e : Fin d → ℝ) (π : Path) : Path := List.map (po e) π

theorem pm_length (π : Path) : (pm e π).length = π.length := List.length_map ..

theorem pm_pm (he : Signs e) {π : Path} (h : ∀ i ∈ π, i < 2 ^ d) : pm e (pm e π) = π := by
  unfold pm
  rw [List.map_map]
  conv_rhs => rw [← List.map_id π]
  exact List.map_congr_left fun i hi => po_po he (h i hi)

theorem child (he : Signs e) (b : Box d) (j : ℕ) : (b.mi e).child (po e j) = (b.child j).mi e := by
  unfold Box.child Box.mi
  rw [childDir_po he]
  simp only [Box.mk.injEq, and_true]
  funext i
  simp only [mV, Pi.add_apply, Pi.smul_apply, smul_eq_mul]
  ring

theorem boxAt (he : Signs e) (r : Box d) : ∀ π, FMM.boxAt (r.mi e) (pm e π) = (FMM.boxAt r π).mi e
  | [] => rfl
  | i :: π => by
    show (FMM.boxAt (r.mi e) (pm e π)).child (po e i) = _
    rw [boxAt he r π, child he]; rfl

theorem mi_mi (he : Signs e) (r : Box d) : (r.mi e).mi e = r := by
  unfold Box.mi; simp only [mV_mV he]

theorem boxAt_mi (he : Signs e) (r : Box d) (π : Path) : FMM.boxAt (r.mi e) π = (FMM.boxAt r (pm e π)).mi e := by
  have := boxAt he (r.mi e) π
  rw [mi_mi he] at this
  rw [this, mi_mi he]

theorem center_ne {r : Box d} {x : Vec d} (h : OffFaces r x) (π : Path) (i : Fin d) : x i ≠ (FMM.boxAt r π).center i := by
  rw [boxAt_center]
  have := h i (π.length + 1) (2 * grid d π i + 1)
  intro h'
  apply this
  rw [h']
  push_cast
  rw [pow_succ]
  have : (2 : ℝ) ^ π.length ≠ 0 := by positivity
  field_simp

theorem route (he : Signs e) {r : Box d} {x : Vec d} (hx : OffFaces r x) : ∀ k, FMM.route (r.mi e) (mV e x) k = pm e (FMM.route r x k)
  | 0 => rfl
  | k + 1 => by
    simp only [FMM.route]
    rw [route he hx k, boxAt he]
    exact congrArg (· :: _) (getOrthant he (center_ne hx _))

theorem route_iff (he : Signs e) {r : Box d} {x : Vec d} (hx : OffFaces r x) {π : Path} (h : ∀ i ∈ π, i < 2 ^ d) :
    FMM.route (r.mi e) (mV e x) (pm e π).length = pm e π ↔ FMM.route r x π.length = π := by
  rw [route he hx, pm_length]
  constructor
  · intro h'
    rw [← pm_pm he h, ← h', pm_pm he (route_valid r x _), route_length]
  · intro h'; rw [h']

theorem adjacent (he : Signs e) (a b : Box d) : (a.mi e).adjacent (b.mi e) ↔ a.adjacent b := by
  unfold Box.adjacent
  refine forall_congr' fun i => ?_
  simp only [Pi.sub_apply, Box.lower_apply, Box.upper_apply, Vec.fill, Box.mi, mV]
  rcases he i with h | h <;> rw [h]
  · simp
  · refine not_congr ⟨?_, ?_⟩ <;> rintro (h | h) <;> first | exact Or.inr (by linarith) | exact Or.inl (by linarith)

theorem contains (he : Signs e) (b : Box d) (x : Vec d) : (b.mi e).contains (mV e x) ↔ b.contains x := by
  rw [Box.contains_iff, Box.contains_iff]
  refine forall_congr' fun i => ?_
  simp only [Box.mi, mV]
  rcases he i with h | h <;> rw [h]
  · simp
  · constructor <;> rintro ⟨h1, h2⟩ <;> constructor <;> linarith

theorem containsHO (he : Signs e) {r : Box d} {x : Vec d} (hx : OffFaces r x) (h : r.containsHO x) : (r.mi e).containsHO (mV e x) := by
  intro i
  have h1 := h i
  have h2 := hx i 0 0
  rw [Box.lower_apply, Box.upper_apply] at h1 ⊢
  rw [Box.lower_apply] at h2
  norm_num at h2
  have h3 : r.center i - r.len / 2 < x i := lt_of_le_of_ne h1.1 (Ne.symm h2)
  simp only [Box.mi, mV]
  rcases he i with h | h <;> rw [h] <;> constructor <;> linarith [h1.2]

/-! ## Root box -/

theorem rootBox {d : ℕ} {e : Fin (d + 1) → ℝ} (he : Signs e) {ps : List (Vec (d + 1))} {r : Box (d + 1)} (hr : FMM.rootBox ps = some r) :
    FMM.rootBox (ps.map (mV e)) = some (r.mi e) := by
  have hps : ps ≠ [] := by rintro rfl; simp [FMM.rootBox, getDataRange] at hr
  obtain ⟨r', lo, hi, E, h1, h2, h3, h4, h5, h6, h7⟩ := rootBox_spec ps hps
  obtain rfl := Option.some.inj (h1.symm.trans hr)
  have hm : ∀ q ∈ ps.map (mV e), ∃ p ∈ ps, ∀ i, q i = e i * p i := fun q hq => by
    obtain ⟨p, hp, rfl⟩ := List.mem_map.mp hq
    exact ⟨p, hp, fun _ => rfl⟩
  have key := rootBox_eq (ps.map (mV e)) (fun i => if e i = 1 then lo i else -hi i) (fun i => if e i = 1 then hi i else -lo i) E
    (fun i => ?_) (fun i => ?_) (fun i => ?_) ?_
  · rw [key]
    congr 1
    unfold Box.mi
    rw [h6]
    congr 1
    funext i
    rw [mV, h7]
    rcases he i with h | h
    · rw [if_pos h, if_pos h, h, one_mul]
    · have : ¬ e i = 1 := by rw [h]; norm_num
      rw [if_neg this, if_neg this, h]; ring
  · rcases he i with h | h
    · rw [if_pos h]
      obtain ⟨⟨p, hp, hpi⟩, hb⟩ := h2 i
      refine ⟨⟨_, List.mem_map_of_mem hp, by rw [mV, h, one_mul, hpi]⟩, fun q hq => ?_⟩
      obtain ⟨p, hp, hq⟩ := hm q hq
      rw [hq, h, one_mul]; exact hb p hp
    · have : ¬ e i = 1 := by rw [h]; norm_num
      rw [if_neg this]
      obtain ⟨⟨p, hp, hpi⟩, hb⟩ := h3 i
      refine ⟨⟨_, List.mem_map_of_mem hp, by rw [mV, h, hpi]; ring⟩, fun q hq => ?_⟩
      obtain ⟨p, hp, hq⟩ := hm q hq
      rw [hq, h]; linarith [hb p hp]
  · rcases he i with h | h
    · rw [if_pos h]
      obtain ⟨⟨p, hp, hpi⟩, hb⟩ := h3 i
      refine ⟨⟨_, List.mem_map_of_mem hp, by rw [mV, h, one_mul, hpi]⟩, fun q hq => ?_⟩
      obtain ⟨p, hp, hq⟩ := hm q hq
      rw [hq, h, one_mul]; exact hb p hp
    · have : ¬ e i = 1 := by rw [h]; norm_num
      rw [if_neg this]
      obtain ⟨⟨p, hp, hpi⟩, hb⟩ := h2 i
      refine ⟨⟨_, List.mem_map_of_mem hp, by rw [mV, h, hpi]; ring⟩, fun q hq => ?_⟩
      obtain ⟨p, hp, hq⟩ := hm q hq
      rw [hq, h]; linarith [hb p hp]
  · have := h4 i
    by_cases h : e i = 1
    · rw [if_pos h, if_pos h]; exact this
    · rw [if_neg h, if_neg h]; linarith
  · obtain ⟨i, hi⟩ := h5
    refine ⟨i, ?_⟩
    by_cases h : e i = 1
    · rw [if_pos h, if_pos h]; exact hi
    · rw [if_neg h, if_neg h]; linarith

/-! ## The two trees -/

theorem itemsAt (he : Signs e) {r : Box d} {S : List (Source d)} (hS : ∀ s ∈ S, OffFaces r s.pos) {π : Path} (h : ∀ i ∈ π, i < 2 ^ d) :
    FMM.itemsAt Source.pos (r.mi e) (S.map (Source.mi e)) (pm e π) = (FMM.itemsAt Source.pos r S π).map (Source.mi e) := by
  unfold FMM.itemsAt
  rw [List.filter_map]
  congr 1
  refine List.filter_congr fun s hs => ?_
  simp only [Function.comp_apply]
  exact decide_eq_decide.mpr (route_iff he (hS s hs) h)

theorem fmmTree (he : Signs e) {r : Box d} {S : List (Source d)} (hS : ∀ s ∈ S, OffFaces r s.pos) (max : ℕ) :
    TIso (FMM.fmmTree Source.pos r S max) (FMM.fmmTree Source.pos (r.mi e) (S.map (Source.mi e)) max) (po e) where
  c := rfl
  lt _ _ := po_lt _
  inv _ h := po_po he h
  leaf π h := by
    have := itemsAt he hS h
    simp only [FMM.fmmTree]
    unfold pm at this
    rw [this, List.length_map]
  adj π ρ _ _ := by
    have h1 := boxAt he r π
    have h2 := boxAt he r ρ
    unfold pm at h1 h2
    simp only [FMM.fmmTree]
    rw [h1, h2]
    exact decide_eq_decide.mpr (adjacent he _ _)

theorem fullTree (he : Signs e) (r : Box d) (h : ℕ) : TIso (FMM.fullTree r h) (FMM.fullTree (r.mi e) h) (po e) where
  c := rfl
  lt _ _ := po_lt _
  inv _ h := po_po he h
  leaf π _ := by simp [FMM.fullTree]
  adj π ρ _ _ := by
    have h1 := boxAt he r π
    have h2 := boxAt he r ρ
    unfold pm at h1 h2
    simp only [FMM.fullTree]
    rw [h1, h2]
    exact decide_eq_decide.mpr (adjacent he _ _)

theorem map_pos (S : List (Source d)) : (S.map (Source.mi e)).map Source.pos = (S.map Source.pos).map (mV e) := by
  rw [List.map_map, List.map_map]; rfl

theorem adaptiveInput {d : ℕ} {e : Fin (d + 1) → ℝ} (he : Signs e) {r : Box (d + 1)} {S : List (Source (d + 1))} {max : ℕ} (hI : AdaptiveInput S max r) :
    AdaptiveInput (S.map (Source.mi e)) max (r.mi e) where
  box := by rw [map_pos]; exact rootBox he hI.box
  inside := by
    intro s hs
    obtain ⟨s0, h0, rfl⟩ := List.mem_map.mp hs
    exact (contains he _ _).mpr (hI.inside s0 h0)
  mult := by
    intro x
    rw [List.filter_map, List.length_map]
    convert hI.mult (mV e x) using 4 with s
    simp only [Function.comp_apply]
    refine decide_eq_decide.mpr ?_
    show mV e s.pos = x ↔ s.pos = mV e x
    rw [← mV_inj he, mV_mV he]

theorem balancedInput {d : ℕ} {e : Fin (d + 1) → ℝ} (he : Signs e) {r : Box (d + 1)} {S : List (Source (d + 1))} {perCell h : ℕ}
    (hS : ∀ s ∈ S, OffFaces r s.pos) (hI : BalancedInput S perCell r h) : BalancedInput (S.map (Source.mi e)) perCell (r.mi e) h where
  box := by rw [map_pos]; exact rootBox he hI.box
  inside := by
    intro s hs
    obtain ⟨s0, h0, rfl⟩ := List.mem_map.mp hs
    exact containsHO he (hS s0 h0) (hI.inside s0 h0)
  height := by rw [List.length_map]; exact hI.height
  small := hI.small

theorem totalStrength (S : List (Source d)) : FMM.totalStrength (S.map (Source.mi e)) = FMM.totalStrength S := by
  rw [totalStrength_eq, totalStrength_eq, List.map_map]; rfl

/-! ## Height and depths -/

theorem depth_unique {T : PTree} {r : Box d} {x : Vec d} {k k' : ℕ} (h1 : T.Mem (FMM.route r x k)) (h2 : T.leaf (FMM.route r x k) = true)
    (h1' : T.Mem (FMM.route r x k')) (h2' : T.leaf (FMM.route r x k') = true) : k = k' := by
  have key : ∀ {a b : ℕ}, T.leaf (FMM.route r x a) = true → T.Mem (FMM.route r x b) → ¬ a < b := by
    intro a b ha hb hab
    have : ∀ n, T.Mem (FMM.route r x (a + 1 + n)) → T.Mem (FMM.route r x (a + 1)) := by
      intro n
      induction n with
      | zero => exact id
      | succ n ih => exact fun h => ih (PTree.Mem.tail h)
    obtain ⟨n, rfl⟩ : ∃ n, b = a + 1 + n := ⟨b - (a + 1), by omega⟩
    have hp := PTree.Mem.parent_not_leaf (this n hb)
    rw [ha] at hp
    exact absurd hp (by simp)
  rcases Nat.lt_trichotomy k k' with h | h | h
  · exact absurd h (key h2 h1')
  · exact h
  · exact absurd h (key h2' h1)

theorem mem_nodeLevel_sub (he : Signs e) {r : Box d} {S : List (Source d)} (hS : ∀ s ∈ S, OffFaces r s.pos) {max : ℕ} :
    ∀ {k : ℕ} {π : Path}, π ∈ FMM.nodeLevel Source.pos r S max k → (∀ i ∈ π, i < 2 ^ d) ∧
      pm e π ∈ FMM.nodeLevel Source.pos (r.mi e) (S.map (Source.mi e)) max k
  | 0, π, h => by
    simp only [FMM.nodeLevel, List.mem_singleton] at h ⊢
    subst h
    exact ⟨by simp, rfl⟩
  | k + 1, π, h => by
    simp only [FMM.nodeLevel, List.mem_filter, List.mem_flatMap, PTree.mem_kids, Bool.not_eq_true'] at h ⊢
    obtain ⟨⟨ρ, h1, i, hi, rfl⟩, h2⟩ := h
    obtain ⟨a, b⟩ := mem_nodeLevel_sub he hS h1
    have hi' : i < 2 ^ d := hi
    have hv : ∀ j ∈ i :: ρ, j < 2 ^ d := by
      intro j hj
      rcases List.mem_cons.mp hj with rfl | hj
      · exact hi'
      · exact a j hj
    refine ⟨hv, ⟨pm e ρ, b, po e i, po_lt _, rfl⟩, ?_⟩
    simp only [FMM.adaptiveTree] at h2 ⊢
    rw [itemsAt he hS hv, List.length_map]
    simpa [pm] using h2

theorem offFaces_mi (he : Signs e) {r : Box d} {x : Vec d} (hx : OffFaces r x) (hc : r.contains x) : OffFaces (r.mi e) (mV e x) := by
  intro i k m h
  have hp : (2 : ℝ) ^ k ≠ 0 := by positivity
  rw [Box.lower_apply] at h
  simp only [Box.mi, mV] at h
  rcases he i with h' | h'
  · apply hx i k m
    rw [Box.lower_apply]
    rw [h'] at h
    linarith
  · rw [h'] at h
    by_cases hm : m ≤ 2 ^ k
    · apply hx i k (2 ^ k - m)
      rw [Box.lower_apply]
      push_cast [hm]
      have e1 : ((2 : ℝ) ^ k - m) * (r.len / 2 ^ k) = r.len - m * (r.len / 2 ^ k) := by field_simp
      rw [e1]; linarith
    · rw [Box.contains_iff] at hc
      have hc := hc i
      have hm' : (2 : ℝ) ^ k ≤ m := by exact_mod_cast (not_le.mp hm).le
      have hl : 0 ≤ r.len := by linarith [hc.1, hc.2]
      have e2 : r.len ≤ m * (r.len / 2 ^ k) := by
        have h3 : (2 : ℝ) ^ k * (r.len / 2 ^ k) = r.len := by field_simp
        have h4 : 0 ≤ r.len / 2 ^ k := by positivity
        nlinarith
      apply hx i 0 0
      rw [Box.lower_apply]
      norm_num
      linarith [hc.1]

theorem map_mi_mi (he : Signs e) (S : List (Source d)) : (S.map (Source.mi e)).map (Source.mi e) = S := by
  rw [List.map_map]
  conv_rhs => rw [← List.map_id S]
  refine List.map_congr_left fun s _ => ?_
  simp only [Function.comp_apply, Source.mi, mV_mV he, id]

theorem nodeLevel_nil (he : Signs e) {r : Box d} {S : List (Source d)} (hS : ∀ s ∈ S, OffFaces r s.pos) (hc : ∀ s ∈ S, r.contains s.pos) {max : ℕ} (k : ℕ) :
    FMM.nodeLevel Source.pos (r.mi e) (S.map (Source.mi e)) max k = [] ↔ FMM.nodeLevel Source.pos r S max k = [] := by
  have key : ∀ (r : Box d) (S : List (Source d)), (∀ s ∈ S, OffFaces r s.pos) → FMM.nodeLevel Source.pos (r.mi e) (S.map (Source.mi e)) max k = [] →
      FMM.nodeLevel Source.pos r S max k = [] := fun r S hS h => by
    rw [List.eq_nil_iff_forall_not_mem]
    intro π hπ
    have := (mem_nodeLevel_sub he hS hπ).2
    rw [h] at this
    simp at this
  refine ⟨key r S hS, fun h => key _ _ (fun s hs => ?_) ?_⟩
  · obtain ⟨s0, h0, rfl⟩ := List.mem_map.mp hs
    exact offFaces_mi he (hS s0 h0) (hc s0 h0)
  · rw [mi_mi he, map_mi_mi he]
    exact h

theorem isHeight (he : Signs e) {r : Box d} {S : List (Source d)} (hS : ∀ s ∈ S, OffFaces r s.pos) (hc : ∀ s ∈ S, r.contains s.pos) {max n : ℕ}
    (hh : IsHeight Source.pos r S max n) : IsHeight Source.pos (r.mi e) (S.map (Source.mi e)) max n :=
  ⟨hh.1, (nodeLevel_nil he hS hc n).mpr hh.2.1, fun j h1 h2 h => hh.2.2 j h1 h2 ((nodeLevel_nil he hS hc j).mp h)⟩

end Mi
end FMM
