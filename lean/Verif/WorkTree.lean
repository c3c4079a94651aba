import Verif.PropsLists

/-!
# How many neighbours a node can have, and how many nodes there are

Bounds of the lengths of the lists of an adaptive tree, summed over the tree: these depend on the dimension, on the number of sources and on the
number of sources per leaf, and not on where the sources are.
-/

namespace FMM
namespace Work
variable {d : ℕ}

/-! ## Counting pairs -/

/-- The number of related pairs, counted from both sides. -/
theorem double_count {α β : Type} (R : α → β → Bool) : ∀ (l : List α) (m : List β),
    (l.map fun a => (m.filter (R a)).length).sum = (m.map fun b => (l.filter fun a => R a b).length).sum
  | [], m => by
    induction m with
    | nil => rfl
    | cons b m ih => simp at ih ⊢
  | a :: l, m => by
    rw [List.map_cons, List.sum_cons, double_count R l m]
    induction m with
    | nil => rfl
    | cons b m ih =>
      rw [List.map_cons, List.sum_cons, List.map_cons, List.sum_cons, ← ih]
      cases hR : R a b <;> simp [List.filter_cons, hR] <;> omega

theorem sum_le_mul {α : Type} (f : α → ℕ) (l : List α) (m : ℕ) (h : ∀ a ∈ l, f a ≤ m) : (l.map f).sum ≤ l.length * m := by
  have := List.sum_le_card_nsmul (l.map f) m (fun x hx => by obtain ⟨a, ha, rfl⟩ := List.mem_map.mp hx; exact h a ha)
  simpa using this

theorem mul_le_sum {α : Type} (f : α → ℕ) (l : List α) (m : ℕ) (h : ∀ a ∈ l, m ≤ f a) : l.length * m ≤ (l.map f).sum := by
  have := List.card_nsmul_le_sum (l.map f) m (fun x hx => by obtain ⟨a, ha, rfl⟩ := List.mem_map.mp hx; exact h a ha)
  simpa using this

theorem sum_mono {α : Type} (f g : α → ℕ) (l : List α) (h : ∀ a ∈ l, f a ≤ g a) : (l.map f).sum ≤ (l.map g).sum := by
  induction l with
  | nil => simp
  | cons a l ih =>
    simp only [List.map_cons, List.sum_cons]
    exact Nat.add_le_add (h a (by simp)) (ih fun b hb => h b (by simp [hb]))

theorem length_le_of_subset {α : Type} [DecidableEq α] {l m : List α} (hl : l.Nodup) (h : ∀ a ∈ l, a ∈ m) : l.length ≤ m.length :=
  (hl.subperm h).length_le

/-! ## Neighbours -/

/-- A point of a box of the tree lies in a descendant of the box at every depth. -/
theorem exists_descendant (r : Box d) (ρ : Path) (x : Vec d) (hx : (boxAt r ρ).contains x) (hv : ValidPath d ρ) (m : ℕ) :
    ∃ σ, ρ <:+ σ ∧ σ.length = ρ.length + m ∧ ValidPath d σ ∧ (boxAt r σ).contains x := by
  induction m with
  | zero => exact ⟨ρ, List.suffix_refl _, rfl, hv, hx⟩
  | succ m ih =>
    obtain ⟨σ, h1, h2, h3, h4⟩ := ih
    refine ⟨getOrthant (boxAt r σ).center x :: σ, h1.trans (List.suffix_cons _ _), by rw [List.length_cons, h2]; rfl, ?_, ?_⟩
    · intro i hi
      rcases List.mem_cons.mp hi with rfl | hi
      · exact getOrthant_lt _ _
      · exact h3 i hi
    · exact child_getOrthant_contains _ x h4

variable {T : PTree} {r : Box d}

/-- Leaves that are not finer than a node and touch it: to each of them belongs one of the `3^d` cells around the node. -/
theorem exists_offset (hr : 0 < r.len) (hA : AdjOf T r) (hc : T.c = 2 ^ d) {π : Path} {ρ : Path}
    (hρ : T.Mem ρ) (hlen : ρ.length ≤ π.length) (ha : T.adj π ρ = true) :
    ∃ σ, ρ <:+ σ ∧ σ.length = π.length ∧ ValidPath d σ ∧ ∀ j, |(grid d σ j : ℤ) - grid d π j| ≤ 1 := by
  obtain ⟨x, h1, h2⟩ := (adj_iff_touch hr hA π ρ).mp ha
  have hv : ValidPath d ρ := fun j hj => by rw [← hc]; exact hρ.1 j hj
  obtain ⟨σ, k1, k2, k3, k4⟩ := exists_descendant r ρ x h2 hv (π.length - ρ.length)
  have k2 : σ.length = π.length := by omega
  refine ⟨σ, k1, k2, k3, fun j => ?_⟩
  have := (C03_adjacent_iff_grid r hr σ π k2).mp ((C03_adjacent_iff_touch r hr σ π).mpr ⟨x, k4, h1⟩) j
  rw [abs_le]; omega

theorem suffix_antichain {ρ ρ' σ : Path} (hρ : T.Mem ρ) (hρ' : T.Mem ρ') (l1 : T.leaf ρ = true) (l2 : T.leaf ρ' = true)
    (h1 : ρ <:+ σ) (h2 : ρ' <:+ σ) : ρ = ρ' := by
  rcases le_total ρ.length ρ'.length with h | h
  · exact hρ'.eq_of_leaf_suffix l1 (List.suffix_of_suffix_length_le h1 h2 h)
  · exact (hρ.eq_of_leaf_suffix l2 (List.suffix_of_suffix_length_le h2 h1 h)).symm

/-- At most `3^d` leaves that are not finer than a node touch it; one less if the node lies in none of them. -/
theorem touching_le (hr : 0 < r.len) (hA : AdjOf T r) (hc : T.c = 2 ^ d) {π : Path} (hπ : ValidPath d π) {l : List Path} (hn : l.Nodup)
    (hl : ∀ ρ ∈ l, T.Mem ρ ∧ T.leaf ρ = true ∧ ρ.length ≤ π.length ∧ T.adj π ρ = true) :
    l.length ≤ 3 ^ d ∧ ((∀ ρ ∈ l, ¬ ρ <:+ π) → l.length ≤ 3 ^ d - 1) := by
  classical
  have hex : ∀ ρ, ∃ σ, ρ ∈ l → ρ <:+ σ ∧ σ.length = π.length ∧ ValidPath d σ ∧ ∀ j, |(grid d σ j : ℤ) - grid d π j| ≤ 1 := by
    intro ρ
    by_cases h : ρ ∈ l
    · obtain ⟨h1, -, h3, h4⟩ := hl ρ h
      obtain ⟨σ, hσ⟩ := exists_offset hr hA hc h1 h3 h4
      exact ⟨σ, fun _ => hσ⟩
    · exact ⟨[], fun h' => absurd h' h⟩
  choose F hF using hex
  set f : Path → Fin d → ℤ := fun ρ j => (grid d (F ρ) j : ℤ) - grid d π j with hf
  set B : Finset (Fin d → ℤ) := Fintype.piFinset fun _ => Finset.Icc (-1 : ℤ) 1 with hB
  have hcard : B.card = 3 ^ d := by simp [hB]
  have hmap : ∀ ρ ∈ l.toFinset, f ρ ∈ B := by
    intro ρ h
    rw [hB, Fintype.mem_piFinset]
    intro j
    have := (hF ρ (List.mem_toFinset.mp h)).2.2.2 j
    rw [abs_le] at this
    exact Finset.mem_Icc.mpr this
  have hinj : Set.InjOn f (l.toFinset : Set Path) := by
    intro a ha b hb hab
    rw [Finset.mem_coe, List.mem_toFinset] at ha hb
    obtain ⟨a1, a2, a3, -⟩ := hF a ha
    obtain ⟨b1, b2, b3, -⟩ := hF b hb
    have : F a = F b := by
      refine grid_injective a3 b3 (a2.trans b2.symm) ?_
      funext j
      have := congrFun hab j
      simp only [hf] at this
      omega
    rw [← this] at b1
    exact suffix_antichain (hl a ha).1 (hl b hb).1 (hl a ha).2.1 (hl b hb).2.1 a1 b1
  have hlen : l.length = l.toFinset.card := (List.toFinset_card_of_nodup hn).symm
  refine ⟨?_, fun hno => ?_⟩
  · rw [hlen, ← hcard]
    exact Finset.card_le_card_of_injOn f hmap hinj
  · have h0 : (0 : Fin d → ℤ) ∈ B := by rw [hB, Fintype.mem_piFinset]; intro j; simp
    rw [hlen, ← hcard, ← Finset.card_erase_of_mem h0]
    refine Finset.card_le_card_of_injOn f (fun ρ h => ?_) hinj
    rw [Finset.mem_coe, Finset.mem_erase]
    refine ⟨fun h' => ?_, hmap ρ h⟩
    have hρ := List.mem_toFinset.mp h
    obtain ⟨a1, a2, a3, -⟩ := hF ρ hρ
    have : F ρ = π := by
      refine grid_injective a3 hπ a2 ?_
      funext j
      have := congrFun h' j
      simp only [hf, Pi.zero_apply] at this
      omega
    exact hno ρ hρ (this ▸ a1)

variable {h : ℕ}

theorem valid_of_mem (hc : T.c = 2 ^ d) {π : Path} (hπ : T.Mem π) : ValidPath d π := fun j hj => by rw [← hc]; exact hπ.1 j hj

/-- List X. -/
theorem xl_le (hr : 0 < r.len) (hA : AdjOf T r) (hc : T.c = 2 ^ d) {π : Path} (hπ : T.Mem π) : (T.xl π).length ≤ 3 ^ d - 1 := by
  have hT := hA.laws hr
  cases π with
  | nil => simp [PTree.xl]
  | cons i τ =>
    refine (touching_le hr hA hc (valid_of_mem hc hπ.tail) (PTree.nodup_xl hT hπ) fun ρ hρ => ?_).2 fun ρ hρ hs => ?_
    · obtain ⟨h1, h2, h3, h4, -⟩ := (PTree.mem_xl hT hπ ρ).mp hρ
      exact ⟨h1, h2, by simpa [Nat.lt_succ_iff] using h3, h4⟩
    · obtain ⟨-, h2, h3, -⟩ := (PTree.mem_xl hT hπ ρ).mp hρ
      have := hπ.eq_of_leaf_suffix h2 (hs.trans (List.suffix_cons i τ))
      rw [this] at h3
      exact lt_irrefl _ h3

/-- List W, summed over the leaves. -/
theorem W_sum_le (hr : 0 < r.len) (hA : AdjOf T r) (hc : T.c = 2 ^ d) (hh : ∀ π, T.Mem π → π.length < h) {leaves nodes : List Path}
    (hl : leaves.Nodup) (hn : ∀ π, π ∈ nodes ↔ T.Mem π) :
    (leaves.map fun L => ((T.nbhAfter (T.order h)).W L).length).sum ≤ nodes.length * (3 ^ d - 1) := by
  have hT := hA.laws hr
  have h1 : (leaves.map fun L => ((T.nbhAfter (T.order h)).W L).length).sum
      ≤ (leaves.map fun L => (nodes.filter fun ρ => decide (L ∈ T.xl ρ)).length).sum :=
    sum_mono _ _ _ fun L _ => length_le_of_subset (PTree.nodup_W L) fun ρ hρ => by
      obtain ⟨a, b⟩ := (PTree.mem_W hh L ρ).mp hρ
      exact List.mem_filter.mpr ⟨(hn ρ).mpr a, by simpa using b⟩
  refine h1.trans ?_
  rw [double_count (fun L ρ => decide (L ∈ T.xl ρ))]
  refine sum_le_mul _ _ _ fun ρ hρ => ?_
  refine le_trans ?_ (xl_le hr hA hc ((hn ρ).mp hρ))
  exact length_le_of_subset (hl.filter _) fun L hL => by simpa using (List.mem_filter.mp hL).2

/-- List U, summed over the leaves. -/
theorem U_sum_le (hr : 0 < r.len) (hA : AdjOf T r) (hc : T.c = 2 ^ d) (hh : ∀ π, T.Mem π → π.length < h) {leaves : List Path}
    (hl : leaves.Nodup) (hm : ∀ π, π ∈ leaves ↔ T.Mem π ∧ T.leaf π = true) :
    (leaves.map fun L => ((T.nbhAfter (T.order h)).near L).length).sum ≤ leaves.length * (3 ^ d + (3 ^ d - 1)) := by
  have hT := hA.laws hr
  have h1 : (leaves.map fun L => ((T.nbhAfter (T.order h)).near L).length).sum
      ≤ (leaves.map fun L => (leaves.filter fun ρ => decide (ρ.length ≤ L.length) && T.adj L ρ).length).sum
        + (leaves.map fun L => (leaves.filter fun ρ => decide (L.length < ρ.length) && T.adj L ρ).length).sum := by
    rw [← List.sum_map_add]
    refine sum_mono _ _ _ fun L hL => ?_
    obtain ⟨l1, l2⟩ := (hm L).mp hL
    have : ((T.nbhAfter (T.order h)).near L).length ≤ ((leaves.filter fun ρ => decide (ρ.length ≤ L.length) && T.adj L ρ)
        ++ (leaves.filter fun ρ => decide (L.length < ρ.length) && T.adj L ρ)).length := by
      refine length_le_of_subset (PTree.nodup_near_leaf hT hh l1) fun ρ hρ => ?_
      obtain ⟨a, b, c⟩ := (PTree.mem_near_leaf hT hh l1 l2 ρ).mp hρ
      have hin := (hm ρ).mpr ⟨a, b⟩
      rw [List.mem_append]
      rcases le_or_gt ρ.length L.length with hlt | hlt
      · exact Or.inl (List.mem_filter.mpr ⟨hin, by simp [hlt, c]⟩)
      · exact Or.inr (List.mem_filter.mpr ⟨hin, by simp [hlt, c]⟩)
    rwa [List.length_append] at this
  refine h1.trans ?_
  rw [double_count (fun L ρ : Path => decide (L.length < ρ.length) && T.adj L ρ), Nat.mul_add]
  refine Nat.add_le_add (sum_le_mul _ _ _ fun L hL => ?_) (sum_le_mul _ _ _ fun ρ hρ => ?_)
  · refine (touching_le hr hA hc (valid_of_mem hc ((hm L).mp hL).1) (hl.filter _) fun ρ hρ => ?_).1
    obtain ⟨a, b⟩ := List.mem_filter.mp hρ
    simp only [Bool.and_eq_true, decide_eq_true_eq] at b
    exact ⟨((hm ρ).mp a).1, ((hm ρ).mp a).2, b.1, b.2⟩
  · have hρ' := (hm ρ).mp hρ
    refine (touching_le hr hA hc (valid_of_mem hc hρ'.1) (hl.filter _) fun L hL => ?_).2 fun L hL hs => ?_
    · obtain ⟨a, b⟩ := List.mem_filter.mp hL
      simp only [Bool.and_eq_true, decide_eq_true_eq] at b
      exact ⟨((hm L).mp a).1, ((hm L).mp a).2, b.1.le, by rw [hT.symm]; exact b.2⟩
    · obtain ⟨a, b⟩ := List.mem_filter.mp hL
      simp only [Bool.and_eq_true, decide_eq_true_eq] at b
      have := hρ'.1.eq_of_leaf_suffix ((hm L).mp a).2 hs
      rw [this] at b
      exact lt_irrefl _ b.1

/-! ## Number of nodes -/

variable {α : Type} {pos : α → Vec d} {items : List α} {max : ℕ}

/-- Nodes with more than `max` items. -/
theorem inner_le (hh : ∀ π, (fmmTree pos r items max).Mem π → π.length ≤ h) {inner : List Path} (hn : inner.Nodup)
    (hi : ∀ π ∈ inner, (fmmTree pos r items max).Mem π ∧ (fmmTree pos r items max).leaf π = false) :
    inner.length * (max + 1) ≤ items.length * h := by
  have h1 : inner.length * (max + 1) ≤ (inner.map fun π => (itemsAt pos r items π).length).sum := by
    refine mul_le_sum _ _ _ fun π hπ => ?_
    have : ¬ (itemsAt pos r items π).length ≤ max := by simpa [fmmTree] using (hi π hπ).2
    omega
  refine h1.trans ?_
  unfold itemsAt
  rw [double_count (fun (π : Path) s => decide (route r (pos s) π.length = π))]
  refine sum_le_mul _ _ _ fun s _ => ?_
  have : (inner.filter fun π => decide (route r (pos s) π.length = π)).length
      = ((inner.filter fun π => decide (route r (pos s) π.length = π)).map List.length).length := by simp
  rw [this]
  refine (length_le_of_subset (m := List.range h) ?_ ?_).trans (by simp)
  · rw [List.nodup_map_iff_inj_on (hn.filter _)]
    intro a ha b hb hab
    have e1 : route r (pos s) a.length = a := by simpa using (List.mem_filter.mp ha).2
    have e2 : route r (pos s) b.length = b := by simpa using (List.mem_filter.mp hb).2
    rw [← e1, ← e2, hab]
  · intro k hk
    obtain ⟨π, hπ, rfl⟩ := List.mem_map.mp hk
    obtain ⟨a, b⟩ := hi π (List.mem_filter.mp hπ).1
    have := hh _ (a.cons b (i := 0) (by show 0 < 2 ^ d; positivity))
    rw [List.length_cons] at this
    exact List.mem_range.mpr this

/-- All nodes. -/
theorem nodes_le_inner (hc : T.c = 2 ^ d) {nodes inner : List Path} (hn : nodes.Nodup) (hm : ∀ π ∈ nodes, T.Mem π)
    (hi : ∀ π, T.Mem π → T.leaf π = false → π ∈ inner) : nodes.length ≤ 1 + 2 ^ d * inner.length := by
  have : nodes.length ≤ ([] :: inner.flatMap T.kids).length := by
    refine length_le_of_subset hn fun π hπ => ?_
    cases π with
    | nil => simp
    | cons i τ =>
      have := hm _ hπ
      refine List.mem_cons_of_mem _ (List.mem_flatMap.mpr ⟨τ, hi τ this.tail this.parent_not_leaf, ?_⟩)
      exact PTree.mem_kids.mpr ⟨i, this.lt, rfl⟩
  refine this.trans ?_
  rw [List.length_cons, List.length_flatMap]
  have : (inner.map fun π => (T.kids π).length).sum ≤ inner.length * 2 ^ d :=
    sum_le_mul _ _ _ fun π _ => by simp [PTree.kids, hc]
  rw [Nat.mul_comm]
  omega

end Work
end FMM
