import Verif.AdaptiveNbh
import Verif.PropsGeometry
import Mathlib.Data.Fintype.BigOperators
import Mathlib.Order.Interval.Finset.Defs
import Mathlib.Data.Int.Interval

/-!
# Contents of the lists after the neighbourhood pass; every source is accounted for once
-/

namespace FMM
variable {d : ℕ} {α : Type}

namespace PTree
variable {T : PTree} {h : ℕ}

theorem mem_back (hT : T.Laws) {i : ℕ} {τ : Path} (hπ : T.Mem (i :: τ)) (σ : Path) :
    σ ∈ T.back (i :: τ) ↔ T.Mem σ ∧ T.leaf σ = true ∧ T.leaf (i :: τ) = true ∧ σ.length < (i :: τ).length ∧
      T.adj (i :: τ) σ = true := by
  simp only [back]
  by_cases hl : T.leaf (i :: τ) = true
  · rw [if_pos hl]
    simp only [List.mem_filter, mem_own hT hπ.tail, Bool.and_eq_true, List.length_cons]
    constructor
    · rintro ⟨⟨m1, m2, m3⟩, m4, m5⟩
      exact ⟨m1, m4, hl, by omega, m5⟩
    · rintro ⟨m1, m2, _, m3, m4⟩
      refine ⟨⟨m1, hT.mono i τ σ m4, ?_⟩, m2, m4⟩
      rcases Nat.lt_or_ge σ.length τ.length with h | h
      · exact Or.inr ⟨m2, h⟩
      · exact Or.inl ⟨by omega, fun _ => m2⟩
  · simp [hl]

variable (hT : T.Laws) (hh : ∀ π, T.Mem π → π.length < h)
include hT hh

/-- List U of a leaf. -/
theorem mem_near_leaf {L : Path} (hL : T.Mem L) (hl : T.leaf L = true) (ρ : Path) :
    ρ ∈ (T.nbhAfter (T.order h)).near L ↔ T.Mem ρ ∧ T.leaf ρ = true ∧ T.adj L ρ = true := by
  simp only [nbhAfter, List.mem_append, List.mem_filter, decide_eq_true_eq]
  rw [if_pos ((mem_order h L).mpr ⟨hL, hh L hL⟩), mem_own hT hL, mem_order]
  constructor
  · rintro (⟨m1, m2, m3⟩ | ⟨⟨m1, -⟩, m2⟩)
    · refine ⟨m1, ?_, m2⟩
      rcases m3 with m3 | m3
      · exact m3.2 hl
      · exact m3.1
    · cases ρ with
      | nil => simp [back] at m2
      | cons i τ =>
        obtain ⟨-, -, k1, k2, k3⟩ := (mem_back hT m1 L).mp m2
        exact ⟨m1, k1, by rw [hT.symm]; exact k3⟩
  · rintro ⟨m1, m2, m3⟩
    rcases lt_trichotomy ρ.length L.length with h1 | h1 | h1
    · exact Or.inl ⟨m1, m3, Or.inr ⟨m2, h1⟩⟩
    · exact Or.inl ⟨m1, m3, Or.inl ⟨h1, fun _ => m2⟩⟩
    · right
      refine ⟨⟨m1, hh ρ m1⟩, ?_⟩
      cases ρ with
      | nil => simp at h1
      | cons i τ => exact (mem_back hT m1 L).mpr ⟨hL, hl, m2, h1, by rw [hT.symm]; exact m3⟩

theorem nodup_near_leaf {L : Path} (hL : T.Mem L) : ((T.nbhAfter (T.order h)).near L).Nodup := by
  simp only [nbhAfter]
  rw [if_pos ((mem_order h L).mpr ⟨hL, hh L hL⟩), List.nodup_append]
  refine ⟨nodup_own hT hL, (nodup_order h).filter _, ?_⟩
  rintro a ha b hb rfl
  obtain ⟨h1, h2⟩ := List.mem_filter.mp hb
  have h3 := own_length ha
  have h1 := ((mem_order h a).mp h1).1
  cases a with
  | nil => simp [back] at h2
  | cons i τ =>
    obtain ⟨-, -, -, k, -⟩ := (mem_back hT h1 L).mp (by simpa using h2)
    omega

/-- Near neighbours of an internal node. -/
theorem near_node {π : Path} (hπ : T.Mem π) (hl : T.leaf π = false) : (T.nbhAfter (T.order h)).near π = T.own π := by
  simp only [nbhAfter]
  rw [if_pos ((mem_order h π).mpr ⟨hπ, hh π hπ⟩)]
  have : ((T.order h).filter fun ρ => decide (π ∈ T.back ρ)) = [] := by
    rw [List.filter_eq_nil_iff]
    intro ρ hρ
    have h1 := ((mem_order h ρ).mp hρ).1
    simp only [decide_eq_true_eq]
    intro h2
    cases ρ with
    | nil => simp [back] at h2
    | cons i τ =>
      obtain ⟨-, k, -⟩ := (mem_back hT h1 π).mp h2
      rw [k] at hl; simp at hl
  rw [this, List.append_nil]

omit hT in
theorem nbh_inter {π : Path} (hπ : T.Mem π) : (T.nbhAfter (T.order h)).inter π = T.inter π := by
  simp only [nbhAfter]
  rw [if_pos ((mem_order h π).mpr ⟨hπ, hh π hπ⟩)]

omit hT in
theorem nbh_X {π : Path} (hπ : T.Mem π) : (T.nbhAfter (T.order h)).X π = T.xl π := by
  simp only [nbhAfter]
  rw [if_pos ((mem_order h π).mpr ⟨hπ, hh π hπ⟩)]

omit hT in
theorem mem_W (L ρ : Path) : ρ ∈ (T.nbhAfter (T.order h)).W L ↔ T.Mem ρ ∧ L ∈ T.xl ρ := by
  simp only [nbhAfter, List.mem_filter, decide_eq_true_eq, mem_order]
  exact ⟨fun ⟨⟨a, _⟩, b⟩ => ⟨a, b⟩, fun ⟨a, b⟩ => ⟨⟨a, hh ρ a⟩, b⟩⟩

omit hT hh in
theorem nodup_W (L : Path) : ((T.nbhAfter (T.order h)).W L).Nodup := (nodup_order h).filter _

/-- The members of list W of `L` that are ancestors-or-self of a node `S`. -/
theorem W_countP {L S : Path} (hS : T.Mem S) :
    ((T.nbhAfter (T.order h)).W L).countP (fun v => decide (v <:+ S)) = T.xCount S L := by
  classical
  have h1 : ((T.nbhAfter (T.order h)).W L).countP (fun v => decide (v <:+ S))
      = ((T.order h).filter fun v => decide (v <:+ S)).countP (fun v => decide (L ∈ T.xl v)) := by
    simp only [nbhAfter]
    rw [List.countP_filter, List.countP_filter]
    refine List.countP_congr fun v _ => ?_
    rw [Bool.and_comm]
  have h2 : ((T.order h).filter fun v => decide (v <:+ S)).Perm S.tails := by
    refine (List.perm_ext_iff_of_nodup ((nodup_order h).filter _) ?_).mpr ?_
    · have : ∀ l : Path, l.tails.Nodup := by
        intro l
        induction l with
        | nil => simp
        | cons a l ih =>
          rw [List.tails, List.nodup_cons]
          refine ⟨?_, ih⟩
          rw [List.mem_tails]
          intro h; have := h.length_le; simp at this
      exact this S
    · intro v
      rw [List.mem_filter, List.mem_tails, decide_eq_true_eq, mem_order]
      exact ⟨fun h => h.2, fun h => ⟨⟨hS.suffix h, hh v (hS.suffix h)⟩, h⟩⟩
  rw [h1, h2.countP_eq, xCount]
  have h3 : ∀ A ∈ S.tails, (T.xl A).count L = if L ∈ T.xl A then 1 else 0 := by
    intro A hA
    have hA : T.Mem A := hS.suffix ((List.mem_tails ..).mp hA)
    split_ifs with hin
    · exact List.count_eq_one_of_mem (nodup_xl hT hA) hin
    · exact List.count_eq_zero.mpr hin
  rw [List.map_congr_left h3]
  generalize S.tails = l
  induction l with
  | nil => rfl
  | cons a l ih =>
    rw [List.countP_cons, ih, List.map_cons, List.sum_cons, add_comm]
    simp only [decide_eq_true_eq]

/-- Everything the evaluation in the leaf `L` uses. -/
def slots (T : PTree) (h : ℕ) (L : Path) : List Path :=
  (T.nbhAfter (T.order h)).near L ++ ((T.nbhAfter (T.order h)).W L ++
    L.tails.flatMap fun A => (T.nbhAfter (T.order h)).inter A ++ (T.nbhAfter (T.order h)).X A)

theorem slots_countP {L S : Path} (hL : T.Mem L) (hLl : T.leaf L = true) (hS : T.Mem S) (hSl : T.leaf S = true) :
    (T.slots h L).countP (fun v => decide (v <:+ S)) = 1 := by
  unfold slots
  rw [List.countP_append, List.countP_append, W_countP hT hh hS, List.countP_flatMap]
  have h1 : ((T.nbhAfter (T.order h)).near L).countP (fun v => decide (v <:+ S)) = (T.adj L S).toNat := by
    rw [countP_unique (nodup_near_leaf hT hh hL) S]
    · cases hA : T.adj L S
      · rw [if_neg]
        · rfl
        · rintro ⟨h1, -⟩
          have := ((mem_near_leaf hT hh hL hLl S).mp h1).2.2
          rw [hA] at this; simp at this
      · rw [if_pos ⟨(mem_near_leaf hT hh hL hLl S).mpr ⟨hS, hSl, hA⟩, by simp⟩]; rfl
    · intro v hv hs
      have := (mem_near_leaf hT hh hL hLl v).mp hv
      exact hS.eq_of_leaf_suffix this.2.1 (by simpa using hs)
  have h2 : (L.tails.map (List.countP (fun v => decide (v <:+ S)) ∘
      fun A => (T.nbhAfter (T.order h)).inter A ++ (T.nbhAfter (T.order h)).X A)).sum = T.vCount L S + T.xCount L S := by
    have h3 : ∀ A ∈ L.tails, (List.countP (fun v => decide (v <:+ S)) ∘
        fun A => (T.nbhAfter (T.order h)).inter A ++ (T.nbhAfter (T.order h)).X A) A
        = (T.inter A).countP (fun v => decide (v <:+ S)) + (T.xl A).count S := by
      intro A hA
      have hA : T.Mem A := hL.suffix ((List.mem_tails ..).mp hA)
      simp only [Function.comp_apply]
      rw [List.countP_append, nbh_inter hh hA, nbh_X hh hA]
      congr 1
      rw [List.count]
      refine List.countP_congr fun v hv => ?_
      simp only [decide_eq_true_eq, beq_iff_eq]
      constructor
      · intro hs
        cases A with
        | nil => simp [xl] at hv
        | cons i τ =>
          have := (mem_xl hT hA v).mp hv
          exact hS.eq_of_leaf_suffix this.2.1 hs
      · rintro rfl; exact List.suffix_refl _
    rw [List.map_congr_left h3, List.sum_map_add]; rfl
  rw [h1, h2]
  have := exactly_once hT hL hS hLl hSl
  omega

/-- The sources reached from `L` are all sources, once each. -/
theorem slots_perm (hc : T.c = 2 ^ d) (pos : α → Vec d) (r : Box d) (items : List α) {L : Path} (hL : T.Mem L)
    (hLl : T.leaf L = true) :
    ((T.slots h L).flatMap (itemsAt pos r items)).Perm items := by
  refine flatMap_filter_perm _ (fun π s => decide (route r (pos s) π.length = π)) items ?_
  intro s _
  obtain ⟨k, _, hk, lk⟩ := exists_leaf_route T hc r (pos s) h (fun π hπ => (hh π hπ).le)
  rw [← slots_countP hT hh hL hLl hk lk]
  refine List.countP_congr fun π hπ => ?_
  simp only [decide_eq_true_eq]
  refine leaf_mem_of_route T r (pos s) hk lk ?_
  -- all slots are nodes
  unfold slots at hπ
  simp only [List.mem_append, List.mem_flatMap, List.mem_tails] at hπ
  rcases hπ with h1 | h1 | ⟨A, hA, h1 | h1⟩
  · exact ((mem_near_leaf hT hh hL hLl π).mp h1).1
  · exact ((mem_W hh L π).mp h1).1
  · have hA := hL.suffix hA
    rw [nbh_inter hh hA] at h1
    cases A with
    | nil => simp [inter] at h1
    | cons i τ => exact ((mem_inter hT hA π).mp h1).1
  · have hA := hL.suffix hA
    rw [nbh_X hh hA] at h1
    cases A with
    | nil => simp [xl] at h1
    | cons i τ => exact ((mem_xl hT hA π).mp h1).1

omit hT in
/-- The sources stored in the leaves below a node. -/
theorem below_perm (hc : T.c = 2 ^ d) (pos : α → Vec d) (r : Box d) (items : List α) (l : List Path) (hl : l.Nodup)
    (hmem : ∀ π, π ∈ l ↔ T.Mem π ∧ T.leaf π = true) {ρ : Path} (hρ : T.Mem ρ) :
    ((l.filter fun π => decide (ρ <:+ π)).flatMap (itemsAt pos r items)).Perm (itemsAt pos r items ρ) := by
  have e : ∀ π ∈ l.filter (fun π => decide (ρ <:+ π)), itemsAt pos r items π
      = (itemsAt pos r items ρ).filter fun s => decide (route r (pos s) π.length = π) := by
    intro π hπ
    have hs : ρ <:+ π := by simpa using (List.mem_filter.mp hπ).2
    unfold itemsAt
    rw [List.filter_filter]
    refine List.filter_congr fun s _ => ?_
    by_cases h1 : route r (pos s) π.length = π
    · have : route r (pos s) ρ.length = ρ := by
        rw [← route_trunc r (pos s) hs.length_le, h1]; exact (eq_trunc_of_suffix hs).symm
      simp [h1, this]
    · simp [h1]
  rw [List.flatMap_congr e]
  refine flatMap_filter_perm _ (fun π s => decide (route r (pos s) π.length = π)) _ ?_
  intro s hs
  have hs2 : route r (pos s) ρ.length = ρ := by simpa using (List.mem_filter.mp hs).2
  obtain ⟨k, _, hk, lk⟩ := exists_leaf_route T hc r (pos s) h (fun π hπ => (hh π hπ).le)
  have hin : route r (pos s) k ∈ l := (hmem _).mpr ⟨hk, lk⟩
  have hsuf : ρ <:+ route r (pos s) k := (leaf_mem_of_route T r (pos s) hk lk hρ).mp hs2
  have e2 : (l.filter fun π => decide (ρ <:+ π)).countP (fun π => decide (route r (pos s) π.length = π))
      = (l.filter fun π => decide (ρ <:+ π)).count (route r (pos s) k) := by
    rw [List.count]
    refine List.countP_congr fun π hπ => ?_
    obtain ⟨h1, h2⟩ := (hmem π).mp (List.mem_filter.mp hπ).1
    simp only [decide_eq_true_eq, beq_iff_eq]
    rw [leaf_mem_of_route T r (pos s) hk lk h1]
    constructor
    · intro h; exact hk.eq_of_leaf_suffix h2 h
    · rintro rfl; exact List.suffix_refl _
  rw [e2, List.count_eq_one_of_mem (hl.filter _) (List.mem_filter.mpr ⟨hin, by simpa using hsuf⟩)]

end PTree

/-! ## Size of the interaction list -/

theorem inter_card {T : PTree} {r : Box d} (hr : 0 < r.len) (hA : AdjOf T r) (hc : T.c = 2 ^ d) {π : Path}
    (hπ : T.Mem π) : (T.inter π).length ≤ 6 ^ d - 3 ^ d := by
  classical
  have hT := hA.laws hr
  cases π with
  | nil => simp [PTree.inter]
  | cons i τ =>
    have hvalid : ∀ ρ, T.Mem ρ → ValidPath d ρ := fun ρ h j hj => by rw [← hc]; exact h.1 j hj
    have hinj : ∀ a ∈ T.inter (i :: τ), ∀ b ∈ T.inter (i :: τ), (fun j => (grid d a j : ℤ)) = (fun j => (grid d b j : ℤ)) → a = b := by
      intro a ha b hb hab
      have la := PTree.inter_length hT hπ ha
      have lb := PTree.inter_length hT hπ hb
      refine grid_injective (hvalid a ((PTree.mem_inter hT hπ a).mp ha).1) (hvalid b ((PTree.mem_inter hT hπ b).mp hb).1)
        (la.trans lb.symm) ?_
      funext j
      exact_mod_cast congrFun hab j
    have hnd : ((T.inter (i :: τ)).map fun a => (fun j => (grid d a j : ℤ) : Fin d → ℤ)).Nodup := by
      refine (List.nodup_map_iff_inj_on (PTree.nodup_inter hT hπ)).mpr ?_
      intro a ha b hb hab
      exact hinj a ha b hb hab
    set big : Finset (Fin d → ℤ) := Fintype.piFinset fun j => Finset.Icc (2 * (grid d τ j : ℤ) - 2) (2 * (grid d τ j : ℤ) + 3)
    set small : Finset (Fin d → ℤ) := Fintype.piFinset fun j =>
      Finset.Icc ((grid d (i :: τ) j : ℤ) - 1) ((grid d (i :: τ) j : ℤ) + 1)
    have hg : ∀ (k : ℕ) (ν : Path) (j : Fin d), grid d (k :: ν) j = 2 * grid d ν j ∨ grid d (k :: ν) j = 2 * grid d ν j + 1 := by
      intro k ν j
      simp only [grid]
      cases k.testBit (d - j - 1) <;> simp
    have hadj : ∀ π ρ : Path, π.length = ρ.length → (T.adj π ρ = true ↔
        ∀ j, |(grid d π j : ℤ) - grid d ρ j| ≤ 1) := by
      intro π ρ hl
      rw [hA, decide_eq_true_eq]
      rw [C03_adjacent_iff_grid r hr π ρ hl]
      refine forall_congr' fun j => ?_
      rw [abs_le]; omega
    have hsub : small ⊆ big := by
      intro f hf
      rw [Fintype.mem_piFinset] at hf ⊢
      intro j
      have h1 := Finset.mem_Icc.mp (hf j)
      rw [Finset.mem_Icc]
      rcases hg i τ j with h2 | h2 <;> rw [h2] at h1 <;> push_cast at h1 <;> omega
    have hin : ((T.inter (i :: τ)).map fun a => (fun j => (grid d a j : ℤ) : Fin d → ℤ)).toFinset ⊆ big \ small := by
      intro f hf
      rw [List.mem_toFinset, List.mem_map] at hf
      obtain ⟨a, ha, rfl⟩ := hf
      have hla := PTree.inter_length hT hπ ha
      obtain ⟨h1, h2, k, ν, rfl, h3, h4⟩ := (PTree.mem_inter hT hπ a).mp ha
      rw [Finset.mem_sdiff, Fintype.mem_piFinset, Fintype.mem_piFinset]
      constructor
      · intro j
        have h5 := abs_le.mp ((hadj τ ν h3.symm).mp h4 j)
        rw [Finset.mem_Icc]
        rcases hg k ν j with h6 | h6 <;> rw [h6] <;> push_cast <;> omega
      · intro hall
        have : T.adj (i :: τ) (k :: ν) = true := by
          rw [hadj _ _ hla.symm]
          intro j
          have := Finset.mem_Icc.mp (hall j)
          rw [abs_le]; omega
        rw [this] at h2; simp at h2
    have hcard := Finset.card_le_card hin
    rw [List.toFinset_card_of_nodup hnd, List.length_map, Finset.card_sdiff_of_subset hsub, Fintype.card_piFinset,
      Fintype.card_piFinset] at hcard
    have e1 : ∀ j : Fin d, (Finset.Icc (2 * (grid d τ j : ℤ) - 2) (2 * (grid d τ j : ℤ) + 3)).card = 6 := by
      intro j; rw [Int.card_Icc]; omega
    have e2 : ∀ j : Fin d, (Finset.Icc ((grid d (i :: τ) j : ℤ) - 1) ((grid d (i :: τ) j : ℤ) + 1)).card = 3 := by
      intro j; rw [Int.card_Icc]; omega
    simpa [e1, e2] using hcard

end FMM
