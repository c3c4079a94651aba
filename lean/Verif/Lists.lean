import Mathlib.Data.List.Basic
import Mathlib.Data.List.Nodup
import Mathlib.Data.List.Count
import Mathlib.Algebra.BigOperators.Group.List.Basic
import Mathlib.Tactic.Ring
import Mathlib.Tactic.Linarith
import Verif.Geometry

/-!
# Combinatorics of the near-neighbour, V, W and X lists

Everything here is about a tree of paths, given by its set of leaves, and a relation `adj` that is
reflexive, symmetric and inherited by ancestors.  Both tree classes are instances.
-/

namespace FMM

/-- A tree of paths: branching factor, leaf predicate and adjacency relation. -/
structure PTree where
  c : ℕ
  leaf : Path → Bool
  adj : Path → Path → Bool

namespace PTree
variable (T : PTree)

/-- Laws of the adjacency relation. -/
structure Laws : Prop where
  refl : ∀ π, T.adj π π = true
  symm : ∀ π ρ, T.adj π ρ = T.adj ρ π
  mono : ∀ i π ρ, T.adj (i :: π) ρ = true → T.adj π ρ = true

/-- Membership in the tree: the child indices are valid and no strict ancestor is a leaf. -/
def Mem (π : Path) : Prop := (∀ i ∈ π, i < T.c) ∧ ∀ ρ i, (i :: ρ) <:+ π → T.leaf ρ = false

/-- All children of an internal node. -/
def kids (π : Path) : List Path := (List.range T.c).map (· :: π)

/-- The near-neighbour entries which a node receives when it is visited itself. -/
def own : Path → List Path
  | [] => [[]]
  | i :: τ => (own τ).flatMap fun ν =>
      if T.leaf ν then (if T.adj (i :: τ) ν then [ν] else [])
      else (T.kids ν).filter fun c => T.adj (i :: τ) c && (!T.leaf (i :: τ) || T.leaf c)

/-- The interaction list (list V). -/
def inter : Path → List Path
  | [] => []
  | i :: τ => (own T τ).flatMap fun ν =>
      if T.leaf ν then [] else (T.kids ν).filter fun c => !T.adj (i :: τ) c

/-- The list X. -/
def xl : Path → List Path
  | [] => []
  | i :: τ => (own T τ).filter fun ν => T.leaf ν && !T.adj (i :: τ) ν

variable {T}

theorem Mem.tail {i : ℕ} {π : Path} (h : T.Mem (i :: π)) : T.Mem π :=
  ⟨fun j hj => h.1 j (by simp [hj]), fun ρ j hs => h.2 ρ j (hs.trans (List.suffix_cons i π))⟩

theorem Mem.parent_not_leaf {i : ℕ} {π : Path} (h : T.Mem (i :: π)) : T.leaf π = false :=
  h.2 π i List.suffix_rfl

theorem Mem.lt {i : ℕ} {π : Path} (h : T.Mem (i :: π)) : i < T.c := h.1 i (by simp)

theorem Mem.cons {i : ℕ} {π : Path} (h : T.Mem π) (hl : T.leaf π = false) (hi : i < T.c) :
    T.Mem (i :: π) := by
  refine ⟨fun j hj => ?_, fun ρ j hs => ?_⟩
  · rcases List.mem_cons.mp hj with rfl | hj
    · exact hi
    · exact h.1 j hj
  · rcases List.suffix_cons_iff.mp hs with he | hs
    · obtain ⟨-, rfl⟩ := List.cons.inj he; exact hl
    · exact h.2 ρ j hs

theorem Mem.suffix {ρ π : Path} (h : T.Mem π) (hs : ρ <:+ π) : T.Mem ρ := by
  induction π with
  | nil => rw [List.suffix_nil] at hs; subst hs; exact h
  | cons i π ih =>
    rcases List.suffix_cons_iff.mp hs with he | hs
    · rw [he]; exact h
    · exact ih h.tail hs

theorem mem_nil : T.Mem [] :=
  ⟨by simp, fun ρ i h => by simp at h⟩

/-- A leaf has no proper extension in the tree. -/
theorem Mem.eq_of_leaf_suffix {ρ π : Path} (h : T.Mem π) (hl : T.leaf ρ = true) (hs : ρ <:+ π) : ρ = π := by
  induction π with
  | nil => exact List.suffix_nil.mp hs
  | cons i π ih =>
    rcases List.suffix_cons_iff.mp hs with he | hs
    · exact he
    · have := ih h.tail hs
      subst this
      rw [h.parent_not_leaf] at hl; exact absurd hl (by simp)

theorem mem_kids {π ρ : Path} : ρ ∈ T.kids π ↔ ∃ i < T.c, ρ = i :: π := by
  simp only [kids, List.mem_map, List.mem_range]
  constructor
  · rintro ⟨i, h, rfl⟩; exact ⟨i, h, rfl⟩
  · rintro ⟨i, h, rfl⟩; exact ⟨i, h, rfl⟩

theorem nodup_kids (π : Path) : (T.kids π).Nodup :=
  List.nodup_range.map fun _ _ h => (List.cons.inj h).1

theorem Laws.adj_parent (h : T.Laws) {i : ℕ} {π ρ : Path} : T.adj π (i :: ρ) = true → T.adj π ρ = true := by
  rw [h.symm, h.symm π ρ]; exact h.mono i ρ π

theorem Laws.mono_suffix (h : T.Laws) {π π' ρ : Path} (hs : π <:+ π') (ha : T.adj π' ρ = true) :
    T.adj π ρ = true := by
  induction π' with
  | nil => rw [List.suffix_nil] at hs; subst hs; exact ha
  | cons i π' ih =>
    rcases List.suffix_cons_iff.mp hs with he | hs
    · rw [he]; exact ha
    · exact ih hs (h.mono i π' ρ ha)

theorem own_length {π ρ : Path} (h : ρ ∈ T.own π) : ρ.length ≤ π.length := by
  induction π generalizing ρ with
  | nil => simp [own] at h; simp [h]
  | cons i π ih =>
    simp only [own, List.mem_flatMap] at h
    obtain ⟨ν, hν, h⟩ := h
    have := ih hν
    split_ifs at h with h1 h2
    · simp only [List.mem_singleton] at h; subst h; simp; omega
    · simp at h
    · simp only [List.mem_filter, mem_kids] at h
      obtain ⟨⟨j, _, rfl⟩, _⟩ := h
      simp; exact this

/-- Contents of the list filled when a node is visited. -/
theorem mem_own (hT : T.Laws) {π : Path} (hπ : T.Mem π) (ρ : Path) :
    ρ ∈ T.own π ↔ T.Mem ρ ∧ T.adj π ρ = true ∧
      ((ρ.length = π.length ∧ (T.leaf π = true → T.leaf ρ = true)) ∨
        (T.leaf ρ = true ∧ ρ.length < π.length)) := by
  induction π generalizing ρ with
  | nil =>
    simp only [own, List.mem_singleton, List.length_nil, Nat.not_lt_zero, and_false, or_false]
    constructor
    · rintro rfl; exact ⟨mem_nil, hT.refl _, rfl, id⟩
    · rintro ⟨-, -, h, -⟩; exact List.length_eq_zero_iff.mp h
  | cons i τ ih =>
    have hτl := hπ.parent_not_leaf
    simp only [own, List.mem_flatMap]
    constructor
    · rintro ⟨ν, hν, h⟩
      obtain ⟨m1, m2, m3⟩ := (ih hπ.tail ν).mp hν
      split_ifs at h with h1 h2
      · simp only [List.mem_singleton] at h
        subst h
        refine ⟨m1, h2, Or.inr ⟨h1, ?_⟩⟩
        simp only [List.length_cons]
        omega
      · simp at h
      · simp only [List.mem_filter, mem_kids, Bool.and_eq_true, Bool.or_eq_true, Bool.not_eq_true'] at h
        obtain ⟨⟨j, hj, rfl⟩, h3, h4⟩ := h
        have hνl : T.leaf ν = false := by simpa using h1
        refine ⟨m1.cons hνl hj, h3, Or.inl ⟨?_, ?_⟩⟩
        · simp only [List.length_cons]
          rcases m3 with m3 | m3
          · omega
          · rw [m3.1] at hνl; simp at hνl
        · intro hl
          rcases h4 with h4 | h4
          · rw [hl] at h4; simp at h4
          · exact h4
    · rintro ⟨m1, m2, m3⟩
      rcases m3 with ⟨m3, m4⟩ | ⟨m3, m4⟩
      · cases ρ with
        | nil => simp at m3
        | cons j ν =>
          have hνl := m1.parent_not_leaf
          simp only [List.length_cons, Nat.add_right_cancel_iff] at m3
          refine ⟨ν, (ih hπ.tail ν).mpr ⟨m1.tail, hT.mono _ _ _ (hT.adj_parent m2),
            Or.inl ⟨m3, by rw [hτl]; simp⟩⟩, ?_⟩
          rw [if_neg (by rw [hνl]; simp)]
          simp only [List.mem_filter, mem_kids, Bool.and_eq_true, Bool.or_eq_true, Bool.not_eq_true']
          refine ⟨⟨j, m1.lt, rfl⟩, m2, ?_⟩
          by_cases hl : T.leaf (i :: τ) = true
          · exact Or.inr (m4 hl)
          · exact Or.inl (by simpa using hl)
      · refine ⟨ρ, (ih hπ.tail ρ).mpr ⟨m1, hT.mono _ _ _ m2, ?_⟩, ?_⟩
        · simp only [List.length_cons] at m4
          rcases Nat.lt_or_ge ρ.length τ.length with h | h
          · exact Or.inr ⟨m3, h⟩
          · exact Or.inl ⟨by omega, fun _ => m3⟩
        · rw [if_pos m3, if_pos m2]; simp

theorem mem_inter (hT : T.Laws) {i : ℕ} {τ : Path} (hπ : T.Mem (i :: τ)) (ρ : Path) :
    ρ ∈ T.inter (i :: τ) ↔ T.Mem ρ ∧ T.adj (i :: τ) ρ = false ∧
      ∃ j ν, ρ = j :: ν ∧ ν.length = τ.length ∧ T.adj τ ν = true := by
  have hτl := hπ.parent_not_leaf
  simp only [inter, List.mem_flatMap]
  constructor
  · rintro ⟨ν, hν, h⟩
    obtain ⟨m1, m2, m3⟩ := (mem_own hT hπ.tail ν).mp hν
    split_ifs at h with h1
    · simp at h
    · simp only [List.mem_filter, mem_kids, Bool.not_eq_true'] at h
      obtain ⟨⟨j, hj, rfl⟩, h3⟩ := h
      have hνl : T.leaf ν = false := by simpa using h1
      refine ⟨m1.cons hνl hj, h3, j, ν, rfl, ?_, m2⟩
      rcases m3 with m3 | m3
      · exact m3.1
      · rw [m3.1] at hνl; simp at hνl
  · rintro ⟨m1, m2, j, ν, rfl, m3, m4⟩
    have hνl := m1.parent_not_leaf
    refine ⟨ν, (mem_own hT hπ.tail ν).mpr ⟨m1.tail, m4, Or.inl ⟨m3, by rw [hτl]; simp⟩⟩, ?_⟩
    rw [if_neg (by rw [hνl]; simp)]
    simp only [List.mem_filter, mem_kids, Bool.not_eq_true']
    exact ⟨⟨j, m1.lt, rfl⟩, m2⟩

theorem mem_xl (hT : T.Laws) {i : ℕ} {τ : Path} (hπ : T.Mem (i :: τ)) (ρ : Path) :
    ρ ∈ T.xl (i :: τ) ↔ T.Mem ρ ∧ T.leaf ρ = true ∧ ρ.length < (i :: τ).length ∧ T.adj τ ρ = true ∧
      T.adj (i :: τ) ρ = false := by
  simp only [xl, List.mem_filter, Bool.and_eq_true, Bool.not_eq_true', mem_own hT hπ.tail, List.length_cons]
  constructor
  · rintro ⟨⟨m1, m2, m3⟩, m4, m5⟩
    exact ⟨m1, m4, by omega, m2, m5⟩
  · rintro ⟨m1, m2, m3, m4, m5⟩
    refine ⟨⟨m1, m4, ?_⟩, m2, m5⟩
    rcases Nat.lt_or_ge ρ.length τ.length with h | h
    · exact Or.inr ⟨m2, h⟩
    · exact Or.inl ⟨by omega, fun _ => m2⟩

theorem nodup_flatMap_kids {f : Path → List Path} {l : List Path} (n : ℕ) (hl : l.Nodup)
    (hf : ∀ ν ∈ l, (f ν).Nodup)
    (hd : ∀ ν ∈ l, ∀ ρ ∈ f ν, (T.leaf ν = true → ρ = ν) ∧ (T.leaf ν = false → ∃ j, ρ = j :: ν))
    (hn : ∀ ν ∈ l, ν.length ≤ n ∧ (T.leaf ν = false → ν.length = n)) : (l.flatMap f).Nodup := by
  rw [List.nodup_flatMap]
  refine ⟨hf, List.Pairwise.imp_of_mem ?_ hl⟩
  intro a b ha hb hab x hxa hxb
  have h1 := hd a ha x hxa
  have h2 := hd b hb x hxb
  by_cases la : T.leaf a = true <;> by_cases lb : T.leaf b = true
  · exact hab ((h1.1 la).symm.trans (h2.1 lb))
  · have e1 := h1.1 la
    obtain ⟨j, e2⟩ := h2.2 (by simpa using lb)
    have := (hn b hb).2 (by simpa using lb)
    have h3 := (hn a ha).1
    rw [← e1, e2, List.length_cons] at h3
    omega
  · have e1 := h2.1 lb
    obtain ⟨j, e2⟩ := h1.2 (by simpa using la)
    have := (hn a ha).2 (by simpa using la)
    have h3 := (hn b hb).1
    rw [← e1, e2, List.length_cons] at h3
    omega
  · obtain ⟨i, e1⟩ := h1.2 (by simpa using la)
    obtain ⟨j, e2⟩ := h2.2 (by simpa using lb)
    rw [e1] at e2
    exact hab (List.cons.inj e2).2

theorem own_lengths (hT : T.Laws) {τ : Path} (hτ : T.Mem τ) (ν : Path) (h : ν ∈ T.own τ) :
    ν.length ≤ τ.length ∧ (T.leaf ν = false → ν.length = τ.length) := by
  obtain ⟨-, -, h⟩ := (mem_own hT hτ ν).mp h
  rcases h with h | h
  · exact ⟨h.1.le, fun _ => h.1⟩
  · exact ⟨h.2.le, fun h' => by rw [h.1] at h'; simp at h'⟩

theorem nodup_own (hT : T.Laws) {π : Path} (hπ : T.Mem π) : (T.own π).Nodup := by
  induction π with
  | nil => simp [own]
  | cons i τ ih =>
    simp only [own]
    refine nodup_flatMap_kids τ.length (ih hπ.tail) ?_ ?_ (own_lengths hT hπ.tail)
    · intro ν _
      split_ifs
      · simp
      · simp
      · exact (nodup_kids ν).filter _
    · intro ν _ ρ hρ
      constructor
      · intro hl
        rw [if_pos hl] at hρ
        split_ifs at hρ
        · simpa using hρ
        · simp at hρ
      · intro hl
        rw [if_neg (by rw [hl]; simp)] at hρ
        obtain ⟨j, _, h⟩ := mem_kids.mp (List.mem_filter.mp hρ).1
        exact ⟨j, h⟩

theorem nodup_inter (hT : T.Laws) {π : Path} (hπ : T.Mem π) : (T.inter π).Nodup := by
  cases π with
  | nil => simp [inter]
  | cons i τ =>
    simp only [inter]
    refine nodup_flatMap_kids τ.length (nodup_own hT hπ.tail) ?_ ?_ (own_lengths hT hπ.tail)
    · intro ν _
      split_ifs
      · simp
      · exact (nodup_kids ν).filter _
    · intro ν _ ρ hρ
      constructor
      · intro hl
        rw [if_pos hl] at hρ
        simp at hρ
      · intro hl
        rw [if_neg (by rw [hl]; simp)] at hρ
        obtain ⟨j, _, h⟩ := mem_kids.mp (List.mem_filter.mp hρ).1
        exact ⟨j, h⟩

theorem nodup_xl (hT : T.Laws) {π : Path} (hπ : T.Mem π) : (T.xl π).Nodup := by
  cases π with
  | nil => simp [xl]
  | cons i τ => exact (nodup_own hT hπ.tail).filter _

/-! ## Every leaf is accounted for exactly once -/

/-- The ancestor of depth `min k` of a path. -/
def trunc (S : Path) (k : ℕ) : Path := S.drop (S.length - k)

theorem trunc_length (S : Path) (k : ℕ) (h : k ≤ S.length) : (trunc S k).length = k := by
  simp [trunc]; omega

theorem trunc_suffix (S : Path) (k : ℕ) : trunc S k <:+ S := List.drop_suffix _ _

theorem trunc_of_le (S : Path) (k : ℕ) (h : S.length ≤ k) : trunc S k = S := by
  simp [trunc, Nat.sub_eq_zero_of_le h]

theorem eq_trunc_of_suffix {v S : Path} (h : v <:+ S) : v = trunc S v.length := by
  rw [List.suffix_iff_eq_drop] at h; exact h

theorem suffix_iff_trunc {v S : Path} : v <:+ S ↔ v = trunc S v.length :=
  ⟨eq_trunc_of_suffix, fun h => by rw [h]; exact trunc_suffix _ _⟩

/-- Parent of a truncation. -/
theorem trunc_succ (S : Path) (k : ℕ) (h : k < S.length) : ∃ j, trunc S (k + 1) = j :: trunc S k := by
  unfold trunc
  have h1 : S.length - (k + 1) < S.length := by omega
  refine ⟨S[S.length - (k + 1)], ?_⟩
  rw [List.drop_eq_getElem_cons h1]
  congr 2; omega

theorem countP_unique {l : List Path} (hl : l.Nodup) (a : Path) (P : Path → Bool)
    (hP : ∀ v ∈ l, P v = true → v = a) : l.countP P = if a ∈ l ∧ P a = true then 1 else 0 := by
  split_ifs with h
  · have h1 : l.countP P = l.countP (· == a) := by
      refine List.countP_congr fun v hv => ?_
      constructor
      · intro h'; simpa using hP v hv h'
      · intro h'; have : v = a := by simpa using h'
        subst this; exact h.2
    rw [h1]
    exact List.count_eq_one_of_mem hl h.1
  · rw [List.countP_eq_zero]
    intro v hv h'
    have := hP v hv h'
    subst this; exact h ⟨hv, h'⟩

/-- Number of V-list entries of `L` and its ancestors above `S`. -/
def vCount (T : PTree) (L S : Path) : ℕ :=
  (L.tails.map fun A => (T.inter A).countP fun v => decide (v <:+ S)).sum

/-- Number of times `S` is in an X list of `L` or its ancestors. -/
def xCount (T : PTree) (L S : Path) : ℕ := (L.tails.map fun A => (T.xl A).count S).sum

theorem vCount_cons (i : ℕ) (τ S : Path) : T.vCount (i :: τ) S
    = (T.inter (i :: τ)).countP (fun v => decide (v <:+ S)) + T.vCount τ S := by
  simp [vCount, List.tails]

theorem xCount_cons (i : ℕ) (τ S : Path) : T.xCount (i :: τ) S = (T.xl (i :: τ)).count S + T.xCount τ S := by
  simp [xCount, List.tails]

theorem inter_length (hT : T.Laws) {π : Path} (hπ : T.Mem π) {v : Path} (h : v ∈ T.inter π) :
    v.length = π.length := by
  cases π with
  | nil => simp [inter] at h
  | cons i τ =>
    obtain ⟨-, -, j, ν, rfl, h, -⟩ := (mem_inter hT hπ v).mp h
    simp [h]

theorem inter_countP (hT : T.Laws) {i : ℕ} {τ : Path} (hπ : T.Mem (i :: τ)) {S : Path} (hS : T.Mem S) :
    (T.inter (i :: τ)).countP (fun v => decide (v <:+ S))
      = if (i :: τ).length ≤ S.length ∧ T.adj τ (trunc S τ.length) = true ∧
          T.adj (i :: τ) (trunc S (τ.length + 1)) = false then 1 else 0 := by
  rw [countP_unique (nodup_inter hT hπ) (trunc S (τ.length + 1))]
  · refine if_congr ?_ rfl rfl
    simp only [decide_eq_true_eq, List.length_cons]
    constructor
    · rintro ⟨h1, -⟩
      have hl := inter_length hT hπ h1
      have hle : τ.length + 1 ≤ S.length := by
        have := List.IsSuffix.length_le (trunc_suffix S (τ.length + 1))
        rw [hl] at this; simpa using this
      obtain ⟨-, h2, j, ν, h3, h4, h5⟩ := (mem_inter hT hπ _).mp h1
      refine ⟨hle, ?_, h2⟩
      obtain ⟨j', hj'⟩ := trunc_succ S τ.length (by omega)
      rw [hj'] at h3
      rw [(List.cons.inj h3).2]; exact h5
    · rintro ⟨h1, h2, h3⟩
      refine ⟨(mem_inter hT hπ _).mpr ⟨hS.suffix (trunc_suffix _ _), h3, ?_⟩, trunc_suffix _ _⟩
      obtain ⟨j', hj'⟩ := trunc_succ S τ.length (by omega)
      exact ⟨j', trunc S τ.length, hj', trunc_length _ _ (by omega), h2⟩
  · intro v hv hs
    have := inter_length hT hπ hv
    rw [eq_trunc_of_suffix (of_decide_eq_true hs), this]; simp

theorem xl_count (hT : T.Laws) {i : ℕ} {τ : Path} (hπ : T.Mem (i :: τ)) {S : Path} (hS : T.Mem S)
    (hl : T.leaf S = true) : (T.xl (i :: τ)).count S
      = if S.length < (i :: τ).length ∧ T.adj τ S = true ∧ T.adj (i :: τ) S = false then 1 else 0 := by
  split_ifs with h
  · exact List.count_eq_one_of_mem (nodup_xl hT hπ) ((mem_xl hT hπ S).mpr ⟨hS, hl, h.1, h.2.1, h.2.2⟩)
  · rw [List.count_eq_zero]
    intro h'
    obtain ⟨-, -, h1, h2, h3⟩ := (mem_xl hT hπ S).mp h'
    exact h ⟨h1, h2, h3⟩

/-- Number (0 or 1) of truncation pairs that are still adjacent at the smaller depth. -/
def both (T : PTree) (L S : Path) : ℕ := (T.adj (trunc L S.length) (trunc S L.length)).toNat

theorem vCount_eq (hT : T.Laws) {L S : Path} (hL : T.Mem L) (hS : T.Mem S) :
    T.vCount L S + T.both L S = 1 := by
  induction L with
  | nil =>
    have h1 : trunc S 0 = [] := List.length_eq_zero_iff.mp (trunc_length S 0 (by simp))
    have h2 : trunc [] S.length = [] := by simp [trunc]
    simp [vCount, both, h1, h2, hT.refl, List.tails, inter]
  | cons i τ ih =>
    have ih := ih hL.tail
    rw [vCount_cons, inter_countP hT hL hS]
    unfold both at ih ⊢
    rcases Nat.lt_or_ge τ.length S.length with h | h
    · -- both sides are cut at the depth of `L`
      rw [trunc_of_le (i :: τ) S.length (by simpa using h)]
      rw [trunc_of_le τ S.length (by omega)] at ih
      simp only [List.length_cons]
      obtain ⟨j, hj⟩ := trunc_succ S τ.length h
      by_cases ha : T.adj (i :: τ) (trunc S (τ.length + 1)) = true
      · have hb : T.adj τ (trunc S τ.length) = true := by
          rw [hj] at ha; exact hT.mono _ _ _ (hT.adj_parent ha)
        rw [hb] at ih
        rw [ha]
        simp only [Bool.toNat_true] at ih ⊢
        rw [if_neg (by simp)]
        omega
      · have ha' : T.adj (i :: τ) (trunc S (τ.length + 1)) = false := by simpa using ha
        rw [ha']
        by_cases hb : T.adj τ (trunc S τ.length) = true
        · rw [hb] at ih ⊢
          rw [if_pos ⟨by omega, rfl, rfl⟩]
          simp only [Bool.toNat_true, Bool.toNat_false] at ih ⊢
          omega
        · have hb' : T.adj τ (trunc S τ.length) = false := by simpa using hb
          rw [hb'] at ih ⊢
          rw [if_neg (by simp)]
          simp only [Bool.toNat_false] at ih ⊢
          omega
    · rw [if_neg (by simp only [List.length_cons]; omega)]
      have h1 : trunc S (i :: τ).length = trunc S τ.length := by
        rw [trunc_of_le S _ (by simp only [List.length_cons]; omega), trunc_of_le S _ h]
      have h2 : trunc (i :: τ) S.length = trunc τ S.length := by
        unfold trunc
        have : (i :: τ).length - S.length = (τ.length - S.length) + 1 := by
          simp only [List.length_cons]; omega
        rw [this, List.drop_succ_cons]
      rw [h1, h2]; omega

theorem xCount_eq (hT : T.Laws) {L S : Path} (hL : T.Mem L) (hS : T.Mem S) (hl : T.leaf S = true) :
    (S.length ≤ L.length → T.xCount L S + (T.adj L S).toNat = T.both L S) ∧
      (L.length ≤ S.length → T.xCount L S = 0) := by
  induction L with
  | nil =>
    refine ⟨fun h => ?_, fun _ => by simp [xCount, List.tails, xl]⟩
    have : S = [] := List.length_eq_zero_iff.mp (by simpa using h)
    subst this
    simp [xCount, List.tails, xl, both, trunc]
  | cons i τ ih =>
    obtain ⟨ih1, ih2⟩ := ih hL.tail
    rw [xCount_cons, xl_count hT hL hS hl]
    refine ⟨fun h => ?_, fun h => ?_⟩
    · rcases Nat.lt_or_ge τ.length S.length with h' | h'
      · have he : S.length = (i :: τ).length := by simp only [List.length_cons] at h ⊢; omega
        rw [if_neg (by omega), ih2 (by omega)]
        unfold both
        rw [trunc_of_le _ _ he.symm.le, trunc_of_le _ _ he.le]; simp
      · have ih1 := ih1 h'
        have h2 : T.both (i :: τ) S = T.both τ S := by
          unfold both
          have h1 : trunc S (i :: τ).length = trunc S τ.length := by
            rw [trunc_of_le S _ (by simp only [List.length_cons]; omega), trunc_of_le S _ h']
          have h2 : trunc (i :: τ) S.length = trunc τ S.length := by
            unfold trunc
            have : (i :: τ).length - S.length = (τ.length - S.length) + 1 := by
              simp only [List.length_cons]; omega
            rw [this, List.drop_succ_cons]
          rw [h1, h2]
        rw [h2]
        by_cases ha : T.adj (i :: τ) S = true
        · have hb := hT.mono _ _ _ ha
          rw [hb] at ih1
          rw [ha, if_neg (by simp)]
          omega
        · have ha' : T.adj (i :: τ) S = false := by simpa using ha
          rw [ha']
          by_cases hb : T.adj τ S = true
          · rw [hb] at ih1 ⊢
            rw [if_pos ⟨by simp only [List.length_cons]; omega, rfl, rfl⟩]
            simp only [Bool.toNat_true, Bool.toNat_false] at ih1 ⊢
            omega
          · have hb' : T.adj τ S = false := by simpa using hb
            rw [hb'] at ih1 ⊢
            rw [if_neg (by simp)]
            simp only [Bool.toNat_false] at ih1 ⊢
            omega
    · simp only [List.length_cons] at h
      rw [if_neg (by simp only [List.length_cons]; omega), ih2 (by omega)]

theorem both_comm (hT : T.Laws) (L S : Path) : T.both L S = T.both S L := by
  unfold both; rw [hT.symm]

/-- Every leaf `S` is reached from the leaf `L` exactly once: as a near neighbour, through a V list, an X list,
or (dually) a W list. -/
theorem exactly_once (hT : T.Laws) {L S : Path} (hL : T.Mem L) (hS : T.Mem S) (hLl : T.leaf L = true)
    (hSl : T.leaf S = true) :
    (T.adj L S).toNat + T.vCount L S + T.xCount L S + T.xCount S L = 1 := by
  have h1 := vCount_eq hT hL hS
  have h2 := xCount_eq hT hL hS hSl
  have h3 := xCount_eq hT hS hL hLl
  have h4 := both_comm hT L S
  have h5 := hT.symm L S
  rcases Nat.le_total S.length L.length with h | h
  · have := h2.1 h
    have := h3.2 h
    omega
  · have h6 := h3.1 h
    rw [hT.symm S L] at h6
    have := h2.2 h
    omega

end PTree
end FMM
