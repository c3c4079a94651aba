import Verif.AdaptiveTree

/-!
# Breadth-first order of a tree of paths
-/

namespace FMM
namespace PTree
variable (T : PTree)

/-- Children that exist. -/
def ch (π : Path) : List Path := if T.leaf π then [] else T.kids π

/-- Nodes of depth `k`. -/
def level (k : ℕ) : List Path := bfsLevel T.ch [] k

/-- All nodes of depth less than `h` in breadth-first order. -/
def order (h : ℕ) : List Path := bfsOrder T.ch [] h

variable {T}

theorem mem_ch {π ρ : Path} : ρ ∈ T.ch π ↔ T.leaf π = false ∧ ∃ i < T.c, ρ = i :: π := by
  unfold ch
  split_ifs with h
  · simp [h]
  · rw [mem_kids]; simp [h]

theorem nodup_ch (π : Path) : (T.ch π).Nodup := by
  unfold ch; split_ifs
  · simp
  · exact nodup_kids π

theorem mem_level (k : ℕ) (π : Path) : π ∈ T.level k ↔ T.Mem π ∧ π.length = k := by
  induction k generalizing π with
  | zero =>
    simp only [level, bfsLevel, List.mem_singleton]
    constructor
    · rintro rfl; exact ⟨mem_nil, rfl⟩
    · rintro ⟨_, h⟩; exact List.length_eq_zero_iff.mp h
  | succ k ih =>
    have : T.level (k + 1) = (T.level k).flatMap T.ch := rfl
    rw [this, List.mem_flatMap]
    constructor
    · rintro ⟨τ, hτ, h⟩
      obtain ⟨hl, i, hi, rfl⟩ := mem_ch.mp h
      obtain ⟨h1, h2⟩ := (ih τ).mp hτ
      exact ⟨h1.cons hl hi, by simp [h2]⟩
    · rintro ⟨h1, h2⟩
      cases π with
      | nil => simp at h2
      | cons i τ =>
        exact ⟨τ, (ih τ).mpr ⟨h1.tail, by simpa using h2⟩, mem_ch.mpr ⟨h1.parent_not_leaf, i, h1.lt, rfl⟩⟩

theorem nodup_level (k : ℕ) : (T.level k).Nodup := by
  induction k with
  | zero => simp [level, bfsLevel]
  | succ k ih =>
    have : T.level (k + 1) = (T.level k).flatMap T.ch := rfl
    rw [this, List.nodup_flatMap]
    refine ⟨fun π _ => nodup_ch π, List.Pairwise.imp ?_ ih⟩
    intro a b hab x h1 h2
    obtain ⟨_, i, _, rfl⟩ := mem_ch.mp h1
    obtain ⟨_, j, _, e⟩ := mem_ch.mp h2
    exact hab (List.cons.inj e).2

theorem mem_order (h : ℕ) (π : Path) : π ∈ T.order h ↔ T.Mem π ∧ π.length < h := by
  have : T.order h = (List.range h).flatMap T.level := rfl
  rw [this, List.mem_flatMap]
  constructor
  · rintro ⟨k, hk, hπ⟩
    obtain ⟨h1, h2⟩ := (mem_level k π).mp hπ
    exact ⟨h1, by rw [h2]; exact List.mem_range.mp hk⟩
  · rintro ⟨h1, h2⟩
    exact ⟨π.length, List.mem_range.mpr h2, (mem_level _ π).mpr ⟨h1, rfl⟩⟩

theorem nodup_order (h : ℕ) : (T.order h).Nodup := by
  have : T.order h = (List.range h).flatMap T.level := rfl
  rw [this, List.nodup_flatMap]
  refine ⟨fun k _ => nodup_level k, List.Pairwise.imp ?_ List.nodup_range⟩
  intro i j hij a ha hb
  exact hij (((mem_level i a).mp ha).2.symm.trans ((mem_level j a).mp hb).2)

theorem order_sorted (h : ℕ) : (T.order h).Pairwise (fun a b => a.length ≤ b.length) := by
  have : T.order h = (List.range h).flatMap T.level := rfl
  rw [this, List.pairwise_flatMap]
  refine ⟨fun k _ => ?_, ?_⟩
  · refine List.Pairwise.imp_of_mem ?_ (nodup_level (T := T) k)
    intro a b ha hb _
    rw [((mem_level k a).mp ha).2, ((mem_level k b).mp hb).2]
  · refine List.Pairwise.imp ?_ List.pairwise_lt_range
    intro i j hij a ha b hb
    rw [((mem_level i a).mp ha).2, ((mem_level j b).mp hb).2]; exact hij.le

/-- Nodes which are less deep have been visited before. -/
theorem order_prefix {h : ℕ} {d1 d2 : List Path} {π : Path} (e : T.order h = d1 ++ π :: d2) :
    T.Mem π ∧ π ∉ d1 ∧ (∀ ρ, T.Mem ρ → ρ.length < π.length → ρ ∈ d1) ∧ ∀ ρ ∈ d1, T.Mem ρ ∧ ρ.length ≤ π.length := by
  have hm : π ∈ T.order h := by rw [e]; simp
  have hπ := (mem_order h π).mp hm
  have hnd := nodup_order (T := T) h
  have hs := order_sorted (T := T) h
  rw [e] at hnd hs
  refine ⟨hπ.1, ?_, ?_, ?_⟩
  · rw [List.nodup_append] at hnd
    intro hin
    exact hnd.2.2 π hin π (by simp) rfl
  · intro ρ h1 h2
    have : ρ ∈ T.order h := (mem_order h ρ).mpr ⟨h1, by omega⟩
    rw [e] at this
    rcases List.mem_append.mp this with h3 | h3
    · exact h3
    · exfalso
      rw [List.pairwise_append] at hs
      rcases List.mem_cons.mp h3 with rfl | h3
      · omega
      · have := (List.pairwise_cons.mp hs.2.1).1 ρ h3; omega
  · intro ρ hρ
    have h1 : ρ ∈ T.order h := by rw [e]; simp [hρ]
    rw [List.pairwise_append] at hs
    exact ⟨((mem_order h ρ).mp h1).1, hs.2.2 ρ hρ π (by simp)⟩

theorem level_nil {h : ℕ} (hh : ∀ π, T.Mem π → π.length < h) : T.level h = [] := by
  rw [List.eq_nil_iff_forall_not_mem]
  intro π hπ
  obtain ⟨h1, h2⟩ := (mem_level h π).mp hπ
  have := hh π h1
  omega

end PTree
end FMM
