import Verif.LinScaleTree
import Verif.LinKits
import Verif.PropsLinear

/-!
# Exchange of a source and an evaluation point
-/

namespace FMM
variable {d : ℕ} {p : ℕ}

/-- Exchange of source and evaluation point in the operations. -/
structure RecipLaws {K : Kit d} {O : Obs K ℝ} {L : FmmLaws K O p} (Q : LinLaws L) : Prop where
  m2p : ∀ a u y : Vec d, y ≠ a → Q.m2p a ⟨u, 1⟩ y = Q.p2l a ⟨y, 1⟩ u
  p2p : ∀ u y : Vec d, Q.p2p ⟨u, 1⟩ y = Q.p2p ⟨y, 1⟩ u

namespace Rc
open Lin Sc
variable {K : Kit d} {O : Obs K ℝ} {L : FmmLaws K O p} {Q : LinLaws L}

/-- A node and its ancestors. -/
def anc (A : Path) : Finset Path := A.tails.toFinset

theorem mem_anc {A ρ : Path} : ρ ∈ anc A ↔ ρ <:+ A := by rw [anc, List.mem_toFinset, List.mem_tails]

theorem anc_cons (i : ℕ) (τ : Path) : anc (i :: τ) = insert (i :: τ) (anc τ) := by
  ext ρ
  rw [Finset.mem_insert, mem_anc, mem_anc, List.suffix_cons_iff]

theorem not_mem_anc (i : ℕ) (τ : Path) : i :: τ ∉ anc τ := by
  rw [mem_anc]
  intro h
  have := h.length_le
  simp at this

open Classical in
/-- The members of a list that contain a point. -/
theorem pick {T : PTree} {r : Box d} {y : Vec d} {k : ℕ} (hk : T.Mem (FMM.route r y k)) (lk : T.leaf (FMM.route r y k) = true) {l : List Path}
    (hn : l.Nodup) (hl : ∀ ρ ∈ l, T.Mem ρ) (f : Path → ℝ) :
    (l.map fun ρ => if FMM.route r y ρ.length = ρ then f ρ else 0).sum = ∑ ρ ∈ anc (FMM.route r y k), if ρ ∈ l then f ρ else 0 := by
  rw [← List.sum_toFinset _ hn, ← Finset.sum_filter, ← Finset.sum_filter]
  refine Finset.sum_congr ?_ fun _ _ => rfl
  ext ρ
  rw [Finset.mem_filter, Finset.mem_filter, List.mem_toFinset, mem_anc]
  constructor
  · rintro ⟨h1, h2⟩
    exact ⟨(leaf_mem_of_route T r y hk lk (hl ρ h1)).mp h2, h1⟩
  · rintro ⟨h1, h2⟩
    exact ⟨h2, (leaf_mem_of_route T r y hk lk (hl ρ h2)).mpr h1⟩

open Classical in
/-- The far field, as a sum over pairs of ancestors. -/
theorem farT_pairs (Q : LinLaws L) {T : PTree} {r : Box d} (hL : T.Laws) {y : Vec d} {k : ℕ} (hk : T.Mem (FMM.route r y k))
    (lk : T.leaf (FMM.route r y k) = true) (x : Vec d) : ∀ A, T.Mem A →
      farT Q T r ⟨y, 1⟩ A x
        = (∑ α ∈ anc A, ∑ ρ ∈ anc (FMM.route r y k), if ρ ∈ T.inter α then Q.m2l (FMM.boxAt r ρ).center (FMM.boxAt r α).center ⟨y, 1⟩ x else 0) +
          ∑ α ∈ anc A, ∑ ρ ∈ anc (FMM.route r y k), if ρ ∈ T.xl α then Q.p2l (FMM.boxAt r α).center ⟨y, 1⟩ x else 0
  | [], _ => by
    have e : anc [] = {[]} := rfl
    rw [e]
    simp [farT, PTree.inter, PTree.xl]
  | i :: τ, hA => by
    have hi : ∀ ρ ∈ T.inter (i :: τ), T.Mem ρ := fun ρ hρ => ((PTree.mem_inter hL hA ρ).mp hρ).1
    have hx : ∀ ρ ∈ T.xl (i :: τ), T.Mem ρ := fun ρ hρ => ((PTree.mem_xl hL hA ρ).mp hρ).1
    simp only [farT]
    rw [farT_pairs Q hL hk lk x τ hA.tail, anc_cons, Finset.sum_insert (not_mem_anc i τ), Finset.sum_insert (not_mem_anc i τ),
      pick hk lk (PTree.nodup_inter hL hA) hi fun ρ => Q.m2l (FMM.boxAt r ρ).center (FMM.boxAt r (i :: τ)).center ⟨y, 1⟩ x,
      pick hk lk (PTree.nodup_xl hL hA) hx fun ρ => Q.p2l (FMM.boxAt r (i :: τ)).center ⟨y, 1⟩ x]
    ring

/-- Interaction lists are symmetric. -/
theorem inter_symm {T : PTree} (hL : T.Laws) {α ρ : Path} (hα : T.Mem α) (h : ρ ∈ T.inter α) : α ∈ T.inter ρ := by
  cases α with
  | nil => simp [PTree.inter] at h
  | cons i τ =>
    obtain ⟨h1, h2, j, ν, rfl, h4, h5⟩ := (PTree.mem_inter hL hα ρ).mp h
    exact (PTree.mem_inter hL h1 _).mpr ⟨hα, by rw [hL.symm]; exact h2, i, τ, rfl, h4.symm, by rw [hL.symm]; exact h5⟩

theorem inter_symm_iff {T : PTree} (hL : T.Laws) {α ρ : Path} (hα : T.Mem α) (hρ : T.Mem ρ) : ρ ∈ T.inter α ↔ α ∈ T.inter ρ :=
  ⟨inter_symm hL hα, inter_symm hL hρ⟩

open Classical in
/-- Only the leaf itself, among the ancestors of a leaf, is a leaf. -/
theorem leaf_pick {T : PTree} {B : Path} (hB : T.Mem B) {l : List Path} (hl : ∀ ρ ∈ l, T.leaf ρ = true) (v : ℝ) :
    (∑ ρ ∈ anc B, if ρ ∈ l then v else 0) = if B ∈ l then v else 0 := by
  rw [Finset.sum_eq_single B]
  · intro ρ hρ hne
    rw [if_neg]
    intro h
    exact hne (hB.eq_of_leaf_suffix (hl ρ h) (mem_anc.mp hρ))
  · intro h
    exact absurd (mem_anc.mpr (List.suffix_refl B)) h

theorem mem_xl_leaf {T : PTree} (hL : T.Laws) {α ρ : Path} (hα : T.Mem α) (h : ρ ∈ T.xl α) :
    T.Mem ρ ∧ T.leaf ρ = true ∧ ρ.length < α.length ∧ T.adj α ρ = false := by
  cases α with
  | nil => simp [PTree.xl] at h
  | cons i τ =>
    obtain ⟨a, b, c, -, e⟩ := (PTree.mem_xl hL hα ρ).mp h
    exact ⟨a, b, c, e⟩

open Classical in
/-- The part of a contribution that is due to conversions of multipole to local expansions. -/
noncomputable def conv (Q : LinLaws L) (T : PTree) (r : Box d) (A B : Path) (x y : Vec d) : ℝ :=
  ∑ α ∈ anc A, ∑ ρ ∈ anc B, if ρ ∈ T.inter α then Q.m2l (FMM.boxAt r ρ).center (FMM.boxAt r α).center ⟨y, 1⟩ x else 0

open Classical in
/-- All that changes on exchange of `x` and `y` is due to conversions. -/
theorem kern_exchange (H : RecipLaws Q) {T : PTree} {r : Box d} (hA : AdjOf T r) (hr : 0 < r.len) {n : ℕ} (hh : ∀ π, T.Mem π → π.length < n)
    {k : Vec d → ℕ} (hk1 : ∀ x, T.Mem (FMM.route r x (k x))) (hk2 : ∀ x, T.leaf (FMM.route r x (k x)) = true) {x y : Vec d} (hx : r.contains x)
    (hy : r.contains y) :
    kern Q T r n k x y - kern Q T r n k y x = conv Q T r (FMM.route r x (k x)) (FMM.route r y (k y)) x y
      - conv Q T r (FMM.route r y (k y)) (FMM.route r x (k x)) y x := by
  have hL := hA.laws hr
  have e : ∀ x y : Vec d, kern Q T r n k x y = conv Q T r (FMM.route r x (k x)) (FMM.route r y (k y)) x y
      + (∑ α ∈ anc (FMM.route r x (k x)), if FMM.route r y (k y) ∈ T.xl α then Q.p2l (FMM.boxAt r α).center ⟨y, 1⟩ x else 0)
      + (∑ ρ ∈ anc (FMM.route r y (k y)), if FMM.route r x (k x) ∈ T.xl ρ then Q.m2p (FMM.boxAt r ρ).center ⟨y, 1⟩ x else 0)
      + if T.adj (FMM.route r x (k x)) (FMM.route r y (k y)) = true then Q.p2p ⟨y, 1⟩ x else 0 := by
    intro x y
    unfold kern term
    rw [farT_pairs Q hL (hk1 y) (hk2 y) x _ (hk1 x),
      pick (hk1 y) (hk2 y) (PTree.nodup_W _) (fun ρ hρ => ((PTree.mem_W hh _ ρ).mp hρ).1) fun ρ => Q.m2p (FMM.boxAt r ρ).center ⟨y, 1⟩ x,
      pick (hk1 y) (hk2 y) (PTree.nodup_near_leaf hL hh (hk1 x)) (fun ρ hρ => ((PTree.mem_near_leaf hL hh (hk1 x) (hk2 x) ρ).mp hρ).1)
        fun ρ => Q.p2p ⟨y, 1⟩ x,
      leaf_pick (hk1 y) fun ρ hρ => ((PTree.mem_near_leaf hL hh (hk1 x) (hk2 x) ρ).mp hρ).2.1]
    refine congrArg₂ (· + ·) (congrArg₂ (· + ·) (congrArg₂ (· + ·) rfl ?_) ?_) ?_
    · refine Finset.sum_congr rfl fun α hα => ?_
      exact leaf_pick (hk1 y) (fun ρ hρ => (mem_xl_leaf hL ((hk1 x).suffix (mem_anc.mp hα)) hρ).2.1) _
    · refine Finset.sum_congr rfl fun ρ hρ => ?_
      have hm := (hk1 y).suffix (mem_anc.mp hρ)
      simp only [PTree.mem_W hh, hm, true_and]
    · simp only [PTree.mem_near_leaf hL hh (hk1 x) (hk2 x), hk1 y, hk2 y, true_and]
  have ex : ∀ x y : Vec d, r.contains y → (∑ α ∈ anc (FMM.route r x (k x)), if FMM.route r y (k y) ∈ T.xl α then Q.p2l (FMM.boxAt r α).center ⟨y, 1⟩ x else 0)
      = ∑ ρ ∈ anc (FMM.route r x (k x)), if FMM.route r y (k y) ∈ T.xl ρ then Q.m2p (FMM.boxAt r ρ).center ⟨x, 1⟩ y else 0 := by
    intro x y hy
    refine Finset.sum_congr rfl fun α hα => ?_
    by_cases hm : FMM.route r y (k y) ∈ T.xl α
    · rw [if_pos hm, if_pos hm]
      refine (H.m2p _ _ _ ?_).symm
      obtain ⟨-, -, h3, h4⟩ := mem_xl_leaf hL ((hk1 x).suffix (mem_anc.mp hα)) hm
      obtain ⟨j, hj⟩ := point_dist_of_not_adjacent r hr α (FMM.route r y (k y)) h3.le (by have := hA α (FMM.route r y (k y)); rw [h4] at this; simpa using this)
      exact ne_of_dist (boxAt_len_pos r hr α) (by norm_num) (hj y (route_contains r y hy (k y)))
    · rw [if_neg hm, if_neg hm]
  rw [e x y, e y x, ex x y hy, ex y x hx, hL.symm (FMM.route r y (k y)), H.p2p y x]
  ring

open Classical in
theorem conv_exchange (hm : ∀ a b u y : Vec d, a ≠ b → Q.m2l a b ⟨u, 1⟩ y = Q.m2l b a ⟨y, 1⟩ u) {T : PTree} {r : Box d} (hA : AdjOf T r) (hr : 0 < r.len)
    {A B : Path} (hB : T.Mem B) (hAm : T.Mem A) (x y : Vec d) : conv Q T r A B x y = conv Q T r B A y x := by
  have hL := hA.laws hr
  unfold conv
  rw [Finset.sum_comm]
  refine Finset.sum_congr rfl fun ρ hρ => Finset.sum_congr rfl fun α hα => ?_
  have mα := hAm.suffix (mem_anc.mp hα)
  have mρ := hB.suffix (mem_anc.mp hρ)
  by_cases h : ρ ∈ T.inter α
  · rw [if_pos h, if_pos (inter_symm hL mα h)]
    refine hm _ _ _ _ ?_
    have hlen := PTree.inter_length hL mα h
    have m2 : T.adj α ρ = false := by
      cases α with
      | nil => simp [PTree.inter] at h
      | cons i τ => exact ((PTree.mem_inter hL mα ρ).mp h).2.1
    obtain ⟨j, hj⟩ := center_dist_of_not_adjacent r hr α ρ hlen.symm (by have := hA α ρ; rw [m2] at this; simpa using this)
    rw [abs_sub_comm] at hj
    exact ne_of_dist (boxAt_len_pos r hr _) (by norm_num) hj
  · rw [if_neg h, if_neg fun h' => h (inter_symm hL mρ h')]

end Rc
end FMM
