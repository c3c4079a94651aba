import Verif.Bfs
import Mathlib.Logic.Relation
import Mathlib.Data.List.Pairwise

/-!
# C14: breadth-first traversal
-/

namespace FMM
variable {A : Type}

/-- `b` is a (non-null) child of `a`. -/
def IsChild (n : ℕ) (children : A → ℕ → Option A) (a b : A) : Prop := ∃ i < n, children a i = some b

theorem mem_pushKids (n : ℕ) (c : ℕ → Option A) (b : A) : b ∈ pushKids n c ↔ ∃ i < n, c i = some b := by
  simp [pushKids]

theorem mem_bfsLevel_depth (n : ℕ) (children : A → ℕ → Option A) (root : A) (depth : A → ℕ)
    (h0 : depth root = 0) (hd : ∀ a b, IsChild n children a b → depth b = depth a + 1) (k : ℕ) (a : A)
    (h : a ∈ bfsLevel (fun a => pushKids n (children a)) root k) : depth a = k := by
  induction k generalizing a with
  | zero => simp only [bfsLevel, List.mem_singleton] at h; rw [h, h0]
  | succ k ih =>
    simp only [bfsLevel, List.mem_flatMap] at h
    obtain ⟨p, hp, h⟩ := h
    rw [hd p a ((mem_pushKids _ _ _).mp h), ih p hp]

/-- **C14** On every finite tree (given by child pointers, `depth` the distance from the root) the traversal
calls the visitor on exactly the nodes reachable from the root, once each, in order of non-decreasing depth - in
particular on a node before its children. -/
theorem C14_bfs (n : ℕ) (children : A → ℕ → Option A) (root : A) (depth : A → ℕ) (h : ℕ)
    (h0 : depth root = 0) (hd : ∀ a b, IsChild n children a b → depth b = depth a + 1)
    (hfin : ∀ a, Relation.ReflTransGen (IsChild n children) root a → depth a < h)
    (htree : ∀ a i b j c, i < n → j < n → children a i = some c → children b j = some c → a = b ∧ i = j) :
    ∃ log : List A, (∃ fuel0, ∀ fuel ≥ fuel0, traverseBFS n (fun _ a => .ok (children a))
        (fun l a => .ok (l ++ [a])) fuel root [] = .ok log) ∧
      (∀ a, a ∈ log ↔ Relation.ReflTransGen (IsChild n children) root a) ∧ log.Nodup ∧
      log.Pairwise (fun a b => depth a ≤ depth b) ∧
      (∀ l1 b l2, log = l1 ++ b :: l2 → ∀ a, IsChild n children a b → a ∈ log → a ∈ l1) := by
  set ch : A → List A := fun a => pushKids n (children a) with hch
  have hlev : ∀ k a, a ∈ bfsLevel ch root k → Relation.ReflTransGen (IsChild n children) root a := by
    intro k
    induction k with
    | zero => intro a ha; simp only [bfsLevel, List.mem_singleton] at ha; rw [ha]
    | succ k ih =>
      intro a ha
      simp only [bfsLevel, List.mem_flatMap] at ha
      obtain ⟨p, hp, ha⟩ := ha
      exact (ih p hp).tail ((mem_pushKids _ _ _).mp ha)
  have hdep := mem_bfsLevel_depth n children root depth h0 hd
  have hempty : bfsLevel ch root h = [] := by
    rw [List.eq_nil_iff_forall_not_mem]
    intro a ha
    have := hfin a (hlev h a ha)
    rw [hdep h a ha] at this
    omega
  obtain ⟨s', k1, k2, k3⟩ := traverseBFS_eq n (fun _ a => .ok (children a)) (fun l a => .ok (l ++ [a])) ch root
    (fun done s => s = done) h hempty (by
      intro d1 a d2 _ s hs
      exact ⟨s ++ [a], children a, rfl, by rw [hs], rfl, rfl⟩) [] rfl
  have hmem : ∀ a, a ∈ bfsOrder ch root h ↔ ∃ k < h, a ∈ bfsLevel ch root k := by
    intro a; simp [bfsOrder]
  have hreach : ∀ a, Relation.ReflTransGen (IsChild n children) root a → a ∈ bfsLevel ch root (depth a) := by
    intro a ha
    induction ha with
    | refl => rw [h0]; simp [bfsLevel]
    | tail _ hbc ih =>
      rw [hd _ _ hbc]
      simp only [bfsLevel, List.mem_flatMap]
      exact ⟨_, ih, (mem_pushKids _ _ _).mpr hbc⟩
  have hnd : ∀ k, (bfsLevel ch root k).Nodup := by
    intro k
    induction k with
    | zero => simp [bfsLevel]
    | succ k ih =>
      simp only [bfsLevel]
      rw [List.nodup_flatMap]
      refine ⟨fun a _ => ?_, ?_⟩
      · rw [hch]
        unfold pushKids
        have e : (List.range n).filterMap (children a)
            = (List.range n).filterMap fun i => if i < n then children a i else none := by
          refine List.filterMap_congr fun i hi => ?_
          rw [if_pos (List.mem_range.mp hi)]
        show ((List.range n).filterMap (children a)).Nodup
        rw [e]
        refine List.Nodup.filterMap ?_ List.nodup_range
        intro i j b hi hj
        by_cases h1 : i < n
        · by_cases h2 : j < n
          · rw [if_pos h1] at hi
            rw [if_pos h2] at hj
            exact (htree a i a j b h1 h2 hi hj).2
          · rw [if_neg h2] at hj; simp at hj
        · rw [if_neg h1] at hi; simp at hi
      · refine List.Pairwise.imp ?_ ih
        intro a b hab x hxa hxb
        obtain ⟨i, hi, h1⟩ := (mem_pushKids _ _ _).mp hxa
        obtain ⟨j, hj, h2⟩ := (mem_pushKids _ _ _).mp hxb
        exact hab (htree a i b j x hi hj h1 h2).1
  have hpw : (bfsOrder ch root h).Pairwise (fun a b => depth a ≤ depth b) := by
    unfold bfsOrder
    rw [List.pairwise_flatMap]
    refine ⟨fun k _ => ?_, ?_⟩
    · refine List.Pairwise.imp_of_mem ?_ (hnd k)
      intro a b ha hb _
      rw [hdep k a ha, hdep k b hb]
    · refine List.Pairwise.imp ?_ List.pairwise_lt_range
      intro i j hij a ha b hb
      rw [hdep i a ha, hdep j b hb]; exact hij.le
  refine ⟨bfsOrder ch root h, ⟨_, fun fuel hf => by rw [k3 fuel hf, k2]⟩, ?_, ?_, hpw, ?_⟩
  · intro a
    rw [hmem]
    constructor
    · rintro ⟨k, _, ha⟩; exact hlev k a ha
    · intro ha; exact ⟨depth a, hfin a ha, hreach a ha⟩
  · unfold bfsOrder
    rw [List.nodup_flatMap]
    refine ⟨fun k _ => hnd k, ?_⟩
    refine List.Pairwise.imp ?_ List.nodup_range
    intro i j hij a ha hb
    exact hij ((hdep i a ha).symm.trans (hdep j a hb))
  · intro l1 b l2 hl a hab ha
    rw [hl] at ha hpw
    rcases List.mem_append.mp ha with h1 | h1
    · exact h1
    · exfalso
      have := hd a b hab
      rw [List.pairwise_append] at hpw
      rcases List.mem_cons.mp h1 with rfl | h1
      · omega
      · have := (List.pairwise_cons.mp hpw.2.1).1 a h1
        omega

/-- A tree with three levels: the path `0 → 1 → 3` and the leaf `2`. -/
example : ∃ fuel, traverseBFS 2 (fun _ a => .ok (fun i : ℕ => if a = 0 ∧ i = 0 then some 1
    else if a = 0 ∧ i = 1 then some 2 else if a = 1 ∧ i = 1 then some 3 else none))
    (fun l a => .ok (l ++ [a])) fuel 0 [] = .ok [0, 1, 2, 3] := ⟨10, by decide⟩

end FMM
