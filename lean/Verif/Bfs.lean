import Verif.LoopLemmas
import Mathlib.Data.List.Nodup
import Mathlib.Data.List.Flatten

/-!
# `traverseBFSCore` (abstract_orthtree.hpp:115-135)

The node addresses, the state changed by the visitor and the way children are looked up in that state are
parameters.
-/

namespace FMM
variable {A S : Type}

/-- The children pushed after a visit: `for(i < n_children) if(children[i] != nullptr) push(children[i])`
(abstract_orthtree.hpp:128-132). -/
def pushKids (n : ℕ) (child : ℕ → Option A) : List A := (List.range n).filterMap child

/-- `traverseBFSCore` (abstract_orthtree.hpp:115-135) on a given queue; `child s a` is the array of child
pointers of `a` in state `s` (undefined behaviour if `a` is not a node). -/
def bfsLoop (n : ℕ) (child : S → A → Outcome (ℕ → Option A)) (visit : S → A → Outcome S) :
    ℕ → List A → S → Outcome S
  | _, [], s => .ok s
  | 0, _ :: _, _ => .error .fuel
  | fuel + 1, a :: q, s => do
      let s ← visit s a
      let ch ← child s a
      bfsLoop n child visit fuel (q ++ pushKids n ch) s

/-- `traverseBFSCore` from the root. -/
def traverseBFS (n : ℕ) (child : S → A → Outcome (ℕ → Option A)) (visit : S → A → Outcome S) (fuel : ℕ)
    (root : A) (s : S) : Outcome S := bfsLoop n child visit fuel [root] s

/-- The nodes of depth `k`, left to right. -/
def bfsLevel (ch : A → List A) (root : A) : ℕ → List A
  | 0 => [root]
  | k + 1 => (bfsLevel ch root k).flatMap ch

/-- The first `h` levels one after the other. -/
def bfsOrder (ch : A → List A) (root : A) (h : ℕ) : List A :=
  (List.range h).flatMap (bfsLevel ch root)

theorem bfsOrder_succ (ch : A → List A) (root : A) (h : ℕ) :
    bfsOrder ch root (h + 1) = bfsOrder ch root h ++ bfsLevel ch root h := by
  simp [bfsOrder, List.range_succ]

theorem bfsLoop_nil (n : ℕ) (child : S → A → Outcome (ℕ → Option A)) (visit : S → A → Outcome S) (fuel : ℕ) (s : S) :
    bfsLoop n child visit fuel [] s = .ok s := by
  cases fuel <;> rfl

/-- A run that finishes is not changed by more fuel. -/
theorem bfsLoop_mono (n : ℕ) (child : S → A → Outcome (ℕ → Option A)) (visit : S → A → Outcome S)
    {fuel fuel' : ℕ} (hf : fuel ≤ fuel') (q : List A) (s x : S) (h : bfsLoop n child visit fuel q s = .ok x) :
    bfsLoop n child visit fuel' q s = .ok x := by
  induction fuel generalizing fuel' q s with
  | zero =>
    cases q with
    | nil => rw [bfsLoop_nil] at h ⊢; exact h
    | cons a q => simp [bfsLoop] at h
  | succ fuel ih =>
    cases q with
    | nil => rw [bfsLoop_nil] at h ⊢; exact h
    | cons a q =>
      obtain ⟨f, rfl⟩ : ∃ f, fuel' = f + 1 := ⟨fuel' - 1, by omega⟩
      simp only [bfsLoop] at h ⊢
      rcases e1 : visit s a with e | s1
      · rw [e1] at h; simp [bind, Except.bind] at h
      · rw [e1] at h
        rw [ok_bind] at h ⊢
        rcases e2 : child s1 a with e | c
        · rw [e2] at h; simp [bind, Except.bind] at h
        · rw [e2] at h
          rw [ok_bind] at h ⊢
          exact ih (by omega) _ _ h

/-- Running through a block of the queue. `P done s` is an invariant of the traversal. -/
theorem bfsLoop_block (n : ℕ) (child : S → A → Outcome (ℕ → Option A)) (visit : S → A → Outcome S)
    (ch : A → List A) (P : List A → S → Prop) (l : List A) (done : List A)
    (hstep : ∀ d1 a d2, l = d1 ++ a :: d2 → ∀ s, P (done ++ d1) s → ∃ s' c, visit s a = .ok s' ∧
      P (done ++ d1 ++ [a]) s' ∧ child s' a = .ok c ∧ pushKids n c = ch a)
    (s : S) (h : P done s) :
    ∃ s', l.foldlM visit s = .ok s' ∧ P (done ++ l) s' ∧
      ∀ fuel q, bfsLoop n child visit (fuel + l.length) (l ++ q) s
        = bfsLoop n child visit fuel (q ++ l.flatMap ch) s' := by
  induction l generalizing done s with
  | nil => exact ⟨s, rfl, by simpa using h, fun fuel q => by simp⟩
  | cons a l ih =>
    obtain ⟨s1, c, h1, h2, h3, h4⟩ := hstep [] a l rfl s (by simpa using h)
    simp only [List.append_nil] at h2
    obtain ⟨s', k1, k2, k3⟩ := ih (done ++ [a]) (by
      intro d1 b d2 hl s hs
      have := hstep (a :: d1) b d2 (by simp [hl]) s (by simpa using hs)
      simpa using this) s1 h2
    refine ⟨s', ?_, by simpa using k2, ?_⟩
    · rw [List.foldlM_cons, h1]; exact k1
    · intro fuel q
      rw [List.length_cons, ← add_assoc]
      simp only [List.cons_append, bfsLoop]
      rw [h1, ok_bind, h3, ok_bind, h4, List.append_assoc, k3 fuel (q ++ ch a)]
      simp

/-- The traversal visits the levels one after the other, if the tree is finite. -/
theorem traverseBFS_eq (n : ℕ) (child : S → A → Outcome (ℕ → Option A)) (visit : S → A → Outcome S)
    (ch : A → List A) (root : A) (P : List A → S → Prop) (h : ℕ) (hh : bfsLevel ch root h = [])
    (hstep : ∀ d1 a d2, bfsOrder ch root h = d1 ++ a :: d2 → ∀ s, P d1 s → ∃ s' c, visit s a = .ok s' ∧
      P (d1 ++ [a]) s' ∧ child s' a = .ok c ∧ pushKids n c = ch a)
    (s : S) (h0 : P [] s) :
    ∃ s', (bfsOrder ch root h).foldlM visit s = .ok s' ∧ P (bfsOrder ch root h) s' ∧
      ∀ fuel, (bfsOrder ch root h).length ≤ fuel → traverseBFS n child visit fuel root s = .ok s' := by
  -- after `k` levels the queue is level `k`
  have key : ∀ k ≤ h, ∃ s', (bfsOrder ch root k).foldlM visit s = .ok s' ∧ P (bfsOrder ch root k) s' ∧
      ∀ fuel, traverseBFS n child visit (fuel + (bfsOrder ch root k).length) root s
        = bfsLoop n child visit fuel (bfsLevel ch root k) s' := by
    intro k
    induction k with
    | zero => intro _; exact ⟨s, rfl, h0, fun fuel => by simp [traverseBFS, bfsOrder, bfsLevel]⟩
    | succ k ih =>
      intro hk
      obtain ⟨s1, h1, h2, h3⟩ := ih (by omega)
      have hpre : ∃ rest, bfsOrder ch root h = bfsOrder ch root k ++ bfsLevel ch root k ++ rest := by
        obtain ⟨m, rfl⟩ := Nat.exists_eq_add_of_le hk
        clear ih hh hstep hk h3
        induction m with
        | zero => exact ⟨[], by rw [add_zero, bfsOrder_succ]; simp⟩
        | succ m ihm =>
          obtain ⟨r, hr⟩ := ihm
          refine ⟨r ++ bfsLevel ch root (k + 1 + m), ?_⟩
          rw [← add_assoc, bfsOrder_succ, hr]; simp
      obtain ⟨rest, hrest⟩ := hpre
      obtain ⟨s2, k1, k2, k3⟩ := bfsLoop_block n child visit ch P (bfsLevel ch root k) (bfsOrder ch root k) (by
        intro d1 a d2 hl s' hs'
        have := hstep (bfsOrder ch root k ++ d1) a (d2 ++ rest) (by rw [hrest, hl]; simp) s' hs'
        exact this) s1 h2
      refine ⟨s2, ?_, ?_, ?_⟩
      · rw [bfsOrder_succ, List.foldlM_append, h1]; exact k1
      · rw [bfsOrder_succ]; exact k2
      · intro fuel
        rw [bfsOrder_succ, List.length_append, add_comm (bfsOrder ch root k).length, ← add_assoc, h3]
        have := k3 fuel []
        simp only [List.append_nil, List.nil_append] at this
        exact this
  obtain ⟨s', h1, h2, h3⟩ := key h le_rfl
  refine ⟨s', h1, h2, fun fuel hf => ?_⟩
  obtain ⟨m, rfl⟩ := Nat.exists_eq_add_of_le' hf
  rw [h3, hh, bfsLoop_nil]

end FMM
