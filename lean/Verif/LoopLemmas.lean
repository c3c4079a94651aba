import Verif.Basic
import Mathlib.Algebra.BigOperators.Ring.Finset
import Mathlib.Tactic.Ring
import Mathlib.Algebra.Field.Basic
import Mathlib.Tactic.FieldSimp

/-!
# Closed forms of common loop shapes
-/

namespace FMM

universe u

@[simp] theorem ok_bind {α β : Type u} (a : α) (f : α → Outcome β) :
    ((Except.ok a : Outcome α) >>= f) = f a := rfl

@[simp] theorem err_bind {α β : Type u} (e : Err) (f : α → Outcome β) :
    ((Except.error e : Outcome α) >>= f) = .error e := rfl

@[simp] theorem ok_bind' {α β : Type u} (a : α) (f : α → Outcome β) :
    Except.bind (Except.ok a : Outcome α) f = f a := rfl

@[simp] theorem err_bind' {α β : Type u} (e : Err) (f : α → Outcome β) :
    Except.bind (Except.error e : Outcome α) f = .error e := rfl

theorem Arr.ext' {α : Type*} {a b : Arr α} (h1 : a.size = b.size) (h2 : ∀ k, a.val k = b.val k) :
    a = b := by
  cases a; cases b; simp only at h1 h2; subst h1; congr; funext k; exact h2 k

/-- Accumulating loop. -/
theorem loopM_acc {M : Type*} [AddCommMonoid M] (n : ℕ) (f : ℕ → M → Outcome M) (g : ℕ → M) (s : M)
    (h : ∀ i < n, ∀ b, f i b = .ok (b + g i)) :
    loopM n f s = .ok (s + ∑ i ∈ Finset.range n, g i) := by
  rw [loopM_eq_loopN f (fun i acc => acc + g i) s n fun i hi => h i hi _, loopN_add]

/-- Accumulating loop with a running factor. -/
theorem loopM_acc_pow {M : Type*} [CommRing M] (n : ℕ) (f : ℕ → M × M → Outcome (M × M)) (g : ℕ → M)
    (x a s : M) (h : ∀ i < n, ∀ b, f i b = .ok (b.1 + g i * b.2, b.2 * x)) :
    loopM n f (s, a) = .ok (s + ∑ i ∈ Finset.range n, g i * (a * x ^ i), a * x ^ n) := by
  rw [loopM_eq_loopN f (fun i acc => (acc.1 + g i * acc.2, acc.2 * x)) (s, a) n fun i hi => h i hi _,
    loopN_pow]

/-- A loop that updates `c[off], c[off+1], …` one after the other, with a running second component. -/
theorem loopM_rmw {α β : Type*} (n off : ℕ) (f : ℕ → Arr α × β → Outcome (Arr α × β))
    (g : ℕ → β → α → α) (y : ℕ → β) (y0 : β) (hy : y0 = y 0) (c : Arr α) (hsz : off + n ≤ c.size)
    (h : ∀ i < n, ∀ c' : Arr α, c'.size = c.size →
      f i (c', y i) = .ok (⟨c'.size, Function.update c'.val (i + off) (g i (y i) (c'.val (i + off)))⟩,
        y (i + 1))) :
    loopM n f (c, y0) = .ok (⟨c.size, fun k => if off ≤ k ∧ k < off + n then
      g (k - off) (y (k - off)) (c.val k) else c.val k⟩, y n) := by
  subst hy
  induction n with
  | zero =>
    simp only [loopM_zero, Except.ok.injEq, Prod.mk.injEq, and_true]
    refine Arr.ext' (by rfl) ?_
    intro k
    simp only
    rw [if_neg (by omega)]
  | succ n ih =>
    rw [loopM_succ, ih (by omega) fun i hi => h i (by omega), ok_bind', h n (by omega) _ (by rfl)]
    simp only [Except.ok.injEq, Prod.mk.injEq, and_true]
    refine Arr.ext' (by rfl) ?_
    intro k
    simp only
    rcases eq_or_ne k (n + off) with rfl | hk
    · rw [Function.update_self, if_neg (by omega), if_pos (by omega)]
      simp
    · rw [Function.update_of_ne hk]
      by_cases h1 : off ≤ k ∧ k < off + n
      · rw [if_pos h1, if_pos (by omega)]
      · rw [if_neg h1, if_neg (by omega)]

/-- The same without running component. -/
theorem loopM_rmw1 {α : Type*} (n off : ℕ) (f : ℕ → Arr α → Outcome (Arr α))
    (g : ℕ → α → α) (c : Arr α) (hsz : off + n ≤ c.size)
    (h : ∀ i < n, ∀ c' : Arr α, c'.size = c.size →
      f i c' = .ok ⟨c'.size, Function.update c'.val (i + off) (g i (c'.val (i + off)))⟩) :
    loopM n f c = .ok ⟨c.size, fun k => if off ≤ k ∧ k < off + n then
      g (k - off) (c.val k) else c.val k⟩ := by
  induction n with
  | zero =>
    simp only [loopM_zero, Except.ok.injEq]
    refine Arr.ext' (by rfl) ?_
    intro k
    simp only
    rw [if_neg (by omega)]
  | succ n ih =>
    rw [loopM_succ, ih (by omega) fun i hi => h i (by omega), ok_bind', h n (by omega) _ (by rfl)]
    simp only [Except.ok.injEq]
    refine Arr.ext' (by rfl) ?_
    intro k
    simp only
    rcases eq_or_ne k (n + off) with rfl | hk
    · rw [Function.update_self, if_neg (by omega), if_pos (by omega)]
      simp
    · rw [Function.update_of_ne hk]
      by_cases h1 : off ≤ k ∧ k < off + n
      · rw [if_pos h1, if_pos (by omega)]
      · rw [if_neg h1, if_neg (by omega)]

/-- A loop that repeatedly accumulates into one cell. -/
theorem loopM_cell {M : Type*} [AddCommMonoid M] (n l : ℕ) (f : ℕ → Arr M → Outcome (Arr M)) (g : ℕ → M)
    (c : Arr M)
    (h : ∀ i < n, ∀ c' : Arr M, c'.size = c.size →
      f i c' = .ok ⟨c'.size, Function.update c'.val l (c'.val l + g i)⟩) :
    loopM n f c = .ok ⟨c.size, Function.update c.val l (c.val l + ∑ i ∈ Finset.range n, g i)⟩ := by
  induction n with
  | zero => simp
  | succ n ih =>
    rw [loopM_succ, ih fun i hi => h i (by omega), ok_bind', h n (by omega) _ (by rfl)]
    simp [Finset.sum_range_succ, add_assoc]

end FMM
