import Mathlib.Algebra.BigOperators.Group.Finset.Basic
import Mathlib.Algebra.BigOperators.Intervals
import Mathlib.Tactic.Ring
import Mathlib.Tactic.Linarith

/-!
# Outcomes and loops

`Outcome` is the result of running a piece of the C++ program: a value, or one of the ways in which
the run can go wrong.  Undefined behaviour is an outcome of its own.  `loopN` is the counted `for` loop.
-/

namespace FMM

/-- Ways in which a run of the program ends without a value. -/
inductive Err
  /-- `throw std::logic_error` -/
  | logicError
  /-- `throw std::runtime_error` -/
  | runtimeError
  /-- `std::out_of_range` thrown by `.at()` -/
  | outOfRange
  /-- a failing `assert` -/
  | assertFail
  /-- the default GSL error handler calls `abort()` -/
  | gslAbort
  /-- undefined behaviour: out-of-bounds access, null dereference, out-of-range conversion
  of a floating-point value to an unsigned integer -/
  | ub
  /-- a floating-point operation that leaves the finite numbers (`log 0`, division by zero): the affected
  result of the run is an infinity or a NaN -/
  | nonFinite
  /-- not an outcome of the program: the model gave up after a given number of loop iterations
  (a run which does so for every number of iterations does not terminate) -/
  | fuel
  deriving DecidableEq, Repr

/-- Result of running a piece of the program. -/
abbrev Outcome (α : Type*) := Except Err α

/-- `for (i = 0; i < n; ++i) s = f(i, s);` -/
def loopN {σ : Type*} : ℕ → (ℕ → σ → σ) → σ → σ
  | 0, _, s => s
  | n + 1, f, s => f n (loopN n f s)

@[simp] theorem loopN_zero {σ : Type*} (f : ℕ → σ → σ) (s : σ) : loopN 0 f s = s := rfl

theorem loopN_succ {σ : Type*} (n : ℕ) (f : ℕ → σ → σ) (s : σ) :
    loopN (n + 1) f s = f n (loopN n f s) := rfl

/-- Induction principle for counted loops: an invariant that holds initially and is preserved by the
body holds at the end. -/
theorem loopN_invariant {σ : Type*} (I : ℕ → σ → Prop) (f : ℕ → σ → σ) (s : σ) (n : ℕ)
    (h0 : I 0 s) (hs : ∀ i, i < n → ∀ t, I i t → I (i + 1) (f i t)) : I n (loopN n f s) := by
  induction n with
  | zero => exact h0
  | succ n ih =>
    rw [loopN_succ]
    exact hs n (Nat.lt_succ_self n) _ (ih fun i hi => hs i (Nat.lt_succ_of_lt hi))

/-- An accumulating loop computes a finite sum. -/
theorem loopN_add {M : Type*} [AddCommMonoid M] (n : ℕ) (g : ℕ → M) (s : M) :
    loopN n (fun i acc => acc + g i) s = s + ∑ i ∈ Finset.range n, g i := by
  induction n with
  | zero => simp
  | succ n ih => rw [loopN_succ, ih, Finset.sum_range_succ, add_assoc]

/-- Accumulating loop with a running power. -/
theorem loopN_pow {M : Type*} [CommRing M] (n : ℕ) (g : ℕ → M) (x a s : M) :
    loopN n (fun i (acc : M × M) => (acc.1 + g i * acc.2, acc.2 * x)) (s, a)
      = (s + ∑ i ∈ Finset.range n, g i * (a * x ^ i), a * x ^ n) := by
  induction n with
  | zero => simp
  | succ n ih =>
    rw [loopN_succ, ih, Finset.sum_range_succ]
    ext
    · simp [add_assoc]
    · simp [pow_succ, mul_assoc]

theorem foldl_add {M α : Type*} [AddCommMonoid M] (l : List α) (g : α → M) (s : M) :
    l.foldl (fun acc a => acc + g a) s = s + (l.map g).sum := by
  induction l generalizing s with
  | nil => simp
  | cons a l ih => simp [ih, add_assoc]

/-! ## Loops whose body can fail -/

/-- `for (i = 0; i < n; ++i) s = f(i, s);` where the body may throw / abort / be undefined. -/
def loopM {σ : Type*} : ℕ → (ℕ → σ → Outcome σ) → σ → Outcome σ
  | 0, _, s => .ok s
  | n + 1, f, s => (loopM n f s).bind (f n)

@[simp] theorem loopM_zero {σ : Type*} (f : ℕ → σ → Outcome σ) (s : σ) : loopM 0 f s = .ok s := rfl

theorem loopM_succ {σ : Type*} (n : ℕ) (f : ℕ → σ → Outcome σ) (s : σ) :
    loopM (n + 1) f s = (loopM n f s).bind (f n) := rfl

/-- Total correctness of a loop: an invariant which holds initially and which every iteration
re-establishes without failing holds at the end, and the loop does not fail. -/
theorem loopM_invariant {σ : Type*} (I : ℕ → σ → Prop) (f : ℕ → σ → Outcome σ) (s : σ) (n : ℕ)
    (h0 : I 0 s) (hs : ∀ i, i < n → ∀ t, I i t → ∃ t', f i t = .ok t' ∧ I (i + 1) t') :
    ∃ t, loopM n f s = .ok t ∧ I n t := by
  induction n with
  | zero => exact ⟨s, rfl, h0⟩
  | succ n ih =>
    obtain ⟨t, ht, hI⟩ := ih fun i hi => hs i (Nat.lt_succ_of_lt hi)
    obtain ⟨t', ht', hI'⟩ := hs n (Nat.lt_succ_self n) t hI
    exact ⟨t', by rw [loopM_succ, ht]; exact ht', hI'⟩

/-- Loop over the elements of a vector with a body that does not fail. -/
theorem foldlM_ok {α σ : Type*} (f : σ → α → Outcome σ) (g : σ → α → σ) (l : List α) (s : σ)
    (h : ∀ a ∈ l, ∀ s, f s a = .ok (g s a)) : l.foldlM f s = .ok (l.foldl g s) := by
  induction l generalizing s with
  | nil => rfl
  | cons a l ih =>
    rw [List.foldlM_cons, h a (by simp)]
    exact ih (g s a) fun b hb => h b (by simp [hb])

/-- Loop over the elements of a vector with a failing element. -/
theorem foldlM_error {α σ : Type*} (f : σ → α → Outcome σ) (l : List α) (s : σ) (e : Err)
    (h : ∀ a ∈ l, ∀ s, (∃ t, f s a = .ok t) ∨ f s a = .error e) (a : α) (ha : a ∈ l)
    (hf : ∀ s, f s a = .error e) : l.foldlM f s = .error e := by
  induction l generalizing s with
  | nil => simp at ha
  | cons b l ih =>
    rw [List.foldlM_cons]
    rcases h b (by simp) s with ⟨t, ht⟩ | ht
    · rw [ht]
      refine ih t (fun c hc => h c (by simp [hc])) ?_
      rcases List.mem_cons.mp ha with rfl | h'
      · rw [hf s] at ht; simp at ht
      · exact h'
    · rw [ht]; rfl

/-- A loop none of whose iterations fails is the pure loop. -/
theorem loopM_eq_loopN {σ : Type*} (f : ℕ → σ → Outcome σ) (g : ℕ → σ → σ) (s : σ) (n : ℕ)
    (h : ∀ i < n, f i (loopN i g s) = .ok (g i (loopN i g s))) :
    loopM n f s = .ok (loopN n g s) := by
  induction n with
  | zero => rfl
  | succ n ih =>
    rw [loopM_succ, ih fun i hi => h i (Nat.lt_succ_of_lt hi)]
    exact h n (Nat.lt_succ_self n)

/-- A failing iteration makes the loop fail. -/
theorem loopM_error {σ : Type*} (f : ℕ → σ → Outcome σ) (s : σ) (n m : ℕ) (e : Err)
    (hm : m ≤ n) (h : loopM m f s = .error e) : loopM n f s = .error e := by
  induction n with
  | zero => obtain rfl : m = 0 := by omega
            exact h
  | succ n ih =>
    rcases Nat.lt_or_ge n m with h1 | h1
    · obtain rfl : m = n + 1 := by omega
      exact h
    · rw [loopM_succ, ih h1]; rfl

/-- A loop with an iteration that never succeeds does not succeed. -/
theorem loopM_ne_ok {σ : Type*} (f : ℕ → σ → Outcome σ) (s : σ) (n j : ℕ) (hj : j < n)
    (h : ∀ t t', f j t ≠ .ok t') (t : σ) : loopM n f s ≠ .ok t := by
  induction n generalizing t with
  | zero => omega
  | succ n ih =>
    rw [loopM_succ]
    cases hl : loopM n f s with
    | error e => simp [Except.bind]
    | ok u =>
      rcases Nat.lt_or_ge j n with h1 | h1
      · exact absurd hl (ih h1 u)
      · obtain rfl : j = n := by omega
        exact h u t

/-! ## Arrays -/

/-- A `std::vector`: a size and the stored values (the value of `val i` for `i ≥ size` is never
observable: all accesses go through `rd`/`wr`). -/
structure Arr (α : Type*) where
  size : ℕ
  val : ℕ → α

namespace Arr
variable {α : Type*}

/-- `std::vector<T>(n)`: value-initialised elements. -/
def new [Zero α] (n : ℕ) : Arr α := ⟨n, fun _ => 0⟩

/-- `v[i]` as an rvalue: out of bounds is undefined behaviour. -/
def rd (a : Arr α) (i : ℕ) : Outcome α := if i < a.size then .ok (a.val i) else .error .ub

/-- `v[i] = x`: out of bounds is undefined behaviour. -/
def wr (a : Arr α) (i : ℕ) (x : α) : Outcome (Arr α) :=
  if i < a.size then .ok ⟨a.size, Function.update a.val i x⟩ else .error .ub

/-- `v.resize(n)`: old elements are kept, new ones are value-initialised. -/
def resize [Zero α] (a : Arr α) (n : ℕ) : Arr α := ⟨n, fun i => if i < a.size then a.val i else 0⟩

theorem rd_ok (a : Arr α) {i : ℕ} (h : i < a.size) : a.rd i = .ok (a.val i) := if_pos h

theorem rd_ub (a : Arr α) {i : ℕ} (h : a.size ≤ i) : a.rd i = .error .ub := if_neg (not_lt.mpr h)

theorem wr_ok (a : Arr α) {i : ℕ} (h : i < a.size) (x : α) :
    a.wr i x = .ok ⟨a.size, Function.update a.val i x⟩ := if_pos h

/-- A value computed as a signed integer and used as an (unsigned) index: a negative value wraps around to
a huge one, which is out of bounds of every vector. -/
def rdZ (a : Arr α) (i : ℤ) : Outcome α := if 0 ≤ i then a.rd i.toNat else .error .ub

/-- `v[i] = x` with a signed index. -/
def wrZ (a : Arr α) (i : ℤ) (x : α) : Outcome (Arr α) :=
  if 0 ≤ i then a.wr i.toNat x else .error .ub

theorem rdZ_ok (a : Arr α) {i : ℤ} (h0 : 0 ≤ i) (h : i < a.size) : a.rdZ i = .ok (a.val i.toNat) := by
  unfold rdZ; rw [if_pos h0]; exact rd_ok a (by omega)

theorem wrZ_ok (a : Arr α) {i : ℤ} (h0 : 0 ≤ i) (h : i < a.size) (x : α) :
    a.wrZ i x = .ok ⟨a.size, Function.update a.val i.toNat x⟩ := by
  unfold wrZ; rw [if_pos h0]; exact wr_ok a (by omega) x

end Arr

end FMM
