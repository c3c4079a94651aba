import Verif.Geometry
import Mathlib.Data.Nat.Digits.Lemmas
import Mathlib.Algebra.Order.Floor.Ring
import Mathlib.Algebra.Order.Archimedean.Real.Basic

/-!
# `balanced_orthtree.hpp`: leaf box indices, flat index, Morton index
-/

namespace FMM
variable {d : ℕ}

/-- A loop over the components of a `std::array` that may fail: the first failing component decides. -/
def seqFin {α : Type} : {d : ℕ} → (Fin d → Outcome α) → Outcome (Fin d → α)
  | 0, _ => .ok Fin.elim0
  | d + 1, f => do
    let init ← seqFin fun i : Fin d => f i.castSucc
    let a ← f (Fin.last d)
    pure (Fin.snoc init a)

theorem seqFin_ok {α : Type} (f : Fin d → Outcome α) (g : Fin d → α) :
    seqFin f = .ok g ↔ ∀ i, f i = .ok (g i) := by
  induction d with
  | zero =>
    constructor
    · intro _ i; exact i.elim0
    · intro _; simp only [seqFin]; congr; ext i; exact i.elim0
  | succ d ih =>
    have h0 := ih (fun i => f i.castSucc) (fun i => g i.castSucc)
    simp only [seqFin]
    constructor
    · intro h
      cases h1 : seqFin (fun i : Fin d => f i.castSucc) with
      | error e => rw [h1] at h; exact absurd h (by simp [bind, Except.bind])
      | ok init =>
        cases h2 : f (Fin.last d) with
        | error e => rw [h1, h2] at h; exact absurd h (by simp [bind, Except.bind])
        | ok a =>
          rw [h1, h2] at h
          simp only [bind, Except.bind, pure, Except.pure, Except.ok.injEq] at h
          have h3 := (ih (fun i => f i.castSucc) init).mp h1
          intro i
          refine Fin.lastCases ?_ (fun i => ?_) i
          · rw [h2, ← h]; simp
          · rw [h3 i, ← h]; simp
    · intro h
      rw [h0.mpr fun i => h _, h (Fin.last d)]
      simp only [bind, Except.bind, pure, Except.pure, Except.ok.injEq]
      ext i
      refine Fin.lastCases ?_ (fun i => ?_) i <;> simp

/-- If some component fails with `e` and all other components either succeed or fail with `e`, the loop
fails with `e`. -/
theorem seqFin_error {α : Type} (f : Fin d → Outcome α) (e : Err)
    (h : ∀ i, (∃ a, f i = .ok a) ∨ f i = .error e) (i : Fin d) (hi : f i = .error e) :
    seqFin f = .error e := by
  induction d with
  | zero => exact i.elim0
  | succ d ih =>
    simp only [seqFin]
    by_cases hc : ∃ j : Fin d, f j.castSucc = .error e
    · obtain ⟨j, hj⟩ := hc
      rw [ih (fun i => f i.castSucc) (fun i => h _) j hj]; rfl
    · push Not at hc
      have hok : ∀ j : Fin d, ∃ a, f j.castSucc = .ok a := fun j =>
        (h j.castSucc).resolve_right (hc j)
      choose g hg using hok
      rw [(seqFin_ok _ g).mpr hg]
      have hl : f (Fin.last d) = .error e := by
        rcases Fin.eq_castSucc_or_eq_last i with ⟨j, rfl⟩ | rfl
        · exact absurd hi (hc j)
        · exact hi
      rw [hl]; rfl

/-- Conversion of an integral `double` to `uint32_t`: undefined behaviour outside `[0, 2^32)`. -/
def toU32 (z : ℤ) : Outcome ℕ := if 0 ≤ z ∧ z < 2 ^ 32 then .ok z.toNat else .error .ub

/-- One iteration of the loop of `getLeafBoxIndices` (balanced_orthtree.hpp:40-47). -/
noncomputable def leafBoxIndex (nBoxes : ℕ) (ratio : ℝ) : Outcome ℕ := do
  let index ← toU32 ⌊ratio * nBoxes⌋
  if index ≥ nBoxes then .error .runtimeError else .ok index

/-- `getLeafBoxIndices` (balanced_orthtree.hpp:25-50) for a tree with root box `r` and height `h`.
A side length of zero makes `1 / box_length` infinite and the later conversions undefined. -/
noncomputable def getLeafBoxIndices (r : Box d) (h : ℕ) (point : Vec d) : Outcome (Fin d → ℕ) := do
  if r.len = 0 then .error .ub
  else
    let ratios : Vec d := (1 / r.len) • (point - r.lower)
    let nBoxes ← toU32 (2 ^ h)
    seqFin fun i => leafBoxIndex nBoxes (ratios i)

/-- `getFlatIndex` (balanced_orthtree.hpp:52-67), with the wrap-around of `uint32_t`; `nBoxes` is
`n_boxes_per_dim`. -/
def getFlatIndex (nBoxes : ℕ) (indices : Fin d → ℕ) : ℕ :=
  ((List.finRange d).foldl
    (fun (st : ℕ × ℕ) i =>
      ((st.1 + st.2 * indices i.rev) % 2 ^ 32, st.2 * nBoxes % 2 ^ 32))
    (0, 1)).1

/-- The helper bitset of `getMortonIndex` (balanced_orthtree.hpp:90-96): 64-bit shifts. -/
def mortonHelper (h : ℕ) (indices : Fin d → ℕ) : ℕ :=
  (List.finRange d).foldl (fun helper i => ((helper <<< h) % 2 ^ 64) ||| indices i) 0

/-- The interleaving loops of `getMortonIndex` (balanced_orthtree.hpp:98-104): the state is
`(morton_index, index_counter)`. -/
def mortonInterleave (d h helper : ℕ) : ℕ × ℕ :=
  loopN h
    (fun i st =>
      loopN d
        (fun j (st : ℕ × ℕ) =>
          (if helper.testBit (j * h + i) then st.1 ||| (1 <<< st.2) else st.1, st.2 + 1))
        st)
    (0, 0)

/-- `getMortonIndex` (balanced_orthtree.hpp:72-107). -/
def getMortonIndex (h : ℕ) (indices : Fin d → ℕ) : Outcome ℕ :=
  if h ≥ 64 / d then .error .runtimeError
  else .ok (mortonInterleave d h (mortonHelper h indices)).1

/-- Position of an address among all addresses of its depth, in breadth-first order. -/
def pathIndex (d : ℕ) : Path → ℕ
  | [] => 0
  | i :: π => 2 ^ d * pathIndex d π + i

/-! ## Bits -/

theorem testBit_grid (π : Path) (j : Fin d) (k : ℕ) :
    (grid d π j).testBit k = (π.getD k 0).testBit (d - j - 1) := by
  induction π generalizing k with
  | nil => simp [grid]
  | cons i π ih =>
    have : grid d (i :: π) j = Nat.bit (i.testBit (d - j - 1)) (grid d π j) := by
      simp [grid, Nat.bit_val]
    rw [this]
    cases k with
    | zero => simp
    | succ k => rw [Nat.testBit_bit_succ, ih]; simp

theorem pathIndex_lt (π : Path) (hπ : ValidPath d π) : pathIndex d π < (2 ^ d) ^ π.length := by
  induction π with
  | nil => simp [pathIndex]
  | cons i π ih =>
    have h1 := ih fun k hk => hπ k (by simp [hk])
    have h2 := hπ i (by simp)
    simp only [pathIndex, List.length_cons, pow_succ]
    calc 2 ^ d * pathIndex d π + i < 2 ^ d * pathIndex d π + 2 ^ d := by omega
      _ = (pathIndex d π + 1) * 2 ^ d := by ring
      _ ≤ (2 ^ d) ^ π.length * 2 ^ d := Nat.mul_le_mul_right _ h1

theorem testBit_pathIndex (π : Path) (hπ : ValidPath d π) (k j : ℕ) (hj : j < d) :
    (pathIndex d π).testBit (k * d + j) = (π.getD k 0).testBit j := by
  induction π generalizing k with
  | nil => simp [pathIndex]
  | cons i π ih =>
    have h2 := hπ i (by simp)
    simp only [pathIndex]
    rw [Nat.testBit_two_pow_mul_add _ h2]
    cases k with
    | zero => simp [hj]
    | succ k =>
      have : ¬ (k + 1) * d + j < d := by
        rw [Nat.add_mul, one_mul]; omega
      rw [if_neg this]
      have e : (k + 1) * d + j - d = k * d + j := by rw [Nat.add_mul, one_mul]; omega
      rw [e, ih fun k hk => hπ k (by simp [hk])]
      simp

theorem pathIndex_injective {π ρ : Path} (hπ : ValidPath d π) (hρ : ValidPath d ρ)
    (hlen : π.length = ρ.length) (h : pathIndex d π = pathIndex d ρ) : π = ρ := by
  induction π generalizing ρ with
  | nil => simpa using hlen.symm
  | cons i π ih =>
    cases ρ with
    | nil => simp at hlen
    | cons i' ρ =>
      simp only [pathIndex] at h
      have h1 := hπ i (by simp)
      have h2 := hρ i' (by simp)
      have e1 : i = i' := by
        have := congrArg (· % 2 ^ d) h
        simpa [Nat.mul_add_mod, Nat.mod_eq_of_lt h1, Nat.mod_eq_of_lt h2] using this
      subst e1
      have e2 : pathIndex d π = pathIndex d ρ := by
        have := Nat.add_right_cancel h
        exact Nat.eq_of_mul_eq_mul_left (by positivity) this
      rw [ih (fun k hk => hπ k (by simp [hk])) (fun k hk => hρ k (by simp [hk]))
        (by simpa using hlen) e2]

/-- The valid address of depth `h` with a given position. -/
def pathOfIndex (d : ℕ) : ℕ → ℕ → Path
  | 0, _ => []
  | h + 1, n => n % 2 ^ d :: pathOfIndex d h (n / 2 ^ d)

theorem pathOfIndex_length (h n : ℕ) : (pathOfIndex d h n).length = h := by
  induction h generalizing n with
  | zero => rfl
  | succ h ih => simp [pathOfIndex, ih]

theorem pathOfIndex_valid (h n : ℕ) : ValidPath d (pathOfIndex d h n) := by
  induction h generalizing n with
  | zero => intro i hi; simp [pathOfIndex] at hi
  | succ h ih =>
    intro i hi
    simp only [pathOfIndex, List.mem_cons] at hi
    rcases hi with rfl | hi
    · exact Nat.mod_lt _ (by positivity)
    · exact ih _ i hi

theorem pathIndex_pathOfIndex (h n : ℕ) (hn : n < (2 ^ d) ^ h) :
    pathIndex d (pathOfIndex d h n) = n := by
  induction h generalizing n with
  | zero => simp at hn; simp [pathOfIndex, pathIndex, hn]
  | succ h ih =>
    simp only [pathOfIndex, pathIndex]
    rw [ih (n / 2 ^ d) (by rw [pow_succ] at hn; exact Nat.div_lt_of_lt_mul (by linarith))]
    exact Nat.div_add_mod _ _

/-- The valid address of depth `h` with given grid coordinates. -/
def pathOfGrid : ℕ → (Fin d → ℕ) → Path
  | 0, _ => []
  | h + 1, g => bitsFold (fun j => (g j).testBit 0) :: pathOfGrid h fun j => g j / 2

theorem pathOfGrid_length (h : ℕ) (g : Fin d → ℕ) : (pathOfGrid h g).length = h := by
  induction h generalizing g with
  | zero => rfl
  | succ h ih => simp [pathOfGrid, ih]

theorem pathOfGrid_valid (h : ℕ) (g : Fin d → ℕ) : ValidPath d (pathOfGrid h g) := by
  induction h generalizing g with
  | zero => intro i hi; simp [pathOfGrid] at hi
  | succ h ih =>
    intro i hi
    simp only [pathOfGrid, List.mem_cons] at hi
    rcases hi with rfl | hi
    · exact bitsFold_lt _
    · exact ih _ i hi

theorem grid_pathOfGrid (h : ℕ) (g : Fin d → ℕ) (hg : ∀ j, g j < 2 ^ h) :
    grid d (pathOfGrid h g) = g := by
  induction h generalizing g with
  | zero => ext j; have := hg j; simp at this; simp [pathOfGrid, grid, this]
  | succ h ih =>
    ext j
    simp only [pathOfGrid, grid]
    rw [ih (fun j => g j / 2) (fun j => by have := hg j; rw [pow_succ] at this; omega),
      testBit_bitsFold]
    have h2 : ((g j).testBit 0).toNat = g j % 2 := by
      rw [Nat.testBit_zero]; rcases Nat.mod_two_eq_zero_or_one (g j) with h | h <;> simp [h]
    rw [h2]; exact Nat.div_add_mod _ _

/-! ## The Morton index -/

theorem mortonHelper_succ (h : ℕ) (idx : Fin (d + 1) → ℕ) :
    mortonHelper h idx
      = ((mortonHelper h fun i => idx i.castSucc) <<< h % 2 ^ 64) ||| idx (Fin.last d) := by
  unfold mortonHelper
  rw [List.finRange_succ_last, List.foldl_append, List.foldl_map]
  simp

theorem mortonHelper_bits (h : ℕ) (idx : Fin d → ℕ) (hidx : ∀ j, idx j < 2 ^ h) (hd : d * h ≤ 64)
    (i : ℕ) (hi : i < h) (j : Fin d) :
    (mortonHelper h idx).testBit (j * h + i) = (idx j.rev).testBit i := by
  induction d with
  | zero => exact j.elim0
  | succ d ih =>
    rw [mortonHelper_succ, Nat.testBit_or, Nat.testBit_mod_two_pow, Nat.testBit_shiftLeft]
    rcases Fin.eq_zero_or_eq_succ j with rfl | ⟨j, rfl⟩
    · have : ¬ h ≤ i := by omega
      simp [this, Fin.rev_zero]
    · have e1 : ((j.succ : Fin (d + 1)) : ℕ) * h + i = (j * h + i) + h := by
        simp; ring
      have hlt : ((j.succ : Fin (d + 1)) : ℕ) * h + i < 64 := by
        have hj : (j : ℕ) + 1 + 1 ≤ d + 1 := by have := j.isLt; omega
        have hj2 : (((j.succ : Fin (d + 1)) : ℕ) + 1) * h ≤ (d + 1) * h :=
          Nat.mul_le_mul_right _ (by simp)
        have : (((j.succ : Fin (d + 1)) : ℕ) + 1) * h
          = ((j.succ : Fin (d + 1)) : ℕ) * h + h := by ring
        omega
      have hz : (idx (Fin.last d)).testBit (((j.succ : Fin (d + 1)) : ℕ) * h + i) = false := by
        apply Nat.testBit_lt_two_pow
        refine lt_of_lt_of_le (hidx _) (Nat.pow_le_pow_right (by norm_num) ?_)
        rw [e1]; omega
      rw [hz, Bool.or_false]
      have ih' := ih (fun i => idx i.castSucc) (fun j => hidx _)
        (by have : (d + 1) * h = d * h + h := by ring
            omega) j
      have hge : h ≤ ((j.succ : Fin (d + 1)) : ℕ) * h + i := by rw [e1]; omega
      simp only [hlt, decide_true, Bool.true_and, hge]
      have : ((j.succ : Fin (d + 1)) : ℕ) * h + i - h = j * h + i := by omega
      rw [this, ih', Fin.rev_succ]

/-- The interleaving loops write bit `j*h+i` of the helper to bit `i*d+j` of the result. -/
theorem mortonInterleave_spec (d h helper : ℕ) :
    (mortonInterleave d h helper).2 = h * d ∧
    (∀ i < h, ∀ j < d, (mortonInterleave d h helper).1.testBit (i * d + j)
      = helper.testBit (j * h + i)) ∧
    (mortonInterleave d h helper).1 < 2 ^ (h * d) := by
  let I : ℕ → ℕ × ℕ → Prop := fun n st =>
    st.2 = n * d ∧ (∀ i < n, ∀ j < d, st.1.testBit (i * d + j) = helper.testBit (j * h + i)) ∧
      st.1 < 2 ^ (n * d)
  show I h (mortonInterleave d h helper)
  apply loopN_invariant I
  · exact ⟨by simp, by simp, by simp⟩
  · intro n hn st hst
    let J : ℕ → ℕ × ℕ → Prop := fun m st =>
      st.2 = n * d + m ∧
        (∀ i < n, ∀ j < d, st.1.testBit (i * d + j) = helper.testBit (j * h + i)) ∧
        (∀ j < m, st.1.testBit (n * d + j) = helper.testBit (j * h + n)) ∧
        st.1 < 2 ^ (n * d + m)
    have hJ : J d (loopN d
        (fun j (st : ℕ × ℕ) =>
          (if helper.testBit (j * h + n) then st.1 ||| (1 <<< st.2) else st.1, st.2 + 1)) st) := by
      apply loopN_invariant J
      · exact ⟨by simpa using hst.1, hst.2.1, by simp, by simpa using hst.2.2⟩
      · rintro m hm ⟨a, c⟩ ⟨h1, h2, h3, h4⟩
        simp only at h1 h2 h3 h4 ⊢
        subst h1
        have hbig : a.testBit (n * d + m) = false := Nat.testBit_lt_two_pow h4
        have hlt2 : a < 2 ^ (n * d + (m + 1)) :=
          h4.trans_le (Nat.pow_le_pow_right (by norm_num) (by omega))
        by_cases hb : helper.testBit (m * h + n) = true
        · refine ⟨by simp only; omega, ?_, ?_, ?_⟩
          · intro i hi j hj
            have hne : i * d + j ≠ n * d + m := by
              have : (i + 1) * d ≤ n * d := Nat.mul_le_mul_right _ hi
              rw [Nat.add_mul, one_mul] at this; omega
            simp only [hb, if_true]
            rw [Nat.testBit_or, h2 i hi j hj, Nat.one_shiftLeft, Nat.testBit_two_pow]
            simp [Ne.symm hne]
          · intro j hj
            simp only [hb, if_true]
            rw [Nat.testBit_or, Nat.one_shiftLeft, Nat.testBit_two_pow]
            rcases Nat.lt_succ_iff_lt_or_eq.mp hj with hj | rfl
            · rw [h3 j hj]; simp; intro h; omega
            · simp [hb]
          · simp only [hb, if_true]
            apply Nat.or_lt_two_pow hlt2
            rw [Nat.one_shiftLeft]; exact Nat.pow_lt_pow_right (by norm_num) (by omega)
        · refine ⟨by simp only; omega, ?_, ?_, ?_⟩
          · intro i hi j hj; simp [hb, h2 i hi j hj]
          · intro j hj
            simp only [hb]
            rcases Nat.lt_succ_iff_lt_or_eq.mp hj with hj | rfl
            · exact h3 j hj
            · simp [hbig, hb]
          · simpa [hb] using hlt2
    obtain ⟨h1, h2, h3, h4⟩ := hJ
    refine ⟨by rw [h1]; ring, ?_, by rw [show (n + 1) * d = n * d + d by ring]; exact h4⟩
    intro i hi j hj
    rcases Nat.lt_succ_iff_lt_or_eq.mp hi with hi | rfl
    · exact h2 i hi j hj
    · exact h3 j hj

/-- The Morton index of the grid coordinates of an address is the position of the address among the
addresses of its depth in breadth-first order. -/
theorem getMortonIndex_grid (hd : 0 < d) (π : Path) (hπ : ValidPath d π) (hlen : π.length < 64 / d) :
    getMortonIndex π.length (grid d π) = .ok (pathIndex d π) := by
  unfold getMortonIndex
  rw [if_neg (by omega)]
  congr 1
  obtain ⟨_, h2, h3⟩ := mortonInterleave_spec d π.length (mortonHelper π.length (grid d π))
  have hdh : d * π.length ≤ 64 := by
    have := Nat.mul_div_le 64 d
    calc d * π.length ≤ d * (64 / d) := Nat.mul_le_mul_left _ hlen.le
      _ ≤ 64 := this
  apply Nat.eq_of_testBit_eq
  intro n
  by_cases hn : n < π.length * d
  · have hdiv : n / d < π.length := Nat.div_lt_of_lt_mul (by linarith [mul_comm d π.length])
    have hmod : n % d < d := Nat.mod_lt _ hd
    have e : n = n / d * d + n % d := by rw [mul_comm]; exact (Nat.div_add_mod n d).symm
    rw [e, h2 _ hdiv _ hmod, testBit_pathIndex π hπ _ _ hmod]
    have := mortonHelper_bits π.length (grid d π) (fun j => grid_lt π j) hdh (n / d) hdiv ⟨n % d, hmod⟩
    simp only at this
    rw [this, testBit_grid]
    congr 1
    simp only [Fin.val_rev]; omega
  · have hp : 2 ^ (π.length * d) ≤ 2 ^ n := Nat.pow_le_pow_right (by norm_num) (by omega)
    rw [Nat.testBit_lt_two_pow (h3.trans_le hp)]
    have := pathIndex_lt π hπ
    rw [← pow_mul, mul_comm] at this
    rw [Nat.testBit_lt_two_pow (this.trans_le hp)]

/-! ## The flat index -/

/-- Value of the flat index without wrap-around. -/
def flatSpec (n : ℕ) (idx : Fin d → ℕ) : ℕ := Nat.ofDigits n ((List.finRange d).map fun i => idx i.rev)

theorem flatLoop (n : ℕ) (l : List ℕ) (a o : ℕ) :
    (l.foldl (fun (st : ℕ × ℕ) x => ((st.1 + st.2 * x) % 2 ^ 32, st.2 * n % 2 ^ 32)) (a, o)).1 % 2 ^ 32
      = (a + o * Nat.ofDigits n l) % 2 ^ 32 := by
  induction l generalizing a o with
  | nil => simp [Nat.ofDigits]
  | cons x l ih =>
    simp only [List.foldl_cons]
    rw [ih, Nat.ofDigits_cons]
    conv_lhs => rw [Nat.add_mod, Nat.mod_mod, Nat.mul_mod, Nat.mod_mod, ← Nat.mul_mod, ← Nat.add_mod]
    congr 1; push_cast; ring

theorem flatLoop_lt (n : ℕ) (l : List ℕ) (a o : ℕ) (ha : a < 2 ^ 32) :
    (l.foldl (fun (st : ℕ × ℕ) x => ((st.1 + st.2 * x) % 2 ^ 32, st.2 * n % 2 ^ 32)) (a, o)).1 < 2 ^ 32 := by
  induction l generalizing a o with
  | nil => exact ha
  | cons x l ih => exact ih _ _ (Nat.mod_lt _ (by norm_num))

theorem getFlatIndex_eq (n : ℕ) (idx : Fin d → ℕ) :
    getFlatIndex n idx = flatSpec n idx % 2 ^ 32 := by
  have h := flatLoop n ((List.finRange d).map fun i => idx i.rev) 0 1
  have h2 := flatLoop_lt n ((List.finRange d).map fun i => idx i.rev) 0 1 (by norm_num)
  rw [Nat.mod_eq_of_lt h2] at h
  unfold getFlatIndex flatSpec
  rw [List.foldl_map] at h
  simpa using h

theorem flatSpec_lt (h : ℕ) (idx : Fin d → ℕ) (hidx : ∀ j, idx j < 2 ^ h) :
    flatSpec (2 ^ h) idx < 2 ^ (d * h) := by
  rcases Nat.eq_zero_or_pos h with rfl | hh
  · have : ∀ j, idx j = 0 := fun j => by simpa using hidx j
    have key : ∀ l : List ℕ, (∀ x ∈ l, x = 0) → Nat.ofDigits (2 ^ 0) l = 0 := by
      intro l
      induction l with
      | nil => intro _; rfl
      | cons a l ih =>
        intro h
        rw [Nat.ofDigits_cons, ih fun x hx => h x (by simp [hx]), h a (by simp)]; rfl
    unfold flatSpec
    rw [key _ (by simp only [List.mem_map]; rintro x ⟨i, _, rfl⟩; exact this _)]
    simp
  · have := Nat.ofDigits_lt_base_pow_length (b := 2 ^ h)
      (l := (List.finRange d).map fun i => idx i.rev)
      (by have : 2 ^ 1 ≤ 2 ^ h := Nat.pow_le_pow_right (by norm_num) hh
          omega) (by simp only [List.mem_map]; rintro x ⟨i, _, rfl⟩; exact hidx _)
    simp only [List.length_map, List.length_finRange, ← pow_mul] at this
    rw [mul_comm]; exact this

theorem flatSpec_injective (h : ℕ) (idx idx' : Fin d → ℕ) (hidx : ∀ j, idx j < 2 ^ h)
    (hidx' : ∀ j, idx' j < 2 ^ h) (heq : flatSpec (2 ^ h) idx = flatSpec (2 ^ h) idx') : idx = idx' := by
  rcases Nat.eq_zero_or_pos h with rfl | hh
  · ext j; have a := hidx j; have b := hidx' j; simp at a b; rw [a, b]
  · have h1 : 1 < 2 ^ h := Nat.one_lt_two_pow (by omega)
    have := Nat.ofDigits_inj_of_len_eq h1 (L1 := (List.finRange d).map fun i : Fin d => idx i.rev)
      (L2 := (List.finRange d).map fun i : Fin d => idx' i.rev) (by simp)
      (by simp only [List.mem_map]; rintro x ⟨i, _, rfl⟩; exact hidx _)
      (by simp only [List.mem_map]; rintro x ⟨i, _, rfl⟩; exact hidx' _) heq
    ext j
    have h2 := List.map_inj_left.mp this j.rev (List.mem_finRange _)
    simpa using h2

/-! ## Leaf box indices -/

/-- `x` lies in the half-open box `[lower, upper)`. -/
def Box.containsHO (b : Box d) (x : Vec d) : Prop := ∀ i, b.lower i ≤ x i ∧ x i < b.upper i

theorem Box.containsHO.contains {b : Box d} {x : Vec d} (h : b.containsHO x) : b.contains x := by
  intro i; have := h i; push Not; exact ⟨this.1, this.2.le⟩

theorem route_containsHO (r : Box d) (x : Vec d) (h : r.containsHO x) (k : ℕ) :
    (boxAt r (route r x k)).containsHO x := by
  induction k with
  | zero => exact h
  | succ k ih =>
    intro j
    have := ih j
    rw [Box.lower_apply, Box.upper_apply] at this
    simp only [route, boxAt, Box.lower_apply, Box.upper_apply, Box.child, Pi.add_apply,
      Pi.smul_apply, smul_eq_mul, childDir_getOrthant]
    split
    · constructor <;> linarith [this.1, this.2]
    · next hlt => push Not at hlt; constructor <;> linarith [this.1, this.2]

/-- A point has only one half-open cell of each depth. -/
theorem cell_unique (r : Box d) (hr : 0 < r.len) (π ρ : Path) (hlen : π.length = ρ.length) (x : Vec d)
    (h1 : (boxAt r π).containsHO x) (h2 : (boxAt r ρ).containsHO x) : grid d π = grid d ρ := by
  ext j
  have a := h1 j
  have b := h2 j
  rw [boxAt_lower, boxAt_upper] at a b
  rw [← hlen] at b
  have hu : 0 < r.len / 2 ^ π.length := by positivity
  set u := r.len / 2 ^ π.length
  have c1 : (grid d π j : ℝ) < grid d ρ j + 1 := by by_contra hc; push Not at hc; nlinarith
  have c2 : (grid d ρ j : ℝ) < grid d π j + 1 := by by_contra hc; push Not at hc; nlinarith
  have c1' : grid d π j < grid d ρ j + 1 := by exact_mod_cast c1
  have c2' : grid d ρ j < grid d π j + 1 := by exact_mod_cast c2
  omega

theorem leafBoxIndex_of_cell (r : Box d) (hr : 0 < r.len) (π : Path) (hh : π.length < 32) (x : Vec d)
    (hx : (boxAt r π).containsHO x) (j : Fin d) :
    leafBoxIndex (2 ^ π.length) (((1 / r.len) • (x - r.lower)) j) = .ok (grid d π j) := by
  have a := hx j
  rw [boxAt_lower, boxAt_upper] at a
  have hfl : ⌊((1 / r.len) • (x - r.lower)) j * (2 ^ π.length : ℕ)⌋ = grid d π j := by
    rw [Int.floor_eq_iff]
    simp only [Pi.smul_apply, Pi.sub_apply, smul_eq_mul]
    push_cast
    have e : 1 / r.len * (x j - r.lower j) * 2 ^ π.length
        = (x j - r.lower j) / (r.len / 2 ^ π.length) := by field_simp
    have hu : 0 < r.len / 2 ^ π.length := by positivity
    rw [e, le_div_iff₀ hu, div_lt_iff₀ hu]
    constructor <;> linarith [a.1, a.2]
  have hg := grid_lt (d := d) π j
  have h32 : 2 ^ π.length < 2 ^ 32 := Nat.pow_lt_pow_right (by norm_num) hh
  unfold leafBoxIndex
  rw [hfl]
  have : toU32 (grid d π j : ℤ) = .ok (grid d π j) := by
    unfold toU32
    rw [if_pos ⟨by positivity, by exact_mod_cast hg.trans h32⟩]; simp
  rw [this]
  simp only [bind, Except.bind]
  rw [if_neg (by omega)]

theorem toU32_pow (h : ℕ) (hh : h < 32) : toU32 (2 ^ h) = .ok (2 ^ h) := by
  have h32 : 2 ^ h < 2 ^ 32 := Nat.pow_lt_pow_right (by norm_num) hh
  have e : (2 ^ h : ℤ) = ((2 ^ h : ℕ) : ℤ) := by push_cast; rfl
  unfold toU32
  rw [e, if_pos ⟨by positivity, by exact_mod_cast h32⟩, Int.toNat_natCast]

theorem getLeafBoxIndices_of_cell (r : Box d) (hr : 0 < r.len) (π : Path) (hh : π.length < 32)
    (x : Vec d) (hx : (boxAt r π).containsHO x) :
    getLeafBoxIndices r π.length x = .ok (grid d π) := by
  unfold getLeafBoxIndices
  rw [if_neg hr.ne', toU32_pow _ hh]
  exact (seqFin_ok _ _).mpr fun j => leafBoxIndex_of_cell r hr π hh x hx j

end FMM
