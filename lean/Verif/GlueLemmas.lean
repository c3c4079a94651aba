import Verif.Glue

/-!
# The loops of the callers: closed forms
-/

namespace FMM.Glue
variable {d : ℕ}

theorem intIdx_ok {k : ℕ} (h : k < 2 ^ 31) : intIdx k = .ok k := if_pos h

theorem vecGet_ok {α : Type} {v : List α} {i : ℕ} (h : i < v.length) : vecGet v i = .ok v[i] := by
  unfold vecGet; rw [List.getElem?_eq_getElem h]

theorem vecGet_ub {α : Type} {v : List α} {i : ℕ} (h : v.length ≤ i) : vecGet v i = .error .ub := by
  unfold vecGet; rw [List.getElem?_eq_none h]

theorem toList_length {α : Type*} (a : Arr α) : a.toList.length = a.size := by simp [Arr.toList]

theorem toList_get {α : Type*} (a : Arr α) {i : ℕ} (h : i < a.toList.length) : a.toList[i] = a.val i := by
  simp [Arr.toList]

theorem readVec_ok (data : Arr ℝ) (idx : ℕ → Outcome ℕ) (g : ℕ → ℕ) (hi : ∀ j < d, idx j = .ok (g j))
    (hs : ∀ j < d, g j < data.size) : readVec (d := d) data idx = .ok fun j => data.val (g j) := by
  obtain ⟨v, h1, h2⟩ := loopM_invariant (fun n (v : Vec d) => ∀ j : Fin d, j.1 < n → v j = data.val (g j))
    (fun j v => do
      let k ← idx j
      let a ← data.rd k
      vset v j a) (Vec.fill 0) d (by intro j h; omega) (by
    intro i hi' v hv
    refine ⟨Function.update v ⟨i, hi'⟩ (data.val (g i)), ?_, ?_⟩
    · rw [hi i hi', ok_bind, Arr.rd_ok _ (hs i hi'), ok_bind]; exact dif_pos hi'
    · intro j hj
      by_cases h : j = ⟨i, hi'⟩
      · subst h; simp
      · rw [Function.update_of_ne h]
        refine hv j ?_
        have : j.1 ≠ i := fun h' => h (Fin.ext h')
        omega)
  unfold readVec
  rw [h1]
  congr 1
  funext j
  exact h2 j j.isLt

/-- `writeVec` to consecutive cells. -/
theorem writeVec_ok (data : Arr ℝ) (idx : ℕ → Outcome ℕ) (v : Vec d) (b : ℕ) (hi : ∀ j < d, idx j = .ok (b + j))
    (hs : b + d ≤ data.size) :
    ∃ out, writeVec data idx v = .ok out ∧ out.size = data.size ∧ (∀ j : Fin d, out.val (b + j) = v j) ∧
      ∀ k, (k < b ∨ b + d ≤ k) → out.val k = data.val k := by
  obtain ⟨out, h1, h2, h3, h4⟩ := loopM_invariant (fun n (out : Arr ℝ) => out.size = data.size ∧
      (∀ j : Fin d, j.1 < n → out.val (b + j) = v j) ∧ ∀ k, (k < b ∨ b + n ≤ k) → out.val k = data.val k)
    (fun j data => do
      let a ← vget v j
      let k ← idx j
      data.wr k a) data d ⟨rfl, by intro j h; omega, fun _ _ => rfl⟩ (by
    rintro i hi' out ⟨e1, e2, e3⟩
    refine ⟨⟨out.size, Function.update out.val (b + i) (v ⟨i, hi'⟩)⟩, ?_, e1, ?_, ?_⟩
    · have : vget v i = .ok (v ⟨i, hi'⟩) := dif_pos hi'
      rw [this, ok_bind, hi i hi', ok_bind, Arr.wr_ok _ (by omega)]
    · intro j hj
      by_cases h : j = ⟨i, hi'⟩
      · subst h; simp
      · have : j.1 ≠ i := fun h' => h (Fin.ext h')
        simp only
        rw [Function.update_of_ne (by omega)]
        exact e2 j (by omega)
    · intro k hk
      simp only
      rw [Function.update_of_ne (by omega)]
      exact e3 k (by omega))
  exact ⟨out, h1, h2, fun j => h3 j j.isLt, h4⟩

/-- Writing one slot per iteration, in any order. -/
theorem slots_ok {α : Type} (f : Arr α → ℕ → Outcome (Arr α)) (val : ℕ → α) (n : ℕ)
    (hf : ∀ (a : Arr α) i, i < n → a.size = n → f a i = .ok ⟨n, Function.update a.val i (val i)⟩)
    (order : List ℕ) (ho : order.Perm (List.range n)) (a : Arr α) (ha : a.size = n) :
    ∃ out, order.foldlM f a = .ok out ∧ out.size = n ∧ (∀ i < n, out.val i = val i) ∧ ∀ i ≥ n, out.val i = a.val i := by
  have key : ∀ (l : List ℕ), (∀ i ∈ l, i < n) → ∀ a : Arr α, a.size = n →
      ∃ out, l.foldlM f a = .ok out ∧ out.size = n ∧ ∀ i, out.val i = if i ∈ l then val i else a.val i := by
    intro l
    induction l with
    | nil => intro _ a hs; exact ⟨a, rfl, hs, fun i => by simp⟩
    | cons x l ih =>
      intro hl a hs
      obtain ⟨out, e1, e2, e3⟩ := ih (fun i hi => hl i (by simp [hi])) ⟨n, Function.update a.val x (val x)⟩ rfl
      refine ⟨out, ?_, e2, fun i => ?_⟩
      · rw [List.foldlM_cons, hf a x (hl x (by simp)) hs, ok_bind]; exact e1
      · rw [e3 i]
        by_cases h1 : i ∈ l
        · simp [h1]
        · by_cases h2 : i = x
          · subst h2; simp [h1]
          · simp [h1, h2]
  obtain ⟨out, e1, e2, e3⟩ := key order (fun i hi => by simpa using ho.mem_iff.mp hi) a ha
  refine ⟨out, e1, e2, fun i hi => ?_, fun i hi => ?_⟩
  · rw [e3 i, if_pos (ho.mem_iff.mpr (by simpa using hi))]
  · rw [e3 i, if_neg fun h => by have := ho.mem_iff.mp h; simp at this; omega]

/-- Writing one row per iteration, in any order. -/
theorem rows_ok (f : Arr ℝ → ℕ → Outcome (Arr ℝ)) (row : ℕ → Vec d) (n : ℕ)
    (hf : ∀ (a : Arr ℝ) i, i < n → n * d ≤ a.size → ∃ out, f a i = .ok out ∧ out.size = a.size ∧
      (∀ j : Fin d, out.val (d * i + j) = row i j) ∧ ∀ k, (k < d * i ∨ d * i + d ≤ k) → out.val k = a.val k)
    (order : List ℕ) (ho : order.Perm (List.range n)) (a : Arr ℝ) (ha : n * d ≤ a.size) :
    ∃ out, order.foldlM f a = .ok out ∧ out.size = a.size ∧ (∀ i < n, ∀ j : Fin d, out.val (d * i + j) = row i j) ∧
      ∀ k ≥ n * d, out.val k = a.val k := by
  have sep : ∀ i i' : ℕ, i ≠ i' → ∀ j : Fin d, d * i + j < d * i' ∨ d * i' + d ≤ d * i + j := by
    intro i i' h j
    rcases lt_or_gt_of_ne h with h | h
    · left; have := Nat.mul_le_mul_left d (show i + 1 ≤ i' by omega); have := j.isLt; rw [Nat.mul_add] at *; omega
    · right; have := Nat.mul_le_mul_left d (show i' + 1 ≤ i by omega); rw [Nat.mul_add] at *; omega
  have key : ∀ (l : List ℕ), (∀ i ∈ l, i < n) → ∀ a : Arr ℝ, n * d ≤ a.size →
      ∃ out, l.foldlM f a = .ok out ∧ out.size = a.size ∧
        (∀ i, ∀ j : Fin d, out.val (d * i + j) = if i ∈ l then row i j else a.val (d * i + j)) ∧
        ∀ k ≥ n * d, out.val k = a.val k := by
    intro l
    induction l with
    | nil => intro _ a hs; exact ⟨a, rfl, rfl, fun i j => by simp, fun _ _ => rfl⟩
    | cons x l ih =>
      intro hl a hs
      have hx := hl x (by simp)
      obtain ⟨b, b1, b2, b3, b4⟩ := hf a x hx hs
      obtain ⟨out, e1, e2, e3, e4⟩ := ih (fun i hi => hl i (by simp [hi])) b (by omega)
      refine ⟨out, ?_, by omega, fun i j => ?_, fun k hk => ?_⟩
      · rw [List.foldlM_cons, b1, ok_bind]; exact e1
      · rw [e3 i]
        by_cases h1 : i ∈ l
        · simp [h1]
        · by_cases h2 : i = x
          · subst h2; simp [h1, b3]
          · simp [h1, h2, b4 _ (sep i x h2 j)]
      · rw [e4 k hk, b4 k]
        right
        have := Nat.mul_le_mul_left d (show x + 1 ≤ n by omega)
        rw [Nat.mul_add, Nat.mul_comm d n] at this
        omega
  obtain ⟨out, e1, e2, e3, e4⟩ := key order (fun i hi => by simpa using ho.mem_iff.mp hi) a ha
  refine ⟨out, e1, e2, fun i hi j => ?_, e4⟩
  rw [e3 i, if_pos (ho.mem_iff.mpr (by simpa using hi))]

theorem loopM_foldlM {σ : Type} (n : ℕ) (f : ℕ → σ → Outcome σ) (s : σ) :
    loopM n f s = (List.range n).foldlM (fun s i => f i s) s := by
  induction n generalizing s with
  | zero => rfl
  | succ n ih => rw [loopM_succ, List.range_succ, List.foldlM_append, ih]; congr 1; funext t; simp

/-- A loop that fails in some iteration, and in no other way, fails. -/
theorem loopM_error {σ : Type} (n : ℕ) (f : ℕ → σ → Outcome σ) (s : σ) (e : Err) (k : ℕ) (hk : k < n)
    (P : σ → Prop) (h0 : P s) (hs : ∀ i < n, ∀ t, P t → (∃ t', f i t = .ok t' ∧ P t') ∨ f i t = .error e)
    (hfail : ∀ t, P t → f k t = .error e) : loopM n f s = .error e := by
  have key : ∀ m ≤ n, (∃ t, loopM m f s = .ok t ∧ P t) ∨ loopM m f s = .error e := by
    intro m hm
    induction m with
    | zero => exact .inl ⟨s, rfl, h0⟩
    | succ m ih =>
      rcases ih (by omega) with ⟨t, h1, h2⟩ | h1
      · rw [loopM_succ, h1]
        exact hs m (by omega) t h2
      · right; rw [loopM_succ, h1]; rfl
  have key2 : ∀ m, k < m → m ≤ n → loopM m f s = .error e := by
    intro m hm hmn
    induction m with
    | zero => omega
    | succ m ih =>
      rw [loopM_succ]
      rcases Nat.lt_or_ge k m with h | h
      · rw [ih h (by omega)]; rfl
      · have : m = k := by omega
        subst this
        rcases key m (by omega) with ⟨t, h1, h2⟩ | h1
        · rw [h1]; exact hfail t h2
        · rw [h1]; rfl
  exact key2 n hk le_rfl

end FMM.Glue
