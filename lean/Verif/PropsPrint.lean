import Verif.Print
import Mathlib.Data.Nat.Digits.Lemmas
import Mathlib.Data.List.Basic

/-!
# C103: text output
-/

namespace FMM.Print
open FMM

/-! ## Lemmas -/

theorem append_loop {f : ℕ → Text → Outcome Text} {g : ℕ → Text} (n : ℕ) (o : Text) (h : ∀ i < n, ∀ o, f i o = .ok (o ++ g i)) :
    loopM n f o = .ok (o ++ (List.range n).flatMap g) := by
  induction n with
  | zero => simp
  | succ n ih =>
    rw [loopM_succ, ih fun i hi => h i (by omega)]
    change f n _ = _
    rw [h n (by omega), List.range_succ, List.flatMap_append]
    simp

theorem digitChar_inj {a b : ℕ} (ha : a < 10) (hb : b < 10) (h : Nat.digitChar a = Nat.digitChar b) : a = b := by
  interval_cases a <;> interval_cases b <;> first | rfl | (exact absurd h (by decide))

theorem digitChar_isDigit {a : ℕ} (ha : a < 10) : (Nat.digitChar a).isDigit := by interval_cases a <;> decide

theorem map_digitChar_inj : ∀ {l m : List ℕ}, (∀ x ∈ l, x < 10) → (∀ x ∈ m, x < 10) → l.map Nat.digitChar = m.map Nat.digitChar → l = m
  | [], [], _, _, _ => rfl
  | [], _ :: _, _, _, h => by simp at h
  | _ :: _, [], _, _, h => by simp at h
  | a :: l, b :: m, h1, h2, h => by
    rw [List.map_cons, List.map_cons, List.cons.injEq] at h
    rw [digitChar_inj (h1 a (by simp)) (h2 b (by simp)) h.1,
      map_digitChar_inj (fun x hx => h1 x (by simp [hx])) (fun x hx => h2 x (by simp [hx])) h.2]

theorem nat_eq (n : ℕ) (hn : n ≠ 0) : nat n = ((Nat.digits 10 n).map Nat.digitChar).reverse := if_neg hn

theorem nat_inj {n m : ℕ} (h : nat n = nat m) : n = m := by
  have key : ∀ k : ℕ, nat k = (((if k = 0 then [0] else Nat.digits 10 k)).map Nat.digitChar).reverse := by
    intro k
    unfold nat
    by_cases hk : k = 0
    · rw [if_pos hk, if_pos hk]; rfl
    · rw [if_neg hk, if_neg hk]
  have lt : ∀ k : ℕ, ∀ x ∈ (if k = 0 then [0] else Nat.digits 10 k), x < 10 := by
    intro k x hx
    by_cases hk : k = 0
    · rw [if_pos hk] at hx; simp at hx; omega
    · rw [if_neg hk] at hx; exact Nat.digits_lt_base (by norm_num) hx
  have val : ∀ k : ℕ, Nat.ofDigits 10 (if k = 0 then [0] else Nat.digits 10 k) = k := by
    intro k
    by_cases hk : k = 0
    · rw [if_pos hk, hk]; rfl
    · rw [if_neg hk, Nat.ofDigits_digits]
  rw [key, key, List.reverse_inj] at h
  rw [← val n, ← val m, map_digitChar_inj (lt n) (lt m) h]

theorem nat_digit {n : ℕ} {c : Char} (h : c ∈ nat n) : c.isDigit := by
  unfold nat at h
  by_cases hn : n = 0
  · rw [if_pos hn] at h; simp at h; rw [h]; decide
  · rw [if_neg hn, List.mem_reverse, List.mem_map] at h
    obtain ⟨x, hx, rfl⟩ := h
    exact digitChar_isDigit (Nat.digits_lt_base (by norm_num) hx)

theorem nat_ne_nil (n : ℕ) : nat n ≠ [] := by
  unfold nat
  by_cases hn : n = 0
  · rw [if_pos hn]; simp
  · rw [if_neg hn]; simpa using Nat.digits_ne_nil_iff_ne_zero.mpr hn

theorem int_chars {m : ℤ} {c : Char} (h : c ∈ int m) : c.isDigit ∨ c = '-' := by
  cases m with
  | ofNat n => exact Or.inl (nat_digit h)
  | negSucc n =>
    rcases List.mem_cons.mp h with h | h
    · exact Or.inr h
    · exact Or.inl (nat_digit h)

theorem int_inj {a b : ℤ} (h : int a = int b) : a = b := by
  cases a with
  | ofNat n =>
    cases b with
    | ofNat m => rw [nat_inj h]
    | negSucc m =>
      have : '-' ∈ nat n := by
        change nat n = _ at h
        rw [h]; simp [int]
      exact absurd (nat_digit this) (by decide)
  | negSucc n =>
    cases b with
    | ofNat m =>
      have : '-' ∈ nat m := by
        change _ = nat m at h
        rw [← h]; simp [int]
      exact absurd (nat_digit this) (by decide)
    | negSucc m =>
      have := nat_inj (List.cons.inj h).2
      rw [Nat.succ.inj this]

/-- A field that ends at the first separator. -/
theorem field {c : Char} : ∀ {a b r s : Text}, c ∉ a → c ∉ b → a ++ c :: r = b ++ c :: s → a = b ∧ r = s
  | [], [], _, _, _, _, h => ⟨rfl, (List.cons.inj h).2⟩
  | [], x :: b, _, _, _, hb, h => by
    have := (List.cons.inj h).1
    exact absurd (by simp [this]) hb
  | x :: a, [], _, _, ha, _, h => by
    have := (List.cons.inj h).1
    exact absurd (by simp [this]) ha
  | x :: a, y :: b, r, s, ha, hb, h => by
    obtain ⟨h1, h2⟩ := List.cons.inj h
    obtain ⟨h3, h4⟩ := field (fun k => ha (by simp [k])) (fun k => hb (by simp [k])) h2
    exact ⟨by rw [h1, h3], h4⟩

/-- A text of non-empty lines that is closed by an empty line. -/
theorem lines_inj : ∀ {L M : List Text}, (∀ l ∈ L, '\n' ∉ l ∧ l ≠ []) → (∀ l ∈ M, '\n' ∉ l ∧ l ≠ []) →
    L.flatMap (· ++ ['\n']) ++ ['\n'] = M.flatMap (· ++ ['\n']) ++ ['\n'] → L = M
  | [], [], _, _, _ => rfl
  | [], m :: M, _, hM, h => by
    have h' : [] ++ '\n' :: [] = m ++ '\n' :: (M.flatMap (· ++ ['\n']) ++ ['\n']) := by simpa using h
    exact absurd (field (by simp) (hM m (by simp)).1 h').1.symm (hM m (by simp)).2
  | l :: L, [], hL, _, h => by
    have h' : l ++ '\n' :: (L.flatMap (· ++ ['\n']) ++ ['\n']) = [] ++ '\n' :: [] := by simpa using h
    exact absurd (field (hL l (by simp)).1 (by simp) h').1 (hL l (by simp)).2
  | l :: L, m :: M, hL, hM, h => by
    have h' : l ++ '\n' :: (L.flatMap (· ++ ['\n']) ++ ['\n']) = m ++ '\n' :: (M.flatMap (· ++ ['\n']) ++ ['\n']) := by simpa using h
    obtain ⟨h1, h2⟩ := field (hL l (by simp)).1 (hM m (by simp)).1 h'
    rw [h1, lines_inj (fun l hl => hL l (by simp [hl])) (fun l hl => hM l (by simp [hl])) h2]

/-! ## Vectors and sources -/

/-- How a stream writes a `double`: separators do not occur.  (Different numbers may look the same.) -/
structure Clean (fmt : ℝ → Text) : Prop where
  clean : ∀ a, ∀ c ∈ fmt a, c ≠ ',' ∧ c ≠ '\t' ∧ c ≠ '\n' ∧ c ≠ ' '

theorem vector_eq {d : ℕ} (fmt : ℝ → Text) (o : Text) (v : Vec (d + 1)) :
    vector fmt o v = o ++ ((List.finRange d).flatMap fun i => fmt (v i.castSucc) ++ [',', ' ']) ++ fmt (v (Fin.last d)) := by
  unfold vector
  dsimp only
  congr 1
  generalize List.finRange d = l
  induction l generalizing o with
  | nil => simp
  | cons a l ih => rw [List.foldl_cons, ih]; simp

/-- **C103** A vector is written as its coordinates, separated by a comma and a space. -/
theorem C103_vector {d : ℕ} (fmt : ℝ → Text) (o : Text) (v : Vec (d + 1)) :
    vector fmt o v = o ++ [',', ' '].intercalate (List.ofFn fun i => fmt (v i)) := by
  rw [vector_eq, List.append_assoc, List.ofFn_succ_last]
  congr 1
  have : ∀ (l : List (Fin d)) (x : Text), l.flatMap (fun i => fmt (v i.castSucc) ++ [',', ' ']) ++ x =
      [',', ' '].intercalate (l.map (fun i => fmt (v i.castSucc)) ++ [x]) := by
    intro l x
    induction l with
    | nil => simp [List.intercalate]
    | cons a l ih =>
      rw [List.flatMap_cons, List.append_assoc, ih, List.map_cons]
      cases hl : l.map (fun i => fmt (v i.castSucc)) ++ [x] with
      | nil => simp at hl
      | cons y r => simp [List.intercalate, hl]
  rw [this, List.ofFn_eq_map]

/-- **C103** The text determines how every coordinate was written. -/
theorem C103_vector_inj {d : ℕ} {fmt : ℝ → Text} (hf : Clean fmt) {v w : Vec (d + 1)} (h : vector fmt [] v = vector fmt [] w) (i : Fin (d + 1)) :
    fmt (v i) = fmt (w i) := by
  rw [vector_eq, vector_eq, List.nil_append, List.nil_append] at h
  have cl : ∀ a, ',' ∉ fmt a := fun a k => (hf.clean a _ k).1 rfl
  have key : ∀ (l : List (Fin d)) (a b : ℝ), l.flatMap (fun i => fmt (v i.castSucc) ++ [',', ' ']) ++ fmt a =
      l.flatMap (fun i => fmt (w i.castSucc) ++ [',', ' ']) ++ fmt b → (∀ i ∈ l, fmt (v i.castSucc) = fmt (w i.castSucc)) ∧ fmt a = fmt b := by
    intro l a b
    induction l with
    | nil => intro h; exact ⟨by simp, by simpa using h⟩
    | cons i l ih =>
      intro h
      have h' : fmt (v i.castSucc) ++ ',' :: ' ' :: (l.flatMap (fun i => fmt (v i.castSucc) ++ [',', ' ']) ++ fmt a) =
        fmt (w i.castSucc) ++ ',' :: ' ' :: (l.flatMap (fun i => fmt (w i.castSucc) ++ [',', ' ']) ++ fmt b) := by simpa using h
      obtain ⟨h1, h2⟩ := field (cl _) (cl _) h'
      obtain ⟨h3, h4⟩ := ih (List.cons.inj h2).2
      refine ⟨fun j hj => ?_, h4⟩
      rcases List.mem_cons.mp hj with rfl | hj
      · exact h1
      · exact h3 j hj
  obtain ⟨h1, h2⟩ := key _ _ _ h
  induction i using Fin.lastCases with
  | last => exact h2
  | cast i => exact h1 i (List.mem_finRange i)

/-- **C103** A source is written as its position and its strength. -/
theorem C103_source {d : ℕ} (fmt : ℝ → Text) (o : Text) (s : Source (d + 1)) :
    source fmt o s = o ++ [',', ' '].intercalate (List.ofFn fun i => fmt (s.pos i)) ++ [',', ' ', 'q', ' ', '=', ' '] ++ fmt s.q := by
  unfold source
  rw [C103_vector]
  rfl

/-! ## Expansions -/

/-- One line of the table of an expansion in the plane. -/
def line2 (fmt : ℝ → Text) (n : ℕ) (a : ℂ) : Text := nat n ++ '\t' :: (fmt a.re ++ '\t' :: fmt a.im)

/-- **C103** An expansion in the plane is written as a table with one line for every coefficient. -/
theorem C103_exp2 (fmt : ℝ → Text) (o : Text) (e : Exp2) (h : e.order < e.coeffs.size) :
    exp2 fmt o e = .ok (o ++ "n\tRe a_n\tIm a_n\n".toList ++
      (((List.range (e.order + 1)).map fun n => line2 fmt n (e.coeffs.val n)).flatMap (· ++ ['\n']) ++ ['\n'])) := by
  unfold exp2
  dsimp only
  rw [append_loop (e.order + 1) _ (g := fun n => line2 fmt n (e.coeffs.val n) ++ ['\n']) fun n hn o => by
    rw [e.coeffs.rd_ok (by omega), ok_bind, ok_bind]
    simp [line2]]
  rw [ok_bind, List.flatMap_map]
  simp

/-- **C103** Writing a default-constructed expansion, or one with too few coefficients, reads outside the vector. -/
theorem C103_exp2_ub (fmt : ℝ → Text) (o : Text) (e : Exp2) (h : e.coeffs.size ≤ e.order) : exp2 fmt o e = .error .ub := by
  unfold exp2
  dsimp only
  rw [loopM_error _ _ _ (e.coeffs.size + 1) .ub (by omega)]
  · rfl
  rw [loopM_succ, append_loop e.coeffs.size _ (g := fun n => line2 fmt n (e.coeffs.val n) ++ ['\n']) fun n hn o => by
    rw [e.coeffs.rd_ok (by omega), ok_bind, ok_bind]
    simp [line2]]
  change (e.coeffs.rd e.coeffs.size >>= _) = _
  rw [e.coeffs.rd_ub le_rfl]
  rfl

theorem Clean.tab {fmt : ℝ → Text} (hf : Clean fmt) (a : ℝ) : '\t' ∉ fmt a := fun k => (hf.clean a _ k).2.1 rfl
theorem Clean.nl {fmt : ℝ → Text} (hf : Clean fmt) (a : ℝ) : '\n' ∉ fmt a := fun k => (hf.clean a _ k).2.2.1 rfl

theorem nat_not {n : ℕ} {c : Char} (h : c.isDigit = false) : c ∉ nat n := fun k => by rw [nat_digit k] at h; cases h

theorem int_not {m : ℤ} {c : Char} (h : c.isDigit = false) (h' : c ≠ '-') : c ∉ int m := fun k => by
  rcases int_chars k with k | k
  · rw [k] at h; cases h
  · exact h' k

theorem line2_ok {fmt : ℝ → Text} (hf : Clean fmt) (n : ℕ) (a : ℂ) : '\n' ∉ line2 fmt n a ∧ line2 fmt n a ≠ [] := by
  refine ⟨fun h => ?_, by simp [line2]⟩
  simp only [line2, List.mem_append, List.mem_cons] at h
  rcases h with h | h | h | h | h
  · exact nat_not (by decide) h
  · exact absurd h (by decide)
  · exact hf.nl _ h
  · exact absurd h (by decide)
  · exact hf.nl _ h

theorem line2_inj {fmt : ℝ → Text} (hf : Clean fmt) {n m : ℕ} {a b : ℂ} (h : line2 fmt n a = line2 fmt m b) : n = m ∧ fmt a.re = fmt b.re ∧ fmt a.im = fmt b.im := by
  obtain ⟨h1, h2⟩ := field (nat_not (by decide)) (nat_not (by decide)) h
  obtain ⟨h3, h4⟩ := field (hf.tab _) (hf.tab _) h2
  exact ⟨nat_inj h1, h3, h4⟩

/-- **C103** The table determines the order and how every coefficient was written. -/
theorem C103_exp2_inj {fmt : ℝ → Text} (hf : Clean fmt) {e e' : Exp2} (h : e.order < e.coeffs.size) (h' : e'.order < e'.coeffs.size)
    (he : exp2 fmt [] e = exp2 fmt [] e') : e.order = e'.order ∧ ∀ n ≤ e.order,
      fmt (e.coeffs.val n).re = fmt (e'.coeffs.val n).re ∧ fmt (e.coeffs.val n).im = fmt (e'.coeffs.val n).im := by
  rw [C103_exp2 fmt [] e h, C103_exp2 fmt [] e' h', Except.ok.injEq, List.append_right_inj] at he
  have := lines_inj (by simp only [List.mem_map]; rintro _ ⟨n, -, rfl⟩; exact line2_ok hf _ _)
    (by simp only [List.mem_map]; rintro _ ⟨n, -, rfl⟩; exact line2_ok hf _ _) he
  have hl : e.order = e'.order := by simpa using congrArg List.length this
  refine ⟨hl, fun n hn => ?_⟩
  rw [← hl, List.map_inj_left] at this
  exact (line2_inj hf (this n (by simp; omega))).2

/-- One line of the table of an expansion in space. -/
def line3 (fmt : ℝ → Text) (n : ℕ) (m : ℤ) (a : ℂ) : Text :=
  nat n ++ '\t' :: (int m ++ '\t' :: (fmt a.re ++ '\t' :: '\t' :: fmt a.im))

/-- Degrees and orders up to `p`, in the order of the table. -/
def indices (p : ℕ) : List (ℕ × ℤ) := (List.range (p + 1)).flatMap fun n => (List.range (2 * n + 1)).map fun (j : ℕ) => (n, (j : ℤ) - n)

theorem append_loop_idx {f : ℕ → Text × ℕ → Outcome (Text × ℕ)} {g : ℕ → Text} {k : ℕ → ℕ} (n : ℕ) (o : Text)
    (h : ∀ i < n, ∀ o, f i (o, k i) = .ok (o ++ g i, k (i + 1))) :
    loopM n f (o, k 0) = .ok (o ++ (List.range n).flatMap g, k n) := by
  induction n with
  | zero => simp
  | succ n ih =>
    rw [loopM_succ, ih fun i hi => h i (by omega)]
    change f n _ = _
    rw [h n (by omega), List.range_succ, List.flatMap_append]
    simp

/-- **C103** An expansion in space is written as a table with one line for every degree and order, with the coefficient that `operator()`
returns for them. -/
theorem C103_exp3 (fmt : ℝ → Text) (o : Text) (e : Exp3) (h : e.coeffs.size = (1 + e.order) * (1 + e.order)) :
    ∃ M : ℕ → ℤ → ℂ, (∀ n ≤ e.order, ∀ m : ℤ, |m| ≤ n → e.get n m = .ok (M n m)) ∧
    exp3 fmt o e = .ok (o ++ "n\tm\tRe M_l^m\tIm M_l^m\n".toList ++
      (((indices e.order).map fun i => line3 fmt i.1 i.2 (M i.1 i.2)).flatMap (· ++ ['\n']) ++ ['\n'])) := by
  refine ⟨fun n m => e.coeffs.val (lmIndex n m).toNat, fun n hn m hm => ?_, ?_⟩
  · have := abs_le.mp hm
    unfold Exp3.get
    rw [Arr.rdZ_ok]
    · unfold lmIndex; nlinarith
    · rw [h]; unfold lmIndex; push_cast
      have : (n : ℤ) ≤ e.order := by exact_mod_cast hn
      nlinarith
  unfold exp3
  dsimp only
  rw [append_loop_idx (e.order + 1) _ (k := fun n => n * n)
    (g := fun n => (List.range (2 * n + 1)).flatMap fun (j : ℕ) => line3 fmt n ((j : ℤ) - n) (e.coeffs.val (lmIndex n ((j : ℤ) - n)).toNat) ++ ['\n']) fun n hn o => ?_]
  · rw [ok_bind]
    simp only [indices, List.flatMap_map, List.map_flatMap, List.flatMap_assoc, List.append_assoc]
    rfl
  · unfold loopZ
    rw [show ((n : ℤ) + 1 - -(n : ℤ)).toNat = 2 * n + 1 by omega]
    have := append_loop_idx (f := fun j (s : Text × ℕ) => do
      let re ← e.coeffs.rd s.2
      let im ← e.coeffs.rd s.2
      .ok (s.1 ++ nat n ++ "\t".toList ++ int (-(n : ℤ) + j) ++ "\t".toList ++ fmt re.re ++ "\t\t".toList ++ fmt im.im ++ "\n".toList, s.2 + 1))
      (k := fun j => n * n + j) (g := fun j => line3 fmt n ((j : ℤ) - n) (e.coeffs.val (lmIndex n ((j : ℤ) - n)).toNat) ++ ['\n'])
      (2 * n + 1) o fun j hj o => by
        have hsz : n * n + j < e.coeffs.size := by rw [h]; nlinarith
        rw [e.coeffs.rd_ok hsz, ok_bind, ok_bind]
        have hix : (lmIndex n ((j : ℤ) - n)).toNat = n * n + j := by unfold lmIndex; ring_nf; norm_cast
        rw [hix, show -(n : ℤ) + j = (j : ℤ) - n by ring]
        simp [line3, add_assoc]
    rw [show (n + 1) * (n + 1) = n * n + (2 * n + 1) by ring]
    exact this

/-- **C103** Writing an expansion in space without coefficients reads outside the vector. -/
theorem C103_exp3_ub (fmt : ℝ → Text) (o : Text) (e : Exp3) (h : e.coeffs.size = 0) : exp3 fmt o e = .error .ub := by
  unfold exp3
  dsimp only
  rw [loopM_error _ _ _ 1 .ub (by omega)]
  · rfl
  have h0 : e.coeffs.rd 0 = .error .ub := e.coeffs.rd_ub (by omega)
  rw [loopM_succ, loopM_zero]
  simp only [Except.bind]
  unfold loopZ
  rw [show (((0 : ℕ) : ℤ) + 1 - -((0 : ℕ) : ℤ)).toNat = 0 + 1 by norm_num, loopM_succ, loopM_zero]
  change (e.coeffs.rd 0 >>= _) = _
  rw [h0]
  rfl

theorem line3_ok {fmt : ℝ → Text} (hf : Clean fmt) (n : ℕ) (m : ℤ) (a : ℂ) : '\n' ∉ line3 fmt n m a ∧ line3 fmt n m a ≠ [] := by
  refine ⟨fun h => ?_, by simp [line3]⟩
  simp only [line3, List.mem_append, List.mem_cons] at h
  rcases h with h | h | h | h | h | h | h | h
  · exact nat_not (by decide) h
  · exact absurd h (by decide)
  · exact int_not (by decide) (by decide) h
  · exact absurd h (by decide)
  · exact hf.nl _ h
  · exact absurd h (by decide)
  · exact absurd h (by decide)
  · exact hf.nl _ h

theorem line3_inj {fmt : ℝ → Text} (hf : Clean fmt) {n n' : ℕ} {m m' : ℤ} {a b : ℂ} (h : line3 fmt n m a = line3 fmt n' m' b) :
    n = n' ∧ m = m' ∧ fmt a.re = fmt b.re ∧ fmt a.im = fmt b.im := by
  obtain ⟨h1, h2⟩ := field (nat_not (by decide)) (nat_not (by decide)) h
  obtain ⟨h3, h4⟩ := field (int_not (by decide) (by decide)) (int_not (by decide) (by decide)) h2
  obtain ⟨h5, h6⟩ := field (hf.tab _) (hf.tab _) h4
  exact ⟨nat_inj h1, int_inj h3, h5, (List.cons.inj h6).2⟩

theorem indices_length (p : ℕ) : (indices p).length = (p + 1) * (p + 1) := by
  unfold indices
  rw [List.length_flatMap]
  simp only [List.length_map, List.length_range]
  induction p + 1 with
  | zero => rfl
  | succ k ih => rw [List.range_succ, List.map_append, List.sum_append, ih]; simp; ring

theorem mem_indices {p n : ℕ} {m : ℤ} : (n, m) ∈ indices p ↔ n ≤ p ∧ |m| ≤ n := by
  simp only [indices, List.mem_flatMap, List.mem_range, List.mem_map, Prod.mk.injEq, abs_le]
  constructor
  · rintro ⟨k, hk, j, hj, rfl, rfl⟩
    omega
  · rintro ⟨h1, h2, h3⟩
    exact ⟨n, by omega, (m + n).toNat, by omega, rfl, by omega⟩

/-- **C103** The table determines the order and how every coefficient was written. -/
theorem C103_exp3_inj {fmt : ℝ → Text} (hf : Clean fmt) {e e' : Exp3} (h : e.coeffs.size = (1 + e.order) * (1 + e.order))
    (h' : e'.coeffs.size = (1 + e'.order) * (1 + e'.order)) (he : exp3 fmt [] e = exp3 fmt [] e') :
    e.order = e'.order ∧ ∀ n ≤ e.order, ∀ m : ℤ, |m| ≤ n → ∃ a b, e.get n m = .ok a ∧ e'.get n m = .ok b ∧
      fmt a.re = fmt b.re ∧ fmt a.im = fmt b.im := by
  obtain ⟨M, hM, k⟩ := C103_exp3 fmt [] e h
  obtain ⟨M', hM', k'⟩ := C103_exp3 fmt [] e' h'
  rw [k, k', Except.ok.injEq, List.append_right_inj] at he
  have := lines_inj (by simp only [List.mem_map]; rintro _ ⟨n, -, rfl⟩; exact line3_ok hf _ _ _)
    (by simp only [List.mem_map]; rintro _ ⟨n, -, rfl⟩; exact line3_ok hf _ _ _) he
  have hl : e.order = e'.order := by
    have := congrArg List.length this
    simp only [List.length_map, indices_length] at this
    nlinarith
  refine ⟨hl, fun n hn m hm => ?_⟩
  rw [← hl, List.map_inj_left] at this
  exact ⟨_, _, hM n hn m hm, hM' n (hl ▸ hn) m hm, (line3_inj hf (this (n, m) (mem_indices.mpr ⟨hn, hm⟩))).2.2⟩

/-! ## debugging.hpp -/

/-- **C103** The stamps of different iterations or processes differ. -/
theorem C103_stamp_inj {i p i' p' : ℕ} (h : stamp i p = stamp i' p') : i = i' ∧ p = p' := by
  have key : ∀ i : ℕ, ']' ∉ List.replicate (4 - (nat i).length) '0' ++ nat i := fun i k => by
    rcases List.mem_append.mp k with k | k
    · exact absurd (List.eq_of_mem_replicate k) (by decide)
    · exact nat_not (by decide) k
  have h' : (List.replicate (4 - (nat i).length) '0' ++ nat i) ++ ']' :: '[' :: 'p' :: (nat p ++ ']' :: [':', ' ']) =
      (List.replicate (4 - (nat i').length) '0' ++ nat i') ++ ']' :: '[' :: 'p' :: (nat p' ++ ']' :: [':', ' ']) := by
    simpa [stamp] using h
  obtain ⟨h1, h2⟩ := field (key i) (key i') h'
  obtain ⟨h3, -⟩ := field (nat_not (by decide)) (nat_not (by decide)) (List.cons.inj (List.cons.inj h2).2).2
  refine ⟨?_, nat_inj h3⟩
  have val : ∀ i, Nat.ofDigits 10 ((List.replicate (4 - (nat i).length) '0' ++ nat i).reverse.map fun c => c.toNat - 48) = i := by
    intro i
    have hd : ∀ l : List ℕ, (∀ x ∈ l, x < 10) → (l.map Nat.digitChar).map (fun c => c.toNat - 48) = l := by
      intro l hl
      rw [List.map_map]
      conv_rhs => rw [← List.map_id l]
      refine List.map_congr_left fun x hx => ?_
      have := hl x hx
      simp only [Function.comp_apply, id]
      interval_cases x <;> decide
    have hz : ∀ k : ℕ, (List.replicate k '0').map (fun c => c.toNat - 48) = List.replicate k 0 := fun k => by simp
    rw [List.reverse_append, List.map_append, List.reverse_replicate, hz, Nat.ofDigits_append_replicate_zero]
    unfold nat
    by_cases hi : i = 0
    · rw [if_pos hi, hi]; rfl
    · rw [if_neg hi, List.reverse_reverse, hd _ fun x hx => Nat.digits_lt_base (by norm_num) hx, Nat.ofDigits_digits]
  rw [← val i, h1, val i']

/-- **C103** Up to iteration 9999 all stamps of a process have the same length. -/
theorem C103_stamp_width {i : ℕ} (h : i < 10000) (p : ℕ) : (stamp i p).length = 11 + (nat p).length := by
  have : (nat i).length ≤ 4 := by
    unfold nat
    by_cases hi : i = 0
    · rw [if_pos hi]; simp
    · rw [if_neg hi, List.length_reverse, List.length_map]
      exact (Nat.digits_length_le_iff (by norm_num) i).mpr (by simpa using h)
  simp [stamp]
  omega

/-- **C103** Measured times are right up to a nanosecond, whatever the clock. -/
theorem C103_duration {num den : ℕ} (hd : 0 < den) (ticks : ℤ) : |chronoDuration num den ticks - ticks * num / den| < 1e-9 := by
  unfold chronoDuration
  have h := Int.mul_tdiv_add_tmod (ticks * (num * 10 ^ 9)) den
  have hm : |(ticks * (num * 10 ^ 9)).tmod den| < (den : ℤ) := by
    rw [Int.abs_eq_natAbs, Int.natAbs_tmod]
    exact_mod_cast Nat.mod_lt _ (by simpa using hd)
  set a := (ticks * (num * 10 ^ 9)).tdiv (den : ℤ)
  set b := (ticks * (num * 10 ^ 9)).tmod (den : ℤ)
  have hd' : (0 : ℝ) < den := by exact_mod_cast hd
  have h' : (den : ℝ) * a + b = ticks * (num * 10 ^ 9) := by exact_mod_cast h
  have hm' : |(b : ℝ)| < den := by exact_mod_cast hm
  rw [show (a : ℝ) / 1e9 - ticks * num / den = -(b / den) * 1e-9 by field_simp; linarith, abs_mul, abs_neg, abs_div, abs_of_pos hd',
    abs_of_pos (by norm_num : (0 : ℝ) < 1e-9)]
  have : |(b : ℝ)| / den < 1 := (div_lt_one hd').mpr hm'
  linarith

/-- **C103** `printIterable` and `printVec` write every element followed by the separator, the last one included. -/
theorem C103_iterable {α : Type} (pr : α → Text) (sep : Text) (v : List α) :
    iterable pr sep v = '[' :: ' ' :: (v.flatMap fun x => pr x ++ sep ++ [' ']) ++ [']', '\n'] := by
  have key : ∀ o : Text, v.foldl (fun o i => o ++ pr i ++ sep ++ " ".toList) o = o ++ v.flatMap fun x => pr x ++ sep ++ [' '] := by
    induction v with
    | nil => simp
    | cons a v ih => intro o; rw [List.foldl_cons, ih]; simp
  unfold iterable
  rw [key]
  rfl

theorem C103_vec {α : Type} (pr : α → Text) (sep : Text) (v : Arr α) (len : ℕ) :
    vec pr sep v len = if len ≤ v.size then .ok (iterable pr sep ((List.range len).map v.val)) else .error .ub := by
  by_cases h : len ≤ v.size
  · rw [if_pos h, C103_iterable]
    unfold vec
    rw [append_loop len _ (g := fun i => pr (v.val i) ++ sep ++ [' ']) fun i hi o => by
      rw [v.rd_ok (by omega), ok_bind]; simp]
    simp [List.flatMap_map]
  · rw [if_neg h]
    unfold vec
    rw [loopM_error _ _ _ (v.size + 1) .ub (by omega)]
    · rfl
    rw [loopM_succ, append_loop v.size _ (g := fun i => pr (v.val i) ++ sep ++ [' ']) fun i hi o => by
      rw [v.rd_ok (by omega), ok_bind]; simp]
    change (v.rd v.size >>= _) = _
    rw [v.rd_ub le_rfl]
    rfl

/-- The words of a text, as `operator>>` reads them. -/
def words (t : Text) : List Text := (t.splitOnP Char.isWhitespace).filter (· ≠ [])

theorem words_cons {w t : Text} {c : Char} (hw : ∀ x ∈ w, x.isWhitespace = false) (h0 : w ≠ []) (hc : c.isWhitespace) :
    words (w ++ c :: t) = w :: words t := by
  unfold words
  rw [List.splitOnP_append_cons_of_forall_mem hw c hc, List.filter_cons_of_pos (by simpa using h0)]

theorem words_ws {t s : Text} (hs : ∀ x ∈ s, x.isWhitespace) : words (s ++ t) = words t := by
  induction s with
  | nil => rfl
  | cons c s ih =>
    rw [← ih fun x hx => hs x (by simp [hx])]
    unfold words
    rw [List.cons_append, List.splitOnP_cons_eq_if_modifyHead, if_pos (hs c (by simp))]
    simp

/-- **C103** The words of a file written by `iterableToFile` are the elements if the separator is white space, for instance the line break
that is the default. -/
theorem C103_file {α : Type} {pr : α → Text} (hpr : ∀ x, pr x ≠ [] ∧ ∀ c ∈ pr x, c.isWhitespace = false) {sep : Text} (h0 : sep ≠ [])
    (hs : ∀ c ∈ sep, c.isWhitespace) (v : List α) : words (iterableToFile pr sep v) = v.map pr := by
  have key : ∀ o : Text, v.foldl (fun o el => o ++ pr el ++ sep) o = o ++ v.flatMap fun x => pr x ++ sep := by
    induction v with
    | nil => simp
    | cons a v ih => intro o; rw [List.foldl_cons, ih]; simp
  unfold iterableToFile
  rw [key, List.nil_append]
  clear key
  obtain ⟨c, s, rfl⟩ := List.exists_cons_of_ne_nil h0
  induction v with
  | nil => rfl
  | cons a v ih =>
    rw [List.flatMap_cons, List.map_cons, List.append_assoc, List.cons_append,
      words_cons (hpr a).2 (hpr a).1 (hs c (by simp)), words_ws fun x hx => hs x (by simp [hx]), ih]

theorem C103_vecToFile {α : Type} (pr : α → Text) (sep : Text) (v : Arr α) (len : ℕ) :
    vecToFile pr sep v len = if len ≤ v.size then .ok (iterableToFile pr sep ((List.range len).map v.val)) else .error .ub := by
  have key : ∀ (l : List α) (o : Text), l.foldl (fun o el => o ++ pr el ++ sep) o = o ++ l.flatMap fun x => pr x ++ sep := by
    intro l
    induction l with
    | nil => simp
    | cons a v ih => intro o; rw [List.foldl_cons, ih]; simp
  by_cases h : len ≤ v.size
  · rw [if_pos h]
    unfold vecToFile iterableToFile
    rw [append_loop len _ (g := fun i => pr (v.val i) ++ sep) fun i hi o => by
      rw [v.rd_ok (by omega), ok_bind]; simp, key]
    simp [List.flatMap_map]
  · rw [if_neg h]
    unfold vecToFile
    rw [loopM_error _ _ _ (v.size + 1) .ub (by omega)]
    rw [loopM_succ, append_loop v.size _ (g := fun i => pr (v.val i) ++ sep) fun i hi o => by
      rw [v.rd_ok (by omega), ok_bind]; simp]
    change (v.rd v.size >>= _) = _
    rw [v.rd_ub le_rfl]
    rfl

/-! ## Examples -/

/-- Writes the integer part. -/
noncomputable def exFmt (a : ℝ) : Text := int ⌊a⌋

theorem exFmt_clean : Clean exFmt := ⟨fun a c hc => by
  rcases int_chars hc with h | h
  · refine ⟨?_, ?_, ?_, ?_⟩ <;> rintro rfl <;> exact absurd h (by decide)
  · subst h; decide⟩

example : vector exFmt [] ![1, -12, 3] = "1, -12, 3".toList := by
  rw [C103_vector]
  simp [exFmt, int, nat, List.intercalate]
  norm_num [int, nat]
  decide

/-- Expansions with different coefficients, and one that cannot be written. -/
example : exp2 exFmt [] ⟨1, 0, ⟨2, fun n => ⟨n, 7⟩⟩⟩ ≠ exp2 exFmt [] ⟨1, 0, ⟨2, fun n => ⟨n, 8⟩⟩⟩ ∧
    exp2 exFmt [] Exp2.empty = .error .ub ∧ exp3 exFmt [] Exp3.empty = .error .ub := by
  refine ⟨fun h => ?_, C103_exp2_ub _ _ _ le_rfl, C103_exp3_ub _ _ _ rfl⟩
  have := ((C103_exp2_inj exFmt_clean (by simp) (by simp) h).2 0 (by simp)).2
  simp only [exFmt] at this
  have := int_inj this
  norm_num at this

example : stamp 37 5 = "[0037][p5]: ".toList ∧ stamp 123456 10 = "[123456][p10]: ".toList := by
  constructor <;> simp [stamp, nat]

example : words (iterableToFile int "\n".toList [3, -5]) = [['3'], ['-', '5']] := by
  rw [C103_file (fun x => ⟨?_, fun c hc => ?_⟩) (by simp) (by simp)]
  · have h3 : int 3 = ['3'] := by simp [int, nat]
    have h5 : int (-5) = ['-', '5'] := by
      change '-' :: nat 5 = _
      simp [nat]
    rw [List.map_cons, List.map_cons, h3, h5]; rfl
  · cases x with
    | ofNat n => exact nat_ne_nil n
    | negSucc n => simp [int]
  · rcases int_chars hc with h | h
    · rw [Char.isDigit] at h
      simp at h
      rw [Char.isWhitespace]
      simp
      refine ⟨⟨⟨?_, ?_⟩, ?_⟩, ?_⟩ <;> rintro rfl <;> exact absurd h (by decide)
    · subst h; decide

end FMM.Print
