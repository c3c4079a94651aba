import Verif.FltDirect3
import Verif.FltPairs
import Verif.FltIeee3

/-!
# Property C93: the direct sums for every order and association of the additions

`makefile:5` compiles with `-O3 -ffast-math`, which includes `-fassociative-math` and `-freciprocal-math`: the compiler may add
the terms of a sum in any order and with any parentheses (in particular with several accumulators that start with 0, or pairwise),
and may replace a division by a multiplication with the rounded reciprocal.
-/

namespace FMM

/-- `v` is obtained from the numbers `val i`, `i ∈ l`, by additions with rounding, in some order and with some parentheses; `n`
is the largest number of additions that a summand goes through. -/
inductive AnyOrder (rnd : ℝ → ℝ) (val : ℕ → ℝ) : ℕ → List ℕ → ℝ → Prop
  | one (i : ℕ) : AnyOrder rnd val 0 [i] (val i)
  | add {l l1 l2 : List ℕ} {m n : ℕ} {a b : ℝ} (hl : l.Perm (l1 ++ l2)) (h1 : AnyOrder rnd val m l1 a) (h2 : AnyOrder rnd val n l2 b) :
      AnyOrder rnd val (max m n + 1) l (rnd (a + b))

/-- `v` is a sum of `N` numbers, number `i` satisfying `P i`, and of `z` accumulators that start with 0. -/
def FastSum (rnd : ℝ → ℝ) (N z : ℕ) (P : ℕ → ℝ → Prop) (n : ℕ) (v : ℝ) : Prop :=
  ∃ val, (∀ i < N, P i (val i)) ∧ (∀ i ≥ N, val i = 0) ∧ AnyOrder rnd val n (List.range (N + z)) v

section
variable {rnd : ℝ → ℝ} {val : ℕ → ℝ} {n : ℕ} {l : List ℕ} {v : ℝ}

theorem AnyOrder.depth_lt (h : AnyOrder rnd val n l v) : n < l.length := by
  induction h with
  | one i => simp
  | add hl _ _ ih1 ih2 => rw [hl.length_eq, List.length_append]; omega

theorem AnyOrder.ap {F : Flt} {u : ℝ} (hF : F.Ok u) (h : AnyOrder F.rnd val n l v) {m : ℕ} {M t : ℕ → ℝ}
    (H : ∀ i ∈ l, Ap u m (M i) (val i) (t i)) : Ap u (m + n) (l.map M).sum v (l.map t).sum := by
  induction h with
  | one i => simpa using H i (by simp)
  | @add l l1 l2 k1 k2 a b hl _ _ ih1 ih2 =>
    have h1 := (ih1 fun i hi => H i (hl.mem_iff.mpr (by simp [hi]))).mono hF.nonneg (Nat.add_le_add_left (le_max_left k1 k2) m) le_rfl
    have h2 := (ih2 fun i hi => H i (hl.mem_iff.mpr (by simp [hi]))).mono hF.nonneg (Nat.add_le_add_left (le_max_right k1 k2) m) le_rfl
    rw [(hl.map M).sum_eq, (hl.map t).sum_eq, List.map_append, List.map_append, List.sum_append, List.sum_append]
    exact hF.rrnd (h1.add h2)

theorem sum_range_get {α : Type} (S : List α) (f : α → ℝ) (z : ℕ) :
    ((List.range (S.length + z)).map fun i => ((S.map f)[i]?).getD 0).sum = (S.map f).sum := by
  rw [List.range_add, List.map_append, List.sum_append]
  have h1 : (List.range S.length).map (fun i => ((S.map f)[i]?).getD 0) = S.map f := by
    refine List.ext_getElem (by simp) fun i hi _ => ?_
    have hi' : i < S.length := by simpa using hi
    simp [List.getElem?_eq_getElem hi']
  have h2 : ((List.map (fun x => S.length + x) (List.range z)).map fun i => ((S.map f)[i]?).getD 0).sum = 0 := by
    refine List.sum_eq_zero fun y hy => ?_
    obtain ⟨i, hi, rfl⟩ := List.mem_map.mp hy
    obtain ⟨j, -, rfl⟩ := List.mem_map.mp hi
    simp
  rw [h1, h2, add_zero]

/-- The error of a sum of terms, each with `m` roundings. -/
theorem FastSum.ap {α : Type} {F : Flt} {u : ℝ} (hF : F.Ok u) {S : List α} {z : ℕ} {P : ℕ → ℝ → Prop} (h : FastSum F.rnd S.length z P n v)
    {m : ℕ} {M t : α → ℝ} (H : ∀ i (hi : i < S.length), ∀ a, P i a → Ap u m (M S[i]) a (t S[i])) :
    n < S.length + z ∧ Ap u (m + n) (S.map M).sum v (S.map t).sum := by
  obtain ⟨val, h1, h2, h3⟩ := h
  refine ⟨by simpa using h3.depth_lt, ?_⟩
  have := h3.ap hF (m := m) (M := fun i => ((S.map M)[i]?).getD 0) (t := fun i => ((S.map t)[i]?).getD 0) fun i hi => by
    by_cases hN : i < S.length
    · simpa [List.getElem?_eq_getElem hN] using H i hN _ (h1 i hN)
    · rw [h2 i (by omega)]
      rw [List.getElem?_eq_none (l := S.map M) (by rw [List.length_map]; omega),
        List.getElem?_eq_none (l := S.map t) (by rw [List.length_map]; omega), Option.getD_none]
      exact Ap.zero le_rfl hF.nonneg
  rwa [sum_range_get, sum_range_get] at this

/-- The program as written adds the terms one after another to one accumulator. -/
theorem FastSum.sequential {α : Type} (f : α → Outcome ℝ) (S : List α) {v : ℝ}
    (h : S.foldlM (fun acc s => do
      let p ← f s
      .ok (rnd (acc + p))) 0 = .ok v) : FastSum rnd S.length 1 (fun i a => ∃ hi : i < S.length, f S[i] = .ok a) S.length v := by
  -- the values of the terms
  have key : ∀ (S : List α) (a v : ℝ), S.foldlM (fun acc s => do
      let p ← f s
      .ok (rnd (acc + p))) a = .ok v → ∃ ts : List ℝ, ts.length = S.length ∧ (∀ i (hi : i < S.length), f S[i] = .ok (ts.getD i 0)) ∧
        v = ts.foldl (fun acc t => rnd (acc + t)) a := by
    intro S
    induction S with
    | nil => intro a v h; refine ⟨[], rfl, by simp, ?_⟩; cases h; rfl
    | cons s S ih =>
      intro a v h
      rw [List.foldlM_cons] at h
      cases hs : f s with
      | error e => rw [hs, err_bind, err_bind] at h; cases h
      | ok p =>
        rw [hs, ok_bind, ok_bind] at h
        obtain ⟨ts, e1, e2, e3⟩ := ih _ _ h
        refine ⟨p :: ts, by simp [e1], fun i hi => ?_, e3⟩
        cases i with
        | zero => exact hs
        | succ i => exact e2 i (by simpa using hi)
  obtain ⟨ts, e1, e2, e3⟩ := key S 0 v h
  refine ⟨fun i => ts.getD i 0, fun i hi => ⟨hi, e2 i hi⟩, fun i hi => ?_, ?_⟩
  · show ts.getD i 0 = 0
    rw [List.getD_eq_getElem?_getD, List.getElem?_eq_none (by omega)]; rfl
  · -- partial sums
    have part : ∀ k ≤ ts.length, AnyOrder rnd (fun i => ts.getD i 0) k (ts.length :: List.range k)
        ((ts.take k).foldl (fun acc t => rnd (acc + t)) 0) := by
      intro k
      induction k with
      | zero =>
        intro _
        have := AnyOrder.one (rnd := rnd) (val := fun i => ts.getD i 0) ts.length
        simpa using this
      | succ k ih =>
        intro hk
        have h1 := ih (by omega)
        have h2 := AnyOrder.one (rnd := rnd) (val := fun i => ts.getD i 0) k
        have h3 := AnyOrder.add (l := ts.length :: List.range (k + 1)) (by
          rw [List.range_succ]; exact List.Perm.refl _) h1 h2
        rw [List.take_add_one, List.foldl_append, List.getElem?_eq_getElem (by omega)]
        rw [Nat.max_zero] at h3
        simp only [List.getD_eq_getElem?_getD, List.getElem?_eq_getElem (show k < ts.length by omega), Option.getD_some] at h3
        simpa using h3
    have hp := part ts.length le_rfl
    rw [List.take_length, ← e3, e1] at hp
    have hperm : (List.range (S.length + 1)).Perm (S.length :: List.range S.length) := by
      rw [List.range_succ]; exact (List.perm_append_comm (l₁ := List.range S.length) (l₂ := [S.length]))
    -- exchange the list
    have ex : ∀ {n : ℕ} {l l' : List ℕ} {v : ℝ}, l'.Perm l → AnyOrder rnd (fun i => ts.getD i 0) n l v →
        AnyOrder rnd (fun i => ts.getD i 0) n l' v := by
      intro n l l' v hl h
      cases h with
      | one i => rw [List.perm_singleton.mp hl]; exact .one i
      | add hl' h1 h2 => exact .add (hl.trans hl') h1 h2
    exact ex hperm hp

end

theorem FastSum.imp {rnd : ℝ → ℝ} {N z n : ℕ} {P Q : ℕ → ℝ → Prop} {v : ℝ} (hPQ : ∀ i a, P i a → Q i a) (h : FastSum rnd N z P n v) :
    FastSum rnd N z Q n v := by
  obtain ⟨val, h1, h2, h3⟩ := h
  exact ⟨val, fun i hi => hPQ _ _ (h1 i hi), h2, h3⟩

/-- The same for the components of a vector. -/
theorem FastSum.sequentialV {α : Type} {d : ℕ} {F : Flt} (f : α → Outcome (Vec d)) (S : List α) (k : Fin d) {v : Vec d}
    (h : S.foldlM (fun acc s => do
      let p ← f s
      .ok (F.vadd acc p)) (Vec.fill 0) = .ok v) :
    FastSum F.rnd S.length 1 (fun i a => ∃ hi : i < S.length, ∃ w : Vec d, f S[i] = .ok w ∧ w k = a) S.length (v k) := by
  have key : ∀ (S : List α) (a v : Vec d), S.foldlM (fun acc s => do
      let p ← f s
      .ok (F.vadd acc p)) a = .ok v → S.foldlM (fun acc s => do
      let p ← (f s >>= fun w => (.ok (w k) : Outcome ℝ))
      .ok (F.rnd (acc + p))) (a k) = .ok (v k) := by
    intro S
    induction S with
    | nil => intro a v h; cases h; rfl
    | cons s S ih =>
      intro a v h
      rw [List.foldlM_cons] at h ⊢
      cases hs : f s with
      | error e => rw [hs, err_bind, err_bind] at h; cases h
      | ok p =>
        rw [hs, ok_bind, ok_bind] at h
        rw [ok_bind, ok_bind, ok_bind]
        exact ih _ _ h
  refine FastSum.imp (fun i a ⟨hi, e⟩ => ⟨hi, ?_⟩) (FastSum.sequential (fun s => f s >>= fun w => (.ok (w k) : Outcome ℝ)) S (key S _ _ h))
  cases hs : f S[i] with
  | error e' => rw [hs, err_bind] at e; cases e
  | ok w => rw [hs, ok_bind] at e; cases e; exact ⟨w, rfl, rfl⟩

theorem directField_apply {d : ℕ} (grav : Bool) (S : List (Source d)) (x : Vec d) (eps : ℝ) (k : Fin d) :
    directField grav S x eps k = (S.map fun s => directFieldTerm grav x eps s k).sum := by
  unfold directField
  induction S with
  | nil => rfl
  | cons s S ih => rw [List.map_cons, List.sum_cons, List.map_cons, List.sum_cons, ← ih]; rfl

/-! ## Two dimensions -/

section two
variable {F : Flt} {u : ℝ} (hF : F.Ok u) (grav : Bool) (S : List (Source 2)) (x : Vec 2) {z n : ℕ} {v : ℝ}

/-- A component of the force of one source, as written (fields.hpp:48-66) or with the reciprocal of the denominator. -/
inductive FieldTerm2 (F : Flt) (grav : Bool) (x : Vec 2) (eps : ℝ) (k : Fin 2) (s : Source 2) : ℝ → Prop
  | coded {f : Vec 2} (h : Fl.forcefield F grav true s x eps = .ok f) : FieldTerm2 F grav x eps k s (f k)
  | recip (h : F.normSq (F.vsub s.pos x) ≠ 0) : FieldTerm2 F grav x eps k s
      (let c := F.rnd (F.vsub s.pos x k * F.rnd (s.q * F.rnd (1 / F.rnd (F.normSq (F.vsub s.pos x) + eps)))); if grav then c else -c)

include hF

/-- **C93** The potential of the direct sum in two dimensions, added in any order. -/
theorem C93_potential_2d (h : FastSum F.rnd S.length z (fun i a => ∃ hi : i < S.length, Fl.potential F grav true S[i] x = .ok a) n v) :
    n < S.length + z ∧ |v - directPotential grav S x| ≤ ((1 + u) ^ (6 + n) - 1) * absPotential S x := by
  obtain ⟨h1, h2⟩ := h.ap hF (m := 6) (M := absTerm x) (t := directTerm grav x) fun i hi a ⟨_, ha⟩ => by
    obtain ⟨b, hb, hb'⟩ := Fl.potential_safe hF grav S[i] x
    rw [hb] at ha; cases ha; exact hb'
  exact ⟨h1, h2.1⟩

theorem fieldTerm2_ap {eps : ℝ} (he : 0 ≤ eps) (k : Fin 2) {s : Source 2} {a : ℝ} (h : FieldTerm2 F grav x eps k s a) :
    Ap u 14 (absFieldTerm x eps s) a (directFieldTerm grav x eps s k) := by
  cases h with
  | @coded f h =>
    obtain ⟨f', hf, hf'⟩ := Fl.forcefield_safe hF grav s x eps he
    rw [hf] at h; cases h
    exact (Fl.Ap.comp hf' k).mono hF.nonneg (by omega) le_rfl
  | recip h =>
    have hne : s.pos ≠ x := by
      rintro e
      apply h
      have h1 := (Fl.normSq_ap hF x x).1
      rw [(dist2_eq_zero_iff x x).mpr rfl] at h1
      rw [e]
      simpa using h1
    have hr := dist2_pos hne
    have h1 := Fl.normSq_ap hF s.pos x
    have h2 : Ap u 5 (dist2 s.pos x ^ 2 + eps) (F.rnd (F.normSq (F.vsub s.pos x) + eps)) (dist2 s.pos x ^ 2 + eps) :=
      hF.rrnd (h1.add ((Ap.refl (u := u) (by rw [Real.norm_eq_abs, abs_of_nonneg he])).mono hF.nonneg (by omega) le_rfl))
    have hD : 0 < dist2 s.pos x ^ 2 + eps := by positivity
    obtain ⟨-, h4⟩ := Ap.invk hF.nonneg 5 (Fl.pow_small hF (by omega)) hD.ne' (by
      have := h2.1
      rwa [Real.norm_eq_abs (dist2 s.pos x ^ 2 + eps), abs_of_pos hD])
    rw [Real.norm_eq_abs, abs_of_pos hD] at h4
    have h5 := hF.rrnd h4
    have h6 := hF.rrnd ((Ap.refl (u := u) (x := s.q) (M := |s.q|) le_rfl).mul hF.nonneg h5)
    have hd : Ap u 1 (dist2 s.pos x) (F.vsub s.pos x k) (s.pos k - x k) :=
      hF.rrnd (Ap.refl (u := u) (x := s.pos k - x k) (M := dist2 s.pos x) (by rw [Real.norm_eq_abs]; exact abs_le_dist2 _ _ k))
    have h7 := Ap.sign grav (hF.rrnd (hd.mul hF.nonneg h6))
    unfold directFieldTerm absFieldTerm
    rw [if_neg hne, if_neg hne]
    have h8 := h7.mono hF.nonneg (show 1 + (0 + (5 + 5 + 1) + 1) + 1 ≤ 14 by norm_num) (le_refl _)
    convert h8 using 1
    · rw [div_eq_mul_inv]; ring
    · rw [one_div]
    · unfold fieldSpec forceDenom
      rw [if_pos rfl, div_eq_mul_inv]
      ring

/-- **C93** A component of the force of the direct sum in two dimensions, added in any order. -/
theorem C93_field_2d {eps : ℝ} (he : 0 ≤ eps) (k : Fin 2)
    (h : FastSum F.rnd S.length z (fun i a => ∃ hi : i < S.length, FieldTerm2 F grav x eps k S[i] a) n v) :
    n < S.length + z ∧ |v - directField grav S x eps k| ≤ ((1 + u) ^ (14 + n) - 1) * absField S x eps := by
  obtain ⟨h1, h2⟩ := h.ap hF (m := 14) (M := absFieldTerm x eps) (t := fun s => directFieldTerm grav x eps s k) fun i hi a ⟨_, ha⟩ =>
    fieldTerm2_ap hF grav x he k ha
  refine ⟨h1, ?_⟩
  rw [directField_apply]
  exact h2.1

/-- The potential as written is one of these sums, with one accumulator. -/
theorem C93_sequential_potential_2d :
    ∃ v, Fl.potentialSum F grav true S x = .ok v ∧
      FastSum F.rnd S.length 1 (fun i a => ∃ hi : i < S.length, Fl.potential F grav true S[i] x = .ok a) S.length v := by
  obtain ⟨v, hv, -⟩ := Fl.potentialSum_safe hF grav S x
  exact ⟨v, hv, FastSum.sequential _ S hv⟩

/-- The force as written is one of these sums. -/
theorem C93_sequential_field_2d {eps : ℝ} (he : 0 ≤ eps) :
    ∃ f, Fl.forcefieldSum F grav true S x eps = .ok f ∧ ∀ k,
      FastSum F.rnd S.length 1 (fun i a => ∃ hi : i < S.length, FieldTerm2 F grav x eps k S[i] a) S.length (f k) := by
  obtain ⟨f, hf, -⟩ := Fl.forcefieldSum_safe hF grav S x eps he
  refine ⟨f, hf, fun k => ?_⟩
  exact FastSum.imp (fun i a ⟨hi, g, hg, e⟩ => ⟨hi, e ▸ .coded hg⟩) (FastSum.sequentialV (F := F) _ S k hf)

end two

/-! ## Three dimensions -/

section three
variable {F : Flt3} {u g : ℝ} (hF : F.Ok u g) (grav : Bool) (S : List (Source 3)) (x : Vec 3) {z n : ℕ} {v : ℝ}

/-- The potential of one source, as written (fields.hpp:7-26) or with the reciprocal of the distance. -/
inductive PotTerm3 (F : Flt3) (grav : Bool) (x : Vec 3) (s : Source 3) : ℝ → Prop
  | coded {a : ℝ} (h : Fl3.potential F grav true s x = .ok a) : PotTerm3 F grav x s a
  | recip (h : F.nrm3 (F.vsub s.pos x) ≠ 0) : PotTerm3 F grav x s
      (let c := F.rnd (-s.q * F.rnd (1 / F.nrm3 (F.vsub s.pos x))); if grav then c else -c)

/-- A component of the force of one source, as written (fields.hpp:48-66) or with the reciprocal of the denominator. -/
inductive FieldTerm3 (F : Flt3) (grav : Bool) (x : Vec 3) (eps : ℝ) (k : Fin 3) (s : Source 3) : ℝ → Prop
  | coded {f : Vec 3} (h : Fl3.forcefield F grav true s x eps = .ok f) : FieldTerm3 F grav x eps k s (f k)
  | recip (h : F.nrm3 (F.vsub s.pos x) ≠ 0) : FieldTerm3 F grav x eps k s
      (let r := F.nrm3 (F.vsub s.pos x)
       let c := F.rnd (F.vsub s.pos x k * F.rnd (s.q * F.rnd (1 / F.rnd (F.rnd (F.rnd (r * r) * r) + eps)))); if grav then c else -c)

include hF

theorem potTerm3_ap {s : Source 3} {a : ℝ} (h : PotTerm3 F grav x s a) : Ap u 6 (absTerm3 x s) a (directTerm grav x s) := by
  cases h with
  | coded h =>
    obtain ⟨b, hb, hb'⟩ := Fl3.potential_safe hF grav s x
    rw [hb] at h; cases h
    exact hb'.mono hF.nonneg (by omega) le_rfl
  | recip h =>
    have hne : s.pos ≠ x := fun e => h (by rw [e]; exact Fl3.dist_zero hF x)
    have h2 := hF.rrnd (Fl3.dist_inv hF hne).2
    have h5 : Ap u 0 |s.q| (-s.q) (-s.q) := Ap.refl (by rw [Real.norm_eq_abs, abs_neg])
    have h6 := Ap.sign grav (hF.rrnd (h5.mul hF.nonneg h2))
    unfold directTerm absTerm3 kernelSpec
    rw [if_neg hne, if_neg hne, if_neg (show ¬ (3 = 2) by norm_num)]
    convert h6 using 1
    · rw [div_eq_mul_inv]
    · rw [one_div]
    · rw [← neg_div, div_eq_mul_inv]

theorem fieldTerm3_ap (hu : u ≤ 1 / 32) {eps : ℝ} (he : 0 ≤ eps) (k : Fin 3) {s : Source 3} {a : ℝ} (h : FieldTerm3 F grav x eps k s a) :
    Ap u 22 (absFieldTerm3 x eps k s) a (directFieldTerm grav x eps s k) := by
  cases h with
  | @coded f h =>
    obtain ⟨f', hf, hf'⟩ := Fl3.forcefield_safe hF hu grav s x eps he
    rw [hf] at h; cases h
    exact (hf' k).mono hF.nonneg (by omega) le_rfl
  | recip h =>
    have hne : s.pos ≠ x := fun e => h (by rw [e]; exact Fl3.dist_zero hF x)
    have hr := dist2_pos hne
    have hD : 0 < dist2 s.pos x ^ 3 + eps := by positivity
    have h1 := Fl3.denom_ap hF s.pos x he
    obtain ⟨-, h4⟩ := Ap.invk hF.nonneg 9 (Fl3.pow_nine_le hF hu) hD.ne' (by
      have := h1.1
      rwa [Real.norm_eq_abs (dist2 s.pos x ^ 3 + eps), abs_of_pos hD])
    rw [Real.norm_eq_abs, abs_of_pos hD] at h4
    have h5 := hF.rrnd ((Ap.refl (u := u) (x := s.q) (M := |s.q|) le_rfl).mul hF.nonneg (hF.rrnd h4))
    have hd : Ap u 1 |s.pos k - x k| (F.vsub s.pos x k) (s.pos k - x k) := by
      have := hF.rrnd (Ap.refl (u := u) (x := s.pos k - x k) le_rfl)
      simpa [Flt.vsub] using this
    have h7 := Ap.sign grav (hF.rrnd (hd.mul hF.nonneg h5))
    unfold directFieldTerm absFieldTerm3
    rw [if_neg hne, if_neg hne, div_eq_mul_inv, mul_comm]
    convert h7 using 1
    · simp only [one_div]
    · unfold fieldSpec forceDenom
      rw [if_neg (by norm_num), div_eq_mul_inv]
      ring

/-- **C93** The potential of the direct sum in space, added in any order. -/
theorem C93_potential_3d (h : FastSum F.rnd S.length z (fun i a => ∃ hi : i < S.length, PotTerm3 F grav x S[i] a) n v) :
    n < S.length + z ∧ |v - directPotential grav S x| ≤ ((1 + u) ^ (6 + n) - 1) * absPotential3 S x := by
  obtain ⟨h1, h2⟩ := h.ap hF.toOk (m := 6) (M := absTerm3 x) (t := directTerm grav x) fun i hi a ⟨_, ha⟩ => potTerm3_ap hF grav x ha
  exact ⟨h1, h2.1⟩

/-- **C93** A component of the force of the direct sum in space, added in any order. -/
theorem C93_field_3d (hu : u ≤ 1 / 32) {eps : ℝ} (he : 0 ≤ eps) (k : Fin 3)
    (h : FastSum F.rnd S.length z (fun i a => ∃ hi : i < S.length, FieldTerm3 F grav x eps k S[i] a) n v) :
    n < S.length + z ∧ |v - directField grav S x eps k| ≤ ((1 + u) ^ (22 + n) - 1) * absField3 S x eps k := by
  obtain ⟨h1, h2⟩ := h.ap hF.toOk (m := 22) (M := absFieldTerm3 x eps k) (t := fun s => directFieldTerm grav x eps s k)
    fun i hi a ⟨_, ha⟩ => fieldTerm3_ap hF grav x hu he k ha
  refine ⟨h1, ?_⟩
  rw [directField_apply]
  exact h2.1

/-- The potential as written is one of these sums, with one accumulator. -/
theorem C93_sequential_potential_3d :
    ∃ v, Fl3.potentialSum F grav true S x = .ok v ∧
      FastSum F.rnd S.length 1 (fun i a => ∃ hi : i < S.length, PotTerm3 F grav x S[i] a) S.length v := by
  obtain ⟨v, hv, -⟩ := Fl3.potentialSum_safe hF grav S x
  exact ⟨v, hv, FastSum.imp (fun i a ⟨hi, h⟩ => ⟨hi, .coded h⟩) (FastSum.sequential _ S hv)⟩

/-- The force as written is one of these sums. -/
theorem C93_sequential_field_3d (hu : u ≤ 1 / 32) {eps : ℝ} (he : 0 ≤ eps) :
    ∃ f, Fl3.forcefieldSum F grav true S x eps = .ok f ∧ ∀ k,
      FastSum F.rnd S.length 1 (fun i a => ∃ hi : i < S.length, FieldTerm3 F grav x eps k S[i] a) S.length (f k) := by
  obtain ⟨f, hf, -⟩ := Fl3.forcefieldSum_safe hF hu grav S x eps he
  refine ⟨f, hf, fun k => ?_⟩
  exact FastSum.imp (fun i a ⟨hi, g, hg, e⟩ => ⟨hi, e ▸ .coded hg⟩) (FastSum.sequentialV (F := F.toFlt) _ S k hf)

end three

/-- Every number of terms can be added with two accumulators, over the terms with even and with odd index; also in halves. Here: four
terms and two accumulators, the depth is 3, less than the 4 of the sequential sum. -/
example (rnd : ℝ → ℝ) (a b c d : ℝ) :
    FastSum rnd 4 2 (fun i t => t = [a, b, c, d].getD i 0) 3 (rnd (rnd (rnd (0 + a) + c) + rnd (rnd (0 + b) + d))) := by
  refine ⟨fun i => [a, b, c, d].getD i 0, fun _ _ => rfl, fun i hi => ?_, ?_⟩
  · simp [List.getD_eq_getElem?_getD, List.getElem?_eq_none (l := [a, b, c, d]) (i := i) (by simpa using hi)]
  · have o := AnyOrder.one (rnd := rnd) (val := fun i => [a, b, c, d].getD i 0)
    exact .add (l1 := [4, 0, 2]) (l2 := [5, 1, 3]) (by decide) (.add (l1 := [4, 0]) (l2 := [2]) (by decide) (.add (l1 := [4]) (l2 := [0])
      (by decide) (o 4) (o 0)) (o 2)) (.add (l1 := [5, 1]) (l2 := [3]) (by decide) (.add (l1 := [5]) (l2 := [1]) (by decide) (o 5) (o 1)) (o 3))

/-- In IEEE double precision: two ways to add the same eight terms in space differ by at most twice the bound. -/
example (S : List (Source 3)) (hS : S.length = 8) (x : Vec 3) (v w : ℝ) (m n : ℕ)
    (hv : FastSum Flt3.ieee.rnd S.length 4 (fun i a => ∃ hi : i < S.length, PotTerm3 Flt3.ieee true x S[i] a) m v)
    (hw : FastSum Flt3.ieee.rnd S.length 1 (fun i a => ∃ hi : i < S.length, PotTerm3 Flt3.ieee true x S[i] a) n w) :
    |v - w| ≤ 2 * (((1 + 1 / 2 ^ 49) ^ 17 - 1) * absPotential3 S x) := by
  have hA : 0 ≤ absPotential3 S x := List.sum_nonneg fun y hy => by
    obtain ⟨s, -, rfl⟩ := List.mem_map.mp hy; exact absTerm3_nonneg x s
  obtain ⟨h1, h2⟩ := C93_potential_3d Flt3.ieee_ok true S x hv
  obtain ⟨h3, h4⟩ := C93_potential_3d Flt3.ieee_ok true S x hw
  have up : ∀ k ≤ 17, ((1 + 1 / 2 ^ 49 : ℝ) ^ k - 1) * absPotential3 S x ≤ ((1 + 1 / 2 ^ 49) ^ 17 - 1) * absPotential3 S x := fun k hk =>
    mul_le_mul_of_nonneg_right (sub_le_sub_right (pow_le_pow_right₀ (by norm_num) hk) 1) hA
  have h5 := h2.trans (up (6 + m) (by omega))
  have h6 := h4.trans (up (6 + n) (by omega))
  have h7 := abs_sub_le v (directPotential true S x) w
  rw [abs_sub_comm (directPotential true S x) w] at h7
  linarith

/-- The two-dimensional theorems apply to double precision. -/
example : ∃ v, Fl.potentialSum Flt.ieee true true [(⟨![0, 0], 1⟩ : Source 2), ⟨![1, 0], 2⟩] ![3, 4] = .ok v ∧
    |v - directPotential true [(⟨![0, 0], 1⟩ : Source 2), ⟨![1, 0], 2⟩] ![3, 4]|
      ≤ ((1 + 1 / 2 ^ 49) ^ 8 - 1) * absPotential [(⟨![0, 0], 1⟩ : Source 2), ⟨![1, 0], 2⟩] ![3, 4] := by
  obtain ⟨v, h1, h2⟩ := C93_sequential_potential_2d Flt.ieee_ok true [(⟨![0, 0], 1⟩ : Source 2), ⟨![1, 0], 2⟩] ![3, 4]
  exact ⟨v, h1, (C93_potential_2d Flt.ieee_ok true _ _ h2).2⟩

end FMM
