import Verif.TestProgs
import Verif.PropsFields
import Verif.LoopLemmas
import Mathlib.Tactic.FinCases
import Mathlib.Tactic.Positivity
import Mathlib.Tactic.NormNum

/-!
# Property C94: what the programs in `test/` generate, measure and accept
-/

namespace FMM.TestProgs
open FMM
variable {d : ℕ}

/-! ## Distributions -/

/-- `x` is in the cube with centre `c` and edge length `e`. -/
def InCube (c : Vec d) (e : ℝ) (x : Vec d) : Prop := ∀ j, |x j - c j| ≤ e / 2

theorem randPos_inCube {R : ℕ → ℝ} (hR : ∀ n, R n ∈ Set.Icc (0 : ℝ) 1) (c : Vec d) {e : ℝ} (he : 0 ≤ e) (k : ℕ) :
    InCube c e (randPos R c e k) := by
  intro j
  obtain ⟨h0, h1⟩ := hR (k + j)
  have : randPos R c e k j - c j = e * R (k + j) - e / 2 := by unfold randPos; ring
  rw [this, abs_le]
  constructor <;> nlinarith

/-- Source number `i` of a uniform distribution that starts with random number `c`. -/
noncomputable def uniformSource (R : ℕ → ℝ) (grav : Bool) (center : Vec d) (extent : ℝ) (c i : ℕ) : Source d :=
  ⟨randPos R center extent (c + (d + 1) * i), R (c + (d + 1) * i + d) * (if i % 2 = 1 then 1 else if !grav then -1 else 1)⟩

theorem genUniform_eq (R : ℕ → ℝ) (grav : Bool) (center : Vec d) (extent : ℝ) (N : ℤ) (c : ℕ) :
    genUniform R grav center extent N c
      = ((List.range N.toNat).map (uniformSource R grav center extent c), c + (d + 1) * N.toNat) := by
  unfold genUniform
  generalize N.toNat = n
  induction n with
  | zero => rfl
  | succ n ih =>
    rw [loopN_succ, ih, List.range_succ, List.map_append, List.map_singleton]
    refine Prod.ext rfl ?_
    show c + (d + 1) * n + d + 1 = c + (d + 1) * (n + 1)
    ring

/-- **C94** The uniform distribution: number, positions and charges of the sources. -/
theorem C94_uniform {R : ℕ → ℝ} (hR : ∀ n, R n ∈ Set.Icc (0 : ℝ) 1) (grav : Bool) (center : Vec d) {extent : ℝ} (he : 0 ≤ extent) (N : ℤ) (c : ℕ) :
    (genUniform R grav center extent N c).1.length = N.toNat ∧
      ∀ i (hi : i < (genUniform R grav center extent N c).1.length), let s := (genUniform R grav center extent N c).1[i]
        InCube center extent s.pos ∧ |s.q| ≤ 1 ∧ (grav = true ∨ i % 2 = 1 → 0 ≤ s.q) ∧ (grav = false → i % 2 = 0 → s.q ≤ 0) := by
  simp only [genUniform_eq]
  refine ⟨by simp, fun i hi => ?_⟩
  simp only [List.getElem_map, List.getElem_range]
  obtain ⟨h0, h1⟩ := hR (c + (d + 1) * i + d)
  refine ⟨randPos_inCube hR center he _, ?_, fun h => ?_, fun h1 h2 => ?_⟩
  · have : |if i % 2 = 1 then (1 : ℝ) else if (!grav) = true then -1 else 1| = 1 := by split_ifs <;> simp
    show |R _ * _| ≤ 1
    rw [abs_mul, this, mul_one, abs_of_nonneg h0]
    exact h1
  · have : (if i % 2 = 1 then (1 : ℝ) else if (!grav) = true then -1 else 1) = 1 := by
      rcases h with h | h
      · rw [h]; simp
      · rw [if_pos h]
    show 0 ≤ R _ * _
    rw [this, mul_one]; exact h0
  · show R _ * _ ≤ 0
    rw [h1, h2]
    simpa using h0

theorem genNonUniform_fold (R : ℕ → ℝ) (grav : Bool) (extent : ℝ) (m : ℤ) (sh : ℝ) (C : List (Vec d)) (l0 : List (Source d)) (c0 : ℕ) :
    (C.foldl (fun acc center =>
      let new := genUniform R grav (Vec.scale center sh) extent m acc.2
      (acc.1 ++ new.1, new.2)) (l0, c0)).1.length = l0.length + C.length * m.toNat := by
  induction C generalizing l0 c0 with
  | nil => simp
  | cons a C ih =>
    rw [List.foldl_cons, ih, genUniform_eq]
    simp only [List.length_append, List.length_map, List.length_range, List.length_cons]
    ring

theorem genNonUniform_mem {R : ℕ → ℝ} (hR : ∀ n, R n ∈ Set.Icc (0 : ℝ) 1) (grav : Bool) {extent : ℝ} (he : 0 ≤ extent) (m : ℤ) (sh : ℝ)
    (C : List (Vec d)) (l0 : List (Source d)) (c0 : ℕ) :
    ∀ s ∈ (C.foldl (fun acc center =>
      let new := genUniform R grav (Vec.scale center sh) extent m acc.2
      (acc.1 ++ new.1, new.2)) (l0, c0)).1, s ∈ l0 ∨ ∃ a ∈ C, InCube (Vec.scale a sh) extent s.pos := by
  induction C generalizing l0 c0 with
  | nil => intro s hs; exact Or.inl hs
  | cons a C ih =>
    intro s hs
    rw [List.foldl_cons] at hs
    rcases ih _ _ s hs with h | ⟨b, hb, h⟩
    · rw [List.mem_append] at h
      rcases h with h | h
      · exact Or.inl h
      · obtain ⟨i, hi, rfl⟩ := List.getElem_of_mem h
        exact Or.inr ⟨a, by simp, ((C94_uniform hR grav (Vec.scale a sh) he m c0).2 i hi).1⟩
    · exact Or.inr ⟨b, by simp [hb], h⟩

/-- **C94** The clustered distribution has at least the `N` sources asked for, and fewer than `N` plus the number of clusters; every source is in the cube of one of
the clusters. -/
theorem C94_clusters {R : ℕ → ℝ} (hR : ∀ n, R n ∈ Set.Icc (0 : ℝ) 1) (grav : Bool) (C : List (Vec d)) (hC : C ≠ []) {extent : ℝ} (he : 0 ≤ extent)
    (N : ℕ) (c : ℕ) :
    N ≤ (genNonUniform R grav C extent N c).1.length ∧ (genNonUniform R grav C extent N c).1.length < N + C.length ∧
      C.length ∣ (genNonUniform R grav C extent N c).1.length ∧
      ∀ s ∈ (genNonUniform R grav C extent N c).1, ∃ a ∈ C, InCube (Vec.scale a (8 * extent)) extent s.pos := by
  have hl : 0 < C.length := List.length_pos_iff.mpr hC
  have hl' : (0 : ℝ) < C.length := by exact_mod_cast hl
  have hlen : (genNonUniform R grav C extent N c).1.length = C.length * (⌈((N : ℤ) : ℝ) / C.length⌉).toNat := by
    unfold genNonUniform
    rw [genNonUniform_fold]; simp
  have h0 : 0 ≤ ⌈((N : ℤ) : ℝ) / C.length⌉ := Int.ceil_nonneg (by push_cast; positivity)
  have e : (((⌈((N : ℤ) : ℝ) / C.length⌉).toNat : ℤ) : ℝ) = (⌈((N : ℤ) : ℝ) / C.length⌉ : ℝ) := by rw [Int.toNat_of_nonneg h0]
  have h1 := Int.le_ceil (((N : ℤ) : ℝ) / C.length)
  have h2 := Int.ceil_lt_add_one (((N : ℤ) : ℝ) / C.length)
  rw [← e] at h1 h2
  push_cast at h1 h2
  rw [div_le_iff₀ hl'] at h1
  rw [← sub_lt_iff_lt_add, lt_div_iff₀ hl'] at h2
  refine ⟨?_, ?_, ?_, fun s hs => ?_⟩
  · rw [hlen]
    have : ((N : ℕ) : ℝ) ≤ ((C.length * (⌈((N : ℤ) : ℝ) / C.length⌉).toNat : ℕ) : ℝ) := by push_cast; linarith
    exact_mod_cast this
  · rw [hlen]
    have : ((C.length * (⌈((N : ℤ) : ℝ) / C.length⌉).toNat : ℕ) : ℝ) < ((N + C.length : ℕ) : ℝ) := by push_cast; linarith
    exact_mod_cast this
  · exact hlen ▸ Dvd.intro _ rfl
  · rcases genNonUniform_mem hR grav he _ _ C [] c s hs with h | h
    · cases h
    · exact h

theorem apart_aux {a b e x y : ℝ} (he : 0 ≤ e) (hab : 3 / 2 ≤ |a - b|) (hx : |x - a * (8 * e)| ≤ e / 2) (hy : |y - b * (8 * e)| ≤ e / 2) :
    11 * e ≤ |x - y| := by
  have h1 : |(a - b) * (8 * e)| ≤ |x - y| + (e / 2 + e / 2) := by
    have : (a - b) * (8 * e) = (x - y) + ((y - b * (8 * e)) - (x - a * (8 * e))) := by ring
    rw [this]
    refine (abs_add_le _ _).trans (add_le_add le_rfl ?_)
    refine (abs_sub _ _).trans ?_
    linarith
  rw [abs_mul, abs_of_nonneg (show 0 ≤ 8 * e by linarith)] at h1
  nlinarith

theorem sqrt3_ge : (3 / 2 : ℝ) ≤ √3 := Real.le_sqrt_of_sq_le (by norm_num)

theorem apart_of_pairwise {extent : ℝ} (he : 0 ≤ extent) {C : List (Vec d)} (h : C.Pairwise fun a b => ∃ k, 3 / 2 ≤ |a k - b k|) :
    C.Pairwise fun a b => ∀ x y, InCube (Vec.scale a (8 * extent)) extent x → InCube (Vec.scale b (8 * extent)) extent y → 11 * extent ≤ dist2 x y := by
  refine h.imp fun {a b} ⟨k, hk⟩ x y hx hy => ?_
  refine (apart_aux he hk ?_ ?_).trans (Real.abs_le_sqrt (Finset.single_le_sum (f := fun j => (x j - y j) ^ 2) (fun j _ => sq_nonneg _) (Finset.mem_univ k)))
  · simpa [Vec.scale, mul_comm] using hx k
  · simpa [Vec.scale, mul_comm] using hy k

/-- **C94** Sources of different clusters are at least eleven edge lengths apart. -/
theorem C94_clusters_apart {extent : ℝ} (he : 0 ≤ extent) :
    (clusterCenters2.Pairwise fun a b => ∀ x y, InCube (Vec.scale a (8 * extent)) extent x → InCube (Vec.scale b (8 * extent)) extent y →
      11 * extent ≤ dist2 x y) ∧
    clusterCenters3.Pairwise fun a b => ∀ x y, InCube (Vec.scale a (8 * extent)) extent x → InCube (Vec.scale b (8 * extent)) extent y →
      11 * extent ≤ dist2 x y := by
  have h3 := sqrt3_ge
  constructor <;> refine apart_of_pairwise he ?_
  · unfold clusterCenters2
    refine .cons ?_ (.cons ?_ (.cons (by simp) .nil))
    · intro b hb
      simp only [List.mem_cons, List.not_mem_nil, or_false] at hb
      rcases hb with rfl | rfl <;> exact ⟨1, by simp; rw [abs_of_nonneg (by norm_num)]; norm_num⟩
    · intro b hb
      simp only [List.mem_cons, List.not_mem_nil, or_false] at hb
      subst hb
      exact ⟨0, by simp; rw [abs_of_nonneg (by linarith)]; linarith⟩
  · unfold clusterCenters3
    refine .cons ?_ (.cons ?_ (.cons ?_ (.cons (by simp) .nil)))
    · intro b hb
      simp only [List.mem_cons, List.not_mem_nil, or_false] at hb
      rcases hb with rfl | rfl | rfl
      · exact ⟨1, by simp; rw [abs_of_nonneg (by norm_num)]; norm_num⟩
      · exact ⟨1, by simp; rw [abs_of_nonneg (by norm_num)]; norm_num⟩
      · exact ⟨2, by simp; rw [abs_of_nonneg (by linarith)]; linarith⟩
    · intro b hb
      simp only [List.mem_cons, List.not_mem_nil, or_false] at hb
      rcases hb with rfl | rfl
      · exact ⟨0, by simp; rw [abs_of_nonneg (by linarith)]; linarith⟩
      · exact ⟨2, by simp; rw [abs_of_nonneg (by linarith)]; linarith⟩
    · intro b hb
      simp only [List.mem_cons, List.not_mem_nil, or_false] at hb
      subst hb
      exact ⟨2, by simp; rw [abs_of_nonneg (by linarith)]; linarith⟩

/-- **C94** The sources of `fmm_tree.cpp`: `N` of them, in the cube with edge length four times the extent around the origin, charges at most 1 with alternating signs. -/
theorem C94_tree_sources {R : ℕ → ℝ} (hR : ∀ n, R n ∈ Set.Icc (0 : ℝ) 1) (coin : ℕ → Bool) (pick : ℕ → Fin (2 ^ d)) (uniform : Bool) {extent : ℝ}
    (he : 0 ≤ extent) (N : ℕ) :
    (genTree R coin pick uniform extent N).length = N ∧ ∀ i (hi : i < (genTree R coin pick uniform extent N).length),
      let s := (genTree R coin pick uniform extent N)[i]
      InCube (0 : Vec d) (4 * extent) s.pos ∧ |s.q| ≤ 1 ∧ (i % 2 = 1 → 0 ≤ s.q) ∧ (i % 2 = 0 → s.q ≤ 0) := by
  have e : genTree R coin pick uniform extent N = (List.range N).map fun i =>
      (⟨if uniform then (fun j => extent * R ((d + 1) * i + j) - extent / 2 : Vec d) else Vec.add (fun j => extent * R ((d + 1) * i + j) - extent / 2)
          (Vec.scale (childDir d (pick i)) ((if coin (pick i) then 1 else 1.5) * extent)),
        R ((d + 1) * i + d) * (if i % 2 = 1 then 1 else -1)⟩ : Source d) := by
    unfold genTree
    induction N with
    | zero => rfl
    | succ n ih => rw [loopN_succ, ih, List.range_succ, List.map_append, List.map_singleton]
  rw [e]
  refine ⟨by simp, fun i hi => ?_⟩
  simp only [List.getElem_map, List.getElem_range]
  obtain ⟨h0, h1⟩ := hR ((d + 1) * i + d)
  refine ⟨fun j => ?_, ?_, fun h => ?_, fun h => ?_⟩
  · obtain ⟨g0, g1⟩ := hR ((d + 1) * i + j)
    have hb : |extent * R ((d + 1) * i + j) - extent / 2| ≤ extent / 2 := by rw [abs_le]; constructor <;> nlinarith
    cases uniform with
    | true => simp; linarith
    | false =>
      have hc : |childDir d (pick i) j * ((if coin (pick i) then 1 else 1.5) * extent)| ≤ 1.5 * extent := by
        rw [abs_mul]
        have : |childDir d (pick i) j| = 1 := by unfold childDir; split_ifs <;> simp
        rw [this, one_mul, abs_mul, abs_of_nonneg he]
        refine mul_le_mul_of_nonneg_right ?_ he
        split_ifs <;> norm_num [abs_of_pos]
      have := abs_add_le (extent * R ((d + 1) * i + j) - extent / 2) (childDir d (pick i) j * ((if coin (pick i) then 1 else 1.5) * extent))
      have e2 : (Vec.add (fun j => extent * R ((d + 1) * i + j) - extent / 2 : Vec d)
          (Vec.scale (childDir d (pick i)) ((if coin (pick i) then 1 else 1.5) * extent))) j - (0 : Vec d) j
          = (extent * R ((d + 1) * i + j) - extent / 2) + childDir d (pick i) j * ((if coin (pick i) then 1 else 1.5) * extent) := by
        simp [Vec.add, Vec.scale]
      simp only [Bool.false_eq_true, if_false]
      rw [e2]
      linarith
  · rw [abs_mul, abs_of_nonneg h0]
    split_ifs <;> simpa using h1
  · rw [if_pos h, mul_one]; exact h0
  · rw [if_neg (by omega)]; linarith

/-! ## Measures of the error -/

theorem vecMax_spec {l : List ℝ} (h : l ≠ []) : ∃ m, vecMax l = .ok m ∧ m ∈ l ∧ ∀ x ∈ l, x ≤ m := by
  cases l with
  | nil => exact absurd rfl h
  | cons a l =>
    refine ⟨_, rfl, ?_⟩
    clear h
    induction l generalizing a with
    | nil => simp
    | cons b l ih =>
      rw [List.foldl_cons]
      by_cases hb : a < b
      · rw [if_pos hb]
        obtain ⟨h1, h2⟩ := ih b
        refine ⟨List.mem_cons_of_mem _ h1, fun x hx => ?_⟩
        rcases List.mem_cons.mp hx with rfl | hx
        · exact hb.le.trans (h2 b (by simp))
        · exact h2 x hx
      · rw [if_neg hb]
        obtain ⟨h1, h2⟩ := ih a
        refine ⟨?_, fun x hx => ?_⟩
        · rcases List.mem_cons.mp h1 with h | h
          · rw [h]; simp
          · simp [h]
        · rcases List.mem_cons.mp hx with rfl | hx
          · exact h2 _ (by simp)
          · rcases List.mem_cons.mp hx with rfl | hx
            · exact (not_lt.mp hb).trans (h2 a (by simp))
            · exact h2 x (by simp [hx])

theorem vecAvg_eq {l : List ℝ} (h : l ≠ []) : vecAvg l = .ok (l.sum / l.length) := by
  unfold vecAvg
  have := foldl_add l (fun x : ℝ => x) 0
  rw [if_neg (by simpa using h), this]; simp

theorem transform2_ok {α β γ : Type} (f : α → β → γ) (as : List α) (bs : List β) (h : as.length ≤ bs.length) :
    transform2 (fun a b => .ok (f a b)) as bs = .ok (List.zipWith f as bs) := by
  induction as generalizing bs with
  | nil => rfl
  | cons a as ih =>
    cases bs with
    | nil => simp at h
    | cons b bs =>
      rw [transform2, ok_bind, ih bs (by simpa using h), ok_bind]; rfl

theorem transform2_congr {α β γ : Type} {f g : α → β → Outcome γ} (as : List α) (bs : List β) (h : ∀ a, ∀ b ∈ bs, f a b = g a b) :
    transform2 f as bs = transform2 g as bs := by
  induction as generalizing bs with
  | nil => rfl
  | cons a as ih =>
    cases bs with
    | nil => rfl
    | cons b bs => rw [transform2, transform2, h a b (by simp), ih bs fun a b hb => h a b (by simp [hb])]

theorem transform2_short {α β γ : Type} (f : α → β → γ) (as : List α) (bs : List β) (h : bs.length < as.length) :
    transform2 (fun a b => .ok (f a b)) as bs = .error .ub := by
  induction as generalizing bs with
  | nil => simp at h
  | cons a as ih =>
    cases bs with
    | nil => rfl
    | cons b bs => rw [transform2, ok_bind, ih bs (by simpa using h), err_bind]

/-- **C94** The measures of the error: for lists of the same length `n > 0` and non-zero references, the largest deviation is at most `B` iff all deviations are, and the mean is
the mean; for no values at all and for too few references the behaviour is undefined. -/
theorem C94_errors {α : Type} (dist : α → α → ℝ) (size : α → ℝ) (fmm ref : List α) :
    (fmm ≠ [] → fmm.length = ref.length → (∀ b ∈ ref, size b ≠ 0) →
      ∃ ma aa mr ar, absRelError dist size fmm ref = .ok (ma, aa, mr, ar) ∧
        (∀ B, ma ≤ B ↔ ∀ p ∈ fmm.zip ref, dist p.1 p.2 ≤ B) ∧ aa * fmm.length = ((fmm.zip ref).map fun p => dist p.1 p.2).sum ∧
        (∀ B, mr ≤ B ↔ ∀ p ∈ fmm.zip ref, dist p.1 p.2 / size p.2 ≤ B) ∧
        ar * fmm.length = ((fmm.zip ref).map fun p => dist p.1 p.2 / size p.2).sum ∧ aa ≤ ma ∧ ar ≤ mr) ∧
    (fmm = [] → absRelError dist size fmm ref = .error .ub) ∧
    (ref.length < fmm.length → absRelError dist size fmm ref = .error .ub) := by
  refine ⟨fun hne hlen hsz => ?_, ?_, fun h => ?_⟩
  · have d1 : List.zipWith dist fmm ref = (fmm.zip ref).map fun p => dist p.1 p.2 := by rw [List.zip, List.map_zipWith]
    have d2 : List.zipWith (fun a b => a / size b) (List.zipWith dist fmm ref) ref = (fmm.zip ref).map fun p => dist p.1 p.2 / size p.2 := by
      clear hne hsz d1
      induction fmm generalizing ref with
      | nil => rfl
      | cons a as ih =>
        cases ref with
        | nil => rfl
        | cons b bs => simp only [List.zipWith_cons_cons, List.zip_cons_cons, List.map_cons]; rw [ih bs (by simpa using hlen)]
    have zne : fmm.zip ref ≠ [] := by
      cases fmm with
      | nil => exact absurd rfl hne
      | cons a as => cases ref with
        | nil => simp at hlen
        | cons b bs => simp
    have zlen : (fmm.zip ref).length = fmm.length := by simp [hlen]
    have npos : (0 : ℝ) < fmm.length := by exact_mod_cast List.length_pos_iff.mpr hne
    have general : ∀ f : α × α → ℝ, ∃ m, vecMax ((fmm.zip ref).map f) = .ok m ∧ (∀ B, m ≤ B ↔ ∀ p ∈ fmm.zip ref, f p ≤ B) ∧
        vecAvg ((fmm.zip ref).map f) = .ok (((fmm.zip ref).map f).sum / fmm.length) ∧ ((fmm.zip ref).map f).sum / fmm.length ≤ m := by
      intro f
      have hn : (fmm.zip ref).map f ≠ [] := by simpa using zne
      obtain ⟨m, h1, h2, h3⟩ := vecMax_spec hn
      refine ⟨m, h1, fun B => ⟨fun h p hp => (h3 _ (List.mem_map_of_mem hp)).trans h, fun h => ?_⟩, ?_, ?_⟩
      · obtain ⟨p, hp, e⟩ := List.mem_map.mp h2
        rw [← e]; exact h p hp
      · rw [vecAvg_eq hn, List.length_map, zlen]
      · rw [div_le_iff₀ npos]
        have := List.sum_le_card_nsmul _ m h3
        rw [List.length_map, zlen, nsmul_eq_mul] at this
        linarith
    obtain ⟨ma, a1, a2, a3, a4⟩ := general fun p => dist p.1 p.2
    obtain ⟨mr, b1, b2, b3, b4⟩ := general fun p => dist p.1 p.2 / size p.2
    refine ⟨ma, _, mr, _, ?_, a2, div_mul_cancel₀ _ npos.ne', b2, div_mul_cancel₀ _ npos.ne', a4, b4⟩
    unfold absRelError
    rw [transform2_ok dist fmm ref hlen.le, ok_bind, d1, a1, ok_bind, a3, ok_bind, ← d1,
      transform2_congr (g := fun a b => .ok (a / size b)) _ _ (fun a b hb => by unfold fdiv; rw [if_neg (hsz b hb)]),
      transform2_ok (fun a b => a / size b) _ _ (by rw [List.length_zipWith]; exact min_le_right _ _), ok_bind, d2, b1, ok_bind, b3, ok_bind]
  · rintro rfl; rfl
  · unfold absRelError
    rw [transform2_short dist fmm ref h, err_bind]

/-! ## Numbers of threads -/

theorem procLoop_multiples (M k : ℕ) (hk : 2 ≤ k) (n : ℕ) (hn : 1 ≤ n) :
    ∃ fuel, procLoop M k fuel (n * k) = some ((List.range (M / k + 1 - n)).map fun i => (n + i) * k) := by
  generalize hm : M / k + 1 - n = m
  induction m generalizing n with
  | zero =>
    refine ⟨1, ?_⟩
    have : M / k < n := by omega
    rw [Nat.div_lt_iff_lt_mul (by omega)] at this
    rw [procLoop, if_neg (by omega)]; rfl
  | succ m ih =>
    obtain ⟨f, hf⟩ := ih (n + 1) (by omega) (by omega)
    refine ⟨f + 1, ?_⟩
    have h1 : n ≤ M / k := by omega
    rw [Nat.le_div_iff_mul_le (by omega)] at h1
    have h2 : n * k ≠ 1 := by
      have := Nat.le_mul_of_pos_left k hn
      omega
    rw [procLoop, if_pos h1]
    simp only [if_neg h2]
    rw [show n * k + k = (n + 1) * k by ring, hf, Option.map_some, List.range_succ_eq_map, List.map_cons, List.map_map]
    congr 1
    simp only [Nat.add_zero, List.cons.injEq, true_and]
    refine List.map_congr_left fun i _ => ?_
    simp only [Function.comp, Nat.succ_eq_add_one]
    ring

/-- **C94** The loop of `fmm_efficiency.cpp` runs with one thread and then with all multiples of the increment up to the maximum; with the increment 1 it would never end. -/
theorem C94_threads (M : ℕ) (hM : 1 ≤ M) :
    (∀ k, 2 ≤ k → ∃ fuel, procLoop M k fuel 1 = some (1 :: (List.range (M / k)).map fun i => (i + 1) * k)) ∧
    ∀ fuel, procLoop M 1 fuel 1 = none := by
  refine ⟨fun k hk => ?_, fun fuel => ?_⟩
  · obtain ⟨f, hf⟩ := procLoop_multiples M k hk 1 le_rfl
    refine ⟨f + 1, ?_⟩
    rw [procLoop, if_pos hM]
    simp only [if_true, Nat.zero_add]
    rw [one_mul] at hf
    rw [hf, Option.map_some]
    congr 2
    rw [Nat.add_sub_cancel]
    exact List.map_congr_left fun i _ => by ring
  · induction fuel with
    | zero => rfl
    | succ f ih =>
      rw [procLoop, if_pos hM]
      simp only [if_true, Nat.zero_add]
      rw [ih]; rfl

/-! ## The verdict of `expansions.cpp` -/

theorem geq_potError {a ref eps : ℝ} (hr : 0 < ref) : geq (potError a ref) eps = false ↔ |a - ref| < eps * ref := by
  unfold potError quot geq
  rw [if_neg hr.ne']
  simp only [ge_iff_le, decide_eq_false_iff_not, not_le]
  rw [div_lt_iff₀ hr]

theorem isnan_potError {a ref : ℝ} (hr : ref ≠ 0) (fm : Bool) : isnan fm (potError a ref) = false := by
  unfold potError quot
  rw [if_neg hr]; rfl

theorem geq_frcError {a ref : Vec d} {eps : ℝ} (hr : 0 < Vec.norm ref) :
    geq (frcError a ref) eps = false ↔ Vec.norm (Vec.sub a ref) < eps * Vec.norm ref := by
  unfold frcError quot geq
  rw [if_neg hr.ne']
  simp only [ge_iff_le, decide_eq_false_iff_not, not_le]
  rw [div_lt_iff₀ hr]

theorem isnan_frcError {a ref : Vec d} (hr : Vec.norm ref ≠ 0) (fm : Bool) : isnan fm (frcError a ref) = false := by
  unfold frcError quot
  rw [if_neg hr]; rfl

/-- The errors of the ten computed values: potentials and forces of the multipole expansions, the translated multipole expansion, the local expansions from sources and from
multipole expansions, and the translated local expansion, against the references at the two points. -/
noncomputable def errorsOf (me se ls lm sl : ℝ) (Me Se Ls Lm Sl : Vec d) (rm rl : ℝ) (Rm Rl : Vec d) : Errors :=
  ⟨potError me rm, potError se rm, potError ls rl, potError lm rl, potError sl rl,
    frcError Me Rm, frcError Se Rm, frcError Ls Rl, frcError Lm Rl, frcError Sl Rl⟩

/-- **C94** With positive reference potentials `expansions.cpp` accepts exactly if eight of the ten relative errors are below `eps`; the two errors of the local expansion from sources are
not compared with anything. -/
theorem C94_verdict (fm : Bool) (eps : ℝ) (me se ls lm sl : ℝ) (Me Se Ls Lm Sl : Vec d) {rm rl : ℝ} {Rm Rl : Vec d} (h1 : 0 < rm) (h2 : 0 < rl)
    (h3 : 0 < Vec.norm Rm) (h4 : 0 < Vec.norm Rl) :
    fails fm eps (errorsOf me se ls lm sl Me Se Ls Lm Sl rm rl Rm Rl) = false ↔
      |me - rm| < eps * rm ∧ |se - rm| < eps * rm ∧ |lm - rl| < eps * rl ∧ |sl - rl| < eps * rl ∧
      Vec.norm (Vec.sub Me Rm) < eps * Vec.norm Rm ∧ Vec.norm (Vec.sub Se Rm) < eps * Vec.norm Rm ∧
      Vec.norm (Vec.sub Lm Rl) < eps * Vec.norm Rl ∧ Vec.norm (Vec.sub Sl Rl) < eps * Vec.norm Rl := by
  unfold fails errorsOf
  simp only [isnan_potError h1.ne', isnan_potError h2.ne', isnan_frcError h3.ne', isnan_frcError h4.ne', Bool.or_false, Bool.false_or, Bool.or_eq_false_iff,
    geq_potError h1, geq_potError h2, geq_frcError h3, geq_frcError h4, and_assoc]

/-- **C94** With negative reference potentials (they are divided by without taking the absolute value) the computed potentials have no influence on the verdict, whatever they are. -/
theorem C94_verdict_negative (fm : Bool) {eps : ℝ} (he : 0 < eps) (me se ls lm sl me' se' ls' lm' sl' : ℝ) (Me Se Ls Lm Sl : Vec d) {rm rl : ℝ} {Rm Rl : Vec d}
    (h1 : rm < 0) (h2 : rl < 0) :
    fails fm eps (errorsOf me se ls lm sl Me Se Ls Lm Sl rm rl Rm Rl) = fails fm eps (errorsOf me' se' ls' lm' sl' Me Se Ls Lm Sl rm rl Rm Rl) := by
  have key : ∀ {r : ℝ}, r < 0 → ∀ a, geq (potError a r) eps = false := by
    intro r hr a
    unfold potError quot geq
    rw [if_neg hr.ne]
    simp only [ge_iff_le, decide_eq_false_iff_not, not_le]
    exact (div_nonpos_of_nonneg_of_nonpos (abs_nonneg _) hr.le).trans_lt he
  unfold fails errorsOf
  simp only [isnan_potError h1.ne, isnan_potError h2.ne, key h1, key h2]

theorem potError_zero (a : ℝ) : potError a 0 = if a = 0 then .nan else .inf := by
  unfold potError quot
  rw [if_pos rfl, sub_zero]
  by_cases h : a = 0 <;> simp [h]

/-- **C94** With reference potentials zero every relative error is a NaN or infinite. The program then rejects whatever was computed; compiled with `-ffast-math` it accepts, as
far as the potentials are concerned, exactly if the four that count are zero as well. -/
theorem C94_verdict_zero (fm : Bool) (eps : ℝ) (me se ls lm sl : ℝ) (Me Se Ls Lm Sl : Vec d) {Rm Rl : Vec d} (h3 : 0 < Vec.norm Rm) (h4 : 0 < Vec.norm Rl) :
    fails fm eps (errorsOf me se ls lm sl Me Se Ls Lm Sl 0 0 Rm Rl) = false ↔
      fm = true ∧ me = 0 ∧ se = 0 ∧ lm = 0 ∧ sl = 0 ∧
      Vec.norm (Vec.sub Me Rm) < eps * Vec.norm Rm ∧ Vec.norm (Vec.sub Se Rm) < eps * Vec.norm Rm ∧
      Vec.norm (Vec.sub Lm Rl) < eps * Vec.norm Rl ∧ Vec.norm (Vec.sub Sl Rl) < eps * Vec.norm Rl := by
  have hg : ∀ a, geq (potError a 0) eps = false ↔ a = 0 := by
    intro a
    rw [potError_zero]
    by_cases h : a = 0 <;> simp [h, geq]
  have hn : ∀ a, isnan fm (potError a 0) = false ↔ (a = 0 → fm = true) := by
    intro a
    rw [potError_zero]
    by_cases h : a = 0 <;> simp [h, isnan]
  unfold fails errorsOf
  simp only [isnan_frcError h3.ne', isnan_frcError h4.ne', Bool.or_false, Bool.or_eq_false_iff, geq_frcError h3, geq_frcError h4, hg, hn]
  tauto

/-- **C94** Compiled with `-ffast-math` the program accepts if all errors are NaN. -/
theorem C94_verdict_nan (eps : ℝ) : fails true eps ⟨.nan, .nan, .nan, .nan, .nan, .nan, .nan, .nan, .nan, .nan⟩ = false ∧
    fails false eps ⟨.nan, .nan, .nan, .nan, .nan, .nan, .nan, .nan, .nan, .nan⟩ = true := by
  constructor <;> simp [fails, isnan, geq]

/-! ## `adjacent.cpp` -/

/-- **C94** The output of `adjacent.cpp`: boxes that touch are adjacent, also with a gap of five units in the last place; the boxes on opposite sides of the root are not. -/
theorem C94_adjacent {e : ℝ} (he : 0 ≤ e) (he' : e ≤ 1 / 2 ^ 52) :
    adjRoot.adjacent adjRoot ∧ adjRoot.adjacent adjChild1 ∧ adjRoot.adjacent adjChild2 ∧ adjChild1.adjacent adjRoot ∧ adjChild1.adjacent adjChild1 ∧
      ¬ adjChild1.adjacent adjChild2 ∧ ¬ adjChild1.adjacent (adjChild3 e) ∧ (adjChild3 e).adjacent adjRoot ∧ ¬ (adjChild3 e).adjacent adjChild1 ∧
      (adjChild3 e).adjacent adjChild2 ∧ (adjChild3 e).adjacent (adjChild3 e) := by
  have h52 : (1 : ℝ) / 2 ^ 52 ≤ 1 / 100 := by norm_num
  have he2 : e ≤ 1 / 100 := he'.trans h52
  have unf : ∀ a b : Box 3, a.len = 1 → b.len = 1 → (a.adjacent b ↔ ∀ i, |a.center i - b.center i| ≤ 3 / 2) := by
    intro a b ha hb
    unfold Box.adjacent Box.lower Box.upper
    simp only [ha, hb, Vec.fill, Pi.sub_apply, Pi.add_apply, Pi.smul_apply, smul_eq_mul, min_self, gt_iff_lt, not_or, not_lt]
    refine forall_congr' fun i => ?_
    rw [abs_le]
    constructor
    · rintro ⟨h1, h2⟩; constructor <;> linarith
    · rintro ⟨h1, h2⟩; constructor <;> linarith
  have c1 : ∀ i, adjChild1.center i = 1 := fun i => by simp [adjChild1, Vec.fill]
  have c2 : ∀ i, adjChild2.center i = -1 := fun i => by simp [adjChild2, Vec.sub, Vec.fill]
  have c0 : ∀ i, adjRoot.center i = 0 := fun i => by simp [adjRoot, Vec.fill]
  have c3 : ∀ i, (adjChild3 e).center i = ![0, -(1 + 5 * e), 0] i := fun i => by
    have h : (adjChild3 e).center i = (Vec.fill 0 : Vec 3) i - (![0, 1 + 5 * e, 0] : Vec 3) i := by
      rw [adjChild3, Vec.sub_eq]; rfl
    rw [h]
    show (0 : ℝ) - _ = _
    fin_cases i <;> simp
  have l0 : adjRoot.len = 1 := rfl
  have l1 : adjChild1.len = 1 := rfl
  have l2 : adjChild2.len = 1 := rfl
  have l3 : (adjChild3 e).len = 1 := rfl
  refine ⟨?_, ?_, ?_, ?_, ?_, ?_, ?_, ?_, ?_, ?_, ?_⟩
  · rw [unf _ _ l0 l0]; intro i; rw [sub_self, abs_zero]; norm_num
  · rw [unf _ _ l0 l1]; intro i; rw [c0, c1]; norm_num
  · rw [unf _ _ l0 l2]; intro i; rw [c0, c2]; norm_num
  · rw [unf _ _ l1 l0]; intro i; rw [c0, c1]; norm_num
  · rw [unf _ _ l1 l1]; intro i; rw [sub_self, abs_zero]; norm_num
  · rw [unf _ _ l1 l2]; intro h; have := h 0; rw [c1, c2] at this; norm_num at this
  · rw [unf _ _ l1 l3]; intro h; have := (abs_le.mp (h 1)).2; rw [c1, c3] at this; simp at this; linarith
  · rw [unf _ _ l3 l0]; intro i; rw [c3, c0, abs_le]; constructor <;> fin_cases i <;> simp <;> linarith
  · rw [unf _ _ l3 l1]; intro h; have := (abs_le.mp (h 1)).1; rw [c1, c3] at this; simp at this; linarith
  · rw [unf _ _ l3 l2]; intro i; rw [c3, c2, abs_le]; constructor <;> fin_cases i <;> norm_num <;> linarith
  · rw [unf _ _ l3 l3]; intro i; rw [sub_self, abs_zero]; norm_num

/-! ## Examples -/

/-- The loop of the program: 1, 4, 8, ..., 124 threads. -/
example : procLoop 124 4 40 1 = some (1 :: (List.range 31).map fun i => (i + 1) * 4) := by decide

/-- 10 sources in four clusters are 12 sources. -/
example (R : ℕ → ℝ) (hR : ∀ n, R n ∈ Set.Icc (0 : ℝ) 1) : (genNonUniform R true clusterCenters3 10 (10 : ℕ) 0).1.length = 12 := by
  obtain ⟨h1, h2, ⟨k, h3⟩, -⟩ := C94_clusters hR true clusterCenters3 (by simp [clusterCenters3]) (extent := 10) (by norm_num) 10 0
  have : clusterCenters3.length = 4 := rfl
  rw [this] at h2 h3
  omega

/-- The hypotheses on the random numbers can be satisfied. -/
example : ∀ n : ℕ, (fun n => (n % 2 : ℕ) / (2 : ℝ)) n ∈ Set.Icc (0 : ℝ) 1 := fun n => by
  have : ((n % 2 : ℕ) : ℝ) ≤ 1 := by exact_mod_cast Nat.lt_succ_iff.mp (Nat.mod_lt n (by norm_num))
  constructor
  · positivity
  · show ((n % 2 : ℕ) : ℝ) / 2 ≤ 1
    linarith

/-- Deviations 1 and 3 from the references 2 and -4. -/
example : ∃ ma aa mr ar, absRelError (fun a b : ℝ => |a - b|) (fun b => |b|) [3, -1] [2, -4] = .ok (ma, aa, mr, ar) ∧ ma = 3 ∧ aa = 2 := by
  obtain ⟨ma, aa, mr, ar, h1, h2, h3, -⟩ := (C94_errors (fun a b : ℝ => |a - b|) (fun b => |b|) [3, -1] [2, -4]).1 (by simp) rfl (by simp)
  refine ⟨ma, aa, mr, ar, h1, le_antisymm ?_ ?_, ?_⟩
  · rw [h2]
    intro p hp
    simp only [List.zip_cons_cons, List.zip_nil_right, List.mem_cons, List.not_mem_nil, or_false] at hp
    rcases hp with rfl | rfl <;> norm_num [abs_of_pos]
  · have := (h2 ma).mp le_rfl (-1, -4) (by simp)
    norm_num at this
    exact this
  · norm_num at h3
    have e : |(3 : ℝ) - 2| = 1 := by norm_num
    linarith

/-- A potential that is wrong by a factor 1000 is accepted if the reference is negative. -/
example (Rm Rl : Vec 2) (h3 : 0 < Vec.norm Rm) (h4 : 0 < Vec.norm Rl) :
    fails false 1e-5 (errorsOf (-1000) (-1000) (-1000) (-1000) (-1000) Rm Rm Rl Rl Rl (-1) (-1) Rm Rl) = false := by
  rw [C94_verdict_negative false (by norm_num) (-1000) (-1000) (-1000) (-1000) (-1000) (-1) (-1) (-1) (-1) (-1) _ _ _ _ _ (by norm_num) (by norm_num)]
  have hz : ∀ R : Vec 2, 0 < Vec.norm R → geq (frcError R R) 1e-5 = false := fun R hR => by
    rw [geq_frcError hR]
    have : Vec.norm (Vec.sub R R) = 0 := by rw [Vec.sub_eq, sub_self]; simp [Vec.norm, Vec.hypot]
    rw [this]
    positivity
  have hp : geq (potError (-1) (-1)) 1e-5 = false := by
    unfold potError quot geq
    rw [if_neg (by norm_num)]
    norm_num
  unfold fails errorsOf
  simp only [isnan_potError (show (-1 : ℝ) ≠ 0 by norm_num), isnan_frcError h3.ne', isnan_frcError h4.ne', hz Rm h3, hz Rl h4, hp, Bool.or_false]

end FMM.TestProgs
