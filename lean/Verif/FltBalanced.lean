import Verif.FltTree
import Verif.FmmRelBalanced

/-!
# The balanced tree in the plane, in floating-point arithmetic
-/

namespace FMM.Fl
open Rounded

/-! ## Points with indices in range -/

section
variable {d : ℕ} {rnd : ℝ → ℝ} {r : RBox ℝ d} {u C : ℝ} {h : ℕ}

/-- Rounding error of a number from the size of its rounded value. -/
theorem abs_near {w m R : ℝ} (hu : 0 ≤ u) (hu1 : u ≤ 1 / 100) (h : |rnd w - w| ≤ u * max |w| m) (hR : |rnd w| ≤ R) (hm : m ≤ R) :
    |rnd w - w| ≤ 103 / 100 * (u * R) ∧ |w| ≤ 103 / 100 * R := by
  have hR0 : 0 ≤ R := (abs_nonneg _).trans hR
  have h1 : |w| ≤ |rnd w| + |rnd w - w| := by
    have := abs_sub (rnd w) (rnd w - w)
    rwa [sub_sub_cancel] at this
  have h2 : max |w| m ≤ |w| + R := max_le (by linarith) (by linarith [abs_nonneg w])
  have h3 : u * max |w| m ≤ 1 / 100 * (|w| + R) := mul_le_mul hu1 h2 ((abs_nonneg w).trans (le_max_left _ _)) (by norm_num)
  have h4 : |w| ≤ 103 / 100 * R := by linarith
  refine ⟨h.trans ?_, h4⟩
  have := mul_le_mul_of_nonneg_left (max_le h4 (by linarith) : max |w| m ≤ 103 / 100 * R) hu
  linarith

/-- One component of the index of a leaf, from its computed value back to the shifted coordinate. -/
theorem index_near {y ρ L P k : ℝ} (hu : 0 ≤ u) (hu1 : u ≤ 1 / 100) (hL : 0 < L) (hp1 : 1 ≤ P) (hk0 : 0 ≤ k) (hidx : k + 1 ≤ P)
    (f1 : k ≤ rnd (rnd (rnd y * ρ) * P)) (f2 : rnd (rnd (rnd y * ρ) * P) < k + 1)
    (A : |rnd (rnd (rnd y * ρ) * P) - rnd (rnd y * ρ) * P| ≤ u * max |rnd (rnd y * ρ) * P| 1)
    (B : |rnd (rnd y * ρ) - rnd y * ρ| ≤ u * max |rnd y * ρ| 1) (D : |rnd y - y| ≤ u * max |y| L)
    (hrho : |ρ - 1 / L| ≤ u * (1 / L)) :
    k * (L / P) - 6 * (u * L) ≤ y ∧ y ≤ (k + 1) * (L / P) + 6 * (u * L) := by
  have hp : 0 < P := by linarith
  obtain ⟨a1, a2⟩ := abs_near hu hu1 A (R := P) (by rw [abs_le]; constructor <;> linarith) hp1
  have a1 := abs_le.mp a1
  rw [abs_mul, abs_of_pos hp] at a2
  obtain ⟨b1, b2⟩ := abs_near hu hu1 B (R := 103 / 100) (le_of_mul_le_mul_right a2 hp) (by norm_num)
  have b1 := abs_le.mp b1
  have b3 := mul_le_mul_of_nonneg_right b1.1 hp.le
  have b4 := mul_le_mul_of_nonneg_right b1.2 hp.le
  generalize rnd (rnd (rnd y * ρ) * P) = F at *
  generalize rnd (rnd y * ρ) = W at *
  generalize hv : rnd y = v at *
  have up : 0 ≤ u * P := mul_nonneg hu hp.le
  obtain ⟨q1, q2⟩ : k / P - 21 / 10 * u ≤ v * ρ ∧ v * ρ ≤ (k + 1) / P + 21 / 10 * u := by
    have e : k / P * P = k := by field_simp
    have e' : (k + 1) / P * P = k + 1 := by field_simp
    constructor
    · refine le_of_mul_le_mul_right ?_ hp
      rw [sub_mul, e]
      linarith [a1.1, a1.2]
    · refine le_of_mul_le_mul_right ?_ hp
      rw [add_mul, e']
      linarith [a1.1, a1.2]
  obtain ⟨ε, hε⟩ : ∃ ε, ε = ρ * L - 1 := ⟨_, rfl⟩
  have hε1 : |ε| ≤ u := by
    have e : ε = (ρ - 1 / L) * L := by rw [hε]; field_simp
    rw [e, abs_mul, abs_of_pos hL]
    calc |ρ - 1 / L| * L ≤ u * (1 / L) * L := mul_le_mul_of_nonneg_right hrho hL.le
      _ = u := by field_simp
  obtain ⟨ε1, ε2⟩ := abs_le.mp hε1
  obtain ⟨s, hs⟩ : ∃ s, s = v / L := ⟨_, rfl⟩
  have ev : v = s * L := by rw [hs]; field_simp
  have eq : v * ρ = s * (1 + ε) := by rw [ev, hε]; ring
  rw [eq] at q1 q2 b2
  have s1 : |s| ≤ 108 / 100 := by
    rw [abs_mul, abs_of_pos (show 0 < 1 + ε by linarith)] at b2
    have := mul_le_mul_of_nonneg_left (show 99 / 100 ≤ 1 + ε by linarith) (abs_nonneg s)
    linarith
  have s2 : |s * ε| ≤ 108 / 100 * u := by
    rw [abs_mul]; exact mul_le_mul s1 hε1 (abs_nonneg _) (by norm_num)
  have s2 := abs_le.mp s2
  have v1 : |rnd y| ≤ 108 / 100 * L := by
    rw [hv, ev, abs_mul, abs_of_pos hL]; exact mul_le_mul_of_nonneg_right s1 hL.le
  obtain ⟨d1, -⟩ := abs_near hu hu1 (hv.symm ▸ D) v1 (by linarith)
  have d1 := abs_le.mp d1
  rw [hv, ev] at d1
  have g1 : k / P - 319 / 100 * u ≤ s := by linarith
  have g2 : s ≤ (k + 1) / P + 319 / 100 * u := by linarith
  have uL : 0 ≤ u * L := mul_nonneg hu hL.le
  have g1 := mul_le_mul_of_nonneg_right g1 hL.le
  have g2 := mul_le_mul_of_nonneg_right g2 hL.le
  have e1 : (k / P - 319 / 100 * u) * L = k * (L / P) - 319 / 100 * (u * L) := by ring
  have e2 : ((k + 1) / P + 319 / 100 * u) * L = (k + 1) * (L / P) + 319 / 100 * (u * L) := by ring
  constructor <;> linarith [d1.1, d1.2]

/-- Without any assumption about the point: if its indices are in range then it is in the leaf with these indices, up to the
rounding errors. -/
theorem leafIndices_near_on (hu : 0 ≤ u) (hu1 : u ≤ 1 / 100) (hL : 0 < r.len) (hC0 : 0 ≤ C)
    (H : RndOn rnd u (4 * (C + r.len))) (I : RndIx rnd u r.len) (hC : ∀ i, |r.center i| ≤ C)
    (hk : (8 * h + 15) * (u * (4 * (C + r.len))) < r.len / 2 ^ (h + 1))
    {x : Vec d} {idx : Fin d → ℕ} (hi : leafIndices rnd r h x = .ok idx) (i : Fin d) :
    |x i - (FMM.boxAt r.exact (pathOfGrid h idx)).center i| ≤ r.len / 2 ^ h / 2 + 9 * (u * (4 * (C + r.len))) := by
  have c := ctx_on hu hL hC0 H hC hk
  obtain ⟨f1, f2⟩ := leafIndices_inv hi i
  rw [Int.floor_eq_iff] at f2
  push_cast at f2
  have hcc := hC i
  have hn := c.nonneg
  have h7 := c.small7
  have hb := c.bound
  obtain ⟨c1, c2⟩ := abs_le.mp hcc
  have hLo := c.lowerR [] (Nat.zero_le _) i
  simp only [Rounded.boxAt, List.length_nil, pow_zero, div_one, Nat.cast_zero, mul_zero, zero_add] at hLo
  have hLo := near_mul_unit (s := (-1 : ℝ)) (by simp) hLo
  have nl : |r.center i - r.len / 2| ≤ C + r.len := by rw [abs_le]; constructor <;> linarith
  have hLo := rnd_near c.rel hLo (by rw [abs_mul, abs_neg, abs_one, one_mul]; linarith)
  have e1 : leafRatio rnd r h x i
      = rnd (rnd (rnd (x i + rnd (-1 * RBox.lower rnd r i)) * rnd (1 / r.len)) * 2 ^ h) := by
    simp only [leafRatio, vscale, vsub, vadd, vneg, RBox.lower]
    rw [mul_comm (rnd _) (-1 : ℝ)]
  rw [e1] at f2
  have hp : (0 : ℝ) < 2 ^ h := by positivity
  have hp1 : (1 : ℝ) ≤ 2 ^ h := one_le_pow₀ (by norm_num)
  have hrho := I.inv
  set lo' := rnd (-1 * RBox.lower rnd r i) with hlo'
  set y := x i + lo' with hy
  set v := rnd y with hv
  set ρ := rnd (1 / r.len) with hρ
  set W := rnd (v * ρ) with hW
  have hk0 : (0 : ℝ) ≤ idx i := Nat.cast_nonneg _
  have hidx : (idx i : ℝ) + 1 ≤ 2 ^ h := by exact_mod_cast f1
  obtain ⟨yl, yu⟩ := index_near (y := y) hu hu1 hL hp1 hk0 hidx f2.1 f2.2 (I.one _) (I.one _) (I.len _) hrho
  have hud : 4 * (u * r.len) ≤ u * (4 * (C + r.len)) := by nlinarith [mul_nonneg hu hC0]
  have g := lower_grid r (pathOfGrid h idx) i
  rw [len_exact, grid_pathOfGrid h idx fun j => (leafIndices_inv hi j).1, pathOfGrid_length] at g
  have ec : (FMM.boxAt r.exact (pathOfGrid h idx)).center i = (Rounded.boxAt id r (pathOfGrid h idx)).center i :=
    congrFun (congrArg Box.center (boxAt_id r (pathOfGrid h idx))).symm i
  rw [ec]
  rw [abs_le] at hLo ⊢
  have hx : x i = y - lo' := by rw [hy]; ring
  rw [hx]
  clear_value y lo'
  generalize u * (4 * (C + r.len)) = δ at *
  generalize r.len / 2 ^ h = w at *
  constructor <;> linarith [hLo.1, hLo.2]

theorem leafIndices_near (H : ∀ x, |rnd x - x| ≤ u * |x|) (hu : 0 ≤ u) (hu1 : u ≤ 1 / 100) (hL : 0 < r.len)
    (hC0 : 0 ≤ C) (hC : ∀ i, |r.center i| ≤ C) (hk : (8 * h + 15) * (u * (4 * (C + r.len))) < r.len / 2 ^ (h + 1))
    {x : Vec d} {idx : Fin d → ℕ} (hi : leafIndices rnd r h x = .ok idx) (i : Fin d) :
    |x i - (FMM.boxAt r.exact (pathOfGrid h idx)).center i| ≤ r.len / 2 ^ h / 2 + 9 * (u * (4 * (C + r.len))) :=
  leafIndices_near_on hu hu1 hL hC0 (RndOn.of_rel H hu) (RndIx.of_rel H hu hL) hC hk hi i

end

section
variable {rnd : ℝ → ℝ} {r : RBox ℝ 2} {u C : ℝ} {h : ℕ} {S : List (Source 2)}

/-- It is also in the boxes of the ancestors of this leaf. -/
theorem within_indices_on (hu : 0 ≤ u) (hL : 0 < r.len)
    (hC0 : 0 ≤ C) (H : RndOn rnd u (4 * (C + r.len))) (I : RndIx rnd u r.len) (hC : ∀ i, |r.center i| ≤ C) (hk : 100 * ((8 * h + 15) * (u * (4 * (C + r.len)))) < r.len / 2 ^ (h + 1))
    {x : Vec 2} {idx : Fin 2 → ℕ} (hi : leafIndices rnd r h x = .ok idx) {π : Path} (hπ : π <:+ pathOfGrid h idx) :
    Within r.exact h π x := by
  intro j
  have a := leafIndices_near_on hu (Rounded.small_u hu hL hC0 hk) hL hC0 H I hC (small_k hu hL hC0 hk) hi j
  have hs := small_delta hk
  have hd : 0 ≤ u * (4 * (C + r.len)) := by positivity
  obtain ⟨σ, hσ⟩ := hπ
  have hlen : σ.length + π.length = h := by rw [← List.length_append, hσ, pathOfGrid_length]
  have hb := boxAt_append' r.exact σ π
  rw [hσ] at hb
  have hpos := boxAt_len_pos r.exact hL π
  have b := root_near hpos σ j
  rw [← hb] at b
  unfold side at b
  rw [boxAt_len] at b
  have e : r.exact.len / 2 ^ π.length / 2 ^ σ.length = r.len / 2 ^ h := by
    rw [div_div, ← pow_add, add_comm, hlen]; rfl
  rw [e] at b
  have e2 : x j - (FMM.boxAt r.exact π).center j = (x j - (FMM.boxAt r.exact (pathOfGrid h idx)).center j)
      + ((FMM.boxAt r.exact (pathOfGrid h idx)).center j - (FMM.boxAt r.exact π).center j) := by ring
  rw [e2]
  refine (abs_add_le _ _).trans ?_
  have : (0 : ℝ) ≤ h := Nat.cast_nonneg h
  have h9 : 9 * (u * (4 * (C + r.len))) ≤ (8 * h + 15) * (u * (4 * (C + r.len))) := mul_le_mul_of_nonneg_right (by linarith) hd
  change _ ≤ r.exact.len / 2 ^ π.length / 2 + r.len / 2 ^ h / 200
  linarith

theorem within_indices (H : ∀ x, |rnd x - x| ≤ u * |x|) (hu : 0 ≤ u) (hL : 0 < r.len)
    (hC0 : 0 ≤ C) (hC : ∀ i, |r.center i| ≤ C) (hk : 100 * ((8 * h + 15) * (u * (4 * (C + r.len)))) < r.len / 2 ^ (h + 1))
    {x : Vec 2} {idx : Fin 2 → ℕ} (hi : leafIndices rnd r h x = .ok idx) {π : Path} (hπ : π <:+ pathOfGrid h idx) :
    Within r.exact h π x :=
  within_indices_on hu hL hC0 (RndOn.of_rel H hu) (RndIx.of_rel H hu hL) hC hk hi hπ

theorem route_bshadow {d : ℕ} {r : RBox ℝ d} (hL : 0 < r.len) {x : Vec d} {idx : Fin d → ℕ} (hi : leafIndices rnd r h x = .ok idx)
    {n : ℕ} (hn : n ≤ h) : FMM.route r.exact (bshadow rnd r h x) n = (pathOfGrid h idx).drop (h - n) := by
  have hpl := pathOfGrid_length h idx
  rw [bshadow_eq hi, route_center r.exact hL _ (pathOfGrid_valid h idx) n (by omega), hpl]

/-- The sources of the nodes of the computed tree. -/
theorem bsrcs_on (hu : 0 ≤ u) (hL : 0 < r.len)
    (hC0 : 0 ≤ C) (H : RndOn rnd u (4 * (C + r.len))) (I : RndIx rnd u r.len) (hC : ∀ i, |r.center i| ≤ C) (hk : 100 * ((8 * h + 15) * (u * (4 * (C + r.len)))) < r.len / 2 ^ (h + 1))
    (h0 : h = 0 → ∀ s ∈ S, r.exact.contains s.pos) (hx : h = 0 ∨ ∀ s ∈ S, InTree rnd r h s.pos) :
    Srcs (fullTree r.exact h) r.exact h S.length (itemsAt (fun s => bshadow rnd r h s.pos) r.exact S) where
  within := by
    intro π hπ s hs
    have hlen := ((fullTree_mem r.exact h π).mp hπ).2
    obtain ⟨s1, s2⟩ := List.mem_filter.mp hs
    have s2 : FMM.route r.exact (bshadow rnd r h s.pos) π.length = π := by simpa using s2
    by_cases hz : h = 0
    · subst hz
      have : π = [] := List.length_eq_zero_iff.mp (by omega)
      subst this
      intro j
      have a := (Box.contains_iff r.exact s.pos).mp (h0 rfl s s1) j
      have hL' : 0 < r.exact.len := hL
      simp only [FMM.boxAt, List.length_nil, pow_zero, div_one]
      rw [abs_le]
      constructor <;> linarith [a.1, a.2]
    · obtain ⟨idx, hi⟩ := hx.resolve_left hz s s1
      rw [route_bshadow hL hi hlen] at s2
      exact within_indices_on hu hL hC0 H I hC hk hi (s2 ▸ List.drop_suffix _ _)
  len π := List.length_filter_le _ _
  kids π _ _ := itemsAt_kids _ _ _ π

theorem bsrcs_of (H : ∀ x, |rnd x - x| ≤ u * |x|) (hu : 0 ≤ u) (hL : 0 < r.len)
    (hC0 : 0 ≤ C) (hC : ∀ i, |r.center i| ≤ C) (hk : 100 * ((8 * h + 15) * (u * (4 * (C + r.len)))) < r.len / 2 ^ (h + 1))
    (h0 : h = 0 → ∀ s ∈ S, r.exact.contains s.pos) (hx : h = 0 ∨ ∀ s ∈ S, InTree rnd r h s.pos) :
    Srcs (fullTree r.exact h) r.exact h S.length (itemsAt (fun s => bshadow rnd r h s.pos) r.exact S) :=
  bsrcs_on hu hL hC0 (RndOn.of_rel H hu) (RndIx.of_rel H hu hL) hC hk h0 hx

/-- A source of another leaf is somewhere else. -/
theorem bother_leaf {d : ℕ} {r : RBox ℝ d} {S : List (Source d)} (hL : 0 < r.len) {x : Vec d} {idx : Fin d → ℕ}
    (hi : leafIndices rnd r h x = .ok idx) :
    ∀ ρ, (fullTree r.exact h).Mem ρ → (fullTree r.exact h).leaf ρ = true → ρ ≠ pathOfGrid h idx →
      ∀ s ∈ itemsAt (fun s : Source d => bshadow rnd r h s.pos) r.exact S ρ, s.pos ≠ x := by
  intro ρ h1 h2 h3 s hs he
  have hlen : ρ.length = h := by
    have a := ((fullTree_mem r.exact h ρ).mp h1).2
    have b : h ≤ ρ.length := by simpa [fullTree] using h2
    omega
  have s2 : FMM.route r.exact (bshadow rnd r h s.pos) ρ.length = ρ := by simpa using (List.mem_filter.mp hs).2
  rw [he, hlen, route_bshadow hL hi le_rfl, Nat.sub_self, List.drop_zero] at s2
  exact h3 s2.symm

/-- A leaf has at most nine near neighbours. -/
theorem own_card {d : ℕ} {r : Box d} (hr : 0 < r.len) {π : Path} (hπ : (fullTree r h).Mem π) :
    ((fullTree r h).own π).length ≤ 3 ^ d := by
  classical
  have hT := (fullTree_adjOf r h).laws hr
  have hm : ∀ ρ ∈ (fullTree r h).own π, ValidPath d ρ ∧ ρ.length = π.length := fun ρ hρ =>
    ⟨(fullTree_own_mem hr hπ hρ).1, (fullTree_own_mem hr hπ hρ).2.1⟩
  have hnd : (((fullTree r h).own π).map fun a => (fun j => (grid d a j : ℤ) : Fin d → ℤ)).Nodup := by
    refine (List.nodup_map_iff_inj_on (PTree.nodup_own hT hπ)).mpr ?_
    intro a ha b hb hab
    refine grid_injective (hm a ha).1 (hm b hb).1 ((hm a ha).2.trans (hm b hb).2.symm) ?_
    funext j
    exact_mod_cast congrFun hab j
  set small : Finset (Fin d → ℤ) := Fintype.piFinset fun j => Finset.Icc ((grid d π j : ℤ) - 1) ((grid d π j : ℤ) + 1)
  have hin : (((fullTree r h).own π).map fun a => (fun j => (grid d a j : ℤ) : Fin d → ℤ)).toFinset ⊆ small := by
    intro f hf
    rw [List.mem_toFinset, List.mem_map] at hf
    obtain ⟨a, ha, rfl⟩ := hf
    have h1 := ((PTree.mem_own hT hπ a).mp ha).2.1
    rw [fullTree_adjOf, decide_eq_true_eq, C03_adjacent_iff_grid r hr π a (hm a ha).2.symm] at h1
    rw [Fintype.mem_piFinset]
    intro j
    have := h1 j
    rw [Finset.mem_Icc]
    omega
  have hcard := Finset.card_le_card hin
  rw [List.toFinset_card_of_nodup hnd, List.length_map, Fintype.card_piFinset] at hcard
  have e1 : ∀ j : Fin d, (Finset.Icc ((grid d π j : ℤ) - 1) ((grid d π j : ℤ) + 1)).card = 3 := by
    intro j; rw [Int.card_Icc]; omega
  simp only [e1, Finset.prod_const, Finset.card_univ, Fintype.card_fin] at hcard
  exact hcard

end

variable {F : Flt} {u C : ℝ} {r : RBox ℝ 2} {S : List (Source 2)} {perCell h p : ℕ}

/-- **The balanced tree in floating point.** -/
theorem balanced_flt (hF : F.Ok u) {t : BinomialTable} (ht : t.Good) (hL : 0 < r.len) (hC : ∀ i, |r.center i| ≤ C) {eps : ℝ}
    (hord : Rounded.expansionOrder F.rnd F.rlog (Rounded.totalStrength F.rnd S) eps = .ok p) (hp0 : 0 < p) (hp : p ≤ 1029)
    (hht : Rounded.balancedHeight F.rnd F.rlog 2 S.length perCell = .ok h) (h16 : h ≤ 16)
    (hbox : sourceBox F.rnd S = some r)
    (hk : 100 * ((8 * h + 15) * (u * (4 * (C + r.len)))) < r.len / 2 ^ (h + 1))
    (h0 : h = 0 → ∀ s ∈ S, r.exact.contains s.pos) (hx : h = 0 ∨ ∀ s ∈ S, InTree F.rnd r h s.pos) :
    ∃ T : BalancedFmm (kit F), (∀ fuel ≥ off (2 ^ 2) (h + 1), ∀ sch, Schedule sch →
        Rounded.balancedFmm F.rnd F.rlog F.nrm (kit F) fuel sch t S perCell eps = .ok T) ∧
      T.order = p ∧ T.height = h ∧ ∀ x grav,
        (∀ e, leafIndices F.rnd r h x = .error e →
          Rounded.balancedEval F.rnd (fun a b => F.rnd (a + b)) (fun a => -a) (pot F) grav T x = .error e ∧
          ∀ feps, Rounded.balancedEval F.rnd F.vadd (fun a => -a) (force F feps) grav T x = .error e) ∧
        (InTree F.rnd r h x →
          (∃ v, Rounded.balancedEval F.rnd (fun a b => F.rnd (a + b)) (fun a => -a) (pot F) grav T x = .ok v ∧
            |v - directPotential grav S x| ≤ potBound u r.exact S p h 9 x) ∧
          ∀ feps, 0 ≤ feps → ∃ v, Rounded.balancedEval F.rnd F.vadd (fun a => -a) (force F feps) grav T x = .ok v ∧
            dist2 v (directField grav S x feps) ≤ forceBound u r.exact S p h 9 feps x) := by
  have hu := hF.nonneg
  have hC0 : 0 ≤ C := (abs_nonneg _).trans (hC 0)
  have hu3 := Fl.small_u hL hC0 hu hk
  have hnrm : ∀ v, 999 / 1000 * Vec.norm v ≤ F.nrm v := fun v => by
    have a := (abs_le.mp (hF.nrm v)).1
    have b : 0 ≤ Vec.norm v := Real.sqrt_nonneg _
    nlinarith
  obtain ⟨nb, n1, hT, hmain⟩ := Rel.roundedB_ok (K := kit F) (rlog := F.rlog) le_rfl hF.rnd hu hL hC0 hC hnrm hord hht hbox
    (by omega) hk hx
  have G := geo_of (h := h) hF.rnd hu hL hC0 hC hk
  have hS := bsrcs_of (S := S) hF.rnd hu hL hC0 hC hk h0 hx
  have hX : ∀ π, (fullTree r.exact h).Mem π → ((fullTree r.exact h).xl π).length ≤ 9 := fun π hπ => by
    rw [fullTree_xl hL hπ]; simp
  obtain ⟨s0, s1, -, -, a3, a4⟩ := hmain (laws hF G hT.hc hT.hA hT.hH hS hp0 hp hX) t ht
  refine ⟨_, a3, rfl, rfl, fun x grav => ?_⟩
  obtain ⟨n, g1, g2, -⟩ := bfull_get_path r.exact (π := []) (h := h) (fun _ h => by simp at h) (by simp)
  have hroot : ∃ n', (Rounded.liftM (bxB F.rnd r h) (bfull r.exact h)).get (rootAddr h) = .ok n' ∧ toR n'.box = r := by
    refine ⟨{ n with box := bxB F.rnd r h (baddr 2 h []) }, ?_, ?_⟩
    · have : rootAddr h = baddr 2 h [] := by rw [baddr, gidx, ← glob_root (d := 2)]
      rw [this]
      exact Rounded.liftM_get_ok g1
    · show toR (bxB F.rnd r h (baddr 2 h [])) = r
      rw [bxB_baddr (fun _ h => by simp at h)]; rfl
  obtain ⟨n', m1, m2⟩ := hroot
  refine ⟨fun e he => ?_, fun ⟨idx, hi⟩ => ?_⟩
  · constructor
    · unfold Rounded.balancedEval
      simp only
      rw [m1, ok_bind, m2, he, err_bind]
    · intro feps
      unfold Rounded.balancedEval
      simp only
      rw [m1, ok_bind, m2, he, err_bind]
  have hpl := pathOfGrid_length h idx
  have hpv := pathOfGrid_valid h idx
  have hmem : (fullTree r.exact h).Mem (pathOfGrid h idx) := (fullTree_mem r.exact h _).mpr ⟨hpv, hpl.le⟩
  have hlf : (fullTree r.exact h).leaf (pathOfGrid h idx) = true := by simp [fullTree, hpl]
  have hxw := within_indices hF.rnd hu hL hC0 hC hk hi (List.suffix_refl _)
  have hperm := PTree.slots_perm (hT.hA.laws hT.hr) (fun π hπ => Nat.lt_succ_of_le (hT.hH π hπ)) hT.hc
    (fun s : Source 2 => bshadow F.rnd r h s.pos) r.exact S hmem hlf
  have hne := bother_leaf (S := S) hL hi
  have hmor : getMortonIndex h idx = .ok (pathIndex 2 (pathOfGrid h idx)) := by
    have := getMortonIndex_grid (d := 2) (by norm_num) (pathOfGrid h idx) hpv (by rw [hpl]; omega)
    rwa [hpl, grid_pathOfGrid h idx fun j => (leafIndices_inv hi j).1] at this
  have hmW : (((fullTree r.exact h).nbhAfter ((fullTree r.exact h).order (h + 1))).W (pathOfGrid h idx)).length ≤ 9 := by
    rw [fullTree_W hL]; simp
  have hmU : (((fullTree r.exact h).nbhAfter ((fullTree r.exact h).order (h + 1))).near (pathOfGrid h idx)).length ≤ 9 := by
    rw [fullTree_near hL hmem]
    exact own_card hL hmem
  constructor
  · obtain ⟨v, v1, v2⟩ := evalPot hF G hT hS hp0 hp hX a4 hmem hlf hmW hmU hperm hxw hne grav
    refine ⟨v, ?_, v2⟩
    rw [baddr_leaf hpl] at v1
    unfold Rounded.balancedEval
    simp only
    rw [m1, ok_bind, m2, hi, ok_bind, hmor, ok_bind]
    exact v1
  · intro feps hfe
    obtain ⟨v, v1, v2⟩ := evalForce hF G hT hS hp0 hp hX a4 hmem hlf hmW hmU hperm hxw hne grav hfe
    refine ⟨v, ?_, v2⟩
    rw [baddr_leaf hpl] at v1
    unfold Rounded.balancedEval
    simp only
    rw [m1, ok_bind, m2, hi, ok_bind, hmor, ok_bind]
    exact v1

end FMM.Fl
