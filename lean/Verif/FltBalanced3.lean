import Verif.FltTree3
import Verif.FltBalanced

/-!
# The balanced tree in space, in floating-point arithmetic
-/

namespace FMM.Fl3
open Rounded
open Fl (leafIndices_near_on route_bshadow bother_leaf own_card)

section
variable {rnd : ℝ → ℝ} {r : RBox ℝ 3} {u C : ℝ} {h : ℕ} {S : List (Source 3)}

/-- It is also in the boxes of the ancestors of this leaf. -/
theorem within_indices_on (hu : 0 ≤ u) (hL : 0 < r.len)
    (hC0 : 0 ≤ C) (H : RndOn rnd u (4 * (C + r.len))) (I : RndIx rnd u r.len) (hC : ∀ i, |r.center i| ≤ C) (hk : 100 * ((8 * h + 15) * (u * (4 * (C + r.len)))) < r.len / 2 ^ (h + 1))
    {x : Vec 3} {idx : Fin 3 → ℕ} (hi : leafIndices rnd r h x = .ok idx) {π : Path} (hπ : π <:+ pathOfGrid h idx) :
    Within r.exact h π x := by
  intro j
  have a := leafIndices_near_on hu (Rounded.small_u hu hL hC0 hk) hL hC0 H I hC (small_k hu hL hC0 hk) hi j
  have hs := small_delta hk
  have hd : 0 ≤ u * (4 * (C + r.len)) := by positivity
  obtain ⟨σ, hσ⟩ := hπ
  have hlen : σ.length + π.length = h := by rw [← List.length_append, hσ, pathOfGrid_length]
  have hb := boxAt_append' r.exact σ π
  rw [hσ] at hb
  have hpos := boxAt_len_pos r.exact hL π
  have b := root_near hpos σ j
  rw [← hb] at b
  unfold side at b
  rw [boxAt_len] at b
  have e : r.exact.len / 2 ^ π.length / 2 ^ σ.length = r.len / 2 ^ h := by
    rw [div_div, ← pow_add, add_comm, hlen]; rfl
  rw [e] at b
  have e2 : x j - (FMM.boxAt r.exact π).center j = (x j - (FMM.boxAt r.exact (pathOfGrid h idx)).center j)
      + ((FMM.boxAt r.exact (pathOfGrid h idx)).center j - (FMM.boxAt r.exact π).center j) := by ring
  rw [e2]
  refine (abs_add_le _ _).trans ?_
  have : (0 : ℝ) ≤ h := Nat.cast_nonneg h
  have h9 : 9 * (u * (4 * (C + r.len))) ≤ (8 * h + 15) * (u * (4 * (C + r.len))) := mul_le_mul_of_nonneg_right (by linarith) hd
  change _ ≤ r.exact.len / 2 ^ π.length / 2 + r.len / 2 ^ h / 200
  linarith

theorem within_indices (H : ∀ x, |rnd x - x| ≤ u * |x|) (hu : 0 ≤ u) (hL : 0 < r.len)
    (hC0 : 0 ≤ C) (hC : ∀ i, |r.center i| ≤ C) (hk : 100 * ((8 * h + 15) * (u * (4 * (C + r.len)))) < r.len / 2 ^ (h + 1))
    {x : Vec 3} {idx : Fin 3 → ℕ} (hi : leafIndices rnd r h x = .ok idx) {π : Path} (hπ : π <:+ pathOfGrid h idx) :
    Within r.exact h π x :=
  within_indices_on hu hL hC0 (RndOn.of_rel H hu) (RndIx.of_rel H hu hL) hC hk hi hπ

/-- The sources of the nodes of the computed tree. -/
theorem bsrcs_on (hu : 0 ≤ u) (hL : 0 < r.len)
    (hC0 : 0 ≤ C) (H : RndOn rnd u (4 * (C + r.len))) (I : RndIx rnd u r.len) (hC : ∀ i, |r.center i| ≤ C) (hk : 100 * ((8 * h + 15) * (u * (4 * (C + r.len)))) < r.len / 2 ^ (h + 1))
    (h0 : h = 0 → ∀ s ∈ S, r.exact.contains s.pos) (hx : h = 0 ∨ ∀ s ∈ S, InTree rnd r h s.pos) :
    Srcs (fullTree r.exact h) r.exact h S.length (itemsAt (fun s => bshadow rnd r h s.pos) r.exact S) where
  within := by
    intro π hπ s hs
    have hlen := ((fullTree_mem r.exact h π).mp hπ).2
    obtain ⟨s1, s2⟩ := List.mem_filter.mp hs
    have s2 : FMM.route r.exact (bshadow rnd r h s.pos) π.length = π := by simpa using s2
    by_cases hz : h = 0
    · subst hz
      have : π = [] := List.length_eq_zero_iff.mp (by omega)
      subst this
      intro j
      have a := (Box.contains_iff r.exact s.pos).mp (h0 rfl s s1) j
      have hL' : 0 < r.exact.len := hL
      simp only [FMM.boxAt, List.length_nil, pow_zero, div_one]
      rw [abs_le]
      constructor <;> linarith [a.1, a.2]
    · obtain ⟨idx, hi⟩ := hx.resolve_left hz s s1
      rw [route_bshadow hL hi hlen] at s2
      exact within_indices_on hu hL hC0 H I hC hk hi (s2 ▸ List.drop_suffix _ _)
  len π := List.length_filter_le _ _
  kids π _ _ := itemsAt_kids _ _ _ π

theorem bsrcs_of (H : ∀ x, |rnd x - x| ≤ u * |x|) (hu : 0 ≤ u) (hL : 0 < r.len)
    (hC0 : 0 ≤ C) (hC : ∀ i, |r.center i| ≤ C) (hk : 100 * ((8 * h + 15) * (u * (4 * (C + r.len)))) < r.len / 2 ^ (h + 1))
    (h0 : h = 0 → ∀ s ∈ S, r.exact.contains s.pos) (hx : h = 0 ∨ ∀ s ∈ S, InTree rnd r h s.pos) :
    Srcs (fullTree r.exact h) r.exact h S.length (itemsAt (fun s => bshadow rnd r h s.pos) r.exact S) :=
  bsrcs_on hu hL hC0 (RndOn.of_rel H hu) (RndIx.of_rel H hu hL) hC hk h0 hx

end

variable {F : Flt3} {u g C : ℝ} {r : RBox ℝ 3} {S : List (Source 3)} {perCell h p κ : ℕ}

/-- **The balanced tree in floating point.** -/
theorem balanced_flt (hF : F.Ok u g) (hκ : Cost u g p κ) {t : Stat3} (ht : t.Good) (hL : 0 < r.len) (hC : ∀ i, |r.center i| ≤ C) {eps : ℝ}
    (hord : Rounded.expansionOrder F.rnd F.rlog (Rounded.totalStrength F.rnd S) eps = .ok p) (hp0 : 0 < p) (hp : p ≤ 42)
    (hht : Rounded.balancedHeight F.rnd F.rlog 3 S.length perCell = .ok h) (h10 : h ≤ 10)
    (hbox : sourceBox F.rnd S = some r)
    (hk : 100 * ((8 * h + 15) * (u * (4 * (C + r.len)))) < r.len / 2 ^ (h + 1))
    (h0 : h = 0 → ∀ s ∈ S, r.exact.contains s.pos) (hx : h = 0 ∨ ∀ s ∈ S, InTree F.rnd r h s.pos) :
    ∃ T : BalancedFmm (kit F), (∀ fuel ≥ off (2 ^ 3) (h + 1), ∀ sch, Schedule sch →
        Rounded.balancedFmm F.rnd F.rlog F.nrm3 (kit F) fuel sch t S perCell eps = .ok T) ∧
      T.order = p ∧ T.height = h ∧ ∀ x grav,
        (∀ e, leafIndices F.rnd r h x = .error e →
          Rounded.balancedEval F.rnd (fun a b => F.rnd (a + b)) (fun a => -a) (pot F) grav T x = .error e) ∧
        (InTree F.rnd r h x →
          ∃ v, Rounded.balancedEval F.rnd (fun a b => F.rnd (a + b)) (fun a => -a) (pot F) grav T x = .ok v ∧
            |v - directPotential grav S x| ≤ potBound u κ r.exact S p h 27 x) := by
  have hu := hF.nonneg
  have hC0 : 0 ≤ C := (abs_nonneg _).trans (hC 0)
  have hu3 := Fl.small_u hL hC0 hu hk
  have hnrm : ∀ v, 999 / 1000 * Vec.norm v ≤ F.nrm3 v := fun v => by
    have a := (abs_le.mp (hF.nrm3 v)).1
    have b : 0 ≤ Vec.norm v := Vec.norm_nonneg v
    nlinarith
  obtain ⟨nb, n1, hT, hmain⟩ := Rel.roundedB_ok (K := kit F) (rlog := F.rlog) (by norm_num) hF.rnd hu hL hC0 hC hnrm hord hht hbox
    (by omega) hk hx
  have G := geo_of (h := h) hF.rnd hu hL hC0 hC hk
  have hS := bsrcs_of (S := S) hF.rnd hu hL hC0 hC hk h0 hx
  have hX : ∀ π, (fullTree r.exact h).Mem π → ((fullTree r.exact h).xl π).length ≤ 27 := fun π hπ => by
    rw [fullTree_xl hL hπ]; simp
  obtain ⟨s0, s1, -, -, a3, a4⟩ := hmain (laws hF hκ G hT.hc hT.hA hT.hH hS hp0 hp hX) t ht
  refine ⟨_, a3, rfl, rfl, fun x grav => ?_⟩
  obtain ⟨n, g1, g2, -⟩ := bfull_get_path r.exact (π := []) (h := h) (fun _ h => by simp at h) (by simp)
  have hroot : ∃ n', (Rounded.liftM (bxB F.rnd r h) (bfull r.exact h)).get (rootAddr h) = .ok n' ∧ toR n'.box = r := by
    refine ⟨{ n with box := bxB F.rnd r h (baddr 3 h []) }, ?_, ?_⟩
    · have : rootAddr h = baddr 3 h [] := by rw [baddr, gidx, ← glob_root (d := 3)]
      rw [this]
      exact Rounded.liftM_get_ok g1
    · show toR (bxB F.rnd r h (baddr 3 h [])) = r
      rw [bxB_baddr (fun _ h => by simp at h)]; rfl
  obtain ⟨n', m1, m2⟩ := hroot
  refine ⟨fun e he => ?_, fun ⟨idx, hi⟩ => ?_⟩
  · unfold Rounded.balancedEval
    simp only
    rw [m1, ok_bind, m2, he, err_bind]
  have hpl := pathOfGrid_length h idx
  have hpv := pathOfGrid_valid h idx
  have hmem : (fullTree r.exact h).Mem (pathOfGrid h idx) := (fullTree_mem r.exact h _).mpr ⟨hpv, hpl.le⟩
  have hlf : (fullTree r.exact h).leaf (pathOfGrid h idx) = true := by simp [fullTree, hpl]
  have hxw := within_indices hF.rnd hu hL hC0 hC hk hi (List.suffix_refl _)
  have hperm := PTree.slots_perm (hT.hA.laws hT.hr) (fun π hπ => Nat.lt_succ_of_le (hT.hH π hπ)) hT.hc
    (fun s : Source 3 => bshadow F.rnd r h s.pos) r.exact S hmem hlf
  have hne := bother_leaf (S := S) hL hi
  have hmor : getMortonIndex h idx = .ok (pathIndex 3 (pathOfGrid h idx)) := by
    have := getMortonIndex_grid (d := 3) (by norm_num) (pathOfGrid h idx) hpv (by rw [hpl]; omega)
    rwa [hpl, grid_pathOfGrid h idx fun j => (leafIndices_inv hi j).1] at this
  have hmW : (((fullTree r.exact h).nbhAfter ((fullTree r.exact h).order (h + 1))).W (pathOfGrid h idx)).length ≤ 27 := by
    rw [fullTree_W hL]; simp
  have hmU : (((fullTree r.exact h).nbhAfter ((fullTree r.exact h).order (h + 1))).near (pathOfGrid h idx)).length ≤ 27 := by
    rw [fullTree_near hL hmem]
    exact own_card hL hmem
  obtain ⟨v, v1, v2⟩ := evalPot hF hκ G hT hS hp0 hp hX a4 hmem hlf hmW hmU hperm hxw hne grav
  refine ⟨v, ?_, v2⟩
  rw [baddr_leaf hpl] at v1
  unfold Rounded.balancedEval
  simp only
  rw [m1, ok_bind, m2, hi, ok_bind, hmor, ok_bind]
  exact v1

end FMM.Fl3
