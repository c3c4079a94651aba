import Verif.FltEval3
import Verif.FltTree

/-!
# The adaptive tree in space, in floating-point arithmetic
-/

namespace FMM.Fl3
open Rounded
open Fl (small_u lookup other_leaf ListsLe)
variable {F : Flt3} {u g C : ℝ} {max fuel h N p m κ : ℕ}
variable {r : RBox ℝ 3} {S : List (Source 3)}

/-- The sources of the nodes of the computed tree. -/
theorem srcs_on {rnd : ℝ → ℝ} (hu : 0 ≤ u) (hL : 0 < r.len) (hC0 : 0 ≤ C) (H : RndOn rnd u (4 * (C + r.len))) (hC : ∀ i, |r.center i| ≤ C)
    (hk : 100 * ((8 * h + 15) * (u * (4 * (C + r.len)))) < r.len / 2 ^ (h + 1)) (hin : ∀ s ∈ S, r.exact.contains s.pos)
    {n : ℕ} (hn : h ≤ n) {T : PTree} (hH : ∀ π, T.Mem π → π.length ≤ h) :
    Srcs T r.exact h S.length (itemsAt (fun s => shadow rnd r n s.pos) r.exact S) where
  within := by
    intro π hπ s hs
    rw [itemsAt_shadow hL _ _ _ _ ((hH π hπ).trans hn)] at hs
    obtain ⟨h1, h2⟩ := List.mem_filter.mp hs
    have h2 : Rounded.route rnd r s.pos π.length = π := by simpa using h2
    have := within_route_on hu hL hC0 H hC hk (hin s h1) (hH π hπ)
    rwa [h2] at this
  len π := List.length_filter_le _ _
  kids π _ _ := itemsAt_kids _ _ _ π

theorem srcs_of {rnd : ℝ → ℝ} (H : ∀ x, |rnd x - x| ≤ u * |x|) (hu : 0 ≤ u) (hL : 0 < r.len) (hC0 : 0 ≤ C) (hC : ∀ i, |r.center i| ≤ C)
    (hk : 100 * ((8 * h + 15) * (u * (4 * (C + r.len)))) < r.len / 2 ^ (h + 1)) (hin : ∀ s ∈ S, r.exact.contains s.pos)
    {n : ℕ} (hn : h ≤ n) {T : PTree} (hH : ∀ π, T.Mem π → π.length ≤ h) :
    Srcs T r.exact h S.length (itemsAt (fun s => shadow rnd r n s.pos) r.exact S) :=
  srcs_on hu hL hC0 (RndOn.of_rel H hu) hC hk hin hn hH

/-- Bound of the error of the potential. -/
noncomputable def potBound (u : ℝ) (κ : ℕ) (r : Box 3) (S : List (Source 3)) (p h m : ℕ) (x : Vec 3) : ℝ :=
  totalStrength S * tail3 r h p
    + ((1 + u) ^ evalCount κ S.length h m - 1) * (totalStrength S * major3 r h p + absPotential3 S x)

/-- **The adaptive tree in floating point.** -/
theorem adaptive_flt (hF : F.Ok u g) (hκ : Cost u g p κ) {t : Stat3} (ht : t.Good) (hL : 0 < r.len) (hC : ∀ i, |r.center i| ≤ C) {eps : ℝ}
    (hord : Rounded.expansionOrder F.rnd F.rlog (Rounded.totalStrength F.rnd S) eps = .ok p) (hp0 : 0 < p) (hp : p ≤ 42)
    (hbox : sourceBox F.rnd S = some r) (hin : ∀ s ∈ S, r.exact.contains s.pos) {st : BuildState 3 (Source 3)} {nb : Nbh}
    (hb : Rounded.adaptiveLists F.rnd F.nrm3 fuel Source.pos r S max = .ok (st, h, nb))
    (hk : 100 * ((8 * h + 15) * (u * (4 * (C + r.len)))) < r.len / 2 ^ (h + 1)) (hm : ListsLe st.heap nb m) :
    ∃ T : AdaptiveFmm (kit F), (∀ sch, Schedule sch → Rounded.adaptiveFmm F.rnd F.rlog F.nrm3 (kit F) fuel sch t S max eps = .ok T) ∧
      T.order = p ∧ T.height = h ∧ T.heap = st.heap ∧ ∀ x, ∃ lf, (∀ f > h, Rounded.getContainingLeaf F.rnd f st.heap x = .ok lf) ∧
        ∀ l, lf = some l → ∀ f > h, ∀ grav cur,
          ∃ v, Rounded.adaptiveEval F.rnd (fun a b => F.rnd (a + b)) (fun a => -a) (pot F) f grav T cur x = .ok v ∧
            |v - directPotential grav S x| ≤ potBound u κ r.exact S p h m x := by
  have hu := hF.nonneg
  have hC0 : 0 ≤ C := (abs_nonneg _).trans (hC 0)
  have hu3 := small_u hL hC0 hu hk
  have hnrm : ∀ v, 999 / 1000 * Vec.norm v ≤ F.nrm3 v := fun v => by
    have a := (abs_le.mp (hF.nrm3 v)).1
    have b : 0 ≤ Vec.norm v := Vec.norm_nonneg v
    nlinarith
  obtain ⟨stE, fuel', n, hn, hE, hheap, hmain⟩ := Rel.rounded_ok (K := kit F) (rlog := F.rlog) hF.rnd hu hL hC0 hC hnrm hord hbox hb hk
  obtain ⟨-, q1, q2, q3⟩ := lists_result (Or.inl hL) hE
  have hT := Rel.adaptive_treeR (bxR F.rnd r) hL hE
  rw [← hheap] at hT
  have G := geo_of (h := h) hF.rnd hu hL hC0 hC hk
  have hS := srcs_of (S := S) hF.rnd hu hL hC0 hC hk hin hn hT.hH
  have hX : ∀ π, (fmmTree (fun s => shadow F.rnd r n s.pos) r.exact S max).Mem π →
      ((fmmTree (fun s => shadow F.rnd r n s.pos) r.exact S max).xl π).length ≤ m := fun π hπ => by
    have := hm.1 π (by rw [hheap, isNode_lift, q1, isNode_treeHeap]; exact hπ)
    rw [q3, PTree.nbh_X q2 hπ] at this
    exact this
  obtain ⟨s0, s1, -, -, a3, a4⟩ := hmain (laws hF hκ G hT.hc hT.hA hT.hH hS hp0 hp hX) t ht
  refine ⟨_, a3, rfl, rfl, rfl, fun x => ?_⟩
  obtain ⟨k, k1, k2, k3, k4⟩ := lookup (rnd := F.rnd) (it := itemsAt (fun s => shadow F.rnd r n s.pos) r.exact S) hL hT.hc hT.hH x
  have k4' : ∀ f > h, Rounded.getContainingLeaf F.rnd f st.heap x = .ok (if (Rounded.boxAt F.rnd r (Rounded.route F.rnd r x k)).contains F.rnd x
      then some (Rounded.route F.rnd r x k) else none) := fun f hf => by
    rw [hheap, q1]; exact k4 f hf
  refine ⟨_, k4', fun l hl f hf grav cur => ?_⟩
  have hcon : (Rounded.boxAt F.rnd r (Rounded.route F.rnd r x k)).contains F.rnd x = true := by
    by_contra hno
    rw [if_neg hno] at hl; cases hl
  rw [if_pos hcon] at hl
  cases hl
  have hlen : (Rounded.route F.rnd r x k).length ≤ h := by rw [Rounded.route_length]; exact k1
  have hx := within_contains hF.rnd hu hL hC0 hC hk hlen hcon
  have hperm := PTree.slots_perm (hT.hA.laws hT.hr) q2 hT.hc (fun s : Source 3 => shadow F.rnd r n s.pos) r.exact S k2 k3
  have hlf : IsLeafOf st.heap (Rounded.route F.rnd r x k) := by
    rw [hheap, isLeafOf_lift, q1, isLeafOf_treeHeap]; exact ⟨k2, k3⟩
  have hmW := (hm.2 _ hlf).1
  have hmU := (hm.2 _ hlf).2
  rw [q3] at hmW hmU
  have hne := other_leaf (S := S) hL hn hT.hH k2 k3
  obtain ⟨v, v1, v2⟩ := evalPot hF hκ G hT hS hp0 hp hX a4 k2 k3 hmW hmU hperm hx hne grav
  refine ⟨v, ?_, v2⟩
  unfold Rounded.adaptiveEval
  simp only
  rw [k4' f hf, if_pos hcon, ok_bind]
  exact v1

end FMM.Fl3
