import Verif.LowEval
import Verif.FltTree

/-!
# The solver in the plane, with gradual underflow
-/

namespace FMM.Lo
open Rounded Fl
variable {F : Flt} {u η ρ₀ θ τ C : ℝ} {r : RBox ℝ 2} {S : List (Source 2)} {p h m max fuel : ℕ}

theorem _root_.FMM.Flt.Low.rndOn (hF : F.Low u η ρ₀) {B : ℝ} (hB : η ≤ B) : RndOn F.rnd u B := by
  have hu := hF.nonneg
  have hη := hF.eta
  refine ⟨fun x hx => (hF.rnd x).trans ?_, (hF.rnd _).trans ?_⟩
  · have h1 : u / 2 * max |x| η ≤ u / 2 * B := mul_le_mul_of_nonneg_left (max_le hx hB) (by linarith)
    have h2 : 0 ≤ u * B := mul_nonneg hu (hη.trans hB)
    linarith
  · rw [max_eq_left (hF.eta1.trans (by norm_num))]
    have := mul_nonneg hu (abs_nonneg (199 / 100 : ℝ))
    linarith

/-- **The adaptive tree with gradual underflow.** -/
theorem adaptive_low (hF : F.Low u η ρ₀) (hsc : Scale η ρ₀ θ τ p) (hsp : Span θ r.exact h) (h5 : θ ≤ 1 / 5) {t : BinomialTable} (ht : t.Good) (hL : 0 < r.len) (hC : ∀ i, |r.center i| ≤ C) {eps : ℝ}
    (hord : Rounded.expansionOrder F.rnd F.rlog (Rounded.totalStrength F.rnd S) eps = .ok p) (hp0 : 0 < p) (hp : p ≤ 1029)
    (hbox : sourceBox F.rnd S = some r) (hin : ∀ s ∈ S, r.exact.contains s.pos) {st : BuildState 2 (Source 2)} {nb : Nbh}
    (hb : Rounded.adaptiveLists F.rnd F.nrm fuel Source.pos r S max = .ok (st, h, nb))
    (hk : 100 * ((8 * h + 15) * (u * (4 * (C + r.len)))) < r.len / 2 ^ (h + 1)) (hm : ListsLe st.heap nb m)
    (hq : ∀ s ∈ S, Flr τ |s.q|) :
    ∃ T : AdaptiveFmm (kit F), (∀ sch, Schedule sch → Rounded.adaptiveFmm F.rnd F.rlog F.nrm (kit F) fuel sch t S max eps = .ok T) ∧
      T.order = p ∧ T.height = h ∧ T.heap = st.heap ∧ ∀ x, ∃ lf, (∀ f > h, Rounded.getContainingLeaf F.rnd f st.heap x = .ok lf) ∧
        ∀ l, lf = some l → (∀ s ∈ S, s.pos = x ∨ θ ≤ dist2 s.pos x) → ∀ f > h, ∀ grav cur,
          (∃ v, Rounded.adaptiveEval F.rnd (fun a b => F.rnd (a + b)) (fun a => -a) (pot F) f grav T cur x = .ok v ∧
            |v - directPotential grav S x| ≤ potBound u r.exact S p h m x) ∧
          ∀ feps, 0 ≤ feps → feps ≤ 1 / θ ^ 2 → ∃ v, Rounded.adaptiveEval F.rnd F.vadd (fun a => -a) (force F feps) f grav T cur x = .ok v ∧
            dist2 v (directField grav S x feps) ≤ forceBound u r.exact S p h m feps x := by
  have hu := hF.nonneg
  have hC0 : 0 ≤ C := (abs_nonneg _).trans (hC 0)
  have hu3 := small_u hL hC0 hu hk
  have hlen' : θ ≤ r.len / 2 ^ h := hsp.side hL le_rfl
  have hη1 : η ≤ 4 * (C + r.len) := by
    have h1 := hsc.le hlen'
    have h2 : r.len / 2 ^ h ≤ r.len := div_le_self hL.le (one_le_pow₀ (by norm_num))
    linarith
  have H := hF.rndOn hη1
  have hnrm : ∀ v, r.len / 2 ^ h ≤ Vec.norm v → 999 / 1000 * Vec.norm v ≤ F.nrm v := fun v hv => by
    have b : η ≤ Vec.norm v := hsc.le (hlen'.trans hv)
    have a := hF.nrm v
    rw [max_eq_left b] at a
    have a := (abs_le.mp a).1
    nlinarith [hsc.eta]
  obtain ⟨stE, fuel', n, hn, hE, hheap, hmain⟩ := Rel.rounded_on (K := kit F) (rlog := F.rlog) hu hL hC0 H hC hnrm hord hbox hb hk
  obtain ⟨-, q1, q2, q3⟩ := lists_result (Or.inl hL) hE
  have hT := Rel.adaptive_treeR (bxR F.rnd r) hL hE
  rw [← hheap] at hT
  have G := geo_on (h := h) hu hL hC0 H hC hk
  have hS := srcs_on (S := S) hu hL hC0 H hC hk hin hn hT.hH
  have hqn : ∀ π, (fmmTree (fun s => shadow F.rnd r n s.pos) r.exact S max).Mem π →
      ∀ s ∈ itemsAt (fun s => shadow F.rnd r n s.pos) r.exact S π, Flr τ |s.q| := fun π hπ s hs => by
    rw [itemsAt_shadow hL _ _ _ _ ((hT.hH π hπ).trans hn)] at hs
    exact hq s (List.mem_filter.mp hs).1
  have hX : ∀ π, (fmmTree (fun s => shadow F.rnd r n s.pos) r.exact S max).Mem π →
      ((fmmTree (fun s => shadow F.rnd r n s.pos) r.exact S max).xl π).length ≤ m := fun π hπ => by
    have := hm.1 π (by rw [hheap, isNode_lift, q1, isNode_treeHeap]; exact hπ)
    rw [q3, PTree.nbh_X q2 hπ] at this
    exact this
  obtain ⟨s0, s1, -, -, a3, a4⟩ := hmain (laws hF hsc hsp G hT.hc hT.hA hT.hH hS hqn hp0 hp hX) t ht
  refine ⟨_, a3, rfl, rfl, rfl, fun x => ?_⟩
  obtain ⟨k, k1, k2, k3, k4⟩ := lookup (rnd := F.rnd) (it := itemsAt (fun s => shadow F.rnd r n s.pos) r.exact S) hL hT.hc hT.hH x
  have k4' : ∀ f > h, Rounded.getContainingLeaf F.rnd f st.heap x = .ok (if (Rounded.boxAt F.rnd r (Rounded.route F.rnd r x k)).contains F.rnd x
      then some (Rounded.route F.rnd r x k) else none) := fun f hf => by
    rw [hheap, q1]; exact k4 f hf
  refine ⟨_, k4', fun l hl hd f hf grav cur => ?_⟩
  have hcon : (Rounded.boxAt F.rnd r (Rounded.route F.rnd r x k)).contains F.rnd x = true := by
    by_contra hno
    rw [if_neg hno] at hl; cases hl
  rw [if_pos hcon] at hl
  cases hl
  have hlen : (Rounded.route F.rnd r x k).length ≤ h := by rw [Rounded.route_length]; exact k1
  have hx := within_contains_on hu hL hC0 H hC hk hlen hcon
  have hperm := PTree.slots_perm (hT.hA.laws hT.hr) q2 hT.hc (fun s : Source 2 => shadow F.rnd r n s.pos) r.exact S k2 k3
  have hlf : IsLeafOf st.heap (Rounded.route F.rnd r x k) := by
    rw [hheap, isLeafOf_lift, q1, isLeafOf_treeHeap]; exact ⟨k2, k3⟩
  have hmW := (hm.2 _ hlf).1
  have hmU := (hm.2 _ hlf).2
  rw [q3] at hmW hmU
  have hne := other_leaf (S := S) hL hn hT.hH k2 k3
  have hcl : ∀ s ∈ S, Clear θ x s := fun s hs => (hd s hs).imp_right fun h1 => ⟨h1, by
    rw [← norm_toC_sub]
    have hs' := hS.within [] PTree.mem_nil s (by rw [itemsAt_shadow hL _ _ _ _ (Nat.zero_le _)]; exact List.mem_filter.mpr ⟨hs, by simp [Rounded.route]⟩)
    have h2 := norm_le_root (r := r.exact) hL (hs'.root hL) (hx.root hL)
    refine h2.trans ?_
    have h3 := hsp.hi
    have h4 := hsc.th0
    rw [le_inv_comm₀ h4 (by linarith [show 0 < r.exact.len from hL])] at h3
    rw [div_eq_mul_inv]; linarith⟩
  constructor
  · obtain ⟨v, v1, v2⟩ := evalPot hF hsc hsp G hT hS hqn hp0 hp hX a4 k2 k3 hmW hmU hperm hx hcl hq hne grav
    refine ⟨v, ?_, v2⟩
    unfold Rounded.adaptiveEval
    simp only
    rw [k4' f hf, if_pos hcon, ok_bind]
    exact v1
  · intro feps hfe hfe'
    obtain ⟨v, v1, v2⟩ := evalForce hF hsc hsp G hT hS hqn hp0 hp hX a4 k2 k3 hmW hmU hperm hx hcl hq hne grav hfe h5 hfe'
    refine ⟨v, ?_, v2⟩
    unfold Rounded.adaptiveEval
    simp only
    rw [k4' f hf, if_pos hcon, ok_bind]
    exact v1

end FMM.Lo
