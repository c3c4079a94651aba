import Verif.HighEval3
import Verif.LowTree3

/-!
# The adaptive tree in space with `double`s does not overflow
-/

namespace FMM.Hi3
open FMM D64 Rounded Fl3
variable {F : Flt3} {L : Lib} {u g η ρ₀ θ τ ν C : ℝ} {r : RBox ℝ 3} {S : List (Source 3)} {p h m max fuel t α κ : ℕ}

/-- Coordinates in the tree are moderate. -/
theorem root_le (hsc : Scale3 u η θ τ ν p) (hft : Fit3 θ p t α (7 * p + 3)) (hsp : Lo3.Span θ r.exact h) (hu : u = 1 / 2 ^ 49) (hL : 0 < r.len)
    (hC0 : 0 ≤ C) (hC : ∀ i, |r.center i| ≤ C) (hk : 100 * ((8 * h + 15) * (u * (4 * (C + r.len)))) < r.len / 2 ^ (h + 1)) {v : Vec 3}
    (hv : ∀ j, |v j - r.center j| ≤ r.len) (j : Fin 3) : |v j| ≤ 2 ^ (250 : ℤ) := by
  have h1 : r.len ≤ 2 ^ 190 := by
    have a := hsp.hi
    rw [show r.exact.len = r.len from rfl, le_inv_comm₀ hsc.th0 (by linarith)] at a
    have b : θ⁻¹ ≤ 2 ^ t := by
      rw [inv_le_iff_one_le_mul₀ hsc.th0, mul_comm]
      exact hft.th
    have c : (2 : ℝ) ^ t ≤ 2 ^ 190 := pow_le_pow_right₀ (by norm_num) hft.small
    linarith
  have h4 : r.len / 2 ^ (h + 1) ≤ r.len := div_le_self hL.le (one_le_pow₀ (by norm_num))
  have h5 : C ≤ 2 ^ 49 * r.len := by
    have h6 : 6000 * (u * (C + r.len)) ≤ 100 * ((8 * h + 15) * (u * (4 * (C + r.len)))) := by
      have : 0 ≤ u * (C + r.len) := mul_nonneg (by rw [hu]; positivity) (by linarith)
      nlinarith [Nat.cast_nonneg (α := ℝ) h]
    have h7 := h6.trans hk.le
    rw [hu] at h7
    linarith
  have h6 : |v j| ≤ |r.center j| + |v j - r.center j| := by
    have := abs_add_le (r.center j) (v j - r.center j)
    rwa [add_sub_cancel] at this
  have h7 : (2 : ℝ) ^ (250 : ℤ) = 2 ^ 190 * 2 ^ 60 := by norm_num
  rw [h7]
  have := hC j
  have := hv j
  linarith

theorem fact_le : ∀ p ≤ 42, (2 * p).factorial ≤ 2 ^ (2 * (5 * p + 1)) := by decide +kernel

theorem sqrt_fact_le (hp : p ≤ 42) : Real.sqrt ((2 * p).factorial) ≤ 2 ^ (5 * p + 1) := by
  rw [Real.sqrt_le_left (by positivity), ← pow_mul, mul_comm (5 * p + 1) 2]
  exact_mod_cast fact_le p hp

/-- **The adaptive tree with `double`s.** -/
theorem adaptive_hi (h64 : Is64 F) (hF : F.Low u g η ρ₀) (hLF : LibOf L F) (hY : YFin L) (hu : u = 1 / 2 ^ 49) (hsc : Scale3 u η θ τ ν p)
    (hft : Fit3 θ p t α (7 * p + 3)) (hsp : Lo3.Span θ r.exact h) (hκ : Cost u g p κ) (hL : 0 < r.len) (hC : ∀ i, |r.center i| ≤ C) {eps : ℝ}
    (hord : Rounded.expansionOrder F.rnd F.rlog (Rounded.totalStrength F.rnd S) eps = .ok p) (hp0 : 0 < p) (hp : p ≤ 42)
    (hbox : sourceBox F.rnd S = some r) (hin : ∀ s ∈ S, r.exact.contains s.pos) {st : BuildState 3 (Source 3)} {nb : Nbh}
    (hb : Rounded.adaptiveLists F.rnd F.nrm3 fuel Source.pos r S max = .ok (st, h, nb))
    (hk : 100 * ((8 * h + 15) * (u * (4 * (C + r.len)))) < r.len / 2 ^ (h + 1)) (hm : Fl.ListsLe st.heap nb m)
    (hq : ∀ s ∈ S, Flr τ |s.q|) (hA : FMM.totalStrength S ≤ 2 ^ α) (hn : evalCount κ S.length h m ≤ 2 ^ 48) :
    ∃ T : AdaptiveFmm (kit64 L), (∀ sch, Schedule sch → Rounded.adaptiveFmm F.rnd F.rlog F.nrm3 (kit64 L) fuel sch () S max eps = .ok T) ∧
      ∀ x, ∃ lf, (∀ f > h, Rounded.getContainingLeaf F.rnd f T.heap x = .ok lf) ∧
        ∀ l, lf = some l → (∀ s ∈ S, s.pos = x ∨ θ ≤ dist2 s.pos x) → ∀ f > h, ∀ grav cur,
          ∃ y, Rounded.adaptiveEval F.rnd D64.add D64.neg (pot64 L) f grav T cur x = .ok (.fin y) := by
  have hu0 := hF.nonneg
  have hC0 : 0 ≤ C := (abs_nonneg _).trans (hC 0)
  have hu3 := Fl.small_u hL hC0 hu0 hk
  have hlen' : θ ≤ r.len / 2 ^ h := hsp.side hL le_rfl
  have hη1 : η ≤ 4 * (C + r.len) := by
    have h1 := hsc.le hlen'
    have h2 : r.len / 2 ^ h ≤ r.len := div_le_self hL.le (one_le_pow₀ (by norm_num))
    linarith
  have H := hF.toLow.rndOn hη1
  have hnrm : ∀ v, r.len / 2 ^ h ≤ Vec.norm v → 999 / 1000 * Vec.norm v ≤ F.nrm3 v := fun v hv => by
    have b : η ≤ Vec.norm v := hsc.le (hlen'.trans hv)
    have a := hF.nrm3 v
    rw [max_eq_left b] at a
    have a := (abs_le.mp a).1
    nlinarith [hsc.eta]
  obtain ⟨stE, fuel', n, hn', hE, hheap, hmain⟩ := Rel.rounded_on (K := kit64 L) (rlog := F.rlog) hu0 hL hC0 H hC hnrm hord hbox hb hk
  obtain ⟨-, q1, q2, q3⟩ := lists_result (Or.inl hL) hE
  have hT := Rel.adaptive_treeR (bxR F.rnd r) hL hE
  rw [← hheap] at hT
  have G := geo_on (h := h) hu0 hL hC0 H hC hk
  have hS := srcs_on (S := S) hu0 hL hC0 H hC hk hin hn' hT.hH
  have hmod : ∀ {v : Vec 3}, (∀ j, |v j - r.center j| ≤ r.len) → Mod v := fun hv j =>
    (root_le hsc hft hsp hu hL hC0 hC hk hv j).trans (two_pow_mono (by norm_num))
  have hX : ∀ π, (fmmTree (fun s => shadow F.rnd r n s.pos) r.exact S max).Mem π →
      ((fmmTree (fun s => shadow F.rnd r n s.pos) r.exact S max).xl π).length ≤ m := fun π hπ => by
    have := hm.1 π (by rw [hheap, isNode_lift, q1, isNode_treeHeap]; exact hπ)
    rw [q3, PTree.nbh_X q2 hπ] at this
    exact this
  have hroot : ∀ s ∈ S, ∀ j, |s.pos j - r.center j| ≤ r.len := fun s hs => by
    have hs' := hS.within [] PTree.mem_nil s (by rw [itemsAt_shadow hL _ _ _ _ (Nat.zero_le _)]; exact List.mem_filter.mpr ⟨hs, by simp [Rounded.route]⟩)
    exact hs'.root hL
  obtain ⟨tt, -, -, htt, -, -⟩ := new_cov3 hp (Stat3.init 0 0 0) 0 (Stat3.good_init 0 0 0)
  have X : Setup F L u g η ρ₀ θ τ ν p t α (5 * p + 1) κ (fmmTree (fun s => shadow F.rnd r n s.pos) r.exact S max) r.exact (fun π => (bxR F.rnd r π).center) h
      S.length m (itemsAt (fun s => shadow F.rnd r n s.pos) r.exact S) (adaptiveShape st.heap nb) id S tt :=
    { h64 := h64, hF := hF, hLF := hLF, hY := hY, hu := hu, hsc := hsc, hG := sqrt_fact_le hp, hG' := by omega
      ht := by rw [show 5 * p + 1 + 2 * p + 2 = 7 * p + 3 by ring]; exact hft
      hsp := hsp, hκ := hκ, hgeo := G, hT := hT, hS := hS, hp0 := hp0, hp := hp, hX := hX
      hcen := fun π hπ => hmod fun j => G.root (hT.hH π hπ) j
      hsub := fun π hπ => by
        rw [itemsAt_shadow hL _ _ _ _ ((hT.hH π hπ).trans hn')]
        exact List.filter_sublist
      hpos := fun s hs => hmod (hroot s hs)
      hq := hq, hA := hA, hn := hn
      hN := le_trans (by unfold evalCount; omega) hn
      hperm := fun R hR hl => PTree.slots_perm (hT.hA.laws hT.hr) q2 hT.hc (fun s : Source 3 => shadow F.rnd r n s.pos) r.exact S hR hl
      htt := htt.1, hcov := htt.2 }
  obtain ⟨s0, s1, -, -, a3, a4⟩ := hmain X.laws () trivial
  refine ⟨_, a3, fun x => ?_⟩
  obtain ⟨k, k1, k2, k3, k4⟩ := Fl.lookup (rnd := F.rnd) (it := itemsAt (fun s => shadow F.rnd r n s.pos) r.exact S) hL hT.hc hT.hH x
  have k4' : ∀ f > h, Rounded.getContainingLeaf F.rnd f st.heap x = .ok (if (Rounded.boxAt F.rnd r (Rounded.route F.rnd r x k)).contains F.rnd x
      then some (Rounded.route F.rnd r x k) else none) := fun f hf => by
    rw [hheap, q1]; exact k4 f hf
  refine ⟨_, k4', fun l hl hd f hf grav cur => ?_⟩
  have hcon : (Rounded.boxAt F.rnd r (Rounded.route F.rnd r x k)).contains F.rnd x = true := by
    by_contra hno
    rw [if_neg hno] at hl; cases hl
  rw [if_pos hcon] at hl
  cases hl
  have hlen : (Rounded.route F.rnd r x k).length ≤ h := by rw [Rounded.route_length]; exact k1
  have hx := within_contains_on hu0 hL hC0 H hC hk hlen hcon
  have hlf : IsLeafOf st.heap (Rounded.route F.rnd r x k) := by
    rw [hheap, isLeafOf_lift, q1, isLeafOf_treeHeap]; exact ⟨k2, k3⟩
  have hmW := (hm.2 _ hlf).1
  rw [q3] at hmW
  have hne := Fl.other_leaf (S := S) hL hn' hT.hH k2 k3
  have hcl : ∀ s ∈ S, Lo3.Clear θ x s := fun s hs => (hd s hs).imp_right fun h1 => by
    rw [← len3_eq_dist2] at h1
    exact ⟨h1, hsp.inv hL (hsc.th0.trans_le h1) (len_le_root (r := r.exact) hL (hroot s hs) (hx.root hL))⟩
  obtain ⟨y, v1⟩ := X.evalPot a4 k2 k3 hmW hx (hmod (hx.root hL)) hcl hne grav
  refine ⟨y, ?_⟩
  unfold Rounded.adaptiveEval
  simp only
  rw [k4' f hf, if_pos hcon, ok_bind]
  exact v1

end FMM.Hi3
