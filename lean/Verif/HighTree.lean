import Verif.HighEval
import Verif.LowTree

/-!
# The two-dimensional solver with `double`s does not overflow
-/

namespace FMM.D2.Hi
open FMM D64 Rounded
variable {F : Flt} {log : DC → DC} {u η ρ₀ θ τ C : ℝ} {r : RBox ℝ 2} {S : List (Source 2)} {p h m max fuel t α : ℕ}

theorem exact_center (r : RBox ℝ 2) : r.exact.center = r.center := rfl
theorem exact_len (r : RBox ℝ 2) : r.exact.len = r.len := rfl

/-- Coordinates in the tree are moderate. -/
theorem root_le (hsc : Scale η ρ₀ θ τ p) (hft : Fit θ p t α) (hsp : Lo.Span θ r.exact h) (hu : u = 1 / 2 ^ 49) (hL : 0 < r.len)
    (hC0 : 0 ≤ C) (hC : ∀ i, |r.center i| ≤ C) (hk : 100 * ((8 * h + 15) * (u * (4 * (C + r.len)))) < r.len / 2 ^ (h + 1)) {v : Vec 2}
    (hv : ∀ j, |v j - r.center j| ≤ r.len) (j : Fin 2) : |v j| ≤ 2 ^ (250 : ℤ) := by
  have h1 := len_up hsc hsp hL
  rw [exact_len] at h1
  have h2 := inv_th hsc hft
  have h3 : (2 : ℝ) ^ t ≤ 2 ^ 190 := pow_le_pow_right₀ (by norm_num) hft.small
  have h4 : r.len / 2 ^ (h + 1) ≤ r.len := div_le_self hL.le (one_le_pow₀ (by norm_num))
  have h5 : C ≤ 2 ^ 49 * r.len := by
    have h6 : 6000 * (u * (C + r.len)) ≤ 100 * ((8 * h + 15) * (u * (4 * (C + r.len)))) := by
      have : 0 ≤ u * (C + r.len) := mul_nonneg (by rw [hu]; positivity) (by linarith)
      nlinarith [Nat.cast_nonneg (α := ℝ) h]
    have h7 := h6.trans hk.le
    rw [hu] at h7
    linarith
  have h6 : |v j| ≤ |r.center j| + |v j - r.center j| := by
    have := abs_add_le (r.center j) (v j - r.center j)
    rwa [add_sub_cancel] at this
  have h7 : (2 : ℝ) ^ (250 : ℤ) = 2 ^ 190 * 2 ^ 60 := by norm_num
  rw [h7]
  have := hC j
  have := hv j
  have : r.len ≤ 2 ^ 190 := by linarith [show (0 : ℝ) < 2 ^ t by positivity]
  linarith

/-- **The adaptive tree with `double`s.** -/
theorem adaptive_hi (h64 : Is64 F) (hF : F.Low u η ρ₀) (hlog : LogIs log F) (hu : u = 1 / 2 ^ 49) (hsc : Scale η ρ₀ θ τ p) (hft : Fit θ p t α)
    (hsp : Lo.Span θ r.exact h) (h5 : θ ≤ 1 / 5) {b : BinomialTable} (ht : b.Good) (hL : 0 < r.len) (hC : ∀ i, |r.center i| ≤ C) {eps : ℝ}
    (hord : Rounded.expansionOrder F.rnd F.rlog (Rounded.totalStrength F.rnd S) eps = .ok p) (hp0 : 0 < p) (hp : p ≤ 1029)
    (hbox : sourceBox F.rnd S = some r) (hin : ∀ s ∈ S, r.exact.contains s.pos) {st : BuildState 2 (Source 2)} {nb : Nbh}
    (hb : Rounded.adaptiveLists F.rnd F.nrm fuel Source.pos r S max = .ok (st, h, nb))
    (hk : 100 * ((8 * h + 15) * (u * (4 * (C + r.len)))) < r.len / 2 ^ (h + 1)) (hm : Fl.ListsLe st.heap nb m)
    (hq : ∀ s ∈ S, Flr τ |s.q|) (hA : FMM.totalStrength S ≤ 2 ^ α) (hn : Fl.evalCount S.length p h m ≤ 2 ^ 48) :
    ∃ T : AdaptiveFmm (kit log), (∀ sch, Schedule sch → Rounded.adaptiveFmm F.rnd F.rlog F.nrm (kit log) fuel sch b S max eps = .ok T) ∧
      ∀ x, ∃ lf, (∀ f > h, Rounded.getContainingLeaf F.rnd f T.heap x = .ok lf) ∧
        ∀ l, lf = some l → (∀ s ∈ S, s.pos = x ∨ θ ≤ dist2 s.pos x) → ∀ f > h, ∀ grav cur,
          (∃ y, Rounded.adaptiveEval F.rnd D64.add D64.neg (pot log) f grav T cur x = .ok (.fin y)) ∧
          ∀ feps, 0 ≤ feps → feps ≤ 1 / θ ^ 2 → feps ≤ 2 ^ (1000 : ℤ) →
            ∃ y : Vec 2, Rounded.adaptiveEval F.rnd vadd vneg (force log feps) f grav T cur x = .ok (fun j => .fin (y j)) := by
  have hu0 := hF.nonneg
  have hC0 : 0 ≤ C := (abs_nonneg _).trans (hC 0)
  have hu3 := Fl.small_u hL hC0 hu0 hk
  have hlen' : θ ≤ r.len / 2 ^ h := hsp.side hL le_rfl
  have hη1 : η ≤ 4 * (C + r.len) := by
    have h1 := hsc.le hlen'
    have h2 : r.len / 2 ^ h ≤ r.len := div_le_self hL.le (one_le_pow₀ (by norm_num))
    linarith
  have H := hF.rndOn hη1
  have hnrm : ∀ v, r.len / 2 ^ h ≤ Vec.norm v → 999 / 1000 * Vec.norm v ≤ F.nrm v := fun v hv => by
    have b : η ≤ Vec.norm v := hsc.le (hlen'.trans hv)
    have a := hF.nrm v
    rw [max_eq_left b] at a
    have a := (abs_le.mp a).1
    nlinarith [hsc.eta]
  obtain ⟨stE, fuel', n, hn', hE, hheap, hmain⟩ := Rel.rounded_on (K := kit log) (rlog := F.rlog) hu0 hL hC0 H hC hnrm hord hbox hb hk
  obtain ⟨-, q1, q2, q3⟩ := lists_result (Or.inl hL) hE
  have hT := Rel.adaptive_treeR (bxR F.rnd r) hL hE
  rw [← hheap] at hT
  have G := Fl.geo_on (h := h) hu0 hL hC0 H hC hk
  have hS := Fl.srcs_on (S := S) hu0 hL hC0 H hC hk hin hn' hT.hH
  have hmod : ∀ {v : Vec 2}, (∀ j, |v j - r.center j| ≤ r.len) → Mod v := fun hv j =>
    (root_le hsc hft hsp hu hL hC0 hC hk hv j).trans (two_pow_mono (by norm_num))
  have hX : ∀ π, (fmmTree (fun s => shadow F.rnd r n s.pos) r.exact S max).Mem π →
      ((fmmTree (fun s => shadow F.rnd r n s.pos) r.exact S max).xl π).length ≤ m := fun π hπ => by
    have := hm.1 π (by rw [hheap, isNode_lift, q1, isNode_treeHeap]; exact hπ)
    rw [q3, PTree.nbh_X q2 hπ] at this
    exact this
  have hroot : ∀ s ∈ S, ∀ j, |s.pos j - r.center j| ≤ r.len := fun s hs => by
    have hs' := hS.within [] PTree.mem_nil s (by rw [itemsAt_shadow hL _ _ _ _ (Nat.zero_le _)]; exact List.mem_filter.mpr ⟨hs, by simp [Rounded.route]⟩)
    exact hs'.root hL
  have X : Setup F log u η ρ₀ θ τ p t α (fmmTree (fun s => shadow F.rnd r n s.pos) r.exact S max) r.exact (fun π => (bxR F.rnd r π).center) h
      S.length m (itemsAt (fun s => shadow F.rnd r n s.pos) r.exact S) (adaptiveShape st.heap nb) id S :=
    { h64 := h64, hF := hF, hlog := hlog, hu := hu, hsc := hsc, ht := hft, hsp := hsp, h5 := h5, G := G, hT := hT, hS := hS, hp0 := hp0, hp := hp, hX := hX
      hcen := fun π hπ => hmod fun j => G.root (hT.hH π hπ) j
      hsub := fun π hπ => by
        rw [itemsAt_shadow hL _ _ _ _ ((hT.hH π hπ).trans hn')]
        exact List.filter_sublist
      hpos := fun s hs => hmod (hroot s hs)
      hq := hq, hA := hA, hn := hn
      hN := le_trans (by unfold Fl.evalCount; omega) hn
      hperm := fun R hR hl => PTree.slots_perm (hT.hA.laws hT.hr) q2 hT.hc (fun s : Source 2 => shadow F.rnd r n s.pos) r.exact S hR hl }
  obtain ⟨s0, s1, -, -, a3, a4⟩ := hmain X.laws b ht
  refine ⟨_, a3, fun x => ?_⟩
  obtain ⟨k, k1, k2, k3, k4⟩ := Fl.lookup (rnd := F.rnd) (it := itemsAt (fun s => shadow F.rnd r n s.pos) r.exact S) hL hT.hc hT.hH x
  have k4' : ∀ f > h, Rounded.getContainingLeaf F.rnd f st.heap x = .ok (if (Rounded.boxAt F.rnd r (Rounded.route F.rnd r x k)).contains F.rnd x
      then some (Rounded.route F.rnd r x k) else none) := fun f hf => by
    rw [hheap, q1]; exact k4 f hf
  refine ⟨_, k4', fun l hl hd f hf grav cur => ?_⟩
  have hcon : (Rounded.boxAt F.rnd r (Rounded.route F.rnd r x k)).contains F.rnd x = true := by
    by_contra hno
    rw [if_neg hno] at hl; cases hl
  rw [if_pos hcon] at hl
  cases hl
  have hlen : (Rounded.route F.rnd r x k).length ≤ h := by rw [Rounded.route_length]; exact k1
  have hx := Fl.within_contains_on hu0 hL hC0 H hC hk hlen hcon
  have hlf : IsLeafOf st.heap (Rounded.route F.rnd r x k) := by
    rw [hheap, isLeafOf_lift, q1, isLeafOf_treeHeap]; exact ⟨k2, k3⟩
  have hmW := (hm.2 _ hlf).1
  rw [q3] at hmW
  have hne := Fl.other_leaf (S := S) hL hn' hT.hH k2 k3
  have hcl : ∀ s ∈ S, Lo.Clear θ x s := fun s hs => (hd s hs).imp_right fun h1 => ⟨h1, by
    rw [← norm_toC_sub]
    exact (Fl.norm_le_root (r := r.exact) hL (hroot s hs) (hx.root hL)).trans (two_up hsc hsp hL)⟩
  have hxm : Mod x := hmod (hx.root hL)
  constructor
  · obtain ⟨y, v1⟩ := X.evalPot a4 k2 k3 hmW hx hxm hcl hne grav
    refine ⟨y, ?_⟩
    unfold Rounded.adaptiveEval
    simp only
    rw [k4' f hf, if_pos hcon, ok_bind]
    exact v1
  · intro feps hfe hfe' hfe2
    obtain ⟨y, v1⟩ := X.evalForce a4 k2 k3 hmW hx hxm hcl hne grav hfe hfe' (by rwa [abs_of_nonneg hfe])
    refine ⟨y, ?_⟩
    unfold Rounded.adaptiveEval
    simp only
    rw [k4' f hf, if_pos hcon, ok_bind]
    exact v1

end FMM.D2.Hi
