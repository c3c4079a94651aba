import Verif.HighForce3
import Verif.HighBalanced3

/-!
# The trees in space with `double`s: forces do not overflow

The statements of `HighEval3.lean`, `HighTree3.lean` and `HighBalanced3.lean` for the force.
-/

namespace FMM.Hi3
open FMM D64 Rounded Fl3 Finset

/-- The square of a distance is above the floor. -/
theorem sq_floor {F : Flt3} {u g η ρ θ τ ν : ℝ} {p : ℕ} (hF : F.Low u g η ρ) (hsc : Scale3 u η θ τ ν p) {a b : Vec 3} (h : Lo3.Far θ (a - b)) :
    η ≤ |F.nrm3 (F.vsub a b) * F.nrm3 (F.vsub a b)| := by
  have a1 := (Lo3.nrm3_ap hF (Lo3.vsub_len hF.toLow a b le_rfl (hsc.le h.1)) le_rfl (hsc.le h.1)).1
  rw [Real.norm_eq_abs] at a1
  have hu := hF.nonneg
  have hu1 := hF.small
  have h0 := hsc.th0
  have h2 : (1 + u) ^ 2 - 1 ≤ 1 / 4 := by nlinarith
  have h3 : 3 / 4 * len3 (a - b) ≤ F.nrm3 (F.vsub a b) := by
    have := (abs_le.mp a1).1
    have h4 := mul_le_mul_of_nonneg_right h2 (len3_nonneg (a - b))
    linarith
  have h5 : 3 / 4 * θ ≤ F.nrm3 (F.vsub a b) := by linarith [h.1]
  have h6 : 2 * η ≤ θ * θ := by
    have hν : ν ≤ 1 / 2 := hsc.nu_le.trans (hsc.u1.trans (by norm_num))
    have k1 := hsc.fl1 (i := 1) (k := 2) (by omega) (by omega)
    have k2 : τ * ν ^ 1 * θ ^ 2 ≤ 1 * (1 / 2) * θ ^ 2 := by
      rw [pow_one]
      exact mul_le_mul_of_nonneg_right (mul_le_mul hsc.tau1 hν hsc.nu0 (by norm_num)) (by positivity)
    nlinarith
  have h7 : 3 / 4 * θ * (3 / 4 * θ) ≤ F.nrm3 (F.vsub a b) * F.nrm3 (F.vsub a b) := mul_le_mul h5 h5 (by positivity) (by linarith [mul_pos (by norm_num : (0 : ℝ) < 3 / 4) h0])
  refine le_trans ?_ (le_abs_self _)
  nlinarith [hsc.eta]

section
variable {F : Flt3} {L : Lib} {u g η ρ θ τ ν : ℝ} {p t α G κ κf k : ℕ}

section
variable {A : Type} [DecidableEq A] {T : PTree} {r : Box 3} {cen : Path → Vec 3} {h M m : ℕ} {src : Path → List (Source 3)}
  {sh : Shape 3 A} {addr : Path → A} {items : List (Source 3)}

namespace Setup
variable {G₀ : ℕ} {tt : Stat3} (X : Setup F L u g η ρ θ τ ν p t α G₀ κ T r cen h M m src sh addr items tt)
include X

/-- **The force at a point of a leaf is finite.** -/
theorem evalForce (hD : F.LowD u g η ρ) (hYD : YDFin L) {sl : ℝ} (hf : FrameCost u g sl p κf) (hk : 1 ≤ sl * 2 ^ k) (hk' : k ≤ 21)
    (hG₀ : 5 * p + 1 ≤ G₀) {feps : ℝ} (he : 0 ≤ feps) (he' : feps ≤ 1 / θ ^ 3) (heps : |feps| ≤ 2 ^ (906 : ℤ)) {s : Exps (kit64 L) A} (hs : Rel.Done X.laws addr s) {R : Path} (hR : T.Mem R) (hl : T.leaf R = true)
    (hmW : ((T.nbhAfter (T.order (h + 1))).W R).length ≤ m) {x : Vec 3} (hx : Within r h R x) (hxm : Mod x)
    (hoff : Fl3.Clear sl (cen R) x) (hη : 2 * η ≤ len3 (x - cen R))
    (hoffW : ∀ ρ ∈ (T.nbhAfter (T.order (h + 1))).W R, Fl3.Clear sl (cen ρ) x) (hcl : ∀ s ∈ items, Lo3.Clear θ x s) (hne : ∀ ρ, T.Mem ρ → T.leaf ρ = true → ρ ≠ R → ∀ s ∈ src ρ, s.pos ≠ x) (grav : Bool) :
    ∃ w : Vec 3, Rounded.evalLeaf D64.vadd D64.vneg (force64 L feps) sh grav s (addr R) x = .ok (fun j => .fin (w j)) := by
  have hL := X.hT.hA.laws X.hT.hr
  have hh : ∀ π, T.Mem π → π.length < h + 1 := fun π hπ => Nat.lt_succ_of_le (X.hT.hH π hπ)
  have hRh := X.hT.hH R hR
  have hxR := X.hgeo.within hRh hx
  obtain ⟨n1, n2, n3, n4, n5, n6⟩ := X.ht.nums
  have hG0 : (0 : ℤ) ≤ ((G₀ + 2 * p + 2 : ℕ) : ℤ) := by positivity
  have hp1 : (0 : ℤ) ≤ p := by positivity
  have ht0 : (0 : ℤ) ≤ t := by positivity
  have hα0 : (0 : ℤ) ≤ α := by positivity
  have hGG : (7 * p + 3 : ℤ) ≤ ((G₀ + 2 * p + 2 : ℕ) : ℤ) := by push_cast; omega
  have hp01 : (1 : ℤ) ≤ p := by exact_mod_cast X.hp0
  have hkz : (k : ℤ) ≤ 21 := by exact_mod_cast hk'
  have htp : 1 * (t + 1 : ℤ) ≤ p * (t + 1) := mul_le_mul_of_nonneg_right hp01 (by positivity)
  have hsm : (t : ℤ) ≤ 190 := by exact_mod_cast X.ht.small
  obtain ⟨v, v1, v2⟩ := D2.Hi.evalLeaf_inv (fun n v => n ≤ 2 ^ 50 → ∀ j, N n (topE p t α (G₀ + 2 * p + 2) + 20) (v j)) D64.vadd D64.vneg
    (fun i k a b ha hb hik j => (ha (by omega) j).add (hb (by omega) j) hik (by linarith) (by linarith)) (force64 L feps) X.hT hR hl x grav (s := s) (n := 1) (cW := fun _ => 1)
    (cU := fun ρ => (src ρ).length)
    (by
      obtain ⟨e, l1, f, l2, l3, l4⟩ := hs.le R hR
      refine ⟨e, _, l1, rfl, fun _ j => ?_⟩
      rw [l3.order, l3.center]
      have hlev := (X.lv _ hRh).2.2
      exact leForce_fin (k := k) (a := α + t + 8) (T := (t : ℤ) + 1) (K := K r R.length) X.hp (by linarith) (by positivity) l4
        (dist_up X.hF X.hsc X.h64 X.hLF hxm (X.hcen R hR) (X.hsp.rad X.hgeo.hr hRh) hxR (X.lv _ hRh).1)
        (dirOk hD X.h64 X.hLF hYD X.hu hf hk X.hp hxm (X.hcen R hR) hoff hη) (by linarith) (by linarith) hk' (by linarith) (by linarith) j)
    (by
      intro ν hν
      obtain ⟨w1, w2, w3, w4⟩ := Fl.W_geo X.hT.hA X.hT.hr X.hT.hH hν
      obtain ⟨e, m1, f, m2, m3, m4⟩ := hs.me ν w1 w2
      have hνh := X.hT.hH ν w1
      have a := X.hgeo.sep_point hνh w3 w4 hx
      have hd0 := side_pos X.hgeo.hr ν.length
      have hfar := X.hsp.far X.hgeo.hr hνh (by norm_num) a (len_le_root X.hgeo.hr (hx.root X.hgeo.hr) fun j => X.hgeo.root hνh j)
      obtain ⟨g1, g2, -⟩ := geo_fin X.h64 X.hLF hxm (X.hcen ν w1)
      obtain ⟨y, y1, y2, y3⟩ := dist_inv X.hF X.hsc X.h64 X.hLF hxm (X.hcen ν w1) hfar (R := rad r ν.length) (by unfold rad; linarith) (X.lv _ hνh).2.1
      have ey : y = F.nrm3 (F.vsub x (cen ν)) := by rw [y1] at g1; injection g1
      have y4 : |y| ≤ 2 ^ (302 : ℤ) := by rw [ey]; exact g2
      have y5 : η ≤ |y * y| := by rw [ey]; exact sq_floor X.hF X.hsc hfar
      refine ⟨e, _, m1, rfl, fun _ j => ?_⟩
      rw [m3.order, m3.center]
      have hlev := (X.lv _ hνh).2.2
      exact meForce_fin (k := k) X.hF X.h64 (a := α + 1) (T := (t : ℤ) + 1) (K := K r ν.length) X.hp (by linarith) (by positivity) m4 y1 y2 y3
        y4 y5
        (dirOk hD X.h64 X.hLF hYD X.hu hf hk X.hp hxm (X.hcen ν w1) (hoffW ν hν) (Lo3.two_eta X.hsc hfar.1)) (by linarith) (by linarith) hk' (by linarith) (by linarith) j)
    (by
      intro ν hν
      obtain ⟨u1, u2, -⟩ := (PTree.mem_near_leaf hL hh hR hl ν).mp hν
      refine ⟨_, rfl, fun hkk j => ?_⟩
      refine (forcefieldSum_N X.hF X.hsc X.h64 X.hLF X.ht X.hu X.hp0 true (decide (ν = R)) he he' heps hxm (by omega) (S := src ν) (fun s hs => ?_) hkk j).mono le_rfl (by linarith)
      have hs' := (X.hsub ν u1).subset hs
      refine ⟨X.hpos s hs', hcl s hs', X.hq s hs', (strength_le hs').trans X.hA, ?_⟩
      by_cases hρR : ν = R
      · exact Or.inl (by simpa using hρR)
      · exact Or.inr (hne ν u1 u2 hρR s hs))
  have hfin : ∀ j, ∃ y, v j = .fin y := fun j => by
    obtain ⟨y, hy, -⟩ := v2 (X.count hR hl hmW) j
    exact ⟨y, hy⟩
  choose w hw using hfin
  rw [v1]
  cases grav
  · refine ⟨fun j => -w j, congrArg Except.ok (funext fun j => ?_)⟩
    show neg (v j) = _
    rw [hw j]; rfl
  · exact ⟨w, congrArg Except.ok (funext hw)⟩

end Setup
end
end

variable {F : Flt3} {L : Lib} {u g η ρ₀ θ τ ν C : ℝ} {r : RBox ℝ 3} {S : List (Source 3)} {p h m max fuel perCell t α κ κf k₀ : ℕ}

/-- **The adaptive tree with `double`s.** -/
theorem adaptive_hi_force (h64 : Is64 F) (hD : F.LowD u g η ρ₀) (hLF : LibOf L F) (hY : YFin L) (hYD : YDFin L) {sl : ℝ} (hfc : FrameCost u g sl p κf) (hkk : 1 ≤ sl * 2 ^ k₀) (hk21 : k₀ ≤ 21) (hu : u = 1 / 2 ^ 49) (hsc : Scale3 u η θ τ ν p)
    (hft : Fit3 θ p t α (7 * p + 3)) (hsp : Lo3.Span θ r.exact h) (hκ : Cost u g p κ) (hL : 0 < r.len) (hC : ∀ i, |r.center i| ≤ C) {eps : ℝ}
    (hord : Rounded.expansionOrder F.rnd F.rlog (Rounded.totalStrength F.rnd S) eps = .ok p) (hp0 : 0 < p) (hp : p ≤ 42)
    (hbox : sourceBox F.rnd S = some r) (hin : ∀ s ∈ S, r.exact.contains s.pos) {st : BuildState 3 (Source 3)} {nb : Nbh}
    (hb : Rounded.adaptiveLists F.rnd F.nrm3 fuel Source.pos r S max = .ok (st, h, nb))
    (hk : 100 * ((8 * h + 15) * (u * (4 * (C + r.len)))) < r.len / 2 ^ (h + 1)) (hm : Fl.ListsLe st.heap nb m)
    (hq : ∀ s ∈ S, Flr τ |s.q|) (hA : FMM.totalStrength S ≤ 2 ^ α) (hn : evalCount κ S.length h m ≤ 2 ^ 48) :
    ∃ T : AdaptiveFmm (kit64 L), (∀ sch, Schedule sch → Rounded.adaptiveFmm F.rnd F.rlog F.nrm3 (kit64 L) fuel sch () S max eps = .ok T) ∧
      ∀ x, ∃ lf, (∀ f > h, Rounded.getContainingLeaf F.rnd f T.heap x = .ok lf) ∧
        ∀ l, lf = some l → (∀ s ∈ S, s.pos = x ∨ θ ≤ dist2 s.pos x) → Fl3.Clear sl (bxR F.rnd r l).center x → 2 * η ≤ len3 (x - (bxR F.rnd r l).center) →
          (∀ ρ ∈ nb.W l, Fl3.Clear sl (bxR F.rnd r ρ).center x) → ∀ f > h, ∀ grav cur, ∀ feps, 0 ≤ feps → feps ≤ 1 / θ ^ 3 → |feps| ≤ 2 ^ (906 : ℤ) →
          ∃ w : Vec 3, Rounded.adaptiveEval F.rnd D64.vadd D64.vneg (force64 L feps) f grav T cur x = .ok (fun j => .fin (w j)) := by
  have hF := hD.toLow3
  have hu0 := hF.nonneg
  have hC0 : 0 ≤ C := (abs_nonneg _).trans (hC 0)
  have hu3 := Fl.small_u hL hC0 hu0 hk
  have hlen' : θ ≤ r.len / 2 ^ h := hsp.side hL le_rfl
  have hη1 : η ≤ 4 * (C + r.len) := by
    have h1 := hsc.le hlen'
    have h2 : r.len / 2 ^ h ≤ r.len := div_le_self hL.le (one_le_pow₀ (by norm_num))
    linarith
  have H := hF.toLow.rndOn hη1
  have hnrm : ∀ v, r.len / 2 ^ h ≤ Vec.norm v → 999 / 1000 * Vec.norm v ≤ F.nrm3 v := fun v hv => by
    have b : η ≤ Vec.norm v := hsc.le (hlen'.trans hv)
    have a := hF.nrm3 v
    rw [max_eq_left b] at a
    have a := (abs_le.mp a).1
    nlinarith [hsc.eta]
  obtain ⟨stE, fuel', n, hn', hE, hheap, hmain⟩ := Rel.rounded_on (K := kit64 L) (rlog := F.rlog) hu0 hL hC0 H hC hnrm hord hbox hb hk
  obtain ⟨-, q1, q2, q3⟩ := lists_result (Or.inl hL) hE
  have hT := Rel.adaptive_treeR (bxR F.rnd r) hL hE
  rw [← hheap] at hT
  have G := geo_on (h := h) hu0 hL hC0 H hC hk
  have hS := srcs_on (S := S) hu0 hL hC0 H hC hk hin hn' hT.hH
  have hmod : ∀ {v : Vec 3}, (∀ j, |v j - r.center j| ≤ r.len) → Mod v := fun hv j =>
    (root_le hsc hft hsp hu hL hC0 hC hk hv j).trans (two_pow_mono (by norm_num))
  have hX : ∀ π, (fmmTree (fun s => shadow F.rnd r n s.pos) r.exact S max).Mem π →
      ((fmmTree (fun s => shadow F.rnd r n s.pos) r.exact S max).xl π).length ≤ m := fun π hπ => by
    have := hm.1 π (by rw [hheap, isNode_lift, q1, isNode_treeHeap]; exact hπ)
    rw [q3, PTree.nbh_X q2 hπ] at this
    exact this
  have hroot : ∀ s ∈ S, ∀ j, |s.pos j - r.center j| ≤ r.len := fun s hs => by
    have hs' := hS.within [] PTree.mem_nil s (by rw [itemsAt_shadow hL _ _ _ _ (Nat.zero_le _)]; exact List.mem_filter.mpr ⟨hs, by simp [Rounded.route]⟩)
    exact hs'.root hL
  obtain ⟨tt, -, -, htt, -, -⟩ := new_cov3 hp (Stat3.init 0 0 0) 0 (Stat3.good_init 0 0 0)
  have X : Setup F L u g η ρ₀ θ τ ν p t α (5 * p + 1) κ (fmmTree (fun s => shadow F.rnd r n s.pos) r.exact S max) r.exact (fun π => (bxR F.rnd r π).center) h
      S.length m (itemsAt (fun s => shadow F.rnd r n s.pos) r.exact S) (adaptiveShape st.heap nb) id S tt :=
    { h64 := h64, hF := hF, hLF := hLF, hY := hY, hu := hu, hsc := hsc, hG := sqrt_fact_le hp, hG' := by omega
      ht := by rw [show 5 * p + 1 + 2 * p + 2 = 7 * p + 3 by ring]; exact hft
      hsp := hsp, hκ := hκ, hgeo := G, hT := hT, hS := hS, hp0 := hp0, hp := hp, hX := hX
      hcen := fun π hπ => hmod fun j => G.root (hT.hH π hπ) j
      hsub := fun π hπ => by
        rw [itemsAt_shadow hL _ _ _ _ ((hT.hH π hπ).trans hn')]
        exact List.filter_sublist
      hpos := fun s hs => hmod (hroot s hs)
      hq := hq, hA := hA, hn := hn
      hN := le_trans (by unfold evalCount; omega) hn
      hperm := fun R hR hl => PTree.slots_perm (hT.hA.laws hT.hr) q2 hT.hc (fun s : Source 3 => shadow F.rnd r n s.pos) r.exact S hR hl
      htt := htt.1, hcov := htt.2 }
  obtain ⟨s0, s1, -, -, a3, a4⟩ := hmain X.laws () trivial
  refine ⟨_, a3, fun x => ?_⟩
  obtain ⟨k, k1, k2, k3, k4⟩ := Fl.lookup (rnd := F.rnd) (it := itemsAt (fun s => shadow F.rnd r n s.pos) r.exact S) hL hT.hc hT.hH x
  have k4' : ∀ f > h, Rounded.getContainingLeaf F.rnd f st.heap x = .ok (if (Rounded.boxAt F.rnd r (Rounded.route F.rnd r x k)).contains F.rnd x
      then some (Rounded.route F.rnd r x k) else none) := fun f hf => by
    rw [hheap, q1]; exact k4 f hf
  refine ⟨_, k4', fun l hl hd hoff hη hoffW f hf grav cur feps he he' heps => ?_⟩
  have hcon : (Rounded.boxAt F.rnd r (Rounded.route F.rnd r x k)).contains F.rnd x = true := by
    by_contra hno
    rw [if_neg hno] at hl; cases hl
  rw [if_pos hcon] at hl
  cases hl
  have hlen : (Rounded.route F.rnd r x k).length ≤ h := by rw [Rounded.route_length]; exact k1
  have hx := within_contains_on hu0 hL hC0 H hC hk hlen hcon
  have hlf : IsLeafOf st.heap (Rounded.route F.rnd r x k) := by
    rw [hheap, isLeafOf_lift, q1, isLeafOf_treeHeap]; exact ⟨k2, k3⟩
  have hmW := (hm.2 _ hlf).1
  rw [q3] at hmW
  have hne := Fl.other_leaf (S := S) hL hn' hT.hH k2 k3
  have hcl : ∀ s ∈ S, Lo3.Clear θ x s := fun s hs => (hd s hs).imp_right fun h1 => by
    rw [← len3_eq_dist2] at h1
    exact ⟨h1, hsp.inv hL (hsc.th0.trans_le h1) (len_le_root (r := r.exact) hL (hroot s hs) (hx.root hL))⟩
  rw [q3] at hoffW
  obtain ⟨y, v1⟩ := X.evalForce hD hYD hfc hkk hk21 le_rfl he he' heps a4 k2 k3 hmW hx (hmod (hx.root hL)) hoff hη hoffW hcl hne grav
  refine ⟨y, ?_⟩
  unfold Rounded.adaptiveEval
  simp only
  rw [k4' f hf, if_pos hcon, ok_bind]
  exact v1

/-- **The balanced tree with `double`s.** -/
theorem balanced_hi_force (h64 : Is64 F) (hD : F.LowD u g η ρ₀) (hLF : LibOf L F) (hY : YFin L) (hYD : YDFin L) {sl : ℝ} (hfc : FrameCost u g sl p κf) (hkk : 1 ≤ sl * 2 ^ k₀) (hk21 : k₀ ≤ 21) (hu : u = 1 / 2 ^ 49) (hsc : Scale3 u η θ τ ν p)
    (hft : Fit3 θ p t α (7 * p + 3)) (hsp : Lo3.Span θ r.exact h) (hκ : Cost u g p κ) (hL : 0 < r.len) (hC : ∀ i, |r.center i| ≤ C) {eps : ℝ}
    (hord : Rounded.expansionOrder F.rnd F.rlog (Rounded.totalStrength F.rnd S) eps = .ok p) (hp0 : 0 < p) (hp : p ≤ 42)
    (hht : Rounded.balancedHeight F.rnd F.rlog 3 S.length perCell = .ok h) (h10 : h ≤ 10)
    (hbox : sourceBox F.rnd S = some r)
    (hk : 100 * ((8 * h + 15) * (u * (4 * (C + r.len)))) < r.len / 2 ^ (h + 1))
    (h0 : h = 0 → ∀ s ∈ S, r.exact.contains s.pos) (hx : h = 0 ∨ ∀ s ∈ S, InTree F.rnd r h s.pos)
    (hq : ∀ s ∈ S, Flr τ |s.q|) (hA : FMM.totalStrength S ≤ 2 ^ α) (hn : evalCount κ S.length h 27 ≤ 2 ^ 48) :
    ∃ T : BalancedFmm (kit64 L), (∀ fuel ≥ off (2 ^ 3) (h + 1), ∀ sch, Schedule sch →
        Rounded.balancedFmm F.rnd F.rlog F.nrm3 (kit64 L) fuel sch () S perCell eps = .ok T) ∧
      T.order = p ∧ T.height = h ∧ (∀ s ∈ S, ∀ j, |s.pos j - r.center j| ≤ r.len) ∧ ∀ x grav feps,
        (∀ e, leafIndices F.rnd r h x = .error e →
          Rounded.balancedEval F.rnd D64.vadd D64.vneg (force64 L feps) grav T x = .error e) ∧
        (∀ idx, leafIndices F.rnd r h x = .ok idx → (∀ j, |x j - r.center j| ≤ r.len) ∧ ((∀ s ∈ S, s.pos = x ∨ θ ≤ dist2 s.pos x) →
          Fl3.Clear sl (bxR F.rnd r (pathOfGrid h idx)).center x → 2 * η ≤ len3 (x - (bxR F.rnd r (pathOfGrid h idx)).center) →
          0 ≤ feps → feps ≤ 1 / θ ^ 3 → |feps| ≤ 2 ^ (906 : ℤ) →
          ∃ w : Vec 3, Rounded.balancedEval F.rnd D64.vadd D64.vneg (force64 L feps) grav T x = .ok (fun j => .fin (w j)))) := by
  have hF := hD.toLow3
  have hu0 := hF.nonneg
  have hC0 : 0 ≤ C := (abs_nonneg _).trans (hC 0)
  have hu3 := Fl.small_u hL hC0 hu0 hk
  have A := Lo3.acc_of hF hsc hsp hL hC0 hk
  obtain ⟨nb, n1, hT, hmain⟩ := Rel.roundedB_on (K := kit64 L) (rlog := F.rlog) (by norm_num) hu0 hL hC0 A.on A.ix hC A.nrm hord hht hbox
    (by omega) hk hx
  have G := geo_on (h := h) hu0 hL hC0 A.on hC hk
  have hS := bsrcs_on (S := S) hu0 hL hC0 A.on A.ix hC hk h0 hx
  have hX : ∀ π, (fullTree r.exact h).Mem π → ((fullTree r.exact h).xl π).length ≤ 27 := fun π hπ => by
    rw [fullTree_xl hL hπ]; simp
  have hmod : ∀ {v : Vec 3}, (∀ j, |v j - r.center j| ≤ r.len) → Mod v := fun hv j =>
    (root_le hsc hft hsp hu hL hC0 hC hk hv j).trans (two_pow_mono (by norm_num))
  have hroot : ∀ s ∈ S, ∀ j, |s.pos j - r.center j| ≤ r.len := fun s hs =>
    (hS.within [] PTree.mem_nil s (by rw [itemsAt_nil]; exact hs)).root hL
  obtain ⟨tt, -, -, htt, -, -⟩ := new_cov3 hp (Stat3.init 0 0 0) 0 (Stat3.good_init 0 0 0)
  have X : Setup F L u g η ρ₀ θ τ ν p t α (5 * p + 1) κ (fullTree r.exact h) r.exact (fun π => (bxR F.rnd r π).center) h
      S.length 27 (itemsAt (fun s => bshadow F.rnd r h s.pos) r.exact S) (Rel.bshape F.rnd r S h nb) (baddr 3 h) S tt :=
    { h64 := h64, hF := hF, hLF := hLF, hY := hY, hu := hu, hsc := hsc, hG := sqrt_fact_le hp, hG' := by omega
      ht := by rw [show 5 * p + 1 + 2 * p + 2 = 7 * p + 3 by ring]; exact hft
      hsp := hsp, hκ := hκ, hgeo := G, hT := hT, hS := hS, hp0 := hp0, hp := hp, hX := hX
      hcen := fun π hπ => hmod fun j => G.root (hT.hH π hπ) j
      hsub := fun π _ => List.filter_sublist
      hpos := fun s hs => hmod (hroot s hs)
      hq := hq, hA := hA, hn := hn
      hN := le_trans (by unfold evalCount; omega) hn
      hperm := fun R hR hl => PTree.slots_perm (hT.hA.laws hT.hr) (fun π hπ => Nat.lt_succ_of_le (hT.hH π hπ)) hT.hc
        (fun s : Source 3 => bshadow F.rnd r h s.pos) r.exact S hR hl
      htt := htt.1, hcov := htt.2 }
  obtain ⟨s0, s1, -, -, a3, a4⟩ := hmain X.laws () trivial
  refine ⟨_, a3, rfl, rfl, hroot, fun x grav feps => ?_⟩
  obtain ⟨n', m1, m2⟩ := Lo3.broot F.rnd r h
  refine ⟨fun e he => ?_, fun idx hi => ?_⟩
  · unfold Rounded.balancedEval
    simp only
    rw [m1, ok_bind, m2, he, err_bind]
  have hpl := pathOfGrid_length h idx
  have hpv := pathOfGrid_valid h idx
  have hmem : (fullTree r.exact h).Mem (pathOfGrid h idx) := (fullTree_mem r.exact h _).mpr ⟨hpv, hpl.le⟩
  have hlf : (fullTree r.exact h).leaf (pathOfGrid h idx) = true := by simp [fullTree, hpl]
  have hxw := within_indices_on hu0 hL hC0 A.on A.ix hC hk hi (List.suffix_refl _)
  have hne := Fl.bother_leaf (S := S) hL hi
  have hmor : getMortonIndex h idx = .ok (pathIndex 3 (pathOfGrid h idx)) := by
    have := getMortonIndex_grid (d := 3) (by norm_num) (pathOfGrid h idx) hpv (by rw [hpl]; omega)
    rwa [hpl, grid_pathOfGrid h idx fun j => (leafIndices_inv hi j).1] at this
  have hmW : (((fullTree r.exact h).nbhAfter ((fullTree r.exact h).order (h + 1))).W (pathOfGrid h idx)).length ≤ 27 := by
    rw [fullTree_W hL]; simp
  refine ⟨hxw.root hL, fun hd hoff hη he he' heps => ?_⟩
  have hcl := Lo3.clear_of hsc hsp hL (hxw.root hL) hroot hd
  have hxm : Mod x := hmod (hxw.root hL)
  obtain ⟨y, v1⟩ := X.evalForce hD hYD hfc hkk hk21 le_rfl he he' heps a4 hmem hlf hmW hxw hxm hoff hη
    (fun ρ hρ => by rw [fullTree_W hL] at hρ; simp at hρ) hcl hne grav
  refine ⟨y, ?_⟩
  rw [baddr_leaf hpl] at v1
  unfold Rounded.balancedEval
  simp only
  rw [m1, ok_bind, m2, hi, ok_bind, hmor, ok_bind]
  exact v1

end FMM.Hi3
