import Verif.LowTree3
import Verif.LowBalanced
import Verif.FltBalanced3

/-!
# The balanced tree in space, with gradual underflow
-/

namespace FMM.Lo3
open Rounded Fl3
open Fl (route_bshadow bother_leaf own_card)
variable {F : Flt3} {u g η ρ₀ θ τ ν C : ℝ} {r : RBox ℝ 3} {S : List (Source 3)} {p h κ perCell : ℕ}

/-- Accuracy of the coordinates, of the indices and of the distances between boxes. -/
structure Acc (F : Flt3) (u : ℝ) (C : ℝ) (r : RBox ℝ 3) (h : ℕ) : Prop where
  on : RndOn F.rnd u (4 * (C + r.len))
  ix : RndIx F.rnd u r.len
  nrm : ∀ v, r.len / 2 ^ h ≤ Vec.norm v → 999 / 1000 * Vec.norm v ≤ F.nrm3 v

theorem acc_of (hF : F.Low u g η ρ₀) (hsc : Scale3 u η θ τ ν p) (hsp : Span θ r.exact h) (hL : 0 < r.len) (hC0 : 0 ≤ C)
    (hk : 100 * ((8 * h + 15) * (u * (4 * (C + r.len)))) < r.len / 2 ^ (h + 1)) : Acc F u C r h := by
  have hu := hF.nonneg
  have hu3 := Fl.small_u hL hC0 hu hk
  have hlen' : θ ≤ r.len / 2 ^ h := hsp.side hL le_rfl
  have h2 : r.len / 2 ^ h ≤ r.len := div_le_self hL.le (one_le_pow₀ (by norm_num))
  refine ⟨hF.toLow.rndOn ?_, hF.toLow.rndIx hL (hsc.le (hlen'.trans h2)) (hsc.le ?_), fun v hv => ?_⟩
  · have h1 := hsc.le hlen'
    linarith
  · have h3 : θ ≤ (4 * r.len)⁻¹ := hsp.hi
    refine h3.trans ?_
    rw [inv_eq_one_div]
    exact one_div_le_one_div_of_le hL (by linarith)
  · have b : η ≤ Vec.norm v := hsc.le (hlen'.trans hv)
    have a := hF.nrm3 v
    rw [max_eq_left b] at a
    have a := (abs_le.mp a).1
    nlinarith [hsc.eta]

/-- The root of the balanced tree. -/
theorem broot (rnd : ℝ → ℝ) (r : RBox ℝ 3) (h : ℕ) :
    ∃ n', (Rounded.liftM (bxB rnd r h) (bfull r.exact h)).get (rootAddr h) = .ok n' ∧ toR n'.box = r := by
  obtain ⟨n, g1, g2, -⟩ := bfull_get_path r.exact (π := []) (h := h) (fun _ h => by simp at h) (by simp)
  refine ⟨{ n with box := bxB rnd r h (baddr 3 h []) }, ?_, ?_⟩
  · have : rootAddr h = baddr 3 h [] := by rw [baddr, gidx, ← glob_root (d := 3)]
    rw [this]
    exact Rounded.liftM_get_ok g1
  · show toR (bxB rnd r h (baddr 3 h [])) = r
    rw [bxB_baddr (fun _ h => by simp at h)]; rfl

theorem clear_of (hsc : Scale3 u η θ τ ν p) (hsp : Span θ r.exact h) (hL : 0 < r.len) {x : Vec 3} (hx : ∀ j, |x j - r.center j| ≤ r.len)
    (hroot : ∀ s ∈ S, ∀ j, |s.pos j - r.center j| ≤ r.len) (hd : ∀ s ∈ S, s.pos = x ∨ θ ≤ dist2 s.pos x) : ∀ s ∈ S, Clear θ x s :=
  fun s hs => (hd s hs).imp_right fun h1 => by
    rw [← len3_eq_dist2] at h1
    exact ⟨h1, hsp.inv hL (hsc.th0.trans_le h1) (len_le_root (r := r.exact) hL (hroot s hs) hx)⟩

/-- **The balanced tree with gradual underflow.** -/
theorem balanced_low (hF : F.Low u g η ρ₀) (hsc : Scale3 u η θ τ ν p) (hsp : Span θ r.exact h) (hκ : Cost u g p κ) {t : Stat3} (ht : t.Good) (hL : 0 < r.len) (hC : ∀ i, |r.center i| ≤ C) {eps : ℝ}
    (hord : Rounded.expansionOrder F.rnd F.rlog (Rounded.totalStrength F.rnd S) eps = .ok p) (hp0 : 0 < p) (hp : p ≤ 42)
    (hht : Rounded.balancedHeight F.rnd F.rlog 3 S.length perCell = .ok h) (h10 : h ≤ 10)
    (hbox : sourceBox F.rnd S = some r)
    (hk : 100 * ((8 * h + 15) * (u * (4 * (C + r.len)))) < r.len / 2 ^ (h + 1))
    (h0 : h = 0 → ∀ s ∈ S, r.exact.contains s.pos) (hx : h = 0 ∨ ∀ s ∈ S, InTree F.rnd r h s.pos)
    (hq : ∀ s ∈ S, Flr τ |s.q|) :
    ∃ T : BalancedFmm (kit F), (∀ fuel ≥ off (2 ^ 3) (h + 1), ∀ sch, Schedule sch →
        Rounded.balancedFmm F.rnd F.rlog F.nrm3 (kit F) fuel sch t S perCell eps = .ok T) ∧
      T.order = p ∧ T.height = h ∧ (∃ n, T.mem.get (rootAddr h) = .ok n ∧ toR n.box = r) ∧
      (∀ s ∈ S, ∀ j, |s.pos j - r.center j| ≤ r.len) ∧ ∀ x grav,
        (∀ e, leafIndices F.rnd r h x = .error e →
          Rounded.balancedEval F.rnd (fun a b => F.rnd (a + b)) (fun a => -a) (pot F) grav T x = .error e) ∧
        (InTree F.rnd r h x → (∀ j, |x j - r.center j| ≤ r.len) ∧ ((∀ s ∈ S, s.pos = x ∨ θ ≤ dist2 s.pos x) →
          ∃ v, Rounded.balancedEval F.rnd (fun a b => F.rnd (a + b)) (fun a => -a) (pot F) grav T x = .ok v ∧
            |v - directPotential grav S x| ≤ potBound u κ r.exact S p h 27 x)) := by
  have hu := hF.nonneg
  have hC0 : 0 ≤ C := (abs_nonneg _).trans (hC 0)
  have hu3 := Fl.small_u hL hC0 hu hk
  have A := acc_of hF hsc hsp hL hC0 hk
  obtain ⟨nb, n1, hT, hmain⟩ := Rel.roundedB_on (K := kit F) (rlog := F.rlog) (by norm_num) hu hL hC0 A.on A.ix hC A.nrm hord hht hbox
    (by omega) hk hx
  have G := geo_on (h := h) hu hL hC0 A.on hC hk
  have hS := bsrcs_on (S := S) hu hL hC0 A.on A.ix hC hk h0 hx
  have hX : ∀ π, (fullTree r.exact h).Mem π → ((fullTree r.exact h).xl π).length ≤ 27 := fun π hπ => by
    rw [fullTree_xl hL hπ]; simp
  have hqn : ∀ π, (fullTree r.exact h).Mem π →
      ∀ s ∈ itemsAt (fun s => bshadow F.rnd r h s.pos) r.exact S π, Flr τ |s.q| := fun π hπ s hs => hq s (List.mem_filter.mp hs).1
  obtain ⟨s0, s1, -, -, a3, a4⟩ := hmain (laws hF hsc hsp hκ G hT.hc hT.hA hT.hH hS hqn hp0 hp hX) t ht
  obtain ⟨n', m1, m2⟩ := broot F.rnd r h
  have hroot : ∀ s ∈ S, ∀ j, |s.pos j - r.center j| ≤ r.len := fun s hs =>
    (hS.within [] PTree.mem_nil s (by rw [itemsAt_nil]; exact hs)).root hL
  refine ⟨_, a3, rfl, rfl, ⟨n', m1, m2⟩, hroot, fun x grav => ⟨fun e he => ?_, fun ⟨idx, hi⟩ => ?_⟩⟩
  · unfold Rounded.balancedEval
    simp only
    rw [m1, ok_bind, m2, he, err_bind]
  have hpl := pathOfGrid_length h idx
  have hpv := pathOfGrid_valid h idx
  have hmem : (fullTree r.exact h).Mem (pathOfGrid h idx) := (fullTree_mem r.exact h _).mpr ⟨hpv, hpl.le⟩
  have hlf : (fullTree r.exact h).leaf (pathOfGrid h idx) = true := by simp [fullTree, hpl]
  have hxw := within_indices_on hu hL hC0 A.on A.ix hC hk hi (List.suffix_refl _)
  have hperm := PTree.slots_perm (hT.hA.laws hT.hr) (fun π hπ => Nat.lt_succ_of_le (hT.hH π hπ)) hT.hc
    (fun s : Source 3 => bshadow F.rnd r h s.pos) r.exact S hmem hlf
  have hne := bother_leaf (S := S) hL hi
  have hmor : getMortonIndex h idx = .ok (pathIndex 3 (pathOfGrid h idx)) := by
    have := getMortonIndex_grid (d := 3) (by norm_num) (pathOfGrid h idx) hpv (by rw [hpl]; omega)
    rwa [hpl, grid_pathOfGrid h idx fun j => (leafIndices_inv hi j).1] at this
  have hmW : (((fullTree r.exact h).nbhAfter ((fullTree r.exact h).order (h + 1))).W (pathOfGrid h idx)).length ≤ 27 := by
    rw [fullTree_W hL]; simp
  have hmU : (((fullTree r.exact h).nbhAfter ((fullTree r.exact h).order (h + 1))).near (pathOfGrid h idx)).length ≤ 27 := by
    rw [fullTree_near hL hmem]
    exact own_card hL hmem
  refine ⟨hxw.root hL, fun hd => ?_⟩
  have hcl := clear_of hsc hsp hL (hxw.root hL) hroot hd
  obtain ⟨v, v1, v2⟩ := evalPot hF hsc hsp hκ G hT hS hqn hp0 hp hX a4 hmem hlf hmW hmU hperm hxw hcl hne grav
  refine ⟨v, ?_, v2⟩
  rw [baddr_leaf hpl] at v1
  unfold Rounded.balancedEval
  simp only
  rw [m1, ok_bind, m2, hi, ok_bind, hmor, ok_bind]
  exact v1

end FMM.Lo3
