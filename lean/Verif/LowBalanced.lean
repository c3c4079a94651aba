import Verif.LowTree
import Verif.FltBalanced

/-!
# The balanced tree in the plane, with gradual underflow
-/

namespace FMM.Lo
open Rounded Fl
variable {F : Flt} {u η ρ₀ θ τ C : ℝ} {r : RBox ℝ 2} {S : List (Source 2)} {p h m perCell : ℕ}

theorem _root_.FMM.Flt.Low.rndIx (hF : F.Low u η ρ₀) {L : ℝ} (hL : 0 < L) (h1 : η ≤ L) (h2 : η ≤ 1 / L) : RndIx F.rnd u L := by
  have hu := hF.nonneg
  have key : ∀ {x m : ℝ}, η ≤ m → |F.rnd x - x| ≤ u * max |x| m := fun {x m} hm => by
    refine (hF.rnd x).trans ?_
    have a : max |x| η ≤ max |x| m := max_le_max le_rfl hm
    have b : 0 ≤ max |x| m := (abs_nonneg _).trans (le_max_left _ _)
    have c := mul_le_mul_of_nonneg_left a (by linarith : 0 ≤ u / 2)
    have d := mul_nonneg hu b
    linarith
  refine ⟨?_, fun x => key hF.eta1, fun x => key h1⟩
  have hp : 0 < 1 / L := by positivity
  have := key (x := 1 / L) h2
  rwa [abs_of_pos hp, max_self] at this

/-- Accuracy of the coordinates, of the indices and of the distances between boxes. -/
structure Acc (F : Flt) (u : ℝ) (C : ℝ) (r : RBox ℝ 2) (h : ℕ) : Prop where
  on : RndOn F.rnd u (4 * (C + r.len))
  ix : RndIx F.rnd u r.len
  nrm : ∀ v, r.len / 2 ^ h ≤ Vec.norm v → 999 / 1000 * Vec.norm v ≤ F.nrm v

theorem acc_of (hF : F.Low u η ρ₀) (hsc : Scale η ρ₀ θ τ p) (hsp : Span θ r.exact h) (hL : 0 < r.len) (hC0 : 0 ≤ C)
    (hk : 100 * ((8 * h + 15) * (u * (4 * (C + r.len)))) < r.len / 2 ^ (h + 1)) : Acc F u C r h := by
  have hu := hF.nonneg
  have hu3 := Fl.small_u hL hC0 hu hk
  have hlen' : θ ≤ r.len / 2 ^ h := hsp.side hL le_rfl
  have h2 : r.len / 2 ^ h ≤ r.len := div_le_self hL.le (one_le_pow₀ (by norm_num))
  refine ⟨hF.rndOn ?_, hF.rndIx hL (hsc.le (hlen'.trans h2)) (hsc.le ?_), fun v hv => ?_⟩
  · have h1 := hsc.le hlen'
    linarith
  · have h3 : θ ≤ (2 * r.len)⁻¹ := hsp.hi
    refine h3.trans ?_
    rw [inv_eq_one_div]
    exact one_div_le_one_div_of_le hL (by linarith)
  · have b : η ≤ Vec.norm v := hsc.le (hlen'.trans hv)
    have a := hF.nrm v
    rw [max_eq_left b] at a
    have a := (abs_le.mp a).1
    nlinarith [hsc.eta]

/-- The root of the balanced tree. -/
theorem broot (rnd : ℝ → ℝ) (r : RBox ℝ 2) (h : ℕ) :
    ∃ n', (Rounded.liftM (bxB rnd r h) (bfull r.exact h)).get (rootAddr h) = .ok n' ∧ toR n'.box = r := by
  obtain ⟨n, g1, g2, -⟩ := bfull_get_path r.exact (π := []) (h := h) (fun _ h => by simp at h) (by simp)
  refine ⟨{ n with box := bxB rnd r h (baddr 2 h []) }, ?_, ?_⟩
  · have : rootAddr h = baddr 2 h [] := by rw [baddr, gidx, ← glob_root (d := 2)]
    rw [this]
    exact Rounded.liftM_get_ok g1
  · show toR (bxB rnd r h (baddr 2 h [])) = r
    rw [bxB_baddr (fun _ h => by simp at h)]; rfl

theorem clear_of (hsc : Scale η ρ₀ θ τ p) (hsp : Span θ r.exact h) (hL : 0 < r.len) {x : Vec 2} (hx : ∀ j, |x j - r.center j| ≤ r.len)
    (hroot : ∀ s ∈ S, ∀ j, |s.pos j - r.center j| ≤ r.len) (hd : ∀ s ∈ S, s.pos = x ∨ θ ≤ dist2 s.pos x) : ∀ s ∈ S, Clear θ x s :=
  fun s hs => (hd s hs).imp_right fun h1 => ⟨h1, by
    rw [← norm_toC_sub]
    have h2 := norm_le_root (r := r.exact) hL (hroot s hs) hx
    refine h2.trans ?_
    have h3 := hsp.hi
    have h4 := hsc.th0
    rw [le_inv_comm₀ h4 (by linarith [show 0 < r.exact.len from hL])] at h3
    rw [div_eq_mul_inv]; linarith⟩

/-- **The balanced tree with gradual underflow.** -/
theorem balanced_low (hF : F.Low u η ρ₀) (hsc : Scale η ρ₀ θ τ p) (hsp : Span θ r.exact h) (h5 : θ ≤ 1 / 5) {t : BinomialTable} (ht : t.Good)
    (hL : 0 < r.len) (hC : ∀ i, |r.center i| ≤ C) {eps : ℝ}
    (hord : Rounded.expansionOrder F.rnd F.rlog (Rounded.totalStrength F.rnd S) eps = .ok p) (hp0 : 0 < p) (hp : p ≤ 1029)
    (hht : Rounded.balancedHeight F.rnd F.rlog 2 S.length perCell = .ok h) (h16 : h ≤ 16)
    (hbox : sourceBox F.rnd S = some r)
    (hk : 100 * ((8 * h + 15) * (u * (4 * (C + r.len)))) < r.len / 2 ^ (h + 1))
    (h0 : h = 0 → ∀ s ∈ S, r.exact.contains s.pos) (hx : h = 0 ∨ ∀ s ∈ S, InTree F.rnd r h s.pos)
    (hq : ∀ s ∈ S, Flr τ |s.q|) :
    ∃ T : BalancedFmm (kit F), (∀ fuel ≥ off (2 ^ 2) (h + 1), ∀ sch, Schedule sch →
        Rounded.balancedFmm F.rnd F.rlog F.nrm (kit F) fuel sch t S perCell eps = .ok T) ∧
      T.order = p ∧ T.height = h ∧ ∀ x grav,
        (∀ e, leafIndices F.rnd r h x = .error e →
          Rounded.balancedEval F.rnd (fun a b => F.rnd (a + b)) (fun a => -a) (pot F) grav T x = .error e ∧
          ∀ feps, Rounded.balancedEval F.rnd F.vadd (fun a => -a) (force F feps) grav T x = .error e) ∧
        (InTree F.rnd r h x → (∀ s ∈ S, s.pos = x ∨ θ ≤ dist2 s.pos x) →
          (∃ v, Rounded.balancedEval F.rnd (fun a b => F.rnd (a + b)) (fun a => -a) (pot F) grav T x = .ok v ∧
            |v - directPotential grav S x| ≤ potBound u r.exact S p h 9 x) ∧
          ∀ feps, 0 ≤ feps → feps ≤ 1 / θ ^ 2 → ∃ v, Rounded.balancedEval F.rnd F.vadd (fun a => -a) (force F feps) grav T x = .ok v ∧
            dist2 v (directField grav S x feps) ≤ forceBound u r.exact S p h 9 feps x) := by
  have hu := hF.nonneg
  have hC0 : 0 ≤ C := (abs_nonneg _).trans (hC 0)
  have hu3 := Fl.small_u hL hC0 hu hk
  have A := acc_of hF hsc hsp hL hC0 hk
  obtain ⟨nb, n1, hT, hmain⟩ := Rel.roundedB_on (K := kit F) (rlog := F.rlog) le_rfl hu hL hC0 A.on A.ix hC A.nrm hord hht hbox
    (by omega) hk hx
  have G := geo_on (h := h) hu hL hC0 A.on hC hk
  have hS := bsrcs_on (S := S) hu hL hC0 A.on A.ix hC hk h0 hx
  have hX : ∀ π, (fullTree r.exact h).Mem π → ((fullTree r.exact h).xl π).length ≤ 9 := fun π hπ => by
    rw [fullTree_xl hL hπ]; simp
  have hqn : ∀ π, (fullTree r.exact h).Mem π →
      ∀ s ∈ itemsAt (fun s => bshadow F.rnd r h s.pos) r.exact S π, Flr τ |s.q| := fun π hπ s hs => hq s (List.mem_filter.mp hs).1
  obtain ⟨s0, s1, -, -, a3, a4⟩ := hmain (laws hF hsc hsp G hT.hc hT.hA hT.hH hS hqn hp0 hp hX) t ht
  refine ⟨_, a3, rfl, rfl, fun x grav => ?_⟩
  obtain ⟨n', m1, m2⟩ := broot F.rnd r h
  refine ⟨fun e he => ?_, fun ⟨idx, hi⟩ hd => ?_⟩
  · constructor
    · unfold Rounded.balancedEval
      simp only
      rw [m1, ok_bind, m2, he, err_bind]
    · intro feps
      unfold Rounded.balancedEval
      simp only
      rw [m1, ok_bind, m2, he, err_bind]
  have hpl := pathOfGrid_length h idx
  have hpv := pathOfGrid_valid h idx
  have hmem : (fullTree r.exact h).Mem (pathOfGrid h idx) := (fullTree_mem r.exact h _).mpr ⟨hpv, hpl.le⟩
  have hlf : (fullTree r.exact h).leaf (pathOfGrid h idx) = true := by simp [fullTree, hpl]
  have hxw := within_indices_on hu hL hC0 A.on A.ix hC hk hi (List.suffix_refl _)
  have hperm := PTree.slots_perm (hT.hA.laws hT.hr) (fun π hπ => Nat.lt_succ_of_le (hT.hH π hπ)) hT.hc
    (fun s : Source 2 => bshadow F.rnd r h s.pos) r.exact S hmem hlf
  have hne := bother_leaf (S := S) hL hi
  have hmor : getMortonIndex h idx = .ok (pathIndex 2 (pathOfGrid h idx)) := by
    have := getMortonIndex_grid (d := 2) (by norm_num) (pathOfGrid h idx) hpv (by rw [hpl]; omega)
    rwa [hpl, grid_pathOfGrid h idx fun j => (leafIndices_inv hi j).1] at this
  have hmW : (((fullTree r.exact h).nbhAfter ((fullTree r.exact h).order (h + 1))).W (pathOfGrid h idx)).length ≤ 9 := by
    rw [fullTree_W hL]; simp
  have hmU : (((fullTree r.exact h).nbhAfter ((fullTree r.exact h).order (h + 1))).near (pathOfGrid h idx)).length ≤ 9 := by
    rw [fullTree_near hL hmem]
    exact own_card hL hmem
  have hroot : ∀ s ∈ S, ∀ j, |s.pos j - r.center j| ≤ r.len := fun s hs =>
    (hS.within [] PTree.mem_nil s (by rw [itemsAt_nil]; exact hs)).root hL
  have hcl := clear_of hsc hsp hL (hxw.root hL) hroot hd
  constructor
  · obtain ⟨v, v1, v2⟩ := evalPot hF hsc hsp G hT hS hqn hp0 hp hX a4 hmem hlf hmW hmU hperm hxw hcl hq hne grav
    refine ⟨v, ?_, v2⟩
    rw [baddr_leaf hpl] at v1
    unfold Rounded.balancedEval
    simp only
    rw [m1, ok_bind, m2, hi, ok_bind, hmor, ok_bind]
    exact v1
  · intro feps hfe hfe'
    obtain ⟨v, v1, v2⟩ := evalForce hF hsc hsp G hT hS hqn hp0 hp hX a4 hmem hlf hmW hmU hperm hxw hcl hq hne grav hfe h5 hfe'
    refine ⟨v, ?_, v2⟩
    rw [baddr_leaf hpl] at v1
    unfold Rounded.balancedEval
    simp only
    rw [m1, ok_bind, m2, hi, ok_bind, hmor, ok_bind]
    exact v1

end FMM.Lo
