import Verif.HighTree3
import Verif.LowBalanced3

/-!
# The balanced tree in space with `double`s does not overflow
-/

namespace FMM.Hi3
open FMM D64 Rounded Fl3
variable {F : Flt3} {L : Lib} {u g η ρ₀ θ τ ν C : ℝ} {r : RBox ℝ 3} {S : List (Source 3)} {p h perCell t α κ : ℕ}

/-- **The balanced tree with `double`s.** -/
theorem balanced_hi (h64 : Is64 F) (hF : F.Low u g η ρ₀) (hLF : LibOf L F) (hY : YFin L) (hu : u = 1 / 2 ^ 49) (hsc : Scale3 u η θ τ ν p)
    (hft : Fit3 θ p t α (7 * p + 3)) (hsp : Lo3.Span θ r.exact h) (hκ : Cost u g p κ) (hL : 0 < r.len) (hC : ∀ i, |r.center i| ≤ C) {eps : ℝ}
    (hord : Rounded.expansionOrder F.rnd F.rlog (Rounded.totalStrength F.rnd S) eps = .ok p) (hp0 : 0 < p) (hp : p ≤ 42)
    (hht : Rounded.balancedHeight F.rnd F.rlog 3 S.length perCell = .ok h) (h10 : h ≤ 10)
    (hbox : sourceBox F.rnd S = some r)
    (hk : 100 * ((8 * h + 15) * (u * (4 * (C + r.len)))) < r.len / 2 ^ (h + 1))
    (h0 : h = 0 → ∀ s ∈ S, r.exact.contains s.pos) (hx : h = 0 ∨ ∀ s ∈ S, InTree F.rnd r h s.pos)
    (hq : ∀ s ∈ S, Flr τ |s.q|) (hA : FMM.totalStrength S ≤ 2 ^ α) (hn : evalCount κ S.length h 27 ≤ 2 ^ 48) :
    ∃ T : BalancedFmm (kit64 L), (∀ fuel ≥ off (2 ^ 3) (h + 1), ∀ sch, Schedule sch →
        Rounded.balancedFmm F.rnd F.rlog F.nrm3 (kit64 L) fuel sch () S perCell eps = .ok T) ∧
      T.order = p ∧ T.height = h ∧ (∀ s ∈ S, ∀ j, |s.pos j - r.center j| ≤ r.len) ∧ ∀ x grav,
        (∀ e, leafIndices F.rnd r h x = .error e →
          Rounded.balancedEval F.rnd D64.add D64.neg (pot64 L) grav T x = .error e) ∧
        (InTree F.rnd r h x → (∀ j, |x j - r.center j| ≤ r.len) ∧ ((∀ s ∈ S, s.pos = x ∨ θ ≤ dist2 s.pos x) →
          ∃ y, Rounded.balancedEval F.rnd D64.add D64.neg (pot64 L) grav T x = .ok (.fin y))) := by
  have hu0 := hF.nonneg
  have hC0 : 0 ≤ C := (abs_nonneg _).trans (hC 0)
  have hu3 := Fl.small_u hL hC0 hu0 hk
  have A := Lo3.acc_of hF hsc hsp hL hC0 hk
  obtain ⟨nb, n1, hT, hmain⟩ := Rel.roundedB_on (K := kit64 L) (rlog := F.rlog) (by norm_num) hu0 hL hC0 A.on A.ix hC A.nrm hord hht hbox
    (by omega) hk hx
  have G := geo_on (h := h) hu0 hL hC0 A.on hC hk
  have hS := bsrcs_on (S := S) hu0 hL hC0 A.on A.ix hC hk h0 hx
  have hX : ∀ π, (fullTree r.exact h).Mem π → ((fullTree r.exact h).xl π).length ≤ 27 := fun π hπ => by
    rw [fullTree_xl hL hπ]; simp
  have hmod : ∀ {v : Vec 3}, (∀ j, |v j - r.center j| ≤ r.len) → Mod v := fun hv j =>
    (root_le hsc hft hsp hu hL hC0 hC hk hv j).trans (two_pow_mono (by norm_num))
  have hroot : ∀ s ∈ S, ∀ j, |s.pos j - r.center j| ≤ r.len := fun s hs =>
    (hS.within [] PTree.mem_nil s (by rw [itemsAt_nil]; exact hs)).root hL
  obtain ⟨tt, -, -, htt, -, -⟩ := new_cov3 hp (Stat3.init 0 0 0) 0 (Stat3.good_init 0 0 0)
  have X : Setup F L u g η ρ₀ θ τ ν p t α (5 * p + 1) κ (fullTree r.exact h) r.exact (fun π => (bxR F.rnd r π).center) h
      S.length 27 (itemsAt (fun s => bshadow F.rnd r h s.pos) r.exact S) (Rel.bshape F.rnd r S h nb) (baddr 3 h) S tt :=
    { h64 := h64, hF := hF, hLF := hLF, hY := hY, hu := hu, hsc := hsc, hG := sqrt_fact_le hp, hG' := by omega
      ht := by rw [show 5 * p + 1 + 2 * p + 2 = 7 * p + 3 by ring]; exact hft
      hsp := hsp, hκ := hκ, hgeo := G, hT := hT, hS := hS, hp0 := hp0, hp := hp, hX := hX
      hcen := fun π hπ => hmod fun j => G.root (hT.hH π hπ) j
      hsub := fun π _ => List.filter_sublist
      hpos := fun s hs => hmod (hroot s hs)
      hq := hq, hA := hA, hn := hn
      hN := le_trans (by unfold evalCount; omega) hn
      hperm := fun R hR hl => PTree.slots_perm (hT.hA.laws hT.hr) (fun π hπ => Nat.lt_succ_of_le (hT.hH π hπ)) hT.hc
        (fun s : Source 3 => bshadow F.rnd r h s.pos) r.exact S hR hl
      htt := htt.1, hcov := htt.2 }
  obtain ⟨s0, s1, -, -, a3, a4⟩ := hmain X.laws () trivial
  refine ⟨_, a3, rfl, rfl, hroot, fun x grav => ?_⟩
  obtain ⟨n', m1, m2⟩ := Lo3.broot F.rnd r h
  refine ⟨fun e he => ?_, fun ⟨idx, hi⟩ => ?_⟩
  · unfold Rounded.balancedEval
    simp only
    rw [m1, ok_bind, m2, he, err_bind]
  have hpl := pathOfGrid_length h idx
  have hpv := pathOfGrid_valid h idx
  have hmem : (fullTree r.exact h).Mem (pathOfGrid h idx) := (fullTree_mem r.exact h _).mpr ⟨hpv, hpl.le⟩
  have hlf : (fullTree r.exact h).leaf (pathOfGrid h idx) = true := by simp [fullTree, hpl]
  have hxw := within_indices_on hu0 hL hC0 A.on A.ix hC hk hi (List.suffix_refl _)
  have hne := Fl.bother_leaf (S := S) hL hi
  have hmor : getMortonIndex h idx = .ok (pathIndex 3 (pathOfGrid h idx)) := by
    have := getMortonIndex_grid (d := 3) (by norm_num) (pathOfGrid h idx) hpv (by rw [hpl]; omega)
    rwa [hpl, grid_pathOfGrid h idx fun j => (leafIndices_inv hi j).1] at this
  have hmW : (((fullTree r.exact h).nbhAfter ((fullTree r.exact h).order (h + 1))).W (pathOfGrid h idx)).length ≤ 27 := by
    rw [fullTree_W hL]; simp
  refine ⟨hxw.root hL, fun hd => ?_⟩
  have hcl := Lo3.clear_of hsc hsp hL (hxw.root hL) hroot hd
  have hxm : Mod x := hmod (hxw.root hL)
  obtain ⟨y, v1⟩ := X.evalPot a4 hmem hlf hmW hxw hxm hcl hne grav
  refine ⟨y, ?_⟩
  rw [baddr_leaf hpl] at v1
  unfold Rounded.balancedEval
  simp only
  rw [m1, ok_bind, m2, hi, ok_bind, hmor, ok_bind]
  exact v1

end FMM.Hi3
