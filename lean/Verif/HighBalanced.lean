import Verif.HighTree
import Verif.LowBalanced

/-!
# The balanced tree in the plane with `double`s does not overflow
-/

namespace FMM.D2.Hi
open FMM D64 Rounded
variable {F : Flt} {log : DC → DC} {u η ρ₀ θ τ C : ℝ} {r : RBox ℝ 2} {S : List (Source 2)} {p h perCell t α : ℕ}

/-- **The balanced tree with `double`s.** -/
theorem balanced_hi (h64 : Is64 F) (hF : F.Low u η ρ₀) (hlog : LogIs log F) (hu : u = 1 / 2 ^ 49) (hsc : Scale η ρ₀ θ τ p) (hft : Fit θ p t α)
    (hsp : Lo.Span θ r.exact h) (h5 : θ ≤ 1 / 5) {b : BinomialTable} (ht : b.Good) (hL : 0 < r.len) (hC : ∀ i, |r.center i| ≤ C) {eps : ℝ}
    (hord : Rounded.expansionOrder F.rnd F.rlog (Rounded.totalStrength F.rnd S) eps = .ok p) (hp0 : 0 < p) (hp : p ≤ 1029)
    (hht : Rounded.balancedHeight F.rnd F.rlog 2 S.length perCell = .ok h) (h16 : h ≤ 16)
    (hbox : sourceBox F.rnd S = some r)
    (hk : 100 * ((8 * h + 15) * (u * (4 * (C + r.len)))) < r.len / 2 ^ (h + 1))
    (h0 : h = 0 → ∀ s ∈ S, r.exact.contains s.pos) (hx : h = 0 ∨ ∀ s ∈ S, InTree F.rnd r h s.pos)
    (hq : ∀ s ∈ S, Flr τ |s.q|) (hA : FMM.totalStrength S ≤ 2 ^ α) (hn : Fl.evalCount S.length p h 9 ≤ 2 ^ 48) :
    ∃ T : BalancedFmm (kit log), (∀ fuel ≥ off (2 ^ 2) (h + 1), ∀ sch, Schedule sch →
        Rounded.balancedFmm F.rnd F.rlog F.nrm (kit log) fuel sch b S perCell eps = .ok T) ∧
      T.order = p ∧ T.height = h ∧ (∀ s ∈ S, ∀ j, |s.pos j - r.center j| ≤ r.len) ∧ ∀ x grav,
        (∀ e, leafIndices F.rnd r h x = .error e →
          Rounded.balancedEval F.rnd D64.add D64.neg (pot log) grav T x = .error e ∧
          ∀ feps, Rounded.balancedEval F.rnd vadd vneg (force log feps) grav T x = .error e) ∧
        (InTree F.rnd r h x → (∀ j, |x j - r.center j| ≤ r.len) ∧ ((∀ s ∈ S, s.pos = x ∨ θ ≤ dist2 s.pos x) →
          (∃ y, Rounded.balancedEval F.rnd D64.add D64.neg (pot log) grav T x = .ok (.fin y)) ∧
          ∀ feps, 0 ≤ feps → feps ≤ 1 / θ ^ 2 → feps ≤ 2 ^ (1000 : ℤ) →
            ∃ y : Vec 2, Rounded.balancedEval F.rnd vadd vneg (force log feps) grav T x = .ok (fun j => .fin (y j)))) := by
  have hu0 := hF.nonneg
  have hC0 : 0 ≤ C := (abs_nonneg _).trans (hC 0)
  have hu3 := Fl.small_u hL hC0 hu0 hk
  have A := Lo.acc_of hF hsc hsp hL hC0 hk
  obtain ⟨nb, n1, hT, hmain⟩ := Rel.roundedB_on (K := kit log) (rlog := F.rlog) le_rfl hu0 hL hC0 A.on A.ix hC A.nrm hord hht hbox
    (by omega) hk hx
  have G := Fl.geo_on (h := h) hu0 hL hC0 A.on hC hk
  have hS := Fl.bsrcs_on (S := S) hu0 hL hC0 A.on A.ix hC hk h0 hx
  have hX : ∀ π, (fullTree r.exact h).Mem π → ((fullTree r.exact h).xl π).length ≤ 9 := fun π hπ => by
    rw [fullTree_xl hL hπ]; simp
  have hmod : ∀ {v : Vec 2}, (∀ j, |v j - r.center j| ≤ r.len) → Mod v := fun hv j =>
    (root_le hsc hft hsp hu hL hC0 hC hk hv j).trans (two_pow_mono (by norm_num))
  have hroot : ∀ s ∈ S, ∀ j, |s.pos j - r.center j| ≤ r.len := fun s hs =>
    (hS.within [] PTree.mem_nil s (by rw [itemsAt_nil]; exact hs)).root hL
  have X : Setup F log u η ρ₀ θ τ p t α (fullTree r.exact h) r.exact (fun π => (bxR F.rnd r π).center) h
      S.length 9 (itemsAt (fun s => bshadow F.rnd r h s.pos) r.exact S) (Rel.bshape F.rnd r S h nb) (baddr 2 h) S :=
    { h64 := h64, hF := hF, hlog := hlog, hu := hu, hsc := hsc, ht := hft, hsp := hsp, h5 := h5, G := G, hT := hT, hS := hS, hp0 := hp0, hp := hp, hX := hX
      hcen := fun π hπ => hmod fun j => G.root (hT.hH π hπ) j
      hsub := fun π _ => List.filter_sublist
      hpos := fun s hs => hmod (hroot s hs)
      hq := hq, hA := hA, hn := hn
      hN := le_trans (by unfold Fl.evalCount; omega) hn
      hperm := fun R hR hl => PTree.slots_perm (hT.hA.laws hT.hr) (fun π hπ => Nat.lt_succ_of_le (hT.hH π hπ)) hT.hc
        (fun s : Source 2 => bshadow F.rnd r h s.pos) r.exact S hR hl }
  obtain ⟨s0, s1, -, -, a3, a4⟩ := hmain X.laws b ht
  refine ⟨_, a3, rfl, rfl, hroot, fun x grav => ?_⟩
  obtain ⟨n', m1, m2⟩ := Lo.broot F.rnd r h
  refine ⟨fun e he => ?_, fun ⟨idx, hi⟩ => ?_⟩
  · constructor
    · unfold Rounded.balancedEval
      simp only
      rw [m1, ok_bind, m2, he, err_bind]
    · intro feps
      unfold Rounded.balancedEval
      simp only
      rw [m1, ok_bind, m2, he, err_bind]
  have hpl := pathOfGrid_length h idx
  have hpv := pathOfGrid_valid h idx
  have hmem : (fullTree r.exact h).Mem (pathOfGrid h idx) := (fullTree_mem r.exact h _).mpr ⟨hpv, hpl.le⟩
  have hlf : (fullTree r.exact h).leaf (pathOfGrid h idx) = true := by simp [fullTree, hpl]
  have hxw := Fl.within_indices_on hu0 hL hC0 A.on A.ix hC hk hi (List.suffix_refl _)
  have hne := Fl.bother_leaf (S := S) hL hi
  have hmor : getMortonIndex h idx = .ok (pathIndex 2 (pathOfGrid h idx)) := by
    have := getMortonIndex_grid (d := 2) (by norm_num) (pathOfGrid h idx) hpv (by rw [hpl]; omega)
    rwa [hpl, grid_pathOfGrid h idx fun j => (leafIndices_inv hi j).1] at this
  have hmW : (((fullTree r.exact h).nbhAfter ((fullTree r.exact h).order (h + 1))).W (pathOfGrid h idx)).length ≤ 9 := by
    rw [fullTree_W hL]; simp
  refine ⟨hxw.root hL, fun hd => ?_⟩
  have hcl := Lo.clear_of hsc hsp hL (hxw.root hL) hroot hd
  have hxm : Mod x := hmod (hxw.root hL)
  constructor
  · obtain ⟨y, v1⟩ := X.evalPot a4 hmem hlf hmW hxw hxm hcl hne grav
    refine ⟨y, ?_⟩
    rw [baddr_leaf hpl] at v1
    unfold Rounded.balancedEval
    simp only
    rw [m1, ok_bind, m2, hi, ok_bind, hmor, ok_bind]
    exact v1
  · intro feps hfe hfe' hfe2
    obtain ⟨y, v1⟩ := X.evalForce a4 hmem hlf hmW hxw hxm hcl hne grav hfe hfe' (by rwa [abs_of_nonneg hfe])
    refine ⟨y, ?_⟩
    rw [baddr_leaf hpl] at v1
    unfold Rounded.balancedEval
    simp only
    rw [m1, ok_bind, m2, hi, ok_bind, hmor, ok_bind]
    exact v1

end FMM.D2.Hi
