import Verif.DoubleGeo3

/-!
# The adaptive and the balanced tree in space with expansions in binary64
-/

namespace FMM.D64
open FMM Rounded Fl3

variable {F : Flt3} {u g C : ℝ} {max fuel h p perCell : ℕ} {r : RBox ℝ 3} {S : List (Source 3)} (L : Lib)

/-- The adaptive tree: at a point of leaf `l` with a local expansion that is not finite. -/
theorem adaptive64 (hF : F.Ok u g) (hL : 0 < r.len) (hC : ∀ i, |r.center i| ≤ C) {eps : ℝ}
    (hord : Rounded.expansionOrder F.rnd F.rlog (Rounded.totalStrength F.rnd S) eps = .ok p)
    (hbox : sourceBox F.rnd S = some r) {st : BuildState 3 (Source 3)} {nb : Nbh}
    (hb : Rounded.adaptiveLists F.rnd F.nrm3 fuel Source.pos r S max = .ok (st, h, nb))
    (hk : 100 * ((8 * h + 15) * (u * (4 * (C + r.len)))) < r.len / 2 ^ (h + 1)) :
    ∃ T : AdaptiveFmm (kit64 L), (∀ sch, Schedule sch → Rounded.adaptiveFmm F.rnd F.rlog F.nrm3 (kit64 L) fuel sch () S max eps = .ok T) ∧
      T.order = p ∧ T.height = h ∧ T.heap = st.heap ∧ T.nb = nb ∧ ∀ x, ∃ lf, (∀ f > h, Rounded.getContainingLeaf F.rnd f st.heap x = .ok lf) ∧
        ∀ l, lf = some l → ∃ (P : PTree) (src : Path → List (Source 3)), P.Mem l ∧ P.leaf l = true ∧ AdjOf P r.exact ∧ (∀ π, P.Mem π → π.length ≤ h) ∧
          (∀ π, P.Mem π → nb.inter π = P.inter π) ∧
          ∀ f > h, ∀ grav cur j, j ≤ p → BadLE P (fun π => (bxR F.rnd r π).center) src p l (2 + (P.xl l).length) j →
            (∃ v, Rounded.adaptiveEval F.rnd add neg (pot64 L) f grav T cur x = .ok v ∧ NF v) ∧
            (1 ≤ j → ∀ feps, ∃ v, Rounded.adaptiveEval F.rnd vadd vneg (force64 L feps) f grav T cur x = .ok v ∧ VNF v) := by
  have hu := hF.nonneg
  have hC0 : 0 ≤ C := (abs_nonneg _).trans (hC 0)
  have hu3 := Fl.small_u hL hC0 hu hk
  have hnrm : ∀ v, 999 / 1000 * Vec.norm v ≤ F.nrm3 v := fun v => by
    have a := (abs_le.mp (hF.nrm3 v)).1
    have b : 0 ≤ Vec.norm v := Vec.norm_nonneg v
    nlinarith
  obtain ⟨stE, fuel', n, hn, hE, hheap, hmain⟩ := Rel.rounded_ok (K := kit64 L) (rlog := F.rlog) hF.rnd hu hL hC0 hC hnrm hord hbox hb hk
  obtain ⟨-, q1, q2, q3⟩ := lists_result (Or.inl hL) hE
  have hT := Rel.adaptive_treeR (bxR F.rnd r) hL hE
  rw [← hheap] at hT
  obtain ⟨s0, s1, -, -, a3, a4⟩ := hmain (laws64 L hT.hA hT.hr) () trivial
  refine ⟨_, a3, rfl, rfl, rfl, rfl, fun x => ?_⟩
  obtain ⟨k, k1, k2, k3, k4⟩ := Fl.lookup (rnd := F.rnd) (it := itemsAt (fun s => shadow F.rnd r n s.pos) r.exact S) hL hT.hc hT.hH x
  have k4' : ∀ f > h, Rounded.getContainingLeaf F.rnd f st.heap x = .ok (if (Rounded.boxAt F.rnd r (Rounded.route F.rnd r x k)).contains F.rnd x
      then some (Rounded.route F.rnd r x k) else none) := fun f hf => by
    rw [hheap, q1]; exact k4 f hf
  refine ⟨_, k4', fun l hl => ?_⟩
  have hcon : (Rounded.boxAt F.rnd r (Rounded.route F.rnd r x k)).contains F.rnd x = true := by
    by_contra hno
    rw [if_neg hno] at hl; cases hl
  rw [if_pos hcon] at hl
  cases hl
  refine ⟨_, itemsAt (fun s => shadow F.rnd r n s.pos) r.exact S, k2, k3, hT.hA, hT.hH, fun π hπ => by rw [q3]; exact PTree.nbh_inter q2 hπ, fun f hf grav cur j hj hbad => ⟨?_, fun hj1 feps => ?_⟩⟩
  · obtain ⟨v, v1, v2⟩ := evalPot_bad hT a4 k2 k3 x grav hj hbad
    refine ⟨v, ?_, v2⟩
    unfold Rounded.adaptiveEval
    simp only
    rw [k4' f hf, if_pos hcon, ok_bind]
    exact v1
  · obtain ⟨v, v1, v2⟩ := evalForce_bad feps hT a4 k2 k3 x grav hj hj1 hbad
    refine ⟨v, ?_, v2⟩
    unfold Rounded.adaptiveEval
    simp only
    rw [k4' f hf, if_pos hcon, ok_bind]
    exact v1

/-- The balanced tree. -/
theorem balanced64 (hF : F.Ok u g) (hL : 0 < r.len) (hC : ∀ i, |r.center i| ≤ C) {eps : ℝ}
    (hord : Rounded.expansionOrder F.rnd F.rlog (Rounded.totalStrength F.rnd S) eps = .ok p)
    (hht : Rounded.balancedHeight F.rnd F.rlog 3 S.length perCell = .ok h) (h10 : h ≤ 10)
    (hbox : sourceBox F.rnd S = some r)
    (hk : 100 * ((8 * h + 15) * (u * (4 * (C + r.len)))) < r.len / 2 ^ (h + 1))
    (hx : h = 0 ∨ ∀ s ∈ S, InTree F.rnd r h s.pos) :
    ∃ T : BalancedFmm (kit64 L), (∀ fuel ≥ off (2 ^ 3) (h + 1), ∀ sch, Schedule sch →
        Rounded.balancedFmm F.rnd F.rlog F.nrm3 (kit64 L) fuel sch () S perCell eps = .ok T) ∧
      T.order = p ∧ T.height = h ∧ ∀ x, InTree F.rnd r h x →
        ∃ (l : Path) (src : Path → List (Source 3)), (fullTree r.exact h).Mem l ∧ l.length = h ∧
          ∀ grav j, j ≤ p → BadLE (fullTree r.exact h) (fun π => (bxR F.rnd r π).center) src p l (2 + ((fullTree r.exact h).xl l).length) j →
            (∃ v, Rounded.balancedEval F.rnd add neg (pot64 L) grav T x = .ok v ∧ NF v) ∧
            (1 ≤ j → ∀ feps, ∃ v, Rounded.balancedEval F.rnd vadd vneg (force64 L feps) grav T x = .ok v ∧ VNF v) := by
  have hu := hF.nonneg
  have hC0 : 0 ≤ C := (abs_nonneg _).trans (hC 0)
  have hu3 := Fl.small_u hL hC0 hu hk
  have hnrm : ∀ v, 999 / 1000 * Vec.norm v ≤ F.nrm3 v := fun v => by
    have a := (abs_le.mp (hF.nrm3 v)).1
    have b : 0 ≤ Vec.norm v := Vec.norm_nonneg v
    nlinarith
  obtain ⟨nb, n1, hT, hmain⟩ := Rel.roundedB_ok (K := kit64 L) (rlog := F.rlog) (by norm_num) hF.rnd hu hL hC0 hC hnrm hord hht hbox
    (by omega) hk hx
  obtain ⟨s0, s1, -, -, a3, a4⟩ := hmain (laws64 L hT.hA hT.hr) () trivial
  refine ⟨_, a3, rfl, rfl, fun x hxt => ?_⟩
  obtain ⟨n, g1, g2, -⟩ := bfull_get_path r.exact (π := []) (h := h) (fun _ h => by simp at h) (by simp)
  have hroot : ∃ n', (Rounded.liftM (bxB F.rnd r h) (bfull r.exact h)).get (rootAddr h) = .ok n' ∧ toR n'.box = r := by
    refine ⟨{ n with box := bxB F.rnd r h (baddr 3 h []) }, ?_, ?_⟩
    · have : rootAddr h = baddr 3 h [] := by rw [baddr, gidx, ← glob_root (d := 3)]
      rw [this]
      exact Rounded.liftM_get_ok g1
    · show toR (bxB F.rnd r h (baddr 3 h [])) = r
      rw [bxB_baddr (fun _ h => by simp at h)]; rfl
  obtain ⟨n', m1, m2⟩ := hroot
  obtain ⟨idx, hi⟩ := hxt
  have hpl := pathOfGrid_length h idx
  have hpv := pathOfGrid_valid h idx
  have hmem : (fullTree r.exact h).Mem (pathOfGrid h idx) := (fullTree_mem r.exact h _).mpr ⟨hpv, hpl.le⟩
  have hlf : (fullTree r.exact h).leaf (pathOfGrid h idx) = true := by simp [fullTree, hpl]
  have hmor : getMortonIndex h idx = .ok (pathIndex 3 (pathOfGrid h idx)) := by
    have := getMortonIndex_grid (d := 3) (by norm_num) (pathOfGrid h idx) hpv (by rw [hpl]; omega)
    rwa [hpl, grid_pathOfGrid h idx fun j => (leafIndices_inv hi j).1] at this
  refine ⟨_, itemsAt (fun s => bshadow F.rnd r h s.pos) r.exact S, hmem, hpl, fun grav j hj hbad => ⟨?_, fun hj1 feps => ?_⟩⟩
  · obtain ⟨v, v1, v2⟩ := evalPot_bad hT a4 hmem hlf x grav hj hbad
    refine ⟨v, ?_, v2⟩
    rw [baddr_leaf hpl] at v1
    unfold Rounded.balancedEval
    simp only
    rw [m1, ok_bind, m2, hi, ok_bind, hmor, ok_bind]
    exact v1
  · obtain ⟨v, v1, v2⟩ := evalForce_bad feps hT a4 hmem hlf x grav hj hj1 hbad
    refine ⟨v, ?_, v2⟩
    rw [baddr_leaf hpl] at v1
    unfold Rounded.balancedEval
    simp only
    rw [m1, ok_bind, m2, hi, ok_bind, hmor, ok_bind]
    exact v1

end FMM.D64
