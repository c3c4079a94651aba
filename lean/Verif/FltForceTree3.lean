import Verif.FltForceEval3
import Verif.FltBalanced3

/-!
# Forces of the trees in space, in floating-point arithmetic
-/

namespace FMM.Fl3
open Rounded Finset
open Fl (far farAt farAt_last evalLeaf_ap split_perm W_geo)
variable {F : Flt3} {u g : ℝ}

theorem absField3_append (S T : List (Source 3)) (x : Vec 3) (eps : ℝ) (j : Fin 3) :
    absField3 (S ++ T) x eps j = absField3 S x eps j + absField3 T x eps j := by simp [absField3]
theorem absField3_perm {S T : List (Source 3)} (x : Vec 3) (eps : ℝ) (j : Fin 3) (h : S.Perm T) :
    absField3 S x eps j = absField3 T x eps j := (h.map _).sum_eq
theorem absField3_nonneg (S : List (Source 3)) (x : Vec 3) {eps : ℝ} (he : 0 ≤ eps) (j : Fin 3) : 0 ≤ absField3 S x eps j :=
  List.sum_nonneg fun a ha => by
    obtain ⟨s, -, rfl⟩ := List.mem_map.mp ha
    exact absFieldTerm3_nonneg x he j s
theorem absField3_flatMap (l : List Path) (src : Path → List (Source 3)) (x : Vec 3) (eps : ℝ) (j : Fin 3) :
    absField3 (l.flatMap src) x eps j = (l.map fun ρ => absField3 (src ρ) x eps j).sum := by
  induction l with
  | nil => simp [absField3]
  | cons a l ih => rw [List.flatMap_cons, absField3_append, ih]; simp

theorem sum_apply (l : List (Vec 3)) (j : Fin 3) : l.sum j = (l.map fun v => v j).sum := by
  induction l with
  | nil => rfl
  | cons a l ih => rw [List.sum_cons, Pi.add_apply, ih]; simp

theorem nearForce_le {κ N h m n : ℕ} (hn : n ≤ N) : n + 21 ≤ evalCount0 κ N h m := by
  unfold evalCount0 inCount meCount
  omega

section
variable {A : Type} [DecidableEq A] {T : PTree} {r : Box 3} {cen : Path → Vec 3} {h N p m κ κf : ℕ} {src : Path → List (Source 3)}
  {sh : Shape 3 A} {addr : Path → A} {s : ℝ}

/-- **Force at a point of a leaf**: component `j`. -/
theorem evalForce (hF : F.OkD u g) (hκ : Cost u g p κ) (hf : FrameCost u g s p κf) (G : Geo r cen h) (hT : Rel.TreeR T r cen src sh addr h)
    (hS : Srcs T r h N src) (hp0 : 0 < p) (hp : p ≤ 42) (hX : ∀ π, T.Mem π → (T.xl π).length ≤ m) {st : Exps (kit F) A}
    (hs : Rel.Done (laws hF.toOk3 hκ G hT.hc hT.hA hT.hH hS hp0 hp hX) addr st) {R : Path} (hR : T.Mem R) (hl : T.leaf R = true)
    (hmW : ((T.nbhAfter (T.order (h + 1))).W R).length ≤ m) (hmU : ((T.nbhAfter (T.order (h + 1))).near R).length ≤ m)
    {items : List (Source 3)} (hperm : ((T.slots (h + 1) R).flatMap src).Perm items) {x : Vec 3} (hx : Within r h R x)
    (hne : ∀ ρ, T.Mem ρ → T.leaf ρ = true → ρ ≠ R → ∀ s ∈ src ρ, s.pos ≠ x)
    (hcR : Clear s (cen R) x) (hcW : ∀ ρ ∈ (T.nbhAfter (T.order (h + 1))).W R, Clear s (cen ρ) x) (grav : Bool) {eps : ℝ} (heps : 0 ≤ eps) :
    ∃ v, Rounded.evalLeaf F.vadd (fun a => -a) (force F eps) sh grav st (addr R) x = .ok v ∧
      ∀ j, |v j - directField grav items x eps j| ≤ totalStrength items * forceTail3 u s r h p eps
        + ((1 + u) ^ (evalCount κ N h m + fcost p κf) - 1) * (totalStrength items * majorF3 r h p + absField3 items x eps j) := by
  have hL := hT.hA.laws hT.hr
  have hh : ∀ π, T.Mem π → π.length < h + 1 := fun π hπ => Nat.lt_succ_of_le (hT.hH π hπ)
  have hRh := hT.hH R hR
  have hxR := G.within hRh hx
  have hsh := side_pos G.hr h
  have hu := hF.nonneg
  have hu32 : u ≤ 1 / 32 := by
    have a := hf.u_le hu
    have b : s ^ 2 ≤ 1 := pow_le_one₀ hf.pos.le hf.le_one
    linarith
  have hE := hF.toOk3
  obtain ⟨e, l1, l2⟩ := hs.le R hR
  have l2 : LocalOf u p r h (cen R) R.length (leCount κ N h m R.length (2 + (T.xl R).length)) e
      (farAt T src R (2 + (T.xl R).length)) := l2
  rw [farAt_last] at l2
  obtain ⟨f0, t0, c1, c2, c3⟩ := l2.force hF hf G.hr hRh hxR hcR heps
  have hc := leCount_le (κ := κ) (N := N) (m := m) hRh (j := 2 + (T.xl R).length) (by have := hX R hR; omega)
  have hWs : ∀ ρ ∈ (T.nbhAfter (T.order (h + 1))).W R, ∃ (e : (kit F).E) (v t : Vec 3), st.me (addr ρ) = some e ∧
      (force F eps).me e x = .ok v ∧
      (∀ j, Ap u (evalCount0 κ N h m + fcost p κf) (totalStrength (src ρ) * majorF3 r h p) (v j) (t j)) ∧
      dist2 t (directField true (src ρ) x eps) ≤ totalStrength (src ρ) * forceTail3 u s r h p eps := by
    intro ρ hρ
    obtain ⟨w1, w2, w3, w4⟩ := W_geo hT.hA hT.hr hT.hH hρ
    obtain ⟨e, m1, m2⟩ := hs.me ρ w1 w2
    obtain ⟨v, t, v1, v2, v3⟩ := W_force hF hf hp0 G hS hx w1 (hT.hH ρ w1) w3 w4 (hcW ρ hρ) m2 heps
    have hcn := meCount_le' (κ := κ) (N := N) (h := h) (m := m) (k := ρ.length)
    exact ⟨e, v, t, m1, v1, fun j => (v2 j).mono hu (by omega) le_rfl, v3⟩
  have : Nonempty (kit F).E := ⟨(kit F).empty⟩
  choose! we wv wt hw using hWs
  have hU : ∀ ρ ∈ (T.nbhAfter (T.order (h + 1))).near R, ∃ v, (force F eps).sum true (decide (ρ = R)) (src ρ) x = .ok v ∧
      ∀ j, Ap u (evalCount0 κ N h m + fcost p κf) (absField3 (src ρ) x eps j) (v j) (directField true (src ρ) x eps j) := by
    intro ρ hρ
    obtain ⟨u1, u2, -⟩ := (PTree.mem_near_leaf hL hh hR hl ρ).mp hρ
    have hlen := nearForce_le (κ := κ) (h := h) (m := m) (hS.len ρ)
    by_cases hρR : ρ = R
    · rw [decide_eq_true hρR]
      obtain ⟨v, v1, v2⟩ := forcefieldSum_safe hE hu32 true (src ρ) x eps heps
      exact ⟨v, v1, fun j => (v2 j).mono hu (by omega) le_rfl⟩
    · rw [decide_eq_false hρR]
      obtain ⟨v, v1, v2⟩ := forcefieldSum_unsafe hE hu32 true (src ρ) x eps heps (hne ρ u1 u2 hρR)
      exact ⟨v, v1, fun j => (v2 j).mono hu (by omega) le_rfl⟩
  have key := fun j : Fin 3 => evalLeaf_ap (E := ℝ) (fun v : Vec 3 => v j) F.vadd (fun a => -a)
    (fun n A B a' b' a b ha hb => add_ap hE ha hb) hu (force F eps) hT hR hl x grav (s := st) (n := evalCount0 κ N h m + fcost p κf)
    (MU := fun ρ => absField3 (src ρ) x eps j) (tU := fun ρ => directField true (src ρ) x eps j)
    (MW := fun ρ => totalStrength (src ρ) * majorF3 r h p) (tW := fun ρ => wt ρ j)
    ⟨e, f0, l1, c1, (c2 j).mono hu (by omega) le_rfl⟩
    (fun ρ hρ => ⟨we ρ, wv ρ, (hw ρ hρ).1, (hw ρ hρ).2.1, (hw ρ hρ).2.2.1 j⟩)
    (fun ρ hρ => by
      obtain ⟨v, v1, v2⟩ := hU ρ hρ
      exact ⟨v, v1, v2 j⟩)
  obtain ⟨v, d1, -⟩ := key 0
  refine ⟨_, d1, fun j => ?_⟩
  obtain ⟨v', e1, d2⟩ := key j
  have hvv : v' = v := by
    rw [d1] at e1
    cases grav
    · have := Except.ok.inj e1
      simpa using this.symm
    · exact (Except.ok.inj e1).symm
  subst hvv
  set W := (T.nbhAfter (T.order (h + 1))).W R
  set U := (T.nbhAfter (T.order (h + 1))).near R
  have hpm := split_perm hT.hH hR hperm
  have eA := totalStrength_perm hpm
  have eP := congrFun (directField_perm true x eps hpm) j
  have eM := absField3_perm x eps j hpm
  rw [totalStrength_append, totalStrength_append] at eA
  rw [directField_append, directField_append, directField_flatMap3, directField_flatMap3, Pi.add_apply, Pi.add_apply, sum_apply,
    List.map_map] at eP
  rw [absField3_append, absField3_append, absField3_flatMap] at eM
  have hAU := totalStrength_nonneg (U.flatMap src)
  have hMr := absField3_nonneg (W.flatMap src) x heps j
  have hMf := absField3_nonneg (far T src R) x heps j
  have hW1 := (abs_le_dist2 _ _ j).trans (sum_close_vec W wt (fun ρ => directField true (src ρ) x eps)
    (fun ρ => totalStrength (src ρ) * forceTail3 u s r h p eps) fun ρ hρ => (hw ρ hρ).2.2.2)
  rw [List.sum_map_mul_right, ← totalStrength_flatMap', sum_apply, List.map_map] at hW1
  have hL1 := (abs_le_dist2 _ _ j).trans c3
  have hd := d2.1
  rw [List.sum_map_mul_right, ← totalStrength_flatMap', Real.norm_eq_abs] at hd
  have hcnt : (1 + u) ^ (evalCount0 κ N h m + fcost p κf + W.length + U.length) ≤ (1 + u) ^ (evalCount κ N h m + fcost p κf) :=
    pow_le_pow_right₀ (by linarith) (by rw [← evalCount_eq]; omega)
  have hmj := majorF3_nonneg r h p
  have hmaj : totalStrength (far T src R) * majorF3 r h p + totalStrength (W.flatMap src) * majorF3 r h p
      + (U.map fun ρ => absField3 (src ρ) x eps j).sum ≤ totalStrength items * majorF3 r h p + absField3 items x eps j := by
    rw [← eA, ← eM]
    have : 0 ≤ totalStrength (U.flatMap src) * majorF3 r h p := by positivity
    linarith
  have hmaj0 : 0 ≤ totalStrength (far T src R) * majorF3 r h p + totalStrength (W.flatMap src) * majorF3 r h p
      + (U.map fun ρ => absField3 (src ρ) x eps j).sum := by
    rw [← absField3_flatMap]
    have := absField3_nonneg (U.flatMap src) x heps j
    have := totalStrength_nonneg (W.flatMap src)
    have := totalStrength_nonneg (far T src R)
    positivity
  have hd' := hd.trans (mul_le_mul (sub_le_sub_right hcnt 1) hmaj hmaj0 (pow_sub_nonneg hu _))
  have htail : 0 ≤ totalStrength (U.flatMap src) * forceTail3 u s r h p eps := mul_nonneg hAU (forceTail3_nonneg G.hr hu hf.pos heps)
  have hmain : |v' j - directField true items x eps j| ≤ totalStrength items * forceTail3 u s r h p eps
        + ((1 + u) ^ (evalCount κ N h m + fcost p κf) - 1) * (totalStrength items * majorF3 r h p + absField3 items x eps j) := by
    rw [← eP, ← eA]
    rw [← eA] at hd'
    rw [sum_apply, List.map_map]
    rw [sum_apply, List.map_map] at hW1
    generalize ((1 + u) ^ (evalCount κ N h m + fcost p κf) - 1) * _ = D at *
    simp only [Function.comp_def] at *
    rw [abs_le] at *
    constructor <;> linarith [hd'.1, hd'.2, hL1.1, hL1.2, hW1.1, hW1.2]
  cases grav
  · rw [directField_neg]
    simp only [Bool.false_eq_true, if_false, Pi.neg_apply]
    rw [← abs_neg]
    convert hmain using 2
    ring
  · simpa using hmain

end

open Fl (small_u lookup other_leaf ListsLe)

/-- Bound of the error of a component of the force. -/
noncomputable def forceBound (u s : ℝ) (κ κf : ℕ) (r : Box 3) (S : List (Source 3)) (p h m : ℕ) (eps : ℝ) (x : Vec 3) (j : Fin 3) : ℝ :=
  totalStrength S * forceTail3 u s r h p eps
    + ((1 + u) ^ (evalCount κ S.length h m + fcost p κf) - 1) * (totalStrength S * majorF3 r h p + absField3 S x eps j)

variable {C s : ℝ} {max fuel h N p m κ κf : ℕ} {r : RBox ℝ 3} {S : List (Source 3)}

/-- **The adaptive tree in floating point: forces.** -/
theorem adaptive_flt_force (hF : F.OkD u g) (hκ : Cost u g p κ) (hf : FrameCost u g s p κf) {t : Stat3} (ht : t.Good) (hL : 0 < r.len) (hC : ∀ i, |r.center i| ≤ C) {eps : ℝ}
    (hord : Rounded.expansionOrder F.rnd F.rlog (Rounded.totalStrength F.rnd S) eps = .ok p) (hp0 : 0 < p) (hp : p ≤ 42)
    (hbox : sourceBox F.rnd S = some r) (hin : ∀ s ∈ S, r.exact.contains s.pos) {st : BuildState 3 (Source 3)} {nb : Nbh}
    (hb : Rounded.adaptiveLists F.rnd F.nrm3 fuel Source.pos r S max = .ok (st, h, nb))
    (hk : 100 * ((8 * h + 15) * (u * (4 * (C + r.len)))) < r.len / 2 ^ (h + 1)) (hm : ListsLe st.heap nb m) :
    ∃ T : AdaptiveFmm (kit F), (∀ sch, Schedule sch → Rounded.adaptiveFmm F.rnd F.rlog F.nrm3 (kit F) fuel sch t S max eps = .ok T) ∧
      T.order = p ∧ T.height = h ∧ T.heap = st.heap ∧ ∀ x, ∃ lf, (∀ f > h, Rounded.getContainingLeaf F.rnd f st.heap x = .ok lf) ∧
        ∀ l, lf = some l → (l.length ≤ h ∧ ∀ ρ ∈ nb.W l, ρ.length ≤ h) ∧
          (Clear s (Rounded.boxAt F.rnd r l).center x → (∀ ρ ∈ nb.W l, Clear s (Rounded.boxAt F.rnd r ρ).center x) → ∀ f > h, ∀ grav cur, ∀ feps, 0 ≤ feps →
          ∃ v, Rounded.adaptiveEval F.rnd F.vadd (fun a => -a) (force F feps) f grav T cur x = .ok v ∧
            ∀ j, |v j - directField grav S x feps j| ≤ forceBound u s κ κf r.exact S p h m feps x j) := by
  have hu := hF.nonneg
  have hC0 : 0 ≤ C := (abs_nonneg _).trans (hC 0)
  have hu3 := small_u hL hC0 hu hk
  have hnrm : ∀ v, 999 / 1000 * Vec.norm v ≤ F.nrm3 v := fun v => by
    have a := (abs_le.mp (hF.toOk3.nrm3 v)).1
    have b : 0 ≤ Vec.norm v := Vec.norm_nonneg v
    nlinarith
  obtain ⟨stE, fuel', n, hn, hE, hheap, hmain⟩ := Rel.rounded_ok (K := kit F) (rlog := F.rlog) hF.toOk3.toOk.rnd hu hL hC0 hC hnrm hord hbox hb hk
  obtain ⟨-, q1, q2, q3⟩ := lists_result (Or.inl hL) hE
  have hT := Rel.adaptive_treeR (bxR F.rnd r) hL hE
  rw [← hheap] at hT
  have G := geo_of (h := h) hF.toOk3.toOk.rnd hu hL hC0 hC hk
  have hS := srcs_of (S := S) hF.toOk3.toOk.rnd hu hL hC0 hC hk hin hn hT.hH
  have hX : ∀ π, (fmmTree (fun s => shadow F.rnd r n s.pos) r.exact S max).Mem π →
      ((fmmTree (fun s => shadow F.rnd r n s.pos) r.exact S max).xl π).length ≤ m := fun π hπ => by
    have := hm.1 π (by rw [hheap, isNode_lift, q1, isNode_treeHeap]; exact hπ)
    rw [q3, PTree.nbh_X q2 hπ] at this
    exact this
  obtain ⟨s0, s1, -, -, a3, a4⟩ := hmain (laws hF.toOk3 hκ G hT.hc hT.hA hT.hH hS hp0 hp hX) t ht
  refine ⟨_, a3, rfl, rfl, rfl, fun x => ?_⟩
  obtain ⟨k, k1, k2, k3, k4⟩ := lookup (rnd := F.rnd) (it := itemsAt (fun s => shadow F.rnd r n s.pos) r.exact S) hL hT.hc hT.hH x
  have k4' : ∀ f > h, Rounded.getContainingLeaf F.rnd f st.heap x = .ok (if (Rounded.boxAt F.rnd r (Rounded.route F.rnd r x k)).contains F.rnd x
      then some (Rounded.route F.rnd r x k) else none) := fun f hf => by
    rw [hheap, q1]; exact k4 f hf
  refine ⟨_, k4', fun l hl => ?_⟩
  have hcon : (Rounded.boxAt F.rnd r (Rounded.route F.rnd r x k)).contains F.rnd x = true := by
    by_contra hno
    rw [if_neg hno] at hl; cases hl
  rw [if_pos hcon] at hl
  cases hl
  have hlen : (Rounded.route F.rnd r x k).length ≤ h := by rw [Rounded.route_length]; exact k1
  refine ⟨⟨hlen, fun ρ hρ => ?_⟩, fun hcl hcW f hff grav cur feps hfe => ?_⟩
  · rw [q3] at hρ
    exact hT.hH ρ (W_geo hT.hA hT.hr hT.hH hρ).1
  have hx := within_contains hF.toOk3.toOk.rnd hu hL hC0 hC hk hlen hcon
  have hperm := PTree.slots_perm (hT.hA.laws hT.hr) q2 hT.hc (fun s : Source 3 => shadow F.rnd r n s.pos) r.exact S k2 k3
  have hlf : IsLeafOf st.heap (Rounded.route F.rnd r x k) := by
    rw [hheap, isLeafOf_lift, q1, isLeafOf_treeHeap]; exact ⟨k2, k3⟩
  have hmW := (hm.2 _ hlf).1
  have hmU := (hm.2 _ hlf).2
  rw [q3] at hmW hmU hcW
  have hne := other_leaf (S := S) hL hn hT.hH k2 k3
  obtain ⟨v, v1, v2⟩ := evalForce hF hκ hf G hT hS hp0 hp hX a4 k2 k3 hmW hmU hperm hx hne hcl hcW grav hfe
  refine ⟨v, ?_, v2⟩
  unfold Rounded.adaptiveEval
  simp only
  rw [k4' f hff, if_pos hcon, ok_bind]
  exact v1

section
open Fl (leafIndices_near route_bshadow bother_leaf own_card)
variable {perCell : ℕ}

/-- **The balanced tree in floating point: forces.** -/
theorem balanced_flt_force (hF : F.OkD u g) (hκ : Cost u g p κ) (hf : FrameCost u g s p κf) {t : Stat3} (ht : t.Good) (hL : 0 < r.len) (hC : ∀ i, |r.center i| ≤ C) {eps : ℝ}
    (hord : Rounded.expansionOrder F.rnd F.rlog (Rounded.totalStrength F.rnd S) eps = .ok p) (hp0 : 0 < p) (hp : p ≤ 42)
    (hht : Rounded.balancedHeight F.rnd F.rlog 3 S.length perCell = .ok h) (h10 : h ≤ 10)
    (hbox : sourceBox F.rnd S = some r)
    (hk : 100 * ((8 * h + 15) * (u * (4 * (C + r.len)))) < r.len / 2 ^ (h + 1))
    (h0 : h = 0 → ∀ s ∈ S, r.exact.contains s.pos) (hx : h = 0 ∨ ∀ s ∈ S, InTree F.rnd r h s.pos) :
    ∃ T : BalancedFmm (kit F), (∀ fuel ≥ off (2 ^ 3) (h + 1), ∀ sch, Schedule sch →
        Rounded.balancedFmm F.rnd F.rlog F.nrm3 (kit F) fuel sch t S perCell eps = .ok T) ∧
      T.order = p ∧ T.height = h ∧ ∀ x grav,
        (∀ e, leafIndices F.rnd r h x = .error e → ∀ feps,
          Rounded.balancedEval F.rnd F.vadd (fun a => -a) (force F feps) grav T x = .error e) ∧
        (∀ idx, leafIndices F.rnd r h x = .ok idx → Clear s (Rounded.boxAt F.rnd r (pathOfGrid h idx)).center x → ∀ feps, 0 ≤ feps →
          ∃ v, Rounded.balancedEval F.rnd F.vadd (fun a => -a) (force F feps) grav T x = .ok v ∧
            ∀ j, |v j - directField grav S x feps j| ≤ forceBound u s κ κf r.exact S p h 27 feps x j) := by
  have hu := hF.nonneg
  have hC0 : 0 ≤ C := (abs_nonneg _).trans (hC 0)
  have hu3 := Fl.small_u hL hC0 hu hk
  have hnrm : ∀ v, 999 / 1000 * Vec.norm v ≤ F.nrm3 v := fun v => by
    have a := (abs_le.mp (hF.toOk3.nrm3 v)).1
    have b : 0 ≤ Vec.norm v := Vec.norm_nonneg v
    nlinarith
  obtain ⟨nb, n1, hT, hmain⟩ := Rel.roundedB_ok (K := kit F) (rlog := F.rlog) (by norm_num) hF.toOk3.toOk.rnd hu hL hC0 hC hnrm hord hht hbox
    (by omega) hk hx
  have G := geo_of (h := h) hF.toOk3.toOk.rnd hu hL hC0 hC hk
  have hS := bsrcs_of (S := S) hF.toOk3.toOk.rnd hu hL hC0 hC hk h0 hx
  have hX : ∀ π, (fullTree r.exact h).Mem π → ((fullTree r.exact h).xl π).length ≤ 27 := fun π hπ => by
    rw [fullTree_xl hL hπ]; simp
  obtain ⟨s0, s1, -, -, a3, a4⟩ := hmain (laws hF.toOk3 hκ G hT.hc hT.hA hT.hH hS hp0 hp hX) t ht
  refine ⟨_, a3, rfl, rfl, fun x grav => ?_⟩
  obtain ⟨n, g1, g2, -⟩ := bfull_get_path r.exact (π := []) (h := h) (fun _ h => by simp at h) (by simp)
  have hroot : ∃ n', (Rounded.liftM (bxB F.rnd r h) (bfull r.exact h)).get (rootAddr h) = .ok n' ∧ toR n'.box = r := by
    refine ⟨{ n with box := bxB F.rnd r h (baddr 3 h []) }, ?_, ?_⟩
    · have : rootAddr h = baddr 3 h [] := by rw [baddr, gidx, ← glob_root (d := 3)]
      rw [this]
      exact Rounded.liftM_get_ok g1
    · show toR (bxB F.rnd r h (baddr 3 h [])) = r
      rw [bxB_baddr (fun _ h => by simp at h)]; rfl
  obtain ⟨n', m1, m2⟩ := hroot
  refine ⟨fun e he feps => ?_, fun idx hi hcl feps hfe => ?_⟩
  · unfold Rounded.balancedEval
    simp only
    rw [m1, ok_bind, m2, he, err_bind]
  have hpl := pathOfGrid_length h idx
  have hpv := pathOfGrid_valid h idx
  have hmem : (fullTree r.exact h).Mem (pathOfGrid h idx) := (fullTree_mem r.exact h _).mpr ⟨hpv, hpl.le⟩
  have hlf : (fullTree r.exact h).leaf (pathOfGrid h idx) = true := by simp [fullTree, hpl]
  have hxw := within_indices hF.toOk3.toOk.rnd hu hL hC0 hC hk hi (List.suffix_refl _)
  have hperm := PTree.slots_perm (hT.hA.laws hT.hr) (fun π hπ => Nat.lt_succ_of_le (hT.hH π hπ)) hT.hc
    (fun s : Source 3 => bshadow F.rnd r h s.pos) r.exact S hmem hlf
  have hne := bother_leaf (S := S) hL hi
  have hmor : getMortonIndex h idx = .ok (pathIndex 3 (pathOfGrid h idx)) := by
    have := getMortonIndex_grid (d := 3) (by norm_num) (pathOfGrid h idx) hpv (by rw [hpl]; omega)
    rwa [hpl, grid_pathOfGrid h idx fun j => (leafIndices_inv hi j).1] at this
  have hmW : (((fullTree r.exact h).nbhAfter ((fullTree r.exact h).order (h + 1))).W (pathOfGrid h idx)).length ≤ 27 := by
    rw [fullTree_W hL]; simp
  have hmU : (((fullTree r.exact h).nbhAfter ((fullTree r.exact h).order (h + 1))).near (pathOfGrid h idx)).length ≤ 27 := by
    rw [fullTree_near hL hmem]
    exact own_card hL hmem
  obtain ⟨v, v1, v2⟩ := evalForce hF hκ hf G hT hS hp0 hp hX a4 hmem hlf hmW hmU hperm hxw hne hcl (fun ρ hρ => by rw [fullTree_W hL] at hρ; simp at hρ) grav hfe
  refine ⟨v, ?_, v2⟩
  rw [baddr_leaf hpl] at v1
  unfold Rounded.balancedEval
  simp only
  rw [m1, ok_bind, m2, hi, ok_bind, hmor, ok_bind]
  exact v1

end
end FMM.Fl3
