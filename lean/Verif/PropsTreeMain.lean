import Verif.TreeMain
import Verif.PropsTestProgs
import Verif.PropsFmm3DForce
import Verif.PropsAccuracy3
import Verif.PropsFltParticles
import Verif.Example3D

/-!
# C104: the program `test/fmm_tree.cpp`

`A S` is the sum of the absolute strengths. The deviations that are printed are described by the deviations `tree i - direct i` of the evaluation of the tree at
source `i`, divided by the direct value: the strength of the source cancels.
-/

namespace FMM.TreeMain
open FMM FMM.TestProgs

variable {S : List (Source 3)} {r : Box 3} {eps : ℝ} {p max : ℕ} {st : Stat3}

theorem root_get {K : Kit 3} {fuel : ℕ} {sch : ℕ → List Path → List Path} {t : K.T} {T : AdaptiveFmm K}
    (h : adaptiveFmm K fuel sch t S max eps = .ok T) (hr : rootBox (S.map Source.pos) = some r) (hl : 0 < r.len ∨ S.length ≤ max) :
    ∃ n, T.heap.get [] = .ok n ∧ n.box = r := by
  obtain ⟨r', st, h1, h2, h3, -⟩ := adaptiveFmm_inv h
  rw [hr] at h1
  injection h1 with h1
  subst h1
  obtain ⟨-, h4, -⟩ := lists_result (fuel := fuel + ((fmmTree Source.pos r S max).order (T.height + 1)).length) hl
    (adaptiveLists_ok hl h2 _ (by omega) (by omega))
  unfold AHeap.get
  rw [h3, h4]
  unfold treeHeap
  rw [if_pos (PTree.mem_nil)]
  exact ⟨_, rfl, rfl⟩

/-- Mean and maximum of a vector of quotients. -/
theorem rel_lists {α : Type} (f : α → α → Outcome ℝ) (g : ℕ → ℝ) (a b : ℕ → α) {n : ℕ} (hn : n ≠ 0) (h : ∀ i < n, f (a i) (b i) = .ok (g i)) :
    ∃ l mean m, transform2 f ((List.range n).map a) ((List.range n).map b) = .ok l ∧ vecAvg l = .ok mean ∧ vecMax l = .ok m ∧
      mean = (∑ i ∈ Finset.range n, g i) / n ∧ (∃ i < n, m = g i) ∧ ∀ i < n, g i ≤ m := by
  have key : ∀ L : List ℕ, (∀ i ∈ L, i < n) → transform2 f (L.map a) (L.map b) = .ok (L.map g) := by
    intro L
    induction L with
    | nil => intro _; rfl
    | cons i L ih =>
      intro hL
      rw [List.map_cons, List.map_cons, transform2, h i (hL i (by simp)), ok_bind, ih fun j hj => hL j (by simp [hj]), ok_bind]
      rfl
  have hne : (List.range n).map g ≠ [] := by simpa using hn
  obtain ⟨m, m1, m2, m3⟩ := vecMax_spec hne
  refine ⟨_, _, m, key (List.range n) (fun i hi => List.mem_range.mp hi), vecAvg_eq hne, m1, ?_, ?_, fun i hi => m3 _ (List.mem_map.mpr ⟨i, List.mem_range.mpr hi, rfl⟩)⟩
  · rw [List.length_map, List.length_range, Finset.sum_range, ← List.sum_ofFn]
    congr 2
    rw [List.ofFn_eq_map, ← List.map_coe_finRange_eq_range, List.map_map]
    rfl
  · obtain ⟨i, hi, e⟩ := List.mem_map.mp m2
    exact ⟨i, List.mem_range.mp hi, e.symm⟩

theorem refE_eq (hS : Distinct S) {refE : ℕ → ℝ} (h : EnergyResult true S refE) {i : ℕ} (hi : i < S.length) :
    refE i = S[i].q * directPotential true S S[i].pos := by
  have := (C35_pairwise_energies true S hS).2 refE h ⟨i, hi⟩
  rw [this, ← Finset.mul_sum]
  congr 1
  unfold directPotential
  rw [show (S.map (directTerm true S[i].pos)).sum = ∑ j : Fin S.length, directTerm true S[i].pos (S.get j) by
    rw [← List.sum_ofFn]; congr 1; apply List.ext_getElem <;> simp]
  rw [← Finset.add_sum_erase _ _ (Finset.mem_univ (⟨i, hi⟩ : Fin S.length))]
  rw [show directTerm true S[i].pos (S.get ⟨i, hi⟩) = 0 by unfold directTerm; rw [if_pos (by rfl)], zero_add]
  refine Finset.sum_congr rfl fun j hj => ?_
  have hne := hS j ⟨i, hi⟩ (Finset.ne_of_mem_erase hj)
  unfold directTerm
  rw [if_neg (by simpa using hne)]
  rfl

theorem refF_eq (hS : Distinct S) {refF : ℕ × Fin 3 → ℝ} {feps : ℝ} (hf : 0 ≤ feps) (h : ForceResult true S feps refF) {i : ℕ} (hi : i < S.length) :
    (fun k => refF (i, k)) = Vec.scale (directField true S S[i].pos feps) S[i].q := by
  funext k
  have := (C36_pairwise_forces true S hS feps hf).2 refF h ⟨i, hi⟩ k
  rw [this, ← Finset.mul_sum]
  unfold Vec.scale
  rw [mul_comm]
  congr 1
  unfold directField
  rw [show (S.map (directFieldTerm true S[i].pos feps)).sum = ∑ j : Fin S.length, directFieldTerm true S[i].pos feps (S.get j) by
    rw [← List.sum_ofFn]; congr 1; apply List.ext_getElem <;> simp]
  rw [← Finset.add_sum_erase _ _ (Finset.mem_univ (⟨i, hi⟩ : Fin S.length))]
  rw [show directFieldTerm true S[i].pos feps (S.get ⟨i, hi⟩) = 0 by unfold directFieldTerm; rw [if_pos (by rfl)], zero_add, Finset.sum_apply]
  refine Finset.sum_congr rfl fun j hj => ?_
  have hne := hS j ⟨i, hi⟩ (Finset.ne_of_mem_erase hj)
  unfold directFieldTerm
  rw [if_neg (by simpa using hne)]
  rfl

theorem norm_sub_scale (a b : Vec 3) (c : ℝ) : Vec.norm (Vec.sub (Vec.scale a c) (Vec.scale b c)) = |c| * dist2 a b := by
  rw [norm_sub_eq_dist2]
  have : ∀ v : Vec 3, Vec.scale v c = fun j => c * v j := fun v => by funext j; simp [Vec.scale, mul_comm]
  rw [this, this, Glue.dist2_smul]

theorem norm_scale (a : Vec 3) (c : ℝ) : Vec.norm (Vec.scale a c) = |c| * dist2 a 0 := by
  have h := norm_sub_scale a 0 c
  have e : Vec.sub (Vec.scale a c) (Vec.scale (0 : Vec 3) c) = Vec.scale a c := by
    funext j; simp [Vec.sub, Vec.scale, mul_comm]
  rwa [e] at h

theorem relPot_ok {q a b : ℝ} (hq : q ≠ 0) (hb : b ≠ 0) : relPot (q * a) (q * b) = .ok (|a - b| / |b|) := by
  unfold relPot fdiv
  rw [if_neg (mul_ne_zero hq hb), ok_bind, ← mul_sub, mul_div_mul_left _ _ hq, abs_div]

theorem relFrc_ok {q : ℝ} {a b : Vec 3} (hq : q ≠ 0) (hb : b ≠ 0) : relFrc (Vec.scale a q) (Vec.scale b q) = .ok (dist2 a b / dist2 b 0) := by
  unfold relFrc fdiv
  have hq' : |q| ≠ 0 := by simpa using hq
  rw [norm_scale, norm_sub_scale, if_neg (mul_ne_zero hq' fun h => hb ((dist2_eq_zero_iff _ _).mp h)), mul_div_mul_left _ _ hq']

/-- The tree of the program, with both kinds of evaluation. -/
theorem tree (ht : Reachable3 st) (hI : AdaptiveInput S max r) (hord : expansionOrder (totalStrength S) eps = .ok p) (hp0 : 1 ≤ p) (hp : p ≤ 42) :
    ∃ (fuel0 : ℕ) (T : AdaptiveFmm kit3), (∀ fuel ≥ fuel0, ∀ sch, Schedule sch → adaptiveFmm kit3 fuel sch st S max eps = .ok T) ∧ T.order = p ∧
      (∀ x, r.contains x → ∃ v, (∀ fuel ≥ fuel0, adaptiveEval pot3 fuel true T S x = .ok v) ∧
        |v - directPotential true S x| ≤ (S.map fun s => |s.q|).sum * errPot3 p (r.len / 2 ^ T.height)) ∧
      ∀ x, r.contains x → (∀ k ≤ T.height, ¬ Aligned r k x) → ∃ v, (∀ fuel ≥ fuel0, adaptiveEval (force3 0) fuel true T S x = .ok v) ∧
        dist2 v (directField true S x 0) ≤ (S.map fun s => |s.q|).sum * errForce3 p (r.len / 2 ^ T.height) := by
  obtain ⟨f1, T1, a1, a2, a3, -⟩ := C53_adaptive ht hI hord hp0 hp
  obtain ⟨f2, T2, b1, -, b3, -⟩ := C58_adaptive ht hI hord hp0 hp
  have hid : Schedule (fun _ (l : List Path) => l) := fun _ l => List.Perm.refl l
  have e : T1 = T2 := by
    have h1 := a1 (Max.max f1 f2) (le_max_left _ _) _ hid
    rw [b1 (Max.max f1 f2) (le_max_right _ _) _ hid] at h1
    exact (Except.ok.inj h1).symm
  subst e
  refine ⟨Max.max f1 f2, T1, fun fuel hf => a1 fuel (le_trans (le_max_left _ _) hf), a2, fun x hx => ?_, fun x hx hal => ?_⟩
  · obtain ⟨v, v1, v2⟩ := a3 x hx true S
    exact ⟨v, fun fuel hf => v1 fuel (le_trans (le_max_left _ _) hf), v2⟩
  · obtain ⟨v, v1, v2⟩ := b3 x hx hal true S
    exact ⟨v, fun fuel hf => v1 fuel (le_trans (le_max_right _ _) hf), v2⟩

/-- What a run prints: `v i` and `w i` are the values of potential and field computed by the tree at source `i`. -/
structure Describes (S : List (Source 3)) (r : Box 3) (p h : ℕ) (v : ℕ → ℝ) (w : ℕ → Vec 3) (rep : Report) : Prop where
  order : rep.order = p
  height : rep.height = h
  center : rep.center = r.center
  len : rep.len = r.len
  pot : rep.pot = v 1
  frc : rep.frc = w 1
  potRef : ∀ h1 : 1 < S.length, rep.potRef = directPotential true S S[1].pos
  frcRef : ∀ h1 : 1 < S.length, rep.frcRef = directField true S S[1].pos 0
  meanPot : rep.meanPot = (∑ i : Fin S.length, |v i - directPotential true S S[i].pos| / |directPotential true S S[i].pos|) / S.length
  maxPot : IsGreatest (Set.range fun i : Fin S.length => |v i - directPotential true S S[i].pos| / |directPotential true S S[i].pos|) rep.maxPot
  meanFrc : rep.meanFrc = (∑ i : Fin S.length, dist2 (w i) (directField true S S[i].pos 0) / dist2 (directField true S S[i].pos 0) 0) / S.length
  maxFrc : IsGreatest (Set.range fun i : Fin S.length => dist2 (w i) (directField true S S[i].pos 0) / dist2 (directField true S S[i].pos 0) 0) rep.maxFrc

/-- The strengths and the direct sums at the sources are not zero. -/
def NonZero (S : List (Source 3)) : Prop := ∀ s ∈ S, s.q ≠ 0 ∧ directPotential true S s.pos ≠ 0 ∧ directField true S s.pos 0 ≠ 0

/-- **C104** The second part of the program, for all sources: if the positions are distinct, not vertically aligned with centres of boxes, and no reference value
vanishes, the report is complete and the same for all schedules of all parallel loops, including those of the direct sums. -/
theorem C104_report (ht : Reachable3 st) (hI : AdaptiveInput S max r) (hS : Distinct S) (hN : 2 ≤ S.length)
    (hord : expansionOrder (totalStrength S) eps = .ok p) (hp0 : 1 ≤ p) (hp : p ≤ 42) (hnz : NonZero S) :
    ∃ fuel0 h, (∀ s ∈ S, ∀ k ≤ h, ¬ Aligned r k s.pos) → ∃ rep v w,
      (∀ fuel ≥ fuel0, ∀ sch, Schedule sch → ∀ ordE ordF : List ℕ, ordE.Perm (List.range S.length) → ordF.Perm (List.range S.length) →
        ∀ refE refF, EnergyResult true S refE → ForceResult true S 0 refF → report fuel sch ordE ordF refE refF st S max eps 0 = .ok rep) ∧
      Describes S r p h v w rep ∧
      (∀ i : Fin S.length, |v i - directPotential true S S[i].pos| ≤ (S.map fun s => |s.q|).sum * errPot3 p (r.len / 2 ^ h)) ∧
      ∀ i : Fin S.length, dist2 (w i) (directField true S S[i].pos 0) ≤ (S.map fun s => |s.q|).sum * errForce3 p (r.len / 2 ^ h) := by
  obtain ⟨f0, T, a1, a2, a3, a4⟩ := tree ht hI hord hp0 hp
  have hlen : 0 < r.len ∨ S.length ≤ max := by
    by_cases h : S.length ≤ max
    · exact Or.inr h
    · exact Or.inl (hI.len_pos (by omega))
  refine ⟨f0, T.height, fun hal => ?_⟩
  have hin : ∀ i (hi : i < S.length), r.contains S[i].pos := fun i hi => hI.inside _ (List.getElem_mem hi)
  have hv' : ∀ i, ∃ v, ∀ hi : i < S.length, (∀ fuel ≥ f0, adaptiveEval pot3 fuel true T S S[i].pos = .ok v) ∧
      |v - directPotential true S S[i].pos| ≤ (S.map fun s => |s.q|).sum * errPot3 p (r.len / 2 ^ T.height) := fun i => by
    by_cases hi : i < S.length
    · obtain ⟨v, hv⟩ := a3 _ (hin i hi)
      exact ⟨v, fun _ => hv⟩
    · exact ⟨0, fun h => absurd h hi⟩
  have hw' : ∀ i, ∃ w, ∀ hi : i < S.length, (∀ fuel ≥ f0, adaptiveEval (force3 0) fuel true T S S[i].pos = .ok w) ∧
      dist2 w (directField true S S[i].pos 0) ≤ (S.map fun s => |s.q|).sum * errForce3 p (r.len / 2 ^ T.height) := fun i => by
    by_cases hi : i < S.length
    · obtain ⟨w, hw⟩ := a4 _ (hin i hi) (hal _ (List.getElem_mem hi))
      exact ⟨w, fun _ => hw⟩
    · exact ⟨0, fun h => absurd h hi⟩
  choose v hv using hv'
  choose w hw using hw'
  set gP : ℕ → ℝ := fun i => if hi : i < S.length then |v i - directPotential true S S[i].pos| / |directPotential true S S[i].pos| else 0 with hgP
  set gF : ℕ → ℝ := fun i => if hi : i < S.length then dist2 (w i) (directField true S S[i].pos 0) / dist2 (directField true S S[i].pos 0) 0 else 0 with hgF
  have h0 : S.length ≠ 0 := by omega
  set qv : ℕ → ℝ := fun i => if hi : i < S.length then S[i].q * v i else 0 with hqv
  set qw : ℕ → Vec 3 := fun i => if hi : i < S.length then Vec.scale (w i) S[i].q else 0 with hqw
  set qd : ℕ → ℝ := fun i => if hi : i < S.length then S[i].q * directPotential true S S[i].pos else 0 with hqd
  set qf : ℕ → Vec 3 := fun i => if hi : i < S.length then Vec.scale (directField true S S[i].pos 0) S[i].q else 0 with hqf
  obtain ⟨lP, mP, xP, p1, p2, p3, p4, p5, p6⟩ := rel_lists relPot gP qv qd h0 (fun i hi => by
    rw [hqv, hqd, hgP]
    simp only [dif_pos hi]
    obtain ⟨n1, n2, -⟩ := hnz _ (List.getElem_mem hi)
    exact relPot_ok n1 n2)
  obtain ⟨lF, mF, xF, q1, q2, q3, q4, q5, q6⟩ := rel_lists relFrc gF qw qf h0 (fun i hi => by
    rw [hqw, hqf, hgF]
    simp only [dif_pos hi]
    obtain ⟨n1, -, n2⟩ := hnz _ (List.getElem_mem hi)
    exact relFrc_ok n1 n2)
  have h1 : 1 < S.length := by omega
  obtain ⟨n, n1, n2⟩ := root_get (a1 f0 le_rfl (fun _ l => l) fun _ l => List.Perm.refl l) hI.box hlen
  refine ⟨⟨p, T.height, r.center, r.len, v 1, directPotential true S S[1].pos, w 1, directField true S S[1].pos 0, mP, xP, mF, xF⟩, v, w, ?_, ?_,
    fun i => (hv i i.isLt).2, fun i => (hw i i.isLt).2⟩
  · intro fuel hf sch hsch ordE ordF hE hF refE refF rE rF
    unfold report
    rw [a1 fuel hf sch hsch, ok_bind, n1, ok_bind, show vecGet S 1 = .ok S[1] by unfold vecGet; rw [List.getElem?_eq_getElem h1], ok_bind]
    dsimp only
    rw [(hv 1 h1).1 fuel hf, ok_bind, potentialSum_safe, ok_bind, (hw 1 h1).1 fuel hf, ok_bind, forcefieldSum_safe _ _ _ _ le_rfl, ok_bind]
    obtain ⟨res, e1, e2, e3⟩ := C37_tree_particles (fun q v => q * v) (adaptiveEval pot3 fuel true T S) S v (fun i hi => (hv i hi).1 fuel hf) ordE hE
    obtain ⟨resF, g1, g2, g3⟩ := C37_tree_particles (fun q (v : Vec 3) => Vec.scale v q) (adaptiveEval (force3 0) fuel true T S) S w
      (fun i hi => (hw i hi).1 fuel hf) ordF hF
    rw [e1, ok_bind, g1, ok_bind, e2, g2]
    have c1 : (List.range S.length).map res.val = (List.range S.length).map qv := List.map_congr_left fun i hi => by
      have hi := List.mem_range.mp hi
      rw [e3 i hi, hqv]; simp only [dif_pos hi]
    have c2 : (List.range S.length).map resF.val = (List.range S.length).map qw := List.map_congr_left fun i hi => by
      have hi := List.mem_range.mp hi
      rw [g3 i hi, hqw]; simp only [dif_pos hi]
    have c3 : (List.range S.length).map refE = (List.range S.length).map qd := List.map_congr_left fun i hi => by
      have hi := List.mem_range.mp hi
      rw [refE_eq hS rE hi, hqd]; simp only [dif_pos hi]
    have c4 : (List.range S.length).map (fun i => fun k => refF (i, k)) = (List.range S.length).map qf := List.map_congr_left fun i hi => by
      have hi := List.mem_range.mp hi
      rw [refF_eq hS le_rfl rF hi, hqf]; simp only [dif_pos hi]
    rw [c1, c2, c3, c4, p1, ok_bind, q1, ok_bind, p2, ok_bind, p3, ok_bind, q2, ok_bind, q3, ok_bind, a2, n2]
  · refine ⟨rfl, rfl, rfl, rfl, rfl, rfl, fun _ => rfl, fun _ => rfl, ?_, ?_, ?_, ?_⟩
    · show mP = _
      rw [p4, Finset.sum_range]
      congr 1
      exact Finset.sum_congr rfl fun i _ => by rw [hgP]; simp only [dif_pos i.isLt]; rfl
    · constructor
      · obtain ⟨i, hi, e⟩ := p5
        exact ⟨⟨i, hi⟩, by show _ = xP; rw [e, hgP]; simp only [dif_pos hi]; rfl⟩
      · rintro _ ⟨i, rfl⟩
        have := p6 i i.isLt
        rw [hgP] at this
        simp only [dif_pos i.isLt] at this
        exact this
    · show mF = _
      rw [q4, Finset.sum_range]
      congr 1
      exact Finset.sum_congr rfl fun i _ => by rw [hgF]; simp only [dif_pos i.isLt]; rfl
    · constructor
      · obtain ⟨i, hi, e⟩ := q5
        exact ⟨⟨i, hi⟩, by show _ = xF; rw [e, hgF]; simp only [dif_pos hi]; rfl⟩
      · rintro _ ⟨i, rfl⟩
        have := q6 i i.isLt
        rw [hgF] at this
        simp only [dif_pos i.isLt] at this
        exact this

/-- **C104** The largest relative deviation of the potential is at most the absolute error bound divided by the smallest direct value; the mean is at most the
maximum. -/
theorem C104_deviation {S : List (Source 3)} {r : Box 3} {p h : ℕ} {v : ℕ → ℝ} {w : ℕ → Vec 3} {rep : Report} (D : Describes S r p h v w rep)
    (hN : S ≠ []) :
    (∀ B m, 0 < m → 0 ≤ B → (∀ i : Fin S.length, |v i - directPotential true S S[i].pos| ≤ B) → (∀ s ∈ S, m ≤ |directPotential true S s.pos|) → rep.maxPot ≤ B / m) ∧
    (∀ B m, 0 < m → 0 ≤ B → (∀ i : Fin S.length, dist2 (w i) (directField true S S[i].pos 0) ≤ B) → (∀ s ∈ S, m ≤ dist2 (directField true S s.pos 0) 0) → rep.maxFrc ≤ B / m) ∧
    0 ≤ rep.meanPot ∧ rep.meanPot ≤ rep.maxPot ∧ 0 ≤ rep.meanFrc ∧ rep.meanFrc ≤ rep.maxFrc := by
  have hn : (0 : ℝ) < S.length := by exact_mod_cast List.length_pos_iff.mpr hN
  have mean : ∀ (g : Fin S.length → ℝ) (m : ℝ), (∀ i, g i ≤ m) → (∑ i, g i) / S.length ≤ m := by
    intro g m h
    rw [div_le_iff₀ hn]
    refine (Finset.sum_le_sum fun i _ => h i).trans (le_of_eq ?_)
    simp [mul_comm]
  refine ⟨fun B m hm hB h1 h2 => ?_, fun B m hm hB h1 h2 => ?_, ?_, ?_, ?_, ?_⟩
  · obtain ⟨i, e⟩ := D.maxPot.1
    rw [← e]
    exact div_le_div₀ hB (h1 i) hm (h2 _ (List.getElem_mem i.isLt))
  · obtain ⟨i, e⟩ := D.maxFrc.1
    rw [← e]
    exact div_le_div₀ hB (h1 i) hm (h2 _ (List.getElem_mem i.isLt))
  · rw [D.meanPot]; exact div_nonneg (Finset.sum_nonneg fun i _ => by positivity) hn.le
  · rw [D.meanPot]; exact mean _ _ fun i => D.maxPot.2 ⟨i, rfl⟩
  · rw [D.meanFrc]; exact div_nonneg (Finset.sum_nonneg fun i _ => div_nonneg (dist2_nonneg _ _) (dist2_nonneg _ _)) hn.le
  · rw [D.meanFrc]; exact mean _ _ fun i => D.maxFrc.2 ⟨i, rfl⟩

/-! ## Reports that are not finite -/

theorem relPot_or (a b : ℝ) : (∃ v, relPot a b = .ok v) ∨ relPot a b = .error .nonFinite := by
  unfold relPot fdiv
  by_cases h : b = 0
  · right; rw [if_pos h, err_bind]
  · left; rw [if_neg h, ok_bind]; exact ⟨_, rfl⟩

theorem transform2_fails (a b : ℕ → ℝ) {n : ℕ} (h : ∃ i < n, b i = 0) :
    transform2 relPot ((List.range n).map a) ((List.range n).map b) = .error .nonFinite := by
  have key : ∀ L : List ℕ, (∃ i ∈ L, b i = 0) → transform2 relPot (L.map a) (L.map b) = .error .nonFinite := by
    intro L
    induction L with
    | nil => rintro ⟨i, hi, -⟩; simp at hi
    | cons i L ih =>
      rintro ⟨j, hj, hb⟩
      rw [List.map_cons, List.map_cons, transform2]
      rcases relPot_or (a i) (b i) with ⟨v, hv⟩ | hv
      · rw [hv, ok_bind]
        rcases List.mem_cons.mp hj with rfl | hj
        · unfold relPot fdiv at hv
          rw [if_pos hb, err_bind] at hv
          cases hv
        · rw [ih ⟨j, hj, hb⟩, err_bind]
      · rw [hv, err_bind]
  obtain ⟨i, hi, hb⟩ := h
  exact key _ ⟨i, List.mem_range.mpr hi, hb⟩

/-- **C104** One source of strength zero (or with direct potential zero) is enough for the mean and the maximum not to be numbers. -/
theorem C104_nan (ht : Reachable3 st) (hI : AdaptiveInput S max r) (hS : Distinct S) (hN : 2 ≤ S.length)
    (hord : expansionOrder (totalStrength S) eps = .ok p) (hp0 : 1 ≤ p) (hp : p ≤ 42) (hz : ∃ s ∈ S, s.q * directPotential true S s.pos = 0) :
    ∃ fuel0 h, (∀ s ∈ S, ∀ k ≤ h, ¬ Aligned r k s.pos) →
      ∀ fuel ≥ fuel0, ∀ sch, Schedule sch → ∀ ordE ordF : List ℕ, ordE.Perm (List.range S.length) → ordF.Perm (List.range S.length) →
        ∀ refE refF, EnergyResult true S refE → report fuel sch ordE ordF refE refF st S max eps 0 = .error .nonFinite := by
  obtain ⟨f0, T, a1, a2, a3, a4⟩ := tree ht hI hord hp0 hp
  have hlen : 0 < r.len ∨ S.length ≤ max := by
    by_cases h : S.length ≤ max
    · exact Or.inr h
    · exact Or.inl (hI.len_pos (by omega))
  refine ⟨f0, T.height, fun hal => ?_⟩
  have hin : ∀ i (hi : i < S.length), r.contains S[i].pos := fun i hi => hI.inside _ (List.getElem_mem hi)
  have h1 : 1 < S.length := by omega
  obtain ⟨n, n1, n2⟩ := root_get (a1 f0 le_rfl (fun _ l => l) fun _ l => List.Perm.refl l) hI.box hlen
  intro fuel hf sch hsch ordE ordF hE hF refE refF rE
  have hv' : ∀ i, ∃ v, ∀ hi : i < S.length, adaptiveEval pot3 fuel true T S S[i].pos = .ok v := fun i => by
    by_cases hi : i < S.length
    · obtain ⟨v, hv, -⟩ := a3 _ (hin i hi)
      exact ⟨v, fun _ => hv fuel hf⟩
    · exact ⟨0, fun h => absurd h hi⟩
  have hw' : ∀ i, ∃ w, ∀ hi : i < S.length, adaptiveEval (force3 0) fuel true T S S[i].pos = .ok w := fun i => by
    by_cases hi : i < S.length
    · obtain ⟨w, hw, -⟩ := a4 _ (hin i hi) (hal _ (List.getElem_mem hi))
      exact ⟨w, fun _ => hw fuel hf⟩
    · exact ⟨0, fun h => absurd h hi⟩
  choose v hv using hv'
  choose w hw using hw'
  unfold report
  rw [a1 fuel hf sch hsch, ok_bind, n1, ok_bind, show vecGet S 1 = .ok S[1] by unfold vecGet; rw [List.getElem?_eq_getElem h1], ok_bind]
  dsimp only
  rw [hv 1 h1, ok_bind, potentialSum_safe, ok_bind, hw 1 h1, ok_bind, forcefieldSum_safe _ _ _ _ le_rfl, ok_bind]
  obtain ⟨res, e1, e2, -⟩ := C37_tree_particles (fun q v => q * v) (adaptiveEval pot3 fuel true T S) S v (fun i hi => hv i hi) ordE hE
  obtain ⟨resF, g1, -⟩ := C37_tree_particles (fun q (v : Vec 3) => Vec.scale v q) (adaptiveEval (force3 0) fuel true T S) S w (fun i hi => hw i hi) ordF hF
  obtain ⟨s, hs, hz⟩ := hz
  obtain ⟨i, hi, rfl⟩ := List.getElem_of_mem hs
  rw [e1, ok_bind, g1, ok_bind, e2, transform2_fails _ _ ⟨i, hi, by rw [refE_eq hS rE hi, hz]⟩, err_bind]

/-- **C104** If the second source is exactly above or below the centre of its leaf the program is terminated after the first two numbers. -/
theorem C104_aborts (ht : Reachable3 st) (hI : AdaptiveInput S max r) (hN : max < S.length) (h2 : 2 ≤ S.length)
    (hord : expansionOrder (totalStrength S) eps = .ok p) (hp0 : 1 ≤ p) (hp : p ≤ 42) :
    ∃ (fuel0 : ℕ) (T : AdaptiveFmm kit3),
      (∀ fuel ≥ fuel0, ∀ sch, Schedule sch → adaptiveFmm kit3 fuel sch st S max eps = .ok T) ∧
      ∀ π, (∀ fuel > T.height, getContainingLeaf fuel T.heap S[1].pos = .ok (some π)) →
        S[1].pos 0 = (boxAt r π).center 0 → S[1].pos 1 = (boxAt r π).center 1 →
        ∀ fuel ≥ fuel0, ∀ sch, Schedule sch → ∀ ordE ordF refE refF, report fuel sch ordE ordF refE refF st S max eps 0 = .error .gslAbort := by
  obtain ⟨f1, T1, a1, a2, a3, a4⟩ := tree ht hI hord hp0 hp
  obtain ⟨f2, T2, b1, b3⟩ := C54_adaptive_aborts ht hI hN hord hp0 hp 0
  have hid : Schedule (fun _ (l : List Path) => l) := fun _ l => List.Perm.refl l
  have e : T1 = T2 := by
    have h1 := a1 (Max.max f1 f2) (le_max_left _ _) _ hid
    rw [b1 (Max.max f1 f2) (le_max_right _ _) _ hid] at h1
    exact (Except.ok.inj h1).symm
  subst e
  refine ⟨Max.max f1 f2, T1, fun fuel hf => a1 fuel (le_trans (le_max_left _ _) hf), fun π hπ c0 c1 fuel hf sch hsch ordE ordF refE refF => ?_⟩
  have hx := hI.inside _ (List.getElem_mem (show 1 < S.length by omega))
  obtain ⟨v, v1, -⟩ := a3 _ hx
  obtain ⟨n, n1, n2⟩ := root_get (a1 f1 le_rfl (fun _ l => l) hid) hI.box (Or.inl (hI.len_pos hN))
  unfold report
  rw [a1 fuel (le_trans (le_max_left _ _) hf) sch hsch, ok_bind, n1, ok_bind,
    show vecGet S 1 = .ok S[1] by unfold vecGet; rw [List.getElem?_eq_getElem (by omega)], ok_bind]
  dsimp only
  rw [v1 fuel (le_trans (le_max_left _ _) hf), ok_bind, potentialSum_safe, ok_bind,
    b3 _ hx π hπ c0 c1 true S fuel (le_trans (le_max_right _ _) hf), err_bind]

/-! ## The program -/

/-- The position of source `i`: a point of the cube with side 5, moved by 5 or 7.5 in the direction of child `pick i`. -/
noncomputable def pos (R : ℕ → ℝ) (coin : ℕ → Bool) (pick : ℕ → Fin (2 ^ 3)) (i : ℕ) : Vec 3 := fun j =>
  5 * (R (4 * i + j) - 1 / 2) + (if (pick i : ℕ).testBit (2 - j) then 1 else -1) * (if coin (pick i) then 5 else 15 / 2)

/-- The sum of the absolute strengths. -/
noncomputable def total (R : ℕ → ℝ) (N : ℕ) : ℝ := ∑ i ∈ Finset.range N, |R (4 * i + 3)|

theorem srcs_eq (N : ℕ) (R : ℕ → ℝ) (coin : ℕ → Bool) (pick : ℕ → Fin (2 ^ 3)) :
    srcs N R coin pick = (List.range N).map fun i => (⟨pos R coin pick i, R (4 * i + 3) * (if i % 2 = 1 then 1 else -1)⟩ : Source 3) := by
  have h : ∀ i, (⟨pos R coin pick i, R (4 * i + 3) * (if i % 2 = 1 then 1 else -1)⟩ : Source 3)
      = ⟨Vec.add (fun j => 5 * R ((3 + 1) * i + j) - 5 / 2) (Vec.scale (childDir 3 (pick i)) ((if coin (pick i) then 1 else 1.5) * 5)),
        R ((3 + 1) * i + 3) * (if i % 2 = 1 then 1 else -1)⟩ := by
    intro i
    congr 1
    funext j
    simp only [pos, Vec.add, Vec.scale, childDir, show 3 - (j : ℕ) - 1 = 2 - j by omega]
    split_ifs <;> norm_num <;> ring
  rw [List.map_congr_left fun i _ => h i]
  unfold srcs genTree
  induction N with
  | zero => rfl
  | succ n ih =>
    rw [loopN_succ, ih, List.range_succ, List.map_append, List.map_singleton]
    rfl

theorem total_eq (N : ℕ) (R : ℕ → ℝ) (coin : ℕ → Bool) (pick : ℕ → Fin (2 ^ 3)) : ((srcs N R coin pick).map fun s => |s.q|).sum = total R N := by
  rw [srcs_eq, List.map_map, total]
  have : ∀ i : ℕ, |R (4 * i + 3) * (if i % 2 = 1 then 1 else -1)| = |R (4 * i + 3)| := by
    intro i
    rw [abs_mul]
    split_ifs <;> simp
  rw [Finset.sum_range, ← List.sum_ofFn]
  congr 1
  rw [List.ofFn_eq_map, ← List.map_coe_finRange_eq_range, List.map_map]
  exact List.map_congr_left fun i _ => this i

theorem total_le {R : ℕ → ℝ} (hR : ∀ n, R n ∈ Set.Icc (0 : ℝ) 1) (N : ℕ) : total R N ≤ N := by
  unfold total
  calc _ ≤ ∑ _i ∈ Finset.range N, (1 : ℝ) := Finset.sum_le_sum fun i _ => by rw [abs_of_nonneg (hR _).1]; exact (hR _).2
    _ = N := by simp

/-- In every coordinate there is a source on either side of the origin, or on it. -/
def Around (S : List (Source 3)) : Prop := ∀ j, (∃ s ∈ S, s.pos j ≤ 0) ∧ ∃ s ∈ S, 0 ≤ s.pos j

theorem distinct_mult (hS : Distinct S) (x : Vec 3) : (S.filter fun s => decide (s.pos = x)).length ≤ 1 := by
  have hnd : (S.map Source.pos).Nodup := by
    rw [List.nodup_iff_injective_get]
    intro i j h
    have hi : (i : ℕ) < S.length := by simpa using i.isLt
    have hj : (j : ℕ) < S.length := by simpa using j.isLt
    by_contra hne
    refine hS ⟨i, hi⟩ ⟨j, hj⟩ (fun e => hne (Fin.ext (by simpa using e))) ?_
    simpa using h
  rw [← List.countP_eq_length_filter]
  have : List.countP (fun s : Source 3 => decide (s.pos = x)) S = (S.map Source.pos).count x := by
    rw [List.count, List.countP_map]
    refine List.countP_congr fun s _ => ?_
    simp
  rw [this]
  exact List.nodup_iff_count_le_one.mp hnd x

theorem input (ha : Around S) (hS : Distinct S) (hm : 1 ≤ max) : ∃ r, AdaptiveInput S max r := by
  obtain ⟨r, a1, a2, -⟩ := C04_contains_partial (S.map Source.pos) (by
    obtain ⟨⟨s, hs, -⟩, -⟩ := ha 0
    exact List.ne_nil_of_mem (List.mem_map_of_mem hs)) (fun j => by
    obtain ⟨⟨s, hs, h1⟩, ⟨t, ht, h2⟩⟩ := ha j
    exact ⟨⟨_, List.mem_map_of_mem hs, h1⟩, ⟨_, List.mem_map_of_mem ht, h2⟩⟩)
  exact ⟨r, a1, fun s hs => a2 _ (List.mem_map_of_mem hs), fun x => (distinct_mult hS x).trans hm⟩

/-- **C104** The program: whatever the random numbers are, if the sources surround the origin, are distinct, not vertically aligned with centres of boxes, have no
vanishing strength or direct value and the strengths add up to more than 1/1000, the order is between 1 and 28, the report is complete, the same for all
schedules, the potentials printed for the second source differ by at most `A rho^(p+1)/((2-√3) b)`, and the largest relative deviation is at most this number divided
by the smallest direct potential. -/
theorem C104_main {N : ℕ} (h2 : 2 ≤ N) (hN : N ≤ 150000) (ht : Reachable3 st) {R : ℕ → ℝ} (hR : ∀ n, R n ∈ Set.Icc (0 : ℝ) 1) {coin : ℕ → Bool} {pick : ℕ → Fin (2 ^ 3)}
    (ha : Around (srcs N R coin pick)) (hS : Distinct (srcs N R coin pick)) (hnz : NonZero (srcs N R coin pick)) (hA : 1 / 1000 < total R N) :
    ∃ r p fuel0 h, rootBox ((srcs N R coin pick).map Source.pos) = some r ∧ 1 ≤ p ∧ p ≤ 28 ∧
      ((∀ s ∈ srcs N R coin pick, ∀ k ≤ h, ¬ Aligned r k s.pos) → ∃ rep,
        (∀ fuel ≥ fuel0, ∀ sch, Schedule sch → ∀ ordE ordF : List ℕ, ordE.Perm (List.range N) → ordF.Perm (List.range N) → ∀ refE refF,
          EnergyResult true (srcs N R coin pick) refE → ForceResult true (srcs N R coin pick) 0 refF →
          main N fuel sch ordE ordF refE refF st R coin pick = .ok rep) ∧
        rep.order = p ∧ rep.height = h ∧ rep.center = r.center ∧ rep.len = r.len ∧
        rep.potRef = directPotential true (srcs N R coin pick) (pos R coin pick 1) ∧ rep.frcRef = directField true (srcs N R coin pick) (pos R coin pick 1) 0 ∧
        |rep.pot - rep.potRef| ≤ total R N * errPot3 p (r.len / 2 ^ h) ∧ dist2 rep.frc rep.frcRef ≤ total R N * errForce3 p (r.len / 2 ^ h) ∧
        0 ≤ rep.meanPot ∧ rep.meanPot ≤ rep.maxPot ∧ 0 ≤ rep.meanFrc ∧ rep.meanFrc ≤ rep.maxFrc ∧
        (∀ m, 0 < m → (∀ i < N, m ≤ |directPotential true (srcs N R coin pick) (pos R coin pick i)|) → rep.maxPot ≤ total R N * errPot3 p (r.len / 2 ^ h) / m) ∧
        ∀ m, 0 < m → (∀ i < N, m ≤ dist2 (directField true (srcs N R coin pick) (pos R coin pick i) 0) 0) →
          rep.maxFrc ≤ total R N * errForce3 p (r.len / 2 ^ h) / m) := by
  have hlen : (srcs N R coin pick).length = N := by rw [srcs_eq]; simp
  have hA1 : total R N ≤ N := total_le hR N
  have hN' : (N : ℝ) ≤ 150000 := by exact_mod_cast hN
  have hget : ∀ i (hi : i < (srcs N R coin pick).length), (srcs N R coin pick)[i].pos = pos R coin pick i := fun i hi => by
    have : ∀ (L : List (Source 3)) (hi : i < L.length), L = (List.range N).map (fun i => (⟨pos R coin pick i, R (4 * i + 3) * (if i % 2 = 1 then 1 else -1)⟩ : Source 3)) →
        L[i].pos = pos R coin pick i := by rintro L hi rfl; simp
    exact this _ hi (srcs_eq N R coin pick)
  obtain ⟨r, hI⟩ := input (max := 2000) ha hS (by norm_num)
  obtain ⟨p, o1, o2, o3⟩ := C24_order (total R N) 0.001 (by norm_num) (by norm_num at hA ⊢; linarith) (by
    have : (2 : ℝ) ^ 28 ≤ 2 ^ (2 ^ 32 - 1) := pow_le_pow_right₀ (by norm_num) (by norm_num)
    generalize (2 : ℝ) ^ (2 ^ 32 - 1) = Z at this ⊢
    norm_num at this ⊢
    linarith)
  have hp0 : 1 ≤ p := by
    by_contra h
    have : p = 0 := by omega
    subst this
    norm_num at o2 hA
    linarith
  have hp : p ≤ 28 := by
    by_contra h
    have := o3 28 (by omega)
    norm_num at this
    linarith
  have hord : expansionOrder (totalStrength (srcs N R coin pick)) 0.001 = .ok p := by rw [totalStrength_eq, total_eq]; exact o1
  obtain ⟨f, h, H⟩ := C104_report ht hI hS (by omega) hord hp0 (by omega) hnz
  refine ⟨r, p, f, h, hI.box, hp0, hp, fun hal => ?_⟩
  obtain ⟨rep, v, w, k1, D, k2, k3⟩ := H hal
  rw [hlen] at k1
  have h1 : 1 < (srcs N R coin pick).length := by omega
  obtain ⟨d1, d2, d3, d4, d5, d6⟩ := C104_deviation D (List.ne_nil_of_length_pos (by omega))
  have hA0 : 0 ≤ total R N := Finset.sum_nonneg fun i _ => abs_nonneg _
  have hmem : ∀ s ∈ srcs N R coin pick, ∃ i < N, s.pos = pos R coin pick i := by
    intro s hs
    rw [srcs_eq] at hs
    obtain ⟨i, hi, rfl⟩ := List.mem_map.mp hs
    exact ⟨i, List.mem_range.mp hi, rfl⟩
  have hr0 : 0 ≤ r.len := by
    obtain ⟨s, hs, -⟩ := (ha 0).1
    have := (hI.inside s hs 0)
    rw [Box.lower_apply, Box.upper_apply] at this
    push Not at this
    linarith [this.1, this.2]
  have e1 := hget 1 h1
  have b1 := k2 ⟨1, h1⟩
  have b2 := k3 ⟨1, h1⟩
  rw [total_eq] at k2 k3 b1 b2
  refine ⟨rep, k1, D.order, D.height, D.center, D.len, by rw [D.potRef h1, e1], by rw [D.frcRef h1, e1], by rw [D.pot, D.potRef h1]; exact b1,
    by rw [D.frc, D.frcRef h1]; exact b2, d3, d4, d5, d6, fun m hm hd => ?_, fun m hm hd => ?_⟩
  · refine d1 _ m hm (mul_nonneg hA0 (errPot3_nonneg p (by positivity))) k2 fun s hs => ?_
    obtain ⟨i, hi, e⟩ := hmem s hs
    rw [e]; exact hd i hi
  · refine d2 _ m hm (mul_nonneg hA0 (errForce3_nonneg p _)) k3 fun s hs => ?_
    obtain ⟨i, hi, e⟩ := hmem s hs
    rw [e]; exact hd i hi

/-- **C104** Strengths that add up to at most 1/2000: the conversion of the order is undefined. -/
theorem C104_weak (N : ℕ) {R : ℕ → ℝ} (hA : total R N ≤ 1 / 2000) (fuel : ℕ) (sch : ℕ → List Path → List Path) (ordE ordF : List ℕ) (refE : ℕ → ℝ)
    (refF : ℕ × Fin 3 → ℝ) (coin : ℕ → Bool) (pick : ℕ → Fin (2 ^ 3)) : main N fuel sch ordE ordF refE refF st R coin pick = .error .ub := by
  unfold main report adaptiveFmm adaptiveInit
  rw [C24_order_ub _ _ (by norm_num) (by rw [totalStrength_eq, total_eq]; norm_num at hA ⊢; linarith)]
  rfl

/-! ## Non-vacuity -/

/-- Two sources in opposite corners. -/
noncomputable def pair (c q q' : ℝ) : List (Source 3) := [⟨![-c, -c, -c], q⟩, ⟨![c, c, c], q'⟩]

theorem pair_box {c : ℝ} (hc : 0 < c) (q q' : ℝ) :
    rootBox ((pair c q q').map Source.pos) = some ⟨fun _ => (1 + paddingFactor) * ((-c + c) / 2), (1 + paddingFactor) * (2 * c)⟩ := by
  refine rootBox_eq _ (fun _ => -c) (fun _ => c) (2 * c) ?_ ?_ ?_ ?_
  · intro i
    constructor
    · exact ⟨![-c, -c, -c], by simp [pair], by fin_cases i <;> rfl⟩
    · intro p hp
      simp [pair] at hp
      rcases hp with rfl | rfl <;> fin_cases i <;> simp <;> linarith
  · intro i
    constructor
    · exact ⟨![c, c, c], by simp [pair], by fin_cases i <;> rfl⟩
    · intro p hp
      simp [pair] at hp
      rcases hp with rfl | rfl <;> fin_cases i <;> simp <;> linarith
  · intro i; linarith
  · exact ⟨0, by ring⟩

theorem pair_aligned {c : ℝ} (hc : 0 < c) (q q' : ℝ) : ∀ s ∈ pair c q q', ∀ k,
    ¬ Aligned ⟨fun _ => (1 + paddingFactor) * ((-c + c) / 2), (1 + paddingFactor) * (2 * c)⟩ k s.pos := by
  have h11 : ∀ a k i : ℕ, ¬ 11 ∣ a → a * 2 ^ k ≠ (2 * i + 1) * 100001 := by
    intro a k i ha h
    have hp : Nat.Prime 11 := by decide
    have : 11 ∣ a * 2 ^ k := by rw [h]; exact Dvd.dvd.mul_left (by norm_num) _
    rcases (Nat.Prime.dvd_mul hp).mp this with h | h
    · exact ha h
    · have := hp.dvd_of_dvd_pow h
      omega
  rintro s hs k ⟨i, j, h, -⟩
  rw [Box.lower_apply] at h
  have h2 : (0 : ℝ) < 2 ^ k := by positivity
  simp only [pair, List.mem_cons, List.not_mem_nil, or_false] at hs
  rcases hs with rfl | rfl
  · refine h11 1 k i (by norm_num) ?_
    simp only [Matrix.cons_val_zero, paddingFactor] at h
    field_simp at h
    have : (1 * 2 ^ k : ℝ) = (2 * i + 1) * 100001 := by linarith
    exact_mod_cast this
  · refine h11 200001 k i (by norm_num) ?_
    simp only [Matrix.cons_val_zero, paddingFactor] at h
    field_simp at h
    have : (200001 * 2 ^ k : ℝ) = (2 * i + 1) * 100001 := by linarith
    exact_mod_cast this

theorem pair_distinct {c : ℝ} (hc : 0 < c) (q q' : ℝ) : Distinct (pair c q q') := by
  have h : (![-c, -c, -c] : Vec 3) ≠ ![c, c, c] := fun h => by
    have := congrFun h 0
    simp at this
    linarith
  intro i j hij
  fin_cases i <;> fin_cases j
  · exact absurd rfl hij
  · exact h
  · exact h.symm
  · exact absurd rfl hij

theorem pair_around {c : ℝ} (hc : 0 < c) (q q' : ℝ) : Around (pair c q q') := fun j =>
  ⟨⟨⟨![-c, -c, -c], q⟩, by simp [pair], by fin_cases j <;> simp <;> linarith⟩, ⟨⟨![c, c, c], q'⟩, by simp [pair], by fin_cases j <;> simp <;> linarith⟩⟩

theorem pair_nonZero {c q q' : ℝ} (hc : 0 < c) (hq : q ≠ 0) (hq' : q' ≠ 0) : NonZero (pair c q q') := by
  have h : (![-c, -c, -c] : Vec 3) ≠ ![c, c, c] := fun h => by
    have := congrFun h 0
    simp at this
    linarith
  have hd := dist2_pos h
  have hd' := dist2_pos h.symm
  intro s hs
  simp only [pair, List.mem_cons, List.not_mem_nil, or_false] at hs
  rcases hs with rfl | rfl
  · refine ⟨hq, ?_, fun h0 => ?_⟩
    · simp [pair, directPotential, directTerm, h.symm, kernelSpec, sgn, hq', hd'.ne']
    · have := congrFun h0 0
      simp [pair, directField, directFieldTerm, h.symm, fieldSpec, forceDenom, sgn, hq', hd'.ne'] at this
      linarith
  · refine ⟨hq', ?_, fun h0 => ?_⟩
    · simp [pair, directPotential, directTerm, h, kernelSpec, sgn, hq, hd.ne']
    · have := congrFun h0 0
      simp [pair, directField, directFieldTerm, h, fieldSpec, forceDenom, sgn, hq, hd.ne'] at this
      linarith

/-- A complete report for two sources in a tree with one source per leaf. -/
example : ∃ fuel0 rep, ∀ fuel ≥ fuel0, ∀ refE refF, EnergyResult true (pair 1 1 1) refE → ForceResult true (pair 1 1 1) 0 refF →
    report fuel (fun _ l => l.reverse) [1, 0] [0, 1] refE refF (Stat3.init 0 0 0) (pair 1 1 1) 1 (1 / 4) 0 = .ok rep ∧ rep.order = 3 := by
  have hI := input (max := 1) (pair_around one_pos 1 1) (pair_distinct one_pos 1 1) le_rfl
  obtain ⟨r, hI⟩ := hI
  have hr := hI.box
  rw [pair_box one_pos] at hr
  injection hr with hr
  have hord : expansionOrder (totalStrength (pair 1 1 1)) (1 / 4) = .ok 3 := by
    rw [totalStrength_eq]
    have hB := C24_order 2 (1 / 4) (by norm_num) (by norm_num)
    have : (2 : ℝ) ^ 3 ≤ 2 ^ (2 ^ 32 - 1) := pow_le_pow_right₀ (by norm_num) (by norm_num)
    generalize (2 : ℝ) ^ (2 ^ 32 - 1) = Z at this hB
    obtain ⟨p, k1, k2, k3⟩ := hB (by linarith)
    have h3 : ¬ p < 3 := fun h => by interval_cases p <;> norm_num at k2
    have h4 : ¬ 3 < p := fun h => by have := k3 3 h; norm_num at this
    have e : ((pair 1 1 1).map fun s => |s.q|).sum = 2 := by simp [pair]; norm_num
    rw [e, k1, show p = 3 by omega]
  obtain ⟨f, h, H⟩ := C104_report (st := Stat3.init 0 0 0) ⟨0, 0, 0, [], rfl⟩ hI (pair_distinct one_pos 1 1) (by simp [pair]) hord (by norm_num) (by norm_num)
    (pair_nonZero one_pos one_ne_zero one_ne_zero)
  obtain ⟨rep, v, w, k1, D, -⟩ := H (fun s hs k _ => by rw [← hr]; exact pair_aligned one_pos 1 1 s hs k)
  refine ⟨f, rep, fun fuel hf refE refF hE hF => ⟨k1 fuel hf _ (fun _ l => List.reverse_perm l) _ _ ?_ ?_ _ _ hE hF, D.order⟩⟩
  · exact List.Perm.swap 0 1 []
  · exact List.Perm.refl _

/-- The direct sums of two sources have results. -/
example : (∃ refE, EnergyResult true (pair 1 1 1) refE) ∧ ∃ refF, ForceResult true (pair 1 1 1) 0 refF :=
  ⟨(C35_pairwise_energies true _ (pair_distinct one_pos 1 1)).1, (C36_pairwise_forces true _ (pair_distinct one_pos 1 1) 0 le_rfl).1⟩

/-- Random numbers: coordinates in the middle of their cubes, strengths 1. -/
noncomputable def exR (n : ℕ) : ℝ := if n % 4 = 3 then 1 else 1 / 2

/-- Source 0 in the first cube, source 1 in the last one. -/
def exPick (i : ℕ) : Fin (2 ^ 3) := if i = 0 then 0 else 7

theorem exSrcs : srcs 2 exR (fun _ => true) exPick = pair 5 (-1) 1 := by
  rw [srcs_eq, show List.range 2 = [0, 1] from rfl]
  simp only [List.map_cons, List.map_nil, pair]
  congr 1
  · congr 1
    · funext j
      fin_cases j <;> norm_num [pos, exR, exPick]
    · norm_num [exR]
  · congr 1
    congr 1
    · funext j
      have h7 : Nat.testBit 7 2 = true ∧ Nat.testBit 7 1 = true ∧ Nat.testBit 7 0 = true := by decide
      fin_cases j <;> norm_num [pos, exR, exPick, h7]
    · norm_num [exR]

/-- The program with two sources. -/
example : ∃ fuel0 rep, ∀ fuel ≥ fuel0, ∀ refE refF, EnergyResult true (pair 5 (-1) 1) refE → ForceResult true (pair 5 (-1) 1) 0 refF →
    main 2 fuel (fun _ l => l.reverse) [1, 0] [0, 1] refE refF (Stat3.init 0 0 0) exR (fun _ => true) exPick = .ok rep ∧ rep.meanPot ≤ rep.maxPot := by
  have hc : (0 : ℝ) < 5 := by norm_num
  have H := C104_main (N := 2) le_rfl (by norm_num) (st := Stat3.init 0 0 0) ⟨0, 0, 0, [], rfl⟩ (R := exR) (coin := fun _ => true) (pick := exPick)
    (fun n => by unfold exR; split_ifs <;> norm_num) (by rw [exSrcs]; exact pair_around hc _ _) (by rw [exSrcs]; exact pair_distinct hc _ _)
    (by rw [exSrcs]; exact pair_nonZero hc (by norm_num) (by norm_num))
    (by norm_num [total, exR, Finset.sum_range_succ])
  rw [exSrcs] at H
  obtain ⟨r, p, f, h, hr, -, -, H⟩ := H
  rw [pair_box hc] at hr
  injection hr with hr
  obtain ⟨rep, k1, -, -, -, -, -, -, -, -, -, k2, -⟩ := H (fun s hs k _ => by rw [← hr]; exact pair_aligned hc _ _ s hs k)
  refine ⟨f, rep, fun fuel hf refE refF hE hF => ⟨k1 fuel hf _ (fun _ l => List.reverse_perm l) _ _ ?_ ?_ _ _ hE hF, k2⟩⟩
  · exact List.Perm.swap 0 1 []
  · exact List.Perm.refl _

/-- One of two strengths is zero: the deviations are not numbers. -/
example : ∃ fuel0, ∀ fuel ≥ fuel0, ∀ refE refF, EnergyResult true (pair 1 0 2) refE →
    report fuel (fun _ l => l.reverse) [1, 0] [0, 1] refE refF (Stat3.init 0 0 0) (pair 1 0 2) 1 (1 / 4) 0 = .error .nonFinite := by
  obtain ⟨r, hI⟩ := input (max := 1) (pair_around one_pos 0 2) (pair_distinct one_pos 0 2) le_rfl
  have hr := hI.box
  rw [pair_box one_pos] at hr
  injection hr with hr
  obtain ⟨p, h1, h2, h3, -⟩ := order_bounds3 (A := 2) (par := 1 / 4) (by norm_num) (by norm_num) (by norm_num)
  have e : ((pair 1 0 2).map fun s => |s.q|).sum = 2 := by simp [pair]
  obtain ⟨f, h, H⟩ := C104_nan (st := Stat3.init 0 0 0) ⟨0, 0, 0, [], rfl⟩ hI (pair_distinct one_pos 0 2) (by simp [pair])
    (by rw [totalStrength_eq, e]; exact h1) h2 h3 ⟨⟨![-1, -1, -1], 0⟩, by simp [pair], by simp⟩
  refine ⟨f, fun fuel hf refE refF hE => H (fun s hs k _ => by rw [← hr]; exact pair_aligned one_pos 0 2 s hs k) fuel hf _
    (fun _ l => List.reverse_perm l) _ _ ?_ ?_ _ _ hE⟩
  · exact List.Perm.swap 0 1 []
  · exact List.Perm.refl _

/-- All random numbers zero. -/
example (fuel : ℕ) (refE : ℕ → ℝ) (refF : ℕ × Fin 3 → ℝ) (st : Stat3) :
    main 150000 fuel (fun _ l => l) [] [] refE refF st (fun _ => 0) (fun _ => true) (fun _ => 0) = .error .ub := C104_weak _ (by simp [total]) _ _ _ _ _ _ _ _

end FMM.TreeMain
