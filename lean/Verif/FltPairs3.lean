import Verif.FltDirect3
import Verif.FltPairs

/-!
# The all-pairs loops in space, in floating-point arithmetic
-/

namespace FMM
namespace Fl3
open Fl (runSum Act cellSum interleaves_map runTrace_ap runSum_ap cellSum_append cellSum_cons cellSum_nil
  cellSum_interleaves pair_sum' count_above)

/-- Iteration `i` of `particlePotentialEnergies<3, grav>`, fields.hpp:91-109. -/
noncomputable def energyIteration (F : Flt3) (grav : Bool) (sources : List (Source 3)) (i : ℕ) :
    Outcome (List (ℕ × ℝ)) := do
  let si ← srd sources i
  let (acts, epot) ← loopM i (fun j (st : List (ℕ × ℝ) × ℝ) => do
    let sj ← srd sources j
    let p ← potential F grav false sj si.pos
    let temp := F.rnd (si.q * p)
    .ok (st.1 ++ [(j, temp)], F.rnd (st.2 + temp))) ([], 0)
  .ok (acts ++ [(i, epot)])

/-- `particlePotentialEnergies<3, grav>`, fields.hpp:83-113: the possible results. -/
def EnergyResult (F : Flt3) (grav : Bool) (sources : List (Source 3)) (res : ℕ → ℝ) : Prop :=
  ∃ p : Fin sources.length → List (ℕ × ℝ),
    (∀ i : Fin sources.length, energyIteration F grav sources i = .ok (p i)) ∧
    ∃ tr, Interleaves p tr ∧ res = Fl.runTrace F.toFlt tr

/-- Iteration `i` of `particleForces<3, grav>`, fields.hpp:126-161; `-=` of a value is `+=` of its negative. -/
noncomputable def forceIteration (F : Flt3) (grav : Bool) (sources : List (Source 3)) (eps : ℝ) (i : ℕ) :
    Outcome (List ((ℕ × Fin 3) × ℝ)) := do
  let si ← srd sources i
  let (acts, force) ← loopM i (fun j (st : List ((ℕ × Fin 3) × ℝ) × Vec 3) => do
    let sj ← srd sources j
    let f ← forcefield F grav false sj si.pos eps
    let temp := F.vscale f si.q
    .ok (st.1 ++ (List.finRange 3).map (fun k => ((j, k), -temp k)), F.vadd st.2 temp)) ([], Vec.fill 0)
  .ok (acts ++ (List.finRange 3).map (fun k => ((i, k), force k)))

/-- `particleForces<3, grav>`, fields.hpp:118-164: the possible results. -/
def ForceResult (F : Flt3) (grav : Bool) (sources : List (Source 3)) (eps : ℝ) (res : ℕ × Fin 3 → ℝ) : Prop :=
  ∃ p : Fin sources.length → List ((ℕ × Fin 3) × ℝ),
    (∀ i : Fin sources.length, forceIteration F grav sources eps i = .ok (p i)) ∧
    ∃ tr, Interleaves p tr ∧ res = Fl.runTrace F.toFlt tr

theorem energyResult_exact : EnergyResult Flt3.exact = FMM.EnergyResult (d := 3) := by
  funext grav S res
  have h : ∀ i, energyIteration Flt3.exact grav S i = FMM.energyIteration grav S i := by
    intro i
    simp only [energyIteration, FMM.energyIteration, potential_exact]
    rfl
  have h2 : ∀ tr : List (ℕ × ℝ), Fl.runTrace Flt3.exact.toFlt tr = FMM.runTrace tr := fun tr => rfl
  unfold EnergyResult FMM.EnergyResult
  simp only [h, h2]

theorem forceResult_exact : ForceResult Flt3.exact = FMM.ForceResult (d := 3) := by
  funext grav S eps res
  have h : ∀ i, forceIteration Flt3.exact grav S eps i = FMM.forceIteration grav S eps i := by
    intro i
    simp only [forceIteration, FMM.forceIteration, forcefield_exact, toFlt_exact, Flt.vscale_exact, Flt.vadd_exact]
  have h2 : ∀ tr : List ((ℕ × Fin 3) × ℝ), Fl.runTrace Flt3.exact.toFlt tr = FMM.runTrace tr := fun tr => rfl
  unfold ForceResult FMM.ForceResult
  simp only [h, h2]

/-! ## Energies -/

variable {F : Flt3} {u g : ℝ} (hF : F.Ok u g)

/-- The product of two strengths over the distance. -/
noncomputable def pairMaj (a b : Source 3) : ℝ := |a.q| * (|b.q| / dist2 b.pos a.pos)

theorem pairMaj_symm (a b : Source 3) : pairMaj a b = pairMaj b a := by
  unfold pairMaj
  rw [dist2_comm]; ring

include hF in
theorem energyIteration_ok (grav : Bool) (S : List (Source 3)) (hS : Distinct S) (i : ℕ) (hi : i < S.length) :
    ∃ T' : ℕ → ℝ, energyIteration F grav S i = .ok ((List.range i).map (fun j => (j, T' j)) ++ [(i, runSum F.toFlt T' i)]) ∧
      ∀ j < i, Ap u 6 (pairMaj (srcAt S i) (srcAt S j)) (T' j)
        ((srcAt S i).q * kernelSpec 3 grav (srcAt S j).q (dist2 (srcAt S j).pos (srcAt S i).pos)) := by
  have h : ∀ j, ∃ p, j < i → potential F grav false (srcAt S j) (srcAt S i).pos = .ok p ∧
      Ap u 5 (absTerm3 (srcAt S i).pos (srcAt S j)) p (directTerm grav (srcAt S i).pos (srcAt S j)) := by
    intro j
    by_cases hj : j < i
    · obtain ⟨p, h1, h2⟩ := potential_ne hF grav false (srcAt S j) (srcAt S i).pos (hS.srcAt (by omega) hi (by omega))
      exact ⟨p, fun _ => ⟨h1, h2⟩⟩
    · exact ⟨0, fun h => absurd h hj⟩
  choose P hP using h
  refine ⟨fun j => F.rnd ((srcAt S i).q * P j), ?_, fun j hj => ?_⟩
  · unfold energyIteration
    rw [srd_srcAt S hi, ok_bind]
    have key : ∀ n ≤ i, loopM n (fun j (st : List (ℕ × ℝ) × ℝ) => do
        let sj ← srd S j
        let p ← potential F grav false sj (srcAt S i).pos
        let temp := F.rnd ((srcAt S i).q * p)
        .ok (st.1 ++ [(j, temp)], F.rnd (st.2 + temp))) ([], 0) =
        .ok ((List.range n).map (fun j => (j, F.rnd ((srcAt S i).q * P j))),
          runSum F.toFlt (fun j => F.rnd ((srcAt S i).q * P j)) n) := by
      intro n hn
      induction n with
      | zero => rfl
      | succ n ih =>
        rw [loopM_succ, ih (by omega), ok_bind', srd_srcAt S (by omega), ok_bind, (hP n (by omega)).1, ok_bind]
        simp [List.range_succ, runSum]
    rw [key i le_rfl]
    rfl
  · have hne := hS.srcAt (show j < S.length by omega) hi (by omega)
    have h1 := (hP j hj).2
    unfold absTerm3 directTerm at h1
    rw [if_neg hne, if_neg hne] at h1
    exact hF.rrnd ((Ap.refl (u := u) (le_refl ‖(srcAt S i).q‖)).mul hF.nonneg h1)

include hF in
theorem energies (grav : Bool) (S : List (Source 3)) (hS : Distinct S) :
    (∃ res, EnergyResult F grav S res) ∧
    ∀ res, EnergyResult F grav S res → ∀ i : Fin S.length,
      Ap u (S.length + 6) (∑ j ∈ Finset.univ.erase i, pairMaj (S.get i) (S.get j)) (res i)
        (∑ j ∈ Finset.univ.erase i, (S.get i).q * kernelSpec 3 grav (S.get j).q (dist2 (S.get j).pos (S.get i).pos)) := by
  set T : ℕ → ℕ → ℝ := fun i j => (srcAt S i).q
      * kernelSpec 3 grav (srcAt S j).q (dist2 (srcAt S j).pos (srcAt S i).pos) with hT
  set M : ℕ → ℕ → ℝ := fun i j => pairMaj (srcAt S i) (srcAt S j) with hM
  choose T' hit hap using fun i : Fin S.length => energyIteration_ok hF grav S hS i i.isLt
  constructor
  · obtain ⟨tr, htr⟩ := Interleaves.exists fun i : Fin S.length =>
      (List.range i).map (fun j => (j, T' i j)) ++ [((i : ℕ), runSum F.toFlt (T' i) i)]
    exact ⟨_, _, hit, tr, htr, rfl⟩
  · rintro res ⟨p, hp, tr, htr, rfl⟩ c
    have hp' : ∀ i, p i = (List.range i).map (fun j => (j, T' i j)) ++ [((i : ℕ), runSum F.toFlt (T' i) i)] := fun i =>
      Except.ok.inj ((hp i).symm.trans (hit i))
    set q : Fin S.length → List (Act ℕ) := fun i =>
      (List.range i).map (fun j => ⟨j, T' i j, T i j, M i j⟩) ++
        [⟨i, runSum F.toFlt (T' i) i, ∑ j ∈ Finset.range i, T i j, ∑ j ∈ Finset.range i, M i j⟩] with hq
    obtain ⟨tr', h1, h2⟩ := interleaves_map Act.act htr q (fun i => by
      rw [hp', hq]; simp [Act.act])
    have hA : ∀ a ∈ tr', a.cell = (c : ℕ) → Ap u (6 + c) a.maj a.val a.ex := by
      intro a ha hc
      obtain ⟨i, hi⟩ := (h1.mem_iff a).mp ha
      rw [hq] at hi
      simp only [List.mem_append, List.mem_map, List.mem_range, List.mem_singleton] at hi
      rcases hi with ⟨j, hj, rfl⟩ | rfl
      · exact (hap i j hj).mono hF.nonneg (by omega) le_rfl
      · simp only at hc
        have := runSum_ap hF.toOk (i : ℕ) (hap i)
        rw [hc] at this ⊢
        exact this
    have hmain := runTrace_ap hF.toOk (c : ℕ) (6 + c) tr' hA
    rw [← h2] at hmain
    have hs : ∀ {N : Type} [AddCommMonoid N] (g : Act ℕ → N) (A : ℕ → ℕ → N) (O : ℕ → N)
        (_ : ∀ (i : Fin S.length) j, g ⟨j, T' i j, T i j, M i j⟩ = A i j)
        (_ : ∀ i : Fin S.length, g ⟨i, runSum F.toFlt (T' i) i, ∑ j ∈ Finset.range i, T i j, ∑ j ∈ Finset.range i, M i j⟩ = O i),
        cellSum (c : ℕ) g tr' = (∑ i ∈ (Finset.range S.length).filter (fun i => (c : ℕ) < i), A i c) + O c := by
      intro N _ g A O hA hO
      rw [cellSum_interleaves _ _ h1]
      have h3 : ∀ i : Fin S.length, cellSum (c : ℕ) g (q i) =
          (∑ j ∈ Finset.range i, if j = (c : ℕ) then A i j else 0) + if (i : ℕ) = c then O i else 0 := by
        intro i
        rw [hq]
        simp only
        rw [cellSum_append, cellSum_cons, cellSum_nil, add_zero, hO]
        congr 1
        unfold cellSum
        rw [List.map_map]
        simp only [Function.comp_def, hA]
        rw [Finset.sum_range, Fin.sum_univ_def]
        rw [← List.map_coe_finRange_eq_range, List.map_map]
        rfl
      rw [Finset.sum_congr rfl fun i _ => h3 i,
        Fin.sum_univ_eq_sum_range (fun i => (∑ j ∈ Finset.range i, if j = (c : ℕ) then A i j else 0)
          + if i = (c : ℕ) then O i else 0) S.length, pair_sum' _ _ c.isLt]
    rw [hs (fun _ => 1) (fun _ _ => 1) (fun _ => 1) (fun _ _ => rfl) (fun _ => rfl),
      hs Act.ex T (fun i => ∑ j ∈ Finset.range i, T i j) (fun _ _ => rfl) (fun _ => rfl),
      hs Act.maj M (fun i => ∑ j ∈ Finset.range i, M i j) (fun _ _ => rfl) (fun _ => rfl),
      count_above _ _ c.isLt] at hmain
    have hsT : ∀ i, T i c = T c i := fun i => kernel_symm grav _ _
    have hsM : ∀ i, M i c = M c i := fun i => pairMaj_symm _ _
    rw [Finset.sum_congr rfl fun i _ => hsT i, Finset.sum_congr rfl fun i _ => hsM i, range_split _ _ c.isLt,
      range_split _ _ c.isLt, range_erase_fin, range_erase_fin] at hmain
    have e : 6 + (c : ℕ) + (S.length - c) = S.length + 6 := by have := c.isLt; omega
    rw [e] at hmain
    simpa only [hT, hM, srcAt_get] using hmain

/-! ## Forces -/

/-- The product of two strengths and a component of the kernel of the force. -/
noncomputable def pairForceMaj (eps : ℝ) (k : Fin 3) (a b : Source 3) : ℝ :=
  |a.q| * (|b.q| / (dist2 b.pos a.pos ^ 3 + eps) * |b.pos k - a.pos k|)

theorem pairForceMaj_symm (eps : ℝ) (k : Fin 3) (a b : Source 3) : pairForceMaj eps k a b = pairForceMaj eps k b a := by
  unfold pairForceMaj
  rw [dist2_comm, abs_sub_comm]; ring

include hF in
theorem forceIteration_ok (hu : u ≤ 1 / 32) (grav : Bool) (S : List (Source 3)) (hS : Distinct S) (eps : ℝ) (he : 0 ≤ eps) (i : ℕ)
    (hi : i < S.length) :
    ∃ T' : ℕ → Fin 3 → ℝ, forceIteration F grav S eps i = .ok
        ((List.range i).flatMap (fun j => (List.finRange 3).map (fun k => ((j, k), -T' j k)))
          ++ (List.finRange 3).map (fun k => ((i, k), runSum F.toFlt (fun j => T' j k) i))) ∧
      ∀ j < i, ∀ k, Ap u 22 (pairForceMaj eps k (srcAt S i) (srcAt S j)) (T' j k)
        ((srcAt S i).q * fieldSpec grav (srcAt S i).pos eps (srcAt S j) k) := by
  have h : ∀ j, ∃ p, j < i → forcefield F grav false (srcAt S j) (srcAt S i).pos eps = .ok p ∧
      ∀ k, Ap u 21 (absFieldTerm3 (srcAt S i).pos eps k (srcAt S j)) (p k)
        (directFieldTerm grav (srcAt S i).pos eps (srcAt S j) k) := by
    intro j
    by_cases hj : j < i
    · obtain ⟨p, h1, h2⟩ := forcefield_ne hF hu grav false (srcAt S j) (srcAt S i).pos eps he
        (hS.srcAt (by omega) hi (by omega))
      exact ⟨p, fun _ => ⟨h1, h2⟩⟩
    · exact ⟨0, fun h => absurd h hj⟩
  choose P hP using h
  refine ⟨fun j => F.vscale (P j) (srcAt S i).q, ?_, fun j hj k => ?_⟩
  · unfold forceIteration
    rw [srd_srcAt S hi, ok_bind]
    have key : ∀ n ≤ i, loopM n (fun j (st : List ((ℕ × Fin 3) × ℝ) × Vec 3) => do
        let sj ← srd S j
        let f ← forcefield F grav false sj (srcAt S i).pos eps
        let temp := F.vscale f (srcAt S i).q
        .ok (st.1 ++ (List.finRange 3).map (fun k => ((j, k), -temp k)), F.vadd st.2 temp)) ([], Vec.fill 0) =
        .ok ((List.range n).flatMap (fun j => (List.finRange 3).map (fun k => ((j, k), -F.vscale (P j) (srcAt S i).q k))),
          fun k => runSum F.toFlt (fun j => F.vscale (P j) (srcAt S i).q k) n) := by
      intro n hn
      induction n with
      | zero => rfl
      | succ n ih =>
        rw [loopM_succ, ih (by omega), ok_bind', srd_srcAt S (by omega), ok_bind, (hP n (by omega)).1, ok_bind]
        simp only [List.range_succ, List.flatMap_append, List.flatMap_cons, List.flatMap_nil, List.append_nil, runSum]
        rfl
    rw [key i le_rfl]
    rfl
  · have hne := hS.srcAt (show j < S.length by omega) hi (by omega)
    have h1 := (hP j hj).2 k
    unfold absFieldTerm3 directFieldTerm at h1
    rw [if_neg hne, if_neg hne] at h1
    have h2 := hF.rrnd (h1.mul hF.nonneg (Ap.refl (u := u) (le_refl ‖(srcAt S i).q‖)))
    rw [mul_comm _ ‖_‖, mul_comm _ (srcAt S i).q, mul_comm _ (srcAt S i).q] at h2
    show Ap u 22 _ (F.rnd (P j k * (srcAt S i).q)) _
    rw [mul_comm (P j k)]
    exact h2

include hF in
theorem forces (hu : u ≤ 1 / 32) (grav : Bool) (S : List (Source 3)) (hS : Distinct S) (eps : ℝ) (he : 0 ≤ eps) :
    (∃ res, ForceResult F grav S eps res) ∧
    ∀ res, ForceResult F grav S eps res → ∀ (i : Fin S.length) (k : Fin 3),
      Ap u (S.length + 22) (∑ j ∈ Finset.univ.erase i, pairForceMaj eps k (S.get i) (S.get j)) (res (i, k))
        (∑ j ∈ Finset.univ.erase i, (S.get i).q * fieldSpec grav (S.get i).pos eps (S.get j) k) := by
  set T : ℕ → ℕ → Fin 3 → ℝ := fun i j k => (srcAt S i).q * fieldSpec grav (srcAt S i).pos eps (srcAt S j) k with hT
  set M : ℕ → ℕ → Fin 3 → ℝ := fun i j k => pairForceMaj eps k (srcAt S i) (srcAt S j) with hM
  choose T' hit hap using fun i : Fin S.length => forceIteration_ok hF hu grav S hS eps he i i.isLt
  constructor
  · obtain ⟨tr, htr⟩ := Interleaves.exists fun i : Fin S.length =>
      (List.range i).flatMap (fun j => (List.finRange 3).map (fun k => ((j, k), -T' i j k)))
          ++ (List.finRange 3).map (fun k => (((i : ℕ), k), runSum F.toFlt (fun j => T' i j k) i))
    exact ⟨_, _, hit, tr, htr, rfl⟩
  · rintro res ⟨p, hp, tr, htr, rfl⟩ c k
    have hp' := fun i => Except.ok.inj ((hp i).symm.trans (hit i))
    set q : Fin S.length → List (Act (ℕ × Fin 3)) := fun i =>
      (List.range i).flatMap (fun j => (List.finRange 3).map (fun k => ⟨(j, k), -T' i j k, -T i j k, M i j k⟩)) ++
        (List.finRange 3).map (fun k => ⟨((i : ℕ), k), runSum F.toFlt (fun j => T' i j k) i, ∑ j ∈ Finset.range i, T i j k,
          ∑ j ∈ Finset.range i, M i j k⟩) with hq
    obtain ⟨tr', h1, h2⟩ := interleaves_map Act.act htr q (fun i => by
      rw [hp', hq]; simp [Act.act, List.map_flatMap, Function.comp_def])
    have hA : ∀ a ∈ tr', a.cell = ((c : ℕ), k) → Ap u (22 + c) a.maj a.val a.ex := by
      intro a ha hc
      obtain ⟨i, hi⟩ := (h1.mem_iff a).mp ha
      rw [hq] at hi
      simp only [List.mem_append, List.mem_map, List.mem_range, List.mem_flatMap] at hi
      rcases hi with ⟨j, hj, k', -, rfl⟩ | ⟨k', -, rfl⟩
      · exact ((hap i j hj k').mono hF.nonneg (by omega) le_rfl).neg
      · simp only [Prod.mk.injEq] at hc
        have := runSum_ap hF.toOk (i : ℕ) (fun j hj => hap i j hj k')
        rw [hc.1] at this ⊢
        exact this
    have hmain := runTrace_ap hF.toOk ((c : ℕ), k) (22 + c) tr' hA
    rw [← h2] at hmain
    have hblock : ∀ {N : Type} [AddCommMonoid N] (g : Act (ℕ × Fin 3) → N) (n : ℕ) (a : Fin 3 → Act (ℕ × Fin 3))
        (_ : ∀ k, (a k).cell = (n, k)), cellSum ((c : ℕ), k) g ((List.finRange 3).map a) =
          if n = (c : ℕ) then g (a k) else 0 := by
      intro N _ g n a ha
      unfold cellSum
      rw [List.map_map, ← Fin.sum_univ_def]
      simp only [Function.comp_def, ha, Prod.mk.injEq]
      by_cases hn : n = (c : ℕ) <;> simp [hn]
    have hs : ∀ {N : Type} [AddCommMonoid N] (g : Act (ℕ × Fin 3) → N) (A : ℕ → ℕ → N) (O : ℕ → N)
        (_ : ∀ (i : Fin S.length) j, g ⟨(j, k), -T' i j k, -T i j k, M i j k⟩ = A i j)
        (_ : ∀ i : Fin S.length, g ⟨((i : ℕ), k), runSum F.toFlt (fun j => T' i j k) i, ∑ j ∈ Finset.range i, T i j k,
          ∑ j ∈ Finset.range i, M i j k⟩ = O i),
        cellSum ((c : ℕ), k) g tr' =
          (∑ i ∈ (Finset.range S.length).filter (fun i => (c : ℕ) < i), A i c) + O c := by
      intro N _ g A O hA hO
      rw [cellSum_interleaves _ _ h1]
      have h3 : ∀ i : Fin S.length, cellSum ((c : ℕ), k) g (q i) =
          (∑ j ∈ Finset.range i, if j = (c : ℕ) then A i j else 0) + if (i : ℕ) = c then O i else 0 := by
        intro i
        rw [hq]
        simp only
        rw [cellSum_append, hblock _ _ _ (fun _ => rfl), hO]
        congr 1
        have key : ∀ n : ℕ, cellSum ((c : ℕ), k) g ((List.range n).flatMap fun j => (List.finRange 3).map
            fun k => ⟨(j, k), -T' i j k, -T i j k, M i j k⟩) = ∑ j ∈ Finset.range n, if j = (c : ℕ) then A i j else 0 := by
          intro n
          induction n with
          | zero => simp [cellSum]
          | succ n ih =>
            rw [List.range_succ, List.flatMap_append, cellSum_append, ih, Finset.sum_range_succ]
            simp only [List.flatMap_cons, List.flatMap_nil, List.append_nil]
            rw [hblock g n _ (fun _ => rfl), hA]
        exact key i
      rw [Finset.sum_congr rfl fun i _ => h3 i,
        Fin.sum_univ_eq_sum_range (fun i => (∑ j ∈ Finset.range i, if j = (c : ℕ) then A i j else 0)
          + if i = (c : ℕ) then O i else 0) S.length, pair_sum' _ _ c.isLt]
    rw [hs (fun _ => 1) (fun _ _ => 1) (fun _ => 1) (fun _ _ => rfl) (fun _ => rfl),
      hs Act.ex (fun i j => -T i j k) (fun i => ∑ j ∈ Finset.range i, T i j k) (fun _ _ => rfl) (fun _ => rfl),
      hs Act.maj (fun i j => M i j k) (fun i => ∑ j ∈ Finset.range i, M i j k) (fun _ _ => rfl) (fun _ => rfl),
      count_above _ _ c.isLt] at hmain
    have hsT : ∀ i, -T i c k = T c i k := fun i => by
      have := congrFun (field_antisymm grav (srcAt S i) (srcAt S c) eps) k
      simp only [Pi.smul_apply, Pi.neg_apply, smul_eq_mul] at this
      simp only [hT]; rw [this]; simp
    have hsM : ∀ i, M i c k = M c i k := fun i => pairForceMaj_symm _ _ _ _
    simp only [hsT, hsM] at hmain
    rw [range_split _ _ c.isLt (fun i => T c i k), range_split _ _ c.isLt (fun i => M c i k),
      range_erase_fin _ _ (fun i => T c i k), range_erase_fin _ _ (fun i => M c i k)] at hmain
    have e : 22 + (c : ℕ) + (S.length - c) = S.length + 22 := by have := c.isLt; omega
    rw [e] at hmain
    simpa only [hT, hM, srcAt_get] using hmain

end Fl3
end FMM
