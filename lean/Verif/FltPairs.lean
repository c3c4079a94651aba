import Verif.FltDirect

/-!
# The all-pairs loops in floating-point arithmetic
-/

namespace FMM
namespace Fl

/-- One atomic `result[cell] += value`. -/
noncomputable def atomicAdd (F : Flt) {κ : Type*} [DecidableEq κ] (mem : κ → ℝ) (a : κ × ℝ) : κ → ℝ :=
  Function.update mem a.1 (F.rnd (mem a.1 + a.2))

/-- Contents of the result vector after a trace of atomic additions. -/
noncomputable def runTrace (F : Flt) {κ : Type*} [DecidableEq κ] (tr : List (κ × ℝ)) : κ → ℝ :=
  tr.foldl (atomicAdd F) fun _ => 0

/-- Iteration `i` of `particlePotentialEnergies<2, grav>`, fields.hpp:91-109. -/
noncomputable def energyIteration (F : Flt) (grav : Bool) (sources : List (Source 2)) (i : ℕ) :
    Outcome (List (ℕ × ℝ)) := do
  let si ← srd sources i
  let (acts, epot) ← loopM i (fun j (st : List (ℕ × ℝ) × ℝ) => do
    let sj ← srd sources j
    let p ← potential F grav false sj si.pos
    let temp := F.rnd (si.q * p)
    .ok (st.1 ++ [(j, temp)], F.rnd (st.2 + temp))) ([], 0)
  .ok (acts ++ [(i, epot)])

/-- `particlePotentialEnergies<2, grav>`, fields.hpp:83-113: the possible results. -/
def EnergyResult (F : Flt) (grav : Bool) (sources : List (Source 2)) (res : ℕ → ℝ) : Prop :=
  ∃ p : Fin sources.length → List (ℕ × ℝ),
    (∀ i : Fin sources.length, energyIteration F grav sources i = .ok (p i)) ∧
    ∃ tr, Interleaves p tr ∧ res = runTrace F tr

/-- Iteration `i` of `particleForces<2, grav>`, fields.hpp:126-161; `-=` of a value is `+=` of its negative. -/
noncomputable def forceIteration (F : Flt) (grav : Bool) (sources : List (Source 2)) (eps : ℝ) (i : ℕ) :
    Outcome (List ((ℕ × Fin 2) × ℝ)) := do
  let si ← srd sources i
  let (acts, force) ← loopM i (fun j (st : List ((ℕ × Fin 2) × ℝ) × Vec 2) => do
    let sj ← srd sources j
    let f ← forcefield F grav false sj si.pos eps
    let temp := F.vscale f si.q
    .ok (st.1 ++ (List.finRange 2).map (fun k => ((j, k), -temp k)), F.vadd st.2 temp)) ([], Vec.fill 0)
  .ok (acts ++ (List.finRange 2).map (fun k => ((i, k), force k)))

/-- `particleForces<2, grav>`, fields.hpp:118-164: the possible results. -/
def ForceResult (F : Flt) (grav : Bool) (sources : List (Source 2)) (eps : ℝ) (res : ℕ × Fin 2 → ℝ) : Prop :=
  ∃ p : Fin sources.length → List ((ℕ × Fin 2) × ℝ),
    (∀ i : Fin sources.length, forceIteration F grav sources eps i = .ok (p i)) ∧
    ∃ tr, Interleaves p tr ∧ res = runTrace F tr

theorem energyResult_exact : EnergyResult Flt.exact = FMM.EnergyResult (d := 2) := by
  funext grav S res
  have h : ∀ i, energyIteration Flt.exact grav S i = FMM.energyIteration grav S i := by
    intro i
    simp only [energyIteration, FMM.energyIteration, potential_exact, Flt.rnd_exact]
  have h2 : ∀ tr : List (ℕ × ℝ), runTrace Flt.exact tr = FMM.runTrace tr := fun tr => rfl
  unfold EnergyResult FMM.EnergyResult
  simp only [h, h2]

theorem forceResult_exact : ForceResult Flt.exact = FMM.ForceResult (d := 2) := by
  funext grav S eps res
  have h : ∀ i, forceIteration Flt.exact grav S eps i = FMM.forceIteration grav S eps i := by
    intro i
    simp only [forceIteration, FMM.forceIteration, forcefield_exact, Flt.vscale_exact, Flt.vadd_exact]
  have h2 : ∀ tr : List ((ℕ × Fin 2) × ℝ), runTrace Flt.exact tr = FMM.runTrace tr := fun tr => rfl
  unfold ForceResult FMM.ForceResult
  simp only [h, h2]

/-! ## Traces -/

/-- An interleaving of mapped lists is a mapped interleaving. -/
theorem interleaves_map {ι α β : Type*} [DecidableEq ι] (f : α → β) {p : ι → List β} {tr : List β} (h : Interleaves p tr)
    (q : ι → List α) (hq : ∀ i, p i = (q i).map f) : ∃ tr', Interleaves q tr' ∧ tr = tr'.map f := by
  induction h generalizing q with
  | done p h => exact ⟨[], .done q fun i => by have := hq i; rw [h i] at this; simpa using this.symm, rfl⟩
  | step p i b rest tr hp _ ih =>
    have h1 := hq i
    rw [hp] at h1
    obtain ⟨a, as, hqi, ha, has⟩ : ∃ a as, q i = a :: as ∧ f a = b ∧ as.map f = rest := by
      cases hh : q i with
      | nil => rw [hh] at h1; simp at h1
      | cons a as =>
        rw [hh, List.map_cons] at h1
        exact ⟨a, as, rfl, (List.cons.inj h1).1.symm, (List.cons.inj h1).2.symm⟩
    obtain ⟨tr', h2, h3⟩ := ih (Function.update q i as) (fun j => by
      by_cases hj : j = i
      · subst hj; rw [Function.update_self, Function.update_self, has]
      · rw [Function.update_of_ne hj, Function.update_of_ne hj]; exact hq j)
    exact ⟨a :: tr', .step q i a as tr' hqi h2, by rw [List.map_cons, ha, h3]⟩

/-- An atomic addition with the exact value and a majorant of it. -/
structure Act (κ : Type) where
  cell : κ
  val : ℝ
  ex : ℝ
  maj : ℝ

def Act.act {κ : Type} (a : Act κ) : κ × ℝ := (a.cell, a.val)

/-- Sum over the actions on a cell. -/
def cellSum {κ M : Type} [DecidableEq κ] [AddCommMonoid M] (c : κ) (g : Act κ → M) (l : List (Act κ)) : M :=
  (l.map fun a => if a.cell = c then g a else 0).sum

section
variable {κ M : Type} [DecidableEq κ] [AddCommMonoid M] (c : κ) (g : Act κ → M)
theorem cellSum_nil : cellSum c g [] = 0 := rfl
theorem cellSum_cons (a : Act κ) (l : List (Act κ)) :
    cellSum c g (a :: l) = (if a.cell = c then g a else 0) + cellSum c g l := by
  simp [cellSum]
theorem cellSum_append (l l' : List (Act κ)) : cellSum c g (l ++ l') = cellSum c g l + cellSum c g l' := by
  simp [cellSum]
theorem cellSum_interleaves {N : ℕ} {q : Fin N → List (Act κ)} {tr : List (Act κ)} (h : Interleaves q tr) :
    cellSum c g tr = ∑ i, cellSum c g (q i) := h.sum_eq _
end

theorem runTrace_ap {F : Flt} {u : ℝ} (hF : F.Ok u) {κ : Type} [DecidableEq κ] (c : κ) (m : ℕ) (tr : List (Act κ))
    (h : ∀ a ∈ tr, a.cell = c → Ap u m a.maj a.val a.ex) :
    Ap u (m + cellSum c (fun _ => 1) tr) (cellSum c Act.maj tr) (runTrace F (tr.map Act.act) c) (cellSum c Act.ex tr) := by
  have key : ∀ (tr : List (Act κ)), (∀ a ∈ tr, a.cell = c → Ap u m a.maj a.val a.ex) →
      ∀ (n : ℕ) (A a : ℝ) (mem : κ → ℝ), m ≤ n → Ap u n A (mem c) a →
      Ap u (n + cellSum c (fun _ => 1) tr) (A + cellSum c Act.maj tr) ((tr.map Act.act).foldl (atomicAdd F) mem c)
        (a + cellSum c Act.ex tr) := by
    intro tr
    induction tr with
    | nil => intro _ n A a mem _ ha; simpa [cellSum_nil] using ha
    | cons x tr ih =>
      intro h n A a mem hn ha
      rw [List.map_cons, List.foldl_cons, cellSum_cons, cellSum_cons, cellSum_cons]
      by_cases hc : x.cell = c
      · rw [if_pos hc, if_pos hc, if_pos hc, ← add_assoc, ← add_assoc, ← add_assoc]
        refine ih (fun a ha => h a (List.mem_cons_of_mem _ ha)) (n + 1) _ _ _ (by omega) ?_
        have h1 := hF.rrnd (ha.add ((h x List.mem_cons_self hc).mono hF.nonneg hn le_rfl))
        unfold atomicAdd Act.act
        simp only [hc, Function.update_self]
        exact h1
      · rw [if_neg hc, if_neg hc, if_neg hc, zero_add, zero_add, zero_add]
        refine ih (fun a ha => h a (List.mem_cons_of_mem _ ha)) n _ _ _ hn ?_
        unfold atomicAdd Act.act
        simp only
        rw [Function.update_of_ne (Ne.symm hc)]
        exact ha
  have := key tr h m 0 0 (fun _ => 0) le_rfl (Ap.zero le_rfl hF.nonneg)
  rwa [zero_add, zero_add] at this

/-- Sum over the ordered pairs seen by the loop, as seen from one particle. -/
theorem pair_sum' {M : Type*} [AddCommMonoid M] (N c : ℕ) (hc : c < N) (A : ℕ → ℕ → M) (O : ℕ → M) :
    ∑ i ∈ Finset.range N, ((∑ j ∈ Finset.range i, if j = c then A i j else 0) + if i = c then O i else 0)
      = (∑ i ∈ (Finset.range N).filter (fun i => c < i), A i c) + O c := by
  rw [Finset.sum_add_distrib]
  congr 1
  · rw [Finset.sum_filter]
    refine Finset.sum_congr rfl fun i _ => ?_
    rw [Finset.sum_ite_eq' (Finset.range i) c]
    simp
  · rw [Finset.sum_ite_eq' (Finset.range N) c]
    simp [hc]

theorem count_above (N c : ℕ) (hc : c < N) : (∑ _i ∈ (Finset.range N).filter (fun i => c < i), 1) + 1 = N - c := by
  have := range_split N c hc (fun _ => (1 : ℕ))
  simp only [Finset.sum_const, smul_eq_mul, mul_one, Finset.card_range] at this ⊢
  rw [Finset.card_erase_of_mem (Finset.mem_range.mpr hc), Finset.card_range] at this
  omega

/-- Running sum in floating point. -/
noncomputable def runSum (F : Flt) (T : ℕ → ℝ) : ℕ → ℝ
  | 0 => 0
  | n + 1 => F.rnd (runSum F T n + T n)

theorem runSum_ap {F : Flt} {u : ℝ} (hF : F.Ok u) {k : ℕ} {T' T M : ℕ → ℝ} (i : ℕ) (h : ∀ j < i, Ap u k (M j) (T' j) (T j)) :
    Ap u (k + i) (∑ j ∈ Finset.range i, M j) (runSum F T' i) (∑ j ∈ Finset.range i, T j) := by
  induction i with
  | zero => exact Ap.zero le_rfl hF.nonneg
  | succ i ih =>
    rw [Finset.sum_range_succ, Finset.sum_range_succ]
    exact hF.rrnd ((ih fun j hj => h j (by omega)).add ((h i (by omega)).mono hF.nonneg (by omega) le_rfl))

/-! ## Energies -/

variable {F : Flt} {u : ℝ} (hF : F.Ok u)

/-- The product of two strengths and the logarithm of the distance. -/
noncomputable def pairMaj (a b : Source 2) : ℝ := |a.q| * (|b.q| * (|Real.log (dist2 b.pos a.pos)| + 1))

theorem pairMaj_symm (a b : Source 2) : pairMaj a b = pairMaj b a := by
  unfold pairMaj
  rw [dist2_comm]; ring

include hF in
theorem energyIteration_ok (grav : Bool) (S : List (Source 2)) (hS : Distinct S) (i : ℕ) (hi : i < S.length) :
    ∃ T' : ℕ → ℝ, energyIteration F grav S i = .ok ((List.range i).map (fun j => (j, T' j)) ++ [(i, runSum F T' i)]) ∧
      ∀ j < i, Ap u 7 (pairMaj (srcAt S i) (srcAt S j)) (T' j)
        ((srcAt S i).q * kernelSpec 2 grav (srcAt S j).q (dist2 (srcAt S j).pos (srcAt S i).pos)) := by
  have h : ∀ j, ∃ p, j < i → potential F grav false (srcAt S j) (srcAt S i).pos = .ok p ∧
      Ap u 6 (absTerm (srcAt S i).pos (srcAt S j)) p (directTerm grav (srcAt S i).pos (srcAt S j)) := by
    intro j
    by_cases hj : j < i
    · obtain ⟨p, h1, h2⟩ := potential_ne hF grav false (srcAt S j) (srcAt S i).pos (hS.srcAt (by omega) hi (by omega))
      exact ⟨p, fun _ => ⟨h1, h2⟩⟩
    · exact ⟨0, fun h => absurd h hj⟩
  choose P hP using h
  refine ⟨fun j => F.rnd ((srcAt S i).q * P j), ?_, fun j hj => ?_⟩
  · unfold energyIteration
    rw [srd_srcAt S hi, ok_bind]
    have key : ∀ n ≤ i, loopM n (fun j (st : List (ℕ × ℝ) × ℝ) => do
        let sj ← srd S j
        let p ← potential F grav false sj (srcAt S i).pos
        let temp := F.rnd ((srcAt S i).q * p)
        .ok (st.1 ++ [(j, temp)], F.rnd (st.2 + temp))) ([], 0) =
        .ok ((List.range n).map (fun j => (j, F.rnd ((srcAt S i).q * P j))),
          runSum F (fun j => F.rnd ((srcAt S i).q * P j)) n) := by
      intro n hn
      induction n with
      | zero => rfl
      | succ n ih =>
        rw [loopM_succ, ih (by omega), ok_bind', srd_srcAt S (by omega), ok_bind, (hP n (by omega)).1, ok_bind]
        simp [List.range_succ, runSum]
    rw [key i le_rfl]
    rfl
  · have hne := hS.srcAt (show j < S.length by omega) hi (by omega)
    have h1 := (hP j hj).2
    unfold absTerm directTerm at h1
    rw [if_neg hne, if_neg hne] at h1
    exact hF.rrnd ((Ap.refl (u := u) (le_refl ‖(srcAt S i).q‖)).mul hF.nonneg h1)

include hF in
theorem energies (grav : Bool) (S : List (Source 2)) (hS : Distinct S) :
    (∃ res, EnergyResult F grav S res) ∧
    ∀ res, EnergyResult F grav S res → ∀ i : Fin S.length,
      Ap u (S.length + 7) (∑ j ∈ Finset.univ.erase i, pairMaj (S.get i) (S.get j)) (res i)
        (∑ j ∈ Finset.univ.erase i, (S.get i).q * kernelSpec 2 grav (S.get j).q (dist2 (S.get j).pos (S.get i).pos)) := by
  set T : ℕ → ℕ → ℝ := fun i j => (srcAt S i).q
      * kernelSpec 2 grav (srcAt S j).q (dist2 (srcAt S j).pos (srcAt S i).pos) with hT
  set M : ℕ → ℕ → ℝ := fun i j => pairMaj (srcAt S i) (srcAt S j) with hM
  choose T' hit hap using fun i : Fin S.length => energyIteration_ok hF grav S hS i i.isLt
  constructor
  · obtain ⟨tr, htr⟩ := Interleaves.exists fun i : Fin S.length =>
      (List.range i).map (fun j => (j, T' i j)) ++ [((i : ℕ), runSum F (T' i) i)]
    exact ⟨_, _, hit, tr, htr, rfl⟩
  · rintro res ⟨p, hp, tr, htr, rfl⟩ c
    have hp' : ∀ i, p i = (List.range i).map (fun j => (j, T' i j)) ++ [((i : ℕ), runSum F (T' i) i)] := fun i =>
      Except.ok.inj ((hp i).symm.trans (hit i))
    set q : Fin S.length → List (Act ℕ) := fun i =>
      (List.range i).map (fun j => ⟨j, T' i j, T i j, M i j⟩) ++
        [⟨i, runSum F (T' i) i, ∑ j ∈ Finset.range i, T i j, ∑ j ∈ Finset.range i, M i j⟩] with hq
    obtain ⟨tr', h1, h2⟩ := interleaves_map Act.act htr q (fun i => by
      rw [hp', hq]; simp [Act.act])
    have hA : ∀ a ∈ tr', a.cell = (c : ℕ) → Ap u (7 + c) a.maj a.val a.ex := by
      intro a ha hc
      obtain ⟨i, hi⟩ := (h1.mem_iff a).mp ha
      rw [hq] at hi
      simp only [List.mem_append, List.mem_map, List.mem_range, List.mem_singleton] at hi
      rcases hi with ⟨j, hj, rfl⟩ | rfl
      · exact (hap i j hj).mono hF.nonneg (by omega) le_rfl
      · simp only at hc
        have := runSum_ap hF (i : ℕ) (hap i)
        rw [hc] at this ⊢
        exact this
    have hmain := runTrace_ap hF (c : ℕ) (7 + c) tr' hA
    rw [← h2] at hmain
    have hs : ∀ {N : Type} [AddCommMonoid N] (g : Act ℕ → N) (A : ℕ → ℕ → N) (O : ℕ → N)
        (_ : ∀ (i : Fin S.length) j, g ⟨j, T' i j, T i j, M i j⟩ = A i j)
        (_ : ∀ i : Fin S.length, g ⟨i, runSum F (T' i) i, ∑ j ∈ Finset.range i, T i j, ∑ j ∈ Finset.range i, M i j⟩ = O i),
        cellSum (c : ℕ) g tr' = (∑ i ∈ (Finset.range S.length).filter (fun i => (c : ℕ) < i), A i c) + O c := by
      intro N _ g A O hA hO
      rw [cellSum_interleaves _ _ h1]
      have h3 : ∀ i : Fin S.length, cellSum (c : ℕ) g (q i) =
          (∑ j ∈ Finset.range i, if j = (c : ℕ) then A i j else 0) + if (i : ℕ) = c then O i else 0 := by
        intro i
        rw [hq]
        simp only
        rw [cellSum_append, cellSum_cons, cellSum_nil, add_zero, hO]
        congr 1
        unfold cellSum
        rw [List.map_map]
        simp only [Function.comp_def, hA]
        rw [Finset.sum_range, Fin.sum_univ_def]
        rw [← List.map_coe_finRange_eq_range, List.map_map]
        rfl
      rw [Finset.sum_congr rfl fun i _ => h3 i,
        Fin.sum_univ_eq_sum_range (fun i => (∑ j ∈ Finset.range i, if j = (c : ℕ) then A i j else 0)
          + if i = (c : ℕ) then O i else 0) S.length, pair_sum' _ _ c.isLt]
    rw [hs (fun _ => 1) (fun _ _ => 1) (fun _ => 1) (fun _ _ => rfl) (fun _ => rfl),
      hs Act.ex T (fun i => ∑ j ∈ Finset.range i, T i j) (fun _ _ => rfl) (fun _ => rfl),
      hs Act.maj M (fun i => ∑ j ∈ Finset.range i, M i j) (fun _ _ => rfl) (fun _ => rfl),
      count_above _ _ c.isLt] at hmain
    have hsT : ∀ i, T i c = T c i := fun i => kernel_symm grav _ _
    have hsM : ∀ i, M i c = M c i := fun i => pairMaj_symm _ _
    rw [Finset.sum_congr rfl fun i _ => hsT i, Finset.sum_congr rfl fun i _ => hsM i, range_split _ _ c.isLt,
      range_split _ _ c.isLt, range_erase_fin, range_erase_fin] at hmain
    have e : 7 + (c : ℕ) + (S.length - c) = S.length + 7 := by have := c.isLt; omega
    rw [e] at hmain
    simpa only [hT, hM, srcAt_get] using hmain

/-! ## Forces -/

/-- The product of two strengths and the norm of the kernel of the force. -/
noncomputable def pairForceMaj (eps : ℝ) (a b : Source 2) : ℝ :=
  |a.q| * (|b.q| / (dist2 b.pos a.pos ^ 2 + eps) * dist2 b.pos a.pos)

theorem pairForceMaj_symm (eps : ℝ) (a b : Source 2) : pairForceMaj eps a b = pairForceMaj eps b a := by
  unfold pairForceMaj
  rw [dist2_comm]; ring

theorem Ap.comp {u : ℝ} {n : ℕ} {M : ℝ} {v w : Vec 2} (h : Ap u n M (toC v) (toC w)) (k : Fin 2) :
    Ap u n M (v k) (w k) := by
  match k with
  | 0 => exact h.re
  | 1 =>
    refine ⟨?_, (Complex.abs_im_le_norm _).trans h.2⟩
    refine le_trans ?_ h.1
    exact Complex.abs_im_le_norm (toC v - toC w)

include hF in
theorem forceIteration_ok (grav : Bool) (S : List (Source 2)) (hS : Distinct S) (eps : ℝ) (he : 0 ≤ eps) (i : ℕ)
    (hi : i < S.length) :
    ∃ T' : ℕ → Fin 2 → ℝ, forceIteration F grav S eps i = .ok
        ((List.range i).flatMap (fun j => (List.finRange 2).map (fun k => ((j, k), -T' j k)))
          ++ (List.finRange 2).map (fun k => ((i, k), runSum F (fun j => T' j k) i))) ∧
      ∀ j < i, ∀ k, Ap u 14 (pairForceMaj eps (srcAt S i) (srcAt S j)) (T' j k)
        ((srcAt S i).q * fieldSpec grav (srcAt S i).pos eps (srcAt S j) k) := by
  have h : ∀ j, ∃ p, j < i → forcefield F grav false (srcAt S j) (srcAt S i).pos eps = .ok p ∧
      Ap u 13 (absFieldTerm (srcAt S i).pos eps (srcAt S j)) (toC p)
        (toC (directFieldTerm grav (srcAt S i).pos eps (srcAt S j))) := by
    intro j
    by_cases hj : j < i
    · obtain ⟨p, h1, h2⟩ := forcefield_ne hF grav false (srcAt S j) (srcAt S i).pos eps he
        (hS.srcAt (by omega) hi (by omega))
      exact ⟨p, fun _ => ⟨h1, h2⟩⟩
    · exact ⟨0, fun h => absurd h hj⟩
  choose P hP using h
  refine ⟨fun j => F.vscale (P j) (srcAt S i).q, ?_, fun j hj k => ?_⟩
  · unfold forceIteration
    rw [srd_srcAt S hi, ok_bind]
    have key : ∀ n ≤ i, loopM n (fun j (st : List ((ℕ × Fin 2) × ℝ) × Vec 2) => do
        let sj ← srd S j
        let f ← forcefield F grav false sj (srcAt S i).pos eps
        let temp := F.vscale f (srcAt S i).q
        .ok (st.1 ++ (List.finRange 2).map (fun k => ((j, k), -temp k)), F.vadd st.2 temp)) ([], Vec.fill 0) =
        .ok ((List.range n).flatMap (fun j => (List.finRange 2).map (fun k => ((j, k), -F.vscale (P j) (srcAt S i).q k))),
          fun k => runSum F (fun j => F.vscale (P j) (srcAt S i).q k) n) := by
      intro n hn
      induction n with
      | zero => rfl
      | succ n ih =>
        rw [loopM_succ, ih (by omega), ok_bind', srd_srcAt S (by omega), ok_bind, (hP n (by omega)).1, ok_bind]
        simp only [List.range_succ, List.flatMap_append, List.flatMap_cons, List.flatMap_nil, List.append_nil, runSum]
        rfl
    rw [key i le_rfl]
    rfl
  · have hne := hS.srcAt (show j < S.length by omega) hi (by omega)
    have h1 := Ap.comp (hP j hj).2 k
    unfold absFieldTerm directFieldTerm at h1
    rw [if_neg hne, if_neg hne] at h1
    have h2 := hF.rrnd (h1.mul hF.nonneg (Ap.refl (u := u) (le_refl ‖(srcAt S i).q‖)))
    rw [mul_comm _ ‖_‖, mul_comm _ (srcAt S i).q, mul_comm _ (srcAt S i).q] at h2
    show Ap u 14 _ (F.rnd (P j k * (srcAt S i).q)) _
    rw [mul_comm (P j k)]
    exact h2

include hF in
theorem forces (grav : Bool) (S : List (Source 2)) (hS : Distinct S) (eps : ℝ) (he : 0 ≤ eps) :
    (∃ res, ForceResult F grav S eps res) ∧
    ∀ res, ForceResult F grav S eps res → ∀ (i : Fin S.length) (k : Fin 2),
      Ap u (S.length + 14) (∑ j ∈ Finset.univ.erase i, pairForceMaj eps (S.get i) (S.get j)) (res (i, k))
        (∑ j ∈ Finset.univ.erase i, (S.get i).q * fieldSpec grav (S.get i).pos eps (S.get j) k) := by
  set T : ℕ → ℕ → Fin 2 → ℝ := fun i j k => (srcAt S i).q * fieldSpec grav (srcAt S i).pos eps (srcAt S j) k with hT
  set M : ℕ → ℕ → ℝ := fun i j => pairForceMaj eps (srcAt S i) (srcAt S j) with hM
  choose T' hit hap using fun i : Fin S.length => forceIteration_ok hF grav S hS eps he i i.isLt
  constructor
  · obtain ⟨tr, htr⟩ := Interleaves.exists fun i : Fin S.length =>
      (List.range i).flatMap (fun j => (List.finRange 2).map (fun k => ((j, k), -T' i j k)))
          ++ (List.finRange 2).map (fun k => (((i : ℕ), k), runSum F (fun j => T' i j k) i))
    exact ⟨_, _, hit, tr, htr, rfl⟩
  · rintro res ⟨p, hp, tr, htr, rfl⟩ c k
    have hp' := fun i => Except.ok.inj ((hp i).symm.trans (hit i))
    set q : Fin S.length → List (Act (ℕ × Fin 2)) := fun i =>
      (List.range i).flatMap (fun j => (List.finRange 2).map (fun k => ⟨(j, k), -T' i j k, -T i j k, M i j⟩)) ++
        (List.finRange 2).map (fun k => ⟨((i : ℕ), k), runSum F (fun j => T' i j k) i, ∑ j ∈ Finset.range i, T i j k,
          ∑ j ∈ Finset.range i, M i j⟩) with hq
    obtain ⟨tr', h1, h2⟩ := interleaves_map Act.act htr q (fun i => by
      rw [hp', hq]; simp [Act.act, List.map_flatMap, Function.comp_def])
    have hA : ∀ a ∈ tr', a.cell = ((c : ℕ), k) → Ap u (14 + c) a.maj a.val a.ex := by
      intro a ha hc
      obtain ⟨i, hi⟩ := (h1.mem_iff a).mp ha
      rw [hq] at hi
      simp only [List.mem_append, List.mem_map, List.mem_range, List.mem_flatMap] at hi
      rcases hi with ⟨j, hj, k', -, rfl⟩ | ⟨k', -, rfl⟩
      · exact ((hap i j hj k').mono hF.nonneg (by omega) le_rfl).neg
      · simp only [Prod.mk.injEq] at hc
        have := runSum_ap hF (i : ℕ) (fun j hj => hap i j hj k')
        rw [hc.1] at this ⊢
        exact this
    have hmain := runTrace_ap hF ((c : ℕ), k) (14 + c) tr' hA
    rw [← h2] at hmain
    have hblock : ∀ {N : Type} [AddCommMonoid N] (g : Act (ℕ × Fin 2) → N) (n : ℕ) (a : Fin 2 → Act (ℕ × Fin 2))
        (_ : ∀ k, (a k).cell = (n, k)), cellSum ((c : ℕ), k) g ((List.finRange 2).map a) =
          if n = (c : ℕ) then g (a k) else 0 := by
      intro N _ g n a ha
      unfold cellSum
      rw [List.map_map, ← Fin.sum_univ_def]
      simp only [Function.comp_def, ha, Prod.mk.injEq]
      by_cases hn : n = (c : ℕ) <;> simp [hn]
    have hs : ∀ {N : Type} [AddCommMonoid N] (g : Act (ℕ × Fin 2) → N) (A : ℕ → ℕ → N) (O : ℕ → N)
        (_ : ∀ (i : Fin S.length) j, g ⟨(j, k), -T' i j k, -T i j k, M i j⟩ = A i j)
        (_ : ∀ i : Fin S.length, g ⟨((i : ℕ), k), runSum F (fun j => T' i j k) i, ∑ j ∈ Finset.range i, T i j k,
          ∑ j ∈ Finset.range i, M i j⟩ = O i),
        cellSum ((c : ℕ), k) g tr' =
          (∑ i ∈ (Finset.range S.length).filter (fun i => (c : ℕ) < i), A i c) + O c := by
      intro N _ g A O hA hO
      rw [cellSum_interleaves _ _ h1]
      have h3 : ∀ i : Fin S.length, cellSum ((c : ℕ), k) g (q i) =
          (∑ j ∈ Finset.range i, if j = (c : ℕ) then A i j else 0) + if (i : ℕ) = c then O i else 0 := by
        intro i
        rw [hq]
        simp only
        rw [cellSum_append, hblock _ _ _ (fun _ => rfl), hO]
        congr 1
        have key : ∀ n : ℕ, cellSum ((c : ℕ), k) g ((List.range n).flatMap fun j => (List.finRange 2).map
            fun k => ⟨(j, k), -T' i j k, -T i j k, M i j⟩) = ∑ j ∈ Finset.range n, if j = (c : ℕ) then A i j else 0 := by
          intro n
          induction n with
          | zero => simp [cellSum]
          | succ n ih =>
            rw [List.range_succ, List.flatMap_append, cellSum_append, ih, Finset.sum_range_succ]
            simp only [List.flatMap_cons, List.flatMap_nil, List.append_nil]
            rw [hblock g n _ (fun _ => rfl), hA]
        exact key i
      rw [Finset.sum_congr rfl fun i _ => h3 i,
        Fin.sum_univ_eq_sum_range (fun i => (∑ j ∈ Finset.range i, if j = (c : ℕ) then A i j else 0)
          + if i = (c : ℕ) then O i else 0) S.length, pair_sum' _ _ c.isLt]
    rw [hs (fun _ => 1) (fun _ _ => 1) (fun _ => 1) (fun _ _ => rfl) (fun _ => rfl),
      hs Act.ex (fun i j => -T i j k) (fun i => ∑ j ∈ Finset.range i, T i j k) (fun _ _ => rfl) (fun _ => rfl),
      hs Act.maj M (fun i => ∑ j ∈ Finset.range i, M i j) (fun _ _ => rfl) (fun _ => rfl),
      count_above _ _ c.isLt] at hmain
    have hsT : ∀ i, -T i c k = T c i k := fun i => by
      have := congrFun (field_antisymm grav (srcAt S i) (srcAt S c) eps) k
      simp only [Pi.smul_apply, Pi.neg_apply, smul_eq_mul] at this
      simp only [hT]; rw [this]; simp
    have hsM : ∀ i, M i c = M c i := fun i => pairForceMaj_symm _ _ _
    simp only [hsT, hsM] at hmain
    rw [range_split _ _ c.isLt (fun i => T c i k), range_split _ _ c.isLt (fun i => M c i),
      range_erase_fin _ _ (fun i => T c i k), range_erase_fin _ _ (fun i => M c i)] at hmain
    have e : 14 + (c : ℕ) + (S.length - c) = S.length + 14 := by have := c.isLt; omega
    rw [e] at hmain
    simpa only [hT, hM, srcAt_get] using hmain

end Fl
end FMM
