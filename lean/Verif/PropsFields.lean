import Verif.Fields
import Mathlib.Analysis.SpecialFunctions.Log.Deriv
import Mathlib.Analysis.SpecialFunctions.Sqrt
import Mathlib.Analysis.Calculus.FDeriv.Pi
import Mathlib.Analysis.Calculus.FDeriv.Pow

/-!
# Properties of the direct evaluation: C34, C35, C36, C37, and the single-source part of C31
-/

namespace FMM
variable {d : ℕ}

/-! ## Specification -/

/-- Euclidean distance. -/
noncomputable def dist2 (x y : Vec d) : ℝ := Real.sqrt (∑ j, (x j - y j) ^ 2)

/-- `+1` for gravitation, `-1` for the Coulomb interaction. -/
def sgn (grav : Bool) : ℝ := if grav then 1 else -1

/-- Potential at distance `r ≠ 0` of a source of strength `q`: `± q log r` in two dimensions, `∓ q / r`
otherwise. -/
noncomputable def kernelSpec (d : ℕ) (grav : Bool) (q r : ℝ) : ℝ :=
  sgn grav * (if d = 2 then q * Real.log r else -(q / r))

/-- Contribution of one source with self-exclusion. -/
noncomputable def directTerm (grav : Bool) (x : Vec d) (s : Source d) : ℝ :=
  open Classical in if s.pos = x then 0 else kernelSpec d grav s.q (dist2 s.pos x)

/-- The direct, self-excluding sum. -/
noncomputable def directPotential (grav : Bool) (sources : List (Source d)) (x : Vec d) : ℝ :=
  (sources.map (directTerm grav x)).sum

/-- `r^2` in two dimensions, `r^3` otherwise, smoothed by `eps`. -/
noncomputable def forceDenom (d : ℕ) (r eps : ℝ) : ℝ := (if d = 2 then r ^ 2 else r ^ 3) + eps

/-- Field of one source at `x ≠ s.pos`. -/
noncomputable def fieldSpec (grav : Bool) (x : Vec d) (eps : ℝ) (s : Source d) : Vec d :=
  fun j => sgn grav * (s.q / forceDenom d (dist2 s.pos x) eps) * (s.pos j - x j)

/-- Contribution of one source to the field, with self-exclusion. -/
noncomputable def directFieldTerm (grav : Bool) (x : Vec d) (eps : ℝ) (s : Source d) : Vec d :=
  open Classical in if s.pos = x then 0 else fieldSpec grav x eps s

noncomputable def directField (grav : Bool) (sources : List (Source d)) (x : Vec d) (eps : ℝ) : Vec d :=
  (sources.map (directFieldTerm grav x eps)).sum

/-! ## Lemmas -/

theorem norm_sub_eq_dist2 (a b : Vec d) : Vec.norm (Vec.sub a b) = dist2 a b := by
  rw [Vec.sub_eq, Vec.norm_eq]; rfl

theorem dist2_eq_zero_iff (a b : Vec d) : dist2 a b = 0 ↔ a = b := by
  rw [← norm_sub_eq_dist2, Vec.norm_eq_zero_iff, Vec.sub_eq, sub_eq_zero]

theorem dist2_nonneg (a b : Vec d) : 0 ≤ dist2 a b := Real.sqrt_nonneg _

theorem dist2_comm (a b : Vec d) : dist2 a b = dist2 b a := by
  unfold dist2; congr 1; refine Finset.sum_congr rfl fun j _ => by ring

theorem dist2_pos {a b : Vec d} (h : a ≠ b) : 0 < dist2 a b :=
  lt_of_le_of_ne (dist2_nonneg a b) fun h0 => h ((dist2_eq_zero_iff a b).mp h0.symm)

theorem normSq_sub_eq (a b : Vec d) : Vec.normSq (Vec.sub a b) = dist2 a b ^ 2 := by
  rw [Vec.normSq_eq, ← Vec.norm_sq, norm_sub_eq_dist2]

theorem potential_of_ne (grav safe : Bool) (s : Source d) (x : Vec d) (h : s.pos ≠ x) :
    potential grav safe s x = .ok (kernelSpec d grav s.q (dist2 s.pos x)) := by
  have hr : dist2 s.pos x ≠ 0 := (dist2_pos h).ne'
  unfold potential kernelSpec sgn
  rw [norm_sub_eq_dist2]
  simp only [hr, and_false, if_false]
  congr 1
  cases grav <;> split_ifs <;> simp_all <;> ring

theorem potential_safe (grav : Bool) (s : Source d) (x : Vec d) :
    potential grav true s x = .ok (directTerm grav x s) := by
  unfold directTerm
  split_ifs with h
  · unfold potential
    rw [norm_sub_eq_dist2, (dist2_eq_zero_iff _ _).mpr h]; simp
  · exact potential_of_ne grav true s x h

theorem potentialSum_safe (grav : Bool) (sources : List (Source d)) (x : Vec d) :
    potentialSum grav true sources x = .ok (directPotential grav sources x) := by
  unfold potentialSum directPotential
  rw [foldlM_ok _ (fun pot src => pot + directTerm grav x src) _ _ (by
    intro a _ s; rw [potential_safe]; rfl), foldl_add]
  simp

theorem forcefield_of_ne (grav safe : Bool) (s : Source d) (x : Vec d) (eps : ℝ) (he : 0 ≤ eps)
    (h : s.pos ≠ x) : forcefield grav safe s x eps = .ok (fieldSpec grav x eps s) := by
  have hr : 0 < dist2 s.pos x := dist2_pos h
  unfold forcefield fieldSpec forceDenom sgn
  simp only [normSq_sub_eq, norm_sub_eq_dist2]
  rw [if_neg, if_neg]
  · congr 1
    by_cases h2 : d = 2
    · simp only [h2, if_true]
      cases grav <;> funext j <;> simp
    · simp only [h2, if_false]
      rw [show dist2 s.pos x * dist2 s.pos x * dist2 s.pos x = dist2 s.pos x ^ 3 by ring]
      cases grav <;> funext j <;> simp
  · split_ifs <;> positivity
  · rintro ⟨_, h0⟩
    split_ifs at h0
    · exact hr.ne' (by simpa using h0)
    · exact hr.ne' h0

theorem forcefield_safe (grav : Bool) (s : Source d) (x : Vec d) (eps : ℝ) (he : 0 ≤ eps) :
    forcefield grav true s x eps = .ok (directFieldTerm grav x eps s) := by
  unfold directFieldTerm
  split_ifs with h
  · unfold forcefield
    simp only [normSq_sub_eq, norm_sub_eq_dist2, (dist2_eq_zero_iff _ _).mpr h]
    simp; rfl
  · exact forcefield_of_ne grav true s x eps he h

theorem forcefieldSum_safe (grav : Bool) (sources : List (Source d)) (x : Vec d) (eps : ℝ)
    (he : 0 ≤ eps) : forcefieldSum grav true sources x eps = .ok (directField grav sources x eps) := by
  unfold forcefieldSum directField
  rw [foldlM_ok _ (fun frc src => frc + directFieldTerm grav x eps src) _ _ (by
    intro a _ s; rw [forcefield_safe _ _ _ _ he]; rfl), foldl_add]
  congr 1
  exact zero_add _

/-! ## C34 -/

/-- **C34** The guarded direct potential: a coincident source contributes zero, every other one
`± q log r` (2D) / `∓ q/r` (3D). -/
theorem C34_potential (grav : Bool) (sources : List (Source d)) (x : Vec d) :
    potentialSum grav true sources x = .ok (sources.map fun s =>
      open Classical in if s.pos = x then 0 else
        (if grav then (1 : ℝ) else -1) * (if d = 2 then s.q * Real.log (Real.sqrt (∑ j, (s.pos j - x j) ^ 2))
          else -(s.q / Real.sqrt (∑ j, (s.pos j - x j) ^ 2)))).sum :=
  potentialSum_safe grav sources x

/-- **C34** The guarded direct force field: `± Σ q (s - x) / (r^d + eps)` over the non-coincident
sources (`d = 2, 3`). -/
theorem C34_forcefield (grav : Bool) (sources : List (Source d)) (x : Vec d) (eps : ℝ) (he : 0 ≤ eps) :
    forcefieldSum grav true sources x eps = .ok (sources.map fun s =>
      open Classical in if s.pos = x then 0 else fun j =>
        (if grav then (1 : ℝ) else -1) * (s.q / ((if d = 2 then dist2 s.pos x ^ 2 else dist2 s.pos x ^ 3)
          + eps)) * (s.pos j - x j)).sum :=
  forcefieldSum_safe grav sources x eps he

/-- **C34** Without the guard a coincident source makes the potential non-finite, and sources elsewhere
are unaffected. -/
theorem C34_unguarded (grav : Bool) (sources : List (Source d)) (x : Vec d) :
    ((∀ s ∈ sources, s.pos ≠ x) →
      potentialSum grav false sources x = .ok (directPotential grav sources x)) ∧
    ((∃ s ∈ sources, s.pos = x) → potentialSum grav false sources x = .error .nonFinite) := by
  constructor
  · intro h
    rw [← potentialSum_safe]
    unfold potentialSum
    rw [foldlM_ok (fun pot src => (do
        let p ← potential grav false src x
        .ok (pot + p) : Outcome ℝ)) (fun pot src => pot + directTerm grav x src) _ _ (by
      intro a ha s
      rw [potential_of_ne _ _ _ _ (h a ha)]
      unfold directTerm; rw [if_neg (h a ha)]; rfl)]
    rw [foldlM_ok _ (fun pot src => pot + directTerm grav x src) _ _ (by
      intro a _ s; rw [potential_safe]; rfl)]
  · rintro ⟨s, hs, hx⟩
    have hbad : potential grav false s x = .error .nonFinite := by
      unfold potential
      rw [norm_sub_eq_dist2, (dist2_eq_zero_iff _ _).mpr hx]; simp
    refine foldlM_error _ _ _ _ ?_ s hs ?_
    · intro a _ t
      by_cases ha : a.pos = x
      · right
        have : potential grav false a x = .error .nonFinite := by
          unfold potential
          rw [norm_sub_eq_dist2, (dist2_eq_zero_iff _ _).mpr ha]; simp
        rw [this]; rfl
      · left; rw [potential_of_ne _ _ _ _ ha]; exact ⟨_, rfl⟩
    · intro t; rw [hbad]; rfl

/-- **C34** The Coulomb variants are the negatives of the gravitational ones. -/
theorem C34_coulomb_neg (safe : Bool) (s : Source d) (x : Vec d) (eps : ℝ) :
    potential false safe s x = (potential true safe s x).map (fun p => -p) ∧
    forcefield false safe s x eps = (forcefield true safe s x eps).map (fun f => -f) := by
  constructor
  · unfold potential
    simp only
    generalize Vec.norm (Vec.sub s.pos x) = r
    by_cases h1 : safe = true ∧ r = 0
    · rw [if_pos h1, if_pos h1]; simp [Except.map]
    · rw [if_neg h1, if_neg h1]
      by_cases h2 : r = 0
      · simp [h2, Except.map]
      · simp [h2, Except.map]
  · unfold forcefield
    simp only
    generalize (if d = 2 then Vec.normSq (Vec.sub s.pos x) else Vec.norm (Vec.sub s.pos x)
      * Vec.norm (Vec.sub s.pos x) * Vec.norm (Vec.sub s.pos x)) = rp
    by_cases h1 : (safe = true ∧ if d = 2 then Vec.normSq (Vec.sub s.pos x) = 0
      else Vec.norm (Vec.sub s.pos x) = 0)
    · rw [if_pos h1, if_pos h1]
      simp only [Except.map]
      congr 1; funext j; simp [Vec.fill]
    · rw [if_neg h1, if_neg h1]
      by_cases h2 : rp + eps = 0
      · simp [h2, Except.map]
      · simp [h2, Except.map]

/-- Non-vacuity of C34 (3D, a coincident source and one at distance 2). -/
example : potentialSum true true [⟨![0, 0, 0], 5⟩, ⟨![0, 0, 2], 3⟩] (![0, 0, 0] : Vec 3)
    = .ok (-3 / 2) := by
  rw [potentialSum_safe]
  have h1 : directTerm true (![0, 0, 0] : Vec 3) ⟨![0, 0, 0], 5⟩ = 0 := if_pos rfl
  have h2 : directTerm true (![0, 0, 0] : Vec 3) ⟨![0, 0, 2], 3⟩ = -3 / 2 := by
    unfold directTerm
    rw [if_neg]
    · unfold kernelSpec dist2 sgn
      norm_num [Fin.sum_univ_three]
      rw [show (![0, 0, 2] : Vec 3) 2 - (![0, 0, 0] : Vec 3) 2 = 2 from sub_zero (2 : ℝ)]
      rw [Real.sqrt_sq (by norm_num)]
    · intro h; have := congrFun h 2; simp at this
  simp [directPotential, h1, h2]

/-! ## C35, C36 -/

/-- All positions distinct. -/
def Distinct (sources : List (Source d)) : Prop :=
  ∀ (i j : Fin sources.length), i ≠ j → (sources.get i).pos ≠ (sources.get j).pos

theorem kernel_symm (grav : Bool) (a b : Source d) :
    a.q * kernelSpec d grav b.q (dist2 b.pos a.pos) = b.q * kernelSpec d grav a.q (dist2 a.pos b.pos) := by
  unfold kernelSpec
  rw [dist2_comm b.pos a.pos]
  split_ifs <;> ring

/-- `i`-th source (any value outside the range). -/
noncomputable def srcAt (S : List (Source d)) (i : ℕ) : Source d := S.getD i ⟨0, 0⟩

theorem srd_srcAt (S : List (Source d)) {i : ℕ} (h : i < S.length) : srd S i = .ok (srcAt S i) := by
  rw [srd_ok S h]; simp [srcAt, h]

theorem srcAt_get (S : List (Source d)) (i : Fin S.length) : srcAt S i = S.get i := by
  simp [srcAt]

theorem Distinct.srcAt {S : List (Source d)} (hS : Distinct S) {i j : ℕ} (hi : i < S.length)
    (hj : j < S.length) (h : i ≠ j) : (FMM.srcAt S i).pos ≠ (FMM.srcAt S j).pos := by
  have := hS ⟨i, hi⟩ ⟨j, hj⟩ (by simpa using h)
  rwa [← srcAt_get, ← srcAt_get] at this

theorem energyIteration_ok (grav : Bool) (S : List (Source d)) (hS : Distinct S) (i : ℕ)
    (hi : i < S.length) (T : ℕ → ℝ) (hT : T = fun j => (srcAt S i).q
      * kernelSpec d grav (srcAt S j).q (dist2 (srcAt S j).pos (srcAt S i).pos)) :
    energyIteration grav S i = .ok
      ((List.range i).map (fun j => (j, T j)) ++ [(i, ∑ j ∈ Finset.range i, T j)]) := by
  unfold energyIteration
  rw [srd_srcAt S hi]
  simp only [bind, Except.bind]
  rw [loopM_eq_loopN _ (fun j (st : List (ℕ × ℝ) × ℝ) => (st.1 ++ [(j, T j)], st.2 + T j))]
  · have : ∀ n, loopN n (fun j (st : List (ℕ × ℝ) × ℝ) => (st.1 ++ [(j, T j)], st.2 + T j)) ([], 0)
        = ((List.range n).map (fun j => (j, T j)), ∑ j ∈ Finset.range n, T j) := by
      intro n
      induction n with
      | zero => simp
      | succ n ih => rw [loopN_succ, ih, List.range_succ, Finset.sum_range_succ]; simp
    rw [this]
  · intro j hj
    rw [srd_srcAt S (by omega)]
    simp only
    rw [potential_of_ne _ _ _ _ (hS.srcAt (by omega) hi (by omega))]
    simp only [hT]

/-- Sum over the ordered pairs seen by the loop, as seen from one particle. -/
theorem pair_sum {M : Type*} [AddCommMonoid M] (N c : ℕ) (hc : c < N) (A B : ℕ → ℕ → M) :
    ∑ i ∈ Finset.range N, ((∑ j ∈ Finset.range i, if j = c then A i j else 0)
        + if i = c then ∑ j ∈ Finset.range i, B i j else 0)
      = (∑ i ∈ (Finset.range N).filter (fun i => c < i), A i c) + ∑ j ∈ Finset.range c, B c j := by
  rw [Finset.sum_add_distrib]
  congr 1
  · rw [Finset.sum_filter]
    refine Finset.sum_congr rfl fun i _ => ?_
    rw [Finset.sum_ite_eq' (Finset.range i) c]
    simp
  · rw [Finset.sum_ite_eq' (Finset.range N) c]
    simp [hc]

theorem range_split {M : Type*} [AddCommMonoid M] (N c : ℕ) (hc : c < N) (f : ℕ → M) :
    (∑ i ∈ (Finset.range N).filter (fun i => c < i), f i) + ∑ j ∈ Finset.range c, f j
      = ∑ j ∈ (Finset.range N).erase c, f j := by
  rw [← Finset.sum_union]
  · refine Finset.sum_congr ?_ fun _ _ => rfl
    ext i; simp; omega
  · rw [Finset.disjoint_left]; intro i; simp; omega

theorem range_erase_fin {M : Type*} [AddCommMonoid M] (N : ℕ) (c : Fin N) (f : ℕ → M) :
    ∑ j ∈ (Finset.range N).erase c, f j = ∑ j ∈ Finset.univ.erase c, f (j : ℕ) := by
  refine (Finset.sum_bij (fun (j : Fin N) _ => (j : ℕ)) ?_ ?_ ?_ ?_).symm
  · intro j hj; simp at hj ⊢; exact fun h => hj (Fin.ext h)
  · intro a _ b _ h; exact Fin.ext h
  · intro b hb
    simp at hb
    exact ⟨⟨b, hb.2⟩, by simp; intro h; exact hb.1 (by rw [← h]), rfl⟩
  · intro _ _; rfl

/-- **C35** For distinct positions there is a result, and every execution (any assignment of iterations to
threads, any interleaving of the atomic updates) gives particle `i` the sum over `j ≠ i` of `q_i` times the
potential of `j` at `i`. -/
theorem C35_pairwise_energies (grav : Bool) (S : List (Source d)) (hS : Distinct S) :
    (∃ res, EnergyResult grav S res) ∧
    ∀ res, EnergyResult grav S res → ∀ i : Fin S.length,
      res i = ∑ j ∈ Finset.univ.erase i,
        (S.get i).q * kernelSpec d grav (S.get j).q (dist2 (S.get j).pos (S.get i).pos) := by
  set T : ℕ → ℕ → ℝ := fun i j => (srcAt S i).q
      * kernelSpec d grav (srcAt S j).q (dist2 (srcAt S j).pos (srcAt S i).pos) with hT
  have hit : ∀ i : Fin S.length, energyIteration grav S i = .ok
      ((List.range i).map (fun j => (j, T i j)) ++ [((i : ℕ), ∑ j ∈ Finset.range i, T i j)]) :=
    fun i => energyIteration_ok grav S hS i i.isLt (T i) rfl
  constructor
  · obtain ⟨tr, htr⟩ := Interleaves.exists fun i : Fin S.length =>
      (List.range i).map (fun j => (j, T i j)) ++ [((i : ℕ), ∑ j ∈ Finset.range i, T i j)]
    exact ⟨_, _, hit, tr, htr, rfl⟩
  · rintro res ⟨p, hp, tr, htr, rfl⟩ c
    have hp' : ∀ i, p i = (List.range i).map (fun j => (j, T i j))
        ++ [((i : ℕ), ∑ j ∈ Finset.range i, T i j)] := fun i => by
      have := (hp i).symm.trans (hit i); exact Except.ok.inj this
    rw [runTrace_apply, htr.sum_eq]
    have h1 : ∀ i : Fin S.length, ((p i).map fun a => if a.1 = (c : ℕ) then a.2 else 0).sum
        = (∑ j ∈ Finset.range i, if j = (c : ℕ) then T i j else 0)
          + if (i : ℕ) = c then ∑ j ∈ Finset.range i, T i j else 0 := by
      intro i
      rw [hp' i, List.map_append, List.sum_append, List.map_map]
      simp only [List.map_cons, List.map_nil, List.sum_cons, List.sum_nil, add_zero]
      rfl
    rw [Finset.sum_congr rfl fun i _ => h1 i,
      Fin.sum_univ_eq_sum_range (fun i => (∑ j ∈ Finset.range i, if j = (c : ℕ) then T i j else 0)
          + if i = (c : ℕ) then ∑ j ∈ Finset.range i, T i j else 0) S.length,
      pair_sum _ _ c.isLt T T]
    have hsym : ∀ i, T i c = T c i := fun i => kernel_symm grav _ _
    rw [Finset.sum_congr rfl fun i _ => hsym i, range_split _ _ c.isLt, range_erase_fin]
    refine Finset.sum_congr rfl fun j _ => ?_
    simp only [srcAt_get]

/-- **C35** If two particles coincide there is no finite result. -/
theorem C35_coincident (grav : Bool) (S : List (Source d)) (i j : Fin S.length) (hij : j < i)
    (hpos : (S.get i).pos = (S.get j).pos) (res : ℕ → ℝ) : ¬ EnergyResult grav S res := by
  rintro ⟨p, hp, -⟩
  have h := hp i
  unfold energyIteration at h
  rw [srd_srcAt S i.isLt] at h
  simp only [bind, Except.bind] at h
  split at h
  · simp at h
  · rename_i v heq
    refine loopM_ne_ok _ _ _ _ hij (fun t t' => ?_) v heq
    rw [srd_srcAt S j.isLt]
    have : potential grav false (srcAt S j) (srcAt S i).pos = .error .nonFinite := by
      unfold potential
      rw [norm_sub_eq_dist2, (dist2_eq_zero_iff _ _).mpr (by rw [srcAt_get, srcAt_get, hpos])]
      simp
    simp [this]

theorem field_antisymm (grav : Bool) (a b : Source d) (eps : ℝ) :
    a.q • fieldSpec grav a.pos eps b = -(b.q • fieldSpec grav b.pos eps a) := by
  funext k
  unfold fieldSpec
  simp only [Pi.smul_apply, Pi.neg_apply, smul_eq_mul]
  rw [dist2_comm b.pos a.pos]
  ring

theorem forceIteration_ok (grav : Bool) (S : List (Source d)) (hS : Distinct S) (eps : ℝ) (he : 0 ≤ eps)
    (i : ℕ) (hi : i < S.length) (T : ℕ → Vec d) (hT : T = fun j => (srcAt S i).q
      • fieldSpec grav (srcAt S i).pos eps (srcAt S j)) :
    forceIteration grav S eps i = .ok
      ((List.range i).flatMap (fun j => (List.finRange d).map (fun k => ((j, k), -T j k)))
        ++ (List.finRange d).map (fun k => ((i, k), (∑ j ∈ Finset.range i, T j) k))) := by
  unfold forceIteration
  rw [srd_srcAt S hi]
  simp only [bind, Except.bind]
  rw [loopM_eq_loopN _ (fun j (st : List ((ℕ × Fin d) × ℝ) × Vec d) =>
    (st.1 ++ (List.finRange d).map (fun k => ((j, k), -T j k)), st.2 + T j))]
  · have : ∀ n, loopN n (fun j (st : List ((ℕ × Fin d) × ℝ) × Vec d) =>
        (st.1 ++ (List.finRange d).map (fun k => ((j, k), -T j k)), st.2 + T j)) ([], Vec.fill 0)
        = ((List.range n).flatMap (fun j => (List.finRange d).map (fun k => ((j, k), -T j k))),
          ∑ j ∈ Finset.range n, T j) := by
      intro n
      induction n with
      | zero => simp; rfl
      | succ n ih => rw [loopN_succ, ih, List.range_succ, Finset.sum_range_succ]; simp
    rw [this]
  · intro j hj
    rw [srd_srcAt S (by omega)]
    simp only
    rw [forcefield_of_ne _ _ _ _ _ he (hS.srcAt (by omega) hi (by omega))]
    simp only [hT, Vec.scale_eq, Vec.add_eq]

/-- **C36** For distinct positions there is a result, and every execution gives particle `i` the sum over
`j ≠ i` of `q_i` times the (smoothed) field of `j` at `i`. -/
theorem C36_pairwise_forces (grav : Bool) (S : List (Source d)) (hS : Distinct S) (eps : ℝ)
    (he : 0 ≤ eps) :
    (∃ res, ForceResult grav S eps res) ∧
    ∀ res, ForceResult grav S eps res → ∀ (i : Fin S.length) (k : Fin d),
      res (i, k) = ∑ j ∈ Finset.univ.erase i,
        (S.get i).q * fieldSpec grav (S.get i).pos eps (S.get j) k := by
  set T : ℕ → ℕ → Vec d := fun i j => (srcAt S i).q • fieldSpec grav (srcAt S i).pos eps (srcAt S j) with hT
  have hit : ∀ i : Fin S.length, forceIteration grav S eps i = .ok
      ((List.range i).flatMap (fun j => (List.finRange d).map (fun k => ((j, k), -T i j k)))
        ++ (List.finRange d).map (fun k => (((i : ℕ), k), (∑ j ∈ Finset.range i, T i j) k))) :=
    fun i => forceIteration_ok grav S hS eps he i i.isLt (T i) rfl
  constructor
  · obtain ⟨tr, htr⟩ := Interleaves.exists fun i : Fin S.length =>
      (List.range i).flatMap (fun j => (List.finRange d).map (fun k => ((j, k), -T i j k)))
        ++ (List.finRange d).map (fun k => (((i : ℕ), k), (∑ j ∈ Finset.range i, T i j) k))
    exact ⟨_, _, hit, tr, htr, rfl⟩
  · rintro res ⟨p, hp, tr, htr, rfl⟩ c k
    have hp' := fun i => Except.ok.inj ((hp i).symm.trans (hit i))
    rw [runTrace_apply, htr.sum_eq]
    -- contribution of one block of components
    have hblock : ∀ (n : ℕ) (v : Fin d → ℝ), (((List.finRange d).map (fun k' => ((n, k'), v k'))).map
        fun a : (ℕ × Fin d) × ℝ => if a.1 = ((c : ℕ), k) then a.2 else 0).sum
          = if n = (c : ℕ) then v k else 0 := by
      intro n v
      rw [List.map_map]
      have : ((List.finRange d).map ((fun a : (ℕ × Fin d) × ℝ => if a.1 = ((c : ℕ), k) then a.2 else 0) ∘
          fun k' => ((n, k'), v k'))).sum
          = ∑ k', if n = (c : ℕ) ∧ k' = k then v k' else 0 := by
        rw [Fin.sum_univ_def]; congr 1
        refine List.map_congr_left fun k' _ => ?_
        simp [Prod.ext_iff]
      rw [this]
      by_cases hn : n = (c : ℕ) <;> simp [hn]
    have h1 : ∀ i : Fin S.length, ((p i).map fun a => if a.1 = ((c : ℕ), k) then a.2 else 0).sum
        = (∑ j ∈ Finset.range i, if j = (c : ℕ) then -T i j k else 0)
          + if (i : ℕ) = c then ∑ j ∈ Finset.range i, T i j k else 0 := by
      intro i
      rw [hp' i, List.map_append, List.sum_append, hblock, Finset.sum_apply]
      congr 1
      generalize T i = Ti
      generalize (i : ℕ) = n
      induction n with
      | zero => simp
      | succ n ih =>
        rw [List.range_succ, List.flatMap_append, List.map_append, List.sum_append, Finset.sum_range_succ, ih]
        simp only [List.flatMap_cons, List.flatMap_nil, List.append_nil]
        rw [hblock n fun k' => -Ti n k']
    rw [Finset.sum_congr rfl fun i _ => h1 i,
      Fin.sum_univ_eq_sum_range (fun i => (∑ j ∈ Finset.range i, if j = (c : ℕ) then -T i j k else 0)
          + if i = (c : ℕ) then ∑ j ∈ Finset.range i, T i j k else 0) S.length,
      pair_sum _ _ c.isLt (fun i j => -T i j k) (fun i j => T i j k)]
    have hsym : ∀ i, -T i c k = T c i k := fun i => by
      have := congrFun (field_antisymm grav (srcAt S i) (srcAt S c) eps) k
      simp only [hT]; rw [this]; simp
    simp only [hsym]
    rw [range_split _ _ c.isLt (fun i => T c i k), range_erase_fin _ _ (fun i => T c i k)]
    refine Finset.sum_congr rfl fun j _ => ?_
    simp only [hT, srcAt_get, Pi.smul_apply, smul_eq_mul]

/-- **C36** Newton's third law: the forces sum to zero. -/
theorem C36_third_law (grav : Bool) (S : List (Source d)) (hS : Distinct S) (eps : ℝ) (he : 0 ≤ eps)
    (res : ℕ × Fin d → ℝ) (h : ForceResult grav S eps res) (k : Fin d) :
    ∑ i : Fin S.length, res (i, k) = 0 := by
  have h1 := (C36_pairwise_forces grav S hS eps he).2 res h
  rw [Finset.sum_congr rfl fun i _ => h1 i k]
  set F : Fin S.length → Fin S.length → ℝ := fun i j =>
    if i = j then 0 else (S.get i).q * fieldSpec grav (S.get i).pos eps (S.get j) k with hF
  have h2 : ∀ i, ∑ j ∈ Finset.univ.erase i, (S.get i).q * fieldSpec grav (S.get i).pos eps (S.get j) k
      = ∑ j, F i j := by
    intro i
    rw [← Finset.add_sum_erase Finset.univ _ (Finset.mem_univ i)]
    simp only [hF, if_true, zero_add]
    refine Finset.sum_congr rfl fun j hj => ?_
    rw [if_neg (Ne.symm (Finset.ne_of_mem_erase hj))]
  rw [Finset.sum_congr rfl fun i _ => h2 i]
  have hanti : ∀ i j, F i j = -F j i := by
    intro i j
    simp only [hF]
    by_cases hij : i = j
    · simp [hij]
    · rw [if_neg hij, if_neg (Ne.symm hij)]
      have := congrFun (field_antisymm grav (S.get i) (S.get j) eps) k
      simpa using this
  have h3 : ∑ i, ∑ j, F i j = -∑ i, ∑ j, F i j := by
    conv_lhs => rw [Finset.sum_comm]
    rw [← Finset.sum_neg_distrib]
    refine Finset.sum_congr rfl fun j _ => ?_
    rw [← Finset.sum_neg_distrib]
    exact Finset.sum_congr rfl fun i _ => hanti i j
  linarith

/-- Non-vacuity of C35/C36: three particles in the plane. -/
example : Distinct [(⟨![0, 0], 1⟩ : Source 2), ⟨![1, 0], 2⟩, ⟨![0, 1], 3⟩] := by
  intro i j h hpos
  have h0 := congrFun hpos 0
  have h1 := congrFun hpos 1
  fin_cases i <;> fin_cases j <;> simp at h h0 h1

/-! ## C37 -/

/-- One iteration of `evaluateParticlePotentialEnergies` (abstract_fmm_tree.hpp:67-71) or
`evaluateParticleForces` (82-86): a single write to its own slot. -/
def writeIteration {V : Type*} (value : ℕ → V) (i : ℕ) : List (ℕ × V) := [(i, value i)]

/-- Result vector after a trace of writes. -/
def runWrites {V : Type*} (init : ℕ → V) (tr : List (ℕ × V)) : ℕ → V :=
  tr.foldl (fun mem a => Function.update mem a.1 a.2) init

theorem runWrites_of_mem {V : Type*} (value : ℕ → V) (tr : List (ℕ × V))
    (h : ∀ a ∈ tr, a.2 = value a.1) (init : ℕ → V) (i : ℕ) :
    ((∃ a ∈ tr, a.1 = i) → runWrites init tr i = value i) ∧
    ((¬ ∃ a ∈ tr, a.1 = i) → runWrites init tr i = init i) := by
  induction tr generalizing init with
  | nil => simp [runWrites]
  | cons a tr ih =>
    have hr : runWrites init (a :: tr) = runWrites (Function.update init a.1 a.2) tr := rfl
    obtain ⟨h1, h2⟩ := ih (fun b hb => h b (by simp [hb])) (Function.update init a.1 a.2)
    rw [hr]
    constructor
    · rintro ⟨b, hb, rfl⟩
      by_cases hc : ∃ c ∈ tr, c.1 = b.1
      · exact h1 hc
      · rw [h2 hc]
        rcases List.mem_cons.mp hb with rfl | hb'
        · rw [Function.update_self]; exact h b (by simp)
        · exact absurd ⟨b, hb', rfl⟩ hc
    · intro hc
      rw [h2 (fun ⟨c, hc1, hc2⟩ => hc ⟨c, by simp [hc1], hc2⟩),
        Function.update_of_ne (fun he => hc ⟨a, by simp, he.symm⟩)]

/-- **C37** For every schedule of the parallel loop over `N` particles, slot `i` of the result holds the value
computed for particle `i`. -/
theorem C37_particle_loop {V : Type*} (N : ℕ) (value : ℕ → V) (init : ℕ → V) (tr : List (ℕ × V))
    (h : Interleaves (fun i : Fin N => writeIteration value i) tr) (i : Fin N) :
    runWrites init tr i = value i := by
  have hmem := h.mem_iff
  refine (runWrites_of_mem value tr ?_ init i).1 ⟨((i : ℕ), value i), (hmem _).mpr ⟨i, ?_⟩, rfl⟩
  · intro a ha
    obtain ⟨j, hj⟩ := (hmem a).mp ha
    simp [writeIteration] at hj
    rw [hj]
  · simp [writeIteration]

/-! ## C31, single sources -/

theorem hasFDerivAt_distSq (s x : Vec d) :
    HasFDerivAt (fun y : Vec d => ∑ j, (s j - y j) ^ 2)
      (∑ j, (-(2 * (s j - x j))) • (ContinuousLinearMap.proj j : Vec d →L[ℝ] ℝ)) x := by
  refine HasFDerivAt.fun_sum fun j _ => ?_
  have h1 : HasFDerivAt (fun y : Vec d => s j - y j) (-(ContinuousLinearMap.proj j : Vec d →L[ℝ] ℝ)) x :=
    (hasFDerivAt_apply j x).const_sub (s j)
  have h2 := h1.pow 2
  refine h2.congr_fderiv ?_
  ext v
  simp

/-- **C31** (single source, 2 or 3 dimensions, no smoothing) The force field is minus the gradient of the
potential at every point other than the source. -/
theorem C31_single_source (grav safe : Bool) (hd : d = 2 ∨ d = 3) (s : Source d) (x : Vec d)
    (hx : s.pos ≠ x) :
    ∃ (φ : Vec d → ℝ) (F : Vec d), (∀ y, s.pos ≠ y → potential grav safe s y = .ok (φ y)) ∧
      forcefield grav safe s x 0 = .ok F ∧
      HasFDerivAt φ (∑ j, (-F j) • (ContinuousLinearMap.proj j : Vec d →L[ℝ] ℝ)) x := by
  refine ⟨fun y => kernelSpec d grav s.q (dist2 s.pos y), fieldSpec grav x 0 s,
    fun y hy => potential_of_ne grav safe s y hy, forcefield_of_ne grav safe s x 0 le_rfl hx, ?_⟩
  have hpos := dist2_pos hx
  have hS : 0 < ∑ j, (s.pos j - x j) ^ 2 := by
    have := hpos; unfold dist2 at this; exact Real.sqrt_pos.mp this
  have hD := hasFDerivAt_distSq s.pos x
  have hR : HasFDerivAt (fun y : Vec d => dist2 s.pos y)
    ((1 / (2 * dist2 s.pos x)) • ∑ j, (-(2 * (s.pos j - x j))) •
      (ContinuousLinearMap.proj j : Vec d →L[ℝ] ℝ)) x := hD.sqrt hS.ne'
  set R := dist2 s.pos x with hRdef
  rcases hd with rfl | rfl
  · have h1 := (hR.log hpos.ne').const_mul (sgn grav * s.q)
    have h2 : (fun y : Vec 2 => kernelSpec 2 grav s.q (dist2 s.pos y))
        = fun y => sgn grav * s.q * Real.log (dist2 s.pos y) := by
      funext y; simp only [kernelSpec, if_true]; ring
    rw [h2]
    refine h1.congr_fderiv ?_
    simp only [Finset.smul_sum, smul_smul]
    refine Finset.sum_congr rfl fun j _ => ?_
    congr 1
    simp only [fieldSpec, forceDenom, if_true, add_zero, ← hRdef]
    field_simp
  · have h1 := (((hasDerivAt_inv hpos.ne').comp_hasFDerivAt x hR)).const_mul (-(sgn grav * s.q))
    have h2 : (fun y : Vec 3 => kernelSpec 3 grav s.q (dist2 s.pos y))
        = fun y => -(sgn grav * s.q) * (Inv.inv ∘ fun y => dist2 s.pos y) y := by
      funext y
      simp only [kernelSpec, Function.comp]
      rw [if_neg (by norm_num)]
      ring
    rw [h2]
    refine h1.congr_fderiv ?_
    simp only [Finset.smul_sum, smul_smul]
    refine Finset.sum_congr rfl fun j _ => ?_
    congr 1
    simp only [fieldSpec, forceDenom, add_zero, ← hRdef]
    rw [if_neg (by norm_num)]
    field_simp

end FMM
