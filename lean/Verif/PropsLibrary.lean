import Verif.PropsGlue

/-!
# `mathematica/MathematicaFMM.cpp`: C48

The exported functions are the library functions applied to the sources stored in the tensors, for every execution order of
their parallel loops and every initial content of the result tensor.
-/

namespace FMM.Glue
variable {d : ℕ}

/-- A sequence of iterations one of which fails, and none of which fails differently, fails. -/
theorem foldlM_error {σ : Type} (l : List ℕ) (f : σ → ℕ → Outcome σ) (s : σ) (e : Err) (k : ℕ) (hk : k ∈ l)
    (P : σ → Prop) (h0 : P s) (hs : ∀ i ∈ l, ∀ t, P t → (∃ t', f t i = .ok t' ∧ P t') ∨ f t i = .error e)
    (hfail : ∀ t, P t → f t k = .error e) : l.foldlM f s = .error e := by
  induction l generalizing s with
  | nil => simp at hk
  | cons a l ih =>
    rw [List.foldlM_cons]
    by_cases hka : k = a
    · subst hka; rw [hfail s h0]; rfl
    · rcases hs a (by simp) s h0 with ⟨t', h1, h2⟩ | h1
      · rw [h1, ok_bind]
        exact ih t' (by simpa [hka] using hk) h2 fun i hi => hs i (by simp [hi])
      · rw [h1]; rfl

/-- **C48** If the tensors hold too few numbers, or the flat index does not fit in an `int`, the call is undefined. -/
theorem C48_unpack_undefined (hd : 0 < d) (n : ℕ) (pos chg : Arr ℝ) (h : pos.size < n * d ∨ chg.size < n ∨ 2 ^ 31 < n * d)
    (order : List ℕ) (ho : order.Perm (List.range n)) : unpackSources (d := d) n pos chg order = .error .ub := by
  have hn : 0 < n := by
    rcases Nat.eq_zero_or_pos n with h0 | h0
    · rw [h0] at h; omega
    · exact h0
  have readbad : ∀ i, (pos.size < d * i + d ∨ 2 ^ 31 < d * i + d) →
      (readVec (d := d) pos fun j => intIdx (d * i + j)) = .error .ub := by
    intro i hs
    refine loopM_error d _ _ _ (d - 1) (by omega) (fun _ => True) trivial ?_ ?_
    · intro j hj v _
      by_cases hj' : d * i + j < pos.size ∧ d * i + j < 2 ^ 31
      · left
        exact ⟨_, by beta_reduce; rw [intIdx_ok hj'.2, ok_bind, Arr.rd_ok _ hj'.1, ok_bind]; exact dif_pos hj, trivial⟩
      · right
        beta_reduce
        by_cases h2 : d * i + j < 2 ^ 31
        · rw [intIdx_ok h2, ok_bind, Arr.rd_ub _ (by omega)]; rfl
        · rw [show intIdx (d * i + j) = .error .ub from if_neg h2]; rfl
    · intro v _
      beta_reduce
      by_cases h2 : d * i + (d - 1) < 2 ^ 31
      · rw [intIdx_ok h2, ok_bind, Arr.rd_ub _ (by omega)]; rfl
      · rw [show intIdx (d * i + (d - 1)) = .error .ub from if_neg h2]; rfl
  have read : ∀ i, (readVec (d := d) pos fun j => intIdx (d * i + j)) = .error .ub ∨
      ∃ v, (readVec (d := d) pos fun j => intIdx (d * i + j)) = .ok v := by
    intro i
    by_cases hs : d * i + d ≤ pos.size ∧ d * i + d ≤ 2 ^ 31
    · exact .inr ⟨_, readVec_ok pos _ (fun j => d * i + j) (fun j hj => intIdx_ok (by omega)) (fun j hj => by omega)⟩
    · exact .inl (readbad i (by omega))
  have hlast : d * (n - 1) + d = n * d := by
    rw [← Nat.mul_succ, Nat.mul_comm]; congr 1; omega
  unfold unpackSources
  rw [foldlM_error order _ _ .ub (n - 1) (ho.mem_iff.mpr (by simp; omega)) (fun a => a.size = n) rfl ?_ ?_]
  · rfl
  · intro i hi a ha
    have hin : i < n := by simpa using ho.mem_iff.mp hi
    rcases read i with hr | ⟨v, hr⟩
    · right; rw [hr]; rfl
    · by_cases hc : i < chg.size
      · left
        exact ⟨⟨a.size, Function.update a.val i ⟨v, chg.val i⟩⟩,
          by rw [hr, ok_bind, Arr.rd_ok _ hc, ok_bind, Arr.wr_ok _ (by omega)], ha⟩
      · right; rw [hr, ok_bind, Arr.rd_ub _ (by omega)]; rfl
  · intro a ha
    rcases h with h | h | h
    · rw [readbad _ (by omega)]; rfl
    · rcases read (n - 1) with hr | ⟨v, hr⟩
      · rw [hr]; rfl
      · rw [hr, ok_bind, Arr.rd_ub _ (by omega)]; rfl
    · rw [readbad _ (by omega)]; rfl

/-- The sources in the tensors. -/
abbrev tensorSources (d : ℕ) (pos chg : Arr ℝ) : List (Source d) := unflatten d (pos.size / d) pos.val chg.val

/-- The `i`-th point of a tensor. -/
abbrev tensorPoint (d : ℕ) (pts : Arr ℝ) (i : ℕ) : Vec d := fun j => pts.val (d * i + j)

theorem tensor_mem {pos chg : Arr ℝ} {i : ℕ} (hi : i < pos.size / d) :
    ⟨tensorPoint d pos i, chg.val i⟩ ∈ tensorSources d pos chg := List.mem_map.mpr ⟨i, by simpa using hi, rfl⟩

/-- `FMMParticleForces` for a tree that can be built and evaluated. -/
theorem fmmForces_ok {K : Kit d} {O : Obs K (Vec d)} {t : K.T} {pos chg : Arr ℝ} {max : ℕ} {eps : ℝ}
    (hc : pos.size / d ≤ chg.size) (hi : pos.size ≤ 2 ^ 31) {fuel0 : ℕ} {T : AdaptiveFmm K}
    (hT : ∀ fuel ≥ fuel0, ∀ sch, Schedule sch → adaptiveFmm K fuel sch t (tensorSources d pos chg) max eps = .ok T)
    (D : Bool → ℕ → Vec d) (B : ℝ) (hv : ∀ i < pos.size / d, ∀ grav, ∃ v, (∀ fuel ≥ fuel0,
      adaptiveEval O fuel grav T (tensorSources d pos chg) (tensorPoint d pos i) = .ok v) ∧ dist2 v (D grav i) ≤ B) :
    ∀ fuel ≥ fuel0, ∀ sch, Schedule sch → ∀ grav ord junk m, ord.Valid (pos.size / d) m (pos.size / d) →
      ∃ out, fmmParticleForces K O fuel sch t grav ord junk pos chg max eps = .ok out ∧ out.size = pos.size / d * d ∧
        ∀ i < pos.size / d, dist2 (tensorPoint d out i) (fun j => chg.val i * D grav i j) ≤ |chg.val i| * B := by
  intro fuel hfu sch hs grav ord junk m ho
  have hnd : pos.size / d * d ≤ pos.size := Nat.div_mul_le_self _ _
  have hv' : ∀ i, ∃ v, i < pos.size / d → adaptiveEval O fuel grav T (tensorSources d pos chg) (tensorPoint d pos i) = .ok v ∧
      dist2 v (D grav i) ≤ B := by
    intro i
    by_cases hi : i < pos.size / d
    · obtain ⟨v, v1, v2⟩ := hv i hi grav
      exact ⟨v, fun _ => ⟨v1 fuel hfu, v2⟩⟩
    · exact ⟨0, fun h => absurd h hi⟩
  choose val hval using hv'
  obtain ⟨F, h3, h4, h5⟩ := C37_tree_particles (fun q v => Vec.scale v q)
    (adaptiveEval O fuel grav T (tensorSources d pos chg)) (tensorSources d pos chg) val (by
      intro i hi
      rw [unflatten_get]
      exact (hval i (by rwa [unflatten_length] at hi)).1) ord.particles (by rw [unflatten_length]; exact ho.particles)
  rw [unflatten_length] at h4
  obtain ⟨out, g1, g2, g3⟩ := packVecs_ok (pos.size / d) ⟨pos.size / d * d, junk⟩ F rfl h4 (by omega) ord.pack ho.pack
  refine ⟨out, ?_, g2, fun i hi' => ?_⟩
  · unfold fmmParticleForces
    simp only
    rw [C48_unpack _ _ _ hnd hc (by omega) _ ho.unpack, ok_bind, hT fuel hfu sch hs, ok_bind, h3, ok_bind, g1]
  · have : tensorPoint d out i = fun j => chg.val i * val i j := by
      funext j
      show out.val (d * i + j) = _
      rw [g3 i hi' j, h5 i (by rw [unflatten_length]; exact hi'), unflatten_get]
      simp only [Vec.scale]
      ring
    rw [this, dist2_smul]
    exact mul_le_mul_of_nonneg_left (hval i hi').2 (abs_nonneg _)

/-- `FMMParticlePotentialEnergies` for a tree that can be built and evaluated. -/
theorem fmmEnergies_ok {K : Kit d} {O : Obs K ℝ} {t : K.T} {pos chg : Arr ℝ} {max : ℕ} {eps : ℝ}
    (hc : pos.size / d ≤ chg.size) (hi : pos.size ≤ 2 ^ 31) {fuel0 : ℕ} {T : AdaptiveFmm K}
    (hT : ∀ fuel ≥ fuel0, ∀ sch, Schedule sch → adaptiveFmm K fuel sch t (tensorSources d pos chg) max eps = .ok T)
    (D : Bool → ℕ → ℝ) (B : ℝ) (hv : ∀ i < pos.size / d, ∀ grav, ∃ v, (∀ fuel ≥ fuel0,
      adaptiveEval O fuel grav T (tensorSources d pos chg) (tensorPoint d pos i) = .ok v) ∧ |v - D grav i| ≤ B) :
    ∀ fuel ≥ fuel0, ∀ sch, Schedule sch → ∀ grav ord junk m, ord.Valid (pos.size / d) m (pos.size / d) →
      ∃ out, fmmParticleEnergies K O fuel sch t grav ord junk pos chg max eps = .ok out ∧ out.size = pos.size / d ∧
        ∀ i < pos.size / d, |out.val i - chg.val i * D grav i| ≤ |chg.val i| * B := by
  intro fuel hfu sch hs grav ord junk m ho
  have hnd : pos.size / d * d ≤ pos.size := Nat.div_mul_le_self _ _
  have hv' : ∀ i, ∃ v, i < pos.size / d → adaptiveEval O fuel grav T (tensorSources d pos chg) (tensorPoint d pos i) = .ok v ∧
      |v - D grav i| ≤ B := by
    intro i
    by_cases hi : i < pos.size / d
    · obtain ⟨v, v1, v2⟩ := hv i hi grav
      exact ⟨v, fun _ => ⟨v1 fuel hfu, v2⟩⟩
    · exact ⟨0, fun h => absurd h hi⟩
  choose val hval using hv'
  obtain ⟨F, h3, h4, h5⟩ := C37_tree_particles (fun q v => q * v)
    (adaptiveEval O fuel grav T (tensorSources d pos chg)) (tensorSources d pos chg) val (by
      intro i hi
      rw [unflatten_get]
      exact (hval i (by rwa [unflatten_length] at hi)).1) ord.particles (by rw [unflatten_length]; exact ho.particles)
  rw [unflatten_length] at h4
  obtain ⟨out, g1, g2, g3⟩ := packReals_ok (pos.size / d) ⟨pos.size / d, junk⟩ F rfl h4 ord.pack ho.pack
  refine ⟨out, ?_, g2, fun i hi' => ?_⟩
  · unfold fmmParticleEnergies
    simp only
    rw [C48_unpack _ _ _ hnd hc (by omega) _ ho.unpack, ok_bind, hT fuel hfu sch hs, ok_bind, h3, ok_bind, g1]
  · rw [g3 i hi', h5 i (by rw [unflatten_length]; exact hi'), unflatten_get, ← mul_sub, abs_mul]
    exact mul_le_mul_of_nonneg_left (hval i hi').2 (abs_nonneg _)

/-- The loop over the evaluation points. -/
theorem evalPoints_ok (n : ℕ) (out : Arr ℝ) (hs : out.size = n) (x : ℕ → Vec d) (eval : Vec d → Outcome ℝ) (val : ℕ → ℝ)
    (hv : ∀ i < n, eval (x i) = .ok (val i)) (order : List ℕ) (ho : order.Perm (List.range n)) :
    ∃ out', evalPoints out ((List.range n).map x) eval order = .ok out' ∧ out'.size = n ∧ ∀ i < n, out'.val i = val i := by
  obtain ⟨out', h1, h2, h3, -⟩ := slots_ok (fun out i => do
      let y ← vecGet ((List.range n).map x) i
      let v ← eval y
      out.wr i v) val n (by
    intro a i hi' ha
    rw [vecGet_ok (by simpa using hi'), ok_bind]
    simp only [List.getElem_map, List.getElem_range]
    rw [hv i hi', ok_bind, Arr.wr_ok _ (by omega), ha]) order ho out hs
  exact ⟨out', h1, h2, h3⟩

/-- `FMMEvaluatePotentials` for a tree that can be built and evaluated. -/
theorem fmmPotentials_ok {K : Kit d} {O : Obs K ℝ} {t : K.T} {pos chg pts : Arr ℝ} {max : ℕ} {eps : ℝ}
    (hc : pos.size / d ≤ chg.size) (hi : pos.size ≤ 2 ^ 31) (hi' : pts.size ≤ 2 ^ 31) {fuel0 : ℕ} {T : AdaptiveFmm K}
    (hT : ∀ fuel ≥ fuel0, ∀ sch, Schedule sch → adaptiveFmm K fuel sch t (tensorSources d pos chg) max eps = .ok T)
    (D : Bool → ℕ → ℝ) (B : ℕ → ℝ) (hv : ∀ i < pts.size / d, ∀ grav, ∃ v, (∀ fuel ≥ fuel0,
      adaptiveEval O fuel grav T (tensorSources d pos chg) (tensorPoint d pts i) = .ok v) ∧ |v - D grav i| ≤ B i) :
    ∀ fuel ≥ fuel0, ∀ sch, Schedule sch → ∀ grav ord junk, ord.Valid (pos.size / d) (pts.size / d) (pts.size / d) →
      ∃ out, fmmEvaluatePotentials K O fuel sch t grav ord junk pos chg max eps pts = .ok out ∧ out.size = pts.size / d ∧
        ∀ i < pts.size / d, |out.val i - D grav i| ≤ B i := by
  intro fuel hfu sch hs grav ord junk ho
  have hnd : pos.size / d * d ≤ pos.size := Nat.div_mul_le_self _ _
  have hnd' : pts.size / d * d ≤ pts.size := Nat.div_mul_le_self _ _
  have hv' : ∀ i, ∃ v, i < pts.size / d → adaptiveEval O fuel grav T (tensorSources d pos chg) (tensorPoint d pts i) = .ok v ∧
      |v - D grav i| ≤ B i := by
    intro i
    by_cases hi : i < pts.size / d
    · obtain ⟨v, v1, v2⟩ := hv i hi grav
      exact ⟨v, fun _ => ⟨v1 fuel hfu, v2⟩⟩
    · exact ⟨0, fun h => absurd h hi⟩
  choose val hval using hv'
  obtain ⟨out, g1, g2, g3⟩ := evalPoints_ok (pts.size / d) ⟨pts.size / d, junk⟩ rfl (tensorPoint d pts)
    (adaptiveEval O fuel grav T (tensorSources d pos chg)) val (fun i hi => (hval i hi).1) ord.pack ho.pack
  refine ⟨out, ?_, g2, fun i hi' => ?_⟩
  · unfold fmmEvaluatePotentials
    rw [C48_unpack _ _ _ hnd hc (by omega) _ ho.unpack, ok_bind, unpackPoints_ok _ _ hnd' (by omega) _ ho.points, ok_bind,
      hT fuel hfu sch hs, ok_bind, g1]
  · rw [g3 i hi']; exact (hval i hi').2

/-! ## The exported functions -/

/-- **C48** `FMMParticleForces`, 2D: entry `2 i + j` of the result is component `j` of the force on particle `i`. -/
theorem C48_fmm_forces_2d {t : BinomialTable} (ht : Reachable t) {pos chg : Arr ℝ} {max p : ℕ} {eps feps : ℝ} {r : Box 2}
    (hc : pos.size / 2 ≤ chg.size) (hi : pos.size ≤ 2 ^ 31) (hI : AdaptiveInput (tensorSources 2 pos chg) max r)
    (hord : expansionOrder (totalStrength (tensorSources 2 pos chg)) eps = .ok p) (hp0 : 1 ≤ p) (hp : p ≤ 1029) (hf : 0 ≤ feps) :
    ∃ fuel0 h, ∀ fuel ≥ fuel0, ∀ sch, Schedule sch → ∀ grav ord junk m, ord.Valid (pos.size / 2) m (pos.size / 2) →
      ∃ out, fmmParticleForces kit2 (force2 feps) fuel sch t grav ord junk pos chg max eps = .ok out ∧
        out.size = pos.size / 2 * 2 ∧ ∀ i < pos.size / 2, dist2 (tensorPoint 2 out i)
            (fun j => chg.val i * directField grav (tensorSources 2 pos chg) (tensorPoint 2 pos i) feps j) ≤
          |chg.val i| * (((tensorSources 2 pos chg).map fun s => |s.q|).sum *
            (errForce p (r.len / 2 ^ h) + feps / (r.len / 2 ^ h) ^ 3)) := by
  obtain ⟨fuel0, T, h1, -, h2, -⟩ := C60_adaptive_2d ht hI hord hp0 hp feps hf
  exact ⟨fuel0, T.height, fmmForces_ok hc hi h1
    (fun grav i => directField grav (tensorSources 2 pos chg) (tensorPoint 2 pos i) feps) _
    fun i hi' grav => h2 _ (hI.inside _ (tensor_mem hi')) grav _⟩

/-- **C48** `FMMParticleForces`, 3D, no particle vertically aligned with a box centre. -/
theorem C48_fmm_forces_3d {t : Stat3} (ht : Reachable3 t) {pos chg : Arr ℝ} {max p : ℕ} {eps feps : ℝ} {r : Box 3}
    (hc : pos.size / 3 ≤ chg.size) (hi : pos.size ≤ 2 ^ 31) (hI : AdaptiveInput (tensorSources 3 pos chg) max r)
    (hord : expansionOrder (totalStrength (tensorSources 3 pos chg)) eps = .ok p) (hp0 : 1 ≤ p) (hp : p ≤ 42) (hf : 0 ≤ feps)
    (ha : ∀ i < pos.size / 3, ∀ k, ¬ Aligned r k (tensorPoint 3 pos i)) :
    ∃ fuel0 h, ∀ fuel ≥ fuel0, ∀ sch, Schedule sch → ∀ grav ord junk m, ord.Valid (pos.size / 3) m (pos.size / 3) →
      ∃ out, fmmParticleForces kit3 (force3 feps) fuel sch t grav ord junk pos chg max eps = .ok out ∧
        out.size = pos.size / 3 * 3 ∧ ∀ i < pos.size / 3, dist2 (tensorPoint 3 out i)
            (fun j => chg.val i * directField grav (tensorSources 3 pos chg) (tensorPoint 3 pos i) feps j) ≤
          |chg.val i| * (((tensorSources 3 pos chg).map fun s => |s.q|).sum *
            (errForce3 p (r.len / 2 ^ h) + feps / (r.len / 2 ^ h) ^ 5)) := by
  obtain ⟨fuel0, T, h1, -, h2, -⟩ := C60_adaptive_3d ht hI hord hp0 hp feps hf
  exact ⟨fuel0, T.height, fmmForces_ok hc hi h1
    (fun grav i => directField grav (tensorSources 3 pos chg) (tensorPoint 3 pos i) feps) _
    fun i hi' grav => h2 _ (hI.inside _ (tensor_mem hi')) (fun k _ => ha i hi' k) grav _⟩

theorem pushSources_eq (n : ℕ) (pos chg : Arr ℝ) (hp : n * d ≤ pos.size) (hc : n ≤ chg.size) (hi : n * d ≤ 2 ^ 31) :
    pushSources n pos chg = .ok (unflatten d n pos.val chg.val) := by
  unfold pushSources
  have key : ∀ m ≤ n, loopM m (fun i (sources : List (Source d)) => do
      let v ← readVec pos fun j => intIdx (d * i + j)
      let q ← chg.rd i
      .ok (sources ++ [⟨v, q⟩])) [] = .ok (unflatten d m pos.val chg.val) := by
    intro m
    induction m with
    | zero => intro _; rfl
    | succ m ih =>
      intro hm
      rw [loopM_succ, ih (by omega), ok_bind',
        readVec_ok pos _ (fun j => d * m + j) (fun j hj => intIdx_ok (by have := row_lt (d := d) (Nat.lt_of_succ_le hm) hj; omega))
        (fun j hj => by have := row_lt (d := d) (Nat.lt_of_succ_le hm) hj; omega), ok_bind, Arr.rd_ok _ (by omega), ok_bind]
      unfold unflatten
      rw [List.range_succ, List.map_append]
      rfl
  exact key n le_rfl

/-- **C48** `FMM2D_Forces` of mathematica.cpp is `FMMParticleForces` for the gravitational field in the plane without smoothing. -/
theorem C48_fmm2d_forces {t : BinomialTable} {pos chg : Arr ℝ} (hc : pos.size / 2 ≤ chg.size) (hi : pos.size ≤ 2 ^ 31)
    (fuel : ℕ) (sch : ℕ → List Path → List Path) (order : List ℕ) (junk : ℕ → ℝ) (max : ℕ) (eps : ℝ) (points : List ℕ) :
    fmm2dForces kit2 (force2 0) fuel sch t order junk pos chg max eps
      = fmmParticleForces kit2 (force2 0) fuel sch t true ⟨List.range (pos.size / 2), points, order, List.range (pos.size / 2)⟩ junk
          pos chg max eps := by
  have hnd : pos.size / 2 * 2 ≤ pos.size := Nat.div_mul_le_self _ _
  unfold fmm2dForces fmmParticleForces
  simp only
  rw [pushSources_eq _ _ _ hnd hc (by omega), C48_unpack _ _ _ hnd hc (by omega) _ (List.Perm.refl _)]

/-- **C48** `FMMParticlePotentialEnergies`, 2D. -/
theorem C48_fmm_energies_2d {t : BinomialTable} (ht : Reachable t) {pos chg : Arr ℝ} {max p : ℕ} {eps : ℝ} {r : Box 2}
    (hc : pos.size / 2 ≤ chg.size) (hi : pos.size ≤ 2 ^ 31) (hI : AdaptiveInput (tensorSources 2 pos chg) max r)
    (hord : expansionOrder (totalStrength (tensorSources 2 pos chg)) eps = .ok p) (hp0 : 1 ≤ p) (hp : p ≤ 1029) :
    ∃ fuel0, ∀ fuel ≥ fuel0, ∀ sch, Schedule sch → ∀ grav ord junk m, ord.Valid (pos.size / 2) m (pos.size / 2) →
      ∃ out, fmmParticleEnergies kit2 pot2 fuel sch t grav ord junk pos chg max eps = .ok out ∧
        out.size = pos.size / 2 ∧ ∀ i < pos.size / 2, |out.val i -
            chg.val i * directPotential grav (tensorSources 2 pos chg) (tensorPoint 2 pos i)| ≤
          |chg.val i| * (((tensorSources 2 pos chg).map fun s => |s.q|).sum * errPot p) := by
  obtain ⟨fuel0, T, h1, -, h2, -⟩ := C40_adaptive ht hI hord hp0 hp
  exact ⟨fuel0, fmmEnergies_ok hc hi h1
    (fun grav i => directPotential grav (tensorSources 2 pos chg) (tensorPoint 2 pos i)) _
    fun i hi' grav => h2 _ (hI.inside _ (tensor_mem hi')) grav _⟩

/-- **C48** `FMMParticlePotentialEnergies`, 3D. -/
theorem C48_fmm_energies_3d {t : Stat3} (ht : Reachable3 t) {pos chg : Arr ℝ} {max p : ℕ} {eps : ℝ} {r : Box 3}
    (hc : pos.size / 3 ≤ chg.size) (hi : pos.size ≤ 2 ^ 31) (hI : AdaptiveInput (tensorSources 3 pos chg) max r)
    (hord : expansionOrder (totalStrength (tensorSources 3 pos chg)) eps = .ok p) (hp0 : 1 ≤ p) (hp : p ≤ 42) :
    ∃ fuel0 h, ∀ fuel ≥ fuel0, ∀ sch, Schedule sch → ∀ grav ord junk m, ord.Valid (pos.size / 3) m (pos.size / 3) →
      ∃ out, fmmParticleEnergies kit3 pot3 fuel sch t grav ord junk pos chg max eps = .ok out ∧
        out.size = pos.size / 3 ∧ ∀ i < pos.size / 3, |out.val i -
            chg.val i * directPotential grav (tensorSources 3 pos chg) (tensorPoint 3 pos i)| ≤
          |chg.val i| * (((tensorSources 3 pos chg).map fun s => |s.q|).sum * errPot3 p (r.len / 2 ^ h)) := by
  obtain ⟨fuel0, T, h1, -, h2, -⟩ := C53_adaptive ht hI hord hp0 hp
  exact ⟨fuel0, T.height, fmmEnergies_ok hc hi h1
    (fun grav i => directPotential grav (tensorSources 3 pos chg) (tensorPoint 3 pos i)) _
    fun i hi' grav => h2 _ (hI.inside _ (tensor_mem hi')) grav _⟩

/-- **C48** `FMMEvaluatePotentials`, 2D; points outside the root box must not coincide with a source, and their potential is
exact. -/
theorem C48_fmm_potentials_2d {t : BinomialTable} (ht : Reachable t) {pos chg pts : Arr ℝ} {max p : ℕ} {eps : ℝ} {r : Box 2}
    (hc : pos.size / 2 ≤ chg.size) (hi : pos.size ≤ 2 ^ 31) (hi' : pts.size ≤ 2 ^ 31)
    (hI : AdaptiveInput (tensorSources 2 pos chg) max r)
    (hord : expansionOrder (totalStrength (tensorSources 2 pos chg)) eps = .ok p) (hp0 : 1 ≤ p) (hp : p ≤ 1029) :
    ∃ fuel0, ∀ fuel ≥ fuel0, ∀ sch, Schedule sch → ∀ grav ord junk,
      ord.Valid (pos.size / 2) (pts.size / 2) (pts.size / 2) →
      ∃ out, fmmEvaluatePotentials kit2 pot2 fuel sch t grav ord junk pos chg max eps pts = .ok out ∧
        out.size = pts.size / 2 ∧ ∀ i < pts.size / 2,
          |out.val i - directPotential grav (tensorSources 2 pos chg) (tensorPoint 2 pts i)| ≤ open Classical in
            if r.contains (tensorPoint 2 pts i) then ((tensorSources 2 pos chg).map fun s => |s.q|).sum * errPot p else 0 := by
  obtain ⟨fuel0, T, h1, -, h2, h3⟩ := C40_adaptive ht hI hord hp0 hp
  refine ⟨fuel0, fmmPotentials_ok hc hi hi' h1
    (fun grav i => directPotential grav (tensorSources 2 pos chg) (tensorPoint 2 pts i)) _
    fun i hi' grav => ?_⟩
  by_cases hr : r.contains (tensorPoint 2 pts i)
  · rw [if_pos hr]; exact h2 _ hr grav _
  · rw [if_neg hr]
    refine ⟨_, h3 _ hr grav _ (fun s hs he => hr (he ▸ hI.inside s hs)), ?_⟩
    rw [sub_self, abs_zero]

/-- **C48** `FMMEvaluatePotentials`, 3D. -/
theorem C48_fmm_potentials_3d {t : Stat3} (ht : Reachable3 t) {pos chg pts : Arr ℝ} {max p : ℕ} {eps : ℝ} {r : Box 3}
    (hc : pos.size / 3 ≤ chg.size) (hi : pos.size ≤ 2 ^ 31) (hi' : pts.size ≤ 2 ^ 31)
    (hI : AdaptiveInput (tensorSources 3 pos chg) max r)
    (hord : expansionOrder (totalStrength (tensorSources 3 pos chg)) eps = .ok p) (hp0 : 1 ≤ p) (hp : p ≤ 42) :
    ∃ fuel0 h, ∀ fuel ≥ fuel0, ∀ sch, Schedule sch → ∀ grav ord junk,
      ord.Valid (pos.size / 3) (pts.size / 3) (pts.size / 3) →
      ∃ out, fmmEvaluatePotentials kit3 pot3 fuel sch t grav ord junk pos chg max eps pts = .ok out ∧
        out.size = pts.size / 3 ∧ ∀ i < pts.size / 3,
          |out.val i - directPotential grav (tensorSources 3 pos chg) (tensorPoint 3 pts i)| ≤ open Classical in
            if r.contains (tensorPoint 3 pts i) then ((tensorSources 3 pos chg).map fun s => |s.q|).sum * errPot3 p (r.len / 2 ^ h)
              else 0 := by
  obtain ⟨fuel0, T, h1, -, h2, h3⟩ := C53_adaptive ht hI hord hp0 hp
  refine ⟨fuel0, T.height, fmmPotentials_ok hc hi hi' h1
    (fun grav i => directPotential grav (tensorSources 3 pos chg) (tensorPoint 3 pts i)) _
    fun i hi' grav => ?_⟩
  by_cases hr : r.contains (tensorPoint 3 pts i)
  · rw [if_pos hr]; exact h2 _ hr grav _
  · rw [if_neg hr]
    refine ⟨_, h3 _ hr grav _ (fun s hs he => hr (he ▸ hI.inside s hs)), ?_⟩
    rw [sub_self, abs_zero]

/-- **C48** `DirectEvaluatePotentials`: the guarded direct sum at every point, no restriction. -/
theorem C48_direct_potentials {pos chg pts : Arr ℝ} (hc : pos.size / d ≤ chg.size) (hi : pos.size ≤ 2 ^ 31)
    (hi' : pts.size ≤ 2 ^ 31) (grav : Bool) (ord : Orders) (junk : ℕ → ℝ)
    (ho : ord.Valid (pos.size / d) (pts.size / d) (pts.size / d)) :
    ∃ out, directEvaluatePotentials d grav ord junk pos chg pts = .ok out ∧ out.size = pts.size / d ∧
      ∀ i < pts.size / d, out.val i = directPotential grav (tensorSources d pos chg) (tensorPoint d pts i) := by
  have hnd : pos.size / d * d ≤ pos.size := Nat.div_mul_le_self _ _
  have hnd' : pts.size / d * d ≤ pts.size := Nat.div_mul_le_self _ _
  obtain ⟨out, g1, g2, g3⟩ := evalPoints_ok (pts.size / d) ⟨pts.size / d, junk⟩ rfl (tensorPoint d pts)
    (potentialSum grav true (tensorSources d pos chg)) _ (fun i hi => potentialSum_safe grav _ (tensorPoint d pts i)) ord.pack ho.pack
  refine ⟨out, ?_, g2, g3⟩
  unfold directEvaluatePotentials
  rw [C48_unpack _ _ _ hnd hc (by omega) _ ho.unpack, ok_bind, unpackPoints_ok _ _ hnd' (by omega) _ ho.points, ok_bind, g1]

/-- **C48** `DirectParticleForces`: for distinct positions there is a result, and every execution returns the pairwise sums. -/
theorem C48_direct_forces {pos chg : Arr ℝ} (hc : pos.size / d ≤ chg.size) (hi : pos.size ≤ 2 ^ 31) (grav : Bool) {feps : ℝ}
    (hf : 0 ≤ feps) (hD : Distinct (tensorSources d pos chg)) (ord : Orders) (junk : ℕ → ℝ) {m : ℕ}
    (ho : ord.Valid (pos.size / d) m (pos.size / d)) :
    (∃ out, DirectParticleForces (d := d) grav ord junk pos chg feps out) ∧
    ∀ out, DirectParticleForces (d := d) grav ord junk pos chg feps out → out.size = pos.size / d * d ∧
      ∀ (i : Fin (tensorSources d pos chg).length) (k : Fin d), out.val (d * i + k) = ∑ j ∈ Finset.univ.erase i,
        chg.val i * fieldSpec grav (tensorPoint d pos i) feps ((tensorSources d pos chg).get j) k := by
  have hnd : pos.size / d * d ≤ pos.size := Nat.div_mul_le_self _ _
  have hu := C48_unpack _ _ _ hnd hc (by omega) _ ho.unpack
  obtain ⟨⟨res, hres⟩, hall⟩ := C36_pairwise_forces grav _ hD feps hf
  have pack : ∀ res : ℕ × Fin d → ℝ, _ := fun res => packVecs_ok (pos.size / d) ⟨pos.size / d * d, junk⟩
    (⟨(tensorSources d pos chg).length, fun i k => res (i, k)⟩ : Arr (Vec d)) rfl (unflatten_length _ _ _) (by omega) ord.pack ho.pack
  constructor
  · obtain ⟨out, g1, -⟩ := pack res
    exact ⟨out, _, res, hu, hres, g1⟩
  · rintro out ⟨S, res, h1, h2, h3⟩
    rw [hu] at h1
    injection h1 with h1
    subst h1
    obtain ⟨out', g1, g2, g3⟩ := pack res
    rw [h3] at g1
    injection g1 with g1
    subst g1
    refine ⟨g2, fun i k => ?_⟩
    have hlt : i.1 < pos.size / d := i.isLt.trans_eq (unflatten_length _ _ _)
    have hg : (tensorSources d pos chg).get i = ⟨tensorPoint d pos i, chg.val i⟩ := by
      rw [List.get_eq_getElem, unflatten_get]
    rw [g3 i hlt k]
    show res (i, k) = _
    rw [hall res h2 i k, hg]

/-- **C48** `DirectParticlePotentialEnergies`. -/
theorem C48_direct_energies {pos chg : Arr ℝ} (hc : pos.size / d ≤ chg.size) (hi : pos.size ≤ 2 ^ 31) (grav : Bool)
    (hD : Distinct (tensorSources d pos chg)) (junk : ℕ → ℝ) :
    (∃ out, DirectParticleEnergies d grav junk pos chg out) ∧
    ∀ out, DirectParticleEnergies d grav junk pos chg out → out.size = pos.size / d ∧
      ∀ i : Fin (tensorSources d pos chg).length, out.val i = ∑ j ∈ Finset.univ.erase i,
        chg.val i * kernelSpec d grav ((tensorSources d pos chg).get j).q
          (dist2 ((tensorSources d pos chg).get j).pos (tensorPoint d pos i)) := by
  have hnd : pos.size / d * d ≤ pos.size := Nat.div_mul_le_self _ _
  have hu := C48_unpack _ _ _ hnd hc (by omega) _ (List.Perm.refl (List.range (pos.size / d)))
  obtain ⟨⟨res, hres⟩, hall⟩ := C35_pairwise_energies grav _ hD
  have pack : ∀ res : ℕ → ℝ, _ := fun res => packReals_ok (pos.size / d) ⟨pos.size / d, junk⟩
    ⟨(tensorSources d pos chg).length, res⟩ rfl (unflatten_length _ _ _) _ (List.Perm.refl (List.range (pos.size / d)))
  constructor
  · obtain ⟨out, g1, -⟩ := pack res
    exact ⟨out, _, res, hu, hres, g1⟩
  · rintro out ⟨S, res, h1, h2, h3⟩
    rw [hu] at h1
    injection h1 with h1
    subst h1
    obtain ⟨out', g1, g2, g3⟩ := pack res
    rw [h3] at g1
    injection g1 with g1
    subst g1
    refine ⟨g2, fun i => ?_⟩
    have hlt : i.1 < pos.size / d := i.isLt.trans_eq (unflatten_length _ _ _)
    have hg : (tensorSources d pos chg).get i = ⟨tensorPoint d pos i, chg.val i⟩ := by
      rw [List.get_eq_getElem, unflatten_get]
    rw [g3 i hlt]
    show res i = _
    rw [hall res h2 i, hg]

/-- Five sources in tensors (and one unused trailing number): all loops in reverse order. -/
example : ∃ (pos chg : Arr ℝ), pos.size = 11 ∧ tensorSources 2 pos chg = S5 ∧ ∃ fuel out,
    fmmParticleForces kit2 (force2 0) fuel (fun _ l => l.reverse) BinomialTable.init false
      ⟨(List.range 5).reverse, [], (List.range 5).reverse, (List.range 5).reverse⟩ (fun _ => 7) pos chg 1 1 = .ok out ∧
    out.size = 10 := by
  obtain ⟨pos, chg, -, h2, h3, h4, -⟩ := C48_to_array S5 ⟨11, fun _ => 0⟩ ⟨5, fun _ => 0⟩ (by simp [S5]) (by simp [S5])
  have hs : pos.size / 2 = 5 := by rw [h2]; rfl
  have he : tensorSources 2 pos chg = S5 := by
    unfold tensorSources; rw [hs]; exact h4
  obtain ⟨fuel, h, H⟩ := C48_fmm_forces_2d (pos := pos) (chg := chg) (feps := 0) reachable_init (by rw [hs, h3]) (by rw [h2]; norm_num)
    (by rw [he]; exact S5_adaptive) (by rw [he]; exact S5_order) (by norm_num) (by norm_num) le_rfl
  obtain ⟨out, o1, o2, -⟩ := H fuel le_rfl (fun _ l => l.reverse) (fun _ l => l.reverse_perm) false
    ⟨(List.range 5).reverse, [], (List.range 5).reverse, (List.range 5).reverse⟩ (fun _ => 7) 0
    ⟨by rw [hs]; exact List.reverse_perm _, List.Perm.refl _, by rw [hs]; exact List.reverse_perm _, by rw [hs]; exact List.reverse_perm _⟩
  exact ⟨pos, chg, h2, he, fuel, out, o1, by rw [o2, hs]⟩

/-- A particle of positive mass next to one with mass zero. -/
example : derivLoop 2 ⟨8, fun _ => 1⟩ ⟨2, fun i => if i = 0 then 3 else 0⟩ ⟨2, fun _ => (![1, 1] : Vec 2)⟩ ⟨8, fun _ => 0⟩
    = .error .nonFinite :=
  C48_zero_mass (by norm_num) 2 _ _ _ _ (by norm_num) (by norm_num) rfl (by norm_num) 1 (by norm_num) (by simp)

/-- The integrator's right-hand side for five unit masses. -/
example : ∃ (y chg : Arr ℝ), unflatten 2 5 y.val chg.val = S5 ∧ ∃ fuel f,
    derivativeFunc kit2 (force2 (1 / 1000000)) fuel (fun _ l => l.reverse) BinomialTable.init (List.range 5).reverse chg ⟨5, fun _ => 1⟩ 5 1 1 y
      ⟨20, fun _ => 0⟩ = .ok f ∧ f.val 3 = 42 := by
  obtain ⟨y, chg, -, h2, h3, h4, h5, -⟩ := C48_to_array S5 ⟨20, fun _ => 42⟩ ⟨5, fun _ => 0⟩ (by simp [S5]) (by simp [S5])
  have he : unflatten 2 5 y.val chg.val = S5 := h4
  obtain ⟨fuel, h, H⟩ := C48_derivative_2d (N := 5) (y := y) (charges := chg) (masses := ⟨5, fun _ => 1⟩) (f := ⟨20, fun _ => 0⟩)
    (feps := 1 / 1000000) reachable_init (by rw [h2]) (by norm_num) (by rw [h3]) (by norm_num) (by intro i _; simp)
    (by rw [he]; exact S5_adaptive) (by rw [he]; exact S5_order) (by norm_num) (by norm_num) (by norm_num)
  obtain ⟨f, o1, o2, o3⟩ := H fuel le_rfl (fun _ l => l.reverse) (fun _ l => l.reverse_perm) _ (List.reverse_perm (List.range 5))
  refine ⟨y, chg, he, fuel, f, o1, ?_⟩
  have := (o3 1 (by norm_num)).1 1
  simp only [Fin.val_one] at this
  rw [show 2 * 1 + 1 = 3 from rfl] at this
  rw [this, h5 _ (by simp [S5])]

end FMM.Glue
