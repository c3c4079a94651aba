import Verif.IntegratorLemmas

/-!
# Property C101: the integrator

The program solves the equations of motion of the direct gravitational field: exactly if one leaf suffices, otherwise with an error
that shows in the total momentum and in the motion of the centre of mass.
-/

namespace FMM.Integrator
open FMM Glue FileIO

/-- What the input files must contain: sources, two velocity components and one non-zero mass for each of them. -/
structure FilesOk (fs fv fm : List Line) (S : List (Source 2)) : Prop where
  sources : readSources fs = .ok S
  pos : 1 ≤ S.length
  small : 4 * S.length < 2 ^ 32
  velocities : (vectorFromFile fv).length = 2 * S.length
  masses : (vectorFromFile fm).length = S.length
  mass : ∀ i < S.length, (vectorFromFile fm).getD i 0 ≠ 0

/-- Mass of particle `i`. -/
noncomputable def massOf (fm : List Line) (i : ℕ) : ℝ := (vectorFromFile fm).getD i 0

variable {fs fv fm : List Line} {S : List (Source 2)} {env : ℕ → Env} {ctl : ℕ → Ctl}

theorem strength_arr {chg : Arr ℝ} (h1 : chg.size = S.length) (h2 : ∀ i < S.length, chg.val i = (srcAt S i).q) :
    ∑ i ∈ Finset.range chg.size, |chg.val i| = totalStrength S := by
  rw [totalStrength_eq, h1, Finset.sum_congr rfl (g := fun i => if h : i < S.length then |S[i].q| else 0) fun i hi => by
    have hi := Finset.mem_range.mp hi
    rw [dif_pos hi, h2 i hi, srcAt_lt hi], Finset.sum_range, ← List.sum_ofFn]
  congr 1
  apply List.ext_getElem <;> simp

/-- **C101** At most 90 particles: for every schedule of the parallel loops, every content of uninitialised memory and every
choice of step sizes, the trajectory file is the one of the Runge-Kutta method applied to the equations of motion with the direct
field. The total momentum never changes, and the centre of mass moves uniformly. -/
theorem C101_small (junk : ℕ → ℝ) (hF : FilesOk fs fv fm S) (hN : S.length ≤ 90) (hA : 1 / 2000 < totalStrength S)
    (hA' : 1000 * totalStrength S ≤ 2 ^ 1029) (hE : EnvOk S.length env) :
    ∃ recs, main junk env ctl (some fs) (some fv) (some fm) true = .ok recs ∧
      integrate (nbodyRhs S.length (fun i => (srcAt S i).q) (massOf fm)) ctl (initial S (vectorFromFile fv)) = .ok recs ∧
      (CtlOk ctl → recs.length ≤ 100 ∧ ((∀ i, (ctl i).success = true) → recs.length = 100) ∧
        ∀ r (hr : r < recs.length), recs[r].1 = (r + 1) / 10 ∧ recs[r].2.length = 4 * S.length ∧
          (∀ j, momentum S.length (massOf fm) recs[r].2 j
            = ∑ i ∈ Finset.range S.length, massOf fm i * (vectorFromFile fv).getD (2 * i + j) 0) ∧
          ∀ j, massMoment S.length (massOf fm) recs[r].2 j = ∑ i ∈ Finset.range S.length, massOf fm i * (srcAt S i).pos j +
            recs[r].1 * ∑ i ∈ Finset.range S.length, massOf fm i * (vectorFromFile fv).getD (2 * i + j) 0) := by
  obtain ⟨pos, chg, mass, h1, h2, h3, h4, h5, h6⟩ := setup_initial junk hF.sources hF.small hF.velocities hF.masses
  obtain ⟨p, hp, hp', -⟩ := order_ok hA hA'
  rw [← strength_arr h3 h5] at hp
  have hsame : SameRhs (4 * S.length) (deriv env chg mass) (nbodyRhs S.length (fun i => (srcAt S i).q) (massOf fm)) := by
    intro k l y y' hy hn
    obtain ⟨a, a1, a2, a3⟩ := deriv_small (mass := mass) (h3.symm ▸ hE) (by have := hF.pos; omega) (by omega) (by omega)
      (fun i hi => by rw [h6 i (by omega)]; exact hF.mass i (by omega)) hp hp' k (y := y) (by rw [hy.1, hn, h3])
    refine ⟨a, _, a1, rfl, ⟨a2.trans hy.1, fun i hi => ?_⟩, hn⟩
    change i < y'.size at hi
    rw [a3 i (by rw [hy.1]; exact hi), h3]
    exact nbody_congr (fun l hl => hy.2 l (by omega)) h5 h6 (by omega)
  obtain ⟨recs, r1, r2⟩ := integrate_same hsame (by have := hF.pos; omega) ctl h2 rfl
  refine ⟨recs, ?_, r2, fun hctl => ?_⟩
  · unfold main
    simp only
    rw [h1, ok_bind]
    simp only
    rw [r1, ok_bind]
    rfl
  · obtain ⟨c1, c2, c3⟩ := integrate_balance (nbody_balanced (q := fun i => (srcAt S i).q) (m := massOf fm) hF.mass) hctl rfl r2
    refine ⟨c1, c2, fun r hr => ?_⟩
    obtain ⟨d1, d2, d3, d4⟩ := c3 r hr
    refine ⟨d1, d2, fun j => ?_, fun j => ?_⟩
    · have := d3 j
      rw [zero_mul] at this
      rw [sub_eq_zero.mp (abs_nonpos_iff.mp this)]
      exact mP_initial S _ _ j
    · have := d4 j
      rw [zero_mul, zero_div] at this
      have := abs_nonpos_iff.mp this
      rw [mX_initial, mP_initial] at this
      linarith

/-- The right-hand side, with states that are not `Good` an error. -/
noncomputable def guarded (env : ℕ → Env) (chg mass : Arr ℝ) (l : ℝ) (k : ℕ) (y : Arr ℝ) : Outcome (Arr ℝ) :=
  open Classical in if Good env chg l k y then deriv env chg mass k y else .error .assertFail

theorem LineOk.congr {N : ℕ} {m m' : ℕ → ℝ} (h : ∀ i < N, m i = m' i) {B : ℝ} {X0 P0 : Fin 2 → ℝ} {r : ℕ} {line : ℝ × List ℝ}
    (hl : LineOk N m B X0 P0 r line) : LineOk N m' B X0 P0 r line := by
  have e1 : momentum N m = momentum N m' := by
    funext a j
    exact Finset.sum_congr rfl fun i hi => by rw [h i (Finset.mem_range.mp hi)]
  have e2 : massMoment N m = massMoment N m' := by
    funext a j
    exact Finset.sum_congr rfl fun i hi => by rw [h i (Finset.mem_range.mp hi)]
  exact ⟨hl.time, hl.size, e1 ▸ hl.P, e2 ▸ hl.X⟩

/-- **C101** Any number of particles: as long as all states at which the field is computed have particles inside the root box, no
more than 90 of them at one place and leaves with sides at least `l`, the total momentum drifts at most by `B t` and the centre of
mass, times the total mass, deviates from uniform motion at most by `B t² / 2`, where `B = A² ((1/√2)^p / ((2-√2) l) + 1e-6 / l³)`. -/
theorem C101_large (junk : ℕ → ℝ) (hF : FilesOk fs fv fm S) {p : ℕ} (hp : expansionOrder (totalStrength S) (1 / 1000) = .ok p)
    (hp0 : 1 ≤ p) (hp' : p ≤ 1029) (hE : EnvOk S.length env) (hctl : CtlOk ctl) {l : ℝ} (hl : 0 < l) :
    ∃ pos chg mass, setup junk fs fv fm = .ok (pos, chg, mass) ∧
      ∀ recs, integrate (guarded env chg mass l) ctl pos = .ok recs →
        main junk env ctl (some fs) (some fv) (some fm) true = .ok recs ∧
        recs.length ≤ 100 ∧ ((∀ i, (ctl i).success = true) → recs.length = 100) ∧
        ∀ r (hr : r < recs.length), LineOk S.length (massOf fm)
          (totalStrength S * (totalStrength S * ((1 / Real.sqrt 2) ^ p / ((2 - Real.sqrt 2) * l) + 1 / 1000000 / l ^ 3)))
          (fun j => ∑ i ∈ Finset.range S.length, massOf fm i * (srcAt S i).pos j)
          (fun j => ∑ i ∈ Finset.range S.length, massOf fm i * (vectorFromFile fv).getD (2 * i + j) 0) r recs[r] := by
  obtain ⟨pos, chg, mass, h1, h2, h3, h4, h5, h6⟩ := setup_initial junk hF.sources hF.small hF.velocities hF.masses
  rw [← strength_arr h3 h5] at hp
  have hb : BalancedRhs chg.size mass.val (forceErr (∑ i ∈ Finset.range chg.size, |chg.val i|) p l) (guarded env chg mass l) := by
    intro k y a hy e
    unfold guarded at e
    by_cases hg : Good env chg l k y
    · rw [if_pos hg] at e
      exact deriv_good (h3.symm ▸ hE) (by omega) (fun i hi => by rw [h6 i (by omega)]; exact hF.mass i (by omega)) hp hp0 hp' hl hy
        hg e
    · rw [if_neg hg] at e
      exact absurd e (by simp)
  refine ⟨pos, chg, mass, h1, fun recs e => ?_⟩
  have hle : LeRhs (guarded env chg mass l) (deriv env chg mass) := by
    intro k y a e
    unfold guarded at e
    by_cases hg : Good env chg l k y
    · rwa [if_pos hg] at e
    · rw [if_neg hg] at e
      exact absurd e (by simp)
  obtain ⟨c1, c2, c3⟩ := integrate_balance hb hctl (h2.1.trans (by rw [h3]; rfl)) e
  refine ⟨?_, c1, c2, fun r hr => ?_⟩
  · unfold main
    simp only
    rw [h1, ok_bind]
    simp only
    rw [integrate_le hle e, ok_bind]
    rfl
  · have := c3 r hr
    rw [strength_arr h3 h5, h3] at this
    have eX : mX S.length mass.val pos = fun j => ∑ i ∈ Finset.range S.length, massOf fm i * (srcAt S i).pos j := by
      funext j
      rw [← mX_initial S (vectorFromFile fv)]
      refine Finset.sum_congr rfl fun i hi => ?_
      have hi := Finset.mem_range.mp hi
      rw [h6 i hi, h2.2 _ (by change _ < 4 * S.length; have := j.isLt; omega)]
      rfl
    have eP : mP S.length mass.val pos
        = fun j : Fin 2 => ∑ i ∈ Finset.range S.length, massOf fm i * (vectorFromFile fv).getD (2 * i + j) 0 := by
      funext j
      rw [← mP_initial S (vectorFromFile fv)]
      refine Finset.sum_congr rfl fun i hi => ?_
      have hi := Finset.mem_range.mp hi
      rw [h6 i hi, h2.2 _ (by change _ < 4 * S.length; have := j.isLt; omega)]
      rfl
    rw [eX, eP] at this
    exact this.congr h6

/-! ## Failures -/

/-- **C101** A missing input file is reported. -/
theorem C101_missing (junk : ℕ → ℝ) (fs fv fm : Option (List Line)) (logs : Bool) (h : fs = none ∨ fv = none ∨ fm = none) :
    main junk env ctl fs fv fm logs = .error .runtimeError := by
  rcases fs with _ | fs <;> rcases fv with _ | fv <;> rcases fm with _ | fm <;> first | rfl | simp at h

/-- **C101** Empty input files abort the program. -/
theorem C101_empty (junk : ℕ → ℝ) (logs : Bool) : main junk env ctl (some []) (some []) (some []) logs = .error .gslAbort := by
  rfl

/-- **C101** Particles of total strength at most 1/2000 (for instance without charge): the first evaluation of the right-hand
side is undefined. -/
theorem C101_weak (junk : ℕ → ℝ) (hF : FilesOk fs fv fm S) (hA : totalStrength S ≤ 1 / 2000) (logs : Bool) :
    main junk env ctl (some fs) (some fv) (some fm) logs = .error .ub := by
  obtain ⟨pos, chg, mass, h1, h2, h3, h4, h5, h6⟩ := setup_initial junk hF.sources hF.small hF.velocities hF.masses
  have hsz : pos.size = 4 * S.length := h2.1
  unfold main
  simp only
  rw [h1, ok_bind]
  simp only
  unfold integrate
  rw [if_neg (by have := hF.pos; omega)]
  have : deriv env chg mass 0 pos = .error .ub := by
    unfold deriv derivativeFunc
    obtain ⟨src, s2, s3⟩ := C48_from_array (⟨chg.size, fun _ => ⟨Vec.fill 0, 0⟩⟩ : Arr (Source 2)) pos chg (by simp only; omega) le_rfl
    rw [s2, ok_bind, s3]
    unfold adaptiveFmm adaptiveInit
    simp only
    rw [strength_eq, strength_arr h3 h5, C24_order_ub _ _ (by norm_num) (by linarith), err_bind, err_bind, err_bind]
  rw [this, err_bind, err_bind]

/-- **C101** If `logs/trajectory.dat` cannot be opened the program does all the work, reports no error and writes nothing. -/
theorem C101_lost (junk : ℕ → ℝ) (fs fv fm : Option (List Line)) {recs : List (ℝ × List ℝ)}
    (h : main junk env ctl fs fv fm true = .ok recs) : main junk env ctl fs fv fm false = .ok [] := by
  rcases fs with _ | fs
  · exact absurd h (by simp [main])
  rcases fv with _ | fv
  · exact absurd h (by simp [main])
  rcases fm with _ | fm
  · exact absurd h (by simp [main])
  unfold main at h ⊢
  simp only at h ⊢
  obtain ⟨⟨pos, chg, mass⟩, h1, h⟩ := bind_ok_inv h
  obtain ⟨r, h2, h⟩ := bind_ok_inv h
  rw [h1, ok_bind]
  simp only
  rw [h2, ok_bind]
  rfl

/-! ## Examples -/

/-- Constant step size 1/10. -/
noncomputable def ctl0 (_ : ℕ) : Ctl := ⟨[(1 / 10, true)], true⟩

theorem ctl0_ok : CtlOk ctl0 := fun i => ⟨by simp [ctl0], fun _ => by simp [ctl0]; norm_num⟩

/-- Sequential execution. -/
def env0 (N : ℕ) (_ : ℕ) : Env := ⟨1, fun _ l => l, BinomialTable.init, List.range N, fun _ => 7⟩

theorem env0_ok (N : ℕ) : EnvOk N (env0 N) :=
  ⟨fun _ => le_rfl, fun _ _ _ => List.Perm.refl _, fun _ => reachable_init, fun _ => List.Perm.refl _⟩

/-- Two attracting particles that revolve around each other; their centre of mass moves with velocity `(0, 1)`. -/
example : ∃ recs, main (fun _ => 7) (env0 2) ctl0 (some [[some (-1), some 0, some 1], [some 1, some 0, some 2]])
      (some [[some 0, some 2], [some 0, some 0]]) (some [[some 1, some 1]]) true = .ok recs ∧ recs.length = 100 ∧
    ∀ r (hr : r < recs.length), massMoment 2 (fun _ => 1) recs[r].2 1 = 2 * ((r + 1) / 10) := by
  have hS : readSources (d := 2) [[some (-1), some 0, some 1], [some 1, some 0, some 2]] = .ok [⟨![-1, 0], 1⟩, ⟨![1, 0], 2⟩] :=
    C61_read_wellformed (d := 2) [⟨![-1, 0], 1⟩, ⟨![1, 0], 2⟩] (fun _ => [])
  have hv : vectorFromFile [[some 0, some 2], [some 0, some 0]] = [0, 2, 0, 0] := by simp [vectorFromFile, numbers]
  have hm : vectorFromFile [[some 1, some 1]] = [1, 1] := by simp [vectorFromFile, numbers]
  have hF : FilesOk [[some (-1), some 0, some 1], [some 1, some 0, some 2]] [[some 0, some 2], [some 0, some 0]] [[some 1, some 1]]
      [⟨![-1, 0], 1⟩, ⟨![1, 0], 2⟩] := by
    refine ⟨hS, by simp, by simp, by rw [hv]; simp, by rw [hm]; simp, fun i hi => ?_⟩
    rw [hm]
    have hi : i < 2 := by simpa using hi
    interval_cases i <;> simp
  have hA : totalStrength ([⟨![-1, 0], 1⟩, ⟨![1, 0], 2⟩] : List (Source 2)) = 3 := by rw [totalStrength_eq]; simp; norm_num
  obtain ⟨recs, h1, -, h2⟩ := C101_small (ctl := ctl0) (env := env0 2) (fun _ => 7) hF (by simp) (by rw [hA]; norm_num) (by
    rw [hA]
    exact (show (1000 * 3 : ℝ) ≤ 2 ^ 12 by norm_num).trans (pow_le_pow_right₀ (by norm_num) (by norm_num))) (env0_ok 2)
  obtain ⟨-, h3, h4⟩ := h2 ctl0_ok
  refine ⟨recs, h1, h3 fun _ => rfl, fun r hr => ?_⟩
  obtain ⟨e1, -, -, e2⟩ := h4 r hr
  have e3 := e2 1
  rw [e1] at e3
  have hc : massMoment 2 (fun _ => 1) recs[r].2 1 = massMoment 2 (massOf [[some 1, some 1]]) recs[r].2 1 := by
    unfold massMoment massOf
    rw [hm]
    exact Finset.sum_congr rfl fun i hi => by
      have := Finset.mem_range.mp hi
      interval_cases i <;> simp
  rw [hc]
  refine e3.trans ?_
  unfold massOf
  rw [hm, hv]
  simp [Finset.sum_range_succ, srcAt]
  ring

/-- A system at rest stays at rest. -/
theorem integrate_rest {f : ℕ → Arr ℝ → Outcome (Arr ℝ)} {y0 : Arr ℝ} (h0 : y0.size ≠ 0)
    (hf : ∀ k y, Same y y0 → ∃ a, f k y = .ok a ∧ a.size = y0.size ∧ ∀ i < y0.size, a.val i = 0) (ctl : ℕ → Ctl) :
    ∃ recs, integrate f ctl y0 = .ok recs := by
  have ax : ∀ y c a, Same y y0 → (∀ i < y0.size, a.val i = 0) → Same (axpy y c a) y0 := fun y c a hy ha =>
    ⟨hy.1, fun i hi => by change y.val i + c * a.val i = _; rw [ha i hi, hy.2 i hi]; ring⟩
  have st : ∀ n h y k, Same y y0 → (∀ i < y0.size, k.val i = 0) → ∃ z, rk4Step f n h y k = .ok z ∧ Same z y0 := by
    intro n h y k hy hk
    obtain ⟨k2, e2, -, z2⟩ := hf n _ (ax y (h / 2) k hy hk)
    obtain ⟨k3, e3, -, z3⟩ := hf (n + 1) _ (ax y (h / 2) k2 hy z2)
    obtain ⟨k4, e4, -, z4⟩ := hf (n + 2) _ (ax y h k3 hy z3)
    refine ⟨_, ?_, ax _ (h / 6) k4 (ax _ (h / 3) k3 (ax _ (h / 3) k2 (ax _ (h / 6) k hy hk) z2) z3) z4⟩
    unfold rk4Step
    rw [e2, ok_bind, e3, ok_bind, e4, ok_bind]
  have tr : ∀ (l : List (ℝ × Bool)) (s : Solver), Same s.y y0 → (∀ i < y0.size, s.k.val i = 0) →
      ∃ s', l.foldlM (trial f) s = .ok s' ∧ Same s'.y y0 ∧ ∀ i < y0.size, s'.k.val i = 0 := by
    intro l
    induction l with
    | nil => exact fun s hy hk => ⟨s, rfl, hy, hk⟩
    | cons c l ih =>
      intro s hy hk
      obtain ⟨_, e0, -⟩ := st s.n c.1 s.y s.k hy hk
      obtain ⟨y1, e1, s1⟩ := st (s.n + 3) (c.1 / 2) s.y s.k hy hk
      obtain ⟨q, e2, -, z2⟩ := hf (s.n + 6) y1 s1
      obtain ⟨y2, e3, s3⟩ := st (s.n + 7) (c.1 / 2) y1 q s1 z2
      obtain ⟨k', e4, -, z4⟩ := hf (s.n + 10) y2 s3
      have e : trial f s c = .ok (if c.2 then ⟨s.n + 11, y2, k'⟩ else ⟨s.n + 11, s.y, s.k⟩) := by
        unfold trial rk4Apply
        rw [e0, ok_bind, e1, ok_bind, e2, ok_bind, e3, ok_bind, e4, ok_bind, ok_bind]
      rw [List.foldlM_cons, e, ok_bind]
      by_cases hc : c.2 = true
      · rw [if_pos hc]; exact ih _ s3 z4
      · rw [if_neg hc]; exact ih _ hy hk
  have sv : ∀ m i (s : Solver), Same s.y y0 → (∀ i < y0.size, s.k.val i = 0) → ∃ recs, saves f ctl m i s = .ok recs := by
    intro m
    induction m with
    | zero => exact fun i s _ _ => ⟨[], rfl⟩
    | succ m ih =>
      intro i s hy hk
      obtain ⟨s', e1, h1, h2⟩ := tr (ctl i).trials s hy hk
      obtain ⟨recs, e2⟩ := ih (i + 1) s' h1 h2
      unfold saves
      rw [e1, ok_bind, e2]
      by_cases hs : (ctl i).success = true
      · rw [if_pos hs]; exact ⟨_, rfl⟩
      · rw [if_neg hs]; exact ⟨_, rfl⟩
  obtain ⟨a, e, -, z⟩ := hf 0 y0 ⟨rfl, fun _ _ => rfl⟩
  obtain ⟨recs, e2⟩ := sv 100 1 ⟨1, y0, a⟩ ⟨rfl, fun _ _ => rfl⟩ z
  refine ⟨recs, ?_⟩
  unfold integrate
  rw [if_neg h0, e, ok_bind, e2]

/-- Two particles at rest, one of them without charge: the requirements of `C101_large` hold throughout the run. -/
example : ∃ pos chg mass recs, setup (fun _ => 7) [[some (-1), some 0, some 1], [some 1, some 0, some 0]]
      [[some 0, some 0], [some 0, some 0]] [[some 1, some 1]] = .ok (pos, chg, mass) ∧
    integrate (guarded (env0 2) chg mass 1) ctl0 pos = .ok recs ∧
    main (fun _ => 7) (env0 2) ctl0 (some [[some (-1), some 0, some 1], [some 1, some 0, some 0]])
      (some [[some 0, some 0], [some 0, some 0]]) (some [[some 1, some 1]]) true = .ok recs ∧ recs.length = 100 := by
  set S : List (Source 2) := [⟨![-1, 0], 1⟩, ⟨![1, 0], 0⟩] with hSdef
  have hS : readSources (d := 2) [[some (-1), some 0, some 1], [some 1, some 0, some 0]] = .ok S :=
    C61_read_wellformed (d := 2) S (fun _ => [])
  have hv : vectorFromFile [[some 0, some 0], [some 0, some 0]] = [0, 0, 0, 0] := by simp [vectorFromFile, numbers]
  have hm : vectorFromFile [[some 1, some 1]] = [1, 1] := by simp [vectorFromFile, numbers]
  have hF : FilesOk [[some (-1), some 0, some 1], [some 1, some 0, some 0]] [[some 0, some 0], [some 0, some 0]] [[some 1, some 1]] S := by
    refine ⟨hS, by simp [hSdef], by simp [hSdef], by rw [hv]; simp [hSdef], by rw [hm]; simp [hSdef], fun i hi => ?_⟩
    rw [hm]
    have hi : i < 2 := by simpa [hSdef] using hi
    interval_cases i <;> simp
  have hA : totalStrength S = 1 := by rw [totalStrength_eq]; simp [hSdef]
  obtain ⟨p, hp, hp', -, hp1⟩ := order_ok (A := 1) (by norm_num)
    ((show (1000 * 1 : ℝ) ≤ 2 ^ 10 by norm_num).trans (pow_le_pow_right₀ (by norm_num) (by norm_num)))
  have hp0 : 1 ≤ p := by
    by_contra h
    have h0 : p = 0 := by omega
    subst h0
    have h1 := C24_order 1 (1 / 1000) (by norm_num) (by norm_num) (by
      have : (2 : ℝ) ^ 10 ≤ 2 ^ (2 ^ 32 - 1) := pow_le_pow_right₀ (by norm_num) (by norm_num)
      generalize (2 : ℝ) ^ (2 ^ 32 - 1) = z at *
      norm_num at this
      linarith)
    obtain ⟨q, q1, q2, -⟩ := h1
    rw [hp] at q1
    injection q1 with q1
    subst q1
    norm_num at q2
  obtain ⟨pos, chg, mass, h1, h2⟩ := C101_large (env := env0 2) (fun _ => 7) hF (by rw [hA]; exact hp) hp0 hp' (env0_ok 2) ctl0_ok one_pos
  obtain ⟨pos', chg', mass', g1, g2, g3, g4, g5, g6⟩ := setup_initial (fun _ => 7) hF.sources hF.small hF.velocities hF.masses
  rw [h1] at g1
  injection g1 with g1
  injection g1 with ga gb
  injection gb with gb gc
  subst ga
  subst gb
  subst gc
  have hlen : S.length = 2 := rfl
  have hbox : rootBox (S.map Source.pos) = some ⟨fun _ => 0, (1 + paddingFactor) * 2⟩ := by
    have h := rootBox_eq (S.map Source.pos) ![-1, 0] ![1, 0] 2 (by intro i; fin_cases i <;> simp [hSdef])
      (by intro i; fin_cases i <;> simp [hSdef]) (by intro i; fin_cases i <;> norm_num) ⟨0, by norm_num⟩
    rw [h]
    refine congrArg some ?_
    congr 1
    funext i
    fin_cases i <;> simp
  have hpad : (0 : ℝ) < paddingFactor := by unfold paddingFactor; norm_num
  have hI : AdaptiveInput S 90 ⟨fun _ => 0, (1 + paddingFactor) * 2⟩ := by
    refine ⟨hbox, ?_, fun x => (List.length_filter_le _ _).trans (by simp [hSdef])⟩
    refine fun s hs => containsHO_contains ?_
    simp only [hSdef, List.mem_cons, List.not_mem_nil, or_false] at hs
    rcases hs with rfl | rfl <;> intro i <;> rw [Box.lower_apply, Box.upper_apply] <;> fin_cases i <;> norm_num [paddingFactor]
  obtain ⟨recs, hr⟩ := integrate_rest (f := guarded (env0 2) chg mass 1) (y0 := pos) (by rw [g2.1]; decide) (by
    intro k y hy
    have hi : Same y (initial S [0, 0, 0, 0]) := by
      rw [hv] at g2
      exact ⟨hy.1.trans g2.1, fun i hi => by rw [hy.2 i (by rw [g2.1]; exact hi), g2.2 i hi]⟩
    have hy8 : y.size = 8 := hi.1
    have hval : ∀ l < 8, y.val l = (initial S [0, 0, 0, 0]).val l := hi.2
    have hc2 : chg.size = 2 := g3
    have hu : unflatten 2 chg.size y.val chg.val = S := by
      rw [hc2]
      have e0 := hval 0 (by norm_num)
      have e1 := hval 1 (by norm_num)
      have e2 := hval 2 (by norm_num)
      have e3 := hval 3 (by norm_num)
      have q0 := g5 0 (by rw [hlen]; norm_num)
      have q1 := g5 1 (by rw [hlen]; norm_num)
      simp [initial, hSdef, srcAt] at e0 e1 e2 e3 q0 q1
      simp only [unflatten, List.range_succ, List.range_zero, List.nil_append, List.map_cons, List.map_nil, List.cons_append, hSdef,
        List.cons.injEq, and_true, Source.mk.injEq]
      refine ⟨⟨?_, q0⟩, ?_, q1⟩
      · funext j; fin_cases j
        · exact e0
        · exact e1
      · funext j; fin_cases j
        · exact e2
        · exact e3
    have hgood : Good (env0 2) chg 1 k y := by
      refine ⟨_, hu.symm ▸ hI, fun T hT => ?_⟩
      rw [hu] at hT
      obtain ⟨t', e, l1, -, l3⟩ := le2_zero reachable_init.good (fun _ : Fin 2 => (0 : ℝ)) hp'
      obtain ⟨T', a1, -, a3, -⟩ := adaptive_single (K := kit2) (O := force2 (1 / 1000000)) hbox (max := 90) (eps := 1 / 1000) (by simp [hSdef])
        (by rw [hA]; exact hp) l1
        (P := fun _ => True) (fun x _ => l3 x) (direct := fun x => directField true S x (1 / 1000000))
        fun x => forcefieldSum_safe true S x _ (by norm_num)
      have := (a1 1 le_rfl _).symm.trans hT
      injection this with this
      subst this
      rw [a3]
      simp only [pow_zero, div_one]
      linarith
    have hstr := strength_arr g3 g5
    obtain ⟨a, a1, a2, a3⟩ := deriv_small (mass := mass) (env := env0 2) (by rw [hc2]; exact env0_ok 2) (by omega) (by omega) (by rw [g4, g3])
      (fun i hi => by rw [g6 i (by rw [g3] at hi; exact hi)]; exact hF.mass i (by rw [g3] at hi; exact hi))
      (by rw [hstr, hA]; exact hp) hp' k (y := y) (by omega)
    refine ⟨a, ?_, a2.trans hy.1, fun i hi => ?_⟩
    · unfold guarded
      rw [if_pos hgood, a1]
    · rw [← hy.1, hy8] at hi
      rw [a3 i (by omega)]
      unfold nbody
      by_cases h : i < 2 * chg.size
      · rw [if_pos h, hval _ (by omega), hc2]
        have : i < 4 := by omega
        interval_cases i <;> simp [initial, hSdef]
      · rw [if_neg h]
        simp only
        rw [hu]
        have hz : ∀ x : Vec 2, x = ![-1, 0] → directField true S x (1 / 1000000) = 0 := by
          rintro x rfl
          simp only [directField, hSdef, List.map_cons, List.map_nil, List.sum_cons, List.sum_nil, directFieldTerm]
          rw [if_pos trivial]
          by_cases hx : (![1, 0] : Vec 2) = ![-1, 0]
          · rw [if_pos hx]; simp
          · rw [if_neg hx]
            funext j
            simp [fieldSpec]
        have q1 := g5 1 (by rw [hlen]; norm_num)
        simp [hSdef, srcAt] at q1
        have : (i - 2 * chg.size) / 2 = 0 ∨ (i - 2 * chg.size) / 2 = 1 := by omega
        rcases this with h0 | h0
        · rw [h0, hz _ (by
            funext j
            rw [hval _ (by have := j.isLt; omega)]
            fin_cases j <;> simp [initial, hSdef, srcAt])]
          simp
        · rw [h0, q1]; simp) ctl0
  obtain ⟨k1, -, k2, -⟩ := h2 recs hr
  exact ⟨pos, chg, mass, recs, h1, hr, k1, k2 fun _ => rfl⟩

end FMM.Integrator
