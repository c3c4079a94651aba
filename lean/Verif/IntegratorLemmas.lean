import Verif.Integrator
import Verif.PropsMomentum
import Verif.PropsFileIO

/-!
# The integrator: specification of its output, and lemmas
-/

namespace FMM.Integrator
open FMM Glue

/-! ## Specification -/

/-- Total momentum `Σ m_i v_i` of a line of the trajectory file: `2 N` coordinates followed by `2 N` velocities. -/
noncomputable def momentum (N : ℕ) (m : ℕ → ℝ) (line : List ℝ) (j : Fin 2) : ℝ :=
  ∑ i ∈ Finset.range N, m i * line.getD (2 * N + (2 * i + j)) 0

/-- `Σ m_i x_i`: total mass times centre of mass. -/
noncomputable def massMoment (N : ℕ) (m : ℕ → ℝ) (line : List ℝ) (j : Fin 2) : ℝ :=
  ∑ i ∈ Finset.range N, m i * line.getD (2 * i + j) 0

/-- The step size controller of GSL: step sizes are positive, and on success the accepted steps lead to the next save. -/
def CtlOk (ctl : ℕ → Ctl) : Prop :=
  ∀ i, (∀ c ∈ (ctl i).trials, 0 < c.1) ∧
    ((ctl i).success = true → (((ctl i).trials.filter fun c => c.2).map Prod.fst).sum = 10 / 100)

/-- What is assumed of the circumstances of the evaluations: the parallel loops execute each iteration once, and the table of
binomial coefficients was left behind by earlier calls. -/
structure EnvOk (N : ℕ) (env : ℕ → Env) : Prop where
  fuel : ∀ k, 1 ≤ (env k).fuel
  sch : ∀ k, Schedule (env k).sch
  t : ∀ k, Reachable (env k).t
  order : ∀ k, (env k).order.Perm (List.range N)

/-- The equations of motion: the velocities, and the strength-to-mass ratio times the direct smoothed field of all sources. -/
noncomputable def nbody (N : ℕ) (q m : ℕ → ℝ) (y : ℕ → ℝ) (l : ℕ) : ℝ :=
  if l < 2 * N then y (2 * N + l)
  else
    let i := (l - 2 * N) / 2
    q i / m i * directField true (unflatten 2 N y q) (fun j => y (2 * i + j)) (1 / 1000000) ⟨(l - 2 * N) % 2, Nat.mod_lt _ (by norm_num)⟩

/-! ## One evaluation -/

variable {env : ℕ → Env} {chg mass : Arr ℝ}

/-- With smoothing the unguarded field is finite at the sources too. -/
theorem forcefieldSum_smooth {d : ℕ} (grav : Bool) (S : List (Source d)) (x : Vec d) {eps : ℝ} (he : 0 < eps) :
    forcefieldSum grav false S x eps = .ok (directField grav S x eps) := by
  rw [← forcefieldSum_safe grav S x eps he.le]
  unfold forcefieldSum
  rw [foldlM_ok (fun frc src => (do
      let f ← forcefield grav false src x eps
      .ok (Vec.add frc f) : Outcome (Vec d))) (fun frc src => frc + directFieldTerm grav x eps src) _ _ (by
    intro a ha s
    by_cases h : a.pos = x
    · have h0 : Vec.normSq (Vec.sub a.pos x) = 0 := by rw [Vec.sub_eq, h]; simp [Vec.normSq_eq]
      have h1 : Vec.norm (Vec.sub a.pos x) = 0 := by rw [norm_sub_eq_dist2, dist2_eq_zero_iff]; exact h
      have h2 : forcefield grav false a x eps = .ok 0 := by
        unfold forcefield
        simp only [h0, h1]
        rw [if_neg (by simp), if_neg (by simp [he.ne'])]
        rw [show Vec.sub a.pos x = 0 by rw [Vec.sub_eq, h, sub_self]]
        refine congrArg Except.ok (funext fun j => ?_)
        by_cases hg : grav <;> simp [hg, Vec.scale, Vec.neg]
      rw [h2]
      unfold directFieldTerm
      rw [if_pos h]; rfl
    · rw [forcefield_of_ne _ _ _ _ _ he.le h]
      unfold directFieldTerm; rw [if_neg h]; rfl)]
  rw [foldlM_ok _ (fun frc src => frc + directFieldTerm grav x eps src) _ _ (by
      intro a _ s; rw [forcefield_safe _ _ _ _ he.le]; rfl)]

theorem strength_eq (N : ℕ) (y q : ℕ → ℝ) : totalStrength (unflatten 2 N y q) = ∑ i ∈ Finset.range N, |q i| := by
  rw [totalStrength_eq]
  induction N with
  | zero => simp [unflatten]
  | succ N ih =>
    rw [Finset.sum_range_succ, ← ih]
    simp [unflatten, List.range_succ]

/-- At most 90 particles: the right-hand side is the direct one, whatever the schedule. -/
theorem deriv_small (hE : EnvOk chg.size env) {p : ℕ} (hN : 1 ≤ chg.size) (hN90 : chg.size ≤ 90)
    (hm : mass.size = chg.size) (hm0 : ∀ i < chg.size, mass.val i ≠ 0)
    (hord : expansionOrder (∑ i ∈ Finset.range chg.size, |chg.val i|) (1 / 1000) = .ok p) (hp : p ≤ 1029) (k : ℕ) {y : Arr ℝ}
    (hy : y.size = 4 * chg.size) :
    ∃ a, deriv env chg mass k y = .ok a ∧ a.size = y.size ∧ ∀ l < y.size, a.val l = nbody chg.size chg.val mass.val y.val l := by
  set S := unflatten 2 chg.size y.val chg.val with hS
  rw [← strength_eq _ y.val, ← hS] at hord
  have hlen : S.length = chg.size := unflatten_length ..
  have hne : S.map Source.pos ≠ [] := by
    intro h
    have := congrArg List.length h
    rw [List.length_map, hlen] at this
    simp at this; omega
  obtain ⟨r, -, -, -, hr, -⟩ := rootBox_spec (S.map Source.pos) hne
  obtain ⟨t', e, h1, -, h3⟩ := le2_zero (hE.t k).good r.center hp
  obtain ⟨T, a1, -, -, a4, a5⟩ := adaptive_single (K := kit2) (O := force2 (1 / 1000000)) hr (hlen.trans_le hN90) hord h1
    (P := fun _ => True) (fun x _ => h3 x) (direct := fun x => directField true S x (1 / 1000000))
    fun x => forcefieldSum_safe true S x _ (by norm_num)
  have ev : ∀ x, adaptiveEval (force2 (1 / 1000000)) (env k).fuel true T S x = .ok (directField true S x (1 / 1000000)) := by
    intro x
    by_cases hx : r.contains x
    · rw [a4 x hx trivial true S _ (hE.fuel k)]; rfl
    · rw [a5 x hx true S _ (hE.fuel k)]
      exact forcefieldSum_smooth true S x (by norm_num)
  obtain ⟨f', g1, g2, g3, -⟩ := derivativeFunc_ok (K := kit2) (O := force2 (1 / 1000000)) (fuel := (env k).fuel) (sch := (env k).sch)
    (t := (env k).t) (charges := chg) (masses := mass) (y := y) (f := ⟨y.size, (env k).out⟩) (N := chg.size) (max := 90)
    (eps := 1 / 1000) (by omega) (by simp only; omega) le_rfl hm.ge hm0 (a1 _ (hE.fuel k) _)
    (fun i => directField true S (fun j => y.val (2 * i + j)) (1 / 1000000)) (fun i _ => ev _) (hE.order k)
  refine ⟨f', g1, g2, fun l hl => ?_⟩
  unfold nbody
  by_cases h : l < 2 * chg.size
  · rw [if_pos h]
    have := (g3 (l / 2) (by omega) ⟨l % 2, Nat.mod_lt _ (by norm_num)⟩).1
    simp only at this
    rw [Nat.div_add_mod] at this
    rw [this, Nat.mul_comm chg.size 2]
  · rw [if_neg h]
    have := (g3 ((l - 2 * chg.size) / 2) (by omega) ⟨(l - 2 * chg.size) % 2, Nat.mod_lt _ (by norm_num)⟩).2
    simp only at this
    rw [Nat.div_add_mod, show chg.size * 2 + (l - 2 * chg.size) = l by omega] at this
    exact this

/-! ## Runs with the same right-hand side -/

/-- Arrays with the same elements. -/
def Same (a b : Arr ℝ) : Prop := a.size = b.size ∧ ∀ i < b.size, a.val i = b.val i

theorem Same.toList {a b : Arr ℝ} (h : Same a b) : a.toList = b.toList := by
  unfold Arr.toList
  rw [h.1]
  exact List.map_congr_left fun i hi => h.2 i (by simpa using hi)

theorem Same.axpy {y y' k k' : Arr ℝ} (hy : Same y y') (hk : Same k k') (h : k'.size = y'.size) (c : ℝ) :
    Same (axpy y c k) (Integrator.axpy y' c k') := by
  refine ⟨hy.1, fun i hi => ?_⟩
  change y.val i + c * k.val i = y'.val i + c * k'.val i
  change i < y'.size at hi
  rw [hy.2 i hi, hk.2 i (by omega)]

/-- Two right-hand sides for states of `n` numbers that agree where they are defined. -/
def SameRhs (n : ℕ) (f g : ℕ → Arr ℝ → Outcome (Arr ℝ)) : Prop :=
  ∀ k l y y', Same y y' → y'.size = n → ∃ a b, f k y = .ok a ∧ g l y' = .ok b ∧ Same a b ∧ b.size = n

section
variable {n : ℕ} {f g : ℕ → Arr ℝ → Outcome (Arr ℝ)}

theorem rk4Step_same (hfg : SameRhs n f g) (k l : ℕ) (h : ℝ) {y y' k1 k1' : Arr ℝ} (hy : Same y y') (hn : y'.size = n)
    (hk : Same k1 k1') (hkn : k1'.size = n) :
    ∃ a b, rk4Step f k h y k1 = .ok a ∧ rk4Step g l h y' k1' = .ok b ∧ Same a b ∧ b.size = n := by
  obtain ⟨k2, k2', e2, e2', s2, n2⟩ := hfg k l _ _ (hy.axpy hk (hkn.trans hn.symm) (h / 2)) hn
  obtain ⟨k3, k3', e3, e3', s3, n3⟩ := hfg (k + 1) (l + 1) _ _ (hy.axpy s2 (n2.trans hn.symm) (h / 2)) hn
  obtain ⟨k4, k4', e4, e4', s4, n4⟩ := hfg (k + 2) (l + 2) _ _ (hy.axpy s3 (n3.trans hn.symm) h) hn
  refine ⟨_, _, ?_, ?_, ((((hy.axpy hk (hkn.trans hn.symm) (h / 6)).axpy s2 (n2.trans hn.symm) (h / 3)).axpy s3
    (n3.trans hn.symm) (h / 3)).axpy s4 (n4.trans hn.symm) (h / 6)), hn⟩
  · unfold rk4Step
    rw [e2, ok_bind, e3, ok_bind, e4, ok_bind]
  · unfold rk4Step
    rw [e2', ok_bind, e3', ok_bind, e4', ok_bind]

theorem trial_same (hfg : SameRhs n f g) {s s' : Solver} (hy : Same s.y s'.y) (hn : s'.y.size = n) (hk : Same s.k s'.k)
    (hkn : s'.k.size = n) (c : ℝ × Bool) :
    ∃ a b, trial f s c = .ok a ∧ trial g s' c = .ok b ∧ Same a.y b.y ∧ b.y.size = n ∧ Same a.k b.k ∧ b.k.size = n := by
  obtain ⟨o, o', e0, e0', -, -⟩ := rk4Step_same hfg s.n s'.n c.1 hy hn hk hkn
  obtain ⟨y1, y1', e1, e1', s1, n1⟩ := rk4Step_same hfg (s.n + 3) (s'.n + 3) (c.1 / 2) hy hn hk hkn
  obtain ⟨q, q', e2, e2', s2, n2⟩ := hfg (s.n + 6) (s'.n + 6) y1 y1' s1 n1
  obtain ⟨y2, y2', e3, e3', s3, n3⟩ := rk4Step_same hfg (s.n + 7) (s'.n + 7) (c.1 / 2) s1 n1 s2 n2
  obtain ⟨z, z', e4, e4', s4, n4⟩ := hfg (s.n + 10) (s'.n + 10) y2 y2' s3 n3
  have r : rk4Apply f s.n c.1 s.y s.k = .ok (y2, z) := by
    unfold rk4Apply
    rw [e0, ok_bind, e1, ok_bind, e2, ok_bind, e3, ok_bind, e4, ok_bind]
  have r' : rk4Apply g s'.n c.1 s'.y s'.k = .ok (y2', z') := by
    unfold rk4Apply
    rw [e0', ok_bind, e1', ok_bind, e2', ok_bind, e3', ok_bind, e4', ok_bind]
  unfold trial
  rw [r, r', ok_bind, ok_bind]
  dsimp only
  refine ⟨_, _, rfl, rfl, ?_⟩
  by_cases hc : c.2 = true
  · rw [if_pos hc, if_pos hc]; exact ⟨s3, n3, s4, n4⟩
  · rw [if_neg hc, if_neg hc]; exact ⟨hy, hn, hk, hkn⟩

theorem trials_same (hfg : SameRhs n f g) (l : List (ℝ × Bool)) : ∀ {s s' : Solver}, Same s.y s'.y → s'.y.size = n → Same s.k s'.k →
    s'.k.size = n → ∃ a b, l.foldlM (trial f) s = .ok a ∧ l.foldlM (trial g) s' = .ok b ∧ Same a.y b.y ∧ b.y.size = n ∧
      Same a.k b.k ∧ b.k.size = n := by
  induction l with
  | nil => exact fun h1 h2 h3 h4 => ⟨_, _, rfl, rfl, h1, h2, h3, h4⟩
  | cons c l ih =>
    intro s s' h1 h2 h3 h4
    obtain ⟨a, b, ea, eb, g1, g2, g3, g4⟩ := trial_same hfg h1 h2 h3 h4 c
    rw [List.foldlM_cons, List.foldlM_cons, ea, eb, ok_bind, ok_bind]
    exact ih g1 g2 g3 g4

theorem saves_same (hfg : SameRhs n f g) (ctl : ℕ → Ctl) (m : ℕ) : ∀ (i : ℕ) {s s' : Solver}, Same s.y s'.y → s'.y.size = n →
    Same s.k s'.k → s'.k.size = n → ∃ recs, saves f ctl m i s = .ok recs ∧ saves g ctl m i s' = .ok recs := by
  induction m with
  | zero => exact fun i s s' _ _ _ _ => ⟨[], rfl, rfl⟩
  | succ m ih =>
    intro i s s' h1 h2 h3 h4
    obtain ⟨a, b, ea, eb, g1, g2, g3, g4⟩ := trials_same hfg (ctl i).trials h1 h2 h3 h4
    obtain ⟨recs, r1, r2⟩ := ih (i + 1) g1 g2 g3 g4
    unfold saves
    rw [ea, eb, ok_bind, ok_bind]
    by_cases hs : (ctl i).success = true
    · rw [if_pos hs, if_pos hs, r1, r2, ok_bind, ok_bind, g1.toList]
      exact ⟨_, rfl, rfl⟩
    · rw [if_neg hs, if_neg hs]
      exact ⟨_, rfl, rfl⟩

theorem integrate_same (hfg : SameRhs n f g) (hn0 : n ≠ 0) (ctl : ℕ → Ctl) {y y' : Arr ℝ} (hy : Same y y') (hn : y'.size = n) :
    ∃ recs, integrate f ctl y = .ok recs ∧ integrate g ctl y' = .ok recs := by
  obtain ⟨a, b, ea, eb, s1, n1⟩ := hfg 0 0 y y' hy hn
  obtain ⟨recs, r1, r2⟩ := saves_same hfg ctl 100 1 (s := ⟨1, y, a⟩) (s' := ⟨1, y', b⟩) hy hn s1 n1
  refine ⟨recs, ?_, ?_⟩
  · unfold integrate
    rw [if_neg (by rw [hy.1, hn]; exact hn0), ea, ok_bind, r1]
  · unfold integrate
    rw [if_neg (by rw [hn]; exact hn0), eb, ok_bind, r2]

end

/-! ## Momentum and centre of mass -/

/-- `Σ m_i y_(2i+j)`. -/
noncomputable def mX (N : ℕ) (m : ℕ → ℝ) (y : Arr ℝ) (j : Fin 2) : ℝ := ∑ i ∈ Finset.range N, m i * y.val (2 * i + j)

/-- `Σ m_i y_(2N+2i+j)`. -/
noncomputable def mP (N : ℕ) (m : ℕ → ℝ) (y : Arr ℝ) (j : Fin 2) : ℝ := ∑ i ∈ Finset.range N, m i * y.val (2 * N + (2 * i + j))

theorem mX_axpy (N : ℕ) (m : ℕ → ℝ) (y k : Arr ℝ) (c : ℝ) (j : Fin 2) : mX N m (axpy y c k) j = mX N m y j + c * mX N m k j := by
  unfold mX axpy
  rw [Finset.mul_sum, ← Finset.sum_add_distrib]
  exact Finset.sum_congr rfl fun i _ => by ring

theorem mP_axpy (N : ℕ) (m : ℕ → ℝ) (y k : Arr ℝ) (c : ℝ) (j : Fin 2) : mP N m (axpy y c k) j = mP N m y j + c * mP N m k j := by
  unfold mP axpy
  rw [Finset.mul_sum, ← Finset.sum_add_distrib]
  exact Finset.sum_congr rfl fun i _ => by ring

theorem momentum_toList {N : ℕ} (m : ℕ → ℝ) {y : Arr ℝ} (hy : y.size = 4 * N) (j : Fin 2) :
    momentum N m y.toList j = mP N m y j := by
  unfold momentum mP
  refine Finset.sum_congr rfl fun i hi => ?_
  have hi := Finset.mem_range.mp hi
  have hj := j.isLt
  rw [List.getD_eq_getElem _ _ (by unfold Arr.toList; simp; omega)]
  simp [Arr.toList]

theorem massMoment_toList {N : ℕ} (m : ℕ → ℝ) {y : Arr ℝ} (hy : y.size = 4 * N) (j : Fin 2) :
    massMoment N m y.toList j = mX N m y j := by
  unfold massMoment mX
  refine Finset.sum_congr rfl fun i hi => ?_
  have hi := Finset.mem_range.mp hi
  have hj := j.isLt
  rw [List.getD_eq_getElem _ _ (by unfold Arr.toList; simp; omega)]
  simp [Arr.toList]

/-- `k` is a derivative at `y` whose total force is at most `B`. -/
def DerivOf (N : ℕ) (m : ℕ → ℝ) (B : ℝ) (y k : Arr ℝ) : Prop := ∀ j, mX N m k j = mP N m y j ∧ |mP N m k j| ≤ B

/-- A right-hand side whose total force is at most `B` wherever it is defined. -/
def BalancedRhs (N : ℕ) (m : ℕ → ℝ) (B : ℝ) (f : ℕ → Arr ℝ → Outcome (Arr ℝ)) : Prop :=
  ∀ k y a, y.size = 4 * N → f k y = .ok a → DerivOf N m B y a

section
variable {N : ℕ} {m : ℕ → ℝ} {B : ℝ} {f : ℕ → Arr ℝ → Outcome (Arr ℝ)}

/-- Momentum and centre of mass over one Runge-Kutta step. -/
theorem rk4Step_balance (hf : BalancedRhs N m B f) {n : ℕ} {h : ℝ} (hh : 0 ≤ h) {y k1 y' : Arr ℝ} (hy : y.size = 4 * N)
    (hk : DerivOf N m B y k1) (e : rk4Step f n h y k1 = .ok y') :
    y'.size = 4 * N ∧ ∀ j, |mP N m y' j - mP N m y j| ≤ B * h ∧
      |mX N m y' j - mX N m y j - h * mP N m y j| ≤ B * h ^ 2 / 2 := by
  unfold rk4Step at e
  obtain ⟨k2, e2, e⟩ := bind_ok_inv e
  obtain ⟨k3, e3, e⟩ := bind_ok_inv e
  obtain ⟨k4, e4, e⟩ := bind_ok_inv e
  injection e with e
  subst e
  have d2 := hf _ (axpy y (h / 2) k1) _ hy e2
  have d3 := hf _ (axpy y (h / 2) k2) _ hy e3
  have d4 := hf _ (axpy y h k3) _ hy e4
  refine ⟨hy, fun j => ?_⟩
  obtain ⟨x1, p1⟩ := hk j
  obtain ⟨x2, p2⟩ := d2 j
  obtain ⟨x3, p3⟩ := d3 j
  obtain ⟨x4, p4⟩ := d4 j
  rw [mP_axpy] at x2 x3 x4
  simp only [mP_axpy, mX_axpy, x1, x2, x3, x4]
  generalize mP N m y j = P at *
  generalize mX N m y j = X at *
  generalize mP N m k1 j = a at *
  generalize mP N m k2 j = b at *
  generalize mP N m k3 j = c at *
  generalize mP N m k4 j = d at *
  rw [abs_le] at p1 p2 p3 p4
  constructor
  · rw [show P + h / 6 * a + h / 3 * b + h / 3 * c + h / 6 * d - P = h * ((a + 2 * b + 2 * c + d) / 6) by ring, abs_mul,
      abs_of_nonneg hh, mul_comm B h]
    exact mul_le_mul_of_nonneg_left (abs_le.mpr ⟨by linarith, by linarith⟩) hh
  · rw [show X + h / 6 * P + h / 3 * (P + h / 2 * a) + h / 3 * (P + h / 2 * b) + h / 6 * (P + h * c) - X - h * P
        = h ^ 2 * ((a + b + c) / 6) by ring, abs_mul, abs_of_nonneg (sq_nonneg h), show B * h ^ 2 / 2 = h ^ 2 * (B / 2) by ring]
    exact mul_le_mul_of_nonneg_left (abs_le.mpr ⟨by linarith, by linarith⟩) (sq_nonneg h)

/-- The state at time `t`. -/
structure At (N : ℕ) (m : ℕ → ℝ) (B : ℝ) (X0 P0 : Fin 2 → ℝ) (t : ℝ) (y : Arr ℝ) : Prop where
  size : y.size = 4 * N
  P : ∀ j, |mP N m y j - P0 j| ≤ B * t
  X : ∀ j, |mX N m y j - X0 j - t * P0 j| ≤ B * t ^ 2 / 2

theorem At.step {X0 P0 : Fin 2 → ℝ} {t h : ℝ} {y y' : Arr ℝ} (a : At N m B X0 P0 t y) (hh : 0 ≤ h) (hy' : y'.size = 4 * N)
    (H : ∀ j, |mP N m y' j - mP N m y j| ≤ B * h ∧ |mX N m y' j - mX N m y j - h * mP N m y j| ≤ B * h ^ 2 / 2) :
    At N m B X0 P0 (t + h) y' := by
  refine ⟨hy', fun j => ?_, fun j => ?_⟩
  · have h1 := abs_le.mp (a.P j)
    have h2 := abs_le.mp (H j).1
    exact abs_le.mpr ⟨by linarith, by linarith⟩
  · have h1 := abs_le.mp (a.X j)
    have h2 := abs_le.mp (H j).2
    have h3 : |h * (mP N m y j - P0 j)| ≤ h * (B * t) := by
      rw [abs_mul, abs_of_nonneg hh]; exact mul_le_mul_of_nonneg_left (a.P j) hh
    have h3 := abs_le.mp h3
    exact abs_le.mpr ⟨by nlinarith, by nlinarith⟩

theorem trial_balance (hf : BalancedRhs N m B f) {X0 P0 : Fin 2 → ℝ} {t : ℝ} {s s' : Solver} {c : ℝ × Bool} (hc : 0 < c.1)
    (a : At N m B X0 P0 t s.y) (hk : DerivOf N m B s.y s.k) (e : trial f s c = .ok s') :
    At N m B X0 P0 (t + if c.2 then c.1 else 0) s'.y ∧ DerivOf N m B s'.y s'.k := by
  unfold trial at e
  obtain ⟨⟨y, k⟩, e1, e⟩ := bind_ok_inv e
  dsimp only at e
  injection e with e
  subst e
  by_cases h : c.2 = true
  · rw [if_pos h, if_pos h]
    unfold rk4Apply at e1
    obtain ⟨-, -, e1⟩ := bind_ok_inv e1
    obtain ⟨y1, f1, e1⟩ := bind_ok_inv e1
    obtain ⟨q, f2, e1⟩ := bind_ok_inv e1
    obtain ⟨y2, f3, e1⟩ := bind_ok_inv e1
    obtain ⟨k', f4, e1⟩ := bind_ok_inv e1
    injection e1 with e1
    injection e1 with e1 e1'
    subst e1
    subst e1'
    obtain ⟨n1, b1⟩ := rk4Step_balance hf (by linarith) a.size hk f1
    have d1 := hf _ _ _ n1 f2
    obtain ⟨n2, b2⟩ := rk4Step_balance hf (by linarith) n1 d1 f3
    refine ⟨?_, hf _ _ _ n2 f4⟩
    have := (a.step (by linarith) n1 b1).step (by linarith) n2 b2
    rwa [show t + c.1 / 2 + c.1 / 2 = t + c.1 by ring] at this
  · rw [if_neg h, if_neg h, add_zero]
    exact ⟨a, hk⟩

theorem trials_balance (hf : BalancedRhs N m B f) {X0 P0 : Fin 2 → ℝ} (l : List (ℝ × Bool)) : ∀ {t : ℝ} {s s' : Solver},
    (∀ c ∈ l, 0 < c.1) → At N m B X0 P0 t s.y → DerivOf N m B s.y s.k → l.foldlM (trial f) s = .ok s' →
    At N m B X0 P0 (t + ((l.filter fun c => c.2).map Prod.fst).sum) s'.y ∧ DerivOf N m B s'.y s'.k := by
  induction l with
  | nil =>
    intro t s s' _ a hk e
    rw [List.foldlM_nil] at e
    injection e with e
    subst e
    simpa using ⟨a, hk⟩
  | cons c l ih =>
    intro t s s' hl a hk e
    rw [List.foldlM_cons] at e
    obtain ⟨s1, e1, e⟩ := bind_ok_inv e
    obtain ⟨a1, k1⟩ := trial_balance hf (hl c (by simp)) a hk e1
    obtain ⟨a2, k2⟩ := ih (fun c hc => hl c (by simp [hc])) a1 k1 e
    refine ⟨?_, k2⟩
    by_cases h : c.2 = true
    · rw [if_pos h, add_assoc] at a2
      rwa [List.filter_cons_of_pos h, List.map_cons, List.sum_cons]
    · rw [if_neg h, add_zero] at a2
      rwa [List.filter_cons_of_neg h]

/-- What is claimed of line `r` of the trajectory file, the state of time `(r + 1) / 10`. -/
structure LineOk (N : ℕ) (m : ℕ → ℝ) (B : ℝ) (X0 P0 : Fin 2 → ℝ) (r : ℕ) (line : ℝ × List ℝ) : Prop where
  time : line.1 = (r + 1) / 10
  size : line.2.length = 4 * N
  P : ∀ j, |momentum N m line.2 j - P0 j| ≤ B * line.1
  X : ∀ j, |massMoment N m line.2 j - X0 j - line.1 * P0 j| ≤ B * line.1 ^ 2 / 2

theorem saves_balance (hf : BalancedRhs N m B f) {X0 P0 : Fin 2 → ℝ} {ctl : ℕ → Ctl} (hctl : CtlOk ctl) (n : ℕ) :
    ∀ (i : ℕ) {s : Solver} {recs : List (ℝ × List ℝ)}, At N m B X0 P0 (i / 10) s.y → DerivOf N m B s.y s.k →
      saves f ctl n (i + 1) s = .ok recs → ∀ r (hr : r < recs.length), LineOk N m B X0 P0 (i + r) recs[r] := by
  induction n with
  | zero =>
    intro i s recs _ _ e
    unfold saves at e
    injection e with e
    subst e
    simp
  | succ n ih =>
    intro i s recs a hk e
    unfold saves at e
    obtain ⟨s1, e1, e⟩ := bind_ok_inv e
    obtain ⟨a1, k1⟩ := trials_balance hf (ctl (i + 1)).trials (hctl _).1 a hk e1
    by_cases h : (ctl (i + 1)).success = true
    · rw [if_pos h] at e
      obtain ⟨rest, e2, e⟩ := bind_ok_inv e
      injection e with e
      subst e
      rw [(hctl _).2 h, show ((i : ℕ) : ℝ) / 10 + 10 / 100 = ((i + 1 : ℕ) : ℝ) / 10 by push_cast; ring] at a1
      have tm : ((i + 1 : ℕ) : ℝ) * 10 / 100 = ((i + 1 : ℕ) : ℝ) / 10 := by ring
      rintro (_ | r) hr
      · refine ⟨?_, ?_, fun j => ?_, fun j => ?_⟩
        · simp only [List.getElem_cons_zero]; push_cast; ring
        · simp [Arr.toList, a1.size]
        · simp only [List.getElem_cons_zero]
          rw [momentum_toList m a1.size, tm]
          exact a1.P j
        · simp only [List.getElem_cons_zero]
          rw [massMoment_toList m a1.size, tm]
          exact a1.X j
      · have := ih (i + 1) a1 k1 e2 r (by simpa using hr)
        rwa [show i + 1 + r = i + (r + 1) by omega] at this
    · rw [if_neg h] at e
      injection e with e
      subst e
      simp

theorem saves_length {ctl : ℕ → Ctl} (n : ℕ) : ∀ (i : ℕ) {s : Solver} {recs : List (ℝ × List ℝ)}, saves f ctl n i s = .ok recs →
    recs.length ≤ n ∧ ((∀ i, (ctl i).success = true) → recs.length = n) := by
  induction n with
  | zero =>
    intro i s recs e
    unfold saves at e
    injection e with e
    subst e
    simp
  | succ n ih =>
    intro i s recs e
    unfold saves at e
    obtain ⟨s1, e1, e⟩ := bind_ok_inv e
    by_cases h : (ctl i).success = true
    · rw [if_pos h] at e
      obtain ⟨rest, e2, e⟩ := bind_ok_inv e
      injection e with e
      subst e
      obtain ⟨h1, h2⟩ := ih (i + 1) e2
      exact ⟨by simpa using h1, fun H => by simpa using h2 H⟩
    · rw [if_neg h] at e
      injection e with e
      subst e
      exact ⟨by simp, fun H => absurd (H i) h⟩

theorem integrate_balance (hf : BalancedRhs N m B f) {ctl : ℕ → Ctl} (hctl : CtlOk ctl) {y : Arr ℝ} (hy : y.size = 4 * N)
    {recs : List (ℝ × List ℝ)} (e : integrate f ctl y = .ok recs) :
    recs.length ≤ 100 ∧ ((∀ i, (ctl i).success = true) → recs.length = 100) ∧
      ∀ r (hr : r < recs.length), LineOk N m B (mX N m y) (mP N m y) r recs[r] := by
  unfold integrate at e
  by_cases h : y.size = 0
  · rw [if_pos h] at e; exact absurd e (by simp)
  · rw [if_neg h] at e
    obtain ⟨k, e1, e⟩ := bind_ok_inv e
    obtain ⟨h1, h2⟩ := saves_length 100 1 e
    refine ⟨h1, h2, fun r hr => ?_⟩
    have := saves_balance hf hctl 100 0 (s := ⟨1, y, k⟩) (X0 := mX N m y) (P0 := mP N m y) ⟨hy, by simp, by simp⟩ (hf _ _ _ hy e1) e r hr
    rwa [Nat.zero_add] at this

end

/-! ## The direct system -/

/-- The equations of motion as a right-hand side. -/
noncomputable def nbodyRhs (N : ℕ) (q m : ℕ → ℝ) (_ : ℕ) (y : Arr ℝ) : Outcome (Arr ℝ) := .ok ⟨y.size, nbody N q m y.val⟩

theorem unflatten_congr {N : ℕ} {y y' q q' : ℕ → ℝ} (hy : ∀ l < 4 * N, y l = y' l) (hq : ∀ i < N, q i = q' i) :
    unflatten 2 N y q = unflatten 2 N y' q' := by
  unfold unflatten
  refine List.map_congr_left fun i hi => ?_
  have hi : i < N := by simpa using hi
  rw [hq i hi, show (fun j : Fin 2 => y (2 * i + j)) = fun j : Fin 2 => y' (2 * i + j) from
    funext fun j => hy _ (by have := j.isLt; omega)]

theorem nbody_congr {N : ℕ} {y y' q q' m m' : ℕ → ℝ} (hy : ∀ l < 4 * N, y l = y' l) (hq : ∀ i < N, q i = q' i)
    (hm : ∀ i < N, m i = m' i) {l : ℕ} (hl : l < 4 * N) : nbody N q m y l = nbody N q' m' y' l := by
  unfold nbody
  by_cases h : l < 2 * N
  · rw [if_pos h, if_pos h, hy _ (by omega)]
  · rw [if_neg h, if_neg h]
    simp only
    rw [unflatten_congr hy hq, hq _ (by omega), hm _ (by omega),
      show (fun j : Fin 2 => y (2 * ((l - 2 * N) / 2) + j)) = fun j : Fin 2 => y' (2 * ((l - 2 * N) / 2) + j) from
        funext fun j => hy _ (by have := j.isLt; omega)]

theorem nbody_pos {N : ℕ} (q m y : ℕ → ℝ) {i : ℕ} (hi : i < N) (j : Fin 2) : nbody N q m y (2 * i + j) = y (2 * N + (2 * i + j)) := by
  unfold nbody
  rw [if_pos (by have := j.isLt; omega)]

theorem nbody_vel {N : ℕ} (q m y : ℕ → ℝ) (i : ℕ) (j : Fin 2) : nbody N q m y (2 * N + (2 * i + j)) =
    q i / m i * directField true (unflatten 2 N y q) (fun j => y (2 * i + j)) (1 / 1000000) j := by
  unfold nbody
  have := j.isLt
  rw [if_neg (by omega)]
  have h1 : (2 * N + (2 * i + j) - 2 * N) / 2 = i := by omega
  have h2 : (⟨(2 * N + (2 * i + j) - 2 * N) % 2, Nat.mod_lt _ (by norm_num)⟩ : Fin 2) = j := Fin.ext (by simp only; omega)
  simp only [h1, h2]

theorem srcAt_unflatten {N : ℕ} (y q : ℕ → ℝ) {i : ℕ} (hi : i < N) :
    srcAt (unflatten 2 N y q) i = ⟨fun j => y (2 * i + j), q i⟩ := by
  rw [srcAt_lt (by rw [unflatten_length]; exact hi), unflatten_get]

/-- Newton's third law: the total force of the direct system vanishes. -/
theorem nbody_balanced {N : ℕ} {q m : ℕ → ℝ} (hm : ∀ i < N, m i ≠ 0) : BalancedRhs N m 0 (nbodyRhs N q m) := by
  intro k y a hy e j
  injection e with e
  subst e
  constructor
  · unfold mX mP
    exact Finset.sum_congr rfl fun i hi => by simp only; rw [nbody_pos _ _ _ (Finset.mem_range.mp hi)]
  · have h := C91_direct_force true (unflatten 2 N y.val q) (1 / 1000000) j
    have h2 : mP N m ⟨y.size, nbody N q m y.val⟩ j = totalForce (unflatten 2 N y.val q).length (fun i k =>
        (srcAt (unflatten 2 N y.val q) i).q * directField true (unflatten 2 N y.val q) (srcAt (unflatten 2 N y.val q) i).pos
          (1 / 1000000) k) j := by
      unfold mP totalForce
      rw [unflatten_length]
      refine Finset.sum_congr rfl fun i hi => ?_
      have hi := Finset.mem_range.mp hi
      simp only
      rw [nbody_vel, srcAt_unflatten _ _ hi]
      simp only
      rw [← mul_assoc, mul_div_cancel₀ _ (hm i hi)]
    rw [h2, h]
    simp

/-- The state at the beginning: the coordinates of the sources, then the velocities. -/
noncomputable def initial (S : List (Source 2)) (vel : List ℝ) : Arr ℝ :=
  ⟨4 * S.length, fun l => if l < 2 * S.length then (srcAt S (l / 2)).pos ⟨l % 2, Nat.mod_lt _ (by norm_num)⟩
    else vel.getD (l - 2 * S.length) 0⟩

/-- The arrays of `main` after reading the input. -/
theorem setup_initial (junk : ℕ → ℝ) {fs fv fm : List FileIO.Line} {S : List (Source 2)} (hS : FileIO.readSources fs = .ok S)
    (h32 : 4 * S.length < 2 ^ 32) (hv : (FileIO.vectorFromFile fv).length = 2 * S.length)
    (hm : (FileIO.vectorFromFile fm).length = S.length) :
    ∃ pos chg mass, FileIO.setup junk fs fv fm = .ok (pos, chg, mass) ∧ Same pos (initial S (FileIO.vectorFromFile fv)) ∧
      chg.size = S.length ∧ mass.size = S.length ∧ (∀ i < S.length, chg.val i = (srcAt S i).q) ∧
      ∀ i < S.length, mass.val i = (FileIO.vectorFromFile fm).getD i 0 := by
  obtain ⟨pos, chg, mass, h1, h2, h3, h4, h5, h6, h7⟩ := FileIO.C61_setup junk fs fv fm S hS h32 hv hm
  have key : ∀ i < S.length, srcAt S i = ⟨fun j => pos.val (2 * i + j), chg.val i⟩ := by
    intro i hi
    conv_lhs => rw [← h5]
    exact srcAt_unflatten _ _ hi
  refine ⟨pos, chg, mass, h1, ⟨h2, fun l hl => ?_⟩, h3, h4, fun i hi => by rw [key i hi], fun i hi => ?_⟩
  · change l < 4 * S.length at hl
    change _ = if l < 2 * S.length then _ else _
    by_cases h : l < 2 * S.length
    · rw [if_pos h, key _ (by omega)]
      simp only
      rw [Nat.div_add_mod]
    · rw [if_neg h, List.getD_eq_getElem _ _ (by omega), ← h6 (l - 2 * S.length) (by omega)]
      congr 1; omega
  · rw [h7 i (by omega), List.getD_eq_getElem _ _ (by omega)]

theorem mX_initial (S : List (Source 2)) (vel : List ℝ) (m : ℕ → ℝ) (j : Fin 2) :
    mX S.length m (initial S vel) j = ∑ i ∈ Finset.range S.length, m i * (srcAt S i).pos j := by
  unfold mX
  refine Finset.sum_congr rfl fun i hi => ?_
  have hi := Finset.mem_range.mp hi
  have hj := j.isLt
  change m i * (if 2 * i + (j : ℕ) < 2 * S.length then _ else _) = _
  rw [if_pos (by omega)]
  have h1 : (2 * i + (j : ℕ)) / 2 = i := by omega
  have h2 : (⟨(2 * i + (j : ℕ)) % 2, Nat.mod_lt _ (by norm_num)⟩ : Fin 2) = j := Fin.ext (by simp only; omega)
  rw [h1, h2]

theorem mP_initial (S : List (Source 2)) (vel : List ℝ) (m : ℕ → ℝ) (j : Fin 2) :
    mP S.length m (initial S vel) j = ∑ i ∈ Finset.range S.length, m i * vel.getD (2 * i + j) 0 := by
  unfold mP
  refine Finset.sum_congr rfl fun i hi => ?_
  change m i * (if 2 * S.length + (2 * i + (j : ℕ)) < 2 * S.length then _ else _) = _
  rw [if_neg (by omega), show 2 * S.length + (2 * i + (j : ℕ)) - 2 * S.length = 2 * i + j by omega]

/-- The expansion order for an accuracy of 1/1000. -/
theorem order_ok {A : ℝ} (hA : 1 / 2000 < A) (hA' : 1000 * A ≤ 2 ^ 1029) :
    ∃ p, expansionOrder A (1 / 1000) = .ok p ∧ p ≤ 1029 ∧ A ≤ 2 ^ p * (1 / 1000) ∧ ∀ q < p, 2 ^ q * (1 / 1000) < A := by
  obtain ⟨p, h1, h2, h3⟩ := C24_order A (1 / 1000) (by norm_num) (by linarith) (by
    have : (2 : ℝ) ^ 1029 ≤ 2 ^ (2 ^ 32 - 1) := pow_le_pow_right₀ (by norm_num) (by norm_num)
    generalize (2 : ℝ) ^ (2 ^ 32 - 1) = z at *
    generalize (2 : ℝ) ^ 1029 = w at *
    linarith)
  refine ⟨p, h1, ?_, h2, h3⟩
  by_contra hc
  have := h3 1029 (by omega)
  generalize (2 : ℝ) ^ 1029 = w at *
  linarith

/-! ## More than one leaf -/

theorem foldlM_le {σ α : Type} {f g : σ → α → Outcome σ} (h : ∀ s a s', f s a = .ok s' → g s a = .ok s') (l : List α) :
    ∀ {s s' : σ}, l.foldlM f s = .ok s' → l.foldlM g s = .ok s' := by
  induction l with
  | nil => exact fun e => e
  | cons a l ih =>
    intro s s' e
    rw [List.foldlM_cons] at e ⊢
    obtain ⟨s1, e1, e⟩ := bind_ok_inv e
    rw [h _ _ _ e1, ok_bind]
    exact ih e

theorem descend_mono {d : ℕ} {α : Type} {heap : AHeap d α} {x : Vec d} {fuel : ℕ} : ∀ {fuel' : ℕ} {cur π : Path}, fuel ≤ fuel' →
    descend heap x fuel cur = .ok π → descend heap x fuel' cur = .ok π := by
  induction fuel with
  | zero => intro fuel' cur π _ e; exact absurd e (by simp [descend])
  | succ fuel ih =>
    intro fuel' cur π hf e
    obtain ⟨fuel', rfl⟩ : ∃ k, fuel' = k + 1 := ⟨fuel' - 1, by omega⟩
    unfold descend at e ⊢
    obtain ⟨node, e1, e⟩ := bind_ok_inv e
    rw [e1, ok_bind]
    by_cases h : node.isLeaf = true
    · rw [if_pos h] at e ⊢; exact e
    · rw [if_neg h] at e ⊢
      rcases hc : node.child (getOrthant node.box.center x) with _ | c
      · rw [hc] at e; exact absurd e (by simp)
      · rw [hc] at e
        exact ih (by omega) e

theorem adaptiveEval_mono {d : ℕ} {V : Type} [AddCommGroup V] {K : Kit d} {O : Obs K V} {fuel fuel' : ℕ} (hf : fuel ≤ fuel') {grav : Bool}
    {T : AdaptiveFmm K} {S : List (Source d)} {x : Vec d} {v : V} (e : adaptiveEval O fuel grav T S x = .ok v) :
    adaptiveEval O fuel' grav T S x = .ok v := by
  unfold adaptiveEval getContainingLeaf at e ⊢
  obtain ⟨leaf, e1, e⟩ := bind_ok_inv e
  obtain ⟨cur, e2, e1⟩ := bind_ok_inv e1
  rw [descend_mono hf e2, ok_bind, e1, ok_bind]
  exact e

theorem adaptiveFmm_mono {d : ℕ} {K : Kit d} {fuel fuel' : ℕ} (hf : fuel ≤ fuel') {sch : ℕ → List Path → List Path} {t : K.T}
    {S : List (Source d)} {max : ℕ} {eps : ℝ} {T : AdaptiveFmm K} (e : adaptiveFmm K fuel sch t S max eps = .ok T) :
    adaptiveFmm K fuel' sch t S max eps = .ok T := by
  unfold adaptiveFmm at e ⊢
  obtain ⟨T0, e1, e⟩ := bind_ok_inv e
  have : adaptiveInit K fuel' t S max eps = .ok T0 := by
    unfold adaptiveInit at e1 ⊢
    obtain ⟨p, e2, e1⟩ := bind_ok_inv e1
    rw [e2, ok_bind]
    rcases hr : rootBox (S.map Source.pos) with _ | r
    · rw [hr] at e1; exact absurd e1 (by simp)
    · rw [hr] at e1
      obtain ⟨x, e3, e1⟩ := bind_ok_inv e1
      simp only
      rw [adaptiveLists_mono hf e3, ok_bind]
      exact e1
  rw [this, ok_bind]
  exact e

/-- More fuel does not change a derivative. -/
theorem derivativeFunc_mono {d : ℕ} {K : Kit d} {O : Obs K (Vec d)} {fuel fuel' : ℕ} (hf : fuel ≤ fuel') {sch : ℕ → List Path → List Path}
    {t : K.T} {order : List ℕ} {chg mass y f a : Arr ℝ} {N max : ℕ} {eps : ℝ}
    (e : derivativeFunc K O fuel sch t order chg mass N max eps y f = .ok a) :
    derivativeFunc K O fuel' sch t order chg mass N max eps y f = .ok a := by
  unfold derivativeFunc at e ⊢
  obtain ⟨S, e1, e⟩ := bind_ok_inv e
  obtain ⟨T, e2, e⟩ := bind_ok_inv e
  obtain ⟨F, e3, e⟩ := bind_ok_inv e
  rw [e1, ok_bind, adaptiveFmm_mono hf e2, ok_bind]
  have : particleLoop (fun q v => Vec.scale v q) (adaptiveEval O fuel' true T S.toList) S.toList order = .ok F := by
    unfold particleLoop at e3 ⊢
    refine foldlM_le (fun s i s' h => ?_) order e3
    obtain ⟨src, h1, h⟩ := bind_ok_inv h
    obtain ⟨v, h2, h⟩ := bind_ok_inv h
    rw [h1, ok_bind, adaptiveEval_mono hf h2, ok_bind]
    exact h
  rw [this, ok_bind]
  exact e

/-- Requirements on a state: the root box contains the particles, at most 90 of them coincide, and the boxes of the smallest
leaves of the tree have sides at least `l`. -/
def Good (env : ℕ → Env) (chg : Arr ℝ) (l : ℝ) (k : ℕ) (y : Arr ℝ) : Prop :=
  ∃ r, AdaptiveInput (unflatten 2 chg.size y.val chg.val) 90 r ∧
    ∀ T, adaptiveFmm kit2 (env k).fuel (env k).sch (env k).t (unflatten 2 chg.size y.val chg.val) 90 (1 / 1000) = .ok T →
      l ≤ r.len / 2 ^ T.height

/-- The error of the total force. -/
noncomputable def forceErr (A : ℝ) (p : ℕ) (l : ℝ) : ℝ := A * (A * (errForce p l + 1 / 1000000 / l ^ 3))

theorem errForce_anti (p : ℕ) {l b : ℝ} (hl : 0 < l) (h : l ≤ b) : errForce p b ≤ errForce p l := by
  have h2 : Real.sqrt 2 < 2 := by
    rw [Real.sqrt_lt' (by norm_num)]; norm_num
  unfold errForce
  exact div_le_div_of_nonneg_left (by positivity) (mul_pos (by linarith) hl) (mul_le_mul_of_nonneg_left h (by linarith))

/-- The right-hand side of a good state. -/
theorem deriv_good (hE : EnvOk chg.size env) {p : ℕ} (hm : mass.size = chg.size) (hm0 : ∀ i < chg.size, mass.val i ≠ 0)
    (hord : expansionOrder (∑ i ∈ Finset.range chg.size, |chg.val i|) (1 / 1000) = .ok p) (hp0 : 1 ≤ p) (hp : p ≤ 1029) {l : ℝ}
    (hl : 0 < l) {k : ℕ} {y a : Arr ℝ} (hy : y.size = 4 * chg.size) (hg : Good env chg l k y) (e : deriv env chg mass k y = .ok a) :
    DerivOf chg.size mass.val (forceErr (∑ i ∈ Finset.range chg.size, |chg.val i|) p l) y a := by
  obtain ⟨r, hI, hT⟩ := hg
  set A := ∑ i ∈ Finset.range chg.size, |chg.val i| with hA
  set S := unflatten 2 chg.size y.val chg.val with hS
  have hAS : (S.map fun s => |s.q|).sum = A := by rw [← totalStrength_eq, hS, strength_eq]
  rw [hA, ← strength_eq _ y.val, ← hS] at hord
  obtain ⟨fuel0, T, h1, -, h2, -⟩ := C60_adaptive_2d (hE.t k) hI hord hp0 hp (1 / 1000000) (by norm_num)
  set F := max fuel0 (env k).fuel with hF
  have hv : ∀ i, ∃ v, i < chg.size → adaptiveEval (force2 (1 / 1000000)) F true T S (fun j => y.val (2 * i + j)) = .ok v ∧
      dist2 v (directField true S (fun j => y.val (2 * i + j)) (1 / 1000000)) ≤
        A * (errForce p (r.len / 2 ^ T.height) + 1 / 1000000 / (r.len / 2 ^ T.height) ^ 3) := by
    intro i
    by_cases hi : i < chg.size
    · obtain ⟨v, v1, v2⟩ := h2 _ (hI.inside ⟨fun j => y.val (2 * i + j), chg.val i⟩ (List.mem_map.mpr ⟨i, by simpa using hi, rfl⟩)) true S
      exact ⟨v, fun _ => ⟨v1 F (le_max_left _ _), by rw [hAS] at v2; exact v2⟩⟩
    · exact ⟨0, fun h => absurd h hi⟩
  choose val hval using hv
  obtain ⟨f', g1, g2, g3, -⟩ := derivativeFunc_ok (K := kit2) (O := force2 (1 / 1000000)) (fuel := F) (sch := (env k).sch)
    (t := (env k).t) (charges := chg) (masses := mass) (y := y) (f := ⟨y.size, (env k).out⟩) (N := chg.size) (max := 90)
    (eps := 1 / 1000) (by omega) (by simp only; omega) le_rfl hm.ge hm0 (h1 _ (le_max_left _ _) _ (hE.sch k)) val
    (fun i hi => (hval i hi).1) (hE.order k)
  have e' := derivativeFunc_mono (le_max_right fuel0 (env k).fuel) e
  rw [← hF, g1] at e'
  injection e' with e'
  subst e'
  -- the tree of this evaluation is `T`
  have hle : l ≤ r.len / 2 ^ T.height := by
    unfold deriv derivativeFunc at e
    obtain ⟨src, s1, e⟩ := bind_ok_inv e
    obtain ⟨src', s2, s3⟩ := C48_from_array (⟨chg.size, fun _ => ⟨Vec.fill 0, 0⟩⟩ : Arr (Source 2)) y chg (by simp only; omega) le_rfl
    rw [s2] at s1
    injection s1 with s1
    subst s1
    rw [s3] at e
    obtain ⟨T', s4, -⟩ := bind_ok_inv e
    have s5 := adaptiveFmm_mono (le_max_right fuel0 (env k).fuel) s4
    rw [← hF, h1 _ (le_max_left _ _) _ (hE.sch k)] at s5
    injection s5 with s5
    subst s5
    exact hT T s4
  intro j
  constructor
  · unfold mX mP
    refine Finset.sum_congr rfl fun i hi => ?_
    rw [(g3 i (Finset.mem_range.mp hi) j).1, Nat.mul_comm chg.size 2]
  · have h3 : mP chg.size mass.val f' j = totalForce S.length (fun i j => chg.val i * val i j) j := by
      unfold mP totalForce
      rw [show S.length = chg.size from unflatten_length ..]
      refine Finset.sum_congr rfl fun i hi => ?_
      have hi := Finset.mem_range.mp hi
      rw [Nat.mul_comm 2 chg.size, (g3 i hi j).2, ← mul_assoc, mul_div_cancel₀ _ (hm0 i hi)]
    have hlen : S.length = chg.size := unflatten_length ..
    rw [h3]
    refine (totalForce_le (grav := true) (eps := 1 / 1000000)
      (e := fun i => |chg.val i| * (A * (errForce p l + 1 / 1000000 / l ^ 3))) j fun i hi => ?_).trans ?_
    · rw [hlen] at hi
      rw [show srcAt S i = ⟨fun j => y.val (2 * i + j), chg.val i⟩ from srcAt_unflatten _ _ hi]
      simp only
      rw [← mul_sub, abs_mul]
      refine mul_le_mul_of_nonneg_left (((abs_le_dist2 _ _ j).trans (hval i hi).2).trans ?_) (abs_nonneg _)
      refine mul_le_mul_of_nonneg_left (add_le_add (errForce_anti p hl hle) ?_) (Finset.sum_nonneg fun _ _ => abs_nonneg _)
      exact div_le_div_of_nonneg_left (by norm_num) (by positivity) (pow_le_pow_left₀ hl.le hle 3)
    · rw [hlen, ← Finset.sum_mul]
      exact le_rfl

/-- `f` is defined at fewer states than `g`. -/
def LeRhs (f g : ℕ → Arr ℝ → Outcome (Arr ℝ)) : Prop := ∀ k y a, f k y = .ok a → g k y = .ok a

section
variable {f g : ℕ → Arr ℝ → Outcome (Arr ℝ)}

theorem rk4Step_le (h : LeRhs f g) {n : ℕ} {c : ℝ} {y k a : Arr ℝ} (e : rk4Step f n c y k = .ok a) : rk4Step g n c y k = .ok a := by
  unfold rk4Step at e ⊢
  obtain ⟨k2, e2, e⟩ := bind_ok_inv e
  obtain ⟨k3, e3, e⟩ := bind_ok_inv e
  obtain ⟨k4, e4, e⟩ := bind_ok_inv e
  rw [h _ _ _ e2, ok_bind, h _ _ _ e3, ok_bind, h _ _ _ e4, ok_bind]
  exact e

theorem trial_le (h : LeRhs f g) {s s' : Solver} {c : ℝ × Bool} (e : trial f s c = .ok s') : trial g s c = .ok s' := by
  unfold trial at e ⊢
  obtain ⟨x, e1, e⟩ := bind_ok_inv e
  have : rk4Apply g s.n c.1 s.y s.k = .ok x := by
    unfold rk4Apply at e1 ⊢
    obtain ⟨y0, f0, e1⟩ := bind_ok_inv e1
    obtain ⟨y1, f1, e1⟩ := bind_ok_inv e1
    obtain ⟨q, f2, e1⟩ := bind_ok_inv e1
    obtain ⟨y2, f3, e1⟩ := bind_ok_inv e1
    obtain ⟨k', f4, e1⟩ := bind_ok_inv e1
    rw [rk4Step_le h f0, ok_bind, rk4Step_le h f1, ok_bind, h _ _ _ f2, ok_bind, rk4Step_le h f3, ok_bind, h _ _ _ f4, ok_bind]
    exact e1
  rw [this, ok_bind]
  exact e

theorem saves_le (h : LeRhs f g) {ctl : ℕ → Ctl} (m : ℕ) : ∀ {i : ℕ} {s : Solver} {recs : List (ℝ × List ℝ)},
    saves f ctl m i s = .ok recs → saves g ctl m i s = .ok recs := by
  induction m with
  | zero => exact fun e => e
  | succ m ih =>
    intro i s recs e
    unfold saves at e ⊢
    obtain ⟨s1, e1, e⟩ := bind_ok_inv e
    rw [foldlM_le (fun _ _ _ => trial_le h) _ e1, ok_bind]
    by_cases hs : (ctl i).success = true
    · rw [if_pos hs] at e ⊢
      obtain ⟨rest, e2, e⟩ := bind_ok_inv e
      rw [ih e2, ok_bind]
      exact e
    · rw [if_neg hs] at e ⊢
      exact e

theorem integrate_le (h : LeRhs f g) {ctl : ℕ → Ctl} {y : Arr ℝ} {recs : List (ℝ × List ℝ)} (e : integrate f ctl y = .ok recs) :
    integrate g ctl y = .ok recs := by
  unfold integrate at e ⊢
  by_cases h0 : y.size = 0
  · rw [if_pos h0] at e ⊢; exact e
  · rw [if_neg h0] at e ⊢
    obtain ⟨k, e1, e⟩ := bind_ok_inv e
    rw [h _ _ _ e1, ok_bind]
    exact saves_le h 100 e

end

end FMM.Integrator
