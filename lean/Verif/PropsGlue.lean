import Verif.GlueLemmas
import Verif.PropsSmooth

/-!
# The callers of the library: C48

Specification: the source list stored in flat arrays (`unflatten`).
-/

namespace FMM.Glue
variable {d : ℕ}

/-- The `n` sources stored in flat arrays: source `i` has coordinates `pos[d*i .. d*i+d-1]` and strength `chg[i]`. -/
def unflatten (d n : ℕ) (pos chg : ℕ → ℝ) : List (Source d) :=
  (List.range n).map fun i => ⟨fun j => pos (d * i + j), chg i⟩

theorem unflatten_length (n : ℕ) (pos chg : ℕ → ℝ) : (unflatten d n pos chg).length = n := by simp [unflatten]

theorem unflatten_get {n : ℕ} {pos chg : ℕ → ℝ} {i : ℕ} (h : i < (unflatten d n pos chg).length) :
    (unflatten d n pos chg)[i] = ⟨fun j => pos (d * i + j), chg i⟩ := by simp [unflatten]

theorem row_lt {n i : ℕ} (hi : i < n) {j : ℕ} (hj : j < d) : d * i + j < n * d := by
  have := Nat.mul_le_mul_left d (show i + 1 ≤ n by omega)
  rw [Nat.mul_add, Nat.mul_comm d n] at this
  omega

/-! ## integrator.cpp -/

/-- **C48** `arrayToSources` reads source `i` from `positions[i*d..]` and `charges[i]`. -/
theorem C48_from_array (init : Arr (Source d)) (pos chg : Arr ℝ) (hp : init.size * d ≤ pos.size) (hc : init.size ≤ chg.size) :
    ∃ out, arrayToSources init pos chg = .ok out ∧ out.toList = unflatten d init.size pos.val chg.val := by
  obtain ⟨out, h1, h2, h3, -⟩ := slots_ok (fun sources i => do
      let v ← readVec pos fun j => .ok (i * d + j)
      let q ← chg.rd i
      sources.wr i (⟨v, q⟩ : Source d)) (fun i => ⟨fun j => pos.val (d * i + j), chg.val i⟩) init.size (by
    intro a i hi ha
    rw [readVec_ok pos _ (fun j => i * d + j) (fun _ _ => rfl)
      (fun j hj => by have := row_lt (d := d) hi hj; rw [Nat.mul_comm d i] at this; omega), ok_bind,
      Arr.rd_ok _ (by omega), ok_bind, Arr.wr_ok _ (by omega), ha]
    simp only [Nat.mul_comm d i]) (List.range init.size) (List.Perm.refl _) init rfl
  refine ⟨out, ?_, ?_⟩
  · unfold arrayToSources; rw [loopM_foldlM]; exact h1
  · unfold Arr.toList unflatten
    rw [h2]
    exact List.map_congr_left fun i hi => h3 i (by simpa using hi)

/-- **C48** `arrayToSources` is undefined if an array is too short. -/
theorem C48_from_array_undefined (hd : 0 < d) (init : Arr (Source d)) (pos chg : Arr ℝ)
    (h : pos.size < init.size * d ∨ chg.size < init.size) : arrayToSources init pos chg = .error .ub := by
  have hsz : 0 < init.size := by
    rcases Nat.eq_zero_or_pos init.size with h0 | h0
    · rw [h0] at h; omega
    · exact h0
  have readbad : ∀ i, pos.size < i * d + d → (readVec (d := d) pos fun j => .ok (i * d + j)) = .error .ub := by
    intro i hs
    refine loopM_error d _ _ _ (d - 1) (by omega) (fun _ => True) trivial ?_ ?_
    · intro j hj v _
      by_cases hj' : i * d + j < pos.size
      · left
        exact ⟨_, by rw [ok_bind, Arr.rd_ok _ hj', ok_bind]; exact dif_pos hj, trivial⟩
      · right; rw [ok_bind, Arr.rd_ub _ (by omega)]; rfl
    · intro v _
      rw [ok_bind, Arr.rd_ub _ (by omega)]; rfl
  have read : ∀ i, (readVec (d := d) pos fun j => .ok (i * d + j)) = .error .ub ∨
      ∃ v, (readVec (d := d) pos fun j => .ok (i * d + j)) = .ok v := by
    intro i
    by_cases hs : i * d + d ≤ pos.size
    · exact .inr ⟨_, readVec_ok pos _ (fun j => i * d + j) (fun _ _ => rfl) (fun j hj => by omega)⟩
    · exact .inl (readbad i (by omega))
  refine loopM_error init.size _ _ _ (init.size - 1) (by omega) (fun a => a.size = init.size) rfl ?_ ?_
  · intro i hi a ha
    rcases read i with hr | ⟨v, hr⟩
    · right; rw [hr]; rfl
    · by_cases hc : i < chg.size
      · left
        exact ⟨⟨a.size, Function.update a.val i ⟨v, chg.val i⟩⟩,
          by rw [hr, ok_bind, Arr.rd_ok _ hc, ok_bind, Arr.wr_ok _ (by omega)], ha⟩
      · right; rw [hr, ok_bind, Arr.rd_ub _ (by omega)]; rfl
  · intro a ha
    rcases h with h | h
    · rw [readbad _ (by rw [← Nat.succ_mul]; rw [show (init.size - 1).succ = init.size by omega]; exact h)]; rfl
    · rcases read (init.size - 1) with hr | ⟨v, hr⟩
      · rw [hr]; rfl
      · rw [hr, ok_bind, Arr.rd_ub _ (by omega)]; rfl

/-- **C48** `sourcesToArray` writes source `i` to `positions[i*d..]` and `charges[i]` and changes nothing else (in the
integrator: not the velocities in the second half of the array). -/
theorem C48_to_array (S : List (Source d)) (pos chg : Arr ℝ) (hp : S.length * d ≤ pos.size) (hc : S.length ≤ chg.size) :
    ∃ pos' chg', sourcesToArray S pos chg = .ok (pos', chg') ∧ pos'.size = pos.size ∧ chg'.size = chg.size ∧
      unflatten d S.length pos'.val chg'.val = S ∧
      (∀ k ≥ S.length * d, pos'.val k = pos.val k) ∧ ∀ k ≥ S.length, chg'.val k = chg.val k := by
  obtain ⟨⟨pos', chg'⟩, h1, h2, h3, h4, h5, h6⟩ := loopM_invariant (fun n (st : Arr ℝ × Arr ℝ) => st.1.size = pos.size ∧
      st.2.size = chg.size ∧ (∀ i (hi : i < S.length), i < n → (∀ j : Fin d, st.1.val (d * i + j) = S[i].pos j) ∧
        st.2.val i = S[i].q) ∧ (∀ k ≥ n * d, st.1.val k = pos.val k) ∧ ∀ k ≥ n, st.2.val k = chg.val k)
    (fun i (st : Arr ℝ × Arr ℝ) => do
      let s ← vecGet S i
      let positions ← writeVec st.1 (fun j => .ok (i * d + j)) s.pos
      let charges ← st.2.wr i s.q
      .ok (positions, charges)) (pos, chg) S.length ⟨rfl, rfl, by intro i _ h; omega, fun _ _ => rfl, fun _ _ => rfl⟩ (by
    rintro n hn ⟨p, c⟩ ⟨e1, e2, e3, e4, e5⟩
    simp only at e1 e2 e3 e4 e5
    have hrow := Nat.mul_le_mul_right d (show n + 1 ≤ S.length by omega)
    rw [Nat.add_mul, one_mul] at hrow
    obtain ⟨p', w1, w2, w3, w4⟩ := writeVec_ok p (fun j => .ok (n * d + j)) S[n].pos (n * d) (fun _ _ => rfl) (by omega)
    refine ⟨(p', ⟨c.size, Function.update c.val n S[n].q⟩), ?_, by simp only; omega, e2, ?_, ?_, ?_⟩
    · simp only
      rw [vecGet_ok hn, ok_bind, w1, ok_bind, Arr.wr_ok _ (by omega), ok_bind]
    · intro i hi hin
      simp only
      by_cases h : i = n
      · subst h
        refine ⟨fun j => ?_, by simp⟩
        rw [Nat.mul_comm d i]; exact w3 j
      · obtain ⟨a, b⟩ := e3 i hi (by omega)
        refine ⟨fun j => ?_, ?_⟩
        · rw [w4 _ (.inl (row_lt (by omega) j.isLt))]; exact a j
        · rw [Function.update_of_ne h]; exact b
    · intro k hk
      rw [Nat.add_mul, one_mul] at hk
      rw [← e4 k (by omega)]; exact w4 k (.inr hk)
    · intro k hk
      simp only
      rw [Function.update_of_ne (by omega)]; exact e5 k (by omega))
  refine ⟨pos', chg', h1, h2, h3, ?_, h5, h6⟩
  refine List.ext_getElem (unflatten_length _ _ _) fun i h h' => ?_
  rw [unflatten_get]
  obtain ⟨a, b⟩ := h4 i h' h'
  simp only at a b
  rw [show (fun j : Fin d => pos'.val (d * i + j)) = S[i].pos from funext a, b]

/-- **C48** Writing sources to arrays and reading them back gives the same sources. -/
theorem C48_roundtrip (S : List (Source d)) (pos chg : Arr ℝ) (hp : S.length * d ≤ pos.size) (hc : S.length ≤ chg.size)
    (init : Arr (Source d)) (hi : init.size = S.length) :
    ∃ pos' chg' out, sourcesToArray S pos chg = .ok (pos', chg') ∧ arrayToSources init pos' chg' = .ok out ∧ out.toList = S := by
  obtain ⟨pos', chg', h1, h2, h3, h4, -⟩ := C48_to_array S pos chg hp hc
  obtain ⟨out, h5, h6⟩ := C48_from_array init pos' chg' (by rw [hi]; omega) (by omega)
  exact ⟨pos', chg', out, h1, h5, by rw [h6, hi, h4]⟩

/-- **C48** Reading sources from arrays and writing them back leaves the arrays unchanged. -/
theorem C48_roundtrip_arrays (init : Arr (Source d)) (pos chg : Arr ℝ) (hp : init.size * d ≤ pos.size)
    (hc : init.size ≤ chg.size) :
    ∃ out, arrayToSources init pos chg = .ok out ∧ sourcesToArray out.toList pos chg = .ok (pos, chg) := by
  obtain ⟨out, h1, h2⟩ := C48_from_array init pos chg hp hc
  have hl : out.toList.length = init.size := by rw [h2, unflatten_length]
  obtain ⟨pos', chg', h3, h4, h5, h6, h7, h8⟩ := C48_to_array out.toList pos chg (by rw [hl]; exact hp) (by omega)
  refine ⟨out, h1, ?_⟩
  have hval : ∀ i < init.size, (∀ j : Fin d, pos'.val (d * i + j) = pos.val (d * i + j)) ∧ chg'.val i = chg.val i := by
    intro i hi
    rw [hl, h2] at h6
    have := List.getElem_of_eq h6 (i := i) (by rw [unflatten_length]; exact hi)
    rw [unflatten_get, unflatten_get] at this
    injection this with a b
    exact ⟨fun j => congrFun a j, b⟩
  rw [h3]
  congr 1
  refine Prod.ext (Arr.ext' h4 fun k => ?_) (Arr.ext' h5 fun k => ?_)
  · by_cases hk : k < init.size * d
    · have hd : 0 < d := by rcases Nat.eq_zero_or_pos d with h | h; · subst h; omega
                            · exact h
      have := (hval (k / d) (Nat.div_lt_of_lt_mul (by rw [Nat.mul_comm]; exact hk))).1 ⟨k % d, Nat.mod_lt _ hd⟩
      simpa [Nat.div_add_mod] using this
    · exact h7 k (by rw [hl]; omega)
  · by_cases hk : k < init.size
    · exact (hval k hk).2
    · exact h8 k (by omega)

/-- The double loop of `derivative_func`. -/
theorem derivLoop_ok (N : ℕ) (y masses f : Arr ℝ) (F : Arr (Vec d)) (hy : 2 * (N * d) ≤ y.size) (hf : 2 * (N * d) ≤ f.size)
    (hF : F.size = N) (hm : N ≤ masses.size) (hm0 : ∀ i < N, masses.val i ≠ 0) :
    ∃ f', derivLoop N y masses F f = .ok f' ∧ f'.size = f.size ∧
      (∀ i < N, ∀ j : Fin d, f'.val (d * i + j) = y.val (N * d + (d * i + j)) ∧
        f'.val (N * d + (d * i + j)) = F.val i j / masses.val i) ∧ ∀ k ≥ 2 * (N * d), f'.val k = f.val k := by
  set A : Arr ℝ → ℕ → Fin d → Prop := fun f' i j => f'.val (d * i + j) = y.val (N * d + (d * i + j)) ∧
    f'.val (N * d + (d * i + j)) = F.val i j / masses.val i with hA
  obtain ⟨f', h1, h2, h3, h4⟩ := loopM_invariant (fun n (f' : Arr ℝ) => f'.size = f.size ∧ (∀ i < n, ∀ j, A f' i j) ∧
      ∀ k ≥ 2 * (N * d), f'.val k = f.val k)
    (fun i f => loopM d (fun j f => do
      let v ← y.rd (N * d + i * d + j)
      let f ← f.wr (i * d + j) v
      let F ← F.rd i
      let a ← vget F j
      let m ← masses.rd i
      let a ← fdiv a m
      f.wr (N * d + i * d + j) a) f) f N ⟨rfl, by intro i h; omega, fun _ _ => rfl⟩ (by
    rintro i hi f1 ⟨e1, e2, e3⟩
    obtain ⟨f2, g1, g2, g3, g4, g5⟩ := loopM_invariant (fun n (f' : Arr ℝ) => f'.size = f.size ∧ (∀ i' < i, ∀ j, A f' i' j) ∧
        (∀ j : Fin d, j.1 < n → A f' i j) ∧ ∀ k ≥ 2 * (N * d), f'.val k = f.val k) (fun j f => do
      let v ← y.rd (N * d + i * d + j)
      let f ← f.wr (i * d + j) v
      let F ← F.rd i
      let a ← vget F j
      let m ← masses.rd i
      let a ← fdiv a m
      f.wr (N * d + i * d + j) a) f1 d ⟨e1, e2, by intro j h; omega, e3⟩ (by
      rintro j hj f3 ⟨c1, c2, c3, c4⟩
      have hr := row_lt (d := d) hi hj
      rw [Nat.mul_comm d i] at hr
      refine ⟨⟨f.size, Function.update (Function.update f3.val (i * d + j) (y.val (N * d + i * d + j))) (N * d + i * d + j)
        (F.val i ⟨j, hj⟩ / masses.val i)⟩, ?_, rfl, ?_, ?_, ?_⟩
      · have hv : vget (F.val i) j = .ok (F.val i ⟨j, hj⟩) := dif_pos hj
        have hdv : fdiv (F.val i ⟨j, hj⟩) (masses.val i) = .ok (F.val i ⟨j, hj⟩ / masses.val i) := if_neg (hm0 i hi)
        rw [Arr.rd_ok _ (by omega), ok_bind, Arr.wr_ok _ (by omega), ok_bind, Arr.rd_ok _ (by omega), ok_bind, hv, ok_bind,
          Arr.rd_ok _ (by omega), ok_bind, hdv, ok_bind, Arr.wr_ok _ (by simp only; omega)]
        simp only [c1]
      · intro i' hi' j'
        have hlt := row_lt (d := d) (n := i) hi' j'.isLt
        obtain ⟨p1, p2⟩ := c2 i' hi' j'
        have hlt2 := row_lt (d := d) (show i' < N by omega) j'.isLt
        refine ⟨?_, ?_⟩
        · simp only
          rw [Function.update_of_ne (by omega), Function.update_of_ne (by omega)]; exact p1
        · simp only
          rw [Function.update_of_ne (by omega), Function.update_of_ne (by omega)]; exact p2
      · intro j' hj'
        have hr' := row_lt (d := d) hi j'.isLt
        rw [Nat.mul_comm d i] at hr'
        by_cases h : j'.1 = j
        · have hjj : j' = ⟨j, hj⟩ := Fin.ext h
          subst hjj
          refine ⟨?_, ?_⟩
          · simp only [Nat.mul_comm d i]
            rw [Function.update_of_ne (by omega), Function.update_self, Nat.add_assoc]
          · simp only [Nat.mul_comm d i]
            rw [Nat.add_assoc, Function.update_self]
        · obtain ⟨p1, p2⟩ := c3 j' (by omega)
          rw [Nat.mul_comm d i] at p1 p2
          refine ⟨?_, ?_⟩
          · simp only [Nat.mul_comm d i]
            rw [Function.update_of_ne (by omega), Function.update_of_ne (by omega)]; exact p1
          · simp only [Nat.mul_comm d i]
            rw [Function.update_of_ne (by omega), Function.update_of_ne (by omega)]; exact p2
      · intro k hk
        simp only
        rw [Function.update_of_ne (by omega), Function.update_of_ne (by omega)]; exact c4 k hk)
    refine ⟨f2, g1, g2, fun i' hi' j => ?_, g5⟩
    rcases Nat.lt_or_ge i' i with h | h
    · exact g3 i' h j
    · have : i' = i := by omega
      subst this
      exact g4 j j.isLt)
  exact ⟨f', h1, h2, h3, h4⟩

/-- `derivative_func` when the tree can be built and evaluated at the particles. -/
theorem derivativeFunc_ok {K : Kit d} {O : Obs K (Vec d)} {fuel : ℕ} {sch : ℕ → List Path → List Path} {t : K.T}
    {charges masses y f : Arr ℝ} {N max : ℕ} {eps : ℝ} (hy : 2 * (N * d) ≤ y.size) (hf : 2 * (N * d) ≤ f.size)
    (hc : N ≤ charges.size) (hm : N ≤ masses.size) (hm0 : ∀ i < N, masses.val i ≠ 0) {T : AdaptiveFmm K}
    (hT : adaptiveFmm K fuel sch t (unflatten d N y.val charges.val) max eps = .ok T) (val : ℕ → Vec d)
    (hv : ∀ i < N, adaptiveEval O fuel true T (unflatten d N y.val charges.val) (fun j => y.val (d * i + j)) = .ok (val i))
    {order : List ℕ} (ho : order.Perm (List.range N)) :
    ∃ f', derivativeFunc K O fuel sch t order charges masses N max eps y f = .ok f' ∧ f'.size = f.size ∧
      (∀ i < N, ∀ j : Fin d, f'.val (d * i + j) = y.val (N * d + (d * i + j)) ∧
        f'.val (N * d + (d * i + j)) = charges.val i / masses.val i * val i j) ∧ ∀ k ≥ 2 * (N * d), f'.val k = f.val k := by
  obtain ⟨src, h1, h2⟩ := C48_from_array (⟨N, fun _ => ⟨Vec.fill 0, 0⟩⟩ : Arr (Source d)) y charges (by simp only; omega) hc
  obtain ⟨F, h3, h4, h5⟩ := C37_tree_particles (fun q v => Vec.scale v q)
    (adaptiveEval O fuel true T (unflatten d N y.val charges.val)) (unflatten d N y.val charges.val) val (by
      intro i hi
      rw [unflatten_get]
      exact hv i (by rwa [unflatten_length] at hi)) order (by rw [unflatten_length]; exact ho)
  rw [unflatten_length] at h4
  obtain ⟨f', g1, g2, g3, g4⟩ := derivLoop_ok N y masses f F hy hf h4 hm hm0
  refine ⟨f', ?_, g2, fun i hi j => ⟨(g3 i hi j).1, ?_⟩, g4⟩
  · unfold derivativeFunc
    rw [h1, ok_bind, h2]
    simp only
    rw [hT, ok_bind, h3, ok_bind, g1]
  · rw [(g3 i hi j).2, h5 i (by rw [unflatten_length]; exact hi), unflatten_get]
    simp only [Vec.scale]
    ring

theorem dist2_smul (c : ℝ) (a b : Vec d) : dist2 (fun j => c * a j) (fun j => c * b j) = |c| * dist2 a b := by
  rw [← dist2_scale]
  unfold dist2
  simp [mul_sub]

/-- **C48** The right-hand side of the integrator's equations of motion, 2D: for every schedule the first half of `f` is the
velocities, and the second half is the acceleration `q_i/m_i` times the direct (smoothed) gravitational field of all sources, up
to the error of the force evaluation. `charges`, `masses`: arrays of `N` numbers; `y`, `f`: arrays of `4 N` numbers. -/
theorem C48_derivative_2d {t : BinomialTable} (ht : Reachable t) {charges masses y f : Arr ℝ} {N max p : ℕ} {eps feps : ℝ}
    {r : Box 2} (hy : 2 * (N * 2) ≤ y.size) (hf : 2 * (N * 2) ≤ f.size) (hc : N ≤ charges.size) (hm : N ≤ masses.size)
    (hm0 : ∀ i < N, masses.val i ≠ 0) (hI : AdaptiveInput (unflatten 2 N y.val charges.val) max r)
    (hord : expansionOrder (totalStrength (unflatten 2 N y.val charges.val)) eps = .ok p) (hp0 : 1 ≤ p) (hp : p ≤ 1029)
    (hfe : 0 ≤ feps) :
    ∃ (fuel0 : ℕ) (h : ℕ), ∀ fuel ≥ fuel0, ∀ sch, Schedule sch → ∀ order, order.Perm (List.range N) →
      ∃ f', derivativeFunc kit2 (force2 feps) fuel sch t order charges masses N max eps y f = .ok f' ∧ f'.size = f.size ∧
        ∀ i < N, (∀ j : Fin 2, f'.val (2 * i + j) = y.val (N * 2 + (2 * i + j))) ∧
          dist2 (fun j : Fin 2 => f'.val (N * 2 + (2 * i + j))) (fun j => charges.val i / masses.val i *
              directField true (unflatten 2 N y.val charges.val) (fun j => y.val (2 * i + j)) feps j) ≤
            |charges.val i / masses.val i| * (((unflatten 2 N y.val charges.val).map fun s => |s.q|).sum *
              (errForce p (r.len / 2 ^ h) + feps / (r.len / 2 ^ h) ^ 3)) := by
  obtain ⟨fuel0, T, h1, -, h2, -⟩ := C60_adaptive_2d ht hI hord hp0 hp feps hfe
  have hin : ∀ i < N, r.contains fun j : Fin 2 => y.val (2 * i + j) := fun i hi =>
    hI.inside ⟨_, charges.val i⟩ (List.mem_map.mpr ⟨i, by simpa using hi, rfl⟩)
  have hv : ∀ i, ∃ v, i < N → (∀ fuel ≥ fuel0, adaptiveEval (force2 feps) fuel true T (unflatten 2 N y.val charges.val)
      (fun j => y.val (2 * i + j)) = .ok v) ∧ dist2 v (directField true (unflatten 2 N y.val charges.val)
        (fun j => y.val (2 * i + j)) feps) ≤ ((unflatten 2 N y.val charges.val).map fun s => |s.q|).sum *
              (errForce p (r.len / 2 ^ T.height) + feps / (r.len / 2 ^ T.height) ^ 3) := by
    intro i
    by_cases hi : i < N
    · obtain ⟨v, v1, v2⟩ := h2 _ (hin i hi) true (unflatten 2 N y.val charges.val)
      exact ⟨v, fun _ => ⟨v1, v2⟩⟩
    · exact ⟨0, fun h => absurd h hi⟩
  choose val hval using hv
  refine ⟨fuel0, T.height, fun fuel hfu sch hs order ho => ?_⟩
  obtain ⟨f', g1, g2, g3, -⟩ := derivativeFunc_ok hy hf hc hm hm0 (h1 fuel hfu sch hs) val (fun i hi => (hval i hi).1 fuel hfu) ho
  refine ⟨f', g1, g2, fun i hi => ⟨fun j => (g3 i hi j).1, ?_⟩⟩
  rw [show (fun j : Fin 2 => f'.val (N * 2 + (2 * i + j))) = fun j => charges.val i / masses.val i * val i j from
    funext fun j => (g3 i hi j).2, dist2_smul]
  exact mul_le_mul_of_nonneg_left (hval i hi).2 (abs_nonneg _)

/-- **C48** A particle of mass zero: whatever the tree computes, its acceleration is not finite. -/
theorem C48_zero_mass (hd : 0 < d) (N : ℕ) (y masses f : Arr ℝ) (F : Arr (Vec d)) (hy : 2 * (N * d) ≤ y.size)
    (hf : 2 * (N * d) ≤ f.size) (hF : F.size = N) (hm : N ≤ masses.size) (i : ℕ) (hi : i < N) (h0 : masses.val i = 0) :
    derivLoop N y masses F f = .error .nonFinite := by
  have inner : ∀ i < N, ∀ f' : Arr ℝ, f'.size = f.size → (∃ f'', loopM d (fun j f => do
      let v ← y.rd (N * d + i * d + j)
      let f ← f.wr (i * d + j) v
      let F ← F.rd i
      let a ← vget F j
      let m ← masses.rd i
      let a ← fdiv a m
      f.wr (N * d + i * d + j) a) f' = .ok f'' ∧ f''.size = f.size ∧ masses.val i ≠ 0) ∨ (loopM d (fun j f => do
      let v ← y.rd (N * d + i * d + j)
      let f ← f.wr (i * d + j) v
      let F ← F.rd i
      let a ← vget F j
      let m ← masses.rd i
      let a ← fdiv a m
      f.wr (N * d + i * d + j) a) f' = .error .nonFinite ∧ masses.val i = 0) := by
    intro i hi f' hf'
    have body : ∀ j (hj : j < d) (g : Arr ℝ), g.size = f.size → (do
        let v ← y.rd (N * d + i * d + j)
        let f ← g.wr (i * d + j) v
        let F ← F.rd i
        let a ← vget F j
        let m ← masses.rd i
        let a ← fdiv a m
        f.wr (N * d + i * d + j) a) = (do
          let a ← fdiv (F.val i ⟨j, hj⟩) (masses.val i)
          .ok ⟨g.size, Function.update (Function.update g.val (i * d + j) (y.val (N * d + i * d + j))) (N * d + i * d + j) a⟩) := by
      intro j hj g hg
      have hr := row_lt (d := d) hi hj
      rw [Nat.mul_comm d i] at hr
      have hv : vget (F.val i) j = .ok (F.val i ⟨j, hj⟩) := dif_pos hj
      rw [Arr.rd_ok _ (by omega), ok_bind, Arr.wr_ok _ (by omega), ok_bind, Arr.rd_ok _ (by omega), ok_bind, hv, ok_bind,
          Arr.rd_ok _ (by omega), ok_bind]
      congr 1
      funext a
      rw [Arr.wr_ok _ (by simp only; omega)]
    by_cases hz : masses.val i = 0
    · right
      refine ⟨loopM_error d _ _ _ 0 hd (fun g => g.size = f.size) hf' ?_ ?_, hz⟩
      · intro j hj g hg
        right
        rw [body j hj g hg, show fdiv (F.val i ⟨j, hj⟩) (masses.val i) = .error .nonFinite from if_pos hz]; rfl
      · intro g hg
        rw [body 0 hd g hg, show fdiv (F.val i ⟨0, hd⟩) (masses.val i) = .error .nonFinite from if_pos hz]; rfl
    · left
      obtain ⟨g, g1, g2⟩ := loopM_invariant (fun _ (g : Arr ℝ) => g.size = f.size) (fun j f => do
        let v ← y.rd (N * d + i * d + j)
        let f ← f.wr (i * d + j) v
        let F ← F.rd i
        let a ← vget F j
        let m ← masses.rd i
        let a ← fdiv a m
        f.wr (N * d + i * d + j) a) f' d hf' (by
          intro j hj g hg
          refine ⟨⟨g.size, Function.update (Function.update g.val (i * d + j) (y.val (N * d + i * d + j))) (N * d + i * d + j)
            (F.val i ⟨j, hj⟩ / masses.val i)⟩, ?_, hg⟩
          rw [body j hj g hg, show fdiv (F.val i ⟨j, hj⟩) (masses.val i) = .ok (F.val i ⟨j, hj⟩ / masses.val i) from
            if_neg hz]; rfl)
      exact ⟨g, g1, g2, hz⟩
  refine loopM_error N _ _ _ i hi (fun g => g.size = f.size) rfl ?_ ?_
  · intro k hk g hg
    rcases inner k hk g hg with ⟨g', a, b, -⟩ | ⟨a, -⟩
    · exact .inl ⟨g', a, b⟩
    · exact .inr a
  · intro g hg
    rcases inner i hi g hg with ⟨g', -, -, b⟩ | ⟨a, -⟩
    · exact absurd h0 b
    · exact a

/-! ## MathematicaFMM.cpp -/

/-- **C48** The sources built from the tensors, for every execution order of the loop. -/
theorem C48_unpack (n : ℕ) (pos chg : Arr ℝ) (hp : n * d ≤ pos.size) (hc : n ≤ chg.size) (hi : n * d ≤ 2 ^ 31) (order : List ℕ)
    (ho : order.Perm (List.range n)) : unpackSources n pos chg order = .ok (unflatten d n pos.val chg.val) := by
  obtain ⟨out, h1, h2, h3, -⟩ := slots_ok (fun src i => do
      let v ← readVec pos fun j => intIdx (d * i + j)
      let q ← chg.rd i
      src.wr i (⟨v, q⟩ : Source d)) (fun i => ⟨fun j => pos.val (d * i + j), chg.val i⟩) n (by
    intro a i hi' ha
    rw [readVec_ok pos _ (fun j => d * i + j) (fun j hj => intIdx_ok (by have := row_lt (d := d) hi' hj; omega))
      (fun j hj => by have := row_lt (d := d) hi' hj; omega), ok_bind,
      Arr.rd_ok _ (by omega), ok_bind, Arr.wr_ok _ (by omega), ha]) order ho ⟨n, fun _ => ⟨Vec.fill 0, 0⟩⟩ rfl
  unfold unpackSources
  rw [h1, ok_bind]
  congr 1
  unfold Arr.toList unflatten
  rw [h2]
  exact List.map_congr_left fun i hi => h3 i (by simpa using hi)

/-- The evaluation points built from the tensor. -/
theorem unpackPoints_ok (n : ℕ) (pts : Arr ℝ) (hp : n * d ≤ pts.size) (hi : n * d ≤ 2 ^ 31) (order : List ℕ)
    (ho : order.Perm (List.range n)) :
    unpackPoints n pts order = .ok ((List.range n).map fun i => (fun j : Fin d => pts.val (d * i + j))) := by
  obtain ⟨out, h1, h2, h3, -⟩ := slots_ok (fun src i => do
      let v ← readVec pts fun j => intIdx (d * i + j)
      src.wr i (v : Vec d)) (fun i => (fun j : Fin d => pts.val (d * i + j))) n (by
    intro a i hi' ha
    rw [readVec_ok pts _ (fun j => d * i + j) (fun j hj => intIdx_ok (by have := row_lt (d := d) hi' hj; omega))
      (fun j hj => by have := row_lt (d := d) hi' hj; omega), ok_bind, Arr.wr_ok _ (by omega), ha]) order ho
    ⟨n, fun _ => Vec.fill 0⟩ rfl
  unfold unpackPoints
  rw [h1, ok_bind]
  congr 1
  unfold Arr.toList
  rw [h2]
  exact List.map_congr_left fun i hi => h3 i (by simpa using hi)

theorem packVecs_ok (n : ℕ) (out : Arr ℝ) (F : Arr (Vec d)) (ho : out.size = n * d) (hF : F.size = n) (hi : n * d ≤ 2 ^ 31)
    (order : List ℕ) (hp : order.Perm (List.range n)) :
    ∃ out', packVecs out F order = .ok out' ∧ out'.size = n * d ∧ ∀ i < n, ∀ j : Fin d, out'.val (d * i + j) = F.val i j := by
  obtain ⟨out', h1, h2, h3, -⟩ := rows_ok (fun out i => do
      let v ← F.rd i
      writeVec out (fun j => intIdx (d * i + j)) v) F.val n (by
    intro a i hi' ha
    have := Nat.mul_le_mul_left d (show i + 1 ≤ n by omega)
    rw [Nat.mul_add, Nat.mul_comm d n] at this
    obtain ⟨o, w⟩ := writeVec_ok a (fun j => intIdx (d * i + j)) (F.val i) (d * i)
      (fun j hj => intIdx_ok (by have := row_lt (d := d) hi' hj; omega)) (by omega)
    refine ⟨o, ?_, w.2⟩
    rw [Arr.rd_ok _ (by omega), ok_bind]; exact w.1) order hp out ho.ge
  exact ⟨out', h1, by omega, h3⟩

theorem packReals_ok (n : ℕ) (out F : Arr ℝ) (ho : out.size = n) (hF : F.size = n) (order : List ℕ)
    (hp : order.Perm (List.range n)) :
    ∃ out', packReals out F order = .ok out' ∧ out'.size = n ∧ ∀ i < n, out'.val i = F.val i := by
  obtain ⟨out', h1, h2, h3, -⟩ := slots_ok (fun out i => do
      let v ← F.rd i
      out.wr i v) F.val n (by
    intro a i hi' ha
    rw [Arr.rd_ok _ (by omega), ok_bind, Arr.wr_ok _ (by omega), ha]) order hp out ho
  exact ⟨out', h1, h2, h3⟩

/-- All loops of a call run over their index range in some order. -/
structure Orders.Valid (ord : Orders) (n m k : ℕ) : Prop where
  unpack : ord.unpack.Perm (List.range n)
  points : ord.points.Perm (List.range m)
  particles : ord.particles.Perm (List.range n)
  pack : ord.pack.Perm (List.range k)

end FMM.Glue
