import Verif.PropsSingle

/-!
# Expansions of different orders (C129)

The constructors from a vector of expansions take the order of the first one.  What happens if a later one has another order differs between the two
classes: local expansions are added by `operator+=`, which throws; multipole expansions by `std::transform`, which does not look at the size of its second
argument.
-/

namespace FMM

theorem addCoeffs_short (c other : Arr ℂ) (h : other.size < c.size) : Exp2.addCoeffs c other = .error .ub := by
  unfold Exp2.addCoeffs
  refine loopM_error _ _ _ (other.size + 1) .ub h ?_
  obtain ⟨d, h1, h2⟩ := loopM_invariant (fun _ (d : Arr ℂ) => d.size = c.size)
    (fun i acc => do
      let a ← acc.rd i
      let b ← other.rd i
      acc.wr i (a + b)) c other.size rfl (by
      intro i hi t ht
      rw [Arr.rd_ok _ (by omega), ok_bind, Arr.rd_ok _ hi, ok_bind, Arr.wr_ok _ (by omega)]
      exact ⟨_, rfl, ht⟩)
  rw [loopM_succ, h1]
  show (do
      let a ← d.rd other.size
      let b ← other.rd other.size
      d.wr other.size (a + b)) = _
  rw [Arr.rd_ok _ (by omega), ok_bind]
  have : other.rd other.size = .error .ub := if_neg (lt_irrefl _)
  rw [this, err_bind]

/-! ## Two dimensions -/

/-- The expansion with the coefficients up to order `p` only. -/
def Exp2.cut (p : ℕ) (e : Exp2) : Exp2 := ⟨p, e.center, ⟨p + 1, e.coeffs.val⟩⟩

theorem Exp2.new_same (t : BinomialTable) (c : Vec 2) (p : ℕ) (h : p ≤ t.maxOrder) : Exp2.new t c p = .ok (t, ⟨p, toC c, Arr.new (p + 1)⟩) := by
  unfold Exp2.new
  rw [if_neg (by omega), ok_bind]

/-- **C129** A multipole expansion from multipole expansions which are not all of the same order: if one has a lower order than the first, coefficients
behind the end of a vector are read; otherwise the coefficients above the order of the first are ignored without notice. -/
theorem C129_multipole_2d {t : BinomialTable} (ht : Reachable t) (c : Vec 2) (e0 : Exp2) (L : List Exp2)
    (hL : ∀ e ∈ e0 :: L, e.coeffs.size = e.order + 1 ∧ (e.coeffs.val 0).im = 0 ∧ e.order ≤ t.maxOrder) :
    ((∃ e ∈ L, e.order < e0.order) → Exp2.meOfMes t c (e0 :: L) = .error .ub) ∧
    ((∀ e ∈ L, e0.order ≤ e.order) →
      ∃ r, Exp2.meOfMes t c (e0 :: L) = .ok (t, r) ∧ Exp2.meOfMes t c (e0 :: L.map (Exp2.cut e0.order)) = .ok (t, r) ∧ r.order = e0.order) := by
  set p := e0.order with hp
  have h0 := hL e0 (by simp)
  have hsh : ∀ e ∈ e0 :: L, ∃ arr, Exp2.meShift t e (e.center - toC c) = .ok arr ∧ arr.size = e.order + 1 ∧
      ∀ l ≤ e.order, arr.val l = Exp2.shiftCoeff e.coeffs.val (e.center - toC c) l := fun e he =>
    Exp2.meShift_ok t ht.good (⟨rfl, rfl, (hL e he).1, fun _ _ => rfl⟩ : e.Is e.center e.order e.coeffs.val) (hL e he).2.1 (hL e he).2.2 _
  constructor
  · rintro ⟨e, he, hlt⟩
    unfold Exp2.meOfMes
    simp only
    rw [← hp, Exp2.new_same t c p h0.2.2, ok_bind]
    simp only
    have key : ∀ M : List Exp2, (∀ e ∈ M, e ∈ e0 :: L) → (∃ e ∈ M, e.order < p) → ∀ arr : Arr ℂ, arr.size = p + 1 →
        M.foldlM (fun c' me => do
          let sh ← Exp2.meShift t me (me.center - toC c)
          Exp2.addCoeffs c' sh) arr = .error .ub := by
      intro M
      induction M with
      | nil => rintro _ ⟨e, he, -⟩; simp at he
      | cons e M ih =>
        rintro hM ⟨u, hu, hlt⟩ arr ha
        obtain ⟨sh, h1, h2, -⟩ := hsh e (hM e (by simp))
        rw [List.foldlM_cons, h1, ok_bind]
        by_cases h : e.order < p
        · rw [addCoeffs_short _ _ (by omega), err_bind]
        · rw [Exp2.addCoeffs_ok _ _ (by omega), ok_bind]
          rcases List.mem_cons.mp hu with rfl | hu
          · exact absurd hlt h
          · exact ih (fun y hy => hM y (by simp [hy])) ⟨u, hu, hlt⟩ _ ha
    rw [key (e0 :: L) (fun _ h => h) ⟨e, by simp [he], hlt⟩ _ rfl, err_bind]
  · intro hge
    have key : ∀ M : List Exp2, (∀ e ∈ M, e ∈ e0 :: L ∧ p ≤ e.order) → ∀ arr : Arr ℂ, arr.size = p + 1 → ∃ arr',
        M.foldlM (fun c' me => do
          let sh ← Exp2.meShift t me (me.center - toC c)
          Exp2.addCoeffs c' sh) arr = .ok arr' ∧
        (M.map (Exp2.cut p)).foldlM (fun c' me => do
          let sh ← Exp2.meShift t me (me.center - toC c)
          Exp2.addCoeffs c' sh) arr = .ok arr' := by
      intro M
      induction M with
      | nil => exact fun _ arr _ => ⟨arr, rfl, rfl⟩
      | cons e M ih =>
        intro hM arr ha
        obtain ⟨sh, h1, h2, h3⟩ := hsh e (hM e (by simp)).1
        obtain ⟨sh', h1', h2', h3'⟩ := Exp2.meShift_ok t ht.good
          (⟨rfl, rfl, rfl, fun _ _ => rfl⟩ : (e.cut p).Is e.center p e.coeffs.val) (hL e (hM e (by simp)).1).2.1 h0.2.2 (e.center - toC c)
        have hpe := (hM e (by simp)).2
        have heq : (⟨arr.size, fun k => if k < arr.size then arr.val k + sh.val k else arr.val k⟩ : Arr ℂ) =
            ⟨arr.size, fun k => if k < arr.size then arr.val k + sh'.val k else arr.val k⟩ := by
          congr 1
          funext k
          by_cases hk : k < arr.size
          · rw [if_pos hk, if_pos hk, h3 k (by omega), h3' k (by omega)]
          · rw [if_neg hk, if_neg hk]
        obtain ⟨arr', k1, k2⟩ := ih (fun y hy => hM y (by simp [hy])) ⟨arr.size, fun k => if k < arr.size then arr.val k + sh.val k else arr.val k⟩ ha
        refine ⟨arr', ?_, ?_⟩
        · rw [List.foldlM_cons, h1, ok_bind, Exp2.addCoeffs_ok _ _ (by omega), ok_bind, k1]
        · rw [List.map_cons, List.foldlM_cons]
          show ((do
            let sh ← Exp2.meShift t (e.cut p) (e.center - toC c)
            Exp2.addCoeffs arr sh) >>= _) = _
          rw [h1', ok_bind, Exp2.addCoeffs_ok _ _ (by omega), ok_bind, ← heq, k2]
    have hc0 : e0.cut p = e0 := by
      unfold Exp2.cut
      rw [hp, ← h0.1]
    obtain ⟨arr', k1, k2⟩ := key (e0 :: L) (fun e he => ⟨he, (List.mem_cons.mp he).elim (fun h => by rw [h]) (hge e)⟩) (Arr.new (p + 1)) rfl
    rw [List.map_cons, hc0] at k2
    refine ⟨⟨p, toC c, arr'⟩, ?_, ?_, rfl⟩
    · unfold Exp2.meOfMes
      simp only
      rw [← hp, Exp2.new_same t c p h0.2.2, ok_bind]
      simp only
      rw [k1, ok_bind]
    · unfold Exp2.meOfMes
      simp only
      rw [← hp, Exp2.new_same t c p h0.2.2, ok_bind]
      simp only
      rw [k2, ok_bind]

/-- **C129** A local expansion from multipole expansions of positive orders about other points which are not all of the same order: `std::logic_error`. -/
theorem C129_local_2d {t : BinomialTable} (ht : Reachable t) (c : Vec 2) (e0 : Exp2) (L : List Exp2)
    (hL : ∀ e ∈ e0 :: L, e.coeffs.size = e.order + 1 ∧ 0 < e.order ∧ e.order ≤ 1029 ∧ e.center ≠ toC c) (hx : ∃ e ∈ L, e.order ≠ e0.order) :
    Exp2.leOfMes t c (e0 :: L) = .error .logicError := by
  set p := e0.order with hp
  obtain ⟨t', f, h1, h2, -, -, rfl⟩ := Exp2.new_ok t ht.good c p (hL e0 (by simp)).2.2.1
  have key : ∀ (M : List Exp2), (∀ e ∈ M, e ∈ e0 :: L) → (∃ e ∈ M, e.order ≠ p) → ∀ (t : BinomialTable) (f : Exp2) (a : ℕ → ℂ), t.Good → f.Is (toC c) p a →
      M.foldlM (fun (s : BinomialTable × Exp2) me => do
        let (bt, le) ← Exp2.leOfMe s.1 c me
        let e ← Exp2.addEq s.2 le
        .ok (bt, e)) (t, f) = .error .logicError := by
    intro M
    induction M with
    | nil => rintro _ ⟨e, he, -⟩; simp at he
    | cons e M ih =>
      rintro hM ⟨u, hu, hne⟩ t f a ht hf
      have he := hL e (hM e (by simp))
      obtain ⟨t2, le, k1, k2, -, -, k5⟩ := Exp2.leOfMe_ok t ht (⟨rfl, rfl, he.1, fun _ _ => rfl⟩ : e.Is e.center e.order e.coeffs.val) he.2.2.1 he.2.1 c he.2.2.2
      rw [List.foldlM_cons, k1, ok_bind]
      simp only
      by_cases h : e.order = p
      · rw [h] at k5
        obtain ⟨g, hg1, hg2⟩ := Exp2.addEq_ok hf k5
        rw [hg1, ok_bind, ok_bind]
        rcases List.mem_cons.mp hu with rfl | hu
        · exact absurd h hne
        · exact ih (fun y hy => hM y (by simp [hy])) ⟨u, hu, hne⟩ _ _ _ k2 hg2
      · have : Exp2.addEq f le = .error .logicError := if_pos (Or.inl (by rw [hf.size, k5.size]; omega))
        rw [this, err_bind, err_bind]
  unfold Exp2.leOfMes
  simp only
  rw [← hp, h1, ok_bind]
  obtain ⟨u, hu, hne⟩ := hx
  exact key _ (fun _ h => h) ⟨u, by simp [hu], hne⟩ _ _ (fun _ => 0) h2 ⟨rfl, rfl, rfl, fun k _ => rfl⟩

/-! ## Three dimensions -/

/-- The expansion with the coefficients up to order `p` only. -/
def Exp3.cut (p : ℕ) (e : Exp3) : Exp3 := ⟨p, e.center, ⟨(p + 1) * (p + 1), e.coeffs.val⟩⟩

/-- **C129** The same in space. -/
theorem C129_multipole_3d {t : Stat3} (ht : Reachable3 t) (c : Vec 3) (e0 : Exp3) (L : List Exp3) (h42 : e0.order ≤ 42) (h1t : 0 < t.alm.maxOrder)
    (hL : ∀ e ∈ e0 :: L, e.coeffs.size = (e.order + 1) * (e.order + 1) ∧ e.order ≤ t.alm.maxOrder) :
    ((∃ e ∈ L, e.order < e0.order) → Exp3.meOfMes t c (e0 :: L) = .error .ub) ∧
    ((∀ e ∈ L, e0.order ≤ e.order) → ∃ r r' a, Exp3.meOfMes t c (e0 :: L) = .ok (t, r) ∧
      Exp3.meOfMes t c ((e0 :: L).map (Exp3.cut e0.order)) = .ok (t, r') ∧ r.Is c e0.order a ∧ r'.Is c e0.order a) := by
  set p := e0.order with hp
  have h0 := hL e0 (by simp)
  obtain ⟨t', f, n1, -, n3, n4, n5⟩ := Exp3.new_ok t ht.good.1 c p h42
  obtain rfl := n4 h0.2
  have hI : ∀ e ∈ e0 :: L, e.Is e.center e.order (fun n m => e.coeffs.val (cell n m)) := fun e he => Exp3.is_self (hL e he).1
  constructor
  · rintro ⟨e, he, hlt⟩
    unfold Exp3.meOfMes
    simp only
    rw [← hp, n1, ok_bind]
    simp only [n5.center, Vec.sub_eq]
    have key : ∀ M : List Exp3, (∀ e ∈ M, e ∈ e0 :: L) → (∃ e ∈ M, e.order < p) → ∀ arr : Arr ℂ, arr.size = (p + 1) * (p + 1) →
        M.foldlM (fun c' me => do
          let sh ← Exp3.meShift t' me (me.center - c)
          Exp2.addCoeffs c' sh) arr = .error .ub := by
      intro M
      induction M with
      | nil => rintro _ ⟨e, he, -⟩; simp at he
      | cons e M ih =>
        rintro hM ⟨u, hu, hlt⟩ arr ha
        have he := hM e (by simp)
        obtain ⟨sh, h1, h2, -⟩ := Exp3.meShift_ok ht.good.1 (hI e he) h1t (hL e he).2 (e.center - c)
        rw [List.foldlM_cons, h1, ok_bind]
        by_cases h : e.order < p
        · rw [addCoeffs_short _ _ (by rw [h2, ha]; exact Nat.mul_lt_mul'' (by omega) (by omega)), err_bind]
        · rw [Exp2.addCoeffs_ok _ _ (by rw [h2, ha]; exact Nat.mul_le_mul (by omega) (by omega)), ok_bind]
          rcases List.mem_cons.mp hu with rfl | hu
          · exact absurd hlt h
          · exact ih (fun y hy => hM y (by simp [hy])) ⟨u, hu, hlt⟩ _ ha
    rw [key (e0 :: L) (fun _ h => h) ⟨e, by simp [he], hlt⟩ _ n5.size, err_bind]
  · intro hge
    have hge' : ∀ e ∈ e0 :: L, p ≤ e.order := fun e he => (List.mem_cons.mp he).elim (fun h => by rw [h]) (hge e)
    obtain ⟨t2, r', m1, m2, m3, m4, m5⟩ := Exp3.meOfMes_ok t' ht.good.1 c p h42 (Or.inr h1t)
      ((e0 :: L).map fun e => (e.cut p, e.center, fun n m => e.coeffs.val (cell n m))) (by simp) (fun x hx => by
        obtain ⟨e, he, rfl⟩ := List.mem_map.mp hx
        exact ⟨rfl, rfl, rfl, fun _ _ _ _ => rfl⟩)
    obtain rfl := m4 h0.2
    rw [List.map_map] at m1
    obtain ⟨d, g1, g2, g3⟩ := fold_cells (p := p) (fun (c' : Arr ℂ) (e : Exp3) => do
        let sh ← Exp3.meShift t2 e (e.center - c)
        Exp2.addCoeffs c' sh) (fun e n m => m2mC (fun n m => e.coeffs.val (cell n m)) (e.center - c) n m) (e0 :: L) (by
      intro e he d hd
      obtain ⟨d', k1, k2, k3⟩ := Exp3.meShift_ok m2 (hI e he) h1t (hL e he).2 (e.center - c)
      have hle := hge' e he
      rw [k1, ok_bind, Exp2.addCoeffs_ok _ _ (by rw [hd, k2]; exact Nat.mul_le_mul (by omega) (by omega))]
      refine ⟨_, rfl, hd, fun n hn m hm => ?_⟩
      have : cell n m < d.size := by
        obtain ⟨b0, b1⟩ := lmIndex_bounds hm hn
        rw [hd]; unfold cell; omega
      simp only
      rw [if_pos this, k3 n (by omega) m hm]) f.coeffs n5.size
    refine ⟨{ f with coeffs := d }, r', _, ?_, m1, ⟨n5.order, n5.center, g2, fun n hn m hm => ?_⟩, m5⟩
    · unfold Exp3.meOfMes
      simp only
      rw [← hp, n1, ok_bind]
      simp only [n5.center, Vec.sub_eq]
      rw [g1, ok_bind]
    · simp only
      rw [g3 n hn m hm, n5.val n hn m hm, zero_add, List.map_map]
      rfl

/-- **C129** The same in space. -/
theorem C129_local_3d {t : Stat3} (ht : Reachable3 t) (c : Vec 3) (e0 : Exp3) (L : List Exp3)
    (hL : ∀ e ∈ e0 :: L, e.coeffs.size = (e.order + 1) * (e.order + 1) ∧ 0 < e.order ∧ e.order ≤ 42 ∧ e.center ≠ c) (hx : ∃ e ∈ L, e.order ≠ e0.order) :
    Exp3.leOfMes t c (e0 :: L) = .error .logicError := by
  set p := e0.order with hp
  obtain ⟨t', f, h1, h2, -, -, h5⟩ := Exp3.new_ok t ht.good.1 c p (hL e0 (by simp)).2.2.1
  have key : ∀ (M : List Exp3), (∀ e ∈ M, e ∈ e0 :: L) → (∃ e ∈ M, e.order ≠ p) → ∀ (t : Stat3) (f : Exp3) (a : ℕ → ℤ → ℂ), t.Good → f.Is c p a →
      M.foldlM (fun (s : Stat3 × Exp3) me => do
        let (bt, le) ← Exp3.leOfMe s.1 c me
        let e ← Exp3.addEq s.2 le
        .ok (bt, e)) (t, f) = .error .logicError := by
    intro M
    induction M with
    | nil => rintro _ ⟨e, he, -⟩; simp at he
    | cons e M ih =>
      rintro hM ⟨u, hu, hne⟩ t f a ht hf
      have he := hL e (hM e (by simp))
      obtain ⟨t2, le, k1, k2, -, -, k5⟩ := Exp3.leOfMe_ok t ht (Exp3.is_self he.1) he.2.2.1 (Or.inl he.2.1) c he.2.2.2
      rw [List.foldlM_cons, k1, ok_bind]
      simp only
      by_cases h : e.order = p
      · rw [h] at k5
        obtain ⟨g, hg1, hg2⟩ := Exp3.addEq_ok hf k5
        rw [hg1, ok_bind, ok_bind]
        rcases List.mem_cons.mp hu with rfl | hu
        · exact absurd h hne
        · exact ih (fun y hy => hM y (by simp [hy])) ⟨u, hu, hne⟩ _ _ _ k2 hg2
      · have : Exp3.addEq f le = .error .logicError := if_pos (Or.inl (by
          rw [hf.size, k5.size]
          intro h'
          exact h (by have := Nat.mul_self_inj.mp h'; omega)))
        rw [this, err_bind, err_bind]
  unfold Exp3.leOfMes
  simp only
  rw [← hp, h1, ok_bind]
  obtain ⟨u, hu, hne⟩ := hx
  exact key _ (fun _ h => h) ⟨u, by simp [hu], hne⟩ _ _ _ h2 h5

/-! ## Non-vacuity -/

/-- Orders 2 and 1: undefined behaviour for the multipole expansion, an exception for the local expansion. -/
example : (∀ t, Reachable t → 2 ≤ t.maxOrder → Exp2.meOfMes t 0 [⟨2, 5, Arr.new 3⟩, ⟨1, 5, Arr.new 2⟩] = .error .ub) ∧
    Exp2.leOfMes BinomialTable.init 0 [⟨2, 5, Arr.new 3⟩, ⟨1, 5, Arr.new 2⟩] = .error .logicError := by
  refine ⟨fun t ht h2 => (C129_multipole_2d ht 0 _ _ ?_).1 ⟨_, List.mem_singleton.mpr rfl, by decide⟩,
    C129_local_2d reachable_init 0 _ _ ?_ ⟨_, List.mem_singleton.mpr rfl, by decide⟩⟩
  · intro e he
    simp only [List.mem_cons, List.not_mem_nil, or_false] at he
    rcases he with rfl | rfl
    · exact ⟨rfl, rfl, h2⟩
    · exact ⟨rfl, rfl, by show 1 ≤ _; omega⟩
  · have h5 : (5 : ℂ) ≠ toC 0 := fun h => by
      have := congrArg Complex.re h
      simp [toC] at this
    intro e he
    simp only [List.mem_cons, List.not_mem_nil, or_false] at he
    rcases he with rfl | rfl
    · exact ⟨rfl, by decide, by decide, h5⟩
    · exact ⟨rfl, by decide, by decide, h5⟩

end FMM
