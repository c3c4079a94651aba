import Verif.FmmFail
import Verif.PropsFmm2D
import Verif.PropsFmm3D

/-!
# C102: trees of expansion order 0

The order is 0 if and only if `eps/2 < Σ|q| ≤ eps`.  In two dimensions the translations assert that the order is positive; in
three dimensions they read the tables of the signs, which are empty until an expansion of positive order is constructed.
-/

namespace FMM
open Rel

/-! ## Lemmas -/

/-- The strengths for which the order is 0. -/
theorem order_zero {A eps : ℝ} (he : 0 < eps) : expansionOrder A eps = .ok 0 ↔ eps / 2 < A ∧ A ≤ eps := by
  constructor
  · intro h
    by_cases h1 : A ≤ eps / 2
    · rw [C24_order_ub A eps he h1] at h; simp at h
    push Not at h1
    refine ⟨h1, ?_⟩
    have hq : 0 < A / eps := div_pos (by linarith) he
    unfold expansionOrder at h
    rw [if_neg (by push Not; exact ⟨he.ne', hq⟩)] at h
    unfold toU32 at h
    split_ifs at h with hc
    simp only [Except.ok.injEq] at h
    have h2 : ⌈Real.logb 2 (A / eps)⌉ ≤ 0 := by
      show ⌈Real.log (A / eps) / Real.log 2⌉ ≤ 0
      omega
    have h3 := Int.ceil_le.mp h2
    rw [Real.logb_le_iff_le_rpow (by norm_num) hq] at h3
    norm_num at h3
    rwa [div_le_one he] at h3
  · rintro ⟨h1, h2⟩
    have hbig : (1 : ℝ) ≤ 2 ^ (2 ^ 32 - 1) := one_le_pow₀ (by norm_num)
    have hB := C24_order A eps he h1
    generalize (2 : ℝ) ^ (2 ^ 32 - 1) = B at hbig hB
    obtain ⟨p, k1, -, k3⟩ := hB (by nlinarith)
    rcases Nat.eq_zero_or_pos p with rfl | hp
    · exact k1
    · have := k3 0 hp
      rw [pow_zero, one_mul] at this
      linarith

/-- The upward pass at order 0 in two dimensions. -/
noncomputable def up2 (T : PTree) (cen : Path → Vec 2) (src : Path → List (Source 2)) : UpLaws kit2 0 T cen src where
  good := fun t => BinomialTable.Good t
  cov := fun t => BinomialTable.Good t ∧ 0 ≤ BinomialTable.maxOrder t
  ME := fun π e => ∃ S, Exp2.Is e (toC (cen π)) 0 (meCoeff (toC (cen π)) S)
  LX := fun π _ e => ∃ a, Exp2.Is e (toC (cen π)) 0 a
  cov_good := fun _ h => h.1
  leNew := fun t π _ ht => by
    obtain ⟨t', e, h1, h2, h3, h4⟩ := new_cov (p := 0) (by norm_num) t (cen π) ht
    exact ⟨t', e, h1, h2, h3, _, h4⟩
  leaf := fun t π ht _ _ => by
    obtain ⟨e, h1, h2⟩ := meSrc_cov (p := 0) (by norm_num) t (cen π) (src π) ht
    exact ⟨e, h1, _, h2⟩
  node := fun t π f ht _ _ hf => by
    choose! g hg using hf
    obtain ⟨e, h1, h2⟩ := meMes_cov (p := 0) (by norm_num) t (cen π) ((List.range (2 ^ 2)).map fun i => (f i, cen (i :: π), g i)) ht
      (by simp) (by
        intro x hx
        obtain ⟨i, hi, rfl⟩ := List.mem_map.mp hx
        exact hg i (List.mem_range.mp hi))
    refine ⟨e, ?_, _, h2⟩
    rw [List.map_map] at h1
    exact h1

theorem fails2 (T : PTree) (cen : Path → Vec 2) (src : Path → List (Source 2)) {t : BinomialTable} (ht : t.Good) :
    Fails kit2 0 T cen src t .assertFail := by
  refine Or.inl ⟨up2 T cen src, ht, ?_⟩
  rintro t' i τ e ht' - ⟨a, ha⟩
  refine ⟨?_, Exp2.leOfLe_order0 t' ht'.1 e ha.order _⟩
  show e.coeffs.size ≠ 0
  rw [ha.size]; omega

/-- As long as no expansion of positive order has been constructed, the tables are those of the start of the program. -/
theorem Reachable3.init_of {st : Stat3} (h : Reachable3 st) (h0 : st.alm.maxOrder = 0) :
    ∃ o1 o2 o3, st = Stat3.init o1 o2 o3 := by
  obtain ⟨o1, o2, o3, h, hr⟩ := h
  refine ⟨o1, o2, o3, ?_⟩
  unfold Stat3.run at hr
  have mono : ∀ (h : List ℕ) (s0 : Stat3), s0.Good ∧ s0.alm.maxOrder ≤ 42 →
      h.foldlM (fun st o => do let (st, _) ← Exp3.new st 0 o; .ok st) s0 = .ok st → st = s0 ∨ 0 < st.alm.maxOrder := by
    intro h
    induction h with
    | nil =>
      intro s0 _ hr
      simp only [List.foldlM_nil] at hr
      injection hr with hr
      exact Or.inl hr.symm
    | cons o h ih =>
      intro s0 hs0 hr
      rw [List.foldlM_cons] at hr
      by_cases ho : o ≤ 42
      · obtain ⟨s1, e, k1, k2, k3, k4, -⟩ := Exp3.new_ok s0 hs0.1 0 o ho
        rw [k1, ok_bind] at hr
        have hm := Exp3.new_max hs0.1 ho k1
        rcases ih s1 ⟨k2, by rw [hm]; exact max_le hs0.2 ho⟩ hr with h1 | h1
        · by_cases hle : o ≤ s0.alm.maxOrder
          · left; rw [h1, k4 hle]
          · right; rw [h1]; omega
        · exact Or.inr h1
      · rw [Exp3.new_abort hs0.2 0 (by omega)] at hr
        simp at hr
  rcases mono h _ ⟨Stat3.good_init _ _ _, by simp [Stat3.init, AlmTable.init]⟩ hr with h1 | h1
  · exact h1
  · omega

/-- The first loop at order 0 in three dimensions, with empty tables. -/
noncomputable def leaf3 (T : PTree) (cen : Path → Vec 3) (src : Path → List (Source 3)) : LeafLaws kit3 0 T cen src where
  good := fun t => ∃ o1 o2 o3, t = Stat3.init o1 o2 o3
  cov := fun t => ∃ o1 o2 o3, t = Stat3.init o1 o2 o3
  ME := fun π e => ∃ a, Exp3.Is e (cen π) 0 a
  LX := fun π _ e => ∃ a, Exp3.Is e (cen π) 0 a
  cov_good := fun _ h => h
  leNew := by
    rintro t π - ⟨o1, o2, o3, rfl⟩
    obtain ⟨t', e, h1, h2, h3, h4⟩ := new_cov3 (p := 0) (by norm_num) _ (cen π) (Stat3.good_init o1 o2 o3)
    obtain rfl := h3 ⟨Stat3.good_init _ _ _, Nat.zero_le _⟩
    exact ⟨_, e, h1, ⟨o1, o2, o3, rfl⟩, fun _ => rfl, _, h4⟩
  leaf := by
    rintro t π ⟨o1, o2, o3, rfl⟩ - -
    obtain ⟨e, h1, h2⟩ := meSrc_cov3 (p := 0) (by norm_num) _ (cen π) (src π) ⟨Stat3.good_init o1 o2 o3, Nat.zero_le _⟩
    exact ⟨e, h1, _, h2⟩

theorem meOfMes_cons_ub {st : Stat3} {c : Vec 3} {e : Exp3} (h : Exp3.meOfMes st c [e] = .error .ub) (es : List Exp3) :
    Exp3.meOfMes st c (e :: es) = .error .ub := by
  unfold Exp3.meOfMes at h ⊢
  simp only at h ⊢
  cases k : Exp3.new st c e.order with
  | error er => rw [k] at h; injection h with h; subst h; rfl
  | ok q =>
    rw [k, ok_bind] at h
    rw [ok_bind]
    simp only [List.foldlM_cons, List.foldlM_nil] at h ⊢
    cases k2 : (do
      let sh ← Exp3.meShift q.1 e (Vec.sub e.center q.2.center)
      Exp2.addCoeffs q.2.coeffs sh : Outcome (Arr ℂ)) with
    | error er => rw [k2] at h; injection h with h; subst h; rfl
    | ok c => rw [k2] at h; simp at h

theorem child_center_ne {d : ℕ} (r : Box (d + 1)) (hr : 0 < r.len) (i : ℕ) (τ : Path) :
    (boxAt r τ).center ≠ (boxAt r (i :: τ)).center := by
  intro h
  have h := congrFun h 0
  rw [boxAt_center, boxAt_center] at h
  simp only [List.length_cons, pow_succ, grid] at h
  have hq : 0 < r.len / 2 ^ τ.length := by positivity
  set q := r.len / 2 ^ τ.length with hqd
  have e : r.len / (2 ^ τ.length * 2) = q / 2 := by rw [hqd]; field_simp
  rw [e] at h
  simp at h
  cases hb : i.testBit d <;> rw [hb] at h <;> simp at h <;> nlinarith

theorem fails3 (T : PTree) {r : Box 3} (hr : 0 < r.len) (src : Path → List (Source 3)) {t : Stat3} (ht : Reachable3 t)
    (h0 : t.alm.maxOrder = 0) : Fails kit3 0 T (fun π => (boxAt r π).center) src t .ub := by
  refine Or.inr ⟨leaf3 T _ src, ht.init_of h0, ?_, ?_⟩
  · rintro t' i τ e ⟨o1, o2, o3, rfl⟩ - ⟨a, ha⟩
    refine ⟨?_, (C24_order_zero_3d o1 o2 o3 e ha.order _ ?_).2.2⟩
    · show e.coeffs.size ≠ 0
      rw [ha.size]; omega
    · rw [ha.center]; exact child_center_ne r hr i τ
  · rintro t' π f ⟨o1, o2, o3, rfl⟩ - - hf
    obtain ⟨a, ha⟩ := hf 0 (by norm_num)
    have := (C24_order_zero_3d o1 o2 o3 (f 0) ha.order (boxAt r π).center (by
      rw [ha.center]; exact (child_center_ne r hr 0 π).symm)).1
    show Exp3.meOfMes _ _ (f 0 :: _) = _
    exact meOfMes_cons_ub this _

/-! ## C102 -/

section
variable {eps : ℝ}

/-- **C102** Two dimensions, adaptive tree: if `eps/2 < Σ|q| ≤ eps` and there are more than `max` sources, then the constructor
fails an assertion, whatever the schedule and whatever the tables contain. -/
theorem C102_adaptive_2d {t : BinomialTable} (ht : Reachable t) {S : List (Source 2)} {r : Box 2} {max : ℕ}
    (hI : AdaptiveInput S max r) (hN : max < S.length) (he : 0 < eps) (h1 : eps / 2 < (S.map fun s => |s.q|).sum)
    (h2 : (S.map fun s => |s.q|).sum ≤ eps) :
    ∃ fuel0, ∀ fuel ≥ fuel0, ∀ sch, Schedule sch → adaptiveFmm kit2 fuel sch t S max eps = .error .assertFail :=
  adaptive_fails hI hN (by rw [totalStrength_eq]; exact (order_zero he).mpr ⟨h1, h2⟩) (fails2 _ _ _ ht.good)

/-- **C102** Two dimensions, balanced tree of positive height. -/
theorem C102_balanced_2d {t : BinomialTable} (ht : Reachable t) {S : List (Source 2)} {r : Box 2} {perCell h : ℕ}
    (hI : BalancedInput S perCell r h) (hh : 1 ≤ h) (he : 0 < eps) (h1 : eps / 2 < (S.map fun s => |s.q|).sum)
    (h2 : (S.map fun s => |s.q|).sum ≤ eps) :
    ∃ fuel0, ∀ fuel ≥ fuel0, ∀ sch, Schedule sch → balancedFmm kit2 fuel sch t S perCell eps = .error .assertFail :=
  balanced_fails (by norm_num) hI hh hI.len_pos (by rw [totalStrength_eq]; exact (order_zero he).mpr ⟨h1, h2⟩) (fails2 _ _ _ ht.good)

/-- **C102** Three dimensions, adaptive tree: if nothing of positive order has been constructed before, the constructor reads
outside the tables. -/
theorem C102_adaptive_3d_first {t : Stat3} (ht : Reachable3 t) (h0 : t.alm.maxOrder = 0) {S : List (Source 3)} {r : Box 3} {max : ℕ}
    (hI : AdaptiveInput S max r) (hN : max < S.length) (he : 0 < eps) (h1 : eps / 2 < (S.map fun s => |s.q|).sum)
    (h2 : (S.map fun s => |s.q|).sum ≤ eps) :
    ∃ fuel0, ∀ fuel ≥ fuel0, ∀ sch, Schedule sch → adaptiveFmm kit3 fuel sch t S max eps = .error .ub :=
  adaptive_fails hI hN (by rw [totalStrength_eq]; exact (order_zero he).mpr ⟨h1, h2⟩) (fails3 _ (hI.len_pos hN) _ ht h0)

/-- **C102** Three dimensions, balanced tree of positive height. -/
theorem C102_balanced_3d_first {t : Stat3} (ht : Reachable3 t) (h0 : t.alm.maxOrder = 0) {S : List (Source 3)} {r : Box 3}
    {perCell h : ℕ} (hI : BalancedInput S perCell r h) (hh : 1 ≤ h) (he : 0 < eps) (h1 : eps / 2 < (S.map fun s => |s.q|).sum)
    (h2 : (S.map fun s => |s.q|).sum ≤ eps) :
    ∃ fuel0, ∀ fuel ≥ fuel0, ∀ sch, Schedule sch → balancedFmm kit3 fuel sch t S perCell eps = .error .ub :=
  balanced_fails (by norm_num) hI hh hI.len_pos (by rw [totalStrength_eq]; exact (order_zero he).mpr ⟨h1, h2⟩)
    (fails3 _ hI.len_pos _ ht h0)

/-- **C102** Three dimensions, adaptive tree: if an expansion of positive order has been constructed before, the same input is
processed, with the error bound of order 0. -/
theorem C102_adaptive_3d_later {t : Stat3} (ht : Reachable3 t) (h0 : 0 < t.alm.maxOrder) {S : List (Source 3)} {r : Box 3} {max : ℕ}
    (hI : AdaptiveInput S max r) (he : 0 < eps) (h1 : eps / 2 < (S.map fun s => |s.q|).sum)
    (h2 : (S.map fun s => |s.q|).sum ≤ eps) :
    ∃ (fuel0 : ℕ) (T : AdaptiveFmm kit3),
      (∀ fuel ≥ fuel0, ∀ sch, Schedule sch → adaptiveFmm kit3 fuel sch t S max eps = .ok T) ∧ T.order = 0 ∧
      (∀ x, r.contains x → ∀ grav cur, ∃ v, (∀ fuel ≥ fuel0, adaptiveEval pot3 fuel grav T cur x = .ok v) ∧
        |v - directPotential grav S x| ≤ (S.map fun s => |s.q|).sum * errPot3 0 (r.len / 2 ^ T.height)) ∧
      (∀ x, ¬ r.contains x → ∀ grav cur, (∀ s ∈ cur, s.pos ≠ x) → ∀ fuel ≥ fuel0,
        adaptiveEval pot3 fuel grav T cur x = .ok (directPotential grav cur x)) :=
  pot3_adaptive ht hI (by rw [totalStrength_eq]; exact (order_zero he).mpr ⟨h1, h2⟩) (Or.inr h0) (by norm_num)

/-- **C102** The same for the balanced tree. -/
theorem C102_balanced_3d_later {t : Stat3} (ht : Reachable3 t) (h0 : 0 < t.alm.maxOrder) {S : List (Source 3)} {r : Box 3}
    {perCell h : ℕ} (hI : BalancedInput S perCell r h) (he : 0 < eps) (h1 : eps / 2 < (S.map fun s => |s.q|).sum)
    (h2 : (S.map fun s => |s.q|).sum ≤ eps) :
    ∃ (fuel0 : ℕ) (T : BalancedFmm kit3),
      (∀ fuel ≥ fuel0, ∀ sch, Schedule sch → balancedFmm kit3 fuel sch t S perCell eps = .ok T) ∧ T.order = 0 ∧ T.height = h ∧
      ∀ x, r.containsHO x → ∀ grav, ∃ v, balancedEval pot3 grav T x = .ok v ∧
        |v - directPotential grav S x| ≤ (S.map fun s => |s.q|).sum * errPot3 0 (r.len / 2 ^ h) :=
  pot3_balanced ht hI (by rw [totalStrength_eq]; exact (order_zero he).mpr ⟨h1, h2⟩) (Or.inr h0) (by norm_num)

end
end FMM

/-! ## Non-vacuity -/

namespace FMM

/-- Nine sources of strength 1 in space, `eps = 9`: in a fresh process the constructor reads outside the tables; after the
construction of an expansion of order 1 the same call succeeds. -/
example : (∃ fuel0, ∀ fuel ≥ fuel0, adaptiveFmm kit3 fuel (fun _ l => l.reverse) (Stat3.init 0 0 0) S9 1 9 = .error .ub) ∧
    (∃ fuel0, ∀ fuel ≥ fuel0, balancedFmm kit3 fuel (fun _ l => l) (Stat3.init 0 0 0) S9 1 9 = .error .ub) ∧
    ∃ st fuel T, (do let (st, _) ← Exp3.new (Stat3.init 0 0 0) 0 1; .ok st : Outcome Stat3) = .ok st ∧
      adaptiveFmm kit3 fuel (fun _ l => l.reverse) st S9 1 9 = .ok T ∧ T.order = 0 := by
  have hA : (S9.map fun s => |s.q|).sum = 9 := by rw [← totalStrength_eq, S9_total]
  refine ⟨?_, ?_, ?_⟩
  · obtain ⟨f, h⟩ := C102_adaptive_3d_first reachable3_init rfl S9_adaptive (by simp [S9]) (eps := 9) (by norm_num)
      (by rw [hA]; norm_num) (by rw [hA])
    exact ⟨f, fun fuel hf => h fuel hf _ fun _ l => l.reverse_perm⟩
  · obtain ⟨f, h⟩ := C102_balanced_3d_first reachable3_init rfl S9_balanced (by norm_num) (eps := 9) (by norm_num)
      (by rw [hA]; norm_num) (by rw [hA])
    exact ⟨f, fun fuel hf => h fuel hf _ fun _ l => List.Perm.refl l⟩
  · obtain ⟨st, e, k1, -, k3, -⟩ := Exp3.new_ok _ (Stat3.good_init 0 0 0) 0 1 (by norm_num)
    have hr : Reachable3 st := ⟨0, 0, 0, [1], by unfold Stat3.run; rw [List.foldlM_cons, k1]; rfl⟩
    obtain ⟨f, T, h1, h2, -⟩ := C102_adaptive_3d_later hr (by omega) S9_adaptive (eps := 9) (by norm_num)
      (by rw [hA]; norm_num) (by rw [hA])
    exact ⟨st, f, T, by rw [k1]; rfl, h1 f le_rfl _ fun _ l => l.reverse_perm, h2⟩

/-- Five sources in the plane, `eps = 5`. -/
example : (∃ fuel0, ∀ fuel ≥ fuel0, adaptiveFmm kit2 fuel (fun _ l => l.reverse) BinomialTable.init S5 1 5 = .error .assertFail) ∧
    ∃ fuel0, ∀ fuel ≥ fuel0, balancedFmm kit2 fuel (fun _ l => l) BinomialTable.init S5 1 5 = .error .assertFail := by
  have hA : (S5.map fun s => |s.q|).sum = 5 := by simp [S5]; norm_num
  refine ⟨?_, ?_⟩
  · obtain ⟨f, h⟩ := C102_adaptive_2d reachable_init S5_adaptive (by simp [S5]) (eps := 5) (by norm_num)
      (by rw [hA]; norm_num) (by rw [hA])
    exact ⟨f, fun fuel hf => h fuel hf _ fun _ l => l.reverse_perm⟩
  · obtain ⟨f, h⟩ := C102_balanced_2d reachable_init S5_balanced (by norm_num) (eps := 5) (by norm_num)
      (by rw [hA]; norm_num) (by rw [hA])
    exact ⟨f, fun fuel hf => h fuel hf _ fun _ l => List.Perm.refl l⟩

end FMM
