import Verif.Exp3Bounds

/-!
# Properties of the 3D expansions: C49, C50, C51, C52, and the 3D parts of C20, C24, C25, C32

All statements hold for every state of the four static tables that the process can have reached (`Reachable3`).
-/

namespace FMM
open Finset

/-! ## Specification -/

/-- The static tables after constructing expansions of the given orders, starting from the state at program start. -/
noncomputable def Stat3.run (o1 o2 o3 : ℤ) (h : List ℕ) : Outcome Stat3 :=
  h.foldlM (fun st o => do let (st, _) ← Exp3.new st 0 o; .ok st) (Stat3.init o1 o2 o3)

/-- A state which the static tables can have. -/
def Reachable3 (st : Stat3) : Prop := ∃ (o1 o2 o3 : ℤ) (h : List ℕ), Stat3.run o1 o2 o3 h = .ok st

/-- Same order, centre, number of coefficients, and same coefficients. -/
def Exp3.Same (e f : Exp3) : Prop :=
  e.order = f.order ∧ e.center = f.center ∧ e.coeffs.size = f.coeffs.size ∧
    ∀ k < e.coeffs.size, e.coeffs.val k = f.coeffs.val k

/-! ## Lemmas -/

theorem Exp3.new_max {st st' : Stat3} (hst : st.Good) {c : Vec 3} {p : ℕ} {e : Exp3} (hp : p ≤ 42)
    (h : Exp3.new st c p = .ok (st', e)) : st'.alm.maxOrder = max st.alm.maxOrder p := by
  unfold Exp3.new at h
  by_cases hlt : p > st.alm.maxOrder
  · rw [if_pos hlt] at h
    obtain ⟨a, ha, ha1, ha2⟩ := st.alm.refresh_good hst.alm p hp
    obtain ⟨s1, h1, h1a, h1b⟩ := st.s1.refresh_good signFun1 sg1 sf1 hst.s1 p
    obtain ⟨s2, h2, h2a, h2b⟩ := st.s2.refresh_good signFun2 sg2 sf2 hst.s2 p
    obtain ⟨s3, h3, h3a, h3b⟩ := st.s3.refresh_good signFun3 sg3 sf3 hst.s3 p
    rw [ha, ok_bind, h1, ok_bind, h2, ok_bind, h3, ok_bind, ok_bind] at h
    simp only [Except.ok.injEq, Prod.mk.injEq] at h
    rw [← h.1]; exact ha2
  · rw [if_neg hlt, ok_bind] at h
    simp only [Except.ok.injEq, Prod.mk.injEq] at h
    rw [← h.1]; omega

theorem Exp3.new_abort {st : Stat3} (h : st.alm.maxOrder ≤ 42) (c : Vec 3) {p : ℕ} (hp : 43 ≤ p) :
    Exp3.new st c p = .error .gslAbort := by
  unfold Exp3.new
  rw [if_pos (by omega), st.alm.refresh_abort h p hp]; rfl

theorem Reachable3.good {st : Stat3} (h : Reachable3 st) : st.Good ∧ st.alm.maxOrder ≤ 42 := by
  obtain ⟨o1, o2, o3, h, hr⟩ := h
  unfold Stat3.run at hr
  have key : ∀ (h : List ℕ) (s0 : Stat3), s0.Good ∧ s0.alm.maxOrder ≤ 42 →
      h.foldlM (fun st o => do let (st, _) ← Exp3.new st 0 o; .ok st) s0 = .ok st → st.Good ∧ st.alm.maxOrder ≤ 42 := by
    intro h
    induction h with
    | nil =>
      intro s0 hs0 hr
      simp only [List.foldlM_nil] at hr
      injection hr with hr
      subst hr; exact hs0
    | cons o h ih =>
      intro s0 hs0 hr
      rw [List.foldlM_cons] at hr
      by_cases ho : o ≤ 42
      · obtain ⟨s1, e, k1, k2, -⟩ := Exp3.new_ok s0 hs0.1 0 o ho
        rw [k1, ok_bind] at hr
        refine ih s1 ⟨k2, ?_⟩ hr
        rw [Exp3.new_max hs0.1 ho k1]; exact max_le hs0.2 ho
      · rw [Exp3.new_abort hs0.2 0 (by omega)] at hr
        simp at hr
  exact key h _ ⟨Stat3.good_init _ _ _, by simp [Stat3.init, AlmTable.init]⟩ hr

theorem reachable3_init : Reachable3 (Stat3.init 0 0 0) := ⟨0, 0, 0, [], rfl⟩

theorem cell_surj {p i : ℕ} (hi : i < (p + 1) * (p + 1)) : ∃ n ≤ p, ∃ m : ℤ, |m| ≤ n ∧ cell n m = i := by
  have h1 := Nat.sqrt_le i
  have h2 := Nat.lt_succ_sqrt i
  set n := i.sqrt with hn
  have h3 : n ≤ p := by
    by_contra h
    push Not at h
    have : (p + 1) * (p + 1) ≤ n * n := Nat.mul_le_mul h h
    omega
  refine ⟨n, h3, -(n : ℤ) + (i - n * n : ℕ), ?_, ?_⟩
  · have : i - n * n ≤ 2 * n := by
      have : n.succ * n.succ = n * n + 2 * n + 1 := by rw [Nat.succ_eq_add_one]; ring
      omega
    rw [abs_le]; omega
  · rw [cell_pos]; omega

theorem Exp3.Is.same {e f : Exp3} {c : Vec 3} {p : ℕ} {a : ℕ → ℤ → ℂ} (he : e.Is c p a) (hf : f.Is c p a) : e.Same f := by
  refine ⟨he.order.trans hf.order.symm, he.center.trans hf.center.symm, he.size.trans hf.size.symm, fun k hk => ?_⟩
  rw [he.size] at hk
  obtain ⟨n, hn, m, hm, rfl⟩ := cell_surj hk
  rw [he.val n hn m hm, hf.val n hn m hm]

theorem Exp3.is_self {e : Exp3} (h : e.coeffs.size = (e.order + 1) * (e.order + 1)) :
    e.Is e.center e.order (fun n m => e.coeffs.val (cell n m)) := ⟨rfl, rfl, h, fun _ _ _ _ => rfl⟩

theorem totalStrength_sum (S : List (Source 3)) : (S.map fun s => |s.q|).sum = totalStrength S := (totalStrength_eq S).symm

/-! ## C51: multipole expansion -/

/-- **C51** Error bound of the order-`p` multipole potential. -/
theorem C51_multipole_bound (st : Stat3) (hst : Reachable3 st) (center : Vec 3) (p : ℕ) (hp : p ≤ 42)
    (S : List (Source 3)) (R r : ℝ) (hR : ∀ s ∈ S, dist2 s.pos center ≤ R) (hRr : R < r) (hr : 0 < r) (x : Vec 3)
    (hx : r ≤ dist2 x center) :
    ∃ st' e v, Exp3.meOfSources st center p S = .ok (st', e) ∧ Exp3.mePot e x = .ok v ∧
      |v - directPotential true S x| ≤ (S.map fun s => |s.q|).sum / (r - R) * (R / r) ^ (p + 1) := by
  obtain ⟨st', e, h1, _, _, _, h2⟩ := Exp3.meOfSources_ok st hst.good.1 center p hp S
  have hxc : x ≠ center := by
    rintro rfl
    rw [(dist2_eq_zero_iff x x).mpr rfl] at hx
    linarith
  refine ⟨st', e, _, h1, Exp3.mePot_ok h2 x hxc, ?_⟩
  refine (me_bound3 center x p S hR hRr hx).trans (le_of_eq ?_)
  rw [totalStrength_sum]; ring

/-- Two sources, evaluated at a distance of four times the radius. -/
example : ∃ st' e v, Exp3.meOfSources (Stat3.init 0 0 0) ![0, 0, 0] 5 [⟨![1, 0, 0], 1⟩, ⟨![0, 0, -1], 2⟩] = .ok (st', e) ∧
    Exp3.mePot e ![0, 4, 0] = .ok v ∧
    |v - directPotential true [⟨![1, 0, 0], 1⟩, ⟨![0, 0, -1], 2⟩] ![0, 4, 0]| ≤ 3 / (4 - 1) * (1 / 4) ^ (5 + 1) := by
  obtain ⟨st', e, v, h1, h2, h3⟩ := C51_multipole_bound _ reachable3_init ![0, 0, 0] 5 (by norm_num)
    [⟨![1, 0, 0], 1⟩, ⟨![0, 0, -1], 2⟩] 1 4 (by
      intro s hs
      simp only [List.mem_cons, List.not_mem_nil, or_false] at hs
      rcases hs with rfl | rfl <;> simp [dist2, Fin.sum_univ_three]) (by norm_num) (by norm_num) ![0, 4, 0]
    (by simp only [dist2, Fin.sum_univ_three]
        refine Real.le_sqrt_of_sq_le ?_
        norm_num
        exact sq_nonneg _)
  refine ⟨st', e, v, h1, h2, h3.trans (le_of_eq ?_)⟩
  norm_num

/-! ## C49: multipole-to-multipole -/

/-- **C49** Building a multipole expansion from the expansions of groups of sources (about any centres, built in
any states of the static tables) gives the expansion of all the sources together. -/
theorem C49_m2m_exact (st : Stat3) (hst : Reachable3 st) (center : Vec 3) (p : ℕ) (hp : p ≤ 42) (hp0 : 0 < p)
    (G : List (Exp3 × Vec 3 × List (Source 3))) (hne : G ≠ [])
    (hG : ∀ g ∈ G, ∃ st0 st1, Reachable3 st0 ∧ Exp3.meOfSources st0 g.2.1 p g.2.2 = .ok (st1, g.1)) :
    ∃ st' st'' e e', Exp3.meOfMes st center (G.map (·.1)) = .ok (st', e) ∧
      Exp3.meOfSources st center p (G.flatMap (·.2.2)) = .ok (st'', e') ∧ e.Same e' := by
  obtain ⟨st1, e', h1, -, -, -, h5⟩ := Exp3.meOfSources_ok st hst.good.1 center p hp (G.flatMap (·.2.2))
  obtain ⟨st2, e, k1, -, -, -, k5⟩ := Exp3.meOfMes_ok st hst.good.1 center p hp (Or.inl hp0)
    (G.map fun g => (g.1, g.2.1, meCoeff3 g.2.1 g.2.2)) (by simpa using hne) (by
      intro x hx
      obtain ⟨g, hg, rfl⟩ := List.mem_map.mp hx
      obtain ⟨b0, b1, hb0, hb1⟩ := hG g hg
      obtain ⟨b2, e2, m1, _, _, _, m2⟩ := Exp3.meOfSources_ok b0 hb0.good.1 g.2.1 p hp g.2.2
      rw [hb1] at m1
      obtain ⟨-, rfl⟩ : b1 = b2 ∧ g.1 = e2 := by simpa using m1
      exact m2)
  refine ⟨st2, st1, e, e', ?_, h1, Exp3.Is.same (k5.congr fun n _ m hm => ?_) h5⟩
  · rw [← k1]; simp [Function.comp_def]
  · rw [List.map_map, meCoeff3_flatMap]
    congr 1
    refine List.map_congr_left fun g _ => ?_
    exact m2mC_sources _ _ _ rfl _ _ hm

/-- Two groups with different centres. -/
example : ∃ b1 e1 b2 e2 st' st'' e e', Exp3.meOfSources (Stat3.init 0 0 0) ![1, 1, 0] 3 [⟨![2, 0, 1], 1⟩] = .ok (b1, e1) ∧
    Exp3.meOfSources (Stat3.init 0 0 0) ![-1, 0, 2] 3 [⟨![-2, 1, 0], -1⟩, ⟨![0, 1, 5], 3⟩] = .ok (b2, e2) ∧
    Exp3.meOfMes (Stat3.init 0 0 0) ![0, 0, 0] [e1, e2] = .ok (st', e) ∧
    Exp3.meOfSources (Stat3.init 0 0 0) ![0, 0, 0] 3 [⟨![2, 0, 1], 1⟩, ⟨![-2, 1, 0], -1⟩, ⟨![0, 1, 5], 3⟩] = .ok (st'', e') ∧
    e.Same e' := by
  have hr := reachable3_init
  obtain ⟨b1, e1, h1, -⟩ := Exp3.meOfSources_ok _ hr.good.1 ![1, 1, 0] 3 (by norm_num) [⟨![2, 0, 1], 1⟩]
  obtain ⟨b2, e2, h2, -⟩ := Exp3.meOfSources_ok _ hr.good.1 ![-1, 0, 2] 3 (by norm_num)
    [⟨![-2, 1, 0], -1⟩, ⟨![0, 1, 5], 3⟩]
  obtain ⟨st', st'', e, e', k1, k2, k3⟩ := C49_m2m_exact _ hr ![0, 0, 0] 3 (by norm_num) (by norm_num)
    [(e1, ![1, 1, 0], [⟨![2, 0, 1], 1⟩]), (e2, ![-1, 0, 2], [⟨![-2, 1, 0], -1⟩, ⟨![0, 1, 5], 3⟩])] (by simp) (by
      intro g hg
      simp only [List.mem_cons, List.not_mem_nil, or_false] at hg
      rcases hg with rfl | rfl
      · exact ⟨_, _, hr, h1⟩
      · exact ⟨_, _, hr, h2⟩)
  exact ⟨b1, e1, b2, e2, st', st'', e, e', h1, h2, k1, k2, k3⟩

/-- An empty vector of expansions is undefined behaviour in 3D (`expansions[0]`), unlike in 2D. -/
theorem C49_empty_undefined (st : Stat3) (center : Vec 3) : Exp3.meOfMes st center [] = .error .ub := rfl

/-! ## C50: local-to-local -/

/-- **C50** Shifting a local expansion to another centre does not change its potential anywhere. -/
theorem C50_l2l_exact (st : Stat3) (hst : Reachable3 st) (e : Exp3) (hsz : e.coeffs.size = (e.order + 1) * (e.order + 1))
    (hp : e.order ≤ 42) (hp0 : 0 < e.order) (center : Vec 3) :
    ∃ st' f, Exp3.leOfLe st center e = .ok (st', f) ∧ f.center = center ∧ f.order = e.order ∧
      f.coeffs.size = e.coeffs.size ∧ ∀ x, ∃ v, Exp3.lePot e x = .ok v ∧ Exp3.lePot f x = .ok v := by
  have he := Exp3.is_self hsz
  obtain ⟨st', f, h1, -, -, -, h5⟩ := Exp3.leOfLe_ok st hst.good.1 he hp (Or.inl hp0) center
  refine ⟨st', f, h1, h5.center, h5.order, h5.size.trans hsz.symm, fun x => ⟨_, Exp3.lePot_ok he x, ?_⟩⟩
  rw [Exp3.lePot_ok h5 x, l2lC_exact, show x - center - (e.center - center) = x - e.center by abel]

/-- A local expansion of order 2 with nine different coefficients. -/
example : ∃ st' f, Exp3.leOfLe (Stat3.init 0 0 0) ![1, 2, 3] ⟨2, ![0, 1, 0], ⟨9, fun k => k + Complex.I⟩⟩ = .ok (st', f) ∧
    ∃ v, Exp3.lePot ⟨2, ![0, 1, 0], ⟨9, fun k => k + Complex.I⟩⟩ ![4, 5, 6] = .ok v ∧ Exp3.lePot f ![4, 5, 6] = .ok v :=
  let ⟨st', f, h, _, _, _, h'⟩ := C50_l2l_exact _ reachable3_init ⟨2, ![0, 1, 0], ⟨9, fun k => k + Complex.I⟩⟩ rfl
    (by norm_num) (by norm_num) ![1, 2, 3]
  ⟨st', f, h, h' _⟩

/-! ## C52: local expansions of sources and of multipole expansions -/

/-- **C52** Sources to local expansion. -/
theorem C52_s2l_bound (st : Stat3) (hst : Reachable3 st) (center : Vec 3) (p : ℕ) (hp : p ≤ 42) (S : List (Source 3))
    (r D : ℝ) (hD : ∀ s ∈ S, D ≤ dist2 s.pos center) (hrD : r < D) (x : Vec 3) (hx : dist2 x center ≤ r) :
    ∃ st' e v, Exp3.leOfSources st center p S = .ok (st', e) ∧ Exp3.lePot e x = .ok v ∧
      |v - directPotential true S x| ≤ (S.map fun s => |s.q|).sum / (D - r) * (r / D) ^ (p + 1) := by
  have hr : 0 ≤ r := (dist2_nonneg _ _).trans hx
  obtain ⟨st', e, h1, _, _, _, h2⟩ := Exp3.leOfSources_ok st hst.good.1 center p hp S (by
    intro s hs h
    have := hD s hs
    rw [h, (dist2_eq_zero_iff _ _).mpr rfl] at this
    linarith)
  refine ⟨st', e, _, h1, Exp3.lePot_ok h2 x, (le_bound3 center x p S hx hrD hD).trans (le_of_eq ?_)⟩
  rw [totalStrength_sum]; ring

/-- **C52** Multipole expansion to local expansion, for every state of the tables when the multipole expansion is built
(`st`) and when it is converted (`st2`). -/
theorem C52_m2l_bound (st st2 : Stat3) (hst : Reachable3 st) (hst2 : Reachable3 st2) (center center' : Vec 3) (p : ℕ)
    (hp : p ≤ 42) (hp0 : 0 < p) (S : List (Source 3)) (R r D : ℝ) (hS : ∀ s ∈ S, dist2 s.pos center ≤ R) (hR : 0 ≤ R)
    (hD : D ≤ dist2 center center') (hrD : r + R < D) (x : Vec 3) (hx : dist2 x center' ≤ r) :
    ∃ st' e st2' f v, Exp3.meOfSources st center p S = .ok (st', e) ∧ Exp3.leOfMe st2 center' e = .ok (st2', f) ∧
      Exp3.lePot f x = .ok v ∧
      |v - directPotential true S x| ≤ (S.map fun s => |s.q|).sum / (D - (r + R)) * ((r + R) / D) ^ (p + 1) := by
  have hr : 0 ≤ r := (dist2_nonneg _ _).trans hx
  obtain ⟨st', e, h1, _, _, _, h2⟩ := Exp3.meOfSources_ok st hst.good.1 center p hp S
  obtain ⟨st2', f, k1, -, -, -, k5⟩ := Exp3.leOfMe_ok st2 hst2.good.1 h2 hp (Or.inl hp0) center' (by
    intro h
    rw [h, (dist2_eq_zero_iff _ _).mpr rfl] at hD
    linarith)
  refine ⟨st', e, st2', f, _, h1, k1, Exp3.lePot_ok k5 x, (m2l_bound3 center center' x p S hS hx hD hrD).trans (le_of_eq ?_)⟩
  rw [totalStrength_sum]; ring

/-- **C52** Converting a list of multipole expansions adds up the individual conversions. -/
theorem C52_m2l_list (st : Stat3) (hst : Reachable3 st) (center : Vec 3) (p : ℕ) (hp : p ≤ 42) (hp0 : 0 < p) (L : List Exp3)
    (hne : L ≠ []) (hL : ∀ e ∈ L, e.order = p ∧ e.coeffs.size = (p + 1) * (p + 1) ∧ e.center ≠ center) :
    ∃ st' f, Exp3.leOfMes st center L = .ok (st', f) ∧
      ∀ x, ∃ v vs, Exp3.lePot f x = .ok v ∧ v = vs.sum ∧
        List.Forall₂ (fun e w => ∃ g, Exp3.leOfMe st' center e = .ok (st', g) ∧ Exp3.lePot g x = .ok w) L vs := by
  have hX : ∀ e ∈ L, e.Is e.center p (fun n m => e.coeffs.val (cell n m)) := fun e he =>
    ⟨(hL e he).1, rfl, (hL e he).2.1, fun _ _ _ _ => rfl⟩
  obtain ⟨st', f, h1, h2, h3, h4, h5⟩ := Exp3.leOfMes_ok st hst.good.1 center p hp (Or.inl hp0)
    (L.map fun e => (e, e.center, fun n m => e.coeffs.val (cell n m))) (by simpa using hne) (by
      intro x hx
      obtain ⟨e, he, rfl⟩ := List.mem_map.mp hx
      exact ⟨hX e he, (hL e he).2.2⟩)
  refine ⟨st', f, ?_, fun x => ?_⟩
  · rw [← h1]; simp [Function.comp_def]
  refine ⟨_, L.map fun e => -(leSum3 (m2lC p (fun n m => e.coeffs.val (cell n m)) (e.center - center)) p (x - center)).re,
    Exp3.lePot_ok h5 x, ?_, ?_⟩
  · rw [leSum3_list, List.map_map]
    clear hne hL hX h1 h5
    induction L with
    | nil => simp
    | cons e L ih =>
      rw [List.map_cons, List.map_cons, List.sum_cons, List.sum_cons, ← ih, Complex.add_re, neg_add]; rfl
  · rw [List.forall₂_map_right_iff, List.forall₂_same]
    intro e he
    obtain ⟨st2, g, k1, -, -, k4, k5⟩ := Exp3.leOfMe_ok st' h2 (hX e he) hp (Or.inl hp0) center (hL e he).2.2
    obtain rfl := k4 h3
    exact ⟨g, k1, Exp3.lePot_ok k5 x⟩

/-- A source at distance 9, converted about a centre at distance 8. -/
example : ∃ st' e st2' f v, Exp3.meOfSources (Stat3.init 0 0 0) ![8, 0, 0] 4 [⟨![9, 0, 0], -3⟩] = .ok (st', e) ∧
    Exp3.leOfMe (Stat3.init 0 0 0) ![0, 0, 0] e = .ok (st2', f) ∧ Exp3.lePot f ![0, 0, 1] = .ok v ∧
    |v - directPotential true [⟨![9, 0, 0], -3⟩] ![0, 0, 1]| ≤ 3 / (8 - (1 + 1)) * ((1 + 1) / 8) ^ (4 + 1) := by
  obtain ⟨st', e, st2', f, v, k1, k2, k3, k4⟩ := C52_m2l_bound _ _ reachable3_init reachable3_init ![8, 0, 0] ![0, 0, 0] 4
    (by norm_num) (by norm_num) [⟨![9, 0, 0], -3⟩] 1 1 8 (by simp [dist2, Fin.sum_univ_three]; norm_num) (by norm_num)
    (by simp only [dist2, Fin.sum_univ_three]; refine Real.le_sqrt_of_sq_le ?_; norm_num; exact sq_nonneg _) (by norm_num) ![0, 0, 1]
    (by simp [dist2, Fin.sum_univ_three])
  exact ⟨st', e, st2', f, v, k1, k2, k3, k4.trans (le_of_eq (by norm_num))⟩

/-! ## C25, C24, C20: orders for which the tables exist -/

/-- **C25** (3D classes) The first expansion of an order above 42 aborts in GSL, whatever was computed before. -/
theorem C25_constructor (st : Stat3) (hst : Reachable3 st) (center : Vec 3) (p : ℕ) (hp : 43 ≤ p) :
    Exp3.new st center p = .error .gslAbort := Exp3.new_abort hst.good.2 center hp

/-- **C24** (3D) While no expansion of positive order has been constructed, the tables are empty, and translating an
order-0 expansion in any of the three ways reads outside them. -/
theorem C24_order_zero_3d (o1 o2 o3 : ℤ) (e : Exp3) (he : e.order = 0) (center : Vec 3) (hc : e.center ≠ center) :
    Exp3.meOfMes (Stat3.init o1 o2 o3) center [e] = .error .ub ∧
    Exp3.leOfMe (Stat3.init o1 o2 o3) center e = .error .ub ∧
    Exp3.leOfLe (Stat3.init o1 o2 o3) center e = .error .ub := by
  obtain ⟨st', f, h1, -, -, h4, h5⟩ := Exp3.new_ok _ (Stat3.good_init o1 o2 o3) center 0 (by norm_num)
  obtain rfl := h4 (by omega)
  have hv0 : e.center - center ≠ 0 := sub_ne_zero.mpr hc
  have hr0 : len3 (e.center - center) ≠ 0 := (len3_pos hv0).ne'
  obtain ⟨Y, hY, hYv⟩ := YlmTable.make_ok 0 ((e.center - center).toSpherical3 2) (sph_sin_nonneg (e.center - center))
  have hz : ∀ {σ : Type} (f : ℤ → σ → Outcome σ) (s : σ), loopZ 0 0 f s = f 0 s := by
    intro σ f s
    unfold loopZ
    rw [show ((0 : ℤ) + 1 - 0).toNat = 0 + 1 from rfl, loopM_succ, loopM_zero]
    simp
  have hs : ∀ o k m, (SignTable.init o).get k m = .error .ub := by
    intro o k m
    unfold SignTable.get
    unfold Arr.rdZ
    split_ifs
    · exact Arr.rd_ub _ (by simp [SignTable.init])
    · rfl
  refine ⟨?_, ?_, ?_⟩
  · unfold Exp3.meOfMes
    simp only
    rw [he, h1, ok_bind]
    simp only [List.foldlM_cons, h5.center, Vec.sub_eq]
    have : Exp3.meShift (Stat3.init o1 o2 o3) e (e.center - center) = .error .ub := by
      obtain ⟨pw, hpw, -⟩ := powTable_spec (len3 (e.center - center)) 0
      unfold Exp3.meShift
      simp only [he, sph_r]
      rw [hY, ok_bind, hpw, ok_bind, loopM_succ, loopM_zero]
      simp only [ok_bind', Nat.cast_zero, neg_zero]
      rw [hz]
      have h2 : Exp3.meShiftCoeff (Stat3.init o1 o2 o3) e Y pw 0 0 = .error .ub := by
        unfold Exp3.meShiftCoeff
        rw [loopM_succ, loopM_zero]
        simp only [ok_bind', Nat.cast_zero, neg_zero, add_zero, sub_zero, max_self, min_self]
        rw [hz]
        simp only [Stat3.init, hs]; rfl
      rw [h2]; rfl
    rw [this]; rfl
  · obtain ⟨pw, hpw, -⟩ := powTable_spec (1 / len3 (e.center - center)) (2 * 0 + 1)
    unfold Exp3.leOfMe
    rw [he, h1, ok_bind]
    simp only [h5.center, h5.order, Vec.sub_eq, sph_r]
    rw [hY, ok_bind, divR, if_neg hr0, ok_bind, hpw, ok_bind, loopM_succ, loopM_zero]
    simp only [ok_bind', Nat.cast_zero, neg_zero]
    rw [hz]
    have h2 : Exp3.m2lCoeff (Stat3.init o1 o2 o3) 0 e Y pw 0 0 = .error .ub := by
      unfold Exp3.m2lCoeff
      rw [loopM_succ, loopM_zero]
      simp only [ok_bind', Nat.cast_zero, neg_zero]
      rw [hz]
      simp only [Stat3.init, hs]; rfl
    rw [h2]; rfl
  · obtain ⟨pw, hpw, -⟩ := powTable_spec (len3 (e.center - center)) 0
    unfold Exp3.leOfLe
    rw [he, h1, ok_bind]
    simp only [h5.center, Vec.sub_eq]
    have : Exp3.leShift (Stat3.init o1 o2 o3) e (e.center - center) = .error .ub := by
      unfold Exp3.leShift
      simp only [he, sph_r]
      rw [hY, ok_bind, hpw, ok_bind, loopM_succ, loopM_zero]
      simp only [ok_bind', Nat.cast_zero, neg_zero]
      rw [hz]
      have h2 : Exp3.leShiftCoeff (Stat3.init o1 o2 o3) e Y pw 0 0 = .error .ub := by
        unfold Exp3.leShiftCoeff
        rw [he, Nat.sub_zero, loopM_succ, loopM_zero]
        simp only [ok_bind', Nat.cast_zero, neg_zero, add_zero, sub_zero, max_self, min_self]
        rw [hz]
        simp only [Stat3.init, hs]; rfl
      rw [h2]; rfl
    rw [this]; rfl

/-- The expansion of one source about the origin at order 0. -/
example : Exp3.leOfMe (Stat3.init 7 8 9) ![1, 0, 0] ⟨0, 0, ⟨1, fun _ => 1⟩⟩ = .error .ub :=
  (C24_order_zero_3d 7 8 9 ⟨0, 0, ⟨1, fun _ => 1⟩⟩ rfl ![1, 0, 0] (fun h => by
    have := congrFun h 0; simp at this)).2.1

/-- **C20** (3D) For orders from 1 to 42 every lookup made by the operations is inside the tables and the coefficient
vectors: no operation is undefined. -/
theorem C20_lookups_3d (st : Stat3) (hst : Reachable3 st) (center : Vec 3) (p : ℕ) (hp : p ≤ 42) (hp0 : 0 < p)
    (S : List (Source 3)) (e : Exp3) (he : e.order = p) (hsz : e.coeffs.size = (p + 1) * (p + 1)) (L : List Exp3)
    (hL : ∀ f ∈ L, f.order = p ∧ f.coeffs.size = (p + 1) * (p + 1)) (x : Vec 3) :
    (∃ r, Exp3.meOfSources st center p S = .ok r) ∧
    ((∀ s ∈ S, s.pos ≠ center) → ∃ r, Exp3.leOfSources st center p S = .ok r) ∧
    (L ≠ [] → ∃ r, Exp3.meOfMes st center L = .ok r) ∧
    (L ≠ [] → (∀ f ∈ L, f.center ≠ center) → ∃ r, Exp3.leOfMes st center L = .ok r) ∧
    (e.center ≠ center → ∃ r, Exp3.leOfMe st center e = .ok r) ∧
    (∃ r, Exp3.leOfLe st center e = .ok r) ∧
    (∃ r, Exp3.lePot e x = .ok r) ∧ (x ≠ e.center → ∃ r, Exp3.mePot e x = .ok r) := by
  have hg := hst.good.1
  have hE : e.Is e.center p (fun n m => e.coeffs.val (cell n m)) := ⟨he, rfl, hsz, fun _ _ _ _ => rfl⟩
  have hX : ∀ f ∈ L, f.Is f.center p (fun n m => f.coeffs.val (cell n m)) := fun f hf =>
    ⟨(hL f hf).1, rfl, (hL f hf).2, fun _ _ _ _ => rfl⟩
  refine ⟨?_, fun h => ?_, fun hne => ?_, fun hne hc => ?_, fun h => ?_, ?_, ⟨_, Exp3.lePot_ok hE x⟩,
    fun h => ⟨_, Exp3.mePot_ok hE x h⟩⟩
  · obtain ⟨a, b, h, -⟩ := Exp3.meOfSources_ok st hg center p hp S
    exact ⟨_, h⟩
  · obtain ⟨a, b, h, -⟩ := Exp3.leOfSources_ok st hg center p hp S h
    exact ⟨_, h⟩
  · obtain ⟨a, b, h, -⟩ := Exp3.meOfMes_ok st hg center p hp (Or.inl hp0)
      (L.map fun e => (e, e.center, fun n m => e.coeffs.val (cell n m))) (by simpa using hne) (by
        intro y hy
        obtain ⟨f, hf, rfl⟩ := List.mem_map.mp hy
        exact hX f hf)
    refine ⟨_, Eq.trans ?_ h⟩
    simp [Function.comp_def]
  · obtain ⟨a, b, h, -⟩ := Exp3.leOfMes_ok st hg center p hp (Or.inl hp0)
      (L.map fun e => (e, e.center, fun n m => e.coeffs.val (cell n m))) (by simpa using hne) (by
        intro y hy
        obtain ⟨f, hf, rfl⟩ := List.mem_map.mp hy
        exact ⟨hX f hf, hc f hf⟩)
    refine ⟨_, Eq.trans ?_ h⟩
    simp [Function.comp_def]
  · obtain ⟨a, b, h, -⟩ := Exp3.leOfMe_ok st hg hE hp (Or.inl hp0) center h
    exact ⟨_, h⟩
  · obtain ⟨a, b, h, -⟩ := Exp3.leOfLe_ok st hg hE hp (Or.inl hp0) center
    exact ⟨_, h⟩

example : ∃ r, Exp3.leOfLe (Stat3.init 1 2 3) ![1, 1, 1] ⟨1, 0, ⟨4, fun k => k⟩⟩ = .ok r :=
  (C20_lookups_3d _ ⟨1, 2, 3, [], rfl⟩ ![1, 1, 1] 1 (by norm_num) (by norm_num) [] ⟨1, 0, ⟨4, fun k => k⟩⟩ rfl rfl []
    (by simp) 0).2.2.2.2.2.1

/-- **C20** (3D) For orders above 42 the constructors end in GSL's error handler before any lookup is made. -/
theorem C20_high_order_3d (st : Stat3) (hst : Reachable3 st) (center : Vec 3) (p : ℕ) (hp : 43 ≤ p) (S : List (Source 3))
    (e : Exp3) (he : e.order = p) (L : List Exp3) :
    Exp3.meOfSources st center p S = .error .gslAbort ∧ Exp3.leOfSources st center p S = .error .gslAbort ∧
    Exp3.meOfMes st center (e :: L) = .error .gslAbort ∧ Exp3.leOfMes st center (e :: L) = .error .gslAbort ∧
    Exp3.leOfMe st center e = .error .gslAbort ∧ Exp3.leOfLe st center e = .error .gslAbort := by
  have h := C25_constructor st hst center p hp
  refine ⟨?_, ?_, ?_, ?_, ?_, ?_⟩
  · unfold Exp3.meOfSources; rw [h]; rfl
  · unfold Exp3.leOfSources; rw [h]; rfl
  · unfold Exp3.meOfMes; simp only; rw [he, h]; rfl
  · unfold Exp3.leOfMes; simp only; rw [he, h]; rfl
  · unfold Exp3.leOfMe; rw [he, h]; rfl
  · unfold Exp3.leOfLe; rw [he, h]; rfl

example : Exp3.meOfSources (Stat3.init 0 0 0) 0 50 [⟨![1, 1, 1], 1⟩] = .error .gslAbort :=
  (C20_high_order_3d _ reachable3_init 0 50 (by norm_num) [⟨![1, 1, 1], 1⟩] ⟨50, 0, Arr.new 1⟩ rfl []).1

/-! ## C32 -/

/-- **C32** (3D) `operator+=` throws exactly for different numbers of coefficients or different centres, and otherwise adds
the coefficients. -/
theorem C32_add_assign_3d (e f : Exp3) :
    (Exp3.addEq e f = .error .logicError ↔ e.coeffs.size ≠ f.coeffs.size ∨ e.center ≠ f.center) ∧
    (¬(e.coeffs.size ≠ f.coeffs.size ∨ e.center ≠ f.center) → ∃ g, Exp3.addEq e f = .ok g ∧ g.order = e.order ∧
      g.center = e.center ∧ g.coeffs.size = e.coeffs.size ∧
      ∀ k < e.coeffs.size, g.coeffs.val k = e.coeffs.val k + f.coeffs.val k) := by
  unfold Exp3.addEq
  constructor
  · split_ifs with h
    · simp [h]
    · simp [h]
  · intro h
    rw [if_neg h]
    exact ⟨_, rfl, rfl, rfl, rfl, fun k hk => if_pos hk⟩

/-- Different centres. -/
example : Exp3.addEq ⟨0, 0, ⟨1, fun _ => 1⟩⟩ ⟨0, ![1, 0, 0], ⟨1, fun _ => 1⟩⟩ = .error .logicError :=
  (C32_add_assign_3d _ _).1.mpr (.inr fun h => by
    have := congrFun h 0
    simp at this)

/-- **C32** (3D) The sum of two expansions about the same centre has the sum of their potentials. -/
theorem C32_potential_3d (e f : Exp3) (hs : e.coeffs.size = (e.order + 1) * (e.order + 1)) (hf : f.order = e.order)
    (hfs : f.coeffs.size = e.coeffs.size) (hc : e.center = f.center) :
    ∃ g, Exp3.addEq e f = .ok g ∧ ∀ x, ∃ v w, Exp3.lePot e x = .ok v ∧ Exp3.lePot f x = .ok w ∧ Exp3.lePot g x = .ok (v + w) := by
  have he := Exp3.is_self hs
  have hF : f.Is e.center e.order (fun n m => f.coeffs.val (cell n m)) := ⟨hf, hc.symm, hfs.trans hs, fun _ _ _ _ => rfl⟩
  obtain ⟨g, h1, h2⟩ := Exp3.addEq_ok he hF
  refine ⟨g, h1, fun x => ⟨_, _, Exp3.lePot_ok he x, Exp3.lePot_ok hF x, ?_⟩⟩
  rw [Exp3.lePot_ok h2 x, leSum3_add, Complex.add_re]
  congr 1; ring

/-! ## C33 -/

/-- **C33** (3D) Permuting the sources changes neither kind of expansion. -/
theorem C33_permutation_3d (st : Stat3) (hst : Reachable3 st) (center : Vec 3) (p : ℕ) (hp : p ≤ 42)
    (S T : List (Source 3)) (h : S.Perm T) (hne : ∀ s ∈ S, s.pos ≠ center) :
    (∃ b1 e b2 f, Exp3.meOfSources st center p S = .ok (b1, e) ∧ Exp3.meOfSources st center p T = .ok (b2, f) ∧
      e.Same f) ∧
    (∃ b1 e b2 f, Exp3.leOfSources st center p S = .ok (b1, e) ∧ Exp3.leOfSources st center p T = .ok (b2, f) ∧
      e.Same f) := by
  constructor
  · obtain ⟨b1, e, h1, _, _, _, h2⟩ := Exp3.meOfSources_ok st hst.good.1 center p hp S
    obtain ⟨b2, f, k1, _, _, _, k2⟩ := Exp3.meOfSources_ok st hst.good.1 center p hp T
    exact ⟨b1, e, b2, f, h1, k1, h2.same (k2.congr fun n _ m _ => (meCoeff3_perm _ h n m).symm)⟩
  · obtain ⟨b1, e, h1, _, _, _, h2⟩ := Exp3.leOfSources_ok st hst.good.1 center p hp S hne
    obtain ⟨b2, f, k1, _, _, _, k2⟩ := Exp3.leOfSources_ok st hst.good.1 center p hp T
      fun s hs => hne s (h.mem_iff.mpr hs)
    exact ⟨b1, e, b2, f, h1, k1, h2.same (k2.congr fun n _ m _ => (h.symm.map _).sum_eq)⟩

/-- **C33** (3D) Expansions are additive under concatenation of source lists. -/
theorem C33_concatenation_3d (st : Stat3) (hst : Reachable3 st) (center : Vec 3) (p : ℕ) (hp : p ≤ 42)
    (S T : List (Source 3)) :
    ∃ b1 e b2 f b3 g h, Exp3.meOfSources st center p S = .ok (b1, e) ∧
      Exp3.meOfSources st center p T = .ok (b2, f) ∧ Exp3.meOfSources st center p (S ++ T) = .ok (b3, g) ∧
      Exp3.addEq e f = .ok h ∧ h.Same g := by
  obtain ⟨b1, e, h1, _, _, _, h2⟩ := Exp3.meOfSources_ok st hst.good.1 center p hp S
  obtain ⟨b2, f, k1, _, _, _, k2⟩ := Exp3.meOfSources_ok st hst.good.1 center p hp T
  obtain ⟨b3, g, m1, _, _, _, m2⟩ := Exp3.meOfSources_ok st hst.good.1 center p hp (S ++ T)
  obtain ⟨h, n1, n2⟩ := Exp3.addEq_ok h2 k2
  exact ⟨b1, e, b2, f, b3, g, h, h1, k1, m1, n1, n2.same (m2.congr fun n _ m _ => meCoeff3_append _ S T n m)⟩

example : ∃ b1 e b2 f b3 g h, Exp3.meOfSources (Stat3.init 0 0 0) 0 3 [⟨![1, 0, 2], 1⟩] = .ok (b1, e) ∧
    Exp3.meOfSources (Stat3.init 0 0 0) 0 3 [⟨![0, 0, 2], -1⟩] = .ok (b2, f) ∧
    Exp3.meOfSources (Stat3.init 0 0 0) 0 3 ([⟨![1, 0, 2], 1⟩] ++ [⟨![0, 0, 2], -1⟩]) = .ok (b3, g) ∧
    Exp3.addEq e f = .ok h ∧ h.Same g :=
  C33_concatenation_3d _ reachable3_init 0 3 (by norm_num) _ _

/-! ## C23 -/

/-- **C23** (3D) The result of every 3D operation is the same whatever expansions were constructed before. -/
theorem C23_independent_3d (st1 st2 : Stat3) (h1 : Reachable3 st1) (h2 : Reachable3 st2) (center : Vec 3) (p : ℕ) (hp : p ≤ 42)
    (hp0 : 0 < p) (S : List (Source 3)) (e : Exp3) (he : e.order = p) (hsz : e.coeffs.size = (p + 1) * (p + 1))
    (hc : e.center ≠ center) (L : List Exp3) (hne : L ≠ [])
    (hL : ∀ f ∈ L, f.order = p ∧ f.coeffs.size = (p + 1) * (p + 1) ∧ f.center ≠ center) :
    (∃ b1 f1 b2 f2, Exp3.meOfSources st1 center p S = .ok (b1, f1) ∧ Exp3.meOfSources st2 center p S = .ok (b2, f2) ∧
      f1.Same f2) ∧
    (∃ b1 f1 b2 f2, Exp3.meOfMes st1 center L = .ok (b1, f1) ∧ Exp3.meOfMes st2 center L = .ok (b2, f2) ∧ f1.Same f2) ∧
    (∃ b1 f1 b2 f2, Exp3.leOfMe st1 center e = .ok (b1, f1) ∧ Exp3.leOfMe st2 center e = .ok (b2, f2) ∧ f1.Same f2) ∧
    (∃ b1 f1 b2 f2, Exp3.leOfMes st1 center L = .ok (b1, f1) ∧ Exp3.leOfMes st2 center L = .ok (b2, f2) ∧ f1.Same f2) ∧
    (∃ b1 f1 b2 f2, Exp3.leOfLe st1 center e = .ok (b1, f1) ∧ Exp3.leOfLe st2 center e = .ok (b2, f2) ∧ f1.Same f2) := by
  have hE : e.Is e.center p (fun n m => e.coeffs.val (cell n m)) := ⟨he, rfl, hsz, fun _ _ _ _ => rfl⟩
  have hX : ∀ f ∈ L, f.Is f.center p (fun n m => f.coeffs.val (cell n m)) := fun f hf =>
    ⟨(hL f hf).1, rfl, (hL f hf).2.1, fun _ _ _ _ => rfl⟩
  have hid : (L.map fun e => (e, e.center, fun (n : ℕ) (m : ℤ) => e.coeffs.val (cell n m))).map (·.1) = L := by
    simp [Function.comp_def]
  refine ⟨?_, ?_, ?_, ?_, ?_⟩
  · obtain ⟨b1, f1, k1, -, -, -, k2⟩ := Exp3.meOfSources_ok st1 h1.good.1 center p hp S
    obtain ⟨b2, f2, l1, -, -, -, l2⟩ := Exp3.meOfSources_ok st2 h2.good.1 center p hp S
    exact ⟨b1, f1, b2, f2, k1, l1, k2.same l2⟩
  · have key := fun (st : Stat3) (h : Reachable3 st) => Exp3.meOfMes_ok st h.good.1 center p hp (Or.inl hp0)
      (L.map fun e => (e, e.center, fun n m => e.coeffs.val (cell n m))) (by simpa using hne) (by
        intro x hx
        obtain ⟨f, hf, rfl⟩ := List.mem_map.mp hx
        exact hX f hf)
    rw [hid] at key
    obtain ⟨b1, f1, k1, -, -, -, k2⟩ := key st1 h1
    obtain ⟨b2, f2, l1, -, -, -, l2⟩ := key st2 h2
    exact ⟨b1, f1, b2, f2, k1, l1, k2.same l2⟩
  · obtain ⟨b1, f1, k1, -, -, -, k2⟩ := Exp3.leOfMe_ok st1 h1.good.1 hE hp (Or.inl hp0) center hc
    obtain ⟨b2, f2, l1, -, -, -, l2⟩ := Exp3.leOfMe_ok st2 h2.good.1 hE hp (Or.inl hp0) center hc
    exact ⟨b1, f1, b2, f2, k1, l1, k2.same l2⟩
  · have key := fun (st : Stat3) (h : Reachable3 st) => Exp3.leOfMes_ok st h.good.1 center p hp (Or.inl hp0)
      (L.map fun e => (e, e.center, fun n m => e.coeffs.val (cell n m))) (by simpa using hne) (by
        intro x hx
        obtain ⟨f, hf, rfl⟩ := List.mem_map.mp hx
        exact ⟨hX f hf, (hL f hf).2.2⟩)
    rw [hid] at key
    obtain ⟨b1, f1, k1, -, -, -, k2⟩ := key st1 h1
    obtain ⟨b2, f2, l1, -, -, -, l2⟩ := key st2 h2
    exact ⟨b1, f1, b2, f2, k1, l1, k2.same l2⟩
  · obtain ⟨b1, f1, k1, -, -, -, k2⟩ := Exp3.leOfLe_ok st1 h1.good.1 hE hp (Or.inl hp0) center
    obtain ⟨b2, f2, l1, -, -, -, l2⟩ := Exp3.leOfLe_ok st2 h2.good.1 hE hp (Or.inl hp0) center
    exact ⟨b1, f1, b2, f2, k1, l1, k2.same l2⟩

/-- After an expansion of order 5 in one process, nothing in the other. -/
example : ∃ st2, Reachable3 st2 ∧ ∃ b1 f1 b2 f2, Exp3.leOfMe (Stat3.init 0 0 0) ![1, 1, 1] ⟨1, 0, ⟨4, fun k => k⟩⟩ = .ok (b1, f1) ∧
    Exp3.leOfMe st2 ![1, 1, 1] ⟨1, 0, ⟨4, fun k => k⟩⟩ = .ok (b2, f2) ∧ f1.Same f2 := by
  obtain ⟨st2, e2, h2, -⟩ := Exp3.new_ok _ (Stat3.good_init 0 0 0) 0 5 (by norm_num)
  have hr : Reachable3 st2 := ⟨0, 0, 0, [5], by unfold Stat3.run; rw [List.foldlM_cons, h2]; rfl⟩
  have hc : (0 : Vec 3) ≠ ![1, 1, 1] := fun h => by have := congrFun h 0; simp at this
  exact ⟨st2, hr, (C23_independent_3d _ st2 reachable3_init hr ![1, 1, 1] 1 (by norm_num) (by norm_num) []
    ⟨1, 0, ⟨4, fun k => k⟩⟩ rfl rfl hc [⟨1, 0, ⟨4, fun k => k⟩⟩] (by simp) (by simpa using hc)).2.2.1⟩

end FMM
