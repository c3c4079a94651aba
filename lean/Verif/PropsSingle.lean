import Verif.PropsForce3
import Verif.PropsExp2
import Verif.FltExp3
import Verif.DoubleExp2
import Verif.DoubleTree3

/-!
# When operations on single expansions fail (C128)

Outside of the trees the expansion classes can be used with any arguments.  The theorems say exactly which arguments make the constructors and the evaluation
fail, and how.  `nonFinite` stands for a division by zero or a logarithm of zero, whose results are then used as coefficients.
-/

namespace FMM

/-! ## No expansions -/

/-- **C128** An empty vector of expansions: `std::out_of_range`, except for the multipole expansion in space, which reads the first element of an empty
vector without a check.  Exact arithmetic, rounded arithmetic and `double`. -/
theorem C128_no_expansions :
    (∀ bt c, Exp2.meOfMes bt c [] = .error .outOfRange ∧ Exp2.leOfMes bt c [] = .error .outOfRange) ∧
    (∀ st c, Exp3.meOfMes st c [] = .error .ub ∧ Exp3.leOfMes st c [] = .error .outOfRange) ∧
    (∀ F bt c, Fl.meOfMes F bt c [] = .error .outOfRange ∧ Fl.leOfMes F bt c [] = .error .outOfRange) ∧
    (∀ F st c, Fl3.meOfMes F st c [] = .error .ub ∧ Fl3.leOfMes F st c [] = .error .outOfRange) ∧
    (∀ bt c, D2.meOfMes bt c [] = .error .outOfRange) ∧ (∀ log bt c, D2.leOfMes log bt c [] = .error .outOfRange) ∧
    (∀ L c, D64.meMes L c [] = .error .ub ∧ D64.leMes L c [] = .error .outOfRange) :=
  ⟨fun _ _ => ⟨rfl, rfl⟩, fun _ _ => ⟨rfl, rfl⟩, fun _ _ _ => ⟨rfl, rfl⟩, fun _ _ _ => ⟨rfl, rfl⟩, fun _ _ => rfl, fun _ _ _ => rfl, fun _ _ => ⟨rfl, rfl⟩⟩

/-! ## Two dimensions -/

section
variable {t : BinomialTable} {p : ℕ}

theorem toC_inj' {x y : Vec 2} (h : toC x = toC y) : x = y := by
  funext i
  have h0 := congrArg Complex.re h
  have h1 := congrArg Complex.im h
  fin_cases i
  · exact h0
  · exact h1

/-- **C128** Evaluation of a multipole expansion of real total charge: defined exactly away from the centre. -/
theorem C128_evaluate_2d (e : Exp2) (c x : Vec 2) (hc : e.center = toC c) (hs : e.coeffs.size = e.order + 1) (hq : (e.coeffs.val 0).im = 0) :
    (x = c → Exp2.mePot e x = .error .nonFinite ∧ Exp2.meForce e x = .error .nonFinite) ∧
    (x ≠ c → (∃ v, Exp2.mePot e x = .ok v) ∧ ∃ F, Exp2.meForce e x = .ok F) := by
  have hI : e.Is (toC c) e.order e.coeffs.val := ⟨rfl, hc, hs, fun _ _ => rfl⟩
  constructor
  · rintro rfl
    have h0 : e.coeffs.rd 0 = .ok (e.coeffs.val 0) := if_pos (by omega)
    unfold Exp2.mePot Exp2.meForce
    simp only [h0, ok_bind, hc, sub_self, if_true]
    exact ⟨trivial, trivial⟩
  · intro hx
    have hne : toC x ≠ toC c := fun h => hx (toC_inj' h)
    exact ⟨⟨_, Exp2.mePot_ok hI hq x hne⟩, ⟨_, Exp2.meForce_ok hI hq x hne⟩⟩

theorem leFold_fails (c : ℂ) : ∀ (S : List (Source 2)) (arr : Arr ℂ), arr.size = p + 1 → (∃ s ∈ S, toC s.pos = c) →
    S.foldlM (Exp2.leAddSource p c) arr = .error .nonFinite := by
  intro S
  induction S with
  | nil => rintro _ _ ⟨s, hs, -⟩; simp at hs
  | cons s S ih =>
    rintro arr ha ⟨u, hu, he⟩
    rw [List.foldlM_cons]
    by_cases h : toC s.pos = c
    · have : Exp2.leAddSource p c arr s = .error .nonFinite := if_pos (sub_eq_zero.mpr h)
      rw [this, err_bind]
    · rw [Exp2.leAddSource_ok p c arr ha s (sub_ne_zero.mpr h), ok_bind]
      rcases List.mem_cons.mp hu with rfl | hu
      · exact absurd he h
      · exact ih _ rfl ⟨u, hu, he⟩

/-- **C128** A local expansion from sources: fails exactly if a source is at the centre. -/
theorem C128_sources_2d (ht : Reachable t) (hp : p ≤ 1029) (c : Vec 2) (S : List (Source 2)) :
    ((∃ s ∈ S, s.pos = c) → Exp2.leOfSources t c p S = .error .nonFinite) ∧
    ((∀ s ∈ S, s.pos ≠ c) → ∃ r, Exp2.leOfSources t c p S = .ok r) := by
  constructor
  · rintro ⟨s, hs, rfl⟩
    obtain ⟨t', e, h1, -, -, -, rfl⟩ := Exp2.new_ok t ht.good s.pos p hp
    unfold Exp2.leOfSources
    rw [h1, ok_bind]
    simp only
    rw [leFold_fails _ S _ rfl ⟨s, hs, rfl⟩, err_bind]
  · intro h
    obtain ⟨t', e, h1, -⟩ := Exp2.leOfSources_ok t ht.good c p hp S fun s hs he => h s hs (toC_inj' he)
    exact ⟨_, h1⟩

/-- **C128** Conversion of a multipole expansion to a local expansion: an assertion for order zero (also with distinct centres), otherwise fails exactly
for equal centres. -/
theorem C128_convert_2d (ht : Reachable t) (hp : p ≤ 1029) (e : Exp2) (c c' : Vec 2) (ho : e.order = p) (hc : e.center = toC c)
    (hs : e.coeffs.size = p + 1) :
    (p = 0 → Exp2.leOfMe t c' e = .error .assertFail) ∧ (p ≠ 0 → c = c' → Exp2.leOfMe t c' e = .error .nonFinite) ∧
    (p ≠ 0 → c ≠ c' → ∃ r, Exp2.leOfMe t c' e = .ok r) := by
  have hI : e.Is (toC c) p e.coeffs.val := ⟨ho, hc, hs, fun _ _ => rfl⟩
  obtain ⟨t', f, h1, -, -, -, rfl⟩ := Exp2.new_ok t ht.good c' p hp
  refine ⟨fun h0 => ?_, fun h0 h => ?_, fun h0 h => ?_⟩
  · unfold Exp2.leOfMe
    rw [ho, h1, ok_bind]
    simp only
    rw [if_neg (by omega)]
  · unfold Exp2.leOfMe
    rw [ho, h1, ok_bind]
    simp only
    rw [if_pos (by omega)]
    have : Exp2.m2l t' p (toC c') e = .error .nonFinite := if_pos (by rw [hc, h, sub_self])
    rw [this, err_bind]
  · obtain ⟨t', f, h1, -⟩ := Exp2.leOfMe_ok t ht.good hI hp (by omega) c' fun he => h (toC_inj' he)
    exact ⟨_, h1⟩

theorem leOfMe_same (ht : t.Good) (hp : p ≤ 1029) (h0 : p ≠ 0) (e : Exp2) (c' : Vec 2) (ho : e.order = p) (hc : e.center = toC c') :
    Exp2.leOfMe t c' e = .error .nonFinite := by
  obtain ⟨t', f, h1, -, -, -, rfl⟩ := Exp2.new_ok t ht c' p hp
  unfold Exp2.leOfMe
  rw [ho, h1, ok_bind]
  simp only
  rw [if_pos (by omega)]
  have : Exp2.m2l t' p (toC c') e = .error .nonFinite := if_pos (by rw [hc, sub_self])
  rw [this, err_bind]

/-- **C128** Conversion of several multipole expansions of the same positive order: fails exactly if one of them has the centre of the local expansion. -/
theorem C128_convert_all_2d (ht : Reachable t) (hp : p ≤ 1029) (h0 : p ≠ 0) (L : List Exp2) (hne : L ≠ []) (c' : Vec 2)
    (hL : ∀ e ∈ L, e.order = p ∧ e.coeffs.size = p + 1) :
    ((∃ e ∈ L, e.center = toC c') → Exp2.leOfMes t c' L = .error .nonFinite) ∧
    ((∀ e ∈ L, e.center ≠ toC c') → ∃ r, Exp2.leOfMes t c' L = .ok r) := by
  have hI : ∀ e ∈ L, e.Is e.center p e.coeffs.val := fun e he => ⟨(hL e he).1, rfl, (hL e he).2, fun _ _ => rfl⟩
  constructor
  · intro hx
    obtain ⟨t', f, h1, h2, h3, -, rfl⟩ := Exp2.new_ok t ht.good c' p hp
    have key : ∀ (M : List Exp2), (∀ e ∈ M, e.Is e.center p e.coeffs.val) → (∃ e ∈ M, e.center = toC c') → ∀ (f : Exp2) (a : ℕ → ℂ), f.Is (toC c') p a →
        M.foldlM (fun (s : BinomialTable × Exp2) me => do
          let (bt, le) ← Exp2.leOfMe s.1 c' me
          let e ← Exp2.addEq s.2 le
          .ok (bt, e)) (t', f) = .error .nonFinite := by
      intro M
      induction M with
      | nil => rintro _ ⟨e, he, -⟩; simp at he
      | cons e M ih =>
        rintro hM ⟨u, hu, he⟩ f a hf
        rw [List.foldlM_cons]
        by_cases h : e.center = toC c'
        · rw [leOfMe_same h2 hp h0 e c' (hM e (by simp)).order h, err_bind, err_bind]
        · obtain ⟨t2, le, hl1, hl2, hl3, hl4, hl5⟩ := Exp2.leOfMe_ok t' h2 (hM e (by simp)) hp (by omega) c' h
          obtain rfl := hl4 (by omega)
          obtain ⟨g, hg1, hg2⟩ := Exp2.addEq_ok hf hl5
          rw [hl1, ok_bind]
          simp only
          rw [hg1, ok_bind, ok_bind]
          rcases List.mem_cons.mp hu with rfl | hu
          · exact absurd he h
          · exact ih (fun y hy => hM y (by simp [hy])) ⟨u, hu, he⟩ g _ hg2
    obtain ⟨e0, L', rfl⟩ := List.exists_cons_of_ne_nil hne
    unfold Exp2.leOfMes
    simp only
    rw [(hL e0 (by simp)).1, h1, ok_bind]
    exact key _ hI hx _ (fun _ => 0) ⟨rfl, rfl, rfl, fun k _ => rfl⟩
  · intro hx
    obtain ⟨t', e', h1, -⟩ := Exp2.leOfMes_ok t ht.good c' p hp (by omega) (L.map fun e => (e, e.center, e.coeffs.val)) (by simpa using hne)
      (fun x hx' => by
        obtain ⟨e, he, rfl⟩ := List.mem_map.mp hx'
        exact ⟨hI e he, hx e he⟩)
    rw [List.map_map] at h1
    have h2 : L.map ((fun x : Exp2 × ℂ × (ℕ → ℂ) => x.1) ∘ fun e => (e, e.center, e.coeffs.val)) = L := List.map_id'' (fun _ => rfl) L
    rw [h2] at h1
    exact ⟨_, h1⟩

/-- **C128** Translation of a local expansion: an assertion for order zero, otherwise always defined. -/
theorem C128_translate_2d (ht : Reachable t) (hp : p ≤ 1029) (e : Exp2) (c c' : Vec 2) (ho : e.order = p) (hc : e.center = toC c)
    (hs : e.coeffs.size = p + 1) :
    (p = 0 → Exp2.leOfLe t c' e = .error .assertFail) ∧ (p ≠ 0 → ∃ r, Exp2.leOfLe t c' e = .ok r) := by
  have hI : e.Is (toC c) p e.coeffs.val := ⟨ho, hc, hs, fun _ _ => rfl⟩
  obtain ⟨t', f, h1, -, -, -, rfl⟩ := Exp2.new_ok t ht.good c' p hp
  refine ⟨fun h0 => ?_, fun h0 => ?_⟩
  · unfold Exp2.leOfLe
    rw [ho, h1, ok_bind]
    simp only
    rw [if_neg (by omega)]
  · obtain ⟨t', f, b, h1, -⟩ := Exp2.leOfLe_ok t ht.good hI hp (by omega) c'
    exact ⟨_, h1⟩

end

/-! ## Rounded arithmetic and `double` in the plane -/

/-- **C128** Order zero: the assertions in rounded arithmetic and in `double`. -/
theorem C128_order_zero (t : BinomialTable) (c' : Vec 2) :
    (∀ (F : Flt) (e : Exp2), e.order = 0 → Fl.leOfMe F t c' e = .error .assertFail ∧ Fl.leOfLe F t c' e = .error .assertFail) ∧
    (∀ (log : D64.DC → D64.DC) (e : D2.ExpD), e.order = 0 → D2.leOfMe log t c' e = .error .assertFail) ∧
    (∀ e : D2.ExpD, e.order = 0 → D2.leOfLe t c' e = .error .assertFail) := by
  refine ⟨fun F e h => ?_, fun log e h => ?_, fun e h => ?_⟩
  · unfold Fl.leOfMe Fl.leOfLe Exp2.new
    simp only [h, gt_iff_lt, Nat.not_lt_zero, if_false, ok_bind, lt_irrefl, and_self]
  · unfold D2.leOfMe D2.new
    simp only [h, gt_iff_lt, Nat.not_lt_zero, if_false, ok_bind, lt_irrefl]
  · unfold D2.leOfLe D2.new
    simp only [h, gt_iff_lt, Nat.not_lt_zero, if_false, ok_bind, lt_irrefl]

/-- **C128** Rounded arithmetic: the failing arguments of the exact operations fail as well, for any rounding with `rnd 0 = 0`. -/
theorem C128_rounded_2d (F : Flt) (h0 : F.rnd 0 = 0) {t : BinomialTable} (ht : Reachable t) {p : ℕ} (hp : p ≤ 1029) (e : Exp2) (c : Vec 2)
    (hc : e.center = toC c) (hs : e.coeffs.size = e.order + 1) :
    Fl.mePot F e c = .error .nonFinite ∧ Fl.meForce F e c = .error .nonFinite ∧
    (∀ q S, Fl.leOfSources F t c p (⟨c, q⟩ :: S) = .error .nonFinite) ∧
    (e.order = p → p ≠ 0 → Fl.leOfMe F t c e = .error .nonFinite) := by
  have hz : ∀ z : ℂ, F.csub z z = 0 := fun z => by
    unfold Flt.csub
    rw [sub_self, sub_self, h0]
    rfl
  have hr : e.coeffs.rd 0 = .ok (e.coeffs.val 0) := if_pos (by omega)
  obtain ⟨t', f, h1, -, -, -, rfl⟩ := Exp2.new_ok t ht.good c p hp
  refine ⟨?_, ?_, fun q S => ?_, fun ho hp0 => ?_⟩
  · unfold Fl.mePot
    simp only [hr, ok_bind, hc, hz, if_true]
  · unfold Fl.meForce
    simp only [hr, ok_bind, hc, hz, if_true]
  · unfold Fl.leOfSources
    rw [h1, ok_bind]
    simp only
    have : Fl.leAddSource F p (toC c) (Arr.new (p + 1)) ⟨c, q⟩ = .error .nonFinite := if_pos (hz _)
    rw [List.foldlM_cons, this, err_bind, err_bind]
  · unfold Fl.leOfMe
    rw [ho, h1, ok_bind]
    simp only
    rw [if_pos (by omega)]
    have : Fl.m2l F t' p (toC c) e = .error .nonFinite := if_pos (by rw [hc, hz])
    rw [this, err_bind]

theorem fold_only_fails {α β : Type} (g : α → Outcome β) (add : β → β → β) (e : Err) (hg : ∀ a, (∃ v, g a = .ok v) ∨ g a = .error e) :
    ∀ (S : List α) (b : β), (∃ a ∈ S, g a = .error e) → S.foldlM (fun s a => do let v ← g a; .ok (add s v)) b = .error e := by
  intro S
  induction S with
  | nil => rintro _ ⟨a, ha, -⟩; simp at ha
  | cons a S ih =>
    rintro b ⟨u, hu, he⟩
    rw [List.foldlM_cons]
    rcases hg a with ⟨v, hv⟩ | hv
    · rw [hv, ok_bind, ok_bind]
      rcases List.mem_cons.mp hu with rfl | hu
      · rw [hv] at he; cases he
      · exact ih _ ⟨u, hu, he⟩
    · rw [hv, err_bind, err_bind]

/-- **C128** Direct sums in rounded arithmetic in the plane, at the position of a source and with smoothing parameter 0: without the check of the distance
the sums fail, with it this source does not contribute. -/
theorem C128_direct_2d (F : Flt) (h0 : F.rnd 0 = 0) (hn : F.nrm 0 = 0) (grav : Bool) (x : Vec 2) (S : List (Source 2)) :
    ((∃ s ∈ S, s.pos = x) → Fl.potentialSum F grav false S x = .error .nonFinite ∧ Fl.forcefieldSum F grav false S x 0 = .error .nonFinite) ∧
    ∀ s : Source 2, s.pos = x → Fl.potential F grav true s x = .ok 0 ∧ Fl.forcefield F grav true s x 0 = .ok (Vec.fill 0) := by
  have hv : F.vsub x x = (0 : Vec 2) := by
    funext i
    show F.rnd (x i - x i) = 0
    rw [sub_self, h0]
  have hq : F.normSq (0 : Vec 2) = 0 := by simp [Flt.normSq, h0]
  refine ⟨fun ⟨s, hs, h⟩ => ⟨?_, ?_⟩, fun s h => ⟨?_, ?_⟩⟩
  · refine fold_only_fails (fun s => Fl.potential F grav false s x) (fun a b => F.rnd (a + b)) .nonFinite (fun a => ?_) S 0 ⟨s, hs, ?_⟩
    · unfold Fl.potential
      by_cases h : F.nrm (F.vsub a.pos x) = 0
      · right; simp [h]
      · left; simp [h]
    · unfold Fl.potential
      simp [h, hv, hn]
  · refine fold_only_fails (fun s => Fl.forcefield F grav false s x 0) F.vadd .nonFinite (fun a => ?_) S _ ⟨s, hs, ?_⟩
    · unfold Fl.forcefield
      by_cases h : F.rnd (F.normSq (F.vsub a.pos x) + 0) = 0
      · right; simp only [h, Bool.false_eq_true, false_and, if_false, if_true]
      · left; simp only [h, Bool.false_eq_true, false_and, if_false]; exact ⟨_, rfl⟩
    · unfold Fl.forcefield
      simp [h, hv, hq, h0]
  · unfold Fl.potential
    simp [h, hv, hn]
  · unfold Fl.forcefield
    simp [h, hv, hq]

/-- **C128** The same in space. -/
theorem C128_direct_3d (F : Flt3) (h0 : F.rnd 0 = 0) (hn : F.nrm3 0 = 0) (grav : Bool) (x : Vec 3) (S : List (Source 3)) :
    ((∃ s ∈ S, s.pos = x) → Fl3.potentialSum F grav false S x = .error .nonFinite ∧ Fl3.forcefieldSum F grav false S x 0 = .error .nonFinite) ∧
    ∀ s : Source 3, s.pos = x → Fl3.potential F grav true s x = .ok 0 ∧ Fl3.forcefield F grav true s x 0 = .ok (Vec.fill 0) := by
  have hv : F.vsub x x = (0 : Vec 3) := by
    funext i
    show F.rnd (x i - x i) = 0
    rw [sub_self, h0]
  refine ⟨fun ⟨s, hs, h⟩ => ⟨?_, ?_⟩, fun s h => ⟨?_, ?_⟩⟩
  · refine fold_only_fails (fun s => Fl3.potential F grav false s x) (fun a b => F.rnd (a + b)) .nonFinite (fun a => ?_) S 0 ⟨s, hs, ?_⟩
    · unfold Fl3.potential
      by_cases h : F.nrm3 (F.vsub a.pos x) = 0
      · right; simp [h]
      · left; simp [h]
    · unfold Fl3.potential
      simp [h, hv, hn]
  · refine fold_only_fails (fun s => Fl3.forcefield F grav false s x 0) F.vadd .nonFinite (fun a => ?_) S _ ⟨s, hs, ?_⟩
    · unfold Fl3.forcefield
      by_cases h : F.rnd (F.rnd (F.rnd (F.nrm3 (F.vsub a.pos x) * F.nrm3 (F.vsub a.pos x)) * F.nrm3 (F.vsub a.pos x)) + 0) = 0
      · right; simp only [h, Bool.false_eq_true, false_and, if_false, if_true]
      · left; simp only [h, Bool.false_eq_true, false_and, if_false]; exact ⟨_, rfl⟩
    · unfold Fl3.forcefield
      simp [h, hv, hn, h0]
  · unfold Fl3.potential
    simp [h, hv, hn]
  · unfold Fl3.forcefield
    simp [h, hv, hn]

/-! ## Three dimensions -/

section
variable {t : Stat3} {p : ℕ}

theorem len3_zero' : len3 (0 : Vec 3) = 0 := by rw [len3_eq_norm]; exact (Vec.norm_eq_zero_iff 0).mpr rfl

/-- **C128** The potential of a multipole expansion: defined exactly away from the centre.  (Forces: C54.) -/
theorem C128_evaluate_3d (e : Exp3) (x : Vec 3) (hs : e.coeffs.size = (e.order + 1) * (e.order + 1)) :
    (x = e.center → Exp3.mePot e x = .error .nonFinite) ∧ (x ≠ e.center → ∃ v, Exp3.mePot e x = .ok v) := by
  constructor
  · rintro rfl
    unfold Exp3.mePot
    simp only [Vec.sub_eq, sub_self]
    obtain ⟨Y, hY, -⟩ := YlmTable.make_ok e.order ((0 : Vec 3).toSpherical3 2) (sph_sin_nonneg 0)
    rw [hY, ok_bind, sph_r, len3_zero']
    have : divR 1 0 = .error .nonFinite := if_pos rfl
    rw [this, err_bind]
  · exact fun hx => ⟨_, Exp3.mePot_ok (Exp3.is_self hs) x hx⟩

theorem leFold3_fails (c : Vec 3) : ∀ (S : List (Source 3)) (arr : Arr ℂ), arr.size = (p + 1) * (p + 1) → (∃ s ∈ S, s.pos = c) →
    S.foldlM (Exp3.leAddSource p c) arr = .error .nonFinite := by
  intro S
  induction S with
  | nil => rintro _ _ ⟨s, hs, -⟩; simp at hs
  | cons s S ih =>
    rintro arr ha ⟨u, hu, he⟩
    rw [List.foldlM_cons]
    by_cases h : s.pos = c
    · have : Exp3.leAddSource p c arr s = .error .nonFinite := by
        unfold Exp3.leAddSource
        simp only [Vec.sub_eq, h, sub_self]
        obtain ⟨Y, hY, -⟩ := YlmTable.make_ok p ((0 : Vec 3).toSpherical3 2) (sph_sin_nonneg 0)
        rw [hY, ok_bind, sph_r, len3_zero']
        have : divR 1 0 = .error .nonFinite := if_pos rfl
        rw [this, err_bind]
      rw [this, err_bind]
    · obtain ⟨a', h1, h2, -⟩ := Exp3.leAddSource_ok p c s h arr ha
      rw [h1, ok_bind]
      rcases List.mem_cons.mp hu with rfl | hu
      · exact absurd he h
      · exact ih _ h2 ⟨u, hu, he⟩

/-- **C128** A local expansion from sources: fails exactly if a source is at the centre. -/
theorem C128_sources_3d (ht : Reachable3 t) (hp : p ≤ 42) (c : Vec 3) (S : List (Source 3)) :
    ((∃ s ∈ S, s.pos = c) → Exp3.leOfSources t c p S = .error .nonFinite) ∧
    ((∀ s ∈ S, s.pos ≠ c) → ∃ r, Exp3.leOfSources t c p S = .ok r) := by
  constructor
  · rintro ⟨s, hs, rfl⟩
    obtain ⟨t', e, h1, -, -, -, h5⟩ := Exp3.new_ok t ht.good.1 s.pos p hp
    unfold Exp3.leOfSources
    rw [h1, ok_bind]
    simp only
    rw [leFold3_fails _ S _ h5.size ⟨s, hs, h5.center.symm⟩, err_bind]
  · intro h
    obtain ⟨t', e, h1, -⟩ := Exp3.leOfSources_ok t ht.good.1 c p hp S h
    exact ⟨_, h1⟩

/-- **C128** Conversion of a multipole expansion of positive order to a local expansion: fails exactly for equal centres. -/
theorem C128_convert_3d (ht : Reachable3 t) (hp0 : 1 ≤ p) (hp : p ≤ 42) (e : Exp3) (c' : Vec 3) (ho : e.order = p)
    (hs : e.coeffs.size = (e.order + 1) * (e.order + 1)) :
    (e.center = c' → Exp3.leOfMe t c' e = .error .nonFinite) ∧ (e.center ≠ c' → ∃ r, Exp3.leOfMe t c' e = .ok r) := by
  constructor
  · rintro rfl
    obtain ⟨t', f, h1, -, -, -, h5⟩ := Exp3.new_ok t ht.good.1 e.center p hp
    unfold Exp3.leOfMe
    rw [ho, h1, ok_bind]
    simp only [Vec.sub_eq, h5.center, sub_self]
    obtain ⟨Y, hY, -⟩ := YlmTable.make_ok (2 * f.order) ((0 : Vec 3).toSpherical3 2) (sph_sin_nonneg 0)
    rw [hY, ok_bind, sph_r, len3_zero']
    have : divR 1 0 = .error .nonFinite := if_pos rfl
    rw [this, err_bind]
  · intro hc
    obtain ⟨t', f, h1, -⟩ := Exp3.leOfMe_ok t ht.good.1 (Exp3.is_self hs) (by omega) (Or.inl (by omega)) c' hc
    exact ⟨_, h1⟩

theorem leOfMe3_same (ht : t.Good) (hp : p ≤ 42) (e : Exp3) (ho : e.order = p) : Exp3.leOfMe t e.center e = .error .nonFinite := by
  obtain ⟨t', f, h1, -, -, -, h5⟩ := Exp3.new_ok t ht e.center p hp
  unfold Exp3.leOfMe
  rw [ho, h1, ok_bind]
  simp only [Vec.sub_eq, h5.center, sub_self]
  obtain ⟨Y, hY, -⟩ := YlmTable.make_ok (2 * f.order) ((0 : Vec 3).toSpherical3 2) (sph_sin_nonneg 0)
  rw [hY, ok_bind, sph_r, len3_zero']
  have : divR 1 0 = .error .nonFinite := if_pos rfl
  rw [this, err_bind]

/-- **C128** Conversion of several multipole expansions of the same positive order. -/
theorem C128_convert_all_3d (ht : Reachable3 t) (hp0 : 1 ≤ p) (hp : p ≤ 42) (L : List Exp3) (hne : L ≠ []) (c' : Vec 3)
    (hL : ∀ e ∈ L, e.order = p ∧ e.coeffs.size = (p + 1) * (p + 1)) :
    ((∃ e ∈ L, e.center = c') → Exp3.leOfMes t c' L = .error .nonFinite) ∧
    ((∀ e ∈ L, e.center ≠ c') → ∃ r, Exp3.leOfMes t c' L = .ok r) := by
  have hI : ∀ e ∈ L, ∃ a, e.Is e.center p a := fun e he => by
    have := Exp3.is_self (e := e) (by rw [(hL e he).1]; exact (hL e he).2)
    rw [(hL e he).1] at this
    exact ⟨_, this⟩
  constructor
  · intro hx
    obtain ⟨t', f, h1, h2, h3, h4, h5⟩ := Exp3.new_ok t ht.good.1 c' p hp
    have key : ∀ (M : List Exp3), (∀ e ∈ M, ∃ a, e.Is e.center p a) → (∃ e ∈ M, e.center = c') → ∀ (f : Exp3) (a : ℕ → ℤ → ℂ), f.Is c' p a →
        M.foldlM (fun (s : Stat3 × Exp3) me => do
          let (st, le) ← Exp3.leOfMe s.1 c' me
          let e ← Exp3.addEq s.2 le
          .ok (st, e)) (t', f) = .error .nonFinite := by
      intro M
      induction M with
      | nil => rintro _ ⟨e, he, -⟩; simp at he
      | cons e M ih =>
        rintro hM ⟨u, hu, he⟩ f a hf
        rw [List.foldlM_cons]
        obtain ⟨b, hb⟩ := hM e (by simp)
        by_cases h : e.center = c'
        · have h6 := leOfMe3_same h2 hp e hb.order
          rw [h] at h6
          rw [h6, err_bind, err_bind]
        · obtain ⟨t2, le, k1, -, -, k4, k5⟩ := Exp3.leOfMe_ok t' h2 hb hp (Or.inl (by omega)) c' h
          obtain rfl := k4 h3
          obtain ⟨g, hg1, hg2⟩ := Exp3.addEq_ok hf k5
          rw [k1, ok_bind]
          simp only
          rw [hg1, ok_bind, ok_bind]
          rcases List.mem_cons.mp hu with rfl | hu
          · exact absurd he h
          · exact ih (fun y hy => hM y (by simp [hy])) ⟨u, hu, he⟩ g _ hg2
    obtain ⟨e0, L', rfl⟩ := List.exists_cons_of_ne_nil hne
    unfold Exp3.leOfMes
    simp only
    rw [(hL e0 (by simp)).1, h1, ok_bind]
    exact key _ hI hx _ _ h5
  · intro hx
    choose! a ha using hI
    obtain ⟨t', e', h1, -⟩ := Exp3.leOfMes_ok t ht.good.1 c' p hp (Or.inl (by omega)) (L.map fun e => (e, e.center, a e)) (by simpa using hne)
      (fun x hx' => by
        obtain ⟨e, he, rfl⟩ := List.mem_map.mp hx'
        exact ⟨ha e he, hx e he⟩)
    rw [List.map_map] at h1
    have h2 : L.map ((fun x : Exp3 × Vec 3 × (ℕ → ℤ → ℂ) => x.1) ∘ fun e => (e, e.center, a e)) = L := List.map_id'' (fun _ => rfl) L
    rw [h2] at h1
    exact ⟨_, h1⟩

/-- **C128** Translation of a local expansion of positive order: always defined. -/
theorem C128_translate_3d (ht : Reachable3 t) (hp0 : 1 ≤ p) (hp : p ≤ 42) (e : Exp3) (c' : Vec 3) (ho : e.order = p)
    (hs : e.coeffs.size = (e.order + 1) * (e.order + 1)) : ∃ r, Exp3.leOfLe t c' e = .ok r := by
  obtain ⟨t', f, h1, -⟩ := Exp3.leOfLe_ok t ht.good.1 (Exp3.is_self hs) (by omega) (Or.inl (by omega)) c'
  exact ⟨_, h1⟩

end

/-! ## Default-constructed expansions -/

/-- **C128** Default-constructed expansions in the plane: as multipole expansions their missing total charge is read, as local expansions they vanish. -/
theorem C128_default_2d (x c : Vec 2) (t : BinomialTable) :
    Exp2.mePot Exp2.empty x = .error .ub ∧ Exp2.meForce Exp2.empty x = .error .ub ∧
    Exp2.lePot Exp2.empty x = .ok 0 ∧ Exp2.leForce Exp2.empty x = .ok 0 ∧
    Exp2.meOfMes t c [Exp2.empty] = .error .ub ∧
    Exp2.leOfMe t c Exp2.empty = .error .assertFail ∧ Exp2.leOfLe t c Exp2.empty = .error .assertFail := by
  have h0 : Exp2.empty.coeffs.rd 0 = .error .ub := rfl
  refine ⟨?_, ?_, ?_, ?_, ?_, ?_, ?_⟩
  · unfold Exp2.mePot; simp only [h0, err_bind]
  · unfold Exp2.meForce; simp only [h0, err_bind]
  · unfold Exp2.lePot
    show (do let (result, _) ← loopM 0 _ ((0 : ℂ), (1 : ℂ)); (.ok result.re : Outcome ℝ)) = _
    rw [loopM_zero, ok_bind]
    rfl
  · unfold Exp2.leForce
    show (do let (result, _) ← loopM 0 _ ((0 : ℂ), (1 : ℂ)); (.ok ![-result.re, result.im] : Outcome (Vec 2))) = _
    rw [loopM_zero, ok_bind]
    have hz : (![-(0 : ℂ).re, (0 : ℂ).im] : Vec 2) = 0 := by
      funext i
      fin_cases i <;> simp
    exact congrArg Except.ok hz
  · unfold Exp2.meOfMes
    simp only
    have h1 : Exp2.new t c Exp2.empty.order = .ok (t, ⟨0, toC c, Arr.new 1⟩) := by
      unfold Exp2.new
      rw [if_neg (by simp [Exp2.empty]), ok_bind]
      rfl
    rw [h1, ok_bind]
    simp only
    rw [List.foldlM_cons]
    obtain ⟨pow, hpow, -⟩ := powTable_spec (Exp2.empty.center - toC c) 0
    have h2 : Exp2.meShift t Exp2.empty (Exp2.empty.center - toC c) = .error .ub := by
      unfold Exp2.meShift
      show (do let pow ← powTable (Exp2.empty.center - toC c) 0; _) = _
      rw [hpow, ok_bind, h0, err_bind]
    rw [h2, err_bind, err_bind, err_bind]
  · unfold Exp2.leOfMe Exp2.new
    simp [Exp2.empty, ok_bind]
  · unfold Exp2.leOfLe Exp2.new
    simp [Exp2.empty, ok_bind]

/-- **C128** In space the potentials of both kinds read the missing coefficient. -/
theorem C128_default_3d (x : Vec 3) : Exp3.lePot Exp3.empty x = .error .ub ∧ (x ≠ 0 → Exp3.mePot Exp3.empty x = .error .ub) := by
  have h0 : ∀ m : ℤ, Exp3.empty.get 0 m = .error .ub := fun m => by
    unfold Exp3.get Arr.rdZ
    by_cases h : 0 ≤ lmIndex 0 m
    · rw [if_pos h]; rfl
    · rw [if_neg h]
  obtain ⟨Y, hY, -⟩ := YlmTable.make_ok 0 ((x - 0 : Vec 3).toSpherical3 2) (sph_sin_nonneg (x - 0))
  have hl : ∀ (u : ℂ) (z : ℝ), (loopZ (-((0 : ℕ) : ℤ)) ((0 : ℕ) : ℤ) (fun m pot => do
      let a ← Exp3.empty.get 0 m
      let y ← Y.get 0 m
      (.ok (pot + a * (z : ℂ) * y) : Outcome ℂ)) u) = .error .ub := fun u z => by
    simp only [h0, err_bind]
    rfl
  constructor
  · unfold Exp3.lePot
    simp only [Vec.sub_eq]
    show (do let Y ← YlmTable.make 0 ((x - 0 : Vec 3).toSpherical3 1) ((x - 0 : Vec 3).toSpherical3 2); _) = _
    rw [hY, ok_bind]
    show (do let (pot, _) ← loopM 1 _ ((0 : ℂ), (1 : ℝ)); (.ok (-pot.re) : Outcome ℝ)) = _
    rw [loopM_succ, loopM_zero]
    simp only [Except.bind]
    rw [hl, err_bind, err_bind]
  · intro hx
    unfold Exp3.mePot
    simp only [Vec.sub_eq]
    show (do let Y ← YlmTable.make 0 ((x - 0 : Vec 3).toSpherical3 1) ((x - 0 : Vec 3).toSpherical3 2); _) = _
    rw [hY, ok_bind]
    have hr : (x - Exp3.empty.center).toSpherical3 0 ≠ 0 := by
      rw [sph_r, len3_eq_norm]
      exact fun h => hx (by simpa [Exp3.empty] using (Vec.norm_eq_zero_iff _).mp h)
    have h1 : divR 1 ((x - Exp3.empty.center).toSpherical3 0) = .ok (1 / (x - Exp3.empty.center).toSpherical3 0) := if_neg hr
    rw [h1, ok_bind]
    show (do let (pot, _) ← loopM 1 _ ((0 : ℂ), (_ : ℝ)); (.ok (-pot.re) : Outcome ℝ)) = _
    rw [loopM_succ, loopM_zero]
    simp only [Except.bind]
    rw [hl, err_bind, err_bind]

/-! ## Non-vacuity -/

/-- Two sources, the second at the centre. -/
example : Exp2.leOfSources BinomialTable.init ![1, 2] 3 [⟨![0, 0], 1⟩, ⟨![1, 2], 1⟩] = .error .nonFinite ∧
    ∃ r, Exp2.leOfSources BinomialTable.init ![1, 2] 3 [⟨![0, 0], 1⟩] = .ok r :=
  ⟨(C128_sources_2d reachable_init (by norm_num) _ _).1 ⟨⟨![1, 2], 1⟩, by simp, rfl⟩,
   (C128_sources_2d reachable_init (by norm_num) _ _).2 fun s hs => by
    simp only [List.mem_singleton] at hs
    rw [hs]
    intro h
    have := congrFun h 0
    norm_num at this⟩

/-- The same in space. -/
example : Exp3.leOfSources (Stat3.init 0 0 0) ![1, 2, 3] 3 [⟨![0, 0, 0], 1⟩, ⟨![1, 2, 3], 1⟩] = .error .nonFinite :=
  (C128_sources_3d reachable3_init (by norm_num) _ _).1 ⟨⟨![1, 2, 3], 1⟩, by simp, rfl⟩

/-- Exact arithmetic is one of the roundings. -/
example : Fl.potentialSum Flt.exact true false [⟨![0, 0], 1⟩, ⟨![1, 2], 1⟩] ![1, 2] = .error .nonFinite :=
  ((C128_direct_2d Flt.exact rfl (show Vec.norm (0 : Vec 2) = 0 from (Vec.norm_eq_zero_iff 0).mpr rfl) true _ _).1 ⟨⟨![1, 2], 1⟩, by simp, rfl⟩).1

end FMM
