import Verif.FltTree3
import Verif.PropsFltTree
import Verif.PropsFltOps3

/-!
# C85: the adaptive tree in space, in floating-point arithmetic: potentials

Root box, tree, lists, expansions, passes, look-up and evaluation are all computed with rounding; `u` is the accuracy of a
single operation.
-/

namespace FMM
variable {F : Flt3} {u g C : ℝ} {r : Rounded.RBox ℝ 3} {S : List (Source 3)} {max fuel h p m κ : ℕ}

/-- Number of roundings that can accumulate along the longest chain of operations: `N` sources, height `h`, lists of at most
`m` members, `κ` for each operation on expansions. -/
def roundings3 (κ N h m : ℕ) : ℕ := N + 191 + 3 * κ + 3 * m + h * (2 * κ + 10 + m)

/-- Bound of the error of the computed potential: truncation, and rounding; `a` is the side length of the smallest box. -/
noncomputable def potError3 (u : ℝ) (κ : ℕ) (a : ℝ) (S : List (Source 3)) (p h m : ℕ) (x : Vec 3) : ℝ :=
  (S.map fun s => |s.q|).sum * (5 / a) * (8 / 9) ^ (p + 1)
    + ((1 + u) ^ roundings3 κ S.length h m - 1)
      * ((S.map fun s => |s.q|).sum * (5 / a) * Real.sqrt (2 * p + 1) + absPotential3 S x)

theorem potBound3_eq (x : Vec 3) : Fl3.potBound u κ r.exact S p h m x = potError3 u κ (r.len / 2 ^ h) S p h m x := by
  unfold Fl3.potBound potError3 Fl3.tail3 Fl3.major3 Fl3.evalCount roundings3 Fl3.side
  rw [totalStrength_sum]
  simp only [Rounded.RBox.exact]
  ring

theorem direct_le_potError3 (hu : 0 ≤ u) {a : ℝ} (ha : 0 < a) (x : Vec 3) :
    ((1 + u) ^ (S.length + 5) - 1) * absPotential3 S x ≤ potError3 u κ a S p h m x := by
  have h1 : (1 + u) ^ (S.length + 5) ≤ (1 + u) ^ roundings3 κ S.length h m :=
    pow_le_pow_right₀ (by linarith) (by unfold roundings3; nlinarith [Nat.zero_le (h * (2 * κ + 10 + m))])
  have h2 : (1 : ℝ) ≤ (1 + u) ^ roundings3 κ S.length h m := one_le_pow₀ (by linarith)
  have hA : 0 ≤ (S.map fun s => |s.q|).sum := by rw [totalStrength_sum]; exact totalStrength_nonneg S
  have hB := Fl3.absPotential3_nonneg S x
  unfold potError3
  have h3 : ((1 + u) ^ (S.length + 5) - 1) * absPotential3 S x ≤ ((1 + u) ^ roundings3 κ S.length h m - 1) * absPotential3 S x :=
    mul_le_mul_of_nonneg_right (by linarith) hB
  have h4 : 0 ≤ ((1 + u) ^ roundings3 κ S.length h m - 1) * ((S.map fun s => |s.q|).sum * (5 / a) * Real.sqrt (2 * p + 1)) :=
    mul_nonneg (by linarith) (by positivity)
  have h5 : 0 ≤ (S.map fun s => |s.q|).sum * (5 / a) * (8 / 9) ^ (p + 1) := by positivity
  rw [mul_add]
  linarith

/-- What was computed: the constructor returned `T`, whatever the order in which the threads processed the nodes. -/
def BuiltBy3 (F : Flt3) (fuel : ℕ) (t : Stat3) (S : List (Source 3)) (max : ℕ) (eps : ℝ) (T : AdaptiveFmm (Fl3.kit F)) : Prop :=
  ∀ sch, Schedule sch → Rounded.adaptiveFmm F.rnd F.rlog F.nrm3 (Fl3.kit F) fuel sch t S max eps = .ok T

/-- The computed potential. -/
noncomputable def flPotential3 (F : Flt3) (fuel : ℕ) (grav : Bool) (T : AdaptiveFmm (Fl3.kit F)) (cur : List (Source 3)) (x : Vec 3) :
    Outcome ℝ :=
  Rounded.adaptiveEval F.rnd (fun a b => F.rnd (a + b)) (fun a => -a) (Fl3.pot F) fuel grav T cur x

/-- **C85** The constructor of the adaptive tree in floating-point arithmetic returns a tree, the same for every schedule
of the passes, provided the boxes of the leaves are large against the rounding errors of the coordinates.  The look-up of an
arbitrary point never fails with an error.  If it finds a leaf, the potential has the error bound `potError3` whatever the
current content of the caller's vector of sources; if it does not, it is the direct sum. -/
theorem C85_adaptive (hF : F.Ok u g) (hκ : OpCost u g p κ) {t : Stat3} (ht : Reachable3 t) (hL : 0 < r.len)
    (hC : ∀ i, |r.center i| ≤ C) {eps : ℝ}
    (hord : Rounded.expansionOrder F.rnd F.rlog (Rounded.totalStrength F.rnd S) eps = .ok p) (hp0 : 0 < p) (hp : p ≤ 42)
    (hbox : Rounded.sourceBox F.rnd S = some r) (hin : ∀ s ∈ S, r.exact.contains s.pos) {st : BuildState 3 (Source 3)} {nb : Nbh}
    (hb : Rounded.adaptiveLists F.rnd F.nrm3 fuel Source.pos r S max = .ok (st, h, nb))
    (hk : 100 * ((8 * h + 15) * (u * (4 * (C + r.len)))) < r.len / 2 ^ (h + 1)) (hm : Fl.ListsLe st.heap nb m) :
    ∃ T, BuiltBy3 F fuel t S max eps T ∧ T.order = p ∧ T.height = h ∧
      ∀ x, ∃ lf, (∀ f > h, Rounded.getContainingLeaf F.rnd f T.heap x = .ok lf) ∧ ∀ f > h, ∀ grav cur,
        (lf ≠ none → ∃ v, flPotential3 F f grav T cur x = .ok v ∧
          |v - directPotential grav S x| ≤ potError3 u κ (r.len / 2 ^ h) S p h m x) ∧
        (lf = none → flPotential3 F f grav T cur x = Fl3.potentialSum F grav false cur x) := by
  obtain ⟨T, h1, h2, h3, h4, h5⟩ := Fl3.adaptive_flt hF hκ.cost ht.good.1 hL hC hord hp0 hp hbox hin hb hk hm
  refine ⟨T, h1, h2, h3, fun x => ?_⟩
  obtain ⟨lf, g1, g2⟩ := h5 x
  rw [h4]
  refine ⟨lf, g1, fun f hf grav cur => ⟨fun hne => ?_, fun hn => ?_⟩⟩
  · obtain ⟨l, rfl⟩ := Option.ne_none_iff_exists'.mp hne
    have := g2 l rfl f hf grav cur
    rw [potBound3_eq] at this
    exact this
  · subst hn
    unfold flPotential3 Rounded.adaptiveEval
    rw [h4, g1 f hf]
    rfl

/-- **C85** Away from the sources, and as long as the caller's vector of sources is unchanged, the bound holds whether the
look-up finds a leaf or not. -/
theorem C85_everywhere (hF : F.Ok u g) (hκ : OpCost u g p κ) {t : Stat3} (ht : Reachable3 t) (hL : 0 < r.len)
    (hC : ∀ i, |r.center i| ≤ C) {eps : ℝ}
    (hord : Rounded.expansionOrder F.rnd F.rlog (Rounded.totalStrength F.rnd S) eps = .ok p) (hp0 : 0 < p) (hp : p ≤ 42)
    (hbox : Rounded.sourceBox F.rnd S = some r) (hin : ∀ s ∈ S, r.exact.contains s.pos) {st : BuildState 3 (Source 3)} {nb : Nbh}
    (hb : Rounded.adaptiveLists F.rnd F.nrm3 fuel Source.pos r S max = .ok (st, h, nb))
    (hk : 100 * ((8 * h + 15) * (u * (4 * (C + r.len)))) < r.len / 2 ^ (h + 1)) (hm : Fl.ListsLe st.heap nb m) :
    ∃ T, BuiltBy3 F fuel t S max eps T ∧ T.order = p ∧ T.height = h ∧ ∀ x, (∀ s ∈ S, s.pos ≠ x) → ∀ f > h, ∀ grav,
      ∃ v, flPotential3 F f grav T S x = .ok v ∧ |v - directPotential grav S x| ≤ potError3 u κ (r.len / 2 ^ h) S p h m x := by
  obtain ⟨T, h1, h2, h3, h5⟩ := C85_adaptive hF hκ ht hL hC hord hp0 hp hbox hin hb hk hm
  refine ⟨T, h1, h2, h3, fun x hx f hf grav => ?_⟩
  obtain ⟨lf, -, g2⟩ := h5 x
  obtain ⟨a, b⟩ := g2 f hf grav S
  by_cases hl : lf = none
  · rw [b hl]
    obtain ⟨v, v1, v2⟩ := Fl3.potentialSum_unsafe hF grav S x hx
    exact ⟨v, v1, (v2.1 : |v - directPotential grav S x| ≤ _).trans (direct_le_potError3 hF.nonneg (by positivity) _)⟩
  · exact a hl

theorem BuiltBy3.of_fuel {t : Stat3} {eps : ℝ} {f f' : ℕ} {T : AdaptiveFmm (Fl3.kit F)} (hT : BuiltBy3 F f t S max eps T)
    (hbox : Rounded.sourceBox F.rnd S = some r)
    (h : Rounded.adaptiveLists F.rnd F.nrm3 f Source.pos r S max = Rounded.adaptiveLists F.rnd F.nrm3 f' Source.pos r S max) :
    BuiltBy3 F f' t S max eps T := by
  intro sch hs
  rw [← hT sch hs]
  unfold Rounded.adaptiveFmm Rounded.adaptiveInit
  rw [hbox]
  simp only [h]

/-- **C85** For well placed sources everything follows from properties of the sources: the root box contains them, the
construction terminates with a tree of height at most `k`, and the potential at every point other than the sources has the
error bound with lists of at most `8 h N + 1` members. -/
theorem C85_well_placed {M a : ℝ} {k : ℕ} (hF : F.Ok u g) (hκ : OpCost u g p κ) (hW : WellPlaced u S M a k) (hmax : 1 ≤ max)
    {t : Stat3} (ht : Reachable3 t) {eps : ℝ}
    (hord : Rounded.expansionOrder F.rnd F.rlog (Rounded.totalStrength F.rnd S) eps = .ok p) (hp0 : 0 < p) (hp : p ≤ 42) :
    ∃ r h fuel T, Rounded.sourceBox F.rnd S = some r ∧ 2 * a < r.len ∧ r.len ≤ 3 * M ∧ (∀ s ∈ S, r.exact.contains s.pos) ∧
      h ≤ k ∧ (∀ f ≥ fuel, BuiltBy3 F f t S max eps T) ∧ T.order = p ∧ T.height = h ∧
      ∀ x, (∀ s ∈ S, s.pos ≠ x) → ∀ f > h, ∀ grav, ∃ v, flPotential3 F f grav T S x = .ok v ∧
        |v - directPotential grav S x| ≤ potError3 u κ (r.len / 2 ^ h) S p h (8 * (h * S.length) + 1) x := by
  obtain ⟨r, h0, h1, h2, h3, h4⟩ := hW.box hF.toOk
  have h4 := hW.contains hF.toOk h4
  obtain ⟨fuel, st, h, nb, hh, hf, hk⟩ := hW.lists hF.nrm3 hF.toOk h1 h2 h3 h4 hmax
  have ha := hW.pos
  have hL : 0 < r.len := by linarith
  have hM : 0 ≤ 2 * M := by linarith
  have hu3 := Fl.small_u hL hM hF.nonneg hk
  have hm := Fl.listsLe_count (S := S) (max := max) hF.rnd hF.nonneg hL hM h3 (fun v => by
    have a := (abs_le.mp (hF.nrm3 v)).1
    have b : 0 ≤ Vec.norm v := Vec.norm_nonneg v
    nlinarith) (hf fuel le_rfl) hk
  obtain ⟨T, t1, t2, t3, t4⟩ := C85_everywhere hF hκ ht hL h3 hord hp0 hp h0 h4 (hf fuel le_rfl) hk hm
  exact ⟨r, h, fuel, T, h0, h1, h2, h4, hh, fun f hge => t1.of_fuel h0 ((hf fuel le_rfl).trans (hf f hge).symm), t2, t3, t4⟩

/-- **C85** `double`s, at most a billion sources, height at most 10, lists of at most a million members: the rounding errors
amount to less than 2% of the majorant. -/
theorem C85_double (hp : p ≤ 42) (hN : S.length ≤ 10 ^ 9) (hh : h ≤ 10) (hm : m ≤ 10 ^ 6) {a : ℝ} (ha : 0 < a) (x : Vec 3) :
    OpCost (1 / 2 ^ 49) (1 / 2 ^ 52) p (2 ^ 37) ∧
    potError3 (1 / 2 ^ 49) (2 ^ 37) a S p h m x ≤ (S.map fun s => |s.q|).sum * (5 / a) * (8 / 9) ^ (p + 1)
      + 1 / 50 * ((S.map fun s => |s.q|).sum * (5 / a) * Real.sqrt (2 * p + 1) + absPotential3 S x) := by
  refine ⟨double_cost hp, ?_⟩
  have hA : 0 ≤ (S.map fun s => |s.q|).sum := by rw [totalStrength_sum]; exact totalStrength_nonneg S
  have hB := Fl3.absPotential3_nonneg S x
  unfold potError3
  refine add_le_add le_rfl (mul_le_mul_of_nonneg_right ?_ (by positivity))
  have hn : roundings3 (2 ^ 37) S.length h m ≤ 4 * 10 ^ 12 := by
    unfold roundings3
    have : h * (2 * 2 ^ 37 + 10 + m) ≤ 10 * (2 * 2 ^ 37 + 10 + 10 ^ 6) := Nat.mul_le_mul hh (by omega)
    norm_num at this hN hm ⊢
    omega
  have hn' : (roundings3 (2 ^ 37) S.length h m : ℝ) ≤ 4 * 10 ^ 12 := by exact_mod_cast hn
  have h1 : (roundings3 (2 ^ 37) S.length h m : ℝ) * (1 / 2 ^ 49) ≤ 1 / 100 :=
    (mul_le_mul_of_nonneg_right hn' (by norm_num)).trans (by norm_num)
  have := pow_le_one_add (v := 1 / 2 ^ 49) (by norm_num) _ (h1.trans (by norm_num))
  linarith

/-! ## `double`s -/

/-- Eight unit charges at the corners of a cube. -/
noncomputable def S8 : List (Source 3) := [⟨![3, 3, 3], 1⟩, ⟨![3, 3, -3], 1⟩, ⟨![3, -3, 3], 1⟩, ⟨![3, -3, -3], 1⟩,
  ⟨![-3, 3, 3], 1⟩, ⟨![-3, 3, -3], 1⟩, ⟨![-3, -3, 3], 1⟩, ⟨![-3, -3, -3], 1⟩]

theorem S8_placed : WellPlaced (1 / 2 ^ 49) S8 3 3 1 where
  pos := by norm_num
  bound := by
    intro s hs i
    simp only [S8, List.mem_cons, List.not_mem_nil, or_false] at hs
    rcases hs with rfl | rfl | rfl | rfl | rfl | rfl | rfl | rfl <;> fin_cases i <;> norm_num
  low := by
    intro i
    exact ⟨⟨![-3, -3, -3], 1⟩, by simp [S8], by fin_cases i <;> norm_num⟩
  high := by
    intro i
    exact ⟨⟨![3, 3, 3], 1⟩, by simp [S8], by fin_cases i <;> norm_num⟩
  pad := by norm_num
  fine := by norm_num
  apart := by
    have key : ∀ (a b : Vec 3), (∃ i, a i = 3 ∧ b i = -3) → ∃ i, (3 : ℝ) * 3 / 2 ^ 1 + 160 * ((1 : ℕ) : ℝ) * (1 / 2 ^ 49 * 3) < |a i - b i| := by
      rintro a b ⟨i, h1, h2⟩
      refine ⟨i, ?_⟩
      rw [h1, h2]
      norm_num [abs_of_pos]
    simp only [S8, List.pairwise_cons, List.mem_cons, List.not_mem_nil, or_false, forall_eq_or_imp, forall_eq]
    refine ⟨⟨?_, ?_, ?_, ?_, ?_, ?_, ?_⟩, ⟨?_, ?_, ?_, ?_, ?_, ?_⟩, ⟨?_, ?_, ?_, ?_, ?_⟩, ⟨?_, ?_, ?_, ?_⟩, ⟨?_, ?_, ?_⟩, ⟨?_, ?_⟩, ?_,
      by simp⟩ <;>
    first
    | (refine key _ _ ⟨0, ?_, ?_⟩ <;> (simp; done))
    | (refine key _ _ ⟨1, ?_, ?_⟩ <;> (simp; done))
    | (refine key _ _ ⟨2, ?_, ?_⟩ <;> (simp; done))

theorem rndNE_four : Rounded.rndNE (4 : ℝ) = 4 := by
  have := rndNE_mantissa (n := 2 ^ 52) (e := -50) (by norm_num) (by norm_num)
  norm_num at this; exact this

theorem rndNE_eight : Rounded.rndNE (8 : ℝ) = 8 := by
  have := rndNE_mantissa (n := 2 ^ 52) (e := -49) (by norm_num) (by norm_num)
  norm_num at this; exact this

/-- Eight unit charges, accuracy 4: the order computed with `double`s is 1. -/
theorem S8_order : Rounded.expansionOrder Flt3.ieee.rnd Flt3.ieee.rlog (Rounded.totalStrength Flt3.ieee.rnd S8) 4 = .ok 1 := by
  have e1 : Rounded.rndNE (1 : ℝ) = 1 := by
    have := rndNE_mantissa (n := 2 ^ 52) (e := -52) (by norm_num) (by norm_num)
    norm_num at this; exact this
  have e2 : Rounded.rndNE (2 : ℝ) = 2 := by
    have := rndNE_mantissa (n := 2 ^ 52) (e := -51) (by norm_num) (by norm_num)
    norm_num at this; exact this
  have e3 : Rounded.rndNE (3 : ℝ) = 3 := by
    have := rndNE_mantissa (n := 3 * 2 ^ 51) (e := -51) (by norm_num) (by norm_num)
    norm_num at this; exact this
  have e5 : Rounded.rndNE (5 : ℝ) = 5 := by
    have := rndNE_mantissa (n := 5 * 2 ^ 50) (e := -50) (by norm_num) (by norm_num)
    norm_num at this; exact this
  have e6 : Rounded.rndNE (6 : ℝ) = 6 := by
    have := rndNE_mantissa (n := 6 * 2 ^ 50) (e := -50) (by norm_num) (by norm_num)
    norm_num at this; exact this
  have e7 : Rounded.rndNE (7 : ℝ) = 7 := by
    have := rndNE_mantissa (n := 7 * 2 ^ 50) (e := -50) (by norm_num) (by norm_num)
    norm_num at this; exact this
  have hr : ∀ x, Flt3.ieee.rnd x = Rounded.rndNE x := fun _ => rfl
  have hA : Rounded.totalStrength Flt3.ieee.rnd S8 = 8 := by
    unfold Rounded.totalStrength S8
    simp only [hr, List.foldl_cons, List.foldl_nil, abs_one, zero_add]
    norm_num [e1, e2, e3, rndNE_four, e5, e6, e7, rndNE_eight]
  have hd : Flt3.ieee.rnd (8 / 4) = 2 := by
    rw [hr]
    norm_num [e2]
  have hl : Flt3.ieee.rlog 2 ≠ 0 := by
    intro h0
    have := Flt3.ieee_ok.rlog 2 (by norm_num)
    rw [h0, zero_sub, abs_neg] at this
    have hpos : 0 < |Real.log 2| := abs_pos.mpr (Real.log_pos (by norm_num)).ne'
    norm_num at this
  unfold Rounded.expansionOrder
  rw [hA, hd, if_neg (by norm_num), div_self hl, hr, e1, Int.ceil_one]
  rfl

theorem S8_off (x : Vec 3) (hx : |x 0| < 3) : ∀ s ∈ S8, s.pos ≠ x := by
  intro s hs e
  simp only [S8, List.mem_cons, List.not_mem_nil, or_false] at hs
  rw [← e] at hx
  rcases hs with rfl | rfl | rfl | rfl | rfl | rfl | rfl | rfl <;> norm_num at hx

/-- Non-vacuity: eight charges, one source per leaf, `double`s.  The tree is built, and the potential at the centre (on the
planes between the boxes) is computed with the stated error. -/
example : ∃ r h fuel T v, Rounded.sourceBox Flt3.ieee.rnd S8 = some r ∧ h ≤ 1 ∧ BuiltBy3 Flt3.ieee fuel (Stat3.init 0 0 0) S8 1 4 T ∧
    T.order = 1 ∧ flPotential3 Flt3.ieee fuel true T S8 0 = .ok v ∧
    |v - directPotential true S8 0| ≤ potError3 (1 / 2 ^ 49) (2 ^ 37) (r.len / 2 ^ h) S8 1 h (8 * (h * 8) + 1) 0 := by
  obtain ⟨r, h, fuel, T, h0, -, -, -, h1, h2, h3, h4, h5⟩ := C85_well_placed (max := 1) Flt3.ieee_ok (double_cost (p := 1) (by norm_num))
    S8_placed le_rfl reachable3_init S8_order one_pos (by norm_num)
  obtain ⟨v, v1, v2⟩ := h5 0 (S8_off _ (by norm_num)) (fuel + h + 1) (by omega) true
  exact ⟨r, h, fuel + h + 1, T, v, h0, h1, h2 _ (by omega), h3, v1, v2⟩

end FMM
