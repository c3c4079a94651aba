import Verif.FltTree
import Verif.FltIeee
import Verif.PropsFmm2D

/-!
# C77: the adaptive tree in the plane, in floating-point arithmetic

Root box, tree, lists, expansions, passes, look-up and evaluation are all computed with rounding; `u` is the accuracy of a
single operation.
-/

namespace FMM
variable {F : Flt} {u C : ℝ} {r : Rounded.RBox ℝ 2} {S : List (Source 2)} {max fuel h p m : ℕ}

/-- Number of rounding errors that can accumulate along the longest chain of operations: `N` sources, order `p`, height
`h`, lists of at most `m` members. -/
def roundings (N p h m : ℕ) : ℕ := N + 14 * p + 38 + 3 * m + h * (6 * p + 9 + m)

/-- Bound of the error of the computed potential: truncation, and rounding. -/
noncomputable def potError (u : ℝ) (len : ℝ) (S : List (Source 2)) (p h m : ℕ) (x : Vec 2) : ℝ :=
  (S.map fun s => |s.q|).sum * ((29 / 40) ^ (p + 1) / ((p + 1) * (1 - 29 / 40)))
    + ((1 + u) ^ roundings S.length p h m - 1)
      * ((S.map fun s => |s.q|).sum * (|Real.log len| + h + 13) + absPotential S x)

/-- Bound of the error of the computed force: truncation, smoothing (ignored by the expansions), and rounding; `a` is the
side length of the smallest box. -/
noncomputable def forceError (u : ℝ) (a : ℝ) (S : List (Source 2)) (p h m : ℕ) (feps : ℝ) (x : Vec 2) : ℝ :=
  (S.map fun s => |s.q|).sum * ((29 / 40) ^ p * (2 / a) + 8 * feps / a ^ 3)
    + ((1 + u) ^ roundings S.length p h m - 1) * ((S.map fun s => |s.q|).sum * (25 / a) + absField S x feps)

theorem potBound_eq (x : Vec 2) : Fl.potBound u r.exact S p h m x = potError u r.len S p h m x := by
  unfold Fl.potBound potError tailBound Fl.logB Fl.evalCount roundings
  rw [totalStrength_eq]
  simp only [Rounded.RBox.exact]
  ring

theorem forceBound_eq (x : Vec 2) (feps : ℝ) :
    Fl.forceBound u r.exact S p h m feps x = forceError u (r.len / 2 ^ h) S p h m feps x := by
  unfold Fl.forceBound forceError Fl.forceTail Fl.fieldTail Fl.evalCount roundings Fl.side
  rw [totalStrength_eq]
  rfl

theorem absSum_nonneg (S : List (Source 2)) : 0 ≤ (S.map fun s => |s.q|).sum :=
  List.sum_nonneg (by intro t ht; obtain ⟨s, -, rfl⟩ := List.mem_map.mp ht; exact abs_nonneg _)

theorem absPotential_nonneg' (S : List (Source 2)) (x : Vec 2) : 0 ≤ absPotential S x :=
  List.sum_nonneg (by intro t ht; obtain ⟨s, -, rfl⟩ := List.mem_map.mp ht; exact absTerm_nonneg x s)

theorem absField_nonneg' (S : List (Source 2)) (x : Vec 2) {feps : ℝ} (he : 0 ≤ feps) : 0 ≤ absField S x feps :=
  List.sum_nonneg (by intro t ht; obtain ⟨s, -, rfl⟩ := List.mem_map.mp ht; exact absFieldTerm_nonneg x he s)

theorem direct_le_potError (hu : 0 ≤ u) (len : ℝ) (x : Vec 2) :
    ((1 + u) ^ (S.length + 6) - 1) * absPotential S x ≤ potError u len S p h m x := by
  have h1 : (1 + u) ^ (S.length + 6) ≤ (1 + u) ^ roundings S.length p h m :=
    pow_le_pow_right₀ (by linarith) (by unfold roundings; nlinarith [Nat.zero_le (h * (6 * p + 9 + m))])
  have h2 : (1 : ℝ) ≤ (1 + u) ^ roundings S.length p h m := one_le_pow₀ (by linarith)
  have hA := absSum_nonneg S
  have hB := absPotential_nonneg' S x
  unfold potError
  have h3 : ((1 + u) ^ (S.length + 6) - 1) * absPotential S x ≤ ((1 + u) ^ roundings S.length p h m - 1) * absPotential S x :=
    mul_le_mul_of_nonneg_right (by linarith) hB
  have h4 : 0 ≤ ((1 + u) ^ roundings S.length p h m - 1) * ((S.map fun s => |s.q|).sum * (|Real.log len| + h + 13)) :=
    mul_nonneg (by linarith) (by positivity)
  have h5 : 0 ≤ (S.map fun s => |s.q|).sum * ((29 / 40) ^ (p + 1) / ((p + 1) * (1 - 29 / 40))) := by
    refine mul_nonneg hA (div_nonneg (by positivity) (mul_nonneg (by positivity) (by norm_num)))
  rw [mul_add]
  linarith

theorem direct_le_forceError (hu : 0 ≤ u) {a : ℝ} (ha : 0 < a) (x : Vec 2) {feps : ℝ} (he : 0 ≤ feps) :
    ((1 + u) ^ (S.length + 13) - 1) * absField S x feps ≤ forceError u a S p h m feps x := by
  have h1 : (1 + u) ^ (S.length + 13) ≤ (1 + u) ^ roundings S.length p h m :=
    pow_le_pow_right₀ (by linarith) (by unfold roundings; nlinarith [Nat.zero_le (h * (6 * p + 9 + m))])
  have h2 : (1 : ℝ) ≤ (1 + u) ^ roundings S.length p h m := one_le_pow₀ (by linarith)
  have hA := absSum_nonneg S
  have hB := absField_nonneg' S x he
  unfold forceError
  have h3 : ((1 + u) ^ (S.length + 13) - 1) * absField S x feps ≤ ((1 + u) ^ roundings S.length p h m - 1) * absField S x feps :=
    mul_le_mul_of_nonneg_right (by linarith) hB
  have h4 : 0 ≤ ((1 + u) ^ roundings S.length p h m - 1) * ((S.map fun s => |s.q|).sum * (25 / a)) :=
    mul_nonneg (by linarith) (by positivity)
  have h5 : 0 ≤ (S.map fun s => |s.q|).sum * ((29 / 40) ^ p * (2 / a) + 8 * feps / a ^ 3) := by positivity
  rw [mul_add]
  linarith

/-- What was computed: the constructor returned `T`, whatever the order in which the threads processed the nodes. -/
def BuiltBy (F : Flt) (fuel : ℕ) (t : BinomialTable) (S : List (Source 2)) (max : ℕ) (eps : ℝ) (T : AdaptiveFmm (Fl.kit F)) :
    Prop :=
  ∀ sch, Schedule sch → Rounded.adaptiveFmm F.rnd F.rlog F.nrm (Fl.kit F) fuel sch t S max eps = .ok T

/-- The computed potential. -/
noncomputable def flPotential (F : Flt) (fuel : ℕ) (grav : Bool) (T : AdaptiveFmm (Fl.kit F)) (cur : List (Source 2)) (x : Vec 2) :
    Outcome ℝ :=
  Rounded.adaptiveEval F.rnd (fun a b => F.rnd (a + b)) (fun a => -a) (Fl.pot F) fuel grav T cur x

/-- The computed force. -/
noncomputable def flForce (F : Flt) (feps : ℝ) (fuel : ℕ) (grav : Bool) (T : AdaptiveFmm (Fl.kit F)) (cur : List (Source 2))
    (x : Vec 2) : Outcome (Vec 2) :=
  Rounded.adaptiveEval F.rnd F.vadd (fun a => -a) (Fl.force F feps) fuel grav T cur x

/-- **C77** The constructor of the adaptive tree in floating-point arithmetic returns a tree, the same for every schedule
of the passes, provided the boxes of the leaves are large against the rounding errors of the coordinates.  The look-up of an
arbitrary point never fails with an error.  If it finds a leaf, potential and force have the error bounds `potError` and
`forceError` whatever the current content of the caller's vector of sources; if it does not, they are the direct sums. -/
theorem C77_adaptive (hF : F.Ok u) {t : BinomialTable} (ht : Reachable t) (hL : 0 < r.len) (hC : ∀ i, |r.center i| ≤ C) {eps : ℝ}
    (hord : Rounded.expansionOrder F.rnd F.rlog (Rounded.totalStrength F.rnd S) eps = .ok p) (hp0 : 0 < p) (hp : p ≤ 1029)
    (hbox : Rounded.sourceBox F.rnd S = some r) (hin : ∀ s ∈ S, r.exact.contains s.pos) {st : BuildState 2 (Source 2)} {nb : Nbh}
    (hb : Rounded.adaptiveLists F.rnd F.nrm fuel Source.pos r S max = .ok (st, h, nb))
    (hk : 100 * ((8 * h + 15) * (u * (4 * (C + r.len)))) < r.len / 2 ^ (h + 1)) (hm : Fl.ListsLe st.heap nb m) :
    ∃ T, BuiltBy F fuel t S max eps T ∧ T.order = p ∧ T.height = h ∧
      ∀ x, ∃ lf, (∀ f > h, Rounded.getContainingLeaf F.rnd f T.heap x = .ok lf) ∧ ∀ f > h, ∀ grav cur,
        (lf ≠ none →
          (∃ v, flPotential F f grav T cur x = .ok v ∧ |v - directPotential grav S x| ≤ potError u r.len S p h m x) ∧
          ∀ feps, 0 ≤ feps → ∃ v, flForce F feps f grav T cur x = .ok v ∧
            dist2 v (directField grav S x feps) ≤ forceError u (r.len / 2 ^ h) S p h m feps x) ∧
        (lf = none → flPotential F f grav T cur x = Fl.potentialSum F grav false cur x ∧
          ∀ feps, flForce F feps f grav T cur x = Fl.forcefieldSum F grav false cur x feps) := by
  obtain ⟨T, h1, h2, h3, h4, h5⟩ := Fl.adaptive_flt hF ht.good hL hC hord hp0 hp hbox hin hb hk hm
  refine ⟨T, h1, h2, h3, fun x => ?_⟩
  obtain ⟨lf, g1, g2⟩ := h5 x
  rw [h4]
  refine ⟨lf, g1, fun f hf grav cur => ⟨fun hne => ?_, fun hn => ?_⟩⟩
  · obtain ⟨l, rfl⟩ := Option.ne_none_iff_exists'.mp hne
    have := g2 l rfl f hf grav cur
    rw [potBound_eq] at this
    simp only [forceBound_eq] at this
    exact this
  · subst hn
    unfold flPotential flForce Rounded.adaptiveEval
    rw [h4, g1 f hf]
    exact ⟨rfl, fun _ => rfl⟩

/-- **C77** Away from the sources, and as long as the caller's vector of sources is unchanged, the bounds hold whether the
look-up finds a leaf or not. -/
theorem C77_everywhere (hF : F.Ok u) {t : BinomialTable} (ht : Reachable t) (hL : 0 < r.len) (hC : ∀ i, |r.center i| ≤ C) {eps : ℝ}
    (hord : Rounded.expansionOrder F.rnd F.rlog (Rounded.totalStrength F.rnd S) eps = .ok p) (hp0 : 0 < p) (hp : p ≤ 1029)
    (hbox : Rounded.sourceBox F.rnd S = some r) (hin : ∀ s ∈ S, r.exact.contains s.pos) {st : BuildState 2 (Source 2)} {nb : Nbh}
    (hb : Rounded.adaptiveLists F.rnd F.nrm fuel Source.pos r S max = .ok (st, h, nb))
    (hk : 100 * ((8 * h + 15) * (u * (4 * (C + r.len)))) < r.len / 2 ^ (h + 1)) (hm : Fl.ListsLe st.heap nb m) :
    ∃ T, BuiltBy F fuel t S max eps T ∧ T.order = p ∧ T.height = h ∧ ∀ x, (∀ s ∈ S, s.pos ≠ x) → ∀ f > h, ∀ grav,
      (∃ v, flPotential F f grav T S x = .ok v ∧ |v - directPotential grav S x| ≤ potError u r.len S p h m x) ∧
      ∀ feps, 0 ≤ feps → ∃ v, flForce F feps f grav T S x = .ok v ∧
        dist2 v (directField grav S x feps) ≤ forceError u (r.len / 2 ^ h) S p h m feps x := by
  obtain ⟨T, h1, h2, h3, h5⟩ := C77_adaptive hF ht hL hC hord hp0 hp hbox hin hb hk hm
  refine ⟨T, h1, h2, h3, fun x hx f hf grav => ?_⟩
  obtain ⟨lf, -, g2⟩ := h5 x
  obtain ⟨a, b⟩ := g2 f hf grav S
  by_cases hl : lf = none
  · obtain ⟨b1, b2⟩ := b hl
    rw [b1]
    simp only [b2]
    refine ⟨?_, fun feps he => ?_⟩
    · obtain ⟨v, v1, v2⟩ := Fl.potentialSum_unsafe hF grav S x hx
      exact ⟨v, v1, (v2.1 : |v - directPotential grav S x| ≤ _).trans (direct_le_potError hF.nonneg _ _)⟩
    · obtain ⟨v, v1, v2⟩ := Fl.forcefieldSum_unsafe hF grav S x feps he hx
      refine ⟨v, v1, ?_⟩
      have e : dist2 v (directField grav S x feps) = ‖toC v - toC (directField grav S x feps)‖ := (norm_toC_sub _ _).symm
      rw [e]
      exact (v2.1).trans (direct_le_forceError hF.nonneg (by positivity) _ he)
  · exact a hl

/-! ## Hypotheses about the sources only -/

/-- Sources around the origin, well above the rounding errors: `M` bounds the coordinates, every coordinate takes values
beyond `a` on both sides, and boxes of depth `k` are large against the rounding errors. -/
structure Placed (u : ℝ) {d : ℕ} (S : List (Source d)) (M a : ℝ) (k : ℕ) : Prop where
  pos : 0 < a
  bound : ∀ s ∈ S, ∀ i, |s.pos i| ≤ M
  low : ∀ i, ∃ s ∈ S, s.pos i ≤ -a
  high : ∀ i, ∃ s ∈ S, a ≤ s.pos i
  pad : 3 * 10 ^ 7 * (u * M) < a
  fine : 100 * ((8 * k + 15) * (20 * (u * M))) < a / 2 ^ k

/-- Moreover, two sources differ in some coordinate by more than a box of depth `k`. -/
structure WellPlaced (u : ℝ) {d : ℕ} (S : List (Source d)) (M a : ℝ) (k : ℕ) : Prop extends Placed u S M a k where
  apart : S.Pairwise fun s t => ∃ i, 3 * M / 2 ^ k + 160 * k * (u * M) < |s.pos i - t.pos i|

section
variable {d : ℕ} {r : Rounded.RBox ℝ d} {S : List (Source d)}

theorem Placed.box [NeZero d] {M a : ℝ} {k : ℕ} (hF : F.Ok u) (hW : Placed u S M a k) :
    ∃ r, Rounded.sourceBox F.rnd S = some r ∧ 2 * a < r.len ∧ r.len ≤ 3 * M ∧ (∀ i, |r.center i| ≤ 2 * M) ∧
      ∀ s ∈ S, ∀ i, |s.pos i - r.center i| < r.len / 2 - 180 * (u * M) := by
  have hne : S ≠ [] := by
    obtain ⟨s, hs, -⟩ := hW.low 0
    exact List.ne_nil_of_mem hs
  have ha := hW.pos
  have hu := hF.nonneg
  have hs := hF.small
  have q := hF.rnd (1 / 100000)
  rw [abs_of_pos (by norm_num : (0 : ℝ) < 1 / 100000), abs_le] at q
  set P := F.rnd (1 / 100000) with hP
  have hP0 : 15 / 16 * (1 / 100000) ≤ P := by nlinarith [q.1]
  have hP1 : P ≤ 1 / 1000 := by nlinarith [q.2]
  have hM0 : 0 ≤ M := by
    obtain ⟨s, hs, -⟩ := hW.low 0
    exact (abs_nonneg _).trans (hW.bound s hs 0)
  have huM : 0 ≤ u * M := mul_nonneg hu hM0
  have hsmall : 200 * (u * M) < P * a := by
    have := hW.pad
    have : 15 / 16 * (1 / 100000) * a ≤ P * a := mul_le_mul_of_nonneg_right hP0 ha.le
    linarith
  have mg := fun (s : Source d) (hs : s ∈ S) (i : Fin d) =>
    Rounded.rootBox_margin (ps := S.map Source.pos) hF.rnd hu (by linarith) hP1 ha
      (fun v hv i => by obtain ⟨s, hs, rfl⟩ := List.mem_map.mp hv; exact hW.bound s hs i)
      (fun i => by obtain ⟨s, hs, h⟩ := hW.low i; exact ⟨_, List.mem_map_of_mem hs, h⟩)
      (fun i => by obtain ⟨s, hs, h⟩ := hW.high i; exact ⟨_, List.mem_map_of_mem hs, h⟩)
      hsmall s.pos (List.mem_map_of_mem hs) i
  refine ⟨_, if_neg hne, ?_, ?_, ?_, ?_⟩
  · obtain ⟨s, hs, h1⟩ := hW.low 0
    obtain ⟨t, ht, h2⟩ := hW.high 0
    have a1 := abs_lt.mp (mg s hs 0).2.2.2.2.2
    have a2 := abs_lt.mp (mg t ht 0).2.2.2.2.2
    linarith [a1.1, a2.2]
  · obtain ⟨s, hs, h1⟩ := hW.low 0
    exact (mg s hs 0).2.1
  · intro i
    obtain ⟨s, hs, h1⟩ := hW.low i
    exact (mg s hs i).2.2.1
  · intro s hs i
    exact (mg s hs i).2.2.2.2.2

theorem Placed.contains {M a : ℝ} {k : ℕ} (hF : F.Ok u) (hW : Placed u S M a k)
    (hm : ∀ s ∈ S, ∀ i, |s.pos i - r.center i| < r.len / 2 - 180 * (u * M)) : ∀ s ∈ S, r.exact.contains s.pos := by
  intro s hs
  rw [Box.contains_iff]
  intro i
  have a1 := abs_lt.mp (hm s hs i)
  have hM0 : 0 ≤ M := (abs_nonneg _).trans (hW.bound s hs i)
  have := mul_nonneg hF.nonneg hM0
  simp only [Rounded.RBox.exact]
  constructor <;> linarith [a1.1, a1.2]

theorem Placed.fine' {M a : ℝ} {k : ℕ} (hu : 0 ≤ u) (hW : Placed u S M a k) (h1 : 2 * a < r.len)
    (h2 : r.len ≤ 3 * M) : ∀ j ≤ k, 100 * ((8 * j + 15) * (u * (4 * (2 * M + r.len)))) < r.len / 2 ^ (j + 1) := by
  have ha := hW.pos
  have hL : 0 < r.len := by linarith
  have hM0 : 0 < M := by linarith
  have huM : u * (4 * (2 * M + r.len)) ≤ 20 * (u * M) := by nlinarith
  have hu0 : 0 ≤ u * (4 * (2 * M + r.len)) := by positivity
  intro j hj
  have hj' : (j : ℝ) ≤ k := by exact_mod_cast hj
  calc 100 * ((8 * (j : ℝ) + 15) * (u * (4 * (2 * M + r.len)))) ≤ 100 * ((8 * k + 15) * (20 * (u * M))) := by
        refine mul_le_mul_of_nonneg_left (mul_le_mul (by linarith) huM hu0 (by positivity)) (by norm_num)
    _ < a / 2 ^ k := hW.fine
    _ ≤ a / 2 ^ j := div_le_div_of_nonneg_left ha.le (by positivity) (pow_le_pow_right₀ (by norm_num) hj)
    _ ≤ r.len / 2 / 2 ^ j := div_le_div_of_nonneg_right (by linarith) (by positivity)
    _ = r.len / 2 ^ (j + 1) := by rw [pow_succ]; field_simp

theorem WellPlaced.lists {nrm : Vec d → ℝ} (hn : ∀ v, |nrm v - Vec.norm v| ≤ u * Vec.norm v)
    {M a : ℝ} {k : ℕ} (hF : F.Ok u) (hW : WellPlaced u S M a k) (h1 : 2 * a < r.len)
    (h2 : r.len ≤ 3 * M) (h3 : ∀ i, |r.center i| ≤ 2 * M) (h4 : ∀ s ∈ S, r.exact.contains s.pos) (hmax : 1 ≤ max) :
    ∃ fuel st h nb, h ≤ k ∧ (∀ f ≥ fuel, Rounded.adaptiveLists F.rnd nrm f Source.pos r S max = .ok (st, h, nb)) ∧
      100 * ((8 * h + 15) * (u * (4 * (2 * M + r.len)))) < r.len / 2 ^ (h + 1) := by
  have ha := hW.pos
  have hu := hF.nonneg
  have hL : 0 < r.len := by linarith
  have hM0 : 0 < M := by linarith
  have huM : u * (4 * (2 * M + r.len)) ≤ 20 * (u * M) := by nlinarith
  have hu0 : 0 ≤ u * (4 * (2 * M + r.len)) := by positivity
  have hk := hW.fine' hu h1 h2
  have hk0 := hk k le_rfl
  obtain ⟨st, h, hb, hh⟩ := Rounded.C66_terminates (pos := Source.pos) (max := max) hF.rnd hu hL (C := 2 * M)
    (by linarith) h3 k (by
      have : 0 ≤ (8 * (k : ℝ) + 15) * (u * (4 * (2 * M + r.len))) := by positivity
      linarith) h4 (by
      refine hW.apart.imp ?_
      rintro s t ⟨i, hi⟩
      refine ⟨i, lt_of_le_of_lt ?_ hi⟩
      refine add_le_add (div_le_div_of_nonneg_right h2 (by positivity)) ?_
      have := mul_le_mul_of_nonneg_left huM (by positivity : (0 : ℝ) ≤ 8 * k)
      linarith) hmax k le_rfl
  have hu3 := Fl.small_u hL (by linarith : 0 ≤ 2 * M) hu hk0
  obtain ⟨nb, f0, hf⟩ := Rounded.C67_no_throw (nrm := nrm) (C := 2 * M) hF.rnd hu hL (by linarith) h3 (fun v => by
    have a := (abs_le.mp (hn v)).1
    have b : 0 ≤ Vec.norm v := Vec.norm_nonneg v
    nlinarith) k st h hb (hk h hh)
  exact ⟨f0, st, h, nb, hh, hf, hk h hh⟩

end

theorem BuiltBy.of_fuel {t : BinomialTable} {eps : ℝ} {f f' : ℕ} {T : AdaptiveFmm (Fl.kit F)} (hT : BuiltBy F f t S max eps T)
    (hbox : Rounded.sourceBox F.rnd S = some r)
    (h : Rounded.adaptiveLists F.rnd F.nrm f Source.pos r S max = Rounded.adaptiveLists F.rnd F.nrm f' Source.pos r S max) :
    BuiltBy F f' t S max eps T := by
  intro sch hs
  rw [← hT sch hs]
  unfold Rounded.adaptiveFmm Rounded.adaptiveInit
  rw [hbox]
  simp only [h]

/-- **C77** For well placed sources everything follows from properties of the sources: the root box contains them, the
construction terminates with a tree of height at most `k`, and potential and force at every point other than the sources
have error bounds with lists of at most `4 h N + 1` members. -/
theorem C77_well_placed {M a : ℝ} {k : ℕ} (hF : F.Ok u) (hW : WellPlaced u S M a k) (hmax : 1 ≤ max) {t : BinomialTable}
    (ht : Reachable t) {eps : ℝ} (hord : Rounded.expansionOrder F.rnd F.rlog (Rounded.totalStrength F.rnd S) eps = .ok p)
    (hp0 : 0 < p) (hp : p ≤ 1029) :
    ∃ r h fuel T, Rounded.sourceBox F.rnd S = some r ∧ 2 * a < r.len ∧ r.len ≤ 3 * M ∧ (∀ s ∈ S, r.exact.contains s.pos) ∧
      h ≤ k ∧ (∀ f ≥ fuel, BuiltBy F f t S max eps T) ∧ T.order = p ∧ T.height = h ∧
      ∀ x, (∀ s ∈ S, s.pos ≠ x) → ∀ f > h, ∀ grav,
        (∃ v, flPotential F f grav T S x = .ok v ∧
          |v - directPotential grav S x| ≤ potError u r.len S p h (4 * (h * S.length) + 1) x) ∧
        ∀ feps, 0 ≤ feps → ∃ v, flForce F feps f grav T S x = .ok v ∧
          dist2 v (directField grav S x feps) ≤ forceError u (r.len / 2 ^ h) S p h (4 * (h * S.length) + 1) feps x := by
  obtain ⟨r, h0, h1, h2, h3, h4⟩ := hW.box hF
  have h4 := hW.contains hF h4
  obtain ⟨fuel, st, h, nb, hh, hf, hk⟩ := hW.lists hF.nrm hF h1 h2 h3 h4 hmax
  have ha := hW.pos
  have hL : 0 < r.len := by linarith
  have hM : 0 ≤ 2 * M := by linarith
  have hu3 := Fl.small_u hL hM hF.nonneg hk
  have hm := Fl.listsLe_count (S := S) (max := max) hF.rnd hF.nonneg hL hM h3 (fun v => by
    have a := (abs_le.mp (hF.nrm v)).1
    have b : 0 ≤ Vec.norm v := Real.sqrt_nonneg _
    nlinarith) (hf fuel le_rfl) hk
  obtain ⟨T, t1, t2, t3, t4⟩ := C77_everywhere hF ht hL h3 hord hp0 hp h0 h4 (hf fuel le_rfl) hk hm
  exact ⟨r, h, fuel, T, h0, h1, h2, h4, hh, fun f hge => t1.of_fuel h0 ((hf fuel le_rfl).trans (hf f hge).symm), t2, t3, t4⟩

/-! ## `double`s -/

/-- Four unit charges on a square. -/
noncomputable def S4 : List (Source 2) := [⟨![3, 3], 1⟩, ⟨![3, -3], 1⟩, ⟨![-3, 3], 1⟩, ⟨![-3, -3], 1⟩]

theorem S4_placed : WellPlaced (1 / 2 ^ 49) S4 3 3 1 where
  pos := by norm_num
  bound := by
    intro s hs i
    simp only [S4, List.mem_cons, List.not_mem_nil, or_false] at hs
    rcases hs with rfl | rfl | rfl | rfl <;> fin_cases i <;> norm_num
  low := by
    intro i
    exact ⟨⟨![-3, -3], 1⟩, by simp [S4], by fin_cases i <;> norm_num⟩
  high := by
    intro i
    exact ⟨⟨![3, 3], 1⟩, by simp [S4], by fin_cases i <;> norm_num⟩
  pad := by norm_num
  fine := by norm_num
  apart := by
    simp only [S4, List.pairwise_cons, List.mem_cons, List.not_mem_nil, or_false, forall_eq_or_imp, forall_eq]
    refine ⟨⟨⟨1, ?_⟩, ⟨0, ?_⟩, ⟨0, ?_⟩⟩, ⟨⟨0, ?_⟩, ⟨0, ?_⟩⟩, ⟨1, ?_⟩, by simp⟩ <;>
      norm_num [abs_of_pos, abs_of_neg]

theorem rndNE_mantissa {n e : ℤ} (h1 : 2 ^ 52 ≤ |n|) (h2 : |n| < 2 ^ 53) : Rounded.rndNE ((n : ℝ) * 2 ^ e) = n * 2 ^ e := by
  have hp : (0 : ℝ) < 2 ^ e := by positivity
  have h1' : (2 : ℝ) ^ 52 ≤ |(n : ℝ)| := by exact_mod_cast h1
  have h2' : |(n : ℝ)| < (2 : ℝ) ^ 53 := by exact_mod_cast h2
  have hu : Rounded.ulpExp ((n : ℝ) * 2 ^ e) = e := by
    apply Rounded.ulpExp_eq
    · rw [abs_mul, abs_of_pos hp]; exact mul_le_mul_of_nonneg_right h1' hp.le
    · rw [abs_mul, abs_of_pos hp]; exact mul_lt_mul_of_pos_right h2' hp
  unfold Rounded.rndNE
  rw [hu, mul_div_cancel_right₀ _ hp.ne', Rounded.roundEven_eq (n := n) (by simp)]

/-- Four unit charges, accuracy 2: the order computed with `double`s is 1. -/
theorem S4_order : Rounded.expansionOrder Flt.ieee.rnd Flt.ieee.rlog (Rounded.totalStrength Flt.ieee.rnd S4) 2 = .ok 1 := by
  have e1 : Rounded.rndNE (1 : ℝ) = 1 := by
    have := rndNE_mantissa (n := 2 ^ 52) (e := -52) (by norm_num) (by norm_num)
    norm_num at this; exact this
  have e2 : Rounded.rndNE (2 : ℝ) = 2 := by
    have := rndNE_mantissa (n := 2 ^ 52) (e := -51) (by norm_num) (by norm_num)
    norm_num at this; exact this
  have e3 : Rounded.rndNE (3 : ℝ) = 3 := by
    have := rndNE_mantissa (n := 3 * 2 ^ 51) (e := -51) (by norm_num) (by norm_num)
    norm_num at this; exact this
  have e4 : Rounded.rndNE (4 : ℝ) = 4 := by
    have := rndNE_mantissa (n := 2 ^ 52) (e := -50) (by norm_num) (by norm_num)
    norm_num at this; exact this
  have hA : Rounded.totalStrength Flt.ieee.rnd S4 = 4 := by
    unfold Rounded.totalStrength S4
    simp only [Flt.ieee, Flt.ofRnd, List.foldl_cons, List.foldl_nil, abs_one, zero_add]
    norm_num [e1, e2, e3, e4]
  have hd : Flt.ieee.rnd (4 / 2) = 2 := by
    show Rounded.rndNE (4 / 2 : ℝ) = 2
    norm_num [e2]
  have hl : Flt.ieee.rlog 2 ≠ 0 := by
    intro h0
    have := Flt.ieee_ok.rlog 2 (by norm_num)
    rw [h0, zero_sub, abs_neg] at this
    have hpos : 0 < |Real.log 2| := abs_pos.mpr (Real.log_pos (by norm_num)).ne'
    norm_num at this
  unfold Rounded.expansionOrder
  rw [hA, hd, if_neg (by norm_num), div_self hl]
  have : Flt.ieee.rnd 1 = 1 := e1
  rw [this, Int.ceil_one]
  rfl

/-- Non-vacuity: four charges, one source per leaf, `double`s.  The tree is built, and the potential at the centre (on the
planes between the boxes) and the force at an interior point are computed with the stated errors. -/
example : ∃ r h fuel T v w, Rounded.sourceBox Flt.ieee.rnd S4 = some r ∧ h ≤ 1 ∧ BuiltBy Flt.ieee fuel BinomialTable.init S4 1 2 T ∧
    T.order = 1 ∧ flPotential Flt.ieee fuel true T S4 0 = .ok v ∧
    |v - directPotential true S4 0| ≤ potError (1 / 2 ^ 49) r.len S4 1 h (4 * (h * 4) + 1) 0 ∧
    flForce Flt.ieee 0 fuel true T S4 ![1, 2] = .ok w ∧
    dist2 w (directField true S4 ![1, 2] 0) ≤ forceError (1 / 2 ^ 49) (r.len / 2 ^ h) S4 1 h (4 * (h * 4) + 1) 0 ![1, 2] := by
  obtain ⟨r, h, fuel, T, h0, -, -, -, h1, h2, h3, h4, h5⟩ := C77_well_placed (max := 1) Flt.ieee_ok S4_placed le_rfl reachable_init
    S4_order one_pos (by norm_num)
  have hx : ∀ x : Vec 2, |x 0| < 3 → ∀ s ∈ S4, s.pos ≠ x := by
    intro x hx s hs e
    simp only [S4, List.mem_cons, List.not_mem_nil, or_false] at hs
    rw [← e] at hx
    rcases hs with rfl | rfl | rfl | rfl <;> norm_num at hx
  obtain ⟨v, v1, v2⟩ := (h5 0 (hx _ (by norm_num)) (fuel + h + 1) (by omega) true).1
  obtain ⟨w, w1, w2⟩ := (h5 ![1, 2] (hx _ (by norm_num)) (fuel + h + 1) (by omega) true).2 0 le_rfl
  exact ⟨r, h, fuel + h + 1, T, v, w, h0, h1, h2 _ (by omega), h3, v1, v2, w1, w2⟩

end FMM
