import Verif.LowTree
import Verif.LowIeee
import Verif.PropsFltTree
import Verif.PropsDoubleAgree2

/-!
# C105: underflow in the two-dimensional solver

The error bounds of C77 hold with gradual underflow and with `double`s, if the boxes, the distances and the strengths are
not too small or too large for the order `p` of the expansions.
-/

namespace FMM
open Rounded
variable {F : Flt} {u η ρ θ τ C : ℝ} {r : RBox ℝ 2} {S : List (Source 2)} {max fuel h p m : ℕ}

/-! ## Arithmetic with a floor -/

/-- **C105** C77 with gradual underflow: errors are relative above the floor `η` only, and divisors below `ρ` are not
covered. -/
theorem C105_floor (hF : F.Low u η ρ) (hsc : Scale η ρ θ τ p) (h5 : θ ≤ 1 / 5) (hlo : θ ≤ 18 / 25 * (r.len / 2 ^ h))
    (hhi : θ * (2 * r.len) ≤ 1) (hq : ∀ s ∈ S, s.q = 0 ∨ τ ≤ |s.q|) {t : BinomialTable} (ht : Reachable t) (hL : 0 < r.len)
    (hC : ∀ i, |r.center i| ≤ C) {eps : ℝ}
    (hord : Rounded.expansionOrder F.rnd F.rlog (Rounded.totalStrength F.rnd S) eps = .ok p) (hp0 : 0 < p) (hp : p ≤ 1029)
    (hbox : Rounded.sourceBox F.rnd S = some r) (hin : ∀ s ∈ S, r.exact.contains s.pos) {st : BuildState 2 (Source 2)} {nb : Nbh}
    (hb : Rounded.adaptiveLists F.rnd F.nrm fuel Source.pos r S max = .ok (st, h, nb))
    (hk : 100 * ((8 * h + 15) * (u * (4 * (C + r.len)))) < r.len / 2 ^ (h + 1)) (hm : Fl.ListsLe st.heap nb m) :
    ∃ T, BuiltBy F fuel t S max eps T ∧ T.order = p ∧ T.height = h ∧
      ∀ x, ∃ lf, (∀ f > h, Rounded.getContainingLeaf F.rnd f T.heap x = .ok lf) ∧ ∀ f > h, ∀ grav cur,
        (lf ≠ none → (∀ s ∈ S, s.pos = x ∨ θ ≤ dist2 s.pos x) →
          (∃ v, flPotential F f grav T cur x = .ok v ∧ |v - directPotential grav S x| ≤ potError u r.len S p h m x) ∧
          ∀ feps, 0 ≤ feps → feps ≤ 1 / θ ^ 2 → ∃ v, flForce F feps f grav T cur x = .ok v ∧
            dist2 v (directField grav S x feps) ≤ forceError u (r.len / 2 ^ h) S p h m feps x) ∧
        (lf = none → flPotential F f grav T cur x = Fl.potentialSum F grav false cur x ∧
          ∀ feps, flForce F feps f grav T cur x = Fl.forcefieldSum F grav false cur x feps) := by
  have hsp : Lo.Span θ r.exact h := ⟨hlo, by
    rw [inv_eq_one_div, le_div_iff₀ (by simp only [RBox.exact]; linarith)]; exact hhi⟩
  have hq' : ∀ s ∈ S, Flr τ |s.q| := fun s hs => (hq s hs).imp_left fun e => by rw [e, abs_zero]
  obtain ⟨T, h1, h2, h3, h4, h6⟩ := Lo.adaptive_low hF hsc hsp h5 ht.good hL hC hord hp0 hp hbox hin hb hk hm hq'
  refine ⟨T, h1, h2, h3, fun x => ?_⟩
  obtain ⟨lf, g1, g2⟩ := h6 x
  rw [h4]
  refine ⟨lf, g1, fun f hf grav cur => ⟨fun hne hd => ?_, fun hn => ?_⟩⟩
  · obtain ⟨l, rfl⟩ := Option.ne_none_iff_exists'.mp hne
    have := g2 l rfl hd f hf grav cur
    rw [potBound_eq] at this
    simp only [forceBound_eq] at this
    exact this
  · subst hn
    unfold flPotential flForce Rounded.adaptiveEval
    rw [h4, g1 f hf]
    exact ⟨rfl, fun _ => rfl⟩

/-- **C105** At distances between `θ` and `2/θ` of all sources the bounds hold in and outside of the leaves. -/
theorem C105_floor_everywhere (hF : F.Low u η ρ) (hsc : Scale η ρ θ τ p) (h5 : θ ≤ 1 / 5)
    (hlo : θ ≤ 18 / 25 * (r.len / 2 ^ h)) (hhi : θ * (2 * r.len) ≤ 1) (hq : ∀ s ∈ S, s.q = 0 ∨ τ ≤ |s.q|) {t : BinomialTable}
    (ht : Reachable t) (hL : 0 < r.len) (hC : ∀ i, |r.center i| ≤ C) {eps : ℝ}
    (hord : Rounded.expansionOrder F.rnd F.rlog (Rounded.totalStrength F.rnd S) eps = .ok p) (hp0 : 0 < p) (hp : p ≤ 1029)
    (hbox : Rounded.sourceBox F.rnd S = some r) (hin : ∀ s ∈ S, r.exact.contains s.pos) {st : BuildState 2 (Source 2)} {nb : Nbh}
    (hb : Rounded.adaptiveLists F.rnd F.nrm fuel Source.pos r S max = .ok (st, h, nb))
    (hk : 100 * ((8 * h + 15) * (u * (4 * (C + r.len)))) < r.len / 2 ^ (h + 1)) (hm : Fl.ListsLe st.heap nb m) :
    ∃ T, BuiltBy F fuel t S max eps T ∧ T.order = p ∧ T.height = h ∧
      ∀ x, (∀ s ∈ S, θ ≤ dist2 s.pos x ∧ dist2 s.pos x ≤ 2 / θ) → ∀ f > h, ∀ grav,
        (∃ v, flPotential F f grav T S x = .ok v ∧ |v - directPotential grav S x| ≤ potError u r.len S p h m x) ∧
        ∀ feps, 0 ≤ feps → feps ≤ 1 / θ ^ 2 → ∃ v, flForce F feps f grav T S x = .ok v ∧
          dist2 v (directField grav S x feps) ≤ forceError u (r.len / 2 ^ h) S p h m feps x := by
  obtain ⟨T, h1, h2, h3, h6⟩ := C105_floor hF hsc h5 hlo hhi hq ht hL hC hord hp0 hp hbox hin hb hk hm
  have hq' : ∀ s ∈ S, Flr τ |s.q| := fun s hs => (hq s hs).imp_left fun e => by rw [e, abs_zero]
  refine ⟨T, h1, h2, h3, fun x hx f hf grav => ?_⟩
  have hne : ∀ s ∈ S, s.pos ≠ x := fun s hs e => by
    have := (hx s hs).1
    rw [e, ← norm_toC_sub, sub_self, norm_zero] at this
    linarith [hsc.th0]
  obtain ⟨lf, -, g2⟩ := h6 x
  obtain ⟨a, b⟩ := g2 f hf grav S
  by_cases hl : lf = none
  · obtain ⟨b1, b2⟩ := b hl
    rw [b1]
    simp only [b2]
    refine ⟨?_, fun feps he he' => ?_⟩
    · obtain ⟨v, v1, v2⟩ := Lo.potentialSum_unsafe hF hsc grav S x (fun s hs => Or.inr (hx s hs)) hq' hne
      exact ⟨v, v1, (v2.1 : |v - directPotential grav S x| ≤ _).trans (direct_le_potError hF.nonneg _ _)⟩
    · obtain ⟨v, v1, v2⟩ := Lo.forcefieldSum_unsafe hF hsc hp0 h5 grav S x feps he he' (fun s hs => Or.inr (hx s hs)) hq' hne
      refine ⟨v, v1, ?_⟩
      have e : dist2 v (directField grav S x feps) = ‖toC v - toC (directField grav S x feps)‖ := (norm_toC_sub _ _).symm
      rw [e]
      exact (v2.1).trans (direct_le_forceError hF.nonneg (by positivity) _ he)
  · exact a hl fun s hs => Or.inr (hx s hs).1

/-! ## Hypotheses about the sources only -/

theorem Flt.Low.rndFrom (hF : F.Low u η ρ) {b : ℝ} (hb : η ≤ b) : RndFrom F.rnd u b := fun _ hB x hx =>
  (hF.rndOn (hb.trans hB)).1 x hx

section
variable {d : ℕ} {r : RBox ℝ d} {S : List (Source d)} {M a : ℝ} {k : ℕ}

theorem Placed.margin_low [NeZero d] (hF : F.Low u η ρ) (hη : η ≤ 1 / 100000) (hM : η ≤ 1 / 1000 * M) (hW : Placed u S M a k) :
    ∃ r, Rounded.sourceBox F.rnd S = some r ∧ 2 * a < r.len ∧ r.len ≤ 3 * M ∧ (∀ i, |r.center i| ≤ 2 * M) ∧
      ∀ s ∈ S, ∀ i, |s.pos i - r.center i| < r.len / 2 - 180 * (u * M) := by
  have hne : S ≠ [] := by
    obtain ⟨s, hs, -⟩ := hW.low 0
    exact List.ne_nil_of_mem hs
  have ha := hW.pos
  have hu := hF.nonneg
  have hs := hF.small
  have q := hF.rnd (1 / 100000)
  rw [abs_of_pos (by norm_num : (0 : ℝ) < 1 / 100000), max_eq_left hη, abs_le] at q
  set P := F.rnd (1 / 100000) with hP
  have hP0 : 15 / 16 * (1 / 100000) ≤ P := by nlinarith [q.1]
  have hP1 : P ≤ 1 / 1000 := by nlinarith [q.2]
  have hM0 : 0 ≤ M := by
    obtain ⟨s, hs, -⟩ := hW.low 0
    exact (abs_nonneg _).trans (hW.bound s hs 0)
  have huM : 0 ≤ u * M := mul_nonneg hu hM0
  have hsmall : 200 * (u * M) < P * a := by
    have := hW.pad
    have : 15 / 16 * (1 / 100000) * a ≤ P * a := mul_le_mul_of_nonneg_right hP0 ha.le
    linarith
  have mg := fun (s : Source d) (hs : s ∈ S) (i : Fin d) =>
    Rounded.rootBox_from (ps := S.map Source.pos) (hF.rndFrom hM) hu (by linarith) hP1 ha
      (fun v hv i => by obtain ⟨s, hs, rfl⟩ := List.mem_map.mp hv; exact hW.bound s hs i)
      (fun i => by obtain ⟨s, hs, h⟩ := hW.low i; exact ⟨_, List.mem_map_of_mem hs, h⟩)
      (fun i => by obtain ⟨s, hs, h⟩ := hW.high i; exact ⟨_, List.mem_map_of_mem hs, h⟩)
      hsmall s.pos (List.mem_map_of_mem hs) i
  refine ⟨_, if_neg hne, ?_, ?_, ?_, ?_⟩
  · obtain ⟨s, hs, h1⟩ := hW.low 0
    obtain ⟨t, ht, h2⟩ := hW.high 0
    have a1 := abs_lt.mp (mg s hs 0).2.2.2.2.2
    have a2 := abs_lt.mp (mg t ht 0).2.2.2.2.2
    linarith [a1.1, a2.2]
  · obtain ⟨s, hs, h1⟩ := hW.low 0
    exact (mg s hs 0).2.1
  · intro i
    obtain ⟨s, hs, h1⟩ := hW.low i
    exact (mg s hs i).2.2.1
  · intro s hs i
    exact (mg s hs i).2.2.2.2.2

theorem Placed.box_low [NeZero d] (hF : F.Low u η ρ) (hη : η ≤ 1 / 100000) (hM : η ≤ 1 / 1000 * M) (hW : Placed u S M a k) :
    ∃ r, Rounded.sourceBox F.rnd S = some r ∧ 2 * a < r.len ∧ r.len ≤ 3 * M ∧ (∀ i, |r.center i| ≤ 2 * M) ∧
      ∀ s ∈ S, r.exact.contains s.pos := by
  obtain ⟨r, h0, h1, h2, h3, h4⟩ := hW.margin_low hF hη hM
  refine ⟨r, h0, h1, h2, h3, fun s hs => ?_⟩
  rw [Box.contains_iff]
  intro i
  have a1 := abs_lt.mp (h4 s hs i)
  have := mul_nonneg hF.nonneg ((abs_nonneg _).trans (hW.bound s hs i))
  simp only [Rounded.RBox.exact]
  constructor <;> linarith [a1.1, a1.2]

theorem WellPlaced.lists_low {nrm : Vec d → ℝ} (hF : F.Low u η ρ) (hn : ∀ v, |nrm v - Vec.norm v| ≤ u * Max.max (Vec.norm v) η)
    (hM : η ≤ M) (hW : WellPlaced u S M a k) (ha' : η ≤ 2 * a / 2 ^ k) (h1 : 2 * a < r.len)
    (h2 : r.len ≤ 3 * M) (h3 : ∀ i, |r.center i| ≤ 2 * M) (h4 : ∀ s ∈ S, r.exact.contains s.pos) (hmax : 1 ≤ max) :
    ∃ fuel st h nb, h ≤ k ∧ (∀ f ≥ fuel, Rounded.adaptiveLists F.rnd nrm f Source.pos r S max = .ok (st, h, nb)) ∧
      100 * ((8 * h + 15) * (u * (4 * (2 * M + r.len)))) < r.len / 2 ^ (h + 1) ∧
      Fl.ListsLe st.heap nb (2 ^ d * (h * S.length) + 1) := by
  have ha := hW.pos
  have hu := hF.nonneg
  have hL : 0 < r.len := by linarith
  have hM0 : 0 < M := by linarith
  have huM : u * (4 * (2 * M + r.len)) ≤ 20 * (u * M) := by nlinarith
  have hu0 : 0 ≤ u * (4 * (2 * M + r.len)) := by positivity
  have hk := hW.fine' hu h1 h2
  have hk0 := hk k le_rfl
  have H : RndOn F.rnd u (4 * (2 * M + r.len)) := hF.rndOn (by linarith)
  have hu3 := Fl.small_u hL (by linarith : 0 ≤ 2 * M) hu hk0
  obtain ⟨st, h, hb, hh⟩ := Rounded.terminates_on (pos := Source.pos) (max := max) hu hL (C := 2 * M)
    (by linarith) H h3 k (by
      have : 0 ≤ (8 * (k : ℝ) + 15) * (u * (4 * (2 * M + r.len))) := by positivity
      linarith) h4 (by
      refine hW.apart.imp ?_
      rintro s t ⟨i, hi⟩
      refine ⟨i, lt_of_le_of_lt ?_ hi⟩
      refine add_le_add (div_le_div_of_nonneg_right h2 (by positivity)) ?_
      have := mul_le_mul_of_nonneg_left huM (by positivity : (0 : ℝ) ≤ 8 * k)
      linarith) hmax k le_rfl
  have hnrm : ∀ v, r.len / 2 ^ h ≤ Vec.norm v → 999 / 1000 * Vec.norm v ≤ nrm v := fun v hv => by
    have e1 : 2 * a / 2 ^ k ≤ r.len / 2 ^ h := by
      refine (div_le_div_of_nonneg_right h1.le (by positivity)).trans ?_
      exact div_le_div_of_nonneg_left hL.le (by positivity) (pow_le_pow_right₀ (by norm_num) hh)
    have e2 := hn v
    rw [max_eq_left (ha'.trans (e1.trans hv))] at e2
    have a := (abs_le.mp e2).1
    have b : 0 ≤ Vec.norm v := Vec.norm_nonneg v
    nlinarith
  obtain ⟨nb, f0, hf⟩ := Rounded.no_throw_on (nrm := nrm) (C := 2 * M) hu hL (by linarith) H h3 h hnrm k st hb (hk h hh)
  exact ⟨f0, st, h, nb, hh, hf, hk h hh, Fl.listsLe_on hu hL (by linarith) H h3 hnrm (hf f0 le_rfl) (hk h hh)⟩

end

/-- **C105** The same for well placed sources: everything follows from properties of the sources. -/
theorem C105_floor_well_placed {M a : ℝ} {k : ℕ} (hF : F.Low u η ρ) (hsc : Scale η ρ θ τ p) (hη : η ≤ 1 / 100000)
    (h5 : θ ≤ 1 / 5) (hW : WellPlaced u S M a k) (hlo : θ ≤ 36 / 25 * (a / 2 ^ k)) (hhi : θ * (6 * M) ≤ 1)
    (hMη : 1000 * η ≤ M) (hq : ∀ s ∈ S, s.q = 0 ∨ τ ≤ |s.q|) (hmax : 1 ≤ max) {t : BinomialTable}
    (ht : Reachable t) {eps : ℝ} (hord : Rounded.expansionOrder F.rnd F.rlog (Rounded.totalStrength F.rnd S) eps = .ok p)
    (hp0 : 0 < p) (hp : p ≤ 1029) :
    ∃ r h fuel T, Rounded.sourceBox F.rnd S = some r ∧ 2 * a < r.len ∧ r.len ≤ 3 * M ∧ (∀ s ∈ S, r.exact.contains s.pos) ∧
      h ≤ k ∧ (∀ f ≥ fuel, BuiltBy F f t S max eps T) ∧ T.order = p ∧ T.height = h ∧
      ∀ x, (∀ s ∈ S, θ ≤ dist2 s.pos x ∧ dist2 s.pos x ≤ 2 / θ) → ∀ f > h, ∀ grav,
        (∃ v, flPotential F f grav T S x = .ok v ∧
          |v - directPotential grav S x| ≤ potError u r.len S p h (4 * (h * S.length) + 1) x) ∧
        ∀ feps, 0 ≤ feps → feps ≤ 1 / θ ^ 2 → ∃ v, flForce F feps f grav T S x = .ok v ∧
          dist2 v (directField grav S x feps) ≤ forceError u (r.len / 2 ^ h) S p h (4 * (h * S.length) + 1) feps x := by
  obtain ⟨r, h0, h1, h2, h3, h4⟩ := hW.box_low hF hη (by linarith)
  have ha := hW.pos
  have hL : 0 < r.len := by linarith
  have hθη : η ≤ θ := hsc.le le_rfl
  have hη0 := hsc.eta
  obtain ⟨fuel, st, h, nb, hh, hf, hk, hm⟩ := hW.lists_low hF hF.nrm (by linarith) (by
    have : (36 : ℝ) / 25 * (a / 2 ^ k) ≤ 2 * a / 2 ^ k := by
      rw [mul_div_assoc]; exact mul_le_mul_of_nonneg_right (by norm_num) (by positivity)
    linarith) h1 h2 h3 h4 hmax
  have e1 : 2 * a / 2 ^ k ≤ r.len / 2 ^ h := by
    refine (div_le_div_of_nonneg_right h1.le (by positivity)).trans ?_
    exact div_le_div_of_nonneg_left hL.le (by positivity) (pow_le_pow_right₀ (by norm_num) hh)
  obtain ⟨T, t1, t2, t3, t4⟩ := C105_floor_everywhere hF hsc h5 (by rw [mul_div_assoc] at e1; linarith)
    (by have := hsc.th0; nlinarith) hq ht hL h3 hord hp0 hp h0 h4 (hf fuel le_rfl) hk hm
  exact ⟨r, h, fuel, T, h0, h1, h2, h4, hh, fun f hge => t1.of_fuel h0 ((hf fuel le_rfl).trans (hf f hge).symm), t2, t3, t4⟩

end FMM
