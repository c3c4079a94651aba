import Verif.FltForceTree3
import Verif.PropsFltForceErr3
import Verif.PropsFltBalanced3

/-!
# C89, C90: forces of the trees in space in floating-point arithmetic
-/

namespace FMM
variable {F : Flt3} {u g s C : ℝ} {r : Rounded.RBox ℝ 3} {S : List (Source 3)} {max fuel h p m κ κ' : ℕ}

/-- Bound of the error of a component of the computed force: truncation; rounding of the angles; smoothing, which the far field
ignores; rounding.  `a` is the side length of the smallest box. -/
noncomputable def forceError3 (u s : ℝ) (κ κ' : ℕ) (a : ℝ) (S : List (Source 3)) (p h m : ℕ) (feps : ℝ) (x : Vec 3) (j : Fin 3) : ℝ :=
  (S.map fun s => |s.q|).sum * ((8 / 9) ^ p * ((5 * p + 35) / a ^ 2) + 8800 * (u / s) / a ^ 2 + 3125 * feps / a ^ 5)
    + ((1 + u) ^ (roundings3 κ S.length h m + forceRoundings p κ') - 1)
      * ((S.map fun s => |s.q|).sum * (18 * p * Real.sqrt (2 * p + 1) / a ^ 2) + absField3 S x feps j)

theorem forceBound3_eq (feps : ℝ) (x : Vec 3) (j : Fin 3) :
    Fl3.forceBound u s κ κ' r.exact S p h m feps x j = forceError3 u s κ κ' (r.len / 2 ^ h) S p h m feps x j := by
  unfold Fl3.forceBound forceError3 Fl3.forceTail3 Fl3.tailF3 Fl3.majorF3 Fl3.evalCount roundings3 Fl3.side Fl3.fcost forceRoundings
  rw [totalStrength_sum]
  simp only [Rounded.RBox.exact]
  ring

theorem direct_le_forceError3 (hu : 0 ≤ u) (hs : 0 < s) {a : ℝ} (ha : 0 < a) {feps : ℝ} (hf : 0 ≤ feps) (x : Vec 3) (j : Fin 3) :
    ((1 + u) ^ (S.length + 21) - 1) * absField3 S x feps j ≤ forceError3 u s κ κ' a S p h m feps x j := by
  have h1 : (1 + u) ^ (S.length + 21) ≤ (1 + u) ^ (roundings3 κ S.length h m + forceRoundings p κ') :=
    pow_le_pow_right₀ (by linarith) (by unfold roundings3; nlinarith [Nat.zero_le (h * (2 * κ + 10 + m))])
  have h2 : (1 : ℝ) ≤ (1 + u) ^ (roundings3 κ S.length h m + forceRoundings p κ') := one_le_pow₀ (by linarith)
  have hA : 0 ≤ (S.map fun s => |s.q|).sum := by rw [totalStrength_sum]; exact totalStrength_nonneg S
  have hB := Fl3.absField3_nonneg S x hf j
  unfold forceError3
  have h3 : ((1 + u) ^ (S.length + 21) - 1) * absField3 S x feps j
      ≤ ((1 + u) ^ (roundings3 κ S.length h m + forceRoundings p κ') - 1) * absField3 S x feps j :=
    mul_le_mul_of_nonneg_right (by linarith) hB
  have h4 : 0 ≤ ((1 + u) ^ (roundings3 κ S.length h m + forceRoundings p κ') - 1)
      * ((S.map fun s => |s.q|).sum * (18 * p * Real.sqrt (2 * p + 1) / a ^ 2)) :=
    mul_nonneg (by linarith) (by positivity)
  have h5 : 0 ≤ (S.map fun s => |s.q|).sum * ((8 / 9) ^ p * ((5 * p + 35) / a ^ 2) + 8800 * (u / s) / a ^ 2 + 3125 * feps / a ^ 5) := by
    positivity
  rw [mul_add]
  linarith

theorem AngleCost.u_le32 (ha : AngleCost u g s p κ') : u ≤ 1 / 32 := by
  obtain ⟨h1, h2, h3, h4, -⟩ := ha
  have h5 : s ^ 2 ≤ 1 := pow_le_one₀ h1.le h2
  have h6 : (32 : ℝ) ≤ κ' := by nlinarith [Nat.cast_nonneg (α := ℝ) κ']
  by_contra hc
  push Not at hc
  nlinarith

/-- The computed force. -/
noncomputable def flForce3 (F : Flt3) (feps : ℝ) (fuel : ℕ) (grav : Bool) (T : AdaptiveFmm (Fl3.kit F)) (cur : List (Source 3)) (x : Vec 3) :
    Outcome (Vec 3) :=
  Rounded.adaptiveEval F.rnd F.vadd (fun a => -a) (Fl3.force F feps) fuel grav T cur x

/-- **C89** The adaptive tree built as in C85.  At a point that the look-up finds in a leaf, off the axes of the computed box of
this leaf and of the boxes of its list W, every component of the force has the error bound `forceError3`, whatever the
current content of the caller's vector of sources; if the look-up finds no leaf, the force is the direct sum. -/
theorem C89_adaptive (hF : F.OkD u g) (hκ : OpCost u g p κ) (ha : AngleCost u g s p κ') {t : Stat3} (ht : Reachable3 t) (hL : 0 < r.len)
    (hC : ∀ i, |r.center i| ≤ C) {eps : ℝ}
    (hord : Rounded.expansionOrder F.rnd F.rlog (Rounded.totalStrength F.rnd S) eps = .ok p) (hp0 : 0 < p) (hp : p ≤ 42)
    (hbox : Rounded.sourceBox F.rnd S = some r) (hin : ∀ s ∈ S, r.exact.contains s.pos) {st : BuildState 3 (Source 3)} {nb : Nbh}
    (hb : Rounded.adaptiveLists F.rnd F.nrm3 fuel Source.pos r S max = .ok (st, h, nb))
    (hk : 100 * ((8 * h + 15) * (u * (4 * (C + r.len)))) < r.len / 2 ^ (h + 1)) (hm : Fl.ListsLe st.heap nb m) :
    ∃ T, BuiltBy3 F fuel t S max eps T ∧ T.order = p ∧ T.height = h ∧
      ∀ x, ∃ lf, (∀ f > h, Rounded.getContainingLeaf F.rnd f T.heap x = .ok lf) ∧
        (∀ l, lf = some l → l.length ≤ h ∧ ∀ ρ ∈ nb.W l, ρ.length ≤ h) ∧ ∀ f > h, ∀ grav cur, ∀ feps ≥ 0,
        (∀ l, lf = some l → OffAxis s (Rounded.boxAt F.rnd r l).center x → (∀ ρ ∈ nb.W l, OffAxis s (Rounded.boxAt F.rnd r ρ).center x) →
          ∃ v, flForce3 F feps f grav T cur x = .ok v ∧
            ∀ j, |v j - directField grav S x feps j| ≤ forceError3 u s κ κ' (r.len / 2 ^ h) S p h m feps x j) ∧
        (lf = none → flForce3 F feps f grav T cur x = Fl3.forcefieldSum F grav false cur x feps) := by
  obtain ⟨T, h1, h2, h3, h4, h5⟩ := Fl3.adaptive_flt_force hF hκ.cost ha.frame ht.good.1 hL hC hord hp0 hp hbox hin hb hk hm
  refine ⟨T, h1, h2, h3, fun x => ?_⟩
  obtain ⟨lf, g1, g2⟩ := h5 x
  rw [h4]
  refine ⟨lf, g1, fun l hl => (g2 l hl).1, fun f hf grav cur feps hfe => ⟨fun l hl hc hW => ?_, fun hn => ?_⟩⟩
  · have := (g2 l hl).2 hc.clear (fun ρ hρ => (hW ρ hρ).clear) f hf grav cur feps hfe
    simp only [forceBound3_eq] at this
    exact this
  · subst hn
    unfold flForce3 Rounded.adaptiveEval
    rw [h4, g1 f hf]
    rfl

/-- **C89** At every point other than the sources that is off the axes of all computed boxes down to the height of the tree, and as
long as the caller's vector of sources is unchanged, the bound holds whether the look-up finds a leaf or not. -/
theorem C89_everywhere (hF : F.OkD u g) (hκ : OpCost u g p κ) (ha : AngleCost u g s p κ') {t : Stat3} (ht : Reachable3 t) (hL : 0 < r.len)
    (hC : ∀ i, |r.center i| ≤ C) {eps : ℝ}
    (hord : Rounded.expansionOrder F.rnd F.rlog (Rounded.totalStrength F.rnd S) eps = .ok p) (hp0 : 0 < p) (hp : p ≤ 42)
    (hbox : Rounded.sourceBox F.rnd S = some r) (hin : ∀ s ∈ S, r.exact.contains s.pos) {st : BuildState 3 (Source 3)} {nb : Nbh}
    (hb : Rounded.adaptiveLists F.rnd F.nrm3 fuel Source.pos r S max = .ok (st, h, nb))
    (hk : 100 * ((8 * h + 15) * (u * (4 * (C + r.len)))) < r.len / 2 ^ (h + 1)) (hm : Fl.ListsLe st.heap nb m) :
    ∃ T, BuiltBy3 F fuel t S max eps T ∧ T.order = p ∧ T.height = h ∧ ∀ x, (∀ s ∈ S, s.pos ≠ x) →
      (∀ π : Path, π.length ≤ h → OffAxis s (Rounded.boxAt F.rnd r π).center x) → ∀ f > h, ∀ grav, ∀ feps ≥ 0,
      ∃ v, flForce3 F feps f grav T S x = .ok v ∧
        ∀ j, |v j - directField grav S x feps j| ≤ forceError3 u s κ κ' (r.len / 2 ^ h) S p h m feps x j := by
  obtain ⟨T, h1, h2, h3, h5⟩ := C89_adaptive hF hκ ha ht hL hC hord hp0 hp hbox hin hb hk hm
  refine ⟨T, h1, h2, h3, fun x hx hax f hf grav feps hfe => ?_⟩
  obtain ⟨lf, -, g1, g2⟩ := h5 x
  obtain ⟨a, b⟩ := g2 f hf grav S feps hfe
  cases lf with
  | none =>
    rw [b rfl]
    obtain ⟨v, v1, v2⟩ := Fl3.forcefieldSum_unsafe hF.toOk3 ha.u_le32 grav S x feps hfe hx
    exact ⟨v, v1, fun j => ((v2 j).1 : |v j - directField grav S x feps j| ≤ _).trans
      (direct_le_forceError3 hF.nonneg ha.1 (by positivity) hfe _ _)⟩
  | some l => exact a l rfl (hax l (g1 l rfl).1) fun ρ hρ => hax ρ ((g1 l rfl).2 ρ hρ)

/-- **C89** For well placed sources everything follows from properties of the sources, as in C85. -/
theorem C89_well_placed {M a : ℝ} {k : ℕ} (hF : F.OkD u g) (hκ : OpCost u g p κ) (hc : AngleCost u g s p κ') (hW : WellPlaced u S M a k)
    (hmax : 1 ≤ max) {t : Stat3} (ht : Reachable3 t) {eps : ℝ}
    (hord : Rounded.expansionOrder F.rnd F.rlog (Rounded.totalStrength F.rnd S) eps = .ok p) (hp0 : 0 < p) (hp : p ≤ 42) :
    ∃ r h fuel T, Rounded.sourceBox F.rnd S = some r ∧ 2 * a < r.len ∧ r.len ≤ 3 * M ∧ (∀ s ∈ S, r.exact.contains s.pos) ∧
      h ≤ k ∧ (∀ f ≥ fuel, BuiltBy3 F f t S max eps T) ∧ T.order = p ∧ T.height = h ∧
      ∀ x, (∀ s ∈ S, s.pos ≠ x) → (∀ π : Path, π.length ≤ h → OffAxis s (Rounded.boxAt F.rnd r π).center x) →
        ∀ f > h, ∀ grav, ∀ feps ≥ 0, ∃ v, flForce3 F feps f grav T S x = .ok v ∧
        ∀ j, |v j - directField grav S x feps j| ≤ forceError3 u s κ κ' (r.len / 2 ^ h) S p h (8 * (h * S.length) + 1) feps x j := by
  have hE := hF.toOk3
  obtain ⟨r, h0, h1, h2, h3, h4⟩ := hW.box hE.toOk
  have h4 := hW.contains hE.toOk h4
  obtain ⟨fuel, st, h, nb, hh, hf, hk⟩ := hW.lists hE.nrm3 hE.toOk h1 h2 h3 h4 hmax
  have ha := hW.pos
  have hL : 0 < r.len := by linarith
  have hM : 0 ≤ 2 * M := by linarith
  have hu3 := Fl.small_u hL hM hF.nonneg hk
  have hm := Fl.listsLe_count (S := S) (max := max) hE.rnd hF.nonneg hL hM h3 (fun v => by
    have a := (abs_le.mp (hE.nrm3 v)).1
    have b : 0 ≤ Vec.norm v := Vec.norm_nonneg v
    nlinarith) (hf fuel le_rfl) hk
  obtain ⟨T, t1, t2, t3, t4⟩ := C89_everywhere hF hκ hc ht hL h3 hord hp0 hp h0 h4 (hf fuel le_rfl) hk hm
  exact ⟨r, h, fuel, T, h0, h1, h2, h4, hh, fun f hge => t1.of_fuel h0 ((hf fuel le_rfl).trans (hf f hge).symm), t2, t3, t4⟩

/-- The computed force. -/
noncomputable def flForceB3 (F : Flt3) (feps : ℝ) (grav : Bool) (T : BalancedFmm (Fl3.kit F)) (x : Vec 3) : Outcome (Vec 3) :=
  Rounded.balancedEval F.rnd F.vadd (fun a => -a) (Fl3.force F feps) grav T x

/-- **C90** The balanced tree built as in C86.  At a point whose computed indices are in range, off the axis of the computed box
of its leaf, every component of the force has the error bound of C89, with at most 27 near neighbours; at a point whose
computed indices are not in range the evaluation fails with the error of the index computation. -/
theorem C90_balanced {perCell : ℕ} (hF : F.OkD u g) (hκ : OpCost u g p κ) (ha : AngleCost u g s p κ') {t : Stat3} (ht : Reachable3 t)
    (hL : 0 < r.len) (hC : ∀ i, |r.center i| ≤ C) {eps : ℝ}
    (hord : Rounded.expansionOrder F.rnd F.rlog (Rounded.totalStrength F.rnd S) eps = .ok p) (hp0 : 0 < p) (hp : p ≤ 42)
    (hht : Rounded.balancedHeight F.rnd F.rlog 3 S.length perCell = .ok h) (h10 : h ≤ 10)
    (hbox : Rounded.sourceBox F.rnd S = some r)
    (hk : 100 * ((8 * h + 15) * (u * (4 * (C + r.len)))) < r.len / 2 ^ (h + 1))
    (h0 : h = 0 → ∀ s ∈ S, r.exact.contains s.pos)
    (hx : h = 0 ∨ ∀ s ∈ S, ∃ idx, Rounded.leafIndices F.rnd r h s.pos = .ok idx) :
    ∃ T, BuiltByB3 F t S perCell eps T ∧ T.order = p ∧ T.height = h ∧ ∀ x grav,
      (∀ e, Rounded.leafIndices F.rnd r h x = .error e → ∀ feps, flForceB3 F feps grav T x = .error e) ∧
      (∀ idx, Rounded.leafIndices F.rnd r h x = .ok idx → OffAxis s (Rounded.boxAt F.rnd r (pathOfGrid h idx)).center x → ∀ feps ≥ 0,
        ∃ v, flForceB3 F feps grav T x = .ok v ∧
          ∀ j, |v j - directField grav S x feps j| ≤ forceError3 u s κ κ' (r.len / 2 ^ h) S p h 27 feps x j) := by
  obtain ⟨T, h1, h2, h3, h4⟩ := Fl3.balanced_flt_force hF hκ.cost ha.frame ht.good.1 hL hC hord hp0 hp hht h10 hbox hk h0 hx
  simp only [forceBound3_eq] at h4
  exact ⟨T, ⟨_, h1⟩, h2, h3, fun x grav => ⟨(h4 x grav).1, fun idx hi hA feps hfe => (h4 x grav).2 idx hi hA.clear feps hfe⟩⟩

/-- **C90** For sources around the origin everything follows from their positions and the computed height, as in C86. -/
theorem C90_placed {perCell : ℕ} {M a : ℝ} {k : ℕ} (hF : F.OkD u g) (hκ : OpCost u g p κ) (hc : AngleCost u g s p κ')
    (hW : Placed u S M a k) {t : Stat3} (ht : Reachable3 t)
    {eps : ℝ} (hord : Rounded.expansionOrder F.rnd F.rlog (Rounded.totalStrength F.rnd S) eps = .ok p) (hp0 : 0 < p) (hp : p ≤ 42)
    (hht : Rounded.balancedHeight F.rnd F.rlog 3 S.length perCell = .ok h) (hhk : h ≤ k) (h10 : h ≤ 10) :
    ∃ r T, Rounded.sourceBox F.rnd S = some r ∧ 2 * a < r.len ∧ r.len ≤ 3 * M ∧ (∀ s ∈ S, r.exact.contains s.pos) ∧
      BuiltByB3 F t S perCell eps T ∧ T.order = p ∧ T.height = h ∧
      ∀ x, (x ∈ S.map Source.pos ∨ ∀ i, |x i - r.center i| < r.len / 2 - 180 * (u * M)) →
        (∀ π : Path, π.length = h → OffAxis s (Rounded.boxAt F.rnd r π).center x) → ∀ grav, ∀ feps ≥ 0,
        ∃ v, flForceB3 F feps grav T x = .ok v ∧
          ∀ j, |v j - directField grav S x feps j| ≤ forceError3 u s κ κ' (r.len / 2 ^ h) S p h 27 feps x j := by
  have hE := hF.toOk3
  obtain ⟨r, h0, h1, h2, h3, h4⟩ := hW.box hE.toOk
  have h5 := hW.contains hE.toOk h4
  have hu := hF.nonneg
  have ha := hW.pos
  have hL : 0 < r.len := by linarith
  have hM : 0 ≤ 2 * M := by linarith
  have hk := hW.fine' hu h1 h2 h hhk
  have hk0 := hW.fine' hu h1 h2 0 (Nat.zero_le _)
  have hin : ∀ x : Vec 3, (∀ i, |x i - r.center i| < r.len / 2 - 180 * (u * M)) →
      ∃ idx, Rounded.leafIndices F.rnd r h x = .ok idx := by
    intro x hx
    refine Rounded.C69_inside hE.rnd hu (Rounded.small_u hu hL hM hk) hL hM h3 (by omega) ?_ x fun i => ?_
    · have : 0 ≤ u * (4 * (2 * M + r.len)) := by positivity
      simp only [Nat.cast_zero, mul_zero, zero_add, pow_one] at hk0
      linarith
    · refine lt_of_lt_of_le (hx i) ?_
      have : u * (4 * (2 * M + r.len)) ≤ 20 * (u * M) := by nlinarith
      linarith
  obtain ⟨T, t1, t2, t3, t4⟩ := C90_balanced hF hκ hc ht hL h3 hord hp0 hp hht h10 h0 hk (fun _ => h5)
    (Or.inr fun s hs => hin _ (h4 s hs))
  refine ⟨r, T, h0, h1, h2, h5, t1, t2, t3, fun x hx hax grav feps hfe => ?_⟩
  obtain ⟨idx, hi⟩ : ∃ idx, Rounded.leafIndices F.rnd r h x = .ok idx := by
    rcases hx with hx | hx
    · obtain ⟨s, hs, rfl⟩ := List.mem_map.mp hx
      exact hin _ (h4 s hs)
    · exact hin _ hx
  exact (t4 x grav).2 idx hi (hax _ (pathOfGrid_length h idx)) feps hfe

/-! ## `double`s -/

/-- **C89**, **C90** `double`s, at most a billion sources, height at most 10, lists of at most a million members, angles of at least
`2 ^ -15`: the rounding errors of the arithmetic amount to less than 2% of the majorant. -/
theorem C89_double {k : ℕ} (hk : k ≤ 15) (hp : p ≤ 42) (hN : S.length ≤ 10 ^ 9) (hh : h ≤ 10) (hm : m ≤ 10 ^ 6) {a : ℝ} (ha : 0 < a)
    {feps : ℝ} (hf : 0 ≤ feps) (x : Vec 3) (j : Fin 3) :
    OpCost (1 / 2 ^ 49) (1 / 2 ^ 52) p (2 ^ 37) ∧ AngleCost (1 / 2 ^ 49) (1 / 2 ^ 52) (1 / 2 ^ k) p (2 ^ (2 * k + 5)) ∧
    forceError3 (1 / 2 ^ 49) (1 / 2 ^ k) (2 ^ 37) (2 ^ (2 * k + 5)) a S p h m feps x j
      ≤ (S.map fun s => |s.q|).sum * ((8 / 9) ^ p * ((5 * p + 35) / a ^ 2) + 1 / 10 ^ 6 / a ^ 2 + 3125 * feps / a ^ 5)
        + 1 / 50 * ((S.map fun s => |s.q|).sum * (18 * p * Real.sqrt (2 * p + 1) / a ^ 2) + absField3 S x feps j) := by
  refine ⟨double_cost hp, double_angle hp (by omega), ?_⟩
  have hA : 0 ≤ (S.map fun s => |s.q|).sum := by rw [totalStrength_sum]; exact totalStrength_nonneg S
  have hB := Fl3.absField3_nonneg S x hf j
  unfold forceError3
  refine add_le_add (mul_le_mul_of_nonneg_left ?_ hA) (mul_le_mul_of_nonneg_right ?_ (by positivity))
  · refine add_le_add (add_le_add le_rfl (div_le_div_of_nonneg_right ?_ (by positivity))) le_rfl
    have h2 : (2 : ℝ) ^ k ≤ 2 ^ 15 := pow_le_pow_right₀ (by norm_num) hk
    rw [show (1 / 2 ^ 49 / (1 / 2 ^ k) : ℝ) = 2 ^ k / 2 ^ 49 by field_simp]
    linarith
  · have hn : roundings3 (2 ^ 37) S.length h m + forceRoundings p (2 ^ (2 * k + 5)) ≤ 4 * 10 ^ 12 := by
      unfold roundings3 forceRoundings
      have h1 : h * (2 * 2 ^ 37 + 10 + m) ≤ 10 * (2 * 2 ^ 37 + 10 + 10 ^ 6) := Nat.mul_le_mul hh (by omega)
      have h2 : 2 ^ (2 * k + 5) ≤ 2 ^ 35 := Nat.pow_le_pow_right (by norm_num) (by omega)
      have h3 : (p + 1) ^ 2 ≤ 43 ^ 2 := Nat.pow_le_pow_left (by omega) 2
      norm_num at h1 h2 h3 hN hm ⊢
      omega
    have hn' : ((roundings3 (2 ^ 37) S.length h m + forceRoundings p (2 ^ (2 * k + 5)) : ℕ) : ℝ) ≤ 4 * 10 ^ 12 := by exact_mod_cast hn
    have h1 : ((roundings3 (2 ^ 37) S.length h m + forceRoundings p (2 ^ (2 * k + 5)) : ℕ) : ℝ) * (1 / 2 ^ 49) ≤ 1 / 100 :=
      (mul_le_mul_of_nonneg_right hn' (by norm_num)).trans (by norm_num)
    have := pow_le_one_add (v := 1 / 2 ^ 49) (by norm_num) _ (h1.trans (by norm_num))
    linarith

theorem offAxis_of {c x : Vec 3} {a B : ℝ} (h : a ≤ |x 0 - c 0| ∨ a ≤ |x 1 - c 1|) (hB : ∀ j, |x j - c j| ≤ B) (ha : 0 < a)
    (hs0 : 0 ≤ s) (hs : s * (2 * B) ≤ a) : OffAxis s c x := by
  have hB0 : 0 ≤ B := (abs_nonneg _).trans (hB 0)
  have hd : dist2 x c ≤ 2 * B := by
    rw [← len3_eq_dist2]
    exact Fl3.len_le_of_coord hB (by linarith) (by nlinarith)
  have hy : a ≤ Real.sqrt ((x 0 - c 0) ^ 2 + (x 1 - c 1) ^ 2) := by
    rcases h with h | h
    · exact h.trans (Real.abs_le_sqrt (by nlinarith [sq_nonneg (x 1 - c 1)]))
    · exact h.trans (Real.abs_le_sqrt (by nlinarith [sq_nonneg (x 0 - c 0)]))
  refine ⟨fun e => ?_, (mul_le_mul_of_nonneg_left hd hs0).trans (hs.trans hy)⟩
  subst e
  rcases h with h | h <;> rw [sub_self, abs_zero] at h <;> linarith

/-- The boxes of the tree over the eight charges, up to depth 1. -/
theorem S8_axes {r : Rounded.RBox ℝ 3} (h1 : 6 < r.len) (h2 : r.len ≤ 9) (h3 : ∀ s ∈ S8, r.exact.contains s.pos) (hh : h ≤ 1) {π : Path}
    (hπ : π.length ≤ h) : OffAxis (1 / 2 ^ 5) (Rounded.boxAt Flt3.ieee.rnd r π).center ![5 / 2, 0, 0] := by
  have hc : ∀ i, |r.center i| ≤ r.len / 2 - 3 := fun i => by
    have c1 := (Box.contains_iff _ _).mp (h3 ⟨![3, 3, 3], 1⟩ (by simp [S8])) i
    have c2 := (Box.contains_iff _ _).mp (h3 ⟨![-3, -3, -3], 1⟩ (by simp [S8])) i
    have e1 : (![3, 3, 3] : Vec 3) i = 3 := by fin_cases i <;> rfl
    have e2 : (![-3, -3, -3] : Vec 3) i = -3 := by fin_cases i <;> rfl
    simp only [e1, e2, Rounded.RBox.exact] at c1 c2
    rw [abs_le]
    constructor <;> linarith [c1.1, c1.2, c2.1, c2.2]
  have hL : 0 < r.len := by linarith
  have hh' : (h : ℝ) ≤ 1 := by exact_mod_cast hh
  have hp2 : (2 : ℝ) ^ (h + 1) ≤ 2 ^ 2 := pow_le_pow_right₀ (by norm_num) (by omega)
  have G := Fl3.geo_of (h := h) (C := 2) Flt3.ieee_ok.rnd Flt3.ieee_ok.nonneg hL (by norm_num) (fun i => (hc i).trans (by linarith)) (by
    refine lt_of_lt_of_le (b := 1) ?_ ?_
    · have : 100 * ((8 * (h : ℝ) + 15) * (1 / 2 ^ 49 * (4 * (2 + r.len)))) ≤ 100 * ((8 * 1 + 15) * (1 / 2 ^ 49 * (4 * (2 + 9)))) := by
        gcongr
      refine this.trans_lt (by norm_num)
    · rw [le_div_iff₀ (by positivity)]; linarith)
  have hn : ∀ j, |(Rounded.boxAt Flt3.ieee.rnd r π).center j - (boxAt r.exact π).center j| ≤ 1 / 40 := fun j => by
    refine (G.near π hπ j).trans ?_
    have : r.exact.len / 2 ^ h ≤ r.exact.len := div_le_self hL.le (one_le_pow₀ (by norm_num))
    have e : r.exact.len = r.len := rfl
    rw [e] at this ⊢
    linarith
  have x0 : (![5 / 2, 0, 0] : Vec 3) 0 = 5 / 2 := rfl
  have x1 : (![5 / 2, 0, 0] : Vec 3) 1 = 0 := rfl
  have xj : ∀ j, |(![5 / 2, 0, 0] : Vec 3) j| ≤ 5 / 2 := fun j => by fin_cases j <;> norm_num [abs_of_pos]
  match π, hπ with
  | [], _ =>
    have hn0 : ∀ j, |(Rounded.boxAt Flt3.ieee.rnd r []).center j| ≤ 8 / 5 := fun j => by
      have a := hc j
      show |r.center j| ≤ 8 / 5
      linarith
    refine offAxis_of (a := 9 / 10) (B := 41 / 10) (Or.inl ?_) (fun j => ?_) (by norm_num) (by norm_num) (by norm_num)
    · rw [x0]
      have := abs_le.mp (hn0 0)
      exact le_trans (by linarith [this.1, this.2]) (le_abs_self _)
    · exact (abs_sub _ _).trans (by linarith [xj j, hn0 j])
  | [i], _ =>
    have hcc : ∀ j, |(boxAt r.exact [i]).center j - r.center j| = r.len / 4 := fun j => by
      have := Fl3.child_center r.exact i [] j
      rw [List.length_nil, zero_add] at this
      have e : |Fl3.side r.exact 1 / 2| = r.len / 4 := by
        have : Fl3.side r.exact 1 / 2 = r.len / 4 := by
          show r.len / 2 ^ 1 / 2 = r.len / 4
          ring
        rw [this, abs_of_pos (by linarith)]
      rw [e] at this
      exact this
    refine offAxis_of (a := 7 / 10) (B := 7) (Or.inr ?_) (fun j => ?_) (by norm_num) (by norm_num) (by norm_num)
    · rw [x1, zero_sub, abs_neg]
      have a1 := hn 1
      have a2 := hcc 1
      have a3 := hc 1
      have a4 := abs_sub_abs_le_abs_sub ((boxAt r.exact [i]).center 1 - r.center 1) (-r.center 1)
      have a5 := abs_sub_abs_le_abs_sub ((boxAt r.exact [i]).center 1) ((Rounded.boxAt Flt3.ieee.rnd r [i]).center 1)
      rw [abs_sub_comm] at a5
      rw [sub_neg_eq_add, sub_add_cancel, abs_neg] at a4
      linarith
    · have a1 := hn j
      have a2 := hcc j
      have a3 := hc j
      have a4 := abs_sub_le (![5 / 2, 0, 0] j) 0 ((Rounded.boxAt Flt3.ieee.rnd r [i]).center j)
      have a5 := abs_sub_le 0 ((boxAt r.exact [i]).center j) ((Rounded.boxAt Flt3.ieee.rnd r [i]).center j)
      have a6 := abs_sub_le 0 (r.center j) ((boxAt r.exact [i]).center j)
      rw [sub_zero] at a4
      rw [zero_sub, abs_neg, zero_sub, abs_neg, abs_sub_comm] at a6
      rw [zero_sub, abs_neg, zero_sub, abs_neg, abs_sub_comm ((boxAt r.exact [i]).center j)] at a5
      rw [zero_sub, abs_neg] at a4
      linarith [xj j]
  | _ :: _ :: _, hπ => simp at hπ; omega

/-- Non-vacuity: eight charges, one source per leaf, `double`s: the adaptive tree is built, and the force at `(5/2, 0, 0)` is
computed with the stated error. -/
example : ∃ r h fuel T v, Rounded.sourceBox Flt3.ieee.rnd S8 = some r ∧ h ≤ 1 ∧ BuiltBy3 Flt3.ieee fuel (Stat3.init 0 0 0) S8 1 4 T ∧
    T.order = 1 ∧ flForce3 Flt3.ieee 0 fuel true T S8 ![5 / 2, 0, 0] = .ok v ∧
    ∀ j, |v j - directField true S8 ![5 / 2, 0, 0] 0 j|
      ≤ forceError3 (1 / 2 ^ 49) (1 / 2 ^ 5) (2 ^ 37) (2 ^ 15) (r.len / 2 ^ h) S8 1 h (8 * (h * 8) + 1) 0 ![5 / 2, 0, 0] j := by
  obtain ⟨r, h, fuel, T, h0, k1, k2, k3, h1, h2, h3, h4, h5⟩ := C89_well_placed (max := 1) Flt3.ieee_okD (double_cost (p := 1) (by norm_num))
    (double_angle (p := 1) (k := 5) (by norm_num) (by norm_num)) S8_placed le_rfl reachable3_init S8_order one_pos (by norm_num)
  obtain ⟨v, v1, v2⟩ := h5 ![5 / 2, 0, 0] (S8_off _ (by norm_num [abs_of_pos])) (fun π hπ => S8_axes (by linarith) (by linarith) k3 h1 hπ)
    (fuel + h + 1) (by omega) true 0 le_rfl
  exact ⟨r, h, fuel + h + 1, T, v, h0, h1, h2 _ (by omega), h3, v1, v2⟩

/-- Non-vacuity: the same for the balanced tree, with smoothing and the Coulomb sign. -/
example : ∃ r T v, Rounded.sourceBox Flt3.ieee.rnd S8 = some r ∧ BuiltByB3 Flt3.ieee (Stat3.init 0 0 0) S8 1 4 T ∧
    T.order = 1 ∧ T.height = 1 ∧ flForceB3 Flt3.ieee (1 / 1000) false T ![5 / 2, 0, 0] = .ok v ∧
    ∀ j, |v j - directField false S8 ![5 / 2, 0, 0] (1 / 1000) j|
      ≤ forceError3 (1 / 2 ^ 49) (1 / 2 ^ 5) (2 ^ 37) (2 ^ 15) (r.len / 2 ^ 1) S8 1 1 27 (1 / 1000) ![5 / 2, 0, 0] j := by
  obtain ⟨r, T, h0, h1, h2, h3, h4, h5, h6, h7⟩ := C90_placed (k := 1) Flt3.ieee_okD (double_cost (p := 1) (by norm_num))
    (double_angle (p := 1) (k := 5) (by norm_num) (by norm_num)) S8_placed.toPlaced reachable3_init S8_order one_pos (by norm_num)
    S8_height le_rfl (by norm_num)
  obtain ⟨v, v1, v2⟩ := h7 ![5 / 2, 0, 0] (Or.inr fun i => by
    obtain ⟨r', b0, -, -, -, b4⟩ := S8_placed.toPlaced.box Flt3.ieee_ok.toOk
    rw [show Flt3.ieee.toFlt.rnd = Flt3.ieee.rnd from rfl, h0] at b0
    cases b0
    have c1 := abs_lt.mp (b4 ⟨![3, 3, 3], 1⟩ (by simp [S8]) i)
    have c2 := abs_lt.mp (b4 ⟨![-3, -3, -3], 1⟩ (by simp [S8]) i)
    have e1 : (![3, 3, 3] : Vec 3) i = 3 := by fin_cases i <;> rfl
    have e2 : (![-3, -3, -3] : Vec 3) i = -3 := by fin_cases i <;> rfl
    have e3 : 0 ≤ (![5 / 2, 0, 0] : Vec 3) i ∧ (![5 / 2, 0, 0] : Vec 3) i ≤ 5 / 2 := by fin_cases i <;> norm_num
    simp only [e1, e2] at c1 c2
    rw [abs_lt]
    constructor <;> linarith [c1.1, c1.2, c2.1, c2.2, e3.1, e3.2]) (fun π hπ => S8_axes (by linarith) (by linarith) h3 le_rfl hπ.le)
    false (1 / 1000) (by norm_num)
  exact ⟨r, T, v, h0, h4, h5, h6, v1, v2⟩

end FMM
