import Verif.Origin
import Verif.PropsGeometry
import Verif.PropsIndex
import Verif.PropsAdaptive
import Verif.PropsFmm2D
import Verif.PropsFmm3D
import Verif.Example2D

/-!
# C125: the origin of coordinates

The field of the sources does not depend on the origin of coordinates; whether the trees can be constructed does.
-/

namespace FMM
variable {d : ℕ} {S : List (Source d)} {r : Box d} {w : Vec d}

/-- **C125** If all positions are moved by `w`, the root box moves by `(1 + 10⁻⁵) w`; its side stays the same. -/
theorem C125_box (ps : List (Vec d)) :
    rootBox (ps.map fun x => x + w) = (rootBox ps).map fun r => ⟨fun i => r.center i + (1 + 1 / 100000) * w i, r.len⟩ :=
  (Sh.rootBox ps).trans rfl

/-- **C125** The moved point `x + w` lies in the root box of the moved sources if and only if `x - 10⁻⁵ w` lies in the root box
of the original ones. -/
theorem C125_inside {ps : List (Vec d)} (hr : rootBox ps = some r) :
    ∃ r', rootBox (ps.map fun x => x + w) = some r' ∧
      ∀ x : Vec d, r'.contains (fun i => x i + w i) ↔ r.contains fun i => x i - 1 / 100000 * w i := by
  refine ⟨_, by rw [C125_box, hr]; rfl, fun x => ?_⟩
  rw [Box.contains_iff, Box.contains_iff]
  refine forall_congr' fun i => ?_
  constructor <;> intro h <;> constructor <;> simp only at h ⊢ <;> linarith [h.1, h.2]

theorem origin_box (hr : rootBox (S.map Source.pos) = some r) :
    rootBox ((S.map (Source.shift w)).map Source.pos) = some (r.shift ((1 + paddingFactor) • w)) := by
  rw [Sh.map_pos, Sh.rootBox, hr]; rfl

theorem origin_below {s : Source d} (h : ∀ i, s.pos i < r.lower i + 1 / 100000 * w i) (i : Fin d) :
    (s.shift w).pos i < (r.shift ((1 + paddingFactor) • w)).lower i := by
  have := h i
  rw [Sh.lower]
  simp only [Source.shift, Pi.add_apply, Pi.smul_apply, smul_eq_mul, paddingFactor]
  linarith

theorem rootBox_len {S : List (Source (d + 1))} {r : Box (d + 1)} (hr : rootBox (S.map Source.pos) = some r) : 0 ≤ r.len := by
  have hne : S.map Source.pos ≠ [] := by
    intro h; rw [h] at hr; cases hr
  obtain ⟨r', lo, hi, E, h1, h2, h3, h4, -, h6, -⟩ := rootBox_spec _ hne
  obtain rfl : r = r' := by rw [hr] at h1; exact Option.some.inj h1
  obtain ⟨p, hp, e⟩ := (h2 0).1
  have := (h3 0).2 p hp
  have := h4 0
  rw [h6]
  have : 0 ≤ E := by linarith
  unfold paddingFactor
  positivity

/-- **C125** If `w` moves the box beyond the sources, the constructor of the adaptive tree never returns, unless there are at most
`max` sources. -/
theorem C125_adaptive_diverges {S : List (Source (d + 1))} {r : Box (d + 1)} {w : Vec (d + 1)} {max : ℕ}
    (hr : rootBox (S.map Source.pos) = some r) (hw : ∀ s ∈ S, ∀ i, s.pos i < r.lower i + 1 / 100000 * w i) (hN : max < S.length)
    {K : Kit (d + 1)} {t : K.T} {eps : ℝ} {p : ℕ} (ho : expansionOrder (totalStrength S) eps = .ok p) (fuel : ℕ) (sch : ℕ → List Path → List Path) :
    adaptiveFmm K fuel sch t (S.map (Source.shift w)) max eps = .error .fuel := by
  have hb := origin_box (w := w) hr
  have hd := (C12_outside_diverges Source.pos (r.shift ((1 + paddingFactor) • w)) (show 0 ≤ r.len from rootBox_len hr) (S.map (Source.shift w)) max (by
    rw [List.filter_eq_self.mpr, List.length_map]
    · exact hN
    · intro s hs
      obtain ⟨s0, h0, rfl⟩ := List.mem_map.mp hs
      exact decide_eq_true fun i => origin_below (hw s0 h0) i) fuel).1
  unfold adaptiveFmm adaptiveInit adaptiveLists
  rw [Sh.totalStrength, ho, ok_bind, hb]
  simp only
  rw [hd]
  rfl

/-- **C125** Under the same condition the constructor of the balanced tree converts negative numbers to unsigned integers, unless
the height is zero. -/
theorem C125_balanced_ub (hd : 2 ≤ d) {perCell h : ℕ} (hS : S ≠ [])
    (hr : rootBox (S.map Source.pos) = some r) (hr0 : 0 < r.len) (hw : ∀ s ∈ S, ∀ i, s.pos i < r.lower i + 1 / 100000 * w i)
    (hh : balancedHeight d S.length perCell = .ok h) (h0 : 1 ≤ h) (hdh : d * h ≤ 32)
    {K : Kit d} {t : K.T} {eps : ℝ} {p : ℕ} (ho : expansionOrder (totalStrength S) eps = .ok p) :
    ∃ fuel0, ∀ fuel ≥ fuel0, ∀ sch, balancedFmm K fuel sch t (S.map (Source.shift w)) perCell eps = .error .ub := by
  have hb := origin_box (w := w) hr
  have h32 : h < 32 := by nlinarith
  refine ⟨off (2 ^ d) (h + 1), fun fuel hf sch => ?_⟩
  unfold balancedFmm balancedInit balancedLists
  rw [Sh.totalStrength, List.length_map, ho, ok_bind, hh, ok_bind, hb]
  simp only
  set r' := r.shift ((1 + paddingFactor) • w) with hr'
  rw [balancedNodes_ok hd r' h (by omega) fuel hf, ok_bind, if_neg (by omega)]
  have : distributePointSources Source.pos (bfull r' h) h (S.map (Source.shift w)) = .error .ub := by
    obtain ⟨s, S', rfl⟩ := List.exists_cons_of_ne_nil hS
    unfold distributePointSources
    rw [← glob_root (d := d), bfull_get r' h 0 (off_pos _ _), ok_bind]
    have hbox : (specB r' h (off (2 ^ d) (h + 1)) 0).box = r' := by simp [specB, gpath, boxAt]
    rw [hbox]
    have hu : toU32 (2 ^ h) = .ok (2 ^ h) := by
      unfold toU32
      have : (2 : ℤ) ^ h < 2 ^ 32 := pow_lt_pow_right₀ (by norm_num) h32
      rw [if_pos ⟨by positivity, this⟩]
      congr 1
    have hf : flatOf r' h (s.shift w).pos = .error .ub := by
      unfold flatOf getLeafBoxIndices
      have hl : r'.len = r.len := rfl
      rw [if_neg (by rw [hl]; exact hr0.ne')]
      simp only
      have key : ∀ i, leafBoxIndex (2 ^ h) (((1 / r'.len) • ((s.shift w).pos - r'.lower)) i) = .error .ub := fun i => by
        refine (leafBoxIndex_cases _ (by positivity) (Nat.pow_lt_pow_right (by norm_num) h32) _).2.2 ?_
        have := origin_below (hw s (by simp)) i
        simp only [Pi.smul_apply, Pi.sub_apply, smul_eq_mul]
        exact mul_neg_of_pos_of_neg (one_div_pos.mpr (by rw [hl]; exact hr0)) (by linarith)
      rw [hu, ok_bind, seqFin_error _ .ub (fun i => .inr (key i)) ⟨0, by omega⟩ (key _)]
      rfl
    rw [List.map_cons, List.foldlM_cons, hf]
    rfl
  rw [this]
  rfl

/-- A displacement in the direction of the diagonal that is large enough. -/
theorem origin_far {S : List (Source (d + 1))} {r : Box (d + 1)} (hr : rootBox (S.map Source.pos) = some r) :
    ∃ C : ℝ, ∀ w : Vec (d + 1), (∀ i, C < w i) → ∀ s ∈ S, ∀ i, s.pos i < r.lower i + 1 / 100000 * w i := by
  have hne : S.map Source.pos ≠ [] := by
    intro h; rw [h] at hr; cases hr
  obtain ⟨r', lo, hi, E, h1, -, h3, -, -, -, -⟩ := rootBox_spec _ hne
  refine ⟨100000 * ∑ i, |hi i - r.lower i|, fun w hw s hs i => ?_⟩
  have a := (h3 i).2 s.pos (List.mem_map_of_mem hs)
  have b := Finset.single_le_sum (f := fun i => |hi i - r.lower i|) (fun i _ => abs_nonneg _) (Finset.mem_univ i)
  have c := le_abs_self (hi i - r.lower i)
  have e := hw i
  linarith

/-- **C125** Whatever the sources (more than `max`), there are origins of coordinates for which the constructor of the adaptive tree
never returns: all those that are far enough in the direction of the diagonal. -/
theorem C125_adaptive_origin_matters {S : List (Source (d + 1))} {max : ℕ} (hN : max < S.length) :
    ∃ C : ℝ, ∀ w : Vec (d + 1), (∀ i, C < w i) → ∀ (K : Kit (d + 1)) (t : K.T) (eps : ℝ) (p : ℕ),
      expansionOrder (totalStrength S) eps = .ok p → ∀ fuel sch, adaptiveFmm K fuel sch t (S.map (Source.shift w)) max eps = .error .fuel := by
  have hne : S.map Source.pos ≠ [] := by
    intro h; rw [List.map_eq_nil_iff.mp h] at hN; simp at hN
  obtain ⟨r, -, -, -, h1, -⟩ := rootBox_spec _ hne
  obtain ⟨C, hC⟩ := origin_far h1
  exact ⟨C, fun w hw K t eps p ho fuel sch => C125_adaptive_diverges h1 (hC w hw) hN ho fuel sch⟩

theorem rootBox_len_pos {S : List (Source (d + 1))} {r : Box (d + 1)} (hr : rootBox (S.map Source.pos) = some r)
    {s s' : Source (d + 1)} (hs : s ∈ S) (hs' : s' ∈ S) (hne' : s.pos ≠ s'.pos) : 0 < r.len := by
  have hne : S.map Source.pos ≠ [] := by
    intro h; rw [h] at hr; cases hr
  obtain ⟨r', lo, hi, E, h1, h2, h3, h4, -, h6, -⟩ := rootBox_spec _ hne
  obtain rfl : r = r' := by rw [hr] at h1; exact Option.some.inj h1
  obtain ⟨i, hi'⟩ := Function.ne_iff.mp hne'
  have a1 := (h2 i).2 _ (List.mem_map_of_mem hs)
  have a2 := (h2 i).2 _ (List.mem_map_of_mem hs')
  have b1 := (h3 i).2 _ (List.mem_map_of_mem hs)
  have b2 := (h3 i).2 _ (List.mem_map_of_mem hs')
  have : 0 < E := by
    have := h4 i
    rcases lt_or_gt_of_ne hi' with h | h <;> linarith
  rw [h6]
  unfold paddingFactor
  positivity

/-- **C125** The same for the balanced tree: undefined behaviour in the constructor. -/
theorem C125_balanced_origin_matters {S : List (Source (d + 1))} (hd : 1 ≤ d) {perCell h : ℕ} {s s' : Source (d + 1)} (hs : s ∈ S)
    (hs' : s' ∈ S) (hne : s.pos ≠ s'.pos) (hh : balancedHeight (d + 1) S.length perCell = .ok h) (h0 : 1 ≤ h) (hdh : (d + 1) * h ≤ 32) :
    ∃ C : ℝ, ∀ w : Vec (d + 1), (∀ i, C < w i) → ∀ (K : Kit (d + 1)) (t : K.T) (eps : ℝ) (p : ℕ),
      expansionOrder (totalStrength S) eps = .ok p →
      ∃ fuel0, ∀ fuel ≥ fuel0, ∀ sch, balancedFmm K fuel sch t (S.map (Source.shift w)) perCell eps = .error .ub := by
  have hne1 : S ≠ [] := List.ne_nil_of_mem hs
  obtain ⟨r, -, -, -, h1, -⟩ := rootBox_spec (S.map Source.pos) (by simpa using hne1)
  obtain ⟨C, hC⟩ := origin_far h1
  exact ⟨C, fun w hw K t eps p ho => C125_balanced_ub (by omega) hne1 h1 (rootBox_len_pos h1 hs hs' hne) (hC w hw) hh h0 hdh ho⟩

/-- **C125** With the origin in the middle of the sources the requirements of all theorems about the trees are satisfied: the root
box contains the sources, and the upper faces do not if they are not all at the same place. -/
theorem C125_centred {S : List (Source (d + 1))} (hS : S ≠ []) {lo hi : Vec (d + 1)}
    (hlo : ∀ i, (∃ s ∈ S, s.pos i = lo i) ∧ ∀ s ∈ S, lo i ≤ s.pos i) (hhi : ∀ i, (∃ s ∈ S, s.pos i = hi i) ∧ ∀ s ∈ S, s.pos i ≤ hi i) :
    ∃ r : Box (d + 1), (∀ i, r.center i = 0) ∧
      (∀ max, (∀ x, (S.filter fun s => decide (s.pos = x)).length ≤ max) →
        AdaptiveInput (S.map (Source.shift fun i => -((lo i + hi i) / 2))) max r) ∧
      ∀ perCell h, (∃ s ∈ S, ∃ s' ∈ S, s.pos ≠ s'.pos) → balancedHeight (d + 1) S.length perCell = .ok h → (d + 1) * h ≤ 32 →
        BalancedInput (S.map (Source.shift fun i => -((lo i + hi i) / 2))) perCell r h := by
  obtain ⟨r, lo', hi', E, h1, h2, h3, h4, -, h6, h7⟩ := rootBox_spec (S.map Source.pos) (by simpa using hS)
  have e1 : ∀ i, lo' i = lo i := fun i => by
    obtain ⟨⟨q, hq, e⟩, b⟩ := h2 i
    obtain ⟨s0, hs0, rfl⟩ := List.mem_map.mp hq
    obtain ⟨s1, hs1, e'⟩ := (hlo i).1
    have := (hlo i).2 s0 hs0
    have := b _ (List.mem_map_of_mem hs1)
    linarith
  have e2 : ∀ i, hi' i = hi i := fun i => by
    obtain ⟨⟨q, hq, e⟩, b⟩ := h3 i
    obtain ⟨s0, hs0, rfl⟩ := List.mem_map.mp hq
    obtain ⟨s1, hs1, e'⟩ := (hhi i).1
    have := (hhi i).2 s0 hs0
    have := b _ (List.mem_map_of_mem hs1)
    linarith
  set w : Vec (d + 1) := fun i => -((lo i + hi i) / 2) with hw
  have hc : ∀ i, (r.shift ((1 + paddingFactor) • w)).center i = 0 := fun i => by
    simp only [Box.shift, Pi.add_apply, Pi.smul_apply, smul_eq_mul, h7, e1, e2, hw]; ring
  have hl : (r.shift ((1 + paddingFactor) • w)).len = r.len := rfl
  have hE : ∀ s ∈ S, ∀ i, -(E / 2) ≤ (s.shift w).pos i ∧ (s.shift w).pos i ≤ E / 2 := fun s hs i => by
    have a := (hlo i).2 s hs
    have b := (hhi i).2 s hs
    have c := h4 i
    rw [e1, e2] at c
    simp only [Source.shift, Pi.add_apply, hw]
    constructor <;> linarith
  have hr0 := rootBox_len h1
  rw [h6] at hr0
  have hE0 : 0 ≤ E := by unfold paddingFactor at hr0; linarith
  have hlen : E ≤ r.len := by rw [h6]; unfold paddingFactor; linarith
  refine ⟨r.shift ((1 + paddingFactor) • w), hc, fun max hm => ⟨origin_box h1, fun s hs => ?_, Sh.mult hm⟩,
    fun perCell h hne hh hdh => ⟨origin_box h1, fun s hs i => ?_, by rw [List.length_map]; exact hh, hdh⟩⟩
  · obtain ⟨s, h0, rfl⟩ := List.mem_map.mp hs
    rw [Box.contains_iff]
    intro i
    rw [hc, hl]
    have := hE s h0 i
    constructor <;> linarith [this.1, this.2]
  · obtain ⟨s, h0, rfl⟩ := List.mem_map.mp hs
    obtain ⟨a, ha, b, hb, hab⟩ := hne
    have hp := rootBox_len_pos h1 ha hb hab
    have hp' : E < r.len := by
      rw [h6] at hp ⊢
      unfold paddingFactor at hp ⊢
      linarith
    rw [Box.lower_apply, Box.upper_apply, hc, hl]
    have := hE s h0 i
    constructor <;> linarith [this.1, this.2]

/-- **C125** So the origin matters: five sources at the corners of a square and in it, for which the adaptive tree is constructed,
and moved by the same vector for which it is not. -/
theorem C125_invariance_false : ¬ ∀ (S : List (Source 2)) (w : Vec 2) (t : BinomialTable) (fuel : ℕ) (T : AdaptiveFmm kit2), Reachable t →
    adaptiveFmm kit2 fuel (fun _ l => l) t S 1 1 = .ok T → ∃ fuel' T', adaptiveFmm kit2 fuel' (fun _ l => l) t (S.map (Source.shift w)) 1 1 = .ok T' := by
  intro h
  obtain ⟨f, T, a, -⟩ := C40_adaptive (t := BinomialTable.init) reachable_init S5_adaptive S5_order (by norm_num) (by norm_num)
  obtain ⟨C, hC⟩ := C125_adaptive_origin_matters (S := S5) (max := 1) (by simp [S5])
  obtain ⟨f', T', e⟩ := h S5 (fun _ => C + 1) _ f T reachable_init (a f le_rfl _ fun _ l => List.Perm.refl l)
  have e' := hC (fun _ => C + 1) (fun _ => by linarith) kit2 BinomialTable.init 1 3 S5_order f' fun _ l => l
  cases e'.symm.trans e

/-- The sources `(1, 1)` and `(2, 2)`: moved by `(10⁶, 10⁶)` they are ten units below the root box. -/
example (fuel : ℕ) (sch : ℕ → List Path → List Path) (t : BinomialTable) :
    adaptiveFmm kit2 fuel sch t [⟨![1000001, 1000001], 1⟩, ⟨![1000002, 1000002], 1⟩] 1 1 = .error .fuel := by
  have := C125_adaptive_diverges (K := kit2) (t := t) (w := fun _ => 1000000) (max := 1) S2_box (by
    intro s hs i
    rw [Box.lower_apply]
    simp [S2] at hs
    rcases hs with rfl | rfl <;> fin_cases i <;> norm_num [box2, paddingFactor]) (by simp [S2]) S2_order fuel sch
  rw [← this]
  congr 1
  simp only [S2, Source.shift, List.map_cons, List.map_nil, List.cons.injEq, Source.mk.injEq, and_true]
  constructor <;> (funext i; fin_cases i <;> norm_num)

/-- Moved by `(-3/2, -3/2)` they satisfy the requirements of the adaptive tree. -/
example : ∃ r, (∀ i, r.center i = 0) ∧ AdaptiveInput (S2.map (Source.shift fun _ => -((1 + 2) / 2))) 1 r := by
  obtain ⟨r, h1, h2, -⟩ := C125_centred (S := S2) (lo := fun _ => 1) (hi := fun _ => 2) (by simp [S2])
    (fun i => ⟨⟨⟨![1, 1], 1⟩, by simp [S2], by fin_cases i <;> rfl⟩, fun s hs => by
      simp [S2] at hs; rcases hs with rfl | rfl <;> fin_cases i <;> norm_num⟩)
    (fun i => ⟨⟨⟨![2, 2], 1⟩, by simp [S2], by fin_cases i <;> rfl⟩, fun s hs => by
      simp [S2] at hs; rcases hs with rfl | rfl <;> fin_cases i <;> norm_num⟩)
  refine ⟨r, h1, h2 1 fun x => ?_⟩
  have hnd : (![1, 1] : Vec 2) ≠ ![2, 2] := fun h => by have := congrFun h 0; norm_num at this
  by_cases h : (![1, 1] : Vec 2) = x
  · subst h; simp [S2, hnd.symm]
  · by_cases h' : (![2, 2] : Vec 2) = x <;> simp [S2, h, h']

/-! ## Two origins -/

theorem two_bounds {a b c e f : ℝ} (h : |a - c| ≤ e) (h' : |b - c| ≤ f) : |a - b| ≤ e + f := by
  rw [abs_le] at *
  constructor <;> linarith [h.1, h.2, h'.1, h'.2]

/-- **C125** If both origins admit the construction, the potentials in the plane agree up to twice the error bound. -/
theorem C125_adaptive_2d {S : List (Source 2)} {r r' : Box 2} {w : Vec 2} {t : BinomialTable} {max p : ℕ} {eps : ℝ} (ht : Reachable t)
    (hI : AdaptiveInput S max r) (hI' : AdaptiveInput (S.map (Source.shift w)) max r')
    (hord : expansionOrder (totalStrength S) eps = .ok p) (hp0 : 1 ≤ p) (hp : p ≤ 1029) :
    ∃ (fuel0 : ℕ) (T T' : AdaptiveFmm kit2), (∀ fuel ≥ fuel0, ∀ sch, Schedule sch → adaptiveFmm kit2 fuel sch t S max eps = .ok T ∧
        adaptiveFmm kit2 fuel sch t (S.map (Source.shift w)) max eps = .ok T') ∧
      ∀ x, r.contains x → r'.contains (x + w) → ∀ grav cur cur', ∃ v v', |v - v'| ≤ 2 * ((S.map fun s => |s.q|).sum * errPot p) ∧
        ∀ fuel ≥ fuel0, adaptiveEval pot2 fuel grav T cur x = .ok v ∧ adaptiveEval pot2 fuel grav T' cur' (x + w) = .ok v' := by
  obtain ⟨f1, T1, a1, -, b1, -⟩ := C40_adaptive ht hI hord hp0 hp
  obtain ⟨f2, T2, a2, -, b2, -⟩ := C40_adaptive ht hI' (by rw [Sh.totalStrength]; exact hord) hp0 hp
  refine ⟨f1 + f2, T1, T2, fun fuel hf sch hs => ⟨a1 fuel (by omega) sch hs, a2 fuel (by omega) sch hs⟩, fun x hx hx' grav cur cur' => ?_⟩
  obtain ⟨v, c1, e1⟩ := b1 x hx grav cur
  obtain ⟨v', c2, e2⟩ := b2 _ hx' grav cur'
  rw [Sh.directPotential, Sh.absSum] at e2
  exact ⟨v, v', by rw [two_mul]; exact two_bounds e1 e2, fun fuel hf => ⟨c1 fuel (by omega), c2 fuel (by omega)⟩⟩

/-- **C125** The same for the balanced tree. -/
theorem C125_balanced_2d {S : List (Source 2)} {r r' : Box 2} {w : Vec 2} {t : BinomialTable} {perCell h p : ℕ} {eps : ℝ} (ht : Reachable t)
    (hI : BalancedInput S perCell r h) (hI' : BalancedInput (S.map (Source.shift w)) perCell r' h)
    (hord : expansionOrder (totalStrength S) eps = .ok p) (hp0 : 1 ≤ p) (hp : p ≤ 1029) :
    ∃ (fuel0 : ℕ) (T T' : BalancedFmm kit2), (∀ fuel ≥ fuel0, ∀ sch, Schedule sch → balancedFmm kit2 fuel sch t S perCell eps = .ok T ∧
        balancedFmm kit2 fuel sch t (S.map (Source.shift w)) perCell eps = .ok T') ∧
      ∀ x, r.containsHO x → r'.containsHO (x + w) → ∀ grav, ∃ v v', |v - v'| ≤ 2 * ((S.map fun s => |s.q|).sum * errPot p) ∧
        balancedEval pot2 grav T x = .ok v ∧ balancedEval pot2 grav T' (x + w) = .ok v' := by
  obtain ⟨f1, T1, a1, -, -, b1⟩ := C39_balanced ht hI hord hp0 hp
  obtain ⟨f2, T2, a2, -, -, b2⟩ := C39_balanced ht hI' (by rw [Sh.totalStrength]; exact hord) hp0 hp
  refine ⟨f1 + f2, T1, T2, fun fuel hf sch hs => ⟨a1 fuel (by omega) sch hs, a2 fuel (by omega) sch hs⟩, fun x hx hx' grav => ?_⟩
  obtain ⟨v, c1, e1⟩ := b1 x hx grav
  obtain ⟨v', c2, e2⟩ := b2 _ hx' grav
  rw [Sh.directPotential, Sh.absSum] at e2
  exact ⟨v, v', by rw [two_mul]; exact two_bounds e1 e2, c1, c2⟩

/-- **C125** In space the bounds depend on the sides of the smallest boxes. -/
theorem C125_adaptive_3d {S : List (Source 3)} {r r' : Box 3} {w : Vec 3} {t : kit3.T} {max p : ℕ} {eps : ℝ} (ht : Reachable3 t)
    (hI : AdaptiveInput S max r) (hI' : AdaptiveInput (S.map (Source.shift w)) max r')
    (hord : expansionOrder (totalStrength S) eps = .ok p) (hp0 : 1 ≤ p) (hp : p ≤ 42) :
    ∃ (fuel0 : ℕ) (T T' : AdaptiveFmm kit3), (∀ fuel ≥ fuel0, ∀ sch, Schedule sch → adaptiveFmm kit3 fuel sch t S max eps = .ok T ∧
        adaptiveFmm kit3 fuel sch t (S.map (Source.shift w)) max eps = .ok T') ∧
      ∀ x, r.contains x → r'.contains (x + w) → ∀ grav cur cur', ∃ v v',
        |v - v'| ≤ (S.map fun s => |s.q|).sum * errPot3 p (r.len / 2 ^ T.height) + (S.map fun s => |s.q|).sum * errPot3 p (r'.len / 2 ^ T'.height) ∧
        ∀ fuel ≥ fuel0, adaptiveEval pot3 fuel grav T cur x = .ok v ∧ adaptiveEval pot3 fuel grav T' cur' (x + w) = .ok v' := by
  obtain ⟨f1, T1, a1, -, b1, -⟩ := C53_adaptive ht hI hord hp0 hp
  obtain ⟨f2, T2, a2, -, b2, -⟩ := C53_adaptive ht hI' (by rw [Sh.totalStrength]; exact hord) hp0 hp
  refine ⟨f1 + f2, T1, T2, fun fuel hf sch hs => ⟨a1 fuel (by omega) sch hs, a2 fuel (by omega) sch hs⟩, fun x hx hx' grav cur cur' => ?_⟩
  obtain ⟨v, c1, e1⟩ := b1 x hx grav cur
  obtain ⟨v', c2, e2⟩ := b2 _ hx' grav cur'
  rw [Sh.directPotential, Sh.absSum] at e2
  exact ⟨v, v', two_bounds e1 e2, fun fuel hf => ⟨c1 fuel (by omega), c2 fuel (by omega)⟩⟩

/-- **C125** The balanced tree in space. -/
theorem C125_balanced_3d {S : List (Source 3)} {r r' : Box 3} {w : Vec 3} {t : kit3.T} {perCell h p : ℕ} {eps : ℝ} (ht : Reachable3 t)
    (hI : BalancedInput S perCell r h) (hI' : BalancedInput (S.map (Source.shift w)) perCell r' h)
    (hord : expansionOrder (totalStrength S) eps = .ok p) (hp0 : 1 ≤ p) (hp : p ≤ 42) :
    ∃ (fuel0 : ℕ) (T T' : BalancedFmm kit3), (∀ fuel ≥ fuel0, ∀ sch, Schedule sch → balancedFmm kit3 fuel sch t S perCell eps = .ok T ∧
        balancedFmm kit3 fuel sch t (S.map (Source.shift w)) perCell eps = .ok T') ∧
      ∀ x, r.containsHO x → r'.containsHO (x + w) → ∀ grav, ∃ v v', |v - v'| ≤ 2 * ((S.map fun s => |s.q|).sum * errPot3 p (r.len / 2 ^ h)) ∧
        balancedEval pot3 grav T x = .ok v ∧ balancedEval pot3 grav T' (x + w) = .ok v' := by
  have hl : r'.len = r.len := by
    have := hI'.box
    rw [origin_box hI.box] at this
    rw [← Option.some.inj this]; rfl
  obtain ⟨f1, T1, a1, -, -, b1⟩ := C53_balanced ht hI hord hp0 hp
  obtain ⟨f2, T2, a2, -, -, b2⟩ := C53_balanced ht hI' (by rw [Sh.totalStrength]; exact hord) hp0 hp
  refine ⟨f1 + f2, T1, T2, fun fuel hf sch hs => ⟨a1 fuel (by omega) sch hs, a2 fuel (by omega) sch hs⟩, fun x hx hx' grav => ?_⟩
  obtain ⟨v, c1, e1⟩ := b1 x hx grav
  obtain ⟨v', c2, e2⟩ := b2 _ hx' grav
  rw [Sh.directPotential, Sh.absSum, hl] at e2
  exact ⟨v, v', by rw [two_mul]; exact two_bounds e1 e2, c1, c2⟩

end FMM
