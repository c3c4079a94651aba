import Verif.LowOpsLE
import Verif.FltLaws

/-!
# The passes over a tree in the plane, with gradual underflow

The statements of `FltLaws`, for operations with a floor.
-/

namespace FMM.Lo
open Rounded Finset Fl
variable {F : Flt} {u η ρ θ τ : ℝ}

/-- All lengths which occur in the tree, and their reciprocals, are at least `θ`. -/
structure Span (θ : ℝ) (r : Box 2) (h : ℕ) : Prop where
  lo : θ ≤ rad r h
  hi : θ ≤ (2 * r.len)⁻¹

theorem rad_anti {r : Box 2} (hr : 0 < r.len) {k n : ℕ} (hk : k ≤ n) : rad r n ≤ rad r k := by
  have := side_anti hr hk
  unfold rad; linarith

theorem Span.rad {r : Box 2} {h : ℕ} (hsp : Span θ r h) (hr : 0 < r.len) {k : ℕ} (hk : k ≤ h) : θ ≤ rad r k :=
  hsp.lo.trans (rad_anti hr hk)

theorem Span.side {r : Box 2} {h : ℕ} (hsp : Span θ r h) (hr : 0 < r.len) {k : ℕ} (hk : k ≤ h) : θ ≤ side r k := by
  have := hsp.rad hr hk
  have h2 := side_pos hr k
  unfold Fl.rad at this; linarith

theorem Span.inv {r : Box 2} {h : ℕ} (hsp : Span θ r h) (hr : 0 < r.len) (k : ℕ) {c : ℝ} (hc0 : 0 < c) (hc : c ≤ 2) :
    θ ≤ (c * Fl.side r k)⁻¹ := by
  have h1 := side_anti (n := k) hr (Nat.zero_le _)
  rw [side_zero] at h1
  have h2 := side_pos hr k
  refine hsp.hi.trans (inv_anti₀ (by positivity) ?_)
  nlinarith

/-- The computed expansion `e` approximates the local expansion about `c` of the sources `S`, with `n` rounding errors, in the
disc of the nodes at depth `k`. -/
structure LocalOf (u θ τ : ℝ) (p : ℕ) (r : Box 2) (h : ℕ) (c : ℂ) (k n : ℕ) (e : Exp2) (S : List (Source 2)) : Prop where
  sep : ∀ s ∈ S, rad r k + side r h / 2 ≤ ‖toC s.pos - c‖
  app : ∃ b, AppL u (kap θ τ p) n e c p b (rad r k) (totalStrength S * (logB r h + 11)) (totalStrength S * (25 / side r h)) ∧
    ∀ z, ‖z - c‖ ≤ rad r k → |(leSum b p (z - c)).re - cPot S z| ≤ totalStrength S * tailBound p (29 / 40) ∧
      ‖leDeriv b p (z - c) - cField S z‖ ≤ totalStrength S * fieldTail r h p

section
variable {r : Box 2} {h p k n m : ℕ} {c : ℂ} {e f : Exp2} {S T : List (Source 2)}

theorem LocalOf.mono (hu : 0 ≤ u) (H : LocalOf u θ τ p r h c k n e S) (hn : n ≤ m) : LocalOf u θ τ p r h c k m e S := by
  obtain ⟨b, h1, h2⟩ := H.app
  exact ⟨H.sep, b, h1.mono hu hn le_rfl le_rfl, h2⟩

theorem LocalOf.zero (hu : 0 ≤ u) : LocalOf u θ τ p r h c k 0 ⟨p, c, Arr.new (p + 1)⟩ [] where
  sep := by simp
  app := by
    refine ⟨fun _ => 0, ?_, fun z _ => ?_⟩
    · have := AppL.zero (θ := θ) (τ := τ) hu c p (rad r k)
      simpa [totalStrength_nil] using this
    · rw [leSum_zero, leDeriv_zero]; simp [cPot, cField, totalStrength_nil]

theorem LocalOf.add (hF : F.Low u η ρ) (hsc : Scale η ρ θ τ p) (H : LocalOf u θ τ p r h c k n e S) {n' : ℕ} (H' : LocalOf u θ τ p r h c k n' f T)
    (hn : n + 1 ≤ m) (hn' : n' + 1 ≤ m) : ∃ g, addEq F e f = .ok g ∧ LocalOf u θ τ p r h c k m g (S ++ T) := by
  obtain ⟨b, h1, h2⟩ := H.app
  obtain ⟨b', h1', h2'⟩ := H'.app
  obtain ⟨g, g1, g2⟩ := addEq_ap hF hsc h1 h1' hn hn'
  refine ⟨g, g1, ?_, _, g2.mono hF.nonneg le_rfl ?_ ?_, fun z hz => ?_⟩
  · intro s hs
    rcases List.mem_append.mp hs with hs | hs
    · exact H.sep s hs
    · exact H'.sep s hs
  · rw [totalStrength_append]; linarith
  · rw [totalStrength_append]; linarith
  · obtain ⟨a1, a2⟩ := h2 z hz
    obtain ⟨a1', a2'⟩ := h2' z hz
    rw [leSum_add, leDeriv_add, cPot_append, cField_append, totalStrength_append, Complex.add_re]
    constructor
    · have e : (leSum b p (z - c)).re + (leSum b' p (z - c)).re - (cPot S z + cPot T z)
          = ((leSum b p (z - c)).re - cPot S z) + ((leSum b' p (z - c)).re - cPot T z) := by ring
      rw [e]
      refine (abs_add_le _ _).trans ?_
      linarith
    · have e : leDeriv b p (z - c) + leDeriv b' p (z - c) - (cField S z + cField T z)
          = (leDeriv b p (z - c) - cField S z) + (leDeriv b' p (z - c) - cField T z) := by ring
      rw [e]
      refine (norm_add_le _ _).trans ?_
      linarith

theorem LocalOf.shift (hF : F.Low u η ρ) {t : BinomialTable} (ht : t.Good ∧ p ≤ t.maxOrder) (hp : p ≤ 1029) (hp0 : 0 < p)
    (hsc : Scale η ρ θ τ p) (hsp : Span θ r h) (hkh : k + 1 ≤ h)
    (hr : 0 < r.len) (H : LocalOf u θ τ p r h c k n e S) (c' : Vec 2) (hc : ‖toC c' - c‖ ≤ rad r (k + 1)) :
    e.coeffs.size ≠ 0 ∧ ∃ g, leOfLe F t c' e = .ok (t, g) ∧ LocalOf u θ τ p r h (toC c') (k + 1) (n + 3 * p) g S := by
  obtain ⟨b, h1, h2⟩ := H.app
  have e2 := rad_succ (r := r) k
  rw [norm_sub_rev] at hc
  obtain ⟨t', g, b', g1, -, -, g4, g5, g6⟩ := leOfLe_ap hF t ht.1 hsc (hsp.rad hr hkh) h1 hp hp0 c' hc (rad_pos hr (k + 1)).le e2.le
  rw [g4 ht.2] at g1
  refine ⟨by rw [h1.size]; omega, g, g1, fun s hs => ?_, b', g5, fun z hz => ?_⟩
  · have a := H.sep s hs
    have b := norm_sub_le_norm_sub_add_norm_sub (toC s.pos) (toC c') c
    rw [norm_sub_rev (toC c') c] at b
    linarith
  · have hz' : ‖z - c‖ ≤ rad r k := by
      have b := norm_sub_le_norm_sub_add_norm_sub z (toC c') c
      rw [norm_sub_rev (toC c') c] at b
      linarith
    rw [g6 z, leDeriv_of_leSum (p := p) (a := b) (b := b') (c := c) (c' := toC c') g6 z]
    exact h2 z hz'

/-- Local expansion of sources at a distance. -/
theorem LocalOf.sources (hF : F.Low u η ρ) {t : BinomialTable} (ht : t.Good ∧ p ≤ t.maxOrder) (hp : p ≤ 1029)
    (hsc : Scale η ρ θ τ p) (hsp : Span θ r h) (hr : 0 < r.len) (hk : k ≤ h) (c' : Vec 2) (S : List (Source 2))
    (hS : ∀ s ∈ S, 149 / 100 * side r k ≤ ‖toC s.pos - toC c'‖ ∧ ‖toC s.pos - toC c'‖ ≤ 4 * r.len) (hq : ∀ s ∈ S, Flr τ |s.q|) :
    ∃ g, leOfSources F t c' p S = .ok (t, g) ∧ LocalOf u θ τ p r h (toC c') k (3 * p + S.length + 5) g S := by
  have hs := side_pos hr k
  have hsh := side_pos hr h
  have hle := side_anti hr hk
  have eRZ : rad r k * (149 / 100 * side r k)⁻¹ = 72 / 149 := by
    unfold rad; field_simp; norm_num
  obtain ⟨t', g, g1, -, -, g4, g5⟩ := leOfSources_ap hF t ht.1 c' p hsc hp (R := rad r k) (ζ := (149 / 100 * side r k)⁻¹)
    (Λ := logB r h) (rad_pos hr k).le (hsp.inv hr k (by norm_num) (by norm_num)) logB_nonneg (by rw [eRZ]; norm_num) S (by
      intro s hs'
      obtain ⟨a, b⟩ := hS s hs'
      have hpos : 0 < ‖toC s.pos - toC c'‖ := by linarith
      have := hsp.side hr hk
      refine ⟨by linarith, inv_anti₀ (by positivity) a, log_le hr (by linarith) b⟩) hq
  rw [g4 ht.2] at g1
  have hA := totalStrength_nonneg S
  have hrad : rad r k = 18 / 25 * side r k := rfl
  have hsep : ∀ s ∈ S, rad r k + side r h / 2 ≤ ‖toC s.pos - toC c'‖ := fun s hs' => by
    have := (hS s hs').1
    rw [hrad]; linarith
  refine ⟨g, g1, hsep, leCoeff (toC c') S, g5.mono hF.nonneg le_rfl ?_ ?_, fun z hz => ⟨?_, ?_⟩⟩
  · refine mul_le_mul_of_nonneg_left ?_ hA
    rw [eRZ]
    have := pi_le
    norm_num; linarith
  · refine mul_le_mul_of_nonneg_left ?_ hA
    rw [eRZ, inv_eq_one_div, div_div, div_le_div_iff₀ (by positivity) hsh]
    nlinarith
  · refine (le_bound (toC c') z p S (r := rad r k) (D := 149 / 100 * side r k) hz (by rw [hrad]; linarith)
      fun s hs' => (hS s hs').1).trans ?_
    refine mul_le_mul_of_nonneg_left (tailBound_mono p (by have := rad_pos hr k; positivity) ?_ (by norm_num)) hA
    rw [div_eq_mul_inv, eRZ]; norm_num
  · refine (le_field_bound (toC c') z p S (r := rad r k) (D := 149 / 100 * side r k) hz (by rw [hrad]; linarith)
      fun s hs' => (hS s hs').1).trans ?_
    refine mul_le_mul_of_nonneg_left (fieldTail_le hr hle (by have := rad_pos hr k; positivity) ?_ ?_) hA
    · rw [div_eq_mul_inv, eRZ]; norm_num
    · rw [hrad]; linarith

/-- Local expansion from the multipole expansions of separated nodes at the same depth. -/
theorem LocalOf.mes (hF : F.Low u η ρ) {t : BinomialTable} (ht : t.Good ∧ p ≤ t.maxOrder) (hp : p ≤ 1029) (hp0 : 0 < p)
    (hsc : Scale η ρ θ τ p) (hsp : Span θ r h) (hr : 0 < r.len) (hk : k ≤ h) (c' : Vec 2) {A : Type} (l : List A) (hne : l ≠ []) (me : A → Exp2) (cn : A → ℂ)
    (src : A → List (Source 2))
    (hl : ∀ a ∈ l, AppM u n (me a) (cn a) p (meCoeff (cn a) (src a)) (totalStrength (src a)) (rad r k) ∧
      399 / 200 * side r k ≤ ‖cn a - toC c'‖ ∧ ‖cn a - toC c'‖ ≤ 4 * r.len ∧ ∀ s ∈ src a, ‖toC s.pos - cn a‖ ≤ rad r k)
    (hq : ∀ a ∈ l, ∀ s ∈ src a, Flr τ |s.q|) :
    ∃ g, leOfMes F t c' (l.map me) = .ok (t, g) ∧
      LocalOf u θ τ p r h (toC c') k (n + 9 * p + 5 + l.length) g (l.flatMap src) := by
  have hs := side_pos hr k
  have hsh := side_pos hr h
  have hle := side_anti hr hk
  have hrad : rad r k = 18 / 25 * side r k := rfl
  have eRZ : rad r k * (399 / 200 * side r k)⁻¹ = 48 / 133 := by
    unfold rad; field_simp; norm_num
  obtain ⟨t', g, g1, -, -, g4, g5⟩ := leOfMes_ap hF t ht.1 c' p hsc hp hp0 (n := n) (R := rad r k) (ζ := (399 / 200 * side r k)⁻¹)
    (Λ := logB r h) (hsp.rad hr hk) (hsp.inv hr k (by norm_num) (by norm_num)) (by rw [eRZ]; norm_num)
    (l.map fun a => (me a, cn a, meCoeff (cn a) (src a), totalStrength (src a))) (by simpa using hne) (by
      intro x hx
      obtain ⟨a, ha, rfl⟩ := List.mem_map.mp hx
      obtain ⟨a1, a2, a3, -⟩ := hl a ha
      have hpos : 0 < ‖cn a - toC c'‖ := by linarith
      have := hsp.side hr hk
      exact ⟨a1, totalStrength_flr (hq a ha), by linarith, inv_anti₀ (by positivity) a2, log_le hr (by linarith) a3⟩)
  have ett := g4 ht.2
  subst ett
  have e1 : (l.map fun a => (me a, cn a, meCoeff (cn a) (src a), totalStrength (src a))).map (·.1) = l.map me := by simp
  have e2 : ((l.map fun a => (me a, cn a, meCoeff (cn a) (src a), totalStrength (src a))).map (·.2.2.2)).sum
      = totalStrength (l.flatMap src) := by
    rw [totalStrength_flatMap]; simp [Function.comp_def]
  have e3 : (fun k => ((l.map fun a => (me a, cn a, meCoeff (cn a) (src a), totalStrength (src a))).map
        fun x => Exp2.m2lCoeff t'.maxOrder p x.2.2.1 (x.2.1 - toC c') k).sum)
      = fun k => ((l.map fun a => (cn a, meCoeff (cn a) (src a))).map
        fun x => Exp2.m2lCoeff t'.maxOrder p x.2 (x.1 - toC c') k).sum := by
    funext k; simp [Function.comp_def]
  rw [e1] at g1
  rw [e2, e3, List.length_map] at g5
  have hA := totalStrength_nonneg (l.flatMap src)
  refine ⟨g, g1, ?_, _, g5.mono hF.nonneg le_rfl ?_ ?_, fun z hz => ?_⟩
  · intro s hs'
    obtain ⟨a, ha, hsa⟩ := List.mem_flatMap.mp hs'
    obtain ⟨-, a2, -, a4⟩ := hl a ha
    have a4 := a4 s hsa
    have b := norm_sub_le_norm_sub_add_norm_sub (cn a) (toC s.pos) (toC c')
    rw [norm_sub_rev (cn a) (toC s.pos)] at b
    rw [hrad] at a4 ⊢
    linarith
  · refine mul_le_mul_of_nonneg_left ?_ hA
    rw [eRZ]
    have := pi_le
    unfold m2lC
    norm_num; linarith
  · refine mul_le_mul_of_nonneg_left ?_ hA
    rw [eRZ, inv_eq_one_div, div_div, div_le_div_iff₀ (by norm_num; positivity) hsh]
    norm_num
    linarith
  · rw [m2l_list_leSum, m2l_list_leDeriv, cPot_flatMap, cField_flatMap, totalStrength_flatMap, List.map_map, List.map_map,
      re_sum, ← List.sum_map_mul_right, ← List.sum_map_mul_right]
    have hratio : (rad r k + rad r k) / (399 / 200 * side r k) = 96 / 133 := by
      unfold rad; field_simp; norm_num
    constructor
    · refine sum_close_real l _ _ _ fun a ha => ?_
      obtain ⟨-, a2, -, a4⟩ := hl a ha
      refine (m2l_bound t'.maxOrder p ht.2 (cn a) (toC c') z (src a) a4 hz a2 (by rw [hrad]; linarith)).trans ?_
      refine mul_le_mul_of_nonneg_left (tailBound_mono p ?_ ?_ (by norm_num)) (totalStrength_nonneg _)
      · rw [hratio]; norm_num
      · rw [hratio]; norm_num
    · refine sum_close_complex l _ _ _ fun a ha => ?_
      obtain ⟨-, a2, -, a4⟩ := hl a ha
      refine (m2l_field_bound t'.maxOrder p ht.2 (cn a) (toC c') z (src a) a4 hz a2 (by rw [hrad]; linarith)).trans ?_
      refine mul_le_mul_of_nonneg_left (fieldTail_le hr hle ?_ ?_ ?_) (totalStrength_nonneg _)
      · rw [hratio]; norm_num
      · rw [hratio]; norm_num
      · rw [hrad]; linarith

end

/-! ## The laws of the passes -/

variable {T : PTree} {r : Box 2} {cen : Path → Vec 2} {h N p m : ℕ} {src : Path → List (Source 2)}

/-- The floating-point expansions satisfy the laws of the passes. -/
noncomputable def laws (hF : F.Low u η ρ) (hsc : Scale η ρ θ τ p) (hsp : Span θ r h) (G : Geo r cen h) (hc : T.c = 2 ^ 2) (hA : AdjOf T r) (hH : ∀ π, T.Mem π → π.length ≤ h)
    (hS : Srcs T r h N src) (hq : ∀ π, T.Mem π → ∀ s ∈ src π, Flr τ |s.q|) (hp0 : 0 < p) (hp : p ≤ 1029) (hX : ∀ π, T.Mem π → (T.xl π).length ≤ m) :
    Rel.PassLaws (kit F) p T cen src where
  good := BinomialTable.Good
  cov t := t.Good ∧ p ≤ t.maxOrder
  ME π e := AppM u (meCount N p h π.length) e (toC (cen π)) p (meCoeff (toC (cen π)) (src π)) (totalStrength (src π))
    (rad r π.length)
  LX π j e := LocalOf u θ τ p r h (toC (cen π)) π.length (leCount N p h m π.length j) e (farAt T src π j)
  cov_good t ht := ht.1
  leNew := by
    intro t π hπ ht
    obtain ⟨t', e, h1, h2, h3, h4, rfl⟩ := Exp2.new_ok t ht (cen π) p hp
    refine ⟨t', _, h1, ⟨h2, by omega⟩, fun h => h4 h.2, ?_⟩
    have e0 : farAt T src π 0 = [] := by cases π <;> rfl
    rw [e0]
    exact LocalOf.zero hF.nonneg
  leaf := by
    intro t π ht hπ hl
    obtain ⟨t', e, h1, -, -, h4, h5⟩ := meOfSources_ap hF t ht.1 (cen π) p hsc hp (src π)
      (hsp.rad G.hr (hH π hπ)) (fun s hs => G.within (hH π hπ) (hS.within π hπ s hs)) (hq π hπ)
    obtain rfl := h4 ht.2
    refine ⟨e, h1, h5.mono hF.nonneg ?_ le_rfl (rad_pos G.hr _).le le_rfl⟩
    have := hS.len π
    unfold meCount
    have : 0 ≤ (h - π.length) * (3 * p + 7) := Nat.zero_le _
    omega
  node := by
    refine fun (t : BinomialTable) π (f : ℕ → Exp2) ht hπ hl hf => ?_
    have hk : ∀ i < 2 ^ 2, T.Mem (i :: π) := fun i hi => hπ.cons hl (by rw [hc]; exact hi)
    have hlen : π.length + 1 ≤ h := by simpa using hH _ (hk 0 (by norm_num))
    obtain ⟨t', e, h1, -, -, h4, h5⟩ := meOfMes_ap hF t ht.1 (cen π) p hp (n := meCount N p h (π.length + 1))
      (R := rad r (π.length + 1)) (σ := rad r (π.length + 1)) hsc (hsp.rad G.hr hlen) (hsp.rad G.hr hlen)
      ((List.range (2 ^ 2)).map fun i => (f i, toC (cen (i :: π)), src (i :: π))) (by simp) (by
        intro x hx
        obtain ⟨i, hi, rfl⟩ := List.mem_map.mp hx
        have hi := List.mem_range.mp hi
        exact ⟨hf i hi, G.shift (hH _ (hk i hi)), hq _ (hk i hi)⟩)
    obtain rfl := h4 ht.2
    have e1 : ((List.range (2 ^ 2)).map fun i => (f i, toC (cen (i :: π)), src (i :: π))).map (·.1)
        = (List.range (2 ^ 2)).map f := by simp [Function.comp_def]
    have e2 : (((List.range (2 ^ 2)).map fun i => (f i, toC (cen (i :: π)), src (i :: π))).flatMap (·.2.2)).Perm (src π) := by
      rw [List.flatMap_map]; exact hS.kids π hπ hl
    rw [e1] at h1
    rw [meCoeff_perm' _ e2, totalStrength_perm e2, rad_succ] at h5
    refine ⟨e, h1, ?_⟩
    have e3 : meCount N p h (π.length + 1) + 3 * p + 3
        + ((List.range (2 ^ 2)).map fun i => (f i, toC (cen (i :: π)), src (i :: π))).length = meCount N p h π.length := by
      rw [List.length_map, List.length_range]
      exact meCount_succ hlen
    rw [← e3]; exact h5
  l2l := by
    intro t i τ e0 eτ ht hπ h0 hτ
    rw [farAt_last] at hτ
    obtain ⟨hsz, g, g1, g2⟩ := LocalOf.shift hF ht hp hp0 hsc hsp (hH _ hπ) G.hr hτ (cen (i :: τ)) (G.shift (hH _ hπ))
    have e0' : farAt T src (i :: τ) 0 = [] := rfl
    rw [e0'] at h0
    have hx := hX τ hπ.tail
    obtain ⟨g', g3, g4⟩ := LocalOf.add hF hsc h0 g2 (m := leCount N p h m (τ.length + 1) 1)
      (by simp [leCount]) (by
        unfold leCount
        rw [if_neg (by omega), if_neg (by omega)]
        have : (τ.length + 1) * (3 * p + 2 + m) = τ.length * (3 * p + 2 + m) + (3 * p + 2 + m) := by ring
        omega)
    exact ⟨hsz, g, g', g1, g3, g4⟩
  m2l := by
    refine fun (t : BinomialTable) π (e0 : Exp2) (f : Path → Exp2) ht hπ h0 hne hf => ?_
    cases π with
    | nil => exact absurd rfl hne
    | cons i τ =>
      have hL := hA.laws G.hr
      have hlen : ∀ ρ ∈ T.inter (i :: τ), ρ.length = (i :: τ).length := fun ρ hρ => PTree.inter_length hL hπ hρ
      obtain ⟨g, g1, g2⟩ := LocalOf.mes hF ht hp hp0 hsc hsp G.hr (hH _ hπ) (cen (i :: τ)) (T.inter (i :: τ)) hne f
        (fun ρ => toC (cen ρ)) src (n := meCount N p h (i :: τ).length) (by
          intro ρ hρ
          obtain ⟨m1, m2, -⟩ := (PTree.mem_inter hL hπ ρ).mp hρ
          have l := hlen ρ hρ
          have a := hf ρ hρ
          rw [l] at a
          refine ⟨a, ?_, ?_, fun s hs => ?_⟩
          · refine G.sep (hH _ hπ) l.symm ?_
            rw [hA] at m2
            simpa using m2
          · exact norm_le_root G.hr (fun j => G.root (hH _ m1) j) fun j => G.root (hH _ hπ) j
          · have := G.within (hH _ m1) (hS.within ρ m1 s hs)
            rwa [l] at this) (fun ρ hρ => hq ρ ((PTree.mem_inter hL hπ ρ).mp hρ).1)
      have hcard := inter_card G.hr hA hc hπ
      obtain ⟨g', g3, g4⟩ := LocalOf.add hF hsc h0 g2 (m := leCount N p h m (i :: τ).length 2) (by simp [leCount]) (by
        have a := meCount_le N p h (i :: τ).length
        unfold leCount inCount
        rw [if_neg (by omega)]
        have : 0 ≤ (i :: τ).length * (3 * p + 2 + m) := Nat.zero_le _
        norm_num at hcard
        omega)
      refine ⟨g, g', g1, g3, ?_⟩
      have e : farAt T src (i :: τ) 2 = farAt T src (i :: τ) 1 ++ (T.inter (i :: τ)).flatMap src := by simp [farAt]
      rw [e]; exact g4
  m2l_nil := by
    intro π e0 hπ h0 hn
    have e : farAt T src π 2 = farAt T src π 1 := by
      cases π with
      | nil => rfl
      | cons i τ => simp [farAt, hn]
    rw [e]
    exact h0.mono hF.nonneg (by simp [leCount])
  x := by
    intro t π j ρ e0 ht hπ hj h0
    have hρ : ρ ∈ T.xl π := List.mem_of_getElem? hj
    cases π with
    | nil => simp [PTree.xl] at hρ
    | cons i τ =>
      have hL := hA.laws G.hr
      obtain ⟨m1, -, m3, -, m5⟩ := (PTree.mem_xl hL hπ ρ).mp hρ
      obtain ⟨g, g1, g2⟩ := LocalOf.sources hF ht hp hsc hsp G.hr (hH _ hπ) (cen (i :: τ)) (src ρ) (by
        intro s hs
        have w := hS.within ρ m1 s hs
        refine ⟨G.sep_point (hH _ hπ) m3.le ?_ w, norm_le_root G.hr (w.root G.hr) fun j => G.root (hH _ hπ) j⟩
        rw [hA] at m5
        simpa using m5) (hq ρ m1)
      have hl := hS.len ρ
      obtain ⟨g', g3, g4⟩ := LocalOf.add hF hsc h0 g2 (m := leCount N p h m (i :: τ).length (2 + (j + 1)))
        (by unfold leCount; rw [if_neg (by omega), if_neg (by omega)]; omega) (by
        unfold leCount inCount meCount
        rw [if_neg (by omega)]
        have : 0 ≤ (i :: τ).length * (3 * p + 2 + m) := Nat.zero_le _
        have : 0 ≤ (h - 0) * (3 * p + 7) := Nat.zero_le _
        omega)
      refine ⟨g, g', g1, g3, ?_⟩
      have e : farAt T src (i :: τ) (2 + (j + 1)) = farAt T src (i :: τ) (2 + j) ++ src ρ := by
        rw [Nat.add_comm 2 (j + 1), Nat.add_comm 2 j]
        simp only [farAt]
        rw [List.take_add_one, hj, List.flatMap_append]
        simp
      rw [e]; exact g4
  zero := by
    intro π e hπ hl h0
    have e0 : farAt T src π 0 = [] := by cases π <;> rfl
    rw [e0] at h0
    rw [farAt_last]
    have e : far T src π = [] := by
      match π, hl with
      | [], _ => rfl
      | [i], _ =>
        have a := Rel.inter_one hA G.hr hπ
        have b := xl_one hπ
        simp [far, a, b]
    rw [e]
    exact h0.mono hF.nonneg (by simp [leCount])

end FMM.Lo
