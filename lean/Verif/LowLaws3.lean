import Verif.LowOpsLE3
import Verif.FltLaws3

/-!
# The passes over a tree in space, with gradual underflow

The statements of `FltLaws3`, for operations with a floor.
-/

namespace FMM.Lo3
open Rounded Finset Fl3
open Fl (far farAt farAt_last sum_close_real re_sum directPotential_flatMap)
variable {F : Flt3} {u g η ρ θ τ ν : ℝ}

/-- All lengths which occur in the tree, and their reciprocals, are at least `θ`. -/
structure Span (θ : ℝ) (r : Box 3) (h : ℕ) : Prop where
  lo : θ ≤ rad r h
  hi : θ ≤ (4 * r.len)⁻¹

theorem rad_anti {r : Box 3} (hr : 0 < r.len) {k n : ℕ} (hk : k ≤ n) : rad r n ≤ rad r k := by
  have := side_anti hr hk
  unfold rad; linarith

section
variable {r : Box 3} {h : ℕ} (hsp : Span θ r h) (hr : 0 < r.len)
include hsp hr

theorem Span.rad {k : ℕ} (hk : k ≤ h) : θ ≤ rad r k := hsp.lo.trans (rad_anti hr hk)

theorem Span.side {k : ℕ} (hk : k ≤ h) : θ ≤ side r k := by
  have := hsp.rad hr hk
  have h2 := side_pos hr k
  unfold Fl3.rad at this; linarith

theorem Span.inv {l : ℝ} (h0 : 0 < l) (hl : l ≤ 4 * r.len) : θ ≤ l⁻¹ := hsp.hi.trans (inv_anti₀ h0 hl)

theorem Span.rad_le (h0 : 0 < θ) (k : ℕ) : Fl3.rad r k ≤ θ⁻¹ := by
  have h1 := side_anti (n := k) hr (Nat.zero_le _)
  rw [side_zero] at h1
  have h2 := side_pos hr k
  have h3 := hsp.inv hr (rad_pos hr k) (by unfold Fl3.rad; linarith)
  rw [le_inv_comm₀ (rad_pos hr k) h0]
  exact h3

theorem Span.major (p : ℕ) : θ ≤ major3 r h p := by
  have h1 := side_anti (n := h) hr (Nat.zero_le _)
  rw [side_zero] at h1
  have h2 := side_pos hr h
  have h3 := hsp.inv hr (l := Fl3.side r h / 5) (by positivity) (by linarith)
  exact h3.trans (le_major3 hr le_rfl le_rfl)

theorem Span.far {k : ℕ} (hk : k ≤ h) {v : Vec 3} {a : ℝ} (ha : 1 ≤ a) (h1 : a * Fl3.side r k ≤ len3 v) (h2 : len3 v ≤ 4 * r.len) : Far θ v := by
  have h3 := hsp.side hr hk
  have h4 := side_pos hr k
  have h5 : Fl3.side r k ≤ len3 v := (le_mul_of_one_le_left h4.le ha).trans h1
  exact ⟨h3.trans h5, hsp.inv hr (h4.trans_le h5) h2⟩

end

/-- A computed local expansion of sources whose total strength is zero or at least `τ`. -/
structure LocalOf (u τ : ℝ) (p : ℕ) (r : Box 3) (h : ℕ) (c : Vec 3) (k n : ℕ) (e : Exp3) (S : List (Source 3)) : Prop where
  loc : Fl3.LocalOf u p r h c k n e S
  flr : Flr τ (totalStrength S)

section
variable {r : Box 3} {h p k n m κ : ℕ} {c : Vec 3} {e f : Exp3} {S T : List (Source 3)}

theorem LocalOf.mono (hu : 0 ≤ u) (hr : 0 < r.len) (H : LocalOf u τ p r h c k n e S) (hn : n ≤ m) : LocalOf u τ p r h c k m e S :=
  ⟨H.loc.mono hu hr hn, H.flr⟩

theorem LocalOf.zero (hu : 0 ≤ u) (he : e.Is c p fun _ _ => 0) : LocalOf u τ p r h c k 0 e [] :=
  ⟨Fl3.LocalOf.zero hu he, Or.inl totalStrength_nil⟩

theorem LocalOf.mflr (hs : Scale3 u η θ τ ν p) (hsp : Span θ r h) (hr : 0 < r.len) (H : LocalOf u τ p r h c k n e S) :
    Flr (τ * θ) (totalStrength S * major3 r h p) := H.flr.mulge (hsp.major hr p) hs.tau0.le hs.th0.le

theorem LocalOf.add (hF : F.Low u g η ρ) (hs : Scale3 u η θ τ ν p) (hsp : Span θ r h) (hr : 0 < r.len) (H : LocalOf u τ p r h c k n e S) {n' : ℕ}
    (H' : LocalOf u τ p r h c k n' f T) (hn : n + 1 ≤ m) (hn' : n' + 1 ≤ m) :
    ∃ g, addEq F e f = .ok g ∧ LocalOf u τ p r h c k m g (S ++ T) := by
  obtain ⟨b, h1, h2⟩ := H.loc.app
  obtain ⟨b', h1', h2'⟩ := H'.loc.app
  obtain ⟨g, g1, g2⟩ := addEq_ap hF le_rfl hs (rad_pos hr k) (hsp.rad_le hr hs.th0 k) (H.mflr hs hsp hr) (H'.mflr hs hsp hr) h1 h1' hn hn'
  refine ⟨g, g1, ⟨?_, _, g2.mono hF.nonneg (rad_pos hr k).le le_rfl ?_, fun z hz => ?_⟩, ?_⟩
  · intro s hs
    rcases List.mem_append.mp hs with hs | hs
    · exact H.loc.sep s hs
    · exact H'.loc.sep s hs
  · rw [totalStrength_append]; linarith
  · obtain ⟨a1, a2⟩ := h2 z hz
    obtain ⟨a1', a2'⟩ := h2' z hz
    refine ⟨?_, ?_⟩
    swap
    · rw [leF_add, directField_append, totalStrength_append, add_mul]
      rw [← len3_eq_dist2] at a2 a2' ⊢
      have e : leF b p (z - c) + leF b' p (z - c) - (directField true S z 0 + directField true T z 0)
          = (leF b p (z - c) - directField true S z 0) + (leF b' p (z - c) - directField true T z 0) := by abel
      rw [e]
      exact (len3_add_le _ _).trans (add_le_add a2 a2')
    rw [leSum3_add, directPotential_append, totalStrength_append, Complex.add_re]
    have e : -((leSum3 b p (z - c)).re + (leSum3 b' p (z - c)).re) - (directPotential true S z + directPotential true T z)
        = (-(leSum3 b p (z - c)).re - directPotential true S z) + (-(leSum3 b' p (z - c)).re - directPotential true T z) := by ring
    rw [e]
    refine (abs_add_le _ _).trans ?_
    linarith
  · rw [totalStrength_append]
    exact H.flr.add H'.flr (totalStrength_nonneg S) (totalStrength_nonneg T)

theorem LocalOf.shift (hF : F.Low u g η ρ) (hs : Scale3 u η θ τ ν p) (hsp : Span θ r h) (hkh : k + 1 ≤ h) (hκ : Cost u g p κ) {t : Stat3} (ht : t.Good ∧ p ≤ t.alm.maxOrder) (hp : p ≤ 42) (hp0 : 0 < p)
    (hr : 0 < r.len) (H : LocalOf u τ p r h c k n e S) (c' : Vec 3) (hc : len3 (c' - c) ≤ rad r (k + 1)) :
    e.coeffs.size ≠ 0 ∧ ∃ f, leOfLe F t c' e = .ok (t, f) ∧ LocalOf u τ p r h c' (k + 1) (n + κ) f S := by
  obtain ⟨b, h1, h2⟩ := H.loc.app
  have e2 := rad_succ (r := r) k
  have hc' := hc
  rw [len3_sub_comm] at hc'
  obtain ⟨t', f, g1, -, -, g4, g5⟩ := leOfLe_ap hF hs hκ t ht.1 h1 (H.mflr hs hsp hr) (hsp.rad_le hr hs.th0 k) hp hp0 c'
    (rad_pos hr (k + 1)).le (σ := rad r (k + 1)) (by linarith) (hsp.rad hr hkh) e2.le
  rw [g4 ht.2] at g1
  refine ⟨by rw [h1.size]; positivity, f, g1, ⟨fun s hs => ?_, _, g5, fun z hz => ?_⟩, H.flr⟩
  · have a := H.loc.sep s hs
    have b := len3_tri s.pos c' c
    have hs' := side_pos hr (k + 1)
    have e3 := side_succ (r := r) k
    linarith
  · have hz' : len3 (z - c) ≤ rad r k := by
      have b := len3_tri z c' c
      linarith
    rw [l2lC_exact, leF_l2l, show z - c' - (c - c') = z - c by abel]
    exact h2 z hz'

/-- Local expansion of sources at a distance. -/
theorem LocalOf.sources (hF : F.Low u g η ρ) (hsc : Scale3 u η θ τ ν p) (hsp : Span θ r h) (hκ : Cost u g p κ) {t : Stat3} (ht : t.Good ∧ p ≤ t.alm.maxOrder) (hp : p ≤ 42)
    (hr : 0 < r.len) (hk : k ≤ h) (c' : Vec 3) (S : List (Source 3))
    (hS : ∀ s ∈ S, 149 / 100 * side r k ≤ len3 (s.pos - c') ∧ len3 (s.pos - c') ≤ 4 * r.len) (hq : ∀ s ∈ S, Flr τ |s.q|) :
    ∃ f, leOfSources F t c' p S = .ok (t, f) ∧ LocalOf u τ p r h c' k (S.length + κ) f S := by
  have hs := side_pos hr k
  have hsh := side_pos hr h
  have hle := side_anti hr hk
  have hrad : rad r k = 22 / 25 * side r k := rfl
  have hlt : rad r k < 149 / 100 * side r k := by rw [hrad]; linarith
  have hR := (rad_pos hr k).le
  obtain ⟨t', f, g1, -, -, g4, g5⟩ := leOfSources_ap hF hsc hκ t ht.1 c' hp hR hlt S (fun s hs => (hS s hs).1) hq
    fun s hs => hsp.far hr hk (by norm_num) (hS s hs).1 (hS s hs).2
  rw [g4 ht.2] at g1
  have hA := totalStrength_nonneg S
  refine ⟨f, g1, ⟨fun s hs' => ?_, leCoeff3 c' S, g5.mono hF.nonneg hR le_rfl ?_, fun z hz => ?_⟩, totalStrength_flr hq⟩
  · have := (hS s hs').1
    rw [hrad]; linarith
  · refine mul_le_mul_of_nonneg_left (le_major3 hr hle ?_) hA
    rw [hrad]; linarith
  · rw [len3_eq_dist2] at hz
    refine ⟨(le_bound3 c' z p S hz hlt fun s hs' => by rw [← len3_eq_dist2]; exact (hS s hs').1).trans
      (mul_le_mul_of_nonneg_left (tail3_le hr hle (by positivity) ?_ ?_) hA),
      (le_force_bound3 c' z p S hz hlt fun s hs' => by rw [← len3_eq_dist2]; exact (hS s hs').1).trans
      (mul_le_mul_of_nonneg_left (tailF3_le hr hle hR ?_ ?_ ?_) hA)⟩
    · rw [div_le_iff₀ (by positivity), hrad]; linarith
    · rw [hrad]; linarith
    · rw [hrad]; linarith
    · rw [hrad]; linarith
    · linarith

/-- Local expansion from the multipole expansions of separated nodes at the same depth. -/
theorem LocalOf.mes (hF : F.Low u g η ρ) (hsc : Scale3 u η θ τ ν p) (hsp : Span θ r h) (hκ : Cost u g p κ) {t : Stat3} (ht : t.Good ∧ p ≤ t.alm.maxOrder) (hp : p ≤ 42) (hp0 : 0 < p)
    (hr : 0 < r.len) (hk : k ≤ h) (c' : Vec 3) {A : Type} (l : List A) (hne : l ≠ []) (me : A → Exp3) (cn : A → Vec 3)
    (src : A → List (Source 3))
    (hl : ∀ a ∈ l, AppM3 u n (me a) (cn a) p (meCoeff3 (cn a) (src a)) (totalStrength (src a)) (rad r k) ∧
      399 / 200 * side r k ≤ len3 (cn a - c') ∧ len3 (cn a - c') ≤ 4 * r.len ∧ ∀ s ∈ src a, len3 (s.pos - cn a) ≤ rad r k)
    (hq : ∀ a ∈ l, ∀ s ∈ src a, Flr τ |s.q|) :
    ∃ f, leOfMes F t c' (l.map me) = .ok (t, f) ∧
      LocalOf u τ p r h c' k (n + κ + l.length) f (l.flatMap src) := by
  have hs := side_pos hr k
  have hsh := side_pos hr h
  have hle := side_anti hr hk
  have hrad : rad r k = 22 / 25 * side r k := rfl
  have hlt : rad r k + rad r k < 399 / 200 * side r k := by rw [hrad]; linarith
  have hR := (rad_pos hr k).le
  have hDθ : θ ≤ (399 / 200 * side r k - rad r k - rad r k)⁻¹ := by
    have h1 := side_anti (n := k) hr (Nat.zero_le _)
    rw [side_zero] at h1
    exact hsp.inv hr (by linarith) (by linarith)
  obtain ⟨t', f, g1, -, -, g4, g5⟩ := leOfMes_ap hF hsc hκ t ht.1 c' hp hp0 (n := n) (hsp.rad hr hk) (rad_pos hr k) (hsp.rad_le hr hsc.th0 k) hlt hDθ
    (l.map fun a => (me a, cn a, meCoeff3 (cn a) (src a), totalStrength (src a))) (by simpa using hne) (by
      intro x hx
      obtain ⟨a, ha, rfl⟩ := List.mem_map.mp hx
      obtain ⟨a1, a2, a3, -⟩ := hl a ha
      exact ⟨a1, totalStrength_nonneg _, a2, totalStrength_flr (hq a ha), hsp.far hr hk (by norm_num) a2 a3⟩)
  have ett := g4 ht.2
  subst ett
  have e1 : (l.map fun a => (me a, cn a, meCoeff3 (cn a) (src a), totalStrength (src a))).map (·.1) = l.map me := by simp
  have e2 : ((l.map fun a => (me a, cn a, meCoeff3 (cn a) (src a), totalStrength (src a))).map (·.2.2.2)).sum
      = totalStrength (l.flatMap src) := by
    rw [totalStrength_flatMap']; simp [Function.comp_def]
  have e3 : (fun j k => ((l.map fun a => (me a, cn a, meCoeff3 (cn a) (src a), totalStrength (src a))).map
        fun x => m2lC p x.2.2.1 (x.2.1 - c') j k).sum)
      = fun j k => (l.map fun a => m2lC p (meCoeff3 (cn a) (src a)) (cn a - c') j k).sum := by
    funext j k; simp [Function.comp_def]
  rw [e1] at g1
  rw [e2, e3, List.length_map] at g5
  have hA := totalStrength_nonneg (l.flatMap src)
  refine ⟨f, g1, ⟨?_, _, g5.mono hF.nonneg hR le_rfl ?_, fun z hz => ?_⟩, totalStrength_flr fun s hs => ?_⟩
  · intro s hs'
    obtain ⟨a, ha, hsa⟩ := List.mem_flatMap.mp hs'
    obtain ⟨-, a2, -, a4⟩ := hl a ha
    have a4 := a4 s hsa
    have b := len3_tri (cn a) s.pos c'
    rw [len3_sub_comm (cn a) s.pos] at b
    rw [hrad] at a4 ⊢
    linarith
  · unfold major3
    rw [mul_comm (Real.sqrt _), mul_assoc]
    refine mul_le_mul_of_nonneg_left (mul_le_mul_of_nonneg_left (inv_le_major hr hle ?_) (Real.sqrt_nonneg _)) hA
    rw [hrad]; linarith
  · refine ⟨?_, ?_⟩
    swap
    · rw [leF_list, directField_flatMap3, totalStrength_flatMap', ← List.sum_map_mul_right]
      refine sum_close_vec l _ _ _ fun a ha => ?_
      obtain ⟨-, a2, -, a4⟩ := hl a ha
      rw [len3_eq_dist2] at hz a2
      refine (m2l_force_bound3 (cn a) c' z p (src a) hR (fun s hs' => by rw [← len3_eq_dist2]; exact a4 s hs') hz a2 hlt).trans ?_
      refine mul_le_mul_of_nonneg_left (tailF3_le hr hle (by positivity) ?_ ?_ ?_) (totalStrength_nonneg _)
      · rw [hrad]; linarith
      · rw [hrad]; linarith
      · linarith
    rw [leSum3_list, re_sum, directPotential_flatMap, totalStrength_flatMap', ← List.sum_map_mul_right, List.sum_neg, List.map_map]
    refine sum_close_real l _ _ _ fun a ha => ?_
    obtain ⟨-, a2, -, a4⟩ := hl a ha
    rw [len3_eq_dist2] at hz a2
    refine (m2l_bound3 (cn a) c' z p (src a) (fun s hs' => by rw [← len3_eq_dist2]; exact a4 s hs') hz a2 hlt).trans ?_
    refine mul_le_mul_of_nonneg_left (tail3_le hr hle (by positivity) ?_ ?_) (totalStrength_nonneg _)
    · rw [div_le_iff₀ (by positivity), hrad]; linarith
    · rw [hrad]; linarith
  · obtain ⟨a, ha, hsa⟩ := List.mem_flatMap.mp hs
    exact hq a ha s hsa

end

/-! ## The laws of the passes -/

variable {ρ₀ τ₀ : ℝ} {T : PTree} {r : Box 3} {cen : Path → Vec 3} {h N p m κ : ℕ} {src : Path → List (Source 3)}

/-- The floating-point expansions satisfy the laws of the passes. -/
noncomputable def laws (hF : F.Low u g η ρ₀) (hsc : Scale3 u η θ τ₀ ν p) (hsp : Span θ r h) (hκ : Cost u g p κ) (G : Geo r cen h) (hc : T.c = 2 ^ 3) (hA : AdjOf T r) (hH : ∀ π, T.Mem π → π.length ≤ h)
    (hS : Srcs T r h N src) (hq : ∀ π, T.Mem π → ∀ s ∈ src π, Flr τ₀ |s.q|) (hp0 : 0 < p) (hp : p ≤ 42) (hX : ∀ π, T.Mem π → (T.xl π).length ≤ m) :
    Rel.PassLaws (kit F) p T cen src where
  good := fun t => Stat3.Good t
  cov := fun t => Stat3.Good t ∧ p ≤ AlmTable.maxOrder (Stat3.alm t)
  ME π e := AppM3 u (meCount κ N h π.length) e (cen π) p (meCoeff3 (cen π) (src π)) (totalStrength (src π))
    (rad r π.length)
  LX π j e := LocalOf u τ₀ p r h (cen π) π.length (leCount κ N h m π.length j) e (farAt T src π j)
  cov_good t ht := ht.1
  leNew := by
    intro t π hπ ht
    obtain ⟨t', e, h1, h2, h3, h4⟩ := new_cov3 hp t (cen π) ht
    refine ⟨t', e, h1, h2, h3, ?_⟩
    have e0 : farAt T src π 0 = [] := by cases π <;> rfl
    rw [e0]
    exact LocalOf.zero hF.nonneg h4
  leaf := by
    intro t π ht hπ hl
    obtain ⟨t', e, h1, -, -, h4, h5⟩ := meOfSources_ap hF hsc hκ t ht.1 (cen π) hp (hsp.rad G.hr (hH π hπ)) (src π)
      (fun s hs => G.within (hH π hπ) (hS.within π hπ s hs)) (hq π hπ)
    obtain rfl := h4 ht.2
    refine ⟨e, h1, h5.mono hF.nonneg ?_ le_rfl (totalStrength_nonneg _) (rad_pos G.hr _).le le_rfl⟩
    have := hS.len π
    unfold meCount
    omega
  node := by
    refine fun (t : Stat3) π (f : ℕ → Exp3) ht hπ hl hf => ?_
    have hk : ∀ i < 2 ^ 3, T.Mem (i :: π) := fun i hi => hπ.cons hl (by rw [hc]; exact hi)
    have hlen : π.length + 1 ≤ h := by simpa using hH _ (hk 0 (by norm_num))
    obtain ⟨t', e, h1, -, -, h4, h5⟩ := meOfMes_ap hF hsc hκ t ht.1 (cen π) hp hp0 (n := meCount κ N h (π.length + 1))
      (R := rad r (π.length + 1)) (σ := rad r (π.length + 1)) (hsp.rad G.hr hlen) (hsp.rad G.hr hlen)
      ((List.range (2 ^ 3)).map fun i => (f i, cen (i :: π), src (i :: π))) (by simp) (by
        intro x hx
        obtain ⟨i, hi, rfl⟩ := List.mem_map.mp hx
        have hi := List.mem_range.mp hi
        exact ⟨hf i hi, G.shift (hH _ (hk i hi))⟩) (by
        intro x hx
        obtain ⟨i, hi, rfl⟩ := List.mem_map.mp hx
        exact hq _ (hk i (List.mem_range.mp hi)))
    obtain rfl := h4 ht.2
    have e1 : ((List.range (2 ^ 3)).map fun i => (f i, cen (i :: π), src (i :: π))).map (·.1)
        = (List.range (2 ^ 3)).map f := by simp [Function.comp_def]
    have e2 : (((List.range (2 ^ 3)).map fun i => (f i, cen (i :: π), src (i :: π))).flatMap (·.2.2)).Perm (src π) := by
      rw [List.flatMap_map]; exact hS.kids π hπ hl
    rw [e1] at h1
    rw [totalStrength_perm e2, rad_succ] at h5
    refine ⟨e, h1, ?_⟩
    have e3 : meCount κ N h (π.length + 1) + κ
        + ((List.range (2 ^ 3)).map fun i => (f i, cen (i :: π), src (i :: π))).length = meCount κ N h π.length := by
      rw [List.length_map, List.length_range]
      exact meCount_succ hlen
    rw [← e3]; exact h5.congr fun j _ k _ => meCoeff3_perm _ e2 j k
  l2l := by
    intro t i τ e0 eτ ht hπ h0 hτ
    rw [farAt_last] at hτ
    obtain ⟨hsz, f, g1, g2⟩ := LocalOf.shift hF hsc hsp (hH _ hπ) hκ ht hp hp0 G.hr hτ (cen (i :: τ)) (G.shift (hH _ hπ))
    have e0' : farAt T src (i :: τ) 0 = [] := rfl
    rw [e0'] at h0
    have hx := hX τ hπ.tail
    obtain ⟨g', g3, g4⟩ := LocalOf.add hF hsc hsp G.hr h0 g2 (m := leCount κ N h m (τ.length + 1) 1)
      (by simp [leCount]) (by
        unfold leCount
        rw [if_neg (by omega), if_neg (by omega)]
        have : (τ.length + 1) * (κ + 2 + m) = τ.length * (κ + 2 + m) + (κ + 2 + m) := by ring
        omega)
    exact ⟨hsz, f, g', g1, g3, g4⟩
  m2l := by
    refine fun (t : Stat3) π (e0 : Exp3) (f : Path → Exp3) ht hπ h0 hne hf => ?_
    cases π with
    | nil => exact absurd rfl hne
    | cons i τ =>
      have hL := hA.laws G.hr
      have hlen : ∀ ρ ∈ T.inter (i :: τ), ρ.length = (i :: τ).length := fun ρ hρ => PTree.inter_length hL hπ hρ
      obtain ⟨f', g1, g2⟩ := LocalOf.mes hF hsc hsp hκ ht hp hp0 G.hr (hH _ hπ) (cen (i :: τ)) (T.inter (i :: τ)) hne f
        cen src (n := meCount κ N h (i :: τ).length) (by
          intro ρ hρ
          obtain ⟨m1, m2, -⟩ := (PTree.mem_inter hL hπ ρ).mp hρ
          have l := hlen ρ hρ
          have a := hf ρ hρ
          rw [l] at a
          refine ⟨a, ?_, ?_, fun s hs => ?_⟩
          · refine G.sep (hH _ hπ) l.symm ?_
            rw [hA] at m2
            simpa using m2
          · exact len_le_root G.hr (fun j => G.root (hH _ m1) j) fun j => G.root (hH _ hπ) j
          · have := G.within (hH _ m1) (hS.within ρ m1 s hs)
            rwa [l] at this) (fun ρ hρ => hq ρ ((PTree.mem_inter hL hπ ρ).mp hρ).1)
      have hcard := inter_card G.hr hA hc hπ
      obtain ⟨g', g3, g4⟩ := LocalOf.add hF hsc hsp G.hr h0 g2
        (m := leCount κ N h m (i :: τ).length 2) (by simp [leCount]) (by
        have a := meCount_le κ N h (i :: τ).length
        unfold leCount inCount
        rw [if_neg (by omega)]
        have : 0 ≤ (i :: τ).length * (κ + 2 + m) := Nat.zero_le _
        norm_num at hcard
        omega)
      refine ⟨f', g', g1, g3, ?_⟩
      have e : farAt T src (i :: τ) 2 = farAt T src (i :: τ) 1 ++ (T.inter (i :: τ)).flatMap src := by simp [farAt]
      rw [e]; exact g4
  m2l_nil := by
    intro π e0 hπ h0 hn
    have e : farAt T src π 2 = farAt T src π 1 := by
      cases π with
      | nil => rfl
      | cons i τ => simp [farAt, hn]
    rw [e]
    exact h0.mono hF.nonneg G.hr (by simp [leCount])
  x := by
    intro t π j ρ e0 ht hπ hj h0
    have hρ : ρ ∈ T.xl π := List.mem_of_getElem? hj
    cases π with
    | nil => simp [PTree.xl] at hρ
    | cons i τ =>
      have hL := hA.laws G.hr
      obtain ⟨m1, -, m3, -, m5⟩ := (PTree.mem_xl hL hπ ρ).mp hρ
      obtain ⟨f, g1, g2⟩ := LocalOf.sources hF hsc hsp hκ ht hp G.hr (hH _ hπ) (cen (i :: τ)) (src ρ) (by
        intro s hs
        refine ⟨G.sep_point (hH _ hπ) m3.le ?_ (hS.within ρ m1 s hs),
          len_le_root G.hr ((hS.within ρ m1 s hs).root G.hr) fun j => G.root (hH _ hπ) j⟩
        rw [hA] at m5
        simpa using m5) (hq ρ m1)
      have hl := hS.len ρ
      obtain ⟨g', g3, g4⟩ := LocalOf.add hF hsc hsp G.hr h0 g2
        (m := leCount κ N h m (i :: τ).length (2 + (j + 1)))
        (by unfold leCount; rw [if_neg (by omega), if_neg (by omega)]; omega) (by
        unfold leCount inCount meCount
        rw [if_neg (by omega)]
        have : 0 ≤ (i :: τ).length * (κ + 2 + m) := Nat.zero_le _
        omega)
      refine ⟨f, g', g1, g3, ?_⟩
      have e : farAt T src (i :: τ) (2 + (j + 1)) = farAt T src (i :: τ) (2 + j) ++ src ρ := by
        rw [Nat.add_comm 2 (j + 1), Nat.add_comm 2 j]
        simp only [farAt]
        rw [List.take_add_one, hj, List.flatMap_append]
        simp
      rw [e]; exact g4
  zero := by
    intro π e hπ hl h0
    have e0 : farAt T src π 0 = [] := by cases π <;> rfl
    rw [e0] at h0
    rw [farAt_last]
    have e : far T src π = [] := by
      match π, hl with
      | [], _ => rfl
      | [i], _ =>
        have a := Rel.inter_one hA G.hr hπ
        have b := xl_one hπ
        simp [far, a, b]
    rw [e]
    exact h0.mono hF.nonneg G.hr (by simp [leCount])

end FMM.Lo3
