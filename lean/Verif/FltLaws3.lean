import Verif.FltGeo3
import Verif.Fmm3DForce
import Verif.FltEval

/-!
# The passes over a tree in space, in floating-point arithmetic

For every node: the computed multipole expansion approximates that of the sources of the node, and the computed local
expansion the potential of the far sources of the node, with a bounded number of errors, in units of `u`;
`κ` units for each operation on expansions.
-/

namespace FMM.Fl3
open Rounded Finset
open Fl (far farAt farAt_last sum_close_real re_sum directPotential_flatMap)
variable {F : Flt3} {u g : ℝ}

/-- Factor of the truncation error of the potential. -/
noncomputable def tail3 (r : Box 3) (h p : ℕ) : ℝ := (8 / 9) ^ (p + 1) * (5 / side r h)

/-- Factor of the rounding errors of the far potential. -/
noncomputable def major3 (r : Box 3) (h p : ℕ) : ℝ := Real.sqrt (2 * p + 1) * (5 / side r h)

theorem tail3_nonneg {r : Box 3} (hr : 0 < r.len) (h p : ℕ) : 0 ≤ tail3 r h p := by
  have := side_pos hr h
  unfold tail3; positivity

theorem major3_nonneg {r : Box 3} (hr : 0 < r.len) (h p : ℕ) : 0 ≤ major3 r h p := by
  have := side_pos hr h
  unfold major3; positivity

/-- Factor of the truncation error of the force. -/
noncomputable def tailF3 (r : Box 3) (h p : ℕ) : ℝ := (8 / 9) ^ p * ((5 * p + 35) / side r h ^ 2)

theorem tailF3_nonneg {r : Box 3} (hr : 0 < r.len) (h p : ℕ) : 0 ≤ tailF3 r h p := by
  have := side_pos hr h
  unfold tailF3; positivity

/-- Gradient of a local expansion, as a vector. -/
noncomputable def leF (b : ℕ → ℤ → ℂ) (p : ℕ) (v : Vec 3) : Vec 3 := fun i => (leGrad3 b p v (unitV i)).re

/-- Gradient of a multipole expansion, as a vector. -/
noncomputable def meF (a : ℕ → ℤ → ℂ) (p : ℕ) (v : Vec 3) : Vec 3 := fun i => (meGrad3 a p v (unitV i)).re

theorem leF_add (a b : ℕ → ℤ → ℂ) (p : ℕ) (v : Vec 3) : leF (fun n m => a n m + b n m) p v = leF a p v + leF b p v := by
  funext i; simp only [leF, Pi.add_apply, leGrad3_coeff_add, Complex.add_re]

theorem leF_list {α : Type} (L : List α) (G : α → ℕ → ℤ → ℂ) (p : ℕ) (v : Vec 3) :
    leF (fun n m => (L.map fun x => G x n m).sum) p v = (L.map fun x => leF (G x) p v).sum := by
  induction L with
  | nil => funext i; simp [leF, leGrad3]
  | cons x L ih =>
    simp only [List.map_cons, List.sum_cons]
    rw [leF_add, ih]

theorem leF_l2l (p : ℕ) (a : ℕ → ℤ → ℂ) (h y : Vec 3) : leF (l2lC p a h) p y = leF a p (y - h) := by
  funext i; simp only [leF, leGrad3_l2l]

theorem sum_close_vec {α : Type} (l : List α) (f g : α → Vec 3) (B : α → ℝ) (h : ∀ a ∈ l, dist2 (f a) (g a) ≤ B a) :
    dist2 (l.map f).sum (l.map g).sum ≤ (l.map B).sum := by
  induction l with
  | nil => simp [dist2]
  | cons a l ih =>
    have h1 := h a (by simp)
    have h2 := ih fun b hb => h b (by simp [hb])
    simp only [List.map_cons, List.sum_cons]
    rw [← len3_eq_dist2] at h1 h2 ⊢
    have e : f a + (l.map f).sum - (g a + (l.map g).sum) = (f a - g a) + ((l.map f).sum - (l.map g).sum) := by abel
    rw [e]
    exact (len3_add_le _ _).trans (add_le_add h1 h2)

theorem directField_flatMap3 {A : Type} (l : List A) (src : A → List (Source 3)) (x : Vec 3) (eps : ℝ) :
    directField true (l.flatMap src) x eps = (l.map fun ρ => directField true (src ρ) x eps).sum := by
  induction l with
  | nil => simp [directField]
  | cons a l ih => rw [List.flatMap_cons, directField_append, ih]; simp

/-- The computed expansion `e` approximates the local expansion about `c` of the sources `S`, with `n` errors, in the ball of
the nodes at depth `k`. -/
structure LocalOf (u : ℝ) (p : ℕ) (r : Box 3) (h : ℕ) (c : Vec 3) (k n : ℕ) (e : Exp3) (S : List (Source 3)) : Prop where
  sep : ∀ s ∈ S, rad r k + side r k / 5 ≤ len3 (s.pos - c)
  app : ∃ b, AppL3 u n e c p b (rad r k) (totalStrength S * major3 r h p) ∧
    ∀ z, len3 (z - c) ≤ rad r k →
      |-(leSum3 b p (z - c)).re - directPotential true S z| ≤ totalStrength S * tail3 r h p ∧
      dist2 (leF b p (z - c)) (directField true S z 0) ≤ totalStrength S * tailF3 r h p

section
variable {r : Box 3} {h p k n m κ : ℕ} {c : Vec 3} {e f : Exp3} {S T : List (Source 3)}

theorem len3_tri (a b c : Vec 3) : len3 (a - c) ≤ len3 (a - b) + len3 (b - c) := by
  rw [len3_eq_dist2, len3_eq_dist2, len3_eq_dist2]; exact dist2_triangle3 a b c

theorem LocalOf.mono (hu : 0 ≤ u) (hr : 0 < r.len) (H : LocalOf u p r h c k n e S) (hn : n ≤ m) : LocalOf u p r h c k m e S := by
  obtain ⟨b, h1, h2⟩ := H.app
  exact ⟨H.sep, b, h1.mono hu (rad_pos hr k).le hn le_rfl, h2⟩

theorem LocalOf.zero (hu : 0 ≤ u) (he : e.Is c p fun _ _ => 0) : LocalOf u p r h c k 0 e [] where
  sep := by simp
  app := by
    refine ⟨fun _ _ => 0, ⟨_, he, LAp.zero hu (by simp [totalStrength_nil])⟩, fun z _ => ?_⟩
    have e : leF (fun _ _ => 0) p (z - c) = 0 := by funext i; simp [leF, leGrad3]
    refine ⟨by simp [leSum3, directPotential, totalStrength_nil], ?_⟩
    rw [e]; simp [directField, totalStrength_nil, dist2]

theorem LocalOf.add (hF : F.Ok u g) (hr : 0 < r.len) (H : LocalOf u p r h c k n e S) {n' : ℕ}
    (H' : LocalOf u p r h c k n' f T) (hn : n + 1 ≤ m) (hn' : n' + 1 ≤ m) :
    ∃ g, addEq F e f = .ok g ∧ LocalOf u p r h c k m g (S ++ T) := by
  obtain ⟨b, h1, h2⟩ := H.app
  obtain ⟨b', h1', h2'⟩ := H'.app
  obtain ⟨g, g1, g2⟩ := addEq_ap hF le_rfl (rad_pos hr k).le h1 h1' hn hn'
  refine ⟨g, g1, ?_, _, g2.mono hF.nonneg (rad_pos hr k).le le_rfl ?_, fun z hz => ?_⟩
  · intro s hs
    rcases List.mem_append.mp hs with hs | hs
    · exact H.sep s hs
    · exact H'.sep s hs
  · rw [totalStrength_append]; linarith
  · obtain ⟨a1, a2⟩ := h2 z hz
    obtain ⟨a1', a2'⟩ := h2' z hz
    refine ⟨?_, ?_⟩
    swap
    · rw [leF_add, directField_append, totalStrength_append, add_mul]
      rw [← len3_eq_dist2] at a2 a2' ⊢
      have e : leF b p (z - c) + leF b' p (z - c) - (directField true S z 0 + directField true T z 0)
          = (leF b p (z - c) - directField true S z 0) + (leF b' p (z - c) - directField true T z 0) := by abel
      rw [e]
      exact (len3_add_le _ _).trans (add_le_add a2 a2')
    rw [leSum3_add, directPotential_append, totalStrength_append, Complex.add_re]
    have e : -((leSum3 b p (z - c)).re + (leSum3 b' p (z - c)).re) - (directPotential true S z + directPotential true T z)
        = (-(leSum3 b p (z - c)).re - directPotential true S z) + (-(leSum3 b' p (z - c)).re - directPotential true T z) := by ring
    rw [e]
    refine (abs_add_le _ _).trans ?_
    linarith

theorem LocalOf.shift (hF : F.Ok u g) (hκ : Cost u g p κ) {t : Stat3} (ht : t.Good ∧ p ≤ t.alm.maxOrder) (hp : p ≤ 42) (hp0 : 0 < p)
    (hr : 0 < r.len) (H : LocalOf u p r h c k n e S) (c' : Vec 3) (hc : len3 (c' - c) ≤ rad r (k + 1)) :
    e.coeffs.size ≠ 0 ∧ ∃ f, leOfLe F t c' e = .ok (t, f) ∧ LocalOf u p r h c' (k + 1) (n + κ) f S := by
  obtain ⟨b, h1, h2⟩ := H.app
  have e2 := rad_succ (r := r) k
  have hc' := hc
  rw [len3_sub_comm] at hc'
  obtain ⟨t', f, g1, -, -, g4, g5⟩ := leOfLe_ap hF hκ t ht.1 h1 hp hp0 c' (rad_pos hr (k + 1)).le
    (show rad r (k + 1) + len3 (c - c') ≤ rad r k by linarith)
  rw [g4 ht.2] at g1
  refine ⟨by rw [h1.size]; positivity, f, g1, fun s hs => ?_, _, g5, fun z hz => ?_⟩
  · have a := H.sep s hs
    have b := len3_tri s.pos c' c
    have hs' := side_pos hr (k + 1)
    have e3 := side_succ (r := r) k
    linarith
  · have hz' : len3 (z - c) ≤ rad r k := by
      have b := len3_tri z c' c
      linarith
    rw [l2lC_exact, leF_l2l, show z - c' - (c - c') = z - c by abel]
    exact h2 z hz'

theorem tail3_le (hr : 0 < r.len) {D q l : ℝ} (hl : side r h ≤ l) (hq0 : 0 ≤ q) (hq : q ≤ 8 / 9) (hD : l / 5 ≤ D) :
    q ^ (p + 1) / D ≤ tail3 r h p := by
  have hs := side_pos hr h
  have hD' : side r h / 5 ≤ D := by linarith
  have hD0 : 0 < D := by linarith
  unfold tail3
  rw [div_eq_mul_inv]
  refine mul_le_mul (pow_le_pow_left₀ hq0 hq _) ?_ (by positivity) (by positivity)
  rw [inv_le_comm₀ hD0 (by positivity), inv_div]
  exact hD'

theorem tailF3_le (hr : 0 < r.len) {D b l : ℝ} (hl : side r h ≤ l) (hb : 0 ≤ b) (hq : b ≤ 8 / 9 * D) (hD : l / 5 ≤ D - b) (hD1 : l ≤ D) :
    gB p b D ≤ tailF3 r h p := by
  have hs := side_pos hr h
  have hD' : side r h / 5 ≤ D - b := by linarith
  have hD1' : side r h ≤ D := by linarith
  have hD0 : 0 < D := by linarith
  have hDb : 0 < D - b := by linarith
  have hq0 : 0 ≤ b / D := by positivity
  have hq' : b / D ≤ 8 / 9 := by rw [div_le_iff₀ hD0]; exact hq
  have hpw : (b / D) ^ p ≤ (8 / 9) ^ p := pow_le_pow_left₀ hq0 hq' p
  have hpw0 : 0 ≤ (b / D) ^ p := pow_nonneg hq0 p
  have h1 : (p + 1) * (b / D) ^ p / (D * (D - b)) ≤ (8 / 9) ^ p * ((5 * p + 5) / side r h ^ 2) := by
    have : side r h ^ 2 / 5 ≤ D * (D - b) := by
      have := mul_le_mul hD1' hD' (by positivity) hD0.le
      linarith
    have e : (8 / 9 : ℝ) ^ p * ((5 * p + 5) / side r h ^ 2) = (p + 1) * (8 / 9) ^ p / (side r h ^ 2 / 5) := by field_simp
    rw [e]
    exact div_le_div₀ (by positivity) (mul_le_mul_of_nonneg_left hpw (by positivity)) (by positivity) this
  have h2 : (b / D) ^ (p + 1) / (D - b) ^ 2 ≤ (8 / 9) ^ p * (30 / side r h ^ 2) := by
    have h3 : side r h ^ 2 / 25 ≤ (D - b) ^ 2 := by
      have := pow_le_pow_left₀ (by positivity) hD' 2
      linarith
    have h4 : (b / D) ^ (p + 1) ≤ (8 / 9) ^ p * (8 / 9) := by
      rw [pow_succ]
      exact mul_le_mul hpw hq' hq0 (by positivity)
    refine (div_le_div₀ (by positivity) h4 (by positivity) h3).trans ?_
    have e : (8 / 9 : ℝ) ^ p * (8 / 9) / (side r h ^ 2 / 25) = (8 / 9) ^ p * ((200 / 9) / side r h ^ 2) := by field_simp; norm_num
    rw [e]
    gcongr
    norm_num
  unfold gB tailF3
  have e : (8 / 9 : ℝ) ^ p * ((5 * p + 35) / side r h ^ 2)
      = (8 / 9) ^ p * ((5 * p + 5) / side r h ^ 2) + (8 / 9) ^ p * (30 / side r h ^ 2) := by
    rw [← mul_add, ← add_div]; ring
  rw [e]
  exact add_le_add h1 h2

theorem inv_le_major (hr : 0 < r.len) {D l : ℝ} (hl : side r h ≤ l) (hD : l / 5 ≤ D) : D⁻¹ ≤ 5 / side r h := by
  have hs := side_pos hr h
  have hD' : side r h / 5 ≤ D := by linarith
  rw [inv_le_comm₀ (by linarith) (by positivity), inv_div]
  exact hD'

theorem le_major3 (hr : 0 < r.len) {D l : ℝ} (hl : side r h ≤ l) (hD : l / 5 ≤ D) : D⁻¹ ≤ major3 r h p := by
  have hs := side_pos hr h
  refine (inv_le_major hr hl hD).trans ?_
  unfold major3
  exact le_mul_of_one_le_left (by positivity) (one_le_sqrtD p)

/-- Local expansion of sources at a distance. -/
theorem LocalOf.sources (hF : F.Ok u g) (hκ : Cost u g p κ) {t : Stat3} (ht : t.Good ∧ p ≤ t.alm.maxOrder) (hp : p ≤ 42)
    (hr : 0 < r.len) (hk : k ≤ h) (c' : Vec 3) (S : List (Source 3))
    (hS : ∀ s ∈ S, 149 / 100 * side r k ≤ len3 (s.pos - c')) :
    ∃ f, leOfSources F t c' p S = .ok (t, f) ∧ LocalOf u p r h c' k (S.length + κ) f S := by
  have hs := side_pos hr k
  have hsh := side_pos hr h
  have hle := side_anti hr hk
  have hrad : rad r k = 22 / 25 * side r k := rfl
  have hlt : rad r k < 149 / 100 * side r k := by rw [hrad]; linarith
  have hR := (rad_pos hr k).le
  obtain ⟨t', f, g1, -, -, g4, g5⟩ := leOfSources_ap hF hκ t ht.1 c' hp hR hlt S hS
  rw [g4 ht.2] at g1
  have hA := totalStrength_nonneg S
  refine ⟨f, g1, fun s hs' => ?_, leCoeff3 c' S, g5.mono hF.nonneg hR le_rfl ?_, fun z hz => ?_⟩
  · have := hS s hs'
    rw [hrad]; linarith
  · refine mul_le_mul_of_nonneg_left (le_major3 hr hle ?_) hA
    rw [hrad]; linarith
  · rw [len3_eq_dist2] at hz
    refine ⟨(le_bound3 c' z p S hz hlt fun s hs' => by rw [← len3_eq_dist2]; exact hS s hs').trans
      (mul_le_mul_of_nonneg_left (tail3_le hr hle (by positivity) ?_ ?_) hA),
      (le_force_bound3 c' z p S hz hlt fun s hs' => by rw [← len3_eq_dist2]; exact hS s hs').trans
      (mul_le_mul_of_nonneg_left (tailF3_le hr hle hR ?_ ?_ ?_) hA)⟩
    · rw [div_le_iff₀ (by positivity), hrad]; linarith
    · rw [hrad]; linarith
    · rw [hrad]; linarith
    · rw [hrad]; linarith
    · linarith

/-- Local expansion from the multipole expansions of separated nodes at the same depth. -/
theorem LocalOf.mes (hF : F.Ok u g) (hκ : Cost u g p κ) {t : Stat3} (ht : t.Good ∧ p ≤ t.alm.maxOrder) (hp : p ≤ 42) (hp0 : 0 < p)
    (hr : 0 < r.len) (hk : k ≤ h) (c' : Vec 3) {A : Type} (l : List A) (hne : l ≠ []) (me : A → Exp3) (cn : A → Vec 3)
    (src : A → List (Source 3))
    (hl : ∀ a ∈ l, AppM3 u n (me a) (cn a) p (meCoeff3 (cn a) (src a)) (totalStrength (src a)) (rad r k) ∧
      399 / 200 * side r k ≤ len3 (cn a - c') ∧ ∀ s ∈ src a, len3 (s.pos - cn a) ≤ rad r k) :
    ∃ f, leOfMes F t c' (l.map me) = .ok (t, f) ∧
      LocalOf u p r h c' k (n + κ + l.length) f (l.flatMap src) := by
  have hs := side_pos hr k
  have hsh := side_pos hr h
  have hle := side_anti hr hk
  have hrad : rad r k = 22 / 25 * side r k := rfl
  have hlt : rad r k + rad r k < 399 / 200 * side r k := by rw [hrad]; linarith
  have hR := (rad_pos hr k).le
  obtain ⟨t', f, g1, -, -, g4, g5⟩ := leOfMes_ap hF hκ t ht.1 c' hp hp0 (n := n) hR hR hlt
    (l.map fun a => (me a, cn a, meCoeff3 (cn a) (src a), totalStrength (src a))) (by simpa using hne) (by
      intro x hx
      obtain ⟨a, ha, rfl⟩ := List.mem_map.mp hx
      obtain ⟨a1, a2, -⟩ := hl a ha
      exact ⟨a1, totalStrength_nonneg _, a2⟩)
  have ett := g4 ht.2
  subst ett
  have e1 : (l.map fun a => (me a, cn a, meCoeff3 (cn a) (src a), totalStrength (src a))).map (·.1) = l.map me := by simp
  have e2 : ((l.map fun a => (me a, cn a, meCoeff3 (cn a) (src a), totalStrength (src a))).map (·.2.2.2)).sum
      = totalStrength (l.flatMap src) := by
    rw [totalStrength_flatMap']; simp [Function.comp_def]
  have e3 : (fun j k => ((l.map fun a => (me a, cn a, meCoeff3 (cn a) (src a), totalStrength (src a))).map
        fun x => m2lC p x.2.2.1 (x.2.1 - c') j k).sum)
      = fun j k => (l.map fun a => m2lC p (meCoeff3 (cn a) (src a)) (cn a - c') j k).sum := by
    funext j k; simp [Function.comp_def]
  rw [e1] at g1
  rw [e2, e3, List.length_map] at g5
  have hA := totalStrength_nonneg (l.flatMap src)
  refine ⟨f, g1, ?_, _, g5.mono hF.nonneg hR le_rfl ?_, fun z hz => ?_⟩
  · intro s hs'
    obtain ⟨a, ha, hsa⟩ := List.mem_flatMap.mp hs'
    obtain ⟨-, a2, a4⟩ := hl a ha
    have a4 := a4 s hsa
    have b := len3_tri (cn a) s.pos c'
    rw [len3_sub_comm (cn a) s.pos] at b
    rw [hrad] at a4 ⊢
    linarith
  · unfold major3
    rw [mul_comm (Real.sqrt _), mul_assoc]
    refine mul_le_mul_of_nonneg_left (mul_le_mul_of_nonneg_left (inv_le_major hr hle ?_) (Real.sqrt_nonneg _)) hA
    rw [hrad]; linarith
  · refine ⟨?_, ?_⟩
    swap
    · rw [leF_list, directField_flatMap3, totalStrength_flatMap', ← List.sum_map_mul_right]
      refine sum_close_vec l _ _ _ fun a ha => ?_
      obtain ⟨-, a2, a4⟩ := hl a ha
      rw [len3_eq_dist2] at hz a2
      refine (m2l_force_bound3 (cn a) c' z p (src a) hR (fun s hs' => by rw [← len3_eq_dist2]; exact a4 s hs') hz a2 hlt).trans ?_
      refine mul_le_mul_of_nonneg_left (tailF3_le hr hle (by positivity) ?_ ?_ ?_) (totalStrength_nonneg _)
      · rw [hrad]; linarith
      · rw [hrad]; linarith
      · linarith
    rw [leSum3_list, re_sum, directPotential_flatMap, totalStrength_flatMap', ← List.sum_map_mul_right, List.sum_neg, List.map_map]
    refine sum_close_real l _ _ _ fun a ha => ?_
    obtain ⟨-, a2, a4⟩ := hl a ha
    rw [len3_eq_dist2] at hz a2
    refine (m2l_bound3 (cn a) c' z p (src a) (fun s hs' => by rw [← len3_eq_dist2]; exact a4 s hs') hz a2 hlt).trans ?_
    refine mul_le_mul_of_nonneg_left (tail3_le hr hle (by positivity) ?_ ?_) (totalStrength_nonneg _)
    · rw [div_le_iff₀ (by positivity), hrad]; linarith
    · rw [hrad]; linarith

end

/-! ## The laws of the passes -/

/-- The sources of the nodes. -/
structure Srcs (T : PTree) (r : Box 3) (h N : ℕ) (src : Path → List (Source 3)) : Prop where
  within : ∀ π, T.Mem π → ∀ s ∈ src π, Within r h π s.pos
  len : ∀ π, (src π).length ≤ N
  kids : ∀ π, T.Mem π → T.leaf π = false → ((List.range (2 ^ 3)).flatMap fun i => src (i :: π)).Perm (src π)

/-- Errors in the multipole expansion of a node at depth `k`. -/
def meCount (κ N h k : ℕ) : ℕ := N + κ + (h - k) * (κ + 8)

/-- Errors in an expansion added to the local expansion of a node. -/
def inCount (κ N h : ℕ) : ℕ := meCount κ N h 0 + κ + 189

/-- Errors in the local expansion of a node at depth `k` after stage `j`. -/
def leCount (κ N h m k j : ℕ) : ℕ := if j = 0 then 0 else inCount κ N h + k * (κ + 2 + m) + j

theorem meCount_le (κ N h k : ℕ) : meCount κ N h k ≤ meCount κ N h 0 := by
  unfold meCount
  have : (h - k) * (κ + 8) ≤ (h - 0) * (κ + 8) := Nat.mul_le_mul_right _ (by omega)
  omega

theorem meCount_succ {κ N h k : ℕ} (hk : k + 1 ≤ h) : meCount κ N h (k + 1) + κ + 8 = meCount κ N h k := by
  unfold meCount
  obtain ⟨j, rfl⟩ := Nat.exists_eq_add_of_le hk
  rw [show k + 1 + j - (k + 1) = j by omega, show k + 1 + j - k = j + 1 by omega]
  ring

variable {T : PTree} {r : Box 3} {cen : Path → Vec 3} {h N p m κ : ℕ} {src : Path → List (Source 3)}

/-- The floating-point expansions satisfy the laws of the passes. -/
noncomputable def laws (hF : F.Ok u g) (hκ : Cost u g p κ) (G : Geo r cen h) (hc : T.c = 2 ^ 3) (hA : AdjOf T r) (hH : ∀ π, T.Mem π → π.length ≤ h)
    (hS : Srcs T r h N src) (hp0 : 0 < p) (hp : p ≤ 42) (hX : ∀ π, T.Mem π → (T.xl π).length ≤ m) :
    Rel.PassLaws (kit F) p T cen src where
  good := fun t => Stat3.Good t
  cov := fun t => Stat3.Good t ∧ p ≤ AlmTable.maxOrder (Stat3.alm t)
  ME π e := AppM3 u (meCount κ N h π.length) e (cen π) p (meCoeff3 (cen π) (src π)) (totalStrength (src π))
    (rad r π.length)
  LX π j e := LocalOf u p r h (cen π) π.length (leCount κ N h m π.length j) e (farAt T src π j)
  cov_good t ht := ht.1
  leNew := by
    intro t π hπ ht
    obtain ⟨t', e, h1, h2, h3, h4⟩ := new_cov3 hp t (cen π) ht
    refine ⟨t', e, h1, h2, h3, ?_⟩
    have e0 : farAt T src π 0 = [] := by cases π <;> rfl
    rw [e0]
    exact LocalOf.zero hF.nonneg h4
  leaf := by
    intro t π ht hπ hl
    obtain ⟨t', e, h1, -, -, h4, h5⟩ := meOfSources_ap hF hκ t ht.1 (cen π) hp (src π)
      fun s hs => G.within (hH π hπ) (hS.within π hπ s hs)
    obtain rfl := h4 ht.2
    refine ⟨e, h1, h5.mono hF.nonneg ?_ le_rfl (totalStrength_nonneg _) (rad_pos G.hr _).le le_rfl⟩
    have := hS.len π
    unfold meCount
    omega
  node := by
    refine fun (t : Stat3) π (f : ℕ → Exp3) ht hπ hl hf => ?_
    have hk : ∀ i < 2 ^ 3, T.Mem (i :: π) := fun i hi => hπ.cons hl (by rw [hc]; exact hi)
    have hlen : π.length + 1 ≤ h := by simpa using hH _ (hk 0 (by norm_num))
    obtain ⟨t', e, h1, -, -, h4, h5⟩ := meOfMes_ap hF hκ t ht.1 (cen π) hp hp0 (n := meCount κ N h (π.length + 1))
      (R := rad r (π.length + 1)) (σ := rad r (π.length + 1)) (rad_pos G.hr _).le
      ((List.range (2 ^ 3)).map fun i => (f i, cen (i :: π), src (i :: π))) (by simp) (by
        intro x hx
        obtain ⟨i, hi, rfl⟩ := List.mem_map.mp hx
        have hi := List.mem_range.mp hi
        exact ⟨hf i hi, G.shift (hH _ (hk i hi))⟩)
    obtain rfl := h4 ht.2
    have e1 : ((List.range (2 ^ 3)).map fun i => (f i, cen (i :: π), src (i :: π))).map (·.1)
        = (List.range (2 ^ 3)).map f := by simp [Function.comp_def]
    have e2 : (((List.range (2 ^ 3)).map fun i => (f i, cen (i :: π), src (i :: π))).flatMap (·.2.2)).Perm (src π) := by
      rw [List.flatMap_map]; exact hS.kids π hπ hl
    rw [e1] at h1
    rw [totalStrength_perm e2, rad_succ] at h5
    refine ⟨e, h1, ?_⟩
    have e3 : meCount κ N h (π.length + 1) + κ
        + ((List.range (2 ^ 3)).map fun i => (f i, cen (i :: π), src (i :: π))).length = meCount κ N h π.length := by
      rw [List.length_map, List.length_range]
      exact meCount_succ hlen
    rw [← e3]; exact h5.congr fun j _ k _ => meCoeff3_perm _ e2 j k
  l2l := by
    intro t i τ e0 eτ ht hπ h0 hτ
    rw [farAt_last] at hτ
    obtain ⟨hsz, f, g1, g2⟩ := LocalOf.shift hF hκ ht hp hp0 G.hr hτ (cen (i :: τ)) (G.shift (hH _ hπ))
    have e0' : farAt T src (i :: τ) 0 = [] := rfl
    rw [e0'] at h0
    have hx := hX τ hπ.tail
    obtain ⟨g', g3, g4⟩ := LocalOf.add hF G.hr h0 g2 (m := leCount κ N h m (τ.length + 1) 1)
      (by simp [leCount]) (by
        unfold leCount
        rw [if_neg (by omega), if_neg (by omega)]
        have : (τ.length + 1) * (κ + 2 + m) = τ.length * (κ + 2 + m) + (κ + 2 + m) := by ring
        omega)
    exact ⟨hsz, f, g', g1, g3, g4⟩
  m2l := by
    refine fun (t : Stat3) π (e0 : Exp3) (f : Path → Exp3) ht hπ h0 hne hf => ?_
    cases π with
    | nil => exact absurd rfl hne
    | cons i τ =>
      have hL := hA.laws G.hr
      have hlen : ∀ ρ ∈ T.inter (i :: τ), ρ.length = (i :: τ).length := fun ρ hρ => PTree.inter_length hL hπ hρ
      obtain ⟨f', g1, g2⟩ := LocalOf.mes hF hκ ht hp hp0 G.hr (hH _ hπ) (cen (i :: τ)) (T.inter (i :: τ)) hne f
        cen src (n := meCount κ N h (i :: τ).length) (by
          intro ρ hρ
          obtain ⟨m1, m2, -⟩ := (PTree.mem_inter hL hπ ρ).mp hρ
          have l := hlen ρ hρ
          have a := hf ρ hρ
          rw [l] at a
          refine ⟨a, ?_, fun s hs => ?_⟩
          · refine G.sep (hH _ hπ) l.symm ?_
            rw [hA] at m2
            simpa using m2
          · have := G.within (hH _ m1) (hS.within ρ m1 s hs)
            rwa [l] at this)
      have hcard := inter_card G.hr hA hc hπ
      obtain ⟨g', g3, g4⟩ := LocalOf.add hF G.hr h0 g2
        (m := leCount κ N h m (i :: τ).length 2) (by simp [leCount]) (by
        have a := meCount_le κ N h (i :: τ).length
        unfold leCount inCount
        rw [if_neg (by omega)]
        have : 0 ≤ (i :: τ).length * (κ + 2 + m) := Nat.zero_le _
        norm_num at hcard
        omega)
      refine ⟨f', g', g1, g3, ?_⟩
      have e : farAt T src (i :: τ) 2 = farAt T src (i :: τ) 1 ++ (T.inter (i :: τ)).flatMap src := by simp [farAt]
      rw [e]; exact g4
  m2l_nil := by
    intro π e0 hπ h0 hn
    have e : farAt T src π 2 = farAt T src π 1 := by
      cases π with
      | nil => rfl
      | cons i τ => simp [farAt, hn]
    rw [e]
    exact h0.mono hF.nonneg G.hr (by simp [leCount])
  x := by
    intro t π j ρ e0 ht hπ hj h0
    have hρ : ρ ∈ T.xl π := List.mem_of_getElem? hj
    cases π with
    | nil => simp [PTree.xl] at hρ
    | cons i τ =>
      have hL := hA.laws G.hr
      obtain ⟨m1, -, m3, -, m5⟩ := (PTree.mem_xl hL hπ ρ).mp hρ
      obtain ⟨f, g1, g2⟩ := LocalOf.sources hF hκ ht hp G.hr (hH _ hπ) (cen (i :: τ)) (src ρ) (by
        intro s hs
        refine G.sep_point (hH _ hπ) m3.le ?_ (hS.within ρ m1 s hs)
        rw [hA] at m5
        simpa using m5)
      have hl := hS.len ρ
      obtain ⟨g', g3, g4⟩ := LocalOf.add hF G.hr h0 g2
        (m := leCount κ N h m (i :: τ).length (2 + (j + 1)))
        (by unfold leCount; rw [if_neg (by omega), if_neg (by omega)]; omega) (by
        unfold leCount inCount meCount
        rw [if_neg (by omega)]
        have : 0 ≤ (i :: τ).length * (κ + 2 + m) := Nat.zero_le _
        omega)
      refine ⟨f, g', g1, g3, ?_⟩
      have e : farAt T src (i :: τ) (2 + (j + 1)) = farAt T src (i :: τ) (2 + j) ++ src ρ := by
        rw [Nat.add_comm 2 (j + 1), Nat.add_comm 2 j]
        simp only [farAt]
        rw [List.take_add_one, hj, List.flatMap_append]
        simp
      rw [e]; exact g4
  zero := by
    intro π e hπ hl h0
    have e0 : farAt T src π 0 = [] := by cases π <;> rfl
    rw [e0] at h0
    rw [farAt_last]
    have e : far T src π = [] := by
      match π, hl with
      | [], _ => rfl
      | [i], _ =>
        have a := Rel.inter_one hA G.hr hπ
        have b := xl_one hπ
        simp [far, a, b]
    rw [e]
    exact h0.mono hF.nonneg G.hr (by simp [leCount])

end FMM.Fl3
