import Verif.LowDirect3
import Verif.LowEval
import Verif.FltEval3

/-!
# Evaluation of the potential of a tree in space, with gradual underflow

The statements of `FltEval3`, for operations with a floor.
-/

namespace FMM.Lo3
open Rounded Finset Fl3
open Fl (far farAt farAt_last sum_close_real re_sum directPotential_flatMap split_perm W_geo)
open Lo (evalLeaf_ap)
variable {F : Flt3} {u g η ρ₀ θ τ ν : ℝ}

section
variable {A : Type} [DecidableEq A] {T : PTree} {r : Box 3} {cen : Path → Vec 3} {h N p m κ : ℕ} {src : Path → List (Source 3)}
  {sh : Shape 3 A} {addr : Path → A}

/-- A node in list W: potential. -/
theorem W_pot (hF : F.Low u g η ρ₀) (hsc : Scale3 u η θ τ ν p) (hsp : Span θ r h) (hκ : Cost u g p κ) (G : Geo r cen h) (hS : Srcs T r h N src) {R ρ : Path} {x : Vec 3} (hx : Within r h R x)
    (hρ : T.Mem ρ) (hl : ρ.length ≤ h) (hlen : R.length ≤ ρ.length) (ha : ¬ (boxAt r ρ).adjacent (boxAt r R))
    (hq : ∀ s ∈ src ρ, Flr τ |s.q|) {n : ℕ} {e : Exp3} (he : AppM3 u n e (cen ρ) p (meCoeff3 (cen ρ) (src ρ)) (totalStrength (src ρ)) (rad r ρ.length)) :
    ∃ v t, mePot F e x = .ok v ∧ Ap u (n + κ) (totalStrength (src ρ) * major3 r h p) v t ∧
      |t - directPotential true (src ρ) x| ≤ totalStrength (src ρ) * tail3 r h p := by
  have a := G.sep_point hl hlen ha hx
  have hs := side_pos G.hr ρ.length
  have hsh := side_pos G.hr h
  have hle := side_anti G.hr hl
  have hA := totalStrength_nonneg (src ρ)
  have hrad : rad r ρ.length = 22 / 25 * side r ρ.length := rfl
  have hR0 := rad_pos G.hr ρ.length
  have hlt : rad r ρ.length < 149 / 100 * side r ρ.length := by rw [hrad]; linarith
  obtain ⟨v, h1, h2⟩ := mePot_ap hF hsc hκ he (totalStrength_flr hq) hA (hsp.rad G.hr hl) hlt a
    (hsp.far G.hr hl (by norm_num) a (len_le_root G.hr (hx.root G.hr) fun j => G.root hl j))
  refine ⟨v, _, h1, h2.mono hF.nonneg le_rfl (mul_le_mul_of_nonneg_left (le_major3 G.hr hle ?_) hA), ?_⟩
  · rw [hrad]; linarith
  · rw [len3_eq_dist2] at a
    refine (me_bound3 (cen ρ) x p (src ρ) (fun s hs' => by
      rw [← len3_eq_dist2]; exact G.within hl (hS.within ρ hρ s hs')) hlt a).trans ?_
    refine mul_le_mul_of_nonneg_left (tail3_le G.hr hle (by positivity) ?_ ?_) hA
    · rw [div_le_iff₀ (by positivity), hrad]; linarith
    · rw [hrad]; linarith

/-- **Potential at a point of a leaf.** -/
theorem evalPot (hF : F.Low u g η ρ₀) (hsc : Scale3 u η θ τ ν p) (hsp : Span θ r h) (hκ : Cost u g p κ) (G : Geo r cen h) (hT : Rel.TreeR T r cen src sh addr h) (hS : Srcs T r h N src)
    (hq : ∀ π, T.Mem π → ∀ s ∈ src π, Flr τ |s.q|) (hp0 : 0 < p)
    (hp : p ≤ 42) (hX : ∀ π, T.Mem π → (T.xl π).length ≤ m) {s : Exps (kit F) A}
    (hs : Rel.Done (laws hF hsc hsp hκ G hT.hc hT.hA hT.hH hS hq hp0 hp hX) addr s) {R : Path} (hR : T.Mem R) (hl : T.leaf R = true)
    (hmW : ((T.nbhAfter (T.order (h + 1))).W R).length ≤ m) (hmU : ((T.nbhAfter (T.order (h + 1))).near R).length ≤ m)
    {items : List (Source 3)} (hperm : ((T.slots (h + 1) R).flatMap src).Perm items) {x : Vec 3} (hx : Within r h R x)
    (hcl : ∀ s ∈ items, Clear θ x s)
    (hne : ∀ ρ, T.Mem ρ → T.leaf ρ = true → ρ ≠ R → ∀ s ∈ src ρ, s.pos ≠ x) (grav : Bool) :
    ∃ v, Rounded.evalLeaf (fun a b => F.rnd (a + b)) (fun a => -a) (pot F) sh grav s (addr R) x = .ok v ∧
      |v - directPotential grav items x| ≤ totalStrength items * tail3 r h p
        + ((1 + u) ^ evalCount κ N h m - 1) * (totalStrength items * major3 r h p + absPotential3 items x) := by
  have hL := hT.hA.laws hT.hr
  have hh : ∀ π, T.Mem π → π.length < h + 1 := fun π hπ => Nat.lt_succ_of_le (hT.hH π hπ)
  have hRh := hT.hH R hR
  have hxR := G.within hRh hx
  have hsh := side_pos G.hr h
  have hu := hF.nonneg
  obtain ⟨e, l1, l2⟩ := hs.le R hR
  have l2 : LocalOf u τ p r h (cen R) R.length (leCount κ N h m R.length (2 + (T.xl R).length)) e
      (farAt T src R (2 + (T.xl R).length)) := l2
  rw [farAt_last] at l2
  have hpm := split_perm hT.hH hR hperm
  have hUcl : ∀ ρ ∈ (T.nbhAfter (T.order (h + 1))).near R, ∀ s ∈ src ρ, Clear θ x s := fun ρ hρ s hs' =>
    hcl s (hpm.mem_iff.mp (List.mem_append_left _ (List.mem_flatMap.mpr ⟨ρ, hρ, hs'⟩)))
  have hflr : ∀ {A : ℝ}, Flr τ A → Flr η (A * major3 r h p) := fun hA => by
    refine (hA.mulge (hsp.major G.hr p) hsc.tau0.le hsc.th0.le).mono ?_
    have := hsc.fl1 (i := 0) (k := 1) (by omega) (by omega)
    rwa [pow_zero, pow_one, mul_one] at this
  obtain ⟨b, b1, b2⟩ := l2.loc.app
  obtain ⟨v0, c1, c2⟩ := lePot_ap hF hsc hκ b1 (l2.mflr hsc hsp G.hr) (hsp.rad_le G.hr hsc.th0 _) (hsp.rad G.hr hRh) hxR
  have hc := leCount_le (κ := κ) (N := N) (m := m) hRh (j := 2 + (T.xl R).length) (by have := hX R hR; omega)
  have hWs : ∀ ρ ∈ (T.nbhAfter (T.order (h + 1))).W R, ∃ (e : (kit F).E) (v t : ℝ), s.me (addr ρ) = some e ∧ (pot F).me e x = .ok v ∧
      Ap u (evalCount0 κ N h m) (totalStrength (src ρ) * major3 r h p) v t ∧
      |t - directPotential true (src ρ) x| ≤ totalStrength (src ρ) * tail3 r h p := by
    intro ρ hρ
    obtain ⟨w1, w2, w3, w4⟩ := W_geo hT.hA hT.hr hT.hH hρ
    obtain ⟨e, m1, m2⟩ := hs.me ρ w1 w2
    obtain ⟨v, t, v1, v2, v3⟩ := W_pot hF hsc hsp hκ G hS hx w1 (hT.hH ρ w1) w3 w4 (hq ρ w1) m2
    exact ⟨e, v, t, m1, v1, v2.mono hu meCount_le' le_rfl, v3⟩
  have : Nonempty (kit F).E := ⟨(kit F).empty⟩
  choose! we wv wt hw using hWs
  obtain ⟨v, d1, d2⟩ := evalLeaf_ap (E := ℝ) id (fun a b => F.rnd (a + b)) (fun a => -a)
    (fun n A B a' b' a b ha hb hfl => hF.rrnd (ha.add hb) hfl) hu (pot F) hT hR hl x grav (s := s) (n := evalCount0 κ N h m)
    (MU := fun ρ => absPotential3 (src ρ) x) (tU := fun ρ => directPotential true (src ρ) x)
    (MW := fun ρ => totalStrength (src ρ) * major3 r h p) (tW := wt)
    ⟨e, v0, l1, c1, c2.mono hu (by omega) le_rfl, hflr l2.flr⟩
    (fun ρ hρ => ⟨we ρ, wv ρ, (hw ρ hρ).1, (hw ρ hρ).2.1, (hw ρ hρ).2.2.1,
      hflr (totalStrength_flr (hq ρ (W_geo hT.hA hT.hr hT.hH hρ).1))⟩) (by
      intro ρ hρ
      obtain ⟨u1, u2, -⟩ := (PTree.mem_near_leaf hL hh hR hl ρ).mp hρ
      have hlen := nearCount_le (κ := κ) (h := h) (m := m) (hS.len ρ)
      by_cases hρR : ρ = R
      · rw [decide_eq_true hρR]
        obtain ⟨v, v1, v2⟩ := potentialSum_safe hF hsc true (src ρ) x (hUcl ρ hρ) (hq ρ u1)
        exact ⟨v, v1, v2.mono hu hlen le_rfl, absPotential_flr hsc x (hUcl ρ hρ) (hq ρ u1)⟩
      · rw [decide_eq_false hρR]
        obtain ⟨v, v1, v2⟩ := potentialSum_unsafe hF hsc true (src ρ) x (hUcl ρ hρ) (hq ρ u1) (hne ρ u1 u2 hρR)
        exact ⟨v, v1, v2.mono hu hlen le_rfl, absPotential_flr hsc x (hUcl ρ hρ) (hq ρ u1)⟩)
  refine ⟨_, d1, ?_⟩
  set W := (T.nbhAfter (T.order (h + 1))).W R
  set U := (T.nbhAfter (T.order (h + 1))).near R
  have eA := totalStrength_perm hpm
  have eP := directPotential_perm true x hpm
  have eM := absPotential3_perm x hpm
  rw [totalStrength_append, totalStrength_append] at eA
  rw [directPotential_append, directPotential_append, directPotential_flatMap, directPotential_flatMap] at eP
  rw [absPotential3_append, absPotential3_append, absPotential3_flatMap] at eM
  have hAU := totalStrength_nonneg (U.flatMap src)
  have hMr := absPotential3_nonneg (W.flatMap src) x
  have hMf := absPotential3_nonneg (far T src R) x
  have hW1 := sum_close_real W wt (fun ρ => directPotential true (src ρ) x)
    (fun ρ => totalStrength (src ρ) * tail3 r h p) fun ρ hρ => (hw ρ hρ).2.2.2
  rw [List.sum_map_mul_right, ← totalStrength_flatMap'] at hW1
  have hL1 := (b2 x hxR).1
  have hd := d2.1
  rw [List.sum_map_mul_right, ← totalStrength_flatMap', Real.norm_eq_abs] at hd
  have hcnt : (1 + u) ^ (evalCount0 κ N h m + W.length + U.length) ≤ (1 + u) ^ evalCount κ N h m :=
    pow_le_pow_right₀ (by linarith) (by rw [← evalCount_eq]; omega)
  have hmj := major3_nonneg G.hr h p
  have hmaj : totalStrength (far T src R) * major3 r h p + totalStrength (W.flatMap src) * major3 r h p
      + (U.map fun ρ => absPotential3 (src ρ) x).sum ≤ totalStrength items * major3 r h p + absPotential3 items x := by
    rw [← eA, ← eM]
    have : 0 ≤ totalStrength (U.flatMap src) * major3 r h p := by positivity
    linarith
  have hmaj0 : 0 ≤ totalStrength (far T src R) * major3 r h p + totalStrength (W.flatMap src) * major3 r h p
      + (U.map fun ρ => absPotential3 (src ρ) x).sum := by
    rw [← absPotential3_flatMap]
    have := absPotential3_nonneg (U.flatMap src) x
    have := totalStrength_nonneg (W.flatMap src)
    have := totalStrength_nonneg (far T src R)
    positivity
  have hd' := hd.trans (mul_le_mul (sub_le_sub_right hcnt 1) hmaj hmaj0 (pow_sub_nonneg hu _))
  have htail : 0 ≤ totalStrength (U.flatMap src) * tail3 r h p := mul_nonneg hAU (tail3_nonneg G.hr h p)
  have hmain : |v - directPotential true items x| ≤ totalStrength items * tail3 r h p
        + ((1 + u) ^ evalCount κ N h m - 1) * (totalStrength items * major3 r h p + absPotential3 items x) := by
    rw [← eP, ← eA]
    rw [← eA] at hd'
    generalize ((1 + u) ^ evalCount κ N h m - 1) * _ = D at *
    rw [abs_le] at *
    simp only [id] at *
    constructor <;> linarith [hd'.1, hd'.2, hL1.1, hL1.2, hW1.1, hW1.2]
  cases grav
  · rw [directPotential_neg, if_neg (by simp)]
    rw [← abs_neg]
    convert hmain using 2
    ring
  · simpa using hmain

end
end FMM.Lo3
