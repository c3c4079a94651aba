import Verif.FltOpsLE3
import Verif.Fmm3D
import Verif.FltGeo
import Verif.PropsRoundingTree

/-!
# Distances between computed centres, sources and evaluation points in space

The boxes of a tree in floating-point arithmetic have slightly displaced centres, and sources and evaluation points may lie
slightly outside the box they are assigned to.  The separation that the error bounds of the expansions need remains.
-/

namespace FMM.Fl3
open Rounded

/-- The computed centres `cen` of nodes up to depth `h` agree with those of the boxes over `r`, up to a fraction of the smallest
boxes. -/
structure Geo (r : Box 3) (cen : Path → Vec 3) (h : ℕ) : Prop where
  hr : 0 < r.len
  near : ∀ π : Path, π.length ≤ h → ∀ j, |cen π j - (boxAt r π).center j| ≤ r.len / 2 ^ h / 400

/-- `x` is in the box of node `π`, up to a fraction of the smallest boxes. -/
def Within (r : Box 3) (h : ℕ) (π : Path) (x : Vec 3) : Prop :=
  ∀ j, |x j - (boxAt r π).center j| ≤ r.len / 2 ^ π.length / 2 + r.len / 2 ^ h / 200

theorem coord_le_len (v w : Vec 3) (j : Fin 3) : |v j - w j| ≤ len3 (v - w) := by
  rw [len3_eq_dist2]; exact abs_le_dist2 v w j

theorem len_le_of_coord {v w : Vec 3} {a b : ℝ} (h : ∀ j, |v j - w j| ≤ a) (hb : 0 ≤ b) (hab : 3 * a ^ 2 ≤ b ^ 2) :
    len3 (v - w) ≤ b := by
  refine abs_le_of_sq_le_sq' ?_ hb |>.2
  refine le_trans ?_ hab
  have e : len3 (v - w) ^ 2 = (v 0 - w 0) ^ 2 + (v 1 - w 1) ^ 2 + (v 2 - w 2) ^ 2 := by
    rw [len3_sq]; simp [dot3]; ring
  have h0 := sq_le_sq' (abs_le.mp (h 0)).1 (abs_le.mp (h 0)).2
  have h1 := sq_le_sq' (abs_le.mp (h 1)).1 (abs_le.mp (h 1)).2
  have h2 := sq_le_sq' (abs_le.mp (h 2)).1 (abs_le.mp (h 2)).2
  rw [e]; linarith

/-- Side of the boxes at depth `k`. -/
noncomputable def side (r : Box 3) (k : ℕ) : ℝ := r.len / 2 ^ k
/-- Radius of the balls around the centres of the nodes at depth `k`. -/
noncomputable def rad (r : Box 3) (k : ℕ) : ℝ := 22 / 25 * side r k

section
variable {r : Box 3} {cen : Path → Vec 3} {h : ℕ}

theorem side_pos (hr : 0 < r.len) (k : ℕ) : 0 < side r k := by unfold side; positivity
theorem side_succ (k : ℕ) : side r (k + 1) = side r k / 2 := by unfold side; rw [pow_succ]; field_simp
theorem side_anti (hr : 0 < r.len) {k n : ℕ} (hk : k ≤ n) : side r n ≤ side r k :=
  div_le_div_of_nonneg_left hr.le (by positivity) (pow_le_pow_right₀ (by norm_num) hk)
theorem side_zero : side r 0 = r.len := by simp [side]
theorem rad_pos (hr : 0 < r.len) (k : ℕ) : 0 < rad r k := by unfold rad; have := side_pos hr k; linarith

theorem Geo.within (G : Geo r cen h) {π : Path} (hπ : π.length ≤ h) {x : Vec 3} (hx : Within r h π x) :
    len3 (x - cen π) ≤ rad r π.length := by
  have h1 := side_anti G.hr hπ
  have h0 := side_pos G.hr h
  have h2 : ∀ j, |x j - cen π j| ≤ 203 / 400 * side r π.length := by
    intro j
    have a := hx j
    have b := G.near π hπ j
    have e : x j - cen π j = (x j - (boxAt r π).center j) - (cen π j - (boxAt r π).center j) := by ring
    have c := abs_sub (x j - (boxAt r π).center j) (cen π j - (boxAt r π).center j)
    rw [← e] at c
    change _ ≤ side r π.length / 2 + side r h / 200 at a
    change _ ≤ side r h / 400 at b
    linarith
  refine len_le_of_coord h2 (rad_pos G.hr _).le ?_
  unfold rad
  nlinarith [sq_nonneg (side r π.length)]

theorem child_center (r : Box 3) (i : ℕ) (τ : Path) (j : Fin 3) :
    |(boxAt r (i :: τ)).center j - (boxAt r τ).center j| = |side r (τ.length + 1) / 2| := by
  have e : (boxAt r (i :: τ)).center j - (boxAt r τ).center j = (childDir 3 i j) * ((boxAt r τ).len / 2 / 2) := by
    simp only [boxAt, Box.child, Pi.add_apply, Pi.smul_apply, smul_eq_mul]
    ring
  have hs : |(boxAt r τ).len / 2 / 2| = |side r (τ.length + 1) / 2| := by
    rw [boxAt_len, side_succ]; rfl
  rw [e, abs_mul, hs]
  have : |childDir 3 i j| = 1 := by rcases childDir_eq (d := 3) i j with h | h <;> rw [h] <;> simp
  rw [this, one_mul]

theorem Geo.shift (G : Geo r cen h) {i : ℕ} {τ : Path} (hπ : (i :: τ).length ≤ h) :
    len3 (cen (i :: τ) - cen τ) ≤ rad r (τ.length + 1) := by
  have h1 := side_anti G.hr hπ
  have h0 := side_pos G.hr h
  have h3 := side_pos G.hr (τ.length + 1)
  rw [List.length_cons] at h1
  have h2 : ∀ j, |cen (i :: τ) j - cen τ j| ≤ 203 / 400 * side r (τ.length + 1) := by
    intro j
    have a := G.near _ hπ j
    have b := G.near τ (by rw [List.length_cons] at hπ; omega) j
    have c := child_center r i τ j
    rw [abs_of_pos (show 0 < side r (τ.length + 1) / 2 by linarith)] at c
    change _ ≤ side r h / 400 at a
    change _ ≤ side r h / 400 at b
    rw [abs_le] at a b ⊢
    have c1 := le_abs_self ((boxAt r (i :: τ)).center j - (boxAt r τ).center j)
    have c2 := neg_abs_le ((boxAt r (i :: τ)).center j - (boxAt r τ).center j)
    rw [c] at c1 c2
    constructor <;> linarith [a.1, a.2, b.1, b.2]
  refine len_le_of_coord h2 (rad_pos G.hr _).le ?_
  unfold rad
  nlinarith [sq_nonneg (side r (τ.length + 1))]

theorem rad_succ (k : ℕ) : rad r (k + 1) + rad r (k + 1) = rad r k := by unfold rad; rw [side_succ]; ring

/-- Separated nodes at the same depth. -/
theorem Geo.sep (G : Geo r cen h) {π ρ : Path} (hπ : π.length ≤ h) (hlen : π.length = ρ.length)
    (ha : ¬ (boxAt r π).adjacent (boxAt r ρ)) : 399 / 200 * side r π.length ≤ len3 (cen ρ - cen π) := by
  obtain ⟨j, hj⟩ := center_dist_of_not_adjacent r G.hr π ρ hlen ha
  have h1 := side_anti G.hr hπ
  have a := G.near π hπ j
  have b := G.near ρ (hlen ▸ hπ) j
  refine le_trans ?_ (coord_le_len (cen ρ) (cen π) j)
  rw [boxAt_len] at hj
  change 2 * side r π.length ≤ _ at hj
  change _ ≤ side r h / 400 at a
  change _ ≤ side r h / 400 at b
  have e : (boxAt r π).center j - (boxAt r ρ).center j
      = -(cen ρ j - cen π j) + ((cen ρ j - (boxAt r ρ).center j) - (cen π j - (boxAt r π).center j)) := by ring
  have c := abs_add_le (-(cen ρ j - cen π j)) ((cen ρ j - (boxAt r ρ).center j) - (cen π j - (boxAt r π).center j))
  rw [← e, abs_neg] at c
  have f := abs_sub (cen ρ j - (boxAt r ρ).center j) (cen π j - (boxAt r π).center j)
  linarith

/-- A point in (or almost in) a box that is separated from a node that is not larger. -/
theorem Geo.sep_point (G : Geo r cen h) {π ρ : Path} (hπ : π.length ≤ h) (hlen : ρ.length ≤ π.length)
    (ha : ¬ (boxAt r π).adjacent (boxAt r ρ)) {x : Vec 3} (hx : Within r h ρ x) :
    149 / 100 * side r π.length ≤ len3 (x - cen π) := by
  obtain ⟨j, hj⟩ := point_dist_of_not_adjacent r G.hr π ρ hlen ha
  have h1 := side_anti G.hr hπ
  have hp := side_pos G.hr h
  have hq := side_pos G.hr ρ.length
  set y : Vec 3 := fun i => Max.max ((boxAt r ρ).center i - side r ρ.length / 2) (min ((boxAt r ρ).center i + side r ρ.length / 2) (x i))
    with hy
  have hc : (boxAt r ρ).contains y := by
    rw [Box.contains_iff]
    intro i
    rw [boxAt_len]
    change (boxAt r ρ).center i - side r ρ.length / 2 ≤ y i ∧ y i ≤ (boxAt r ρ).center i + side r ρ.length / 2
    refine ⟨le_max_left _ _, max_le (by linarith) (min_le_left _ _)⟩
  have hxy : |x j - y j| ≤ side r h / 200 := by
    have := abs_le.mp (hx j)
    change -(side r ρ.length / 2 + side r h / 200) ≤ _ ∧ _ ≤ side r ρ.length / 2 + side r h / 200 at this
    rw [abs_le]
    simp only [hy]
    rcases le_total ((boxAt r ρ).center j + side r ρ.length / 2) (x j) with c | c
    · rw [min_eq_left c, max_eq_right (by linarith)]; constructor <;> linarith [this.1, this.2]
    · rw [min_eq_right c]
      rcases le_total ((boxAt r ρ).center j - side r ρ.length / 2) (x j) with c' | c'
      · rw [max_eq_right c']; constructor <;> linarith
      · rw [max_eq_left c']; constructor <;> linarith [this.1, this.2]
  have hj := hj y hc
  rw [boxAt_len] at hj
  change 3 / 2 * side r π.length ≤ _ at hj
  have a := G.near π hπ j
  change _ ≤ side r h / 400 at a
  refine le_trans ?_ (coord_le_len x (cen π) j)
  have e : y j - (boxAt r π).center j = (x j - cen π j) + ((cen π j - (boxAt r π).center j) - (x j - y j)) := by ring
  have c := abs_add_le (x j - cen π j) ((cen π j - (boxAt r π).center j) - (x j - y j))
  rw [← e] at c
  have f := abs_sub (cen π j - (boxAt r π).center j) (x j - y j)
  linarith

theorem root_near (hr : 0 < r.len) (π : Path) (j : Fin 3) : |(boxAt r π).center j - r.center j| ≤ r.len / 2 - side r π.length / 2 := by
  have := center_exact_near (toR r) hr.le π j
  have e : (Rounded.boxAt id (toR r) π).exact = boxAt r π := boxAt_id (toR r) π
  have e' : (Rounded.boxAt id (toR r) π).center = (boxAt r π).center := congrArg Box.center e
  rw [e'] at this
  exact this

theorem Within.root (hr : 0 < r.len) {π : Path} {x : Vec 3} (hx : Within r h π x) (j : Fin 3) :
    |x j - r.center j| ≤ r.len := by
  have a := hx j
  have b := root_near hr π j
  have h1 := side_anti (n := h) hr (Nat.zero_le _)
  rw [side_zero] at h1
  change _ ≤ side r π.length / 2 + side r h / 200 at a
  have e : x j - r.center j = (x j - (boxAt r π).center j) + ((boxAt r π).center j - r.center j) := by ring
  have c := abs_add_le (x j - (boxAt r π).center j) ((boxAt r π).center j - r.center j)
  rw [← e] at c
  linarith

theorem Geo.root (G : Geo r cen h) {π : Path} (hπ : π.length ≤ h) (j : Fin 3) : |cen π j - r.center j| ≤ r.len := by
  have a := G.near π hπ j
  have b := root_near G.hr π j
  have h1 := side_anti (n := h) G.hr (Nat.zero_le _)
  have hq := side_pos G.hr π.length
  rw [side_zero] at h1
  change _ ≤ side r h / 400 at a
  have e : cen π j - r.center j = (cen π j - (boxAt r π).center j) + ((boxAt r π).center j - r.center j) := by ring
  have c := abs_add_le (cen π j - (boxAt r π).center j) ((boxAt r π).center j - r.center j)
  rw [← e] at c
  have := G.hr
  linarith

theorem len_le_root {v w : Vec 3} (hr : 0 < r.len) (hv : ∀ j, |v j - r.center j| ≤ r.len)
    (hw : ∀ j, |w j - r.center j| ≤ r.len) : len3 (v - w) ≤ 4 * r.len := by
  refine len_le_of_coord (a := 2 * r.len) (fun j => ?_) (by linarith) (by nlinarith)
  have e : v j - w j = (v j - r.center j) - (w j - r.center j) := by ring
  have c := abs_sub (v j - r.center j) (w j - r.center j)
  rw [← e] at c
  linarith [hv j, hw j]

end

/-! ## The computed tree -/

section
variable {rnd : ℝ → ℝ} {u C : ℝ} {r : RBox ℝ 3} {h : ℕ}

theorem small_delta (hk : 100 * ((8 * h + 15) * (u * (4 * (C + r.len)))) < r.len / 2 ^ (h + 1)) :
    (8 * h + 15) * (u * (4 * (C + r.len))) ≤ r.len / 2 ^ h / 200 := by
  rw [pow_succ, ← div_div] at hk
  linarith

theorem geo_on (hu : 0 ≤ u) (hL : 0 < r.len) (hC0 : 0 ≤ C) (H : RndOn rnd u (4 * (C + r.len))) (hC : ∀ i, |r.center i| ≤ C)
    (hk : 100 * ((8 * h + 15) * (u * (4 * (C + r.len)))) < r.len / 2 ^ (h + 1)) :
    Geo r.exact (fun π => (bxR rnd r π).center) h where
  hr := hL
  near := by
    intro π hπ j
    have hs := small_delta hk
    have hd : 0 ≤ u * (4 * (C + r.len)) := by positivity
    have c := ctx_on hu hL hC0 H hC (k := h) (by nlinarith [mul_nonneg (by positivity : (0:ℝ) ≤ 8 * h + 15) hd])
    have := c.centerR π hπ j
    rw [show (Rounded.boxAt id r π).center = (boxAt r.exact π).center from congrArg Box.center (boxAt_id r π)] at this
    refine this.trans ?_
    have h1 : (π.length : ℝ) ≤ h := by exact_mod_cast hπ
    change _ ≤ r.len / 2 ^ h / 400
    generalize u * (4 * (C + r.len)) = δ at *
    nlinarith

theorem geo_of (H : ∀ x, |rnd x - x| ≤ u * |x|) (hu : 0 ≤ u) (hL : 0 < r.len) (hC0 : 0 ≤ C) (hC : ∀ i, |r.center i| ≤ C)
    (hk : 100 * ((8 * h + 15) * (u * (4 * (C + r.len)))) < r.len / 2 ^ (h + 1)) :
    Geo r.exact (fun π => (bxR rnd r π).center) h :=
  geo_on hu hL hC0 (RndOn.of_rel H hu) hC hk

/-- Sources are in the boxes of the nodes on their route. -/
theorem within_route_on (hu : 0 ≤ u) (hL : 0 < r.len) (hC0 : 0 ≤ C) (H : RndOn rnd u (4 * (C + r.len))) (hC : ∀ i, |r.center i| ≤ C)
    (hk : 100 * ((8 * h + 15) * (u * (4 * (C + r.len)))) < r.len / 2 ^ (h + 1)) {x : Vec 3} (hx : r.exact.contains x)
    {n : ℕ} (hn : n ≤ h) : Within r.exact h (Rounded.route rnd r x n) x := by
  intro j
  have hs := small_delta hk
  have hd : 0 ≤ u * (4 * (C + r.len)) := by positivity
  have c := ctx_on hu hL hC0 H hC (k := h) (by nlinarith [mul_nonneg (by positivity : (0:ℝ) ≤ 8 * h + 15) hd])
  have hin : ∀ i, |x i - r.center i| ≤ r.len / 2 := by
    intro i
    have := (Box.contains_iff r.exact x).mp hx i
    change r.center i - r.len / 2 ≤ x i ∧ x i ≤ r.center i + r.len / 2 at this
    rw [abs_le]; constructor <;> linarith [this.1, this.2]
  have a := Rounded.route_near c x hin n hn j
  have hl := Rounded.route_length rnd r x n
  have b := c.centerR (Rounded.route rnd r x n) (by omega) j
  rw [show (Rounded.boxAt id r (Rounded.route rnd r x n)).center = (boxAt r.exact (Rounded.route rnd r x n)).center from
    congrArg Box.center (boxAt_id r _)] at b
  rw [hl] at b ⊢
  have h1 : (n : ℝ) ≤ h := by exact_mod_cast hn
  change _ ≤ r.len / 2 ^ n / 2 + r.len / 2 ^ h / 200
  have e : x j - (boxAt r.exact (Rounded.route rnd r x n)).center j = (x j - (Rounded.boxAt rnd r (Rounded.route rnd r x n)).center j)
      + ((Rounded.boxAt rnd r (Rounded.route rnd r x n)).center j - (boxAt r.exact (Rounded.route rnd r x n)).center j) := by ring
  rw [e]
  refine (abs_add_le _ _).trans ?_
  generalize u * (4 * (C + r.len)) = δ at *
  nlinarith

theorem within_route (H : ∀ x, |rnd x - x| ≤ u * |x|) (hu : 0 ≤ u) (hL : 0 < r.len) (hC0 : 0 ≤ C) (hC : ∀ i, |r.center i| ≤ C)
    (hk : 100 * ((8 * h + 15) * (u * (4 * (C + r.len)))) < r.len / 2 ^ (h + 1)) {x : Vec 3} (hx : r.exact.contains x)
    {n : ℕ} (hn : n ≤ h) : Within r.exact h (Rounded.route rnd r x n) x :=
  within_route_on hu hL hC0 (RndOn.of_rel H hu) hC hk hx hn

/-- Points that pass the containment test with the computed bounds. -/
theorem within_contains_on (hu : 0 ≤ u) (hL : 0 < r.len) (hC0 : 0 ≤ C) (H : RndOn rnd u (4 * (C + r.len)))
    (hC : ∀ i, |r.center i| ≤ C) (hk : 100 * ((8 * h + 15) * (u * (4 * (C + r.len)))) < r.len / 2 ^ (h + 1)) {x : Vec 3}
    {π : Path} (hπ : π.length ≤ h) (hx : (Rounded.boxAt rnd r π).contains rnd x = true) : Within r.exact h π x := by
  intro j
  have hs := small_delta hk
  have hd : 0 ≤ u * (4 * (C + r.len)) := by positivity
  have c := ctx_on hu hL hC0 H hC (k := h) (by nlinarith [mul_nonneg (by positivity : (0:ℝ) ≤ 8 * h + 15) hd])
  have a := c.lowerR π hπ j
  have b := c.upperR π hπ j
  rw [show (Rounded.boxAt id r π).center = (boxAt r.exact π).center from congrArg Box.center (boxAt_id r π)] at a b
  have hx : (Rounded.boxAt rnd r π).lower rnd j ≤ x j ∧ x j ≤ (Rounded.boxAt rnd r π).upper rnd j := by
    have := of_decide_eq_true hx j
    push Not at this
    exact this
  have h1 : (π.length : ℝ) ≤ h := by exact_mod_cast hπ
  change _ ≤ r.len / 2 ^ π.length / 2 + r.len / 2 ^ h / 200
  rw [abs_le] at a b ⊢
  generalize u * (4 * (C + r.len)) = δ at *
  have : (4 * π.length + 5) * δ ≤ (8 * h + 15) * δ := by
    refine mul_le_mul_of_nonneg_right ?_ hd
    have : (0 : ℝ) ≤ h := Nat.cast_nonneg h
    linarith
  have : (4 * π.length + 4) * δ ≤ (8 * h + 15) * δ := by
    refine mul_le_mul_of_nonneg_right ?_ hd
    have : (0 : ℝ) ≤ h := Nat.cast_nonneg h
    linarith
  constructor <;> linarith [a.1, a.2, b.1, b.2]

theorem within_contains (H : ∀ x, |rnd x - x| ≤ u * |x|) (hu : 0 ≤ u) (hL : 0 < r.len) (hC0 : 0 ≤ C)
    (hC : ∀ i, |r.center i| ≤ C) (hk : 100 * ((8 * h + 15) * (u * (4 * (C + r.len)))) < r.len / 2 ^ (h + 1)) {x : Vec 3}
    {π : Path} (hπ : π.length ≤ h) (hx : (Rounded.boxAt rnd r π).contains rnd x = true) : Within r.exact h π x :=
  within_contains_on hu hL hC0 (RndOn.of_rel H hu) hC hk hπ hx

end
end FMM.Fl3
