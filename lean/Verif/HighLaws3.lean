import Verif.HighLib3

/-!
# The passes over a tree in space do not overflow

`Fit3`: the exponents of the distances (`t`), of the total strength (`α`), of the table `A_n^m` (`G`) and the order `p` leave room below the
largest `double`.  `K k` is the exponent of the radius of the nodes at depth `k`.  The coefficients of degree `n` of the multipole
expansions are below `2^(α+1+K n)`, those of the local expansions below `2^(α+t+8+(1-K)n)`.
-/

namespace FMM.Hi3
open FMM D64 Rounded Fl3 Finset
variable {F : Flt3} {L : Lib} {u g η ρ θ τ ν : ℝ} {p t α G κ : ℕ}

/-- The range of the numbers. -/
structure Fit3 (θ : ℝ) (p t α G : ℕ) : Prop where
  th : 1 ≤ θ * 2 ^ t
  small : t ≤ 190
  pw : (t + 1) * (2 * p + 1) ≤ 900
  room : α + t + 2 * p + G + 24 + (t + 1) * (p + 1) ≤ 930

/-- Exponent of the intermediate results. -/
def topE (p t α G : ℕ) : ℤ := α + t + 2 * p + G + 24 + (t + 1) * (p + 1)

theorem Fit3.nums (h : Fit3 θ p t α G) : 0 ≤ ((t : ℤ) + 1) * p ∧ ((t : ℤ) + 1) * (2 * p + 1) ≤ 900 ∧ topE p t α G ≤ 930 ∧
    ((t : ℤ) + 1) * (p + 1) = ((t : ℤ) + 1) * p + (t + 1) ∧ ((t : ℤ) + 1) * (2 * p + 1) = 2 * (((t : ℤ) + 1) * p) + (t + 1) ∧
    topE p t α G = α + t + 2 * p + G + 24 + (((t : ℤ) + 1) * p + (t + 1)) := by
  refine ⟨by positivity, by exact_mod_cast h.pw, ?_, by ring, by ring, by unfold topE; ring⟩
  unfold topE
  exact_mod_cast h.room

/-- Exponents of the radii. -/
def Lvl (r : Box 3) (h t : ℕ) (K : ℕ → ℤ) : Prop := ∀ k ≤ h, rad r k ≤ 2 ^ K k ∧ 2 ^ (K k - 1) ≤ rad r k ∧ |K k| ≤ t

theorem lvl {r : Box 3} {h : ℕ} (hsp : Lo3.Span θ r h) (hθ : 0 < θ) (hr : 0 < r.len) (ht : Fit3 θ p t α G) :
    Lvl r h t fun k => Int.clog 2 (rad r k) := by
  intro k hk
  have h0 := rad_pos hr k
  have e1 : rad r k ≤ (2 : ℝ) ^ Int.clog 2 (rad r k) := by
    have := Int.self_le_zpow_clog (b := 2) (by norm_num) (rad r k)
    exact_mod_cast this
  have e2 : (2 : ℝ) ^ (Int.clog 2 (rad r k) - 1) < rad r k := by
    have := Int.zpow_pred_clog_lt_self (b := 2) (by norm_num) h0
    exact_mod_cast this
  refine ⟨e1, e2.le, abs_le.mpr ⟨?_, ?_⟩⟩
  · have h1 : (2 : ℝ) ^ (-(t : ℤ)) ≤ 2 ^ Int.clog 2 (rad r k) := by
      refine le_trans ?_ ((hsp.rad hr hk).trans e1)
      rw [zpow_neg, zpow_natCast, inv_le_iff_one_le_mul₀ (by positivity)]
      exact ht.th
    exact (zpow_le_zpow_iff_right₀ (by norm_num)).mp h1
  · have h1 : (2 : ℝ) ^ (Int.clog 2 (rad r k) - 1) < 2 ^ (t : ℤ) := by
      refine e2.trans_le ((hsp.rad_le hr hθ k).trans ?_)
      rw [zpow_natCast, inv_le_iff_one_le_mul₀ hθ, mul_comm]
      exact ht.th
    have := (zpow_lt_zpow_iff_right₀ (by norm_num)).mp h1
    show Int.clog 2 (rad r k) ≤ t
    omega

/-! ## Distances -/

section
variable (hF : F.Low u g η ρ) (hsc : Scale3 u η θ τ ν p) (h64 : Is64 F) (hL : LibOf L F)
include hF hsc h64 hL

theorem dist_up {v w : Vec 3} (hv : Mod v) (hw : Mod w) {R : ℝ} (hR : θ ≤ R) (h : len3 (v - w) ≤ R) {k : ℤ} (hk : R ≤ 2 ^ k) :
    N 1 (k + 1) (norm3 (vsub v w)) := by
  obtain ⟨g1, -, -⟩ := geo_fin h64 hL hv hw
  rw [g1]
  refine .fin ?_
  have hη : η ≤ R := (hsc.le le_rfl).trans hR
  have a := (Lo3.nrm3_ap hF (Lo3.vsub_len hF.toLow v w h hη) h hη).norm
  rw [Real.norm_eq_abs] at a
  have hu := hF.nonneg
  have h2 : (1 + u) ^ 2 ≤ 2 := by nlinarith [hF.small]
  have hR0 : 0 ≤ R := hsc.th0.le.trans hR
  rw [← two_mul_pow]
  exact a.trans (mul_le_mul h2 hk hR0 (by norm_num))

theorem dist_inv {v w : Vec 3} (hv : Mod v) (hw : Mod w) {R : ℝ} (hd : Lo3.Far θ (v - w)) (h : 13 / 10 * R ≤ len3 (v - w)) {k : ℤ}
    (hk : 2 ^ (k - 1) ≤ R) : ∃ y, norm3 (vsub v w) = .fin y ∧ y ≠ 0 ∧ |y|⁻¹ ≤ 2 ^ (1 - k) := by
  obtain ⟨g1, -, -⟩ := geo_fin h64 hL hv hw
  obtain ⟨f1, f2⟩ := Lo3.far_inv hF hsc hd
  refine ⟨_, g1, f1, ?_⟩
  have a := f2.norm
  rw [Real.norm_eq_abs, abs_inv] at a
  have hu := hF.nonneg
  have h4 : (1 + u) ^ 4 ≤ 13 / 10 := by
    refine (pow_le_pow_left₀ (by linarith) (by linarith [hF.small] : 1 + u ≤ 1 + 1 / 16) 4).trans ?_
    norm_num
  have hp : (0 : ℝ) < 2 ^ (k - 1) := two_pow_pos _
  have h5 : (len3 (v - w))⁻¹ ≤ (13 / 10 * 2 ^ (k - 1))⁻¹ := inv_anti₀ (by positivity) (by linarith)
  refine a.trans ((mul_le_mul h4 h5 (inv_nonneg.mpr (len3_nonneg _)) (by norm_num)).trans (le_of_eq ?_))
  rw [mul_inv, ← mul_assoc, show (13 / 10 : ℝ) * (13 / 10)⁻¹ = 1 by norm_num, one_mul, ← zpow_neg, neg_sub]

end

/-- The reciprocal. -/
theorem recip_N {d : Dbl} {k : ℤ} (h : ∃ y, d = .fin y ∧ y ≠ 0 ∧ |y|⁻¹ ≤ 2 ^ k) (h0 : -1000 ≤ k) (h1 : k ≤ 950) : N 1 k (div (.fin 1) d) := by
  obtain ⟨y, rfl, y0, hy⟩ := h
  show N 1 k (if y = 0 then _ else rnd64 (1 / y))
  rw [if_neg y0]
  refine rnd_N (by norm_num) h0 h1 ?_
  rw [abs_div, abs_one, one_div, Nat.cast_one, one_mul]
  exact hy

/-! ## Coefficients -/

/-- Bounds of the coefficients. -/
def BL (p : ℕ) (b : ℕ → ℤ) (f : Exp3) : Prop := ∀ n ≤ p, ∀ m : ℤ, |m| ≤ n → ‖f.coeffs.val (cell n m)‖ ≤ 2 ^ b n

theorem CB.rebound {k : ℕ} {b b' : ℕ → ℤ} {c : Vec 3} {e : Exp64} {f : Exp3} (h : CB p k b e.c) (ha : CAgr p c e f) (hb : BL p b' f) : CB p 1 b' e.c :=
  fun n hn m hm => (h n hn m hm).rebound (ha.cells.val n hn m hm) (hb n hn m hm)

theorem coeff_me {c : Vec 3} {e : Exp3} {n : ℕ} {a : ℕ → ℤ → ℂ} {A R : ℝ} {k : ℤ} (H : AppM3 u n e c p a A R) (hn : (1 + u) ^ n ≤ 2) (hA : A ≤ 2 ^ α)
    (hA0 : 0 ≤ A) (hR0 : 0 ≤ R) (hR : R ≤ 2 ^ k) : BL p (fun j => α + 1 + k * j) e := by
  obtain ⟨a', h1, h2⟩ := H
  intro j hj m hm
  rw [h1.val j hj m hm]
  refine (Lo3.norm_le_l2 (mem_Ir.mpr hm)).trans ((h2 j hj).norm.trans ?_)
  have h3 : R ^ j ≤ (2 ^ k) ^ j := pow_le_pow_left₀ hR0 hR j
  have h4 : A * R ^ j ≤ 2 ^ α * (2 ^ k) ^ j := mul_le_mul hA h3 (by positivity) (by positivity)
  refine (mul_le_mul hn h4 (by positivity) (by norm_num)).trans (le_of_eq ?_)
  rw [zpow_add₀ (by norm_num), zpow_add₀ (by norm_num), zpow_mul, zpow_natCast, zpow_natCast, zpow_one]
  ring

theorem major_up {r : Box 3} {h : ℕ} (hsp : Lo3.Span θ r h) (hθ : 0 < θ) (hr : 0 < r.len) (ht : Fit3 θ p t α G) (hp : p ≤ 42) : major3 r h p ≤ 2 ^ (t + 7) := by
  have h1 := hsp.side hr (k := h) le_rfl
  have h0 := side_pos hr h
  have h2 : Real.sqrt (2 * p + 1) ≤ 16 := by
    rw [Real.sqrt_le_left (by norm_num)]
    have : (p : ℝ) ≤ 42 := by exact_mod_cast hp
    linarith
  have h3 : 5 / side r h ≤ 8 * 2 ^ t := by
    rw [div_le_iff₀ h0]
    have := mul_le_mul_of_nonneg_right h1 (by positivity : (0 : ℝ) ≤ 2 ^ t)
    linarith [ht.th]
  unfold major3
  refine (mul_le_mul h2 h3 (by positivity) (by norm_num)).trans (le_of_eq ?_)
  rw [pow_add]; ring

theorem coeff_le {r : Box 3} {h k n : ℕ} {c : Vec 3} {e : Exp3} {S : List (Source 3)} {K : ℤ} (hsp : Lo3.Span θ r h) (hθ : 0 < θ) (hr : 0 < r.len)
    (ht : Fit3 θ p t α G) (hp : p ≤ 42) (H : Lo3.LocalOf u τ p r h c k n e S) (hn : (1 + u) ^ n ≤ 2) (hA : FMM.totalStrength S ≤ 2 ^ α)
    (hK : 2 ^ (K - 1) ≤ rad r k) : BL p (fun j => α + t + 8 + (1 - K) * j) e := by
  obtain ⟨b, ⟨b', h1, h2⟩, -⟩ := H.loc.app
  intro j hj m hm
  rw [h1.val j hj m hm]
  have hR0 := rad_pos hr k
  have h3 := h2.norm hR0.le
  have h4 : rad r k ^ j * l2 (Ir j) (b' j) ≤ wl p (rad r k) b' := by
    unfold wl
    exact single_le_sum (f := fun j => rad r k ^ j * l2 (Ir j) (b' j)) (fun i _ => mul_nonneg (by positivity) (l2_nonneg _ _)) (mem_range.mpr (by omega))
  have h5 : FMM.totalStrength S * major3 r h p ≤ 2 ^ α * 2 ^ (t + 7) :=
    mul_le_mul hA (major_up hsp hθ hr ht hp) (major3_nonneg hr h p) (by positivity)
  have h6 : wl p (rad r k) b' ≤ 2 * (2 ^ α * 2 ^ (t + 7)) :=
    h3.trans (mul_le_mul hn h5 (mul_nonneg (totalStrength_nonneg S) (major3_nonneg hr h p)) (by norm_num))
  have hP : (0 : ℝ) < 2 ^ (K - 1) := two_pow_pos _
  have h7 : ((2 : ℝ) ^ (K - 1)) ^ j * ‖b' j m‖ ≤ 2 * (2 ^ α * 2 ^ (t + 7)) :=
    (mul_le_mul (pow_le_pow_left₀ hP.le hK j) (Lo3.norm_le_l2 (mem_Ir.mpr hm)) (norm_nonneg _) (by positivity)).trans (h4.trans h6)
  have h8 : (2 : ℝ) ^ ((α : ℤ) + t + 8 + (1 - K) * j) = 2 * (2 ^ α * 2 ^ (t + 7)) / ((2 : ℝ) ^ (K - 1)) ^ j := by
    rw [eq_div_iff (by positivity), ← zpow_natCast (2 ^ (K - 1)) j, ← zpow_mul, ← zpow_add₀ (by norm_num),
      show (α : ℤ) + t + 8 + (1 - K) * j + (K - 1) * j = ((1 + (α + (t + 7)) : ℕ) : ℤ) by push_cast; ring, zpow_natCast, pow_add, pow_add, pow_one]
  rw [h8, le_div_iff₀ (by positivity), mul_comm]
  exact h7

/-! ## The laws of the passes -/

section
variable {T : PTree} {cen : Path → Vec 3} {src : Path → List (Source 3)} {K : ℕ → ℤ}

/-- What the operations use of the tree. -/
structure Placed3 (t α : ℕ) (K : ℕ → ℤ) (T : PTree) (cen : Path → Vec 3) (src : Path → List (Source 3)) : Prop where
  eight : T.c = 2 ^ 3
  lev : ∀ π, T.Mem π → |K π.length| ≤ t
  mid : ∀ π, T.Mem π → Mod (cen π)
  own : ∀ π, T.Mem π → ∀ s ∈ src π, Mod s.pos ∧ |s.q| ≤ 2 ^ (α : ℤ) ∧ N 1 (K π.length + 1) (norm3 (vsub s.pos (cen π)))
  up : ∀ i τ, T.Mem (i :: τ) → N 1 (K (i :: τ).length + 1) (norm3 (vsub (cen (i :: τ)) (cen τ)))
  down : ∀ i τ, T.Mem (i :: τ) → N 1 (K τ.length + 1) (norm3 (vsub (cen τ) (cen (i :: τ))))
  inter : ∀ π, T.Mem π → ∀ ν ∈ T.inter π, T.Mem ν ∧ ν.length = π.length ∧
    ∃ y, norm3 (vsub (cen ν) (cen π)) = .fin y ∧ y ≠ 0 ∧ |y|⁻¹ ≤ 2 ^ (1 - K π.length)
  card : ∀ π, T.Mem π → (T.inter π).length ≤ 2 ^ 20
  x : ∀ π, T.Mem π → ∀ ν ∈ T.xl π, T.Mem ν ∧ ∀ s ∈ src ν, ∃ y, norm3 (vsub s.pos (cen π)) = .fin y ∧ y ≠ 0 ∧ |y|⁻¹ ≤ 2 ^ (1 - K π.length)
  num : ∀ π, T.Mem π → (src π).length ≤ 2 ^ 48

/-- Bounds of the two kinds of expansions. -/
def bM (α : ℕ) (K : ℤ) : ℕ → ℤ := fun n => α + 1 + K * n
def bL (t α : ℕ) (K : ℤ) : ℕ → ℤ := fun n => α + t + 8 + (1 - K) * n

/-- Sum of two local expansions. -/
theorem addEq_fin (h64 : Is64 F) {c : Vec 3} {B : ℤ} {k : ℕ} {b b' : ℕ → ℤ} {e0 e1 : Exp64} {f0 f1 f2 : Exp3} (h0 : CAgr p c e0 f0) (h0' : CB p 1 b e0.c)
    (hb : ∀ n ≤ p, b n ≤ B) (h1 : CAgr p c e1 f1) (h1' : CB p k (fun _ => B) e1.c) (hk : k ≤ 2 ^ 49) (hB : -1000 ≤ B) (hB' : B ≤ 950)
    (h : Fl3.addEq F f0 f1 = .ok f2) (hf : BL p b' f2) : ∃ e2, D64.addEq e0 e1 = .ok e2 ∧ CAgr p c e2 f2 ∧ CB p 1 b' e2.c := by
  obtain ⟨d, d1, d2⟩ := addEq_agr h64 h0 h1 h
  refine ⟨d, d1, d2, ?_⟩
  have key := (h0'.mono le_rfl hb).add h1' (by omega) hB hB'
  unfold D64.addEq at d1
  rw [if_neg (by rw [h0.size, h1.size, h0.center, h1.center]; simp)] at d1
  injection d1 with d1
  have d3 : d.c = fun n m => cadd (e0.c n m) (e1.c n m) := by rw [← d1]
  refine CB.rebound (k := 1 + k) (b := fun _ => B) ?_ d2 hf
  rw [d3]
  exact key

theorem bL_le (ht : Fit3 θ p t α G) {K : ℤ} (hK : |K| ≤ t) {n : ℕ} (hn : n ≤ p) : bL t α K n ≤ topE p t α G := by
  obtain ⟨n1, n2, n3, n4, n5, n6⟩ := ht.nums
  have := (kb (dn_T (K := K) (T := (t : ℤ) + 1) (by linarith)) hn).2
  have h0 : (0 : ℤ) ≤ G := by positivity
  have h1 : (0 : ℤ) ≤ p := by positivity
  have h2 : (0 : ℤ) ≤ t := by positivity
  unfold bL
  linarith

/-- With `double`s the passes compute the expansions `Lw` describes, if these are bounded. -/
noncomputable def hiLaws3 (h64 : Is64 F) (hL : LibOf L F) (hA : AlmOk L p G) (hY : ∀ lmax ≤ 2 * p, ∀ v w : Vec 3, Mod v → Mod w → YOk L lmax (vsub v w))
    (ht : Fit3 θ p t α G) (hp0 : 0 < p) (hp : p ≤ 42) (Y : Placed3 t α K T cen src) (Lw : Rel.PassLaws (Fl3.kit F) p T cen src)
    (tt : Stat3) (htt : tt.Good) (hgood : Lw.good tt) (hcov : Lw.cov tt)
    (hME : ∀ π f, T.Mem π → Lw.ME π f → BL p (bM α (K π.length)) f)
    (hLX : ∀ π j f, T.Mem π → j ≤ 2 + (T.xl π).length → Lw.LX π j f → BL p (bL t α (K π.length)) f) :
    Rel.PassLaws (kit64 L) p T cen src where
  good := fun _ => True
  cov := fun _ => True
  ME π e := ∃ f, Lw.ME π f ∧ CAgr p (cen π) e f ∧ CB p 1 (bM α (K π.length)) e.c
  LX π j e := ∃ f, Lw.LX π j f ∧ CAgr p (cen π) e f ∧ CB p 1 (bL t α (K π.length)) e.c
  cov_good _ _ := trivial
  leNew := by
    intro b π hπ _
    obtain ⟨b', f, h1, -, -, h4⟩ := Lw.leNew tt π hπ hgood
    obtain ⟨-, -, h5⟩ := new_agr htt hp h1
    exact ⟨(), Exp64.new (cen π) p, rfl, trivial, fun _ => rfl, f, h4, h5, cb_zero⟩
  leaf := by
    intro b π _ hπ hl
    obtain ⟨f, h1, h2⟩ := Lw.leaf tt π hcov hπ hl
    obtain ⟨n1, n2, n3, n4, n5, n6⟩ := ht.nums
    have h0 : (0 : ℤ) ≤ G := by positivity
    have hp1 : (0 : ℤ) ≤ p := by positivity
    have ht0 : (0 : ℤ) ≤ t := by positivity
    obtain ⟨-, k2⟩ := meOfSources_agr h64 hL hp (Y.mid π hπ) (fun s hs => (Y.own π hπ s hs).1) htt h1
    have k3 := p2m_fin (L := L) (p := p) (K := K π.length) (T := (t : ℤ) + 1) (α := α) (B := topE p t α G) (S := src π) (c := cen π)
      (by linarith [Y.lev π hπ]) (by positivity) (by linarith) (by linarith) (by linarith) (Y.num π hπ)
      (fun s hs => ⟨(Y.own π hπ s hs).2.1, (Y.own π hπ s hs).2.2, hY p (by omega) _ _ (Y.own π hπ s hs).1 (Y.mid π hπ)⟩)
    exact ⟨_, rfl, f, h2, k2, CB.rebound (e := { Exp64.new (cen π) p with c := p2m L p (cen π) (src π) }) k3 k2 (hME π f hπ h2)⟩
  node := by
    refine fun (b : Unit) π (f : ℕ → Exp64) _ hπ hl hf => ?_
    have hk : ∀ i < 2 ^ 3, T.Mem (i :: π) := fun i hi => hπ.cons hl (by rw [Y.eight]; exact hi)
    obtain ⟨n1, n2, n3, n4, n5, n6⟩ := ht.nums
    have h0 : (0 : ℤ) ≤ G := by positivity
    have hp1 : (0 : ℤ) ≤ p := by positivity
    have ht0 : (0 : ℤ) ≤ t := by positivity
    have : Nonempty Exp3 := ⟨Exp3.empty⟩
    have hf : ∀ i < 2 ^ 3, ∃ f' : Exp3, Lw.ME (i :: π) f' ∧ CAgr p (cen (i :: π)) (f i) f' ∧ CB p 1 (bM α (K (i :: π).length)) (f i).c := hf
    choose! f' hf' using hf
    obtain ⟨g, h1, h2⟩ := Lw.node tt π f' hcov hπ hl fun i hi => (hf' i hi).1
    have h1 : Fl3.meOfMes F tt (cen π) ((List.range (2 ^ 3)).map f') = .ok (tt, g) := h1
    obtain ⟨d, d1, -, d3⟩ := meOfMes_agr h64 hL htt hp0 hp (Y.mid π hπ) (fs := (List.range (2 ^ 3)).map f') (es := (List.range (2 ^ 3)).map f) (by
      rw [List.forall₂_map_left_iff, List.forall₂_map_right_iff, List.forall₂_same]
      intro i hi
      have hi := List.mem_range.mp hi
      have e := (hf' i hi).2.1.center
      refine ⟨by rw [e]; exact Y.mid _ (hk i hi), by rw [e]; exact (hf' i hi).2.1⟩) h1
    refine ⟨d, by show (meMes L (cen π) ((List.range (2 ^ 3)).map f)).map _ = _; rw [d1]; rfl, g, h2, d3, ?_⟩
    obtain ⟨l, hl8⟩ : ∃ l, (List.range (2 ^ 3)).map f = f 0 :: l := ⟨_, rfl⟩
    rw [meMes_ok (L := L) (cen π) hl8 (hf' 0 (by norm_num)).2.1.order] at d1
    injection d1 with d1
    have d4 : d.c = m2m L p (cen π) (((List.range (2 ^ 3)).map f).map fun e : Exp64 => (e.center, e.c)) := by rw [← d1]
    refine CB.rebound (k := 0 + (2 ^ 3)) (b := fun _ => topE p t α G) ?_ d3 (hME π g hπ h2)
    rw [d4]
    unfold m2m
    rw [List.foldl_map, List.foldl_map]
    have key := CB.foldl (p := p) (B := topE p t α G) (List.range (2 ^ 3)) (fun i => meShift L p (f i).c (vsub (f i).center (cen π))) 0 (by
      intro i hi
      have hi := List.mem_range.mp hi
      rw [(hf' i hi).2.1.center]
      exact meShift_fin (T := (t : ℤ) + 1) (a := α + 1) (K := K (i :: π).length) hA hp (by linarith [Y.lev _ (hk i hi)]) (by positivity) (hf' i hi).2.2 (Y.up i π (hk i hi))
        (hY p (by omega) _ _ (Y.mid _ (hk i hi)) (Y.mid π hπ)) (by linarith) (by linarith) (by linarith)) (e := fun _ _ => czero) cb_zero (by norm_num) (by linarith) (by linarith)
    rw [List.length_range] at key
    exact key
  l2l := by
    rintro b i τ e0 eτ _ hπ ⟨f0, h0, h0a, h0b⟩ ⟨fτ, hτ, hτa, hτb⟩
    obtain ⟨n1, n2, n3, n4, n5, n6⟩ := ht.nums
    have hG0 : (0 : ℤ) ≤ G := by positivity
    have hp1 : (0 : ℤ) ≤ p := by positivity
    have ht0 : (0 : ℤ) ≤ t := by positivity
    obtain ⟨s, g1, g2, h1, h2, h3⟩ := Lw.l2l tt i τ f0 fτ hcov hπ h0 hτ
    obtain ⟨-, k2⟩ := leOfLe_agr h64 hL htt hp0 hp (Y.mid _ hπ) (e := eτ) ⟨by rw [hτa.center]; exact Y.mid _ hπ.tail, by rw [hτa.center]; exact hτa⟩ h1
    have k3 : CB p 1 (fun _ => topE p t α G) (leShift L eτ.order eτ.c (vsub eτ.center (cen (i :: τ)))) := by
      rw [hτa.order, hτa.center]
      exact leShift_fin (T := (t : ℤ) + 1) (a := α + t + 8) (K := K τ.length) hA hp (by linarith [Y.lev _ hπ.tail]) (by positivity) hτb (Y.down i τ hπ)
        (hY _ le_rfl _ _ (Y.mid _ hπ.tail) (Y.mid _ hπ)) (by linarith) (by linarith) (by linarith)
    obtain ⟨e', k4, k5, k6⟩ := addEq_fin (k := 1) (B := topE p t α G) h64 h0a h0b (fun n hn => bL_le ht (Y.lev _ hπ) hn) k2 k3 (by norm_num) (by linarith) (by linarith) h2 (hLX _ _ _ hπ (by omega) h3)
    refine ⟨?_, _, e', rfl, k4, g2, h3, k5, k6⟩
    show eτ.size ≠ 0
    rw [hτa.size]; positivity
  m2l := by
    refine fun (b : Unit) π (e0 : Exp64) (f : Path → Exp64) _ hπ he0 hne hf => ?_
    obtain ⟨f0, h0, h0a, h0b⟩ := he0
    obtain ⟨n1, n2, n3, n4, n5, n6⟩ := ht.nums
    have hG0 : (0 : ℤ) ≤ G := by positivity
    have hp1 : (0 : ℤ) ≤ p := by positivity
    have ht0 : (0 : ℤ) ≤ t := by positivity
    have : Nonempty Exp3 := ⟨Exp3.empty⟩
    have hf : ∀ ν ∈ T.inter π, ∃ f' : Exp3, Lw.ME ν f' ∧ CAgr p (cen ν) (f ν) f' ∧ CB p 1 (bM α (K ν.length)) (f ν).c := hf
    choose! f' hf' using hf
    obtain ⟨g1, g2, h1, h2, h3⟩ := Lw.m2l tt π f0 f' hcov hπ h0 hne fun ν hν => (hf' ν hν).1
    have h1 : Fl3.leOfMes F tt (cen π) ((T.inter π).map f') = .ok (tt, g1) := h1
    obtain ⟨d, d1, -, d3⟩ := leOfMes_agr h64 hL htt hp0 hp (Y.mid π hπ) (fs := (T.inter π).map f') (es := (T.inter π).map f) (by
      rw [List.forall₂_map_left_iff, List.forall₂_map_right_iff, List.forall₂_same]
      intro ν hν
      have e := (hf' ν hν).2.1.center
      refine ⟨by rw [e]; exact Y.mid _ (Y.inter π hπ ν hν).1, by rw [e]; exact (hf' ν hν).2.1⟩) h1
    have hrun := d1
    obtain ⟨ν0, l, hl⟩ := List.exists_cons_of_ne_nil hne
    rw [leMes_ok (L := L) (p := p) (cen π) (es := (T.inter π).map f) (e0 := f ν0) (l := l.map f) (by rw [hl, List.map_cons])
      (hf' ν0 (by rw [hl]; simp)).2.1.order] at d1
    injection d1 with d1
    have d4 : d.c = m2ls L p (cen π) (((T.inter π).map f).map fun e : Exp64 => (e.center, e.c)) := by rw [← d1]
    have hlev := Y.lev π hπ
    have hlev' := abs_le.mp hlev
    have k3 : CB p (0 + (T.inter π).length) (fun _ => topE p t α G) d.c := by
      rw [d4]
      unfold m2ls
      rw [List.foldl_map, List.foldl_map]
      refine CB.foldl (p := p) (B := topE p t α G) (T.inter π) (fun ν => m2l L p (cen π) ((f ν).center, (f ν).c)) 0 (fun ν hν => ?_) (e := fun _ _ => czero) cb_zero
        (by have := Y.card π hπ; omega) (by linarith) (by linarith)
      obtain ⟨m1, m2, m3⟩ := Y.inter π hπ ν hν
      have hb := (hf' ν hν).2.2
      rw [(hf' ν hν).2.1.center]
      rw [m2] at hb
      exact m2l_fin (T := (t : ℤ) + 1) (a := α + 1) (K := K π.length) hA hp (by linarith) (by positivity) hb (recip_N m3 (by have := ht.small; omega) (by have := ht.small; omega))
        (hY _ le_rfl _ _ (Y.mid _ m1) (Y.mid π hπ)) (by linarith) (by linarith) (by linarith)
    obtain ⟨e', k4, k5, k6⟩ := addEq_fin (B := topE p t α G) h64 h0a h0b (fun n hn => bL_le ht hlev hn) d3 k3 (by have := Y.card π hπ; omega) (by linarith) (by linarith) h2 (hLX _ _ _ hπ (by omega) h3)
    exact ⟨d, e', by show (leMes L (cen π) ((T.inter π).map f)).map _ = _; rw [hrun]; rfl, k4, g2, h3, k5, k6⟩
  m2l_nil := by
    rintro π e0 hπ ⟨f0, h0, h0'⟩ hn
    exact ⟨f0, Lw.m2l_nil π f0 hπ h0 hn, h0'⟩
  x := by
    rintro b π j ν e0 _ hπ hj ⟨f0, h0, h0a, h0b⟩
    obtain ⟨n1, n2, n3, n4, n5, n6⟩ := ht.nums
    have hG0 : (0 : ℤ) ≤ G := by positivity
    have hp1 : (0 : ℤ) ≤ p := by positivity
    have ht0 : (0 : ℤ) ≤ t := by positivity
    obtain ⟨g1, g2, h1, h2, h3⟩ := Lw.x tt π j ν f0 hcov hπ hj h0
    obtain ⟨m1, m2⟩ := Y.x π hπ ν (List.mem_of_getElem? hj)
    have hlev := Y.lev π hπ
    obtain ⟨-, k2⟩ := leOfSources_agr h64 hL hp (Y.mid π hπ) (fun s hs => (Y.own ν m1 s hs).1) htt h1
    have k3 := p2l_fin (L := L) (p := p) (K := K π.length) (T := (t : ℤ) + 1) (α := α) (B := topE p t α G) (S := src ν) (c := cen π)
      (by linarith) (by positivity) (by linarith) (by linarith) (by linarith) (Y.num ν m1)
      (fun s hs => ⟨(Y.own ν m1 s hs).2.1, m2 s hs, hY p (by omega) _ _ (Y.own ν m1 s hs).1 (Y.mid π hπ)⟩)
    obtain ⟨e', k4, k5, k6⟩ := addEq_fin (B := topE p t α G) h64 h0a h0b (fun n hn => bL_le ht hlev hn) k2 k3 (by have := Y.num ν m1; omega) (by linarith) (by linarith) h2
      (hLX _ _ _ hπ (by have := (List.getElem?_eq_some_iff.mp hj).1; omega) h3)
    exact ⟨_, e', rfl, k4, g2, h3, k5, k6⟩
  zero := by
    rintro π e hπ hl ⟨f, h0, h1⟩
    exact ⟨f, Lw.zero π f hπ hl h0, h1⟩

end

end FMM.Hi3
