import Verif.HighLaws3
import Verif.LowEval3
import Verif.DoubleAgreeTree3

/-!
# The passes over a tree in space and the evaluation of a leaf do not overflow
-/

namespace FMM.Hi3
open FMM D64 Rounded Fl3 Finset
variable {F : Flt3} {L : Lib} {u g η ρ θ τ ν : ℝ} {p t α G κ : ℕ}

section
variable {T : PTree} {r : Box 3} {cen : Path → Vec 3} {h M m : ℕ} {src : Path → List (Source 3)} {items : List (Source 3)} {K : ℕ → ℤ}

theorem strength_le {s : Source 3} {S : List (Source 3)} (h : s ∈ S) : |s.q| ≤ FMM.totalStrength S := by
  induction S with
  | nil => cases h
  | cons a S ih =>
    rw [totalStrength_cons]
    rcases List.mem_cons.mp h with rfl | h
    · linarith [totalStrength_nonneg S]
    · linarith [ih h, abs_nonneg a.q]

theorem strength_sublist {S S' : List (Source 3)} (h : S.Sublist S') : FMM.totalStrength S ≤ FMM.totalStrength S' := by
  induction h with
  | slnil => exact le_rfl
  | cons a _ ih => rw [totalStrength_cons]; linarith [abs_nonneg a.q]
  | cons_cons a _ ih => rw [totalStrength_cons, totalStrength_cons]; linarith

/-- The far sources of a node are different sources. -/
theorem far_le (hH : ∀ π, T.Mem π → π.length ≤ h) (hc : T.c = 2 ^ 3)
    (hperm : ∀ R, T.Mem R → T.leaf R = true → ((T.slots (h + 1) R).flatMap src).Perm items) :
    ∀ n, ∀ π, T.Mem π → h - π.length ≤ n → FMM.totalStrength (Fl.far T src π) ≤ FMM.totalStrength items := by
  have hleaf : ∀ π, T.Mem π → T.leaf π = true → FMM.totalStrength (Fl.far T src π) ≤ FMM.totalStrength items := fun π hπ hl => by
    have := totalStrength_perm (Fl.split_perm hH hπ (hperm π hπ hl))
    rw [totalStrength_append, totalStrength_append] at this
    have h1 := totalStrength_nonneg (((T.nbhAfter (T.order (h + 1))).near π).flatMap src)
    have h2 := totalStrength_nonneg (((T.nbhAfter (T.order (h + 1))).W π).flatMap src)
    linarith
  intro n
  induction n with
  | zero =>
    intro π hπ hn
    by_cases hl : T.leaf π = true
    · exact hleaf π hπ hl
    · have := hH _ (hπ.cons (i := 0) (by simpa using hl) (by rw [hc]; norm_num))
      have := hH _ hπ
      rw [List.length_cons] at *
      omega
  | succ n ih =>
    intro π hπ hn
    by_cases hl : T.leaf π = true
    · exact hleaf π hπ hl
    · have hm := hπ.cons (i := 0) (by simpa using hl) (by rw [hc]; norm_num)
      have := ih (0 :: π) hm (by rw [List.length_cons]; omega)
      refine le_trans ?_ this
      rw [Fl.far, totalStrength_append, totalStrength_append]
      linarith [totalStrength_nonneg ((T.inter (0 :: π)).flatMap src), totalStrength_nonneg ((T.xl (0 :: π)).flatMap src)]

theorem farAt_le (π : Path) (j : ℕ) : FMM.totalStrength (Fl.farAt T src π j) ≤ FMM.totalStrength (Fl.far T src π) := by
  match π, j with
  | [], 0 => exact le_rfl
  | [], _ + 1 => exact le_rfl
  | _ :: _, 0 =>
    rw [show Fl.farAt T src (_ :: _) 0 = [] from rfl, totalStrength_nil]
    exact totalStrength_nonneg _
  | i :: τ, 1 =>
    show FMM.totalStrength (Fl.far T src τ) ≤ _
    rw [Fl.far, totalStrength_append, totalStrength_append]
    linarith [totalStrength_nonneg ((T.inter (i :: τ)).flatMap src), totalStrength_nonneg ((T.xl (i :: τ)).flatMap src)]
  | i :: τ, j + 2 =>
    refine strength_sublist ?_
    show (Fl.far T src τ ++ (T.inter (i :: τ)).flatMap src ++ ((T.xl (i :: τ)).take j).flatMap src).Sublist
      (Fl.far T src τ ++ (T.inter (i :: τ)).flatMap src ++ (T.xl (i :: τ)).flatMap src)
    refine List.Sublist.append_left ?_ _
    have e := congrArg (List.flatMap src) (List.take_append_drop j (T.xl (i :: τ)))
    rw [List.flatMap_append] at e
    rw [← e]
    exact List.sublist_append_left _ _

/-- A node is away from the sources in its lists. -/
theorem placed (hF : F.Low u g η ρ) (hsc : Scale3 u η θ τ ν p) (h64 : Is64 F) (hLF : LibOf L F) (hsp : Lo3.Span θ r h) (G' : Geo r cen h)
    (hK : Lvl r h t K) (hc : T.c = 2 ^ 3)
    (hA : AdjOf T r) (hH : ∀ π, T.Mem π → π.length ≤ h) (hS : Srcs T r h M src) (hN : M ≤ 2 ^ 48) (hcen : ∀ π, T.Mem π → Mod (cen π))
    (hsub : ∀ π, T.Mem π → (src π).Sublist items) (hpos : ∀ s ∈ items, Mod s.pos) (hq : FMM.totalStrength items ≤ 2 ^ α) :
    Placed3 t α K T cen src := by
  have hL := hA.laws G'.hr
  have hr2 : ∀ k, 13 / 10 * rad r k ≤ 149 / 100 * side r k := fun k => by
    have := side_pos G'.hr k
    unfold rad; linarith
  refine ⟨hc, fun π hπ => (hK _ (hH π hπ)).2.2, hcen, fun π hπ s hs => ?_, fun i τ hπ => ?_, fun i τ hπ => ?_,
    fun π hπ ν hν => ?_, fun π hπ => (inter_card G'.hr hA hc hπ).trans (by norm_num), fun π hπ ν hν => ?_,
    fun π _ => (hS.len π).trans hN⟩
  · have hm := hpos s ((hsub π hπ).subset hs)
    refine ⟨hm, ?_, dist_up hF hsc h64 hLF hm (hcen π hπ) (hsp.rad G'.hr (hH π hπ)) (G'.within (hH π hπ) (hS.within π hπ s hs)) (hK _ (hH π hπ)).1⟩
    rw [zpow_natCast]
    exact (strength_le ((hsub π hπ).subset hs)).trans hq
  · exact dist_up hF hsc h64 hLF (hcen _ hπ) (hcen _ hπ.tail) (hsp.rad G'.hr (hH _ hπ)) (G'.shift (hH _ hπ)) (hK _ (hH _ hπ)).1
  · have h1 := Lo3.rad_anti G'.hr (Nat.le_succ τ.length)
    refine dist_up hF hsc h64 hLF (hcen _ hπ.tail) (hcen _ hπ) (hsp.rad G'.hr (hH _ hπ.tail)) ?_ (hK _ (hH _ hπ.tail)).1
    rw [len3_sub_comm]
    exact (G'.shift (hH _ hπ)).trans h1
  · cases π with
    | nil => simp [PTree.inter] at hν
    | cons i τ =>
      obtain ⟨m1, m2, -⟩ := (PTree.mem_inter hL hπ ν).mp hν
      have l := PTree.inter_length hL hπ hν
      rw [hA] at m2
      have a := G'.sep (hH _ hπ) l.symm (by simpa using m2)
      have h0 := side_pos G'.hr (i :: τ).length
      refine ⟨m1, l, dist_inv hF hsc h64 hLF (hcen _ m1) (hcen _ hπ) (hsp.far G'.hr (hH _ hπ) (by norm_num) a
        (len_le_root G'.hr (fun j => G'.root (hH _ m1) j) fun j => G'.root (hH _ hπ) j)) (R := rad r (i :: τ).length) ?_ (hK _ (hH _ hπ)).2.1⟩
      have := hr2 (i :: τ).length
      linarith
  · cases π with
    | nil => simp [PTree.xl] at hν
    | cons i τ =>
      obtain ⟨m1, -, m3, -, m5⟩ := (PTree.mem_xl hL hπ ν).mp hν
      rw [hA] at m5
      refine ⟨m1, fun s hs => ?_⟩
      have w := hS.within ν m1 s hs
      have a := G'.sep_point (hH _ hπ) m3.le (by simpa using m5) w
      exact dist_inv hF hsc h64 hLF (hpos s ((hsub ν m1).subset hs)) (hcen _ hπ) (hsp.far G'.hr (hH _ hπ) (by norm_num) a
        (len_le_root G'.hr (w.root G'.hr) fun j => G'.root (hH _ hπ) j)) ((hr2 _).trans a) (hK _ (hH _ hπ)).2.1

/-- The expansions in floating-point arithmetic are bounded. -/
theorem bounded_me (hr : 0 < r.len) (hK : Lvl r h t K) (hu : u = 1 / 2 ^ 49)
    (hn : evalCount κ M h m ≤ 2 ^ 48) (hq : FMM.totalStrength items ≤ 2 ^ α) {π : Path} (hπ : π.length ≤ h) (hsub : (src π).Sublist items) {e : Exp3}
    (H : AppM3 u (meCount κ M h π.length) e (cen π) p (meCoeff3 (cen π) (src π)) (FMM.totalStrength (src π)) (rad r π.length)) :
    BL p (bM α (K π.length)) e := by
  refine coeff_me H (D2.Hi.pow_two hu ?_) ((strength_sublist hsub).trans hq) (totalStrength_nonneg _) (rad_pos hr _).le (hK _ hπ).1
  refine le_trans ?_ hn
  have := meCount_le' (κ := κ) (N := M) (h := h) (m := m) (k := π.length)
  rw [← evalCount_eq]
  omega

theorem bounded_le (hsc : Scale3 u η θ τ ν p) (ht : Fit3 θ p t α G) (hp : p ≤ 42) (hsp : Lo3.Span θ r h) (hr : 0 < r.len) (hK : Lvl r h t K) (hu : u = 1 / 2 ^ 49)
    (hn : evalCount κ M h m ≤ 2 ^ 48) (hq : FMM.totalStrength items ≤ 2 ^ α) (hH : ∀ π, T.Mem π → π.length ≤ h) (hc : T.c = 2 ^ 3)
    (hperm : ∀ R, T.Mem R → T.leaf R = true → ((T.slots (h + 1) R).flatMap src).Perm items)
    {π : Path} (hπ : T.Mem π) (hX : (T.xl π).length ≤ m) {j : ℕ} (hj : j ≤ 2 + (T.xl π).length) {e : Exp3}
    (H : Lo3.LocalOf u τ p r h (cen π) π.length (leCount κ M h m π.length j) e (Fl.farAt T src π j)) :
    BL p (bL t α (K π.length)) e := by
  refine coeff_le hsp hsc.th0 hr ht hp H (D2.Hi.pow_two hu (by
    refine le_trans ?_ hn
    have := leCount_le (κ := κ) (N := M) (m := m) (hH π hπ) (j := j) (by omega)
    rw [← evalCount_eq]
    omega)) ((farAt_le π j).trans ((far_le hH hc hperm _ π hπ le_rfl).trans hq)) (hK _ (hH π hπ)).2.1

end

/-! ## Direct sums -/

section
variable (hF : F.Low u g η ρ) (hsc : Scale3 u η θ τ ν p) (h64 : Is64 F) (hL : LibOf L F) (ht : Fit3 θ p t α G)
include hF hsc h64 hL ht

/-- One term of the potential. -/
theorem potential_N (grav safe : Bool) {s : Source 3} {x : Vec 3} (hs : Mod s.pos) (hx : Mod x) (hc : Lo3.Clear θ x s) (hq : |s.q| ≤ 2 ^ α)
    (hsafe : safe = true ∨ s.pos ≠ x) : N 1 (α + t + 1) (potential3 grav safe s x) := by
  obtain ⟨g1, -, -⟩ := geo_fin h64 hL hs hx
  unfold potential3
  dsimp only
  rw [g1]
  by_cases hz : F.nrm3 (F.vsub s.pos x) = 0
  · have e : s.pos = x := by
      by_contra hne
      exact (Lo3.far_inv hF hsc (hc.resolve_left hne)).1 hz
    have e2 : safe = true := hsafe.resolve_right fun h => h e
    rw [if_pos (by rw [e2, hz]; simp [isZero])]
    exact .zero
  · have hne : s.pos ≠ x := fun e => hz (by rw [e]; exact Lo3.dist_zero hF x)
    rw [if_neg (by simp [isZero, hz])]
    have hfar := hc.resolve_left hne
    have a := (Lo3.far_inv hF hsc hfar).2.norm
    rw [Real.norm_eq_abs, abs_inv] at a
    have hu := hF.nonneg
    have h4 : (1 + u) ^ 4 ≤ 2 := by
      refine (pow_le_pow_left₀ (by linarith) (by linarith [hF.small] : 1 + u ≤ 1 + 1 / 16) 4).trans ?_
      norm_num
    have h5 : (len3 (s.pos - x))⁻¹ ≤ 2 ^ t := by
      rw [inv_le_iff_one_le_mul₀ (hsc.th0.trans_le hfar.1), mul_comm]
      exact ht.th.trans (mul_le_mul_of_nonneg_right hfar.1 (by positivity))
    have h6 : |F.nrm3 (F.vsub s.pos x)|⁻¹ ≤ 2 * 2 ^ t := a.trans (mul_le_mul h4 h5 (inv_nonneg.mpr (len3_nonneg _)) (by norm_num))
    have hroom := ht.room
    have key : N 1 ((α : ℤ) + t + 1) (div (.fin (-s.q)) (.fin (F.nrm3 (F.vsub s.pos x)))) := by
      show N 1 _ (if F.nrm3 (F.vsub s.pos x) = 0 then _ else rnd64 (-s.q / F.nrm3 (F.vsub s.pos x)))
      rw [if_neg hz]
      refine rnd_N (by norm_num) (by omega) (by omega) ?_
      rw [abs_div, abs_neg, div_eq_mul_inv, Nat.cast_one, one_mul]
      refine (mul_le_mul hq h6 (by positivity) (by positivity)).trans (le_of_eq ?_)
      rw [show (α : ℤ) + t + 1 = ((α + t + 1 : ℕ) : ℤ) by push_cast; ring, zpow_natCast, pow_add, pow_add]
      ring
    cases grav
    · exact key.neg
    · exact key

theorem potentialSum_N (grav safe : Bool) {S : List (Source 3)} {x : Vec 3} (hx : Mod x)
    (h : ∀ s ∈ S, Mod s.pos ∧ Lo3.Clear θ x s ∧ |s.q| ≤ 2 ^ α ∧ (safe = true ∨ s.pos ≠ x)) (hS : S.length ≤ 2 ^ 50) :
    N S.length (α + t + 1) (potentialSum3 grav safe S x) := by
  have hroom := ht.room
  have key : ∀ (S : List (Source 3)) (k : ℕ) (a : Dbl), (∀ s ∈ S, Mod s.pos ∧ Lo3.Clear θ x s ∧ |s.q| ≤ 2 ^ α ∧ (safe = true ∨ s.pos ≠ x)) →
      k + S.length ≤ 2 ^ 50 → N k (α + t + 1) a → N (k + S.length) (α + t + 1) (S.foldl (fun pot src => D64.add pot (potential3 grav safe src x)) a) := by
    intro S
    induction S with
    | nil => intro k a _ _ ha; simpa using ha
    | cons s S ih =>
      intro k a hS hk ha
      rw [List.length_cons] at hk
      have h1 := hS s (by simp)
      rw [List.foldl_cons, List.length_cons, show k + (S.length + 1) = (k + 1) + S.length by ring]
      exact ih (k + 1) _ (fun y hy => hS y (by simp [hy])) (by omega)
        (ha.add (potential_N hF hsc h64 hL ht grav safe h1.1 hx h1.2.1 h1.2.2.1 h1.2.2.2) (by omega) (by omega) (by omega))
  have := key S 0 (.fin 0) h (by omega) .zero
  rwa [zero_add] at this

end

/-! ## Potential at a point of a leaf -/

section
variable {A : Type} [DecidableEq A] {T : PTree} {r : Box 3} {cen : Path → Vec 3} {h M m : ℕ} {src : Path → List (Source 3)}
  {sh : Shape 3 A} {addr : Path → A} {items : List (Source 3)}

/-- The hypotheses about the tree, the sources and the size of the numbers. -/
structure Setup (F : Flt3) (L : Lib) (u g η ρ θ τ ν : ℝ) (p t α G₀ κ : ℕ) (T : PTree) (r : Box 3) (cen : Path → Vec 3) (h M m : ℕ)
    (src : Path → List (Source 3)) (sh : Shape 3 A) (addr : Path → A) (items : List (Source 3)) (tt : Stat3) : Prop where
  h64 : Is64 F
  hF : F.Low u g η ρ
  hLF : LibOf L F
  hY : YFin L
  hu : u = 1 / 2 ^ 49
  hsc : Scale3 u η θ τ ν p
  hG : Real.sqrt ((2 * p).factorial) ≤ 2 ^ G₀
  hG' : G₀ ≤ 800
  ht : Fit3 θ p t α (G₀ + 2 * p + 2)
  hsp : Lo3.Span θ r h
  hκ : Cost u g p κ
  hgeo : Geo r cen h
  hT : Rel.TreeR T r cen src sh addr h
  hS : Srcs T r h M src
  hp0 : 0 < p
  hp : p ≤ 42
  hX : ∀ π, T.Mem π → (T.xl π).length ≤ m
  hcen : ∀ π, T.Mem π → Mod (cen π)
  hsub : ∀ π, T.Mem π → (src π).Sublist items
  hpos : ∀ s ∈ items, Mod s.pos
  hq : ∀ s ∈ items, Flr τ |s.q|
  hA : FMM.totalStrength items ≤ 2 ^ α
  hn : evalCount κ M h m ≤ 2 ^ 48
  hN : items.length ≤ 2 ^ 48
  hperm : ∀ R, T.Mem R → T.leaf R = true → ((T.slots (h + 1) R).flatMap src).Perm items
  htt : tt.Good
  hcov : p ≤ tt.alm.maxOrder

namespace Setup
variable {G₀ : ℕ} {tt : Stat3} (X : Setup F L u g η ρ θ τ ν p t α G₀ κ T r cen h M m src sh addr items tt)
include X

omit [DecidableEq A] in
theorem hqn : ∀ π, T.Mem π → ∀ s ∈ src π, Flr τ |s.q| := fun π hπ s hs => X.hq s ((X.hsub π hπ).subset hs)

omit [DecidableEq A] in
theorem hNle : M ≤ 2 ^ 48 := le_trans (by unfold evalCount; omega) X.hn

omit [DecidableEq A] in
theorem hκ2 : (1 + u) ^ κ ≤ 2 := D2.Hi.pow_two X.hu (le_trans (by unfold evalCount; omega) X.hn)

noncomputable def low : Rel.PassLaws (Fl3.kit F) p T cen src :=
  Lo3.laws X.hF X.hsc X.hsp X.hκ X.hgeo X.hT.hc X.hT.hA X.hT.hH X.hS X.hqn X.hp0 X.hp X.hX

omit X in
/-- The exponents of the radii. -/
noncomputable def K (r : Box 3) : ℕ → ℤ := fun k => Int.clog 2 (rad r k)

omit [DecidableEq A] in
theorem lv : Lvl r h t (K r) := lvl X.hsp X.hsc.th0 X.hgeo.hr X.ht

omit [DecidableEq A] in
theorem yok {lmax : ℕ} (hl : lmax ≤ 2 * p) {v w : Vec 3} (hv : Mod v) (hw : Mod w) : YOk L lmax (D64.vsub v w) :=
  yOk X.hF X.h64 X.hLF X.hY X.hκ X.hκ2 X.hp hl hv hw

/-- The laws of the passes with `double`s. -/
noncomputable def laws : Rel.PassLaws (kit64 L) p T cen src :=
  hiLaws3 X.h64 X.hLF (almOk X.hF X.h64 X.hLF X.hsc X.hp X.hG X.hG') (fun _ hl _ _ hv hw => X.yok hl hv hw) X.ht X.hp0 X.hp
    (placed X.hF X.hsc X.h64 X.hLF X.hsp X.hgeo X.lv X.hT.hc X.hT.hA X.hT.hH X.hS X.hNle X.hcen X.hsub X.hpos X.hA)
    X.low tt X.htt X.htt ⟨X.htt, X.hcov⟩
    (fun π _ hπ H => bounded_me (m := m) X.hgeo.hr X.lv X.hu X.hn X.hA (X.hT.hH π hπ) (X.hsub π hπ) H)
    (fun π _ _ hπ hj H => bounded_le X.hsc X.ht X.hp X.hsp X.hgeo.hr X.lv X.hu X.hn X.hA X.hT.hH X.hT.hc X.hperm hπ (X.hX π hπ) hj H)

omit [DecidableEq A] in
/-- The numbers of terms. -/
theorem count {R : Path} (hR : T.Mem R) (hl : T.leaf R = true) (hmW : ((T.nbhAfter (T.order (h + 1))).W R).length ≤ m) :
    1 + (((T.nbhAfter (T.order (h + 1))).W R).map fun _ => 1).sum + (((T.nbhAfter (T.order (h + 1))).near R).map fun ρ => (src ρ).length).sum ≤ 2 ^ 50 := by
  have hpm := (Fl.split_perm X.hT.hH hR (X.hperm R hR hl)).length_eq
  rw [List.length_append, List.length_append, List.length_flatMap] at hpm
  have hN := X.hN
  have hn := X.hn
  have hm : m ≤ 2 ^ 48 := le_trans (by unfold evalCount; omega) hn
  rw [List.map_const', List.sum_replicate, smul_eq_mul, mul_one]
  omega

/-- **The potential at a point of a leaf is finite.** -/
theorem evalPot {s : Exps (kit64 L) A} (hs : Rel.Done X.laws addr s) {R : Path} (hR : T.Mem R) (hl : T.leaf R = true)
    (hmW : ((T.nbhAfter (T.order (h + 1))).W R).length ≤ m) {x : Vec 3} (hx : Within r h R x) (hxm : Mod x)
    (hcl : ∀ s ∈ items, Lo3.Clear θ x s) (hne : ∀ ρ, T.Mem ρ → T.leaf ρ = true → ρ ≠ R → ∀ s ∈ src ρ, s.pos ≠ x) (grav : Bool) :
    ∃ y, Rounded.evalLeaf D64.add D64.neg (pot64 L) sh grav s (addr R) x = .ok (.fin y) := by
  have hL := X.hT.hA.laws X.hT.hr
  have hh : ∀ π, T.Mem π → π.length < h + 1 := fun π hπ => Nat.lt_succ_of_le (X.hT.hH π hπ)
  have hRh := X.hT.hH R hR
  have hxR := X.hgeo.within hRh hx
  obtain ⟨n1, n2, n3, n4, n5, n6⟩ := X.ht.nums
  have hG0 : (0 : ℤ) ≤ ((G₀ + 2 * p + 2 : ℕ) : ℤ) := by positivity
  have hp1 : (0 : ℤ) ≤ p := by positivity
  have ht0 : (0 : ℤ) ≤ t := by positivity
  have hα0 : (0 : ℤ) ≤ α := by positivity
  have hsm : (t : ℤ) ≤ 190 := by exact_mod_cast X.ht.small
  obtain ⟨v, v1, v2⟩ := D2.Hi.evalLeaf_inv (fun n v => n ≤ 2 ^ 50 → N n (topE p t α (G₀ + 2 * p + 2)) v) D64.add D64.neg
    (fun i k a b ha hb hik => (ha (by omega)).add (hb (by omega)) hik (by linarith) (by linarith)) (pot64 L) X.hT hR hl x grav (s := s) (n := 1) (cW := fun _ => 1)
    (cU := fun ρ => (src ρ).length)
    (by
      obtain ⟨e, l1, f, l2, l3, l4⟩ := hs.le R hR
      refine ⟨e, _, l1, rfl, fun _ => ?_⟩
      rw [l3.order, l3.center]
      have hlev := (X.lv _ hRh).2.2
      exact lePot_fin (a := α + t + 8) (T := (t : ℤ) + 1) (K := K r R.length) X.hp (by linarith) (by positivity) l4
        (dist_up X.hF X.hsc X.h64 X.hLF hxm (X.hcen R hR) (X.hsp.rad X.hgeo.hr hRh) hxR (X.lv _ hRh).1)
        (X.yok (by omega) hxm (X.hcen R hR)) (by linarith) (by linarith) (by linarith))
    (by
      intro ν hν
      obtain ⟨w1, w2, w3, w4⟩ := Fl.W_geo X.hT.hA X.hT.hr X.hT.hH hν
      obtain ⟨e, m1, f, m2, m3, m4⟩ := hs.me ν w1 w2
      have hνh := X.hT.hH ν w1
      have a := X.hgeo.sep_point hνh w3 w4 hx
      have hd0 := side_pos X.hgeo.hr ν.length
      obtain ⟨y, y1, y2, y3⟩ := dist_inv X.hF X.hsc X.h64 X.hLF hxm (X.hcen ν w1) (X.hsp.far X.hgeo.hr hνh (by norm_num) a
        (len_le_root X.hgeo.hr (hx.root X.hgeo.hr) fun j => X.hgeo.root hνh j)) (R := rad r ν.length) (by unfold rad; linarith) (X.lv _ hνh).2.1
      refine ⟨e, _, m1, rfl, fun _ => ?_⟩
      rw [m3.order, m3.center]
      have hlev := (X.lv _ hνh).2.2
      exact mePot_fin (a := α + 1) (T := (t : ℤ) + 1) (K := K r ν.length) X.hp (by linarith) (by positivity) m4 y1 y2 y3
        (X.yok (by omega) hxm (X.hcen ν w1)) (by linarith) (by linarith) (by linarith))
    (by
      intro ν hν
      obtain ⟨u1, u2, -⟩ := (PTree.mem_near_leaf hL hh hR hl ν).mp hν
      refine ⟨_, rfl, fun hk => ?_⟩
      refine (potentialSum_N X.hF X.hsc X.h64 X.hLF X.ht true (decide (ν = R)) hxm (S := src ν) (fun s hs => ?_) hk).mono le_rfl (by linarith)
      have hs' := (X.hsub ν u1).subset hs
      refine ⟨X.hpos s hs', hcl s hs', (strength_le hs').trans X.hA, ?_⟩
      by_cases hρR : ν = R
      · exact Or.inl (by simpa using hρR)
      · exact Or.inr (hne ν u1 u2 hρR s hs))
  obtain ⟨y, hy, -⟩ := v2 (X.count hR hl hmW)
  rw [v1, hy]
  cases grav
  · exact ⟨-y, rfl⟩
  · exact ⟨y, rfl⟩

end Setup

end

end FMM.Hi3
