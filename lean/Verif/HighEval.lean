import Verif.HighDirect

/-!
# The passes and the evaluation of a leaf do not overflow
-/

namespace FMM.D2.Hi
open FMM D64 Rounded
variable {F : Flt} {log : DC → DC} {u η ρ θ τ : ℝ} {p t α : ℕ}

section
variable {T : PTree} {r : Box 2} {cen : Path → Vec 2} {h N m : ℕ} {src : Path → List (Source 2)} {items : List (Source 2)}

theorem strength_le {s : Source 2} {S : List (Source 2)} (h : s ∈ S) : |s.q| ≤ totalStrength S := by
  induction S with
  | nil => cases h
  | cons a S ih =>
    rw [totalStrength_cons]
    rcases List.mem_cons.mp h with rfl | h
    · linarith [totalStrength_nonneg S]
    · linarith [ih h, abs_nonneg a.q]

theorem strength_sublist {S S' : List (Source 2)} (h : S.Sublist S') : totalStrength S ≤ totalStrength S' := by
  induction h with
  | slnil => exact le_rfl
  | cons a _ ih => rw [totalStrength_cons]; linarith [abs_nonneg a.q]
  | cons_cons a _ ih => rw [totalStrength_cons, totalStrength_cons]; linarith

/-- The far sources of a node are different sources. -/
theorem far_le (hH : ∀ π, T.Mem π → π.length ≤ h) (hc : T.c = 2 ^ 2)
    (hperm : ∀ R, T.Mem R → T.leaf R = true → ((T.slots (h + 1) R).flatMap src).Perm items) :
    ∀ n, ∀ π, T.Mem π → h - π.length ≤ n → totalStrength (Fl.far T src π) ≤ totalStrength items := by
  have hleaf : ∀ π, T.Mem π → T.leaf π = true → totalStrength (Fl.far T src π) ≤ totalStrength items := fun π hπ hl => by
    have := totalStrength_perm (Fl.split_perm hH hπ (hperm π hπ hl))
    rw [totalStrength_append, totalStrength_append] at this
    have h1 := totalStrength_nonneg (((T.nbhAfter (T.order (h + 1))).near π).flatMap src)
    have h2 := totalStrength_nonneg (((T.nbhAfter (T.order (h + 1))).W π).flatMap src)
    linarith
  intro n
  induction n with
  | zero =>
    intro π hπ hn
    by_cases hl : T.leaf π = true
    · exact hleaf π hπ hl
    · have := hH _ (hπ.cons (i := 0) (by simpa using hl) (by rw [hc]; norm_num))
      have := hH _ hπ
      rw [List.length_cons] at *
      omega
  | succ n ih =>
    intro π hπ hn
    by_cases hl : T.leaf π = true
    · exact hleaf π hπ hl
    · have hm := hπ.cons (i := 0) (by simpa using hl) (by rw [hc]; norm_num)
      have := ih (0 :: π) hm (by rw [List.length_cons]; omega)
      refine le_trans ?_ this
      rw [Fl.far, totalStrength_append, totalStrength_append]
      linarith [totalStrength_nonneg ((T.inter (0 :: π)).flatMap src), totalStrength_nonneg ((T.xl (0 :: π)).flatMap src)]

theorem farAt_le (π : Path) (j : ℕ) : totalStrength (Fl.farAt T src π j) ≤ totalStrength (Fl.far T src π) := by
  match π, j with
  | [], 0 => exact le_rfl
  | [], _ + 1 => exact le_rfl
  | _ :: _, 0 =>
    rw [show Fl.farAt T src (_ :: _) 0 = [] from rfl, totalStrength_nil]
    exact totalStrength_nonneg _
  | i :: τ, 1 =>
    show totalStrength (Fl.far T src τ) ≤ _
    rw [Fl.far, totalStrength_append, totalStrength_append]
    linarith [totalStrength_nonneg ((T.inter (i :: τ)).flatMap src), totalStrength_nonneg ((T.xl (i :: τ)).flatMap src)]
  | i :: τ, j + 2 =>
    refine strength_sublist ?_
    show (Fl.far T src τ ++ (T.inter (i :: τ)).flatMap src ++ ((T.xl (i :: τ)).take j).flatMap src).Sublist
      (Fl.far T src τ ++ (T.inter (i :: τ)).flatMap src ++ (T.xl (i :: τ)).flatMap src)
    refine List.Sublist.append_left ?_ _
    have e := congrArg (List.flatMap src) (List.take_append_drop j (T.xl (i :: τ)))
    rw [List.flatMap_append] at e
    rw [← e]
    exact List.sublist_append_left _ _

theorem pow_two {n : ℕ} (hu : u = 1 / 2 ^ 49) (hn : n ≤ 2 ^ 48) : (1 + u) ^ n ≤ 2 := by
  have h1 : (1 + u) ^ n ≤ Real.exp u ^ n := pow_le_pow_left₀ (by rw [hu]; positivity) (by rw [add_comm]; exact Real.add_one_le_exp u) n
  rw [← Real.exp_nat_mul] at h1
  have h2 : (n : ℝ) * u ≤ 1 / 2 := by
    have : (n : ℝ) ≤ 2 ^ 48 := by exact_mod_cast hn
    rw [hu]
    calc (n : ℝ) * (1 / 2 ^ 49) ≤ 2 ^ 48 * (1 / 2 ^ 49) := mul_le_mul_of_nonneg_right this (by positivity)
      _ = 1 / 2 := by norm_num
  refine h1.trans ((Real.exp_le_exp.mpr h2).trans ?_)
  have h3 : Real.exp (1 / 2) ^ 2 = Real.exp 1 := by rw [← Real.exp_nat_mul]; norm_num
  have h4 := Real.exp_one_lt_d9
  nlinarith [Real.exp_pos (1 / 2)]

/-- A node is away from the sources in its lists. -/
theorem placed (hF : F.Low u η ρ) (hsc : Scale η ρ θ τ p) (ht : Fit θ p t α) (hsp : Lo.Span θ r h) (G : Fl.Geo r cen h) (hc : T.c = 2 ^ 2)
    (hA : AdjOf T r) (hH : ∀ π, T.Mem π → π.length ≤ h) (hS : Fl.Srcs T r h N src) (hN : N ≤ 2 ^ 48) (hcen : ∀ π, T.Mem π → Mod (cen π))
    (hsub : ∀ π, T.Mem π → (src π).Sublist items) (hpos : ∀ s ∈ items, Mod s.pos) (hq : totalStrength items ≤ 2 ^ α) :
    Placed F ρ t α T cen src := by
  have hL := hA.laws G.hr
  have hrad : ∀ k, Fl.rad r k ≤ 2 / θ := fun k => by
    have h1 := Fl.side_anti (n := k) G.hr (Nat.zero_le _)
    rw [Fl.side_zero] at h1
    have h2 := two_up hsc hsp G.hr
    have := G.hr
    unfold Fl.rad; linarith
  have hsd : ∀ {π}, T.Mem π → θ ≤ Fl.side r π.length := fun {π} hπ => hsp.side G.hr (hH π hπ)
  refine ⟨hc, hcen, fun π hπ s hs => ⟨hpos s ((hsub π hπ).subset hs), csub_up hF hsc ht ((G.within (hH π hπ) (hS.within π hπ s hs)).trans (hrad _)),
      (strength_le ((hsub π hπ).subset hs)).trans hq⟩,
    fun i τ hπ => csub_up hF hsc ht ((G.shift (hH _ hπ)).trans (hrad _)),
    fun i τ hπ => csub_up hF hsc ht (by rw [norm_sub_rev]; exact (G.shift (hH _ hπ)).trans (hrad _)),
    fun π hπ ν hν => ?_, fun π hπ => (inter_card G.hr hA hc hπ).trans (by norm_num), fun π hπ ν hν => ?_,
    fun π _ => (hS.len π).trans hN⟩
  · cases π with
    | nil => simp [PTree.inter] at hν
    | cons i τ =>
      obtain ⟨m1, m2, -⟩ := (PTree.mem_inter hL hπ ν).mp hν
      have l := PTree.inter_length hL hπ hν
      rw [hA] at m2
      have a := G.sep (hH _ hπ) l.symm (by simpa using m2)
      have b := hsd hπ
      refine ⟨m1, apart hF hsc ht (by linarith [hsc.th0]) ?_⟩
      exact (Fl.norm_le_root G.hr (fun j => G.root (hH _ m1) j) fun j => G.root (hH _ hπ) j).trans (two_up hsc hsp G.hr)
  · cases π with
    | nil => simp [PTree.xl] at hν
    | cons i τ =>
      obtain ⟨m1, -, m3, -, m5⟩ := (PTree.mem_xl hL hπ ν).mp hν
      rw [hA] at m5
      refine ⟨m1, fun s hs => ?_⟩
      have w := hS.within ν m1 s hs
      have a := G.sep_point (hH _ hπ) m3.le (by simpa using m5) w
      have b := hsd hπ
      refine apart hF hsc ht (by linarith [hsc.th0]) ?_
      exact (Fl.norm_le_root G.hr (w.root G.hr) fun j => G.root (hH _ hπ) j).trans (two_up hsc hsp G.hr)

/-- The expansions in floating-point arithmetic are bounded. -/
theorem bounded_me (hsc : Scale η ρ θ τ p) (ht : Fit θ p t α) (hsp : Lo.Span θ r h) (hr : 0 < r.len) (hu : u = 1 / 2 ^ 49)
    (hn : Fl.evalCount N p h m ≤ 2 ^ 48) (hq : totalStrength items ≤ 2 ^ α) {π : Path} (hsub : (src π).Sublist items) {e : Exp2}
    (H : Fl.AppM u (Fl.meCount N p h π.length) e (toC (cen π)) p (meCoeff (toC (cen π)) (src π)) (totalStrength (src π)) (Fl.rad r π.length)) :
    Bounded p (coExp p t α) (cen π) e := by
  refine ⟨H.order, H.center, H.size, coeff_me H (pow_two hu ?_) ((strength_sublist hsub).trans hq) (totalStrength_nonneg _) (Fl.rad_pos hr _).le
    (rad_up hsc ht hsp hr _)⟩
  refine le_trans ?_ hn
  have := Fl.meCount_le' (N := N) (p := p) (h := h) (m := m) (k := π.length)
  rw [← Fl.evalCount_eq]
  unfold Fl.evalCount0 at this
  omega

theorem bounded_le (hsc : Scale η ρ θ τ p) (ht : Fit θ p t α) (hsp : Lo.Span θ r h) (hr : 0 < r.len) (hu : u = 1 / 2 ^ 49)
    (hn : Fl.evalCount N p h m ≤ 2 ^ 48) (hq : totalStrength items ≤ 2 ^ α) (hH : ∀ π, T.Mem π → π.length ≤ h) (hc : T.c = 2 ^ 2)
    (hperm : ∀ R, T.Mem R → T.leaf R = true → ((T.slots (h + 1) R).flatMap src).Perm items)
    {π : Path} (hπ : T.Mem π) (hX : (T.xl π).length ≤ m) {j : ℕ} (hj : j ≤ 2 + (T.xl π).length) {e : Exp2}
    (H : Lo.LocalOf u θ τ p r h (toC (cen π)) π.length (Fl.leCount N p h m π.length j) e (Fl.farAt T src π j)) :
    Bounded p (coExp p t α) (cen π) e := by
  obtain ⟨h1, h2, h3, h4⟩ := coeff_le hsc ht hsp hr (hH π hπ) H (pow_two hu (by
    refine le_trans ?_ hn
    have := Fl.leCount_le (N := N) (p := p) (m := m) (hH π hπ) (j := j) (by omega)
    rw [← Fl.evalCount_eq]
    unfold Fl.evalCount0 at this
    omega)) ((farAt_le π j).trans ((far_le hH hc hperm _ π hπ le_rfl).trans hq))
  exact ⟨h1, h2, h3, h4⟩

end

/-! ## Evaluation of a leaf -/

section
variable {d : ℕ} {A : Type} [DecidableEq A] {T : PTree} {r : Box d} {cen : Path → Vec d} {h : ℕ} {src : Path → List (Source d)}
  {sh : Shape d A} {addr : Path → A} {K : Kit d}

theorem foldG_inv {V α : Type} (Q : ℕ → V → Prop) (add : V → V → V) (hadd : ∀ i k a b, Q i a → Q k b → Q (i + k) (add a b))
    (f : α → Outcome V) (c : α → ℕ) (S : List α) (h : ∀ s ∈ S, ∃ v, f s = .ok v ∧ Q (c s) v) (n : ℕ) (a : V) (ha : Q n a) :
    ∃ v, S.foldlM (fun v s => do
      let p ← f s
      .ok (add v p)) a = .ok v ∧ Q (n + (S.map c).sum) v := by
  induction S generalizing n a with
  | nil => exact ⟨a, rfl, by simpa using ha⟩
  | cons s S ih =>
    obtain ⟨v, hv, hv'⟩ := h s (by simp)
    obtain ⟨w, hw, hw'⟩ := ih (fun x hx => h x (by simp [hx])) _ _ (hadd _ _ _ _ ha hv')
    refine ⟨w, ?_, ?_⟩
    · rw [List.foldlM_cons, hv, ok_bind, ok_bind]; exact hw
    · rw [List.map_cons, List.sum_cons, ← add_assoc]; exact hw'

theorem evalLeaf_inv {V : Type} (Q : ℕ → V → Prop) (add : V → V → V) (neg : V → V) (hadd : ∀ i k a b, Q i a → Q k b → Q (i + k) (add a b))
    (O : Obs K V) (hT : Rel.TreeR T r cen src sh addr h) {s : Exps K A} {R : Path} (hR : T.Mem R)
    (hl : T.leaf R = true) (x : Vec d) (grav : Bool) {n : ℕ} {cW cU : Path → ℕ}
    (hle : ∃ e v, s.le (addr R) = some e ∧ O.le e x = .ok v ∧ Q n v)
    (hW : ∀ ρ ∈ (T.nbhAfter (T.order (h + 1))).W R, ∃ e v, s.me (addr ρ) = some e ∧ O.me e x = .ok v ∧ Q (cW ρ) v)
    (hU : ∀ ρ ∈ (T.nbhAfter (T.order (h + 1))).near R, ∃ v, O.sum true (decide (ρ = R)) (src ρ) x = .ok v ∧ Q (cU ρ) v) :
    ∃ v, Rounded.evalLeaf add neg O sh grav s (addr R) x = .ok (if grav then v else neg v) ∧
      Q (n + (((T.nbhAfter (T.order (h + 1))).W R).map cW).sum + (((T.nbhAfter (T.order (h + 1))).near R).map cU).sum) v := by
  have hL := hT.hA.laws hT.hr
  have hh : ∀ π, T.Mem π → π.length < h + 1 := fun π hπ => Nat.lt_succ_of_le (hT.hH π hπ)
  obtain ⟨nd, n1, -, -, -, -, -, n3⟩ := hT.node R hR
  obtain ⟨-, n4, n5⟩ := n3 hl
  obtain ⟨e, v0, l1, l2, l3⟩ := hle
  obtain ⟨v1, w1, w2⟩ := foldG_inv Q add hadd (fun ρ => (do let e ← s.rdMe (addr ρ); O.me e x)) cW
    ((T.nbhAfter (T.order (h + 1))).W R) (by
      intro ρ hρ
      obtain ⟨e, v, a1, a2, a3⟩ := hW ρ hρ
      refine ⟨v, ?_, a3⟩
      simp only [Exps.rdMe]
      rw [a1]; exact a2) n v0 l3
  obtain ⟨v2, w3, w4⟩ := foldG_inv Q add hadd (fun ρ => O.sum true (decide (ρ = R)) (src ρ) x) cU
    ((T.nbhAfter (T.order (h + 1))).near R) hU _ _ w2
  refine ⟨v2, ?_, w4⟩
  unfold Rounded.evalLeaf
  rw [n1, ok_bind]
  simp only [Exps.rdLe]
  rw [l1]
  simp only [ok_bind]
  rw [l2, ok_bind, n5, List.foldlM_map]
  have e1 : ((T.nbhAfter (T.order (h + 1))).W R).foldlM (fun v ρ => (do
      let e ← s.rdMe (addr ρ)
      let w ← O.me e x
      .ok (add v w))) v0 = (Except.ok v1 : Outcome V) := by
    rw [← w1]
    congr 1
    funext v ρ
    cases s.rdMe (addr ρ) <;> rfl
  rw [e1, ok_bind, n4, List.foldlM_map]
  have e2 : ∀ (l : List Path) (v : V), (∀ ρ ∈ l, ρ ∈ (T.nbhAfter (T.order (h + 1))).near R) →
      l.foldlM (fun v ρ => (do
        let m ← sh (addr ρ)
        let src ← m.sources
        let w ← O.sum true (decide (addr ρ = addr R)) src x
        .ok (add v w))) v = (l.foldlM (fun v ρ => (do
        let w ← O.sum true (decide (ρ = R)) (src ρ) x
        .ok (add v w))) v : Outcome V) := by
    intro l
    induction l with
    | nil => intro v _; rfl
    | cons ρ l ih =>
      intro v hρ
      obtain ⟨u1, u2, u3⟩ := (PTree.mem_near_leaf hL hh hR hl ρ).mp (hρ ρ (by simp))
      obtain ⟨nm, m1, -, -, -, -, -, m2⟩ := hT.node ρ u1
      have ed : decide (addr ρ = addr R) = decide (ρ = R) := by
        by_cases hρR : ρ = R
        · subst hρR; simp
        · rw [decide_eq_false hρR, decide_eq_false fun h => hρR (hT.inj ρ R u1 hR h)]
      rw [List.foldlM_cons, List.foldlM_cons, m1, ok_bind, (m2 u2).1, ok_bind, ed]
      cases O.sum true (decide (ρ = R)) (src ρ) x with
      | error e => rfl
      | ok w => rw [ok_bind, ok_bind, ok_bind]; exact ih _ fun ρ' h' => hρ ρ' (by simp [h'])
  rw [e2 _ _ fun _ h => h, w3, ok_bind]

end

/-! ## Potential and force at a point of a leaf -/

section
variable {A : Type} [DecidableEq A] {T : PTree} {r : Box 2} {cen : Path → Vec 2} {h N m : ℕ} {src : Path → List (Source 2)}
  {sh : Shape 2 A} {addr : Path → A} {items : List (Source 2)}

/-- The hypotheses about the tree, the sources and the size of the numbers. -/
structure Setup (F : Flt) (log : DC → DC) (u η ρ θ τ : ℝ) (p t α : ℕ) (T : PTree) (r : Box 2) (cen : Path → Vec 2) (h N m : ℕ)
    (src : Path → List (Source 2)) (sh : Shape 2 A) (addr : Path → A) (items : List (Source 2)) : Prop where
  h64 : Is64 F
  hF : F.Low u η ρ
  hlog : LogIs log F
  hu : u = 1 / 2 ^ 49
  hsc : Scale η ρ θ τ p
  ht : Fit θ p t α
  hsp : Lo.Span θ r h
  h5 : θ ≤ 1 / 5
  G : Fl.Geo r cen h
  hT : Rel.TreeR T r cen src sh addr h
  hS : Fl.Srcs T r h N src
  hp0 : 0 < p
  hp : p ≤ 1029
  hX : ∀ π, T.Mem π → (T.xl π).length ≤ m
  hcen : ∀ π, T.Mem π → Mod (cen π)
  hsub : ∀ π, T.Mem π → (src π).Sublist items
  hpos : ∀ s ∈ items, Mod s.pos
  hq : ∀ s ∈ items, Flr τ |s.q|
  hA : totalStrength items ≤ 2 ^ α
  hn : Fl.evalCount N p h m ≤ 2 ^ 48
  hN : items.length ≤ 2 ^ 48
  hperm : ∀ R, T.Mem R → T.leaf R = true → ((T.slots (h + 1) R).flatMap src).Perm items

namespace Setup
variable (X : Setup F log u η ρ θ τ p t α T r cen h N m src sh addr items)
include X

omit [DecidableEq A] in
theorem hqn : ∀ π, T.Mem π → ∀ s ∈ src π, Flr τ |s.q| := fun π hπ s hs => X.hq s ((X.hsub π hπ).subset hs)

omit [DecidableEq A] in
theorem hNle : N ≤ 2 ^ 48 := le_trans (by unfold Fl.evalCount; omega) X.hn

noncomputable def low : Rel.PassLaws (Fl.kit F) p T cen src :=
  Lo.laws X.hF X.hsc X.hsp X.G X.hT.hc X.hT.hA X.hT.hH X.hS X.hqn X.hp0 X.hp X.hX

/-- The laws of the passes with `double`s. -/
noncomputable def laws : Rel.PassLaws (kit log) p T cen src :=
  hiLaws X.h64 X.hF X.hlog X.ht (placed X.hF X.hsc X.ht X.hsp X.G X.hT.hc X.hT.hA X.hT.hH X.hS X.hNle X.hcen X.hsub X.hpos X.hA)
    X.low (fun _ h => h) (fun π _ hπ H => bounded_me X.hsc X.ht X.hsp X.G.hr X.hu X.hn X.hA (X.hsub π hπ) H)
    (fun π _ _ hπ hj H => bounded_le X.hsc X.ht X.hsp X.G.hr X.hu X.hn X.hA X.hT.hH X.hT.hc X.hperm hπ (X.hX π hπ) hj H)

omit X [DecidableEq A] in
/-- Exponent of the sums. -/
def top (p t α : ℕ) : ℕ := coExp p t α + pwExp p t + p + 9

omit [DecidableEq A] in
theorem top_le : top p t α + 10 ≤ 940 ∧ p ≤ 900 := by
  have := X.ht.room
  unfold top
  omega

omit [DecidableEq A] in
/-- The numbers of terms. -/
theorem count {R : Path} (hR : T.Mem R) (hl : T.leaf R = true) (hmW : ((T.nbhAfter (T.order (h + 1))).W R).length ≤ m) :
    1 + (((T.nbhAfter (T.order (h + 1))).W R).map fun _ => 1).sum + (((T.nbhAfter (T.order (h + 1))).near R).map fun ρ => (src ρ).length).sum ≤ 2 ^ 50 := by
  have hpm := (Fl.split_perm X.hT.hH hR (X.hperm R hR hl)).length_eq
  rw [List.length_append, List.length_append, List.length_flatMap] at hpm
  have hN := X.hN
  have hn := X.hn
  have hm : m ≤ 2 ^ 48 := le_trans (by unfold Fl.evalCount; omega) hn
  rw [List.map_const', List.sum_replicate, smul_eq_mul, mul_one]
  omega

omit [DecidableEq A] in
/-- The distance of a node in list W. -/
theorem apartW {R ρ' : Path} {x : Vec 2} (hx : Fl.Within r h R x) (hρ : ρ' ∈ (T.nbhAfter (T.order (h + 1))).W R) :
    Apart F ρ t (toC x) (toC (cen ρ')) := by
  obtain ⟨w1, w2, w3, w4⟩ := Fl.W_geo X.hT.hA X.hT.hr X.hT.hH hρ
  have hl := X.hT.hH ρ' w1
  have a := X.G.sep_point hl w3 w4 hx
  have b := X.hsp.side X.G.hr hl
  refine apart X.hF X.hsc X.ht (by linarith [X.hsc.th0]) ?_
  exact (Fl.norm_le_root X.G.hr (hx.root X.G.hr) fun j => X.G.root hl j).trans (two_up X.hsc X.hsp X.G.hr)

/-- **The potential at a point of a leaf is finite.** -/
theorem evalPot {s : Exps (kit log) A} (hs : Rel.Done X.laws addr s) {R : Path} (hR : T.Mem R) (hl : T.leaf R = true)
    (hmW : ((T.nbhAfter (T.order (h + 1))).W R).length ≤ m) {x : Vec 2} (hx : Fl.Within r h R x) (hxm : Mod x)
    (hcl : ∀ s ∈ items, Lo.Clear θ x s) (hne : ∀ ρ, T.Mem ρ → T.leaf ρ = true → ρ ≠ R → ∀ s ∈ src ρ, s.pos ≠ x) (grav : Bool) :
    ∃ y, Rounded.evalLeaf D64.add D64.neg (pot log) sh grav s (addr R) x = .ok (.fin y) := by
  have hL := X.hT.hA.laws X.hT.hr
  have hh : ∀ π, T.Mem π → π.length < h + 1 := fun π hπ => Nat.lt_succ_of_le (X.hT.hH π hπ)
  have hRh := X.hT.hH R hR
  have hxR := X.G.within hRh hx
  obtain ⟨hB, hp⟩ := X.top_le
  have hp10 : p + 2 ≤ 2 ^ 10 := by omega
  have hpm := Fl.split_perm X.hT.hH hR (X.hperm R hR hl)
  obtain ⟨v, v1, v2⟩ := evalLeaf_inv (fun n v => n ≤ 2 ^ 50 → ∃ x, R1 n (top p t α + 10) v x) D64.add D64.neg
    (fun i k a b ha hb hik => by
      obtain ⟨y, hy⟩ := ha (by omega)
      obtain ⟨z, hz⟩ := hb (by omega)
      exact ⟨_, hy.add hz hik (by omega)⟩) (pot log) X.hT hR hl x grav (s := s) (n := 1) (cW := fun _ => 1) (cU := fun ρ => (src ρ).length)
    (by
      obtain ⟨e, l1, f, l2, l3⟩ := hs.le R hR
      have l2 : Lo.LocalOf u θ τ p r h (toC (cen R)) R.length (Fl.leCount N p h m R.length (2 + (T.xl R).length)) f
        (Fl.farAt T src R (2 + (T.xl R).length)) := l2
      obtain ⟨b1, b2, b3, -⟩ := bounded_le X.hsc X.ht X.hsp X.G.hr X.hu X.hn X.hA X.hT.hH X.hT.hc X.hperm hR (X.hX R hR) le_rfl l2
      obtain ⟨b, c1, -⟩ := l2.app
      obtain ⟨v0, c2, -⟩ := Lo.lePot_ap X.hF X.hsc (X.hsp.rad X.G.hr hRh) c1 x hxR
      obtain ⟨w, w1, w2⟩ := lePot_hi X.h64 (t := t) (P := pwExp p t) (B := top p t α) l3 hxm
        (by rw [b2]; exact csub_up X.hF X.hsc X.ht (hxR.trans (by
          have h1 := Fl.side_anti (n := R.length) X.G.hr (Nat.zero_le _)
          rw [Fl.side_zero] at h1
          have h2 := two_up X.hsc X.hsp X.G.hr
          have := X.G.hr
          unfold Fl.rad; linarith)))
        (by rw [b3]; exact Nat.mul_le_mul (by omega) (by omega)) (by unfold top; omega) (by omega) v0 c2
      refine ⟨e, w, l1, w1, fun _ => ⟨v0, ?_⟩⟩
      rw [b3] at w2
      exact w2.lift (by omega))
    (by
      intro ν hν
      obtain ⟨w1, w2, w3, w4⟩ := Fl.W_geo X.hT.hA X.hT.hr X.hT.hH hν
      obtain ⟨e, m1, f, m2, m3⟩ := hs.me ν w1 w2
      obtain ⟨v, -, v1, -⟩ := Lo.W_pot X.hF X.hsc X.hsp X.G X.hS hx w1 (X.hT.hH ν w1) w3 w4 (X.hqn ν w1) m2
      have B := bounded_me X.hsc X.ht X.hsp X.G.hr X.hu X.hn X.hA (X.hsub ν w1) m2
      have hap := X.apartW hx hν
      rw [← B.center] at hap
      obtain ⟨w, k1, k2⟩ := mePot_hi X.h64 X.hF X.hlog (t := t) (g := 8) (P := pwExp p t) (B := top p t α) m3 hxm hap.up hap.lo hap.rho hap.log X.ht.small
        (by rw [B.size]; exact Nat.mul_le_mul (by omega) (by omega)) (by unfold top; omega) (by omega) v v1
      refine ⟨e, w, m1, k1, fun _ => ⟨v, ?_⟩⟩
      rw [B.size] at k2
      exact k2.lift (by omega))
    (by
      intro ν hν
      obtain ⟨u1, u2, -⟩ := (PTree.mem_near_leaf hL hh hR hl ν).mp hν
      have hcl' : ∀ s ∈ src ν, Lo.Clear θ x s := fun s hs => hcl s ((X.hsub ν u1).subset hs)
      have hF' : ∃ v, Fl.potentialSum F true (decide (ν = R)) (src ν) x = .ok v := by
        by_cases hρR : ν = R
        · rw [decide_eq_true hρR]
          obtain ⟨v, v1, -⟩ := Lo.potentialSum_safe X.hF X.hsc true (src ν) x hcl' (X.hqn ν u1)
          exact ⟨v, v1⟩
        · rw [decide_eq_false hρR]
          obtain ⟨v, v1, -⟩ := Lo.potentialSum_unsafe X.hF X.hsc true (src ν) x hcl' (X.hqn ν u1) (hne ν u1 u2 hρR)
          exact ⟨v, v1⟩
      obtain ⟨v, v1⟩ := hF'
      refine ⟨_, rfl, fun hk => ?_⟩
      obtain ⟨w, k1, k2⟩ := potentialSum_hi X.h64 X.hF X.hsc X.ht true (decide (ν = R)) hxm (S := src ν)
        (fun s hs => ⟨X.hpos s ((X.hsub ν u1).subset hs), hcl' s hs, (strength_le ((X.hsub ν u1).subset hs)).trans X.hA⟩) hk v v1
      injection k1 with k1
      rw [k1]
      exact ⟨v, k2.mono le_rfl (by unfold top coExp; omega)⟩)
  obtain ⟨y, hy⟩ := v2 (X.count hR hl hmW)
  rw [v1, hy.1]
  cases grav
  · exact ⟨-y, rfl⟩
  · exact ⟨y, rfl⟩

/-- **The force at a point of a leaf is finite.** -/
theorem evalForce {s : Exps (kit log) A} (hs : Rel.Done X.laws addr s) {R : Path} (hR : T.Mem R) (hl : T.leaf R = true)
    (hmW : ((T.nbhAfter (T.order (h + 1))).W R).length ≤ m) {x : Vec 2} (hx : Fl.Within r h R x) (hxm : Mod x)
    (hcl : ∀ s ∈ items, Lo.Clear θ x s) (hne : ∀ ρ, T.Mem ρ → T.leaf ρ = true → ρ ≠ R → ∀ s ∈ src ρ, s.pos ≠ x) (grav : Bool)
    {eps : ℝ} (h0 : 0 ≤ eps) (he : eps ≤ 1 / θ ^ 2) (he' : |eps| ≤ 2 ^ (1000 : ℤ)) :
    ∃ y : Vec 2, Rounded.evalLeaf vadd vneg (force log eps) sh grav s (addr R) x = .ok (fun j => .fin (y j)) := by
  have hL := X.hT.hA.laws X.hT.hr
  have hh : ∀ π, T.Mem π → π.length < h + 1 := fun π hπ => Nat.lt_succ_of_le (X.hT.hH π hπ)
  have hRh := X.hT.hH R hR
  have hxR := X.G.within hRh hx
  obtain ⟨hB, hp⟩ := X.top_le
  have hp10 : p + 2 ≤ 2 ^ 10 := by omega
  have hpm := Fl.split_perm X.hT.hH hR (X.hperm R hR hl)
  obtain ⟨v, v1, v2⟩ := evalLeaf_inv (fun n v => n ≤ 2 ^ 50 → ∃ x, VHi n (top p t α + 10) v x) vadd vneg
    (fun i k a b ha hb hik => by
      obtain ⟨y, hy⟩ := ha (by omega)
      obtain ⟨z, hz⟩ := hb (by omega)
      exact ⟨_, fun j => (hy j).add (hz j) hik (by omega)⟩) (force log eps) X.hT hR hl x grav (s := s) (n := 1) (cW := fun _ => 1) (cU := fun ρ => (src ρ).length)
    (by
      obtain ⟨e, l1, f, l2, l3⟩ := hs.le R hR
      have l2 : Lo.LocalOf u θ τ p r h (toC (cen R)) R.length (Fl.leCount N p h m R.length (2 + (T.xl R).length)) f
        (Fl.farAt T src R (2 + (T.xl R).length)) := l2
      obtain ⟨b1, b2, b3, -⟩ := bounded_le X.hsc X.ht X.hsp X.G.hr X.hu X.hn X.hA X.hT.hH X.hT.hc X.hperm hR (X.hX R hR) le_rfl l2
      obtain ⟨b, c1, -⟩ := l2.app
      obtain ⟨v0, c2, -⟩ := Lo.leForce_ap X.hF X.hsc (X.hsp.rad X.G.hr hRh) c1 x hxR
      obtain ⟨w, w1, w2⟩ := leForce_hi X.h64 (t := t) (P := pwExp p t) (B := top p t α) l3 hxm
        (by rw [b2]; exact csub_up X.hF X.hsc X.ht (hxR.trans (by
          have h1 := Fl.side_anti (n := R.length) X.G.hr (Nat.zero_le _)
          rw [Fl.side_zero] at h1
          have h2 := two_up X.hsc X.hsp X.G.hr
          have := X.G.hr
          unfold Fl.rad; linarith)))
        (by rw [b3]; exact Nat.mul_le_mul (by omega) (by omega)) (by rw [b3]; unfold top; omega) (by omega) _ c2
      refine ⟨e, w, l1, w1, fun _ => ⟨Exp2.fieldOf v0, fun j => ?_⟩⟩
      rw [b3] at w2
      exact (w2 j).lift (by omega))
    (by
      intro ν hν
      obtain ⟨w1, w2, w3, w4⟩ := Fl.W_geo X.hT.hA X.hT.hr X.hT.hH hν
      obtain ⟨e, m1, f, m2, m3⟩ := hs.me ν w1 w2
      obtain ⟨v, -, v1, -⟩ := Lo.W_force X.hF X.hsc X.hsp X.G X.hS hx w1 (X.hT.hH ν w1) w3 w4 (X.hqn ν w1) m2 h0
      have B := bounded_me X.hsc X.ht X.hsp X.G.hr X.hu X.hn X.hA (X.hsub ν w1) m2
      have hap := X.apartW hx hν
      rw [← B.center] at hap
      obtain ⟨w, k1, k2⟩ := meForce_hi X.h64 X.hF (t := t) (P := pwExp p t) (B := top p t α) m3 hxm hap.up hap.lo hap.rho hap.sq hap.sq' X.ht.small
        (by rw [B.size]; exact Nat.mul_le_mul (by omega) (by omega)) (by rw [B.size]; unfold top; omega) (by omega) v v1
      refine ⟨e, w, m1, k1, fun _ => ⟨v, fun j => ?_⟩⟩
      rw [B.size] at k2
      exact (k2 j).lift (by omega))
    (by
      intro ν hν
      obtain ⟨u1, u2, -⟩ := (PTree.mem_near_leaf hL hh hR hl ν).mp hν
      have hcl' : ∀ s ∈ src ν, Lo.Clear θ x s := fun s hs => hcl s ((X.hsub ν u1).subset hs)
      have hF' : (decide (ν = R) = true ∨ ∀ s ∈ src ν, s.pos ≠ x) ∧ ∃ v, Fl.forcefieldSum F true (decide (ν = R)) (src ν) x eps = .ok v := by
        by_cases hρR : ν = R
        · rw [decide_eq_true hρR]
          obtain ⟨v, v1, -⟩ := Lo.forcefieldSum_safe X.hF X.hsc X.hp0 X.h5 true (src ν) x eps h0 he hcl' (X.hqn ν u1)
          exact ⟨Or.inl rfl, v, v1⟩
        · rw [decide_eq_false hρR]
          obtain ⟨v, v1, -⟩ := Lo.forcefieldSum_unsafe X.hF X.hsc X.hp0 X.h5 true (src ν) x eps h0 he hcl' (X.hqn ν u1) (hne ν u1 u2 hρR)
          exact ⟨Or.inr (hne ν u1 u2 hρR), v, v1⟩
      obtain ⟨hsf, v, v1⟩ := hF'
      refine ⟨_, rfl, fun hk => ?_⟩
      obtain ⟨w, k1, k2⟩ := forcefieldSum_hi X.h64 X.hF X.hsc X.ht true (decide (ν = R)) hxm X.hp0 X.h5 h0 he' (S := src ν)
        (fun s hs => ⟨X.hpos s ((X.hsub ν u1).subset hs), hcl' s hs, (strength_le ((X.hsub ν u1).subset hs)).trans X.hA⟩) hsf hk v v1
      injection k1 with k1
      rw [k1]
      exact ⟨v, fun j => (k2 j).mono le_rfl (by unfold top coExp pwExp; nlinarith [Nat.zero_le (p * t)])⟩)
  obtain ⟨y, hy⟩ := v2 (X.count hR hl hmW)
  have ev : v = fun j => .fin (y j) := funext fun j => (hy j).1
  rw [v1, ev]
  cases grav
  · exact ⟨-y, rfl⟩
  · exact ⟨y, rfl⟩

end Setup

end

end FMM.D2.Hi
