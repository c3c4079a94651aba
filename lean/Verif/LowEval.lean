import Verif.LowDirect
import Verif.FltEval

/-!
# Evaluation of a tree in the plane, with gradual underflow

The statements of `FltEval`, for operations with a floor.
-/

namespace FMM.Lo
open Rounded Finset Fl
variable {F : Flt} {u η ρ₀ θ τ : ℝ}

/-- A sum of computed values. -/
theorem foldG_ap {V E α : Type} [NormedAddCommGroup E] (φ : V → E) (add : V → V → V)
    (hadd : ∀ n A B a' b' a b, Ap u n A (φ a') a → Ap u n B (φ b') b → Flr η (A + B) →
      Ap u (n + 1) (A + B) (φ (add a' b')) (a + b))
    (hu : 0 ≤ u) (f : α → Outcome V) (t : α → E) (M : α → ℝ) (m : ℕ) (S : List α)
    (h : ∀ s ∈ S, ∃ v, f s = .ok v ∧ Ap u m (M s) (φ v) (t s) ∧ Flr η (M s)) (n : ℕ) (hn : m ≤ n) (A : ℝ) (a' : V) (a : E)
    (ha : Ap u n A (φ a') a) (hA : Flr η A) :
    ∃ v, S.foldlM (fun v s => do
      let p ← f s
      .ok (add v p)) a' = .ok v ∧ Ap u (n + S.length) (A + (S.map M).sum) (φ v) (a + (S.map t).sum) := by
  induction S generalizing n A a' a with
  | nil => exact ⟨a', rfl, by simpa using ha⟩
  | cons s S ih =>
    obtain ⟨v, hv, hv', hf⟩ := h s (by simp)
    have hf' := hA.add hf ha.nonneg hv'.nonneg
    have h1 := hadd n _ _ _ _ _ _ ha (hv'.mono hu hn le_rfl) hf'
    obtain ⟨w, hw, hw'⟩ := ih (fun x hx => h x (by simp [hx])) (n + 1) (by omega) _ _ _ h1 hf'
    refine ⟨w, ?_, ?_⟩
    · rw [List.foldlM_cons, hv, ok_bind, ok_bind]; exact hw
    · have e : n + (s :: S).length = n + 1 + S.length := by rw [List.length_cons]; omega
      rw [e, List.map_cons, List.map_cons, List.sum_cons, List.sum_cons, ← add_assoc, ← add_assoc]
      exact hw'

section
variable {d : ℕ} {A : Type} [DecidableEq A] {T : PTree} {r : Box d} {cen : Path → Vec d} {h : ℕ} {src : Path → List (Source d)}
  {sh : Shape d A} {addr : Path → A} {K : Kit d}

theorem evalLeaf_ap {V E : Type} [NormedAddCommGroup E] (φ : V → E) (add : V → V → V) (neg : V → V)
    (hadd : ∀ n A B a' b' a b, Ap u n A (φ a') a → Ap u n B (φ b') b → Flr η (A + B) →
      Ap u (n + 1) (A + B) (φ (add a' b')) (a + b))
    (hu : 0 ≤ u) (O : Obs K V) (hT : Rel.TreeR T r cen src sh addr h) {s : Exps K A} {R : Path} (hR : T.Mem R)
    (hl : T.leaf R = true) (x : Vec d) (grav : Bool) {n : ℕ} {M0 : ℝ} {a0 : E} {MW MU : Path → ℝ} {tW tU : Path → E}
    (hle : ∃ e v, s.le (addr R) = some e ∧ O.le e x = .ok v ∧ Ap u n M0 (φ v) a0 ∧ Flr η M0)
    (hW : ∀ ρ ∈ (T.nbhAfter (T.order (h + 1))).W R, ∃ e v, s.me (addr ρ) = some e ∧ O.me e x = .ok v ∧
      Ap u n (MW ρ) (φ v) (tW ρ) ∧ Flr η (MW ρ))
    (hU : ∀ ρ ∈ (T.nbhAfter (T.order (h + 1))).near R, ∃ v, O.sum true (decide (ρ = R)) (src ρ) x = .ok v ∧
      Ap u n (MU ρ) (φ v) (tU ρ) ∧ Flr η (MU ρ)) :
    ∃ v, Rounded.evalLeaf add neg O sh grav s (addr R) x = .ok (if grav then v else neg v) ∧
      Ap u (n + ((T.nbhAfter (T.order (h + 1))).W R).length + ((T.nbhAfter (T.order (h + 1))).near R).length)
        (M0 + (((T.nbhAfter (T.order (h + 1))).W R).map MW).sum + (((T.nbhAfter (T.order (h + 1))).near R).map MU).sum)
        (φ v)
        (a0 + (((T.nbhAfter (T.order (h + 1))).W R).map tW).sum + (((T.nbhAfter (T.order (h + 1))).near R).map tU).sum) := by
  have hL := hT.hA.laws hT.hr
  have hh : ∀ π, T.Mem π → π.length < h + 1 := fun π hπ => Nat.lt_succ_of_le (hT.hH π hπ)
  obtain ⟨nd, n1, -, -, -, -, -, n3⟩ := hT.node R hR
  obtain ⟨-, n4, n5⟩ := n3 hl
  obtain ⟨e, v0, l1, l2, l3, l4⟩ := hle
  have hWn : ∀ ρ ∈ (T.nbhAfter (T.order (h + 1))).W R, Flr η (MW ρ) ∧ 0 ≤ MW ρ := fun ρ hρ => by
    obtain ⟨e, v, a1, a2, a3, a4⟩ := hW ρ hρ
    exact ⟨a4, a3.nonneg⟩
  obtain ⟨v1, w1, w2⟩ := foldG_ap φ add hadd hu (fun ρ => (do let e ← s.rdMe (addr ρ); O.me e x)) tW MW n
    ((T.nbhAfter (T.order (h + 1))).W R) (by
      intro ρ hρ
      obtain ⟨e, v, a1, a2, a3⟩ := hW ρ hρ
      refine ⟨v, ?_, a3⟩
      simp only [Exps.rdMe]
      rw [a1]; exact a2) n le_rfl M0 v0 a0 l3 l4
  obtain ⟨v2, w3, w4⟩ := foldG_ap φ add hadd hu (fun ρ => O.sum true (decide (ρ = R)) (src ρ) x) tU MU n
    ((T.nbhAfter (T.order (h + 1))).near R) hU (n + ((T.nbhAfter (T.order (h + 1))).W R).length) (by omega) _ _ _ w2
    (l4.add (Flr.listSum _ _ (fun ρ hρ => (hWn ρ hρ).1) fun ρ hρ => (hWn ρ hρ).2) l3.nonneg
      (List.sum_nonneg fun a ha => by
        obtain ⟨ρ, hρ, rfl⟩ := List.mem_map.mp ha
        exact (hWn ρ hρ).2))
  refine ⟨v2, ?_, w4⟩
  unfold Rounded.evalLeaf
  rw [n1, ok_bind]
  simp only [Exps.rdLe]
  rw [l1]
  simp only [ok_bind]
  rw [l2, ok_bind, n5, List.foldlM_map]
  have e1 : ((T.nbhAfter (T.order (h + 1))).W R).foldlM (fun v ρ => (do
      let e ← s.rdMe (addr ρ)
      let w ← O.me e x
      .ok (add v w))) v0 = (Except.ok v1 : Outcome V) := by
    rw [← w1]
    congr 1
    funext v ρ
    cases s.rdMe (addr ρ) <;> rfl
  rw [e1, ok_bind, n4, List.foldlM_map]
  have e2 : ∀ (l : List Path) (v : V), (∀ ρ ∈ l, ρ ∈ (T.nbhAfter (T.order (h + 1))).near R) →
      l.foldlM (fun v ρ => (do
        let m ← sh (addr ρ)
        let src ← m.sources
        let w ← O.sum true (decide (addr ρ = addr R)) src x
        .ok (add v w))) v = (l.foldlM (fun v ρ => (do
        let w ← O.sum true (decide (ρ = R)) (src ρ) x
        .ok (add v w))) v : Outcome V) := by
    intro l
    induction l with
    | nil => intro v _; rfl
    | cons ρ l ih =>
      intro v hρ
      obtain ⟨u1, u2, u3⟩ := (PTree.mem_near_leaf hL hh hR hl ρ).mp (hρ ρ (by simp))
      obtain ⟨nm, m1, -, -, -, -, -, m2⟩ := hT.node ρ u1
      have ed : decide (addr ρ = addr R) = decide (ρ = R) := by
        by_cases hρR : ρ = R
        · subst hρR; simp
        · rw [decide_eq_false hρR, decide_eq_false fun h => hρR (hT.inj ρ R u1 hR h)]
      rw [List.foldlM_cons, List.foldlM_cons, m1, ok_bind, (m2 u2).1, ok_bind, ed]
      cases O.sum true (decide (ρ = R)) (src ρ) x with
      | error e => rfl
      | ok w => rw [ok_bind, ok_bind, ok_bind]; exact ih _ fun ρ' h' => hρ ρ' (by simp [h'])
  rw [e2 _ _ fun _ h => h, w3, ok_bind]

end

section
variable {A : Type} [DecidableEq A] {T : PTree} {r : Box 2} {cen : Path → Vec 2} {h N p m : ℕ} {src : Path → List (Source 2)}
  {sh : Shape 2 A} {addr : Path → A}

/-- The distance of the sources in the local expansion of a leaf. -/
theorem LocalOf.apart {c : ℂ} {k n : ℕ} {e : Exp2} {S : List (Source 2)} (H : LocalOf u θ τ p r h c k n e S) {x : Vec 2}
    (hx : ‖toC x - c‖ ≤ rad r k) : ∀ s ∈ S, side r h / 2 ≤ ‖toC s.pos - toC x‖ := by
  intro s hs
  have a := H.sep s hs
  have b := norm_sub_le_norm_sub_add_norm_sub (toC s.pos) (toC x) c
  linarith

/-- A node in list W: potential. -/
theorem W_pot (hF : F.Low u η ρ₀) (hsc : Scale η ρ₀ θ τ p) (hsp : Span θ r h) (G : Geo r cen h) (hS : Srcs T r h N src) {R ρ : Path} {x : Vec 2} (hx : Within r h R x)
    (hρ : T.Mem ρ) (hl : ρ.length ≤ h) (hlen : R.length ≤ ρ.length) (ha : ¬ (boxAt r ρ).adjacent (boxAt r R))
    (hq : ∀ s ∈ src ρ, Flr τ |s.q|) {n : ℕ} {e : Exp2} (he : AppM u n e (toC (cen ρ)) p (meCoeff (toC (cen ρ)) (src ρ)) (totalStrength (src ρ)) (rad r ρ.length)) :
    ∃ v t, mePot F e x = .ok v ∧ Ap u (n + 4 * p + 4) (totalStrength (src ρ) * (logB r h + 11)) v t ∧
      |t - directPotential true (src ρ) x| ≤ totalStrength (src ρ) * tailBound p (29 / 40) := by
  have a := G.sep_point hl hlen ha hx
  have hs := side_pos G.hr ρ.length
  have hsh := side_pos G.hr h
  have hle := side_anti G.hr hl
  have hA := totalStrength_nonneg (src ρ)
  have hrad : rad r ρ.length = 18 / 25 * side r ρ.length := rfl
  have hR0 := rad_pos G.hr ρ.length
  have hx0 : θ ≤ ‖toC x - toC (cen ρ)‖ := by
    have := hsp.side G.hr hl
    linarith
  have hAf := totalStrength_flr hq
  have hζθ := hsp.inv G.hr ρ.length (c := 149 / 100) (by norm_num) (by norm_num)
  have hlog := log_le (h := h) G.hr (le_trans (by linarith) a) (norm_le_root G.hr (hx.root G.hr) fun j => G.root hl j)
  have hlt : rad r ρ.length < 149 / 100 * side r ρ.length := by rw [hrad]; linarith
  obtain ⟨v, h1, h2⟩ := mePot_ap hF he hsc hAf (hsp.rad G.hr hl) x hx0 (ζ := (149 / 100 * side r ρ.length)⁻¹) (inv_anti₀ (by positivity) a) hζθ hlog
  refine ⟨v, _, h1, h2.mono hF.nonneg le_rfl ((mePotMaj_le hA hR0.le hlt p).trans ?_), ?_⟩
  · refine mul_le_mul_of_nonneg_left ?_ hA
    have e : rad r ρ.length / (149 / 100 * side r ρ.length - rad r ρ.length) = 72 / 77 := by
      unfold rad
      rw [div_eq_div_iff (by linarith) (by norm_num)]; ring
    rw [e]
    have := pi_le
    norm_num; linarith
  · rw [directPotential_two (src ρ) x fun s hs' => ne_of_apart (by linarith : 0 < side r h / 2)
      (W_apart G hS hx hρ hl hlen ha s hs')]
    refine (me_bound (toC (cen ρ)) (toC x) p (src ρ) (fun s hs' => G.within hl (hS.within ρ hρ s hs')) hlt a).trans ?_
    refine mul_le_mul_of_nonneg_left (tailBound_mono p (by positivity) ?_ (by norm_num)) hA
    rw [div_le_iff₀ (by linarith), hrad]; linarith

/-- **Potential at a point of a leaf.** -/
theorem evalPot (hF : F.Low u η ρ₀) (hsc : Scale η ρ₀ θ τ p) (hsp : Span θ r h) (G : Geo r cen h) (hT : Rel.TreeR T r cen src sh addr h) (hS : Srcs T r h N src)
    (hq : ∀ π, T.Mem π → ∀ s ∈ src π, Flr τ |s.q|) (hp0 : 0 < p)
    (hp : p ≤ 1029) (hX : ∀ π, T.Mem π → (T.xl π).length ≤ m) {s : Exps (kit F) A}
    (hs : Rel.Done (laws hF hsc hsp G hT.hc hT.hA hT.hH hS hq hp0 hp hX) addr s) {R : Path} (hR : T.Mem R) (hl : T.leaf R = true)
    (hmW : ((T.nbhAfter (T.order (h + 1))).W R).length ≤ m) (hmU : ((T.nbhAfter (T.order (h + 1))).near R).length ≤ m)
    {items : List (Source 2)} (hperm : ((T.slots (h + 1) R).flatMap src).Perm items) {x : Vec 2} (hx : Within r h R x)
    (hcl : ∀ s ∈ items, Clear θ x s) (hqi : ∀ s ∈ items, Flr τ |s.q|)
    (hne : ∀ ρ, T.Mem ρ → T.leaf ρ = true → ρ ≠ R → ∀ s ∈ src ρ, s.pos ≠ x) (grav : Bool) :
    ∃ v, Rounded.evalLeaf (fun a b => F.rnd (a + b)) (fun a => -a) (pot F) sh grav s (addr R) x = .ok v ∧
      |v - directPotential grav items x| ≤ totalStrength items * tailBound p (29 / 40)
        + ((1 + u) ^ evalCount N p h m - 1) * (totalStrength items * (logB r h + 11) + absPotential items x) := by
  have hL := hT.hA.laws hT.hr
  have hh : ∀ π, T.Mem π → π.length < h + 1 := fun π hπ => Nat.lt_succ_of_le (hT.hH π hπ)
  have hRh := hT.hH R hR
  have hxR := G.within hRh hx
  have hsh := side_pos G.hr h
  have hu := hF.nonneg
  obtain ⟨e, l1, l2⟩ := hs.le R hR
  have l2 : LocalOf u θ τ p r h (toC (cen R)) R.length (leCount N p h m R.length (2 + (T.xl R).length)) e
      (farAt T src R (2 + (T.xl R).length)) := l2
  rw [farAt_last] at l2
  have hpm := split_perm hT.hH hR hperm
  have hfarq : Flr τ (totalStrength (far T src R)) := totalStrength_flr fun s hs' =>
    hqi s (hpm.mem_iff.mp (List.mem_append_right _ (List.mem_append_right _ hs')))
  have hUcl : ∀ ρ ∈ (T.nbhAfter (T.order (h + 1))).near R, ∀ s ∈ src ρ, Clear θ x s := fun ρ hρ s hs' =>
    hcl s (hpm.mem_iff.mp (List.mem_append_left _ (List.mem_flatMap.mpr ⟨ρ, hρ, hs'⟩)))
  have hfarne : ∀ s ∈ far T src R, s.pos ≠ x := fun s hs' =>
    ne_of_apart (by linarith : 0 < side r h / 2) (l2.apart hxR s hs')
  have hflr : ∀ {A : ℝ}, Flr τ A → Flr η (A * (logB r h + 11)) := fun hA =>
    hsc.str hA (k := 0) (by omega) (by have := logB_nonneg (r := r) (h := h); rw [pow_zero]; linarith)
  obtain ⟨b, b1, b2⟩ := l2.app
  obtain ⟨v0, c1, c2⟩ := lePot_ap hF hsc (hsp.rad G.hr hRh) b1 x hxR
  have hc := leCount_le (N := N) (p := p) (m := m) hRh (j := 2 + (T.xl R).length) (by have := hX R hR; omega)
  have hWs : ∀ ρ ∈ (T.nbhAfter (T.order (h + 1))).W R, ∃ (e : (kit F).E) (v t : ℝ), s.me (addr ρ) = some e ∧ (pot F).me e x = .ok v ∧
      Ap u (evalCount0 N p h m) (totalStrength (src ρ) * (logB r h + 11)) v t ∧
      |t - directPotential true (src ρ) x| ≤ totalStrength (src ρ) * tailBound p (29 / 40) := by
    intro ρ hρ
    obtain ⟨w1, w2, w3, w4⟩ := W_geo hT.hA hT.hr hT.hH hρ
    obtain ⟨e, m1, m2⟩ := hs.me ρ w1 w2
    obtain ⟨v, t, v1, v2, v3⟩ := W_pot hF hsc hsp G hS hx w1 (hT.hH ρ w1) w3 w4 (hq ρ w1) m2
    exact ⟨e, v, t, m1, v1, v2.mono hu (by have := meCount_le' (N := N) (p := p) (h := h) (m := m) (k := ρ.length); omega) le_rfl, v3⟩
  have : Nonempty (kit F).E := ⟨(kit F).empty⟩
  choose! we wv wt hw using hWs
  obtain ⟨v, d1, d2⟩ := evalLeaf_ap (E := ℝ) id (fun a b => F.rnd (a + b)) (fun a => -a)
    (fun n A B a' b' a b ha hb hfl => hF.rrnd (ha.add hb) hfl) hu (pot F) hT hR hl x grav (s := s) (n := evalCount0 N p h m)
    (MU := fun ρ => absPotential (src ρ) x) (tU := fun ρ => directPotential true (src ρ) x)
    (MW := fun ρ => totalStrength (src ρ) * (logB r h + 11)) (tW := wt)
    ⟨e, v0, l1, c1, c2.mono hu (by omega) le_rfl, hflr hfarq⟩
    (fun ρ hρ => ⟨we ρ, wv ρ, (hw ρ hρ).1, (hw ρ hρ).2.1, (hw ρ hρ).2.2.1,
      hflr (totalStrength_flr (hq ρ (W_geo hT.hA hT.hr hT.hH hρ).1))⟩) (by
      intro ρ hρ
      obtain ⟨u1, u2, -⟩ := (PTree.mem_near_leaf hL hh hR hl ρ).mp hρ
      have hlen := nearCount_le (p := p) (h := h) (m := m) (hS.len ρ)
      by_cases hρR : ρ = R
      · rw [decide_eq_true hρR]
        obtain ⟨v, v1, v2⟩ := potentialSum_safe hF hsc true (src ρ) x (hUcl ρ hρ) (hq ρ u1)
        exact ⟨v, v1, v2.mono hu (by omega) le_rfl, absPotential_flr hsc x (hq ρ u1)⟩
      · rw [decide_eq_false hρR]
        obtain ⟨v, v1, v2⟩ := potentialSum_unsafe hF hsc true (src ρ) x (hUcl ρ hρ) (hq ρ u1) (hne ρ u1 u2 hρR)
        exact ⟨v, v1, v2.mono hu (by omega) le_rfl, absPotential_flr hsc x (hq ρ u1)⟩)
  refine ⟨_, d1, ?_⟩
  set W := (T.nbhAfter (T.order (h + 1))).W R
  set U := (T.nbhAfter (T.order (h + 1))).near R
  have eA := totalStrength_perm hpm
  have eP := directPotential_perm true x hpm
  have eM := absPotential_perm x hpm
  rw [totalStrength_append, totalStrength_append] at eA
  rw [directPotential_append, directPotential_append, directPotential_flatMap, directPotential_flatMap,
    directPotential_two (far T src R) x hfarne] at eP
  rw [absPotential_append, absPotential_append, absPotential_flatMap] at eM
  have hAU := totalStrength_nonneg (U.flatMap src)
  have hMr := absPotential_nonneg (W.flatMap src) x
  have hMf := absPotential_nonneg (far T src R) x
  have hW1 := sum_close_real W wt (fun ρ => directPotential true (src ρ) x)
    (fun ρ => totalStrength (src ρ) * tailBound p (29 / 40)) fun ρ hρ => (hw ρ hρ).2.2.2
  rw [List.sum_map_mul_right, ← totalStrength_flatMap] at hW1
  have hL1 := (b2 (toC x) hxR).1
  have hd := d2.1
  rw [List.sum_map_mul_right, ← totalStrength_flatMap, Real.norm_eq_abs] at hd
  have hcnt : (1 + u) ^ (evalCount0 N p h m + W.length + U.length) ≤ (1 + u) ^ evalCount N p h m :=
    pow_le_pow_right₀ (by linarith) (by rw [← evalCount_eq]; unfold evalCount0; omega)
  have hlb := logB_nonneg (r := r) (h := h)
  have hmaj : totalStrength (far T src R) * (logB r h + 11) + totalStrength (W.flatMap src) * (logB r h + 11)
      + (U.map fun ρ => absPotential (src ρ) x).sum ≤ totalStrength items * (logB r h + 11) + absPotential items x := by
    rw [← eA, ← eM]
    have : 0 ≤ totalStrength (U.flatMap src) * (logB r h + 11) := by positivity
    linarith
  have hmaj0 : 0 ≤ totalStrength (far T src R) * (logB r h + 11) + totalStrength (W.flatMap src) * (logB r h + 11)
      + (U.map fun ρ => absPotential (src ρ) x).sum := by
    rw [← absPotential_flatMap]
    have := absPotential_nonneg (U.flatMap src) x
    have := totalStrength_nonneg (W.flatMap src)
    have := totalStrength_nonneg (far T src R)
    positivity
  have hd' := hd.trans (mul_le_mul (sub_le_sub_right hcnt 1) hmaj hmaj0 (pow_sub_nonneg hu _))
  have htail : 0 ≤ totalStrength (U.flatMap src) * tailBound p (29 / 40) :=
    mul_nonneg hAU (tailBound_nonneg p (by norm_num) (by norm_num))
  have hmain : |v - directPotential true items x| ≤ totalStrength items * tailBound p (29 / 40)
        + ((1 + u) ^ evalCount N p h m - 1) * (totalStrength items * (logB r h + 11) + absPotential items x) := by
    rw [← eP, ← eA]
    rw [← eA] at hd'
    have hL1 : |(leSum b p (toC x - toC (cen R))).re - ((far T src R).map fun s => s.q * Real.log ‖toC x - toC s.pos‖).sum|
      ≤ totalStrength (far T src R) * tailBound p (29 / 40) := hL1
    generalize ((1 + u) ^ evalCount N p h m - 1) * _ = D at *
    rw [abs_le] at *
    simp only [id] at *
    constructor <;> linarith [hd'.1, hd'.2, hL1.1, hL1.2, hW1.1, hW1.2]
  cases grav
  · rw [directPotential_neg, if_neg (by simp)]
    rw [← abs_neg]
    convert hmain using 2
    ring
  · simpa using hmain


/-! ## Forces -/

/-- A node in list W: force. -/
theorem W_force (hF : F.Low u η ρ₀) (hsc : Scale η ρ₀ θ τ p) (hsp : Span θ r h) (G : Geo r cen h) (hS : Srcs T r h N src) {R ρ : Path} {x : Vec 2} (hx : Within r h R x)
    (hρ : T.Mem ρ) (hl : ρ.length ≤ h) (hlen : R.length ≤ ρ.length) (ha : ¬ (boxAt r ρ).adjacent (boxAt r R))
    (hq : ∀ s ∈ src ρ, Flr τ |s.q|) {n : ℕ} {e : Exp2} (he : AppM u n e (toC (cen ρ)) p (meCoeff (toC (cen ρ)) (src ρ)) (totalStrength (src ρ)) (rad r ρ.length))
    {eps : ℝ} (heps : 0 ≤ eps) :
    ∃ v t, meForce F e x = .ok v ∧ Ap u (n + 4 * p + 9) (totalStrength (src ρ) * (25 / side r h)) (toC v) (toC t) ∧
      ‖toC t - toC (directField true (src ρ) x eps)‖ ≤ totalStrength (src ρ) * forceTail r h p eps := by
  have a := G.sep_point hl hlen ha hx
  have hs := side_pos G.hr ρ.length
  have hsh := side_pos G.hr h
  have hle := side_anti G.hr hl
  have hA := totalStrength_nonneg (src ρ)
  have hrad : rad r ρ.length = 18 / 25 * side r ρ.length := rfl
  have hR0 := rad_pos G.hr ρ.length
  have hx0 : θ ≤ ‖toC x - toC (cen ρ)‖ := by
    have := hsp.side G.hr hl
    linarith
  have hAf := totalStrength_flr hq
  have hζθ := hsp.inv G.hr ρ.length (c := 149 / 100) (by norm_num) (by norm_num)
  have hlt : rad r ρ.length < 149 / 100 * side r ρ.length := by rw [hrad]; linarith
  obtain ⟨f, h1, h2⟩ := meForce_ap hF he hsc hAf (hsp.rad G.hr hl) x hx0 (ζ := (149 / 100 * side r ρ.length)⁻¹) (inv_anti₀ (by positivity) a) hζθ
  refine ⟨_, _, h1, Ap.fieldOf (h2.mono hF.nonneg le_rfl ((meForceMaj_le hA hR0.le hlt p).trans ?_)), ?_⟩
  · refine mul_le_mul_of_nonneg_left ?_ hA
    have e : 1 / (149 / 100 * side r ρ.length) + rad r ρ.length / (149 / 100 * side r ρ.length - rad r ρ.length) ^ 2
        = (100 / 149 + 7200 / 5929) / side r ρ.length := by
      unfold rad
      have e1 : 149 / 100 * side r ρ.length - 18 / 25 * side r ρ.length = 77 / 100 * side r ρ.length := by ring
      rw [e1]
      field_simp
      norm_num
    rw [e, div_le_div_iff₀ hs hsh]
    norm_num
    linarith
  · refine field_close G.hr heps (W_apart G hS hx hρ hl hlen ha) ?_
    refine (me_field_bound (toC (cen ρ)) (toC x) p (src ρ) (fun s hs' => G.within hl (hS.within ρ hρ s hs')) hlt a).trans ?_
    refine mul_le_mul_of_nonneg_left ?_ hA
    have hq : rad r ρ.length / (149 / 100 * side r ρ.length) = 72 / 149 := by
      unfold rad; field_simp; norm_num
    refine (fieldTail_le (p := p + 1) G.hr hle (by positivity) (by rw [hq]; norm_num) (by rw [hrad]; linarith)).trans ?_
    unfold fieldTail
    refine mul_le_mul_of_nonneg_right ?_ (by positivity)
    rw [pow_succ]
    have : 0 ≤ (29 / 40 : ℝ) ^ p := by positivity
    linarith

/-- **Force at a point of a leaf.** -/
theorem evalForce (hF : F.Low u η ρ₀) (hsc : Scale η ρ₀ θ τ p) (hsp : Span θ r h) (G : Geo r cen h) (hT : Rel.TreeR T r cen src sh addr h) (hS : Srcs T r h N src)
    (hq : ∀ π, T.Mem π → ∀ s ∈ src π, Flr τ |s.q|) (hp0 : 0 < p)
    (hp : p ≤ 1029) (hX : ∀ π, T.Mem π → (T.xl π).length ≤ m) {s : Exps (kit F) A}
    (hs : Rel.Done (laws hF hsc hsp G hT.hc hT.hA hT.hH hS hq hp0 hp hX) addr s) {R : Path} (hR : T.Mem R) (hl : T.leaf R = true)
    (hmW : ((T.nbhAfter (T.order (h + 1))).W R).length ≤ m) (hmU : ((T.nbhAfter (T.order (h + 1))).near R).length ≤ m)
    {items : List (Source 2)} (hperm : ((T.slots (h + 1) R).flatMap src).Perm items) {x : Vec 2} (hx : Within r h R x)
    (hcl : ∀ s ∈ items, Clear θ x s) (hqi : ∀ s ∈ items, Flr τ |s.q|)
    (hne : ∀ ρ, T.Mem ρ → T.leaf ρ = true → ρ ≠ R → ∀ s ∈ src ρ, s.pos ≠ x) (grav : Bool) {eps : ℝ} (heps : 0 ≤ eps)
    (h5 : θ ≤ 1 / 5) (he' : eps ≤ 1 / θ ^ 2) :
    ∃ v, Rounded.evalLeaf F.vadd (fun a => -a) (force F eps) sh grav s (addr R) x = .ok v ∧
      dist2 v (directField grav items x eps) ≤ totalStrength items * forceTail r h p eps
        + ((1 + u) ^ evalCount N p h m - 1) * (totalStrength items * (25 / side r h) + absField items x eps) := by
  have hL := hT.hA.laws hT.hr
  have hh : ∀ π, T.Mem π → π.length < h + 1 := fun π hπ => Nat.lt_succ_of_le (hT.hH π hπ)
  have hRh := hT.hH R hR
  have hxR := G.within hRh hx
  have hsh := side_pos G.hr h
  have hu := hF.nonneg
  obtain ⟨e, l1, l2⟩ := hs.le R hR
  have l2 : LocalOf u θ τ p r h (toC (cen R)) R.length (leCount N p h m R.length (2 + (T.xl R).length)) e
      (farAt T src R (2 + (T.xl R).length)) := l2
  rw [farAt_last] at l2
  have hpm := split_perm hT.hH hR hperm
  have hfarq : Flr τ (totalStrength (far T src R)) := totalStrength_flr fun s hs' =>
    hqi s (hpm.mem_iff.mp (List.mem_append_right _ (List.mem_append_right _ hs')))
  have hUcl : ∀ ρ ∈ (T.nbhAfter (T.order (h + 1))).near R, ∀ s ∈ src ρ, Clear θ x s := fun ρ hρ s hs' =>
    hcl s (hpm.mem_iff.mp (List.mem_append_left _ (List.mem_flatMap.mpr ⟨ρ, hρ, hs'⟩)))
  have hflr : ∀ {A : ℝ}, Flr τ A → Flr η (A * (25 / side r h)) := fun hA =>
    hsc.str hA (k := 1) (by omega) (by
      have h1 := hsp.inv G.hr h (c := 1) (by norm_num) (by norm_num)
      rw [one_mul] at h1
      rw [pow_one, div_eq_mul_inv]
      have h2 : 0 < (side r h)⁻¹ := by positivity
      linarith)
  obtain ⟨b, b1, b2⟩ := l2.app
  obtain ⟨f0, c1, c2⟩ := leForce_ap hF hsc (hsp.rad G.hr hRh) b1 x hxR
  have hc := leCount_le (N := N) (p := p) (m := m) hRh (j := 2 + (T.xl R).length) (by have := hX R hR; omega)
  have hWs : ∀ ρ ∈ (T.nbhAfter (T.order (h + 1))).W R, ∃ (e : (kit F).E) (v t : Vec 2), s.me (addr ρ) = some e ∧
      (force F eps).me e x = .ok v ∧
      Ap u (evalCount0 N p h m) (totalStrength (src ρ) * (25 / side r h)) (toC v) (toC t) ∧
      ‖toC t - toC (directField true (src ρ) x eps)‖ ≤ totalStrength (src ρ) * forceTail r h p eps := by
    intro ρ hρ
    obtain ⟨w1, w2, w3, w4⟩ := W_geo hT.hA hT.hr hT.hH hρ
    obtain ⟨e, m1, m2⟩ := hs.me ρ w1 w2
    obtain ⟨v, t, v1, v2, v3⟩ := W_force hF hsc hsp G hS hx w1 (hT.hH ρ w1) w3 w4 (hq ρ w1) m2 heps
    exact ⟨e, v, t, m1, v1, v2.mono hu (by have := meCount_le' (N := N) (p := p) (h := h) (m := m) (k := ρ.length); omega) le_rfl, v3⟩
  have : Nonempty (kit F).E := ⟨(kit F).empty⟩
  choose! we wv wt hw using hWs
  obtain ⟨v, d1, d2⟩ := evalLeaf_ap (E := ℂ) toC F.vadd (fun a => -a)
    (fun n A B a' b' a b ha hb hfl => hF.cadd ha hb hfl) hu (force F eps) hT hR hl x grav (s := s) (n := evalCount0 N p h m)
    (MU := fun ρ => absField (src ρ) x eps) (tU := fun ρ => toC (directField true (src ρ) x eps))
    (MW := fun ρ => totalStrength (src ρ) * (25 / side r h)) (tW := fun ρ => toC (wt ρ))
    ⟨e, _, l1, c1, Ap.fieldOf (c2.mono hu (by omega) le_rfl), hflr hfarq⟩
    (fun ρ hρ => ⟨we ρ, wv ρ, (hw ρ hρ).1, (hw ρ hρ).2.1, (hw ρ hρ).2.2.1,
      hflr (totalStrength_flr (hq ρ (W_geo hT.hA hT.hr hT.hH hρ).1))⟩) (by
      intro ρ hρ
      obtain ⟨u1, u2, -⟩ := (PTree.mem_near_leaf hL hh hR hl ρ).mp hρ
      have hlen := nearCount_le (p := p) (h := h) (m := m) (hS.len ρ)
      by_cases hρR : ρ = R
      · rw [decide_eq_true hρR]
        obtain ⟨v, v1, v2⟩ := forcefieldSum_safe hF hsc hp0 h5 true (src ρ) x eps heps he' (hUcl ρ hρ) (hq ρ u1)
        exact ⟨v, v1, v2.mono hu (by omega) le_rfl, absField_flr hsc hp0 h5 x (hUcl ρ hρ) (hq ρ u1) heps he'⟩
      · rw [decide_eq_false hρR]
        obtain ⟨v, v1, v2⟩ := forcefieldSum_unsafe hF hsc hp0 h5 true (src ρ) x eps heps he' (hUcl ρ hρ) (hq ρ u1) (hne ρ u1 u2 hρR)
        exact ⟨v, v1, v2.mono hu (by omega) le_rfl, absField_flr hsc hp0 h5 x (hUcl ρ hρ) (hq ρ u1) heps he'⟩)
  refine ⟨_, d1, ?_⟩
  set W := (T.nbhAfter (T.order (h + 1))).W R
  set U := (T.nbhAfter (T.order (h + 1))).near R
  have eA := totalStrength_perm hpm
  have eP := congrArg toC (directField_perm true x eps hpm)
  have eM := absField_perm x eps hpm
  rw [totalStrength_append, totalStrength_append] at eA
  rw [directField_append, directField_append, directField_flatMap, directField_flatMap, toC_add, toC_add, toC_sum, toC_sum] at eP
  rw [absField_append, absField_append, absField_flatMap] at eM
  have hAU := totalStrength_nonneg (U.flatMap src)
  have hMr := absField_nonneg (W.flatMap src) x heps
  have hMf := absField_nonneg (far T src R) x heps
  have hW1 := sum_close_complex W (fun ρ => toC (wt ρ)) (fun ρ => toC (directField true (src ρ) x eps))
    (fun ρ => totalStrength (src ρ) * forceTail r h p eps) fun ρ hρ => (hw ρ hρ).2.2.2
  rw [List.sum_map_mul_right, ← totalStrength_flatMap] at hW1
  have hL1 := field_close G.hr heps (l2.apart hxR) (b2 (toC x) hxR).2
  have hd := d2.1
  rw [List.sum_map_mul_right, ← totalStrength_flatMap] at hd
  have hcnt : (1 + u) ^ (evalCount0 N p h m + W.length + U.length) ≤ (1 + u) ^ evalCount N p h m :=
    pow_le_pow_right₀ (by linarith) (by rw [← evalCount_eq]; unfold evalCount0; omega)
  have hmaj : totalStrength (far T src R) * (25 / side r h) + totalStrength (W.flatMap src) * (25 / side r h)
      + (U.map fun ρ => absField (src ρ) x eps).sum ≤ totalStrength items * (25 / side r h) + absField items x eps := by
    rw [← eA, ← eM]
    have : 0 ≤ totalStrength (U.flatMap src) * (25 / side r h) := by positivity
    linarith
  have hmaj0 : 0 ≤ totalStrength (far T src R) * (25 / side r h) + totalStrength (W.flatMap src) * (25 / side r h)
      + (U.map fun ρ => absField (src ρ) x eps).sum := by
    rw [← absField_flatMap]
    have := absField_nonneg (U.flatMap src) x heps
    have := totalStrength_nonneg (W.flatMap src)
    have := totalStrength_nonneg (far T src R)
    positivity
  have hd' := hd.trans (mul_le_mul (sub_le_sub_right hcnt 1) hmaj hmaj0 (pow_sub_nonneg hu _))
  have htail : 0 ≤ totalStrength (U.flatMap src) * forceTail r h p eps := by
    have := fieldTail_nonneg (h := h) (p := p) G.hr
    unfold forceTail; positivity
  have hmain : ‖toC v - toC (directField true items x eps)‖ ≤ totalStrength items * forceTail r h p eps
        + ((1 + u) ^ evalCount N p h m - 1) * (totalStrength items * (25 / side r h) + absField items x eps) := by
    rw [← eP, ← eA]
    rw [← eA] at hd'
    have e3 : toC v - ((U.map fun ρ => toC (directField true (src ρ) x eps)).sum
          + ((W.map fun ρ => toC (directField true (src ρ) x eps)).sum + toC (directField true (far T src R) x eps)))
        = (toC v - (toC (Exp2.fieldOf (leDeriv b p (toC x - toC (cen R)))) + (W.map fun ρ => toC (wt ρ)).sum
            + (U.map fun ρ => toC (directField true (src ρ) x eps)).sum))
          + ((toC (Exp2.fieldOf (leDeriv b p (toC x - toC (cen R)))) - toC (directField true (far T src R) x eps))
            + ((W.map fun ρ => toC (wt ρ)).sum - (W.map fun ρ => toC (directField true (src ρ) x eps)).sum)) := by ring
    rw [e3]
    have t1 := norm_add_le (toC v - (toC (Exp2.fieldOf (leDeriv b p (toC x - toC (cen R)))) + (W.map fun ρ => toC (wt ρ)).sum
            + (U.map fun ρ => toC (directField true (src ρ) x eps)).sum))
      ((toC (Exp2.fieldOf (leDeriv b p (toC x - toC (cen R)))) - toC (directField true (far T src R) x eps))
            + ((W.map fun ρ => toC (wt ρ)).sum - (W.map fun ρ => toC (directField true (src ρ) x eps)).sum))
    have t2 := norm_add_le (toC (Exp2.fieldOf (leDeriv b p (toC x - toC (cen R)))) - toC (directField true (far T src R) x eps))
      ((W.map fun ρ => toC (wt ρ)).sum - (W.map fun ρ => toC (directField true (src ρ) x eps)).sum)
    generalize ((1 + u) ^ evalCount N p h m - 1) * _ = D at *
    linarith
  rw [← norm_toC_sub]
  cases grav
  · rw [directField_neg, if_neg (by simp), toC_neg, toC_neg, ← norm_neg]
    have e : -(-toC v - -toC (directField true items x eps)) = toC v - toC (directField true items x eps) := by ring
    rw [e]; exact hmain
  · simpa using hmain

end
end FMM.Lo
