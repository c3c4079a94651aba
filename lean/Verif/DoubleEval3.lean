import Verif.DoubleTree3

/-!
# Evaluation of the trees in space with expansions in binary64
-/

namespace FMM.D64
open FMM Rounded

theorem foldlM_total {V α : Type} (Q : V → Prop) (add : V → V → V) (hadd : ∀ v w, Q v ∨ Q w → Q (add v w)) (f : α → Outcome V) (l : List α)
    (hf : ∀ a ∈ l, ∃ w, f a = .ok w) (v0 : V) :
    ∃ v, l.foldlM (fun v a => do
      let w ← f a
      .ok (add v w)) v0 = .ok v ∧ (Q v0 → Q v) ∧ ∀ a ∈ l, (∃ w, f a = .ok w ∧ Q w) → Q v := by
  induction l generalizing v0 with
  | nil => exact ⟨v0, rfl, id, by simp⟩
  | cons a l ih =>
    obtain ⟨w, hw⟩ := hf a (by simp)
    obtain ⟨v, h1, h2, h3⟩ := ih (fun b hb => hf b (by simp [hb])) (add v0 w)
    refine ⟨v, ?_, fun h => h2 (hadd _ _ (Or.inl h)), fun b hb hq => ?_⟩
    · rw [List.foldlM_cons, hw, ok_bind, ok_bind]; exact h1
    · rcases List.mem_cons.mp hb with rfl | hb
      · obtain ⟨w', e, hw'⟩ := hq
        rw [hw] at e
        cases e
        exact h2 (hadd _ _ (Or.inr hw'))
      · exact h3 b hb hq

section
variable {A V : Type} [DecidableEq A] {T : PTree} {r : Box 3} {cen : Path → Vec 3} {h p : ℕ} {src : Path → List (Source 3)}
  {sh : Shape 3 A} {addr : Path → A} {L : Lib}

/-- One bad contribution is enough. -/
theorem evalLeaf_bad (Q : V → Prop) (add : V → V → V) (neg : V → V) (hadd : ∀ v w, Q v ∨ Q w → Q (add v w)) (hneg : ∀ v, Q v → Q (neg v))
    (O : Obs (kit64 L) V) (hle : ∀ e x, ∃ v, O.le e x = .ok v) (hme : ∀ e x, ∃ v, O.me e x = .ok v)
    (hsum : ∀ g b S x, ∃ v, O.sum g b S x = .ok v)
    (hT : Rel.TreeR T r cen src sh addr h) {s : Exps (kit64 L) A} (hD : Rel.Done (laws64 (p := p) (cen := cen) (src := src) L hT.hA hT.hr) addr s)
    {R : Path} (hR : T.Mem R) (hl : T.leaf R = true) (x : Vec 3) (grav : Bool)
    (hbad : (∀ e, Is p (cen R) (BadLE T cen src p R (2 + (T.xl R).length)) e → ∃ v, O.le e x = .ok v ∧ Q v) ∨
      (∃ ρ ∈ (T.nbhAfter (T.order (h + 1))).W R, ∀ e, Is p (cen ρ) (BadME T cen src ρ) e → ∃ v, O.me e x = .ok v ∧ Q v) ∨
      ∃ ρ ∈ (T.nbhAfter (T.order (h + 1))).near R, ∃ v, O.sum true (decide (ρ = R)) (src ρ) x = .ok v ∧ Q v) :
    ∃ v, Rounded.evalLeaf add neg O sh grav s (addr R) x = .ok v ∧ Q v := by
  have hL := hT.hA.laws hT.hr
  have hh : ∀ π, T.Mem π → π.length < h + 1 := fun π hπ => Nat.lt_succ_of_le (hT.hH π hπ)
  obtain ⟨nd, n1, -, -, -, -, -, n3⟩ := hT.node R hR
  obtain ⟨-, n4, n5⟩ := n3 hl
  obtain ⟨e, l1, l2⟩ := hD.le R hR
  obtain ⟨v0, l3⟩ := hle e x
  have hmem : ∀ ρ ∈ (T.nbhAfter (T.order (h + 1))).W R, ∃ e, s.me (addr ρ) = some e ∧ Is p (cen ρ) (BadME T cen src ρ) e := by
    intro ρ hρ
    obtain ⟨w1, w2, -, -⟩ := Fl.W_geo hT.hA hT.hr hT.hH hρ
    exact hD.me ρ w1 w2
  obtain ⟨v1, w1, w2, w3⟩ := foldlM_total Q add hadd (fun ρ => (do let e ← s.rdMe (addr ρ); O.me e x)) ((T.nbhAfter (T.order (h + 1))).W R) (by
      intro ρ hρ
      obtain ⟨e, a1, -⟩ := hmem ρ hρ
      obtain ⟨v, a2⟩ := hme e x
      refine ⟨v, ?_⟩
      simp only [Exps.rdMe]
      rw [a1]; exact a2) v0
  obtain ⟨v2, u1, u2, u3⟩ := foldlM_total Q add hadd (fun ρ => O.sum true (decide (ρ = R)) (src ρ) x) ((T.nbhAfter (T.order (h + 1))).near R)
    (fun ρ _ => hsum _ _ _ _) v1
  have hq : Q v2 := by
    rcases hbad with hb | ⟨ρ, hρ, hb⟩ | ⟨ρ, hρ, hb⟩
    · obtain ⟨v, b1, b2⟩ := hb e l2
      rw [l3] at b1
      cases b1
      exact u2 (w2 b2)
    · obtain ⟨e, a1, a2⟩ := hmem ρ hρ
      obtain ⟨v, b1, b2⟩ := hb e a2
      refine u2 (w3 ρ hρ ⟨v, ?_, b2⟩)
      simp only [Exps.rdMe]
      rw [a1]; exact b1
    · exact u3 ρ hρ hb
  refine ⟨if grav then v2 else neg v2, ?_, ?_⟩
  · unfold Rounded.evalLeaf
    rw [n1, ok_bind]
    simp only [Exps.rdLe]
    rw [l1]
    simp only [ok_bind]
    rw [l3, ok_bind, n5, List.foldlM_map]
    have e1 : ((T.nbhAfter (T.order (h + 1))).W R).foldlM (fun v ρ => (do
        let e ← s.rdMe (addr ρ)
        let w ← O.me e x
        .ok (add v w))) v0 = (Except.ok v1 : Outcome V) := by
      rw [← w1]
      congr 1
      funext v ρ
      cases s.rdMe (addr ρ) <;> rfl
    rw [e1, ok_bind, n4, List.foldlM_map]
    have e2 : ∀ (l : List Path) (v : V), (∀ ρ ∈ l, ρ ∈ (T.nbhAfter (T.order (h + 1))).near R) →
        l.foldlM (fun v ρ => (do
          let m ← sh (addr ρ)
          let src ← m.sources
          let w ← O.sum true (decide (addr ρ = addr R)) src x
          .ok (add v w))) v = (l.foldlM (fun v ρ => (do
          let w ← O.sum true (decide (ρ = R)) (src ρ) x
          .ok (add v w))) v : Outcome V) := by
      intro l
      induction l with
      | nil => intro v _; rfl
      | cons ρ l ih =>
        intro v hρ
        obtain ⟨u1, u2, u3⟩ := (PTree.mem_near_leaf hL hh hR hl ρ).mp (hρ ρ (by simp))
        obtain ⟨nm, m1, -, -, -, -, -, m2⟩ := hT.node ρ u1
        have ed : decide (addr ρ = addr R) = decide (ρ = R) := by
          by_cases hρR : ρ = R
          · subst hρR; simp
          · rw [decide_eq_false hρR, decide_eq_false fun h => hρR (hT.inj ρ R u1 hR h)]
        rw [List.foldlM_cons, List.foldlM_cons, m1, ok_bind, (m2 u2).1, ok_bind, ed]
        cases O.sum true (decide (ρ = R)) (src ρ) x with
        | error e => rfl
        | ok w => rw [ok_bind, ok_bind, ok_bind]; exact ih _ fun ρ' h' => hρ ρ' (by simp [h'])
    rw [e2 _ _ fun _ h => h, u1, ok_bind]
  · cases grav
    · exact hneg _ hq
    · exact hq

theorem nf_add {v w : Dbl} (h : NF v ∨ NF w) : NF (add v w) := h.elim (fun h => h.add_left _) (fun h => h.add_right _)

/-- The computed potential at a point of a leaf. -/
theorem evalPot_bad (hT : Rel.TreeR T r cen src sh addr h) {s : Exps (kit64 L) A}
    (hD : Rel.Done (laws64 (p := p) (cen := cen) (src := src) L hT.hA hT.hr) addr s) {R : Path} (hR : T.Mem R) (hl : T.leaf R = true) (x : Vec 3) (grav : Bool)
    {j : ℕ} (hj : j ≤ p) (hb : BadLE T cen src p R (2 + (T.xl R).length) j) :
    ∃ v, Rounded.evalLeaf add neg (pot64 L) sh grav s (addr R) x = .ok v ∧ NF v := by
  refine evalLeaf_bad NF add neg (fun _ _ => nf_add) (fun _ h => h.neg) (pot64 L) (fun _ _ => ⟨_, rfl⟩) (fun _ _ => ⟨_, rfl⟩) (fun _ _ _ _ => ⟨_, rfl⟩)
    hT hD hR hl x grav (Or.inl ?_)
  refine fun (e : Exp64) he => ⟨lePot L e.order e.center e.c x, rfl, ?_⟩
  exact lePot_nf (by rw [he.order]; exact hj) (Or.inl (he.bad j hb))

/-- The computed force. -/
theorem evalForce_bad (feps : ℝ) (hT : Rel.TreeR T r cen src sh addr h) {s : Exps (kit64 L) A}
    (hD : Rel.Done (laws64 (p := p) (cen := cen) (src := src) L hT.hA hT.hr) addr s) {R : Path} (hR : T.Mem R) (hl : T.leaf R = true) (x : Vec 3) (grav : Bool)
    {j : ℕ} (hj : j ≤ p) (hj1 : 1 ≤ j) (hb : BadLE T cen src p R (2 + (T.xl R).length) j) :
    ∃ v, Rounded.evalLeaf vadd vneg (force64 L feps) sh grav s (addr R) x = .ok v ∧ VNF v := by
  refine evalLeaf_bad VNF vadd vneg (fun v w h i => nf_add (h.imp (fun h => h i) fun h => h i)) (fun _ h i => (h i).neg) (force64 L feps)
    (fun _ _ => ⟨_, rfl⟩) (fun _ _ => ⟨_, rfl⟩) (fun _ _ _ _ => ⟨_, rfl⟩) hT hD hR hl x grav (Or.inl ?_)
  refine fun (e : Exp64) he => ⟨leForce L e.order e.center e.c x, rfl, ?_⟩
  exact leForce_nf (by rw [he.order]; exact hj) hj1 (Or.inl (he.bad j hb))

end
end FMM.D64
