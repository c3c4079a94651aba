import Verif.TreeInv
import Verif.FmmRelBalanced

/-!
# Loops whose iterations can be exchanged

An iteration of one of the parallel loops writes one expansion of one node.  Two iterations, neither of which reads what the other one writes,
can be exchanged without any change of the result, whatever the arithmetic; errors are kept, too: if the iterations succeed in one order, then
they succeed in every order.
-/

namespace FMM.Repro
open Rounded.Inv (bok)
variable {d : ℕ} {K : Kit d} {A : Type}

/-- The multipole (`true`) or local (`false`) expansions. -/
def fld (m : Bool) (s : Exps K A) : A → Option K.E := if m then s.me else s.le

/-- The state with another expansion of a node. -/
def upd [DecidableEq A] (m : Bool) (s : Exps K A) (a : A) (o : Option K.E) : Exps K A :=
  if m then { s with me := Function.update s.me a o } else { s with le := Function.update s.le a o }

theorem ext_fld {m : Bool} {s s' : Exps K A} (h1 : s.t = s'.t) (h2 : fld m s = fld m s') (h3 : fld (!m) s = fld (!m) s') : s = s' := by
  cases m
  · exact Exps.ext h1 h3 h2
  · exact Exps.ext h1 h2 h3

section
variable [DecidableEq A]

theorem upd_t (m : Bool) (s : Exps K A) (a : A) (o : Option K.E) : (upd m s a o).t = s.t := by cases m <;> rfl

theorem upd_fld (m : Bool) (s : Exps K A) (a : A) (o : Option K.E) : fld m (upd m s a o) = Function.update (fld m s) a o := by cases m <;> rfl

theorem upd_other (m : Bool) (s : Exps K A) (a : A) (o : Option K.E) : fld (!m) (upd m s a o) = fld (!m) s := by cases m <;> rfl

/-- An operation that writes the expansion of kind `m` of the node `a` and reads, among the expansions of this kind, at most that of `a` and those of
the nodes in `R`. -/
def Frame (m : Bool) (I : Exps K A → Prop) (a : A) (R : A → Prop) (f : Exps K A → Outcome (Exps K A)) : Prop :=
  ∀ s s', I s → f s = .ok s' → I s' ∧ s'.t = s.t ∧ fld (!m) s' = fld (!m) s ∧ (∀ x, x ≠ a → fld m s' x = fld m s x) ∧
    ∀ b o, b ≠ a → ¬ R b → f (upd m s b o) = .ok (upd m s' b o)

/-- Two operations can be exchanged. -/
theorem Frame.comm {m : Bool} {I : Exps K A → Prop} {a b : A} {Ra Rb : A → Prop} {f g : Exps K A → Outcome (Exps K A)}
    (hf : Frame m I a Ra f) (hg : Frame m I b Rb g) (hab : a ≠ b) (h1 : ¬ Ra b) (h2 : ¬ Rb a) {s s1 s2 : Exps K A} (hs : I s)
    (e1 : f s = .ok s1) (e2 : g s1 = .ok s2) : ∃ s1', g s = .ok s1' ∧ f s1' = .ok s2 := by
  obtain ⟨i1, t1, o1, w1, r1⟩ := hf s s1 hs e1
  obtain ⟨i2, t2, o2, w2, r2⟩ := hg s1 s2 i1 e2
  have q1 : upd m s1 a (fld m s a) = s := by
    refine ext_fld (m := m) (by rw [upd_t, t1]) ?_ (by rw [upd_other, o1])
    rw [upd_fld]
    funext x
    by_cases hx : x = a
    · subst hx; rw [Function.update_self]
    · rw [Function.update_of_ne hx, w1 x hx]
  have e3 := r2 a (fld m s a) hab h2
  rw [q1] at e3
  refine ⟨_, e3, ?_⟩
  have q2 : upd m s2 a (fld m s a) = upd m s b (fld m s2 b) := by
    refine ext_fld (m := m) (by rw [upd_t, upd_t, t2, t1]) ?_ (by rw [upd_other, upd_other, o2, o1])
    rw [upd_fld, upd_fld]
    funext x
    by_cases hx : x = a
    · subst hx; rw [Function.update_self, Function.update_of_ne hab]
    · rw [Function.update_of_ne hx]
      by_cases hy : x = b
      · subst hy; rw [Function.update_self]
      · rw [Function.update_of_ne hy, w2 x hy, w1 x hx]
  rw [q2, r1 b (fld m s2 b) hab.symm h1]
  congr 1
  refine ext_fld (m := m) (by rw [upd_t, t2]) ?_ (by rw [upd_other, o2])
  rw [upd_fld]
  funext x
  by_cases hy : x = b
  · subst hy; rw [Function.update_self]
  · rw [Function.update_of_ne hy, w2 x hy]

/-- Composition. -/
theorem Frame.bind {m : Bool} {I : Exps K A → Prop} {a : A} {Ra : A → Prop} {f g : Exps K A → Outcome (Exps K A)}
    (hf : Frame m I a Ra f) (hg : Frame m I a Ra g) : Frame m I a Ra (fun s => f s >>= g) := by
  intro s s2 hs e
  obtain ⟨s1, e1, e2⟩ := bok e
  obtain ⟨i1, t1, o1, w1, r1⟩ := hf s s1 hs e1
  obtain ⟨i2, t2, o2, w2, r2⟩ := hg s1 s2 i1 e2
  refine ⟨i2, t2.trans t1, o2.trans o1, fun x hx => (w2 x hx).trans (w1 x hx), fun b o hb hR => ?_⟩
  dsimp only
  rw [r1 b o hb hR, ok_bind, r2 b o hb hR]

theorem Frame.mono {m : Bool} {I : Exps K A → Prop} {a : A} {R R' : A → Prop} {f : Exps K A → Outcome (Exps K A)}
    (hf : Frame m I a R f) (h : ∀ b, R b → R' b) : Frame m I a R' f := by
  intro s s' hs e
  obtain ⟨i1, t1, o1, w1, r1⟩ := hf s s' hs e
  exact ⟨i1, t1, o1, w1, fun b o hb hR => r1 b o hb fun h' => hR (h b h')⟩

theorem Frame.ok {m : Bool} {I : Exps K A → Prop} {a : A} {R : A → Prop} : Frame m I a R (fun s => .ok s) := by
  intro s s' hs e
  cases e
  exact ⟨hs, rfl, rfl, fun _ _ => rfl, fun _ _ _ _ => rfl⟩

theorem Frame.foldlM {B : Type} {m : Bool} {I : Exps K A → Prop} {a : A} {R : A → Prop} {f : Exps K A → B → Outcome (Exps K A)} (l : List B)
    (hf : ∀ b ∈ l, Frame m I a R (fun s => f s b)) : Frame m I a R (fun s => l.foldlM f s) := by
  induction l with
  | nil => exact Frame.ok
  | cons b l ih =>
    have h := (hf b (List.mem_cons_self ..)).bind (ih fun c hc => hf c (List.mem_cons_of_mem _ hc))
    intro s s' hs e
    have e' : ∀ s, (b :: l).foldlM f s = (f s b >>= fun s => l.foldlM f s) := fun s => List.foldlM_cons ..
    dsimp only at e
    rw [e'] at e
    obtain ⟨i1, t1, o1, w1, r1⟩ := h s s' hs e
    refine ⟨i1, t1, o1, w1, fun b' o hb hR => ?_⟩
    dsimp only
    rw [e']
    exact r1 b' o hb hR

theorem forEach_cons (body : A → Exps K A → Outcome (Exps K A)) (a : A) (l : List A) (s : Exps K A) :
    forEach body (a :: l) s = (body a s >>= forEach body l) := by
  unfold forEach; rw [List.foldlM_cons]

/-- A loop keeps the invariant. -/
theorem forEach_keep {m : Bool} {I : Exps K A → Prop} {R : A → A → Prop} {body : A → Exps K A → Outcome (Exps K A)} (l : List A)
    (hf : ∀ a ∈ l, Frame m I a (R a) (body a)) {s s' : Exps K A} (hs : I s) (e : forEach body l s = .ok s') : I s' :=
  Rounded.foldlM_inv' I _ l (fun s hs a ha s' e => (hf a ha s s' hs e).1) s s' hs e

/-- The order of the iterations does not matter. -/
theorem forEach_perm {m : Bool} {I : Exps K A → Prop} {R : A → A → Prop} {body : A → Exps K A → Outcome (Exps K A)} {l l' : List A} (hp : l.Perm l')
    (hf : ∀ a ∈ l, Frame m I a (R a) (body a)) (hR : ∀ a ∈ l, ∀ b ∈ l, ¬ R a b) :
    ∀ {s s' : Exps K A}, I s → forEach body l s = .ok s' → forEach body l' s = .ok s' := by
  induction hp with
  | nil => intro s s' _ e; exact e
  | @cons a l l' hp ih =>
    intro s s' hs e
    rw [forEach_cons] at e ⊢
    obtain ⟨s1, e1, e2⟩ := bok e
    rw [e1, ok_bind]
    exact ih (fun b hb => hf b (List.mem_cons_of_mem _ hb)) (fun x hx y hy => hR x (List.mem_cons_of_mem _ hx) y (List.mem_cons_of_mem _ hy))
      (hf a (List.mem_cons_self ..) s s1 hs e1).1 e2
  | @swap a b l =>
    intro s s' hs e
    by_cases hab : a = b
    · subst hab; exact e
    · have ha : a ∈ b :: a :: l := by simp
      have hb : b ∈ b :: a :: l := by simp
      rw [forEach_cons] at e
      obtain ⟨s1, e1, e⟩ := bok e
      rw [forEach_cons] at e
      obtain ⟨s2, e2, e⟩ := bok e
      obtain ⟨s1', k1, k2⟩ := (hf b hb).comm (hf a ha) (Ne.symm hab) (hR b hb a ha) (hR a ha b hb) hs e1 e2
      rw [forEach_cons, k1, ok_bind, forEach_cons, k2, ok_bind]
      exact e
  | @trans l l' l'' hp hp' ih ih' =>
    intro s s' hs e
    exact ih' (fun a ha => hf a (hp.mem_iff.mpr ha)) (fun a ha b hb => hR a (hp.mem_iff.mpr ha) b (hp.mem_iff.mpr hb)) hs (ih hf hR hs e)

/-- A sequence of loops under two schedules. -/
theorem runLoops_perm {m : Bool} {I : Exps K A → Prop} {R : A → A → Prop} {body : A → Exps K A → Outcome (Exps K A)}
    (hf : ∀ a, Frame m I a (R a) (body a)) {sch sch' : ℕ → List A → List A} (h1 : Schedule sch) (h2 : Schedule sch') :
    ∀ (ls : List (List A)) (k : ℕ), (∀ l ∈ ls, ∀ a ∈ l, ∀ b ∈ l, ¬ R a b) → ∀ {s s' : Exps K A}, I s → runLoops body sch k ls s = .ok s' →
      I s' ∧ runLoops body sch' k ls s = .ok s'
  | [], k, _, s, s', hs, e => by
    cases e
    exact ⟨hs, rfl⟩
  | l :: ls, k, hR, s, s', hs, e => by
    unfold runLoops at e ⊢
    obtain ⟨s1, e1, e⟩ := bok e
    have hl := hR l (List.mem_cons_self ..)
    have p1 : (sch k l).Perm (sch' k l) := (h1 k l).trans (h2 k l).symm
    have e2 := forEach_perm p1 (fun a _ => hf a) (fun a ha b hb => hl a ((h1 k l).mem_iff.mp ha) b ((h1 k l).mem_iff.mp hb)) hs e1
    rw [e2, ok_bind]
    exact runLoops_perm hf h1 h2 ls (k + 1) (fun l' hl' => hR l' (List.mem_cons_of_mem _ hl')) (forEach_keep _ (fun a _ => hf a) hs e1) e

/-! ## The bodies of the loops -/

/-- The static tables are large enough for expansions of order `p`: no operation on such expansions changes them. -/
structure Settles (K : Kit d) (p : ℕ) where
  settled : K.T → Prop
  ord : K.E → Prop
  empty : ord K.empty
  leNew : ∀ {t c t' e}, K.leNew t c p = .ok (t', e) → settled t' ∧ ord e
  meSrc : ∀ {t c S t' e}, settled t → K.meSrc t c p S = .ok (t', e) → t' = t ∧ ord e
  meMes : ∀ {t c es t' e}, settled t → (∀ x ∈ es, ord x) → K.meMes t c es = .ok (t', e) → t' = t ∧ ord e
  leSrc : ∀ {t c S t' e}, settled t → K.leSrc t c p S = .ok (t', e) → t' = t ∧ ord e
  leMes : ∀ {t c es t' e}, settled t → (∀ x ∈ es, ord x) → K.leMes t c es = .ok (t', e) → t' = t ∧ ord e
  leLe : ∀ {t c e0 t' e}, settled t → ord e0 → K.leLe t c e0 = .ok (t', e) → t' = t ∧ ord e
  addEq : ∀ {e f g}, ord e → ord f → K.addEq e f = .ok g → ord g

variable {p : ℕ} (Z : Settles K p)

omit [DecidableEq A] in
/-- All expansions of the tree are of order at most `p`. -/
def Settles.Small (s : Exps K A) : Prop := (∀ a e, s.me a = some e → Z.ord e) ∧ ∀ a e, s.le a = some e → Z.ord e

omit [DecidableEq A] in
/-- The state during the passes. -/
def Settles.Inv (s : Exps K A) : Prop := Z.settled s.t ∧ Z.Small s

variable {Z}

omit [DecidableEq A] in
theorem rdMe_ok {s : Exps K A} {a : A} {e : K.E} (h : s.rdMe a = .ok e) : s.me a = some e := by
  unfold Exps.rdMe at h
  cases h' : s.me a with
  | none => rw [h'] at h; cases h
  | some x => rw [h'] at h; cases h; rfl

omit [DecidableEq A] in
theorem rdLe_ok {s : Exps K A} {a : A} {e : K.E} (h : s.rdLe a = .ok e) : s.le a = some e := by
  unfold Exps.rdLe at h
  cases h' : s.le a with
  | none => rw [h'] at h; cases h
  | some x => rw [h'] at h; cases h; rfl

theorem Settles.Small.setMe {s : Exps K A} (h : Z.Small s) (a : A) {e : K.E} (he : Z.ord e) : Z.Small (s.setMe a e) := by
  refine ⟨fun b x hx => ?_, h.2⟩
  unfold Exps.setMe at hx
  by_cases hb : b = a
  · subst hb
    simp only [Function.update_self, Option.some.injEq] at hx
    subst hx
    exact he
  · simp only [Function.update_of_ne hb] at hx
    exact h.1 b x hx

theorem Settles.Small.setLe {s : Exps K A} (h : Z.Small s) (a : A) {e : K.E} (he : Z.ord e) : Z.Small (s.setLe a e) := by
  refine ⟨h.1, fun b x hx => ?_⟩
  unfold Exps.setLe at hx
  by_cases hb : b = a
  · subst hb
    simp only [Function.update_self, Option.some.injEq] at hx
    subst hx
    exact he
  · simp only [Function.update_of_ne hb] at hx
    exact h.2 b x hx

/-- A write of the multipole expansion of `a`. -/
theorem frame_setMe {s : Exps K A} (hs : Z.Inv s) {a : A} {e : K.E} (he : Z.ord e) :
    Z.Inv (s.setMe a e) ∧ (s.setMe a e).t = s.t ∧ fld (!true) (s.setMe a e) = fld (!true) s ∧
      (∀ x, x ≠ a → fld true (s.setMe a e) x = fld true s x) ∧ ∀ b o, b ≠ a → (upd true s b o).setMe a e = upd true (s.setMe a e) b o := by
  refine ⟨⟨hs.1, hs.2.setMe a he⟩, rfl, rfl, fun x hx => ?_, fun b o hb => ?_⟩
  · show Function.update s.me a (some e) x = s.me x
    rw [Function.update_of_ne hx]
  · refine Exps.ext rfl ?_ rfl
    show Function.update (Function.update s.me b o) a (some e) = Function.update (Function.update s.me a (some e)) b o
    rw [Function.update_comm hb]

/-- A write of the local expansion of `a`. -/
theorem frame_setLe {s : Exps K A} (hs : Z.Inv s) {a : A} {e : K.E} (he : Z.ord e) :
    Z.Inv (s.setLe a e) ∧ (s.setLe a e).t = s.t ∧ fld (!false) (s.setLe a e) = fld (!false) s ∧
      (∀ x, x ≠ a → fld false (s.setLe a e) x = fld false s x) ∧ ∀ b o, b ≠ a → (upd false s b o).setLe a e = upd false (s.setLe a e) b o := by
  refine ⟨⟨hs.1, hs.2.setLe a he⟩, rfl, rfl, fun x hx => ?_, fun b o hb => ?_⟩
  · show Function.update s.le a (some e) x = s.le x
    rw [Function.update_of_ne hx]
  · refine Exps.ext rfl rfl ?_
    show Function.update (Function.update s.le b o) a (some e) = Function.update (Function.update s.le a (some e)) b o
    rw [Function.update_comm hb]

variable (sh : Shape d A)

/-- The nodes whose multipole expansions `nodeME` reads. -/
def IsChild (a b : A) : Prop := ∃ n, sh a = .ok n ∧ some b ∈ n.children

/-- The node whose local expansion `localToLocal` reads. -/
def IsParent (a b : A) : Prop := ∃ n, sh a = .ok n ∧ n.parent = some b

theorem leafME_frame (a : A) : Frame true Z.Inv a (fun _ => False) (leafME K sh p a) := by
  intro s s' hs e
  unfold leafME at e
  obtain ⟨n, h1, e⟩ := bok e
  obtain ⟨src, h2, e⟩ := bok e
  obtain ⟨⟨t, x⟩, h3, e⟩ := bok e
  obtain ⟨rfl, hx⟩ := Z.meSrc hs.1 h3
  obtain rfl := (Except.ok.inj e).symm
  obtain ⟨q1, q2, q3, q4, q5⟩ := frame_setMe (Z := Z) hs (a := a) hx
  refine ⟨q1, q2, q3, q4, fun b o hb _ => ?_⟩
  unfold leafME
  rw [h1, ok_bind, h2, ok_bind, upd_t, h3, ok_bind]
  exact congrArg _ (q5 b o hb)

omit [DecidableEq A] in
theorem mapM_all {B C : Type} {f : B → Outcome C} {P : C → Prop} : ∀ (l : List B) {r : List C}, (∀ b ∈ l, ∀ c, f b = .ok c → P c) →
    l.mapM f = .ok r → ∀ c ∈ r, P c
  | [], r, _, e => by
    rw [List.mapM_nil] at e
    cases e
    intro c hc
    cases hc
  | b :: l, r, h, e => by
    rw [List.mapM_cons] at e
    obtain ⟨c, e1, e⟩ := bok e
    obtain ⟨cs, e2, e⟩ := bok e
    cases e
    intro x hx
    rcases List.mem_cons.mp hx with rfl | hx
    · exact h b (List.mem_cons_self ..) _ e1
    · exact mapM_all l (fun b hb => h b (List.mem_cons_of_mem _ hb)) e2 x hx

omit [DecidableEq A] in
theorem mapM_congr' {B C : Type} {f g : B → Outcome C} : ∀ (l : List B), (∀ b ∈ l, f b = g b) → l.mapM f = l.mapM g
  | [], _ => rfl
  | b :: l, h => by
    rw [List.mapM_cons, List.mapM_cons, h b (List.mem_cons_self ..), mapM_congr' l fun b hb => h b (List.mem_cons_of_mem _ hb)]

theorem nodeME_frame (a : A) : Frame true Z.Inv a (IsChild sh a) (nodeME K sh a) := by
  intro s s' hs e
  unfold nodeME at e
  obtain ⟨n, h1, e⟩ := bok e
  obtain ⟨es, h2, e⟩ := bok e
  obtain ⟨⟨t, x⟩, h3, e⟩ := bok e
  have hes : ∀ x ∈ es, Z.ord x := by
    refine mapM_all _ (fun c _ y hy => ?_) h2
    cases c with
    | none => cases hy
    | some c => exact hs.2.1 c y (rdMe_ok hy)
  obtain ⟨rfl, hx⟩ := Z.meMes hs.1 hes h3
  obtain rfl := (Except.ok.inj e).symm
  obtain ⟨q1, q2, q3, q4, q5⟩ := frame_setMe (Z := Z) hs (a := a) hx
  refine ⟨q1, q2, q3, q4, fun b o hb hR => ?_⟩
  unfold nodeME
  rw [h1, ok_bind]
  have : n.children.mapM (childME (upd true s b o)) = n.children.mapM (childME s) := by
    refine mapM_congr' _ fun c hc => ?_
    cases c with
    | none => rfl
    | some c =>
      have hcb : c ≠ b := fun h => hR ⟨n, h1, h ▸ hc⟩
      show (upd true s b o).rdMe c = s.rdMe c
      unfold Exps.rdMe
      have : (upd true s b o).me c = s.me c := Function.update_of_ne hcb ..
      rw [this]
  rw [this, h2, ok_bind, upd_t, h3, ok_bind]
  exact congrArg _ (q5 b o hb)

theorem rdLe_upd {s : Exps K A} {a b : A} {o : Option K.E} (h : a ≠ b) : (upd false s b o).rdLe a = s.rdLe a := by
  unfold Exps.rdLe
  have : (upd false s b o).le a = s.le a := Function.update_of_ne h ..
  rw [this]

theorem localToLocal_frame (a : A) : Frame false Z.Inv a (IsParent sh a) (localToLocal K sh a) := by
  intro s s' hs e
  unfold localToLocal at e
  obtain ⟨n, h1, e⟩ := bok e
  cases hp : n.parent with
  | none => rw [hp] at e; cases e
  | some q =>
    rw [hp] at e
    dsimp only at e
    obtain ⟨pe, h2, e⟩ := bok e
    by_cases c : K.size pe = 0
    · rw [if_pos c] at e; cases e
    · rw [if_neg c] at e
      obtain ⟨⟨t, x⟩, h3, e⟩ := bok e
      obtain ⟨cur, h4, e⟩ := bok e
      obtain ⟨y, h5, e⟩ := bok e
      obtain ⟨rfl, hx⟩ := Z.leLe hs.1 (hs.2.2 _ _ (rdLe_ok h2)) h3
      have hy := Z.addEq (hs.2.2 _ _ (rdLe_ok h4)) hx h5
      obtain rfl := (Except.ok.inj e).symm
      obtain ⟨q1, q2, q3, q4, q5⟩ := frame_setLe (Z := Z) hs (a := a) hy
      refine ⟨q1, q2, q3, q4, fun b o hb hR => ?_⟩
      have hqb : q ≠ b := fun h => hR ⟨n, h1, h ▸ hp⟩
      unfold localToLocal
      rw [h1, ok_bind, hp]
      dsimp only
      rw [rdLe_upd hqb, h2, ok_bind, if_neg c, upd_t, h3, ok_bind]
      dsimp only
      rw [rdLe_upd (Ne.symm hb), h4, ok_bind, h5, ok_bind]
      exact congrArg _ (q5 b o hb)

theorem multipoleToLocal_frame (a : A) : Frame false Z.Inv a (fun _ => False) (multipoleToLocal K sh a) := by
  intro s s' hs e
  unfold multipoleToLocal at e
  obtain ⟨n, h1, e⟩ := bok e
  obtain ⟨es, h2, e⟩ := bok e
  have hes : ∀ x ∈ es, Z.ord x := mapM_all _ (fun c _ y hy => hs.2.1 c y (rdMe_ok hy)) h2
  have hm : ∀ b o, (upd false s b o).rdMe = s.rdMe := fun b o => rfl
  by_cases c : es.length > 0
  · rw [if_pos c] at e
    obtain ⟨⟨t, x⟩, h3, e⟩ := bok e
    obtain ⟨cur, h4, e⟩ := bok e
    obtain ⟨y, h5, e⟩ := bok e
    obtain ⟨rfl, hx⟩ := Z.leMes hs.1 hes h3
    have hy := Z.addEq (hs.2.2 _ _ (rdLe_ok h4)) hx h5
    obtain rfl := (Except.ok.inj e).symm
    obtain ⟨q1, q2, q3, q4, q5⟩ := frame_setLe (Z := Z) hs (a := a) hy
    refine ⟨q1, q2, q3, q4, fun b o hb hR => ?_⟩
    unfold multipoleToLocal
    rw [h1, ok_bind, hm, h2, ok_bind, if_pos c, upd_t, h3, ok_bind]
    dsimp only
    rw [rdLe_upd (Ne.symm hb), h4, ok_bind, h5, ok_bind]
    exact congrArg _ (q5 b o hb)
  · rw [if_neg c] at e
    obtain rfl := (Except.ok.inj e).symm
    refine ⟨hs, rfl, rfl, fun _ _ => rfl, fun b o hb hR => ?_⟩
    unfold multipoleToLocal
    rw [h1, ok_bind, hm, h2, ok_bind, if_neg c]

theorem sourceToLocalStep_frame (center : Vec d) (a x : A) : Frame false Z.Inv a (fun _ => False) (fun s => sourceToLocalStep K sh p center a s x) := by
  intro s s' hs e
  dsimp only at e
  unfold sourceToLocalStep at e
  obtain ⟨n, h1, e⟩ := bok e
  obtain ⟨src, h2, e⟩ := bok e
  obtain ⟨⟨t, z⟩, h3, e⟩ := bok e
  obtain ⟨cur, h4, e⟩ := bok e
  obtain ⟨y, h5, e⟩ := bok e
  obtain ⟨rfl, hx⟩ := Z.leSrc hs.1 h3
  have hy := Z.addEq (hs.2.2 _ _ (rdLe_ok h4)) hx h5
  obtain rfl := (Except.ok.inj e).symm
  obtain ⟨q1, q2, q3, q4, q5⟩ := frame_setLe (Z := Z) hs (a := a) hy
  refine ⟨q1, q2, q3, q4, fun b o hb hR => ?_⟩
  dsimp only
  unfold sourceToLocalStep
  rw [h1, ok_bind, h2, ok_bind, upd_t, h3, ok_bind]
  dsimp only
  rw [rdLe_upd (Ne.symm hb), h4, ok_bind, h5, ok_bind]
  exact congrArg _ (q5 b o hb)

theorem sourceToLocal_frame (a : A) : Frame false Z.Inv a (fun _ => False) (sourceToLocal K sh p a) := by
  intro s s' hs e
  unfold sourceToLocal at e
  obtain ⟨n, h1, e⟩ := bok e
  obtain ⟨i1, t1, o1, w1, r1⟩ := Frame.foldlM n.X (fun x _ => sourceToLocalStep_frame (Z := Z) sh n.center a x) s s' hs e
  refine ⟨i1, t1, o1, w1, fun b o hb hR => ?_⟩
  unfold sourceToLocal
  rw [h1, ok_bind]
  exact r1 b o hb hR

theorem balancedLE_frame (a : A) : Frame false Z.Inv a (IsParent sh a) (balancedLE K sh a) :=
  (localToLocal_frame sh a).bind ((multipoleToLocal_frame sh a).mono fun _ h => h.elim)

theorem constructLE_frame (a : A) : Frame false Z.Inv a (IsParent sh a) (constructLE K sh p a) :=
  (localToLocal_frame sh a).bind (Frame.bind ((multipoleToLocal_frame sh a).mono fun _ h => h.elim)
    ((sourceToLocal_frame sh a).mono fun _ h => h.elim))

variable {sh}

/-- The passes under two schedules. -/
theorem passes_perm {leBody : A → Exps K A → Outcome (Exps K A)} (hle : ∀ a, Frame false Z.Inv a (IsParent sh a) (leBody a))
    {sch sch' : ℕ → List A → List A} (h1 : Schedule sch) (h2 : Schedule sch') {leafLoops upLoops downLoops : List (List A)}
    (hup : ∀ l ∈ upLoops, ∀ a ∈ l, ∀ b ∈ l, ¬ IsChild sh a b) (hdown : ∀ l ∈ downLoops, ∀ a ∈ l, ∀ b ∈ l, ¬ IsParent sh a b)
    {s s' : Exps K A} (hs : Z.Inv s) (e : passes K sh p leBody sch leafLoops upLoops downLoops s = .ok s') :
    passes K sh p leBody sch' leafLoops upLoops downLoops s = .ok s' := by
  unfold passes at e ⊢
  obtain ⟨s1, e1, e⟩ := bok e
  obtain ⟨s2, e2, e3⟩ := bok e
  obtain ⟨i1, k1⟩ := runLoops_perm (R := fun _ _ => False) (fun a => leafME_frame (Z := Z) sh a) h1 h2 leafLoops 0 (fun _ _ _ _ _ _ h => h) hs e1
  obtain ⟨i2, k2⟩ := runLoops_perm (fun a => nodeME_frame (Z := Z) sh a) h1 h2 upLoops leafLoops.length hup i1 e2
  obtain ⟨-, k3⟩ := runLoops_perm hle h1 h2 downLoops (leafLoops.length + upLoops.length) hdown i2 e3
  rw [k1, ok_bind, k2, ok_bind, k3]

/-- The state after the construction of the nodes. -/
theorem init_inv {l : List A} (hl : l ≠ []) {t : K.T} {s : Exps K A}
    (e : forEach (initNode K sh p) l ⟨t, fun _ => none, fun _ => none⟩ = .ok s) : Z.Inv s := by
  have step : ∀ (a : A) (s s' : Exps K A), Z.Small s → initNode K sh p a s = .ok s' → Z.Inv s' := by
    intro a s s' hs e
    unfold initNode at e
    obtain ⟨n, h1, e⟩ := bok e
    obtain ⟨⟨t, x⟩, h2, e⟩ := bok e
    obtain ⟨k1, k2⟩ := Z.leNew h2
    obtain rfl := (Except.ok.inj e).symm
    have h0 : Z.Small ({ s with t := t } : Exps K A) := hs
    exact ⟨k1, (h0.setMe a Z.empty).setLe a k2⟩
  cases l with
  | nil => exact absurd rfl hl
  | cons a l =>
    rw [forEach_cons] at e
    obtain ⟨s1, e1, e2⟩ := bok e
    have i1 := step a _ s1 ⟨fun _ _ h => (by cases h), fun _ _ h => (by cases h)⟩ e1
    exact Rounded.foldlM_inv' Z.Inv _ l (fun s hs a _ s' e => step a s s' hs.2 e) s1 s i1 e2

end
end FMM.Repro
