import Verif.RoundedFmm

/-!
# The same tree with two arithmetics of the expansions

If every operation of a kit `K` that succeeds has a counterpart in `K'`, a run of the constructor or of an evaluation function with `K` has a
counterpart with `K'`.
-/

namespace FMM

theorem bindOk {α β : Type} {x : Outcome α} {f : α → Outcome β} {b : β} (h : (x >>= f) = .ok b) : ∃ a, x = .ok a ∧ f a = .ok b := by
  cases x with
  | error e => cases h
  | ok a => exact ⟨a, rfl, h⟩

/-- `K'` follows `K`, for expansions of order `p` about centres with property `C` and for sources with property `S`. -/
structure KitSim {d : ℕ} (K K' : Kit d) (p : ℕ) (C : Vec d → Prop) (S : Source d → Prop) where
  RT : K.T → K'.T → Prop
  RM : K.E → K'.E → Prop
  RL : K.E → K'.E → Prop
  empty : RM K.empty K'.empty
  size : ∀ {e e'}, RL e e' → K.size e = K'.size e'
  leNew : ∀ {t t' c t1 e}, RT t t' → C c → K.leNew t c p = .ok (t1, e) → ∃ t1' e', K'.leNew t' c p = .ok (t1', e') ∧ RT t1 t1' ∧ RL e e'
  meSrc : ∀ {t t' c src t1 e}, RT t t' → C c → (∀ s ∈ src, S s) → K.meSrc t c p src = .ok (t1, e) →
    ∃ t1' e', K'.meSrc t' c p src = .ok (t1', e') ∧ RT t1 t1' ∧ RM e e'
  leSrc : ∀ {t t' c src t1 e}, RT t t' → C c → (∀ s ∈ src, S s) → K.leSrc t c p src = .ok (t1, e) →
    ∃ t1' e', K'.leSrc t' c p src = .ok (t1', e') ∧ RT t1 t1' ∧ RL e e'
  meMes : ∀ {t t' c es es' t1 e}, RT t t' → C c → List.Forall₂ RM es es' → K.meMes t c es = .ok (t1, e) →
    ∃ t1' e', K'.meMes t' c es' = .ok (t1', e') ∧ RT t1 t1' ∧ RM e e'
  leMes : ∀ {t t' c es es' t1 e}, RT t t' → C c → List.Forall₂ RM es es' → K.leMes t c es = .ok (t1, e) →
    ∃ t1' e', K'.leMes t' c es' = .ok (t1', e') ∧ RT t1 t1' ∧ RL e e'
  leLe : ∀ {t t' c f f' t1 e}, RT t t' → C c → RL f f' → K.leLe t c f = .ok (t1, e) →
    ∃ t1' e', K'.leLe t' c f' = .ok (t1', e') ∧ RT t1 t1' ∧ RL e e'
  addEq : ∀ {e e' f f' g}, RL e e' → RL f f' → K.addEq e f = .ok g → ∃ g', K'.addEq e' f' = .ok g' ∧ RL g g'

/-- The observable `O'` follows `O`, for evaluation points with property `X`. -/
structure ObsSim {d : ℕ} {K K' : Kit d} {p : ℕ} {C : Vec d → Prop} {S : Source d → Prop} (M : KitSim K K' p C S) {V V' : Type} (O : Obs K V)
    (O' : Obs K' V') (X : Vec d → Prop) where
  RV : V → V' → Prop
  le : ∀ {e e' x v}, M.RL e e' → X x → O.le e x = .ok v → ∃ v', O'.le e' x = .ok v' ∧ RV v v'
  me : ∀ {e e' x v}, M.RM e e' → X x → O.me e x = .ok v → ∃ v', O'.me e' x = .ok v' ∧ RV v v'
  sum : ∀ {grav safe src x v}, (∀ s ∈ src, S s) → X x → O.sum grav safe src x = .ok v → ∃ v', O'.sum grav safe src x = .ok v' ∧ RV v v'

namespace KitSim
variable {d : ℕ} {K K' : Kit d} {p : ℕ} {C : Vec d → Prop} {S : Source d → Prop} (M : KitSim K K' p C S) {A : Type}

/-- Tables and expansions of all nodes. -/
structure St (s : Exps K A) (s' : Exps K' A) : Prop where
  t : M.RT s.t s'.t
  me : ∀ a e, s.me a = some e → ∃ e', s'.me a = some e' ∧ M.RM e e'
  le : ∀ a e, s.le a = some e → ∃ e', s'.le a = some e' ∧ M.RL e e'

/-- Centres and sources of a tree. -/
def Sh (C : Vec d → Prop) (S : Source d → Prop) (sh : Shape d A) : Prop :=
  ∀ a n, sh a = .ok n → C n.center ∧ ∀ src, n.sources = .ok src → ∀ s ∈ src, S s

/-- A step of a pass. -/
def Body (f : Exps K A → Outcome (Exps K A)) (f' : Exps K' A → Outcome (Exps K' A)) : Prop :=
  ∀ s s' s1, M.St s s' → f s = .ok s1 → ∃ s1', f' s' = .ok s1' ∧ M.St s1 s1'

variable {M}

theorem rdMe {s : Exps K A} {s' : Exps K' A} (h : M.St s s') {a : A} {e : K.E} (he : s.rdMe a = .ok e) : ∃ e', s'.rdMe a = .ok e' ∧ M.RM e e' := by
  unfold Exps.rdMe at he
  cases hm : s.me a with
  | none => rw [hm] at he; cases he
  | some f =>
    rw [hm] at he
    injection he with he
    subst he
    obtain ⟨e', h1, h2⟩ := h.me a f hm
    exact ⟨e', by unfold Exps.rdMe; rw [h1], h2⟩

theorem rdLe {s : Exps K A} {s' : Exps K' A} (h : M.St s s') {a : A} {e : K.E} (he : s.rdLe a = .ok e) : ∃ e', s'.rdLe a = .ok e' ∧ M.RL e e' := by
  unfold Exps.rdLe at he
  cases hm : s.le a with
  | none => rw [hm] at he; cases he
  | some f =>
    rw [hm] at he
    injection he with he
    subst he
    obtain ⟨e', h1, h2⟩ := h.le a f hm
    exact ⟨e', by unfold Exps.rdLe; rw [h1], h2⟩

theorem mapM {α : Type} {f : α → Outcome K.E} {f' : α → Outcome K'.E} (h : ∀ a e, f a = .ok e → ∃ e', f' a = .ok e' ∧ M.RM e e') :
    ∀ (l : List α) {es}, l.mapM f = .ok es → ∃ es', l.mapM f' = .ok es' ∧ List.Forall₂ M.RM es es'
  | [], es, he => by
    rw [List.mapM_nil] at he
    injection he with he
    subst he
    exact ⟨[], List.mapM_nil, .nil⟩
  | a :: l, es, he => by
    rw [List.mapM_cons] at he
    obtain ⟨e, h1, he⟩ := bindOk he
    obtain ⟨es1, h2, he⟩ := bindOk he
    injection he with he
    subst he
    obtain ⟨e', k1, k2⟩ := h a e h1
    obtain ⟨es', k3, k4⟩ := mapM h l h2
    exact ⟨e' :: es', by rw [List.mapM_cons, k1, ok_bind, k3, ok_bind]; rfl, .cons k2 k4⟩

theorem St.tab {s : Exps K A} {s' : Exps K' A} (h : M.St s s') {t : K.T} {t' : K'.T} (ht : M.RT t t') : M.St { s with t := t } { s' with t := t' } :=
  ⟨ht, h.me, h.le⟩

variable [DecidableEq A]

theorem St.setMe {s : Exps K A} {s' : Exps K' A} (h : M.St s s') (a : A) {e : K.E} {e' : K'.E} (he : M.RM e e') : M.St (s.setMe a e) (s'.setMe a e') := by
  refine ⟨h.t, fun b f hf => ?_, h.le⟩
  by_cases hb : b = a
  · subst hb
    simp only [Exps.setMe, Function.update_self, Option.some.injEq] at hf ⊢
    subst hf
    exact ⟨e', rfl, he⟩
  · simp only [Exps.setMe, Function.update_of_ne hb] at hf ⊢
    exact h.me b f hf

theorem St.setLe {s : Exps K A} {s' : Exps K' A} (h : M.St s s') (a : A) {e : K.E} {e' : K'.E} (he : M.RL e e') : M.St (s.setLe a e) (s'.setLe a e') := by
  refine ⟨h.t, h.me, fun b f hf => ?_⟩
  by_cases hb : b = a
  · subst hb
    simp only [Exps.setLe, Function.update_self, Option.some.injEq] at hf ⊢
    subst hf
    exact ⟨e', rfl, he⟩
  · simp only [Exps.setLe, Function.update_of_ne hb] at hf ⊢
    exact h.le b f hf

theorem initNode {sh : Shape d A} (hsh : Sh C S sh) (a : A) : M.Body (initNode K sh p a) (initNode K' sh p a) := by
  intro s s' s1 h hs
  unfold FMM.initNode at hs ⊢
  obtain ⟨n, h1, hs⟩ := bindOk hs
  obtain ⟨⟨t, e⟩, h2, hs⟩ := bindOk hs
  injection hs with hs
  subst hs
  obtain ⟨t', e', k1, k2, k3⟩ := M.leNew h.t (hsh a n h1).1 h2
  refine ⟨_, by rw [h1, ok_bind, k1, ok_bind], ?_⟩
  exact ((h.tab k2).setMe a M.empty).setLe a k3

theorem leafME {sh : Shape d A} (hsh : Sh C S sh) (a : A) : M.Body (leafME K sh p a) (leafME K' sh p a) := by
  intro s s' s1 h hs
  unfold FMM.leafME at hs ⊢
  obtain ⟨n, h1, hs⟩ := bindOk hs
  obtain ⟨src, h0, hs⟩ := bindOk hs
  obtain ⟨⟨t, e⟩, h2, hs⟩ := bindOk hs
  injection hs with hs
  subst hs
  obtain ⟨t', e', k1, k2, k3⟩ := M.meSrc h.t (hsh a n h1).1 ((hsh a n h1).2 src h0) h2
  refine ⟨_, by rw [h1, ok_bind, h0, ok_bind, k1, ok_bind], ?_⟩
  exact (h.tab k2).setMe a k3

theorem nodeME {sh : Shape d A} (hsh : Sh C S sh) (a : A) : M.Body (nodeME K sh a) (nodeME K' sh a) := by
  intro s s' s1 h hs
  unfold FMM.nodeME at hs ⊢
  obtain ⟨n, h1, hs⟩ := bindOk hs
  obtain ⟨es, h0, hs⟩ := bindOk hs
  obtain ⟨⟨t, e⟩, h2, hs⟩ := bindOk hs
  injection hs with hs
  subst hs
  obtain ⟨es', j1, j2⟩ := mapM (M := M) (f' := childME s') (fun c e hc => by
    cases c with
    | none => cases hc
    | some c => exact rdMe h hc) _ h0
  obtain ⟨t', e', k1, k2, k3⟩ := M.meMes h.t (hsh a n h1).1 j2 h2
  refine ⟨_, by rw [h1, ok_bind, j1, ok_bind, k1, ok_bind], ?_⟩
  exact (h.tab k2).setMe a k3

theorem localToLocal {sh : Shape d A} (hsh : Sh C S sh) (a : A) : M.Body (localToLocal K sh a) (localToLocal K' sh a) := by
  intro s s' s1 h hs
  unfold FMM.localToLocal at hs ⊢
  obtain ⟨n, h1, hs⟩ := bindOk hs
  rw [h1, ok_bind]
  cases hp : n.parent with
  | none => rw [hp] at hs; cases hs
  | some q =>
    rw [hp] at hs
    dsimp only at hs ⊢
    obtain ⟨pe, h0, hs⟩ := bindOk hs
    obtain ⟨pe', j1, j2⟩ := rdLe h h0
    by_cases hz : K.size pe = 0
    · rw [if_pos hz] at hs; cases hs
    rw [if_neg hz] at hs
    obtain ⟨⟨t, e⟩, h2, hs⟩ := bindOk hs
    obtain ⟨cur, h3, hs⟩ := bindOk hs
    obtain ⟨g, h4, hs⟩ := bindOk hs
    injection hs with hs
    subst hs
    obtain ⟨t', e', k1, k2, k3⟩ := M.leLe h.t (hsh a n h1).1 j2 h2
    obtain ⟨cur', k4, k5⟩ := rdLe h h3
    obtain ⟨g', k6, k7⟩ := M.addEq k5 k3 h4
    refine ⟨_, by rw [j1, ok_bind, if_neg (by rw [← M.size j2]; exact hz), k1, ok_bind]; dsimp only; rw [k4, ok_bind, k6, ok_bind], ?_⟩
    exact (h.tab k2).setLe a k7

theorem multipoleToLocal {sh : Shape d A} (hsh : Sh C S sh) (a : A) : M.Body (multipoleToLocal K sh a) (multipoleToLocal K' sh a) := by
  intro s s' s1 h hs
  unfold FMM.multipoleToLocal at hs ⊢
  obtain ⟨n, h1, hs⟩ := bindOk hs
  obtain ⟨es, h0, hs⟩ := bindOk hs
  obtain ⟨es', j1, j2⟩ := mapM (M := M) (f' := s'.rdMe) (fun c e hc => rdMe h hc) _ h0
  rw [h1, ok_bind, j1, ok_bind]
  by_cases hz : es.length > 0
  · rw [if_pos hz] at hs
    rw [if_pos (by rw [← j2.length_eq]; exact hz)]
    obtain ⟨⟨t, e⟩, h2, hs⟩ := bindOk hs
    obtain ⟨cur, h3, hs⟩ := bindOk hs
    obtain ⟨g, h4, hs⟩ := bindOk hs
    injection hs with hs
    subst hs
    obtain ⟨t', e', k1, k2, k3⟩ := M.leMes h.t (hsh a n h1).1 j2 h2
    obtain ⟨cur', k4, k5⟩ := rdLe h h3
    obtain ⟨g', k6, k7⟩ := M.addEq k5 k3 h4
    refine ⟨_, by rw [k1, ok_bind]; dsimp only; rw [k4, ok_bind, k6, ok_bind], ?_⟩
    exact (h.tab k2).setLe a k7
  · rw [if_neg hz] at hs
    rw [if_neg (by rw [← j2.length_eq]; exact hz)]
    injection hs with hs
    subst hs
    exact ⟨s', rfl, h⟩

omit [DecidableEq A] in
theorem foldlM {α : Type} {f : α → Exps K A → Outcome (Exps K A)} {f' : α → Exps K' A → Outcome (Exps K' A)} (h : ∀ a, M.Body (f a) (f' a)) :
    ∀ l : List α, M.Body (fun s => l.foldlM (fun s a => f a s) s) (fun s => l.foldlM (fun s a => f' a s) s)
  | [] => by
    intro s s' s1 hs e
    injection e with e
    subst e
    exact ⟨s', rfl, hs⟩
  | a :: l => by
    intro s s' s1 hs e
    dsimp only at e ⊢
    rw [List.foldlM_cons] at e ⊢
    obtain ⟨s2, e1, e2⟩ := bindOk e
    obtain ⟨s2', k1, k2⟩ := h a s s' s2 hs e1
    rw [k1, ok_bind]
    exact foldlM h l s2 s2' s1 k2 e2

theorem sourceToLocal {sh : Shape d A} (hsh : Sh C S sh) (a : A) : M.Body (sourceToLocal K sh p a) (sourceToLocal K' sh p a) := by
  intro s s' s1 h hs
  unfold FMM.sourceToLocal at hs ⊢
  obtain ⟨n, h1, hs⟩ := bindOk hs
  rw [h1, ok_bind]
  refine foldlM (M := M) (f := fun b s => sourceToLocalStep K sh p n.center a s b) (f' := fun b s => sourceToLocalStep K' sh p n.center a s b)
    ?_ n.X s s' s1 h hs
  intro b s s' s1 h hs
  unfold sourceToLocalStep at hs ⊢
  dsimp only at hs ⊢
  obtain ⟨m, h5, hs⟩ := bindOk hs
  obtain ⟨src, h0, hs⟩ := bindOk hs
  obtain ⟨⟨t, e⟩, h2, hs⟩ := bindOk hs
  obtain ⟨cur, h3, hs⟩ := bindOk hs
  obtain ⟨g, h4, hs⟩ := bindOk hs
  injection hs with hs
  subst hs
  obtain ⟨t', e', k1, k2, k3⟩ := M.leSrc h.t (hsh a n h1).1 ((hsh b m h5).2 src h0) h2
  obtain ⟨cur', k4, k5⟩ := rdLe h h3
  obtain ⟨g', k6, k7⟩ := M.addEq k5 k3 h4
  refine ⟨_, by rw [h5, ok_bind, h0, ok_bind, k1, ok_bind]; dsimp only; rw [k4, ok_bind, k6, ok_bind], ?_⟩
  exact (h.tab k2).setLe a k7

omit [DecidableEq A] in
theorem Body.comp {f g : Exps K A → Outcome (Exps K A)} {f' g' : Exps K' A → Outcome (Exps K' A)} (h : M.Body f f') (h' : M.Body g g') :
    M.Body (fun s => f s >>= g) (fun s => f' s >>= g') := by
  intro s s' s1 hs e
  obtain ⟨s2, e1, e2⟩ := bindOk e
  obtain ⟨s2', k1, k2⟩ := h s s' s2 hs e1
  obtain ⟨s3', k3, k4⟩ := h' s2 s2' s1 k2 e2
  exact ⟨s3', by dsimp only; rw [k1, ok_bind, k3], k4⟩

theorem constructLE {sh : Shape d A} (hsh : Sh C S sh) (a : A) : M.Body (constructLE K sh p a) (constructLE K' sh p a) :=
  (localToLocal hsh a).comp ((multipoleToLocal hsh a).comp (sourceToLocal hsh a))

theorem balancedLE {sh : Shape d A} (hsh : Sh C S sh) (a : A) : M.Body (balancedLE K sh a) (balancedLE K' sh a) :=
  (localToLocal hsh a).comp (multipoleToLocal hsh a)

omit [DecidableEq A] in
theorem runLoops {f : A → Exps K A → Outcome (Exps K A)} {f' : A → Exps K' A → Outcome (Exps K' A)} (h : ∀ a, M.Body (f a) (f' a))
    (sch : ℕ → List A → List A) : ∀ (ls : List (List A)) (k : ℕ), M.Body (runLoops f sch k ls) (runLoops f' sch k ls)
  | [], k => by
    intro s s' s1 hs e
    injection e with e
    subst e
    exact ⟨s', rfl, hs⟩
  | l :: ls, k => (foldlM h (sch k l)).comp (runLoops h sch ls (k + 1))

theorem passes {sh : Shape d A} (hsh : Sh C S sh) {f : A → Exps K A → Outcome (Exps K A)} {f' : A → Exps K' A → Outcome (Exps K' A)}
    (h : ∀ a, M.Body (f a) (f' a)) (sch : ℕ → List A → List A) (l1 l2 l3 : List (List A)) :
    M.Body (passes K sh p f sch l1 l2 l3) (passes K' sh p f' sch l1 l2 l3) :=
  (runLoops (leafME hsh) sch l1 0).comp ((runLoops (nodeME hsh) sch l2 _).comp (runLoops h sch l3 _))

/-! ## Evaluation -/

variable {V V' : Type} {O : Obs K V} {O' : Obs K' V'} {X : Vec d → Prop}

omit [DecidableEq A] in
theorem foldV {α : Type} (R : V → V' → Prop) {f : V → α → Outcome V} {f' : V' → α → Outcome V'}
    (h : ∀ v v' a w, R v v' → f v a = .ok w → ∃ w', f' v' a = .ok w' ∧ R w w') :
    ∀ (l : List α) {v v' w}, R v v' → l.foldlM f v = .ok w → ∃ w', l.foldlM f' v' = .ok w' ∧ R w w'
  | [], v, v', w, hv, e => by
    injection e with e
    subst e
    exact ⟨v', rfl, hv⟩
  | a :: l, v, v', w, hv, e => by
    rw [List.foldlM_cons] at e ⊢
    obtain ⟨u, e1, e2⟩ := bindOk e
    obtain ⟨u', k1, k2⟩ := h v v' a u hv e1
    rw [k1, ok_bind]
    exact foldV R h l k2 e2

theorem evalLeaf (N : ObsSim M O O' X) {add : V → V → V} {neg : V → V} {add' : V' → V' → V'} {neg' : V' → V'}
    (hadd : ∀ {v v' w w'}, N.RV v v' → N.RV w w' → N.RV (add v w) (add' v' w')) (hneg : ∀ {v v'}, N.RV v v' → N.RV (neg v) (neg' v'))
    {sh : Shape d A} (hsh : Sh C S sh) (grav : Bool) {s : Exps K A} {s' : Exps K' A} (h : M.St s s') (leaf : A) {x : Vec d} (hx : X x) {v : V}
    (hv : Rounded.evalLeaf add neg O sh grav s leaf x = .ok v) :
    ∃ v', Rounded.evalLeaf add' neg' O' sh grav s' leaf x = .ok v' ∧ N.RV v v' := by
  unfold Rounded.evalLeaf at hv ⊢
  obtain ⟨n, h1, hv⟩ := bindOk hv
  obtain ⟨e, h2, hv⟩ := bindOk hv
  obtain ⟨v1, h3, hv⟩ := bindOk hv
  obtain ⟨v2, h4, hv⟩ := bindOk hv
  obtain ⟨v3, h5, hv⟩ := bindOk hv
  injection hv with hv
  obtain ⟨e', k1, k2⟩ := rdLe h h2
  obtain ⟨v1', k3, k4⟩ := N.le k2 hx h3
  obtain ⟨v2', k5, k6⟩ := foldV N.RV (f' := fun v a => do
    let e ← s'.rdMe a
    let w ← O'.me e x
    .ok (add' v w)) (by
      intro v v' a w hv e
      obtain ⟨f, j1, e⟩ := bindOk e
      obtain ⟨y, j2, e⟩ := bindOk e
      injection e with e
      subst e
      obtain ⟨f', l1, l2⟩ := rdMe h j1
      obtain ⟨y', l3, l4⟩ := N.me l2 hx j2
      exact ⟨_, by rw [l1, ok_bind, l3, ok_bind], hadd hv l4⟩) n.W k4 h4
  obtain ⟨v3', k7, k8⟩ := foldV N.RV (f' := fun v a => do
    let m ← sh a
    let src ← m.sources
    let w ← O'.sum true (decide (a = leaf)) src x
    .ok (add' v w)) (by
      intro v v' a w hv e
      obtain ⟨m, j1, e⟩ := bindOk e
      obtain ⟨src, j2, e⟩ := bindOk e
      obtain ⟨y, j3, e⟩ := bindOk e
      injection e with e
      subst e
      obtain ⟨y', l3, l4⟩ := N.sum ((hsh a m j1).2 src j2) hx j3
      exact ⟨_, by rw [j1, ok_bind, j2, ok_bind, l3, ok_bind], hadd hv l4⟩) n.near k6 h5
  refine ⟨if grav then v3' else neg' v3', by rw [h1, ok_bind, k1, ok_bind, k3, ok_bind, k5, ok_bind, k7, ok_bind], ?_⟩
  rw [← hv]
  cases grav
  · exact hneg k8
  · exact k8

end KitSim
end FMM
