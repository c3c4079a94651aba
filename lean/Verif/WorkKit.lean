import Verif.KitSimTree

/-!
# Counting the operations

The kit `K.counted` behaves as `K` and counts, next to the state of the tables, how many sources and expansions the constructors of the expansions
process; `O.counted` does the same for an evaluation.
-/

namespace FMM

/-- The operations of a constructor, with the terms of the literature. -/
inductive Op
  /-- a source enters a multipole expansion (multipole_expansion.hpp:37-60, 162-185) -/
  | p2m
  /-- a multipole expansion is shifted (multipole_expansion.hpp:62-75, 187-197) -/
  | m2m
  /-- a multipole expansion is converted to a local one (local_expansion.hpp:73-80, 234-242) -/
  | m2l
  /-- a source enters a local expansion (local_expansion.hpp:48-71, 209-232) -/
  | p2l
  /-- a local expansion is shifted (local_expansion.hpp:82-89, 281-286) -/
  | l2l
  deriving DecidableEq

/-- The operations of an evaluation. -/
inductive EvOp
  /-- a local expansion is evaluated -/
  | l2p
  /-- a multipole expansion is evaluated -/
  | m2p
  /-- the field of one source is evaluated -/
  | p2p
  deriving DecidableEq

variable {d : ℕ}

/-- `K` with a counter. -/
def Kit.counted (K : Kit d) : Kit d where
  T := K.T × (Op → ℕ)
  E := K.E
  empty := K.empty
  size := K.size
  leNew := fun t c p => do
    let (u, e) ← K.leNew t.1 c p
    .ok ((u, t.2), e)
  meSrc := fun t c p src => do
    let (u, e) ← K.meSrc t.1 c p src
    .ok ((u, t.2 + Pi.single Op.p2m src.length), e)
  meMes := fun t c es => do
    let (u, e) ← K.meMes t.1 c es
    .ok ((u, t.2 + Pi.single Op.m2m es.length), e)
  leSrc := fun t c p src => do
    let (u, e) ← K.leSrc t.1 c p src
    .ok ((u, t.2 + Pi.single Op.p2l src.length), e)
  leMes := fun t c es => do
    let (u, e) ← K.leMes t.1 c es
    .ok ((u, t.2 + Pi.single Op.m2l es.length), e)
  leLe := fun t c f => do
    let (u, e) ← K.leLe t.1 c f
    .ok ((u, t.2 + Pi.single Op.l2l 1), e)
  addEq := K.addEq

/-- `O` with a counter. -/
def Obs.counted {K : Kit d} {V : Type} (O : Obs K V) : Obs K.counted (V × (EvOp → ℕ)) where
  le := fun e x => do
    let v ← O.le e x
    .ok (v, Pi.single EvOp.l2p 1)
  me := fun e x => do
    let v ← O.me e x
    .ok (v, Pi.single EvOp.m2p 1)
  sum := fun grav safe src x => do
    let v ← O.sum grav safe src x
    .ok (v, Pi.single EvOp.p2p src.length)

/-- Contributions are added, and so are their costs. -/
def addC {V : Type} (add : V → V → V) (a b : V × (EvOp → ℕ)) : V × (EvOp → ℕ) := (add a.1 b.1, a.2 + b.2)

def negC {V : Type} (neg : V → V) (a : V × (EvOp → ℕ)) : V × (EvOp → ℕ) := (neg a.1, a.2)

namespace Work
variable {K : Kit d} {A : Type}

theorem forall_eq {α : Type} {l m : List α} (h : List.Forall₂ Eq l m) : l = m := by
  rwa [List.forall₂_eq_eq_eq] at h

/-- The counter changes nothing. -/
def sim (K : Kit d) (p : ℕ) : KitSim K K.counted p (fun _ => True) (fun _ => True) where
  RT t t' := t = t'.1
  RM := Eq
  RL := Eq
  empty := rfl
  size := by rintro e _ rfl; rfl
  leNew := by
    rintro t t' c t1 e rfl - h
    refine ⟨(t1, t'.2), e, ?_, rfl, rfl⟩
    simp only [Kit.counted]
    rw [h]; rfl
  meSrc := by
    rintro t t' c src t1 e rfl - - h
    refine ⟨(t1, t'.2 + Pi.single Op.p2m src.length), e, ?_, rfl, rfl⟩
    simp only [Kit.counted]
    rw [h]; rfl
  leSrc := by
    rintro t t' c src t1 e rfl - - h
    refine ⟨(t1, t'.2 + Pi.single Op.p2l src.length), e, ?_, rfl, rfl⟩
    simp only [Kit.counted]
    rw [h]; rfl
  meMes := by
    rintro t t' c es es' t1 e rfl - hes h
    have hes := forall_eq hes
    subst hes
    refine ⟨(t1, t'.2 + Pi.single Op.m2m es.length), e, ?_, rfl, rfl⟩
    simp only [Kit.counted]
    rw [h]; rfl
  leMes := by
    rintro t t' c es es' t1 e rfl - hes h
    have hes := forall_eq hes
    subst hes
    refine ⟨(t1, t'.2 + Pi.single Op.m2l es.length), e, ?_, rfl, rfl⟩
    simp only [Kit.counted]
    rw [h]; rfl
  leLe := by
    rintro t t' c f f' t1 e rfl - rfl h
    refine ⟨(t1, t'.2 + Pi.single Op.l2l 1), e, ?_, rfl, rfl⟩
    simp only [Kit.counted]
    rw [h]; rfl
  addEq := by rintro e _ f _ g rfl rfl h; exact ⟨g, h, rfl⟩

def obsSim (p : ℕ) {V : Type} (O : Obs K V) : ObsSim (sim K p) O O.counted (fun _ => True) where
  RV v v' := v = v'.1
  le := by
    intro e e' x v he _ h
    have he : e = e' := he
    subst he
    exact ⟨_, by simp only [Obs.counted]; rw [h]; rfl, rfl⟩
  me := by
    intro e e' x v he _ h
    have he : e = e' := he
    subst he
    exact ⟨_, by simp only [Obs.counted]; rw [h]; rfl, rfl⟩
  sum := by
    intro grav safe src x v _ _ h
    exact ⟨_, by simp only [Obs.counted]; rw [h]; rfl, rfl⟩

/-! ## The cost of each step -/

/-- Number of sources of a leaf. -/
def nSrc (sh : Shape d A) (a : A) : ℕ :=
  match sh a with
  | .ok n => (match n.sources with | .ok src => src.length | .error _ => 0)
  | .error _ => 0

/-- Something read from a node. -/
def nOf (sh : Shape d A) (f : NodeRec d A → ℕ) (a : A) : ℕ := match sh a with | .ok n => f n | .error _ => 0

theorem nSrc_ok {sh : Shape d A} {a : A} {n : NodeRec d A} {src : List (Source d)} (h : sh a = .ok n) (hs : n.sources = .ok src) :
    nSrc sh a = src.length := by
  unfold nSrc; rw [h]; simp only; rw [hs]

theorem nOf_ok {sh : Shape d A} {f : NodeRec d A → ℕ} {a : A} {n : NodeRec d A} (h : sh a = .ok n) : nOf sh f a = f n := by
  unfold nOf; rw [h]

theorem mapM_length {α β : Type} {f : α → Outcome β} : ∀ (l : List α) {m : List β}, l.mapM f = .ok m → m.length = l.length
  | [], m, h => by rw [List.mapM_nil] at h; injection h with h; subst h; rfl
  | a :: l, m, h => by
    rw [List.mapM_cons] at h
    obtain ⟨b, -, h⟩ := bindOk h
    obtain ⟨m', h2, h⟩ := bindOk h
    injection h with h
    subst h
    rw [List.length_cons, List.length_cons, mapM_length l h2]

variable [DecidableEq A] {sh : Shape d A} {p : ℕ} {a : A} {s s1 : Exps K.counted A}

theorem cost_init (h : initNode K.counted sh p a s = .ok s1) : s1.t.2 = s.t.2 := by
  unfold initNode at h
  obtain ⟨n, -, h⟩ := bindOk h
  obtain ⟨⟨t, e⟩, h2, h⟩ := bindOk h
  injection h with h
  subst h
  simp only [Kit.counted] at h2
  obtain ⟨⟨u, e'⟩, -, h2⟩ := bindOk h2
  injection h2 with h2
  injection h2 with h2 h3
  subst h2
  rfl

theorem cost_leaf (h : leafME K.counted sh p a s = .ok s1) : s1.t.2 = s.t.2 + Pi.single Op.p2m (nSrc sh a) := by
  unfold leafME at h
  obtain ⟨n, h0, h⟩ := bindOk h
  obtain ⟨src, h1, h⟩ := bindOk h
  obtain ⟨⟨t, e⟩, h2, h⟩ := bindOk h
  injection h with h
  subst h
  simp only [Kit.counted] at h2
  obtain ⟨⟨u, e'⟩, -, h2⟩ := bindOk h2
  injection h2 with h2
  injection h2 with h2 h3
  subst h2
  rw [nSrc_ok h0 h1]; rfl

theorem cost_node (h : nodeME K.counted sh a s = .ok s1) :
    s1.t.2 = s.t.2 + Pi.single Op.m2m (nOf sh (fun n => n.children.length) a) := by
  unfold nodeME at h
  obtain ⟨n, h0, h⟩ := bindOk h
  obtain ⟨es, h1, h⟩ := bindOk h
  obtain ⟨⟨t, e⟩, h2, h⟩ := bindOk h
  injection h with h
  subst h
  simp only [Kit.counted] at h2
  obtain ⟨⟨u, e'⟩, -, h2⟩ := bindOk h2
  injection h2 with h2
  injection h2 with h2 h3
  subst h2
  rw [nOf_ok h0, ← mapM_length _ h1]; rfl

theorem cost_l2l (h : localToLocal K.counted sh a s = .ok s1) : s1.t.2 = s.t.2 + Pi.single Op.l2l 1 := by
  unfold localToLocal at h
  obtain ⟨n, h0, h⟩ := bindOk h
  cases hp : n.parent with
  | none => simp only [hp] at h; cases h
  | some b =>
    simp only [hp] at h
    obtain ⟨pe, h1, h⟩ := bindOk h
    by_cases hz : K.counted.size pe = 0
    · rw [if_pos hz] at h; cases h
    · rw [if_neg hz] at h
      obtain ⟨⟨t, e⟩, h2, h⟩ := bindOk h
      obtain ⟨cur, h3, h⟩ := bindOk h
      obtain ⟨e', h4, h⟩ := bindOk h
      injection h with h
      subst h
      simp only [Kit.counted] at h2
      obtain ⟨⟨u, e'⟩, -, h2⟩ := bindOk h2
      injection h2 with h2
      injection h2 with h2 h3
      subst h2
      rfl

theorem cost_m2l (h : multipoleToLocal K.counted sh a s = .ok s1) :
    s1.t.2 = s.t.2 + Pi.single Op.m2l (nOf sh (fun n => n.inter.length) a) := by
  unfold multipoleToLocal at h
  obtain ⟨n, h0, h⟩ := bindOk h
  obtain ⟨es, h1, h⟩ := bindOk h
  rw [nOf_ok h0, ← mapM_length _ h1]
  by_cases hz : es.length > 0
  · rw [if_pos hz] at h
    obtain ⟨⟨t, e⟩, h2, h⟩ := bindOk h
    obtain ⟨cur, h3, h⟩ := bindOk h
    obtain ⟨e', h4, h⟩ := bindOk h
    injection h with h
    subst h
    simp only [Kit.counted] at h2
    obtain ⟨⟨u, e'⟩, -, h2⟩ := bindOk h2
    injection h2 with h2
    injection h2 with h2 h3
    subst h2
    rfl
  · rw [if_neg hz] at h
    injection h with h
    subst h
    have : es.length = 0 := by omega
    rw [this, Pi.single_zero, add_zero]

theorem cost_p2l_step {c : Vec d} {b : A} (h : sourceToLocalStep K.counted sh p c a s b = .ok s1) :
    s1.t.2 = s.t.2 + Pi.single Op.p2l (nSrc sh b) := by
  unfold sourceToLocalStep at h
  obtain ⟨n, h0, h⟩ := bindOk h
  obtain ⟨src, h1, h⟩ := bindOk h
  obtain ⟨⟨t, e⟩, h2, h⟩ := bindOk h
  obtain ⟨cur, h3, h⟩ := bindOk h
  obtain ⟨e', h4, h⟩ := bindOk h
  injection h with h
  subst h
  simp only [Kit.counted] at h2
  obtain ⟨⟨u, e'⟩, -, h2⟩ := bindOk h2
  injection h2 with h2
  injection h2 with h2 h3
  subst h2
  rw [nSrc_ok h0 h1]; rfl

omit [DecidableEq A] in
theorem cost_fold {β : Type} {f : Exps K.counted A → β → Outcome (Exps K.counted A)} {c : β → Op → ℕ}
    (hf : ∀ b s s1, f s b = .ok s1 → s1.t.2 = s.t.2 + c b) : ∀ (l : List β) {s s1}, l.foldlM f s = .ok s1 → s1.t.2 = s.t.2 + (l.map c).sum
  | [], s, s1, h => by
    rw [List.foldlM_nil] at h
    injection h with h
    subst h
    simp
  | b :: l, s, s1, h => by
    rw [List.foldlM_cons] at h
    obtain ⟨s2, h1, h⟩ := bindOk h
    rw [cost_fold hf l h, hf b _ _ h1, List.map_cons, List.sum_cons, add_assoc]

theorem sum_single {β : Type} (o : Op) (f : β → ℕ) (l : List β) :
    (l.map fun b => (Pi.single o (f b) : Op → ℕ)).sum = Pi.single o (l.map f).sum := by
  induction l with
  | nil => simp
  | cons b l ih => rw [List.map_cons, List.sum_cons, ih, List.map_cons, List.sum_cons, Pi.single_add]

/-- Sources of the leaves of list X. -/
def nX (sh : Shape d A) (a : A) : ℕ := nOf sh (fun n => (n.X.map (nSrc sh)).sum) a

theorem cost_p2l (h : sourceToLocal K.counted sh p a s = .ok s1) : s1.t.2 = s.t.2 + Pi.single Op.p2l (nX sh a) := by
  unfold sourceToLocal at h
  obtain ⟨n, h0, h⟩ := bindOk h
  rw [cost_fold (c := fun b => Pi.single Op.p2l (nSrc sh b)) (fun b s s1 h => cost_p2l_step h) _ h, sum_single]
  unfold nX
  rw [nOf_ok h0]

/-- The cost of the local expansion of a node. -/
def leCost (sh : Shape d A) (a : A) : Op → ℕ :=
  Pi.single Op.l2l 1 + Pi.single Op.m2l (nOf sh (fun n => n.inter.length) a) + Pi.single Op.p2l (nX sh a)

theorem cost_adaptive (h : constructLE K.counted sh p a s = .ok s1) : s1.t.2 = s.t.2 + leCost sh a := by
  unfold constructLE at h
  obtain ⟨s2, h1, h⟩ := bindOk h
  obtain ⟨s3, h2, h⟩ := bindOk h
  rw [cost_p2l h, cost_m2l h2, cost_l2l h1]
  unfold leCost
  simp only [add_assoc]

/-- In the balanced tree. -/
def leCostB (sh : Shape d A) (a : A) : Op → ℕ :=
  Pi.single Op.l2l 1 + Pi.single Op.m2l (nOf sh (fun n => n.inter.length) a)

theorem cost_balanced (h : balancedLE K.counted sh a s = .ok s1) : s1.t.2 = s.t.2 + leCostB sh a := by
  unfold balancedLE at h
  obtain ⟨s2, h1, h⟩ := bindOk h
  rw [cost_m2l h, cost_l2l h1]
  unfold leCostB
  simp only [add_assoc]

omit [DecidableEq A] in
theorem cost_forEach {body : A → Exps K.counted A → Outcome (Exps K.counted A)} {c : A → Op → ℕ}
    (hb : ∀ a s s1, body a s = .ok s1 → s1.t.2 = s.t.2 + c a) {l : List A} (h : forEach body l s = .ok s1) : s1.t.2 = s.t.2 + (l.map c).sum :=
  cost_fold (f := fun s a => body a s) hb l h

omit [DecidableEq A] in
/-- The order of the iterations does not matter. -/
theorem cost_loops {body : A → Exps K.counted A → Outcome (Exps K.counted A)} {c : A → Op → ℕ}
    (hb : ∀ a s s1, body a s = .ok s1 → s1.t.2 = s.t.2 + c a) {sch : ℕ → List A → List A} (hs : ∀ k l, (sch k l).Perm l) :
    ∀ (ls : List (List A)) {k : ℕ} {s s1}, runLoops body sch k ls s = .ok s1 → s1.t.2 = s.t.2 + (ls.flatten.map c).sum
  | [], k, s, s1, h => by
    unfold runLoops at h
    injection h with h
    subst h
    simp
  | l :: ls, k, s, s1, h => by
    unfold runLoops at h
    obtain ⟨s2, h1, h⟩ := bindOk h
    rw [cost_loops hb hs ls h, cost_forEach hb h1, List.flatten_cons, List.map_append, List.sum_append, add_assoc,
      ((hs k l).map c).sum_eq]

/-- The cost of the passes. -/
theorem cost_passes {body : A → Exps K.counted A → Outcome (Exps K.counted A)} {c : A → Op → ℕ}
    (hb : ∀ a s s1, body a s = .ok s1 → s1.t.2 = s.t.2 + c a) {sch : ℕ → List A → List A} (hs : ∀ k l, (sch k l).Perm l)
    {lf up dn : List (List A)} (h : passes K.counted sh p body sch lf up dn s = .ok s1) :
    s1.t.2 = s.t.2 + Pi.single Op.p2m (lf.flatten.map (nSrc sh)).sum
      + Pi.single Op.m2m (up.flatten.map (nOf sh fun n => n.children.length)).sum + (dn.flatten.map c).sum := by
  unfold passes at h
  obtain ⟨s2, h1, h⟩ := bindOk h
  obtain ⟨s3, h2, h⟩ := bindOk h
  rw [cost_loops hb hs _ h, cost_loops (c := fun a => Pi.single Op.m2m (nOf sh (fun n => n.children.length) a)) (fun a s s1 h => cost_node h) hs _ h2,
    cost_loops (c := fun a => Pi.single Op.p2m (nSrc sh a)) (fun a s s1 h => cost_leaf h) hs _ h1, sum_single, sum_single]

omit [DecidableEq A] in
theorem sum_leCost (sh : Shape d A) (l : List A) : (l.map (leCost sh)).sum
    = Pi.single Op.l2l l.length + Pi.single Op.m2l (l.map (nOf sh fun n => n.inter.length)).sum + Pi.single Op.p2l (l.map (nX sh)).sum := by
  have : leCost sh = fun a => (Pi.single Op.l2l 1 + Pi.single Op.m2l (nOf sh (fun n => n.inter.length) a)) + Pi.single Op.p2l (nX sh a) := rfl
  rw [this, List.sum_map_add, List.sum_map_add, sum_single, sum_single, sum_single]
  simp

omit [DecidableEq A] in
theorem sum_leCostB (sh : Shape d A) (l : List A) : (l.map (leCostB sh)).sum
    = Pi.single Op.l2l l.length + Pi.single Op.m2l (l.map (nOf sh fun n => n.inter.length)).sum := by
  have : leCostB sh = fun a => (Pi.single Op.l2l 1 + Pi.single Op.m2l (nOf sh (fun n => n.inter.length) a)) := rfl
  rw [this, List.sum_map_add, sum_single, sum_single]
  simp

/-! ## Evaluation -/

theorem ev_fold {V β : Type} {f : V × (EvOp → ℕ) → β → Outcome (V × (EvOp → ℕ))} {c : β → EvOp → ℕ}
    (hf : ∀ b v v1, f v b = .ok v1 → v1.2 = v.2 + c b) : ∀ (l : List β) {v v1}, l.foldlM f v = .ok v1 → v1.2 = v.2 + (l.map c).sum
  | [], s, s1, h => by
    rw [List.foldlM_nil] at h
    injection h with h
    subst h
    simp
  | b :: l, s, s1, h => by
    rw [List.foldlM_cons] at h
    obtain ⟨s2, h1, h⟩ := bindOk h
    rw [ev_fold hf l h, hf b _ _ h1, List.map_cons, List.sum_cons, add_assoc]

theorem ev_single {β : Type} (o : EvOp) (f : β → ℕ) (l : List β) :
    (l.map fun b => (Pi.single o (f b) : EvOp → ℕ)).sum = Pi.single o (l.map f).sum := by
  induction l with
  | nil => simp
  | cons b l ih => rw [List.map_cons, List.sum_cons, ih, List.map_cons, List.sum_cons, Pi.single_add]

/-- The cost of an evaluation in a leaf. -/
def evCost (sh : Shape d A) (a : A) : EvOp → ℕ :=
  Pi.single EvOp.l2p 1 + Pi.single EvOp.m2p (nOf sh (fun n => n.W.length) a)
    + Pi.single EvOp.p2p (nOf sh (fun n => (n.near.map (nSrc sh)).sum) a)

theorem cost_evalLeaf {V : Type} {add : V → V → V} {neg : V → V} {O : Obs K V} {grav : Bool} {x : Vec d} {v : V × (EvOp → ℕ)}
    (h : Rounded.evalLeaf (addC add) (negC neg) O.counted sh grav s a x = .ok v) : v.2 = evCost sh a := by
  unfold Rounded.evalLeaf at h
  obtain ⟨n, h0, h⟩ := bindOk h
  obtain ⟨e, h1, h⟩ := bindOk h
  obtain ⟨v1, h2, h⟩ := bindOk h
  obtain ⟨v2, h3, h⟩ := bindOk h
  obtain ⟨v3, h4, h⟩ := bindOk h
  have e1 : v1.2 = Pi.single EvOp.l2p 1 := by
    simp only [Obs.counted] at h2
    obtain ⟨w, -, h2⟩ := bindOk h2
    injection h2 with h2
    subst h2
    rfl
  have e2 := ev_fold (c := fun _ => Pi.single EvOp.m2p 1) (by
    intro b v v1 h
    obtain ⟨e, -, h⟩ := bindOk h
    obtain ⟨w, k, h⟩ := bindOk h
    injection h with h
    subst h
    simp only [Obs.counted] at k
    obtain ⟨w', -, k⟩ := bindOk k
    injection k with k
    subst k
    rfl) _ h3
  have e3 := ev_fold (c := fun b => Pi.single EvOp.p2p (nSrc sh b)) (by
    intro b v v1 h
    obtain ⟨m, k1, h⟩ := bindOk h
    obtain ⟨src, k2, h⟩ := bindOk h
    obtain ⟨w, k, h⟩ := bindOk h
    injection h with h
    subst h
    simp only [Obs.counted] at k
    obtain ⟨w', -, k⟩ := bindOk k
    injection k with k
    subst k
    rw [nSrc_ok k1 k2]
    rfl) _ h4
  have e4 : v.2 = v3.2 := by
    injection h with h
    subst h
    cases grav <;> rfl
  rw [e4, e3, e2, e1, ev_single, ev_single]
  unfold evCost
  rw [nOf_ok h0, nOf_ok h0]
  simp

end Work
end FMM
