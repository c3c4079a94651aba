import Verif.FmmMain
import Verif.BoxDist

/-!
# Properties of the tree evaluation that hold in every dimension: C13, C37, C43, C45
-/

namespace FMM
variable {d : ℕ} {K : Kit d} {V : Type} [AddCommGroup V]

/-! ## Inversion of the constructors -/

omit [AddCommGroup V] in
theorem bind_ok_inv {α β : Type} {m : Outcome α} {f : α → Outcome β} {b : β} (h : (m >>= f) = .ok b) :
    ∃ a, m = .ok a ∧ f a = .ok b := by
  cases m with
  | error e => rw [err_bind] at h; exact absurd h (by simp)
  | ok a => exact ⟨a, rfl, h⟩

theorem adaptiveInit_inv {fuel : ℕ} {t : K.T} {S : List (Source d)} {max : ℕ} {eps : ℝ} {T : AdaptiveFmm K}
    (h : adaptiveInit K fuel t S max eps = .ok T) :
    ∃ r st, rootBox (S.map Source.pos) = some r ∧ adaptiveBuild fuel Source.pos r S max = .ok (st, T.height) ∧
      T.heap = st.heap ∧ T.leaves = st.leaves ∧ T.nodes = st.nodes ∧
      expansionOrder (totalStrength S) eps = .ok T.order := by
  unfold adaptiveInit at h
  obtain ⟨o, h1, h⟩ := bind_ok_inv h
  cases hr : rootBox (S.map Source.pos) with
  | none => rw [hr] at h; exact absurd h (by simp)
  | some r =>
    rw [hr] at h
    simp only at h
    obtain ⟨⟨st, hh, nb⟩, h2, h⟩ := bind_ok_inv h
    simp only at h
    obtain ⟨s, h3, h⟩ := bind_ok_inv h
    have hT : (⟨o, hh, st.heap, st.nodes, st.leaves, nb, s⟩ : AdaptiveFmm K) = T := by injection h
    unfold adaptiveLists at h2
    obtain ⟨⟨st', hh'⟩, h4, h5⟩ := bind_ok_inv h2
    simp only at h5
    have hst : st' = st ∧ hh' = hh := by
      split_ifs at h5
      · obtain ⟨nb', -, h6⟩ := bind_ok_inv h5
        injection h6 with h6
        exact ⟨congrArg (·.1) h6, congrArg (·.2.1) h6⟩
      · obtain ⟨nb', -, h6⟩ := bind_ok_inv h5
        injection h6 with h6
        exact ⟨congrArg (·.1) h6, congrArg (·.2.1) h6⟩
    obtain ⟨rfl, rfl⟩ := hst
    subst hT
    exact ⟨r, st', rfl, h4, rfl, rfl, rfl, h1⟩

theorem adaptiveFmm_inv {fuel : ℕ} {sch : ℕ → List Path → List Path} {t : K.T} {S : List (Source d)} {max : ℕ} {eps : ℝ}
    {T : AdaptiveFmm K} (h : adaptiveFmm K fuel sch t S max eps = .ok T) :
    ∃ r st, rootBox (S.map Source.pos) = some r ∧ adaptiveBuild fuel Source.pos r S max = .ok (st, T.height) ∧
      T.heap = st.heap ∧ T.leaves = st.leaves ∧ T.nodes = st.nodes ∧
      expansionOrder (totalStrength S) eps = .ok T.order := by
  unfold adaptiveFmm at h
  obtain ⟨T0, h1, h⟩ := bind_ok_inv h
  have := adaptiveInit_inv h1
  split_ifs at h
  · injection h with h; subst h; exact this
  · obtain ⟨up, -, h⟩ := bind_ok_inv h
    obtain ⟨dn, -, h⟩ := bind_ok_inv h
    obtain ⟨s, -, h⟩ := bind_ok_inv h
    injection h with h; subst h; exact this

/-! ## C13 -/

/-- **C13** Whatever the expansions: the adaptive evaluation at a point of the root box is the evaluation at a leaf of the
tree whose box contains the point and which stores all the sources located at the point; at any other point it is the
unguarded direct sum over the caller's vector. -/
theorem C13_evaluation (O : Obs K V) {fuel0 : ℕ} {sch : ℕ → List Path → List Path} {t : K.T} {S : List (Source d)} {max : ℕ}
    {eps : ℝ} {T : AdaptiveFmm K} (hT : adaptiveFmm K fuel0 sch t S max eps = .ok T) {r : Box d}
    (hr : rootBox (S.map Source.pos) = some r) (hlen : 0 ≤ r.len) (x : Vec d) :
    (r.contains x → ∃ leaf ∈ T.leaves.flatten, (∃ n, T.heap leaf = some n ∧ n.isLeaf = true ∧ n.box.contains x ∧
        ∀ s ∈ S, s.pos = x → s ∈ n.items) ∧
      ∀ fuel > T.height, ∀ grav cur, adaptiveEval O fuel grav T cur x = evalLeaf O T.shape grav T.exps leaf x) ∧
    (¬ r.contains x → ∀ fuel > T.height, ∀ grav cur, adaptiveEval O fuel grav T cur x = O.sum grav false cur x) := by
  obtain ⟨r', st, h1, h2, h3, h4, -, -⟩ := adaptiveFmm_inv hT
  rw [hr] at h1
  injection h1 with h1
  subst h1
  obtain ⟨o, o1, o2, o3⟩ := C13_containing_leaf Source.pos r hlen S max fuel0 st T.height h2 x
  constructor
  · intro hx
    cases o with
    | none => exact absurd hx (o2.mp rfl)
    | some π =>
      obtain ⟨p1, ⟨n, p2, p3, p4⟩, p5⟩ := o3 π rfl
      refine ⟨π, by rw [h4]; exact p1, ⟨n, by rw [h3]; exact p2, p3, p4, ?_⟩, ?_⟩
      · intro s hs hsx
        have := p5 s hs hsx
        unfold storedIn at this
        rw [p2] at this
        exact this
      · intro fuel hf grav cur
        unfold adaptiveEval
        rw [h3, o1 fuel hf, ok_bind]
  · intro hx fuel hf grav cur
    unfold adaptiveEval
    rw [h3, o1 fuel hf, ok_bind, o2.mpr hx]

/-! ## C43 -/

theorem potentialSum_neg (safe : Bool) (S : List (Source d)) (x : Vec d) :
    potentialSum false safe S x = (potentialSum true safe S x).map (fun v => -v) := by
  unfold potentialSum
  have : ∀ a : ℝ, S.foldlM (fun pot src => (do let p ← potential false safe src x; .ok (pot + p) : Outcome ℝ)) (-a)
      = (S.foldlM (fun pot src => (do let p ← potential true safe src x; .ok (pot + p) : Outcome ℝ)) a).map (fun v => -v) := by
    induction S with
    | nil => intro a; rfl
    | cons s S ih =>
      intro a
      rw [List.foldlM_cons, List.foldlM_cons, (C34_coulomb_neg safe s x 0).1]
      cases potential true safe s x with
      | error e => rfl
      | ok p =>
        show List.foldlM _ (-a + -p) S = Except.map _ (List.foldlM _ (a + p) S)
        rw [← ih (a + p), neg_add]
  simpa using this 0

theorem forcefieldSum_neg (safe : Bool) (S : List (Source d)) (x : Vec d) (feps : ℝ) :
    forcefieldSum false safe S x feps = (forcefieldSum true safe S x feps).map (fun v => -v) := by
  unfold forcefieldSum
  have : ∀ a : Vec d, S.foldlM (fun frc src => (do let p ← forcefield false safe src x feps; .ok (Vec.add frc p) : Outcome (Vec d))) (-a)
      = (S.foldlM (fun frc src => (do let p ← forcefield true safe src x feps; .ok (Vec.add frc p) : Outcome (Vec d))) a).map
        (fun v => -v) := by
    induction S with
    | nil => intro a; rfl
    | cons s S ih =>
      intro a
      rw [List.foldlM_cons, List.foldlM_cons, (C34_coulomb_neg safe s x feps).2]
      cases forcefield true safe s x feps with
      | error e => rfl
      | ok p =>
        show List.foldlM _ (Vec.add (-a) (-p)) S = Except.map _ (List.foldlM _ (Vec.add a p) S)
        rw [← ih (Vec.add a p)]
        congr 1
        funext j
        show -a j + -p j = -(a j + p j)
        ring
  have h0 : -(Vec.fill 0 : Vec d) = Vec.fill 0 := by funext j; show -(0 : ℝ) = 0; simp
  have := this (Vec.fill 0)
  rwa [h0] at this

/-- Both evaluation functions of the library use sums of this kind. -/
def Odd (O : Obs K V) : Prop := ∀ safe S x, O.sum false safe S x = (O.sum true safe S x).map (fun v => -v)

theorem evalLeaf_neg {A : Type} [DecidableEq A] (O : Obs K V) (sh : Shape d A) (s : Exps K A) (leaf : A) (x : Vec d) :
    evalLeaf O sh false s leaf x = (evalLeaf O sh true s leaf x).map (fun v => -v) := by
  unfold evalLeaf
  cases sh leaf with
  | error e => rfl
  | ok n =>
    rw [ok_bind, ok_bind]
    cases s.rdLe leaf with
    | error e => rfl
    | ok e =>
      rw [ok_bind, ok_bind]
      cases O.le e x with
      | error e => rfl
      | ok v =>
        rw [ok_bind, ok_bind]
        generalize List.foldlM (m := Outcome) _ _ n.W = m
        cases m with
        | error e => rfl
        | ok w =>
          rw [ok_bind, ok_bind]
          generalize List.foldlM (m := Outcome) _ _ n.near = m
          cases m with
          | error e => rfl
          | ok w => rfl

/-- **C43** For every adaptive tree, point and state of the caller's vector, and every outcome of the evaluation. -/
theorem C43_adaptive (O : Obs K V) (hO : Odd O) (fuel : ℕ) (T : AdaptiveFmm K) (cur : List (Source d)) (x : Vec d) :
    adaptiveEval O fuel false T cur x = (adaptiveEval O fuel true T cur x).map (fun v => -v) := by
  unfold adaptiveEval
  cases getContainingLeaf fuel T.heap x with
  | error e => rfl
  | ok o =>
    rw [ok_bind, ok_bind]
    cases o with
    | none => exact hO _ _ _
    | some leaf => exact evalLeaf_neg O _ _ _ _

/-- **C43** For every balanced tree and point. -/
theorem C43_balanced (O : Obs K V) (T : BalancedFmm K) (x : Vec d) :
    balancedEval O false T x = (balancedEval O true T x).map (fun v => -v) := by
  unfold balancedEval
  cases T.mem.get (rootAddr T.height) with
  | error e => rfl
  | ok n =>
    rw [ok_bind, ok_bind]
    cases getLeafBoxIndices n.box T.height x with
    | error e => rfl
    | ok idx =>
      rw [ok_bind, ok_bind]
      cases getMortonIndex T.height idx with
      | error e => rfl
      | ok k => exact evalLeaf_neg O _ _ _ _

/-! ## C45 -/

/-- **C45** At a point of the root box the caller's vector is not read; elsewhere its current contents are summed. -/
theorem C45_adaptive (O : Obs K V) {fuel0 : ℕ} {sch : ℕ → List Path → List Path} {t : K.T} {S : List (Source d)} {max : ℕ}
    {eps : ℝ} {T : AdaptiveFmm K} (hT : adaptiveFmm K fuel0 sch t S max eps = .ok T) {r : Box d}
    (hr : rootBox (S.map Source.pos) = some r) (hlen : 0 ≤ r.len) (x : Vec d) (fuel : ℕ) (hf : T.height < fuel) (grav : Bool) :
    (r.contains x → ∀ cur, adaptiveEval O fuel grav T cur x = adaptiveEval O fuel grav T S x) ∧
    (¬ r.contains x → ∀ cur, adaptiveEval O fuel grav T cur x = O.sum grav false cur x) := by
  obtain ⟨h1, h2⟩ := C13_evaluation O hT hr hlen x
  refine ⟨fun hx cur => ?_, fun hx cur => h2 hx fuel hf grav cur⟩
  obtain ⟨leaf, -, -, h⟩ := h1 hx
  rw [h fuel hf, h fuel hf]

/-! ## C37 -/

omit [AddCommGroup V] in
/-- **C37** For every order of execution of the iterations, slot `i` holds `q_i` times the value of the evaluation at the
position of particle `i`; particles are taken from the current contents of the caller's vector. -/
theorem C37_tree_particles {W : Type} [Zero W] (smul : ℝ → V → W) (eval : Vec d → Outcome V) (cur : List (Source d))
    (val : ℕ → V) (hv : ∀ i (hi : i < cur.length), eval cur[i].pos = .ok (val i)) (order : List ℕ)
    (ho : order.Perm (List.range cur.length)) :
    ∃ res, particleLoop smul eval cur order = .ok res ∧ res.size = cur.length ∧
      ∀ i (hi : i < cur.length), res.val i = smul cur[i].q (val i) := by
  have key : ∀ (l : List ℕ), (∀ i ∈ l, i < cur.length) → ∀ res : Arr W, res.size = cur.length →
      ∃ res', l.foldlM (fun (res : Arr W) i => do
          let s ← vecGet cur i
          let v ← eval s.pos
          if i < res.size then .ok ⟨res.size, Function.update res.val i (smul s.q v)⟩ else (.error .ub : Outcome (Arr W))) res
        = .ok res' ∧ res'.size = cur.length ∧
        ∀ i (hi : i < cur.length), res'.val i = if i ∈ l then smul cur[i].q (val i) else res.val i := by
    intro l
    induction l with
    | nil => intro _ res hs; exact ⟨res, rfl, hs, fun i hi => by simp⟩
    | cons a l ih =>
      intro hl res hs
      have ha := hl a (by simp)
      obtain ⟨res', e1, e2, e3⟩ := ih (fun i hi => hl i (by simp [hi]))
        ⟨res.size, Function.update res.val a (smul cur[a].q (val a))⟩ hs
      refine ⟨res', ?_, e2, ?_⟩
      · rw [List.foldlM_cons]
        have : vecGet cur a = .ok cur[a] := by unfold vecGet; rw [List.getElem?_eq_getElem ha]
        rw [this, ok_bind, hv a ha, ok_bind, if_pos (by omega), ok_bind]
        exact e1
      · intro i hi
        rw [e3 i hi]
        by_cases hil : i ∈ l
        · simp [hil]
        · by_cases hia : i = a
          · subst hia; simp [hil]
          · simp [hil, hia]
  obtain ⟨res, e1, e2, e3⟩ := key order (fun i hi => by simpa using ho.mem_iff.mp hi) ⟨cur.length, fun _ => 0⟩ rfl
  refine ⟨res, e1, e2, fun i hi => ?_⟩
  rw [e3 i hi, if_pos (ho.mem_iff.mpr (by simpa using hi))]

end FMM
