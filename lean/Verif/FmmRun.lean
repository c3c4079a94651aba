import Verif.FmmGeneric

/-!
# Result of the passes
-/

namespace FMM
variable {d : ℕ} {K : Kit d} {A : Type} {V : Type} [AddCommGroup V] {O : Obs K V} {p : ℕ}

theorem mapM_ok {α β : Type} (f : α → Outcome β) (g : α → β) (l : List α) (h : ∀ a ∈ l, f a = .ok (g a)) :
    l.mapM f = .ok (l.map g) := by
  induction l with
  | nil => rfl
  | cons a l ih =>
    rw [List.mapM_cons, h a (by simp), ok_bind, ih fun b hb => h b (by simp [hb]), ok_bind]; rfl

/-- The sources routed to the children of a node are those routed to the node. -/
theorem itemsAt_kids {α : Type} (pos : α → Vec d) (r : Box d) (items : List α) (π : Path) :
    ((List.range (2 ^ d)).flatMap fun i => itemsAt pos r items (i :: π)).Perm (itemsAt pos r items π) := by
  have e : (fun i => itemsAt pos r items (i :: π)) = fun i => (itemsAt pos r items π).filter
      (fun s => decide (getOrthant (boxAt r π).center (pos s) = i)) := funext fun i => itemsAt_cons i π
  rw [e]
  refine flatMap_filter_perm (List.range (2 ^ d))
    (fun i s => decide (getOrthant (boxAt r π).center (pos s) = i)) (itemsAt pos r items π) ?_
  intro s _
  have h := getOrthant_lt (d := d) (boxAt r π).center (pos s)
  have : (List.range (2 ^ d)).countP (fun i => decide (getOrthant (boxAt r π).center (pos s) = i))
      = (List.range (2 ^ d)).count (getOrthant (boxAt r π).center (pos s)) := by
    rw [List.count_eq_countP]
    congr 1
    funext i
    rw [Bool.beq_eq_decide_eq]
    exact decide_eq_decide.mpr eq_comm
  rw [this, List.count_eq_one_of_mem List.nodup_range (List.mem_range.mpr h)]

section
variable [DecidableEq A] {T : PTree} {r : Box d} {items : List (Source d)} {sh : Shape d A} {addr : Path → A} {H : ℕ}

theorem setMe_t (s : Exps K A) (a : A) (e : K.E) : ({ s with t := s.t } : Exps K A).setMe a e = s.setMe a e := rfl

/-- The sources seen through the interaction lists and lists X of a node. -/
noncomputable def ownFar (T : PTree) (r : Box d) (items : List (Source d)) (π : Path) : List (Source d) :=
  (T.inter π ++ T.xl π).flatMap (itemsAt Source.pos r items)

/-- The sources seen through the interaction lists and lists X of a node and all its ancestors. -/
noncomputable def farSources (T : PTree) (r : Box d) (items : List (Source d)) (π : Path) : List (Source d) :=
  π.tails.flatMap (ownFar T r items)

theorem farSources_cons (i : ℕ) (τ : Path) :
    farSources T r items (i :: τ) = ownFar T r items (i :: τ) ++ farSources T r items τ := by
  simp [farSources, List.tails]

omit [DecidableEq A] in
theorem TreeOK.items_contains (hT : TreeOK T r items sh addr H) (π : Path) :
    ∀ s ∈ itemsAt Source.pos r items π, (boxAt r π).contains s.pos := by
  intro s hs
  simp only [itemsAt, List.mem_filter, decide_eq_true_eq] at hs
  have := route_contains r s.pos (hT.hitems s hs.1) π.length
  rwa [hs.2] at this

omit [DecidableEq A] in
/-- Children of the root are pairwise adjacent, so the interaction lists of nodes of depth 1 are empty. -/
theorem TreeOK.inter_one (hT : TreeOK T r items sh addr H) {i : ℕ} (hi : T.Mem [i]) : T.inter [i] = [] := by
  rw [List.eq_nil_iff_forall_not_mem]
  intro ρ hρ
  obtain ⟨-, h2, j, ν, rfl, h3, -⟩ := (PTree.mem_inter (hT.hA.laws hT.hr) hi ρ).mp hρ
  have : ν = [] := List.eq_nil_of_length_eq_zero h3
  subst this
  have h4 : (boxAt r [i]).adjacent (boxAt r [j]) := by
    rw [adjacent_iff_inter r hT.hr]
    have hc : ∀ k : ℕ, (boxAt r [k]).contains r.center := by
      intro k
      rw [Box.contains_iff]
      intro m
      simp only [boxAt, Box.child, Pi.add_apply, Pi.smul_apply, smul_eq_mul]
      have := hT.hr
      rcases childDir_eq (d := d) k m with e | e <;> rw [e] <;> constructor <;> linarith
    exact ⟨r.center, hc i, hc j⟩
  rw [hT.hA] at h2
  simp [h4] at h2

theorem xl_one {i : ℕ} (hi : T.Mem [i]) : T.xl [i] = [] := by
  have := hi.parent_not_leaf
  simp [PTree.xl, PTree.own, this]

omit [DecidableEq A] in
theorem TreeOK.depth_one (hT : TreeOK T r items sh addr H) {i : ℕ} (hi : T.Mem [i]) : ownFar T r items [i] = [] := by
  simp [ownFar, hT.inter_one hi, xl_one hi]

/-! ## Single iterations -/

variable (L : FmmLaws K O p)

theorem leafME_ok (hT : TreeOK T r items sh addr H) {t : K.T} (ht : L.cov t) {π : Path} (hπ : T.Mem π) (hl : T.leaf π = true) :
    ∃ e, L.isME e (boxAt r π).center (itemsAt Source.pos r items π) ∧
      ∀ s' : Exps K A, s'.t = t → leafME K sh p (addr π) s' = .ok (s'.setMe (addr π) e) := by
  obtain ⟨n, h1, h2, -, -, -, -, h3⟩ := hT.node π hπ
  obtain ⟨e, h4, h5⟩ := L.meSrc t (boxAt r π).center (itemsAt Source.pos r items π) ht
  refine ⟨e, h5, fun s' hs => ?_⟩
  subst hs
  unfold leafME
  rw [h1, ok_bind, (h3 hl).1, ok_bind, h2, h4, ok_bind]

/-- `e` is the multipole expansion of a node. -/
def MEok (L : FmmLaws K O p) (r : Box d) (items : List (Source d)) (addr : Path → A) (s : Exps K A) (π : Path) : Prop :=
  ∃ e, s.me (addr π) = some e ∧ L.isME e (boxAt r π).center (itemsAt Source.pos r items π)

theorem nodeME_ok (hT : TreeOK T r items sh addr H) {s : Exps K A} (ht : L.cov s.t) {π : Path} (hπ : T.Mem π)
    (hl : T.leaf π = false) (hk : ∀ i < 2 ^ d, MEok L r items addr s (i :: π)) :
    ∃ e, L.isME e (boxAt r π).center (itemsAt Source.pos r items π) ∧
      ∀ s' : Exps K A, s'.t = s.t → (∀ i < 2 ^ d, s'.me (addr (i :: π)) = s.me (addr (i :: π))) →
        nodeME K sh (addr π) s' = .ok (s'.setMe (addr π) e) := by
  obtain ⟨n, h1, h2, -, h3, -⟩ := hT.node π hπ
  have : Nonempty K.E := ⟨K.empty⟩
  choose! f hf using hk
  let M : List (K.E × Vec d × List (Source d)) := (List.range (2 ^ d)).map fun i =>
    (f i, (boxAt r (i :: π)).center, itemsAt Source.pos r items (i :: π))
  have hpos : 0 < 2 ^ d := by positivity
  obtain ⟨e, h4, h5⟩ := L.meMes s.t (boxAt r π).center M ht (by
      intro h
      have := congrArg List.length h
      simp [M] at this) (by
      intro x hx
      obtain ⟨i, hi, rfl⟩ := List.mem_map.mp hx
      exact (hf i (List.mem_range.mp hi)).2)
  refine ⟨e, L.me_perm _ _ _ _ ?_ h5, fun s' hs hm => ?_⟩
  · simp only [M, List.flatMap_map]
    exact itemsAt_kids _ _ _ _
  · unfold nodeME
    rw [h1, ok_bind, h3 hl]
    have : ((List.range (2 ^ d)).map fun i => some (addr (i :: π))).mapM (childME s') = .ok (M.map (·.1)) := by
      rw [List.mapM_map]
      rw [mapM_ok _ f _ (by
        intro i hi
        have hi := List.mem_range.mp hi
        simp only [Function.comp, childME, Exps.rdMe]
        rw [hm i hi, (hf i hi).1])]
      simp only [M, List.map_map]; rfl
    rw [this, ok_bind, h2, hs, h4, ok_bind]
    simp only
    rw [← hs]

theorem localToLocal_ok (hT : TreeOK T r items sh addr H) {t : K.T} (ht : L.cov t) {i : ℕ} {τ : Path} (hπ : T.Mem (i :: τ))
    {e0 eτ : K.E} {φτ : Vec d → V} (h0 : L.isLE e0 (boxAt r (i :: τ)).center 0) (hτ : L.isLE eτ (boxAt r τ).center φτ) :
    ∃ e, L.isLE e (boxAt r (i :: τ)).center φτ ∧
      ∀ s' : Exps K A, s'.t = t → s'.le (addr τ) = some eτ → s'.le (addr (i :: τ)) = some e0 →
        localToLocal K sh (addr (i :: τ)) s' = .ok (s'.setLe (addr (i :: τ)) e) := by
  obtain ⟨n, h1, h2, h3, -⟩ := hT.node _ hπ
  obtain ⟨e1, h4, h5⟩ := L.leLe t eτ _ (boxAt r (i :: τ)).center φτ ht hτ
  obtain ⟨e2, h6, h7⟩ := L.add _ _ _ _ _ h0 h5
  rw [zero_add] at h7
  refine ⟨e2, h7, fun s' hs hp ha => ?_⟩
  subst hs
  unfold localToLocal
  rw [h1, ok_bind, h3]
  simp only [List.tail?, Option.map_some, Exps.rdLe]
  rw [hp]
  simp only [ok_bind]
  rw [if_neg (L.size_pos _ _ _ hτ), h2, h4, ok_bind]
  simp only
  rw [ha]
  simp only [ok_bind]
  rw [h6, ok_bind]

theorem setLe_self (s : Exps K A) (a : A) (e : K.E) (h : s.le a = some e) : s.setLe a e = s := by
  refine Exps.ext rfl rfl ?_
  funext b
  simp only [Exps.setLe]
  by_cases hb : b = a
  · subst hb; rw [Function.update_self, h]
  · rw [Function.update_of_ne hb]

theorem setLe_setLe (s : Exps K A) (a : A) (e f : K.E) : (s.setLe a e).setLe a f = s.setLe a f := by
  refine Exps.ext rfl rfl ?_
  simp [Exps.setLe]

theorem setLe_le (s : Exps K A) (a : A) (e : K.E) : (s.setLe a e).le a = some e := by simp [Exps.setLe]

theorem bound_nil (b : Box d) (y : Vec d) (φ : Vec d → V) :
    L.nrm (φ y - (φ y + L.direct [] y)) ≤ L.B b.len * totalStrength ([] : List (Source d)) := by
  rw [L.direct_nil, add_zero, sub_self, L.nrm_zero, totalStrength_nil, mul_zero]

theorem multipoleToLocal_ok (hT : TreeOK T r items sh addr H) {t : K.T} (ht : L.cov t) {π : Path} (hπ : T.Mem π)
    {e0 : K.E} {φ : Vec d → V} (h0 : L.isLE e0 (boxAt r π).center φ) {s : Exps K A}
    (hm : ∀ ρ ∈ T.inter π, MEok L r items addr s ρ) :
    ∃ e φ', L.isLE e (boxAt r π).center φ' ∧
      (∀ y, (boxAt r π).contains y →
        L.nrm (φ' y - (φ y + L.direct ((T.inter π).flatMap (itemsAt Source.pos r items)) y))
          ≤ L.B (boxAt r π).len * totalStrength ((T.inter π).flatMap (itemsAt Source.pos r items))) ∧
      ∀ s' : Exps K A, s'.t = t → (∀ ρ ∈ T.inter π, s'.me (addr ρ) = s.me (addr ρ)) → s'.le (addr π) = some e0 →
        multipoleToLocal K sh (addr π) s' = .ok (s'.setLe (addr π) e) := by
  have hL := hT.hA.laws hT.hr
  obtain ⟨n, h1, h2, -, -, h3, -⟩ := hT.node _ hπ
  have : Nonempty K.E := ⟨K.empty⟩
  choose! f hf using hm
  have hrd : ∀ s' : Exps K A, (∀ ρ ∈ T.inter π, s'.me (addr ρ) = s.me (addr ρ)) →
      n.inter.mapM s'.rdMe = .ok ((T.inter π).map f) := by
    intro s' hs
    rw [h3, List.mapM_map]
    refine mapM_ok _ f _ fun ρ hρ => ?_
    simp only [Function.comp, Exps.rdMe]
    rw [hs ρ hρ, (hf ρ hρ).1]
  by_cases hne : T.inter π = []
  · refine ⟨e0, φ, h0, fun y _ => ?_, fun s' hs hm' ha => ?_⟩
    · rw [hne]; exact bound_nil L _ _ _
    · unfold multipoleToLocal
      rw [h1, ok_bind, hrd s' hm', ok_bind, if_neg (by simp [hne]), setLe_self _ _ _ ha]
  · let M : List (K.E × Box d × List (Source d)) := (T.inter π).map fun ρ => (f ρ, boxAt r ρ, itemsAt Source.pos r items ρ)
    have hM : M.flatMap (·.2.2) = (T.inter π).flatMap (itemsAt Source.pos r items) := by
      simp only [M, List.flatMap_map]
    obtain ⟨e1, φ1, k1, k2, k3⟩ := L.leMes t (boxAt r π) M ht (boxAt_len_pos r hT.hr π) (by simpa [M] using hne) (by
      intro x hx
      obtain ⟨ρ, hρ, rfl⟩ := List.mem_map.mp hx
      have hlen := PTree.inter_length hL hπ hρ
      refine ⟨(hf ρ hρ).2, by rw [boxAt_len, boxAt_len, hlen], ?_, hT.items_contains ρ⟩
      cases π with
      | nil => simp [PTree.inter] at hρ
      | cons i τ =>
        have m2 := ((PTree.mem_inter hL hπ ρ).mp hρ).2.1
        exact center_dist_of_not_adjacent r hT.hr (i :: τ) ρ hlen.symm (by
          have := hT.hA (i :: τ) ρ; rw [m2] at this; simpa using this))
    obtain ⟨e2, h6, h7⟩ := L.add _ _ _ _ _ h0 k2
    refine ⟨e2, _, h7, fun y hy => ?_, fun s' hs hm' ha => ?_⟩
    · have := k3 y hy
      rw [hM] at this
      rwa [Pi.add_apply, add_sub_add_left_eq_sub]
    · subst hs
      unfold multipoleToLocal
      rw [h1, ok_bind, hrd s' hm', ok_bind, if_pos (by simpa [List.length_pos_iff] using hne), h2]
      have e : (T.inter π).map f = M.map (·.1) := by simp only [M, List.map_map]; rfl
      rw [e, k1, ok_bind]
      simp only [Exps.rdLe]
      rw [ha]
      simp only [ok_bind]
      rw [h6, ok_bind]

theorem sourceToLocal_ok (hT : TreeOK T r items sh addr H) {t : K.T} (ht : L.cov t) {π : Path} (hπ : T.Mem π)
    {e0 : K.E} {φ : Vec d → V} (h0 : L.isLE e0 (boxAt r π).center φ) :
    ∃ e φ', L.isLE e (boxAt r π).center φ' ∧
      (∀ y, (boxAt r π).contains y →
        L.nrm (φ' y - (φ y + L.direct ((T.xl π).flatMap (itemsAt Source.pos r items)) y))
          ≤ L.B (boxAt r π).len * totalStrength ((T.xl π).flatMap (itemsAt Source.pos r items))) ∧
      ∀ s' : Exps K A, s'.t = t → s'.le (addr π) = some e0 →
        sourceToLocal K sh p (addr π) s' = .ok (s'.setLe (addr π) e) := by
  have hL := hT.hA.laws hT.hr
  obtain ⟨n, h1, h2, -, -, -, h3, -⟩ := hT.node _ hπ
  have key : ∀ (l : List Path), (∀ ρ ∈ l, ρ ∈ T.xl π) → ∀ (e0 : K.E) (φ : Vec d → V), L.isLE e0 (boxAt r π).center φ →
      ∃ e φ', L.isLE e (boxAt r π).center φ' ∧
      (∀ y, (boxAt r π).contains y →
        L.nrm (φ' y - (φ y + L.direct (l.flatMap (itemsAt Source.pos r items)) y))
          ≤ L.B (boxAt r π).len * totalStrength (l.flatMap (itemsAt Source.pos r items))) ∧
      ∀ s' : Exps K A, s'.t = t → s'.le (addr π) = some e0 →
        (l.map addr).foldlM (sourceToLocalStep K sh p (boxAt r π).center (addr π)) s' = .ok (s'.setLe (addr π) e) := by
    intro l
    induction l with
    | nil =>
      intro _ e0 φ h0
      refine ⟨e0, φ, h0, fun y _ => bound_nil L _ _ _, fun s' _ ha => ?_⟩
      rw [List.map_nil, List.foldlM_nil, setLe_self _ _ _ ha]; rfl
    | cons ρ l ih =>
      intro hl e0 φ h0
      have hρ := hl ρ (by simp)
      have hρm : T.Mem ρ ∧ T.leaf ρ = true ∧ ρ.length ≤ π.length ∧ T.adj π ρ = false := by
        cases π with
        | nil => simp [PTree.xl] at hρ
        | cons i τ =>
          obtain ⟨a, b, c, -, e⟩ := (PTree.mem_xl hL hπ ρ).mp hρ
          exact ⟨a, b, c.le, e⟩
      obtain ⟨m, m1, -, -, -, -, -, m2⟩ := hT.node ρ hρm.1
      obtain ⟨j, hj⟩ := point_dist_of_not_adjacent r hT.hr π ρ hρm.2.2.1 (by
        have := hT.hA π ρ; rw [hρm.2.2.2] at this; simpa using this)
      obtain ⟨e1, φ1, k1, k2, k3⟩ := L.leSrc t (boxAt r π) (itemsAt Source.pos r items ρ) ht (boxAt_len_pos r hT.hr π)
        ⟨j, fun s hs => hj _ (hT.items_contains ρ s hs)⟩
      obtain ⟨e2, h6, h7⟩ := L.add _ _ _ _ _ h0 k2
      obtain ⟨e3, φ3, q1, q2, q3⟩ := ih (fun σ hσ => hl σ (by simp [hσ])) e2 _ h7
      refine ⟨e3, φ3, q1, fun y hy => ?_, fun s' hs ha => ?_⟩
      · rw [List.flatMap_cons, L.direct_append, totalStrength_append]
        have e : φ3 y - (φ y + (L.direct (itemsAt Source.pos r items ρ) y + L.direct (l.flatMap (itemsAt Source.pos r items)) y))
            = (φ3 y - ((φ + φ1) y + L.direct (l.flatMap (itemsAt Source.pos r items)) y))
              + (φ1 y - L.direct (itemsAt Source.pos r items ρ) y) := by
          rw [Pi.add_apply]; abel
        rw [e, mul_add]
        have := L.nrm_add (φ3 y - ((φ + φ1) y + L.direct (l.flatMap (itemsAt Source.pos r items)) y))
          (φ1 y - L.direct (itemsAt Source.pos r items ρ) y)
        linarith [q2 y hy, k3 y hy]
      · subst hs
        rw [List.map_cons, List.foldlM_cons]
        have : sourceToLocalStep K sh p (boxAt r π).center (addr π) s' (addr ρ) = .ok (s'.setLe (addr π) e2) := by
          unfold sourceToLocalStep
          rw [m1, ok_bind, (m2 hρm.2.1).1, ok_bind, k1, ok_bind]
          simp only [Exps.rdLe]
          rw [ha]
          simp only [ok_bind]
          rw [h6, ok_bind]
        rw [this, ok_bind, q3 (s'.setLe (addr π) e2) rfl (setLe_le _ _ _), setLe_setLe]
  obtain ⟨e, φ', k1, k2, k3⟩ := key (T.xl π) (fun _ h => h) e0 φ h0
  refine ⟨e, φ', k1, k2, fun s' hs ha => ?_⟩
  unfold sourceToLocal
  rw [h1, ok_bind, h3, h2]
  exact k3 s' hs ha

/-- The local expansion of a node approximates the field of its far sources in its box. -/
def LEok (L : FmmLaws K O p) (T : PTree) (r : Box d) (items : List (Source d)) (addr : Path → A) (s : Exps K A) (π : Path) :
    Prop :=
  ∃ e φ, s.le (addr π) = some e ∧ L.isLE e (boxAt r π).center φ ∧ ∀ y, (boxAt r π).contains y →
    L.nrm (φ y - L.direct (farSources T r items π) y) ≤ L.B (boxAt r π).len * totalStrength (farSources T r items π)

def LEzero (L : FmmLaws K O p) (r : Box d) (addr : Path → A) (s : Exps K A) (π : Path) : Prop :=
  ∃ e, s.le (addr π) = some e ∧ L.isLE e (boxAt r π).center 0

omit [DecidableEq A] in
theorem LEzero.ok {L : FmmLaws K O p} (hT : TreeOK T r items sh addr H) {s : Exps K A} {π : Path} (hπ : T.Mem π)
    (hl : π.length ≤ 1) (h : LEzero L r addr s π) : LEok L T r items addr s π := by
  obtain ⟨e, h1, h2⟩ := h
  refine ⟨e, 0, h1, h2, fun y _ => ?_⟩
  have hnil : ownFar T r items [] = [] := by simp [ownFar, PTree.inter, PTree.xl]
  have : farSources T r items π = [] := by
    match π with
    | [] => simp [farSources, hnil]
    | [i] => rw [farSources_cons, hT.depth_one hπ]; simp [farSources, hnil]
    | _ :: _ :: _ => simp at hl
  rw [this, L.direct_nil, Pi.zero_apply, sub_zero, L.nrm_zero, totalStrength_nil, mul_zero]

theorem constructLE_ok (hT : TreeOK T r items sh addr H) {s : Exps K A} (ht : L.cov s.t) {i : ℕ} {τ : Path}
    (hπ : T.Mem (i :: τ)) (hz : LEzero L r addr s (i :: τ)) (hp : LEok L T r items addr s τ)
    (hm : ∀ ρ ∈ T.inter (i :: τ), MEok L r items addr s ρ) :
    ∃ e, (∃ φ, L.isLE e (boxAt r (i :: τ)).center φ ∧ ∀ y, (boxAt r (i :: τ)).contains y →
        L.nrm (φ y - L.direct (farSources T r items (i :: τ)) y)
          ≤ L.B (boxAt r (i :: τ)).len * totalStrength (farSources T r items (i :: τ))) ∧
      ∀ s' : Exps K A, s'.t = s.t → s'.me = s.me → s'.le (addr τ) = s.le (addr τ) →
        s'.le (addr (i :: τ)) = s.le (addr (i :: τ)) →
        constructLE K sh p (addr (i :: τ)) s' = .ok (s'.setLe (addr (i :: τ)) e) := by
  obtain ⟨e0, z1, z2⟩ := hz
  obtain ⟨eτ, φτ, p1, p2, p3⟩ := hp
  obtain ⟨e1, a1, a2⟩ := localToLocal_ok L hT ht hπ z2 p2
  obtain ⟨e2, φ2, b1, b2, b3⟩ := multipoleToLocal_ok L hT ht hπ a1 hm
  obtain ⟨e3, φ3, c1, c2, c3⟩ := sourceToLocal_ok L hT ht hπ b1
  refine ⟨e3, ⟨φ3, c1, fun y hy => ?_⟩, fun s' h1 h2 h3 h4 => ?_⟩
  · have hyτ : (boxAt r τ).contains y := child_contains_sub _ (boxAt_len_pos r hT.hr τ).le i y hy
    rw [farSources_cons, L.direct_append, totalStrength_append]
    unfold ownFar
    rw [List.flatMap_append, L.direct_append, totalStrength_append]
    set D1 := L.direct ((T.inter (i :: τ)).flatMap (itemsAt Source.pos r items)) y
    set D2 := L.direct ((T.xl (i :: τ)).flatMap (itemsAt Source.pos r items)) y
    set D3 := L.direct (farSources T r items τ) y
    have e : φ3 y - (D1 + D2 + D3) = (φ3 y - (φ2 y + D2)) + ((φ2 y - (φτ y + D1)) + (φτ y - D3)) := by abel
    rw [e]
    have n1 := L.nrm_add (φ3 y - (φ2 y + D2)) ((φ2 y - (φτ y + D1)) + (φτ y - D3))
    have n2 := L.nrm_add (φ2 y - (φτ y + D1)) (φτ y - D3)
    have hB : L.B (boxAt r τ).len ≤ L.B (boxAt r (i :: τ)).len := by
      refine L.B_anti _ _ (boxAt_len_pos r hT.hr _) ?_
      show (boxAt r τ).len / 2 ≤ _
      linarith [boxAt_len_pos r hT.hr τ]
    have h5 := mul_le_mul_of_nonneg_right hB (totalStrength_nonneg (farSources T r items τ))
    linarith [c2 y hy, b2 y hy, p3 y hyτ]
  · unfold constructLE
    rw [a2 s' h1 (by rw [h3, p1]) (by rw [h4, z1]), ok_bind,
      b3 (s'.setLe (addr (i :: τ)) e1) h1 (fun ρ _ => by show s'.me _ = _; rw [h2]) (setLe_le _ _ _), ok_bind, setLe_setLe,
      c3 (s'.setLe (addr (i :: τ)) e2) h1 (setLe_le _ _ _), setLe_setLe]

/-! ## Loops -/

/-- Every loop of the sequence is race free when it is reached. -/
def RaceFreeLoops (RF : List A → Exps K A → Prop) (body : A → Exps K A → Outcome (Exps K A)) :
    List (List A) → Exps K A → Prop
  | [], _ => True
  | l :: ls, s => RF l s ∧ ∀ l', l'.Perm l → ∀ s', forEach body l' s = .ok s' → RaceFreeLoops RF body ls s'

omit [DecidableEq A] in
theorem runLoops_inv {RF : List A → Exps K A → Prop} {body : A → Exps K A → Outcome (Exps K A)} (J : ℕ → Exps K A → Prop)
    (ls : List (List A)) (h : ∀ j (hj : j < ls.length) s, J j s → RF ls[j] s ∧
      ∃ s1, (∀ l', l'.Perm ls[j] → forEach body l' s = .ok s1) ∧ J (j + 1) s1) {s : Exps K A} (h0 : J 0 s) :
    RaceFreeLoops RF body ls s ∧
    ∃ s1, (∀ sch, Schedule sch → ∀ k, runLoops body sch k ls s = .ok s1) ∧ J ls.length s1 := by
  induction ls generalizing J s with
  | nil => exact ⟨trivial, s, fun _ _ _ => rfl, h0⟩
  | cons l ls ih =>
    obtain ⟨h1, s1, h2, h3⟩ := h 0 (by simp) s h0
    obtain ⟨h4, s2, h5, h6⟩ := ih (fun j => J (j + 1)) (fun j hj s hs => h (j + 1) (by simpa using hj) s hs) h3
    refine ⟨⟨h1, fun l' hl s' hs => ?_⟩, s2, fun sch hsch k => ?_, h6⟩
    · rw [h2 l' hl] at hs
      cases hs; exact h4
    · rw [runLoops, h2 _ (hsch k l), ok_bind]
      exact h5 sch hsch (k + 1)

/-- The lists of nodes over which the parallel loops run. -/
structure LoopsOK (T : PTree) (H : ℕ) (leafP : List (List Path)) (up dn : ℕ → List Path) : Prop where
  leaf_nodup : ∀ l ∈ leafP, l.Nodup
  leaf_mem : ∀ l ∈ leafP, ∀ π ∈ l, T.Mem π ∧ T.leaf π = true
  leaf_all : ∀ π, T.Mem π → T.leaf π = true → ∃ l ∈ leafP, π ∈ l
  up_nodup : ∀ k, (up k).Nodup
  up_mem : ∀ k, 2 ≤ k → k < H → ∀ π, π ∈ up k ↔ T.Mem π ∧ π.length = k ∧ T.leaf π = false
  dn_nodup : ∀ k, (dn k).Nodup
  dn_mem : ∀ k, 1 ≤ k → k ≤ H → ∀ π, π ∈ dn k ↔ T.Mem π ∧ π.length = k

/-- Number of the first level of the downward pass. -/
def firstLevel (H : ℕ) : ℕ := min 2 H

def leafLoops (addr : Path → A) (leafP : List (List Path)) : List (List A) := leafP.map (·.map addr)
def upLoops (addr : Path → A) (H : ℕ) (up : ℕ → List Path) : List (List A) :=
  (List.range (H - 2)).map fun i => (up (H - 1 - i)).map addr
def downLoops (addr : Path → A) (H : ℕ) (dn : ℕ → List Path) : List (List A) :=
  (List.range (H + 1 - firstLevel H)).map fun i => (dn (firstLevel H + i)).map addr

omit [DecidableEq A] in
theorem TreeOK.map_nodup (hT : TreeOK T r items sh addr H) {l : List Path} (hl : l.Nodup) (hm : ∀ π ∈ l, T.Mem π) :
    (l.map addr).Nodup := by
  rw [List.nodup_map_iff_inj_on hl]
  exact fun a ha b hb h => hT.inj a b (hm a ha) (hm b hb) h

omit [DecidableEq A] in
theorem TreeOK.mem_map (hT : TreeOK T r items sh addr H) {l : List Path} (hm : ∀ π ∈ l, T.Mem π) {π : Path} (hπ : T.Mem π) :
    addr π ∈ l.map addr ↔ π ∈ l := by
  rw [List.mem_map]
  exact ⟨fun ⟨a, ha, h⟩ => hT.inj a π (hm a ha) hπ h ▸ ha, fun h => ⟨π, h, rfl⟩⟩

/-- A loop over paths that computes multipole expansions. -/
theorem loop_me (hT : TreeOK T r items sh addr H) {body : A → Exps K A → Outcome (Exps K A)} {l : List Path} (hl : l.Nodup)
    (hm : ∀ π ∈ l, T.Mem π) {s : Exps K A}
    (h : ∀ π ∈ l, ∃ e, L.isME e (boxAt r π).center (itemsAt Source.pos r items π) ∧
      ∀ s', AgreeMe s s' (l.map addr) (addr π) → body (addr π) s' = .ok (s'.setMe (addr π) e)) :
    RaceFreeMe body (l.map addr) s ∧
    ∃ s1, (∀ l', l'.Perm (l.map addr) → forEach body l' s = .ok s1) ∧ s1.t = s.t ∧ s1.le = s.le ∧
      (∀ π ∈ l, MEok L r items addr s1 π) ∧
      ∀ π, T.Mem π → π ∉ l → s1.me (addr π) = s.me (addr π) := by
  have hnd := hT.map_nodup hl hm
  refine ⟨⟨hnd, ?_⟩, ?_⟩
  · intro a ha
    obtain ⟨π, hπ, rfl⟩ := List.mem_map.mp ha
    obtain ⟨e, -, h2⟩ := h π hπ
    exact ⟨e, h2⟩
  · obtain ⟨s1, h1, h2, h3, h4, h5⟩ := forEach_me (s := s) (body := body)
      (fun a e => ∃ π ∈ l, addr π = a ∧ L.isME e (boxAt r π).center (itemsAt Source.pos r items π)) hnd (by
        intro a ha
        obtain ⟨π, hπ, rfl⟩ := List.mem_map.mp ha
        obtain ⟨e, h1, h2⟩ := h π hπ
        exact ⟨e, ⟨π, hπ, rfl, h1⟩, h2⟩)
    refine ⟨s1, h1, h2, h3, fun π hπ => ?_, fun π hπ hn => h5 _ ?_⟩
    · obtain ⟨e, h6, ρ, hρ, h7, h8⟩ := h4 (addr π) (List.mem_map.mpr ⟨π, hπ, rfl⟩)
      have := hT.inj ρ π (hm ρ hρ) (hm π hπ) h7
      subst this
      exact ⟨e, h6, h8⟩
    · rwa [hT.mem_map hm hπ]

theorem loop_le (hT : TreeOK T r items sh addr H) {body : A → Exps K A → Outcome (Exps K A)} {l : List Path} (hl : l.Nodup)
    (hm : ∀ π ∈ l, T.Mem π) {s : Exps K A} (P : Path → K.E → Prop)
    (h : ∀ π ∈ l, ∃ e, P π e ∧
      ∀ s', AgreeLe s s' (l.map addr) (addr π) → body (addr π) s' = .ok (s'.setLe (addr π) e)) :
    RaceFreeLe body (l.map addr) s ∧
    ∃ s1, (∀ l', l'.Perm (l.map addr) → forEach body l' s = .ok s1) ∧ s1.t = s.t ∧ s1.me = s.me ∧
      (∀ π ∈ l, ∃ e, s1.le (addr π) = some e ∧ P π e) ∧
      ∀ π, T.Mem π → π ∉ l → s1.le (addr π) = s.le (addr π) := by
  have hnd := hT.map_nodup hl hm
  refine ⟨⟨hnd, ?_⟩, ?_⟩
  · intro a ha
    obtain ⟨π, hπ, rfl⟩ := List.mem_map.mp ha
    obtain ⟨e, -, h2⟩ := h π hπ
    exact ⟨e, h2⟩
  · obtain ⟨s1, h1, h2, h3, h4, h5⟩ := forEach_le (s := s) (body := body)
      (fun a e => ∃ π ∈ l, addr π = a ∧ P π e) hnd (by
        intro a ha
        obtain ⟨π, hπ, rfl⟩ := List.mem_map.mp ha
        obtain ⟨e, h1, h2⟩ := h π hπ
        exact ⟨e, ⟨π, hπ, rfl, h1⟩, h2⟩)
    refine ⟨s1, h1, h2, h3, fun π hπ => ?_, fun π hπ hn => h5 _ ?_⟩
    · obtain ⟨e, h6, ρ, hρ, h7, h8⟩ := h4 (addr π) (List.mem_map.mpr ⟨π, hπ, rfl⟩)
      have := hT.inj ρ π (hm ρ hρ) (hm π hπ) h7
      subst this
      exact ⟨e, h6, h8⟩
    · rwa [hT.mem_map hm hπ]

omit [DecidableEq A] in
theorem MEok.congr {L : FmmLaws K O p} {s s1 : Exps K A} {π : Path} (h : MEok L r items addr s π)
    (e : s1.me (addr π) = s.me (addr π)) : MEok L r items addr s1 π := by
  unfold MEok; rw [e]; exact h

/-- State when the passes begin. -/
structure Ready (L : FmmLaws K O p) (T : PTree) (r : Box d) (addr : Path → A) (s : Exps K A) : Prop where
  cov : L.cov s.t
  zero : ∀ π, T.Mem π → LEzero L r addr s π

/-- State when the passes are done. -/
structure Done (L : FmmLaws K O p) (T : PTree) (r : Box d) (items : List (Source d)) (addr : Path → A) (s : Exps K A) :
    Prop where
  cov : L.cov s.t
  me : ∀ π, T.Mem π → T.leaf π = true ∨ 2 ≤ π.length → MEok L r items addr s π
  le : ∀ π, T.Mem π → LEok L T r items addr s π

variable {leafP : List (List Path)} {up dn : ℕ → List Path}

theorem leaf_pass (hT : TreeOK T r items sh addr H) (hl : LoopsOK T H leafP up dn) {s : Exps K A} (ht : L.cov s.t) :
    RaceFreeLoops (RaceFreeMe (leafME K sh p)) (leafME K sh p) (leafLoops addr leafP) s ∧
    ∃ s1, (∀ sch, Schedule sch → ∀ k, runLoops (leafME K sh p) sch k (leafLoops addr leafP) s = .ok s1) ∧
      s1.t = s.t ∧ s1.le = s.le ∧ ∀ π, T.Mem π → T.leaf π = true → MEok L r items addr s1 π := by
  have key := runLoops_inv (RF := RaceFreeMe (leafME K sh p)) (body := leafME K sh p) (s := s)
    (fun j s1 => s1.t = s.t ∧ s1.le = s.le ∧ ∀ π, T.Mem π → (∃ l ∈ leafP.take j, π ∈ l) → MEok L r items addr s1 π)
    (leafLoops addr leafP) (by
      rintro j hj s0 ⟨a1, a2, a3⟩
      have hj' : j < leafP.length := by simpa [leafLoops] using hj
      have e : (leafLoops addr leafP)[j] = (leafP[j]).map addr := by simp [leafLoops]
      have hm := hl.leaf_mem leafP[j] (List.getElem_mem hj')
      rw [e]
      obtain ⟨b1, s1, b2, b3, b4, b5, b6⟩ := loop_me L hT (body := leafME K sh p) (s := s0)
        (hl.leaf_nodup leafP[j] (List.getElem_mem hj')) (fun π hπ => (hm π hπ).1) (by
          intro π hπ
          obtain ⟨e, c1, c2⟩ := leafME_ok L hT (t := s0.t) (a1 ▸ ht) (hm π hπ).1 (hm π hπ).2
          exact ⟨e, c1, fun s' hs' => c2 s' hs'.1⟩)
      refine ⟨b1, s1, b2, b3.trans a1, b4.trans a2, fun π hπ hin => ?_⟩
      by_cases hc : π ∈ leafP[j]
      · exact b5 π hc
      · obtain ⟨l, hl1, hl2⟩ := hin
        rw [List.take_add_one, List.getElem?_eq_getElem hj', Option.toList_some, List.mem_append, List.mem_singleton] at hl1
        rcases hl1 with h | rfl
        · exact (a3 π hπ ⟨l, h, hl2⟩).congr (b6 π hπ hc)
        · exact absurd hl2 hc) ⟨rfl, rfl, by simp⟩
  obtain ⟨k1, s1, k2, k3, k4, k5⟩ := key
  refine ⟨k1, s1, k2, k3, k4, fun π hπ h => k5 π hπ ?_⟩
  obtain ⟨l, h1, h2⟩ := hl.leaf_all π hπ h
  exact ⟨l, by simpa [leafLoops] using h1, h2⟩

theorem up_pass (hT : TreeOK T r items sh addr H) (hl : LoopsOK T H leafP up dn) {s : Exps K A} (ht : L.cov s.t)
    (hleaf : ∀ π, T.Mem π → T.leaf π = true → MEok L r items addr s π) :
    RaceFreeLoops (RaceFreeMe (nodeME K sh)) (nodeME K sh) (upLoops addr H up) s ∧
    ∃ s1, (∀ sch, Schedule sch → ∀ k, runLoops (nodeME K sh) sch k (upLoops addr H up) s = .ok s1) ∧
      s1.t = s.t ∧ s1.le = s.le ∧ ∀ π, T.Mem π → T.leaf π = true ∨ 2 ≤ π.length → MEok L r items addr s1 π := by
  have key := runLoops_inv (RF := RaceFreeMe (nodeME K sh)) (body := nodeME K sh) (s := s)
    (fun j s1 => s1.t = s.t ∧ s1.le = s.le ∧ ∀ π, T.Mem π → T.leaf π = true ∨ H ≤ π.length + j → MEok L r items addr s1 π)
    (upLoops addr H up) (by
      rintro j hj s0 ⟨a1, a2, a3⟩
      have hj' : j < H - 2 := by simpa [upLoops] using hj
      have e : (upLoops addr H up)[j] = (up (H - 1 - j)).map addr := by simp [upLoops]
      have hm := hl.up_mem (H - 1 - j) (by omega) (by omega)
      have hmem : ∀ π ∈ up (H - 1 - j), T.Mem π := fun π hπ => ((hm π).mp hπ).1
      rw [e]
      obtain ⟨b1, s1, b2, b3, b4, b5, b6⟩ := loop_me L hT (body := nodeME K sh) (s := s0)
        (hl.up_nodup _) hmem (by
          intro π hπ
          obtain ⟨c1, c2, c3⟩ := (hm π).mp hπ
          have hk : ∀ i < 2 ^ d, T.Mem (i :: π) := fun i hi => c1.cons c3 (by rw [hT.hc]; exact hi)
          obtain ⟨e, d1, d2⟩ := nodeME_ok L hT (s := s0) (a1 ▸ ht) c1 c3 (fun i hi =>
            a3 _ (hk i hi) (Or.inr (by simp only [List.length_cons]; omega)))
          refine ⟨e, d1, fun s' hs' => d2 s' hs'.1 fun i hi => hs'.2.2 _ (Or.inr ?_)⟩
          rw [hT.mem_map hmem (hk i hi), hm]
          simp only [List.length_cons]
          omega)
      refine ⟨b1, s1, b2, b3.trans a1, b4.trans a2, fun π hπ hin => ?_⟩
      by_cases hc : π ∈ up (H - 1 - j)
      · exact b5 π hc
      · refine (a3 π hπ ?_).congr (b6 π hπ hc)
        rcases hin with h | h
        · exact Or.inl h
        · by_cases hlf : T.leaf π = true
          · exact Or.inl hlf
          · right
            rw [hm] at hc
            by_contra hlt
            exact hc ⟨hπ, by omega, by simpa using hlf⟩) ⟨rfl, rfl, fun π hπ h => by
        rcases h with h | h
        · exact hleaf π hπ h
        · refine hleaf π hπ ?_
          by_contra hlf
          have h2 : T.Mem (0 :: π) := hπ.cons (by simpa using hlf) (by rw [hT.hc]; positivity)
          have := hT.hH _ h2
          simp only [List.length_cons] at this
          omega⟩
  obtain ⟨k1, s1, k2, k3, k4, k5⟩ := key
  refine ⟨k1, s1, k2, k3, k4, fun π hπ h => k5 π hπ ?_⟩
  rcases h with h | h
  · exact Or.inl h
  · right
    simp only [upLoops, List.length_map, List.length_range]
    omega

theorem down_pass (hT : TreeOK T r items sh addr H) (hl : LoopsOK T H leafP up dn) (hH : 1 ≤ H) {s : Exps K A}
    (ht : L.cov s.t) (hz : ∀ π, T.Mem π → LEzero L r addr s π)
    (hme : ∀ π, T.Mem π → T.leaf π = true ∨ 2 ≤ π.length → MEok L r items addr s π) :
    RaceFreeLoops (RaceFreeLe (constructLE K sh p)) (constructLE K sh p) (downLoops addr H dn) s ∧
    ∃ s1, (∀ sch, Schedule sch → ∀ k, runLoops (constructLE K sh p) sch k (downLoops addr H dn) s = .ok s1) ∧
      s1.t = s.t ∧ s1.me = s.me ∧ ∀ π, T.Mem π → LEok L T r items addr s1 π := by
  have hL := hT.hA.laws hT.hr
  have hF : 1 ≤ firstLevel H ∧ firstLevel H ≤ 2 ∧ firstLevel H ≤ H := by unfold firstLevel; omega
  have key := runLoops_inv (RF := RaceFreeLe (constructLE K sh p)) (body := constructLE K sh p) (s := s)
    (fun j s1 => s1.t = s.t ∧ s1.me = s.me ∧
      (∀ π, T.Mem π → π.length < firstLevel H + j → LEok L T r items addr s1 π) ∧
      ∀ π, T.Mem π → firstLevel H + j ≤ π.length → LEzero L r addr s1 π)
    (downLoops addr H dn) (by
      rintro j hj s0 ⟨a1, a2, a3, a4⟩
      have hj' : j < H + 1 - firstLevel H := by simpa [downLoops] using hj
      have e : (downLoops addr H dn)[j] = (dn (firstLevel H + j)).map addr := by simp [downLoops]
      have hm := hl.dn_mem (firstLevel H + j) (by omega) (by omega)
      have hmem : ∀ π ∈ dn (firstLevel H + j), T.Mem π := fun π hπ => ((hm π).mp hπ).1
      rw [e]
      obtain ⟨b1, s1, b2, b3, b4, b5, b6⟩ := loop_le hT (body := constructLE K sh p) (s := s0)
        (hl.dn_nodup _) hmem (fun π e => ∃ φ, L.isLE e (boxAt r π).center φ ∧ ∀ y, (boxAt r π).contains y →
          L.nrm (φ y - L.direct (farSources T r items π) y)
            ≤ L.B (boxAt r π).len * totalStrength (farSources T r items π)) (by
          intro π hπ
          obtain ⟨c1, c2⟩ := (hm π).mp hπ
          cases π with
          | nil => simp at c2; omega
          | cons i τ =>
            simp only [List.length_cons] at c2
            obtain ⟨e, d1, d2⟩ := constructLE_ok L hT (s := s0) (a1 ▸ ht) c1
              (a4 _ c1 (by simp only [List.length_cons]; omega)) (a3 τ c1.tail (by omega)) (by
                intro ρ hρ
                have hlen := PTree.inter_length hL c1 hρ
                have hρm := ((PTree.mem_inter hL c1 ρ).mp hρ).1
                refine (hme ρ hρm ?_).congr (by rw [a2])
                by_cases h2 : 2 ≤ (i :: τ).length
                · right; omega
                · have : τ = [] := List.eq_nil_of_length_eq_zero (by simp only [List.length_cons] at h2; omega)
                  subst this
                  rw [hT.inter_one c1] at hρ
                  simp at hρ)
            refine ⟨e, d1, fun s' hs' => d2 s' hs'.1 hs'.2.1 (hs'.2.2 _ (Or.inr ?_)) (hs'.2.2 _ (Or.inl rfl))⟩
            rw [hT.mem_map hmem c1.tail, hm]
            omega)
      refine ⟨b1, s1, b2, b3.trans a1, b4.trans a2, fun π hπ hin => ?_, fun π hπ hin => ?_⟩
      · by_cases hc : π ∈ dn (firstLevel H + j)
        · obtain ⟨e, e1, φ, e2, e3⟩ := b5 π hc
          exact ⟨e, φ, e1, e2, e3⟩
        · have h2 := b6 π hπ hc
          unfold LEok
          rw [h2]
          refine a3 π hπ ?_
          rw [hm] at hc
          by_contra hlt
          exact hc ⟨hπ, by omega⟩
      · have hc : π ∉ dn (firstLevel H + j) := by rw [hm]; omega
        unfold LEzero
        rw [b6 π hπ hc]
        exact a4 π hπ (by omega)) ⟨rfl, rfl, fun π hπ h => (hz π hπ).ok hT hπ (by omega), fun π hπ _ => hz π hπ⟩
  obtain ⟨k1, s1, k2, k3, k4, k5, -⟩ := key
  refine ⟨k1, s1, k2, k3, k4, fun π hπ => k5 π hπ ?_⟩
  have := hT.hH π hπ
  simp only [downLoops, List.length_map, List.length_range]
  omega

/-- No loop of the passes has a data race. -/
def RaceFreePasses (K : Kit d) (sh : Shape d A) (order : ℕ) (leBody : A → Exps K A → Outcome (Exps K A))
    (leafL upL downL : List (List A)) (s : Exps K A) : Prop :=
  RaceFreeLoops (RaceFreeMe (leafME K sh order)) (leafME K sh order) leafL s ∧
  ∀ sch, Schedule sch → ∀ s1, runLoops (leafME K sh order) sch 0 leafL s = .ok s1 →
    RaceFreeLoops (RaceFreeMe (nodeME K sh)) (nodeME K sh) upL s1 ∧
    ∀ s2, runLoops (nodeME K sh) sch leafL.length upL s1 = .ok s2 →
      RaceFreeLoops (RaceFreeLe leBody) leBody downL s2

/-- The result of the passes does not depend on the schedule, and is what it should be. -/
theorem passes_ok (hT : TreeOK T r items sh addr H) (hl : LoopsOK T H leafP up dn) (hH : 1 ≤ H) {s : Exps K A}
    (hs : Ready L T r addr s) :
    RaceFreePasses K sh p (constructLE K sh p) (leafLoops addr leafP) (upLoops addr H up) (downLoops addr H dn) s ∧
    ∃ s1, (∀ sch, Schedule sch → passes K sh p (constructLE K sh p) sch (leafLoops addr leafP) (upLoops addr H up)
      (downLoops addr H dn) s = .ok s1) ∧ Done L T r items addr s1 := by
  obtain ⟨a1, s1, a2, a3, a4, a5⟩ := leaf_pass L hT hl hs.cov
  obtain ⟨b1, s2, b2, b3, b4, b5⟩ := up_pass L hT hl (s := s1) (by rw [a3]; exact hs.cov) a5
  obtain ⟨c1, s3, c2, c3, c4, c5⟩ := down_pass L hT hl hH (s := s2) (by rw [b3, a3]; exact hs.cov) (by
    intro π hπ
    unfold LEzero
    rw [b4, a4]
    exact hs.zero π hπ) b5
  refine ⟨⟨a1, fun sch hsch s1' h1 => ?_⟩, s3, fun sch hsch => ?_, ⟨?_, ?_, c5⟩⟩
  · rw [a2 sch hsch] at h1
    cases h1
    refine ⟨b1, fun s2' h2 => ?_⟩
    rw [b2 sch hsch] at h2
    cases h2
    exact c1
  · unfold passes
    rw [a2 sch hsch, ok_bind, b2 sch hsch, ok_bind, c2 sch hsch]
  · rw [c3, b3, a3]; exact hs.cov
  · intro π hπ h
    exact (b5 π hπ h).congr (by rw [c4])

/-! ## Evaluation -/

theorem foldlM_sum {α : Type} (step : V → α → Outcome V) (g : α → V) (l : List α)
    (h : ∀ a ∈ l, ∀ v, step v a = .ok (v + g a)) (v : V) : l.foldlM step v = .ok (v + (l.map g).sum) := by
  induction l generalizing v with
  | nil => simp; rfl
  | cons a l ih =>
    rw [List.foldlM_cons, h a (by simp), ok_bind, ih fun b hb => h b (by simp [hb])]
    simp [add_assoc]

/-- Evaluation in the leaf that contains the point. -/
theorem evalLeaf_ok (hT : TreeOK T r items sh addr H) {s : Exps K A} (hs : Done L T r items addr s) {x : Vec d}
    (hx : r.contains x) {k : ℕ} (hk : T.Mem (route r x k)) (hkl : T.leaf (route r x k) = true) (grav : Bool)
    (haR : L.adm (boxAt r (route r x k)).center x)
    (haW : ∀ ρ ∈ (T.nbhAfter (T.order (H + 1))).W (route r x k), L.adm (boxAt r ρ).center x) :
    ∃ v, evalLeaf O sh grav s (addr (route r x k)) x = .ok (if grav then v else -v) ∧
      L.nrm (v - L.direct items x) ≤ L.B (r.len / 2 ^ H) * totalStrength items := by
  have hL := hT.hA.laws hT.hr
  have hh : ∀ π, T.Mem π → π.length < H + 1 := fun π hπ => Nat.lt_succ_of_le (hT.hH π hπ)
  set R := route r x k with hR
  have hRx : (boxAt r R).contains x := route_contains r x hx k
  obtain ⟨n, n1, n2, -, -, -, -, n3⟩ := hT.node R hk
  obtain ⟨-, n4, n5⟩ := n3 hkl
  obtain ⟨e, φ, l1, l2, l3⟩ := hs.le R hk
  set W := (T.nbhAfter (T.order (H + 1))).W R with hW
  set U := (T.nbhAfter (T.order (H + 1))).near R with hU
  have hBlen : ∀ π, T.Mem π → L.B (boxAt r π).len ≤ L.B (r.len / 2 ^ H) := by
    intro π hπ
    refine L.B_anti _ _ (div_pos hT.hr (by positivity)) ?_
    rw [boxAt_len]
    exact div_le_div_of_nonneg_left hT.hr.le (by positivity) (pow_le_pow_right₀ (by norm_num) (hT.hH π hπ))
  have hWs : ∀ ρ ∈ W, ∃ v, (do let e ← s.rdMe (addr ρ); O.me e x) = .ok v ∧
      L.nrm (v - L.direct (itemsAt Source.pos r items ρ) x)
        ≤ L.B (r.len / 2 ^ H) * totalStrength (itemsAt Source.pos r items ρ) := by
    intro ρ hρ
    obtain ⟨w1, w2⟩ := (PTree.mem_W hh R ρ).mp hρ
    have w3 : 2 ≤ ρ.length := by
      match ρ, w1, w2 with
      | [], _, w2 => simp [PTree.xl] at w2
      | [i], w1, w2 => rw [xl_one w1] at w2; simp at w2
      | _ :: _ :: _, _, _ => simp
    obtain ⟨e, m1, m2⟩ := hs.me ρ w1 (Or.inr w3)
    have w4 : R.length ≤ ρ.length ∧ T.adj ρ R = false := by
      cases ρ with
      | nil => simp at w3
      | cons i τ =>
        obtain ⟨-, -, c, -, e⟩ := (PTree.mem_xl hL w1 R).mp w2
        exact ⟨c.le, e⟩
    obtain ⟨j, hj⟩ := point_dist_of_not_adjacent r hT.hr ρ R w4.1 (by
      have := hT.hA ρ R; rw [w4.2] at this; simpa using this)
    obtain ⟨v, v1, v2⟩ := L.me_obs e (boxAt r ρ) _ x (boxAt_len_pos r hT.hr ρ) m2 (hT.items_contains ρ) ⟨j, hj x hRx⟩ (haW ρ hρ)
    refine ⟨v, ?_, v2.trans (mul_le_mul_of_nonneg_right (hBlen ρ w1) (totalStrength_nonneg _))⟩
    simp only [Exps.rdMe]
    rw [m1]
    exact v1
  choose! w hw using hWs
  refine ⟨φ x + (W.map w).sum + (U.map fun ρ => L.direct (itemsAt Source.pos r items ρ) x).sum, ?_, ?_⟩
  · unfold evalLeaf
    rw [n1, ok_bind]
    simp only [Exps.rdLe]
    rw [l1]
    simp only [ok_bind]
    rw [L.le_obs _ _ _ _ l2 haR, ok_bind, n5, List.foldlM_map, foldlM_sum _ w W (by
      intro ρ hρ v
      have := (hw ρ hρ).1
      cases h1 : s.rdMe (addr ρ) with
      | error err => rw [h1, err_bind] at this; simp at this
      | ok e =>
        rw [h1, ok_bind] at this
        rw [ok_bind, this, ok_bind]), ok_bind, n4, List.foldlM_map,
      foldlM_sum _ (fun ρ => L.direct (itemsAt Source.pos r items ρ) x) U (by
        intro ρ hρ v
        obtain ⟨u1, u2, u3⟩ := (PTree.mem_near_leaf hL hh hk hkl ρ).mp hρ
        obtain ⟨m, m1, -, -, -, -, -, m2⟩ := hT.node ρ u1
        rw [m1, ok_bind, (m2 u2).1, ok_bind]
        by_cases hρR : ρ = R
        · rw [hρR, decide_eq_true rfl, L.sum_safe, ok_bind]
        · rw [decide_eq_false (fun h => hρR (hT.inj ρ R u1 hk h)), L.sum_unsafe, ok_bind]
          intro y hy hyx
          simp only [itemsAt, List.mem_filter, decide_eq_true_eq] at hy
          have h1 := hy.2
          rw [hyx] at h1
          exact hρR (hk.eq_of_leaf_suffix u2 ((leaf_mem_of_route T r x hk hkl u1).mp h1))), ok_bind]
  · have hperm := PTree.slots_perm hL hh hT.hc Source.pos r items hk hkl
    unfold PTree.slots at hperm
    rw [List.flatMap_append, List.flatMap_append, List.flatMap_assoc] at hperm
    have hfar : (R.tails.flatMap fun A => ((T.nbhAfter (T.order (H + 1))).inter A ++
        (T.nbhAfter (T.order (H + 1))).X A).flatMap (itemsAt Source.pos r items)) = farSources T r items R := by
      unfold farSources
      refine List.flatMap_congr fun A hA => ?_
      have hA : T.Mem A := hk.suffix ((List.mem_tails ..).mp hA)
      rw [PTree.nbh_inter hh hA, PTree.nbh_X hh hA]; rfl
    rw [hfar] at hperm
    rw [← L.direct_perm _ _ x hperm, ← totalStrength_perm hperm, L.direct_append, L.direct_append, totalStrength_append,
      totalStrength_append]
    have hsum : ∀ l : List Path, L.direct (l.flatMap (itemsAt Source.pos r items)) x
        = (l.map fun ρ => L.direct (itemsAt Source.pos r items ρ) x).sum := by
      intro l
      induction l with
      | nil => simp [L.direct_nil]
      | cons a l ih => rw [List.flatMap_cons, L.direct_append, ih, List.map_cons, List.sum_cons]
    have hWb : ∀ l : List Path, (∀ ρ ∈ l, ρ ∈ W) →
        L.nrm ((l.map w).sum - L.direct (l.flatMap (itemsAt Source.pos r items)) x)
          ≤ L.B (r.len / 2 ^ H) * totalStrength (l.flatMap (itemsAt Source.pos r items)) := by
      intro l hl
      induction l with
      | nil => simp [L.direct_nil, L.nrm_zero, totalStrength_nil]
      | cons a l ih =>
        rw [List.flatMap_cons, L.direct_append, totalStrength_append, List.map_cons, List.sum_cons, add_sub_add_comm, mul_add]
        exact (L.nrm_add _ _).trans (add_le_add (hw a (hl a (by simp))).2 (ih fun ρ hρ => hl ρ (by simp [hρ])))
    have h1 := hWb W fun _ h => h
    have h2 := (l3 x hRx).trans (mul_le_mul_of_nonneg_right (hBlen R hk) (totalStrength_nonneg _))
    have h3 : 0 ≤ L.B (r.len / 2 ^ H) * totalStrength (U.flatMap (itemsAt Source.pos r items)) :=
      mul_nonneg (L.B_nonneg _ (div_pos hT.hr (by positivity))) (totalStrength_nonneg _)
    have e : φ x + (W.map w).sum + (U.map fun ρ => L.direct (itemsAt Source.pos r items ρ) x).sum -
        (L.direct (U.flatMap (itemsAt Source.pos r items)) x + (L.direct (W.flatMap (itemsAt Source.pos r items)) x +
          L.direct (farSources T r items R) x))
        = (φ x - L.direct (farSources T r items R) x) +
          ((W.map w).sum - L.direct (W.flatMap (itemsAt Source.pos r items)) x) := by
      rw [← hsum U]; abel
    rw [e]
    have h4 := L.nrm_add (φ x - L.direct (farSources T r items R) x)
      ((W.map w).sum - L.direct (W.flatMap (itemsAt Source.pos r items)) x)
    linarith

/-- If the local expansion of the leaf cannot be evaluated, neither can the tree. -/
theorem evalLeaf_error (hT : TreeOK T r items sh addr H) {s : Exps K A} (hs : Done L T r items addr s) {x : Vec d}
    {R : Path} (hk : T.Mem R) (grav : Bool) {er : Err} (O' : Obs K V)
    (hbad : ∀ e φ, L.isLE e (boxAt r R).center φ → O'.le e x = .error er) :
    evalLeaf O' sh grav s (addr R) x = .error er := by
  obtain ⟨n, n1, -⟩ := hT.node R hk
  obtain ⟨e, φ, l1, l2, -⟩ := hs.le R hk
  unfold evalLeaf
  rw [n1, ok_bind]
  simp only [Exps.rdLe]
  rw [l1]
  simp only [ok_bind]
  rw [hbad e φ l2, err_bind]

/-! ## Construction of the nodes -/

theorem initAll_ok (hT : TreeOK T r items sh addr H) (l : List Path) (hm : ∀ π ∈ l, T.Mem π) (hall : ∀ π, T.Mem π → π ∈ l)
    (s : Exps K A) (hg : L.good s.t) :
    ∃ s1, forEach (initNode K sh p) (l.map addr) s = .ok s1 ∧ Ready L T r addr s1 := by
  have key : ∀ (l : List Path), (∀ π ∈ l, T.Mem π) → ∀ (s : Exps K A), L.good s.t → ∀ (d : List Path),
      (d ≠ [] → L.cov s.t) → (∀ π ∈ d, T.Mem π ∧ LEzero L r addr s π) →
      ∃ s1, forEach (initNode K sh p) (l.map addr) s = .ok s1 ∧ (d ++ l ≠ [] → L.cov s1.t) ∧
        ∀ π ∈ d ++ l, LEzero L r addr s1 π := by
    intro l
    induction l with
    | nil =>
      intro _ s _ d hd hz
      exact ⟨s, rfl, by simpa using hd, fun π hπ => (hz π (by simpa using hπ)).2⟩
    | cons a l ih =>
      intro hm s hg d hd hz
      obtain ⟨n, n1, n2, -⟩ := hT.node a (hm a (by simp))
      obtain ⟨t', e, k1, k2, k3, k4⟩ := L.leNew s.t (boxAt r a).center hg
      have hstep : initNode K sh p (addr a) s = .ok (({ s with t := t' }.setMe (addr a) K.empty).setLe (addr a) e) := by
        unfold initNode
        rw [n1, ok_bind, n2, k1, ok_bind]
      obtain ⟨s1, q1, q2, q3⟩ := ih (fun π hπ => hm π (by simp [hπ]))
        (({ s with t := t' }.setMe (addr a) K.empty).setLe (addr a) e) (L.cov_good _ k2) (d ++ [a]) (fun _ => k2) (by
          intro π hπ
          have hπm : T.Mem π := by
            rcases List.mem_append.mp hπ with h | h
            · exact (hz π h).1
            · rw [List.mem_singleton.mp h]; exact hm a (by simp)
          refine ⟨hπm, ?_⟩
          by_cases hpa : π = a
          · subst hpa
            exact ⟨e, setLe_le _ _ _, k4⟩
          · have hπd : π ∈ d := by simpa [hpa] using hπ
            obtain ⟨f, f1, f2⟩ := (hz π hπd).2
            refine ⟨f, ?_, f2⟩
            simp only [Exps.setLe, Exps.setMe]
            rw [Function.update_of_ne fun h => hpa (hT.inj π a hπm (hm a (by simp)) h)]
            exact f1)
      refine ⟨s1, ?_, fun _ => q2 (by simp), fun π hπ => q3 π (by simpa using hπ)⟩
      rw [List.map_cons]
      unfold forEach
      rw [List.foldlM_cons, hstep, ok_bind]
      exact q1
  obtain ⟨s1, h1, h2, h3⟩ := key l hm s hg [] (by simp) (by simp)
  have hroot : T.Mem [] := PTree.mem_nil
  refine ⟨s1, h1, h2 ?_, fun π hπ => h3 π (by simpa using hall π hπ)⟩
  intro h
  have := hall [] hroot
  simp only [List.nil_append] at h
  rw [h] at this
  simp at this

end
end FMM
