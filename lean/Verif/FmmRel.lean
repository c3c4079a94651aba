import Verif.FmmRun

/-!
# The passes, for predicates indexed by the nodes

A variant of `FmmGeneric` and `FmmRun` for arithmetic with errors: what the passes establish of the expansions of a node may
depend on the node (its depth, its sources), and the centres of the nodes need not be the centres of the exact boxes.
-/

namespace FMM.Rel
variable {d : ℕ} {K : Kit d} {A : Type}

/-- The finished structure `sh` is that of the tree of paths `T` with lists according to the adjacency of the boxes over `r`;
node `π` has address `addr π` and centre `cen π`, leaf `π` has the sources `src π`. -/
structure TreeR (T : PTree) (r : Box d) (cen : Path → Vec d) (src : Path → List (Source d)) (sh : Shape d A)
    (addr : Path → A) (H : ℕ) : Prop where
  hc : T.c = 2 ^ d
  hA : AdjOf T r
  hr : 0 < r.len
  hH : ∀ π, T.Mem π → π.length ≤ H
  inj : ∀ π ρ, T.Mem π → T.Mem ρ → addr π = addr ρ → π = ρ
  node : ∀ π, T.Mem π → ∃ n, sh (addr π) = .ok n ∧ n.center = cen π ∧ n.parent = π.tail?.map addr ∧
    (T.leaf π = false → n.children = (List.range (2 ^ d)).map fun i => some (addr (i :: π))) ∧
    n.inter = (T.inter π).map addr ∧ n.X = (T.xl π).map addr ∧
    (T.leaf π = true → n.sources = .ok (src π) ∧
      n.near = ((T.nbhAfter (T.order (H + 1))).near π).map addr ∧ n.W = ((T.nbhAfter (T.order (H + 1))).W π).map addr)

/-- Children of the root are pairwise adjacent. -/
theorem inter_one {T : PTree} {r : Box d} (hA : AdjOf T r) (hr : 0 < r.len) {i : ℕ} (hi : T.Mem [i]) : T.inter [i] = [] := by
  rw [List.eq_nil_iff_forall_not_mem]
  intro ρ hρ
  obtain ⟨-, h2, j, ν, rfl, h3, -⟩ := (PTree.mem_inter (hA.laws hr) hi ρ).mp hρ
  have : ν = [] := List.eq_nil_of_length_eq_zero h3
  subst this
  have h4 : (boxAt r [i]).adjacent (boxAt r [j]) := by
    rw [adjacent_iff_inter r hr]
    have hc : ∀ k : ℕ, (boxAt r [k]).contains r.center := by
      intro k
      rw [Box.contains_iff]
      intro m
      simp only [boxAt, Box.child, Pi.add_apply, Pi.smul_apply, smul_eq_mul]
      rcases childDir_eq (d := d) k m with e | e <;> rw [e] <;> constructor <;> linarith
    exact ⟨r.center, hc i, hc j⟩
  rw [hA] at h2
  simp [h4] at h2

/-- What the construction of the nodes and the first loop of the upward pass use of the operations: `ME π e`, "`e` is a multipole
expansion of node `π`"; `LX π k e`, "`e` is the local expansion of node `π` after stage `k`" (0: as constructed; 1: with the
expansion of the parent; 2: with the interaction list; `2 + j`: with the first `j` members of list X). -/
structure LeafLaws (K : Kit d) (p : ℕ) (T : PTree) (cen : Path → Vec d) (src : Path → List (Source d)) where
  good : K.T → Prop
  cov : K.T → Prop
  ME : Path → K.E → Prop
  LX : Path → ℕ → K.E → Prop
  cov_good : ∀ t, cov t → good t
  leNew : ∀ t π, T.Mem π → good t → ∃ t' e, K.leNew t (cen π) p = .ok (t', e) ∧ cov t' ∧ (cov t → t' = t) ∧ LX π 0 e
  leaf : ∀ t π, cov t → T.Mem π → T.leaf π = true → ∃ e, K.meSrc t (cen π) p (src π) = .ok (t, e) ∧ ME π e

/-- What the upward pass uses of the operations. -/
structure UpLaws (K : Kit d) (p : ℕ) (T : PTree) (cen : Path → Vec d) (src : Path → List (Source d)) extends
    LeafLaws K p T cen src where
  node : ∀ t π (f : ℕ → K.E), cov t → T.Mem π → T.leaf π = false → (∀ i < 2 ^ d, ME (i :: π) (f i)) →
    ∃ e, K.meMes t (cen π) ((List.range (2 ^ d)).map f) = .ok (t, e) ∧ ME π e

/-- What both passes use of the operations. -/
structure PassLaws (K : Kit d) (p : ℕ) (T : PTree) (cen : Path → Vec d) (src : Path → List (Source d)) extends
    UpLaws K p T cen src where
  l2l : ∀ t i τ e0 eτ, cov t → T.Mem (i :: τ) → LX (i :: τ) 0 e0 → LX τ (2 + (T.xl τ).length) eτ →
    K.size eτ ≠ 0 ∧ ∃ e1 e2, K.leLe t (cen (i :: τ)) eτ = .ok (t, e1) ∧ K.addEq e0 e1 = .ok e2 ∧ LX (i :: τ) 1 e2
  m2l : ∀ t π e0 (f : Path → K.E), cov t → T.Mem π → LX π 1 e0 → T.inter π ≠ [] → (∀ ρ ∈ T.inter π, ME ρ (f ρ)) →
    ∃ e1 e2, K.leMes t (cen π) ((T.inter π).map f) = .ok (t, e1) ∧ K.addEq e0 e1 = .ok e2 ∧ LX π 2 e2
  m2l_nil : ∀ π e0, T.Mem π → LX π 1 e0 → T.inter π = [] → LX π 2 e0
  x : ∀ t π j ρ e0, cov t → T.Mem π → (T.xl π)[j]? = some ρ → LX π (2 + j) e0 →
    ∃ e1 e2, K.leSrc t (cen π) p (src ρ) = .ok (t, e1) ∧ K.addEq e0 e1 = .ok e2 ∧ LX π (2 + (j + 1)) e2
  zero : ∀ π e, T.Mem π → π.length ≤ 1 → LX π 0 e → LX π (2 + (T.xl π).length) e

section
variable [DecidableEq A] {p H : ℕ} {T : PTree} {r : Box d} {cen : Path → Vec d} {src : Path → List (Source d)}
  {sh : Shape d A} {addr : Path → A} (L : PassLaws K p T cen src)

/-- The final local expansion. -/
def PassLaws.LE (L : PassLaws K p T cen src) (π : Path) (e : K.E) : Prop := L.LX π (2 + (T.xl π).length) e

/-- The multipole expansion stored for a node. -/
def MEok (L : LeafLaws K p T cen src) (addr : Path → A) (s : Exps K A) (π : Path) : Prop :=
  ∃ e, s.me (addr π) = some e ∧ L.ME π e

/-- The local expansion stored for a node. -/
def LEok (L : PassLaws K p T cen src) (addr : Path → A) (s : Exps K A) (π : Path) : Prop :=
  ∃ e, s.le (addr π) = some e ∧ L.LE π e

/-- The local expansion stored for a node when it is constructed. -/
def LEzero (L : LeafLaws K p T cen src) (addr : Path → A) (s : Exps K A) (π : Path) : Prop :=
  ∃ e, s.le (addr π) = some e ∧ L.LX π 0 e

/-! ## Single iterations -/

theorem leafME_ok (L : LeafLaws K p T cen src) (hT : TreeR T r cen src sh addr H) {t : K.T} (ht : L.cov t) {π : Path} (hπ : T.Mem π)
    (hl : T.leaf π = true) :
    ∃ e, L.ME π e ∧ ∀ s' : Exps K A, s'.t = t → leafME K sh p (addr π) s' = .ok (s'.setMe (addr π) e) := by
  obtain ⟨n, h1, h2, -, -, -, -, h3⟩ := hT.node π hπ
  obtain ⟨e, h4, h5⟩ := L.leaf t π ht hπ hl
  refine ⟨e, h5, fun s' hs => ?_⟩
  subst hs
  unfold leafME
  rw [h1, ok_bind, (h3 hl).1, ok_bind, h2, h4, ok_bind]

theorem nodeME_ok (L : UpLaws K p T cen src) (hT : TreeR T r cen src sh addr H) {s : Exps K A} (ht : L.cov s.t) {π : Path} (hπ : T.Mem π)
    (hl : T.leaf π = false) (hk : ∀ i < 2 ^ d, MEok L.toLeafLaws addr s (i :: π)) :
    ∃ e, L.ME π e ∧ ∀ s' : Exps K A, s'.t = s.t → (∀ i < 2 ^ d, s'.me (addr (i :: π)) = s.me (addr (i :: π))) →
        nodeME K sh (addr π) s' = .ok (s'.setMe (addr π) e) := by
  obtain ⟨n, h1, h2, -, h3, -⟩ := hT.node π hπ
  have : Nonempty K.E := ⟨K.empty⟩
  choose! f hf using hk
  obtain ⟨e, h4, h5⟩ := L.node s.t π f ht hπ hl fun i hi => (hf i hi).2
  refine ⟨e, h5, fun s' hs hm => ?_⟩
  unfold nodeME
  rw [h1, ok_bind, h3 hl]
  have : ((List.range (2 ^ d)).map fun i => some (addr (i :: π))).mapM (childME s') = .ok ((List.range (2 ^ d)).map f) := by
    rw [List.mapM_map]
    refine mapM_ok _ f _ ?_
    intro i hi
    have hi := List.mem_range.mp hi
    simp only [Function.comp, childME, Exps.rdMe]
    rw [hm i hi, (hf i hi).1]
  rw [this, ok_bind, h2, hs, h4, ok_bind]
  simp only
  rw [← hs]

theorem localToLocal_ok (hT : TreeR T r cen src sh addr H) {t : K.T} (ht : L.cov t) {i : ℕ} {τ : Path}
    (hπ : T.Mem (i :: τ)) {e0 eτ : K.E} (h0 : L.LX (i :: τ) 0 e0) (hτ : L.LE τ eτ) :
    ∃ e, L.LX (i :: τ) 1 e ∧
      ∀ s' : Exps K A, s'.t = t → s'.le (addr τ) = some eτ → s'.le (addr (i :: τ)) = some e0 →
        localToLocal K sh (addr (i :: τ)) s' = .ok (s'.setLe (addr (i :: τ)) e) := by
  obtain ⟨n, h1, h2, h3, -⟩ := hT.node _ hπ
  obtain ⟨hsz, e1, e2, h4, h6, h7⟩ := L.l2l t i τ e0 eτ ht hπ h0 hτ
  refine ⟨e2, h7, fun s' hs hp ha => ?_⟩
  subst hs
  unfold localToLocal
  rw [h1, ok_bind, h3]
  simp only [List.tail?, Option.map_some, Exps.rdLe]
  rw [hp]
  simp only [ok_bind]
  rw [if_neg hsz, h2, h4, ok_bind]
  simp only
  rw [ha]
  simp only [ok_bind]
  rw [h6, ok_bind]

theorem multipoleToLocal_ok (hT : TreeR T r cen src sh addr H) {t : K.T} (ht : L.cov t) {π : Path} (hπ : T.Mem π)
    {e0 : K.E} (h0 : L.LX π 1 e0) {s : Exps K A} (hm : ∀ ρ ∈ T.inter π, MEok L.toLeafLaws addr s ρ) :
    ∃ e, L.LX π 2 e ∧
      ∀ s' : Exps K A, s'.t = t → (∀ ρ ∈ T.inter π, s'.me (addr ρ) = s.me (addr ρ)) → s'.le (addr π) = some e0 →
        multipoleToLocal K sh (addr π) s' = .ok (s'.setLe (addr π) e) := by
  obtain ⟨n, h1, h2, -, -, h3, -⟩ := hT.node _ hπ
  have : Nonempty K.E := ⟨K.empty⟩
  choose! f hf using hm
  have hrd : ∀ s' : Exps K A, (∀ ρ ∈ T.inter π, s'.me (addr ρ) = s.me (addr ρ)) →
      n.inter.mapM s'.rdMe = .ok ((T.inter π).map f) := by
    intro s' hs
    rw [h3, List.mapM_map]
    refine mapM_ok _ f _ fun ρ hρ => ?_
    simp only [Function.comp, Exps.rdMe]
    rw [hs ρ hρ, (hf ρ hρ).1]
  by_cases hne : T.inter π = []
  · refine ⟨e0, L.m2l_nil π e0 hπ h0 hne, fun s' hs hm' ha => ?_⟩
    unfold multipoleToLocal
    rw [h1, ok_bind, hrd s' hm', ok_bind, if_neg (by simp [hne]), setLe_self _ _ _ ha]
  · obtain ⟨e1, e2, k1, h6, h7⟩ := L.m2l t π e0 f ht hπ h0 hne fun ρ hρ => (hf ρ hρ).2
    refine ⟨e2, h7, fun s' hs hm' ha => ?_⟩
    subst hs
    unfold multipoleToLocal
    rw [h1, ok_bind, hrd s' hm', ok_bind, if_pos (by simpa [List.length_pos_iff] using hne), h2, k1, ok_bind]
    simp only [Exps.rdLe]
    rw [ha]
    simp only [ok_bind]
    rw [h6, ok_bind]

theorem sourceToLocal_ok (hT : TreeR T r cen src sh addr H) {t : K.T} (ht : L.cov t) {π : Path} (hπ : T.Mem π)
    {e0 : K.E} (h0 : L.LX π 2 e0) :
    ∃ e, L.LE π e ∧ ∀ s' : Exps K A, s'.t = t → s'.le (addr π) = some e0 →
        sourceToLocal K sh p (addr π) s' = .ok (s'.setLe (addr π) e) := by
  have hL := hT.hA.laws hT.hr
  obtain ⟨n, h1, h2, -, -, -, h3, -⟩ := hT.node _ hπ
  have key : ∀ (l : List Path) (j : ℕ), T.xl π = (T.xl π).take j ++ l → j + l.length = (T.xl π).length →
      ∀ e0 : K.E, L.LX π (2 + j) e0 →
      ∃ e, L.LE π e ∧ ∀ s' : Exps K A, s'.t = t → s'.le (addr π) = some e0 →
        (l.map addr).foldlM (sourceToLocalStep K sh p (cen π) (addr π)) s' = .ok (s'.setLe (addr π) e) := by
    intro l
    induction l with
    | nil =>
      intro j _ hj e0 h0
      refine ⟨e0, ?_, fun s' _ ha => ?_⟩
      · unfold PassLaws.LE
        rw [← hj]; simpa using h0
      · rw [List.map_nil, List.foldlM_nil, setLe_self _ _ _ ha]; rfl
    | cons ρ l ih =>
      intro j hs hj e0 h0
      have hjl : j < (T.xl π).length := by simp only [List.length_cons] at hj; omega
      have hget : (T.xl π)[j]? = some ρ := by
        rw [hs, List.getElem?_append_right (by simp), List.length_take, Nat.min_eq_left hjl.le]; simp
      have hρ : ρ ∈ T.xl π := List.mem_of_getElem? hget
      have hρm : T.Mem ρ ∧ T.leaf ρ = true := by
        cases π with
        | nil => simp [PTree.xl] at hρ
        | cons i τ =>
          obtain ⟨a, b, -⟩ := (PTree.mem_xl hL hπ ρ).mp hρ
          exact ⟨a, b⟩
      obtain ⟨m, m1, -, -, -, -, -, m2⟩ := hT.node ρ hρm.1
      obtain ⟨e1, e2, k1, h6, h7⟩ := L.x t π j ρ e0 ht hπ hget h0
      obtain ⟨e3, q1, q3⟩ := ih (j + 1) (by
        have h1 : (T.xl π).drop j = ρ :: l := by
          have := congrArg (List.drop j) hs
          rwa [List.drop_append, List.drop_eq_nil_of_le (as := (T.xl π).take j) (by simp), List.length_take,
            Nat.min_eq_left hjl.le, Nat.sub_self, List.drop_zero, List.nil_append] at this
        have h2 : (T.xl π).drop (j + 1) = l := by rw [← List.drop_drop, h1]; rfl
        have := List.take_append_drop (j + 1) (T.xl π)
        rw [h2] at this
        exact this.symm) (by simp only [List.length_cons] at hj; omega) e2 h7
      refine ⟨e3, q1, fun s' hs ha => ?_⟩
      subst hs
      rw [List.map_cons, List.foldlM_cons]
      have : sourceToLocalStep K sh p (cen π) (addr π) s' (addr ρ) = .ok (s'.setLe (addr π) e2) := by
        unfold sourceToLocalStep
        rw [m1, ok_bind, (m2 hρm.2).1, ok_bind, k1, ok_bind]
        simp only [Exps.rdLe]
        rw [ha]
        simp only [ok_bind]
        rw [h6, ok_bind]
      rw [this, ok_bind, q3 (s'.setLe (addr π) e2) rfl (setLe_le _ _ _), setLe_setLe]
  obtain ⟨e, k1, k3⟩ := key (T.xl π) 0 (by simp) (by simp) e0 h0
  refine ⟨e, k1, fun s' hs ha => ?_⟩
  unfold sourceToLocal
  rw [h1, ok_bind, h3, h2]
  exact k3 s' hs ha

theorem constructLE_ok (hT : TreeR T r cen src sh addr H) {s : Exps K A} (ht : L.cov s.t) {i : ℕ} {τ : Path}
    (hπ : T.Mem (i :: τ)) (hz : LEzero L.toLeafLaws addr s (i :: τ)) (hp : LEok L addr s τ)
    (hm : ∀ ρ ∈ T.inter (i :: τ), MEok L.toLeafLaws addr s ρ) :
    ∃ e, L.LE (i :: τ) e ∧
      ∀ s' : Exps K A, s'.t = s.t → s'.me = s.me → s'.le (addr τ) = s.le (addr τ) →
        s'.le (addr (i :: τ)) = s.le (addr (i :: τ)) →
        constructLE K sh p (addr (i :: τ)) s' = .ok (s'.setLe (addr (i :: τ)) e) := by
  obtain ⟨e0, z1, z2⟩ := hz
  obtain ⟨eτ, p1, p2⟩ := hp
  obtain ⟨e1, a1, a2⟩ := localToLocal_ok L hT ht hπ z2 p2
  obtain ⟨e2, b1, b3⟩ := multipoleToLocal_ok L hT ht hπ a1 hm
  obtain ⟨e3, c1, c3⟩ := sourceToLocal_ok L hT ht hπ b1
  refine ⟨e3, c1, fun s' h1 h2 h3 h4 => ?_⟩
  unfold constructLE
  rw [a2 s' h1 (by rw [h3, p1]) (by rw [h4, z1]), ok_bind,
    b3 (s'.setLe (addr (i :: τ)) e1) h1 (fun ρ _ => by show s'.me _ = _; rw [h2]) (setLe_le _ _ _), ok_bind, setLe_setLe,
    c3 (s'.setLe (addr (i :: τ)) e2) h1 (setLe_le _ _ _), setLe_setLe]

/-! ## Loops -/

omit [DecidableEq A] in
theorem TreeR.map_nodup (hT : TreeR T r cen src sh addr H) {l : List Path} (hl : l.Nodup) (hm : ∀ π ∈ l, T.Mem π) :
    (l.map addr).Nodup := by
  rw [List.nodup_map_iff_inj_on hl]
  exact fun a ha b hb h => hT.inj a b (hm a ha) (hm b hb) h

omit [DecidableEq A] in
theorem TreeR.mem_map (hT : TreeR T r cen src sh addr H) {l : List Path} (hm : ∀ π ∈ l, T.Mem π) {π : Path} (hπ : T.Mem π) :
    addr π ∈ l.map addr ↔ π ∈ l := by
  rw [List.mem_map]
  exact ⟨fun ⟨a, ha, h⟩ => hT.inj a π (hm a ha) hπ h ▸ ha, fun h => ⟨π, h, rfl⟩⟩

/-- A loop over paths that computes multipole expansions. -/
theorem loop_me (hT : TreeR T r cen src sh addr H) {body : A → Exps K A → Outcome (Exps K A)} {l : List Path} (hl : l.Nodup)
    (hm : ∀ π ∈ l, T.Mem π) {s : Exps K A} (P : Path → K.E → Prop)
    (h : ∀ π ∈ l, ∃ e, P π e ∧
      ∀ s', AgreeMe s s' (l.map addr) (addr π) → body (addr π) s' = .ok (s'.setMe (addr π) e)) :
    RaceFreeMe body (l.map addr) s ∧
    ∃ s1, (∀ l', l'.Perm (l.map addr) → forEach body l' s = .ok s1) ∧ s1.t = s.t ∧ s1.le = s.le ∧
      (∀ π ∈ l, ∃ e, s1.me (addr π) = some e ∧ P π e) ∧
      ∀ π, T.Mem π → π ∉ l → s1.me (addr π) = s.me (addr π) := by
  have hnd := hT.map_nodup hl hm
  refine ⟨⟨hnd, ?_⟩, ?_⟩
  · intro a ha
    obtain ⟨π, hπ, rfl⟩ := List.mem_map.mp ha
    obtain ⟨e, -, h2⟩ := h π hπ
    exact ⟨e, h2⟩
  · obtain ⟨s1, h1, h2, h3, h4, h5⟩ := forEach_me (s := s) (body := body)
      (fun a e => ∃ π ∈ l, addr π = a ∧ P π e) hnd (by
        intro a ha
        obtain ⟨π, hπ, rfl⟩ := List.mem_map.mp ha
        obtain ⟨e, h1, h2⟩ := h π hπ
        exact ⟨e, ⟨π, hπ, rfl, h1⟩, h2⟩)
    refine ⟨s1, h1, h2, h3, fun π hπ => ?_, fun π hπ hn => h5 _ ?_⟩
    · obtain ⟨e, h6, ρ, hρ, h7, h8⟩ := h4 (addr π) (List.mem_map.mpr ⟨π, hπ, rfl⟩)
      have := hT.inj ρ π (hm ρ hρ) (hm π hπ) h7
      subst this
      exact ⟨e, h6, h8⟩
    · rwa [hT.mem_map hm hπ]

/-- A loop over paths that computes local expansions. -/
theorem loop_le (hT : TreeR T r cen src sh addr H) {body : A → Exps K A → Outcome (Exps K A)} {l : List Path} (hl : l.Nodup)
    (hm : ∀ π ∈ l, T.Mem π) {s : Exps K A} (P : Path → K.E → Prop)
    (h : ∀ π ∈ l, ∃ e, P π e ∧
      ∀ s', AgreeLe s s' (l.map addr) (addr π) → body (addr π) s' = .ok (s'.setLe (addr π) e)) :
    RaceFreeLe body (l.map addr) s ∧
    ∃ s1, (∀ l', l'.Perm (l.map addr) → forEach body l' s = .ok s1) ∧ s1.t = s.t ∧ s1.me = s.me ∧
      (∀ π ∈ l, ∃ e, s1.le (addr π) = some e ∧ P π e) ∧
      ∀ π, T.Mem π → π ∉ l → s1.le (addr π) = s.le (addr π) := by
  have hnd := hT.map_nodup hl hm
  refine ⟨⟨hnd, ?_⟩, ?_⟩
  · intro a ha
    obtain ⟨π, hπ, rfl⟩ := List.mem_map.mp ha
    obtain ⟨e, -, h2⟩ := h π hπ
    exact ⟨e, h2⟩
  · obtain ⟨s1, h1, h2, h3, h4, h5⟩ := forEach_le (s := s) (body := body)
      (fun a e => ∃ π ∈ l, addr π = a ∧ P π e) hnd (by
        intro a ha
        obtain ⟨π, hπ, rfl⟩ := List.mem_map.mp ha
        obtain ⟨e, h1, h2⟩ := h π hπ
        exact ⟨e, ⟨π, hπ, rfl, h1⟩, h2⟩)
    refine ⟨s1, h1, h2, h3, fun π hπ => ?_, fun π hπ hn => h5 _ ?_⟩
    · obtain ⟨e, h6, ρ, hρ, h7, h8⟩ := h4 (addr π) (List.mem_map.mpr ⟨π, hπ, rfl⟩)
      have := hT.inj ρ π (hm ρ hρ) (hm π hπ) h7
      subst this
      exact ⟨e, h6, h8⟩
    · rwa [hT.mem_map hm hπ]

omit [DecidableEq A] in
theorem MEok.congr {L : LeafLaws K p T cen src} {s s1 : Exps K A} {π : Path} (h : MEok L addr s π)
    (e : s1.me (addr π) = s.me (addr π)) : MEok L addr s1 π := by
  unfold MEok; rw [e]; exact h

/-- State when the passes begin. -/
structure Ready (L : LeafLaws K p T cen src) (addr : Path → A) (s : Exps K A) : Prop where
  cov : L.cov s.t
  zero : ∀ π, T.Mem π → LEzero L addr s π

/-- State when the passes are done. -/
structure Done (L : PassLaws K p T cen src) (addr : Path → A) (s : Exps K A) : Prop where
  cov : L.cov s.t
  me : ∀ π, T.Mem π → 2 ≤ π.length → MEok L.toLeafLaws addr s π
  le : ∀ π, T.Mem π → LEok L addr s π

variable {leafP : List (List Path)} {up dn : ℕ → List Path}

theorem leaf_pass (L : LeafLaws K p T cen src) (hT : TreeR T r cen src sh addr H) (hl : LoopsOK T H leafP up dn) {s : Exps K A} (ht : L.cov s.t) :
    RaceFreeLoops (RaceFreeMe (leafME K sh p)) (leafME K sh p) (leafLoops addr leafP) s ∧
    ∃ s1, (∀ sch, Schedule sch → ∀ k, runLoops (leafME K sh p) sch k (leafLoops addr leafP) s = .ok s1) ∧
      s1.t = s.t ∧ s1.le = s.le ∧ ∀ π, T.Mem π → T.leaf π = true → MEok L addr s1 π := by
  have key := runLoops_inv (RF := RaceFreeMe (leafME K sh p)) (body := leafME K sh p) (s := s)
    (fun j s1 => s1.t = s.t ∧ s1.le = s.le ∧ ∀ π, T.Mem π → (∃ l ∈ leafP.take j, π ∈ l) → MEok L addr s1 π)
    (leafLoops addr leafP) (by
      rintro j hj s0 ⟨a1, a2, a3⟩
      have hj' : j < leafP.length := by simpa [leafLoops] using hj
      have e : (leafLoops addr leafP)[j] = (leafP[j]).map addr := by simp [leafLoops]
      have hm := hl.leaf_mem leafP[j] (List.getElem_mem hj')
      rw [e]
      obtain ⟨b1, s1, b2, b3, b4, b5, b6⟩ := loop_me hT (body := leafME K sh p) (s := s0)
        (hl.leaf_nodup leafP[j] (List.getElem_mem hj')) (fun π hπ => (hm π hπ).1) L.ME (by
          intro π hπ
          obtain ⟨e, c1, c2⟩ := leafME_ok L hT (t := s0.t) (a1 ▸ ht) (hm π hπ).1 (hm π hπ).2
          exact ⟨e, c1, fun s' hs' => c2 s' hs'.1⟩)
      refine ⟨b1, s1, b2, b3.trans a1, b4.trans a2, fun π hπ hin => ?_⟩
      by_cases hc : π ∈ leafP[j]
      · exact b5 π hc
      · obtain ⟨l, hl1, hl2⟩ := hin
        rw [List.take_add_one, List.getElem?_eq_getElem hj', Option.toList_some, List.mem_append, List.mem_singleton] at hl1
        rcases hl1 with h | rfl
        · exact (a3 π hπ ⟨l, h, hl2⟩).congr (b6 π hπ hc)
        · exact absurd hl2 hc) ⟨rfl, rfl, by simp⟩
  obtain ⟨k1, s1, k2, k3, k4, k5⟩ := key
  refine ⟨k1, s1, k2, k3, k4, fun π hπ h => k5 π hπ ?_⟩
  obtain ⟨l, h1, h2⟩ := hl.leaf_all π hπ h
  exact ⟨l, by simpa [leafLoops] using h1, h2⟩

theorem up_pass (L : UpLaws K p T cen src) (hT : TreeR T r cen src sh addr H) (hl : LoopsOK T H leafP up dn) {s : Exps K A} (ht : L.cov s.t)
    (hleaf : ∀ π, T.Mem π → T.leaf π = true → MEok L.toLeafLaws addr s π) :
    RaceFreeLoops (RaceFreeMe (nodeME K sh)) (nodeME K sh) (upLoops addr H up) s ∧
    ∃ s1, (∀ sch, Schedule sch → ∀ k, runLoops (nodeME K sh) sch k (upLoops addr H up) s = .ok s1) ∧
      s1.t = s.t ∧ s1.le = s.le ∧ ∀ π, T.Mem π → T.leaf π = true ∨ 2 ≤ π.length → MEok L.toLeafLaws addr s1 π := by
  have key := runLoops_inv (RF := RaceFreeMe (nodeME K sh)) (body := nodeME K sh) (s := s)
    (fun j s1 => s1.t = s.t ∧ s1.le = s.le ∧ ∀ π, T.Mem π → T.leaf π = true ∨ H ≤ π.length + j → MEok L.toLeafLaws addr s1 π)
    (upLoops addr H up) (by
      rintro j hj s0 ⟨a1, a2, a3⟩
      have hj' : j < H - 2 := by simpa [upLoops] using hj
      have e : (upLoops addr H up)[j] = (up (H - 1 - j)).map addr := by simp [upLoops]
      have hm := hl.up_mem (H - 1 - j) (by omega) (by omega)
      have hmem : ∀ π ∈ up (H - 1 - j), T.Mem π := fun π hπ => ((hm π).mp hπ).1
      rw [e]
      obtain ⟨b1, s1, b2, b3, b4, b5, b6⟩ := loop_me hT (body := nodeME K sh) (s := s0)
        (hl.up_nodup _) hmem L.ME (by
          intro π hπ
          obtain ⟨c1, c2, c3⟩ := (hm π).mp hπ
          have hk : ∀ i < 2 ^ d, T.Mem (i :: π) := fun i hi => c1.cons c3 (by rw [hT.hc]; exact hi)
          obtain ⟨e, d1, d2⟩ := nodeME_ok L hT (s := s0) (a1 ▸ ht) c1 c3 (fun i hi =>
            a3 _ (hk i hi) (Or.inr (by simp only [List.length_cons]; omega)))
          refine ⟨e, d1, fun s' hs' => d2 s' hs'.1 fun i hi => hs'.2.2 _ (Or.inr ?_)⟩
          rw [hT.mem_map hmem (hk i hi), hm]
          simp only [List.length_cons]
          omega)
      refine ⟨b1, s1, b2, b3.trans a1, b4.trans a2, fun π hπ hin => ?_⟩
      by_cases hc : π ∈ up (H - 1 - j)
      · exact b5 π hc
      · refine (a3 π hπ ?_).congr (b6 π hπ hc)
        rcases hin with h | h
        · exact Or.inl h
        · by_cases hlf : T.leaf π = true
          · exact Or.inl hlf
          · right
            rw [hm] at hc
            by_contra hlt
            exact hc ⟨hπ, by omega, by simpa using hlf⟩) ⟨rfl, rfl, fun π hπ h => by
        rcases h with h | h
        · exact hleaf π hπ h
        · refine hleaf π hπ ?_
          by_contra hlf
          have h2 : T.Mem (0 :: π) := hπ.cons (by simpa using hlf) (by rw [hT.hc]; positivity)
          have := hT.hH _ h2
          simp only [List.length_cons] at this
          omega⟩
  obtain ⟨k1, s1, k2, k3, k4, k5⟩ := key
  refine ⟨k1, s1, k2, k3, k4, fun π hπ h => k5 π hπ ?_⟩
  rcases h with h | h
  · exact Or.inl h
  · right
    simp only [upLoops, List.length_map, List.length_range]
    omega

theorem down_pass (hT : TreeR T r cen src sh addr H) (hl : LoopsOK T H leafP up dn) (hH : 1 ≤ H) {s : Exps K A}
    (ht : L.cov s.t) (hz : ∀ π, T.Mem π → LEzero L.toLeafLaws addr s π)
    (hme : ∀ π, T.Mem π → T.leaf π = true ∨ 2 ≤ π.length → MEok L.toLeafLaws addr s π) :
    RaceFreeLoops (RaceFreeLe (constructLE K sh p)) (constructLE K sh p) (downLoops addr H dn) s ∧
    ∃ s1, (∀ sch, Schedule sch → ∀ k, runLoops (constructLE K sh p) sch k (downLoops addr H dn) s = .ok s1) ∧
      s1.t = s.t ∧ s1.me = s.me ∧ ∀ π, T.Mem π → LEok L addr s1 π := by
  have hL := hT.hA.laws hT.hr
  have hF : 1 ≤ firstLevel H ∧ firstLevel H ≤ 2 ∧ firstLevel H ≤ H := by unfold firstLevel; omega
  have key := runLoops_inv (RF := RaceFreeLe (constructLE K sh p)) (body := constructLE K sh p) (s := s)
    (fun j s1 => s1.t = s.t ∧ s1.me = s.me ∧
      (∀ π, T.Mem π → π.length < firstLevel H + j → LEok L addr s1 π) ∧
      ∀ π, T.Mem π → firstLevel H + j ≤ π.length → LEzero L.toLeafLaws addr s1 π)
    (downLoops addr H dn) (by
      rintro j hj s0 ⟨a1, a2, a3, a4⟩
      have hj' : j < H + 1 - firstLevel H := by simpa [downLoops] using hj
      have e : (downLoops addr H dn)[j] = (dn (firstLevel H + j)).map addr := by simp [downLoops]
      have hm := hl.dn_mem (firstLevel H + j) (by omega) (by omega)
      have hmem : ∀ π ∈ dn (firstLevel H + j), T.Mem π := fun π hπ => ((hm π).mp hπ).1
      rw [e]
      obtain ⟨b1, s1, b2, b3, b4, b5, b6⟩ := loop_le hT (body := constructLE K sh p) (s := s0)
        (hl.dn_nodup _) hmem L.LE (by
          intro π hπ
          obtain ⟨c1, c2⟩ := (hm π).mp hπ
          cases π with
          | nil => simp at c2; omega
          | cons i τ =>
            simp only [List.length_cons] at c2
            obtain ⟨e, d1, d2⟩ := constructLE_ok L hT (s := s0) (a1 ▸ ht) c1
              (a4 _ c1 (by simp only [List.length_cons]; omega)) (a3 τ c1.tail (by omega)) (by
                intro ρ hρ
                have hlen := PTree.inter_length hL c1 hρ
                have hρm := ((PTree.mem_inter hL c1 ρ).mp hρ).1
                refine (hme ρ hρm ?_).congr (by rw [a2])
                by_cases h2 : 2 ≤ (i :: τ).length
                · right; omega
                · have : τ = [] := List.eq_nil_of_length_eq_zero (by simp only [List.length_cons] at h2; omega)
                  subst this
                  rw [inter_one hT.hA hT.hr c1] at hρ
                  simp at hρ)
            refine ⟨e, d1, fun s' hs' => d2 s' hs'.1 hs'.2.1 (hs'.2.2 _ (Or.inr ?_)) (hs'.2.2 _ (Or.inl rfl))⟩
            rw [hT.mem_map hmem c1.tail, hm]
            omega)
      refine ⟨b1, s1, b2, b3.trans a1, b4.trans a2, fun π hπ hin => ?_, fun π hπ hin => ?_⟩
      · by_cases hc : π ∈ dn (firstLevel H + j)
        · exact b5 π hc
        · have h2 := b6 π hπ hc
          unfold LEok
          rw [h2]
          refine a3 π hπ ?_
          rw [hm] at hc
          by_contra hlt
          exact hc ⟨hπ, by omega⟩
      · have hc : π ∉ dn (firstLevel H + j) := by rw [hm]; omega
        unfold LEzero
        rw [b6 π hπ hc]
        exact a4 π hπ (by omega)) ⟨rfl, rfl, fun π hπ h => by
          obtain ⟨e, e1, e2⟩ := hz π hπ
          exact ⟨e, e1, L.zero π e hπ (by omega) e2⟩, fun π hπ _ => hz π hπ⟩
  obtain ⟨k1, s1, k2, k3, k4, k5, -⟩ := key
  refine ⟨k1, s1, k2, k3, k4, fun π hπ => k5 π hπ ?_⟩
  have := hT.hH π hπ
  simp only [downLoops, List.length_map, List.length_range]
  omega

/-- The result of the passes does not depend on the schedule, and is what it should be. -/
theorem passes_ok (hT : TreeR T r cen src sh addr H) (hl : LoopsOK T H leafP up dn) (hH : 1 ≤ H) {s : Exps K A}
    (hs : Ready L.toLeafLaws addr s) :
    RaceFreePasses K sh p (constructLE K sh p) (leafLoops addr leafP) (upLoops addr H up) (downLoops addr H dn) s ∧
    ∃ s1, (∀ sch, Schedule sch → passes K sh p (constructLE K sh p) sch (leafLoops addr leafP) (upLoops addr H up)
      (downLoops addr H dn) s = .ok s1) ∧ Done L addr s1 := by
  obtain ⟨a1, s1, a2, a3, a4, a5⟩ := leaf_pass L.toLeafLaws hT hl hs.cov
  obtain ⟨b1, s2, b2, b3, b4, b5⟩ := up_pass L.toUpLaws hT hl (s := s1) (by rw [a3]; exact hs.cov) a5
  obtain ⟨c1, s3, c2, c3, c4, c5⟩ := down_pass L hT hl hH (s := s2) (by rw [b3, a3]; exact hs.cov) (by
    intro π hπ
    unfold LEzero
    rw [b4, a4]
    exact hs.zero π hπ) b5
  refine ⟨⟨a1, fun sch hsch s1' h1 => ?_⟩, s3, fun sch hsch => ?_, ⟨?_, ?_, c5⟩⟩
  · rw [a2 sch hsch] at h1
    cases h1
    refine ⟨b1, fun s2' h2 => ?_⟩
    rw [b2 sch hsch] at h2
    cases h2
    exact c1
  · unfold passes
    rw [a2 sch hsch, ok_bind, b2 sch hsch, ok_bind, c2 sch hsch]
  · rw [c3, b3, a3]; exact hs.cov
  · intro π hπ h
    exact (b5 π hπ (Or.inr h)).congr (by rw [c4])

omit [DecidableEq A] in
/-- Without passes (a tree of a single leaf). -/
theorem Ready.done {s : Exps K A} (hs : Ready L.toLeafLaws addr s) (hH : ∀ π, T.Mem π → π.length ≤ 1) : Done L addr s where
  cov := hs.cov
  me π hπ h := by have := hH π hπ; omega
  le π hπ := by
    obtain ⟨e, e1, e2⟩ := hs.zero π hπ
    exact ⟨e, e1, L.zero π e hπ (hH π hπ) e2⟩

/-! ## Construction of the nodes -/

theorem initAll_ok (L : LeafLaws K p T cen src) (hT : TreeR T r cen src sh addr H) (l : List Path) (hm : ∀ π ∈ l, T.Mem π) (hall : ∀ π, T.Mem π → π ∈ l)
    (s : Exps K A) (hg : L.good s.t) :
    ∃ s1, forEach (initNode K sh p) (l.map addr) s = .ok s1 ∧ Ready L addr s1 := by
  have key : ∀ (l : List Path), (∀ π ∈ l, T.Mem π) → ∀ (s : Exps K A), L.good s.t → ∀ (d : List Path),
      (d ≠ [] → L.cov s.t) → (∀ π ∈ d, T.Mem π ∧ LEzero L addr s π) →
      ∃ s1, forEach (initNode K sh p) (l.map addr) s = .ok s1 ∧ (d ++ l ≠ [] → L.cov s1.t) ∧
        ∀ π ∈ d ++ l, LEzero L addr s1 π := by
    intro l
    induction l with
    | nil =>
      intro _ s _ d hd hz
      exact ⟨s, rfl, by simpa using hd, fun π hπ => (hz π (by simpa using hπ)).2⟩
    | cons a l ih =>
      intro hm s hg d hd hz
      obtain ⟨n, n1, n2, -⟩ := hT.node a (hm a (by simp))
      obtain ⟨t', e, k1, k2, k3, k4⟩ := L.leNew s.t a (hm a (by simp)) hg
      have hstep : initNode K sh p (addr a) s = .ok (({ s with t := t' }.setMe (addr a) K.empty).setLe (addr a) e) := by
        unfold initNode
        rw [n1, ok_bind, n2, k1, ok_bind]
      obtain ⟨s1, q1, q2, q3⟩ := ih (fun π hπ => hm π (by simp [hπ]))
        (({ s with t := t' }.setMe (addr a) K.empty).setLe (addr a) e) (L.cov_good _ k2) (d ++ [a]) (fun _ => k2) (by
          intro π hπ
          have hπm : T.Mem π := by
            rcases List.mem_append.mp hπ with h | h
            · exact (hz π h).1
            · rw [List.mem_singleton.mp h]; exact hm a (by simp)
          refine ⟨hπm, ?_⟩
          by_cases hpa : π = a
          · subst hpa
            exact ⟨e, setLe_le _ _ _, k4⟩
          · have hπd : π ∈ d := by simpa [hpa] using hπ
            obtain ⟨f, f1, f2⟩ := (hz π hπd).2
            refine ⟨f, ?_, f2⟩
            simp only [Exps.setLe, Exps.setMe]
            rw [Function.update_of_ne fun h => hpa (hT.inj π a hπm (hm a (by simp)) h)]
            exact f1)
      refine ⟨s1, ?_, fun _ => q2 (by simp), fun π hπ => q3 π (by simpa using hπ)⟩
      rw [List.map_cons]
      unfold forEach
      rw [List.foldlM_cons, hstep, ok_bind]
      exact q1
  obtain ⟨s1, h1, h2, h3⟩ := key l hm s hg [] (by simp) (by simp)
  have hroot : T.Mem [] := PTree.mem_nil
  refine ⟨s1, h1, h2 ?_, fun π hπ => h3 π (by simpa using hall π hπ)⟩
  intro h
  have := hall [] hroot
  simp only [List.nil_append] at h
  rw [h] at this
  simp at this

end
end FMM.Rel
