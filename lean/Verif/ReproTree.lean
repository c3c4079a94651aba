import Verif.Repro

/-!
# The levels of the trees, for any rounding
-/

namespace FMM.Repro
open Rounded.Inv (bok)
variable {d : ℕ} {α : Type} {rnd : ℝ → ℝ}

/-! ## Adaptive tree -/

/-- Children are one level below, parents one level above. -/
def Lv (h : AHeap d α) : Prop := ∀ π n, h π = some n →
  (∀ i c, n.child i = some c → c.length = π.length + 1) ∧ ∀ q, n.parent = some q → q.length + 1 = π.length

theorem Lv.get {h : AHeap d α} (hh : Lv h) {π : Path} {n : ANode d α} (hn : h.get π = .ok n) :
    (∀ i c, n.child i = some c → c.length = π.length + 1) ∧ ∀ q, n.parent = some q → q.length + 1 = π.length := by
  unfold AHeap.get at hn
  cases e : h π with
  | none => rw [e] at hn; cases hn
  | some m => rw [e] at hn; injection hn with hn; subst hn; exact hh π m e

theorem Lv.update {h : AHeap d α} (hh : Lv h) (π : Path) {n : ANode d α}
    (hn : (∀ i c, n.child i = some c → c.length = π.length + 1) ∧ ∀ q, n.parent = some q → q.length + 1 = π.length) :
    Lv (Function.update h π (some n)) := by
  intro ρ m hm
  by_cases e : ρ = π
  · subst e
    rw [Function.update_self] at hm
    injection hm with hm
    subst hm
    exact hn
  · rw [Function.update_of_ne e] at hm
    exact hh ρ m hm

/-- The state of the loops of one level. -/
def LvState (k : ℕ) (st : LevelState d α) : Prop :=
  Lv st.heap ∧ (∀ π ∈ st.nextNodes, π.length = k + 1) ∧ ∀ π ∈ st.nextLeaves, π.length = k + 1

theorem buildChild_lv {max k : ℕ} {π : Path} (hπ : π.length = k) {cs : ℕ → List α} {st st' : LevelState d α} (h : LvState k st) {i : ℕ}
    (e : Rounded.buildChild rnd max π cs st i = .ok st') : LvState k st' := by
  unfold Rounded.buildChild at e
  obtain ⟨node, h1, e⟩ := bok e
  have hn := h.1.get h1
  dsimp only at e
  have key : ∀ child : ANode d α, (∀ j, child.child j = none) → child.parent = some π → Lv (Function.update
      (Function.update st.heap π (some { node with child := Function.update node.child i (some (i :: π)) })) (i :: π) (some child)) := by
    intro child c1 c2
    refine (h.1.update π (n := { node with child := Function.update node.child i (some (i :: π)) }) ⟨fun j c hc => ?_, hn.2⟩).update _ ⟨fun j c hc => ?_, fun q hq => ?_⟩
    · by_cases hj : j = i
      · subst hj
        simp only [Function.update_self, Option.some.injEq] at hc
        subst hc
        rfl
      · simp only [Function.update_of_ne hj] at hc
        exact hn.1 j c hc
    · rw [c1 j] at hc; cases hc
    · rw [c2] at hq; cases hq; rfl
  by_cases c1 : ¬ max < (cs i).length
  · rw [if_pos c1] at e
    injection e with e
    subst e
    refine ⟨key _ (fun _ => rfl) rfl, h.2.1, fun ρ hρ => ?_⟩
    rcases List.mem_append.mp hρ with hρ | hρ
    · exact h.2.2 ρ hρ
    · rw [List.mem_singleton.mp hρ, List.length_cons, hπ]
  · rw [if_neg c1] at e
    injection e with e
    subst e
    refine ⟨key _ (fun _ => rfl) rfl, fun ρ hρ => ?_, h.2.2⟩
    rcases List.mem_append.mp hρ with hρ | hρ
    · exact h.2.1 ρ hρ
    · rw [List.mem_singleton.mp hρ, List.length_cons, hπ]

theorem buildNode_lv {pos : α → Vec d} {max depth k : ℕ} {level : List Path} (hl : ∀ π ∈ level, π.length = k) {src : List (List α)}
    {st st' : LevelState d α} (h : LvState k st) {i : ℕ} (e : Rounded.buildNode rnd pos max depth level src st i = .ok st') : LvState k st' := by
  unfold Rounded.buildNode at e
  cases h1 : level[i]? with
  | none => rw [h1] at e; cases e
  | some π =>
    cases h2 : src[i]? with
    | none => rw [h1, h2] at e; cases e
    | some l =>
      rw [h1, h2] at e
      dsimp only at e
      obtain ⟨node, h3, e⟩ := bok e
      by_cases c1 : node.depth + 1 ≠ depth
      · rw [if_pos c1] at e; cases e
      · rw [if_neg c1] at e
        obtain ⟨cs, h4, e⟩ := bok e
        exact Rounded.foldlM_inv' (LvState k) _ _ (fun s hs x _ s' e' => buildChild_lv (hl π (List.mem_of_getElem? h1)) hs e') _ _ h e

/-- The list of number `k` contains only paths of length `k`. -/
def Graded (l : List (List Path)) : Prop := ∀ (k : ℕ) (v : List Path), l[k]? = some v → ∀ π ∈ v, π.length = k

theorem Graded.append {l : List (List Path)} (h : Graded l) {v : List Path} (hv : ∀ π ∈ v, π.length = l.length) : Graded (l ++ [v]) := by
  intro k w hw
  rcases Nat.lt_trichotomy k l.length with hk | hk | hk
  · rw [List.getElem?_append_left hk] at hw
    exact h k w hw
  · subst hk
    rw [List.getElem?_append_right (Nat.le_refl _)] at hw
    simp only [Nat.sub_self, List.getElem?_cons_zero, Option.some.injEq] at hw
    subst hw
    exact hv
  · have : (l ++ [v]).length ≤ k := by simp; omega
    rw [List.getElem?_eq_none this] at hw
    cases hw

theorem buildLoop_lv {pos : α → Vec d} {max : ℕ} : ∀ (fuel depth : ℕ) {st : BuildState d α} {r : BuildState d α × ℕ}, Lv st.heap → Graded st.nodes →
    Graded st.leaves → st.nodes.length = depth + 1 → st.leaves.length = depth + 1 → [] ∈ st.nodes.flatten →
      Rounded.buildLoop rnd pos max fuel depth st = .ok r → Lv r.1.heap ∧ Graded r.1.nodes ∧ Graded r.1.leaves ∧ [] ∈ r.1.nodes.flatten
  | 0, depth, st, r, _, _, _, _, _, _, e => by cases e
  | fuel + 1, depth, st, r, h1, h2, h3, h4, h5, h6, e => by
    unfold Rounded.buildLoop at e
    cases hl : st.nodes[depth]? with
    | none => rw [hl] at e; cases e
    | some level =>
      rw [hl] at e
      dsimp only at e
      obtain ⟨q, h7, e⟩ := bok e
      have hlev := h2 depth level hl
      have hq : LvState depth q := Rounded.foldlM_inv' (LvState depth) _ _ (fun s hs x _ s' e' => buildNode_lv hlev hs e') _ _
        ⟨h1, fun _ h => (by cases h), fun _ h => (by cases h)⟩ h7
      have hL : Graded (st.leaves ++ [q.nextLeaves]) := h3.append fun π hπ => by rw [hq.2.2 π hπ, h5]
      by_cases c1 : q.nextNodes ≠ []
      · simp only [if_pos c1] at e
        refine buildLoop_lv fuel (depth + 1) (st := ⟨q.heap, st.nodes ++ [q.nextNodes], st.leaves ++ [q.nextLeaves], q.temp⟩) hq.1 (h2.append fun π hπ => by rw [hq.2.1 π hπ, h4]) hL (by simp [h4]) (by simp [h5]) ?_ e
        rw [List.flatten_append]
        exact List.mem_append_left _ h6
      · simp only [if_neg c1] at e
        injection e with e
        subst e
        exact ⟨hq.1, h2, hL, h6⟩

/-- The levels of an adaptive tree with more than one node. -/
theorem adaptiveBuild_lv {fuel : ℕ} {pos : α → Vec d} {r : Rounded.RBox ℝ d} {items : List α} {max : ℕ} (hm : ¬ items.length ≤ max)
    {st : BuildState d α × ℕ} (e : Rounded.adaptiveBuild rnd fuel pos r items max = .ok st) :
    Lv st.1.heap ∧ Graded st.1.nodes ∧ Graded st.1.leaves ∧ [] ∈ st.1.nodes.flatten := by
  unfold Rounded.adaptiveBuild at e
  rw [if_neg hm] at e
  refine buildLoop_lv fuel 0 ?_ ?_ ?_ rfl rfl (by simp) e
  · intro π n hn
    unfold rootHeap at hn
    dsimp only at hn
    by_cases c : π = []
    · rw [if_pos c] at hn
      injection hn with hn
      subst hn
      exact ⟨fun _ _ h => (by cases h), fun _ h => (by cases h)⟩
    · rw [if_neg c] at hn; cases hn
  · intro k v hv π hπ
    cases k with
    | zero => cases hv; rw [List.mem_singleton.mp hπ]; rfl
    | succ k => cases hv
  · intro k v hv π hπ
    cases k with
    | zero => cases hv; cases hπ
    | succ k => cases hv

theorem vecGet_ok {β : Type} {v : List β} {i : ℕ} {x : β} (h : vecGet v i = .ok x) : v[i]? = some x := by
  unfold vecGet at h
  cases e : v[i]? with
  | none => rw [e] at h; cases h
  | some y => rw [e] at h; cases h; rfl

theorem vecAt_ok {β : Type} {v : List β} {i : ℕ} {x : β} (h : vecAt v i = .ok x) : v[i]? = some x := by
  unfold vecAt at h
  cases e : v[i]? with
  | none => rw [e] at h; cases h
  | some y => rw [e] at h; cases h; rfl

/-- All nodes of a loop are on the same level. -/
theorem adaptiveUp_level {nodes : List (List Path)} (hn : Graded nodes) {h : ℕ} {up : List (List Path)} (e : adaptiveUp nodes h = .ok up) :
    ∀ l ∈ up, ∃ k, ∀ π ∈ l, π.length = k := by
  unfold adaptiveUp at e
  exact mapM_all _ (fun i _ l hl => ⟨_, hn _ l (vecGet_ok hl)⟩) e

theorem adaptiveDown_level {nodes leaves : List (List Path)} (hn : Graded nodes) (hv : Graded leaves) {h : ℕ} {down : List (List Path)}
    (e : adaptiveDown nodes leaves h = .ok down) : ∀ l ∈ down, ∃ k, ∀ π ∈ l, π.length = k := by
  unfold adaptiveDown at e
  obtain ⟨ds, h1, e⟩ := bok e
  obtain ⟨fin, h2, e⟩ := bok e
  obtain rfl := (Except.ok.inj e).symm
  intro l hl
  rcases List.mem_append.mp hl with hl | hl
  · refine mapM_all (P := fun l => ∃ k, ∀ π ∈ l, π.length = k) _ (fun i _ l hl => ?_) h1 l hl
    obtain ⟨a, ha, hl⟩ := bok hl
    obtain ⟨b, hb, hl⟩ := bok hl
    obtain rfl := (Except.ok.inj hl).symm
    refine ⟨i + 2, fun π hπ => ?_⟩
    rcases List.mem_append.mp hπ with hπ | hπ
    · exact hn _ a (vecGet_ok ha) π hπ
    · exact hv _ b (vecGet_ok hb) π hπ
  · rw [List.mem_singleton.mp hl]
    exact ⟨h, hv h fin (vecAt_ok h2)⟩

theorem adaptiveShape_child {heap : AHeap d (Source d)} (hh : Lv heap) {nb : Nbh} {a b : Path} (h : IsChild (adaptiveShape heap nb) a b) :
    b.length = a.length + 1 := by
  obtain ⟨n, h1, h2⟩ := h
  unfold adaptiveShape at h1
  obtain ⟨m, h3, h1⟩ := bok h1
  obtain rfl := (Except.ok.inj h1).symm
  obtain ⟨i, -, hi⟩ := List.mem_map.mp h2
  exact (hh.get h3).1 i b hi

theorem adaptiveShape_parent {heap : AHeap d (Source d)} (hh : Lv heap) {nb : Nbh} {a b : Path} (h : IsParent (adaptiveShape heap nb) a b) :
    b.length + 1 = a.length := by
  obtain ⟨n, h1, h2⟩ := h
  unfold adaptiveShape at h1
  obtain ⟨m, h3, h1⟩ := bok h1
  obtain rfl := (Except.ok.inj h1).symm
  exact (hh.get h3).2 b h2

/-- An adaptive tree does not depend on the schedule. -/
theorem adaptiveFmm_repro {K : Kit d} (Z : ∀ p, Settles K p) {rlog : ℝ → ℝ} {nrm : Vec d → ℝ} {fuel : ℕ} {sch sch' : ℕ → List Path → List Path}
    (h1 : Schedule sch) (h2 : Schedule sch') {t : K.T} {S : List (Source d)} {max : ℕ} {eps : ℝ} {T : AdaptiveFmm K}
    (e : Rounded.adaptiveFmm rnd rlog nrm K fuel sch t S max eps = .ok T) :
    Rounded.adaptiveFmm rnd rlog nrm K fuel sch' t S max eps = .ok T := by
  unfold Rounded.adaptiveFmm at e ⊢
  obtain ⟨T0, h0, e⟩ := bok e
  rw [h0, ok_bind]
  by_cases c1 : S.length ≤ max
  · rw [if_pos c1] at e ⊢; exact e
  · rw [if_neg c1] at e ⊢
    by_cases c2 : T0.height ≠ T0.nodes.length ∨ T0.height + 1 ≠ T0.leaves.length
    · rw [if_pos c2] at e; cases e
    · rw [if_neg c2] at e ⊢
      obtain ⟨up, e1, e⟩ := bok e
      obtain ⟨down, e2, e⟩ := bok e
      obtain ⟨s, e3, e⟩ := bok e
      rw [e1, ok_bind, e2, ok_bind]
      have key : Lv T0.heap ∧ Graded T0.nodes ∧ Graded T0.leaves ∧ (Z T0.order).Inv T0.exps := by
        unfold Rounded.adaptiveInit at h0
        obtain ⟨order, -, h0⟩ := bok h0
        cases hb : Rounded.sourceBox rnd S with
        | none => rw [hb] at h0; cases h0
        | some r =>
          rw [hb] at h0
          dsimp only at h0
          obtain ⟨⟨st, h, nb⟩, k1, h0⟩ := bok h0
          obtain ⟨x, k2, h0⟩ := bok h0
          injection h0 with h0
          subst h0
          unfold Rounded.adaptiveLists at k1
          obtain ⟨⟨st', h'⟩, k3, k1⟩ := bok k1
          dsimp only at k1
          rw [if_neg c1] at k1
          obtain ⟨nb', -, k1⟩ := bok k1
          injection k1 with k1
          obtain ⟨rfl, rfl, rfl⟩ : st' = st ∧ h' = h ∧ nb' = nb := by simpa using k1
          obtain ⟨q1, q2, q3, q4⟩ := adaptiveBuild_lv c1 k3
          exact ⟨q1, q2, q3, init_inv (Z := Z order) (List.ne_nil_of_mem (List.mem_append_left _ q4)) k2⟩
      obtain ⟨k1, k2, k3, k4⟩ := key
      have e4 := passes_perm (Z := Z T0.order) (fun a => constructLE_frame T0.shape a) h1 h2 (fun l hl a ha b hb hc => ?_) (fun l hl a ha b hb hc => ?_) k4 e3
      · rw [e4, ok_bind]; exact e
      · obtain ⟨k, hk⟩ := adaptiveUp_level k2 e1 l hl
        have := adaptiveShape_child k1 hc
        rw [hk a ha, hk b hb] at this
        omega
      · obtain ⟨k, hk⟩ := adaptiveDown_level k2 k3 e2 l hl
        have := adaptiveShape_parent k1 hc
        rw [hk a ha, hk b hb] at this
        omega

/-! ## Balanced tree -/

/-- The arrays of a balanced tree, if their construction succeeds. -/
theorem balancedNodes_shape (hd : 2 ≤ d) {fuel : ℕ} {r : Rounded.RBox ℝ d} {h : ℕ} {m : BMem d} (e : Rounded.balancedNodes rnd fuel r h = .ok m) :
    m = Rounded.liftM (Rounded.bxB rnd r h) (bfull r.exact h) := by
  have hl : d * h < 64 := by
    by_contra c
    have hc : ¬ (2 ^ d) ^ h < 2 ^ 64 := by
      rw [← pow_mul]
      exact not_lt.mpr (Nat.pow_le_pow_right (by norm_num) (by omega))
    unfold Rounded.balancedNodes balancedLeaves at e
    rw [if_neg hc, err_bind] at e
    cases e
  have key := Rounded.balancedNodes_lift (rnd := rnd) (r := r) hd hl (Max.max fuel (off (2 ^ d) (h + 1))) (Nat.le_max_right ..)
  have mono : Rounded.balancedNodes rnd (Max.max fuel (off (2 ^ d) (h + 1))) r h = .ok m := by
    unfold Rounded.balancedNodes at e ⊢
    obtain ⟨nl, h1, e⟩ := bok e
    rw [h1, ok_bind]
    dsimp only at e ⊢
    by_cases c : h = 0
    · rw [if_pos c] at e ⊢; exact e
    · rw [if_neg c] at e ⊢
      obtain ⟨m1, h2, e⟩ := bok e
      rw [h2, ok_bind]
      unfold traverseBFS at e ⊢
      exact bfsLoop_mono _ _ _ (Nat.le_max_left ..) _ _ _ e
  rw [mono] at key
  exact Except.ok.inj key

theorem balancedShape_path {bx : BAddr → Box d} {r : Box d} {h : ℕ} {src : BSrc (Source d)} {nb : BNbh} {π : Path} (hv : ValidPath d π)
    (hl : π.length ≤ h) {n : NodeRec d BAddr} (e : balancedShape (Rounded.liftM bx (bfull r h)) src nb (baddr d h π) = .ok n) :
    n.parent = π.tail?.map (baddr d h) ∧ ∀ b, some b ∈ n.children → ∃ i, i < 2 ^ d ∧ b = baddr d h (i :: π) := by
  obtain ⟨k, h1, -, -, h2, h3⟩ := bfull_get_path r hv hl
  unfold balancedShape at e
  rw [Rounded.liftM_get_ok h1, ok_bind] at e
  obtain rfl := (Except.ok.inj e).symm
  refine ⟨h2, fun b hb => ?_⟩
  obtain ⟨i, hi, hb⟩ := List.mem_map.mp hb
  simp only [h3] at hb
  by_cases c : i < 2 ^ d ∧ π.length < h
  · rw [if_pos c] at hb
    cases hb
    exact ⟨i, c.1, rfl⟩
  · rw [if_neg c] at hb; cases hb

/-- All nodes of a loop are on the same level. -/
theorem balancedLevel (hd : 2 ≤ d) {h : ℕ} {l : List BAddr} (hl : l ∈ balancedUp d h ∨ l ∈ balancedDown d h ((2 ^ d) ^ h)) :
    ∃ k ≤ h, ∀ a ∈ l, ∃ π, ValidPath d π ∧ π.length = k ∧ a = baddr d h π := by
  have lev : ∀ k, k < h → ∀ a ∈ levelAddrs d k, ∃ π, ValidPath d π ∧ π.length = k ∧ a = baddr d h π := by
    intro k hk a ha
    rw [levelAddrs_eq hd hk] at ha
    obtain ⟨π, hπ, rfl⟩ := List.mem_map.mp ha
    obtain ⟨k1, k2⟩ := (mem_levelPaths k π).mp hπ
    exact ⟨π, k1, k2, rfl⟩
  have leaf : ∀ a ∈ balancedLeafLoop ((2 ^ d) ^ h), ∃ π, ValidPath d π ∧ π.length = h ∧ a = baddr d h π := by
    intro a ha
    rw [balancedLeafLoop_eq] at ha
    obtain ⟨π, hπ, rfl⟩ := List.mem_map.mp ha
    obtain ⟨k1, k2⟩ := (mem_levelPaths h π).mp hπ
    exact ⟨π, k1, k2, rfl⟩
  rcases hl with hl | hl
  · obtain ⟨i, hi, rfl⟩ := List.mem_map.mp hl
    have hi := List.mem_range.mp hi
    exact ⟨h - 1 - i, by omega, lev _ (by omega)⟩
  · rcases List.mem_append.mp hl with hl | hl
    · obtain ⟨i, hi, rfl⟩ := List.mem_map.mp hl
      have hi := List.mem_range.mp hi
      exact ⟨i + 2, by omega, lev _ (by omega)⟩
    · rw [List.mem_singleton.mp hl]
      exact ⟨h, Nat.le_refl _, leaf⟩

/-- A balanced tree does not depend on the schedule. -/
theorem balancedFmm_repro (hd : 2 ≤ d) {K : Kit d} (Z : ∀ p, Settles K p) {rlog : ℝ → ℝ} {nrm : Vec d → ℝ} {fuel : ℕ}
    {sch sch' : ℕ → List BAddr → List BAddr} (h1 : Schedule sch) (h2 : Schedule sch') {t : K.T} {S : List (Source d)} {n : ℕ} {eps : ℝ}
    {T : BalancedFmm K} (e : Rounded.balancedFmm rnd rlog nrm K fuel sch t S n eps = .ok T) :
    Rounded.balancedFmm rnd rlog nrm K fuel sch' t S n eps = .ok T := by
  unfold Rounded.balancedFmm at e ⊢
  obtain ⟨T0, h0, e⟩ := bok e
  rw [h0, ok_bind]
  by_cases c1 : T0.height = 0
  · rw [if_pos c1] at e ⊢; exact e
  · rw [if_neg c1] at e ⊢
    obtain ⟨s, e3, e⟩ := bok e
    have key : ∃ bx r, T0.mem = Rounded.liftM bx (bfull r T0.height) ∧ (Z T0.order).Inv T0.exps := by
      unfold Rounded.balancedInit at h0
      obtain ⟨order, -, h0⟩ := bok h0
      obtain ⟨h, -, h0⟩ := bok h0
      cases hb : Rounded.sourceBox rnd S with
      | none => rw [hb] at h0; cases h0
      | some r =>
        rw [hb] at h0
        dsimp only at h0
        obtain ⟨⟨m, src, nb⟩, k1, h0⟩ := bok h0
        obtain ⟨x, k2, h0⟩ := bok h0
        injection h0 with h0
        subst h0
        unfold Rounded.balancedLists at k1
        obtain ⟨m', k3, k1⟩ := bok k1
        have k4 := balancedNodes_shape hd k3
        have k5 : m' = m := by
          dsimp only at k1
          by_cases c : h = 0
          · rw [if_pos c] at k1
            obtain ⟨src', -, k1⟩ := bok k1
            obtain ⟨nb', -, k1⟩ := bok k1
            exact congrArg Prod.fst (Except.ok.inj k1)
          · rw [if_neg c] at k1
            obtain ⟨src', -, k1⟩ := bok k1
            obtain ⟨nb', -, k1⟩ := bok k1
            exact congrArg Prod.fst (Except.ok.inj k1)
        subst k5
        refine ⟨_, _, k4, init_inv (Z := Z order) ?_ k2⟩
        have : 0 < m'.nLeaves := by
          rw [k4]
          show 0 < (2 ^ d) ^ h
          positivity
        refine List.ne_nil_of_mem (a := BAddr.leaf 0) (List.mem_append_right _ (List.mem_map.mpr ⟨0, List.mem_range.mpr this, rfl⟩))
    obtain ⟨bx, r, k1, k2⟩ := key
    have hn : T0.mem.nLeaves = (2 ^ d) ^ T0.height := by rw [k1]; rfl
    have e4 := passes_perm (Z := Z T0.order) (fun a => balancedLE_frame T0.shape a) h1 h2 (fun l hl a ha b hb hc => ?_) (fun l hl a ha b hb hc => ?_) k2 e3
    · rw [e4, ok_bind]; exact e
    · obtain ⟨k, hk, hk'⟩ := balancedLevel hd (Or.inl hl)
      obtain ⟨π, v1, l1, rfl⟩ := hk' a ha
      obtain ⟨ρ, v2, l2, rfl⟩ := hk' b hb
      obtain ⟨n, g1, g2⟩ := hc
      unfold BalancedFmm.shape at g1
      rw [k1] at g1
      obtain ⟨i, hi, hb'⟩ := (balancedShape_path v1 (by omega) g1).2 _ g2
      have hv : ValidPath d (i :: π) := by
        intro j hj
        rcases List.mem_cons.mp hj with rfl | hj
        · exact hi
        · exact v1 j hj
      have := congrArg List.length (baddr_inj v2 hv hb')
      rw [List.length_cons, l1, l2] at this
      omega
    · rw [hn] at hl
      obtain ⟨k, hk, hk'⟩ := balancedLevel hd (Or.inr hl)
      obtain ⟨π, v1, l1, rfl⟩ := hk' a ha
      obtain ⟨ρ, v2, l2, rfl⟩ := hk' b hb
      obtain ⟨n, g1, g2⟩ := hc
      unfold BalancedFmm.shape at g1
      rw [k1] at g1
      have hb' := (balancedShape_path v1 (by omega) g1).1
      rw [g2] at hb'
      cases π with
      | nil => cases hb'
      | cons i π =>
        have h3 : ValidPath d π := fun j hj => v1 j (List.mem_cons_of_mem _ hj)
        have h4 : baddr d T0.height ρ = baddr d T0.height π := Option.some.inj hb'
        have := congrArg List.length (baddr_inj v2 h3 h4)
        rw [List.length_cons] at l1
        omega

end FMM.Repro
