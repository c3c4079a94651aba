import Verif.RoundedFmm

/-!
# Invariants of the boxes and of the sources of the nodes

A property of boxes that passes from a box to its children holds for every node of a tree, and every source in a leaf is one of the sources given
to the constructor.
-/

namespace FMM.Rounded.Inv
variable {d : ℕ} {α : Type} {rnd : ℝ → ℝ} {P : Box d → Prop} {Q : α → Prop}

theorem bok {α β : Type} {x : Outcome α} {f : α → Outcome β} {b : β} (h : (x >>= f) = .ok b) : ∃ a, x = .ok a ∧ f a = .ok b := by
  cases x with
  | error e => cases h
  | ok a => exact ⟨a, rfl, h⟩

/-- Boxes and sources of an adaptive tree. -/
def HInv (P : Box d → Prop) (Q : α → Prop) (h : AHeap d α) : Prop := ∀ π n, h π = some n → P n.box ∧ ∀ s ∈ n.items, Q s

theorem HInv.get {h : AHeap d α} (hh : HInv P Q h) {π : Path} {n : ANode d α} (hn : h.get π = .ok n) : P n.box ∧ ∀ s ∈ n.items, Q s := by
  unfold AHeap.get at hn
  cases e : h π with
  | none => rw [e] at hn; cases hn
  | some m => rw [e] at hn; injection hn with hn; subst hn; exact hh π m e

theorem HInv.update {h : AHeap d α} (hh : HInv P Q h) (π : Path) {n : ANode d α} (hn : P n.box ∧ ∀ s ∈ n.items, Q s) :
    HInv P Q (Function.update h π (some n)) := by
  intro ρ m hm
  by_cases e : ρ = π
  · subst e
    rw [Function.update_self] at hm
    injection hm with hm
    subst hm
    exact hn
  · rw [Function.update_of_ne e] at hm
    exact hh ρ m hm

theorem refineOrthant_inv {pos : α → Vec d} {c : Vec d} {l : List α} (hl : ∀ s ∈ l, Q s) {cs : ℕ → List α} (h : refineOrthant pos c l = .ok cs) :
    ∀ i, ∀ s ∈ cs i, Q s := by
  refine foldlM_inv' (fun cs => ∀ i, ∀ s ∈ cs i, Q s) _ l ?_ _ cs (fun i s hs => by cases hs) h
  intro cs hcs s hs cs' h' i
  dsimp only at h'
  by_cases c1 : FMM.getOrthant c (pos s) < 2 ^ d
  · rw [if_pos c1] at h'
    injection h' with h'
    subst h'
    by_cases e : i = FMM.getOrthant c (pos s)
    · subst e
      rw [Function.update_self]
      intro t ht
      rcases List.mem_append.mp ht with ht | ht
      · exact hcs _ t ht
      · rw [List.mem_singleton.mp ht]; exact hl s hs
    · rw [Function.update_of_ne e]; exact hcs i
  · rw [if_neg c1] at h'; cases h'

/-- The state of the loops of one level. -/
def LInv (P : Box d → Prop) (Q : α → Prop) (st : LevelState d α) : Prop := HInv P Q st.heap ∧ ∀ l ∈ st.temp, ∀ s ∈ l, Q s

theorem buildChild_inv (hP : ∀ b i, P b → P ((toR b).child rnd i).exact) {max : ℕ} {π : Path} {cs : ℕ → List α} (hcs : ∀ i, ∀ s ∈ cs i, Q s)
    {st st' : LevelState d α} (h : LInv P Q st) {i : ℕ} (e : buildChild rnd max π cs st i = .ok st') : LInv P Q st' := by
  unfold buildChild at e
  obtain ⟨node, h1, e⟩ := bok e
  have hn := h.1.get h1
  dsimp only at e
  by_cases c1 : ¬ max < (cs i).length
  · rw [if_pos c1] at e
    injection e with e
    subst e
    exact ⟨(h.1.update π (n := { node with child := Function.update node.child i (some (i :: π)) }) hn).update _
      ⟨hP _ _ hn.1, fun s hs => by simp only [if_pos c1] at hs; exact hcs i s hs⟩, h.2⟩
  · rw [if_neg c1] at e
    injection e with e
    subst e
    refine ⟨(h.1.update π (n := { node with child := Function.update node.child i (some (i :: π)) }) hn).update _
      ⟨hP _ _ hn.1, fun s hs => by simp only [if_neg c1] at hs; cases hs⟩, ?_⟩
    intro l hl
    rcases List.mem_append.mp hl with hl | hl
    · exact h.2 l hl
    · rw [List.mem_singleton.mp hl]; exact hcs i

theorem buildNode_inv (hP : ∀ b i, P b → P ((toR b).child rnd i).exact) {pos : α → Vec d} {max depth : ℕ} {level : List Path} {src : List (List α)}
    (hsrc : ∀ l ∈ src, ∀ s ∈ l, Q s) {st st' : LevelState d α} (h : LInv P Q st) {i : ℕ}
    (e : buildNode rnd pos max depth level src st i = .ok st') : LInv P Q st' := by
  unfold buildNode at e
  cases h1 : level[i]? with
  | none => rw [h1] at e; cases e
  | some π =>
    cases h2 : src[i]? with
    | none => rw [h1, h2] at e; cases e
    | some l =>
      rw [h1, h2] at e
      dsimp only at e
      obtain ⟨node, h3, e⟩ := bok e
      by_cases c1 : node.depth + 1 ≠ depth
      · rw [if_pos c1] at e; cases e
      · rw [if_neg c1] at e
        obtain ⟨cs, h4, e⟩ := bok e
        have hcs := refineOrthant_inv (hsrc l (List.mem_of_getElem? h2)) h4
        exact foldlM_inv' (LInv P Q) _ _ (fun s hs x _ s' e' => buildChild_inv hP hcs hs e') _ _ h e

theorem buildLoop_inv (hP : ∀ b i, P b → P ((toR b).child rnd i).exact) {pos : α → Vec d} {max : ℕ} :
    ∀ (fuel depth : ℕ) {st : BuildState d α} {r : BuildState d α × ℕ}, HInv P Q st.heap → (∀ l ∈ st.nodeSources, ∀ s ∈ l, Q s) →
      buildLoop rnd pos max fuel depth st = .ok r → HInv P Q r.1.heap
  | 0, depth, st, r, _, _, e => by cases e
  | fuel + 1, depth, st, r, h1, h2, e => by
    unfold buildLoop at e
    cases hl : st.nodes[depth]? with
    | none => rw [hl] at e; cases e
    | some level =>
      rw [hl] at e
      dsimp only at e
      obtain ⟨q, h3, e⟩ := bok e
      have hq : LInv P Q q := foldlM_inv' (LInv P Q) _ _ (fun s hs x _ s' e' => buildNode_inv hP h2 hs e') _ _ ⟨h1, fun l hl => by cases hl⟩ h3
      by_cases c1 : q.nextNodes ≠ []
      · rw [if_pos c1] at e
        exact buildLoop_inv hP fuel (depth + 1) hq.1 hq.2 e
      · rw [if_neg c1] at e
        injection e with e
        subst e
        exact hq.1

theorem adaptiveBuild_inv (hP : ∀ b i, P b → P ((toR b).child rnd i).exact) {fuel : ℕ} {pos : α → Vec d} {r : RBox ℝ d} (hr : P r.exact) {items : List α}
    (hQ : ∀ s ∈ items, Q s) {max : ℕ} {st : BuildState d α × ℕ} (e : adaptiveBuild rnd fuel pos r items max = .ok st) : HInv P Q st.1.heap := by
  have hroot : ∀ (b : Bool) (l : List α), (∀ s ∈ l, Q s) → HInv P Q (rootHeap r.exact b l) := by
    intro b l hl π n hn
    unfold rootHeap at hn
    by_cases c : π = []
    · rw [if_pos c] at hn
      injection hn with hn
      subst hn
      exact ⟨hr, hl⟩
    · rw [if_neg c] at hn; cases hn
  unfold adaptiveBuild at e
  by_cases c : items.length ≤ max
  · rw [if_pos c] at e
    injection e with e
    subst e
    exact hroot _ _ hQ
  · rw [if_neg c] at e
    refine buildLoop_inv hP fuel 0 (hroot false [] (fun s hs => by cases hs)) ?_ e
    intro l hl
    rw [List.mem_singleton.mp hl]
    exact hQ

theorem adaptiveLists_inv (hP : ∀ b i, P b → P ((toR b).child rnd i).exact) {nrm : Vec d → ℝ} {fuel : ℕ} {pos : α → Vec d} {r : RBox ℝ d} (hr : P r.exact)
    {items : List α} (hQ : ∀ s ∈ items, Q s) {max : ℕ} {q : BuildState d α × ℕ × Nbh} (e : adaptiveLists rnd nrm fuel pos r items max = .ok q) :
    HInv P Q q.1.heap := by
  unfold adaptiveLists at e
  obtain ⟨⟨st, h⟩, h1, e⟩ := bok e
  have key := adaptiveBuild_inv hP hr hQ h1
  dsimp only at e
  by_cases c : items.length ≤ max
  · rw [if_pos c] at e
    obtain ⟨nb, -, e⟩ := bok e
    injection e with e
    subst e
    exact key
  · rw [if_neg c] at e
    obtain ⟨nb, -, e⟩ := bok e
    injection e with e
    subst e
    exact key

/-- Every node of an adaptive tree. -/
theorem adaptiveFmm_inv {P : Box d → Prop} {Q : Source d → Prop} (hP : ∀ b i, P b → P ((toR b).child rnd i).exact) {rlog : ℝ → ℝ} {nrm : Vec d → ℝ}
    {K : Kit d} {fuel : ℕ} {sch : ℕ → List Path → List Path} {t : K.T} {S : List (Source d)} (hr : ∀ r, sourceBox rnd S = some r → P r.exact)
    (hQ : ∀ s ∈ S, Q s) {max : ℕ} {eps : ℝ} {T : AdaptiveFmm K} (e : adaptiveFmm rnd rlog nrm K fuel sch t S max eps = .ok T) : HInv P Q T.heap := by
  have init : ∀ T, adaptiveInit rnd rlog nrm K fuel t S max eps = .ok T → HInv P Q T.heap := by
    intro T e
    unfold adaptiveInit at e
    obtain ⟨order, -, e⟩ := bok e
    cases hb : sourceBox rnd S with
    | none => rw [hb] at e; cases e
    | some r =>
      rw [hb] at e
      dsimp only at e
      obtain ⟨⟨st, h, nb⟩, h1, e⟩ := bok e
      obtain ⟨s, -, e⟩ := bok e
      injection e with e
      subst e
      exact adaptiveLists_inv hP (hr r hb) hQ h1
  unfold adaptiveFmm at e
  obtain ⟨T0, h0, e⟩ := bok e
  by_cases c1 : S.length ≤ max
  · rw [if_pos c1] at e
    injection e with e
    subst e
    exact init _ h0
  · rw [if_neg c1] at e
    by_cases c2 : T0.height ≠ T0.nodes.length ∨ T0.height + 1 ≠ T0.leaves.length
    · rw [if_pos c2] at e; cases e
    · rw [if_neg c2] at e
      obtain ⟨up, -, e⟩ := bok e
      obtain ⟨down, -, e⟩ := bok e
      obtain ⟨s, -, e⟩ := bok e
      injection e with e
      subst e
      exact init T0 h0

/-! ## Balanced tree -/

/-- Boxes of a balanced tree. -/
def MInv (P : Box d → Prop) (m : BMem d) : Prop := (∀ i n, m.nodes i = some n → P n.box) ∧ ∀ i n, m.leaves i = some n → P n.box

theorem MInv.get {m : BMem d} (h : MInv P m) {a : BAddr} {n : BNode d} (hn : m.get a = .ok n) : P n.box := by
  cases a with
  | node i =>
    unfold BMem.get at hn
    dsimp only at hn
    by_cases c : i < m.nNodes
    · rw [if_pos c] at hn
      cases e : m.nodes i with
      | none => rw [e] at hn; cases hn
      | some k => rw [e] at hn; injection hn with hn; subst hn; exact h.1 i k e
    · rw [if_neg c] at hn; cases hn
  | leaf i =>
    unfold BMem.get at hn
    dsimp only at hn
    by_cases c : i < m.nLeaves
    · rw [if_pos c] at hn
      cases e : m.leaves i with
      | none => rw [e] at hn; cases hn
      | some k => rw [e] at hn; injection hn with hn; subst hn; exact h.2 i k e
    · rw [if_neg c] at hn; cases hn

theorem MInv.set {m m' : BMem d} (h : MInv P m) {a : BAddr} {n : BNode d} (hn : P n.box) (e : m.set a n = .ok m') : MInv P m' := by
  cases a with
  | node i =>
    unfold BMem.set at e
    dsimp only at e
    by_cases c : i < m.nNodes
    · rw [if_pos c] at e
      injection e with e
      subst e
      refine ⟨fun j k hk => ?_, h.2⟩
      by_cases q : j = i
      · subst q
        simp only [Function.update_self, Option.some.injEq] at hk
        subst hk
        exact hn
      · simp only [Function.update_of_ne q] at hk
        exact h.1 j k hk
    · rw [if_neg c] at e; cases e
  | leaf i =>
    unfold BMem.set at e
    dsimp only at e
    by_cases c : i < m.nLeaves
    · rw [if_pos c] at e
      injection e with e
      subst e
      refine ⟨h.1, fun j k hk => ?_⟩
      by_cases q : j = i
      · subst q
        simp only [Function.update_self, Option.some.injEq] at hk
        subst hk
        exact hn
      · simp only [Function.update_of_ne q] at hk
        exact h.2 j k hk
    · rw [if_neg c] at e; cases e

theorem expandChild_inv (hP : ∀ b i, P b → P ((toR b).child rnd i).exact) {inner : Bool} {a : BAddr} {box : Box d} (hb : P box) {depth : ℕ} {m m' : BMem d}
    (h : MInv P m) {j : ℕ} (e : expandChild rnd inner a box depth m j = .ok m') : MInv P m' := by
  unfold expandChild at e
  dsimp only at e
  obtain ⟨m1, h1, e⟩ := bok e
  obtain ⟨n, h2, e⟩ := bok e
  have k1 : MInv P m1 := by
    refine MInv.set ?_ (hP _ _ hb) h1
    cases inner <;> exact h
  have key : P n.box := k1.get h2
  exact k1.set (by exact key) e

theorem expandNode_inv (hP : ∀ b i, P b → P ((toR b).child rnd i).exact) {h : ℕ} {m m' : BMem d} (hm : MInv P m) {a : BAddr}
    (e : expandNode rnd h m a = .ok m') : MInv P m' := by
  unfold expandNode at e
  obtain ⟨n, h1, e⟩ := bok e
  have hn := hm.get h1
  by_cases c1 : n.depth + 1 < h
  · rw [if_pos c1] at e
    exact foldlM_inv' (MInv P) _ _ (fun s hs x _ s' e' => expandChild_inv hP hn hs e') _ _ hm e
  · rw [if_neg c1] at e
    by_cases c2 : n.depth + 1 = h
    · rw [if_pos c2] at e
      exact foldlM_inv' (MInv P) _ _ (fun s hs x _ s' e' => expandChild_inv hP hn hs e') _ _ hm e
    · rw [if_neg c2] at e
      injection e with e
      subst e
      exact hm

theorem bfs_inv {S A : Type} (I : S → Prop) {n : ℕ} {child : S → A → Outcome (ℕ → Option A)} {visit : S → A → Outcome S}
    (h : ∀ s a s', I s → visit s a = .ok s' → I s') : ∀ (fuel : ℕ) (q : List A) {s s' : S}, I s → bfsLoop n child visit fuel q s = .ok s' → I s'
  | fuel, [], s, s', hs, e => by
    rw [bfsLoop_nil] at e
    injection e with e
    subst e
    exact hs
  | 0, _ :: _, s, s', hs, e => by cases e
  | fuel + 1, a :: q, s, s', hs, e => by
    unfold bfsLoop at e
    obtain ⟨s1, h1, e⟩ := bok e
    obtain ⟨ch, -, e⟩ := bok e
    exact bfs_inv I h fuel _ (h _ _ _ hs h1) e

theorem balancedNodes_inv (hP : ∀ b i, P b → P ((toR b).child rnd i).exact) {fuel : ℕ} {r : RBox ℝ d} (hr : P r.exact) {h : ℕ} {m : BMem d}
    (e : balancedNodes rnd fuel r h = .ok m) : MInv P m := by
  unfold balancedNodes at e
  obtain ⟨nl, -, e⟩ := bok e
  dsimp only at e
  have h0 : ∀ a b c e, MInv P (⟨a, b, fun _ => none, fun _ => none, c, e⟩ : BMem d) := fun a b c e =>
    ⟨fun i n hn => (by cases hn), fun i n hn => (by cases hn)⟩
  by_cases c : h = 0
  · rw [if_pos c] at e
    exact (h0 _ _ _ _).set hr e
  · rw [if_neg c] at e
    obtain ⟨m1, h1, e⟩ := bok e
    exact bfs_inv (MInv P) (fun s a s' hs e' => expandNode_inv hP hs e') _ _ ((h0 _ _ _ _).set hr h1) e

theorem distribute_inv {pos : α → Vec d} {m : BMem d} {h : ℕ} {items : List α} (hQ : ∀ s ∈ items, Q s) {src : BSrc α}
    (e : distributePointSources rnd pos m h items = .ok src) : ∀ k, ∀ s ∈ src.buckets k, Q s := by
  unfold distributePointSources at e
  obtain ⟨root, -, e⟩ := bok e
  obtain ⟨b, h1, e⟩ := bok e
  obtain ⟨p, -, e⟩ := bok e
  injection e with e
  subst e
  refine foldlM_inv' (fun b => ∀ k, ∀ s ∈ b k, Q s) _ _ ?_ _ b (fun i s hs => by cases hs) h1
  intro b hb s hs b' e
  obtain ⟨k, -, e⟩ := bok e
  by_cases c : k < m.nLeaves
  · rw [if_pos c] at e
    injection e with e
    subst e
    intro i
    by_cases q : i = k
    · subst q
      rw [Function.update_self]
      intro t ht
      rcases List.mem_append.mp ht with ht | ht
      · exact hb _ t ht
      · rw [List.mem_singleton.mp ht]; exact hQ s hs
    · rw [Function.update_of_ne q]; exact hb i
  · rw [if_neg c] at e; cases e

theorem balancedLists_inv (hP : ∀ b i, P b → P ((toR b).child rnd i).exact) {nrm : Vec d → ℝ} {fuel : ℕ} {pos : α → Vec d} {r : RBox ℝ d} (hr : P r.exact)
    {items : List α} (hQ : ∀ s ∈ items, Q s) {h : ℕ} {q : BMem d × BSrc α × BNbh} (e : balancedLists rnd nrm fuel pos r items h = .ok q) :
    MInv P q.1 ∧ ∀ k, ∀ s ∈ q.2.1.buckets k, Q s := by
  unfold balancedLists at e
  obtain ⟨m, h1, e⟩ := bok e
  dsimp only at e
  by_cases c : h = 0
  · rw [if_pos c] at e
    obtain ⟨src, h2, e⟩ := bok e
    obtain ⟨nb, -, e⟩ := bok e
    injection e with e
    subst e
    refine ⟨balancedNodes_inv hP hr h1, ?_⟩
    injection h2 with h2
    subst h2
    intro k s hs
    dsimp only at hs
    by_cases c' : k = 0
    · rw [if_pos c'] at hs; exact hQ s hs
    · rw [if_neg c'] at hs; cases hs
  · rw [if_neg c] at e
    obtain ⟨src, h2, e⟩ := bok e
    obtain ⟨nb, -, e⟩ := bok e
    injection e with e
    subst e
    exact ⟨balancedNodes_inv hP hr h1, distribute_inv hQ h2⟩

/-- Every node of a balanced tree. -/
theorem balancedFmm_inv {P : Box d → Prop} {Q : Source d → Prop} (hP : ∀ b i, P b → P ((toR b).child rnd i).exact) {rlog : ℝ → ℝ} {nrm : Vec d → ℝ}
    {K : Kit d} {fuel : ℕ} {sch : ℕ → List BAddr → List BAddr} {t : K.T} {S : List (Source d)} (hr : ∀ r, sourceBox rnd S = some r → P r.exact)
    (hQ : ∀ s ∈ S, Q s) {n : ℕ} {eps : ℝ} {T : BalancedFmm K} (e : balancedFmm rnd rlog nrm K fuel sch t S n eps = .ok T) :
    MInv P T.mem ∧ ∀ k, ∀ s ∈ T.src.buckets k, Q s := by
  have init : ∀ T, balancedInit rnd rlog nrm K fuel t S n eps = .ok T → MInv P T.mem ∧ ∀ k, ∀ s ∈ T.src.buckets k, Q s := by
    intro T e
    unfold balancedInit at e
    obtain ⟨order, -, e⟩ := bok e
    obtain ⟨h, -, e⟩ := bok e
    cases hb : sourceBox rnd S with
    | none => rw [hb] at e; cases e
    | some r =>
      rw [hb] at e
      dsimp only at e
      obtain ⟨⟨m, src, nb⟩, h1, e⟩ := bok e
      obtain ⟨s, -, e⟩ := bok e
      injection e with e
      subst e
      exact balancedLists_inv hP (hr r hb) hQ h1
  unfold balancedFmm at e
  obtain ⟨T0, h0, e⟩ := bok e
  by_cases c1 : T0.height = 0
  · rw [if_pos c1] at e
    injection e with e
    subst e
    exact init _ h0
  · rw [if_neg c1] at e
    obtain ⟨s, -, e⟩ := bok e
    injection e with e
    subst e
    exact init T0 h0

end FMM.Rounded.Inv
