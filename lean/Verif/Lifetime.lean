import Verif.PropsBalanced
import Verif.PropsAdaptive

/-!
# Destruction of the trees

Freed nodes are removed from the heap, so that using or freeing them again is a dereference of a missing node (`ub`).
-/

namespace FMM
variable {d : ℕ} {α : Type}

/-- `delete node` with the virtual destructor `~FmmNode` (adaptive_fmm_tree.hpp:81, 105; `~Node`,
adaptive_point_orthtree.hpp:43-49, 61): the children first, `delete` of a null pointer has no effect.  Called for the root by
`~AdaptiveFmmTree` (adaptive_fmm_tree.hpp:46) and `~AdaptivePointOrthtree` (adaptive_point_orthtree.hpp:33). -/
def destroyNode : ℕ → AHeap d α → Path → Outcome (AHeap d α)
  | 0, _, _ => .error .fuel
  | fuel + 1, heap, π => do
      let node ← heap.get π
      let heap ← (List.range (2 ^ d)).foldlM (fun heap i =>
        match node.child i with
        | none => .ok heap
        | some c => destroyNode fuel heap c) heap
      .ok (Function.update heap π none)

/-- `~FmmLeaf` (balanced_fmm_tree.hpp:87) for leaf `k`: `live` are the buckets that have not been freed.  The pointer of a leaf that
was only default constructed is indeterminate (balanced_fmm_tree.hpp:82). -/
def destroyLeaf (src : BSrc α) (live : ℕ → Bool) (k : ℕ) : Outcome (ℕ → Bool) :=
  match src.ptr k with
  | none => .error .ub
  | some f => if live f then .ok (Function.update live f false) else .error .ub

/-- `delete[] this->leaves` (balanced_fmm_tree.hpp:46): destructors in reverse order.  Initially the buckets allocated by
`distributePointSources` (balanced_fmm_tree.hpp:441-445, for height 0: 117-119) are live; the result are those that leak. -/
def destroyLeaves (m : BMem d) (src : BSrc α) : Outcome (ℕ → Bool) :=
  (List.range m.nLeaves).reverse.foldlM (destroyLeaf src) fun f => decide (f < m.nLeaves)

/-! ## Adaptive trees -/

/-- Every node other than the root is owned by its parent, and children are allocated. -/
structure Owned (heap : AHeap d α) (h : ℕ) : Prop where
  root : heap [] ≠ none
  kids : ∀ π n, heap π = some n → ∀ i < 2 ^ d, ∀ c, n.child i = some c → c = i :: π ∧ heap c ≠ none
  parent : ∀ i π, heap (i :: π) ≠ none → ∃ n, heap π = some n ∧ i < 2 ^ d ∧ n.child i = some (i :: π)
  height : ∀ π, heap π ≠ none → π.length ≤ h

theorem Owned.suffix {heap : AHeap d α} {h : ℕ} (ho : Owned heap h) {π ρ : Path} (hρ : heap ρ ≠ none) (hs : π <:+ ρ) :
    heap π ≠ none := by
  induction ρ with
  | nil => rw [List.suffix_nil.mp hs]; exact hρ
  | cons i ρ ih =>
    rcases List.suffix_cons_iff.mp hs with rfl | hs
    · exact hρ
    · obtain ⟨n, hn, -⟩ := ho.parent i ρ hρ
      exact ih (by rw [hn]; simp) hs

theorem sfx_head {i m : ℕ} {π ρ : Path} (h1 : (i :: π) <:+ ρ) (h2 : (m :: π) <:+ ρ) : i = m := by
  obtain ⟨a, rfl⟩ := h1
  obtain ⟨b, hb⟩ := h2
  have := List.append_inj_right' hb (by simp)
  exact (List.cons.inj this).1.symm

theorem destroyNode_ok {heap : AHeap d α} {h : ℕ} (ho : Owned heap h) : ∀ (fuel : ℕ) (π : Path) (cur : AHeap d α),
    heap π ≠ none → h < π.length + fuel → (∀ ρ, π <:+ ρ → cur ρ = heap ρ) →
    destroyNode fuel cur π = .ok (fun ρ => if π <:+ ρ then none else cur ρ) := by
  classical
  intro fuel
  induction fuel with
  | zero =>
    intro π cur hπ hf
    have := ho.height π hπ
    omega
  | succ fuel ih =>
    intro π cur hπ hf hcur
    obtain ⟨n, hn⟩ := Option.ne_none_iff_exists'.mp hπ
    have hget : cur.get π = .ok n := by unfold AHeap.get; rw [hcur π List.suffix_rfl, hn]
    unfold destroyNode
    rw [hget, ok_bind]
    -- after the first `m` children
    have loop : ∀ m ≤ 2 ^ d, (List.range m).foldlM (fun (heap : AHeap d α) i =>
        match n.child i with
        | none => (Except.ok heap : Outcome (AHeap d α))
        | some c => destroyNode fuel heap c) cur
          = .ok (fun ρ => if ∃ i < m, (i :: π) <:+ ρ ∧ heap (i :: π) ≠ none then none else cur ρ) := by
      intro m
      induction m with
      | zero => intro _; simp; rfl
      | succ m ihm =>
        intro hm
        rw [List.range_succ, List.foldlM_append, ihm (by omega), ok_bind]
        simp only [List.foldlM_cons, List.foldlM_nil]
        cases hc : n.child m with
        | none =>
          simp only [ok_bind]
          refine congrArg Except.ok ?_
          funext ρ
          have : heap (m :: π) = none := by
            by_contra hne
            obtain ⟨n', h1, -, h3⟩ := ho.parent m π hne
            rw [hn] at h1
            rw [← Option.some.inj h1, hc] at h3
            simp at h3
          refine if_congr ?_ rfl rfl
          constructor
          · rintro ⟨i, h1, h2⟩; exact ⟨i, by omega, h2⟩
          · rintro ⟨i, h1, h2, h3⟩
            refine ⟨i, ?_, h2, h3⟩
            rcases Nat.lt_succ_iff_lt_or_eq.mp h1 with h | rfl
            · exact h
            · exact absurd this h3
        | some c =>
          obtain ⟨rfl, hne⟩ := ho.kids π n hn m (by omega) c hc
          simp only
          rw [ih (m :: π) _ hne (by simp only [List.length_cons]; omega)]
          · rw [ok_bind]
            refine congrArg Except.ok ?_
            funext ρ
            by_cases h1 : (m :: π) <:+ ρ
            · rw [if_pos h1, if_pos ⟨m, by omega, h1, hne⟩]
            · rw [if_neg h1]
              refine if_congr ?_ rfl rfl
              constructor
              · rintro ⟨i, a, b⟩; exact ⟨i, by omega, b⟩
              · rintro ⟨i, a, b, c⟩
                refine ⟨i, ?_, b, c⟩
                rcases Nat.lt_succ_iff_lt_or_eq.mp a with h | rfl
                · exact h
                · exact absurd b h1
          · intro ρ hρ
            rw [if_neg]
            · exact hcur ρ ((List.suffix_cons m π).trans hρ)
            · rintro ⟨i, a, b, -⟩
              have e := sfx_head b hρ
              omega
    rw [loop _ le_rfl, ok_bind]
    refine congrArg Except.ok ?_
    funext ρ
    by_cases e : ρ = π
    · subst e
      rw [Function.update_self, if_pos List.suffix_rfl]
    · rw [Function.update_of_ne e]
      by_cases hs : π <:+ ρ
      · rw [if_pos hs]
        by_cases hq : ∃ i < 2 ^ d, (i :: π) <:+ ρ ∧ heap (i :: π) ≠ none
        · rw [if_pos hq]
        · rw [if_neg hq, hcur ρ hs]
          by_contra hρ
          obtain ⟨τ, rfl⟩ := hs
          rcases List.eq_nil_or_concat τ with rfl | ⟨τ', i, rfl⟩
          · exact e (by simp)
          · have hsf : (i :: π) <:+ τ'.concat i ++ π := ⟨τ', by simp⟩
            have hne := ho.suffix hρ hsf
            obtain ⟨-, -, hi, -⟩ := ho.parent i π hne
            exact hq ⟨i, hi, hsf, hne⟩
      · rw [if_neg hs, if_neg]
        rintro ⟨i, -, b, -⟩
        exact hs ((List.suffix_cons i π).trans b)

theorem destroyNode_root {heap : AHeap d α} {h fuel : ℕ} (ho : Owned heap h) (hf : h < fuel) :
    destroyNode fuel heap [] = .ok fun _ => none := by
  rw [destroyNode_ok ho fuel [] heap ho.root (by simpa using hf) (fun _ _ => rfl)]
  simp

theorem treeHeap_owned (T : PTree) (hc : T.c = 2 ^ d) (r : Box d) (it : Path → List α) {h : ℕ}
    (hh : ∀ π, T.Mem π → π.length ≤ h) : Owned (treeHeap T r it : AHeap d α) h where
  root := by unfold treeHeap; rw [if_pos PTree.mem_nil]; simp
  kids := by
    intro π n hn i hi c hci
    unfold treeHeap at hn ⊢
    by_cases hm : T.Mem π
    · rw [if_pos hm] at hn
      rw [← Option.some.inj hn] at hci
      simp only at hci
      by_cases hl : T.leaf π = false ∧ i < T.c
      · rw [if_pos hl] at hci
        rw [← Option.some.inj hci, if_pos (hm.cons hl.1 hl.2)]
        simp
      · rw [if_neg hl] at hci; simp at hci
    · rw [if_neg hm] at hn; simp at hn
  parent := by
    intro i π hne
    unfold treeHeap at hne ⊢
    by_cases hm : T.Mem (i :: π)
    · rw [if_pos hm.tail]
      refine ⟨_, rfl, hc ▸ hm.lt, ?_⟩
      simp only
      rw [if_pos ⟨hm.parent_not_leaf, hm.lt⟩]
    · rw [if_neg hm] at hne; exact absurd rfl hne
  height := by
    intro π hne
    unfold treeHeap at hne
    by_cases hm : T.Mem π
    · exact hh π hm
    · rw [if_neg hm] at hne; exact absurd rfl hne

/-! ## Balanced trees -/

theorem destroy_step {src : BSrc α} {N : ℕ} (hp : ∀ k < N, ∃ f < N, src.ptr k = some f)
    (hinj : ∀ k < N, ∀ k' < N, src.ptr k = src.ptr k' → k = k') (l : List ℕ) (hl : ∀ k ∈ l, k < N) (hn : l.Nodup) (live : ℕ → Bool)
    (hlive : ∀ k ∈ l, ∀ f, src.ptr k = some f → live f = true) :
    l.foldlM (destroyLeaf src) live = .ok fun f => live f && decide (∀ k ∈ l, src.ptr k ≠ some f) := by
  induction l generalizing live with
  | nil => simp; rfl
  | cons k l ih =>
    obtain ⟨f, -, hf⟩ := hp k (hl k (by simp))
    have h1 := hlive k (by simp) f hf
    have hk : k ∉ l := (List.nodup_cons.mp hn).1
    rw [List.foldlM_cons]
    have e : destroyLeaf src live k = .ok (Function.update live f false) := by
      unfold destroyLeaf; rw [hf]; simp only; rw [if_pos h1]
    rw [e, ok_bind, ih (fun k hk => hl k (by simp [hk])) (List.nodup_cons.mp hn).2]
    · refine congrArg Except.ok ?_
      funext g
      by_cases hg : g = f
      · subst hg; simp [hf]
      · rw [Function.update_of_ne hg]
        congr 1
        have : src.ptr k ≠ some g := by rw [hf]; simpa using fun h => hg h.symm
        simp [this]
    · intro k' hk' g hg
      have : g ≠ f := by
        rintro rfl
        have := hinj k (hl k (by simp)) k' (hl k' (by simp [hk'])) (by rw [hf, hg])
        exact hk (this ▸ hk')
      rw [Function.update_of_ne this]
      exact hlive k' (by simp [hk']) g hg

/-- One owner per bucket: everything is freed. -/
theorem destroyLeaves_ok {m : BMem d} {src : BSrc α} (hp : ∀ k < m.nLeaves, ∃ f < m.nLeaves, src.ptr k = some f)
    (hown : ∀ f < m.nLeaves, ∃ k, k < m.nLeaves ∧ src.ptr k = some f ∧ ∀ k' < m.nLeaves, src.ptr k' = some f → k' = k) :
    destroyLeaves m src = .ok fun _ => false := by
  unfold destroyLeaves
  rw [destroy_step hp]
  · refine congrArg Except.ok ?_
    funext f
    by_cases hf : f < m.nLeaves
    · obtain ⟨k, h1, h2, -⟩ := hown f hf
      have : ¬ ∀ k ∈ (List.range m.nLeaves).reverse, src.ptr k ≠ some f := fun h => h k (by simpa using h1) h2
      rw [decide_eq_false this]; simp
    · simp [hf]
  · intro k hk k' hk' he
    obtain ⟨f, hf, h1⟩ := hp k hk
    obtain ⟨k0, -, -, h2⟩ := hown f hf
    rw [h2 k hk h1, h2 k' hk' (he ▸ h1)]
  · intro k hk; simpa using hk
  · rw [List.nodup_reverse]; exact List.nodup_range
  · intro k hk f hf
    obtain ⟨f', h1, h2⟩ := hp k (by simpa using hk)
    rw [hf] at h2
    rw [Option.some.inj h2]; simpa using h1

/-- Freed buckets stay freed. -/
theorem destroy_keeps {src : BSrc α} (l : List ℕ) (live : ℕ → Bool) (live' : ℕ → Bool)
    (h : l.foldlM (destroyLeaf src) live = .ok live') (hn : l.Nodup) :
    (∀ k ∈ l, ∃ f, src.ptr k = some f ∧ live f = true) ∧
    (∀ k ∈ l, ∀ k' ∈ l, src.ptr k = src.ptr k' → k = k') := by
  induction l generalizing live with
  | nil => simp
  | cons k l ih =>
    rw [List.foldlM_cons] at h
    cases hp : src.ptr k with
    | none =>
      have e : destroyLeaf src live k = .error .ub := by unfold destroyLeaf; rw [hp]
      rw [e, err_bind] at h; cases h
    | some f =>
      by_cases hf : live f = true
      · have e : destroyLeaf src live k = .ok (Function.update live f false) := by
          unfold destroyLeaf; rw [hp]; simp only; rw [if_pos hf]
        rw [e, ok_bind] at h
        obtain ⟨h1, h2⟩ := ih _ h (List.nodup_cons.mp hn).2
        have key : ∀ k' ∈ l, src.ptr k' ≠ some f := by
          intro k' hk' he
          obtain ⟨g, g1, g2⟩ := h1 k' hk'
          rw [he] at g1
          rw [← Option.some.inj g1, Function.update_self] at g2
          cases g2
        refine ⟨?_, ?_⟩
        · intro k' hk'
          rcases List.mem_cons.mp hk' with rfl | hk'
          · exact ⟨f, hp, hf⟩
          · obtain ⟨g, g1, g2⟩ := h1 k' hk'
            have : g ≠ f := fun e => key k' hk' (e ▸ g1)
            rw [Function.update_of_ne this] at g2
            exact ⟨g, g1, g2⟩
        · intro a ha b hb he
          rcases List.mem_cons.mp ha with ea | ha' <;> rcases List.mem_cons.mp hb with eb | hb'
          · rw [ea, eb]
          · rw [ea, hp] at he; exact absurd he.symm (key b hb')
          · rw [eb, hp] at he; exact absurd he (key a ha')
          · exact h2 a ha' b hb' he
      · have e : destroyLeaf src live k = .error .ub := by
          unfold destroyLeaf; rw [hp]; simp only; rw [if_neg hf]
        rw [e, err_bind] at h; cases h

/-- The only possible failure. -/
theorem destroy_fold_err {src : BSrc α} (l : List ℕ) (live : ℕ → Bool) {e : Err}
    (h : l.foldlM (destroyLeaf src) live = .error e) : e = .ub := by
  induction l generalizing live with
  | nil => cases h
  | cons k l ih =>
    rw [List.foldlM_cons] at h
    cases hk : destroyLeaf src live k with
    | ok live' => rw [hk, ok_bind] at h; exact ih _ h
    | error e' =>
      rw [hk, err_bind] at h
      rw [← Except.error.inj h]
      unfold destroyLeaf at hk
      cases hp : src.ptr k with
      | none => rw [hp] at hk; exact (Except.error.inj hk).symm
      | some f =>
        rw [hp] at hk
        simp only at hk
        by_cases hf : live f = true
        · rw [if_pos hf] at hk; cases hk
        · rw [if_neg hf] at hk; exact (Except.error.inj hk).symm

theorem destroy_err (m : BMem d) (src : BSrc α) {e : Err} (h : destroyLeaves m src = .error e) : e = .ub :=
  destroy_fold_err _ _ h

end FMM
