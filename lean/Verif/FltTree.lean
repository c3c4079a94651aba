import Verif.FltEval
import Verif.FmmRelTrees

/-!
# The adaptive tree in the plane, in floating-point arithmetic
-/

namespace FMM.Fl
open Rounded
variable {F : Flt} {u C : ℝ} {max fuel h N p m : ℕ}

/-! ## Look-up -/

section
variable {d : ℕ} {rnd : ℝ → ℝ} {r : RBox ℝ d} {T : PTree} {it : Path → List (Source d)}

theorem descend_lift (hL : 0 < r.len) (hc : T.c = 2 ^ d) (x : Vec d) (k : ℕ) (hk : T.Mem (Rounded.route rnd r x k))
    (lk : T.leaf (Rounded.route rnd r x k) = true) (f : ℕ) (hf : k < f) :
    descend (liftH (bxR rnd r) (treeHeap T r.exact it)) x f [] = .ok (Rounded.route rnd r x k) := by
  have hs : ∀ n ≤ k, FMM.route r.exact (shadow rnd r k x) n = Rounded.route rnd r x n := fun n hn => route_shadow hL k x n hn
  have key : ∀ f j, j ≤ k → k - j < f →
      descend (liftH (bxR rnd r) (treeHeap T r.exact it)) x f (Rounded.route rnd r x j) = .ok (Rounded.route rnd r x k) := by
    intro f
    induction f with
    | zero => intro j _ h; omega
    | succ f ih =>
      intro j hj hlt
      have hm : T.Mem (Rounded.route rnd r x j) := by
        rw [← hs j hj]
        refine hk.suffix ?_
        rw [← hs k le_rfl]
        exact route_suffix r.exact _ hj
      unfold descend
      rw [liftH_get, treeHeap_get T it hm]
      simp only [Except.map]
      rw [ok_bind]
      by_cases hl : T.leaf (Rounded.route rnd r x j) = true
      · rw [if_pos hl]
        have := leaf_route_unique T r.exact (shadow rnd r k x) (j := j) (k := k) (by rw [hs j hj]; exact hm)
          (by rw [hs k le_rfl]; exact hk) (by rw [hs j hj]; exact hl) (by rw [hs k le_rfl]; exact lk)
        rw [this]
      · have hl' : T.leaf (Rounded.route rnd r x j) = false := by simpa using hl
        have hjk : j ≠ k := by rintro rfl; exact hl lk
        rw [if_neg hl]
        simp only
        rw [if_pos ⟨hl', by rw [hc]; exact getOrthant_lt _ _⟩]
        exact ih (j + 1) (by omega) (by omega)
  exact key f 0 (by omega) (by omega)

/-- The leaf reached by a point, and the outcome of the look-up. -/
theorem lookup (hL : 0 < r.len) (hc : T.c = 2 ^ d) {h : ℕ} (hH : ∀ π, T.Mem π → π.length ≤ h) (x : Vec d) :
    ∃ k ≤ h, T.Mem (Rounded.route rnd r x k) ∧ T.leaf (Rounded.route rnd r x k) = true ∧
      ∀ f > h, Rounded.getContainingLeaf rnd f (liftH (bxR rnd r) (treeHeap T r.exact it)) x
        = .ok (if (Rounded.boxAt rnd r (Rounded.route rnd r x k)).contains rnd x then some (Rounded.route rnd r x k)
          else none) := by
  obtain ⟨k, h1, h2, h3⟩ := exists_leaf_route T hc r.exact (shadow rnd r h x) h hH
  rw [route_shadow hL h x k h1] at h2 h3
  refine ⟨k, h1, h2, h3, fun f hf => ?_⟩
  unfold Rounded.getContainingLeaf
  rw [descend_lift hL hc x k h2 h3 f (by omega), ok_bind, liftH_get, treeHeap_get T it h2]
  simp only [Except.map]
  rw [ok_bind]
  have e : toR (bxR rnd r (Rounded.route rnd r x k)) = Rounded.boxAt rnd r (Rounded.route rnd r x k) := rfl
  simp only [e]
  cases (Rounded.boxAt rnd r (Rounded.route rnd r x k)).contains rnd x <;> rfl

end

section
variable {d : ℕ} {r : RBox ℝ d} {S : List (Source d)}

theorem small_u (hL : 0 < r.len) (hC0 : 0 ≤ C) (hu : 0 ≤ u)
    (hk : 100 * ((8 * h + 15) * (u * (4 * (C + r.len)))) < r.len / 2 ^ (h + 1)) : u ≤ 1 / 1000 := by
  have h1 : r.len / 2 ^ (h + 1) ≤ r.len := div_le_self hL.le (one_le_pow₀ (by norm_num))
  have h2 : u * r.len ≤ u * (4 * (C + r.len)) := mul_le_mul_of_nonneg_left (by linarith) hu
  have h3 : 0 ≤ u * (4 * (C + r.len)) := by positivity
  have h4 : 15 * (u * r.len) ≤ (8 * h + 15) * (u * (4 * (C + r.len))) := by
    have : (0 : ℝ) ≤ 8 * h := by positivity
    nlinarith
  have h5 : 1500 * (u * r.len) < r.len := by linarith
  have h6 : (1500 * u) * r.len < 1 * r.len := by linarith
  have := lt_of_mul_lt_mul_right h6 hL.le
  linarith

/-- A source of another leaf is somewhere else. -/
theorem other_leaf {rnd : ℝ → ℝ} (hL : 0 < r.len) {n : ℕ} (hn : h ≤ n) {T : PTree} (hH : ∀ π, T.Mem π → π.length ≤ h) {x : Vec d} {k : ℕ}
    (hm : T.Mem (Rounded.route rnd r x k)) (hl : T.leaf (Rounded.route rnd r x k) = true) :
    ∀ ρ, T.Mem ρ → T.leaf ρ = true → ρ ≠ Rounded.route rnd r x k →
      ∀ s ∈ itemsAt (fun s : Source d => shadow rnd r n s.pos) r.exact S ρ, s.pos ≠ x := by
  intro ρ h1 h2 h3 s hs hx
  rw [itemsAt_shadow hL _ _ _ _ ((hH ρ h1).trans hn)] at hs
  have h4 : Rounded.route rnd r s.pos ρ.length = ρ := by simpa using (List.mem_filter.mp hs).2
  rw [hx] at h4
  have hkh : k ≤ h := by have := hH _ hm; rwa [Rounded.route_length] at this
  have hρh := hH ρ h1
  have e : ∀ j ≤ h, FMM.route r.exact (shadow rnd r h x) j = Rounded.route rnd r x j := fun j hj => route_shadow hL h x j hj
  refine h3 ?_
  refine hm.eq_of_leaf_suffix h2 ?_
  have := (leaf_mem_of_route T r.exact (shadow rnd r h x) (k := k) (by rw [e k hkh]; exact hm)
    (by rw [e k hkh]; exact hl) h1).mp (by rw [e _ hρh]; exact h4)
  rwa [e k hkh] at this

/-- Lists of a computed tree have at most `m` members. -/
def ListsLe {d : ℕ} {α : Type} (heap : AHeap d α) (nb : Nbh) (m : ℕ) : Prop :=
  (∀ π, IsNode heap π → (nb.X π).length ≤ m) ∧ ∀ π, IsLeafOf heap π → (nb.W π).length ≤ m ∧ (nb.near π).length ≤ m

/-- A list of distinct nodes is not longer than the number of children of nodes which hold a source. -/
theorem nodes_le {α : Type} {pos : α → Vec d} {r : Box d} {items : List α} {max h : ℕ}
    (hH : ∀ π, (fmmTree pos r items max).Mem π → π.length ≤ h) (l : List Path) (hn : l.Nodup)
    (hl : ∀ π ∈ l, (fmmTree pos r items max).Mem π) : l.length ≤ 2 ^ d * (h * items.length) + 1 := by
  classical
  let B : Finset Path := (Finset.range (2 ^ d) ×ˢ (Finset.range h ×ˢ Finset.univ (α := Fin items.length))).image
    fun a => a.1 :: FMM.route r (pos (items.get a.2.2)) a.2.1
  have hsub : l.toFinset ⊆ insert [] B := by
    intro π hπ
    have hm := hl π (List.mem_toFinset.mp hπ)
    rw [Finset.mem_insert]
    cases π with
    | nil => exact Or.inl rfl
    | cons i τ =>
      right
      have h1 : i < 2 ^ d := hm.1 i (by simp)
      have h2 : (fmmTree pos r items max).leaf τ = false := hm.2 τ i (List.suffix_refl _)
      have h3 : 0 < (itemsAt pos r items τ).length := by
        have : ¬ (itemsAt pos r items τ).length ≤ max := by simpa [fmmTree] using h2
        omega
      obtain ⟨s, hs⟩ := List.exists_mem_of_length_pos h3
      obtain ⟨h4, h5⟩ := List.mem_filter.mp hs
      have h5 : FMM.route r (pos s) τ.length = τ := by simpa using h5
      obtain ⟨k, hk⟩ := List.get_of_mem h4
      have h6 := hH _ hm
      rw [Finset.mem_image]
      refine ⟨(i, τ.length, k), ?_, ?_⟩
      · simp only [Finset.mem_product, Finset.mem_range, Finset.mem_univ, and_true]
        exact ⟨h1, by simpa using h6⟩
      · simp only
        rw [hk, h5]
  have hc : l.length = l.toFinset.card := (List.toFinset_card_of_nodup hn).symm
  rw [hc]
  refine (Finset.card_le_card hsub).trans ((Finset.card_insert_le _ _).trans ?_)
  have : B.card ≤ 2 ^ d * (h * items.length) := by
    refine Finset.card_image_le.trans ?_
    rw [Finset.card_product, Finset.card_product, Finset.card_range, Finset.card_range, Finset.card_univ, Fintype.card_fin]
  omega

/-- Lists are never longer than `2^d h N + 1`. -/
theorem listsLe_on {rnd : ℝ → ℝ} {nrm : Vec d → ℝ} (hu : 0 ≤ u) (hL : 0 < r.len)
    (hC0 : 0 ≤ C) (H : RndOn rnd u (4 * (C + r.len))) (hC : ∀ i, |r.center i| ≤ C) (hnrm : ∀ v, r.len / 2 ^ h ≤ Vec.norm v → 999 / 1000 * Vec.norm v ≤ nrm v)
    {st : BuildState d (Source d)} {nb : Nbh} (hb : Rounded.adaptiveLists rnd nrm fuel Source.pos r S max = .ok (st, h, nb))
    (hk : 100 * ((8 * h + 15) * (u * (4 * (C + r.len)))) < r.len / 2 ^ (h + 1)) :
    ListsLe st.heap nb (2 ^ d * (h * S.length) + 1) := by
  obtain ⟨stE, fuel', n, hE, rfl, -⟩ := lists_on hu hL hC0 H hC hnrm hb hk
  obtain ⟨-, q1, q2, q3⟩ := lists_result (Or.inl hL) hE
  have hH : ∀ π, (fmmTree (fun s : Source d => shadow rnd r n s.pos) r.exact S max).Mem π → π.length ≤ h := fun π hπ => by
    have := q2 π hπ; omega
  have hA : AdjOf (fmmTree (fun s : Source d => shadow rnd r n s.pos) r.exact S max) r.exact := fmmTree_adjOf
  have hT := hA.laws hL
  have cnt := fun l hn hl => nodes_le hH l hn hl
  have nd : ∀ π, IsNode stE.heap π → (fmmTree (fun s : Source d => shadow rnd r n s.pos) r.exact S max).Mem π := fun π hπ => by
    rw [q1, isNode_treeHeap] at hπ; exact hπ
  have n1 : ∀ π, IsNode (liftB (bxR rnd r) stE).heap π ↔ IsNode stE.heap π := isNode_lift (bxR rnd r) stE.heap
  have n2 : ∀ π, IsLeafOf (liftB (bxR rnd r) stE).heap π ↔ IsLeafOf stE.heap π := isLeafOf_lift (bxR rnd r) stE.heap
  have lf : ∀ π, IsLeafOf stE.heap π → IsNode stE.heap π := fun π ⟨m, hm, _⟩ => ⟨m, hm⟩
  refine ⟨fun π hπ => ?_, fun L hl => ⟨?_, ?_⟩⟩
  · rw [n1] at hπ
    cases π with
    | nil =>
      rw [q3, PTree.nbh_X q2 (nd _ hπ)]
      simp [PTree.xl]
    | cons i τ =>
      obtain ⟨a, b⟩ := C18_X hL fuel' stE h nb hE i τ hπ
      exact cnt _ a fun ρ hρ => nd ρ (lf ρ ((b ρ).mp hρ).1)
  · rw [n2] at hl
    obtain ⟨a, b, -⟩ := C18_W hL fuel' stE h nb hE L hl
    exact cnt _ a fun ρ hρ => nd ρ ((b ρ).mp hρ).1
  · rw [n2] at hl
    obtain ⟨a, b⟩ := C18_U hL fuel' stE h nb hE L hl
    exact cnt _ a fun ρ hρ => nd ρ (lf ρ ((b ρ).mp hρ).1)

theorem listsLe_count {rnd : ℝ → ℝ} {nrm : Vec d → ℝ} (H : ∀ x, |rnd x - x| ≤ u * |x|) (hu : 0 ≤ u) (hL : 0 < r.len)
    (hC0 : 0 ≤ C) (hC : ∀ i, |r.center i| ≤ C) (hnrm : ∀ v, 999 / 1000 * Vec.norm v ≤ nrm v)
    {st : BuildState d (Source d)} {nb : Nbh} (hb : Rounded.adaptiveLists rnd nrm fuel Source.pos r S max = .ok (st, h, nb))
    (hk : 100 * ((8 * h + 15) * (u * (4 * (C + r.len)))) < r.len / 2 ^ (h + 1)) :
    ListsLe st.heap nb (2 ^ d * (h * S.length) + 1) :=
  listsLe_on hu hL hC0 (RndOn.of_rel H hu) hC (fun v _ => hnrm v) hb hk

end

variable {r : RBox ℝ 2} {S : List (Source 2)}

/-- The sources of the nodes of the computed tree. -/
theorem srcs_on {rnd : ℝ → ℝ} (hu : 0 ≤ u) (hL : 0 < r.len) (hC0 : 0 ≤ C) (H : RndOn rnd u (4 * (C + r.len))) (hC : ∀ i, |r.center i| ≤ C)
    (hk : 100 * ((8 * h + 15) * (u * (4 * (C + r.len)))) < r.len / 2 ^ (h + 1)) (hin : ∀ s ∈ S, r.exact.contains s.pos)
    {n : ℕ} (hn : h ≤ n) {T : PTree} (hH : ∀ π, T.Mem π → π.length ≤ h) :
    Srcs T r.exact h S.length (itemsAt (fun s => shadow rnd r n s.pos) r.exact S) where
  within := by
    intro π hπ s hs
    rw [itemsAt_shadow hL _ _ _ _ ((hH π hπ).trans hn)] at hs
    obtain ⟨h1, h2⟩ := List.mem_filter.mp hs
    have h2 : Rounded.route rnd r s.pos π.length = π := by simpa using h2
    have := within_route_on hu hL hC0 H hC hk (hin s h1) (hH π hπ)
    rwa [h2] at this
  len π := List.length_filter_le _ _
  kids π _ _ := itemsAt_kids _ _ _ π

theorem srcs_of {rnd : ℝ → ℝ} (H : ∀ x, |rnd x - x| ≤ u * |x|) (hu : 0 ≤ u) (hL : 0 < r.len) (hC0 : 0 ≤ C) (hC : ∀ i, |r.center i| ≤ C)
    (hk : 100 * ((8 * h + 15) * (u * (4 * (C + r.len)))) < r.len / 2 ^ (h + 1)) (hin : ∀ s ∈ S, r.exact.contains s.pos)
    {n : ℕ} (hn : h ≤ n) {T : PTree} (hH : ∀ π, T.Mem π → π.length ≤ h) :
    Srcs T r.exact h S.length (itemsAt (fun s => shadow rnd r n s.pos) r.exact S) :=
  srcs_on hu hL hC0 (RndOn.of_rel H hu) hC hk hin hn hH

/-- Bound of the error of the potential. -/
noncomputable def potBound (u : ℝ) (r : Box 2) (S : List (Source 2)) (p h m : ℕ) (x : Vec 2) : ℝ :=
  totalStrength S * tailBound p (29 / 40)
    + ((1 + u) ^ evalCount S.length p h m - 1) * (totalStrength S * (logB r h + 11) + absPotential S x)

/-- Bound of the error of the force. -/
noncomputable def forceBound (u : ℝ) (r : Box 2) (S : List (Source 2)) (p h m : ℕ) (feps : ℝ) (x : Vec 2) : ℝ :=
  totalStrength S * forceTail r h p feps
    + ((1 + u) ^ evalCount S.length p h m - 1) * (totalStrength S * (25 / side r h) + absField S x feps)

/-- **The adaptive tree in floating point.** -/
theorem adaptive_flt (hF : F.Ok u) {t : BinomialTable} (ht : t.Good) (hL : 0 < r.len) (hC : ∀ i, |r.center i| ≤ C) {eps : ℝ}
    (hord : Rounded.expansionOrder F.rnd F.rlog (Rounded.totalStrength F.rnd S) eps = .ok p) (hp0 : 0 < p) (hp : p ≤ 1029)
    (hbox : sourceBox F.rnd S = some r) (hin : ∀ s ∈ S, r.exact.contains s.pos) {st : BuildState 2 (Source 2)} {nb : Nbh}
    (hb : Rounded.adaptiveLists F.rnd F.nrm fuel Source.pos r S max = .ok (st, h, nb))
    (hk : 100 * ((8 * h + 15) * (u * (4 * (C + r.len)))) < r.len / 2 ^ (h + 1)) (hm : ListsLe st.heap nb m) :
    ∃ T : AdaptiveFmm (kit F), (∀ sch, Schedule sch → Rounded.adaptiveFmm F.rnd F.rlog F.nrm (kit F) fuel sch t S max eps = .ok T) ∧
      T.order = p ∧ T.height = h ∧ T.heap = st.heap ∧ ∀ x, ∃ lf, (∀ f > h, Rounded.getContainingLeaf F.rnd f st.heap x = .ok lf) ∧
        ∀ l, lf = some l → ∀ f > h, ∀ grav cur,
          (∃ v, Rounded.adaptiveEval F.rnd (fun a b => F.rnd (a + b)) (fun a => -a) (pot F) f grav T cur x = .ok v ∧
            |v - directPotential grav S x| ≤ potBound u r.exact S p h m x) ∧
          ∀ feps, 0 ≤ feps → ∃ v, Rounded.adaptiveEval F.rnd F.vadd (fun a => -a) (force F feps) f grav T cur x = .ok v ∧
            dist2 v (directField grav S x feps) ≤ forceBound u r.exact S p h m feps x := by
  have hu := hF.nonneg
  have hC0 : 0 ≤ C := (abs_nonneg _).trans (hC 0)
  have hu3 := small_u hL hC0 hu hk
  have hnrm : ∀ v, 999 / 1000 * Vec.norm v ≤ F.nrm v := fun v => by
    have a := (abs_le.mp (hF.nrm v)).1
    have b : 0 ≤ Vec.norm v := Real.sqrt_nonneg _
    nlinarith
  obtain ⟨stE, fuel', n, hn, hE, hheap, hmain⟩ := Rel.rounded_ok (K := kit F) (rlog := F.rlog) hF.rnd hu hL hC0 hC hnrm hord hbox hb hk
  obtain ⟨-, q1, q2, q3⟩ := lists_result (Or.inl hL) hE
  have hT := Rel.adaptive_treeR (bxR F.rnd r) hL hE
  rw [← hheap] at hT
  have G := geo_of (h := h) hF.rnd hu hL hC0 hC hk
  have hS := srcs_of (S := S) hF.rnd hu hL hC0 hC hk hin hn hT.hH
  have hX : ∀ π, (fmmTree (fun s => shadow F.rnd r n s.pos) r.exact S max).Mem π →
      ((fmmTree (fun s => shadow F.rnd r n s.pos) r.exact S max).xl π).length ≤ m := fun π hπ => by
    have := hm.1 π (by rw [hheap, isNode_lift, q1, isNode_treeHeap]; exact hπ)
    rw [q3, PTree.nbh_X q2 hπ] at this
    exact this
  obtain ⟨s0, s1, -, -, a3, a4⟩ := hmain (laws hF G hT.hc hT.hA hT.hH hS hp0 hp hX) t ht
  refine ⟨_, a3, rfl, rfl, rfl, fun x => ?_⟩
  obtain ⟨k, k1, k2, k3, k4⟩ := lookup (rnd := F.rnd) (it := itemsAt (fun s => shadow F.rnd r n s.pos) r.exact S) hL hT.hc hT.hH x
  have k4' : ∀ f > h, Rounded.getContainingLeaf F.rnd f st.heap x = .ok (if (Rounded.boxAt F.rnd r (Rounded.route F.rnd r x k)).contains F.rnd x
      then some (Rounded.route F.rnd r x k) else none) := fun f hf => by
    rw [hheap, q1]; exact k4 f hf
  refine ⟨_, k4', fun l hl f hf grav cur => ?_⟩
  have hcon : (Rounded.boxAt F.rnd r (Rounded.route F.rnd r x k)).contains F.rnd x = true := by
    by_contra hno
    rw [if_neg hno] at hl; cases hl
  rw [if_pos hcon] at hl
  cases hl
  have hlen : (Rounded.route F.rnd r x k).length ≤ h := by rw [Rounded.route_length]; exact k1
  have hx := within_contains hF.rnd hu hL hC0 hC hk hlen hcon
  have hperm := PTree.slots_perm (hT.hA.laws hT.hr) q2 hT.hc (fun s : Source 2 => shadow F.rnd r n s.pos) r.exact S k2 k3
  have hlf : IsLeafOf st.heap (Rounded.route F.rnd r x k) := by
    rw [hheap, isLeafOf_lift, q1, isLeafOf_treeHeap]; exact ⟨k2, k3⟩
  have hmW := (hm.2 _ hlf).1
  have hmU := (hm.2 _ hlf).2
  rw [q3] at hmW hmU
  have hne := other_leaf (S := S) hL hn hT.hH k2 k3
  constructor
  · obtain ⟨v, v1, v2⟩ := evalPot hF G hT hS hp0 hp hX a4 k2 k3 hmW hmU hperm hx hne grav
    refine ⟨v, ?_, v2⟩
    unfold Rounded.adaptiveEval
    simp only
    rw [k4' f hf, if_pos hcon, ok_bind]
    exact v1
  · intro feps hfe
    obtain ⟨v, v1, v2⟩ := evalForce hF G hT hS hp0 hp hX a4 k2 k3 hmW hmU hperm hx hne grav hfe
    refine ⟨v, ?_, v2⟩
    unfold Rounded.adaptiveEval
    simp only
    rw [k4' f hf, if_pos hcon, ok_bind]
    exact v1

end FMM.Fl
