import Verif.RoundingNbh
import Verif.PropsRounding

/-!
# C66-C68: the adaptive tree and its lists in floating-point arithmetic

`rnd` is applied to the result of every arithmetic operation.  What the sources are sorted into, and which lists are computed,
does not suffer from rounding: the partition holds for every function `rnd` whatsoever, and the lists are those of the exact
tree of the same shape as long as the accumulated error is small compared with the smallest box.
-/

namespace FMM.Rounded
variable {d : ℕ} {α : Type} {rnd : ℝ → ℝ} {r : RBox ℝ d} {pos : α → Vec d} {items : List α} {max : ℕ}

/-! ## From the exact tree of the same shape -/

theorem map_ok {A B : Type} {f : A → B} {m : Outcome A} {b : B} (h : m.map f = .ok b) : ∃ a, m = .ok a ∧ f a = b := by
  cases m with
  | error e => cases h
  | ok a => cases h; exact ⟨a, rfl, rfl⟩

/-- A successful construction, and the exact construction with the same result up to boxes. -/
theorem build_inv (hr : 0 < r.len) {fuel : ℕ} {st : BuildState d α} {h : ℕ}
    (hb : adaptiveBuild rnd fuel pos r items max = .ok (st, h)) :
    ∃ stE, FMM.adaptiveBuild fuel (fun s => shadow rnd r fuel (pos s)) r.exact items max = .ok (stE, h) ∧
      st = liftB (bxR rnd r) stE ∧ h ≤ fuel := by
  rw [adaptiveBuild_sim hr pos items max fuel fuel le_rfl] at hb
  obtain ⟨⟨stE, h'⟩, h1, h2⟩ := map_ok hb
  simp only [Prod.mk.injEq] at h2
  obtain ⟨rfl, rfl⟩ := h2
  refine ⟨stE, h1, rfl, ?_⟩
  obtain ⟨-, -, h3 | h3⟩ := adaptiveBuild_ok h1
  · omega
  · by_contra hlt
    push Not at hlt
    have := buildTree_short h3.2.1 hlt
    unfold FMM.adaptiveBuild at h1
    rw [if_neg (by omega), this] at h1
    cases h1

theorem storedIn_lift (bx : Path → Box d) (heap : AHeap d α) : storedIn (liftH bx heap) = storedIn heap := by
  funext π
  unfold storedIn liftH
  cases heap π <;> rfl

theorem isNode_lift (bx : Path → Box d) (heap : AHeap d α) (π : Path) : IsNode (liftH bx heap) π ↔ IsNode heap π := by
  unfold IsNode liftH
  cases h : heap π <;> simp

theorem isLeafOf_lift (bx : Path → Box d) (heap : AHeap d α) (π : Path) : IsLeafOf (liftH bx heap) π ↔ IsLeafOf heap π := by
  unfold IsLeafOf liftH
  cases h : heap π <;> simp

theorem lift_eq_some {bx : Path → Box d} {heap : AHeap d α} {π : Path} {n : ANode d α} (h : liftH bx heap π = some n) :
    ∃ m, heap π = some m ∧ n = { m with box := bx π } := by
  unfold liftH at h
  cases hm : heap π with
  | none => rw [hm] at h; cases h
  | some m => rw [hm] at h; cases h; exact ⟨m, rfl, rfl⟩

theorem buildLoop_mono {fuel fuel' : ℕ} (hf : fuel ≤ fuel') {k : ℕ} {st : BuildState d α} {x : BuildState d α × ℕ}
    (h : buildLoop rnd pos max fuel k st = .ok x) : buildLoop rnd pos max fuel' k st = .ok x := by
  induction fuel generalizing fuel' k st with
  | zero => cases h
  | succ f ih =>
    obtain ⟨f', rfl⟩ : ∃ f', fuel' = f' + 1 := ⟨fuel' - 1, by omega⟩
    unfold buildLoop at h ⊢
    cases hk : st.nodes[k]? with
    | none => rw [hk] at h; cases h
    | some level =>
      simp only [hk] at h ⊢
      cases hl : (List.range level.length).foldlM (buildNode rnd pos max (k + 1) level st.nodeSources)
          { heap := st.heap, nextNodes := [], nextLeaves := [], temp := [] } with
      | error e => rw [hl, err_bind] at h; cases h
      | ok y =>
        rw [hl, ok_bind] at h
        rw [ok_bind]
        by_cases hn : y.nextNodes ≠ []
        · simp only [if_pos hn] at h ⊢
          exact ih (by omega) h
        · simp only [if_neg hn] at h ⊢
          exact h

/-- More fuel does not change a result. -/
theorem adaptiveBuild_mono {fuel fuel' : ℕ} (hf : fuel ≤ fuel') {x : BuildState d α × ℕ}
    (h : adaptiveBuild rnd fuel pos r items max = .ok x) : adaptiveBuild rnd fuel' pos r items max = .ok x := by
  unfold adaptiveBuild at h ⊢
  by_cases hN : items.length ≤ max
  · rw [if_pos hN] at h ⊢; exact h
  · rw [if_neg hN] at h ⊢; exact buildLoop_mono hf h

/-- What **C66** claims about a heap and its list of leaves: `Partitioned` with the computed boxes and routes. -/
structure PartitionedR (rnd : ℝ → ℝ) (pos : α → Vec d) (r : RBox ℝ d) (items : List α) (max : ℕ) (heap : AHeap d α)
    (leaves : List Path) : Prop where
  /-- the leaves together hold every item as often as the input does -/
  perm : (leaves.flatMap (storedIn heap)).Perm items
  nodup : leaves.Nodup
  /-- the leaf list is the list of all leaf nodes of the heap -/
  leaf_iff : ∀ π, π ∈ leaves ↔ ∃ n, heap π = some n ∧ n.isLeaf = true
  /-- a leaf stores, in the original order, the items routed to it; not more than the capacity -/
  stored : ∀ π n, heap π = some n → n.isLeaf = true →
    n.items = items.filter (fun s => decide (route rnd r (pos s) π.length = π)) ∧ n.items.length ≤ max
  /-- a node is split only because more items than the capacity are routed to it -/
  refined : ∀ π n, heap π = some n → n.isLeaf = false → π ≠ [] →
    max < (items.filter (fun s => decide (route rnd r (pos s) π.length = π))).length
  /-- boxes, depths and pointers -/
  shape : ∀ π n, heap π = some n → n.box = (boxAt rnd r π).exact ∧ n.depth = π.length ∧
    (n.parent = none ↔ π = []) ∧ (∀ ρ, n.parent = some ρ → ∃ i < 2 ^ d, π = i :: ρ ∧ ∃ m, heap ρ = some m ∧ m.child i = some π) ∧
    (n.isLeaf = true → ∀ i, n.child i = none) ∧
    (n.isLeaf = false → ∀ i < 2 ^ d, n.child i = some (i :: π) ∧ ∃ m, heap (i :: π) = some m ∧ m.parent = some π)

/-- **C66** Whatever the rounding function does: if construction terminates, the sources are partitioned among the leaves, no
leaf exceeds the capacity, and the heap is a well-formed tree. -/
theorem C66_partition (hr : 0 < r.len) (fuel : ℕ) (st : BuildState d α) (h : ℕ)
    (hb : adaptiveBuild rnd fuel pos r items max = .ok (st, h)) :
    PartitionedR rnd pos r items max st.heap st.leaves.flatten ∧ st.leaves.length = h + 1 ∧ st.nodes.length = h := by
  obtain ⟨stE, h1, rfl, hf⟩ := build_inv hr hb
  obtain ⟨hp, h2, h3⟩ := C11_partition fuel stE h h1
  obtain ⟨t1, t2, -⟩ := adaptiveBuild_ok h1
  refine ⟨?_, h2, h3⟩
  have hlen : ∀ π m, stE.heap π = some m → π.length ≤ fuel := by
    intro π m hm
    rw [t1] at hm
    exact (t2 π (treeHeap_eq_some _ _ hm).1).trans hf
  have hit : ∀ π m, stE.heap π = some m →
      (items.filter fun s => decide (FMM.route r.exact (shadow rnd r fuel (pos s)) π.length = π))
        = items.filter fun s => decide (route rnd r (pos s) π.length = π) := fun π m hm =>
    itemsAt_shadow hr pos items fuel π (hlen π m hm)
  constructor
  · show (stE.leaves.flatten.flatMap (storedIn (liftH _ _))).Perm items
    rw [storedIn_lift]; exact hp.perm
  · exact hp.nodup
  · intro π
    exact (hp.leaf_iff π).trans (isLeafOf_lift (bxR rnd r) stE.heap π).symm
  · intro π n hn hl
    obtain ⟨m, hm, rfl⟩ := lift_eq_some hn
    have := hp.stored π m hm hl
    rwa [hit π m hm] at this
  · intro π n hn hl h0
    obtain ⟨m, hm, rfl⟩ := lift_eq_some hn
    have := hp.refined π m hm hl h0
    rwa [hit π m hm] at this
  · intro π n hn
    obtain ⟨m, hm, rfl⟩ := lift_eq_some hn
    obtain ⟨-, s2, s3, s4, s5, s6⟩ := hp.shape π m hm
    refine ⟨rfl, s2, s3, ?_, s5, ?_⟩
    · intro ρ hρ
      obtain ⟨i, hi, e, m', hm', hc⟩ := s4 ρ hρ
      exact ⟨i, hi, e, { m' with box := bxR rnd r ρ }, by show liftH _ _ ρ = _; unfold liftH; rw [hm']; rfl, hc⟩
    · intro hl i hi
      obtain ⟨e, m', hm', hc⟩ := s6 hl i hi
      exact ⟨e, { m' with box := bxR rnd r (i :: π) }, by show liftH _ _ (i :: π) = _; unfold liftH; rw [hm']; rfl, hc⟩

/-- **C66** Sources in the root box are stored in leaves whose computed boxes contain them up to rounding errors. -/
theorem C66_contained {u : ℝ} (H : ∀ x, |rnd x - x| ≤ u * |x|) (hu : 0 ≤ u) (hL : 0 < r.len) {C : ℝ}
    (hC0 : 0 ≤ C) (hC : ∀ i, |r.center i| ≤ C) (fuel : ℕ) (st : BuildState d α) (h : ℕ)
    (hb : adaptiveBuild rnd fuel pos r items max = .ok (st, h))
    (hk : (8 * h + 15) * (u * (4 * (C + r.len))) < r.len / 2 ^ (h + 1))
    (hin : ∀ s ∈ items, r.exact.contains (pos s)) (π : Path) (s : α) (hs : s ∈ storedIn st.heap π) (i : Fin d) :
    |pos s i - (boxAt rnd r π).center i| ≤ r.len / 2 ^ π.length / 2 + 4 * π.length * (u * (4 * (C + r.len))) := by
  obtain ⟨hp, h2, -⟩ := C66_partition hL fuel st h hb
  obtain ⟨stE, e1, e2, hf⟩ := build_inv hL hb
  obtain ⟨t1, t2, -⟩ := adaptiveBuild_ok e1
  unfold storedIn at hs
  cases hn : st.heap π with
  | none => rw [hn] at hs; simp at hs
  | some n =>
    rw [hn] at hs
    have hs : s ∈ n.items := hs
    obtain ⟨m, hm, hmn⟩ : ∃ m, stE.heap π = some m ∧ n = { m with box := bxR rnd r π } := by
      rw [e2] at hn; exact lift_eq_some hn
    rw [t1] at hm
    obtain ⟨hmem, hm⟩ := treeHeap_eq_some _ _ hm
    have hleaf : n.isLeaf = true := by
      by_contra hl
      rw [hmn, hm] at hs hl
      simp only at hs hl
      rw [if_neg hl] at hs
      simp at hs
    rw [(hp.stored π n hn hleaf).1] at hs
    obtain ⟨hs1, hs2⟩ := List.mem_filter.mp hs
    have hs2 : route rnd r (pos s) π.length = π := by simpa using hs2
    have := route_near (ctx_of H hu hL hC0 hC hk) (pos s) (by
      intro i
      have := (Box.contains_iff r.exact (pos s)).mp (hin s hs1) i
      simp only [RBox.exact] at this
      rw [abs_le]
      constructor <;> linarith [this.1, this.2]) π.length (t2 π hmem) i
    rwa [hs2] at this

theorem terminates_on {u : ℝ} (hu : 0 ≤ u) (hL : 0 < r.len) {C : ℝ}
    (hC0 : 0 ≤ C) (H : RndOn rnd u (4 * (C + r.len))) (hC : ∀ i, |r.center i| ≤ C) (k : ℕ)
    (hk : (8 * k + 15) * (u * (4 * (C + r.len))) < r.len / 2 ^ (k + 1))
    (hin : ∀ s ∈ items, r.exact.contains (pos s))
    (hsep : items.Pairwise fun s t => ∃ i, r.len / 2 ^ k + 8 * k * (u * (4 * (C + r.len))) < |pos s i - pos t i|)
    (hmax : 1 ≤ max) (fuel : ℕ) (hf : k ≤ fuel) :
    ∃ st h, adaptiveBuild rnd fuel pos r items max = .ok (st, h) ∧ h ≤ k := by
  have c := ctx_on hu hL hC0 H hC hk
  have hin' : ∀ s ∈ items, ∀ i, |pos s i - r.center i| ≤ r.len / 2 := by
    intro s hs i
    have := (Box.contains_iff r.exact (pos s)).mp (hin s hs) i
    simp only [RBox.exact] at this
    rw [abs_le]
    constructor <;> linarith [this.1, this.2]
  rw [adaptiveBuild_sim hL pos items max fuel fuel le_rfl]
  set pos' : α → Vec d := fun s => shadow rnd r fuel (pos s)
  by_cases hN : items.length ≤ max
  · refine ⟨liftB (bxR rnd r) { heap := rootHeap r.exact true items, nodes := [], leaves := [[[]]], nodeSources := [] }, 0, ?_,
      Nat.zero_le _⟩
    unfold FMM.adaptiveBuild
    rw [if_pos hN]; rfl
  · have hone : ∀ π : Path, π.length = k → (itemsAt pos' r.exact items π).length ≤ 1 := by
      intro π hπ
      rw [itemsAt_shadow hL pos items fuel π (by omega)]
      have h1 := itemsOn_le_one c (items.map pos) (by
        intro x hx i
        obtain ⟨s, hs, rfl⟩ := List.mem_map.mp hx
        exact hin' s hs i) (by rw [List.pairwise_map]; exact hsep) π hπ
      unfold itemsOn at h1
      rw [List.filter_map, List.length_map] at h1
      refine le_trans (le_of_eq ?_) h1
      congr 1
      refine List.filter_congr fun s _ => ?_
      simp only [Function.comp]
      rw [Bool.eq_iff_iff]
      simp
    have hnil : nodeLevel pos' r.exact items max k = [] := by
      rw [List.eq_nil_iff_forall_not_mem]
      intro π hπ
      obtain ⟨-, hl, hleaf⟩ := (mem_nodeLevel _ _ _ _ _ _).mp hπ
      have h1 := hone π hl
      by_cases h0 : π = []
      · subst h0
        rw [itemsAt_nil] at h1
        omega
      · simp [adaptiveTree, h0] at hleaf
        omega
    obtain ⟨h, hhk, hh⟩ := exists_isHeight pos' r.exact items max k hnil
    have e : FMM.adaptiveBuild fuel pos' r.exact items max = _ :=
      (if_neg hN).trans (buildTree_ok pos' r.exact items max h hh fuel (by omega))
    rw [e]
    exact ⟨_, h, rfl, hhk⟩

/-! ## The sanity check -/

/-- **C66** Construction terminates, with height at most `k`, if the sources lie in the root box and are further apart than a
box of depth `k` and rounding errors. -/
theorem C66_terminates {u : ℝ} (H : ∀ x, |rnd x - x| ≤ u * |x|) (hu : 0 ≤ u) (hL : 0 < r.len) {C : ℝ}
    (hC0 : 0 ≤ C) (hC : ∀ i, |r.center i| ≤ C) (k : ℕ)
    (hk : (8 * k + 15) * (u * (4 * (C + r.len))) < r.len / 2 ^ (k + 1))
    (hin : ∀ s ∈ items, r.exact.contains (pos s))
    (hsep : items.Pairwise fun s t => ∃ i, r.len / 2 ^ k + 8 * k * (u * (4 * (C + r.len))) < |pos s i - pos t i|)
    (hmax : 1 ≤ max) (fuel : ℕ) (hf : k ≤ fuel) :
    ∃ st h, adaptiveBuild rnd fuel pos r items max = .ok (st, h) ∧ h ≤ k :=
  terminates_on hu hL hC0 (RndOn.of_rel H hu) hC k hk hin hsep hmax fuel hf

/-- Separated nodes of equal depth pass the check `distance < 1.99 * box_length`. -/
theorem far_on {u : ℝ} (hu : 0 ≤ u) (hL : 0 < r.len) {C : ℝ}
    (hC0 : 0 ≤ C) (H : RndOn rnd u (4 * (C + r.len))) (hC : ∀ i, |r.center i| ≤ C) {k : ℕ}
    (hk : 100 * ((8 * k + 15) * (u * (4 * (C + r.len)))) < r.len / 2 ^ (k + 1))
    {nrm : Vec d → ℝ} (hnrm : ∀ v, r.len / 2 ^ k ≤ Vec.norm v → 999 / 1000 * Vec.norm v ≤ nrm v) (π ρ : Path) (hπ : π.length ≤ k) (hl : π.length = ρ.length)
    (hna : ¬ (FMM.boxAt r.exact π).adjacent (FMM.boxAt r.exact ρ)) : ¬ tooClose rnd nrm (bxR rnd r π) (bxR rnd r ρ) := by
  have hδ : 0 ≤ u * (4 * (C + r.len)) := by positivity
  have hk0 : (0 : ℝ) ≤ k := Nat.cast_nonneg k
  have hk1 : (8 * k + 15) * (u * (4 * (C + r.len))) < r.len / 2 ^ (k + 1) := by
    have : 0 ≤ (8 * k + 15) * (u * (4 * (C + r.len))) := by positivity
    linarith
  have c := ctx_on hu hL hC0 H hC hk1
  have hu1 : u ≤ 1 / 10000 := by
    by_contra hlt
    push Not at hlt
    have h1 : r.len / 2 ^ (k + 1) ≤ r.len := div_le_self hL.le (one_le_pow₀ (by norm_num))
    have h2 : 15 * (u * (4 * (C + r.len))) ≤ (8 * k + 15) * (u * (4 * (C + r.len))) :=
      mul_le_mul_of_nonneg_right (by linarith) hδ
    have h3 : u * (4 * r.len) ≤ u * (4 * (C + r.len)) := mul_le_mul_of_nonneg_left (by linarith) hu
    have h4 : 1 / 10000 * (4 * r.len) ≤ u * (4 * r.len) := mul_le_mul_of_nonneg_right hlt.le (by linarith)
    have h5 : 100 * (15 * (u * (4 * (C + r.len)))) < r.len := by linarith
    have h6 : r.len / 2 ^ (k + 1) ≤ r.len / 2 := by
      refine div_le_div_of_nonneg_left hL.le (by norm_num) ?_
      calc (2 : ℝ) = 2 ^ 1 := (pow_one _).symm
        _ ≤ 2 ^ (k + 1) := pow_le_pow_right₀ (by norm_num) (by omega)
    linarith
  obtain ⟨j, hj⟩ := center_dist_of_not_adjacent r.exact hL π ρ hl hna
  have hs : (FMM.boxAt r.exact π).len = r.len / 2 ^ π.length := boxAt_len _ _
  have hsk : r.len / 2 ^ (k + 1) ≤ r.len / 2 ^ π.length / 2 := by
    rw [pow_succ, ← div_div]
    exact div_le_div_of_nonneg_right (div_le_div_of_nonneg_left hL.le (by positivity) (pow_le_pow_right₀ (by norm_num) hπ))
      (by norm_num)
  have hlenR := c.lenR hC0 π
  have h1 := c.centerR π hπ j
  have h2 := c.centerR ρ (hl ▸ hπ) j
  have ce : ∀ σ, (boxAt id r σ).center = (FMM.boxAt r.exact σ).center := fun σ => by
    rw [← boxAt_id r σ]; rfl
  rw [ce] at h1 h2
  rw [hs] at hj
  have hpk : (π.length : ℝ) * (u * (4 * (C + r.len))) ≤ k * (u * (4 * (C + r.len))) :=
    mul_le_mul_of_nonneg_right (by exact_mod_cast hπ) hδ
  have ha1 := c.center_abs π j
  have ha2 := c.center_abs ρ j
  rw [ce] at ha1 ha2
  rw [← hl] at h2
  have hk15 : 8 * (k * (u * (4 * (C + r.len)))) + 15 * (u * (4 * (C + r.len))) = (8 * k + 15) * (u * (4 * (C + r.len))) := by ring
  have hC1 : 4 * (π.length : ℝ) * (u * (4 * (C + r.len))) = 4 * (π.length * (u * (4 * (C + r.len)))) := by ring
  rw [hC1] at h1 h2
  have hsmall := c.small
  have hkδ : 0 ≤ k * (u * (4 * (C + r.len))) := mul_nonneg hk0 hδ
  -- the difference of the centres
  have h3 : |(-1) * (boxAt rnd r ρ).center j - (-1) * (FMM.boxAt r.exact ρ).center j| ≤ 4 * (π.length * (u * (4 * (C + r.len)))) := by
    have := near_mul_unit (s := (-1 : ℝ)) (by simp) h2
    exact this
  have h4 := rnd_near c.rel h3 (by rw [abs_mul]; simp only [abs_neg, abs_one, one_mul]; linarith)
  have h5 := near_add h1 h4
  have hdiff : |(FMM.boxAt r.exact π).center j + (-1) * (FMM.boxAt r.exact ρ).center j| ≤ 2 * (C + r.len / 2) := by
    refine (abs_add_le _ _).trans ?_
    rw [abs_mul]; simp only [abs_neg, abs_one, one_mul]; linarith
  have h6 := rnd_near c.rel h5 (by linarith)
  have hv : vsub rnd (boxAt rnd r π).center (boxAt rnd r ρ).center j =
      rnd ((boxAt rnd r π).center j + rnd ((-1) * (boxAt rnd r ρ).center j)) := by
    simp only [vsub, vadd, vneg, vscale, mul_comm]
  rw [← hv] at h6
  have h7 := Vec.abs_le_norm (vsub rnd (boxAt rnd r π).center (boxAt rnd r ρ).center) j
  have h9 : |(FMM.boxAt r.exact π).center j + (-1) * (FMM.boxAt r.exact ρ).center j|
      = |(FMM.boxAt r.exact π).center j - (FMM.boxAt r.exact ρ).center j| := by congr 1; ring
  have h10 := abs_sub_abs_le_abs_sub ((FMM.boxAt r.exact π).center j + (-1) * (FMM.boxAt r.exact ρ).center j)
    (vsub rnd (boxAt rnd r π).center (boxAt rnd r ρ).center j)
  rw [abs_sub_comm] at h10
  have hsk' : r.len / 2 ^ k ≤ r.len / 2 ^ π.length := by
    rw [pow_succ, ← div_div] at hsk
    linarith
  have h8 := hnrm (vsub rnd (boxAt rnd r π).center (boxAt rnd r ρ).center) (by linarith)
  unfold tooClose
  show ¬ nrm (vsub rnd (boxAt rnd r π).center (boxAt rnd r ρ).center) < rnd (rnd (199 / 100) * (boxAt rnd r π).len)
  -- the right-hand side
  have g1 := H.two
  have g2 := H.abs (rnd (199 / 100) * (boxAt rnd r π).len)
  have hsL : r.len / 2 ^ π.length ≤ r.len := div_le_self hL.le (one_le_pow₀ (by norm_num))
  have hs0 : 0 < r.len / 2 ^ π.length := by positivity
  generalize (boxAt rnd r π).len = ℓ at *
  generalize r.len / 2 ^ π.length = s at *
  generalize rnd (199 / 100) = q at *
  have hℓ : ℓ ≤ s + 2 * (u * (4 * (C + r.len))) := by linarith [(abs_le.mp hlenR).2]
  have hℓ0 : 0 ≤ ℓ := by linarith [(abs_le.mp hlenR).1]
  have g1' : |q - 199 / 100| ≤ 1 / 10000 * (199 / 100) := by
    rw [abs_of_pos (by norm_num : (0 : ℝ) < 199 / 100)] at g1
    exact g1.trans (mul_le_mul_of_nonneg_right hu1 (by norm_num))
  obtain ⟨q1, q2⟩ := abs_le.mp g1'
  have hq0 : 0 ≤ q := by linarith
  have hq : q ≤ 1991 / 1000 := by linarith
  have hqℓ : q * ℓ ≤ 1991 / 1000 * ℓ := mul_le_mul_of_nonneg_right hq hℓ0
  have hqℓ0 : 0 ≤ q * ℓ := mul_nonneg hq0 hℓ0
  have g3 : rnd (q * ℓ) ≤ q * ℓ + u * (4 * (C + r.len)) := by
    have := (abs_le.mp (g2 (by rw [abs_of_nonneg hqℓ0]; linarith))).2
    linarith
  push Not
  linarith

/-- The tests of the neighbourhood pass on the computed boxes have the exact results. -/
theorem tests_on {u : ℝ} (hu : 0 ≤ u) (hL : 0 < r.len) {C : ℝ}
    (hC0 : 0 ≤ C) (H : RndOn rnd u (4 * (C + r.len))) (hC : ∀ i, |r.center i| ≤ C) {k : ℕ}
    (hk : 100 * ((8 * k + 15) * (u * (4 * (C + r.len)))) < r.len / 2 ^ (k + 1))
    {nrm : Vec d → ℝ} (hnrm : ∀ v, r.len / 2 ^ k ≤ Vec.norm v → 999 / 1000 * Vec.norm v ≤ nrm v) (T : PTree) (hT : ∀ π, T.Mem π → π.length ≤ k) :
    TestsOk T r.exact rnd nrm (bxR rnd r) where
  adj π ρ hπ hρ := by
    have hk1 : (8 * k + 15) * (u * (4 * (C + r.len))) < r.len / 2 ^ (k + 1) := by
      have : 0 ≤ (8 * k + 15) * (u * (4 * (C + r.len))) := by positivity
      linarith
    show (boxAt rnd r π).adjacent rnd (boxAt rnd r ρ) = true ↔ _
    rw [adjacent_eq (ctx_on hu hL hC0 H hC hk1) hk1 π ρ (hT π hπ) (hT ρ hρ), adjacent_id, boxAt_id, boxAt_id]
  far π ρ hπ hρ hl ha := far_on hu hL hC0 H hC hk hnrm π ρ (hT π hπ) hl ha

theorem tests_ok {u : ℝ} (H : ∀ x, |rnd x - x| ≤ u * |x|) (hu : 0 ≤ u) (hL : 0 < r.len) {C : ℝ}
    (hC0 : 0 ≤ C) (hC : ∀ i, |r.center i| ≤ C) {k : ℕ}
    (hk : 100 * ((8 * k + 15) * (u * (4 * (C + r.len)))) < r.len / 2 ^ (k + 1))
    {nrm : Vec d → ℝ} (hnrm : ∀ v, 999 / 1000 * Vec.norm v ≤ nrm v) (T : PTree) (hT : ∀ π, T.Mem π → π.length ≤ k) :
    TestsOk T r.exact rnd nrm (bxR rnd r) := tests_on hu hL hC0 (RndOn.of_rel H hu) hC hk (fun v _ => hnrm v) T hT

section lists
variable {u C : ℝ} {nrm : Vec d → ℝ}

theorem no_throw_on (hu : 0 ≤ u) (hL : 0 < r.len)
    (hC0 : 0 ≤ C) (H : RndOn rnd u (4 * (C + r.len))) (hC : ∀ i, |r.center i| ≤ C) (h : ℕ)
    (hnrm : ∀ v, r.len / 2 ^ h ≤ Vec.norm v → 999 / 1000 * Vec.norm v ≤ nrm v)
    (fuel : ℕ) (st : BuildState d α) (hb : adaptiveBuild rnd fuel pos r items max = .ok (st, h))
    (hk : 100 * ((8 * h + 15) * (u * (4 * (C + r.len)))) < r.len / 2 ^ (h + 1)) :
    ∃ nb fuel0, ∀ fuel ≥ fuel0, adaptiveLists rnd nrm fuel pos r items max = .ok (st, h, nb) := by
  obtain ⟨stE, h1, rfl, -⟩ := build_inv hL hb
  obtain ⟨t1, t2, t3⟩ := adaptiveBuild_ok h1
  by_cases hN : items.length ≤ max
  · refine ⟨{ Nbh.empty with near := pushAt Nbh.empty.near [] [] }, fuel, fun fuel' hf => ?_⟩
    unfold adaptiveLists
    rw [adaptiveBuild_mono hf hb, ok_bind]
    simp only
    rw [if_pos hN]
    unfold computeNodeNeighbourhood
    show (do let nb ← (do let node ← (liftH (bxR rnd r) stE.heap).get []; _); _) = _
    rw [liftH_get, t1, treeHeap_get _ _ PTree.mem_nil]
    rfl
  · have key := fun fuel' hf => computeNeighbourhoods_sim (it := itemsAt (fun s => shadow rnd r fuel (pos s)) r.exact items) hL
      fmmTree_adjOf rfl (tests_on hu hL hC0 H hC hk hnrm _ t2) (h + 1) (fun π hπ => Nat.lt_succ_of_le (t2 π hπ)) fuel' hf
    rw [← t1] at key
    generalize (fmmTree (fun s => shadow rnd r fuel (pos s)) r.exact items max).nbhAfter _ = nb at key
    refine ⟨nb, fuel + ((fmmTree (fun s => shadow rnd r fuel (pos s)) r.exact items max).order (h + 1)).length,
      fun fuel' hf => ?_⟩
    unfold adaptiveLists
    rw [adaptiveBuild_mono (le_trans (Nat.le_add_right _ _) hf) hb, ok_bind]
    simp only
    rw [if_neg hN]
    have := key fuel' (le_trans (Nat.le_add_left _ _) hf)
    show (do let nb ← computeNeighbourhoods rnd nrm fuel' (liftH (bxR rnd r) stE.heap); _) = _
    rw [this, ok_bind]

/-- **C67** In floating-point arithmetic the neighbourhood pass succeeds ("Node too close" is not thrown, no null pointer is
dereferenced, no list is modified while it is traversed), if the accumulated rounding error is below one per cent of half the
smallest box and the norm is computed to three digits. -/
theorem C67_no_throw (H : ∀ x, |rnd x - x| ≤ u * |x|) (hu : 0 ≤ u) (hL : 0 < r.len)
    (hC0 : 0 ≤ C) (hC : ∀ i, |r.center i| ≤ C) (hnrm : ∀ v, 999 / 1000 * Vec.norm v ≤ nrm v)
    (fuel : ℕ) (st : BuildState d α) (h : ℕ) (hb : adaptiveBuild rnd fuel pos r items max = .ok (st, h))
    (hk : 100 * ((8 * h + 15) * (u * (4 * (C + r.len)))) < r.len / 2 ^ (h + 1)) :
    ∃ nb fuel0, ∀ fuel ≥ fuel0, adaptiveLists rnd nrm fuel pos r items max = .ok (st, h, nb) :=
  no_throw_on hu hL hC0 (RndOn.of_rel H hu) hC h (fun v _ => hnrm v) fuel st hb hk

/-- A successful run of the rounded program and the exact run with the same lists. -/
theorem lists_on (hu : 0 ≤ u) (hL : 0 < r.len)
    (hC0 : 0 ≤ C) (H : RndOn rnd u (4 * (C + r.len))) (hC : ∀ i, |r.center i| ≤ C) {h : ℕ}
    (hnrm : ∀ v, r.len / 2 ^ h ≤ Vec.norm v → 999 / 1000 * Vec.norm v ≤ nrm v)
    {fuel : ℕ} {st : BuildState d α} {nb : Nbh} (hb : adaptiveLists rnd nrm fuel pos r items max = .ok (st, h, nb))
    (hk : 100 * ((8 * h + 15) * (u * (4 * (C + r.len)))) < r.len / 2 ^ (h + 1)) :
    ∃ stE fuel' K, FMM.adaptiveLists fuel' (fun s => shadow rnd r K (pos s)) r.exact items max = .ok (stE, h, nb) ∧
      st = liftB (bxR rnd r) stE ∧ h ≤ K := by
  unfold adaptiveLists at hb
  cases hb' : adaptiveBuild rnd fuel pos r items max with
  | error e => rw [hb', err_bind] at hb; cases hb
  | ok x =>
    obtain ⟨st', h'⟩ := x
    rw [hb', ok_bind] at hb
    simp only at hb
    obtain ⟨stE, h1, e, hle⟩ := build_inv hL hb'
    obtain ⟨t1, t2, t3⟩ := adaptiveBuild_ok h1
    set T := fmmTree (fun s => shadow rnd r fuel (pos s)) r.exact items max with hTd
    have hE := adaptiveLists_ok (Or.inl hL) h1 (fuel + (T.order (h' + 1)).length) (by omega) (Nat.le_add_left _ _)
    by_cases hN : items.length ≤ max
    · rw [if_pos hN] at hb
      have hh0 : h' = 0 := by
        rcases t3 with t3 | t3
        · exact t3.2.1
        · omega
      have hr0 : st'.heap = liftH (bxR rnd r) stE.heap := by rw [e]; rfl
      have hg : computeNodeNeighbourhood rnd nrm st'.heap Nbh.empty []
          = .ok { Nbh.empty with near := pushAt Nbh.empty.near [] [] } := by
        unfold computeNodeNeighbourhood
        rw [hr0, liftH_get, t1, treeHeap_get _ _ PTree.mem_nil]
        rfl
      have hgE : FMM.computeNodeNeighbourhood stE.heap Nbh.empty []
          = .ok { Nbh.empty with near := pushAt Nbh.empty.near [] [] } := by
        unfold FMM.computeNodeNeighbourhood
        rw [t1, treeHeap_get _ _ PTree.mem_nil]
        rfl
      rw [hg, ok_bind] at hb
      cases hb
      refine ⟨stE, fuel, fuel, ?_, e, hle⟩
      unfold FMM.adaptiveLists
      rw [h1, ok_bind]
      simp only
      rw [if_pos hN, hgE, ok_bind]
    · rw [if_neg hN] at hb
      cases hn : computeNeighbourhoods rnd nrm fuel st'.heap with
      | error e' => rw [hn, err_bind] at hb; cases hb
      | ok nb' =>
        rw [hn, ok_bind] at hb
        cases hb
        have hr0 : st.heap = liftH (bxR rnd r) stE.heap := by rw [e]; rfl
        have hs := computeNeighbourhoods_sim (it := itemsAt (fun s => shadow rnd r fuel (pos s)) r.exact items) hL
          fmmTree_adjOf rfl (tests_on hu hL hC0 H hC hk hnrm T t2) (h + 1)
          (fun π hπ => Nat.lt_succ_of_le (t2 π hπ)) (fuel + (T.order (h + 1)).length) (Nat.le_add_left _ _)
        rw [hr0, t1] at hn
        have hm : computeNeighbourhoods rnd nrm (fuel + (T.order (h + 1)).length) _ = .ok nb :=
          bfsLoop_mono _ _ _ (Nat.le_add_right _ _) _ _ _ hn
        rw [hs] at hm
        cases hm
        exact ⟨stE, _, fuel, hE, e, hle⟩

theorem lists_inv (H : ∀ x, |rnd x - x| ≤ u * |x|) (hu : 0 ≤ u) (hL : 0 < r.len)
    (hC0 : 0 ≤ C) (hC : ∀ i, |r.center i| ≤ C) (hnrm : ∀ v, 999 / 1000 * Vec.norm v ≤ nrm v)
    {fuel : ℕ} {st : BuildState d α} {h : ℕ} {nb : Nbh} (hb : adaptiveLists rnd nrm fuel pos r items max = .ok (st, h, nb))
    (hk : 100 * ((8 * h + 15) * (u * (4 * (C + r.len)))) < r.len / 2 ^ (h + 1)) :
    ∃ stE fuel' K, FMM.adaptiveLists fuel' (fun s => shadow rnd r K (pos s)) r.exact items max = .ok (stE, h, nb) ∧
      st = liftB (bxR rnd r) stE ∧ h ≤ K := lists_on hu hL hC0 (RndOn.of_rel H hu) hC (fun v _ => hnrm v) hb hk

/-- **C67** The lists computed in floating-point arithmetic are the lists U, V, X and W of the exact boxes with the same
addresses. -/
theorem C67_lists (H : ∀ x, |rnd x - x| ≤ u * |x|) (hu : 0 ≤ u) (hL : 0 < r.len)
    (hC0 : 0 ≤ C) (hC : ∀ i, |r.center i| ≤ C) (hnrm : ∀ v, 999 / 1000 * Vec.norm v ≤ nrm v)
    (fuel : ℕ) (st : BuildState d α) (h : ℕ) (nb : Nbh) (hb : adaptiveLists rnd nrm fuel pos r items max = .ok (st, h, nb))
    (hk : 100 * ((8 * h + 15) * (u * (4 * (C + r.len)))) < r.len / 2 ^ (h + 1)) :
    (∀ L, IsLeafOf st.heap L → (nb.near L).Nodup ∧ ∀ ρ, ρ ∈ nb.near L ↔
      IsLeafOf st.heap ρ ∧ touch (FMM.boxAt r.exact L) (FMM.boxAt r.exact ρ)) ∧
    (∀ i τ, IsNode st.heap (i :: τ) → (nb.inter (i :: τ)).Nodup ∧ ∀ ρ, ρ ∈ nb.inter (i :: τ) ↔ IsNode st.heap ρ ∧
      ¬ touch (FMM.boxAt r.exact (i :: τ)) (FMM.boxAt r.exact ρ) ∧
      ∃ j σ, ρ = j :: σ ∧ σ.length = τ.length ∧ touch (FMM.boxAt r.exact τ) (FMM.boxAt r.exact σ)) ∧
    (∀ i τ, IsNode st.heap (i :: τ) → (nb.X (i :: τ)).Nodup ∧ ∀ ρ, ρ ∈ nb.X (i :: τ) ↔ IsLeafOf st.heap ρ ∧
      ρ.length < (i :: τ).length ∧ touch (FMM.boxAt r.exact τ) (FMM.boxAt r.exact ρ) ∧
      ¬ touch (FMM.boxAt r.exact (i :: τ)) (FMM.boxAt r.exact ρ)) ∧
    (∀ L, IsLeafOf st.heap L → (nb.W L).Nodup ∧ ∀ ρ, ρ ∈ nb.W L ↔ IsNode st.heap ρ ∧ L.length < ρ.length ∧
      ¬ touch (FMM.boxAt r.exact L) (FMM.boxAt r.exact ρ) ∧
      ∃ j σ, ρ = j :: σ ∧ touch (FMM.boxAt r.exact L) (FMM.boxAt r.exact σ)) := by
  obtain ⟨stE, fuel', K, hE, rfl, -⟩ := lists_inv H hu hL hC0 hC hnrm hb hk
  have n1 : ∀ π, IsNode (liftB (bxR rnd r) stE).heap π ↔ IsNode stE.heap π := isNode_lift (bxR rnd r) stE.heap
  have n2 : ∀ π, IsLeafOf (liftB (bxR rnd r) stE).heap π ↔ IsLeafOf stE.heap π := isLeafOf_lift (bxR rnd r) stE.heap
  simp only [n1, n2]
  exact ⟨fun L hl => C18_U hL fuel' stE h nb hE L hl, fun i τ hn => C18_V hL fuel' stE h nb hE i τ hn,
    fun i τ hn => C18_X hL fuel' stE h nb hE i τ hn, fun L hl => by
      obtain ⟨a, b, -⟩ := C18_W hL fuel' stE h nb hE L hl
      exact ⟨a, b⟩⟩

/-- **C68** In floating-point arithmetic every source still contributes exactly once to every leaf: directly, through a
member of W, through a member of a V list, or through a member of an X list. -/
theorem C68_exactly_once (H : ∀ x, |rnd x - x| ≤ u * |x|) (hu : 0 ≤ u) (hL : 0 < r.len)
    (hC0 : 0 ≤ C) (hC : ∀ i, |r.center i| ≤ C) (hnrm : ∀ v, 999 / 1000 * Vec.norm v ≤ nrm v)
    (fuel : ℕ) (st : BuildState d α) (h : ℕ) (nb : Nbh) (hb : adaptiveLists rnd nrm fuel pos r items max = .ok (st, h, nb))
    (hk : 100 * ((8 * h + 15) * (u * (4 * (C + r.len)))) < r.len / 2 ^ (h + 1)) (L : Path) (hl : IsLeafOf st.heap L) :
    ((nb.near L).flatMap (storedIn st.heap) ++ ((nb.W L).flatMap (storedBelow st.heap st.leaves.flatten) ++
      L.tails.flatMap fun A => (nb.inter A).flatMap (storedBelow st.heap st.leaves.flatten) ++
        (nb.X A).flatMap (storedIn st.heap))).Perm items := by
  obtain ⟨stE, fuel', K, hE, rfl, -⟩ := lists_inv H hu hL hC0 hC hnrm hb hk
  have hl' : IsLeafOf stE.heap L := (isLeafOf_lift (bxR rnd r) stE.heap L).mp hl
  have e : storedIn (liftB (bxR rnd r) stE).heap = storedIn stE.heap := storedIn_lift (bxR rnd r) stE.heap
  have := C19_exactly_once hL fuel' stE h nb hE L hl'
  unfold storedBelow at this ⊢
  rw [e]
  exact this

end lists

/-- Four sources with `double` arithmetic: the constructor terminates, the tree is refined, the lists are computed. -/
example : ∃ fuel st h nb, adaptiveLists (d := 2) rndNE Vec.norm fuel (fun x : Vec 2 => x) ⟨0, 1⟩
      [![3/10, 3/10], ![3/10, -3/10], ![-3/10, 3/10], ![-3/10, -3/10]] 1 = .ok (st, h, nb) ∧ 0 < h ∧
    100 * ((8 * (h : ℝ) + 15) * (1 / 2 ^ 53 * (4 * (0 + 1)))) < 1 / 2 ^ (h + 1) := by
  obtain ⟨st, h, hb, hh⟩ := C66_terminates (d := 2) (rnd := rndNE) (u := 1 / 2 ^ 53) (r := ⟨0, 1⟩) (pos := fun x : Vec 2 => x)
    (max := 1) rndNE_rel (by positivity) one_pos le_rfl (by simp) 2
    (by norm_num) (items := [![3/10, 3/10], ![3/10, -3/10], ![-3/10, 3/10], ![-3/10, -3/10]]) (by
      intro s hs
      rw [Box.contains_iff]
      simp only [RBox.exact]
      simp only [List.mem_cons, List.not_mem_nil, or_false] at hs
      intro i
      rcases hs with rfl | rfl | rfl | rfl <;> fin_cases i <;> norm_num)
    (by
      simp only [List.pairwise_cons, List.mem_cons, List.not_mem_nil, or_false, forall_eq_or_imp, forall_eq]
      refine ⟨⟨⟨1, ?_⟩, ⟨0, ?_⟩, ⟨0, ?_⟩⟩, ⟨⟨0, ?_⟩, ⟨0, ?_⟩⟩, ⟨1, ?_⟩, by simp⟩ <;>
        norm_num [abs_of_pos, abs_of_neg]) le_rfl 2 le_rfl
  have hpos : 0 < h := by
    obtain ⟨hp, h2, h3⟩ := C66_partition one_pos 2 st h hb
    by_contra h0
    obtain rfl : h = 0 := by omega
    obtain ⟨stE, e1, -, -⟩ := build_inv one_pos hb
    rcases (adaptiveBuild_ok e1).2.2 with t | t
    · simp at t
    · exact absurd t.2.1.1 (lt_irrefl 0)
  have hk : 100 * ((8 * (h : ℝ) + 15) * (1 / 2 ^ 53 * (4 * (0 + 1)))) < 1 / 2 ^ (h + 1) := by
    interval_cases h <;> norm_num
  obtain ⟨nb, f0, hf⟩ := C67_no_throw (nrm := Vec.norm) (C := 0) rndNE_rel (by positivity) (one_pos) le_rfl (by simp) (by
    intro v
    have := Vec.norm_nonneg v
    linarith) 2 st h hb hk
  exact ⟨f0, st, h, nb, hf f0 le_rfl, hpos, hk⟩

end FMM.Rounded
