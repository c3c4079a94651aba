import Verif.WorkTree
import Verif.WorkKit
import Verif.FltTree

/-!
# The operations of the passes and of the evaluations, for a tree of paths
-/

namespace FMM.Work
open FMM.Rel
variable {d : ℕ} {K : Kit d} {A : Type}
variable {T : PTree} {r : Box d} {cen : Path → Vec d} {src : Path → List (Source d)} {sh : Shape d A} {addr : Path → A} {H : ℕ}

section
variable (hT : TreeR T r cen src sh addr H)
include hT

theorem nSrc_node {π : Path} (hπ : T.Mem π) (hl : T.leaf π = true) : nSrc sh (addr π) = (src π).length := by
  obtain ⟨n, h1, -, -, -, -, -, h2⟩ := hT.node π hπ
  exact nSrc_ok h1 (h2 hl).1

theorem n_children {π : Path} (hπ : T.Mem π) (hl : T.leaf π = false) : nOf sh (fun n => n.children.length) (addr π) = 2 ^ d := by
  obtain ⟨n, h1, -, -, h2, -⟩ := hT.node π hπ
  rw [nOf_ok h1, h2 hl]; simp

theorem n_inter {π : Path} (hπ : T.Mem π) : nOf sh (fun n => n.inter.length) (addr π) = (T.inter π).length := by
  obtain ⟨n, h1, -, -, -, h2, -⟩ := hT.node π hπ
  rw [nOf_ok h1, h2]; simp

theorem n_xl {π : Path} (hπ : T.Mem π) : nX sh (addr π) = ((T.xl π).map fun ρ => (src ρ).length).sum := by
  obtain ⟨n, h1, -, -, -, -, h2, -⟩ := hT.node π hπ
  unfold nX
  rw [nOf_ok h1, h2, List.map_map]
  congr 1
  refine List.map_congr_left fun ρ hρ => ?_
  cases π with
  | nil => simp [PTree.xl] at hρ
  | cons i τ =>
    obtain ⟨a, b, -⟩ := (PTree.mem_xl (hT.hA.laws hT.hr) hπ ρ).mp hρ
    exact nSrc_node hT a b

theorem n_W {π : Path} (hπ : T.Mem π) (hl : T.leaf π = true) :
    nOf sh (fun n => n.W.length) (addr π) = ((T.nbhAfter (T.order (H + 1))).W π).length := by
  obtain ⟨n, h1, -, -, -, -, -, h2⟩ := hT.node π hπ
  rw [nOf_ok h1, (h2 hl).2.2]; simp

theorem n_near {π : Path} (hπ : T.Mem π) (hl : T.leaf π = true) : nOf sh (fun n => (n.near.map (nSrc sh)).sum) (addr π)
    = (((T.nbhAfter (T.order (H + 1))).near π).map fun ρ => (src ρ).length).sum := by
  obtain ⟨n, h1, -, -, -, -, -, h2⟩ := hT.node π hπ
  rw [nOf_ok h1, (h2 hl).2.1, List.map_map]
  congr 1
  refine List.map_congr_left fun ρ hρ => ?_
  obtain ⟨a, b, -⟩ := (PTree.mem_near_leaf (hT.hA.laws hT.hr) (fun π hπ => Nat.lt_succ_of_le (hT.hH π hπ)) hπ hl ρ).mp hρ
  exact nSrc_node hT a b

end

/-! ## The loops -/

/-- The inner nodes of the upward pass. -/
def upP (H : ℕ) (up : ℕ → List Path) : List Path := ((List.range (H - 2)).map fun i => up (H - 1 - i)).flatten

/-- The nodes of the downward pass. -/
def dnP (H : ℕ) (dn : ℕ → List Path) : List Path := ((List.range (H + 1 - firstLevel H)).map fun i => dn (firstLevel H + i)).flatten

theorem flatten_leaf (addr : Path → A) (l : List (List Path)) : (leafLoops addr l).flatten = l.flatten.map addr := by
  unfold leafLoops
  rw [List.map_flatten]

theorem flatten_up (addr : Path → A) (H : ℕ) (up : ℕ → List Path) : (upLoops addr H up).flatten = (upP H up).map addr := by
  unfold upLoops upP
  rw [List.map_flatten, List.map_map]
  rfl

theorem flatten_down (addr : Path → A) (H : ℕ) (dn : ℕ → List Path) : (downLoops addr H dn).flatten = (dnP H dn).map addr := by
  unfold downLoops dnP
  rw [List.map_flatten, List.map_map]
  rfl

/-- Levels are disjoint. -/
theorem nodup_levels {n : ℕ} {g : ℕ → List Path} {k : ℕ → ℕ} (hk : ∀ i < n, ∀ j < n, k i = k j → i = j) (hg : ∀ i < n, (g i).Nodup)
    (hm : ∀ i < n, ∀ π ∈ g i, π.length = k i) : ((List.range n).map g).flatten.Nodup := by
  rw [List.nodup_flatten]
  refine ⟨?_, ?_⟩
  · intro l hl
    obtain ⟨i, hi, rfl⟩ := List.mem_map.mp hl
    exact hg i (List.mem_range.mp hi)
  · rw [List.pairwise_map]
    have : (List.range n).Pairwise (fun i j => i ∈ List.range n ∧ j ∈ List.range n ∧ i ≠ j) := by
      rw [List.pairwise_iff_getElem]
      intro a b ha hb hab
      simp only [List.length_range] at ha hb
      simp only [List.getElem_range, List.mem_range]
      omega
    refine this.imp ?_
    rintro i j ⟨hi, hj, hij⟩ π h1 h2
    rw [List.mem_range] at hi hj
    exact hij (hk i hi j hj ((hm i hi π h1).symm.trans (hm j hj π h2)))

variable {leafP : List (List Path)} {up dn : ℕ → List Path}

theorem upP_ok (hL : LoopsOK T H leafP up dn) : (upP H up).Nodup ∧ ∀ π ∈ upP H up, T.Mem π ∧ T.leaf π = false := by
  refine ⟨nodup_levels (k := fun i => H - 1 - i) (by intro i hi j hj h; omega) (fun i hi => hL.up_nodup _) fun i hi π hπ => ?_, fun π hπ => ?_⟩
  · exact ((hL.up_mem (H - 1 - i) (by omega) (by omega) π).mp hπ).2.1
  · unfold upP at hπ
    obtain ⟨l, hl, hπ⟩ := List.mem_flatten.mp hπ
    obtain ⟨i, hi, rfl⟩ := List.mem_map.mp hl
    rw [List.mem_range] at hi
    obtain ⟨a, -, b⟩ := (hL.up_mem (H - 1 - i) (by omega) (by omega) π).mp hπ
    exact ⟨a, b⟩

theorem dnP_ok (hH : 1 ≤ H) (hL : LoopsOK T H leafP up dn) : (dnP H dn).Nodup ∧ ∀ π, π ∈ dnP H dn ↔ T.Mem π ∧ firstLevel H ≤ π.length ∧ π.length ≤ H := by
  have hf : 1 ≤ firstLevel H := by unfold firstLevel; omega
  refine ⟨nodup_levels (k := fun i => firstLevel H + i) (by intro i hi j hj h; omega) (fun i hi => hL.dn_nodup _) fun i hi π hπ => ?_,
    fun π => ⟨fun hπ => ?_, fun hπ => ?_⟩⟩
  · exact ((hL.dn_mem (firstLevel H + i) (by omega) (by omega) π).mp hπ).2
  · unfold dnP at hπ
    obtain ⟨l, hl, hπ⟩ := List.mem_flatten.mp hπ
    obtain ⟨i, hi, rfl⟩ := List.mem_map.mp hl
    rw [List.mem_range] at hi
    obtain ⟨a, b⟩ := (hL.dn_mem (firstLevel H + i) (by omega) (by omega) π).mp hπ
    exact ⟨a, by omega, by omega⟩
  · unfold dnP
    refine List.mem_flatten.mpr ⟨_, List.mem_map.mpr ⟨π.length - firstLevel H, List.mem_range.mpr (by omega), rfl⟩, ?_⟩
    have : firstLevel H + (π.length - firstLevel H) = π.length := by omega
    simp only [this]
    exact (hL.dn_mem π.length (by omega) hπ.2.2 π).mpr ⟨hπ.1, rfl⟩

variable [DecidableEq A] {p : ℕ} {sch : ℕ → List A → List A} {s s1 : Exps K.counted A}

/-- The operations of the passes of the adaptive tree. -/
theorem passes_work (hT : TreeR T r cen src sh addr H) (hH : 1 ≤ H) (hL : LoopsOK T H leafP up dn) (hs : Schedule sch)
    (h : passes K.counted sh p (constructLE K.counted sh p) sch (leafLoops addr leafP) (upLoops addr H up) (downLoops addr H dn) s = .ok s1) :
    s1.t.2 = s.t.2 + Pi.single Op.p2m (leafP.flatten.map fun π => (src π).length).sum + Pi.single Op.m2m ((upP H up).length * 2 ^ d)
      + (Pi.single Op.l2l (dnP H dn).length + Pi.single Op.m2l ((dnP H dn).map fun π => (T.inter π).length).sum
        + Pi.single Op.p2l ((dnP H dn).map fun π => ((T.xl π).map fun ρ => (src ρ).length).sum).sum) := by
  rw [cost_passes (c := leCost sh) (fun a s s1 h => cost_adaptive h) hs h, sum_leCost, flatten_leaf, flatten_up, flatten_down]
  simp only [List.map_map, List.length_map]
  have e1 : leafP.flatten.map (nSrc sh ∘ addr) = leafP.flatten.map fun π => (src π).length := by
    refine List.map_congr_left fun π hπ => ?_
    obtain ⟨l, hl, hπ⟩ := List.mem_flatten.mp hπ
    obtain ⟨a, b⟩ := hL.leaf_mem l hl π hπ
    exact nSrc_node hT a b
  have e2 : ((upP H up).map ((nOf sh fun n => n.children.length) ∘ addr)).sum = (upP H up).length * 2 ^ d := by
    have : (upP H up).map ((nOf sh fun n => n.children.length) ∘ addr) = (upP H up).map fun _ => 2 ^ d := by
      refine List.map_congr_left fun π hπ => ?_
      obtain ⟨a, b⟩ := (upP_ok hL).2 π hπ
      exact n_children hT a b
    rw [this]; simp
  have e3 : (dnP H dn).map ((nOf sh fun n => n.inter.length) ∘ addr) = (dnP H dn).map fun π => (T.inter π).length :=
    List.map_congr_left fun π hπ => n_inter hT (((dnP_ok hH hL).2 π).mp hπ).1
  have e4 : (dnP H dn).map (nX sh ∘ addr) = (dnP H dn).map fun π => ((T.xl π).map fun ρ => (src ρ).length).sum :=
    List.map_congr_left fun π hπ => n_xl hT (((dnP_ok hH hL).2 π).mp hπ).1
  rw [e1, e2, e3, e4]

/-- The operations of the passes of the balanced tree. -/
theorem passes_workB (hT : TreeR T r cen src sh addr H) (hH : 1 ≤ H) (hL : LoopsOK T H leafP up dn) (hs : Schedule sch)
    (h : passes K.counted sh p (balancedLE K.counted sh) sch (leafLoops addr leafP) (upLoops addr H up) (downLoops addr H dn) s = .ok s1) :
    s1.t.2 = s.t.2 + Pi.single Op.p2m (leafP.flatten.map fun π => (src π).length).sum + Pi.single Op.m2m ((upP H up).length * 2 ^ d)
      + (Pi.single Op.l2l (dnP H dn).length + Pi.single Op.m2l ((dnP H dn).map fun π => (T.inter π).length).sum) := by
  rw [cost_passes (c := leCostB sh) (fun a s s1 h => cost_balanced h) hs h, sum_leCostB, flatten_leaf, flatten_up, flatten_down]
  simp only [List.map_map, List.length_map]
  have e1 : leafP.flatten.map (nSrc sh ∘ addr) = leafP.flatten.map fun π => (src π).length := by
    refine List.map_congr_left fun π hπ => ?_
    obtain ⟨l, hl, hπ⟩ := List.mem_flatten.mp hπ
    obtain ⟨a, b⟩ := hL.leaf_mem l hl π hπ
    exact nSrc_node hT a b
  have e2 : ((upP H up).map ((nOf sh fun n => n.children.length) ∘ addr)).sum = (upP H up).length * 2 ^ d := by
    have : (upP H up).map ((nOf sh fun n => n.children.length) ∘ addr) = (upP H up).map fun _ => 2 ^ d := by
      refine List.map_congr_left fun π hπ => ?_
      obtain ⟨a, b⟩ := (upP_ok hL).2 π hπ
      exact n_children hT a b
    rw [this]; simp
  have e3 : (dnP H dn).map ((nOf sh fun n => n.inter.length) ∘ addr) = (dnP H dn).map fun π => (T.inter π).length :=
    List.map_congr_left fun π hπ => n_inter hT (((dnP_ok hH hL).2 π).mp hπ).1
  rw [e1, e2, e3]

/-! ## Bounds for the adaptive tree -/

section
variable {pos : Source d → Vec d} {items : List (Source d)} {max fuel h : ℕ} {st : BuildState d (Source d)} {nb : Nbh}

theorem flat_nodes (hN : max < items.length) (hr : 0 < r.len) (hb : adaptiveLists fuel pos r items max = .ok (st, h, nb)) :
    st.nodes.flatten.Nodup ∧ st.leaves.flatten.Nodup ∧
      (∀ π, π ∈ st.nodes.flatten ↔ (fmmTree pos r items max).Mem π ∧ (fmmTree pos r items max).leaf π = false) ∧
      (∀ π, π ∈ st.leaves.flatten ↔ (fmmTree pos r items max).Mem π ∧ (fmmTree pos r items max).leaf π = true) ∧
      (st.nodes.flatten ++ st.leaves.flatten).Nodup := by
  obtain ⟨hn, hl⟩ := levels hN hr hb
  have e := fmmTree_eq (pos := pos) (r := r) hN
  have hall := all_nodes hr hb
  have m1 : ∀ π ∈ st.nodes.flatten, (fmmTree pos r items max).leaf π = false := by
    intro π hπ
    rw [hn] at hπ
    obtain ⟨l, hl, hπ⟩ := List.mem_flatten.mp hπ
    obtain ⟨k, -, rfl⟩ := List.mem_map.mp hl
    rw [mem_nodeLevel, e] at hπ
    exact hπ.2.2
  have m2 : ∀ π ∈ st.leaves.flatten, (fmmTree pos r items max).leaf π = true := by
    intro π hπ
    rw [hl] at hπ
    obtain ⟨l, hl, hπ⟩ := List.mem_flatten.mp hπ
    obtain ⟨k, -, rfl⟩ := List.mem_map.mp hl
    rw [mem_leafLevel, e] at hπ
    exact hπ.2.2
  have n1 : st.nodes.flatten.Nodup := by
    rw [hn]
    exact nodup_levels (k := id) (fun i _ j _ h => h) (fun i _ => nodup_nodeLevel _ _ _ _ i) fun i _ π hπ => ((mem_nodeLevel _ _ _ _ i π).mp hπ).2.1
  have n2 : st.leaves.flatten.Nodup := by
    rw [hl]
    exact nodup_levels (k := id) (fun i _ j _ h => h) (fun i _ => nodup_leafLevel _ _ _ _ i) fun i _ π hπ => ((mem_leafLevel _ _ _ _ i π).mp hπ).2.1
  refine ⟨n1, n2, fun π => ⟨fun hπ => ⟨(hall π).mp (List.mem_append_left _ hπ), m1 π hπ⟩, fun hπ => ?_⟩,
    fun π => ⟨fun hπ => ⟨(hall π).mp (List.mem_append_right _ hπ), m2 π hπ⟩, fun hπ => ?_⟩, ?_⟩
  · rcases List.mem_append.mp ((hall π).mpr hπ.1) with h' | h'
    · exact h'
    · have := m2 π h'; rw [hπ.2] at this; cases this
  · rcases List.mem_append.mp ((hall π).mpr hπ.1) with h' | h'
    · have := m1 π h'; rw [hπ.2] at this; cases this
    · exact h'
  · rw [List.nodup_append]
    refine ⟨n1, n2, ?_⟩
    rintro a ha b hb rfl
    have h1 := m1 a ha
    rw [m2 a hb] at h1; cases h1

theorem leaf_items {π : Path} (h : (fmmTree pos r items max).leaf π = true) : (itemsAt pos r items π).length ≤ max := by
  simpa [fmmTree] using h

/-- All bounds of the constructor. -/
theorem bounds (hN : max < items.length) (hr : 0 < r.len) (hb : adaptiveLists fuel pos r items max = .ok (st, h, nb)) :
    (st.leaves.flatten.map fun π => (itemsAt pos r items π).length).sum = items.length ∧
    (upP h (nodeLevel pos r items max)).length ≤ st.nodes.flatten.length ∧
    (dnP h (Rel.fullLevel pos r items max)).length ≤ st.nodes.flatten.length + st.leaves.flatten.length ∧
    ((dnP h (Rel.fullLevel pos r items max)).map fun π => ((fmmTree pos r items max).inter π).length).sum
      ≤ (st.nodes.flatten.length + st.leaves.flatten.length) * (6 ^ d - 3 ^ d) ∧
    ((dnP h (Rel.fullLevel pos r items max)).map fun π => (((fmmTree pos r items max).xl π).map fun ρ => (itemsAt pos r items ρ).length).sum).sum
      ≤ (st.nodes.flatten.length + st.leaves.flatten.length) * ((3 ^ d - 1) * max) ∧
    st.nodes.flatten.length * (max + 1) ≤ items.length * h ∧
    st.nodes.flatten.length + st.leaves.flatten.length ≤ 1 + 2 ^ d * st.nodes.flatten.length := by
  obtain ⟨n1, n2, m1, m2, n3⟩ := flat_nodes hN hr hb
  have hH := height_pos hN hb hr
  have hL := loopsOK hN hr hb
  have hall := all_nodes hr hb
  have hA : AdjOf (fmmTree pos r items max) r := fmmTree_adjOf
  obtain ⟨-, -, h2, -⟩ := lists_result (Or.inl hr) hb
  have hh : ∀ π, (fmmTree pos r items max).Mem π → π.length ≤ h := fun π hπ => Nat.lt_succ_iff.mp (h2 π hπ)
  obtain ⟨d1, d2⟩ := dnP_ok hH hL
  have dl : (dnP h (Rel.fullLevel pos r items max)).length ≤ st.nodes.flatten.length + st.leaves.flatten.length := by
    rw [← List.length_append]
    exact length_le_of_subset d1 fun π hπ => (hall π).mpr ((d2 π).mp hπ).1
  refine ⟨?_, length_le_of_subset (upP_ok hL).1 fun π hπ => (m1 π).mpr ((upP_ok hL).2 π hπ), dl, ?_, ?_, ?_, ?_⟩
  · have := (itemsAt_perm (pos := pos) (r := r) (items := items) (fmmTree pos r items max) rfl h hh st.leaves.flatten n2 m2).length_eq
    rw [List.length_flatMap] at this
    exact this
  · refine (sum_le_mul _ _ _ fun π hπ => inter_card hr hA rfl ((d2 π).mp hπ).1).trans (Nat.mul_le_mul_right _ dl)
  · refine (sum_le_mul _ _ ((3 ^ d - 1) * max) fun π hπ => ?_).trans (Nat.mul_le_mul_right _ dl)
    have hm := ((d2 π).mp hπ).1
    refine (sum_le_mul _ _ max fun ρ hρ => leaf_items ?_).trans (Nat.mul_le_mul_right _ (xl_le hr hA rfl hm))
    cases π with
    | nil => simp [PTree.xl] at hρ
    | cons i τ => exact ((PTree.mem_xl (hA.laws hr) hm ρ).mp hρ).2.1
  · exact inner_le hh n1 fun π hπ => (m1 π).mp hπ
  · rw [← List.length_append]
    exact nodes_le_inner rfl n3 (fun π hπ => (hall π).mp hπ) fun π h1 h2 => (m1 π).mpr ⟨h1, h2⟩

/-- Sums over the sources, each with the leaf that holds it. -/
theorem sum_over_leaves {l : List Path} {it : Path → List (Source d)} (hp : (l.flatMap it).Perm items) (f : Source d → ℕ) (g : Path → ℕ)
    (hf : ∀ π ∈ l, ∀ s ∈ it π, f s = g π) : (items.map f).sum = (l.map fun π => (it π).length * g π).sum := by
  rw [← (hp.map f).sum_eq]
  clear hp
  induction l with
  | nil => rfl
  | cons π l ih =>
    rw [List.flatMap_cons, List.map_append, List.sum_append, List.map_cons, List.sum_cons, ih fun ρ hρ => hf ρ (by simp [hρ])]
    congr 1
    have : (it π).map f = (it π).map fun _ => g π := List.map_congr_left fun s hs => hf π (by simp) s hs
    rw [this]; simp

/-- All bounds of the evaluations at the sources. -/
theorem eval_bounds (hN : max < items.length) (hr : 0 < r.len) (hb : adaptiveLists fuel pos r items max = .ok (st, h, nb)) (f1 f2 : Source d → ℕ)
    (h1 : ∀ π ∈ st.leaves.flatten, ∀ s ∈ itemsAt pos r items π, f1 s = ((fmmTree pos r items max).nbhAfter ((fmmTree pos r items max).order (h + 1))
      |>.W π).length)
    (h2 : ∀ π ∈ st.leaves.flatten, ∀ s ∈ itemsAt pos r items π, f2 s = (((fmmTree pos r items max).nbhAfter ((fmmTree pos r items max).order (h + 1))
      |>.near π).map fun ρ => (itemsAt pos r items ρ).length).sum) :
    (items.map f1).sum ≤ max * ((st.nodes.flatten.length + st.leaves.flatten.length) * (3 ^ d - 1)) ∧
    (items.map f2).sum ≤ max * (max * (st.leaves.flatten.length * (3 ^ d + (3 ^ d - 1)))) := by
  obtain ⟨n1, n2, m1, m2, n3⟩ := flat_nodes hN hr hb
  have hall := all_nodes hr hb
  have hA : AdjOf (fmmTree pos r items max) r := fmmTree_adjOf
  obtain ⟨-, -, h2', -⟩ := lists_result (Or.inl hr) hb
  have hh : ∀ π, (fmmTree pos r items max).Mem π → π.length ≤ h := fun π hπ => Nat.lt_succ_iff.mp (h2' π hπ)
  have hp := itemsAt_perm (pos := pos) (r := r) (items := items) (fmmTree pos r items max) rfl h hh st.leaves.flatten n2 m2
  refine ⟨?_, ?_⟩
  · rw [sum_over_leaves hp f1 _ h1]
    refine (sum_mono _ (fun π => max * ((fmmTree pos r items max).nbhAfter ((fmmTree pos r items max).order (h + 1)) |>.W π).length) _
      fun π hπ => Nat.mul_le_mul_right _ (leaf_items ((m2 π).mp hπ).2)).trans ?_
    rw [List.sum_map_mul_left]
    refine Nat.mul_le_mul_left _ ?_
    rw [← List.length_append]
    exact W_sum_le hr hA rfl h2' n2 hall
  · rw [sum_over_leaves hp f2 _ h2]
    refine (sum_mono _ (fun π => max * (max * ((fmmTree pos r items max).nbhAfter ((fmmTree pos r items max).order (h + 1)) |>.near π).length)) _
      fun π hπ => Nat.mul_le_mul (leaf_items ((m2 π).mp hπ).2) ?_).trans ?_
    · rw [Nat.mul_comm]
      obtain ⟨k1, k2⟩ := (m2 π).mp hπ
      exact sum_le_mul _ _ _ fun ρ hρ => leaf_items ((PTree.mem_near_leaf (hA.laws hr) h2' k1 k2 ρ).mp hρ).2.1
    · rw [List.sum_map_mul_left, List.sum_map_mul_left]
      exact Nat.mul_le_mul_left _ (Nat.mul_le_mul_left _ (U_sum_le hr hA rfl h2' n2 m2))

end
end FMM.Work
