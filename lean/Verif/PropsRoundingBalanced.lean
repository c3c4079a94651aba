import Verif.RoundingBalanced
import Verif.PropsRoundingTree

/-!
# C69, C70: the balanced tree in floating-point arithmetic
-/

namespace FMM.Rounded
variable {d : ℕ} {α : Type} {rnd : ℝ → ℝ} {nrm : Vec d → ℝ} {r : RBox ℝ d} {h : ℕ}

/-! ## Neighbourhoods -/

theorem bxB_baddr {π : Path} (hπ : ValidPath d π) : bxB rnd r h (baddr d h π) = bxR rnd r π := by
  unfold baddr; rw [bxB_glob, gpath_gidx _ _ hπ]

theorem bnbhChild_lift (hr : 0 < r.len) (hT : TestsOk (fullTree r.exact h) r.exact rnd nrm (bxR rnd r)) {π c : Path}
    (hπ : (fullTree r.exact h).Mem π) (hc : (fullTree r.exact h).Mem c) (hl : π.length = c.length) (par : BAddr)
    (node node' : BNode d) (hbox : node.box = FMM.boxAt r.exact π) (hbox' : node'.box = bxR rnd r π)
    (child : ℕ → Option BAddr) (i : ℕ) (hci : child i = some (baddr d h c)) (st : BNbh) :
    bnbhChild rnd nrm (liftM (bxB rnd r h) (bfull r.exact h)) (baddr d h π) par node' child st i
      = FMM.bnbhChild (bfull r.exact h) (baddr d h π) par node child st i := by
  have hc' := (fullTree_mem r.exact h c).mp hc
  obtain ⟨cn, g1, g2, -⟩ := bfull_get_path r.exact hc'.1 hc'.2
  unfold bnbhChild FMM.bnbhChild
  rw [hci]
  simp only
  rw [liftM_get, g1, bxB_baddr hc'.1]
  show (do let cn ← Except.ok _; _) = _
  rw [ok_bind, ok_bind]
  simp only [hbox, hbox', g2]
  by_cases ha : (FMM.boxAt r.exact π).adjacent (FMM.boxAt r.exact c)
  · rw [if_pos ha, if_pos ((hT.adj π c hπ hc).mpr ha)]
  · rw [if_neg ha, if_neg (fun h => ha ((hT.adj π c hπ hc).mp h)), if_neg (by rw [hbox']; exact hT.far π c hπ hc hl ha)]
    obtain ⟨j, hj⟩ := center_dist_of_not_adjacent r.exact hr π c hl ha
    have hnorm := Vec.abs_le_norm ((FMM.boxAt r.exact π).center - (FMM.boxAt r.exact c).center) j
    have hpos := boxAt_len_pos r.exact hr π
    rw [Pi.sub_apply] at hnorm
    rw [if_neg (by linarith)]

theorem bvisit_lift (hr : 0 < r.len) (hT : TestsOk (fullTree r.exact h) r.exact rnd nrm (bxR rnd r)) (k : ℕ)
    (hk : k < off (2 ^ d) (h + 1)) (st : BNbh) (hst : BNbhAfter r.exact h k st) :
    bNeighbourhood rnd nrm (liftM (bxB rnd r h) (bfull r.exact h)) st (glob (2 ^ d) h k)
      = FMM.bNeighbourhood (bfull r.exact h) st (glob (2 ^ d) h k) := by
  have hpos : 0 < 2 ^ d := by positivity
  have hv := gpath_valid (2 ^ d) hpos k
  have hl : (gpath (2 ^ d) k).length ≤ h := by
    have := (gpath_length_lt _ hpos k (h + 1)).mpr hk; omega
  have hmem : (fullTree r.exact h).Mem (gpath (2 ^ d) k) := (fullTree_mem r.exact h _).mpr ⟨hv, hl⟩
  obtain ⟨node, g1, g2, g3, g4, g5⟩ := bfull_get_path r.exact hv hl
  rw [baddr_gpath] at g1
  unfold bNeighbourhood FMM.bNeighbourhood
  rw [liftM_get, g1, bxB_glob]
  show (do let node ← Except.ok _; _) = _
  rw [ok_bind, ok_bind]
  simp only [g4]
  rcases hp : gpath (2 ^ d) k with _ | ⟨i, τ⟩
  · rfl
  · rw [hp] at hv hl hmem g2
    have hτv : ValidPath d τ := fun j hj => hv j (by simp [hj])
    simp only [List.length_cons] at hl
    have hτlt : gidx (2 ^ d) τ < k := by
      have e : k = 2 ^ d * gidx (2 ^ d) τ + 1 + i := by
        have := gidx_gpath (2 ^ d) k
        rw [hp] at this; rw [← this]; rfl
      have : 1 * gidx (2 ^ d) τ ≤ 2 ^ d * gidx (2 ^ d) τ := Nat.mul_le_mul_right _ Nat.one_le_two_pow
      omega
    have hnear : st.near (baddr d h τ) = ((fullTree r.exact h).own τ).map (baddr d h) := by
      have := (hst (gidx (2 ^ d) τ) (by omega)).1
      rw [if_pos hτlt, gpath_gidx _ _ hτv] at this
      exact this
    simp only [List.tail?, Option.map_some]
    rw [hnear]
    have hg : glob (2 ^ d) h k = baddr d h (i :: τ) := by rw [← baddr_gpath, hp]
    rw [hg]
    refine foldlM_congr' _ _ _ (fun b hb s => ?_) st
    obtain ⟨ν, hν, rfl⟩ := mem_map_baddr.mp hb
    obtain ⟨m1, m2, m3⟩ := fullTree_own_mem hr hmem.tail hν
    obtain ⟨pn, p1, -, -, -, p5⟩ := bfull_get_path r.exact (h := h) m1 m3
    rw [liftM_get, p1]
    show (do let pn ← Except.ok _; _) = _
    rw [ok_bind, ok_bind]
    simp only [p5]
    refine foldlM_congr' _ _ _ (fun j hj s => ?_) s
    have hj := List.mem_range.mp hj
    have hvc : ValidPath d (j :: ν) := fun x hx => by
      rcases List.mem_cons.mp hx with rfl | hx
      · exact hj
      · exact m1 x hx
    refine bnbhChild_lift hr hT hmem ((fullTree_mem r.exact h _).mpr ⟨hvc, by simp; omega⟩) (by simp [m2]) _ node _ g2 rfl _ j ?_ s
    rw [if_pos ⟨hj, by omega⟩]

theorem bNeighbourhoods_lift (hr : 0 < r.len) (hT : TestsOk (fullTree r.exact h) r.exact rnd nrm (bxR rnd r)) :
    ∃ nb, BNbhAfter r.exact h (off (2 ^ d) (h + 1)) nb ∧ ∀ fuel ≥ off (2 ^ d) (h + 1),
      bNeighbourhoods rnd nrm fuel (liftM (bxB rnd r h) (bfull r.exact h)) h = .ok nb := by
  have hpos : 0 < 2 ^ d := by positivity
  unfold bNeighbourhoods
  rw [← glob_root (d := d)]
  have e1 : off (2 ^ d) (h + 1) = 2 ^ d * off (2 ^ d) h + 1 := rfl
  obtain ⟨s', -, h2, h3⟩ := traverseBFS_eq (2 ^ d)
    (fun (_ : BNbh) a => do let n ← (liftM (bxB rnd r h) (bfull r.exact h)).get a; .ok n.child)
    (bNeighbourhood rnd nrm (liftM (bxB rnd r h) (bfull r.exact h))) (bkids (2 ^ d) h) (glob (2 ^ d) h 0)
    (fun done s => BNbhAfter r.exact h done.length s) (h + 1)
    (bfsLevel_glob_end _ h) (by
      intro d1 a d2 e s hs
      rw [bfsOrder_glob _ h _ le_rfl] at e
      have hlen : d1.length < off (2 ^ d) (h + 1) := by
        have := congrArg List.length e
        simp at this; omega
      have ha : a = glob (2 ^ d) h d1.length := by
        have := congrArg (fun l => l[d1.length]?) e
        simp only [List.getElem?_map, List.getElem?_range hlen, Option.map_some, List.getElem?_append_right le_rfl,
          Nat.sub_self, List.getElem?_cons_zero] at this
        exact (Option.some.inj this).symm
      subst ha
      obtain ⟨st', v1, v2⟩ := bvisit_ok (r := r.exact) (Or.inl hr) d1.length hlen s hs
      refine ⟨st', (specB r.exact h (off (2 ^ d) (h + 1)) d1.length).child, ?_, ?_, ?_, ?_⟩
      · rw [bvisit_lift hr hT d1.length hlen s hs]; exact v1
      · rw [List.length_append]; exact v2
      · rw [liftM_get, bfull_get r.exact h _ hlen]; rfl
      · by_cases hi : d1.length < off (2 ^ d) h
        · have hmul : 2 ^ d * (d1.length + 1) ≤ 2 ^ d * off (2 ^ d) h := Nat.mul_le_mul_left _ hi
          exact pushKids_bst r.exact h _ _ (Or.inl (by omega)) (Or.inl hi)
        · exact pushKids_bst r.exact h _ _ (Or.inr ⟨by omega, by omega⟩) (Or.inr ⟨by omega, by omega⟩))
    ⟨fun _ => [], fun _ => []⟩ (by intro n _; simp)
  rw [bfsOrder_glob _ h _ le_rfl] at h2 h3
  simp only [List.length_map, List.length_range] at h2 h3
  exact ⟨s', h2, fun fuel hf => h3 fuel hf⟩

/-! ## Sources -/

/-- The computed indices of a point are in range. -/
def InTree (rnd : ℝ → ℝ) (r : RBox ℝ d) (h : ℕ) (x : Vec d) : Prop := ∃ idx, leafIndices rnd r h x = .ok idx

theorem seqFin_inv {β : Type} (f : Fin d → Outcome β) (g : Fin d → β) (hg : seqFin f = .ok g) (i : Fin d) : f i = .ok (g i) := by
  induction d with
  | zero => exact i.elim0
  | succ n ih =>
    unfold seqFin at hg
    cases h1 : seqFin (fun i : Fin n => f i.castSucc) with
    | error e => rw [h1, err_bind] at hg; cases hg
    | ok b =>
      rw [h1, ok_bind] at hg
      cases h0 : f (Fin.last n) with
      | error e => rw [h0, err_bind] at hg; cases hg
      | ok a =>
        rw [h0, ok_bind] at hg
        cases hg
        refine Fin.lastCases ?_ (fun j => ?_) i
        · simpa using h0
        · simpa using ih _ b h1 j

theorem leafIndices_inv {x : Vec d} {idx : Fin d → ℕ} (hi : leafIndices rnd r h x = .ok idx) (i : Fin d) :
    idx i < 2 ^ h ∧ ⌊leafRatio rnd r h x i⌋ = idx i := by
  unfold leafIndices at hi
  by_cases hr : r.len = 0
  · rw [if_pos hr] at hi; cases hi
  rw [if_neg hr] at hi
  have := seqFin_inv _ _ hi i
  unfold toU32 at this
  by_cases hz : 0 ≤ ⌊leafRatio rnd r h x i⌋ ∧ ⌊leafRatio rnd r h x i⌋ < 2 ^ 32
  · rw [if_pos hz, ok_bind] at this
    by_cases hlt : ⌊leafRatio rnd r h x i⌋.toNat ≥ 2 ^ h
    · rw [if_pos hlt] at this; cases this
    · rw [if_neg hlt] at this
      have e := Except.ok.inj this
      rw [← e]
      exact ⟨not_le.mp hlt, (Int.toNat_of_nonneg hz.1).symm⟩
  · rw [if_neg hz, err_bind] at this; cases this

/-- The centre of the exact leaf to which rounded arithmetic assigns the point. -/
noncomputable def bshadow (rnd : ℝ → ℝ) (r : RBox ℝ d) (h : ℕ) (x : Vec d) : Vec d :=
  match leafIndices rnd r h x with
  | .ok idx => (FMM.boxAt r.exact (pathOfGrid h idx)).center
  | .error _ => r.center

theorem bshadow_eq {x : Vec d} {idx : Fin d → ℕ} (hi : leafIndices rnd r h x = .ok idx) :
    bshadow rnd r h x = (FMM.boxAt r.exact (pathOfGrid h idx)).center := by
  unfold bshadow; rw [hi]

theorem flatOf_shadow (hr : 0 < r.len) (hh : h < 32) {x : Vec d} (hx : InTree rnd r h x) :
    flatOf rnd r h x = FMM.flatOf r.exact h (bshadow rnd r h x) := by
  obtain ⟨idx, hi⟩ := hx
  rw [bshadow_eq hi, flatOf_center r.exact hr hh _ (pathOfGrid_length h idx)]
  unfold flatOf
  rw [hi, ok_bind, toU32_pow h hh, ok_bind]
  unfold flatPath
  rw [grid_pathOfGrid h idx fun j => (leafIndices_inv hi j).1]

theorem bshadow_contains (hr : 0 < r.len) {x : Vec d} (hx : InTree rnd r h x) : r.exact.containsHO (bshadow rnd r h x) := by
  obtain ⟨idx, hi⟩ := hx
  rw [bshadow_eq hi]
  intro j
  have := abs_lt.mp (center_near r.exact hr (pathOfGrid h idx) j)
  rw [Box.lower_apply, Box.upper_apply]
  constructor <;> linarith [this.1, this.2]

section main
variable {u C : ℝ} {pos : α → Vec d} {items : List α}

theorem distribute_lift (hu : 0 ≤ u) (hu1 : u ≤ 1 / 100) (hL : 0 < r.len)
    (hC0 : 0 ≤ C) (H : RndOn rnd u (4 * (C + r.len))) (I : RndIx rnd u r.len) (hC : ∀ i, |r.center i| ≤ C) (hdh : d * h ≤ 32) (hh : h < 32)
    (hk : (8 * h + 15) * (u * (4 * (C + r.len))) < r.len / 2 ^ (h + 1)) (hx : ∀ s ∈ items, InTree rnd r h (pos s)) :
    distributePointSources rnd pos (liftM (bxB rnd r h) (bfull r.exact h)) h items
      = .ok (specSrc (fun s => bshadow rnd r h (pos s)) r.exact items h) := by
  rw [← distribute_ok (fun s => bshadow rnd r h (pos s)) r.exact hL h hh items
    (fun s hs => bshadow_contains hL (hx s hs))]
  unfold distributePointSources FMM.distributePointSources
  have hg := bfull_get r.exact h 0 (off_pos (2 ^ d) h)
  rw [glob_root] at hg
  have hbox : (specB r.exact h (off (2 ^ d) (h + 1)) 0).box = r.exact := by simp [specB, gpath, FMM.boxAt]
  rw [liftM_get, hg, bxB_root]
  show (do let root ← Except.ok _; _) = _
  rw [ok_bind, ok_bind]
  simp only [hbox]
  have e0 : toR r.exact = r := rfl
  rw [e0]
  have h1 : items.foldlM (fun (b : ℕ → List α) s => do
      let k ← flatOf rnd r h (pos s)
      if k < (liftM (bxB rnd r h) (bfull r.exact h)).nLeaves then (.ok (Function.update b k (b k ++ [s])) : Outcome _)
      else .error .ub) (fun _ => [])
      = items.foldlM (fun (b : ℕ → List α) s => do
      let k ← FMM.flatOf r.exact h (bshadow rnd r h (pos s))
      if k < (bfull r.exact h).nLeaves then (.ok (Function.update b k (b k ++ [s])) : Outcome _) else .error .ub) (fun _ => []) := by
    refine foldlM_congr' _ _ _ (fun s hs b => ?_) _
    rw [flatOf_shadow hL hh (hx s hs)]
    rfl
  have h2 : (List.range (liftM (bxB rnd r h) (bfull r.exact h)).nLeaves).foldlM (fun (p : ℕ → Option ℕ) k => do
      let leaf ← (liftM (bxB rnd r h) (bfull r.exact h)).get (.leaf k)
      let f ← flatOf rnd r h leaf.box.center
      if f < (liftM (bxB rnd r h) (bfull r.exact h)).nLeaves then (.ok (Function.update p k (some f)) : Outcome _)
      else .error .ub) (fun _ => none)
      = (List.range (bfull r.exact h).nLeaves).foldlM (fun (p : ℕ → Option ℕ) k => do
      let leaf ← (bfull r.exact h).get (.leaf k)
      let f ← FMM.flatOf r.exact h leaf.box.center
      if f < (bfull r.exact h).nLeaves then (.ok (Function.update p k (some f)) : Outcome _) else .error .ub)
        (fun _ => none) := by
    refine foldlM_congr' _ _ _ (fun k hk' p => ?_) _
    have hk' : k < (2 ^ d) ^ h := List.mem_range.mp hk'
    have hlt : off (2 ^ d) h + k < off (2 ^ d) (h + 1) := by rw [off_succ]; omega
    have hl := gpath_leaf_length (d := d) h k hk'
    have hb : (specB r.exact h (off (2 ^ d) (h + 1)) (off (2 ^ d) h + k)).box
        = FMM.boxAt r.exact (gpath (2 ^ d) (off (2 ^ d) h + k)) := rfl
    rw [← glob_leaf (2 ^ d) h k, liftM_get, bfull_get r.exact h _ hlt, bxB_glob]
    show (do let leaf ← Except.ok _; _) = _
    rw [ok_bind, ok_bind, hb, flatOf_center r.exact hL hh _ hl]
    have e : flatOf rnd r h (bxR rnd r (gpath (2 ^ d) (off (2 ^ d) h + k))).center
        = .ok (flatPath d h (gpath (2 ^ d) (off (2 ^ d) h + k))) := by
      unfold flatOf
      have := leaf_centres_on hu hu1 r hL hC0 H I hC h hh hk _ hl
      show (do let idx ← leafIndices rnd r h (boxAt rnd r (gpath (2 ^ d) (off (2 ^ d) h + k))).center; _) = _
      rw [this, ok_bind, toU32_pow h hh, ok_bind]
      rfl
    show (do let f ← flatOf rnd r h (bxR rnd r (gpath (2 ^ d) (off (2 ^ d) h + k))).center; _) = _
    rw [e]
    rfl
  rw [h1, h2]

theorem small_k (hu : 0 ≤ u) (hL : 0 < r.len) (hC0 : 0 ≤ C)
    (hk : 100 * ((8 * h + 15) * (u * (4 * (C + r.len)))) < r.len / 2 ^ (h + 1)) :
    (8 * h + 15) * (u * (4 * (C + r.len))) < r.len / 2 ^ (h + 1) := by
  have : 0 ≤ (8 * h + 15) * (u * (4 * (C + r.len))) := by positivity
  linarith

theorem small_u (hu : 0 ≤ u) (hL : 0 < r.len) (hC0 : 0 ≤ C)
    (hk : 100 * ((8 * h + 15) * (u * (4 * (C + r.len)))) < r.len / 2 ^ (h + 1)) : u ≤ 1 / 100 := by
  have h1 : r.len / 2 ^ (h + 1) ≤ r.len := div_le_self hL.le (one_le_pow₀ (by norm_num))
  have h2 : u * r.len ≤ (8 * h + 15) * (u * (4 * (C + r.len))) := by
    have a1 : u * r.len ≤ u * (4 * (C + r.len)) := mul_le_mul_of_nonneg_left (by linarith) hu
    have a2 : 0 ≤ u * (4 * (C + r.len)) := by positivity
    have a3 : (1 : ℝ) ≤ 8 * h + 15 := by linarith [(Nat.cast_nonneg h : (0:ℝ) ≤ h)]
    nlinarith
  by_contra hcon
  push Not at hcon
  nlinarith

/-- The balanced tree built with rounding. -/
theorem balancedLists_on (hd : 2 ≤ d) (hu : 0 ≤ u) (hL : 0 < r.len)
    (hC0 : 0 ≤ C) (H : RndOn rnd u (4 * (C + r.len))) (I : RndIx rnd u r.len) (hC : ∀ i, |r.center i| ≤ C)
    (hnrm : ∀ v, r.len / 2 ^ h ≤ Vec.norm v → 999 / 1000 * Vec.norm v ≤ nrm v) (hdh : d * h ≤ 32)
    (hk : 100 * ((8 * h + 15) * (u * (4 * (C + r.len)))) < r.len / 2 ^ (h + 1))
    (hx : h = 0 ∨ ∀ s ∈ items, InTree rnd r h (pos s)) :
    ∃ nb, BNbhAfter r.exact h (off (2 ^ d) (h + 1)) nb ∧ ∀ fuel ≥ off (2 ^ d) (h + 1),
      balancedLists rnd nrm fuel pos r items h = .ok (liftM (bxB rnd r h) (bfull r.exact h),
        specSrc' (fun s => bshadow rnd r h (pos s)) r.exact items h, nb) := by
  obtain ⟨nb, n1, n2⟩ := bNeighbourhoods_lift (nrm := nrm) hL (tests_on hu hL hC0 H hC hk hnrm (fullTree r.exact h)
    (fun π hπ => ((fullTree_mem r.exact h π).mp hπ).2))
  refine ⟨nb, n1, fun fuel hf => ?_⟩
  unfold balancedLists specSrc'
  rw [balancedNodes_lift hd (by omega) fuel hf, ok_bind]
  by_cases h0 : h = 0
  · rw [if_pos h0, if_pos h0, ok_bind, n2 fuel hf]; rfl
  · have hh : h < 32 := by nlinarith
    rw [if_neg h0, if_neg h0, distribute_lift hu (small_u hu hL hC0 hk) hL hC0 H I hC hdh hh (small_k hu hL hC0 hk) (hx.resolve_left h0), ok_bind, n2 fuel hf]; rfl

theorem balancedLists_lift (hd : 2 ≤ d) (H : ∀ x, |rnd x - x| ≤ u * |x|) (hu : 0 ≤ u) (hL : 0 < r.len)
    (hC0 : 0 ≤ C) (hC : ∀ i, |r.center i| ≤ C) (hnrm : ∀ v, 999 / 1000 * Vec.norm v ≤ nrm v) (hdh : d * h ≤ 32)
    (hk : 100 * ((8 * h + 15) * (u * (4 * (C + r.len)))) < r.len / 2 ^ (h + 1))
    (hx : h = 0 ∨ ∀ s ∈ items, InTree rnd r h (pos s)) :
    ∃ nb, BNbhAfter r.exact h (off (2 ^ d) (h + 1)) nb ∧ ∀ fuel ≥ off (2 ^ d) (h + 1),
      balancedLists rnd nrm fuel pos r items h = .ok (liftM (bxB rnd r h) (bfull r.exact h),
        specSrc' (fun s => bshadow rnd r h (pos s)) r.exact items h, nb) :=
  balancedLists_on hd hu hL hC0 (RndOn.of_rel H hu) (RndIx.of_rel H hu hL) hC (fun v _ => hnrm v) hdh hk hx

theorem bind_inv' {A B : Type} {m : Outcome A} {f : A → Outcome B} {b : B} (h : (m >>= f) = .ok b) :
    ∃ a, m = .ok a ∧ f a = .ok b := by
  cases m with
  | error e => rw [err_bind] at h; cases h
  | ok a => exact ⟨a, rfl, h⟩

/-- A source whose computed indices are out of range ends the construction. -/
theorem balancedLists_inv (hd : 2 ≤ d) (hdh : d * h ≤ 32) {fuel : ℕ} (hf : off (2 ^ d) (h + 1) ≤ fuel)
    {x : BMem d × BSrc α × BNbh} (hb : balancedLists rnd nrm fuel pos r items h = .ok x) :
    h = 0 ∨ ∀ s ∈ items, InTree rnd r h (pos s) := by
  by_cases h0 : h = 0
  · exact Or.inl h0
  refine Or.inr fun s hs => ?_
  unfold balancedLists at hb
  rw [balancedNodes_lift hd (by omega) fuel hf, ok_bind, if_neg h0] at hb
  cases hsrc : distributePointSources rnd pos (liftM (bxB rnd r h) (bfull r.exact h)) h items with
  | error e => rw [hsrc, err_bind] at hb; cases hb
  | ok src =>
    clear hb
    unfold distributePointSources at hsrc
    have hg := bfull_get r.exact h 0 (off_pos (2 ^ d) h)
    rw [glob_root] at hg
    rw [liftM_get, hg, bxB_root] at hsrc
    change (do let root ← Except.ok _; _) = _ at hsrc
    rw [ok_bind] at hsrc
    have hfold : ∀ (l : List α) (b0 : ℕ → List α) (x : ℕ → List α), s ∈ l →
        l.foldlM (fun (b : ℕ → List α) s => do
          let k ← flatOf rnd (toR r.exact) h (pos s)
          if k < (liftM (bxB rnd r h) (bfull r.exact h)).nLeaves then (.ok (Function.update b k (b k ++ [s])) : Outcome _)
          else .error .ub) b0 = .ok x → InTree rnd r h (pos s) := by
      intro l
      induction l with
      | nil => intro b0 x hm; simp at hm
      | cons t l ih =>
        intro b0 x hm hl
        rw [List.foldlM_cons] at hl
        cases hk : flatOf rnd (toR r.exact) h (pos t) with
        | error e => rw [hk, err_bind, err_bind] at hl; cases hl
        | ok k =>
          rw [hk, ok_bind] at hl
          by_cases hlt : k < (liftM (bxB rnd r h) (bfull r.exact h)).nLeaves
          · rw [if_pos hlt, ok_bind] at hl
            rcases List.mem_cons.mp hm with rfl | hm
            · unfold flatOf at hk
              change (do let idx ← leafIndices rnd r h (pos s); _) = _ at hk
              cases hi : leafIndices rnd r h (pos s) with
              | ok idx => exact ⟨idx, hi⟩
              | error e => rw [hi, err_bind] at hk; cases hk
            · exact ih _ _ hm hl
          · rw [if_neg hlt, err_bind] at hl; cases hl
    obtain ⟨b, hb, -⟩ := bind_inv' hsrc
    exact hfold items _ b hs hb

/-- **C69** In floating-point arithmetic the construction of a balanced tree succeeds if and only if the computed leaf indices
of all sources are in range. -/
theorem C69_succeeds_iff (hd : 2 ≤ d) (H : ∀ x, |rnd x - x| ≤ u * |x|) (hu : 0 ≤ u) (hL : 0 < r.len)
    (hC0 : 0 ≤ C) (hC : ∀ i, |r.center i| ≤ C) (hnrm : ∀ v, 999 / 1000 * Vec.norm v ≤ nrm v) (hdh : d * h ≤ 32)
    (hk : 100 * ((8 * h + 15) * (u * (4 * (C + r.len)))) < r.len / 2 ^ (h + 1)) :
    (∃ m src nb fuel0, ∀ fuel ≥ fuel0, balancedLists rnd nrm fuel pos r items h = .ok (m, src, nb)) ↔
      h = 0 ∨ ∀ s ∈ items, ∃ idx, leafIndices rnd r h (pos s) = .ok idx := by
  constructor
  · rintro ⟨m, src, nb, fuel0, hb⟩
    exact balancedLists_inv hd hdh (Nat.le_add_left (off (2 ^ d) (h + 1)) fuel0) (hb _ (Nat.le_add_right _ _))
  · intro hx
    obtain ⟨nb, -, h2⟩ := balancedLists_lift hd H hu hL hC0 hC hnrm hdh hk hx
    exact ⟨_, _, nb, _, h2⟩

/-- Points inside of the root box have indices in range. -/
theorem inside_on (hu : 0 ≤ u) (hu1 : u ≤ 1 / 100) (hL : 0 < r.len)
    (hC0 : 0 ≤ C) (H : RndOn rnd u (4 * (C + r.len))) (I : RndIx rnd u r.len) (hC : ∀ i, |r.center i| ≤ C) (hh : h < 32) (hk : 15 * (u * (4 * (C + r.len))) < r.len / 2) (x : Vec d)
    (hx : ∀ i, |x i - r.center i| < r.len / 2 - 9 * (u * (4 * (C + r.len)))) :
    ∃ idx, leafIndices rnd r h x = .ok idx := by
  have c := ctx_on hu hL hC0 H hC (k := 0) (by simpa using hk)
  have hn : 0 ≤ u * (4 * (C + r.len)) := by positivity
  have hp : (0 : ℝ) < 2 ^ h / r.len := by positivity
  have key : ∀ i, 0 ≤ leafRatio rnd r h x i ∧ leafRatio rnd r h x i < 2 ^ h := by
    intro i
    have h3 := abs_le.mp (leafRatio_near I hu hu1 c rfl rfl h x i (by linarith [hx i]))
    obtain ⟨x1, x2⟩ := abs_lt.mp (hx i)
    have e : (x i - (r.center i - r.len / 2)) / r.len * 2 ^ h = 2 ^ h / r.len * (x i - (r.center i - r.len / 2)) := by ring
    rw [e] at h3
    constructor
    · have : 2 ^ h / r.len * (9 * (u * (4 * (C + r.len)))) ≤ 2 ^ h / r.len * (x i - (r.center i - r.len / 2)) :=
        mul_le_mul_of_nonneg_left (by linarith) hp.le
      linarith [h3.1]
    · have : 2 ^ h / r.len * (9 * (u * (4 * (C + r.len))) + (x i - (r.center i - r.len / 2))) < 2 ^ h / r.len * r.len :=
        mul_lt_mul_of_pos_left (by linarith) hp
      have e2 : 2 ^ h / r.len * r.len = 2 ^ h := by field_simp
      rw [e2, mul_add] at this
      linarith [h3.2]
  refine ⟨fun i => ⌊leafRatio rnd r h x i⌋.toNat, ?_⟩
  unfold leafIndices
  rw [if_neg hL.ne']
  refine seqFin_leaf hh (fun i => ?_) fun i => (Int.toNat_of_nonneg (Int.floor_nonneg.mpr (key i).1)).symm
  have h1 : ⌊leafRatio rnd r h x i⌋ < 2 ^ h := by
    rw [Int.floor_lt]; push_cast; exact (key i).2
  have h2 := Int.toNat_of_nonneg (Int.floor_nonneg.mpr (key i).1)
  have : ((⌊leafRatio rnd r h x i⌋.toNat : ℕ) : ℤ) < ((2 ^ h : ℕ) : ℤ) := by rw [h2]; exact_mod_cast h1
  exact_mod_cast this

/-- **C69** Points of the root box further than the rounding error from its faces have indices in range. -/
theorem C69_inside (H : ∀ x, |rnd x - x| ≤ u * |x|) (hu : 0 ≤ u) (hu1 : u ≤ 1 / 100) (hL : 0 < r.len)
    (hC0 : 0 ≤ C) (hC : ∀ i, |r.center i| ≤ C) (hh : h < 32) (hk : 15 * (u * (4 * (C + r.len))) < r.len / 2) (x : Vec d)
    (hx : ∀ i, |x i - r.center i| < r.len / 2 - 9 * (u * (4 * (C + r.len)))) :
    ∃ idx, leafIndices rnd r h x = .ok idx :=
  inside_on hu hu1 hL hC0 (RndOn.of_rel H hu) (RndIx.of_rel H hu hL) hC hh hk x hx

/-- **C69** In floating-point arithmetic a leaf of the balanced tree holds exactly the sources whose computed indices are those
of its computed centre (in input order); every source is in exactly one leaf; every bucket is owned by exactly one leaf. -/
theorem C69_distribution (hd : 2 ≤ d) (H : ∀ x, |rnd x - x| ≤ u * |x|) (hu : 0 ≤ u) (hL : 0 < r.len)
    (hC0 : 0 ≤ C) (hC : ∀ i, |r.center i| ≤ C) (hnrm : ∀ v, 999 / 1000 * Vec.norm v ≤ nrm v) (hdh : d * h ≤ 32)
    (hk : 100 * ((8 * h + 15) * (u * (4 * (C + r.len)))) < r.len / 2 ^ (h + 1))
    (fuel : ℕ) (hf : off (2 ^ d) (h + 1) ≤ fuel) (m : BMem d) (src : BSrc α) (nb : BNbh)
    (hb : balancedLists rnd nrm fuel pos r items h = .ok (m, src, nb)) :
    (∀ k < m.nLeaves, ∃ n, m.leaves k = some n ∧ ∃ l, src.get k = .ok l ∧ l.Sublist items ∧
      ∀ s ∈ items, (s ∈ l ↔ h = 0 ∨ leafIndices rnd r h (pos s) = leafIndices rnd r h n.box.center)) ∧
    ((List.range m.nLeaves).flatMap src.getD).Perm items ∧
    (∀ f < m.nLeaves, ∃ k, k < m.nLeaves ∧ src.ptr k = some f ∧ ∀ k' < m.nLeaves, src.ptr k' = some f → k' = k) := by
  have hpos : 0 < 2 ^ d := by positivity
  have hx := balancedLists_inv hd hdh hf hb
  obtain ⟨nb', -, h2⟩ := balancedLists_lift hd H hu hL hC0 hC hnrm hdh hk hx
  rw [h2 fuel hf] at hb
  have := Except.ok.inj hb
  simp only [Prod.mk.injEq] at this
  obtain ⟨rfl, rfl, rfl⟩ := this
  refine ⟨fun k hk' => ?_, specSrc'_perm hdh, specSrc'_own hdh⟩
  have hk' : k < (2 ^ d) ^ h := hk'
  have hs := off_succ (2 ^ d) h
  have hv := gpath_valid (2 ^ d) hpos (off (2 ^ d) h + k)
  have hl := gpath_leaf_length (d := d) h k hk'
  have hg := specSrc'_get (fun s => bshadow rnd r h (pos s)) r.exact h hdh items hv hl
  rw [pathIndex_gpath h k hk'] at hg
  have hleaf : (bfull r.exact h).leaves k = some (specB r.exact h (off (2 ^ d) (h + 1)) (off (2 ^ d) h + k)) :=
    if_pos ⟨by omega, hk'⟩
  have hbx : bxB rnd r h (.leaf k) = bxR rnd r (gpath (2 ^ d) (off (2 ^ d) h + k)) := by
    rw [← glob_leaf (2 ^ d) h k, bxB_glob]
  refine ⟨{ specB r.exact h (off (2 ^ d) (h + 1)) (off (2 ^ d) h + k) with
    box := bxR rnd r (gpath (2 ^ d) (off (2 ^ d) h + k)) }, ?_, _, hg, List.filter_sublist, fun s hsm => ?_⟩
  · show ((bfull r.exact h).leaves k).map _ = _
    rw [hleaf, hbx]; rfl
  · simp only [itemsAt, List.mem_filter, hsm, true_and, decide_eq_true_eq, hl]
    by_cases h0 : h = 0
    · subst h0
      have e : gpath (2 ^ d) (off (2 ^ d) 0 + k) = [] := List.length_eq_zero_iff.mp hl
      simp [e, FMM.route]
    · obtain ⟨idx, hi⟩ := hx.resolve_left h0 s hsm
      have hh : h < 32 := by nlinarith
      have hcen := C64_leaf_centres H hu (small_u hu hL hC0 hk) r hL hC0 hC h hh (small_k hu hL hC0 hk) _ hl
      have hpl := pathOfGrid_length h idx
      have hpv := pathOfGrid_valid h idx
      have hro : FMM.route r.exact (bshadow rnd r h (pos s)) h = pathOfGrid h idx := by
        rw [bshadow_eq hi, route_center r.exact hL _ hpv h hpl.ge, hpl, Nat.sub_self, List.drop_zero]
      have hgr := grid_pathOfGrid h idx fun j => (leafIndices_inv hi j).1
      rw [hro, hi]
      show _ ↔ h = 0 ∨ _ = leafIndices rnd r h (boxAt rnd r (gpath (2 ^ d) (off (2 ^ d) h + k))).center
      rw [hcen]
      constructor
      · intro e; right; rw [← e, hgr]
      · rintro (e | e)
        · exact absurd e h0
        · exact grid_injective hpv hv (by rw [hpl, hl]) (by rw [hgr]; exact Except.ok.inj e)

/-- **C69** Every source lies in the computed box of the leaf that stores it, up to the rounding error. -/
theorem C69_contained (hd : 2 ≤ d) (H : ∀ x, |rnd x - x| ≤ u * |x|) (hu : 0 ≤ u) (hL : 0 < r.len)
    (hC0 : 0 ≤ C) (hC : ∀ i, |r.center i| ≤ C) (hnrm : ∀ v, 999 / 1000 * Vec.norm v ≤ nrm v) (hdh : d * h ≤ 32) (h0 : h ≠ 0)
    (hk : 100 * ((8 * h + 15) * (u * (4 * (C + r.len)))) < r.len / 2 ^ (h + 1))
    (hin : ∀ s ∈ items, r.exact.contains (pos s))
    (fuel : ℕ) (hf : off (2 ^ d) (h + 1) ≤ fuel) (m : BMem d) (src : BSrc α) (nb : BNbh)
    (hb : balancedLists rnd nrm fuel pos r items h = .ok (m, src, nb)) (k : ℕ) (n : BNode d) (hn : m.get (.leaf k) = .ok n)
    (s : α) (hs : s ∈ src.getD k) (i : Fin d) :
    |pos s i - n.box.center i| ≤ n.box.len / 2 + (4 * h + 10) * (u * (4 * (C + r.len))) := by
  have hpos : 0 < 2 ^ d := by positivity
  obtain ⟨D, -, -⟩ := C69_distribution hd H hu hL hC0 hC hnrm hdh hk fuel hf m src nb hb
  have hx := balancedLists_inv hd hdh hf hb
  obtain ⟨nb', -, h2⟩ := balancedLists_lift hd H hu hL hC0 hC hnrm hdh hk hx
  rw [h2 fuel hf] at hb
  have := Except.ok.inj hb
  simp only [Prod.mk.injEq] at this
  obtain ⟨rfl, rfl, rfl⟩ := this
  have hh : h < 32 := by nlinarith
  have hkl : k < (2 ^ d) ^ h := by
    by_contra hcon
    have e : (liftM (bxB rnd r h) (bfull r.exact h)).get (.leaf k) = .error .ub := by
      simp only [BMem.get]; exact if_neg hcon
    rw [e] at hn; cases hn
  obtain ⟨n', hn', l, hl1, hl2, hl3⟩ := D k hkl
  have en : n = n' := by
    simp only [BMem.get] at hn
    rw [if_pos (show k < (liftM (bxB rnd r h) (bfull r.exact h)).nLeaves from hkl), hn'] at hn
    cases hn; rfl
  subst en
  have hs' : s ∈ l := by unfold BSrc.getD at hs; rw [hl1] at hs; exact hs
  have hsi : s ∈ items := hl2.subset hs'
  have hidx := ((hl3 s hsi).mp hs').resolve_left h0
  have hl := gpath_leaf_length (d := d) h k hkl
  obtain ⟨L, hLd⟩ : ∃ L, L = gpath (2 ^ d) (off (2 ^ d) h + k) := ⟨_, rfl⟩
  rw [← hLd] at hl
  have hbox : n.box = bxR rnd r L := by
    have e : (liftM (bxB rnd r h) (bfull r.exact h)).leaves k
        = ((bfull r.exact h).leaves k).map fun n => { n with box := bxB rnd r h (.leaf k) } := rfl
    rw [e] at hn'
    cases hb' : (bfull r.exact h).leaves k with
    | none => rw [hb'] at hn'; cases hn'
    | some n1 =>
      rw [hb'] at hn'
      cases hn'
      show bxB rnd r h (.leaf k) = _
      rw [← glob_leaf (2 ^ d) h k, bxB_glob, hLd]
  have hcen := C64_leaf_centres H hu (small_u hu hL hC0 hk) r hL hC0 hC h hh (small_k hu hL hC0 hk) _ hl
  have e1 : leafIndices rnd r h n.box.center = .ok (grid d L) := by rw [hbox]; exact hcen
  rw [e1] at hidx
  obtain ⟨f1, f2⟩ := leafIndices_inv hidx i
  have c := ctx_of H hu hL hC0 hC (small_k hu hL hC0 hk)
  have hxi := (Box.contains_iff r.exact (pos s)).mp (hin s hsi) i
  simp only [RBox.exact] at hxi
  have h3 := abs_le.mp (leafRatio_near (RndIx.of_rel H hu hL) hu (small_u hu hL hC0 hk) c rfl rfl h (pos s) i
    (by rw [abs_le]; constructor <;> linarith [hxi.1, hxi.2]))
  rw [Int.floor_eq_iff] at f2
  push_cast at f2
  have g1 := c.centerR L hl.le i
  have g2 := c.lenR hC0 L
  have g3 := lower_grid r L i
  rw [hbox]
  show |pos s i - (boxAt rnd r L).center i| ≤ (boxAt rnd r L).len / 2 + _
  rw [len_exact] at g3
  rw [hl] at g1 g2 g3
  have hn0 := c.nonneg
  generalize u * (4 * (C + r.len)) = δ at *
  have hp : (0 : ℝ) < 2 ^ h := by positivity
  have e2 : (pos s i - (r.center i - r.len / 2)) / r.len * 2 ^ h * (r.len / 2 ^ h) = pos s i - (r.center i - r.len / 2) := by
    field_simp
  have e3 : 2 ^ h / r.len * (9 * δ) * (r.len / 2 ^ h) = 9 * δ := by field_simp
  have hw : 0 < r.len / 2 ^ h := by positivity
  generalize (pos s i - (r.center i - r.len / 2)) / r.len * 2 ^ h = q at *
  generalize 2 ^ h / r.len * (9 * δ) = ε at *
  generalize r.len / 2 ^ h = w at *
  generalize leafRatio rnd r h (pos s) i = ρ at *
  have a1 : (grid d L i - ε) * w ≤ q * w := mul_le_mul_of_nonneg_right (by linarith) hw.le
  have a2 : q * w ≤ (grid d L i + 1 + ε) * w := mul_le_mul_of_nonneg_right (by linarith) hw.le
  obtain ⟨g11, g12⟩ := abs_le.mp g1
  obtain ⟨g21, g22⟩ := abs_le.mp g2
  rw [abs_le]
  constructor <;> linarith

/-! ## C70 -/

/-- The exact box of an array element. -/
noncomputable def exactBox (r : RBox ℝ d) (h : ℕ) (a : BAddr) : Box d := FMM.boxAt r.exact (gpath (2 ^ d) (bnum (2 ^ d) h a))

theorem liftM_get_inv {bx : BAddr → Box d} {m : BMem d} {a : BAddr} {n : BNode d} (hg : (liftM bx m).get a = .ok n) :
    ∃ n0, m.get a = .ok n0 ∧ n = { n0 with box := bx a } := by
  rw [liftM_get] at hg
  cases h0 : m.get a with
  | error e => rw [h0] at hg; cases hg
  | ok n0 => rw [h0] at hg; cases hg; exact ⟨n0, rfl, rfl⟩

theorem liftM_get_ok {bx : BAddr → Box d} {m : BMem d} {a : BAddr} {n : BNode d} (hg : m.get a = .ok n) :
    (liftM bx m).get a = .ok { n with box := bx a } := by rw [liftM_get, hg]; rfl

theorem bfull_box {a : BAddr} {n : BNode d} (hg : (bfull r.exact h).get a = .ok n) : n.box = exactBox r h a := by
  obtain ⟨π, hv, hl, rfl⟩ := bfull_get_inv hg
  obtain ⟨n', g1, g2, -⟩ := bfull_get_path r.exact hv hl
  rw [hg] at g1
  cases g1
  rw [g2]
  unfold exactBox baddr
  rw [bnum_glob, gpath_gidx _ _ hv]

theorem bchain_lift (bx : BAddr → Box d) (m : BMem d) (k : ℕ) (a : BAddr) : bchain (liftM bx m) k a = bchain m k a := by
  induction k generalizing a with
  | zero => rfl
  | succ k ih =>
    simp only [bchain]
    rw [liftM_get]
    cases m.get a with
    | error e => rfl
    | ok n =>
      simp only [Except.map]
      cases n.parent with
      | none => rfl
      | some p => simp only [ih]

/-- **C70** In floating-point arithmetic the near neighbours of a node of the balanced tree are the nodes of the same depth
whose exact boxes touch its exact box, each once; its interaction list are the other children of the neighbours of its
parent. -/
theorem C70_lists (hd : 2 ≤ d) (H : ∀ x, |rnd x - x| ≤ u * |x|) (hu : 0 ≤ u) (hL : 0 < r.len)
    (hC0 : 0 ≤ C) (hC : ∀ i, |r.center i| ≤ C) (hnrm : ∀ v, 999 / 1000 * Vec.norm v ≤ nrm v) (hdh : d * h ≤ 32)
    (hk : 100 * ((8 * h + 15) * (u * (4 * (C + r.len)))) < r.len / 2 ^ (h + 1))
    (fuel : ℕ) (hf : off (2 ^ d) (h + 1) ≤ fuel) (m : BMem d) (src : BSrc α) (nb : BNbh)
    (hb : balancedLists rnd nrm fuel pos r items h = .ok (m, src, nb)) (a : BAddr) (n : BNode d) (ha : m.get a = .ok n) :
    (nb.near a).Nodup ∧
    (∀ b, b ∈ nb.near a ↔ ∃ n', m.get b = .ok n' ∧ n'.depth = n.depth ∧ touch (exactBox r h a) (exactBox r h b)) ∧
    (nb.inter a).Nodup ∧ (nb.inter a).length ≤ 6 ^ d - 3 ^ d ∧
    (∀ b, b ∈ nb.inter a ↔ ∃ n' p p', m.get b = .ok n' ∧ n'.depth = n.depth ∧ ¬ touch (exactBox r h a) (exactBox r h b) ∧
      n.parent = some p ∧ n'.parent = some p' ∧ touch (exactBox r h p) (exactBox r h p')) := by
  have hx := balancedLists_inv hd hdh hf hb
  obtain ⟨nb', n1, h2⟩ := balancedLists_lift hd H hu hL hC0 hC hnrm hdh hk hx
  rw [h2 fuel hf] at hb
  have := Except.ok.inj hb
  simp only [Prod.mk.injEq] at this
  obtain ⟨rfl, rfl, rfl⟩ := this
  obtain ⟨n0, g0, rfl⟩ := liftM_get_inv ha
  obtain ⟨a1, a2⟩ := near_core hL n1 a n0 g0
  obtain ⟨b1, b2, b3, b4⟩ := inter_core hL n1 a n0 g0
  refine ⟨a1, fun b => ?_, b3, b4, fun b => ?_⟩
  · rw [a2]
    constructor
    · rintro ⟨n', q1, q2, q3⟩
      exact ⟨_, liftM_get_ok q1, q2, by rw [← bfull_box g0, ← bfull_box q1]; exact q3⟩
    · rintro ⟨n', q1, q2, q3⟩
      obtain ⟨n'0, q0, rfl⟩ := liftM_get_inv q1
      exact ⟨n'0, q0, q2, by rw [bfull_box g0, bfull_box q0]; exact q3⟩
  · rw [b1]
    constructor
    · rintro ⟨n', p, p', np, np', q1, q2, q3, q4, q5, q6, q7, q8⟩
      exact ⟨_, p, p', liftM_get_ok q1, q2, by rw [← bfull_box g0, ← bfull_box q1]; exact q3, q4, q5,
        by rw [← bfull_box q6, ← bfull_box q7]; exact q8⟩
    · rintro ⟨n', p, p', q1, q2, q3, q4, q5, q6⟩
      obtain ⟨n'0, q0, rfl⟩ := liftM_get_inv q1
      have hpar : ∀ (a : BAddr) (n0 : BNode d), (bfull r.exact h).get a = .ok n0 → ∀ p, n0.parent = some p →
          ∃ np, (bfull r.exact h).get p = .ok np := by
        intro a n0 hg p hp
        obtain ⟨π, hv, hl, rfl⟩ := bfull_get_inv hg
        obtain ⟨n', k1, -, -, k4, -⟩ := bfull_get_path r.exact hv hl
        rw [hg] at k1
        cases k1
        rw [k4] at hp
        cases π with
        | nil => simp at hp
        | cons i τ =>
          simp only [List.tail?, Option.map_some, Option.some.injEq] at hp
          subst hp
          simp only [List.length_cons] at hl
          obtain ⟨np, c1, -⟩ := bfull_get_path (h := h) r.exact (fun j hj => hv j (by simp [hj]) : ValidPath d τ) (by omega)
          exact ⟨np, c1⟩
      obtain ⟨np, c1⟩ := hpar a n0 g0 p q4
      obtain ⟨np', c2⟩ := hpar b n'0 q0 p' q5
      exact ⟨n'0, p, p', np, np', q0, q2, by rw [bfull_box g0, bfull_box q0]; exact q3, q4, q5, c1, c2,
        by rw [bfull_box c1, bfull_box c2]; exact q6⟩

/-- **C70** In floating-point arithmetic every source contributes exactly once to every leaf of the balanced tree. -/
theorem C70_exactly_once (hd : 2 ≤ d) (H : ∀ x, |rnd x - x| ≤ u * |x|) (hu : 0 ≤ u) (hL : 0 < r.len)
    (hC0 : 0 ≤ C) (hC : ∀ i, |r.center i| ≤ C) (hnrm : ∀ v, 999 / 1000 * Vec.norm v ≤ nrm v) (hdh : d * h ≤ 32)
    (hk : 100 * ((8 * h + 15) * (u * (4 * (C + r.len)))) < r.len / 2 ^ (h + 1))
    (fuel : ℕ) (hf : off (2 ^ d) (h + 1) ≤ fuel) (m : BMem d) (src : BSrc α) (nb : BNbh)
    (hb : balancedLists rnd nrm fuel pos r items h = .ok (m, src, nb)) (k : ℕ) (hkl : k < m.nLeaves) :
    ((nb.near (.leaf k)).flatMap (bstored src) ++
      (bchain m h (.leaf k)).flatMap fun a => (nb.inter a).flatMap (bstoredBelow m src h)).Perm items := by
  have hx := balancedLists_inv hd hdh hf hb
  obtain ⟨nb', n1, h2⟩ := balancedLists_lift hd H hu hL hC0 hC hnrm hdh hk hx
  rw [h2 fuel hf] at hb
  have := Except.ok.inj hb
  simp only [Prod.mk.injEq] at this
  obtain ⟨rfl, rfl, rfl⟩ := this
  have key := once_core (pos := fun s => bshadow rnd r h (pos s)) (items := items) hL hdh n1 k hkl
  have e : ∀ src : BSrc α, bstoredBelow (liftM (bxB rnd r h) (bfull r.exact h)) src h = bstoredBelow (bfull r.exact h) src h := by
    intro src
    funext b
    unfold bstoredBelow
    simp only [bchain_lift]
    rfl
  rw [e, bchain_lift]
  exact key

end main

/-- Four sources with `double` arithmetic in a tree of height 3: the construction succeeds. -/
example : ∃ m src nb fuel0, ∀ fuel ≥ fuel0, balancedLists (d := 2) rndNE Vec.norm fuel (fun x : Vec 2 => x) ⟨0, 1⟩
      [![3/10, 3/10], ![3/10, -3/10], ![-3/10, 3/10], ![-3/10, -3/10]] 3 = .ok (m, src, nb) := by
  refine (C69_succeeds_iff (C := 0) (u := 1 / 2 ^ 53) le_rfl rndNE_rel (by positivity) one_pos le_rfl (by simp) (by
    intro v
    have := Vec.norm_nonneg v
    linarith) (by norm_num) (by norm_num)).mpr (Or.inr ?_)
  intro s hs
  refine C69_inside (C := 0) (u := 1 / 2 ^ 53) rndNE_rel (by positivity) (by norm_num) one_pos le_rfl (by simp) (by norm_num)
    (by norm_num) s ?_
  simp only [List.mem_cons, List.not_mem_nil, or_false] at hs
  intro i
  rcases hs with rfl | rfl | rfl | rfl <;> fin_cases i <;> norm_num [abs_of_pos, abs_of_neg]

end FMM.Rounded
