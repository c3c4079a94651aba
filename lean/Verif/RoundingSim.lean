import Verif.RoundingTree

/-!
# The construction with rounding is an exact construction for other positions

The tree that the rounded program builds has the shape of the tree that the exact program builds if every source is moved to
the centre of the exact box with the address that the source reaches in the rounded tree.
-/

namespace FMM.Rounded
variable {d : ℕ} {α : Type}

theorem boxAt_append' (r : Box d) (σ ρ : Path) : FMM.boxAt r (σ ++ ρ) = FMM.boxAt (FMM.boxAt r ρ) σ := by
  induction σ with
  | nil => rfl
  | cons i σ ih => rw [List.cons_append, FMM.boxAt, ih, FMM.boxAt]

theorem center_near (b : Box d) (hb : 0 < b.len) (σ : Path) (j : Fin d) :
    |(FMM.boxAt b σ).center j - b.center j| < b.len / 2 := by
  have h := center_exact_near (toR b) hb.le σ j
  have e : (boxAt id (toR b) σ).center = (FMM.boxAt b σ).center := by
    have := boxAt_id (toR b) σ
    rw [toR_exact] at this
    rw [← this]; rfl
  rw [e] at h
  have : 0 < b.len / 2 ^ σ.length / 2 := by positivity
  calc _ ≤ _ := h
    _ < _ := by show b.len / 2 - b.len / 2 ^ σ.length / 2 < b.len / 2; linarith

/-- The centre of a descendant lies in the orthant of the child above it. -/
theorem getOrthant_center (b : Box d) (hb : 0 < b.len) (σ : Path) (i : ℕ) (hi : i < 2 ^ d) :
    FMM.getOrthant b.center (FMM.boxAt (b.child i) σ).center = i := by
  refine eq_of_testBit_lt (getOrthant_lt _ _) hi fun j => ?_
  rw [testBit_getOrthant]
  have hl : (b.child i).len = b.len / 2 := rfl
  have h := abs_lt.mp (center_near (b.child i) (by rw [hl]; positivity) σ j)
  have hc : (b.child i).center j = b.center j + b.len / 2 / 2 * childDir d i j := by simp [Box.child]
  rw [hl, hc] at h
  unfold childDir at h
  by_cases ht : i.testBit (d - j - 1) = true
  · rw [if_pos ht] at h
    rw [ht, decide_eq_true_iff]; linarith [h.1]
  · rw [if_neg ht] at h
    rw [Bool.not_eq_true] at ht
    rw [ht, decide_eq_false_iff_not]; linarith [h.2]

theorem route_center (r : Box d) (hr : 0 < r.len) (π : Path) (hv : ValidPath d π) (n : ℕ) (hn : n ≤ π.length) :
    FMM.route r (FMM.boxAt r π).center n = π.drop (π.length - n) := by
  induction n with
  | zero => simp [FMM.route]
  | succ n ih =>
    rw [FMM.route, ih (by omega)]
    have hlt : π.length - (n + 1) < π.length := by omega
    have e : π.drop (π.length - (n + 1)) = π[π.length - (n + 1)] :: π.drop (π.length - n) := by
      rw [List.drop_eq_getElem_cons hlt]
      congr 2
      omega
    have e2 : π = π.take (π.length - (n + 1)) ++ (π[π.length - (n + 1)] :: π.drop (π.length - n)) := by
      rw [← e, List.take_append_drop]
    have hb : FMM.boxAt r π = FMM.boxAt ((FMM.boxAt r (π.drop (π.length - n))).child π[π.length - (n + 1)])
        (π.take (π.length - (n + 1))) := by
      conv_lhs => rw [e2]
      rw [boxAt_append']; rfl
    rw [e]
    congr 1
    rw [hb]
    exact getOrthant_center _ (boxAt_len_pos r hr _) _ _ (hv _ (List.getElem_mem _))

variable {rnd : ℝ → ℝ} {r : RBox ℝ d}

theorem routeR_valid (x : Vec d) (n : ℕ) : ValidPath d (route rnd r x n) := by
  induction n with
  | zero => intro i hi; simp [route] at hi
  | succ n ih =>
    intro i hi
    rcases List.mem_cons.mp hi with rfl | h
    · exact getOrthant_lt _ _
    · exact ih i h

theorem routeR_drop (x : Vec d) (k n : ℕ) (h : n ≤ k) : (route rnd r x k).drop (k - n) = route rnd r x n := by
  obtain ⟨m, rfl⟩ := Nat.exists_eq_add_of_le h
  induction m with
  | zero => simp
  | succ m ih =>
    rw [show n + (m + 1) - n = (n + m - n) + 1 by omega, show n + (m + 1) = (n + m) + 1 by ring, route, List.drop_succ_cons]
    exact ih (by omega)

/-- The position that makes the exact program follow the rounded route down to depth `k`. -/
noncomputable def shadow (rnd : ℝ → ℝ) (r : RBox ℝ d) (k : ℕ) (x : Vec d) : Vec d :=
  (FMM.boxAt r.exact (route rnd r x k)).center

theorem route_shadow (hr : 0 < r.len) (k : ℕ) (x : Vec d) (n : ℕ) (hn : n ≤ k) :
    FMM.route r.exact (shadow rnd r k x) n = route rnd r x n := by
  unfold shadow
  have hl := route_length rnd r x k
  rw [route_center r.exact hr _ (routeR_valid x k) n (by rw [hl]; exact hn), hl, routeR_drop x k n hn]

theorem orthant_shadow (hr : 0 < r.len) (k : ℕ) (x : Vec d) (n : ℕ) (hn : n < k) :
    FMM.getOrthant (bxR rnd r (route rnd r x n)).center x
      = FMM.getOrthant (FMM.boxAt r.exact (route rnd r x n)).center (shadow rnd r k x) := by
  have h := route_shadow (rnd := rnd) hr k x (n + 1) hn
  rw [FMM.route, route, route_shadow hr k x n hn.le] at h
  exact (List.cons.inj h).1.symm

theorem Boxed_spec (pos : α → Vec d) (b : Box d) (items : List α) (max : ℕ) (Al : Path → Prop) :
    Boxed b (specHeap pos b items max Al) := by
  classical
  intro π n h
  unfold specHeap at h
  by_cases ha : Al π
  · rw [if_pos ha] at h; cases h; rfl
  · rw [if_neg ha] at h; cases h

theorem buildLoop_sim (hr : 0 < r.len) (pos : α → Vec d) (items : List α) (max K : ℕ) (fuel k : ℕ) (hK : k + fuel ≤ K) :
    buildLoop rnd pos max fuel k (liftB (bxR rnd r) (specBuild (fun s => shadow rnd r K (pos s)) r.exact items max k
        ((List.range (k + 1)).map (nodeLevel (fun s => shadow rnd r K (pos s)) r.exact items max))))
      = (FMM.buildLoop (fun s => shadow rnd r K (pos s)) max fuel k
          (specBuild (fun s => shadow rnd r K (pos s)) r.exact items max k
            ((List.range (k + 1)).map (nodeLevel (fun s => shadow rnd r K (pos s)) r.exact items max)))).map
          fun x => (liftB (bxR rnd r) x.1, x.2) := by
  induction fuel generalizing k with
  | zero => rfl
  | succ f ih =>
    set pos' : α → Vec d := fun s => shadow rnd r K (pos s) with hpos'
    have hnk : (List.map (nodeLevel pos' r.exact items max) (List.range (k + 1)))[k]?
        = some (nodeLevel pos' r.exact items max k) := by simp
    unfold buildLoop FMM.buildLoop
    simp only [liftB, specBuild, hnk]
    have hsim := foldlM_sim (liftL (bxR rnd r)) (fun s => Boxed r.exact s.heap)
      (FMM.buildNode pos' max (k + 1) (nodeLevel pos' r.exact items max k)
        ((nodeLevel pos' r.exact items max k).map (itemsAt pos' r.exact items)))
      (buildNode rnd pos max (k + 1) (nodeLevel pos' r.exact items max k)
        ((nodeLevel pos' r.exact items max k).map (itemsAt pos' r.exact items)))
      (List.range (nodeLevel pos' r.exact items max k).length)
      (fun s hs x _ => buildNode_sim pos pos' max (k + 1) _ _ (by
        intro i π src h1 h2 t ht
        rw [List.getElem?_map, h1] at h2
        cases h2
        have hl := ((mem_nodeLevel pos' r.exact items max k π).mp (List.mem_of_getElem? h1)).2.1
        obtain ⟨_, hrt⟩ := List.mem_filter.mp ht
        have hrt : FMM.route r.exact (pos' t) π.length = π := by simpa using hrt
        rw [hl, hpos', route_shadow hr K (pos t) k (by omega)] at hrt
        rw [← hrt]
        exact orthant_shadow hr K (pos t) k (by omega)) s hs x)
      (fun s hs x _ s' hx => buildNode_boxed hs hx)
      { heap := specHeap pos' r.exact items max fun π => (adaptiveTree pos' r.exact items max).Mem π ∧ π.length ≤ k
        nextNodes := [], nextLeaves := [], temp := [] } (Boxed_spec _ _ _ _ _)
    rw [level_step] at hsim ⊢
    have e1 : (List.range (nodeLevel pos' r.exact items max k).length).foldlM
        (buildNode rnd pos max (k + 1) (nodeLevel pos' r.exact items max k)
          ((nodeLevel pos' r.exact items max k).map (itemsAt pos' r.exact items)))
        { heap := liftH (bxR rnd r) (specHeap pos' r.exact items max fun π => (adaptiveTree pos' r.exact items max).Mem π ∧ π.length ≤ k)
          nextNodes := [], nextLeaves := [], temp := [] } =
        .ok { heap := liftH (bxR rnd r) (specHeap pos' r.exact items max fun π =>
                (adaptiveTree pos' r.exact items max).Mem π ∧ π.length ≤ k + 1)
              nextNodes := nodeLevel pos' r.exact items max (k + 1)
              nextLeaves := leafLevel pos' r.exact items max (k + 1)
              temp := (nodeLevel pos' r.exact items max (k + 1)).map (itemsAt pos' r.exact items) } := hsim
    rw [e1, ok_bind, ok_bind]
    simp only
    by_cases hn : nodeLevel pos' r.exact items max (k + 1) ≠ []
    · simp only [if_pos hn]
      have := ih (k + 1) (by omega)
      have e2 : specBuild pos' r.exact items max (k + 1) ((List.range (k + 1 + 1)).map (nodeLevel pos' r.exact items max))
          = { heap := specHeap pos' r.exact items max fun π => (adaptiveTree pos' r.exact items max).Mem π ∧ π.length ≤ k + 1
              nodes := (List.range (k + 1)).map (nodeLevel pos' r.exact items max) ++ [nodeLevel pos' r.exact items max (k + 1)]
              leaves := (List.range (k + 1)).map (leafLevel pos' r.exact items max) ++ [leafLevel pos' r.exact items max (k + 1)]
              nodeSources := (nodeLevel pos' r.exact items max (k + 1)).map (itemsAt pos' r.exact items) } := by
        unfold specBuild
        congr 1
        · rw [List.range_succ (n := k + 1), List.map_append]; rfl
        · rw [List.range_succ (n := k + 1), List.map_append]; rfl
      rw [e2] at this
      exact this
    · simp only [if_neg hn]
      rfl

theorem liftH_root (b : Bool) (items : List α) :
    liftH (bxR rnd r) (rootHeap r.exact b items) = rootHeap r.exact b items := by
  funext π
  unfold liftH rootHeap
  by_cases h : π = []
  · subst h; rfl
  · rw [if_neg h]; rfl

/-- The rounded program builds the tree of the exact program for the shadow positions, with rounded boxes. -/
theorem adaptiveBuild_sim (hr : 0 < r.len) (pos : α → Vec d) (items : List α) (max K : ℕ) (fuel : ℕ) (hK : fuel ≤ K) :
    adaptiveBuild rnd fuel pos r items max
      = (FMM.adaptiveBuild fuel (fun s => shadow rnd r K (pos s)) r.exact items max).map
          fun x => (liftB (bxR rnd r) x.1, x.2) := by
  unfold adaptiveBuild FMM.adaptiveBuild
  by_cases h : items.length ≤ max
  · rw [if_pos h, if_pos h]
    show Except.ok _ = Except.ok _
    simp only [liftB, liftH_root]
  · rw [if_neg h, if_neg h]
    unfold FMM.buildTree
    rw [buildTree_init (fun s => shadow rnd r K (pos s)) r.exact items max]
    have := buildLoop_sim (rnd := rnd) hr pos items max K fuel 0 (by omega)
    rw [← this]
    congr 1
    have e := buildTree_init (fun s => shadow rnd r K (pos s)) r.exact items max
    show _ = liftB _ _
    rw [show (List.range (0 + 1)) = List.range 1 from rfl, ← e]
    simp only [liftB, liftH_root]

theorem itemsAt_shadow (hr : 0 < r.len) (pos : α → Vec d) (items : List α) (K : ℕ) (π : Path) (hπ : π.length ≤ K) :
    itemsAt (fun s => shadow rnd r K (pos s)) r.exact items π
      = items.filter fun s => decide (route rnd r (pos s) π.length = π) := by
  unfold itemsAt
  refine List.filter_congr fun s _ => ?_
  rw [route_shadow hr K (pos s) _ hπ]

end FMM.Rounded
