import Verif.PropsSmooth

/-!
# Property C91: total force and total torque of the particles

The direct forces obey Newton's third law, so they add up to zero and exert no torque. The forces that the trees compute are
not exactly opposite, but their sum and their torque are bounded by the error of the single forces.
-/

namespace FMM
variable {d : ℕ}

/-- Sum of the forces on the particles. -/
noncomputable def totalForce (n : ℕ) (f : ℕ → Vec d) (k : Fin d) : ℝ := ∑ i ∈ Finset.range n, f i k

/-- Torque of the forces `f i` at the positions of the sources, in the plane of the coordinates `k` and `l`. -/
noncomputable def torque (S : List (Source d)) (f : ℕ → Vec d) (k l : Fin d) : ℝ :=
  ∑ i ∈ Finset.range S.length, ((srcAt S i).pos k * f i l - (srcAt S i).pos l * f i k)

theorem srcAt_lt {S : List (Source d)} {i : ℕ} (h : i < S.length) : srcAt S i = S[i] := by
  simp [srcAt, h]

theorem directField_range (grav : Bool) (S : List (Source d)) (x : Vec d) (eps : ℝ) (k : Fin d) :
    directField grav S x eps k = ∑ j ∈ Finset.range S.length, directFieldTerm grav x eps (srcAt S j) k := by
  have h : ∀ L : List (Source d), (L.map (directFieldTerm grav x eps)).sum k
      = ∑ j ∈ Finset.range L.length, directFieldTerm grav x eps (srcAt L j) k := by
    intro L
    induction L using List.reverseRecOn with
    | nil => simp
    | append_singleton L a ih =>
      rw [List.map_append, List.sum_append, Pi.add_apply, ih, List.length_append, List.length_singleton, Finset.sum_range_succ]
      congr 1
      · refine Finset.sum_congr rfl fun j hj => ?_
        have hj := Finset.mem_range.mp hj
        rw [srcAt_lt hj, srcAt_lt (by simp; omega), List.getElem_append_left hj]
      · rw [srcAt_lt (by simp)]
        simp
  exact h S

theorem term_antisymm (grav : Bool) (eps : ℝ) (a b : Source d) (k : Fin d) :
    a.q * directFieldTerm grav a.pos eps b k = -(b.q * directFieldTerm grav b.pos eps a k) := by
  unfold directFieldTerm
  by_cases h : b.pos = a.pos
  · rw [if_pos h, if_pos h.symm]; simp
  · rw [if_neg h, if_neg (Ne.symm h)]
    have := congrFun (field_antisymm grav a b eps) k
    simpa using this

/-- The force of `b` on `a` points along the line through both. -/
theorem term_central (grav : Bool) (eps : ℝ) (a b : Source d) (k l : Fin d) :
    (a.pos k - b.pos k) * directFieldTerm grav a.pos eps b l = (a.pos l - b.pos l) * directFieldTerm grav a.pos eps b k := by
  unfold directFieldTerm
  by_cases h : b.pos = a.pos
  · rw [if_pos h]; simp
  · rw [if_neg h]
    unfold fieldSpec
    ring

theorem sum_antisymm (n : ℕ) (F : ℕ → ℕ → ℝ) (h : ∀ i j, F i j = -F j i) : ∑ i ∈ Finset.range n, ∑ j ∈ Finset.range n, F i j = 0 := by
  have h1 : ∑ i ∈ Finset.range n, ∑ j ∈ Finset.range n, F i j = -∑ i ∈ Finset.range n, ∑ j ∈ Finset.range n, F i j := by
    rw [← Finset.sum_neg_distrib, Finset.sum_comm]
    refine Finset.sum_congr rfl fun i _ => ?_
    rw [← Finset.sum_neg_distrib]
    exact Finset.sum_congr rfl fun j _ => h j i
  linarith

/-- **C91** The direct forces add up to zero, also with smoothing, for every list of sources. -/
theorem C91_direct_force (grav : Bool) (S : List (Source d)) (eps : ℝ) (k : Fin d) :
    totalForce S.length (fun i k => (srcAt S i).q * directField grav S (srcAt S i).pos eps k) k = 0 := by
  unfold totalForce
  simp only [directField_range, Finset.mul_sum]
  exact sum_antisymm _ _ fun i j => term_antisymm grav eps _ _ k

/-- **C91** The direct forces exert no torque. -/
theorem C91_direct_torque (grav : Bool) (S : List (Source d)) (eps : ℝ) (k l : Fin d) :
    torque S (fun i k => (srcAt S i).q * directField grav S (srcAt S i).pos eps k) k l = 0 := by
  unfold torque
  simp only [directField_range, Finset.mul_sum, ← Finset.sum_sub_distrib]
  refine sum_antisymm _ (fun i j => _) fun i j => ?_
  have h1 := term_antisymm grav eps (srcAt S i) (srcAt S j) k
  have h2 := term_antisymm grav eps (srcAt S i) (srcAt S j) l
  have h3 := term_central grav eps (srcAt S i) (srcAt S j) k l
  linear_combination (srcAt S j).pos l * h1 * (-1) + (srcAt S j).pos k * h2 + (srcAt S i).q * h3

/-- Forces with errors at most `e i`. -/
theorem totalForce_le {S : List (Source d)} {grav : Bool} {eps : ℝ} {f : ℕ → Vec d} {e : ℕ → ℝ} (k : Fin d)
    (h : ∀ i < S.length, |f i k - (srcAt S i).q * directField grav S (srcAt S i).pos eps k| ≤ e i) :
    |totalForce S.length f k| ≤ ∑ i ∈ Finset.range S.length, e i := by
  have h0 := C91_direct_force grav S eps k
  have h1 : totalForce S.length f k
      = ∑ i ∈ Finset.range S.length, (f i k - (srcAt S i).q * directField grav S (srcAt S i).pos eps k) := by
    rw [Finset.sum_sub_distrib]
    unfold totalForce at h0 ⊢
    rw [h0, sub_zero]
  rw [h1]
  exact (Finset.abs_sum_le_sum_abs _ _).trans (Finset.sum_le_sum fun i hi => h i (Finset.mem_range.mp hi))

theorem torque_le {S : List (Source d)} {grav : Bool} {eps : ℝ} {f : ℕ → Vec d} {e : ℕ → ℝ} (k l : Fin d)
    (h : ∀ i < S.length, ∀ k, |f i k - (srcAt S i).q * directField grav S (srcAt S i).pos eps k| ≤ e i) :
    |torque S f k l| ≤ ∑ i ∈ Finset.range S.length, (|(srcAt S i).pos k| + |(srcAt S i).pos l|) * e i := by
  have h0 := C91_direct_torque grav S eps k l
  have h1 : torque S f k l = torque S f k l - torque S (fun i k => (srcAt S i).q * directField grav S (srcAt S i).pos eps k) k l := by
    rw [h0, sub_zero]
  rw [h1]
  unfold torque
  rw [← Finset.sum_sub_distrib]
  refine (Finset.abs_sum_le_sum_abs _ _).trans (Finset.sum_le_sum fun i hi => ?_)
  have hi := Finset.mem_range.mp hi
  set x := (srcAt S i).pos
  set D := fun k => (srcAt S i).q * directField grav S x eps k
  have e1 : x k * f i l - x l * f i k - (x k * D l - x l * D k) = x k * (f i l - D l) - x l * (f i k - D k) := by ring
  rw [e1, add_mul]
  refine (abs_sub _ _).trans (add_le_add ?_ ?_)
  · rw [abs_mul]; exact mul_le_mul_of_nonneg_left (h i hi l) (abs_nonneg _)
  · rw [abs_mul]; exact mul_le_mul_of_nonneg_left (h i hi k) (abs_nonneg _)

/-- The forces on the particles computed by a tree (`evaluateParticleForces`, abstract_fmm_tree.hpp:76-89), whose evaluation has
error at most `B` at the sources. -/
theorem particles_balance {S : List (Source d)} {eval : Vec d → Outcome (Vec d)} {grav : Bool} {eps B : ℝ}
    (hv : ∀ s ∈ S, ∃ v, eval s.pos = .ok v ∧ dist2 v (directField grav S s.pos eps) ≤ B) {order : List ℕ}
    (ho : order.Perm (List.range S.length)) :
    ∃ res, particleLoop (fun q v => Vec.scale v q) eval S order = .ok res ∧ res.size = S.length ∧
      (∀ k, |totalForce S.length res.val k| ≤ (S.map fun s => |s.q|).sum * B) ∧
      ∀ k l, |torque S res.val k l| ≤ (S.map fun s => (|s.pos k| + |s.pos l|) * |s.q|).sum * B := by
  have hv' : ∀ i, ∃ v, ∀ hi : i < S.length, eval S[i].pos = .ok v ∧ dist2 v (directField grav S S[i].pos eps) ≤ B := by
    intro i
    by_cases hi : i < S.length
    · obtain ⟨v, h1, h2⟩ := hv S[i] (List.getElem_mem hi)
      exact ⟨v, fun _ => ⟨h1, h2⟩⟩
    · exact ⟨0, fun h => absurd h hi⟩
  choose val hval using hv'
  obtain ⟨res, h1, h2, h3⟩ := C37_tree_particles (fun q v => Vec.scale v q) eval S val (fun i hi => (hval i hi).1) order ho
  have sum_eq : ∀ g : Source d → ℝ, (S.map g).sum = ∑ i ∈ Finset.range S.length, g (srcAt S i) := by
    intro g
    rw [Finset.sum_congr rfl (g := fun i => if h : i < S.length then g S[i] else 0) fun i hi => by
      rw [dif_pos (Finset.mem_range.mp hi), srcAt_lt (Finset.mem_range.mp hi)], Finset.sum_range, ← List.sum_ofFn]
    congr 1
    apply List.ext_getElem <;> simp
  have he : ∀ i < S.length, ∀ k, |res.val i k - (srcAt S i).q * directField grav S (srcAt S i).pos eps k| ≤ |(srcAt S i).q| * B := by
    intro i hi k
    rw [srcAt_lt hi, h3 i hi]
    simp only [Vec.scale]
    rw [show val i k * S[i].q - S[i].q * directField grav S S[i].pos eps k = S[i].q * (val i k - directField grav S S[i].pos eps k) by ring,
      abs_mul]
    exact mul_le_mul_of_nonneg_left ((abs_le_dist2 _ _ k).trans (hval i hi).2) (abs_nonneg _)
  refine ⟨res, h1, h2, fun k => ?_, fun k l => ?_⟩
  · refine (totalForce_le k fun i hi => he i hi k).trans (le_of_eq ?_)
    rw [sum_eq, Finset.sum_mul]
  · refine (torque_le k l he).trans (le_of_eq ?_)
    rw [sum_eq, Finset.sum_mul]
    exact Finset.sum_congr rfl fun i _ => by ring

/-- **C91** Adaptive tree, two dimensions: whatever the schedules, the total force and the total torque on the particles are at
most the error of the force evaluation times the sum of the strengths (resp. of the strengths times the coordinates). -/
theorem C91_adaptive_2d {t : BinomialTable} {S : List (Source 2)} {r : Box 2} {eps : ℝ} {p : ℕ} (ht : Reachable t) {max : ℕ}
    (hI : AdaptiveInput S max r) (hord : expansionOrder (totalStrength S) eps = .ok p) (hp0 : 1 ≤ p) (hp : p ≤ 1029) (feps : ℝ)
    (hf : 0 ≤ feps) :
    ∃ (fuel0 : ℕ) (T : AdaptiveFmm kit2),
      (∀ fuel ≥ fuel0, ∀ sch, Schedule sch → adaptiveFmm kit2 fuel sch t S max eps = .ok T) ∧
      ∀ fuel ≥ fuel0, ∀ grav order, order.Perm (List.range S.length) →
        ∃ res, particleLoop (fun q v => Vec.scale v q) (adaptiveEval (force2 feps) fuel grav T S) S order = .ok res ∧
          res.size = S.length ∧
          (∀ k, |totalForce S.length res.val k| ≤ (S.map fun s => |s.q|).sum *
            ((S.map fun s => |s.q|).sum * (errForce p (r.len / 2 ^ T.height) + feps / (r.len / 2 ^ T.height) ^ 3))) ∧
          ∀ k l, |torque S res.val k l| ≤ (S.map fun s => (|s.pos k| + |s.pos l|) * |s.q|).sum *
            ((S.map fun s => |s.q|).sum * (errForce p (r.len / 2 ^ T.height) + feps / (r.len / 2 ^ T.height) ^ 3)) := by
  obtain ⟨fuel0, T, h1, -, h2, -⟩ := C60_adaptive_2d ht hI hord hp0 hp feps hf
  refine ⟨fuel0, T, h1, fun fuel hfu grav order ho => particles_balance (grav := grav) (eps := feps) (fun s hs => ?_) ho⟩
  obtain ⟨v, v1, v2⟩ := h2 s.pos (hI.inside s hs) grav S
  exact ⟨v, v1 fuel hfu, v2⟩

/-- **C91** Balanced tree, two dimensions. -/
theorem C91_balanced_2d {t : BinomialTable} {S : List (Source 2)} {r : Box 2} {eps : ℝ} {p : ℕ} (ht : Reachable t) {perCell h : ℕ}
    (hI : BalancedInput S perCell r h) (hord : expansionOrder (totalStrength S) eps = .ok p) (hp0 : 1 ≤ p) (hp : p ≤ 1029)
    (feps : ℝ) (hf : 0 ≤ feps) :
    ∃ (fuel0 : ℕ) (T : BalancedFmm kit2),
      (∀ fuel ≥ fuel0, ∀ sch, Schedule sch → balancedFmm kit2 fuel sch t S perCell eps = .ok T) ∧
      ∀ grav order, order.Perm (List.range S.length) →
        ∃ res, particleLoop (fun q v => Vec.scale v q) (balancedEval (force2 feps) grav T) S order = .ok res ∧
          res.size = S.length ∧
          (∀ k, |totalForce S.length res.val k| ≤ (S.map fun s => |s.q|).sum *
            ((S.map fun s => |s.q|).sum * (errForce p (r.len / 2 ^ h) + feps / (r.len / 2 ^ h) ^ 3))) ∧
          ∀ k l, |torque S res.val k l| ≤ (S.map fun s => (|s.pos k| + |s.pos l|) * |s.q|).sum *
            ((S.map fun s => |s.q|).sum * (errForce p (r.len / 2 ^ h) + feps / (r.len / 2 ^ h) ^ 3)) := by
  obtain ⟨fuel0, T, h1, -, -, h2⟩ := C60_balanced_2d ht hI hord hp0 hp feps hf
  exact ⟨fuel0, T, h1, fun grav order ho => particles_balance (grav := grav) (eps := feps)
    (fun s hs => h2 s.pos (hI.inside s hs) grav) ho⟩

/-- **C91** Adaptive tree, three dimensions, if no particle lies exactly above or below the centre of a box. -/
theorem C91_adaptive_3d {t : Stat3} {S : List (Source 3)} {r : Box 3} {eps : ℝ} {p : ℕ} (ht : Reachable3 t) {max : ℕ}
    (hI : AdaptiveInput S max r) (hord : expansionOrder (totalStrength S) eps = .ok p) (hp0 : 1 ≤ p) (hp : p ≤ 42) (feps : ℝ)
    (hf : 0 ≤ feps) (hA : ∀ s ∈ S, ∀ k, ¬ Aligned r k s.pos) :
    ∃ (fuel0 : ℕ) (T : AdaptiveFmm kit3),
      (∀ fuel ≥ fuel0, ∀ sch, Schedule sch → adaptiveFmm kit3 fuel sch t S max eps = .ok T) ∧
      ∀ fuel ≥ fuel0, ∀ grav order, order.Perm (List.range S.length) →
        ∃ res, particleLoop (fun q v => Vec.scale v q) (adaptiveEval (force3 feps) fuel grav T S) S order = .ok res ∧
          res.size = S.length ∧
          (∀ k, |totalForce S.length res.val k| ≤ (S.map fun s => |s.q|).sum *
            ((S.map fun s => |s.q|).sum * (errForce3 p (r.len / 2 ^ T.height) + feps / (r.len / 2 ^ T.height) ^ 5))) ∧
          ∀ k l, |torque S res.val k l| ≤ (S.map fun s => (|s.pos k| + |s.pos l|) * |s.q|).sum *
            ((S.map fun s => |s.q|).sum * (errForce3 p (r.len / 2 ^ T.height) + feps / (r.len / 2 ^ T.height) ^ 5)) := by
  obtain ⟨fuel0, T, h1, -, h2, -⟩ := C60_adaptive_3d ht hI hord hp0 hp feps hf
  refine ⟨fuel0, T, h1, fun fuel hfu grav order ho => particles_balance (grav := grav) (eps := feps) (fun s hs => ?_) ho⟩
  obtain ⟨v, v1, v2⟩ := h2 s.pos (hI.inside s hs) (fun k _ => hA s hs k) grav S
  exact ⟨v, v1 fuel hfu, v2⟩

/-- **C91** Balanced tree, three dimensions. -/
theorem C91_balanced_3d {t : Stat3} {S : List (Source 3)} {r : Box 3} {eps : ℝ} {p : ℕ} (ht : Reachable3 t) {perCell h : ℕ}
    (hI : BalancedInput S perCell r h) (hord : expansionOrder (totalStrength S) eps = .ok p) (hp0 : 1 ≤ p) (hp : p ≤ 42)
    (feps : ℝ) (hf : 0 ≤ feps) (hA : ∀ s ∈ S, ¬ Aligned r h s.pos) :
    ∃ (fuel0 : ℕ) (T : BalancedFmm kit3),
      (∀ fuel ≥ fuel0, ∀ sch, Schedule sch → balancedFmm kit3 fuel sch t S perCell eps = .ok T) ∧
      ∀ grav order, order.Perm (List.range S.length) →
        ∃ res, particleLoop (fun q v => Vec.scale v q) (balancedEval (force3 feps) grav T) S order = .ok res ∧
          res.size = S.length ∧
          (∀ k, |totalForce S.length res.val k| ≤ (S.map fun s => |s.q|).sum *
            ((S.map fun s => |s.q|).sum * (errForce3 p (r.len / 2 ^ h) + feps / (r.len / 2 ^ h) ^ 5))) ∧
          ∀ k l, |torque S res.val k l| ≤ (S.map fun s => (|s.pos k| + |s.pos l|) * |s.q|).sum *
            ((S.map fun s => |s.q|).sum * (errForce3 p (r.len / 2 ^ h) + feps / (r.len / 2 ^ h) ^ 5)) := by
  obtain ⟨fuel0, T, h1, -, -, h2⟩ := C60_balanced_3d ht hI hord hp0 hp feps hf
  exact ⟨fuel0, T, h1, fun grav order ho => particles_balance (grav := grav) (eps := feps)
    (fun s hs => h2 s.pos (hI.inside s hs) (hA s hs) grav) ho⟩

/-- Non-vacuity: the five sources of C39, force on all particles. -/
example : ∃ fuel T res, balancedFmm kit2 fuel (fun _ l => l.reverse) BinomialTable.init S5 1 1 = .ok T ∧
    particleLoop (fun q v => Vec.scale v q) (balancedEval (force2 0) true T) S5 [4, 0, 3, 1, 2] = .ok res ∧
    ∀ k, |totalForce S5.length res.val k| ≤ (S5.map fun s => |s.q|).sum *
      ((S5.map fun s => |s.q|).sum * (errForce 3 (box5.len / 2 ^ 2) + 0 / (box5.len / 2 ^ 2) ^ 3)) := by
  obtain ⟨fuel, T, h1, h2⟩ := C91_balanced_2d reachable_init S5_balanced S5_order (by norm_num) (by norm_num) 0 le_rfl
  obtain ⟨res, v1, -, v2, -⟩ := h2 true [4, 0, 3, 1, 2] (by decide)
  exact ⟨fuel, T, res, h1 fuel le_rfl _ (fun _ l => l.reverse_perm), v1, v2⟩

end FMM
