import Verif.RoundingLemmas

/-! # Decisions of the geometric layer under rounding -/

namespace FMM.Rounded
variable {K : Type} [Field K] [LinearOrder K] {d : ℕ}

/-! ## Orthants -/

theorem getOrthant_bits (c x : Pt K d) : getOrthant c x = bitsFold fun i => decide (c i ≤ x i) := by
  unfold getOrthant bitsFold
  congr 1
  ext acc i
  by_cases h : c i ≤ x i <;> simp [h]

theorem dir_getOrthant (c x : Pt K d) (j : Fin d) : (dir d (getOrthant c x) j : K) = if c j ≤ x j then 1 else -1 := by
  simp only [dir, getOrthant_bits, testBit_bitsFold, decide_eq_true_eq]

theorem getOrthant_inj {c x y : Pt K d} (h : getOrthant c x = getOrthant c y) (j : Fin d) : c j ≤ x j ↔ c j ≤ y j := by
  have := congrArg (fun n => n.testBit (d - j - 1)) h
  simp only [getOrthant_bits, testBit_bitsFold] at this
  simpa using this

/-! ## Routes -/

section
variable (rnd : K → K)

/-- The address that a point reaches at depth `n`. -/
def route (r : RBox K d) (x : Pt K d) : ℕ → Path
  | 0 => []
  | n + 1 => getOrthant (boxAt rnd r (route r x n)).center x :: route r x n

theorem route_length (r : RBox K d) (x : Pt K d) (n : ℕ) : (route rnd r x n).length = n := by
  induction n with
  | zero => rfl
  | succ n ih => simp [route, ih]

/-- The sources of the node at an address. -/
def itemsOn (r : RBox K d) (items : List (Pt K d)) (π : Path) : List (Pt K d) :=
  items.filter fun s => route rnd r s π.length == π

theorem itemsOn_nil (r : RBox K d) (items : List (Pt K d)) : itemsOn rnd r items [] = items := by
  simp [itemsOn, route]

theorem itemsOn_cons (r : RBox K d) (items : List (Pt K d)) (π : Path) (o : ℕ) :
    itemsOn rnd r items (o :: π) = (itemsOn rnd r items π).filter fun s => getOrthant (boxAt rnd r π).center s == o := by
  unfold itemsOn
  rw [List.filter_filter]
  refine List.filter_congr fun s _ => ?_
  rw [Bool.eq_iff_iff]
  simp only [Bool.and_eq_true, beq_iff_eq, route, List.length_cons, List.cons.injEq]
  constructor
  · rintro ⟨h1, h2⟩; rw [h2] at h1; exact ⟨h1, h2⟩
  · rintro ⟨h1, h2⟩; exact ⟨by rw [h2]; exact h1, h2⟩

theorem lookup_from (r : RBox K d) (items : List (Pt K d)) (max : ℕ) (x : Pt K d) (k fuel j : ℕ) (hj : j ≤ k)
    (hf : k - j < fuel) (hk : (itemsOn rnd r items (route rnd r x k)).length ≤ max) :
    ∃ n ≤ k, lookup rnd max fuel (boxAt rnd r (route rnd r x j)) (itemsOn rnd r items (route rnd r x j)) x
      = .ok ((boxAt rnd r (route rnd r x n)).contains rnd x) := by
  induction fuel generalizing j with
  | zero => omega
  | succ fuel ih =>
    unfold lookup
    by_cases h : (itemsOn rnd r items (route rnd r x j)).length ≤ max
    · exact ⟨j, hj, if_pos h⟩
    · have hjk : j < k := by
        rcases hj.eq_or_lt with rfl | h'
        · exact absurd hk h
        · exact h'
      obtain ⟨n, hn, e⟩ := ih (j + 1) hjk (by omega)
      refine ⟨n, hn, ?_⟩
      rw [if_neg h, ← e]
      simp only [route]
      rw [itemsOn_cons]
      rfl

/-- The result of a look-up: the containment test of some box on the route of the point. -/
theorem lookup_ok (r : RBox K d) (items : List (Pt K d)) (max : ℕ) (x : Pt K d) (k fuel : ℕ) (hf : k < fuel)
    (hk : (itemsOn rnd r items (route rnd r x k)).length ≤ max) :
    ∃ n ≤ k, lookup rnd max fuel r items x = .ok ((boxAt rnd r (route rnd r x n)).contains rnd x) := by
  have := lookup_from rnd r items max x k fuel 0 (Nat.zero_le _) (by omega) hk
  rwa [show route rnd r x 0 = [] from rfl, itemsOn_nil] at this

/-- Any finished look-up has this form. -/
theorem lookup_inv_from (r : RBox K d) (items : List (Pt K d)) (max : ℕ) (x : Pt K d) (fuel j : ℕ) (b : Bool)
    (h : lookup rnd max fuel (boxAt rnd r (route rnd r x j)) (itemsOn rnd r items (route rnd r x j)) x = .ok b) :
    ∃ n < j + fuel, b = (boxAt rnd r (route rnd r x n)).contains rnd x := by
  induction fuel generalizing j with
  | zero => simp [lookup] at h
  | succ fuel ih =>
    unfold lookup at h
    by_cases hm : (itemsOn rnd r items (route rnd r x j)).length ≤ max
    · rw [if_pos hm] at h
      exact ⟨j, by omega, by simpa using h.symm⟩
    · rw [if_neg hm] at h
      obtain ⟨n, hn, e⟩ := ih (j + 1) (by simp only [route]; rw [itemsOn_cons]; exact h)
      exact ⟨n, by omega, e⟩

theorem lookup_inv (r : RBox K d) (items : List (Pt K d)) (max : ℕ) (x : Pt K d) (fuel : ℕ) (b : Bool)
    (h : lookup rnd max fuel r items x = .ok b) : ∃ n < fuel, b = (boxAt rnd r (route rnd r x n)).contains rnd x := by
  have := lookup_inv_from rnd r items max x fuel 0 b (by
    rw [show route rnd r x 0 = [] from rfl, itemsOn_nil]; exact h)
  simpa using this

end

variable [IsStrictOrderedRing K] {rnd : K → K} {B δ C : K} {r : RBox K d} {k : ℕ}

/-! ## Adjacency -/

theorem diff_grid (r : RBox K d) (hl : 0 < r.len) (π ρ : Path) (j : Fin d) :
    ∃ z : ℤ, ((boxAt id r ρ).center j - r.len / 2 ^ ρ.length / 2) - ((boxAt id r π).center j + r.len / 2 ^ π.length / 2)
      = z * min (r.len / 2 ^ π.length) (r.len / 2 ^ ρ.length) := by
  have h1 := lower_grid r ρ j
  have h2 := lower_grid r π j
  rw [len_exact] at h1 h2
  have e : ((boxAt id r ρ).center j - r.len / 2 ^ ρ.length / 2) - ((boxAt id r π).center j + r.len / 2 ^ π.length / 2)
      = (grid d ρ j : K) * (r.len / 2 ^ ρ.length) - ((grid d π j : K) + 1) * (r.len / 2 ^ π.length) := by linarith
  rw [e]
  have key : ∀ m n : ℕ, m ≤ n → r.len / 2 ^ m = 2 ^ (n - m) * (r.len / 2 ^ n) ∧ r.len / 2 ^ n ≤ r.len / 2 ^ m := by
    intro m n hmn
    obtain ⟨t, rfl⟩ := Nat.exists_eq_add_of_le hmn
    constructor
    · rw [Nat.add_sub_cancel_left, pow_add]; field_simp
    · exact div_le_div_of_nonneg_left hl.le (by positivity) (pow_le_pow_right₀ (by norm_num) hmn)
  rcases le_total π.length ρ.length with h | h
  · obtain ⟨a, b⟩ := key _ _ h
    rw [min_eq_right b, a]
    exact ⟨grid d ρ j - (grid d π j + 1) * 2 ^ (ρ.length - π.length), by push_cast; ring⟩
  · obtain ⟨a, b⟩ := key _ _ h
    rw [min_eq_left b, a]
    exact ⟨grid d ρ j * 2 ^ (π.length - ρ.length) - (grid d π j + 1), by push_cast; ring⟩

theorem sign_eq (c : Ctx rnd r B C δ k) (hk : (8 * k + 15) * δ < r.len / 2 ^ (k + 1)) (π ρ : Path) (hπ : π.length ≤ k)
    (hρ : ρ.length ≤ k) (j : Fin d) :
    (vsub rnd (vsub rnd ((boxAt rnd r ρ).lower rnd) ((boxAt rnd r π).upper rnd))
        (fun _ => rnd (min (boxAt rnd r π).len (boxAt rnd r ρ).len / 2)) j > 0) ↔
    (vsub id (vsub id ((boxAt id r ρ).lower id) ((boxAt id r π).upper id))
        (fun _ => id (min (boxAt id r π).len (boxAt id r ρ).len / 2)) j > 0) := by
  have h := c.diffR π ρ hπ hρ j
  obtain ⟨z, hz⟩ := diff_grid r c.len π ρ j
  have e : vsub id (vsub id ((boxAt id r ρ).lower id) ((boxAt id r π).upper id))
        (fun _ => id (min (boxAt id r π).len (boxAt id r ρ).len / 2)) j
      = z * min (r.len / 2 ^ π.length) (r.len / 2 ^ ρ.length) - min (r.len / 2 ^ π.length) (r.len / 2 ^ ρ.length) / 2 := by
    rw [← hz]
    simp only [vsub, vadd, vneg, vscale, RBox.lower, RBox.upper, id, len_exact]
    ring
  rw [hz] at h
  rw [e]
  have hs : r.len / 2 ^ (k + 1) ≤ min (r.len / 2 ^ π.length) (r.len / 2 ^ ρ.length) / 2 := by
    rw [pow_succ, ← div_div]
    refine div_le_div_of_nonneg_right (le_min ?_ ?_) (by norm_num)
    · exact div_le_div_of_nonneg_left c.len.le (by positivity) (pow_le_pow_right₀ (by norm_num) hπ)
    · exact div_le_div_of_nonneg_left c.len.le (by positivity) (pow_le_pow_right₀ (by norm_num) hρ)
  generalize min (r.len / 2 ^ π.length) (r.len / 2 ^ ρ.length) = s at *
  generalize vsub rnd _ _ j = v at *
  have hs0 : 0 < s := by
    have : 0 < r.len / 2 ^ (k + 1) := div_pos c.len (by positivity)
    linarith
  obtain ⟨l1, l2⟩ := abs_le.mp h
  rcases le_or_gt z 0 with hz0 | hz0
  · have : (z : K) * s ≤ 0 := mul_nonpos_of_nonpos_of_nonneg (by exact_mod_cast hz0) hs0.le
    constructor <;> intro _ <;> linarith
  · have : 1 * s ≤ (z : K) * s := mul_le_mul_of_nonneg_right (by exact_mod_cast hz0) hs0.le
    constructor <;> intro _ <;> linarith

theorem adjacent_eq (c : Ctx rnd r B C δ k) (hk : (8 * k + 15) * δ < r.len / 2 ^ (k + 1)) (π ρ : Path) (hπ : π.length ≤ k)
    (hρ : ρ.length ≤ k) :
    (boxAt rnd r π).adjacent rnd (boxAt rnd r ρ) = (boxAt id r π).adjacent id (boxAt id r ρ) := by
  unfold RBox.adjacent
  rw [Bool.eq_iff_iff, decide_eq_true_iff, decide_eq_true_iff]
  refine forall_congr' fun j => ?_
  have h1 := sign_eq c hk π ρ hπ hρ j
  have h2 := sign_eq c hk ρ π hρ hπ j
  rw [min_comm (boxAt rnd r ρ).len, min_comm (boxAt id r ρ).len] at h2
  rw [h1, h2]

/-! ## Look-up -/

theorem grid_refine (L : K) (g m n : ℕ) (h : m ≤ n) : (g : K) * (L / 2 ^ m) = ((g * 2 ^ (n - m) : ℕ) : K) * (L / 2 ^ n) := by
  obtain ⟨t, rfl⟩ := Nat.exists_eq_add_of_le h
  push_cast
  rw [Nat.add_sub_cancel_left, pow_add]; field_simp

/-- Away from the planes of the grid the computed route stays in the exact boxes. -/
theorem route_inside (c : Ctx rnd r B C δ k) (x : Pt K d)
    (hin : ∀ i, |x i - r.center i| ≤ r.len / 2)
    (haway : ∀ i, ∀ m : ℕ, (4 * k + 5) * δ < |x i - (r.center i - r.len / 2 + m * (r.len / 2 ^ k))|)
    (n : ℕ) (hn : n ≤ k) (i : Fin d) :
    |x i - (boxAt id r (route rnd r x n)).center i| ≤ r.len / 2 ^ n / 2 := by
  induction n with
  | zero => simpa [route, boxAt] using hin i
  | succ n ih =>
    have ih := ih (by omega)
    have hlen := route_length rnd r x n
    rw [route, center_exact_cons, hlen, dir_getOrthant]
    have hc := c.centerR (route rnd r x n) (by omega) i
    have hg := lower_grid r (route rnd r x n) i
    rw [len_exact, hlen] at hg
    rw [hlen] at hc
    have ha := haway i ((2 * grid d (route rnd r x n) i + 1) * 2 ^ (k - (n + 1)))
    rw [← grid_refine _ _ _ _ hn] at ha
    have hnk : (n : K) * δ ≤ k * δ := mul_le_mul_of_nonneg_right (by exact_mod_cast (show n ≤ k by omega)) c.nonneg
    have e : r.center i - r.len / 2 + ((2 * grid d (route rnd r x n) i + 1 : ℕ) : K) * (r.len / 2 ^ (n + 1))
        = (boxAt id r (route rnd r x n)).center i := by
      have : r.len / 2 ^ (n + 1) = r.len / 2 ^ n / 2 := by rw [pow_succ, ← div_div]
      rw [this]
      push_cast
      linarith
    rw [e] at ha
    rw [pow_succ, ← div_div]
    have hn0 := c.nonneg
    have h0 := (c.le_len n).1
    generalize r.len / 2 ^ n = l at *
    generalize (boxAt rnd r (route rnd r x n)).center i = q' at *
    generalize (boxAt id r (route rnd r x n)).center i = q at *
    obtain ⟨a1, a2⟩ := abs_le.mp hc
    obtain ⟨b1, b2⟩ := abs_le.mp ih
    rw [abs_le]
    split_ifs with h
    · rcases lt_abs.mp ha with h' | h' <;> constructor <;> linarith
    · rcases lt_abs.mp ha with h' | h' <;> constructor <;> linarith

theorem route_contains (c : Ctx rnd r B C δ k) (x : Pt K d)
    (hin : ∀ i, |x i - r.center i| ≤ r.len / 2)
    (haway : ∀ i, ∀ m : ℕ, (4 * k + 5) * δ < |x i - (r.center i - r.len / 2 + m * (r.len / 2 ^ k))|)
    (n : ℕ) (hn : n ≤ k) : (boxAt rnd r (route rnd r x n)).contains rnd x = true := by
  unfold RBox.contains
  rw [decide_eq_true_iff]
  intro i
  have hlen := route_length rnd r x n
  have h := route_inside c x hin haway n hn i
  have hL := c.lowerR (route rnd r x n) (by omega) i
  have hU := c.upperR (route rnd r x n) (by omega) i
  have hg := lower_grid r (route rnd r x n) i
  rw [len_exact, hlen] at hg
  rw [hlen] at hL hU
  have h1 := haway i (grid d (route rnd r x n) i * 2 ^ (k - n))
  have h2 := haway i ((grid d (route rnd r x n) i + 1) * 2 ^ (k - n))
  rw [← grid_refine _ _ _ _ hn] at h1 h2
  rw [← hg] at h1
  have e : r.center i - r.len / 2 + ((grid d (route rnd r x n) i + 1 : ℕ) : K) * (r.len / 2 ^ n)
        = (boxAt id r (route rnd r x n)).center i + r.len / 2 ^ n / 2 := by
    push_cast; linarith
  rw [e] at h2
  have hnk : (n : K) * δ ≤ k * δ := mul_le_mul_of_nonneg_right (by exact_mod_cast hn) c.nonneg
  have hn0 := c.nonneg
  obtain ⟨b1, b2⟩ := abs_le.mp h
  obtain ⟨l1, l2⟩ := abs_le.mp hL
  obtain ⟨u1, u2⟩ := abs_le.mp hU
  rintro (hx | hx)
  · rcases lt_abs.mp h1 with h' | h' <;> linarith
  · rcases lt_abs.mp h2 with h' | h' <;> linarith

/-! ## Separation -/

/-- Distance of a point from the computed centres on its route. -/
theorem route_near (c : Ctx rnd r B C δ k) (x : Pt K d) (hin : ∀ i, |x i - r.center i| ≤ r.len / 2) (n : ℕ) (hn : n ≤ k)
    (i : Fin d) : |x i - (boxAt rnd r (route rnd r x n)).center i| ≤ r.len / 2 ^ n / 2 + 4 * n * δ := by
  induction n with
  | zero => simpa [route, boxAt] using hin i
  | succ n ih =>
    have ih := ih (by omega)
    have hlen := route_length rnd r x n
    have h7 := c.small7
    have hb := c.bound
    have hnn := c.nonneg
    have hl := c.len
    have hC := c.C_nonneg i
    have h1 := c.lenR hC (route rnd r x (n + 1))
    have h2 := c.le_len (n + 1)
    rw [route_length] at h1
    have h3 := rnd_near c.rel (near_half h1) (by rw [abs_of_nonneg (by linarith)]; linarith)
    have h4 := near_mul_unit (abs_dir (K := K) (getOrthant (boxAt rnd r (route rnd r x n)).center x) i) h3
    have h5 := rnd_near c.rel h4 (by rw [abs_mul, abs_dir, one_mul, abs_of_nonneg (by linarith)]; linarith)
    have hcn := c.centerR (route rnd r x n) (by omega) i
    rw [hlen] at hcn
    have ha := c.center_abs (route rnd r x n) i
    have hm := c.mono (show n ≤ k by omega)
    have ha' : |(boxAt rnd r (route rnd r x n)).center i| ≤ C + r.len / 2 + 4 * n * δ := by
      have := abs_sub_abs_le_abs_sub ((boxAt rnd r (route rnd r x n)).center i) ((boxAt id r (route rnd r x n)).center i)
      linarith
    have h6 := near_add (a := (boxAt rnd r (route rnd r x n)).center i) (a' := (boxAt rnd r (route rnd r x n)).center i)
      (e := 0) (by simp) h5
    have h8 := rnd_near c.rel h6 (by
      have := abs_add_le ((boxAt rnd r (route rnd r x n)).center i)
        (dir d (getOrthant (boxAt rnd r (route rnd r x n)).center x) i * (r.len / 2 ^ (n + 1) / 2))
      rw [abs_mul, abs_dir, one_mul, abs_of_nonneg (by linarith : 0 ≤ r.len / 2 ^ (n + 1) / 2)] at this
      linarith)
    have e2 : (boxAt rnd r (route rnd r x (n + 1))).center i =
        rnd ((boxAt rnd r (route rnd r x n)).center i + rnd (dir d (getOrthant (boxAt rnd r (route rnd r x n)).center x) i
          * rnd ((boxAt rnd r (route rnd r x (n + 1))).len / 2))) := rfl
    rw [← e2, dir_getOrthant] at h8
    have hh : r.len / 2 ^ (n + 1) = r.len / 2 ^ n / 2 := by rw [pow_succ, ← div_div]
    rw [hh] at h8 ⊢
    have h0 := (c.le_len n).1
    generalize r.len / 2 ^ n = l at *
    generalize (boxAt rnd r (route rnd r x (n + 1))).center i = q' at *
    generalize (boxAt rnd r (route rnd r x n)).center i = q at *
    obtain ⟨a1, a2⟩ := abs_le.mp h8
    obtain ⟨b1, b2⟩ := abs_le.mp ih
    have hn0 : (0 : K) ≤ n * δ := mul_nonneg (Nat.cast_nonneg n) hnn
    rw [abs_le]
    push_cast
    split_ifs at a1 a2 with h <;> constructor <;> linarith

/-- Points with the same computed route are close together. -/
theorem route_eq_near (c : Ctx rnd r B C δ k) (x y : Pt K d) (hx : ∀ i, |x i - r.center i| ≤ r.len / 2)
    (hy : ∀ i, |y i - r.center i| ≤ r.len / 2) (n : ℕ) (hn : n ≤ k) (h : route rnd r x n = route rnd r y n) (i : Fin d) :
    |x i - y i| ≤ r.len / 2 ^ n + 8 * n * δ := by
  have h1 := route_near c x hx n hn i
  have h2 := route_near c y hy n hn i
  rw [h] at h1
  have := abs_sub_le (x i) ((boxAt rnd r (route rnd r y n)).center i) (y i)
  rw [abs_sub_comm (RBox.center _ i) (y i)] at this
  linarith

/-- Sources that are far enough apart are alone in the nodes of depth `k`. -/
theorem itemsOn_le_one (c : Ctx rnd r B C δ k) (items : List (Pt K d)) (hin : ∀ s ∈ items, ∀ i, |s i - r.center i| ≤ r.len / 2)
    (hsep : items.Pairwise fun s t => ∃ i, r.len / 2 ^ k + 8 * k * δ < |s i - t i|) (π : Path) (hπ : π.length = k) :
    (itemsOn rnd r items π).length ≤ 1 := by
  have hs : (itemsOn rnd r items π).Pairwise fun s t => ∃ i, r.len / 2 ^ k + 8 * k * δ < |s i - t i| :=
    hsep.sublist List.filter_sublist
  have hm : ∀ s ∈ itemsOn rnd r items π, s ∈ items ∧ route rnd r s k = π := by
    intro s h
    simpa [itemsOn, hπ] using h
  match hl : itemsOn rnd r items π with
  | [] => simp
  | [_] => simp
  | s :: t :: l =>
    exfalso
    rw [hl] at hs hm
    obtain ⟨i, hi⟩ := (List.pairwise_cons.mp hs).1 t (by simp)
    obtain ⟨s1, s2⟩ := hm s (by simp)
    obtain ⟨t1, t2⟩ := hm t (by simp)
    exact absurd (route_eq_near c s t (hin s s1) (hin t t1) k le_rfl (s2.trans t2.symm) i) (not_le.mpr hi)

/-! ## Leaf box indices -/

theorem near_rel {u : K} (H : ∀ x, |rnd x - x| ≤ u * |x|) (hu : 0 ≤ u) {a a' e m : K} (h : |a' - a| ≤ e) (hm : |a| ≤ m) :
    |rnd a' - a| ≤ (1 + u) * e + u * m := by
  have h1 : |a'| ≤ m + e := by
    calc |a'| = |a + (a' - a)| := by congr 1; ring
      _ ≤ _ := abs_add_le _ _
      _ ≤ _ := add_le_add hm h
  have h2 := mul_le_mul_of_nonneg_left h1 hu
  calc |rnd a' - a| = |(rnd a' - a') + (a' - a)| := by congr 1; ring
    _ ≤ _ := abs_add_le _ _
    _ ≤ _ := by linarith [H a']

/-- Accuracy needed for the leaf indices: relative accuracy of the reciprocal of the side of the root box, and errors relative to
the larger of the number and one, and of the number and this side (also if there is underflow). -/
structure RndIx (rnd : K → K) (u L : K) : Prop where
  inv : |rnd (1 / L) - 1 / L| ≤ u * (1 / L)
  one : ∀ x, |rnd x - x| ≤ u * max |x| 1
  len : ∀ x, |rnd x - x| ≤ u * max |x| L

theorem RndIx.of_rel {u L : K} (H : ∀ x, |rnd x - x| ≤ u * |x|) (hu : 0 ≤ u) (hL : 0 < L) : RndIx rnd u L where
  inv := by have := H (1 / L); rwa [abs_of_pos (show 0 < 1 / L by positivity)] at this
  one x := (H x).trans (mul_le_mul_of_nonneg_left (le_max_left _ _) hu)
  len x := (H x).trans (mul_le_mul_of_nonneg_left (le_max_left _ _) hu)

theorem near_rel1 {u : K} (H : ∀ x, |rnd x - x| ≤ u * max |x| 1) (hu : 0 ≤ u) {a a' e m : K} (h : |a' - a| ≤ e) (hm : |a| ≤ m) (h1m : 1 ≤ m) :
    |rnd a' - a| ≤ (1 + u) * e + u * m := by
  have he : 0 ≤ e := (abs_nonneg _).trans h
  have h1 : |a'| ≤ m + e := by
    calc |a'| = |a + (a' - a)| := by congr 1; ring
      _ ≤ _ := abs_add_le _ _
      _ ≤ _ := add_le_add hm h
  have h2 := mul_le_mul_of_nonneg_left (max_le h1 (by linarith : 1 ≤ m + e)) hu
  calc |rnd a' - a| = |(rnd a' - a') + (a' - a)| := by congr 1; ring
    _ ≤ _ := abs_add_le _ _
    _ ≤ _ := by linarith [H a']

theorem cubic_le {u t : K} (hu : 0 ≤ u) (hu1 : u ≤ 1 / 100) (ht : 0 ≤ t) (hut : u ≤ t / 4) :
    (1 + u) * ((1 + u) * ((1 + u) * (7 * t) + u) + u * 1) + u ≤ 9 * t := by
  have h1 : u * t ≤ 1 / 100 * t := mul_le_mul_of_nonneg_right hu1 ht
  have h2 : u * u ≤ 1 / 100 * u := mul_le_mul_of_nonneg_right hu1 hu
  have h3 : u * (u * t) ≤ 1 / 100 * (u * t) := mul_le_mul_of_nonneg_right hu1 (by positivity)
  have h4 : u * (u * u) ≤ 1 / 100 * (u * u) := mul_le_mul_of_nonneg_right hu1 (by positivity)
  have h5 : u * (u * (u * t)) ≤ 1 / 100 * (u * (u * t)) := mul_le_mul_of_nonneg_right hu1 (by positivity)
  have e : (1 + u) * ((1 + u) * ((1 + u) * (7 * t) + u) + u * 1) + u
      = 7 * t + 21 * (u * t) + 21 * (u * (u * t)) + 7 * (u * (u * (u * t))) + 3 * u + 3 * (u * u) + u * (u * u) := by ring
  rw [e]
  linarith

theorem leafRatio_near {u : K} (I : RndIx rnd u r.len) (hu : 0 ≤ u) (hu1 : u ≤ 1 / 100)
    (c : Ctx rnd r B C δ k) (hB : B = 4 * (C + r.len)) (hδ : δ = u * B) (h : ℕ) (x : Pt K d) (i : Fin d)
    (hx : |x i - r.center i| ≤ r.len / 2) :
    |leafRatio rnd r h x i - (x i - (r.center i - r.len / 2)) / r.len * 2 ^ h| ≤ 2 ^ h / r.len * (9 * δ) := by
  have hl := c.len
  have hn := c.nonneg
  have hC := c.C_nonneg i
  have hcc := c.center i
  have h7 := c.small7
  have hb := c.bound
  obtain ⟨x1, x2⟩ := abs_le.mp hx
  obtain ⟨c1, c2⟩ := abs_le.mp hcc
  -- the difference
  have hL := c.lowerR [] (Nat.zero_le _) i
  simp only [boxAt, List.length_nil, pow_zero, div_one, Nat.cast_zero, mul_zero, zero_add] at hL
  have hL := near_mul_unit (s := (-1 : K)) (by simp) hL
  have nl : |r.center i - r.len / 2| ≤ C + r.len := by rw [abs_le]; constructor <;> linarith
  have hL := rnd_near c.rel hL (by rw [abs_mul, abs_neg, abs_one, one_mul]; linarith)
  have hv := near_add (a := x i) (a' := x i) (e := 0) (by simp) hL
  have hv := rnd_near c.rel hv (by
    have : |x i + -1 * (r.center i - r.len / 2)| ≤ r.len := by rw [abs_le]; constructor <;> linarith
    linarith)
  set v := x i + -1 * (r.center i - r.len / 2) with hvdef
  have v0 : 0 ≤ v := by rw [hvdef]; linarith
  have v1 : v ≤ r.len := by rw [hvdef]; linarith
  set v' := rnd (x i + rnd (-1 * RBox.lower rnd r i)) with hv'def
  have hv : |v' - v| ≤ 7 * δ := by linarith
  -- the reciprocal
  have hi := I.inv
  have hli : 0 < 1 / r.len := by positivity
  have hvl : |v / r.len| ≤ 1 := by rw [abs_of_nonneg (by positivity), div_le_one hl]; exact v1
  have hq : |v' * rnd (1 / r.len) - v / r.len| ≤ (1 + u) * (7 * δ / r.len) + u := by
    have e : v' * rnd (1 / r.len) - v / r.len = (v' - v) * rnd (1 / r.len) + v * (rnd (1 / r.len) - 1 / r.len) := by ring
    have b1 : |rnd (1 / r.len)| ≤ (1 + u) * (1 / r.len) := by
      obtain ⟨i1, i2⟩ := abs_le.mp hi
      have := mul_nonneg hu hli.le
      rw [abs_le, add_mul, one_mul]
      constructor <;> linarith only [i1, i2, this, hli]
    rw [e]
    refine (abs_add_le _ _).trans ?_
    rw [abs_mul, abs_mul, abs_of_nonneg v0]
    refine add_le_add ?_ ?_
    · calc |v' - v| * |rnd (1 / r.len)| ≤ (7 * δ) * ((1 + u) * (1 / r.len)) :=
            mul_le_mul hv b1 (abs_nonneg _) (by linarith)
        _ = _ := by ring
    · calc v * |rnd (1 / r.len) - 1 / r.len| ≤ r.len * (u * (1 / r.len)) :=
            mul_le_mul v1 hi (abs_nonneg _) hl.le
        _ = u := by field_simp
  have hw := near_rel1 I.one hu hq hvl le_rfl
  have hp : (0 : K) < 2 ^ h := by positivity
  have hw' : |rnd (v' * rnd (1 / r.len)) * 2 ^ h - v / r.len * 2 ^ h|
      ≤ ((1 + u) * ((1 + u) * (7 * δ / r.len) + u) + u * 1) * 2 ^ h := by
    rw [← sub_mul, abs_mul, abs_of_pos hp]
    exact mul_le_mul_of_nonneg_right hw hp.le
  have hf := near_rel1 I.one hu hw' (m := 2 ^ h) (by
    rw [abs_mul, abs_of_pos hp]
    exact mul_le_of_le_one_left hp.le hvl) (one_le_pow₀ (by norm_num))
  have e1 : leafRatio rnd r h x i = rnd (rnd (v' * rnd (1 / r.len)) * 2 ^ h) := by
    simp only [leafRatio, vscale, vsub, vadd, vneg, hv'def, RBox.lower]
    rw [mul_comm (rnd _) (-1 : K)]
  have e2 : (x i - (r.center i - r.len / 2)) = v := by rw [hvdef]; ring
  rw [e1, e2]
  refine hf.trans ?_
  have hud : u ≤ δ / r.len / 4 := by
    rw [div_div, le_div_iff₀ (by positivity), hδ, hB]
    have h1 := mul_nonneg hu hC
    have h2 : u * (4 * (C + r.len)) = u * (r.len * 4) + 4 * (u * C) := by ring
    rw [h2]
    linarith only [h1]
  have hd0 : 0 ≤ δ / r.len := by positivity
  have e3 : 7 * δ / r.len = 7 * (δ / r.len) := by ring
  have e4 : 2 ^ h / r.len * (9 * δ) = 9 * (δ / r.len) * 2 ^ h := by ring
  rw [e3, e4]
  generalize δ / r.len = t at *
  have := cubic_le hu hu1 hd0 hud
  calc _ = ((1 + u) * ((1 + u) * ((1 + u) * (7 * t) + u) + u * 1) + u) * 2 ^ h := by ring
    _ ≤ _ := mul_le_mul_of_nonneg_right this hp.le

end FMM.Rounded
