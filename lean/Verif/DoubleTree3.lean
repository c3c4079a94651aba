import Verif.DoubleExp3
import Verif.FltBalanced3

/-!
# The trees in space with expansions in binary64

The passes and the evaluation functions are those of `RoundedFmm.lean`, which are parametric in the arithmetic of the expansions (`Kit`); here the
coefficients, the values of the expansions and the direct sums are `double`s with infinities and NaN.
-/

namespace FMM.D64
open FMM Rounded

/-- `MultipoleExpansion<3>`, `LocalExpansion<3>`; `size` is `coefficients.size()`. -/
structure Exp64 where
  order : ℕ
  size : ℕ
  center : Vec 3
  c : Coeffs

/-- `SeriesExpansion<3>(center, order)`, series_expansion.hpp:137-146: zero coefficients. -/
noncomputable def Exp64.new (center : Vec 3) (order : ℕ) : Exp64 := ⟨order, (order + 1) * (order + 1), center, fun _ _ => czero⟩

variable (L : Lib)

/-- `operator+=` (series_expansion.hpp:148-163). -/
noncomputable def addEq (e f : Exp64) : Outcome Exp64 :=
  open Classical in
  if e.size ≠ f.size ∨ e.center ≠ f.center then .error .logicError
  else .ok { e with c := fun n m => cadd (e.c n m) (f.c n m) }

/-- `ME(center, std::vector<const ME*>)`, multipole_expansion.hpp:188-201. -/
noncomputable def meMes (center : Vec 3) (es : List Exp64) : Outcome Exp64 :=
  match es with
  | [] => .error .ub
  | e0 :: _ => .ok { Exp64.new center e0.order with c := m2m L e0.order center (es.map fun e => (e.center, e.c)) }

/-- `LE(center, std::vector<const ME*>)`, local_expansion.hpp:235-242. -/
noncomputable def leMes (center : Vec 3) (es : List Exp64) : Outcome Exp64 :=
  match es with
  | [] => .error .outOfRange
  | e0 :: _ => .ok { Exp64.new center e0.order with c := m2ls L e0.order center (es.map fun e => (e.center, e.c)) }

/-- The expansion classes; the static tables are part of `L`. -/
noncomputable def kit64 : Kit 3 where
  T := Unit
  E := Exp64
  empty := ⟨0, 0, 0, fun _ _ => czero⟩
  size := Exp64.size
  leNew := fun _ c p => .ok ((), Exp64.new c p)
  meSrc := fun _ c p S => .ok ((), { Exp64.new c p with c := p2m L p c S })
  meMes := fun _ c es => (meMes L c es).map fun e => ((), e)
  leSrc := fun _ c p S => .ok ((), { Exp64.new c p with c := p2l L p c S })
  leMes := fun _ c es => (leMes L c es).map fun e => ((), e)
  leLe := fun _ c e => .ok ((), { Exp64.new c e.order with c := leShift L e.order e.c (vsub e.center c) })
  addEq := addEq

/-- The operations of `evaluatePotential`. -/
noncomputable def pot64 : Obs (kit64 L) Dbl where
  le := fun (e : Exp64) x => .ok (lePot L e.order e.center e.c x)
  me := fun (e : Exp64) x => .ok (mePot L e.order e.center e.c x)
  sum := fun grav safe S x => .ok (potentialSum3 grav safe S x)

/-- The operations of `evaluateForcefield`, for directions that GSL accepts. -/
noncomputable def force64 (feps : ℝ) : Obs (kit64 L) (DVec 3) where
  le := fun (e : Exp64) x => .ok (leForce L e.order e.center e.c x)
  me := fun (e : Exp64) x => .ok (meForce L e.order e.center e.c x)
  sum := fun grav safe S x => .ok (forcefieldSum3 grav safe S x feps)

/-! ## What goes wrong in a tree -/

section
variable (T : PTree) (cen : Path → Vec 3) (src : Path → List (Source 3)) (p : ℕ)

/-- The multipole expansion of node `π` is not finite at degree `n`. -/
inductive BadME : Path → ℕ → Prop
  /-- a source far from the centre -/
  | source (π : Path) (s : Source 3) (i : Fin 3) (k n : ℕ) : T.leaf π = true → s ∈ src π → (2 : ℝ) ^ (k : ℤ) ≤ |s.pos i - cen π i| →
      1024 ≤ k * n → BadME π n
  /-- the expansion of a child -/
  | child (π : Path) (c n : ℕ) : T.leaf π = false → c < 2 ^ 3 → BadME (c :: π) n → BadME π n
  /-- a translation by a large distance -/
  | shift (π : Path) (c : ℕ) (i : Fin 3) (k n j : ℕ) : T.leaf π = false → c < 2 ^ 3 → (2 : ℝ) ^ (k : ℤ) ≤ |cen (c :: π) i - cen π i| →
      1024 ≤ k * n → n ≤ j → BadME π j

/-- The local expansion of node `π` is not finite at degree `j` after stage `st` (1: with the expansion of the parent; 2: with the interaction list;
`2 + i`: with the first `i` members of list X). -/
inductive BadLE : Path → ℕ → ℕ → Prop
  /-- the expansion of the parent -/
  | parent (i : ℕ) (τ : Path) (st j : ℕ) : BadLE τ (2 + (T.xl τ).length) j → 1 ≤ st → j ≤ p → BadLE (i :: τ) st j
  /-- a translation by a large distance -/
  | shift (i : ℕ) (τ : Path) (st j k n : ℕ) (m : Fin 3) : τ ≠ [] → 1 ≤ st → (2 : ℝ) ^ (k : ℤ) ≤ |cen τ m - cen (i :: τ) m| → 1024 ≤ k * n →
      j + n ≤ p → BadLE (i :: τ) st j
  /-- conversion of the expansion of a box that is too close -/
  | close (π ρ : Path) (st j k n : ℕ) : ρ ∈ T.inter π → 2 ≤ st → k ≤ 1021 → (∀ i, |cen ρ i - cen π i| ≤ 2 ^ (-(k : ℤ) - 1)) →
      1024 ≤ k * (j + n + 1) → n ≤ p → BadLE π st j
  /-- conversion of an expansion that is not finite -/
  | convert (π ρ : Path) (st j n : ℕ) : ρ ∈ T.inter π → 2 ≤ st → BadME T cen src ρ n → n ≤ p → BadLE π st j
  /-- a source of list X that is too close -/
  | source (π ρ : Path) (s : Source 3) (st j k i : ℕ) : (T.xl π)[i]? = some ρ → 2 + i < st → s ∈ src ρ → k ≤ 1021 →
      (∀ i, |s.pos i - cen π i| ≤ 2 ^ (-(k : ℤ) - 1)) → 1024 ≤ k * (j + 1) → BadLE π st j

end

section laws
variable {L} {T : PTree} {cen : Path → Vec 3} {src : Path → List (Source 3)} {p : ℕ} {r : Box 3}

/-- An expansion of order `p` about `c`, not finite at the degrees `B`. -/
structure Is (p : ℕ) (c : Vec 3) (B : ℕ → Prop) (e : Exp64) : Prop where
  order : e.order = p
  size : e.size = (p + 1) * (p + 1)
  center : e.center = c
  bad : ∀ j, B j → BadAt j e.c

theorem addEq_ok {c : Vec 3} {B B' B'' : ℕ → Prop} {e f : Exp64} (he : Is p c B e) (hf : Is p c B' f) (h : ∀ j, B'' j → B j ∨ B' j) :
    ∃ g, addEq e f = .ok g ∧ Is p c B'' g := by
  refine ⟨_, if_neg ?_, he.order, he.size, he.center, fun j hj => ?_⟩
  · rw [he.size, hf.size, he.center, hf.center]; simp
  · intro m hm
    rcases h j hj with h | h
    · exact (he.bad j h m hm).add_left _
    · exact (hf.bad j h m hm).add_right _

theorem meMes_ok (c : Vec 3) {es : List Exp64} {e0 : Exp64} {l : List Exp64} (h : es = e0 :: l) (h0 : e0.order = p) :
    meMes L c es = .ok { Exp64.new c p with c := m2m L p c (es.map fun e => (e.center, e.c)) } := by
  subst h h0; rfl

theorem leMes_ok (c : Vec 3) {es : List Exp64} {e0 : Exp64} {l : List Exp64} (h : es = e0 :: l) (h0 : e0.order = p) :
    leMes L c es = .ok { Exp64.new c p with c := m2ls L p c (es.map fun e => (e.center, e.c)) } := by
  subst h h0; rfl

/-- The passes produce what `BadME` and `BadLE` say. -/
noncomputable def laws64 (L : Lib) (hA : AdjOf T r) (hr : 0 < r.len) : Rel.PassLaws (kit64 L) p T cen src where
  good := fun _ => True
  cov := fun _ => True
  ME π e := Is p (cen π) (BadME T cen src π) e
  LX π st e := Is p (cen π) (BadLE T cen src p π st) e
  cov_good _ _ := trivial
  leNew := by
    intro t π hπ _
    refine ⟨(), Exp64.new (cen π) p, rfl, trivial, fun _ => rfl, rfl, rfl, rfl, fun j hj => ?_⟩
    exfalso
    cases hj <;> omega
  leaf := by
    intro t π _ hπ hl
    refine ⟨{ Exp64.new (cen π) p with c := p2m L p (cen π) (src π) }, rfl, rfl, rfl, rfl, fun j hj => ?_⟩
    cases hj with
    | source _ s i k _ _ hs h1 h2 => exact p2m_bad hs (far_pow h1 h2)
    | child _ c _ h _ _ => rw [hl] at h; cases h
    | shift _ c i k n _ h _ _ _ _ => rw [hl] at h; cases h
  node := by
    refine fun (t : Unit) π (f : ℕ → Exp64) _ hπ hl hf => ?_
    have hf : ∀ i < 2 ^ 3, Is p (cen (i :: π)) (BadME T cen src (i :: π)) (f i) := hf
    obtain ⟨l, hl8⟩ : ∃ l, (List.range (2 ^ 3)).map f = f 0 :: l := ⟨_, rfl⟩
    have e0 : (f 0).order = p := (hf 0 (by norm_num)).order
    refine ⟨{ Exp64.new (cen π) p with c := m2m L p (cen π) (((List.range (2 ^ 3)).map f).map fun e : Exp64 => (e.center, e.c)) }, ?_, rfl, rfl, rfl, fun j hj => ?_⟩
    · show (meMes L (cen π) ((List.range (2 ^ 3)).map f)).map _ = _
      rw [meMes_ok (L := L) (cen π) hl8 e0]; rfl
    · have mem : ∀ c < 2 ^ 3, ((f c).center, (f c).c) ∈ ((List.range (2 ^ 3)).map f).map fun e : Exp64 => (e.center, e.c) := fun c hc =>
        List.mem_map.mpr ⟨f c, List.mem_map.mpr ⟨c, List.mem_range.mpr hc, rfl⟩, rfl⟩
      cases hj with
      | source _ s i k _ h _ _ _ => rw [hl] at h; cases h
      | child _ c _ _ hc hb => exact sum_bad _ _ (mem c hc) (meShift_bad ((hf c hc).bad j hb) _)
      | shift _ c i k n _ _ hc h1 h2 h3 =>
        refine sum_bad _ _ (mem c hc) (meShift_far ?_ h3)
        rw [(hf c hc).center]
        exact far_pow h1 h2
  l2l := by
    intro t i τ e0 eτ _ hπ h0 hτ
    have h0 : Is p (cen (i :: τ)) _ e0 := h0
    have hτ : Is p (cen τ) (BadLE T cen src p τ (2 + (T.xl τ).length)) eτ := hτ
    let e1 : Exp64 := { Exp64.new (cen (i :: τ)) eτ.order with c := leShift L eτ.order eτ.c (vsub eτ.center (cen (i :: τ))) }
    have h1 : Is p (cen (i :: τ)) (BadLE T cen src p (i :: τ) 1) e1 := by
      refine ⟨hτ.order, ?_, rfl, fun j hj => ?_⟩
      · show (eτ.order + 1) * (eτ.order + 1) = _
        rw [hτ.order]
      · show BadAt j (leShift L eτ.order eτ.c (vsub eτ.center (cen (i :: τ))))
        rw [hτ.order, hτ.center]
        cases hj with
        | parent _ _ _ _ h _ hj => exact leShift_bad (hτ.bad j h) hj _
        | shift _ _ _ _ k n m _ _ h1 h2 h3 => exact leShift_far (far_pow h1 h2) h3
        | close _ _ _ _ _ _ _ h => omega
        | convert _ _ _ _ _ _ h => omega
        | source _ _ _ _ _ _ _ _ h => omega
    obtain ⟨g, g1, g2⟩ := addEq_ok h0 h1 fun j hj => Or.inr hj
    refine ⟨?_, e1, g, rfl, g1, g2⟩
    show eτ.size ≠ 0
    rw [hτ.size]; positivity
  m2l := by
    refine fun (t : Unit) π (e0 : Exp64) (f : Path → Exp64) _ hπ h0 hne hf => ?_
    have h0 : Is p (cen π) (BadLE T cen src p π 1) e0 := h0
    have hf : ∀ ρ ∈ T.inter π, Is p (cen ρ) (BadME T cen src ρ) (f ρ) := hf
    let e1 : Exp64 := { Exp64.new (cen π) p with c := m2ls L p (cen π) (((T.inter π).map f).map fun e : Exp64 => (e.center, e.c)) }
    have hrun : (leMes L (cen π) ((T.inter π).map f)) = .ok e1 := by
      obtain ⟨ρ, l, hl⟩ := List.exists_cons_of_ne_nil hne
      have e0 : (f ρ).order = p := (hf ρ (by rw [hl]; simp)).order
      exact leMes_ok (L := L) (cen π) (es := (T.inter π).map f) (e0 := f ρ) (l := l.map f) (by rw [hl, List.map_cons]) e0
    have mem : ∀ ρ ∈ T.inter π, ((f ρ).center, (f ρ).c) ∈ ((T.inter π).map f).map fun e : Exp64 => (e.center, e.c) := fun ρ hρ =>
        List.mem_map.mpr ⟨f ρ, List.mem_map.mpr ⟨ρ, hρ, rfl⟩, rfl⟩
    have h1 : Is p (cen π) (fun j => (∃ (ρ : Path) (k n : ℕ), ρ ∈ T.inter π ∧ k ≤ 1021 ∧ (∀ i, |cen ρ i - cen π i| ≤ 2 ^ (-(k : ℤ) - 1)) ∧
        1024 ≤ k * (j + n + 1) ∧ n ≤ p) ∨ ∃ ρ n, ρ ∈ T.inter π ∧ BadME T cen src ρ n ∧ n ≤ p) e1 := by
      refine ⟨rfl, rfl, rfl, fun j hj => ?_⟩
      rcases hj with ⟨ρ, k, n, hρ, hk, h, h1, h2⟩ | ⟨ρ, n, hρ, hb, hn⟩
      · refine sum_bad _ _ (mem ρ hρ) (m2l_close (n := n) ?_ h2)
        rw [(hf ρ hρ).center]
        exact close_pow hk h h1
      · exact sum_bad _ _ (mem ρ hρ) (m2l_bad ((hf ρ hρ).bad n hb) hn j)
    obtain ⟨g, g1, g2⟩ := addEq_ok h0 h1 (B'' := BadLE T cen src p π 2) (by
      intro j hj
      cases hj with
      | parent i τ _ _ h _ hj => exact Or.inl (.parent i τ 1 j h le_rfl hj)
      | shift i τ _ _ k n m hτ _ a1 a2 a3 => exact Or.inl (.shift i τ 1 j k n m hτ le_rfl a1 a2 a3)
      | close _ ρ _ _ k n hρ _ hk h h1 h2 => exact Or.inr (Or.inl ⟨ρ, k, n, hρ, hk, h, h1, h2⟩)
      | convert _ ρ _ _ n hρ _ hb hn => exact Or.inr (Or.inr ⟨ρ, n, hρ, hb, hn⟩)
      | source _ _ _ _ _ _ _ _ h => omega)
    refine ⟨e1, g, ?_, g1, g2⟩
    show (leMes L (cen π) ((T.inter π).map f)).map _ = _
    rw [hrun]; rfl
  m2l_nil := by
    intro π e0 hπ h0 hn
    have h0 : Is p (cen π) (BadLE T cen src p π 1) e0 := h0
    refine ⟨h0.order, h0.size, h0.center, fun j hj => ?_⟩
    cases hj with
    | parent i τ _ _ h _ hj => exact h0.bad j (.parent i τ 1 j h le_rfl hj)
    | shift i τ _ _ k n m h0' _ h1 h2 h3 => exact h0.bad j (.shift i τ 1 j k n m h0' le_rfl h1 h2 h3)
    | close _ ρ _ _ k n hρ _ hk h h1 h2 => rw [hn] at hρ; simp at hρ
    | convert _ ρ _ _ n hρ _ hb _ => rw [hn] at hρ; simp at hρ
    | source _ _ _ _ _ _ _ _ h => omega
  x := by
    intro t π i ρ e0 _ hπ hi h0
    have h0 : Is p (cen π) (BadLE T cen src p π (2 + i)) e0 := h0
    let e1 : Exp64 := { Exp64.new (cen π) p with c := p2l L p (cen π) (src ρ) }
    have h1 : Is p (cen π) (fun j => ∃ (s : Source 3) (k : ℕ), s ∈ src ρ ∧ k ≤ 1021 ∧ (∀ i, |s.pos i - cen π i| ≤ 2 ^ (-(k : ℤ) - 1)) ∧ 1024 ≤ k * (j + 1)) e1 := by
      refine ⟨rfl, rfl, rfl, fun j hj => ?_⟩
      obtain ⟨s, k, hs, hk, h, h1⟩ := hj
      exact p2l_bad hs (close_ipow hk h h1)
    obtain ⟨g, g1, g2⟩ := addEq_ok h0 h1 (B'' := BadLE T cen src p π (2 + (i + 1))) (by
      intro j hj
      cases hj with
      | parent i' τ _ _ h _ hj => exact Or.inl (.parent i' τ _ j h (by omega) hj)
      | shift i' τ _ _ k n m hτ _ a1 a2 a3 => exact Or.inl (.shift i' τ _ j k n m hτ (by omega) a1 a2 a3)
      | close _ ρ _ _ k n hρ _ hk h h1 h2 => exact Or.inl (.close π ρ _ j k n hρ (by omega) hk h h1 h2)
      | convert _ ρ _ _ n hρ _ hb hn => exact Or.inl (.convert π ρ _ j n hρ (by omega) hb hn)
      | source _ ρ' s _ _ k i' hi' hst hs hk h h1 =>
        rcases Nat.lt_or_ge i' i with hlt | hge
        · exact Or.inl (.source π ρ' s _ j k i' hi' (by omega) hs hk h h1)
        · have : i' = i := by omega
          subst this
          rw [hi] at hi'
          cases hi'
          exact Or.inr ⟨s, k, hs, hk, h, h1⟩)
    exact ⟨e1, g, rfl, g1, g2⟩
  zero := by
    intro π e hπ hl h0
    have h0 : Is p (cen π) (BadLE T cen src p π 0) e := h0
    refine ⟨h0.order, h0.size, h0.center, fun j hj => ?_⟩
    exfalso
    have hnil : ∀ st j, ¬ BadLE T cen src p [] st j := by
      intro st j h
      cases h with
      | close _ _ _ _ _ _ hρ => simp [PTree.inter] at hρ
      | convert _ _ _ _ _ hρ => simp [PTree.inter] at hρ
      | source _ _ _ _ _ _ _ hi => simp [PTree.xl] at hi
    match π, hl with
    | [], _ => exact hnil _ _ hj
    | [i], _ =>
      have a := Rel.inter_one hA hr hπ
      have b := xl_one hπ
      generalize hst : 2 + (T.xl [i]).length = st at hj
      cases hj with
      | parent _ _ _ _ h => exact hnil _ _ h
      | shift _ _ _ _ _ _ _ h => exact h rfl
      | close _ _ _ _ _ _ hρ => rw [a] at hρ; simp at hρ
      | convert _ _ _ _ _ hρ => rw [a] at hρ; simp at hρ
      | source _ _ _ _ _ _ _ hi => rw [b] at hi; simp at hi

end laws
end FMM.D64
