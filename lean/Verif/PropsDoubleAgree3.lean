import Verif.DoubleAgreeTree3
import Verif.DoubleLib3

/-!
# C98: overflow in the three-dimensional solver is never silent

`F` is the arithmetic of `double` without a largest number (same mantissa, same gradual underflow, `Is64 F`); `L` are the library functions on `double`s with
infinities and NaN (`LibOf L F`).  If the program run with `F` returns a number, the program run with `double`s returns the same number, or an infinity, or
NaN: an overflow in an intermediate result is either visible in the result or without effect on it.
-/

namespace FMM.D64
open FMM Rounded
variable {F : Flt3} {L : Lib} {rlog : ℝ → ℝ} {nrm : Vec 3 → ℝ} {fuel n : ℕ} {st : Stat3} {S : List (Source 3)} {eps : ℝ}

/-! ## Centres and sources of the nodes -/

theorem pow297 : (2 : ℝ) ^ (297 : ℤ) ≤ 2 ^ (300 : ℤ) := two_pow_mono (by norm_num)

theorem adaptive_sh {K : Kit 3} {rnd : ℝ → ℝ} (hr : ∀ x, rnd x = rndU x) (hS : ∀ s ∈ S, ∀ j, |s.pos j| ≤ 2 ^ (297 : ℤ)) {t : K.T} {sch : ℕ → List Path → List Path}
    {T : AdaptiveFmm K} (h : Rounded.adaptiveFmm rnd rlog nrm K fuel sch t S n eps = .ok T) : KitSim.Sh Mod (fun s => Mod s.pos) T.shape := by
  have I := Inv.adaptiveFmm_inv (P := BoxMod 300) (Q := fun s : Source 3 => Mod s.pos) (fun b i hb => hb.child (by norm_num) (by norm_num) hr i) (fun r h => sourceBox_mod (B := 300) (by norm_num) (by norm_num) hr hS h)
    (fun s hs j => (hS s hs j).trans pow297) h
  intro a m hm
  obtain ⟨nd, h1, h2⟩ := bind_ok hm
  injection h2 with h2
  subst h2
  obtain ⟨i1, i2⟩ := I.get h1
  refine ⟨fun j => i1.center j, fun src hsrc => ?_⟩
  dsimp only at hsrc
  by_cases c : nd.isLeaf = true
  · rw [if_pos c] at hsrc
    injection hsrc with hsrc
    subst hsrc
    exact i2
  · rw [if_neg c] at hsrc; cases hsrc

theorem balanced_sh {K : Kit 3} {rnd : ℝ → ℝ} (hr : ∀ x, rnd x = rndU x) (hS : ∀ s ∈ S, ∀ j, |s.pos j| ≤ 2 ^ (297 : ℤ)) {t : K.T} {sch : ℕ → List BAddr → List BAddr}
    {T : BalancedFmm K} (h : Rounded.balancedFmm rnd rlog nrm K fuel sch t S n eps = .ok T) : KitSim.Sh Mod (fun s => Mod s.pos) T.shape := by
  obtain ⟨I, I'⟩ := Inv.balancedFmm_inv (P := BoxMod 300) (Q := fun s : Source 3 => Mod s.pos) (fun b i hb => hb.child (by norm_num) (by norm_num) hr i) (fun r h => sourceBox_mod (B := 300) (by norm_num) (by norm_num) hr hS h)
    (fun s hs j => (hS s hs j).trans pow297) h
  intro a m hm
  obtain ⟨nd, h1, h2⟩ := bind_ok hm
  injection h2 with h2
  subst h2
  refine ⟨fun j => (I.get h1).center j, fun src hsrc => ?_⟩
  dsimp only at hsrc
  cases a with
  | node i => cases hsrc
  | leaf k =>
    have hsrc : T.src.get k = .ok src := hsrc
    unfold BSrc.get at hsrc
    cases e : T.src.ptr k with
    | none => rw [e] at hsrc; cases hsrc
    | some f => rw [e] at hsrc; injection hsrc with hsrc; subst hsrc; exact I' f

/-! ## The solver -/

/-- A result of the computation with `double`s: the given number, or infinite, or NaN. -/
def SameOrBad (P : Outcome Dbl) (v : ℝ) : Prop := ∃ w, P = .ok w ∧ (w = .fin v ∨ NF w)

/-- The same for the components of a vector. -/
def VSameOrBad (P : Outcome (DVec 3)) (v : Vec 3) : Prop := ∃ w, P = .ok w ∧ ∀ j, w j = .fin (v j) ∨ NF (w j)

theorem Agr.sob {d : Dbl} {x : ℝ} (h : Agr d x) : d = .fin x ∨ NF d := by
  cases d with
  | fin y => exact .inl (by rw [h y rfl])
  | inf s => exact .inr trivial
  | nan => exact .inr trivial

/-- The multipole and local expansions of a node: the same centre and the same order; every coefficient is the same, or not finite. -/
def SameExp (e : Exp64) (f : Exp3) : Prop :=
  e.center = f.center ∧ e.order = f.order ∧ ∀ (l : ℕ) (m : ℤ), l ≤ f.order → |m| ≤ l → ∃ z, f.get l m = .ok z ∧
    (((e.c l m).re = .fin z.re ∨ NF (e.c l m).re) ∧ ((e.c l m).im = .fin z.im ∨ NF (e.c l m).im))

theorem PAgr.same {p : ℕ} {f : Exp3} {e : Exp64} (h : PAgr p f e) : SameExp e f := by
  obtain ⟨-, h⟩ := h
  refine ⟨h.center'.symm, h.order.trans h.order'.symm, fun l m hl hm => ?_⟩
  rw [h.order'] at hl
  exact ⟨_, h.is.get hl hm, (h.cells.val l hl m hm).1.sob, (h.cells.val l hl m hm).2.sob⟩

theorem negZ (v : Vec 3) (d : DVec 3) (h : VAgr d v) : VAgr (vneg d) (Vec.neg v) := fun j => by
  have := (h j).neg
  show Agr (D64.neg (d j)) (v j * (-1))
  rw [mul_neg_one]
  exact this

/-- **C98** Adaptive tree.  Sources with coordinates of at most `2^297`, order between 1 and 42.  If the tree is built without a largest number, it is built
with `double`s, with the same order, the same nodes and the same lists.  For every point with coordinates of at most `2^300`: the computed potential is the
same, or infinite, or NaN, and so are the components of the force. -/
theorem C98_adaptive (hF : Is64 F) (hL : LibOf L F) (hst : st.Good) (hS : ∀ s ∈ S, ∀ j, |s.pos j| ≤ 2 ^ (297 : ℤ)) {sch : ℕ → List Path → List Path}
    {T : AdaptiveFmm (Fl3.kit F)} (h : Rounded.adaptiveFmm F.rnd rlog nrm (Fl3.kit F) fuel sch st S n eps = .ok T) (hp0 : 0 < T.order) (hp : T.order ≤ 42) :
    ∃ T', Rounded.adaptiveFmm F.rnd rlog nrm (kit64 L) fuel sch () S n eps = .ok T' ∧
      T'.order = T.order ∧ T'.height = T.height ∧ T'.heap = T.heap ∧ T'.nb = T.nb ∧
      (∀ π f, T.exps.le π = some f → ∃ e, T'.exps.le π = some e ∧ SameExp e f) ∧
      (∀ π f, T.exps.me π = some f → f = Exp3.empty ∨ ∃ e, T'.exps.me π = some e ∧ SameExp e f) ∧
      ∀ x : Vec 3, (∀ j, |x j| ≤ 2 ^ (300 : ℤ)) → ∀ grav,
        (∀ v, Rounded.adaptiveEval F.rnd (fun a b => F.rnd (a + b)) (fun a => -a) (Fl3.pot F) fuel grav T S x = .ok v →
          SameOrBad (Rounded.adaptiveEval F.rnd add neg (pot64 L) fuel grav T' S x) v) ∧
        ∀ feps, |feps| ≤ 2 ^ (906 : ℤ) → ∀ v, Rounded.adaptiveEval F.rnd F.vadd Vec.neg (Fl3.force F feps) fuel grav T S x = .ok v →
          VSameOrBad (Rounded.adaptiveEval F.rnd vadd vneg (force64 L feps) fuel grav T' S x) v := by
  have hsh := adaptive_sh hF.rnd hS h
  obtain ⟨T', t1, t2⟩ := KitSim.adaptiveFmm (M := sim64 hF hL hp0 hp) sch (t' := ()) hst h rfl hsh
  have hQ : ∀ s ∈ S, Mod s.pos := fun s hs j => (hS s hs j).trans pow297
  refine ⟨T', t1, t2.order, t2.height, t2.heap, t2.nb, fun π f hf => ?_, fun π f hf => ?_, fun x hx grav => ⟨fun v hv => ?_, fun feps hf v hv => ?_⟩⟩
  · obtain ⟨e, e1, e2⟩ := t2.exps.le π f hf
    exact ⟨e, e1, PAgr.same e2⟩
  · obtain ⟨e, e1, e2⟩ := t2.exps.me π f hf
    rcases e2 with e2 | e2
    · exact .inr ⟨e, e1, PAgr.same e2⟩
    · exact .inl e2
  · obtain ⟨w, w1, w2⟩ := KitSim.adaptiveEval (simPot64 hF hL hp0 hp) (add' := add) (neg' := neg)
      (fun {a a' b b'} ha hb => by have := Agr.add ha hb; rw [← hF.rnd] at this; exact this) (fun {a a'} ha => Agr.neg ha) hQ grav t2 hsh hx hv
    exact ⟨w, w1, Agr.sob w2⟩
  · obtain ⟨w, w1, w2⟩ := KitSim.adaptiveEval (simForce64 hF hL hp0 hp hf) (add' := vadd) (neg' := vneg)
      (fun {a a' b b'} ha hb j => by have := Agr.add (ha j) (hb j); rw [← hF.rnd] at this; exact this) (fun {a a'} ha => negZ a a' ha) hQ grav t2 hsh hx hv
    exact ⟨w, w1, fun j => Agr.sob (w2 j)⟩

/-- **C98** Balanced tree. -/
theorem C98_balanced (hF : Is64 F) (hL : LibOf L F) (hst : st.Good) (hS : ∀ s ∈ S, ∀ j, |s.pos j| ≤ 2 ^ (297 : ℤ)) {sch : ℕ → List BAddr → List BAddr}
    {T : BalancedFmm (Fl3.kit F)} (h : Rounded.balancedFmm F.rnd rlog nrm (Fl3.kit F) fuel sch st S n eps = .ok T) (hp0 : 0 < T.order) (hp : T.order ≤ 42) :
    ∃ T', Rounded.balancedFmm F.rnd rlog nrm (kit64 L) fuel sch () S n eps = .ok T' ∧
      T'.order = T.order ∧ T'.height = T.height ∧ T'.mem = T.mem ∧ T'.src = T.src ∧ T'.nb = T.nb ∧
      (∀ π f, T.exps.le π = some f → ∃ e, T'.exps.le π = some e ∧ SameExp e f) ∧
      (∀ π f, T.exps.me π = some f → f = Exp3.empty ∨ ∃ e, T'.exps.me π = some e ∧ SameExp e f) ∧
      ∀ x : Vec 3, (∀ j, |x j| ≤ 2 ^ (300 : ℤ)) → ∀ grav,
        (∀ v, Rounded.balancedEval F.rnd (fun a b => F.rnd (a + b)) (fun a => -a) (Fl3.pot F) grav T x = .ok v →
          SameOrBad (Rounded.balancedEval F.rnd add neg (pot64 L) grav T' x) v) ∧
        ∀ feps, |feps| ≤ 2 ^ (906 : ℤ) → ∀ v, Rounded.balancedEval F.rnd F.vadd Vec.neg (Fl3.force F feps) grav T x = .ok v →
          VSameOrBad (Rounded.balancedEval F.rnd vadd vneg (force64 L feps) grav T' x) v := by
  have hsh := balanced_sh hF.rnd hS h
  obtain ⟨T', t1, t2⟩ := KitSim.balancedFmm (M := sim64 hF hL hp0 hp) sch (t' := ()) hst h rfl hsh
  refine ⟨T', t1, t2.order, t2.height, t2.mem, t2.src, t2.nb, fun π f hf => ?_, fun π f hf => ?_, fun x hx grav => ⟨fun v hv => ?_, fun feps hf v hv => ?_⟩⟩
  · obtain ⟨e, e1, e2⟩ := t2.exps.le π f hf
    exact ⟨e, e1, PAgr.same e2⟩
  · obtain ⟨e, e1, e2⟩ := t2.exps.me π f hf
    rcases e2 with e2 | e2
    · exact .inr ⟨e, e1, PAgr.same e2⟩
    · exact .inl e2
  · obtain ⟨w, w1, w2⟩ := KitSim.balancedEval (simPot64 hF hL hp0 hp) (add' := add) (neg' := neg)
      (fun {a a' b b'} ha hb => by have := Agr.add ha hb; rw [← hF.rnd] at this; exact this) (fun {a a'} ha => Agr.neg ha) grav t2 hsh hx hv
    exact ⟨w, w1, Agr.sob w2⟩
  · obtain ⟨w, w1, w2⟩ := KitSim.balancedEval (simForce64 hF hL hp0 hp hf) (add' := vadd) (neg' := vneg)
      (fun {a a' b b'} ha hb j => by have := Agr.add (ha j) (hb j); rw [← hF.rnd] at this; exact this) (fun {a a'} ha => negZ a a' ha) grav t2 hsh hx hv
    exact ⟨w, w1, fun j => Agr.sob (w2 j)⟩

/-! ## Points too far away -/

/-- **C98** Without the bound on the coordinates of the point an overflow can be silent: the cube of the distance overflows, the quotient is zero.  One source
of strength `2^900` at the origin, a point at distance `2^350`: the force is `2^200`, the computed force is zero. -/
theorem C98_silent : ∃ x v : Vec 3, Fl3.forcefieldSum flt64 true false [⟨0, 2 ^ (900 : ℤ)⟩] x 0 = .ok v ∧ v 0 = 2 ^ (200 : ℤ) ∧
    ∀ j, forcefieldSum3 true false [⟨0, 2 ^ (900 : ℤ)⟩] x 0 j = .fin 0 := by
  have hR : ∀ k : ℤ, -1022 ≤ k → flt64.rnd (2 ^ k) = 2 ^ k := fun k hk => rndU_pow hk
  have hR0 : flt64.rnd 0 = 0 := rndU_zero
  have hD : ∀ k : ℤ, -1022 ≤ k → k ≤ 1023 → rnd64 (2 ^ k) = .fin (2 ^ k) := fun k h1 h2 => by
    rw [(rnd64_fin (b := k) (abs_of_pos (two_pow_pos k)).le h1 h2).1, rndU_pow h1]
  have hM : ∀ a b : ℤ, (2 : ℝ) ^ a * 2 ^ b = 2 ^ (a + b) := fun a b => (zpow_add₀ (by norm_num) a b).symm
  have hv : ∀ j, (0 : Vec 3) j - (![-2 ^ (350 : ℤ), 0, 0] : Vec 3) j = (![2 ^ (350 : ℤ), 0, 0] : Vec 3) j := by
    intro j
    fin_cases j
    · show (0 : ℝ) - -2 ^ (350 : ℤ) = 2 ^ (350 : ℤ); rw [zero_sub, neg_neg]
    · show (0 : ℝ) - 0 = 0; rw [sub_zero]
    · show (0 : ℝ) - 0 = 0; rw [sub_zero]
  have hn : Vec.norm (![2 ^ (350 : ℤ), 0, 0] : Vec 3) = 2 ^ (350 : ℤ) := by
    rw [norm3_sq]
    show √((2 ^ (350 : ℤ)) ^ 2 + 0 ^ 2 + 0 ^ 2) = _
    rw [zero_pow two_ne_zero, add_zero, add_zero, Real.sqrt_sq (two_pow_pos _).le]
  have d1 : flt64.vsub (0 : Vec 3) ![-2 ^ (350 : ℤ), 0, 0] = ![2 ^ (350 : ℤ), 0, 0] := by
    funext j
    show flt64.rnd (_ - _) = _
    rw [hv j]
    fin_cases j
    · exact hR _ (by norm_num)
    · exact hR0
    · exact hR0
  have d2 : vsub (0 : Vec 3) ![-2 ^ (350 : ℤ), 0, 0] = fun j => .fin ((![2 ^ (350 : ℤ), 0, 0] : Vec 3) j) := by
    funext j
    show rnd64 (_ - _) = _
    rw [hv j]
    fin_cases j
    · exact hD _ (by norm_num) (by norm_num)
    · exact rnd64_zero
    · exact rnd64_zero
  have n1 : flt64.nrm3 ![2 ^ (350 : ℤ), 0, 0] = 2 ^ (350 : ℤ) := by
    show flt64.rnd (Vec.norm _) = _
    rw [hn, hR _ (by norm_num)]
  have q1 : flt64.rnd (2 ^ (900 : ℤ) / flt64.rnd (flt64.rnd (flt64.rnd (2 ^ (350 : ℤ) * 2 ^ (350 : ℤ)) * 2 ^ (350 : ℤ)) + 0)) = 2 ^ (-150 : ℤ) := by
    rw [add_zero, hM, hR _ (by norm_num), hM, hR _ (by norm_num), hR _ (by norm_num), ← zpow_sub₀ (by norm_num)]
    exact hR _ (by norm_num)
  have q0 : flt64.rnd (flt64.rnd (flt64.rnd (2 ^ (350 : ℤ) * 2 ^ (350 : ℤ)) * 2 ^ (350 : ℤ)) + 0) ≠ 0 := by
    rw [add_zero, hM, hR _ (by norm_num), hM, hR _ (by norm_num), hR _ (by norm_num)]
    exact (two_pow_pos _).ne'
  refine ⟨![-2 ^ (350 : ℤ), 0, 0], flt64.vadd (Vec.fill 0) (flt64.vscale ![2 ^ (350 : ℤ), 0, 0] (2 ^ (-150 : ℤ))), ?_, ?_, fun j => ?_⟩
  · have : Fl3.forcefield flt64 true false ⟨0, 2 ^ (900 : ℤ)⟩ ![-2 ^ (350 : ℤ), 0, 0] 0 = .ok (flt64.vscale ![2 ^ (350 : ℤ), 0, 0] (2 ^ (-150 : ℤ))) := by
      unfold Fl3.forcefield
      dsimp only
      rw [d1, n1, if_neg (fun h => Bool.noConfusion h.1), if_neg q0, q1]
      rfl
    unfold Fl3.forcefieldSum
    rw [List.foldlM_cons, this]
    rfl
  · show flt64.rnd (0 + flt64.rnd (2 ^ (350 : ℤ) * 2 ^ (-150 : ℤ))) = _
    rw [zero_add, hM, hR _ (by norm_num), hR _ (by norm_num)]
    rfl
  · show add (.fin 0) (forcefield3 true false ⟨0, 2 ^ (900 : ℤ)⟩ ![-2 ^ (350 : ℤ), 0, 0] 0 j) = _
    have : forcefield3 true false ⟨0, 2 ^ (900 : ℤ)⟩ ![-2 ^ (350 : ℤ), 0, 0] 0 = vscale (fun j => .fin ((![2 ^ (350 : ℤ), 0, 0] : Vec 3) j)) (.fin 0) := by
      unfold forcefield3
      dsimp only
      rw [d2, norm3_fin, hn, hD _ (by norm_num) (by norm_num)]
      have m1 : mul (.fin (2 ^ (350 : ℤ))) (.fin (2 ^ (350 : ℤ))) = .fin (2 ^ (700 : ℤ)) := by
        show rnd64 (_ * _) = _
        rw [hM]; exact hD _ (by norm_num) (by norm_num)
      have m2 : mul (.fin (2 ^ (700 : ℤ))) (.fin (2 ^ (350 : ℤ))) = .inf (decide ((2 : ℝ) ^ (700 + 350 : ℤ) < 0)) := by
        show rnd64 (_ * _) = _
        rw [hM]
        exact rnd64_huge ((two_pow_mono (by norm_num)).trans (le_abs_self _))
      rw [m1, m2]
      rfl
    rw [this]
    show add (.fin 0) (rnd64 ((![2 ^ (350 : ℤ), 0, 0] : Vec 3) j * 0)) = _
    rw [mul_zero, rnd64_zero]
    show rnd64 (0 + 0) = _
    rw [add_zero, rnd64_zero]

/-! ## One source at the origin -/

theorem origin_box : sourceBox flt64.rnd [(⟨0, -1⟩ : Source 3)] = some ⟨0, 0⟩ := by
  have h0 : flt64.rnd 0 = 0 := rndU_zero
  unfold sourceBox Rounded.rootBox dataRange
  rw [if_neg (by simp)]
  have e1 : ∀ p : ℝ, Rounded.vadd flt64.rnd (0 : Vec 3) (Rounded.vscale flt64.rnd 0 p) = 0 := fun p => by
    funext j
    show flt64.rnd (0 + flt64.rnd (0 * p)) = 0
    rw [zero_mul, h0, add_zero, h0]
  have e2 : (fun i => (extremum (fun a b => decide (a < b)) (([(⟨0, -1⟩ : Source 3)].map Source.pos).map (· i))).getD 0) = (0 : Vec 3) := rfl
  have e3 : (fun i => (extremum (fun a b => decide (a > b)) (([(⟨0, -1⟩ : Source 3)].map Source.pos).map (· i))).getD 0) = (0 : Vec 3) := rfl
  dsimp only
  rw [e2, e3, e1]
  have e4 : Rounded.vsub flt64.rnd (0 : Vec 3) 0 = 0 := by
    funext j
    show flt64.rnd (0 + flt64.rnd (0 * (-1))) = 0
    rw [zero_mul, h0, add_zero, h0]
  have e5 : Rounded.vscale flt64.rnd (Rounded.vadd flt64.rnd (0 : Vec 3) 0) (1 / 2) = 0 := by
    funext j
    show flt64.rnd (flt64.rnd (0 + 0) * (1 / 2)) = 0
    rw [add_zero, h0, zero_mul, h0]
  rw [e4, e5]
  simp [extremum, List.ofFn_succ]

/-- Non-vacuity: the tree of one source at the origin, and its potential at distance 2. -/
example : ∃ T T', Rounded.adaptiveFmm flt64.rnd Real.log flt64.nrm3 (Fl3.kit flt64) 5 (fun _ l => l.reverse) (Stat3.init 0 0 0) [⟨0, -1⟩] 1 (1 / 4) = .ok T ∧
    Rounded.adaptiveFmm flt64.rnd Real.log flt64.nrm3 (kit64 (libOf flt64)) 5 (fun _ l => l.reverse) () [⟨0, -1⟩] 1 (1 / 4) = .ok T' ∧ T'.order = 2 ∧
    SameOrBad (Rounded.adaptiveEval flt64.rnd add neg (pot64 (libOf flt64)) 5 true T' [⟨0, -1⟩] ![-2, 0, 0]) (1 / 2) := by
  have h0 : flt64.rnd 0 = 0 := rndU_zero
  have hR : ∀ (k : ℤ) (x : ℝ), -1022 ≤ k → x = 2 ^ k → flt64.rnd x = x := fun k x hk e => by rw [e]; exact rndU_pow hk
  have hord : Rounded.expansionOrder flt64.rnd Real.log (Rounded.totalStrength flt64.rnd [(⟨0, -1⟩ : Source 3)]) (1 / 4) = .ok 2 := by
    have e1 : Rounded.totalStrength flt64.rnd [(⟨0, -1⟩ : Source 3)] = 1 := by
      show flt64.rnd (0 + |-1|) = 1
      rw [zero_add, abs_neg, abs_one, hR 0 1 (by norm_num) (by norm_num)]
    unfold Rounded.expansionOrder
    have e2 : flt64.rnd (1 / (1 / 4)) = 4 := by rw [hR 2 _ (by norm_num) (by norm_num)]; norm_num
    have e3 : Real.log 4 / Real.log 2 = 2 := by
      rw [show (4 : ℝ) = 2 ^ 2 by norm_num, Real.log_pow]
      have := Real.log_pos (show (1 : ℝ) < 2 by norm_num)
      field_simp
      norm_num
    rw [e1, e2, if_neg (by norm_num), e3, hR 1 2 (by norm_num) (by norm_num)]
    have : ⌈(2 : ℝ)⌉ = 2 := by exact_mod_cast Int.ceil_natCast (R := ℝ) 2
    rw [this]
    rfl
  obtain ⟨st', e, n1, -⟩ := Exp3.new_ok (Stat3.init 0 0 0) (Stat3.good_init 0 0 0) 0 2 (by norm_num)
  have hT : ∃ T, Rounded.adaptiveFmm flt64.rnd Real.log flt64.nrm3 (Fl3.kit flt64) 5 (fun _ l => l.reverse) (Stat3.init 0 0 0) [⟨0, -1⟩] 1 (1 / 4) = .ok T ∧
      T.order = 2 ∧ T.heap = rootHeap ⟨0, 0⟩ true [⟨0, -1⟩] := by
    unfold Rounded.adaptiveFmm Rounded.adaptiveInit
    rw [hord, ok_bind, origin_box]
    dsimp only
    have hl : Rounded.adaptiveLists flt64.rnd flt64.nrm3 5 Source.pos ⟨0, 0⟩ [(⟨0, -1⟩ : Source 3)] 1 =
        .ok (⟨rootHeap ⟨0, 0⟩ true [⟨0, -1⟩], [], [[[]]], []⟩, 0, { Nbh.empty with near := pushAt Nbh.empty.near [] [] }) := rfl
    rw [hl, ok_bind]
    dsimp only
    have hi : ∀ nb, forEach (initNode (Fl3.kit flt64) (adaptiveShape (rootHeap (⟨0, 0⟩ : Box 3) true [(⟨0, -1⟩ : Source 3)]) nb) 2)
        (([] : List (List Path)).flatten ++ [[[]]].flatten) ⟨Stat3.init 0 0 0, fun _ => none, fun _ => none⟩ =
        .ok (({ (⟨Stat3.init 0 0 0, fun _ => none, fun _ => none⟩ : Exps (Fl3.kit flt64) Path) with t := st' }.setMe [] Exp3.empty).setLe [] e) := by
      intro nb
      have k1 : initNode (Fl3.kit flt64) (adaptiveShape (rootHeap (⟨0, 0⟩ : Box 3) true [(⟨0, -1⟩ : Source 3)]) nb) 2 []
          ⟨Stat3.init 0 0 0, fun _ => none, fun _ => none⟩ =
          .ok (({ (⟨Stat3.init 0 0 0, fun _ => none, fun _ => none⟩ : Exps (Fl3.kit flt64) Path) with t := st' }.setMe [] Exp3.empty).setLe [] e) := by
        unfold initNode
        have k2 : adaptiveShape (rootHeap (⟨0, 0⟩ : Box 3) true [(⟨0, -1⟩ : Source 3)]) nb [] = .ok
          ⟨0, none, (List.range (2 ^ 3)).map fun _ => none, nb.near [], nb.inter [], nb.X [], nb.W [], .ok [⟨0, -1⟩]⟩ := rfl
        rw [k2, ok_bind]
        have k3 : (Fl3.kit flt64).leNew (Stat3.init 0 0 0) (0 : Vec 3) 2 = .ok (st', e) := n1
        rw [k3]
        rfl
      show (initNode (Fl3.kit flt64) _ 2 [] _ >>= fun s => .ok s) = _
      rw [k1]
      rfl
    rw [hi, ok_bind]
    exact ⟨_, rfl, rfl, rfl⟩
  obtain ⟨T, t1, t2, t3⟩ := hT
  obtain ⟨T', u1, u2, -, -, -, -, -, u8⟩ := C98_adaptive flt64_is lib64 (Stat3.good_init 0 0 0) (by
    intro s hs j
    rw [List.mem_singleton] at hs
    subst hs
    show |(0 : ℝ)| ≤ _
    rw [abs_zero]; exact (two_pow_pos _).le) t1 (by rw [t2]; norm_num) (by rw [t2]; norm_num)
  refine ⟨T, T', t1, u1, u2.trans t2, (u8 _ (fun j => ?_) true).1 _ ?_⟩
  · have : |(![-2, 0, 0] : Vec 3) j| ≤ 2 ^ (1 : ℤ) := by fin_cases j <;> norm_num
    exact this.trans (two_pow_mono (by norm_num))
  · unfold Rounded.adaptiveEval Rounded.getContainingLeaf
    rw [t3]
    have hc : (toR (⟨0, 0⟩ : Box 3)).contains flt64.rnd ![-2, 0, 0] = false := by
      unfold RBox.contains
      refine decide_eq_false fun h => h 0 (.inl ?_)
      show (-2 : ℝ) < flt64.rnd (0 + flt64.rnd (flt64.rnd (1 * flt64.rnd (0 / 2)) * (-1)))
      rw [zero_div, h0, one_mul, h0, zero_mul, h0, zero_add, h0]
      norm_num
    have : (descend (rootHeap (⟨0, 0⟩ : Box 3) true [(⟨0, -1⟩ : Source 3)]) ![-2, 0, 0] 5 [] >>= fun cur => do
        let node ← (rootHeap (⟨0, 0⟩ : Box 3) true [(⟨0, -1⟩ : Source 3)]).get cur
        if (toR node.box).contains flt64.rnd ![-2, 0, 0] then .ok (some cur) else .ok none) = (.ok none : Outcome (Option Path)) := by
      show (if (toR (⟨0, 0⟩ : Box 3)).contains flt64.rnd ![-2, 0, 0] then .ok (some []) else .ok none : Outcome (Option Path)) = _
      rw [hc]
      rfl
    rw [this, ok_bind]
    dsimp only
    have hr : flt64.nrm3 (flt64.vsub (0 : Vec 3) ![-2, 0, 0]) = 2 := by
      have : flt64.vsub (0 : Vec 3) ![-2, 0, 0] = ![2, 0, 0] := by
        funext j
        show flt64.rnd (0 - _) = _
        fin_cases j
        · show flt64.rnd (0 - -2) = 2
          rw [zero_sub, neg_neg, hR 1 2 (by norm_num) (by norm_num)]
        · show flt64.rnd (0 - 0) = 0
          rw [sub_zero, h0]
        · show flt64.rnd (0 - 0) = 0
          rw [sub_zero, h0]
      rw [this]
      show flt64.rnd (Vec.norm _) = 2
      rw [norm3_sq]
      have : √((![2, 0, 0] : Vec 3) 0 ^ 2 + (![2, 0, 0] : Vec 3) 1 ^ 2 + (![2, 0, 0] : Vec 3) 2 ^ 2) = 2 := by
        show √(2 ^ 2 + 0 ^ 2 + 0 ^ 2) = 2
        rw [show ((2 : ℝ) ^ 2 + 0 ^ 2 + 0 ^ 2) = 2 ^ 2 by norm_num, Real.sqrt_sq (by norm_num)]
      rw [this, hR 1 2 (by norm_num) (by norm_num)]
    show Fl3.potentialSum flt64 true false [⟨0, -1⟩] ![-2, 0, 0] = _
    unfold Fl3.potentialSum
    rw [List.foldlM_cons]
    have : Fl3.potential flt64 true false ⟨0, -1⟩ ![-2, 0, 0] = .ok (1 / 2) := by
      unfold Fl3.potential
      dsimp only
      rw [hr, if_neg (fun h => Bool.noConfusion h.1), if_neg (by norm_num), neg_neg, hR (-1) _ (by norm_num) (by norm_num)]
      rfl
    rw [this]
    show (.ok (flt64.rnd (0 + 1 / 2)) : Outcome ℝ) = _
    rw [zero_add, hR (-1) _ (by norm_num) (by norm_num)]

end FMM.D64
