import Verif.HighCalc

/-!
# The two-dimensional expansions do not overflow

The operations of `DoubleExp2.lean` on finite numbers of moderate size: the results are finite and those of `FltExp2.lean`.  `t` is the exponent of the
distances, `a` that of the strengths or coefficients, `g` that of the logarithms.
-/

namespace FMM.D2.Hi
open FMM D64 Rounded
variable {F : Flt} {log : DC → DC} {u η ρ : ℝ} {p t a g m n P B : ℕ}

/-- The same bounds for all elements. -/
abbrev RA1 (m b : ℕ) : Arr DC → Arr ℂ → Prop := RA (fun _ => m) (fun _ => b)

/-- Expansions with the same order, centre and coefficients, the latter bounded. -/
structure EHi (m b : ℕ) (e : ExpD) (f : Exp2) : Prop where
  order : e.order = f.order
  center : e.center = f.center
  coeffs : RA1 m b e.coeffs f.coeffs
  mod : ModC f.center

/-- Pairs of table and expansion. -/
def THi (m b : ℕ) (r : BinomialTable × ExpD) (s : BinomialTable × Exp2) : Prop := r.1 = s.1 ∧ EHi m b r.2 s.2

/-- The logarithm of a number is that of `F`. -/
def LogIs (log : DC → DC) (F : Flt) : Prop := ∀ z : ℂ, z ≠ 0 → log (D2.cfin z) = D2.cfin (F.log z)

/-- Another bound. -/
theorem EHi.rebound {m b : ℕ} {e : ExpD} {f : Exp2} (h : EHi m b e f) (hf : ∀ i < f.coeffs.size, ‖f.coeffs.val i‖ ≤ 2 ^ a) : EHi 1 a e f := by
  refine ⟨h.order, h.center, ⟨h.coeffs.1, fun i hi => ?_⟩, h.mod⟩
  rw [(h.coeffs.2 i hi).eq]
  exact .of_norm (by simpa using hf i hi)

theorem zdiff_RC (hF : Is64 F) {x y : ℂ} (hx : ModC x) (hy : ModC y) (h : ‖F.csub x y‖ ≤ 2 ^ t) : RC 1 t (zdiff x y) (F.csub x y) := by
  rw [(zdiff_fin hF hx hy).1]
  exact .of_norm (by simpa using h)

/-- A factor taken from a list. -/
theorem pw_le {i n s P : ℕ} (hi : i ≤ n) (hP : n * s ≤ P) : i * s ≤ P := (Nat.mul_le_mul_right s hi).trans hP

theorem succ_step (i s : ℕ) : (i + 1) * s = i * s + s := Nat.succ_mul i s

section
variable (hF : Is64 F)
include hF

theorem powTable_hi {x : DC} {y : ℂ} (h : RC 1 t x y) (hP : (n + 1) * (t + 1) ≤ P) (hB : P ≤ 940) : Sim (RA1 1 P) (Fl.powTable F y n) (powTable x n) := by
  unfold Fl.powTable powTable
  refine Sim.bind (R := fun (b : Arr DC × DC) (a : Arr ℂ × ℂ) => RA1 1 P b.1 a.1 ∧ RC 1 ((n + 1) * (t + 1)) b.2 a.2) ?_ ?_
  · refine loopI (R := fun i (b : Arr DC × DC) (a : Arr ℂ × ℂ) => RA1 1 P b.1 a.1 ∧ RC 1 (i * (t + 1)) b.2 a.2) _
      ⟨ra_zeros _, by rw [Nat.zero_mul]; exact .one⟩ fun i hi a b hab => ?_
    have h1 := pw_le (show i + 1 ≤ n + 1 by omega) hP
    rw [succ_step] at h1
    refine (hab.1.wrc i (hab.2.mono le_rfl (by omega))).bind fun t t' ht => Sim.ok ⟨ht, ?_⟩
    exact (hab.2.mul hF h (by omega)).mono le_rfl (by rw [succ_step]; omega)
  · rintro ⟨a, z⟩ ⟨b, w⟩ hab
    exact Sim.ok hab.1

/-- The loop of both constructors from sources. -/
theorem meAddSource_hi {cen : ℂ} (hc : ModC cen) {s : Source 2} (hs : Mod s.pos) (hz : ‖F.csub (toC s.pos) cen‖ ≤ 2 ^ t) (hq : |s.q| ≤ 2 ^ a)
    (hP : (p + 1) * (t + 1) ≤ P) (hB : a + P ≤ B) (hB' : B ≤ 940) (hm : m + 1 ≤ 2 ^ 50) {c : Arr DC} {b : Arr ℂ} (h : RA1 m B c b) :
    Sim (RA1 (m + 1) B) (Fl.meAddSource F p cen b s) (meAddSource p cen c s) := by
  have hz := zdiff_RC hF hs.toC hc hz
  have hq : R1 1 a (.fin s.q) s.q := .fin (by simpa using hq)
  unfold Fl.meAddSource meAddSource
  dsimp only
  refine (h.rd 0).bind fun a0 b0 h0 => Sim.bind (R := RA (fun j => if j ≤ 0 then m + 1 else m) fun _ => B) ?_ fun c d hcd => ?_
  · refine h.wr 0 ?_ (fun j hj => ?_) fun _ _ => le_rfl
    · rw [if_pos le_rfl]
      exact h0.addr hF (hq.mono le_rfl (by omega)) hm (by omega)
    · by_cases h0 : j ≤ 0
      · rw [if_pos h0]; omega
      · rw [if_neg h0]
  refine Sim.bind (R := fun (b : Arr DC × DC) (a : Arr ℂ × ℂ) => RA (fun j => if j ≤ p then m + 1 else m) (fun _ => B) b.1 a.1 ∧ RC 1 ((p + 1) * (t + 1)) b.2 a.2) ?_ ?_
  · refine loopI (R := fun i (b : Arr DC × DC) (a : Arr ℂ × ℂ) => RA (fun j => if j ≤ i then m + 1 else m) (fun _ => B) b.1 a.1 ∧ RC 1 ((i + 1) * (t + 1)) b.2 a.2) _
      ⟨hcd, hz.mono le_rfl (by rw [succ_step]; omega)⟩ fun i hi a b hab => ?_
    have h1 := pw_le (show i + 1 + 1 ≤ p + 1 by omega) hP
    rw [succ_step] at h1
    refine (hab.1.rd (i + 1)).bind fun x y hxy => Sim.bind (R := RA (fun j => if j ≤ i + 1 then m + 1 else m) fun _ => B) ?_ fun t t' ht => Sim.ok ⟨ht, ?_⟩
    · refine hab.1.wr (i + 1) ?_ (fun j hj => ?_) fun _ _ => le_rfl
      · rw [if_pos le_rfl]
        rw [if_neg (by omega)] at hxy
        have h2 := RC.rsc hF hq hab.2 (by norm_num) (by omega)
        exact hxy.sub hF (h2.mono le_rfl (by omega)) hm (by omega)
      · by_cases h0 : j ≤ i
        · rw [if_pos h0, if_pos (by omega)]
        · rw [if_neg h0]; split <;> omega
    · exact (hab.2.mul hF hz (by omega)).mono le_rfl (by rw [succ_step (i + 1)]; omega)
  · rintro ⟨a, z⟩ ⟨b, w⟩ hab
    refine Sim.ok (hab.1.mono (fun j => ?_) fun _ => le_rfl)
    split <;> omega

theorem divByIndex_hi (p : ℕ) {c : Arr DC} {b : Arr ℂ} (h : RA1 m B c b) (hm : m ≤ 2 ^ 50) (hB : B ≤ 940) :
    Sim (RA1 m B) (Fl.divByIndex F p b) (divByIndex p c) := by
  unfold Fl.divByIndex divByIndex
  refine Sim.loop _ h fun i _ a b hab => ?_
  exact (hab.rd (i + 1)).bind fun x y hxy => hab.wrc (i + 1) (hxy.cdr hF (by push_cast; linarith [Nat.cast_nonneg (α := ℝ) i]) hm (by omega))

omit hF in
/-- An entry of the table of binomial coefficients. -/
theorem get_le {bt : BinomialTable} (ht : bt.Good) {n k : ℕ} (hk : k ≤ n) (hn : n ≤ 2 * bt.maxOrder) {b : ℝ} (h : bt.get n k = .ok b) : |b| ≤ 2 ^ n := by
  unfold BinomialTable.get Arr.rd at h
  by_cases hs : binIndex n k < bt.table.size
  · rw [if_pos hs] at h
    injection h with h
    have h0 : 0 < bt.maxOrder := by
      by_contra h0
      rw [ht.size, if_pos (by omega)] at hs
      omega
    rw [← h]
    by_cases hl : n ≤ bt.maxOrder
    · rw [ht.low h0 n hl k hk, abs_of_nonneg (by positivity)]
      exact_mod_cast Nat.choose_le_two_pow n k
    · rw [ht.high n (by omega) hn k hk, abs_zero]; positivity
  · rw [if_neg hs] at h; cases h

omit hF in
theorem sim_get (bt : BinomialTable) (n k : ℕ) : Sim (fun b a => b = a ∧ bt.get n k = .ok a) (bt.get n k) (bt.get n k) := fun a h => ⟨a, h, rfl, h⟩

theorem meShift_hi {bt : BinomialTable} (ht : bt.Good) {e : ExpD} {f : Exp2} (hb : f.order ≤ bt.maxOrder) (ho : e.order = f.order) (he : RA1 1 a e.coeffs f.coeffs) {z : DC} {w : ℂ}
    (hz : RC 1 t z w) (hP : (f.order + 1) * (t + 1) ≤ P) (hB : a + P + f.order + 1 ≤ B) (hB' : B ≤ 940) :
    Sim (RA1 (f.order + 1) B) (Fl.meShift F bt f w) (meShift bt e z) := by
  have hp50 : f.order + 1 ≤ 2 ^ 50 := le_trans (by omega : f.order + 1 ≤ 940) (by norm_num)
  unfold Fl.meShift meShift
  rw [ho]
  refine (powTable_hi hF hz hP (by omega)).bind fun pw pw' hp => (he.rd 0).bind fun a0 b0 h0 => ?_
  refine ((ra_zeros (m := fun _ => f.order + 1) (b := fun _ => B) _).wrc 0 ((RC.ofD h0.1).mono (by omega) (by omega))).bind fun sc sc' hsc => ?_
  refine Sim.loop _ hsc fun i hi sc sc' hsc => ?_
  dsimp only
  refine (hp.rd _).bind fun q q' hpp => Sim.bind (R := RA (fun j => if j = i + 1 then 1 else f.order + 1) fun _ => B) ?_ fun sc sc' hsc => ?_
  · refine hsc.wr _ ?_ (fun j hj => by rw [if_neg hj]) fun _ _ => le_rfl
    rw [if_pos rfl]
    have h1 := RC.rsc hF h0.1.neg hpp (by norm_num) (by omega)
    exact (h1.cdr hF (by push_cast; linarith [Nat.cast_nonneg (α := ℝ) i]) (by norm_num) (by omega)).mono le_rfl (by omega)
  refine Sim.mono (R := RA (fun j => if j = i + 1 then i + 1 + 1 else f.order + 1) fun _ => B) ?_ fun b a h => h.mono (fun j => by split <;> omega) fun _ => le_rfl
  refine loopI (R := fun i' => RA (fun j => if j = i + 1 then i' + 1 else f.order + 1) fun _ => B) _ hsc fun i' hi' sc sc' hsc => ?_
  refine (hsc.rd _).bind fun x x' hx => (he.rd _).bind fun ck ck' hck => (hp.rd _).bind fun q q' hq => (sim_get _ _ _).bind fun b b' hb' => ?_
  obtain ⟨rfl, hg⟩ := hb'
  have hbb := get_le ht (by omega) (by omega) hg
  refine hsc.wr _ ?_ (fun j hj => by rw [if_neg hj, if_neg hj]) fun _ _ => le_rfl
  rw [if_pos rfl] at hx ⊢
  have h1 : R1 1 f.order (rnd64 b') (F.rnd b') := by
    rw [hF.rnd]
    refine rnd_R1 (by norm_num) (by omega) (hbb.trans ?_)
    rw [Nat.cast_one, one_mul]
    exact pow_le_pow_right₀ (by norm_num) (by omega)
  have h2 := hck.mul hF hq (by omega)
  have h3 := RC.rsc hF h1 h2 (by norm_num) (by omega)
  exact hx.add hF (h3.mono le_rfl (by omega)) (le_trans (by omega : _ ≤ f.order + 1) hp50) (by omega)

theorem addCoeffs_hi {c c' : Arr DC} {b b' : Arr ℂ} (h : RA1 m B c b) (h' : RA1 n B c' b') (hm : m + n ≤ 2 ^ 50) (hB : B ≤ 940) :
    Sim (RA1 (m + n) B) (Fl.addCoeffs F b b') (addCoeffs c c') := by
  unfold Fl.addCoeffs addCoeffs
  rw [h.1]
  refine Sim.mono (R := RA (fun j => if j < b.size then m + n else m) fun _ => B) ?_ fun b a h => h.mono (fun j => by split <;> omega) fun _ => le_rfl
  refine loopI (R := fun i => RA (fun j => if j < i then m + n else m) fun _ => B) _ (h.mono (fun j => by split <;> omega) fun _ => le_rfl) fun i hi c c' hc => ?_
  refine (hc.rd i).bind fun x x' hx => (h'.rd i).bind fun y y' hy => hc.wr i ?_ (fun j hj => ?_) fun _ _ => le_rfl
  · rw [if_neg (by omega)] at hx
    rw [if_pos (by omega)]
    exact hx.add hF hy hm (by omega)
  · by_cases hji : j < i
    · rw [if_pos hji, if_pos (by omega)]
    · rw [if_neg hji]; split <;> omega

omit hF in
theorem new_hi {bt : BinomialTable} {c : Vec 2} (hc : Mod c) (p : ℕ) :
    Sim (fun r s => THi m B r s ∧ Exp2.new bt c p = .ok s ∧ s.2 = ⟨p, toC c, Arr.new (p + 1)⟩) (Exp2.new bt c p) (new bt c p) := by
  rintro ⟨bt', f⟩ h
  obtain ⟨⟨bt'', e⟩, h1, ⟨h2, h3⟩, h4⟩ := new_sim hc p _ h
  refine ⟨_, h1, ⟨h2, h3.order, h3.center, ?_, h3.mod⟩, h, h4⟩
  have e1 : e.coeffs = zeros (p + 1) := by
    unfold new at h1
    dsimp only at h1
    by_cases hm : p > bt.maxOrder
    · rw [if_pos hm] at h1
      obtain ⟨b, -, h1⟩ := bind_ok h1
      injection h1 with h1
      injection h1 with _ h1
      rw [← h1]
    · rw [if_neg hm, ok_bind] at h1
      injection h1 with h1
      injection h1 with _ h1
      rw [← h1]
  dsimp only at h4 ⊢
  rw [e1, h4]
  exact ra_zeros _

theorem meOfSources_hi {bt : BinomialTable} {c : Vec 2} (hc : Mod c) {S : List (Source 2)} (hS : ∀ s ∈ S, Mod s.pos ∧ ‖F.csub (toC s.pos) (toC c)‖ ≤ 2 ^ t ∧ |s.q| ≤ 2 ^ a)
    (hP : (p + 1) * (t + 1) ≤ P) (hB : a + P ≤ B) (hB' : B ≤ 940) (hN : S.length ≤ 2 ^ 50) :
    Sim (THi S.length B) (Fl.meOfSources F bt c p S) (meOfSources bt c p S) := by
  unfold Fl.meOfSources meOfSources
  refine (new_hi (m := 0) (B := B) hc p).bind ?_
  rintro ⟨bt, f⟩ ⟨bt', e⟩ ⟨⟨h1, h2⟩, -, h3⟩
  dsimp only at h1 h2 h3 ⊢
  subst h1
  rw [h2.center]
  refine Sim.bind (R := RA1 (0 + S.length) B) (foldI (R := fun n => RA1 n B) (forall_self hS) 0 (fun n hn s s' a b hs hab => ?_) h2.coeffs) fun a b hab => ?_
  · rw [hs.1]
    have hz := hs.2.2.1
    have e1 : f.center = toC c := by rw [h3]
    exact meAddSource_hi hF h2.mod hs.2.1 (by rw [e1]; exact hz) hs.2.2.2 hP hB hB' (by omega) hab
  · rw [Nat.zero_add] at hab
    exact (divByIndex_hi hF p hab hN hB').bind fun a b hab => Sim.ok ⟨rfl, h2.order, rfl, hab, h2.mod⟩

theorem meOfMes_hi {bt : BinomialTable} (ht : bt.Good) (hp : p ≤ bt.maxOrder) {c : Vec 2} (hc : Mod c) {es : List ExpD} {fs : List Exp2} (h : List.Forall₂ (EHi 1 a) es fs)
    (hf : ∀ f ∈ fs, f.order = p ∧ ‖F.csub f.center (toC c)‖ ≤ 2 ^ t) (hP : (p + 1) * (t + 1) ≤ P) (hB : a + P + p + 1 ≤ B) (hB' : B ≤ 940)
    (hN : fs.length * (p + 1) ≤ 2 ^ 50) :
    Sim (THi (fs.length * (p + 1)) B) (Fl.meOfMes F bt c fs) (meOfMes bt c es) := by
  cases h with
  | nil => exact Sim.err
  | @cons e0 f0 es0 fs0 h1 hl =>
    have hl := List.Forall₂.cons h1 hl
    have hf0 := hf f0 (by simp)
    unfold Fl.meOfMes meOfMes
    dsimp only
    rw [h1.order, hf0.1]
    refine (new_hi (m := 0) (B := B) hc _).bind ?_
    rintro ⟨bt1, f⟩ ⟨bt2, e⟩ ⟨⟨t1, t2⟩, t3, t4⟩
    dsimp only at t1 t2 t3 t4 ⊢
    subst t1
    have ebt : bt2 = bt := by
      unfold Exp2.new at t3
      rw [if_neg (by omega), ok_bind] at t3
      injection t3 with t3
      injection t3 with t3 _
      exact t3.symm
    subst ebt
    have ec : f.center = toC c := by rw [t4]
    have hl' : List.Forall₂ (fun e' f' => EHi 1 a e' f' ∧ f' ∈ f0 :: fs0) (e0 :: es0) (f0 :: fs0) := by
      rw [List.forall₂_iff_get] at hl ⊢
      exact ⟨hl.1, fun i h1 h2 => ⟨hl.2 i h1 h2, List.get_mem _ _⟩⟩
    refine Sim.bind (R := RA1 ((0 + (f0 :: fs0).length) * (p + 1)) B)
      (foldI (R := fun n => RA1 (n * (p + 1)) B) hl' 0 (fun n hn f' e' a b hfe hab => ?_) (by rw [Nat.zero_mul]; exact t2.coeffs)) fun a b hab => ?_
    · obtain ⟨g1, g2⟩ := hf f' hfe.2
      have hz := zdiff_RC hF hfe.1.mod t2.mod (by rw [ec]; exact g2)
      rw [hfe.1.center, t2.center]
      refine (meShift_hi hF ht (by rw [g1]; exact hp) hfe.1.order hfe.1.coeffs hz (P := P) (by rw [g1]; exact hP) (by rw [g1]; exact hB) hB').bind fun s s' hs => ?_
      rw [g1] at hs
      have hle : n * (p + 1) + (p + 1) ≤ 2 ^ 50 := by
        refine le_trans ?_ hN
        rw [← succ_step]
        exact Nat.mul_le_mul_right _ (by omega)
      have := addCoeffs_hi hF hab hs hle hB'
      rwa [← succ_step] at this
    · rw [Nat.zero_add] at hab
      exact Sim.ok ⟨rfl, t2.order, t2.center, hab, t2.mod⟩

theorem leOfLe_hi {bt : BinomialTable} {c : Vec 2} (hc : Mod c) {e : ExpD} {f : Exp2} (h : EHi 1 a e f) (hz : ‖F.csub f.center (toC c)‖ ≤ 2 ^ t)
    (hP : f.order * (t + 2) ≤ P) (hB : a + P ≤ B) (hB' : B ≤ 940) : Sim (THi 1 B) (Fl.leOfLe F bt c f) (leOfLe bt c e) := by
  unfold Fl.leOfLe leOfLe
  rw [h.order]
  refine (new_hi (m := 0) (B := B) hc _).bind ?_
  rintro ⟨bt, g⟩ ⟨bt', g'⟩ ⟨⟨t1, t2⟩, -, t4⟩
  dsimp only at t1 t2 t4 ⊢
  subst t1
  by_cases h0 : f.order > 0
  · rw [if_pos h0, if_pos h0, h.center, t2.center]
    have ec : g.center = toC c := by rw [t4]
    have hz := zdiff_RC hF h.mod t2.mod (by rw [ec]; exact hz)
    refine Sim.bind (R := RA1 1 B) ?_ fun a b hab => Sim.ok ⟨rfl, t2.order, rfl, hab, t2.mod⟩
    unfold Fl.leShift leShift
    rw [h.order]
    refine Sim.mono (R := RA1 1 (a + f.order * (t + 2))) ?_ fun b a h => h.mono (fun _ => le_rfl) fun _ => by omega
    refine loopI (R := fun j => RA1 1 (a + j * (t + 2))) _ (by rw [Nat.zero_mul, Nat.add_zero]; exact h.coeffs) fun j hj c c' hc => ?_
    have h1 := pw_le (show j + 1 ≤ f.order by omega) hP
    rw [succ_step] at h1
    dsimp only
    refine Sim.mono (R := RA (fun _ => 1) fun k => if k < f.order - j - 1 + (j + 1) then a + (j + 1) * (t + 2) else a + j * (t + 2)) ?_
      fun b a h => h.mono (fun _ => le_rfl) fun k => by split <;> (try rw [succ_step]) <;> omega
    refine loopI (R := fun i => RA (fun _ => 1) fun k => if k < f.order - j - 1 + i then a + (j + 1) * (t + 2) else a + j * (t + 2)) _ ?_ fun i hi c c' hc => ?_
    · exact hc.mono (fun _ => le_rfl) fun k => by split <;> (try rw [succ_step]) <;> omega
    · refine (hc.rd _).bind fun x x' hx => (hc.rd _).bind fun y y' hy => hc.wr _ ?_ (fun _ _ => le_rfl) fun k hk => ?_
      · rw [if_neg (by omega)] at hx hy
        rw [if_pos (by omega)]
        have h2 := hz.mul hF hy (by omega)
        have h3 := (hx.mono (n := 1) (c := t + (a + j * (t + 2)) + 1) le_rfl (by omega)).sub hF h2 (by norm_num) (by omega)
        exact (h3.lift (j := 1) (by norm_num)).mono le_rfl (by rw [succ_step]; omega)
      · by_cases hk' : k < f.order - j - 1 + i
        · rw [if_pos hk', if_pos (by omega)]
        · rw [if_neg hk', if_neg (by omega)]
  · rw [if_neg h0]; exact Sim.err

theorem addEq_hi {e e' : ExpD} {f f' : Exp2} (h : EHi m B e f) (h' : EHi n B e' f') (hm : m + n ≤ 2 ^ 50) (hB : B ≤ 940) :
    Sim (EHi (m + n) B) (Fl.addEq F f f') (addEq e e') := by
  unfold Fl.addEq addEq
  rw [h.coeffs.1, h'.coeffs.1, h.center, h'.center]
  by_cases c : f.coeffs.size ≠ f'.coeffs.size ∨ f.center ≠ f'.center
  · rw [if_pos c]; exact Sim.err
  · rw [if_neg c, if_neg c]
    refine Sim.ok ⟨h.order, rfl, ⟨rfl, fun i hi => ?_⟩, h.mod⟩
    dsimp only at hi ⊢
    push Not at c
    rw [if_pos hi, if_pos hi]
    exact (h.coeffs.2 i hi).add hF (h'.coeffs.2 i (by rw [← c.1]; exact hi)) hm (by omega)

/-- Vectors. -/
def VHi (m b : ℕ) (v : DVec 2) (w : Vec 2) : Prop := ∀ j, R1 m b (v j) (w j)

omit hF in
theorem vhi2 {d d' : Dbl} {x y : ℝ} (h0 : R1 m B d x) (h1 : R1 m B d' y) : VHi m B ![d, d'] ![x, y] := by
  intro j
  fin_cases j
  · exact h0
  · exact h1

omit hF in
theorem nat_R1 {i p : ℕ} (hi : i ≤ p) : R1 1 p (.fin ((i : ℕ) : ℝ)) ((i : ℕ) : ℝ) := by
  refine .fin ?_
  rw [Nat.cast_one, one_mul, abs_of_nonneg (by positivity)]
  exact_mod_cast hi.trans (Nat.lt_two_pow_self).le

theorem lePot_hi {e : ExpD} {f : Exp2} (h : EHi 1 a e f) {x : Vec 2} (hx : Mod x) (hz : ‖F.csub (toC x) f.center‖ ≤ 2 ^ t)
    (hP : f.coeffs.size * (t + 1) ≤ P) (hB : a + P + 1 ≤ B) (hB' : B ≤ 940) : Sim (R1 f.coeffs.size B) (Fl.lePot F f x) (lePot e x) := by
  have hz := zdiff_RC hF hx.toC h.mod hz
  have hs : f.coeffs.size ≤ 940 := by
    have : f.coeffs.size * 1 ≤ f.coeffs.size * (t + 1) := Nat.mul_le_mul_left _ (by omega)
    omega
  unfold Fl.lePot lePot
  rw [h.center, h.coeffs.1]
  dsimp only
  refine Sim.bind (R := fun (b : DC × DC) (v : ℂ × ℂ) => RC f.coeffs.size B b.1 v.1 ∧ RC 1 (f.coeffs.size * (t + 1)) b.2 v.2) ?_ ?_
  · refine loopI (R := fun i (b : DC × DC) (v : ℂ × ℂ) => RC i B b.1 v.1 ∧ RC 1 (i * (t + 1)) b.2 v.2) _ ⟨.zero, by rw [Nat.zero_mul]; exact .one⟩ fun i hi v b hab => ?_
    have h1 := pw_le (show i + 1 ≤ f.coeffs.size by omega) hP
    rw [succ_step] at h1
    refine (h.coeffs.rd i).bind fun y y' hy => Sim.ok ⟨?_, ?_⟩
    · exact hab.1.add hF ((hy.mul hF hab.2 (by omega)).mono le_rfl (by omega)) (le_trans (by omega : _ ≤ 940) (by norm_num)) (by omega)
    · exact (hab.2.mul hF hz (by omega)).mono le_rfl (by rw [succ_step]; omega)
  · rintro ⟨v, z⟩ ⟨b, w⟩ hab
    exact Sim.ok hab.1.1

theorem leForce_hi {e : ExpD} {f : Exp2} (h : EHi 1 a e f) {x : Vec 2} (hx : Mod x) (hz : ‖F.csub (toC x) f.center‖ ≤ 2 ^ t)
    (hP : f.coeffs.size * (t + 1) ≤ P) (hB : a + f.coeffs.size + P + 1 ≤ B) (hB' : B ≤ 940) : Sim (VHi f.coeffs.size B) (Fl.leForce F f x) (leForce e x) := by
  have hz := zdiff_RC hF hx.toC h.mod hz
  unfold Fl.leForce leForce
  rw [h.center, h.coeffs.1]
  dsimp only
  refine Sim.bind (R := fun (b : DC × DC) (v : ℂ × ℂ) => RC (f.coeffs.size - 1) B b.1 v.1 ∧ RC 1 ((f.coeffs.size - 1) * (t + 1)) b.2 v.2) ?_ ?_
  · refine loopI (R := fun i (b : DC × DC) (v : ℂ × ℂ) => RC i B b.1 v.1 ∧ RC 1 (i * (t + 1)) b.2 v.2) _ ⟨.zero, by rw [Nat.zero_mul]; exact .one⟩ fun i hi v b hab => ?_
    have h1 := pw_le (show i + 1 ≤ f.coeffs.size by omega) hP
    rw [succ_step] at h1
    refine (h.coeffs.rd _).bind fun y y' hy => Sim.ok ⟨?_, ?_⟩
    · have h2 := RC.rsc hF (nat_R1 (show i + 1 ≤ f.coeffs.size by omega)) hy (by norm_num) (by omega)
      exact hab.1.add hF ((h2.mul hF hab.2 (by omega)).mono le_rfl (by omega)) (le_trans (by omega : _ ≤ 940) (by norm_num)) (by omega)
    · exact (hab.2.mul hF hz (by omega)).mono le_rfl (by rw [succ_step]; omega)
  · rintro ⟨v, z⟩ ⟨b, w⟩ hab
    exact Sim.ok (vhi2 (hab.1.1.neg.mono (by omega) le_rfl) (hab.1.2.mono (by omega) le_rfl))

/-! ### With divisions -/

variable (hL : F.Low u η ρ)
include hL

theorem meForce_hi {e : ExpD} {f : Exp2} (h : EHi 1 a e f) {x : Vec 2} (hx : Mod x) (hz : ‖F.csub (toC x) f.center‖ ≤ 2 ^ t)
    (hz1 : 1 ≤ ‖F.csub (toC x) f.center‖ * 2 ^ t) (hρ : ρ ≤ ‖F.csub (toC x) f.center‖)
    (hz2 : 1 ≤ ‖F.mul (F.csub (toC x) f.center) (F.csub (toC x) f.center)‖ * 2 ^ (2 * t + 1))
    (hρ2 : ρ ≤ ‖F.mul (F.csub (toC x) f.center) (F.csub (toC x) f.center)‖) (ht : t ≤ 190)
    (hP : (f.coeffs.size + 2) * (t + 1) ≤ P) (hB : a + f.coeffs.size + P + 1 ≤ B) (hB' : B ≤ 940) :
    Sim (VHi (f.coeffs.size + 1) B) (Fl.meForce F f x) (meForce e x) := by
  have hz := zdiff_RC hF hx.toC h.mod hz
  have hzz : RC 1 (2 * t + 1) _ _ := (hz.mul hF hz (by omega)).mono le_rfl (by omega)
  have h0s : t + 1 ≤ (f.coeffs.size + 2) * (t + 1) := Nat.le_mul_of_pos_left _ (by omega)
  unfold Fl.meForce meForce
  rw [h.center, h.coeffs.1]
  dsimp only
  refine (h.coeffs.rd 0).bind fun a0 b0 h0 => Sim.ite_err fun _ => ?_
  have hi0 := (RC.ofD h0.1).div hF hL hz hz1 hρ (by omega) (by omega)
  have hi1 := RC.one.div hF hL hzz hz2 hρ2 (by omega) (by omega)
  refine Sim.bind (R := fun (b : DC × DC) (v : ℂ × ℂ) => RC (f.coeffs.size - 1 + 1) B b.1 v.1 ∧ RC 1 ((f.coeffs.size - 1 + 2) * (t + 1)) b.2 v.2) ?_ ?_
  · refine loopI (R := fun i (b : DC × DC) (v : ℂ × ℂ) => RC (i + 1) B b.1 v.1 ∧ RC 1 ((i + 2) * (t + 1)) b.2 v.2) _
      ⟨hi0.mono le_rfl (by omega), hi1.mono le_rfl (by omega)⟩ fun i hi v b hab => ?_
    have h1 := pw_le (show i + 2 + 1 ≤ f.coeffs.size + 2 by omega) hP
    rw [succ_step] at h1
    refine (h.coeffs.rd _).bind fun y y' hy => Sim.ok ⟨?_, ?_⟩
    · have h2 := RC.rsc hF (nat_R1 (show i + 1 ≤ f.coeffs.size by omega)) hy (by norm_num) (by omega)
      exact hab.1.sub hF ((h2.mul hF hab.2 (by omega)).mono le_rfl (by omega)) (le_trans (by omega : _ ≤ 940) (by norm_num)) (by omega)
    · have e : (i + 1 + 2) * (t + 1) = (i + 2) * (t + 1) + (t + 1) := succ_step (i + 2) (t + 1)
      rw [e]
      exact (hab.2.div hF hL hz hz1 hρ (by omega) (by omega)).mono le_rfl (by omega)
  · rintro ⟨v, z⟩ ⟨b, w⟩ hab
    exact Sim.ok (vhi2 (hab.1.1.neg.mono (by omega) le_rfl) (hab.1.2.mono (by omega) le_rfl))

/-! ### With logarithms -/

variable (hlog : LogIs log F)
include hlog

theorem mePot_hi {e : ExpD} {f : Exp2} (h : EHi 1 a e f) {x : Vec 2} (hx : Mod x) (hz : ‖F.csub (toC x) f.center‖ ≤ 2 ^ t)
    (hz1 : 1 ≤ ‖F.csub (toC x) f.center‖ * 2 ^ t) (hρ : ρ ≤ ‖F.csub (toC x) f.center‖) (hlg : ‖F.log (F.csub (toC x) f.center)‖ ≤ 2 ^ g) (ht : t ≤ 190)
    (hP : (f.coeffs.size + 1) * (t + 1) ≤ P) (hB : a + g + P + 1 ≤ B) (hB' : B ≤ 940) :
    Sim (R1 (f.coeffs.size + 1) B) (Fl.mePot F f x) (mePot log e x) := by
  have z1 := (zdiff_fin hF hx.toC h.mod).1
  have hz := zdiff_RC hF hx.toC h.mod hz
  have hs : f.coeffs.size + 1 ≤ 940 := by
    have : (f.coeffs.size + 1) * 1 ≤ (f.coeffs.size + 1) * (t + 1) := Nat.mul_le_mul_left _ (by omega)
    omega
  unfold Fl.mePot mePot
  rw [h.center, h.coeffs.1]
  dsimp only
  refine (h.coeffs.rd 0).bind fun a0 b0 h0 => Sim.ite_err fun hne => ?_
  have hlz : RC 1 g (log (zdiff (toC x) f.center)) (F.log (F.csub (toC x) f.center)) := by
    rw [z1, hlog _ hne]
    exact .of_norm (by simpa using hlg)
  have hi0 := RC.rsc hF h0.1 hlz (by norm_num) (by omega)
  have hi1 := RC.one.div hF hL hz hz1 hρ (by omega) (by omega)
  refine Sim.bind (R := fun (b : DC × DC) (v : ℂ × ℂ) => RC (f.coeffs.size - 1 + 1) B b.1 v.1 ∧ RC 1 ((f.coeffs.size - 1 + 1) * (t + 1)) b.2 v.2) ?_ ?_
  · refine loopI (R := fun i (b : DC × DC) (v : ℂ × ℂ) => RC (i + 1) B b.1 v.1 ∧ RC 1 ((i + 1) * (t + 1)) b.2 v.2) _
      ⟨hi0.mono le_rfl (by omega), hi1.mono le_rfl (by omega)⟩ fun i hi v b hab => ?_
    have h1 := pw_le (show i + 2 ≤ f.coeffs.size + 1 by omega) hP
    have e : (i + 2) * (t + 1) = (i + 1) * (t + 1) + (t + 1) := succ_step (i + 1) (t + 1)
    refine (h.coeffs.rd _).bind fun y y' hy => Sim.ok ⟨?_, ?_⟩
    · exact hab.1.add hF ((hy.mul hF hab.2 (by omega)).mono le_rfl (by omega)) (le_trans (by omega : _ ≤ 940) (by norm_num)) (by omega)
    · rw [succ_step (i + 1)]
      exact (hab.2.div hF hL hz hz1 hρ (by omega) (by omega)).mono le_rfl (by omega)
  · rintro ⟨v, z⟩ ⟨b, w⟩ hab
    exact Sim.ok (hab.1.1.mono (by omega) le_rfl)

theorem leAddSource_hi {cen : ℂ} (hc : ModC cen) {s : Source 2} (hs : Mod s.pos) (hz : ‖F.csub (toC s.pos) cen‖ ≤ 2 ^ t) (hq : |s.q| ≤ 2 ^ a)
    (hz1 : 1 ≤ ‖F.csub (toC s.pos) cen‖ * 2 ^ t) (hρ : ρ ≤ ‖F.csub (toC s.pos) cen‖) (hlg : ‖F.log (-F.csub (toC s.pos) cen)‖ ≤ 2 ^ g) (ht : t ≤ 190)
    (hP : (p + 1) * (t + 1) ≤ P) (hB : a + P + g ≤ B) (hB' : B ≤ 930) (hm : m + 1 ≤ 2 ^ 50) {c : Arr DC} {b : Arr ℂ} (h : RA1 m B c b) :
    Sim (RA1 (m + 1) B) (Fl.leAddSource F p cen b s) (leAddSource log p cen c s) := by
  have z1 := (zdiff_fin hF hs.toC hc).1
  have hz := zdiff_RC hF hs.toC hc hz
  have hq : R1 1 a (.fin s.q) s.q := .fin (by simpa using hq)
  have h0s : t + 1 ≤ (p + 1) * (t + 1) := Nat.le_mul_of_pos_left _ (by omega)
  unfold Fl.leAddSource leAddSource
  dsimp only
  refine Sim.ite_err fun hne => ?_
  have hlz : RC 1 g (log (cneg (zdiff (toC s.pos) cen))) (F.log (-F.csub (toC s.pos) cen)) := by
    rw [z1, cneg_fin, hlog _ (neg_ne_zero.mpr hne)]
    exact .of_norm (by simpa using hlg)
  have hi0 := RC.rsc hF hq hlz (by norm_num) (by omega)
  have hi1 := RC.one.div hF hL hz hz1 hρ (by omega) (by omega)
  refine (h.rd 0).bind fun a0 b0 h0 => Sim.bind (R := RA (fun j => if j ≤ 0 then m + 1 else m) fun _ => B) ?_ fun c d hcd => ?_
  · refine h.wr 0 ?_ (fun j hj => ?_) fun _ _ => le_rfl
    · rw [if_pos le_rfl]
      exact h0.add hF (hi0.mono le_rfl (by omega)) hm (by omega)
    · by_cases h0 : j ≤ 0
      · rw [if_pos h0]; omega
      · rw [if_neg h0]
  refine Sim.bind (R := fun (b : Arr DC × DC) (a : Arr ℂ × ℂ) => RA (fun j => if j ≤ p then m + 1 else m) (fun _ => B) b.1 a.1 ∧ RC 1 ((p + 1) * (t + 1)) b.2 a.2) ?_ ?_
  · refine loopI (R := fun i (b : Arr DC × DC) (a : Arr ℂ × ℂ) => RA (fun j => if j ≤ i then m + 1 else m) (fun _ => B) b.1 a.1 ∧ RC 1 ((i + 1) * (t + 1)) b.2 a.2) _
      ⟨hcd, hi1.mono le_rfl (by rw [succ_step]; omega)⟩ fun i hi a b hab => ?_
    have h1 := pw_le (show i + 1 + 1 ≤ p + 1 by omega) hP
    rw [succ_step] at h1
    refine (hab.1.rd (i + 1)).bind fun x y hxy => Sim.bind (R := RA (fun j => if j ≤ i + 1 then m + 1 else m) fun _ => B) ?_ fun t t' ht => Sim.ok ⟨ht, ?_⟩
    · refine hab.1.wr (i + 1) ?_ (fun j hj => ?_) fun _ _ => le_rfl
      · rw [if_pos le_rfl]
        rw [if_neg (by omega)] at hxy
        have h2 := RC.rsc hF hq hab.2 (by norm_num) (by omega)
        exact hxy.sub hF (h2.mono le_rfl (by omega)) hm (by omega)
      · by_cases h0 : j ≤ i
        · rw [if_pos h0, if_pos (by omega)]
        · rw [if_neg h0]; split <;> omega
    · exact (hab.2.div hF hL hz hz1 hρ (by omega) (by omega)).mono le_rfl (by rw [succ_step (i + 1)]; omega)
  · rintro ⟨a, z⟩ ⟨b, w⟩ hab
    refine Sim.ok (hab.1.mono (fun j => ?_) fun _ => le_rfl)
    split <;> omega

theorem leOfSources_hi {bt : BinomialTable} {c : Vec 2} (hc : Mod c) {S : List (Source 2)}
    (hS : ∀ s ∈ S, Mod s.pos ∧ ‖F.csub (toC s.pos) (toC c)‖ ≤ 2 ^ t ∧ |s.q| ≤ 2 ^ a ∧ 1 ≤ ‖F.csub (toC s.pos) (toC c)‖ * 2 ^ t ∧
      ρ ≤ ‖F.csub (toC s.pos) (toC c)‖ ∧ ‖F.log (-F.csub (toC s.pos) (toC c))‖ ≤ 2 ^ g) (ht : t ≤ 190)
    (hP : (p + 1) * (t + 1) ≤ P) (hB : a + P + g ≤ B) (hB' : B ≤ 930) (hN : S.length ≤ 2 ^ 50) :
    Sim (THi S.length B) (Fl.leOfSources F bt c p S) (leOfSources log bt c p S) := by
  unfold Fl.leOfSources leOfSources
  refine (new_hi (m := 0) (B := B) hc p).bind ?_
  rintro ⟨bt, f⟩ ⟨bt', e⟩ ⟨⟨h1, h2⟩, -, h3⟩
  dsimp only at h1 h2 h3 ⊢
  subst h1
  rw [h2.center]
  refine Sim.bind (R := RA1 (0 + S.length) B) (foldI (R := fun n => RA1 n B) (forall_self hS) 0 (fun n hn s s' a b hs hab => ?_) h2.coeffs) fun a b hab => ?_
  · rw [hs.1]
    have e1 : f.center = toC c := by rw [h3]
    obtain ⟨-, g1, g2, g3, g4, g5, g6⟩ := hs
    rw [← e1] at g2 g4 g5 g6
    exact leAddSource_hi hF hL hlog h2.mod g1 g2 g3 g4 g5 g6 ht hP hB hB' (by omega) hab
  · rw [Nat.zero_add] at hab
    exact (divByIndex_hi hF p hab hN (by omega)).bind fun a b hab => Sim.ok ⟨rfl, h2.order, rfl, hab, h2.mod⟩

omit hF hL hlog in
theorem altSign_R1 (k : ℕ) : R1 1 0 (.fin (Exp2.altSign k)) (Exp2.altSign k) := by
  refine .fin ?_
  unfold Exp2.altSign
  split <;> simp

theorem m2l_hi {bt : BinomialTable} (hbt : bt.Good) (hpm : p ≤ bt.maxOrder) {c : ℂ} (hc : ModC c) {e : ExpD} {f : Exp2} (h : EHi 1 a e f)
    (hz : ‖F.csub f.center c‖ ≤ 2 ^ t) (hz1 : 1 ≤ ‖F.csub f.center c‖ * 2 ^ t) (hρ : ρ ≤ ‖F.csub f.center c‖) (hlg : ‖F.log (-F.csub f.center c)‖ ≤ 2 ^ g) (ht : t ≤ 190)
    (hP : (p + 1) * (t + 2) ≤ P) (hB : a + 2 * P + 3 * p + g + 3 ≤ B) (hB' : B ≤ 930) :
    Sim (RA1 (p + 1) B) (Fl.m2l F bt p c f) (m2l log bt p c e) := by
  have z1 := (zdiff_fin hF h.mod hc).1
  have hz := zdiff_RC hF h.mod hc hz
  have hp50 : p + 1 ≤ 2 ^ 50 := le_trans (by omega : _ ≤ 930) (by norm_num)
  unfold Fl.m2l m2l
  rw [h.center]
  dsimp only
  refine Sim.ite_err fun hne => ?_
  have hlz : RC 1 g (log (cneg (zdiff f.center c))) (F.log (-F.csub f.center c)) := by
    rw [z1, cneg_fin, hlog _ (neg_ne_zero.mpr hne)]
    exact .of_norm (by simpa using hlg)
  have hi1 : RC 1 (t + 1) _ _ := (RC.one.div hF hL hz hz1 hρ (by omega) (by omega)).mono le_rfl (by omega)
  refine (powTable_hi hF hi1 hP (by omega)).bind fun inv inv' hi => (h.coeffs.rd 0).bind fun a0 b0 h0 => ?_
  refine Sim.bind (R := RC (p + 1) (a + P + g + 1)) ?_ fun b b' hb => ?_
  · refine loopI (R := fun i => RC (i + 1) (a + P + g + 1)) _ ((h0.mul hF hlz (by omega)).mono le_rfl (by omega)) fun i hi' v b hab => ?_
    refine (h.coeffs.rd _).bind fun x x' hx => (hi.rd _).bind fun q q' hq => Sim.ok ?_
    have h1 := RC.rsc hF (altSign_R1 (i + 1)) hx (by norm_num) (by omega)
    exact hab.add hF ((h1.mul hF hq (by omega)).mono le_rfl (by omega)) (le_trans (by omega : _ ≤ p + 1) hp50) (by omega)
  refine ((ra_zeros (m := fun _ => p + 1) (b := fun _ => B) _).wrc 0 (hb.mono le_rfl (by omega))).bind fun cc cc' hcc => ?_
  refine Sim.loop _ hcc fun i hi' cc cc' hcc => ?_
  refine Sim.bind (R := RC (p - 1 + 1) (a + P + 2 * p + 1)) ?_ fun b b' hb => (hi.rd _).bind fun q q' hq => hcc.wrc _ ?_
  · refine loopI (R := fun i' => RC (i' + 1) (a + P + 2 * p + 1)) _ ((h0.neg.cdr hF (by push_cast; linarith [Nat.cast_nonneg (α := ℝ) i]) (by norm_num) (by omega)).mono le_rfl (by omega))
      fun i' hi'' v b hab => ?_
    refine (h.coeffs.rd _).bind fun x x' hx => (hi.rd _).bind fun q q' hq => (sim_get _ _ _).bind fun bn bn' hbn => Sim.ok ?_
    obtain ⟨rfl, hg⟩ := hbn
    have hbb := get_le hbt (by omega) (by omega) hg
    have h1 : R1 1 (2 * p) (rnd64 bn') (F.rnd bn') := by
      rw [hF.rnd]
      refine rnd_R1 (by norm_num) (by omega) (hbb.trans ?_)
      rw [Nat.cast_one, one_mul]
      exact pow_le_pow_right₀ (by norm_num) (by omega)
    have h2 := RC.rsc hF (altSign_R1 (i' + 1)) hx (by norm_num) (by omega)
    have h3 := RC.rsc hF h1 (h2.mul hF hq (by omega)) (by norm_num) (by omega)
    exact hab.add hF (h3.mono le_rfl (by omega)) (le_trans (by omega : _ ≤ p + 1) hp50) (by omega)
  · have h1 : p - 1 + 1 ≤ 2 ^ p := le_trans (by omega : _ ≤ p) (Nat.lt_two_pow_self).le
    exact ((hb.lift h1).mul hF hq (by omega)).mono (by omega) (by omega)

theorem leOfMe_hi {bt : BinomialTable} (hbt : bt.Good) {c : Vec 2} (hc : Mod c) {e : ExpD} {f : Exp2} (h : EHi 1 a e f) (hpm : f.order ≤ bt.maxOrder)
    (hz : ‖F.csub f.center (toC c)‖ ≤ 2 ^ t) (hz1 : 1 ≤ ‖F.csub f.center (toC c)‖ * 2 ^ t) (hρ : ρ ≤ ‖F.csub f.center (toC c)‖)
    (hlg : ‖F.log (-F.csub f.center (toC c))‖ ≤ 2 ^ g) (ht : t ≤ 190)
    (hP : (f.order + 1) * (t + 2) ≤ P) (hB : a + 2 * P + 3 * f.order + g + 3 ≤ B) (hB' : B ≤ 930) :
    Sim (fun r s => THi (f.order + 1) B r s ∧ s.1 = bt) (Fl.leOfMe F bt c f) (leOfMe log bt c e) := by
  unfold Fl.leOfMe leOfMe
  rw [h.order]
  refine (new_hi (m := 0) (B := B) hc _).bind ?_
  rintro ⟨bt1, f1⟩ ⟨bt2, e1⟩ ⟨⟨t1, t2⟩, t3, t4⟩
  dsimp only at t1 t2 t3 t4 ⊢
  subst t1
  have ebt : bt2 = bt := by
    unfold Exp2.new at t3
    rw [if_neg (by omega), ok_bind] at t3
    injection t3 with t3
    injection t3 with t3 _
    exact t3.symm
  subst ebt
  by_cases h0 : f.order > 0
  · have eo : f1.order = f.order := by rw [t4]
    have ec : f1.center = toC c := by rw [t4]
    rw [if_pos h0, if_pos h0, t2.center, t2.order, eo]
    refine (m2l_hi hF hL hlog hbt hpm t2.mod h (by rw [ec]; exact hz) (by rw [ec]; exact hz1) (by rw [ec]; exact hρ) (by rw [ec]; exact hlg) ht hP hB hB').bind fun a b hab =>
      Sim.ok ⟨⟨rfl, eo.symm ▸ rfl, rfl, hab, t2.mod⟩, rfl⟩
  · rw [if_neg h0]; exact Sim.err

theorem leOfMes_hi {bt : BinomialTable} (hbt : bt.Good) (hpm : p ≤ bt.maxOrder) {c : Vec 2} (hc : Mod c) {es : List ExpD} {fs : List Exp2} (h : List.Forall₂ (EHi 1 a) es fs)
    (hf : ∀ f ∈ fs, f.order = p ∧ ‖F.csub f.center (toC c)‖ ≤ 2 ^ t ∧ 1 ≤ ‖F.csub f.center (toC c)‖ * 2 ^ t ∧ ρ ≤ ‖F.csub f.center (toC c)‖ ∧
      ‖F.log (-F.csub f.center (toC c))‖ ≤ 2 ^ g) (ht : t ≤ 190)
    (hP : (p + 1) * (t + 2) ≤ P) (hB : a + 2 * P + 3 * p + g + 3 ≤ B) (hB' : B ≤ 930) (hN : fs.length * (p + 1) ≤ 2 ^ 50) :
    Sim (THi (fs.length * (p + 1)) B) (Fl.leOfMes F bt c fs) (leOfMes log bt c es) := by
  cases h with
  | nil => exact Sim.err
  | @cons e0 f0 es0 fs0 h1 hl =>
    have hl := List.Forall₂.cons h1 hl
    have hf0 := hf f0 (by simp)
    unfold Fl.leOfMes leOfMes
    dsimp only
    rw [h1.order, hf0.1]
    refine (new_hi (m := 0) (B := B) hc _).bind ?_
    rintro ⟨bt1, f⟩ ⟨bt2, e⟩ ⟨⟨t1, t2⟩, t3, t4⟩
    dsimp only at t1 t2 t3 t4 ⊢
    subst t1
    have ebt : bt2 = bt := by
      unfold Exp2.new at t3
      rw [if_neg (by omega), ok_bind] at t3
      injection t3 with t3
      injection t3 with t3 _
      exact t3.symm
    subst ebt
    have hl' : List.Forall₂ (fun e' f' => EHi 1 a e' f' ∧ f' ∈ f0 :: fs0) (e0 :: es0) (f0 :: fs0) := by
      rw [List.forall₂_iff_get] at hl ⊢
      exact ⟨hl.1, fun i h1 h2 => ⟨hl.2 i h1 h2, List.get_mem _ _⟩⟩
    have key := foldI (R := fun n (r : BinomialTable × ExpD) (s : BinomialTable × Exp2) => THi (n * (p + 1)) B r s ∧ s.1 = bt2)
      (f := fun (s : BinomialTable × Exp2) me => do
        let (bt, le) ← Fl.leOfMe F s.1 c me
        let e ← Fl.addEq F s.2 le
        .ok (bt, e))
      (g := fun (s : BinomialTable × ExpD) me => do
        let (bt, le) ← leOfMe log s.1 c me
        let e ← addEq s.2 le
        .ok (bt, e)) hl' 0 (fun n hn f' e' r s hfe hab => ?_) (a := (bt2, f)) (b := (bt2, e)) ⟨⟨rfl, by rw [Nat.zero_mul]; exact t2⟩, rfl⟩
    · refine key.mono fun b a hab => ?_
      rw [Nat.zero_add] at hab
      exact hab.1
    · obtain ⟨g1, g2, g3, g4, g5⟩ := hf f' hfe.2
      have hs2 : r.1 = bt2 := hab.2
      rw [hab.1.1, hs2]
      refine (leOfMe_hi hF hL hlog hbt hc hfe.1 (by rw [g1]; exact hpm) g2 g3 g4 g5 ht (P := P) (by rw [g1]; exact hP) (by rw [g1]; exact hB) hB').bind ?_
      rintro ⟨bt, f⟩ ⟨bt', e⟩ ⟨⟨u1, u2⟩, u3⟩
      dsimp only at u1 u2 u3 ⊢
      subst u1
      rw [g1] at u2
      have hle : n * (p + 1) + (p + 1) ≤ 2 ^ 50 := by
        refine le_trans ?_ hN
        rw [← succ_step]
        exact Nat.mul_le_mul_right _ (by omega)
      have := addEq_hi hF hab.1.2 u2 hle (by omega)
      rw [← succ_step] at this
      exact this.bind fun x x' hx => Sim.ok ⟨⟨rfl, hx⟩, u3⟩

end
end FMM.D2.Hi
