import Verif.PropsMomentum
import Verif.PropsLibrary
import Verif.PropsFltBalanced
import Verif.PropsFltForceTree3

/-!
# Property C92: energies and forces of all particles through the trees, in floating-point arithmetic
-/

namespace FMM
variable {d : ℕ}

/-! ## The loops -/

/-- `evaluateParticlePotentialEnergies` (abstract_fmm_tree.hpp:62-74) with a rounded product; `eval`: the evaluation of the potential. -/
noncomputable def flEnergies (F : Flt) (eval : Vec d → Outcome ℝ) (S : List (Source d)) (order : List ℕ) : Outcome (Arr ℝ) :=
  particleLoop (fun q v => F.rnd (q * v)) eval S order

/-- `evaluateParticleForces` (abstract_fmm_tree.hpp:76-89) with rounded products. -/
noncomputable def flForces (F : Flt) (eval : Vec d → Outcome (Vec d)) (S : List (Source d)) (order : List ℕ) : Outcome (Arr (Vec d)) :=
  particleLoop (fun q v => F.vscale v q) eval S order

/-- The energies are those of the direct sum, if the error of the potential at `x` is at most `B x`. -/
def EnergiesWithin (u : ℝ) (grav : Bool) (S : List (Source d)) (B : Vec d → ℝ) (res : Arr ℝ) : Prop :=
  res.size = S.length ∧ ∀ i (hi : i < S.length), |res.val i - S[i].q * directPotential grav S S[i].pos|
    ≤ |S[i].q| * ((1 + u) * B S[i].pos + u * |directPotential grav S S[i].pos|)

/-- The forces are those of the direct sum, if the error of component `k` of the field at `x` is at most `B x k`. -/
def ForcesWithin (u : ℝ) (grav : Bool) (feps : ℝ) (S : List (Source d)) (B : Vec d → Fin d → ℝ) (res : Arr (Vec d)) : Prop :=
  res.size = S.length ∧ ∀ i (hi : i < S.length), ∀ k, |res.val i k - S[i].q * directField grav S S[i].pos feps k|
    ≤ |S[i].q| * ((1 + u) * B S[i].pos k + u * |directField grav S S[i].pos feps k|)

theorem round_mul {rnd : ℝ → ℝ} {u : ℝ} (hu : 0 ≤ u) (H : ∀ x, |rnd x - x| ≤ u * |x|) {q v D B : ℝ} (hv : |v - D| ≤ B) :
    |rnd (q * v) - q * D| ≤ |q| * ((1 + u) * B + u * |D|) := by
  have h1 := H (q * v)
  have h2 : |q * v - q * D| ≤ |q| * B := by
    rw [← mul_sub, abs_mul]; exact mul_le_mul_of_nonneg_left hv (abs_nonneg _)
  have h3 : |v| ≤ |D| + B := by
    have := abs_sub_abs_le_abs_sub v D
    linarith
  have h4 : u * |q * v| ≤ u * (|q| * (|D| + B)) := by
    rw [abs_mul]
    exact mul_le_mul_of_nonneg_left (mul_le_mul_of_nonneg_left h3 (abs_nonneg _)) hu
  have h5 := abs_sub_le (rnd (q * v)) (q * v) (q * D)
  calc |rnd (q * v) - q * D| ≤ u * (|q| * (|D| + B)) + |q| * B := by linarith
    _ = _ := by ring

theorem flEnergies_ok {F : Flt} {u : ℝ} (hF : F.Ok u) {grav : Bool} {S : List (Source d)} {eval : Vec d → Outcome ℝ} {B : Vec d → ℝ}
    (hv : ∀ s ∈ S, ∃ v, eval s.pos = .ok v ∧ |v - directPotential grav S s.pos| ≤ B s.pos) {order : List ℕ}
    (ho : order.Perm (List.range S.length)) : ∃ res, flEnergies F eval S order = .ok res ∧ EnergiesWithin u grav S B res := by
  have hv' : ∀ i, ∃ v, ∀ hi : i < S.length, eval S[i].pos = .ok v ∧ |v - directPotential grav S S[i].pos| ≤ B S[i].pos := by
    intro i
    by_cases hi : i < S.length
    · obtain ⟨v, h1, h2⟩ := hv S[i] (List.getElem_mem hi)
      exact ⟨v, fun _ => ⟨h1, h2⟩⟩
    · exact ⟨0, fun h => absurd h hi⟩
  choose val hval using hv'
  obtain ⟨res, h1, h2, h3⟩ := C37_tree_particles (fun q v => F.rnd (q * v)) eval S val (fun i hi => (hval i hi).1) order ho
  refine ⟨res, h1, h2, fun i hi => ?_⟩
  rw [h3 i hi]
  exact round_mul hF.nonneg hF.rnd (hval i hi).2

theorem flForces_ok {F : Flt} {u : ℝ} (hF : F.Ok u) {grav : Bool} {feps : ℝ} {S : List (Source d)} {eval : Vec d → Outcome (Vec d)}
    {B : Vec d → Fin d → ℝ} (hv : ∀ s ∈ S, ∃ v, eval s.pos = .ok v ∧ ∀ k, |v k - directField grav S s.pos feps k| ≤ B s.pos k) {order : List ℕ}
    (ho : order.Perm (List.range S.length)) : ∃ res, flForces F eval S order = .ok res ∧ ForcesWithin u grav feps S B res := by
  have hv' : ∀ i, ∃ v, ∀ hi : i < S.length, eval S[i].pos = .ok v ∧ ∀ k, |v k - directField grav S S[i].pos feps k| ≤ B S[i].pos k := by
    intro i
    by_cases hi : i < S.length
    · obtain ⟨v, h1, h2⟩ := hv S[i] (List.getElem_mem hi)
      exact ⟨v, fun _ => ⟨h1, h2⟩⟩
    · exact ⟨0, fun h => absurd h hi⟩
  choose val hval using hv'
  obtain ⟨res, h1, h2, h3⟩ := C37_tree_particles (fun q v => F.vscale v q) eval S val (fun i hi => (hval i hi).1) order ho
  refine ⟨res, h1, h2, fun i hi k => ?_⟩
  rw [h3 i hi]
  simp only [Flt.vscale]
  rw [mul_comm (val i k)]
  exact round_mul hF.nonneg hF.rnd ((hval i hi).2 k)

/-- If an evaluation is not finite, and no evaluation ends otherwise badly, the loop has a non-finite result. -/
theorem particleLoop_fails {V W : Type} [Zero W] (smul : ℝ → V → W) (eval : Vec d → Outcome V) {S : List (Source d)} {e : Err}
    (h : ∀ s ∈ S, (∃ v, eval s.pos = .ok v) ∨ eval s.pos = .error e) (hs : ∃ s ∈ S, eval s.pos = .error e) {order : List ℕ}
    (ho : order.Perm (List.range S.length)) : particleLoop smul eval S order = .error e := by
  obtain ⟨s, hs, he⟩ := hs
  obtain ⟨k, hk, rfl⟩ := List.getElem_of_mem hs
  have get : ∀ i (hi : i < S.length), vecGet S i = .ok S[i] := fun i hi => by
    unfold vecGet; rw [List.getElem?_eq_getElem hi]
  unfold particleLoop
  refine Glue.foldlM_error order _ _ e k (ho.mem_iff.mpr (by simpa using hk)) (fun r => r.size = S.length) rfl ?_ ?_
  · intro i hi t ht
    have hi' : i < S.length := by simpa using ho.mem_iff.mp hi
    rcases h S[i] (List.getElem_mem hi') with ⟨v, hv⟩ | hv
    · left
      refine ⟨⟨t.size, Function.update t.val i (smul S[i].q v)⟩, ?_, ht⟩
      rw [get i hi', ok_bind, hv, ok_bind, if_pos (by omega)]
    · right
      rw [get i hi', ok_bind, hv, err_bind]
  · intro t ht
    rw [get k hk, ok_bind, he, err_bind]

/-- **C92** Newton's third law for the computed forces, up to the errors of the single forces. -/
theorem C92_total_force {u : ℝ} {grav : Bool} {feps : ℝ} {S : List (Source d)} {B : Vec d → Fin d → ℝ} {res : Arr (Vec d)}
    (h : ForcesWithin u grav feps S B res) (k : Fin d) : |totalForce S.length res.val k|
      ≤ ∑ i : Fin S.length, |S[i].q| * ((1 + u) * B S[i].pos k + u * |directField grav S S[i].pos feps k|) := by
  have := totalForce_le (S := S) (grav := grav) (eps := feps) (f := res.val)
    (e := fun i => |(srcAt S i).q| * ((1 + u) * B (srcAt S i).pos k + u * |directField grav S (srcAt S i).pos feps k|)) k
    fun i hi => by rw [srcAt_lt hi]; exact h.2 i hi k
  refine this.trans (le_of_eq ?_)
  rw [Finset.sum_range]
  exact Finset.sum_congr rfl fun i _ => by rw [srcAt_lt i.isLt]; rfl

/-- The look-up of the point in the adaptive tree finds a leaf. -/
def Found {K : Kit d} (rnd : ℝ → ℝ) (f : ℕ) (T : AdaptiveFmm K) (x : Vec d) : Prop :=
  ∃ l, Rounded.getContainingLeaf rnd f T.heap x = .ok (some l)

theorem found_iff {K : Kit d} {rnd : ℝ → ℝ} {f : ℕ} {T : AdaptiveFmm K} {x : Vec d} {lf : Option Path}
    (h : Rounded.getContainingLeaf rnd f T.heap x = .ok lf) : Found rnd f T x ↔ lf ≠ none := by
  unfold Found
  rw [h, Option.ne_none_iff_exists']
  exact ⟨fun ⟨l, hl⟩ => ⟨l, by cases hl; rfl⟩, fun ⟨l, hl⟩ => ⟨l, by rw [hl]⟩⟩

/-- The heap of a constructed tree is that of the construction of the lists. -/
theorem builtHeap {K : Kit d} {rnd rlog : ℝ → ℝ} {nrm : Vec d → ℝ} {fuel max h : ℕ} {sch : ℕ → List Path → List Path} {t : K.T}
    {S : List (Source d)} {eps : ℝ} {T : AdaptiveFmm K} (hT : Rounded.adaptiveFmm rnd rlog nrm K fuel sch t S max eps = .ok T)
    {r : Rounded.RBox ℝ d} (hbox : Rounded.sourceBox rnd S = some r) {st : BuildState d (Source d)} {nb : Nbh}
    (hb : Rounded.adaptiveLists rnd nrm fuel Source.pos r S max = .ok (st, h, nb)) : T.heap = st.heap := by
  unfold Rounded.adaptiveFmm at hT
  obtain ⟨T0, h0, hT⟩ := Rounded.bind_inv' hT
  have e : T0.heap = st.heap := by
    unfold Rounded.adaptiveInit at h0
    obtain ⟨o, -, h0⟩ := Rounded.bind_inv' h0
    rw [hbox] at h0
    simp only at h0
    rw [hb, ok_bind] at h0
    simp only at h0
    obtain ⟨s, -, h0⟩ := Rounded.bind_inv' h0
    cases h0; rfl
  by_cases c1 : S.length ≤ max
  · rw [if_pos c1] at hT
    cases hT; exact e
  · rw [if_neg c1] at hT
    by_cases c2 : T0.height ≠ T0.nodes.length ∨ T0.height + 1 ≠ T0.leaves.length
    · rw [if_pos c2] at hT; cases hT
    · rw [if_neg c2] at hT
      obtain ⟨up, -, hT⟩ := Rounded.bind_inv' hT
      obtain ⟨down, -, hT⟩ := Rounded.bind_inv' hT
      obtain ⟨s, -, hT⟩ := Rounded.bind_inv' hT
      cases hT; exact e

/-- **C92** In a constructed adaptive tree of height `h` the look-up finds a leaf for every point of the root box that is not
within rounding errors of a plane between boxes of depth `h`. -/
theorem C92_found {K : Kit d} {rnd rlog : ℝ → ℝ} {nrm : Vec d → ℝ} {u C : ℝ} (H : ∀ x, |rnd x - x| ≤ u * |x|) (hu : 0 ≤ u)
    {fuel max h : ℕ} {sch : ℕ → List Path → List Path} {t : K.T} {S : List (Source d)} {eps : ℝ} {T : AdaptiveFmm K}
    (hT : Rounded.adaptiveFmm rnd rlog nrm K fuel sch t S max eps = .ok T)
    {r : Rounded.RBox ℝ d} (hL : 0 < r.len) (hC0 : 0 ≤ C) (hC : ∀ i, |r.center i| ≤ C) (hnrm : ∀ v, 999 / 1000 * Vec.norm v ≤ nrm v)
    (hbox : Rounded.sourceBox rnd S = some r) {st : BuildState d (Source d)} {nb : Nbh}
    (hb : Rounded.adaptiveLists rnd nrm fuel Source.pos r S max = .ok (st, h, nb))
    (hk : 100 * ((8 * h + 15) * (u * (4 * (C + r.len)))) < r.len / 2 ^ (h + 1)) {x : Vec d} (hx : r.exact.contains x)
    (haway : ∀ i, ∀ m : ℕ, (4 * h + 5) * (u * (4 * (C + r.len))) < |x i - (r.exact.lower i + m * (r.len / 2 ^ h))|) :
    ∀ f > h, Found rnd f T x := by
  intro f hf
  unfold Found
  rw [builtHeap hT hbox hb]
  obtain ⟨stE, fuel', n, hE, hst, hn⟩ := Rounded.lists_inv H hu hL hC0 hC hnrm hb hk
  obtain ⟨-, q1, q2, q3⟩ := lists_result (Or.inl hL) hE
  have hh : st.heap = Rounded.liftH (Rounded.bxR rnd r) stE.heap := by rw [hst]; rfl
  obtain ⟨k, k1, k2, k3, k4⟩ := Fl.lookup (rnd := rnd) (it := itemsAt (fun s => Rounded.shadow rnd r n s.pos) r.exact S) hL
    (T := fmmTree (fun s => Rounded.shadow rnd r n s.pos) r.exact S max) rfl (fun π hπ => Nat.le_of_lt_succ (q2 π hπ)) x
  rw [hh, q1, k4 f hf]
  have hnn : 0 ≤ (8 * (h : ℝ) + 15) * (u * (4 * (C + r.len))) := by positivity
  rw [if_pos (Rounded.route_contains (Rounded.ctx_of H hu hL hC0 hC (k := h) (by linarith)) x (fun i => ?_) (fun i m => ?_) k k1)]
  · exact ⟨_, rfl⟩
  · have := (Box.contains_iff r.exact x).mp hx i
    simp only [Rounded.RBox.exact] at this
    rw [abs_le]
    constructor <;> linarith [this.1, this.2]
  · have := haway i m
    rwa [Box.lower_apply] at this

/-! ## Two dimensions -/

namespace Fl
variable {F : Flt} {u : ℝ} (hF : F.Ok u)
include hF

theorem vsub_self (x : Vec d) : F.vsub x x = 0 := by
  funext i
  have := hF.rnd (x i - x i)
  simp only [sub_self, abs_zero, mul_zero, sub_zero] at this
  simp only [Flt.vsub, sub_self, Pi.zero_apply]
  exact abs_nonpos_iff.mp this

theorem potential_self (grav : Bool) (s : Source 2) : potential F grav false s s.pos = .error .nonFinite := by
  have h1 : F.nrm (0 : Vec 2) = 0 := by
    have := hF.nrm 0
    rw [(Vec.norm_eq_zero_iff (0 : Vec 2)).mpr rfl, mul_zero, sub_zero] at this
    exact abs_nonpos_iff.mp this
  unfold potential
  simp only [vsub_self hF, h1]
  simp

theorem normSq_self (x : Vec 2) : F.normSq (F.vsub x x) = 0 := by
  have h1 := (normSq_ap hF x x).1
  rw [(dist2_eq_zero_iff x x).mpr rfl] at h1
  simpa using h1

theorem rnd_zero : F.rnd 0 = 0 := by simpa using hF.rnd 0

theorem rnd_pos {x : ℝ} (hx : 0 < x) : F.rnd x ≠ 0 := by
  intro h
  have := hF.rnd x
  have := hF.small
  rw [h, zero_sub, abs_neg, abs_of_pos hx] at *
  nlinarith

theorem forcefield_self (grav : Bool) (s : Source 2) : forcefield F grav false s s.pos 0 = .error .nonFinite := by
  unfold forcefield
  simp only [normSq_self hF, add_zero, rnd_zero hF]
  simp

theorem potentialSum_fails (grav : Bool) (S : List (Source 2)) {s : Source 2} (hs : s ∈ S) :
    potentialSum F grav false S s.pos = .error .nonFinite := by
  refine foldlM_error _ _ _ _ (fun a _ t => ?_) s hs fun t => by rw [potential_self hF, err_bind]
  by_cases h : a.pos = s.pos
  · right; rw [← h, potential_self hF, err_bind]
  · left
    obtain ⟨v, hv, -⟩ := potential_ne hF grav false a s.pos h
    exact ⟨_, by rw [hv, ok_bind]⟩

theorem forcefieldSum_fails (grav : Bool) (S : List (Source 2)) {s : Source 2} (hs : s ∈ S) :
    forcefieldSum F grav false S s.pos 0 = .error .nonFinite := by
  refine foldlM_error _ _ _ _ (fun a _ t => ?_) s hs fun t => by rw [forcefield_self hF, err_bind]
  by_cases h : a.pos = s.pos
  · right; rw [← h, forcefield_self hF, err_bind]
  · left
    obtain ⟨v, hv, -⟩ := forcefield_ne hF grav false a s.pos 0 le_rfl h
    exact ⟨_, by rw [hv, ok_bind]⟩

/-- With smoothing a source at the point itself contributes nothing, guard or no guard. -/
theorem forcefield_soft (grav : Bool) (s : Source 2) (x : Vec 2) (eps : ℝ) (he : 0 < eps) :
    ∃ v, forcefield F grav false s x eps = .ok v ∧
      Ap u 13 (absFieldTerm x eps s) (toC v) (toC (directFieldTerm grav x eps s)) := by
  by_cases h : s.pos = x
  · refine ⟨Vec.fill 0, ?_, ?_⟩
    · unfold forcefield
      rw [h]
      simp only [normSq_self hF, zero_add]
      rw [if_neg (by simp), if_neg (rnd_pos hF he), vsub_self hF]
      have e : F.vscale (0 : Vec 2) (F.rnd (s.q / F.rnd eps)) = 0 := by
        funext i; simp [Flt.vscale, rnd_zero hF]
      rw [e]
      cases grav
      · congr 1; funext i; simp [Vec.neg, Vec.scale, Vec.fill]
      · rfl
    · unfold directFieldTerm absFieldTerm
      rw [if_pos h, if_pos h]
      exact Ap.zero le_rfl hF.nonneg
  · exact forcefield_ne hF grav false s x eps he.le h

theorem forcefieldSum_soft (grav : Bool) (S : List (Source 2)) (x : Vec 2) (eps : ℝ) (he : 0 < eps) :
    ∃ v, forcefieldSum F grav false S x eps = .ok v ∧
      Ap u (S.length + 13) (absField S x eps) (toC v) (toC (directField grav S x eps)) := by
  obtain ⟨v, hv, hv'⟩ := foldC_ap hF (fun s => forcefield F grav false s x eps) (directFieldTerm grav x eps)
    (absFieldTerm x eps) 13 S (fun s _ => forcefield_soft hF grav s x eps he) 13 le_rfl 0 (Vec.fill 0) 0
    (Ap.zero le_rfl hF.nonneg)
  refine ⟨v, hv, ?_⟩
  rw [zero_add, zero_add, add_comm 13] at hv'
  exact hv'

end Fl

section two
variable {F : Flt} {u C : ℝ} {r : Rounded.RBox ℝ 2} {S : List (Source 2)} {max fuel h p m perCell : ℕ}

/-- **C92** The adaptive tree of C77, current sources `S`, every execution order of the loop.  If the look-up finds a leaf for
every source, the energies and forces of all particles are within the error bounds of C77.  If it fails for a source, the
energies, and the forces without smoothing, are not finite; the forces with smoothing are still within the bounds. -/
theorem C92_adaptive_2d (hF : F.Ok u) {t : BinomialTable} (ht : Reachable t) (hL : 0 < r.len) (hC : ∀ i, |r.center i| ≤ C) {eps : ℝ}
    (hord : Rounded.expansionOrder F.rnd F.rlog (Rounded.totalStrength F.rnd S) eps = .ok p) (hp0 : 0 < p) (hp : p ≤ 1029)
    (hbox : Rounded.sourceBox F.rnd S = some r) (hin : ∀ s ∈ S, r.exact.contains s.pos) {st : BuildState 2 (Source 2)} {nb : Nbh}
    (hb : Rounded.adaptiveLists F.rnd F.nrm fuel Source.pos r S max = .ok (st, h, nb))
    (hk : 100 * ((8 * h + 15) * (u * (4 * (C + r.len)))) < r.len / 2 ^ (h + 1)) (hm : Fl.ListsLe st.heap nb m) :
    ∃ T, BuiltBy F fuel t S max eps T ∧ T.order = p ∧ T.height = h ∧
      ∀ f > h, ∀ grav order, order.Perm (List.range S.length) →
        ((∀ s ∈ S, Found F.rnd f T s.pos) → ∃ res, flEnergies F (flPotential F f grav T S) S order = .ok res ∧
          EnergiesWithin u grav S (potError u r.len S p h m) res) ∧
        ((∃ s ∈ S, ¬ Found F.rnd f T s.pos) → flEnergies F (flPotential F f grav T S) S order = .error .nonFinite ∧
          flForces F (flForce F 0 f grav T S) S order = .error .nonFinite) ∧
        ∀ feps, 0 ≤ feps → ((∀ s ∈ S, Found F.rnd f T s.pos) ∨ 0 < feps) →
          ∃ res, flForces F (flForce F feps f grav T S) S order = .ok res ∧
            ForcesWithin u grav feps S (fun x _ => forceError u (r.len / 2 ^ h) S p h m feps x) res := by
  obtain ⟨T, h1, h2, h3, h4⟩ := C77_adaptive hF ht hL hC hord hp0 hp hbox hin hb hk hm
  refine ⟨T, h1, h2, h3, fun f hf grav order ho => ⟨fun hfound => ?_, fun hfound => ?_, fun feps hfe hfound => ?_⟩⟩
  · refine flEnergies_ok hF (fun s hs => ?_) ho
    obtain ⟨lf, g1, g2⟩ := h4 s.pos
    exact ((g2 f hf grav S).1 ((found_iff (g1 f hf)).mp (hfound s hs))).1
  · obtain ⟨s, hs, hn⟩ := hfound
    constructor
    · refine particleLoop_fails _ _ (fun a ha => ?_) ⟨s, hs, ?_⟩ ho
      · obtain ⟨lf, g1, g2⟩ := h4 a.pos
        by_cases hl : lf = none
        · right; rw [((g2 f hf grav S).2 hl).1]; exact Fl.potentialSum_fails hF grav S ha
        · left
          obtain ⟨v, hv, -⟩ := ((g2 f hf grav S).1 hl).1
          exact ⟨v, hv⟩
      · obtain ⟨lf, g1, g2⟩ := h4 s.pos
        have hl : lf = none := by_contra fun hl => hn ((found_iff (g1 f hf)).mpr hl)
        rw [((g2 f hf grav S).2 hl).1]; exact Fl.potentialSum_fails hF grav S hs
    · refine particleLoop_fails _ _ (fun a ha => ?_) ⟨s, hs, ?_⟩ ho
      · obtain ⟨lf, g1, g2⟩ := h4 a.pos
        by_cases hl : lf = none
        · right; rw [((g2 f hf grav S).2 hl).2]; exact Fl.forcefieldSum_fails hF grav S ha
        · left
          obtain ⟨v, hv, -⟩ := ((g2 f hf grav S).1 hl).2 0 le_rfl
          exact ⟨v, hv⟩
      · obtain ⟨lf, g1, g2⟩ := h4 s.pos
        have hl : lf = none := by_contra fun hl => hn ((found_iff (g1 f hf)).mpr hl)
        rw [((g2 f hf grav S).2 hl).2]; exact Fl.forcefieldSum_fails hF grav S hs
  · refine flForces_ok hF (fun s hs => ?_) ho
    obtain ⟨lf, g1, g2⟩ := h4 s.pos
    by_cases hl : lf = none
    · rcases hfound with hfound | hfound
      · exact absurd hl ((found_iff (g1 f hf)).mp (hfound s hs))
      · rw [((g2 f hf grav S).2 hl).2]
        obtain ⟨v, hv, hv'⟩ := Fl.forcefieldSum_soft hF grav S s.pos feps hfound
        refine ⟨v, hv, fun k => (abs_le_dist2 _ _ k).trans ?_⟩
        have h5 := hv'.1
        rw [norm_toC_sub] at h5
        exact h5.trans (direct_le_forceError hF.nonneg (by positivity) _ hfe)
    · obtain ⟨v, hv, hv'⟩ := ((g2 f hf grav S).1 hl).2 feps hfe
      exact ⟨v, hv, fun k => (abs_le_dist2 _ _ k).trans hv'⟩

/-- **C92** Sources placed as in C77, none of them within rounding errors of a plane between boxes: the adaptive tree computes all
energies and forces, with or without smoothing. -/
theorem C92_well_placed_2d {M a : ℝ} {k : ℕ} (hF : F.Ok u) (hW : WellPlaced u S M a k) (hmax : 1 ≤ max) {t : BinomialTable}
    (ht : Reachable t) {eps : ℝ} (hord : Rounded.expansionOrder F.rnd F.rlog (Rounded.totalStrength F.rnd S) eps = .ok p)
    (hp0 : 0 < p) (hp : p ≤ 1029) :
    ∃ r h fuel T, Rounded.sourceBox F.rnd S = some r ∧ 2 * a < r.len ∧ r.len ≤ 3 * M ∧
      (∀ s ∈ S, ∀ i, |s.pos i - r.center i| < r.len / 2 - 180 * (u * M)) ∧
      h ≤ k ∧ BuiltBy F fuel t S max eps T ∧ T.order = p ∧ T.height = h ∧
      ((∀ s ∈ S, ∀ i, ∀ m : ℕ, (4 * h + 5) * (u * (20 * M)) < |s.pos i - (r.exact.lower i + m * (r.len / 2 ^ h))|) →
        ∀ f > h, ∀ grav order, order.Perm (List.range S.length) →
          (∃ res, flEnergies F (flPotential F f grav T S) S order = .ok res ∧
            EnergiesWithin u grav S (potError u r.len S p h (4 * (h * S.length) + 1)) res) ∧
          ∀ feps, 0 ≤ feps → ∃ res, flForces F (flForce F feps f grav T S) S order = .ok res ∧
            ForcesWithin u grav feps S (fun x _ => forceError u (r.len / 2 ^ h) S p h (4 * (h * S.length) + 1) feps x) res) := by
  obtain ⟨r, h0, h1, h2, h3, h4'⟩ := hW.box hF
  have h4 := hW.contains hF h4'
  obtain ⟨fuel, st, h, nb, hh, hf, hk⟩ := hW.lists hF.nrm hF h1 h2 h3 h4 hmax
  have ha := hW.pos
  have hu := hF.nonneg
  have hL : 0 < r.len := by linarith
  have hM : 0 ≤ 2 * M := by linarith
  have hu3 := Fl.small_u hL hM hF.nonneg hk
  have hn : ∀ v, 999 / 1000 * Vec.norm v ≤ F.nrm v := fun v => by
    have a := (abs_le.mp (hF.nrm v)).1
    have b : 0 ≤ Vec.norm v := Real.sqrt_nonneg _
    nlinarith
  have hm := Fl.listsLe_count (S := S) (max := max) hF.rnd hF.nonneg hL hM h3 hn (hf fuel le_rfl) hk
  obtain ⟨T, t1, t2, t3, t4⟩ := C92_adaptive_2d hF ht hL h3 hord hp0 hp h0 h4 (hf fuel le_rfl) hk hm
  refine ⟨r, h, fuel, T, h0, h1, h2, h4', hh, t1, t2, t3, fun hA f hfh grav order ho => ?_⟩
  have hfound : ∀ s ∈ S, Found F.rnd f T s.pos := fun s hs =>
    C92_found hF.rnd hu (t1 _ (fun _ l => List.Perm.refl l)) hL hM h3 hn h0 (hf fuel le_rfl) hk (h4 s hs) (fun i m => by
      refine lt_of_le_of_lt ?_ (hA s hs i m)
      exact mul_le_mul_of_nonneg_left (mul_le_mul_of_nonneg_left (by linarith) hu) (by positivity)) f hfh
  obtain ⟨e1, -, e3⟩ := t4 f hfh grav order ho
  exact ⟨e1 hfound, fun feps hfe => e3 feps hfe (Or.inl hfound)⟩

/-- Non-vacuity: four charges, one source per leaf, `double`s. -/
example : ∃ r h fuel T res frc, BuiltBy Flt.ieee fuel BinomialTable.init S4 1 2 T ∧
    flEnergies Flt.ieee (flPotential Flt.ieee (h + 1) true T S4) S4 [2, 0, 3, 1] = .ok res ∧
    EnergiesWithin (1 / 2 ^ 49) true S4 (potError (1 / 2 ^ 49) r S4 1 h (4 * (h * 4) + 1)) res ∧
    flForces Flt.ieee (flForce Flt.ieee 0 (h + 1) true T S4) S4 [2, 0, 3, 1] = .ok frc ∧
    ForcesWithin (1 / 2 ^ 49) true 0 S4 (fun x _ => forceError (1 / 2 ^ 49) (r / 2 ^ h) S4 1 h (4 * (h * 4) + 1) 0 x) frc := by
  obtain ⟨r, h, fuel, T, h0, h1, h2, h3, hh, h4, h5, h6, h7⟩ := C92_well_placed_2d (max := 1) Flt.ieee_ok S4_placed le_rfl reachable_init
    S4_order one_pos (by norm_num)
  have hs : ∀ s ∈ S4, ∀ i, |s.pos i| = 3 := by
    intro s hs i
    simp only [S4, List.mem_cons, List.not_mem_nil, or_false] at hs
    rcases hs with rfl | rfl | rfl | rfl <;> fin_cases i <;> norm_num
  have hc : ∀ i, |r.center i| ≤ 3 / 2 := fun i => by
    have c1 := abs_lt.mp (h3 ⟨![3, 3], 1⟩ (by simp [S4]) i)
    have c2 := abs_lt.mp (h3 ⟨![-3, -3], 1⟩ (by simp [S4]) i)
    have e1 : (![3, 3] : Vec 2) i = 3 := by fin_cases i <;> rfl
    have e2 : (![-3, -3] : Vec 2) i = -3 := by fin_cases i <;> rfl
    simp only [e1, e2] at c1 c2
    rw [abs_le]
    norm_num at c1 c2
    constructor <;> linarith [c1.1, c1.2, c2.1, c2.2]
  have key := h7 (by
    intro s hs' i m
    have a1 := hs s hs' i
    have a2 := h3 s hs' i
    have a3 := hc i
    rw [Box.lower_apply]
    show _ < |s.pos i - (r.center i - r.len / 2 + m * (r.len / 2 ^ h))|
    have hh' : (h : ℝ) ≤ 1 := by exact_mod_cast hh
    have b1 : (4 * (h : ℝ) + 5) * (1 / 2 ^ 49 * (20 * 3)) ≤ 180 * (1 / 2 ^ 49 * 3) := by norm_num; linarith
    refine b1.trans_lt ?_
    have b2 : 3 / 2 ≤ |s.pos i - r.center i| := by
      have := abs_sub_abs_le_abs_sub (s.pos i) (r.center i)
      linarith
    have b3 : r.len / 2 ^ h = r.len ∨ r.len / 2 ^ h = r.len / 2 := by
      rcases Nat.le_one_iff_eq_zero_or_eq_one.mp hh with e | e <;> rw [e] <;> simp
    have b4 := abs_lt.mp a2
    rcases Nat.lt_or_ge m 3 with hm | hm
    · rcases b3 with b3 | b3
      · rw [b3]
        interval_cases m
        · exact lt_of_lt_of_le (by push_cast; linarith [b4.1]) (le_abs_self _)
        · exact lt_of_lt_of_le (by push_cast; linarith [b4.2]) (neg_le_abs _)
        · exact lt_of_lt_of_le (by push_cast; linarith [b4.2]) (neg_le_abs _)
      · rw [b3]
        interval_cases m
        · exact lt_of_lt_of_le (by push_cast; linarith [b4.1]) (le_abs_self _)
        · have e : s.pos i - (r.center i - r.len / 2 + ((1 : ℕ) : ℝ) * (r.len / 2)) = s.pos i - r.center i := by push_cast; ring
          rw [e]
          exact lt_of_lt_of_le (by norm_num) b2
        · exact lt_of_lt_of_le (by push_cast; linarith [b4.2]) (neg_le_abs _)
    · have hm' : (3 : ℝ) ≤ m := by exact_mod_cast hm
      refine lt_of_lt_of_le ?_ (neg_le_abs _)
      have : 3 * (r.len / 2) ≤ m * (r.len / 2 ^ h) := by
        rcases b3 with b3 | b3 <;> rw [b3] <;> nlinarith
      linarith [b4.2])
  obtain ⟨e1, e2⟩ := key (h + 1) (by omega) true [2, 0, 3, 1] (by decide)
  obtain ⟨res, v1, v2⟩ := e1
  obtain ⟨frc, w1, w2⟩ := e2 0 le_rfl
  exact ⟨r.len, h, fuel, T, res, frc, h4, v1, v2, w1, w2⟩

/-- **C92** The balanced tree of C79: no condition, every source is found. -/
theorem C92_balanced_2d {M a : ℝ} {k : ℕ} (hF : F.Ok u) (hW : Placed u S M a k) {t : BinomialTable} (ht : Reachable t) {eps : ℝ}
    (hord : Rounded.expansionOrder F.rnd F.rlog (Rounded.totalStrength F.rnd S) eps = .ok p) (hp0 : 0 < p) (hp : p ≤ 1029)
    (hht : Rounded.balancedHeight F.rnd F.rlog 2 S.length perCell = .ok h) (hhk : h ≤ k) (h16 : h ≤ 16) :
    ∃ r T, Rounded.sourceBox F.rnd S = some r ∧ BuiltByB F t S perCell eps T ∧ T.order = p ∧ T.height = h ∧
      ∀ grav order, order.Perm (List.range S.length) →
        (∃ res, flEnergies F (flPotentialB F grav T) S order = .ok res ∧ EnergiesWithin u grav S (potError u r.len S p h 9) res) ∧
        ∀ feps, 0 ≤ feps → ∃ res, flForces F (flForceB F feps grav T) S order = .ok res ∧
          ForcesWithin u grav feps S (fun x _ => forceError u (r.len / 2 ^ h) S p h 9 feps x) res := by
  obtain ⟨r, T, h0, -, -, -, h4, h5, h6, h7⟩ := C79_placed hF hW ht hord hp0 hp hht hhk h16
  refine ⟨r, T, h0, h4, h5, h6, fun grav order ho => ⟨flEnergies_ok hF (fun s hs => ?_) ho, fun feps hfe => flForces_ok hF (fun s hs => ?_) ho⟩⟩
  · exact (h7 s.pos (Or.inl (List.mem_map_of_mem hs)) grav).1
  · obtain ⟨v, hv, hv'⟩ := (h7 s.pos (Or.inl (List.mem_map_of_mem hs)) grav).2 feps hfe
    exact ⟨v, hv, fun k => (abs_le_dist2 _ _ k).trans hv'⟩

/-- Non-vacuity: four charges, `double`s; the loops run in the order 2, 0, 3, 1. -/
example : ∃ r T res frc, BuiltByB Flt.ieee BinomialTable.init S4 1 2 T ∧
    flEnergies Flt.ieee (flPotentialB Flt.ieee true T) S4 [2, 0, 3, 1] = .ok res ∧
    EnergiesWithin (1 / 2 ^ 49) true S4 (potError (1 / 2 ^ 49) r S4 1 1 9) res ∧
    flForces Flt.ieee (flForceB Flt.ieee (1 / 100) false T) S4 [2, 0, 3, 1] = .ok frc ∧
    ForcesWithin (1 / 2 ^ 49) false (1 / 100) S4 (fun x _ => forceError (1 / 2 ^ 49) (r / 2 ^ 1) S4 1 1 9 (1 / 100) x) frc := by
  obtain ⟨r, T, h0, h4, h5, h6, h7⟩ := C92_balanced_2d (k := 1) Flt.ieee_ok S4_placed.toPlaced reachable_init S4_order
    one_pos (by norm_num) S4_height le_rfl (by norm_num)
  obtain ⟨res, v1, v2⟩ := (h7 true [2, 0, 3, 1] (by decide)).1
  obtain ⟨frc, w1, w2⟩ := (h7 false [2, 0, 3, 1] (by decide)).2 (1 / 100) (by norm_num)
  exact ⟨r.len, T, res, frc, h4, v1, v2, w1, w2⟩

end two

/-! ## Three dimensions -/

namespace Fl3
variable {F : Flt3} {u g : ℝ} (hF : F.Ok u g)
include hF

theorem potential_self (grav : Bool) (s : Source 3) : potential F grav false s s.pos = .error .nonFinite := by
  unfold potential
  simp only [dist_zero hF]
  simp

theorem forcefield_self (grav : Bool) (s : Source 3) : forcefield F grav false s s.pos 0 = .error .nonFinite := by
  unfold forcefield
  simp only [dist_zero hF, mul_zero, add_zero, Fl.rnd_zero hF.toOk]
  simp

theorem potentialSum_fails (grav : Bool) (S : List (Source 3)) {s : Source 3} (hs : s ∈ S) :
    potentialSum F grav false S s.pos = .error .nonFinite := by
  refine foldlM_error _ _ _ _ (fun a _ t => ?_) s hs fun t => by rw [potential_self hF, err_bind]
  by_cases h : a.pos = s.pos
  · right; rw [← h, potential_self hF, err_bind]
  · left
    obtain ⟨v, hv, -⟩ := potential_ne hF grav false a s.pos h
    exact ⟨_, by rw [hv, ok_bind]⟩

theorem forcefieldSum_fails (hu : u ≤ 1 / 32) (grav : Bool) (S : List (Source 3)) {s : Source 3} (hs : s ∈ S) :
    forcefieldSum F grav false S s.pos 0 = .error .nonFinite := by
  refine foldlM_error _ _ _ _ (fun a _ t => ?_) s hs fun t => by rw [forcefield_self hF, err_bind]
  by_cases h : a.pos = s.pos
  · right; rw [← h, forcefield_self hF, err_bind]
  · left
    obtain ⟨v, hv, -⟩ := forcefield_ne hF hu grav false a s.pos 0 le_rfl h
    exact ⟨_, by rw [hv, ok_bind]⟩

theorem forcefield_soft (hu : u ≤ 1 / 32) (grav : Bool) (s : Source 3) (x : Vec 3) (eps : ℝ) (he : 0 < eps) :
    ∃ v, forcefield F grav false s x eps = .ok v ∧
      ∀ j, Ap u 21 (absFieldTerm3 x eps j s) (v j) (directFieldTerm grav x eps s j) := by
  by_cases h : s.pos = x
  · refine ⟨Vec.fill 0, ?_, fun j => ?_⟩
    · unfold forcefield
      rw [h]
      simp only [dist_zero hF, mul_zero, Fl.rnd_zero hF.toOk, zero_add]
      rw [if_neg (by simp), if_neg (Fl.rnd_pos hF.toOk he), Fl.vsub_self hF.toOk]
      have e : F.vscale (0 : Vec 3) (F.rnd (s.q / F.rnd eps)) = 0 := by
        funext i; simp [Flt.vscale, Fl.rnd_zero hF.toOk]
      rw [e]
      cases grav
      · congr 1; funext i; simp [Vec.neg, Vec.scale, Vec.fill]
      · rfl
    · unfold directFieldTerm absFieldTerm3
      rw [if_pos h, if_pos h]
      exact Ap.zero le_rfl hF.nonneg
  · exact forcefield_ne hF hu grav false s x eps he.le h

theorem forcefieldSum_soft (hu : u ≤ 1 / 32) (grav : Bool) (S : List (Source 3)) (x : Vec 3) (eps : ℝ) (he : 0 < eps) :
    ∃ v, forcefieldSum F grav false S x eps = .ok v ∧
      ∀ j, Ap u (S.length + 21) (absField3 S x eps j) (v j) (directField grav S x eps j) := by
  obtain ⟨v, hv, hv'⟩ := foldV_ap hF (fun s => forcefield F grav false s x eps) (directFieldTerm grav x eps)
    (absFieldTerm3 x eps) 21 S (fun s _ => forcefield_soft hF hu grav s x eps he) 21 le_rfl (fun _ => 0) (Vec.fill 0) 0
    (fun _ => Ap.zero le_rfl hF.nonneg)
  refine ⟨v, hv, fun j => ?_⟩
  have := hv' j
  rw [zero_add, zero_add, add_comm 21] at this
  exact this

end Fl3

section three
variable {F : Flt3} {u g C s : ℝ} {r : Rounded.RBox ℝ 3} {S : List (Source 3)} {max fuel h p m perCell κ κ' : ℕ}

/-- **C92** The adaptive tree of C85 in space, energies. -/
theorem C92_adaptive_3d_energies (hF : F.Ok u g) (hκ : OpCost u g p κ) {t : Stat3} (ht : Reachable3 t) (hL : 0 < r.len)
    (hC : ∀ i, |r.center i| ≤ C) {eps : ℝ}
    (hord : Rounded.expansionOrder F.rnd F.rlog (Rounded.totalStrength F.rnd S) eps = .ok p) (hp0 : 0 < p) (hp : p ≤ 42)
    (hbox : Rounded.sourceBox F.rnd S = some r) (hin : ∀ s ∈ S, r.exact.contains s.pos) {st : BuildState 3 (Source 3)} {nb : Nbh}
    (hb : Rounded.adaptiveLists F.rnd F.nrm3 fuel Source.pos r S max = .ok (st, h, nb))
    (hk : 100 * ((8 * h + 15) * (u * (4 * (C + r.len)))) < r.len / 2 ^ (h + 1)) (hm : Fl.ListsLe st.heap nb m) :
    ∃ T, BuiltBy3 F fuel t S max eps T ∧ T.order = p ∧ T.height = h ∧
      ∀ f > h, ∀ grav order, order.Perm (List.range S.length) →
        ((∀ s ∈ S, Found F.rnd f T s.pos) → ∃ res, flEnergies F.toFlt (flPotential3 F f grav T S) S order = .ok res ∧
          EnergiesWithin u grav S (potError3 u κ (r.len / 2 ^ h) S p h m) res) ∧
        ((∃ s ∈ S, ¬ Found F.rnd f T s.pos) → flEnergies F.toFlt (flPotential3 F f grav T S) S order = .error .nonFinite) := by
  obtain ⟨T, h1, h2, h3, h4⟩ := C85_adaptive hF hκ ht hL hC hord hp0 hp hbox hin hb hk hm
  refine ⟨T, h1, h2, h3, fun f hf grav order ho => ⟨fun hfound => ?_, fun hfound => ?_⟩⟩
  · refine flEnergies_ok hF.toOk (fun s hs => ?_) ho
    obtain ⟨lf, g1, g2⟩ := h4 s.pos
    exact (g2 f hf grav S).1 ((found_iff (g1 f hf)).mp (hfound s hs))
  · obtain ⟨s, hs, hn⟩ := hfound
    refine particleLoop_fails _ _ (fun a ha => ?_) ⟨s, hs, ?_⟩ ho
    · obtain ⟨lf, g1, g2⟩ := h4 a.pos
      by_cases hl : lf = none
      · right; rw [(g2 f hf grav S).2 hl]; exact Fl3.potentialSum_fails hF grav S ha
      · left
        obtain ⟨v, hv, -⟩ := (g2 f hf grav S).1 hl
        exact ⟨v, hv⟩
    · obtain ⟨lf, g1, g2⟩ := h4 s.pos
      have hl : lf = none := by_contra fun hl => hn ((found_iff (g1 f hf)).mpr hl)
      rw [(g2 f hf grav S).2 hl]; exact Fl3.potentialSum_fails hF grav S hs

/-- **C92** The adaptive tree of C89 in space, forces: no source near the axis of a computed box. -/
theorem C92_adaptive_3d_forces (hF : F.OkD u g) (hκ : OpCost u g p κ) (ha : AngleCost u g s p κ') {t : Stat3} (ht : Reachable3 t)
    (hL : 0 < r.len) (hC : ∀ i, |r.center i| ≤ C) {eps : ℝ}
    (hord : Rounded.expansionOrder F.rnd F.rlog (Rounded.totalStrength F.rnd S) eps = .ok p) (hp0 : 0 < p) (hp : p ≤ 42)
    (hbox : Rounded.sourceBox F.rnd S = some r) (hin : ∀ s ∈ S, r.exact.contains s.pos) {st : BuildState 3 (Source 3)} {nb : Nbh}
    (hb : Rounded.adaptiveLists F.rnd F.nrm3 fuel Source.pos r S max = .ok (st, h, nb))
    (hk : 100 * ((8 * h + 15) * (u * (4 * (C + r.len)))) < r.len / 2 ^ (h + 1)) (hm : Fl.ListsLe st.heap nb m)
    (hA : ∀ a ∈ S, ∀ π : Path, π.length ≤ h → OffAxis s (Rounded.boxAt F.rnd r π).center a.pos) :
    ∃ T, BuiltBy3 F fuel t S max eps T ∧ T.order = p ∧ T.height = h ∧
      ∀ f > h, ∀ grav order, order.Perm (List.range S.length) →
        ((∃ s ∈ S, ¬ Found F.rnd f T s.pos) → flForces F.toFlt (flForce3 F 0 f grav T S) S order = .error .nonFinite) ∧
        ∀ feps, 0 ≤ feps → ((∀ s ∈ S, Found F.rnd f T s.pos) ∨ 0 < feps) →
          ∃ res, flForces F.toFlt (flForce3 F feps f grav T S) S order = .ok res ∧
            ForcesWithin u grav feps S (fun x j => forceError3 u s κ κ' (r.len / 2 ^ h) S p h m feps x j) res := by
  obtain ⟨T, h1, h2, h3, h4⟩ := C89_adaptive hF hκ ha ht hL hC hord hp0 hp hbox hin hb hk hm
  have hE := hF.toOk3
  have some' : ∀ a ∈ S, ∀ f > h, ∀ grav, ∀ feps ≥ 0, Found F.rnd f T a.pos → ∃ v, flForce3 F feps f grav T S a.pos = .ok v ∧
      ∀ j, |v j - directField grav S a.pos feps j| ≤ forceError3 u s κ κ' (r.len / 2 ^ h) S p h m feps a.pos j := by
    intro a haS f hf grav feps hfe hfound
    obtain ⟨lf, g1, g2, g3⟩ := h4 a.pos
    obtain ⟨l, hl⟩ := Option.ne_none_iff_exists'.mp ((found_iff (g1 f hf)).mp hfound)
    exact (g3 f hf grav S feps hfe).1 l hl (hA a haS l (g2 l hl).1) fun ρ hρ => hA a haS ρ ((g2 l hl).2 ρ hρ)
  have none' : ∀ a ∈ S, ∀ f > h, ∀ grav, ∀ feps ≥ 0, ¬ Found F.rnd f T a.pos →
      flForce3 F feps f grav T S a.pos = Fl3.forcefieldSum F grav false S a.pos feps := by
    intro a haS f hf grav feps hfe hfound
    obtain ⟨lf, g1, g2, g3⟩ := h4 a.pos
    exact (g3 f hf grav S feps hfe).2 (by_contra fun hl => hfound ((found_iff (g1 f hf)).mpr hl))
  refine ⟨T, h1, h2, h3, fun f hf grav order ho => ⟨fun hfound => ?_, fun feps hfe hfound => ?_⟩⟩
  · obtain ⟨b, hb', hn⟩ := hfound
    refine particleLoop_fails _ _ (fun a haS => ?_) ⟨b, hb', ?_⟩ ho
    · by_cases hl : Found F.rnd f T a.pos
      · left
        obtain ⟨v, hv, -⟩ := some' a haS f hf grav 0 le_rfl hl
        exact ⟨v, hv⟩
      · right; rw [none' a haS f hf grav 0 le_rfl hl]; exact Fl3.forcefieldSum_fails hE ha.u_le32 grav S haS
    · rw [none' b hb' f hf grav 0 le_rfl hn]; exact Fl3.forcefieldSum_fails hE ha.u_le32 grav S hb'
  · refine flForces_ok hE.toOk (fun a haS => ?_) ho
    by_cases hl : Found F.rnd f T a.pos
    · exact some' a haS f hf grav feps hfe hl
    · rw [none' a haS f hf grav feps hfe hl]
      rcases hfound with hfound | hfound
      · exact absurd (hfound a haS) hl
      · obtain ⟨v, hv, hv'⟩ := Fl3.forcefieldSum_soft hE ha.u_le32 grav S a.pos feps hfound
        exact ⟨v, hv, fun j => ((hv' j).1 : |v j - directField grav S a.pos feps j| ≤ _).trans
          (direct_le_forceError3 hF.nonneg ha.1 (by positivity) hfe _ j)⟩

/-- **C92** The balanced tree of C86 in space, energies. -/
theorem C92_balanced_3d_energies {M a : ℝ} {k : ℕ} (hF : F.Ok u g) (hκ : OpCost u g p κ) (hW : Placed u S M a k) {t : Stat3}
    (ht : Reachable3 t) {eps : ℝ} (hord : Rounded.expansionOrder F.rnd F.rlog (Rounded.totalStrength F.rnd S) eps = .ok p)
    (hp0 : 0 < p) (hp : p ≤ 42) (hht : Rounded.balancedHeight F.rnd F.rlog 3 S.length perCell = .ok h) (hhk : h ≤ k) (h10 : h ≤ 10) :
    ∃ r T, Rounded.sourceBox F.rnd S = some r ∧ BuiltByB3 F t S perCell eps T ∧ T.order = p ∧ T.height = h ∧
      ∀ grav order, order.Perm (List.range S.length) →
        ∃ res, flEnergies F.toFlt (flPotentialB3 F grav T) S order = .ok res ∧
          EnergiesWithin u grav S (potError3 u κ (r.len / 2 ^ h) S p h 27) res := by
  obtain ⟨r, T, h0, -, -, -, h4, h5, h6, h7⟩ := C86_placed hF hκ hW ht hord hp0 hp hht hhk h10
  exact ⟨r, T, h0, h4, h5, h6, fun grav order ho => flEnergies_ok hF.toOk
    (fun s hs => h7 s.pos (Or.inl (List.mem_map_of_mem hs)) grav) ho⟩

/-- **C92** The balanced tree of C90 in space, forces: no source near the axis of a computed box. -/
theorem C92_balanced_3d_forces {M a : ℝ} {k : ℕ} (hF : F.OkD u g) (hκ : OpCost u g p κ) (hc : AngleCost u g s p κ')
    (hW : Placed u S M a k) {t : Stat3} (ht : Reachable3 t)
    {eps : ℝ} (hord : Rounded.expansionOrder F.rnd F.rlog (Rounded.totalStrength F.rnd S) eps = .ok p) (hp0 : 0 < p) (hp : p ≤ 42)
    (hht : Rounded.balancedHeight F.rnd F.rlog 3 S.length perCell = .ok h) (hhk : h ≤ k) (h10 : h ≤ 10) :
    ∃ r T, Rounded.sourceBox F.rnd S = some r ∧ 2 * a < r.len ∧ r.len ≤ 3 * M ∧ (∀ s ∈ S, r.exact.contains s.pos) ∧
      BuiltByB3 F t S perCell eps T ∧ T.order = p ∧ T.height = h ∧
      ((∀ a ∈ S, ∀ π : Path, π.length = h → OffAxis s (Rounded.boxAt F.rnd r π).center a.pos) →
        ∀ grav order, order.Perm (List.range S.length) → ∀ feps, 0 ≤ feps →
          ∃ res, flForces F.toFlt (flForceB3 F feps grav T) S order = .ok res ∧
            ForcesWithin u grav feps S (fun x j => forceError3 u s κ κ' (r.len / 2 ^ h) S p h 27 feps x j) res) := by
  obtain ⟨r, T, h0, h1, h2, h3, h4, h5, h6, h7⟩ := C90_placed hF hκ hc hW ht hord hp0 hp hht hhk h10
  exact ⟨r, T, h0, h1, h2, h3, h4, h5, h6, fun hA grav order ho feps hfe => flForces_ok hF.toOk3.toOk
    (fun b hb => h7 b.pos (Or.inl (List.mem_map_of_mem hb)) (hA b hb) grav feps hfe) ho⟩

/-- Non-vacuity: eight charges, `double`s: energies in space. -/
example : ∃ r T res, BuiltByB3 Flt3.ieee (Stat3.init 0 0 0) S8 1 4 T ∧
    flEnergies Flt3.ieee.toFlt (flPotentialB3 Flt3.ieee true T) S8 [7, 2, 0, 6, 3, 1, 5, 4] = .ok res ∧
    EnergiesWithin (1 / 2 ^ 49) true S8 (potError3 (1 / 2 ^ 49) (2 ^ 37) (r / 2 ^ 1) S8 1 1 27) res := by
  obtain ⟨r, T, h0, h4, h5, h6, h7⟩ := C92_balanced_3d_energies (k := 1) Flt3.ieee_ok (double_cost (p := 1) (by norm_num))
    S8_placed.toPlaced reachable3_init S8_order one_pos (by norm_num) S8_height le_rfl (by norm_num)
  obtain ⟨res, v1, v2⟩ := h7 true [7, 2, 0, 6, 3, 1, 5, 4] (by decide)
  exact ⟨r.len, T, res, h4, v1, v2⟩

theorem rootBox_len_le {rnd : ℝ → ℝ} {P M : ℝ} [NeZero d] {ps : List (Rounded.Pt ℝ d)} (H : ∀ x, |rnd x - x| ≤ u * |x|) (hu : 0 ≤ u)
    (hu1 : u ≤ 1 / 1000) (hP : 0 ≤ P) (hP1 : P ≤ 1 / 1000) (hM0 : 0 ≤ M) (hne : ps ≠ []) (hM : ∀ s ∈ ps, ∀ i, |s i| ≤ M) :
    (Rounded.rootBox rnd P ps).len ≤ 202 / 100 * M := by
  have big : ∀ {x B : ℝ}, |x| ≤ B → |rnd x| ≤ 1001 / 1000 * B := fun {x B} hx => by
    have h1 := H x
    have h2 := abs_sub_abs_le_abs_sub (rnd x) x
    have h3 : u * |x| ≤ 1 / 1000 * |x| := mul_le_mul_of_nonneg_right hu1 (abs_nonneg _)
    linarith
  have pad : ∀ m : ℝ, |m| ≤ M → |rnd (m + rnd (m * P))| ≤ 1003 / 1000 * M := fun m hm => by
    have h1 := Rounded.padded_near H hu hu1 hP hP1 hM0 hm
    have h2 := abs_sub_abs_le_abs_sub (rnd (m + rnd (m * P))) (m * (1 + P))
    have h3 : |m * (1 + P)| ≤ 1001 / 1000 * M := by
      rw [abs_mul, abs_of_nonneg (by linarith : 0 ≤ 1 + P)]
      nlinarith [abs_nonneg m]
    have h4 : u * M ≤ 1 / 1000 * M := mul_le_mul_of_nonneg_right hu1 hM0
    linarith
  have hex : ∀ j : Fin d, |Rounded.vsub rnd (Rounded.dataRange rnd P ps).2 (Rounded.dataRange rnd P ps).1 j| ≤ 202 / 100 * M := fun j => by
    have hl : (ps.map fun s => s j) ≠ [] := by simpa using hne
    have m1 := (Rounded.extremum_min _ hl).2
    have m2 := (Rounded.extremum_max _ hl).2
    have b : ∀ m ∈ ps.map fun s => s j, |m| ≤ M := fun m hm => by
      obtain ⟨s, hs, rfl⟩ := List.mem_map.mp hm
      exact hM s hs j
    have a1 := pad _ (b _ m1)
    have a2 := pad _ (b _ m2)
    have a3 := big (B := 1003 / 1000 * M) (x := rnd (Option.getD (Rounded.extremum (fun a b => decide (a < b)) (ps.map fun s => s j)) 0
      + rnd (Option.getD (Rounded.extremum (fun a b => decide (a < b)) (ps.map fun s => s j)) 0 * P)) * (-1)) (by
        rw [abs_mul, abs_neg, abs_one, mul_one]; exact a1)
    exact (big ((abs_add_le _ _).trans (add_le_add a2 a3))).trans (by linarith)
  have hx : (List.ofFn (Rounded.vsub rnd (Rounded.dataRange rnd P ps).2 (Rounded.dataRange rnd P ps).1)) ≠ [] := by
    simp [List.ofFn_eq_nil_iff, NeZero.ne d]
  have := (Rounded.extremum_max _ hx).2
  obtain ⟨j, hj⟩ := (List.mem_ofFn' _ _).mp this
  have h2 := hex j
  rw [hj] at h2
  exact (le_abs_self _).trans h2

/-- Non-vacuity: the corners of the cube are off the axes of the boxes of depth 1. -/
example : ∃ r T res, BuiltByB3 Flt3.ieee (Stat3.init 0 0 0) S8 1 4 T ∧
    flForces Flt3.ieee.toFlt (flForceB3 Flt3.ieee 0 true T) S8 [7, 2, 0, 6, 3, 1, 5, 4] = .ok res ∧
    ForcesWithin (1 / 2 ^ 49) true 0 S8
      (fun x j => forceError3 (1 / 2 ^ 49) (1 / 2 ^ 6) (2 ^ 37) (2 ^ 17) (r / 2 ^ 1) S8 1 1 27 0 x j) res := by
  obtain ⟨r, T, h0, h1, h2, h3, h4, h5, h6, h7⟩ := C92_balanced_3d_forces (k := 1) Flt3.ieee_okD (double_cost (p := 1) (by norm_num))
    (double_angle (p := 1) (k := 6) (by norm_num) (by norm_num)) S8_placed.toPlaced reachable3_init S8_order one_pos (by norm_num)
    S8_height le_rfl (by norm_num)
  have hs : ∀ s ∈ S8, ∀ i, |s.pos i| = 3 := by
    intro s hs i
    simp only [S8, List.mem_cons, List.not_mem_nil, or_false] at hs
    rcases hs with rfl | rfl | rfl | rfl | rfl | rfl | rfl | rfl <;> fin_cases i <;> norm_num
  obtain ⟨res, v1, v2⟩ := h7 (fun a ha π hπ => by
    have hc : ∀ i, |r.center i| ≤ r.len / 2 - 3 := fun i => by
      have c1 := (Box.contains_iff _ _).mp (h3 ⟨![3, 3, 3], 1⟩ (by simp [S8])) i
      have c2 := (Box.contains_iff _ _).mp (h3 ⟨![-3, -3, -3], 1⟩ (by simp [S8])) i
      have e1 : (![3, 3, 3] : Vec 3) i = 3 := by fin_cases i <;> rfl
      have e2 : (![-3, -3, -3] : Vec 3) i = -3 := by fin_cases i <;> rfl
      simp only [e1, e2, Rounded.RBox.exact] at c1 c2
      rw [abs_le]
      constructor <;> linarith [c1.1, c1.2, c2.1, c2.2]
    have hL : 0 < r.len := by linarith
    have G := Fl3.geo_of (h := 1) (C := 2) Flt3.ieee_ok.rnd Flt3.ieee_ok.nonneg hL (by norm_num) (fun i => (hc i).trans (by linarith)) (by
      norm_num; linarith)
    have hn : ∀ j, |(Rounded.boxAt Flt3.ieee.rnd r π).center j - (boxAt r.exact π).center j| ≤ 1 / 40 := fun j => by
      refine (G.near π hπ.le j).trans ?_
      have e : r.exact.len = r.len := rfl
      rw [e]
      linarith
    obtain ⟨i, rfl⟩ : ∃ i, π = [i] := List.length_eq_one_iff.mp hπ
    have hcc : ∀ j, |(boxAt r.exact [i]).center j - r.center j| = r.len / 4 := fun j => by
      have := Fl3.child_center r.exact i [] j
      rw [List.length_nil, zero_add] at this
      have e : |Fl3.side r.exact 1 / 2| = r.len / 4 := by
        have : Fl3.side r.exact 1 / 2 = r.len / 4 := by
          show r.len / 2 ^ 1 / 2 = r.len / 4
          ring
        rw [this, abs_of_pos (by linarith)]
      rw [e] at this
      exact this
    have ht : ∀ j, |(Rounded.boxAt Flt3.ieee.rnd r [i]).center j| ≤ 3 / 4 * r.len - 3 + 1 / 40 := fun j => by
      have a1 := hn j
      have a2 := hcc j
      have a3 := hc j
      have a5 := abs_sub_le ((Rounded.boxAt Flt3.ieee.rnd r [i]).center j) ((boxAt r.exact [i]).center j) 0
      have a6 := abs_sub_le ((boxAt r.exact [i]).center j) (r.center j) 0
      rw [sub_zero, sub_zero] at a5 a6
      linarith
    have hr : r.len ≤ 606 / 100 := by
      have e : r = Rounded.rootBox Flt3.ieee.rnd (Flt3.ieee.rnd (1 / 100000)) (S8.map Source.pos) := by
        unfold Rounded.sourceBox at h0
        rw [if_neg (by simp [S8])] at h0
        exact (Option.some.inj h0).symm
      have q := Flt3.ieee_ok.rnd (1 / 100000)
      rw [abs_of_pos (by norm_num : (0 : ℝ) < 1 / 100000), abs_le] at q
      rw [e]
      refine (rootBox_len_le (M := 3) Flt3.ieee_ok.rnd Flt3.ieee_ok.nonneg (by norm_num) (by linarith [q.1]) (by linarith [q.2])
        (by norm_num) (by simp [S8]) (fun v hv i => ?_)).trans (by norm_num)
      obtain ⟨s, hs', rfl⟩ := List.mem_map.mp hv
      exact (hs s hs' i).le
    have hx := hs a ha
    refine offAxis_of (a := 1) (B := 6) (Or.inl ?_) (fun j => ?_) (by norm_num) (by norm_num) (by norm_num)
    · have := abs_sub_abs_le_abs_sub (a.pos 0) ((Rounded.boxAt Flt3.ieee.rnd r [i]).center 0)
      linarith [hx 0, ht 0]
    · have := abs_sub (a.pos j) ((Rounded.boxAt Flt3.ieee.rnd r [i]).center j)
      linarith [hx j, ht j]) true [7, 2, 0, 6, 3, 1, 5, 4] (by decide) 0 le_rfl
  exact ⟨r.len, T, res, h4, v1, v2⟩

end three
end FMM
