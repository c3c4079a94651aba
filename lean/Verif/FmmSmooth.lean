import Verif.Fmm2D
import Verif.Fmm3DForce

/-!
# Force smoothing

`force_smoothing_eps` only enters the direct part of an evaluation; the expansions approximate the field without
smoothing. The sources which are treated by expansions are at least one box side away from the evaluation point, which
bounds the difference between the fields with and without smoothing.
-/

namespace FMM
variable {d : ℕ}

theorem dist2_scale (c : ℝ) (a b : Vec d) : dist2 (fun j => c * (a j - b j)) 0 = |c| * dist2 a b := by
  unfold dist2
  rw [← Real.sqrt_sq_eq_abs, ← Real.sqrt_mul (sq_nonneg c)]
  congr 1
  rw [Finset.mul_sum]
  refine Finset.sum_congr rfl fun j _ => ?_
  rw [Pi.zero_apply, sub_zero, mul_pow]

/-- `feps / b^3` in two dimensions, `feps / b^5` otherwise. -/
noncomputable def smoothB (d : ℕ) (feps b : ℝ) : ℝ := feps / b ^ (if d = 2 then 3 else 5)

theorem smoothB_nonneg {feps b : ℝ} (hf : 0 ≤ feps) (hb : 0 < b) : 0 ≤ smoothB d feps b := by
  unfold smoothB; positivity

theorem smoothB_anti {feps a b : ℝ} (hf : 0 ≤ feps) (ha : 0 < a) (hab : a ≤ b) : smoothB d feps b ≤ smoothB d feps a := by
  unfold smoothB; gcongr

/-- Removing the smoothing from the field of a source at a distance of at least `b`. -/
theorem smooth_term {feps b : ℝ} (hf : 0 ≤ feps) (hb : 0 < b) (s : Source d) (y : Vec d) (h : b ≤ dist2 s.pos y) :
    dist2 (directFieldTerm true y 0 s - directFieldTerm true y feps s) 0 ≤ smoothB d feps b * |s.q| := by
  have hR : 0 < dist2 s.pos y := hb.trans_le h
  have hne : s.pos ≠ y := fun he => hR.ne' ((dist2_eq_zero_iff _ _).mpr he)
  set R := dist2 s.pos y with hRdef
  set D := if d = 2 then R ^ 2 else R ^ 3 with hD
  have hD0 : 0 < D := by rw [hD]; split_ifs <;> positivity
  have e1 : directFieldTerm true y 0 s - directFieldTerm true y feps s
      = fun j => (s.q / D - s.q / (D + feps)) * (s.pos j - y j) := by
    unfold directFieldTerm
    rw [if_neg hne, if_neg hne]
    funext j
    simp only [Pi.sub_apply, fieldSpec, sgn, forceDenom, if_true, one_mul, add_zero]
    ring
  rw [e1, dist2_scale, ← hRdef]
  have e2 : s.q / D - s.q / (D + feps) = s.q * (feps / (D * (D + feps))) := by
    have : D + feps ≠ 0 := by positivity
    field_simp
    ring
  rw [e2, abs_mul, abs_of_nonneg (show 0 ≤ feps / (D * (D + feps)) by positivity), mul_comm (smoothB _ _ _), mul_assoc]
  refine mul_le_mul_of_nonneg_left ?_ (abs_nonneg _)
  have e3 : feps / (D * (D + feps)) * R ≤ feps / (D * D) * R := by
    gcongr
    linarith
  refine e3.trans ?_
  have e4 : feps / (D * D) * R = smoothB d feps R := by
    unfold smoothB
    rw [hD]
    split_ifs <;> field_simp
  rw [e4]
  exact smoothB_anti hf hb h

theorem smooth_sum (hadd : ∀ v w : Vec d, dist2 (v + w) 0 ≤ dist2 v 0 + dist2 w 0) {feps b : ℝ} (hf : 0 ≤ feps) (hb : 0 < b)
    (S : List (Source d)) (y : Vec d) (h : ∀ s ∈ S, ∃ j, b ≤ |s.pos j - y j|) :
    dist2 (directField true S y 0 - directField true S y feps) 0 ≤ smoothB d feps b * totalStrength S := by
  rw [totalStrength_eq]
  unfold directField
  induction S with
  | nil => simp [dist2]
  | cons s S ih =>
    obtain ⟨j, hj⟩ := h s (by simp)
    have h1 := smooth_term hf hb s y (hj.trans (abs_le_dist2 _ _ j))
    have h2 := ih fun s hs => h s (by simp [hs])
    simp only [List.map_cons, List.sum_cons]
    rw [mul_add, add_sub_add_comm]
    exact (hadd _ _).trans (add_le_add h1 h2)

theorem far_of_boxes {b b' : Box d} {s y : Vec d} {j : Fin d} (hl : b'.len = b.len)
    (h : 2 * b.len ≤ |b.center j - b'.center j|) (hs : b'.contains s) (hy : b.contains y) : b.len ≤ |s j - y j| := by
  rw [Box.contains_iff] at hs hy
  have h1 := hs j
  have h2 := hy j
  rw [hl] at h1
  rcases abs_cases (b.center j - b'.center j) with ⟨e, -⟩ | ⟨e, -⟩ <;> rw [e] at h
  · rw [abs_sub_comm]; refine le_trans ?_ (le_abs_self _); linarith [h1.1, h1.2, h2.1, h2.2]
  · refine le_trans ?_ (le_abs_self _); linarith [h1.1, h1.2, h2.1, h2.2]

theorem far_of_box {b : Box d} {s y : Vec d} {j : Fin d} (h : 3 / 2 * b.len ≤ |s j - b.center j|) (hy : b.contains y) :
    b.len ≤ |s j - y j| := by
  rw [Box.contains_iff] at hy
  have h2 := hy j
  rcases abs_cases (s j - b.center j) with ⟨e, -⟩ | ⟨e, -⟩ <;> rw [e] at h
  · refine le_trans ?_ (le_abs_self _); linarith [h2.1, h2.2]
  · rw [abs_sub_comm]; refine le_trans ?_ (le_abs_self _); linarith [h2.1, h2.2]

/-- The laws with smoothing from the laws without. -/
noncomputable def FmmLaws.smooth {K : Kit d} {O O' : Obs K (Vec d)} {p : ℕ} (L : FmmLaws K O p) {feps : ℝ} (hf : 0 ≤ feps)
    (hdir : L.direct = fun S x => directField true S x 0) (hnrm : L.nrm = fun v => dist2 v 0)
    (hle : O'.le = O.le) (hme : O'.me = O.me) (hsum : O'.sum = fun grav safe S x => forcefieldSum grav safe S x feps) :
    FmmLaws K O' p where
  good := L.good
  cov := L.cov
  isME := L.isME
  isLE := L.isLE
  nrm := fun v => dist2 v 0
  direct := fun S x => directField true S x feps
  adm := L.adm
  B := fun b => L.B b + smoothB d feps b
  nrm_zero := (dist2_eq_zero_iff _ _).mpr rfl
  nrm_add := by have := L.nrm_add; rw [hnrm] at this; exact this
  direct_nil := fun _ => rfl
  direct_append := fun S T x => directField_append true S T x feps
  direct_perm := fun _ _ x h => directField_perm true x feps h
  B_nonneg := fun b hb => add_nonneg (L.B_nonneg b hb) (smoothB_nonneg hf hb)
  B_anti := fun a b ha hab => add_le_add (L.B_anti a b ha hab) (smoothB_anti hf ha hab)
  cov_good := L.cov_good
  leNew := L.leNew
  meSrc := L.meSrc
  me_perm := L.me_perm
  meMes := L.meMes
  size_pos := L.size_pos
  leLe := L.leLe
  add := L.add
  leMes := by
    intro t b X ht hb hne hX
    obtain ⟨e, φ, h1, h2, h3⟩ := L.leMes t b X ht hb hne hX
    have hadd : ∀ v w : Vec d, dist2 (v + w) 0 ≤ dist2 v 0 + dist2 w 0 := by have := L.nrm_add; rw [hnrm] at this; exact this
    refine ⟨e, φ, h1, h2, fun y hy => ?_⟩
    have h4 := h3 y hy
    rw [hnrm, hdir] at h4
    have h5 := smooth_sum hadd hf hb (X.flatMap (·.2.2)) y (by
      intro s hs
      obtain ⟨x, hx, hs⟩ := List.mem_flatMap.mp hs
      obtain ⟨-, hl, ⟨j, hj⟩, hin⟩ := hX x hx
      exact ⟨j, far_of_boxes hl hj (hin s hs) hy⟩)
    rw [add_mul]
    refine le_trans (le_of_eq ?_) ((hadd _ _).trans (add_le_add h4 h5))
    congr 1
    abel
  leSrc := by
    intro t b S ht hb hfar
    obtain ⟨e, φ, h1, h2, h3⟩ := L.leSrc t b S ht hb hfar
    have hadd : ∀ v w : Vec d, dist2 (v + w) 0 ≤ dist2 v 0 + dist2 w 0 := by have := L.nrm_add; rw [hnrm] at this; exact this
    refine ⟨e, φ, h1, h2, fun y hy => ?_⟩
    have h4 := h3 y hy
    rw [hnrm, hdir] at h4
    obtain ⟨j, hj⟩ := hfar
    have h5 := smooth_sum hadd hf hb S y fun s hs => ⟨j, far_of_box (hj s hs) hy⟩
    rw [add_mul]
    refine le_trans (le_of_eq ?_) ((hadd _ _).trans (add_le_add h4 h5))
    congr 1
    abel
  me_obs := by
    intro e b S y hb he hS hfar hA
    obtain ⟨v, h1, h4⟩ := L.me_obs e b S y hb he hS hfar hA
    have hadd : ∀ v w : Vec d, dist2 (v + w) 0 ≤ dist2 v 0 + dist2 w 0 := by have := L.nrm_add; rw [hnrm] at this; exact this
    rw [hnrm, hdir] at h4
    obtain ⟨j, hj⟩ := hfar
    have h5 := smooth_sum hadd hf hb S y fun s hs => ⟨j, by rw [abs_sub_comm]; exact far_of_box hj (hS s hs)⟩
    refine ⟨v, by rw [hme]; exact h1, ?_⟩
    rw [add_mul]
    refine le_trans (le_of_eq ?_) ((hadd _ _).trans (add_le_add h4 h5))
    congr 1
    abel
  le_obs := by rw [hle]; exact L.le_obs
  sum_safe := fun S y => by rw [hsum]; exact forcefieldSum_safe true S y feps hf
  sum_unsafe := fun S y h => by rw [hsum]; exact forcefieldSum_unsafe true S y feps hf h

/-- 2D force with smoothing. -/
noncomputable def laws2ForceS (p : ℕ) (hp0 : 0 < p) (hp : p ≤ 1029) {feps : ℝ} (hf : 0 ≤ feps) : FmmLaws kit2 (force2 feps) p :=
  (laws2Force p hp0 hp).smooth hf rfl rfl rfl rfl rfl

/-- 3D force with smoothing. -/
noncomputable def laws3ForceS (p : ℕ) (hp0 : 0 < p) (hp : p ≤ 42) {feps : ℝ} (hf : 0 ≤ feps) : FmmLaws kit3 (force3 feps) p :=
  (laws3Force p hp0 hp).smooth hf rfl rfl rfl rfl rfl

end FMM
