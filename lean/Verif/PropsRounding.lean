import Verif.Ieee
import Mathlib.Data.Real.Archimedean
import Mathlib.Data.Fin.VecNotation
import Mathlib.Tactic.FinCases

/-!
# Properties C62–C65: the geometric decisions in floating-point arithmetic

`rnd` is any rounding with a relative error of at most `u`; the counterexamples use rounding to the nearest `double`.
-/

namespace FMM.Rounded
variable {d : ℕ}

/-- Rounding is accurate for numbers up to `B`, on the scale of `B` (a consequence of a small relative error, also if there is
underflow), and for the constant `1.99`. -/
structure RndOn {K : Type} [Field K] [LinearOrder K] [IsStrictOrderedRing K] (rnd : K → K) (u B : K) : Prop where
  abs : ∀ x, |x| ≤ B → |rnd x - x| ≤ u * B
  two : |rnd (199 / 100) - 199 / 100| ≤ u * |(199 / 100 : K)|

theorem RndOn.of_rel {K : Type} [Field K] [LinearOrder K] [IsStrictOrderedRing K] {rnd : K → K} {u B : K}
    (H : ∀ x, |rnd x - x| ≤ u * |x|) (hu : 0 ≤ u) : RndOn rnd u B :=
  ⟨fun x hx => (H x).trans (mul_le_mul_of_nonneg_left hx hu), H _⟩

/-- The hypotheses of the theorems give the context of the error analysis. -/
theorem ctx_on {K : Type} [Field K] [LinearOrder K] [IsStrictOrderedRing K] {rnd : K → K} {u : K}
    (hu : 0 ≤ u) {r : RBox K d} (hL : 0 < r.len) {C : K} (hC0 : 0 ≤ C) (H : RndOn rnd u (4 * (C + r.len)))
    (hC : ∀ i, |r.center i| ≤ C) {k : ℕ} (hk : (8 * k + 15) * (u * (4 * (C + r.len))) < r.len / 2 ^ (k + 1)) :
    Ctx rnd r (4 * (C + r.len)) C (u * (4 * (C + r.len))) k where
  rel := H.abs
  nonneg := by positivity
  len := hL
  center := hC
  bound := le_rfl
  small := by
    refine hk.le.trans ?_
    rw [pow_succ, ← div_div]
    exact div_le_div_of_nonneg_right (div_le_self hL.le (one_le_pow₀ (by norm_num))) (by norm_num)

theorem ctx_of {K : Type} [Field K] [LinearOrder K] [IsStrictOrderedRing K] {rnd : K → K} {u : K}
    (H : ∀ x, |rnd x - x| ≤ u * |x|) (hu : 0 ≤ u) {r : RBox K d} (hL : 0 < r.len) {C : K} (hC0 : 0 ≤ C)
    (hC : ∀ i, |r.center i| ≤ C) {k : ℕ} (hk : (8 * k + 15) * (u * (4 * (C + r.len))) < r.len / 2 ^ (k + 1)) :
    Ctx rnd r (4 * (C + r.len)) C (u * (4 * (C + r.len))) k := ctx_on hu hL hC0 (RndOn.of_rel H hu) hC hk

/-- **C62** Adjacency of nodes is decided correctly in floating-point arithmetic: for nodes up to depth `k` the test on
computed centres and side lengths has the result of the exact test, as long as the accumulated error is below half the side
of the smallest boxes. -/
theorem C62_adjacent {rnd : ℝ → ℝ} {u : ℝ} (H : ∀ x, |rnd x - x| ≤ u * |x|) (hu : 0 ≤ u) (r : RBox ℝ d) (hL : 0 < r.len) {C : ℝ}
    (hC0 : 0 ≤ C) (hC : ∀ i, |r.center i| ≤ C) (k : ℕ)
    (hk : (8 * k + 15) * (u * (4 * (C + r.len))) < r.len / 2 ^ (k + 1)) (π ρ : Path) (hπ : π.length ≤ k) (hρ : ρ.length ≤ k) :
    (boxAt rnd r π).adjacent rnd (boxAt rnd r ρ) = true ↔ (FMM.boxAt r.exact π).adjacent (FMM.boxAt r.exact ρ) := by
  rw [adjacent_eq (ctx_of H hu hL hC0 hC hk) hk π ρ hπ hρ, adjacent_id, boxAt_id, boxAt_id]

/-- With `double`s and a root box around the origin the test is correct up to depth 40. -/
example (L : ℝ) (hL : 0 < L) (π ρ : Path) (hπ : π.length ≤ 40) (hρ : ρ.length ≤ 40) :
    (boxAt rndNE (⟨0, L⟩ : RBox ℝ 3) π).adjacent rndNE (boxAt rndNE ⟨0, L⟩ ρ) = true ↔
      (FMM.boxAt (⟨0, L⟩ : Box 3) π).adjacent (FMM.boxAt ⟨0, L⟩ ρ) :=
  C62_adjacent rndNE_rel (by positivity) ⟨0, L⟩ hL le_rfl (by simp) 40 (by
    show (8 * ((40 : ℕ) : ℝ) + 15) * (1 / 2 ^ 53 * (4 * (0 + L))) < L / 2 ^ (40 + 1)
    norm_num
    linarith) π ρ hπ hρ

/-- **C63** Looking up a point that is not too close to a plane between boxes returns a leaf, also in floating-point
arithmetic.  What is missing: points on, or within rounding errors of, such a plane (see `C63_false`). -/
theorem C63_partial {rnd : ℝ → ℝ} {u : ℝ} (H : ∀ x, |rnd x - x| ≤ u * |x|) (hu : 0 ≤ u) (r : RBox ℝ d) (hL : 0 < r.len) {C : ℝ}
    (hC0 : 0 ≤ C) (hC : ∀ i, |r.center i| ≤ C) (k : ℕ)
    (hk : (8 * k + 15) * (u * (4 * (C + r.len))) < r.len / 2 ^ (k + 1)) (items : List (Pt ℝ d)) (max : ℕ) (x : Pt ℝ d)
    (hx : r.exact.contains x)
    (haway : ∀ i, ∀ m : ℕ, (4 * k + 5) * (u * (4 * (C + r.len))) < |x i - (r.exact.lower i + m * (r.len / 2 ^ k))|)
    (fuel : ℕ) (hf : fuel ≤ k + 1) (b : Bool) (hb : lookup rnd max fuel r items x = .ok b) : b = true := by
  obtain ⟨n, hn, rfl⟩ := lookup_inv rnd r items max x fuel b hb
  refine route_contains (ctx_of H hu hL hC0 hC hk) x ?_ ?_ n (by omega)
  · intro i
    have := (Box.contains_iff r.exact x).mp hx i
    simp only [RBox.exact] at this
    rw [abs_le]
    constructor <;> linarith [this.1, this.2]
  · intro i m
    have := haway i m
    rwa [Box.lower_apply] at this

/-- **C65** Sources that are further apart than a box of depth `k` and rounding errors are separated at depth `k` at the
latest, so that every look-up (and the refinement along the route) ends.  What is missing: distinct sources that are closer
together (see `C65_false`). -/
theorem C65_partial {rnd : ℝ → ℝ} {u : ℝ} (H : ∀ x, |rnd x - x| ≤ u * |x|) (hu : 0 ≤ u) (r : RBox ℝ d) (hL : 0 < r.len) {C : ℝ}
    (hC0 : 0 ≤ C) (hC : ∀ i, |r.center i| ≤ C) (k : ℕ)
    (hk : (8 * k + 15) * (u * (4 * (C + r.len))) < r.len / 2 ^ (k + 1)) (items : List (Pt ℝ d))
    (hin : ∀ s ∈ items, r.exact.contains s)
    (hsep : items.Pairwise fun s t => ∃ i, r.len / 2 ^ k + 8 * k * (u * (4 * (C + r.len))) < |s i - t i|)
    (max : ℕ) (hmax : 1 ≤ max) (x : Pt ℝ d) (fuel : ℕ) (hf : k < fuel) : ∃ b, lookup rnd max fuel r items x = .ok b := by
  obtain ⟨n, -, h⟩ := lookup_ok rnd r items max x k fuel hf (le_trans (itemsOn_le_one (ctx_of H hu hL hC0 hC hk) items (by
    intro s hs i
    have := (Box.contains_iff r.exact s).mp (hin s hs) i
    simp only [RBox.exact] at this
    rw [abs_le]
    constructor <;> linarith [this.1, this.2]) hsep _ (route_length _ _ _ _)) hmax)
  exact ⟨_, h⟩

/-- Four sources, a look-up at one of them. -/
example : lookup rndNE 1 3 (⟨0, 1⟩ : RBox ℝ 2) [![3/10, 3/10], ![3/10, -3/10], ![-3/10, 3/10], ![-3/10, -3/10]] ![3/10, 3/10]
    = .ok true := by
  obtain ⟨b, hb⟩ := C65_partial (d := 2) (rnd := rndNE) (u := 1 / 2 ^ 53) rndNE_rel (by positivity) ⟨0, 1⟩ one_pos le_rfl (by simp) 2
    (by norm_num) [![3/10, 3/10], ![3/10, -3/10], ![-3/10, 3/10], ![-3/10, -3/10]] (by
      intro s hs
      rw [Box.contains_iff]
      simp only [Box.lower_apply, Box.upper_apply, RBox.exact]
      simp only [List.mem_cons, List.not_mem_nil, or_false] at hs
      intro i
      rcases hs with rfl | rfl | rfl | rfl <;> fin_cases i <;> norm_num)
    (by
      simp only [List.pairwise_cons, List.mem_cons, List.not_mem_nil, or_false, forall_eq_or_imp, forall_eq]
      refine ⟨⟨⟨1, ?_⟩, ⟨0, ?_⟩, ⟨0, ?_⟩⟩, ⟨⟨0, ?_⟩, ⟨0, ?_⟩⟩, ⟨1, ?_⟩, by simp⟩ <;>
        norm_num [abs_of_pos, abs_of_neg]) 1 le_rfl ![3/10, 3/10] 3 (by norm_num)
  rw [hb]
  congr 1
  refine C63_partial (d := 2) (rnd := rndNE) (u := 1 / 2 ^ 53) rndNE_rel (by positivity) ⟨0, 1⟩ one_pos le_rfl (by simp) 2
    (by norm_num) _ 1 ![3/10, 3/10] ?_ ?_ 3 le_rfl b hb
  · rw [Box.contains_iff]
    simp only [Box.lower_apply, Box.upper_apply, RBox.exact]
    intro i
    fin_cases i <;> norm_num
  · intro i m
    have key : (1 : ℝ) / 20 ≤ |3 / 10 - (0 - 1 / 2 + (m : ℝ) * (1 / 2 ^ 2))| := by
      rcases le_or_gt m 3 with h | h
      · have : (m : ℝ) ≤ 3 := by exact_mod_cast h
        rw [abs_of_nonneg (by linarith)]; linarith
      · have : (4 : ℝ) ≤ m := by exact_mod_cast h
        rw [abs_of_nonpos (by linarith)]; linarith
    rw [Box.lower_apply]
    refine lt_of_lt_of_le ?_ (key.trans_eq ?_)
    · norm_num
    · fin_cases i <;> rfl

/-! ## The look-up fails on planes between boxes -/

/-- The `double` nearest to `1E-5` (abstract_fmm_tree.hpp:87). -/
def padding : ℚ := rndNE (1 / 100000)

/-- Four sources. -/
def planeSources : List (Pt ℚ 2) :=
  [![-1, -2], ![6, 4], ![4785122454827193/1125899906842624, 6192511412129309/2251799813685248], ![19/4, 15/4]]

/-- A source on a plane between boxes. -/
def planePoint : Pt ℚ 2 := ![4785122454827193/1125899906842624, 6192511412129309/2251799813685248]

/-- **C63** is false for sources on a plane between boxes: in the tree over these four sources, with at most one source per
leaf, the look-up of the third source, which lies well inside the root box, ends at a leaf that does not contain it, and the
null pointer is returned.  All coordinates are `double`s and the arithmetic is that of IEEE 754. -/
theorem C63_false : ∃ (items : List (Pt ℚ 2)) (x : Pt ℚ 2), x ∈ items ∧ items.Nodup ∧ (∀ s ∈ items, ∀ i, rndNE (s i) = s i) ∧
    (∀ i, |x i - (rootBox rndNE padding items).center i| ≤ (rootBox rndNE padding items).len / 3) ∧
    lookup rndNE 1 4 (rootBox rndNE padding items) items x = .ok false := by
  refine ⟨planeSources, planePoint, ?_, ?_, ?_, ?_, ?_⟩
  · exact List.mem_cons_of_mem _ (List.mem_cons_of_mem _ List.mem_cons_self)
  · decide +kernel
  · decide +kernel
  · decide +kernel
  · have h : (match lookup rndNE 1 4 (rootBox rndNE padding planeSources) planeSources planePoint with
        | .ok false => true
        | _ => false) = true := by decide +kernel
    revert h
    cases lookup rndNE 1 4 (rootBox rndNE padding planeSources) planeSources planePoint with
    | ok b => cases b <;> simp
    | error e => simp

/-! ## Distinct sources need not be separated -/

/-- A look-up that never ends: two sources stay together in all boxes on the route. -/
theorem lookup_stuck {K : Type} [Field K] [LinearOrder K] {rnd : K → K} {x y : Pt K d} (P : RBox K d → Prop)
    (hP : ∀ b, P b → getOrthant b.center x = getOrthant b.center y ∧ P (b.child rnd (getOrthant b.center x))) (fuel : ℕ)
    (b : RBox K d) (hb : P b) (items : List (Pt K d)) (hi : [x, y].Sublist items) :
    lookup rnd 1 fuel b items x = .error .fuel := by
  induction fuel generalizing b items with
  | zero => rfl
  | succ fuel ih =>
    obtain ⟨h1, h2⟩ := hP b hb
    unfold lookup
    have hl := hi.length_le
    simp only [List.length_cons, List.length_nil] at hl
    rw [if_neg (by omega)]
    apply ih _ h2
    have := hi.filter fun s => getOrthant b.center s == getOrthant b.center x
    rwa [List.filter_cons_of_pos (by simp), List.filter_cons_of_pos (by simp [h1]), List.filter_nil] at this

/-- Centres and side lengths on the route. -/
def stuckTable : List (ℚ × ℚ × ℚ) := [
  (-2814777914604231/1125899906842624, -3377733497525077/1125899906842624, 7318422577971001/562949953421312),
  (-1618497300897433/281474976710656, -3518472393255289/562949953421312, 7318422577971001/1125899906842624),
  (-2322191779548491/562949953421312, -1301834785504457/281474976710656, 7318422577971001/2251799813685248),
  (-3729580736850607/1125899906842624, -4292536319771453/1125899906842624, 7318422577971001/4503599627370496),
  (-6544358651454839/2251799813685248, -7670269817296531/2251799813685248, 7318422577971001/9007199254740992),
  (-6086957240331651/2251799813685248, -7212868406173343/2251799813685248, 7318422577971001/18014398509481984),
  (-5858256534770057/2251799813685248, -6984167700611749/2251799813685248, 7318422577971001/36028797018963968),
  (-1435976545497315/562949953421312, -858727168478869/281474976710656, 7318422577971001/72057594037927936),
  (-2843365502799431/1125899906842624, -3406321085720277/1125899906842624, 7318422577971001/144115188075855872),
  (-5658143417403663/2251799813685248, -6784054583245355/2251799813685248, 7318422577971001/288230376151711744),
  (-5643849623306063/2251799813685248, -6769760789147755/2251799813685248, 7318422577971001/576460752303423488),
  (-5636702726257263/2251799813685248, -6762613892098955/2251799813685248, 7318422577971001/1152921504606846976),
  (-5633129277732863/2251799813685248, -6759040443574555/2251799813685248, 7318422577971001/2305843009213693952),
  (-5631342553470663/2251799813685248, -6757253719312355/2251799813685248, 7318422577971001/4611686018427387904),
  (-5630449191339563/2251799813685248, -6756360357181255/2251799813685248, 7318422577971001/9223372036854775808),
  (-5630002510274013/2251799813685248, -6755913676115705/2251799813685248, 7318422577971001/18446744073709551616),
  (-2814889584870619/1125899906842624, -3377845167791465/1125899906842624, 7318422577971001/36893488147419103232),
  (-5629667499474851/2251799813685248, -6755578665316543/2251799813685248, 7318422577971001/73786976294838206464),
  (-5629611664341657/2251799813685248, -6755522830183349/2251799813685248, 7318422577971001/147573952589676412928),
  (-1407395936693765/562949953421312, -422218432038547/140737488355328, 7318422577971001/295147905179352825856),
  (-2814784893995881/1125899906842624, -3377740476916727/1125899906842624, 7318422577971001/590295810358705651712),
  (-5629562808600113/2251799813685248, -6755473974441805/2251799813685248, 7318422577971001/1180591620717411303424),
  (-175923728715759/70368744177664, -1688867621186495/562949953421312, 7318422577971001/2361183241434822606848),
  (-703694696757047/281474976710656, -1688867184974517/562949953421312, 7318422577971001/4722366482869645213696),
  (-1407389175408105/562949953421312, -105554185429283/35184372088832, 7318422577971001/9444732965739290427392),
  (-2814778132710221/1125899906842624, -3377733715631067/1125899906842624, 7318422577971001/18889465931478580854784),
  (-5629556047314453/2251799813685248, -6755467213156145/2251799813685248, 7318422577971001/37778931862957161709568),
  (-2814777969130729/1125899906842624, -3377733552051575/1125899906842624, 7318422577971001/75557863725914323419136),
  (-5629555883734961/2251799813685248, -6755467049576653/2251799813685248, 7318422577971001/151115727451828646838272),
  (-175923620514741/70368744177664, -1688866755578351/562949953421312, 7318422577971001/302231454903657293676544),
  (-703694480355011/281474976710656, -1688866752170445/562949953421312, 7318422577971001/604462909807314587353088),
  (-1407388959006069/562949953421312, -422216687616623/140737488355328, 7318422577971001/1208925819614629174706176),
  (-2814777916308185/1125899906842624, -3377733499229031/1125899906842624, 7318422577971001/2417851639229258349412352),
  (-5629555830912417/2251799813685248, -6755466996754109/2251799813685248, 7318422577971001/4835703278458516698824704),
  (-703694478757555/281474976710656, -1688866748975533/562949953421312, 7318422577971001/9671406556917033397649408),
  (-1407388957408613/562949953421312, -422216687217259/140737488355328, 7318422577971001/19342813113834066795298816),
  (-2814777914710729/1125899906842624, -3377733497631575/1125899906842624, 7318422577971001/38685626227668133590597632),
  (-5629555829314961/2251799813685248, -6755466995156653/2251799813685248, 7318422577971001/77371252455336267181195264),
  (-351847239328857/140737488355328, -1688866748775851/562949953421312, 7318422577971001/154742504910672534362390528),
  (-351847239327193/140737488355328, -1688866748769195/562949953421312, 7318422577971001/309485009821345068724781056),
  (-351847239326361/140737488355328, -1688866748765867/562949953421312, 7318422577971001/618970019642690137449562112),
  (-351847239325945/140737488355328, -1688866748764203/562949953421312, 7318422577971001/1237940039285380274899124224),
  (-351847239325737/140737488355328, -1688866748763371/562949953421312, 7318422577971001/2475880078570760549798248448),
  (-351847239325633/140737488355328, -1688866748762955/562949953421312, 7318422577971001/4951760157141521099596496896),
  (-351847239325581/140737488355328, -1688866748762747/562949953421312, 7318422577971001/9903520314283042199192993792),
  (-351847239325555/140737488355328, -1688866748762643/562949953421312, 7318422577971001/19807040628566084398385987584),
  (-175923619662771/70368744177664, -1688866748762591/562949953421312, 7318422577971001/39614081257132168796771975168),
  (-703694478651071/281474976710656, -1688866748762565/562949953421312, 7318422577971001/79228162514264337593543950336),
  (-1407388957302129/562949953421312, -211108343595319/70368744177664, 7318422577971001/158456325028528675187087900672),
  (-2814777914604245/1125899906842624, -3377733497525091/1125899906842624, 7318422577971001/316912650057057350374175801344),
  (-5629555829208477/2251799813685248, -6755466995050169/2251799813685248, 7318422577971001/633825300114114700748351602688),
  (-2814777914604235/1125899906842624, -3377733497525081/1125899906842624, 7318422577971001/1267650600228229401496703205376),
  (-5629555829208467/2251799813685248, -6755466995050159/2251799813685248, 7318422577971001/2535301200456458802993406410752),
  (-5629555829208465/2251799813685248, -6755466995050157/2251799813685248, 7318422577971001/5070602400912917605986812821504),
  (-351847239325529/140737488355328, -1688866748762539/562949953421312, 7318422577971001/10141204801825835211973625643008),
  (-351847239325529/140737488355328, -1688866748762539/562949953421312, 7318422577971001/20282409603651670423947251286016)]

/-- The box at depth `i` on the route. -/
def stuckBox (i : ℕ) : RBox ℚ 2 :=
  let t := stuckTable.getD i (0, 0, 0)
  ⟨![t.1, t.2.1], t.2.2⟩

/-- Two neighbouring `double`s in each coordinate. -/
def stuckX : Pt ℚ 2 := ![-351847239325529/140737488355328, -1688866748762539/562949953421312]
def stuckY : Pt ℚ 2 := ![-5629555829208463/2251799813685248, -6755466995050155/2251799813685248]
def stuckSources : List (Pt ℚ 2) := [![-9, -7], ![4, 1], stuckX, stuckY]

theorem box_ext {K : Type} {a b : RBox K 2} (h0 : a.center 0 = b.center 0) (h1 : a.center 1 = b.center 1) (hl : a.len = b.len) :
    a = b := by
  cases a; cases b
  simp only [RBox.mk.injEq]
  refine ⟨?_, hl⟩
  funext i
  fin_cases i
  · exact h0
  · exact h1

theorem stuck_root : rootBox rndNE padding stuckSources = stuckBox 0 :=
  box_ext (by decide +kernel) (by decide +kernel) (by decide +kernel)

theorem stuck_steps : ∀ i < 55, getOrthant (stuckBox i).center stuckX = 3 - 3 * (if i = 0 then 1 else 0) ∧
    getOrthant (stuckBox i).center stuckY = 3 - 3 * (if i = 0 then 1 else 0) ∧
    ((stuckBox i).child rndNE (3 - 3 * (if i = 0 then 1 else 0))).center 0 = (stuckBox (i + 1)).center 0 ∧
    ((stuckBox i).child rndNE (3 - 3 * (if i = 0 then 1 else 0))).center 1 = (stuckBox (i + 1)).center 1 ∧
    ((stuckBox i).child rndNE (3 - 3 * (if i = 0 then 1 else 0))).len = (stuckBox (i + 1)).len := by
  decide +kernel

/-- The boxes below do not move any more. -/
def Stuck (b : RBox ℚ 2) : Prop :=
  b.center = ![((-5629555829208464 : ℤ) : ℚ) * 2 ^ (-51 : ℤ), ((-6755466995050156 : ℤ) : ℚ) * 2 ^ (-51 : ℤ)]
    ∧ |b.len| ≤ 2 ^ (-51 : ℤ)

theorem stuck_last : Stuck (stuckBox 55) := by
  constructor
  · funext i
    fin_cases i <;> decide +kernel
  · decide +kernel

theorem rndNE_abs_le {x m : ℚ} (h : |x| ≤ m) : |rndNE x| ≤ (1 + 1 / 2 ^ 53) * m := by
  have h1 := rndNE_rel x
  have h2 := abs_sub_abs_le_abs_sub (rndNE x) x
  have h3 : 1 / 2 ^ 53 * |x| ≤ 1 / 2 ^ 53 * m := mul_le_mul_of_nonneg_left h (by positivity)
  linarith

theorem stuck_child (b : RBox ℚ 2) (hb : Stuck b) (i : ℕ) : Stuck (b.child rndNE i) := by
  obtain ⟨h1, h2⟩ := hb
  have hp : (0 : ℚ) < 2 ^ (-51 : ℤ) := by positivity
  have hlen : |rndNE (b.len / 2)| ≤ (1 + 1 / 2 ^ 53) * (2 ^ (-51 : ℤ) / 2) := by
    apply rndNE_abs_le
    rw [abs_div, abs_of_pos (by norm_num : (0 : ℚ) < 2)]
    exact div_le_div_of_nonneg_right (by assumption) (by norm_num)
  have hlen2 : |rndNE (rndNE (b.len / 2) / 2)| ≤ (1 + 1 / 2 ^ 53) * ((1 + 1 / 2 ^ 53) * (2 ^ (-51 : ℤ) / 2) / 2) := by
    apply rndNE_abs_le
    rw [abs_div, abs_of_pos (by norm_num : (0 : ℚ) < 2)]
    exact div_le_div_of_nonneg_right (by assumption) (by norm_num)
  have hstep : ∀ j : Fin 2, |rndNE ((dir 2 i j : ℚ) * rndNE (rndNE (b.len / 2) / 2))| < 2 ^ (-51 : ℤ) / 2 := by
    intro j
    refine lt_of_le_of_lt (rndNE_abs_le (x := (dir 2 i j : ℚ) * rndNE (rndNE (b.len / 2) / 2)) ?_)
      (b := (1 + 1 / 2 ^ 53) * ((1 + 1 / 2 ^ 53) * ((1 + 1 / 2 ^ 53) * (2 ^ (-51 : ℤ) / 2) / 2))) ?_
    · rw [abs_mul, abs_dir, one_mul]; exact hlen2
    · generalize (2 : ℚ) ^ (-51 : ℤ) = p at *
      norm_num
      linarith
  constructor
  · funext j
    show rndNE (b.center j + rndNE ((dir 2 i j : ℚ) * rndNE (rndNE (b.len / 2) / 2))) = _
    rw [h1]
    fin_cases j
    · exact rndNE_absorb (by norm_num) (by norm_num) (hstep 0)
    · exact rndNE_absorb (by norm_num) (by norm_num) (hstep 1)
  · refine (show |rndNE (b.len / 2)| ≤ _ from hlen).trans ?_
    generalize (2 : ℚ) ^ (-51 : ℤ) = p at *
    norm_num
    linarith

theorem stuck_orthant (b : RBox ℚ 2) (hb : Stuck b) : getOrthant b.center stuckX = getOrthant b.center stuckY := by
  rw [hb.1]
  decide +kernel

/-- **C65** is false for neighbouring `double`s: the construction of a tree over these four different sources, with at most
one source per leaf, refines the box of the last two without end, because the computed centres stop moving before they
separate the two.  All coordinates are `double`s and the arithmetic is that of IEEE 754. -/
theorem C65_false : ∃ (items : List (Pt ℚ 2)) (x : Pt ℚ 2), x ∈ items ∧ items.Nodup ∧ (∀ s ∈ items, ∀ i, rndNE (s i) = s i) ∧
    (∀ s ∈ items, ∀ i, |s i - (rootBox rndNE padding items).center i| ≤ (rootBox rndNE padding items).len / 2) ∧
    ∀ fuel, lookup rndNE 1 fuel (rootBox rndNE padding items) items x = .error .fuel := by
  refine ⟨stuckSources, stuckX, ?_, ?_, ?_, ?_, ?_⟩
  · exact List.mem_cons_of_mem _ (List.mem_cons_of_mem _ List.mem_cons_self)
  · decide +kernel
  · decide +kernel
  · decide +kernel
  · intro fuel
    refine lookup_stuck (y := stuckY) (fun b => (∃ i < 55, b = stuckBox i) ∨ Stuck b) ?_ fuel _ (Or.inl ⟨0, by norm_num, stuck_root⟩) _
      ((List.Sublist.refl _).cons _ |>.cons _)
    rintro b (⟨i, hi, rfl⟩ | hb)
    · obtain ⟨h1, h2, h3, h4, h5⟩ := stuck_steps i hi
      refine ⟨h1.trans h2.symm, ?_⟩
      rw [h1]
      have e := box_ext h3 h4 h5
      rw [e]
      rcases (Nat.succ_le_of_lt hi).eq_or_lt with h | h
      · rw [show i + 1 = 55 from h]
        exact Or.inr stuck_last
      · exact Or.inl ⟨i + 1, h, rfl⟩
    · exact ⟨stuck_orthant b hb, Or.inr (stuck_child b hb _)⟩

/-! ## Leaf box indices -/

theorem seqFin_leaf {n : Fin d → ℕ} {h : ℕ} (hh : h < 32) (hn : ∀ i, n i < 2 ^ h) {f : Fin d → ℤ} (hf : ∀ i, f i = n i) :
    (seqFin fun i => do
      let index ← toU32 (f i)
      if index ≥ 2 ^ h then (.error .runtimeError : Outcome ℕ) else .ok index) = .ok n := by
  rw [seqFin_ok]
  intro i
  have h1 : (n i : ℤ) < 2 ^ 32 := by
    have := hn i
    have h2 : (2 : ℤ) ^ h ≤ 2 ^ 32 := pow_le_pow_right₀ (by norm_num) hh.le
    have h3 : (n i : ℤ) < 2 ^ h := by exact_mod_cast this
    linarith
  rw [hf]
  unfold toU32
  rw [if_pos ⟨by positivity, h1⟩, ok_bind, Int.toNat_natCast, if_neg (not_le.mpr (hn i))]

/-- The computed indices of the computed centre of a leaf. -/
theorem leaf_centres_on {rnd : ℝ → ℝ} {u : ℝ} (hu : 0 ≤ u) (hu1 : u ≤ 1 / 100) (r : RBox ℝ d)
    (hL : 0 < r.len) {C : ℝ} (hC0 : 0 ≤ C) (H : RndOn rnd u (4 * (C + r.len))) (I : RndIx rnd u r.len) (hC : ∀ i, |r.center i| ≤ C) (h : ℕ) (hh : h < 32)
    (hk : (8 * h + 15) * (u * (4 * (C + r.len))) < r.len / 2 ^ (h + 1)) (π : Path) (hπ : π.length = h) :
    leafIndices rnd r h (boxAt rnd r π).center = .ok (grid d π) := by
  have c := ctx_on hu hL hC0 H hC hk
  unfold leafIndices
  rw [if_neg hL.ne']
  refine seqFin_leaf hh (fun i => by have := grid_lt (d := d) π i; rwa [hπ] at this) fun i => ?_
  have h1 := c.centerR π hπ.le i
  have h2 := center_exact_near r hL.le π i
  have hg := lower_grid r π i
  rw [len_exact] at hg
  rw [hπ] at h1 h2 hg
  have hn := c.nonneg
  set δ := u * (4 * (C + r.len)) with hδ
  have hnn : (0 : ℝ) ≤ h * δ := mul_nonneg (Nat.cast_nonneg h) hn
  have e : r.len / 2 ^ (h + 1) = r.len / 2 ^ h / 2 := by rw [pow_succ, ← div_div]
  rw [e] at hk
  have hx : |(boxAt rnd r π).center i - r.center i| ≤ r.len / 2 := by
    have := abs_sub_le ((boxAt rnd r π).center i) ((boxAt id r π).center i) (r.center i)
    linarith
  have h3 := leafRatio_near I hu hu1 c rfl hδ h (boxAt rnd r π).center i hx
  have hp : (0 : ℝ) < 2 ^ h / r.len := by positivity
  have h4 : |(boxAt rnd r π).center i - (r.center i - r.len / 2) - (grid d π i + 1 / 2) * (r.len / 2 ^ h)| ≤ 4 * h * δ := by
    refine le_trans (le_of_eq ?_) h1
    congr 1
    linarith
  have h5 : |((boxAt rnd r π).center i - (r.center i - r.len / 2)) / r.len * 2 ^ h - (grid d π i + 1 / 2)|
      ≤ 2 ^ h / r.len * (4 * h * δ) := by
    have : ((boxAt rnd r π).center i - (r.center i - r.len / 2)) / r.len * 2 ^ h - (grid d π i + 1 / 2) =
        2 ^ h / r.len * ((boxAt rnd r π).center i - (r.center i - r.len / 2) - (grid d π i + 1 / 2) * (r.len / 2 ^ h)) := by
      field_simp
    rw [this, abs_mul, abs_of_pos hp]
    exact mul_le_mul_of_nonneg_left h4 hp.le
  have h6 := abs_sub_le (leafRatio rnd r h (boxAt rnd r π).center i)
    (((boxAt rnd r π).center i - (r.center i - r.len / 2)) / r.len * 2 ^ h) (grid d π i + 1 / 2)
  have h7 : 2 ^ h / r.len * (9 * δ) + 2 ^ h / r.len * (4 * h * δ) < 1 / 2 := by
    have : 9 * δ + 4 * h * δ < r.len / 2 ^ h / 2 := by linarith
    calc _ = 2 ^ h / r.len * (9 * δ + 4 * h * δ) := by ring
      _ < 2 ^ h / r.len * (r.len / 2 ^ h / 2) := mul_lt_mul_of_pos_left this hp
      _ = 1 / 2 := by field_simp
  have h8 : |leafRatio rnd r h (boxAt rnd r π).center i - (grid d π i + 1 / 2)| < 1 / 2 := by linarith
  obtain ⟨l1, l2⟩ := abs_lt.mp h8
  rw [Int.floor_eq_iff]
  push_cast
  constructor <;> linarith

/-- **C64** In floating-point arithmetic the computed centre of every leaf of a balanced tree is assigned the grid
coordinates of that leaf, so that no two leaves share an entry of the table of leaves. -/
theorem C64_leaf_centres {rnd : ℝ → ℝ} {u : ℝ} (H : ∀ x, |rnd x - x| ≤ u * |x|) (hu : 0 ≤ u) (hu1 : u ≤ 1 / 100) (r : RBox ℝ d)
    (hL : 0 < r.len) {C : ℝ} (hC0 : 0 ≤ C) (hC : ∀ i, |r.center i| ≤ C) (h : ℕ) (hh : h < 32)
    (hk : (8 * h + 15) * (u * (4 * (C + r.len))) < r.len / 2 ^ (h + 1)) (π : Path) (hπ : π.length = h) :
    leafIndices rnd r h (boxAt rnd r π).center = .ok (grid d π) :=
  leaf_centres_on hu hu1 r hL hC0 (RndOn.of_rel H hu) (RndIx.of_rel H hu hL) hC h hh hk π hπ

/-- **C64** In floating-point arithmetic a point of the root box that is not within rounding errors of a plane between leaves
is assigned the leaf that contains it. -/
theorem C64_points {rnd : ℝ → ℝ} {u : ℝ} (H : ∀ x, |rnd x - x| ≤ u * |x|) (hu : 0 ≤ u) (hu1 : u ≤ 1 / 100) (r : RBox ℝ d)
    (hL : 0 < r.len) {C : ℝ} (hC0 : 0 ≤ C) (hC : ∀ i, |r.center i| ≤ C) (h : ℕ) (hh : h < 32)
    (hk : 15 * (u * (4 * (C + r.len))) < r.len / 2) (x : Pt ℝ d) (hx : r.exact.contains x)
    (haway : ∀ i, ∀ m : ℕ, 9 * (u * (4 * (C + r.len))) < |x i - (r.exact.lower i + m * (r.len / 2 ^ h))|) :
    leafIndices rnd r h x = getLeafBoxIndices r.exact h x := by
  rw [← leafIndices_id r h hh x]
  have c := ctx_of H hu hL hC0 hC (k := 0) (by simpa using hk)
  unfold leafIndices
  rw [if_neg hL.ne', if_neg hL.ne']
  refine congrArg seqFin (funext fun i => ?_)
  have hxi := (Box.contains_iff r.exact x).mp hx i
  simp only [RBox.exact] at hxi
  have h3 := leafRatio_near (RndIx.of_rel H hu hL) hu hu1 c rfl rfl h x i (by rw [abs_le]; constructor <;> linarith [hxi.1, hxi.2])
  have e : leafRatio id r h x i = (x i - (r.center i - r.len / 2)) / r.len * 2 ^ h := by
    simp [leafRatio, vscale, vsub, vadd, vneg]
    ring
  rw [← e] at h3
  have hp : (0 : ℝ) < 2 ^ h / r.len := by positivity
  have ht0 : 0 ≤ leafRatio id r h x i := by
    rw [e]
    have : 0 ≤ x i - (r.center i - r.len / 2) := by linarith [hxi.1]
    positivity
  have key : ∀ m : ℕ, 2 ^ h / r.len * (9 * (u * (4 * (C + r.len)))) < |leafRatio id r h x i - m| := by
    intro m
    have h4 := haway i m
    rw [Box.lower_apply] at h4
    simp only [RBox.exact] at h4
    have : leafRatio id r h x i - m = 2 ^ h / r.len * (x i - (r.center i - r.len / 2 + m * (r.len / 2 ^ h))) := by
      rw [e]; field_simp; ring
    rw [this, abs_mul, abs_of_pos hp]
    exact mul_lt_mul_of_pos_left h4 hp
  have hfl : ⌊leafRatio rnd r h x i⌋ = ⌊leafRatio id r h x i⌋ := by
    obtain ⟨n, hn⟩ := Int.eq_ofNat_of_zero_le (Int.floor_nonneg.mpr ht0)
    have f1 := Int.floor_le (leafRatio id r h x i)
    have f2 := Int.lt_floor_add_one (leafRatio id r h x i)
    rw [hn] at f1 f2
    simp only [Int.ofNat_eq_natCast, Int.cast_natCast] at f1 f2
    have k1 := key n
    have k2 := key (n + 1)
    push_cast at k2
    rw [abs_of_nonneg (by linarith)] at k1
    rw [abs_of_nonpos (by linarith)] at k2
    obtain ⟨l1, l2⟩ := abs_le.mp h3
    rw [hn, Int.floor_eq_iff]
    simp only [Int.ofNat_eq_natCast, Int.cast_natCast]
    constructor <;> linarith
  rw [hfl]

/-- With `double`s and a root box around the origin this holds for all trees up to height 16 (the greatest height with
`d = 2`). -/
example (L : ℝ) (hL : 0 < L) (π : Path) (hπ : π.length = 16) :
    leafIndices rndNE (⟨0, L⟩ : RBox ℝ 2) 16 (boxAt rndNE ⟨0, L⟩ π).center = .ok (grid 2 π) :=
  C64_leaf_centres rndNE_rel (by positivity) (by norm_num) ⟨0, L⟩ hL le_rfl (by simp) 16 (by norm_num) (by
    show (8 * ((16 : ℕ) : ℝ) + 15) * (1 / 2 ^ 53 * (4 * (0 + L))) < L / 2 ^ (16 + 1)
    norm_num
    linarith) π hπ

end FMM.Rounded
