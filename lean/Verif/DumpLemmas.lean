import Verif.Dump
import Verif.PropsAdaptive
import Verif.PropsBalanced
import Mathlib.Data.List.OfFn

/-!
# Lemmas about the dump: contents of the files after part of the traversal
-/

namespace FMM

/-! ## Lists of a tree of paths -/

namespace PTree
variable {T : PTree}

theorem own_Mem {π : Path} (hπ : T.Mem π) : ∀ ν ∈ T.own π, T.Mem ν := by
  induction π with
  | nil => intro ν hν; simp only [own, List.mem_singleton] at hν; rw [hν]; exact mem_nil
  | cons i τ ih =>
    intro ν hν
    simp only [own, List.mem_flatMap] at hν
    obtain ⟨μ, hμ, hν⟩ := hν
    have hm := ih hπ.tail μ hμ
    by_cases hl : T.leaf μ = true
    · rw [if_pos hl] at hν
      by_cases ha : T.adj (i :: τ) μ = true
      · rw [if_pos ha, List.mem_singleton] at hν; rw [hν]; exact hm
      · rw [if_neg ha] at hν; simp at hν
    · rw [if_neg hl] at hν
      obtain ⟨j, hj, rfl⟩ := mem_kids.mp (List.mem_filter.mp hν).1
      exact hm.cons (by simpa using hl) hj

theorem inter_Mem {π : Path} (hπ : T.Mem π) : ∀ ν ∈ T.inter π, T.Mem ν := by
  cases π with
  | nil => intro ν hν; simp [inter] at hν
  | cons i τ =>
    intro ν hν
    simp only [inter, List.mem_flatMap] at hν
    obtain ⟨μ, hμ, hν⟩ := hν
    by_cases hl : T.leaf μ = true
    · rw [if_pos hl] at hν; simp at hν
    · rw [if_neg hl] at hν
      obtain ⟨j, hj, rfl⟩ := mem_kids.mp (List.mem_filter.mp hν).1
      exact (own_Mem hπ.tail μ hμ).cons (by simpa using hl) hj

theorem xl_Mem {π : Path} (hπ : T.Mem π) : ∀ ν ∈ T.xl π, T.Mem ν := by
  cases π with
  | nil => intro ν hν; simp [xl] at hν
  | cons i τ =>
    intro ν hν
    exact own_Mem hπ.tail ν (List.mem_filter.mp hν).1

theorem nbhAfter_Mem {V : List Path} (hV : ∀ π ∈ V, T.Mem π) {π : Path} (hπ : T.Mem π) :
    (∀ ν ∈ (T.nbhAfter V).near π, T.Mem ν) ∧ (∀ ν ∈ (T.nbhAfter V).inter π, T.Mem ν) ∧
      (∀ ν ∈ (T.nbhAfter V).X π, T.Mem ν) ∧ ∀ ν ∈ (T.nbhAfter V).W π, T.Mem ν := by
  refine ⟨fun ν hν => ?_, fun ν hν => ?_, fun ν hν => ?_, fun ν hν => ?_⟩
  · rcases List.mem_append.mp hν with h | h
    · by_cases hp : π ∈ V
      · rw [if_pos hp] at h; exact own_Mem hπ ν h
      · rw [if_neg hp] at h; simp at h
    · exact hV ν (List.mem_filter.mp h).1
  · simp only [nbhAfter] at hν
    by_cases hp : π ∈ V
    · rw [if_pos hp] at hν; exact inter_Mem hπ ν hν
    · rw [if_neg hp] at hν; simp at hν
  · simp only [nbhAfter] at hν
    by_cases hp : π ∈ V
    · rw [if_pos hp] at hν; exact xl_Mem hπ ν hν
    · rw [if_neg hp] at hν; simp at hν
  · exact hV ν (List.mem_filter.mp hν).1

/-- The traversal visits the nodes in the order of their numbers in the complete tree. -/
theorem level_gidx (k : ℕ) : (T.level k).Pairwise fun a b => gidx T.c a < gidx T.c b := by
  induction k with
  | zero => simp [level, bfsLevel]
  | succ k ih =>
    have : T.level (k + 1) = (T.level k).flatMap T.ch := rfl
    rw [this, List.pairwise_flatMap]
    refine ⟨fun a _ => ?_, ih.imp ?_⟩
    · unfold ch
      split_ifs
      · simp
      · unfold kids
        rw [List.pairwise_map]
        refine List.pairwise_lt_range.imp ?_
        intro i j hij
        simp only [gidx]; omega
    · intro a b hab x hx y hy
      obtain ⟨-, i, hi, rfl⟩ := mem_ch.mp hx
      obtain ⟨-, j, hj, rfl⟩ := mem_ch.mp hy
      simp only [gidx]
      have : T.c * (gidx T.c a + 1) ≤ T.c * gidx T.c b := Nat.mul_le_mul_left _ hab
      rw [Nat.mul_add] at this
      omega

theorem order_gidx (h : ℕ) : (T.order h).Pairwise fun a b => gidx T.c a < gidx T.c b := by
  have : T.order h = (List.range h).flatMap T.level := rfl
  rw [this, List.pairwise_flatMap]
  refine ⟨fun k _ => level_gidx k, List.pairwise_lt_range.imp ?_⟩
  intro i j hij a ha b hb
  obtain ⟨ma, la⟩ := (mem_level i a).mp ha
  obtain ⟨mb, lb⟩ := (mem_level j b).mp hb
  have hc : 0 < T.c := by
    cases b with
    | nil => simp at lb; omega
    | cons x τ => exact lt_of_le_of_lt (Nat.zero_le _) mb.lt
  have h1 : gidx T.c a < off T.c (i + 1) := by
    rw [← gpath_length_lt _ hc, gpath_gidx _ _ ma.1]; omega
  have h2 : ¬ gidx T.c b < off T.c (i + 1) := by
    rw [← gpath_length_lt _ hc, gpath_gidx _ _ mb.1]; omega
  omega

end PTree

namespace Dump
variable {d : ℕ}

/-! ## Lines -/

/-- The fields written for the centres of the members of a list. -/
noncomputable def centerFields {A : Type} (center : A → Vec d) (l : List A) : Line := l.flatMap fun a => coords (center a)

/-- The line written for the sources of a leaf with number `id`. -/
noncomputable def sourceLine (id : ℕ) (l : List (Source d)) : Line :=
  .nat id :: l.flatMap fun s => coords s.pos ++ [.num s.q]

/-- The line written for the points of a leaf with number `id`. -/
noncomputable def pointLine (id : ℕ) (l : List (Vec d)) : Line := .nat id :: l.flatMap coords

theorem writeCenters_ok {A : Type} (get : A → Outcome (Vec d)) (center : A → Vec d) (l : List A)
    (h : ∀ a ∈ l, get a = .ok (center a)) (line : Line) :
    writeCenters get l line = .ok (line ++ centerFields center l) := by
  unfold writeCenters centerFields
  induction l generalizing line with
  | nil => simp; rfl
  | cons a l ih =>
    rw [List.foldlM_cons, h a (by simp), ok_bind, ok_bind, ih (fun b hb => h b (by simp [hb]))]
    simp

theorem writeSources_eq (l : List (Source d)) (line : Line) :
    writeSources l line = line ++ l.flatMap fun s => coords s.pos ++ [.num s.q] := by
  unfold writeSources
  induction l generalizing line with
  | nil => simp
  | cons s l ih => rw [List.foldl_cons, ih]; simp

theorem writePoints_eq (l : List (Vec d)) (line : Line) : writePoints l line = line ++ l.flatMap coords := by
  unfold writePoints
  induction l generalizing line with
  | nil => simp
  | cons s l ih => rw [List.foldl_cons, ih]; simp

theorem coords_length (v : Vec d) : (coords v).length = d := by simp [coords]

theorem coords_inj {v w : Vec d} (h : coords v = coords w) : v = w := by
  unfold coords at h
  have := List.map_injective_iff.mpr (fun a b (e : Field.num a = Field.num b) => by injection e) h
  exact List.ofFn_injective this

theorem sourceFields_inj : ∀ l l' : List (Source d),
    (l.flatMap fun s => coords s.pos ++ [Field.num s.q]) = (l'.flatMap fun s => coords s.pos ++ [Field.num s.q]) → l = l'
  | [], [], _ => rfl
  | [], s :: l', h => by simp at h
  | s :: l, [], h => by simp at h
  | s :: l, s' :: l', h => by
    rw [List.flatMap_cons, List.flatMap_cons] at h
    obtain ⟨h1, h2⟩ := List.append_inj h (by simp [coords_length])
    obtain ⟨h3, h4⟩ := List.append_inj h1 (by simp [coords_length])
    have hp := coords_inj h3
    have hq : s.q = s'.q := by simpa using h4
    rw [sourceFields_inj l l' h2]
    cases s; cases s'; simp_all

theorem pointFields_inj (hd : 0 < d) : ∀ l l' : List (Vec d), l.flatMap coords = l'.flatMap coords → l = l'
  | [], [], _ => rfl
  | [], s :: l', h => by
    have := congrArg List.length h
    simp [coords_length] at this; omega
  | s :: l, [], h => by
    have := congrArg List.length h
    simp [coords_length] at this; omega
  | s :: l, s' :: l', h => by
    rw [List.flatMap_cons, List.flatMap_cons] at h
    obtain ⟨h1, h2⟩ := List.append_inj h (by simp [coords_length])
    rw [coords_inj h1, pointFields_inj hd l l' h2]

/-! ## Adaptive tree -/

/-- Whether an address is that of a leaf. -/
def leafAt {α : Type} (heap : AHeap d α) (π : Path) : Bool := (heap π).any (·.isLeaf)

/-- The beginning of the lines of the dump of an adaptive tree. -/
noncomputable def headLine {α : Type} (heap : AHeap d α) (r : Box d) (π : Path) (id : ℕ) : Line :=
  [.nat id, .flag (leafAt heap π), .nat π.length, .num (boxAt r π).len]

/-- Contents of the files when the nodes in `done` have been visited. -/
noncomputable def adaptiveFiles (heap : AHeap d (Source d)) (nb : Nbh) (r : Box d) (done : List Path) : Files where
  n := done.length
  geometry := done.zipIdx.map fun p => headLine heap r p.1 p.2 ++ coords (boxAt r p.1).center
  data := (done.zipIdx.filter fun p => leafAt heap p.1).map fun p => sourceLine p.2 (storedIn heap p.1)
  near := done.zipIdx.map fun p => headLine heap r p.1 p.2 ++ coords (boxAt r p.1).center
    ++ centerFields (fun ρ => (boxAt r ρ).center) (nb.near p.1)
  inter := done.zipIdx.map fun p => headLine heap r p.1 p.2 ++ coords (boxAt r p.1).center
    ++ centerFields (fun ρ => (boxAt r ρ).center) (nb.inter p.1)
  W := (done.zipIdx.filter fun p => leafAt heap p.1).map fun p => headLine heap r p.1 p.2
    ++ centerFields (fun ρ => (boxAt r ρ).center) (nb.W p.1)
  X := done.zipIdx.map fun p => headLine heap r p.1 p.2 ++ coords (boxAt r p.1).center
    ++ centerFields (fun ρ => (boxAt r ρ).center) (nb.X p.1)

theorem leafAt_treeHeap {α : Type} (T : PTree) (r : Box d) (it : Path → List α) {π : Path} (h : T.Mem π) :
    leafAt (treeHeap T r it) π = T.leaf π := by
  unfold leafAt treeHeap
  rw [if_pos h]; rfl

theorem zipIdx_concat {A : Type} (l : List A) (a : A) : (l ++ [a]).zipIdx = l.zipIdx ++ [(a, l.length)] := by
  rw [List.zipIdx_append]; simp

theorem toFileAdaptive_ok (T : PTree) (r : Box d) (it : Path → List (Source d)) (hc : T.c = 2 ^ d) (h : ℕ)
    (hh : ∀ π, T.Mem π → π.length < h) (V : List Path) (hV : ∀ π ∈ V, T.Mem π) (fuel : ℕ)
    (hf : (T.order h).length ≤ fuel) :
    toFileAdaptive fuel (treeHeap T r it) (T.nbhAfter V)
      = .ok (adaptiveFiles (treeHeap T r it) (T.nbhAfter V) r (T.order h)) := by
  obtain ⟨s', _, h2, h3⟩ := traverseBFS_eq (2 ^ d)
    (fun _ π => do let n ← (treeHeap T r it).get π; .ok n.child) (visitAdaptive (treeHeap T r it) (T.nbhAfter V))
    T.ch [] (fun done s => s = adaptiveFiles (treeHeap T r it) (T.nbhAfter V) r done) h (PTree.level_nil hh) (by
      intro d1 π d2 e s hs
      subst hs
      have hm := (PTree.order_prefix e).1
      obtain ⟨m1, m2, m3, m4⟩ := PTree.nbhAfter_Mem hV hm
      refine ⟨adaptiveFiles (treeHeap T r it) (T.nbhAfter V) r (d1 ++ [π]), _, ?_, rfl, ?_, pushKids_tree T hc π⟩
      · have hcen : ∀ l : List Path, (∀ ν ∈ l, T.Mem ν) → ∀ ν ∈ l,
            (do let n ← (treeHeap T r it).get ν; .ok n.box.center) = (.ok (boxAt r ν).center : Outcome (Vec d)) := by
          intro l hl ν hν
          rw [treeHeap_get T it (hl ν hν), ok_bind]
        unfold visitAdaptive
        rw [treeHeap_get T it hm, ok_bind]
        simp only
        rw [writeCenters_ok _ (fun ν => (boxAt r ν).center) _ (hcen _ m1),
          writeCenters_ok _ (fun ν => (boxAt r ν).center) _ (hcen _ m2),
          writeCenters_ok _ (fun ν => (boxAt r ν).center) _ (hcen _ m3),
          writeCenters_ok _ (fun ν => (boxAt r ν).center) _ (hcen _ m4)]
        have hlf := leafAt_treeHeap T r it hm
        by_cases hl : T.leaf π = true
        · rw [if_pos hl]
          simp only [ok_bind]
          rw [if_pos hl]
          have hs := treeHeap_stored (r := r) T it hm hl
          simp only [adaptiveFiles, zipIdx_concat, List.map_append, List.filter_append, List.length_append,
            List.length_cons, List.length_nil, List.map_cons, List.map_nil, writeSources_eq]
          simp [headLine, hlf, hl, sourceLine, hs]
        · have hl' : T.leaf π = false := by simpa using hl
          rw [if_neg hl]
          simp only [ok_bind]
          simp only [adaptiveFiles, zipIdx_concat, List.map_append, List.filter_append, List.length_append,
            List.length_cons, List.length_nil, List.map_cons, List.map_nil]
          simp [headLine, hlf, hl']
      · rw [treeHeap_get T it hm, ok_bind]) Files.empty (by simp [adaptiveFiles, Files.empty])
  subst h2
  exact h3 fuel hf

/-! ## Point tree -/

/-- Contents of the files when the nodes in `done` have been visited. -/
noncomputable def pointFiles (heap : AHeap d (Vec d)) (r : Box d) (done : List Path) : Files where
  n := done.length
  geometry := done.zipIdx.map fun p => headLine heap r p.1 p.2 ++ coords (boxAt r p.1).center
  data := (done.zipIdx.filter fun p => leafAt heap p.1).map fun p => pointLine p.2 (storedIn heap p.1)
  near := []
  inter := []
  W := []
  X := []

theorem toFilePoints_ok (T : PTree) (r : Box d) (it : Path → List (Vec d)) (hc : T.c = 2 ^ d) (h : ℕ)
    (hh : ∀ π, T.Mem π → π.length < h) (fuel : ℕ) (hf : (T.order h).length ≤ fuel) :
    toFilePoints fuel (treeHeap T r it) = .ok (pointFiles (treeHeap T r it) r (T.order h)) := by
  obtain ⟨s', _, h2, h3⟩ := traverseBFS_eq (2 ^ d)
    (fun _ π => do let n ← (treeHeap T r it).get π; .ok n.child) (visitPoints (treeHeap T r it))
    T.ch [] (fun done s => s = pointFiles (treeHeap T r it) r done) h (PTree.level_nil hh) (by
      intro d1 π d2 e s hs
      subst hs
      have hm := (PTree.order_prefix e).1
      refine ⟨pointFiles (treeHeap T r it) r (d1 ++ [π]), _, ?_, rfl, ?_, pushKids_tree T hc π⟩
      · unfold visitPoints
        rw [treeHeap_get T it hm, ok_bind]
        have hlf := leafAt_treeHeap T r it hm
        have hpos : 0 < T.c := by rw [hc]; positivity
        by_cases hl : T.leaf π = true
        · have hs := treeHeap_stored (r := r) T it hm hl
          simp only [hl, Bool.true_eq_false, false_and, if_false, Option.isNone_none, if_true, ok_bind]
          simp only [pointFiles, zipIdx_concat, List.map_append, List.filter_append, List.length_append,
            List.length_cons, List.length_nil, List.map_cons, List.map_nil, writePoints_eq]
          simp [headLine, hlf, hl, pointLine, hs]
        · have hl' : T.leaf π = false := by simpa using hl
          simp only [hl', hpos, and_self, if_true, Option.isNone_some, Bool.false_eq_true, if_false, ok_bind]
          simp only [pointFiles, zipIdx_concat, List.map_append, List.filter_append, List.length_append,
            List.length_cons, List.length_nil, List.map_cons, List.map_nil]
          simp [headLine, hlf, hl']
      · rw [treeHeap_get T it hm, ok_bind]) Files.empty (by simp [pointFiles, Files.empty])
  subst h2
  exact h3 fuel hf

end Dump
end FMM
