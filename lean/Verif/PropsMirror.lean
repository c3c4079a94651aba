import Verif.PropsAxes
import Verif.Example2D

/-!
# Reflections (C126)

The exchange of axes cannot be replaced by a reflection: points on the common boundary of two boxes always belong to the upper one.
-/

namespace FMM

/-- Reflection of the horizontal axis. -/
def Source.mirror (s : Source 2) : Source 2 := ⟨![-s.pos 0, s.pos 1], s.q⟩

/-- The middle source is on the common boundary of two boxes. -/
noncomputable def S3m : List (Source 2) := [⟨![1, 1], 1⟩, ⟨![-1, -1], 1⟩, ⟨![0, 1], 1⟩]

noncomputable def S3m' : List (Source 2) := [⟨![-1, 1], 1⟩, ⟨![1, -1], 1⟩, ⟨![0, 1], 1⟩]

theorem S3m_mirror : S3m.map Source.mirror = S3m' := by
  simp [S3m, S3m', Source.mirror]

theorem box_of_three (S : List (Source 2)) (h : S = S3m ∨ S = S3m') : rootBox (S.map Source.pos) = some box5 := by
  refine rootBox_eq _ (fun _ => -1) (fun _ => 1) 2 ?_ ?_ ?_ ?_
  · intro i
    constructor
    · rcases h with rfl | rfl
      · exact ⟨![-1, -1], by simp [S3m], by fin_cases i <;> rfl⟩
      · fin_cases i
        · exact ⟨![-1, 1], by simp [S3m'], rfl⟩
        · exact ⟨![1, -1], by simp [S3m'], rfl⟩
    · intro p hp
      rcases h with rfl | rfl
      · simp [S3m] at hp
        rcases hp with rfl | rfl | rfl <;> fin_cases i <;> norm_num
      · simp [S3m'] at hp
        rcases hp with rfl | rfl | rfl <;> fin_cases i <;> norm_num
  · intro i
    constructor
    · rcases h with rfl | rfl
      · exact ⟨![1, 1], by simp [S3m], by fin_cases i <;> rfl⟩
      · fin_cases i
        · exact ⟨![1, -1], by simp [S3m'], rfl⟩
        · exact ⟨![-1, 1], by simp [S3m'], rfl⟩
    · intro p hp
      rcases h with rfl | rfl
      · simp [S3m] at hp
        rcases hp with rfl | rfl | rfl <;> fin_cases i <;> norm_num
      · simp [S3m'] at hp
        rcases hp with rfl | rfl | rfl <;> fin_cases i <;> norm_num
  · intro i; norm_num
  · exact ⟨0, by norm_num⟩

theorem inside_of_three (S : List (Source 2)) (h : S = S3m ∨ S = S3m') : ∀ s ∈ S, box5.contains s.pos := by
  intro s hs
  refine containsHO_contains ?_
  rcases h with rfl | rfl
  · simp [S3m] at hs
    rcases hs with rfl | rfl | rfl <;> intro i <;> rw [Box.lower_apply, Box.upper_apply] <;>
      fin_cases i <;> norm_num [box5, paddingFactor]
  · simp [S3m'] at hs
    rcases hs with rfl | rfl | rfl <;> intro i <;> rw [Box.lower_apply, Box.upper_apply] <;>
      fin_cases i <;> norm_num [box5, paddingFactor]

theorem mult_of_nodup {S : List (Source 2)} (hnd : (S.map Source.pos).Nodup) (x : Vec 2) : (S.filter fun s => decide (s.pos = x)).length ≤ 1 := by
  rw [← List.countP_eq_length_filter]
  have : List.countP (fun s : Source 2 => decide (s.pos = x)) S = (S.map Source.pos).count x := by
    rw [List.count, List.countP_map]
    refine List.countP_congr fun s _ => ?_
    simp
  rw [this]
  exact List.nodup_iff_count_le_one.mp hnd x

theorem S3m_adaptive : AdaptiveInput S3m 1 box5 :=
  ⟨box_of_three _ (Or.inl rfl), inside_of_three _ (Or.inl rfl), mult_of_nodup (by simp [S3m]; norm_num [funext_iff, Fin.forall_fin_two])⟩

theorem S3m'_adaptive : AdaptiveInput S3m' 1 box5 :=
  ⟨box_of_three _ (Or.inr rfl), inside_of_three _ (Or.inr rfl), mult_of_nodup (by simp [S3m']; norm_num [funext_iff, Fin.forall_fin_two])⟩

theorem route5 (x : Vec 2) : route box5 x 1 = [(if 0 ≤ x 0 then 2 else 0) + (if 0 ≤ x 1 then 1 else 0)] := by
  have h : ∀ i, box5.center i = 0 := fun i => by simp [box5]
  have e : route box5 x 1 = [((0 <<< 1 ||| (if 0 ≤ x 0 then 1 else 0)) <<< 1) ||| (if 0 ≤ x 1 then 1 else 0)] := by
    show [getOrthant box5.center x] = _
    unfold getOrthant
    simp only [h]
    rfl
  rw [e]
  by_cases h0 : 0 ≤ x 0 <;> by_cases h1 : 0 ≤ x 1 <;> simp [h0, h1]

theorem S3m_node : [3] ∈ nodeLevel Source.pos box5 S3m 1 1 := by
  unfold nodeLevel
  rw [List.mem_filter]
  constructor
  · simp [nodeLevel, PTree.kids, adaptiveTree]
  · have : (itemsAt Source.pos box5 S3m [3]).length = 2 := by
      unfold itemsAt
      simp only [List.length_singleton, route5]
      norm_num [S3m, List.filter_cons]
    simp [adaptiveTree, this]

theorem S3m'_node : nodeLevel Source.pos box5 S3m' 1 1 = [] := by
  unfold nodeLevel
  rw [List.filter_eq_nil_iff]
  intro π hπ
  have hl : ∃ i < 4, π = [i] := by
    simp [nodeLevel, PTree.kids, adaptiveTree] at hπ
    obtain ⟨i, hi, e⟩ := hπ
    exact ⟨i, hi, e.symm⟩
  obtain ⟨i, hi, rfl⟩ := hl
  have : (itemsAt Source.pos box5 S3m' [i]).length ≤ 1 := by
    unfold itemsAt
    simp only [List.length_singleton, route5]
    interval_cases i <;> norm_num [S3m', List.filter_cons]
  simp [adaptiveTree, this]

theorem order_of_three (S : List (Source 2)) (h : S = S3m ∨ S = S3m') : expansionOrder (totalStrength S) 1 = .ok 2 := by
  have : totalStrength S = 3 := by
    rw [totalStrength_eq]
    rcases h with rfl | rfl
    · simp [S3m]; norm_num
    · simp [S3m']; norm_num
  rw [this]
  refine order_eq 3 1 2 (by norm_num) (by norm_num) (by norm_num) ?_ (by norm_num)
  intro q hq
  interval_cases q <;> norm_num

/-- **C126** The reflection of one axis changes the tree: three sources whose tree has more levels than that of their mirror images, over the same root
box. -/
theorem C126_reflection_false : ∃ (S : List (Source 2)) (r : Box 2), AdaptiveInput S 1 r ∧ AdaptiveInput (S.map Source.mirror) 1 r ∧
    ∃ (fuel0 : ℕ) (T T' : AdaptiveFmm kit2), (∀ fuel ≥ fuel0, ∀ sch, Schedule sch → adaptiveFmm kit2 fuel sch BinomialTable.init S 1 1 = .ok T ∧
      adaptiveFmm kit2 fuel sch BinomialTable.init (S.map Source.mirror) 1 1 = .ok T') ∧ T'.height < T.height := by
  refine ⟨S3m, box5, S3m_adaptive, by rw [S3m_mirror]; exact S3m'_adaptive, ?_⟩
  rw [S3m_mirror]
  obtain ⟨h, k, h1, h2, h3, h4, -⟩ := adaptive_depths S3m_adaptive (by simp [S3m])
  obtain ⟨h', k', h1', h2', h3', h4', -⟩ := adaptive_depths S3m'_adaptive (by simp [S3m'])
  obtain ⟨f, T, a, e, -⟩ := adaptive_superposed (lin2Pot 2 (by norm_num) (by norm_num) _) ⟨reachable_init.good, rfl⟩ S3m_adaptive (by simp [S3m]) h1 h2 h3 h4 S3m 1
    (List.Perm.refl _) (order_of_three _ (Or.inl rfl))
  obtain ⟨f', T', a', e', -⟩ := adaptive_superposed (lin2Pot 2 (by norm_num) (by norm_num) _) ⟨reachable_init.good, rfl⟩ S3m'_adaptive (by simp [S3m']) h1' h2' h3' h4'
    S3m' 1 (List.Perm.refl _) (order_of_three _ (Or.inr rfl))
  refine ⟨f + f', T, T', fun fuel hf sch hs => ⟨a fuel (by omega) sch hs, a' fuel (by omega) sch hs⟩, ?_⟩
  rw [e, e']
  have hh' : h' = 1 := by
    by_contra hne
    exact h1'.2.2 1 one_pos (by have := h1'.1; omega) S3m'_node
  have hh : h ≠ 1 := by
    rintro rfl
    have := S3m_node
    rw [h1.2.1] at this
    simp at this
  have := h1.1
  omega

end FMM
