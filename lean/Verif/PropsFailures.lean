import Verif.DoubleExp2
import Verif.DoubleTree3
import Verif.Dump
import Verif.Glue
import Verif.AdaptiveNbh
import Verif.BalancedTree
import Verif.FmmPasses

/-!
# C111: how single operations fail

For the operations that check their arguments, or that are undefined for some arguments: exactly when they fail, and with
which failure.  (The constructors never reach these failures; that is part of the claims on the trees.)
-/

namespace FMM
namespace PropsFailures

/-! ## `operator+=` of the expansions, with doubles -/

/-- **C111** (double, plane) `operator+=` throws `std::logic_error` exactly for different numbers of coefficients or different
centres; otherwise it adds the coefficients and keeps order and centre. -/
theorem C111_add_assign_2d (e f : D2.ExpD) :
    (e.coeffs.size ≠ f.coeffs.size ∨ e.center ≠ f.center → D2.addEq e f = .error .logicError) ∧
    (e.coeffs.size = f.coeffs.size → e.center = f.center → ∃ g, D2.addEq e f = .ok g ∧ g.order = e.order ∧ g.center = e.center ∧
      g.coeffs.size = e.coeffs.size ∧ ∀ k < e.coeffs.size, g.coeffs.val k = D64.cadd (e.coeffs.val k) (f.coeffs.val k)) := by
  unfold D2.addEq
  refine ⟨fun h => if_pos h, fun h h' => ⟨_, if_neg (by simp [h, h']), rfl, rfl, rfl, fun k hk => if_pos hk⟩⟩

/-- **C111** (double, space) The same in three dimensions. -/
theorem C111_add_assign_3d (e f : D64.Exp64) :
    (e.size ≠ f.size ∨ e.center ≠ f.center → D64.addEq e f = .error .logicError) ∧
    (e.size = f.size → e.center = f.center → ∃ g, D64.addEq e f = .ok g ∧ g.order = e.order ∧ g.center = e.center ∧ g.size = e.size ∧
      ∀ n m, g.c n m = D64.cadd (e.c n m) (f.c n m)) := by
  unfold D64.addEq
  refine ⟨fun h => if_pos h, fun h h' => ⟨_, if_neg (by simp [h, h']), rfl, rfl, rfl, fun n m => rfl⟩⟩

/-- Different sizes. -/
example : D64.addEq (D64.Exp64.new 0 1) (D64.Exp64.new 0 2) = .error .logicError :=
  (C111_add_assign_3d _ _).1 (.inl (by simp [D64.Exp64.new]))

/-! ## `localToLocal` -/

section
variable {d : ℕ} {K : Kit d} {A : Type} [DecidableEq A]

/-- **C111** `localToLocal` ends in an assertion for a node without a parent, and for a node whose parent has a default-constructed
(empty) local expansion. -/
theorem C111_local_to_local_asserts (sh : Shape d A) (a : A) (s : Exps K A) (n : NodeRec d A) (hn : sh a = .ok n) :
    (n.parent = none → localToLocal K sh a s = .error .assertFail) ∧
    (∀ p e, n.parent = some p → s.le p = some e → K.size e = 0 → localToLocal K sh a s = .error .assertFail) := by
  unfold localToLocal
  rw [hn]
  constructor
  · intro h
    simp [h, bind, Except.bind]
  · intro p e h he h0
    simp [h, he, h0, Exps.rdLe, bind, Except.bind]

/-- **C111** Otherwise it adds the translated expansion of the parent to the local expansion of the node and changes nothing else,
or throws whatever the translation or the addition throws. -/
theorem C111_local_to_local (sh : Shape d A) (a p : A) (s : Exps K A) (n : NodeRec d A) (e cur : K.E) (hn : sh a = .ok n)
    (hp : n.parent = some p) (he : s.le p = some e) (hc : s.le a = some cur) (h0 : K.size e ≠ 0) :
    (∀ x, K.leLe s.t n.center e = .error x → localToLocal K sh a s = .error x) ∧
    (∀ t f x, K.leLe s.t n.center e = .ok (t, f) → K.addEq cur f = .error x → localToLocal K sh a s = .error x) ∧
    (∀ t f g, K.leLe s.t n.center e = .ok (t, f) → K.addEq cur f = .ok g → ∃ s', localToLocal K sh a s = .ok s' ∧
      s'.t = t ∧ s'.me = s.me ∧ s'.le a = some g ∧ ∀ b ≠ a, s'.le b = s.le b) := by
  unfold localToLocal
  rw [hn]
  refine ⟨?_, ?_, ?_⟩
  · intro x h
    simp [hp, he, h0, h, Exps.rdLe, bind, Except.bind]
  · intro t f x h h'
    simp [hp, he, hc, h0, h, h', Exps.rdLe, bind, Except.bind]
  · intro t f g h h'
    refine ⟨({ s with t := t } : Exps K A).setLe a g, ?_, rfl, rfl, ?_, ?_⟩
    · simp [hp, he, hc, h0, h, h', Exps.rdLe, bind, Except.bind]
    · simp [Exps.setLe]
    · intro b hb
      simp [Exps.setLe, Function.update_of_ne hb]

/-- A root: the pass over the nodes must begin below it. -/
example (L : D64.Lib) (s : Exps (D64.kit64 L) ℕ) :
    localToLocal (D64.kit64 L) (fun _ => .ok ⟨0, none, [], [], [], [], [], .ok []⟩) 0 s = .error .assertFail :=
  (C111_local_to_local_asserts _ 0 s _ rfl).1 rfl

/-- A parent whose local expansion is still empty. -/
example (L : D64.Lib) : localToLocal (D64.kit64 L) (fun _ => .ok ⟨0, some 1, [], [], [], [], [], .ok []⟩) 0
    ⟨(), fun _ => none, fun _ => some (D64.kit64 L).empty⟩ = .error .assertFail :=
  (C111_local_to_local_asserts _ 0 _ _ rfl).2 1 _ rfl rfl rfl

/-- Child and parent with expansions of order 1 about the same point. -/
example (L : D64.Lib) : ∃ s', localToLocal (D64.kit64 L) (fun _ => .ok ⟨0, some 1, [], [], [], [], [], .ok []⟩) 0
    ⟨(), fun _ => none, fun _ => some (D64.Exp64.new 0 1)⟩ = .ok s' ∧ s'.le 1 = some (D64.Exp64.new 0 1) := by
  obtain ⟨g, hg, -⟩ := (C111_add_assign_3d (D64.Exp64.new 0 1) { D64.Exp64.new 0 1 with
    c := D64.leShift L 1 (D64.Exp64.new 0 1).c (D64.vsub (0 : Vec 3) 0) }).2 rfl rfl
  obtain ⟨s', h, -, -, -, h'⟩ := (C111_local_to_local (K := D64.kit64 L) (fun _ => .ok ⟨0, some 1, [], [], [], [], [], .ok []⟩) (0 : ℕ) 1
    ⟨(), fun _ => none, fun _ => some (D64.Exp64.new 0 1)⟩ _ (D64.Exp64.new 0 1) (D64.Exp64.new 0 1) rfl rfl rfl rfl
    (by simp [D64.kit64, D64.Exp64.new])).2.2 () _ g rfl hg
  exact ⟨s', h, h' 1 (by norm_num)⟩

end

/-! ## Access to the coordinates of a vector -/

/-- **C111** `v[j]` is undefined exactly for `j ≥ d`; an assignment through it changes one coordinate. -/
theorem C111_vector_access {d : ℕ} (v : Vec d) (j : ℕ) (a : ℝ) :
    (d ≤ j → Glue.vget v j = .error .ub ∧ Glue.vset v j a = .error .ub) ∧
    (∀ h : j < d, Glue.vget v j = .ok (v ⟨j, h⟩) ∧ ∃ w, Glue.vset v j a = .ok w ∧ Glue.vget w j = .ok a ∧
      ∀ i ≠ j, Glue.vget w i = Glue.vget v i) := by
  constructor
  · intro h
    simp [Glue.vget, Glue.vset, not_lt.mpr h]
  · intro h
    refine ⟨dif_pos h, Function.update v ⟨j, h⟩ a, dif_pos h, ?_, ?_⟩
    · simp [Glue.vget, h]
    · intro i hi
      unfold Glue.vget
      by_cases h' : i < d
      · rw [dif_pos h', dif_pos h', Function.update_of_ne (by simpa [Fin.ext_iff] using hi)]
      · rw [dif_neg h', dif_neg h']

/-- The fourth coordinate of a point in space. -/
example : Glue.vget (![1, 2, 3] : Vec 3) 3 = .error .ub := ((C111_vector_access _ 3 0).1 (by norm_num)).1

/-! ## Writing the balanced tree -/

/-- **C111** `toFile` of the balanced tree casts every node without a first child to a leaf: undefined for an inner node. -/
theorem C111_dump_cast {d : ℕ} (m : BMem d) (src : BSrc (Source d)) (nb : BNbh) (st : Dump.Files) (k : ℕ) (n : BNode d)
    (hn : m.get (.node k) = .ok n) (h0 : n.child 0 = none) : Dump.visitBalanced m src nb st (.node k) = .error .ub := by
  unfold Dump.visitBalanced
  rw [hn]
  simp [h0, bind, Except.bind]

/-- A tree with one inner node only. -/
example : Dump.visitBalanced (⟨1, 0, fun _ => some ⟨⟨0, 1⟩, 0, none, fun _ => none⟩, fun _ => none, 0, 0⟩ : BMem 2) ⟨fun _ => [], fun _ => none⟩
    ⟨fun _ => [], fun _ => []⟩ Dump.Files.empty (.node 0) = .error .ub := C111_dump_cast _ _ _ _ 0 _ rfl rfl

/-- **C111** The same for `toFile` of the point tree. -/
theorem C111_dump_cast_points {d : ℕ} (heap : AHeap d (Vec d)) (st : Dump.Files) (π : Path) (n : ANode d (Vec d)) (hn : heap.get π = .ok n)
    (h0 : n.child 0 = none) (hl : n.isLeaf = false) : Dump.visitPoints heap st π = .error .ub := by
  unfold Dump.visitPoints
  rw [hn]
  simp [h0, hl, bind, Except.bind]

/-- The root of a tree whose children are not constructed yet. -/
example : Dump.visitPoints (rootHeap (⟨0, 1⟩ : Box 2) false []) Dump.Files.empty [] = .error .ub := C111_dump_cast_points _ _ _ _ rfl rfl rfl

/-! ## The sanity check of the interaction lists -/

/-- **C111** (adaptive tree) The loop over the children of a neighbour of the parent throws `std::logic_error` exactly for a child that
is not adjacent and whose centre is closer than `1.99` side lengths. -/
theorem C111_sanity_check {d : ℕ} {α : Type} (heap : AHeap d α) (π par : Path) (node : ANode d α) (child : ℕ → Option Path) (st : Nbh) (i : ℕ)
    (c : Path) (cn : ANode d α) (hc : child i = some c) (hcn : heap.get c = .ok cn) :
    nbhChild heap π par node child st i = .error .logicError ↔
      ¬ node.box.adjacent cn.box ∧ Vec.norm (node.box.center - cn.box.center) < 199 / 100 * node.box.len := by
  unfold nbhChild
  simp only [hc, hcn, bind, Except.bind]
  by_cases h : node.box.adjacent cn.box
  · simp only [h, if_true, not_true, false_and, iff_false]
    by_cases h' : (!node.isLeaf || cn.isLeaf) = true
    · simp only [h', if_true, pushNear]
      by_cases h2 : π = par
      · simp [h2]
      · simp [h2]
    · simp [h']
  · by_cases h' : Vec.norm (node.box.center - cn.box.center) < 199 / 100 * node.box.len
    · simp [h, h']
    · simp [h, h']

/-- **C111** (balanced tree) The same for the balanced tree. -/
theorem C111_sanity_check_balanced {d : ℕ} (m : BMem d) (a par : BAddr) (node : BNode d) (child : ℕ → Option BAddr) (st : BNbh) (i : ℕ)
    (c : BAddr) (cn : BNode d) (hc : child i = some c) (hcn : m.get c = .ok cn) :
    bnbhChild m a par node child st i = .error .logicError ↔
      ¬ node.box.adjacent cn.box ∧ Vec.norm (node.box.center - cn.box.center) < 199 / 100 * node.box.len := by
  unfold bnbhChild
  simp only [hc, hcn, bind, Except.bind]
  by_cases h : node.box.adjacent cn.box
  · simp only [h, if_true, not_true, false_and, iff_false]
    by_cases h' : a = par
    · simp [h']
    · simp [h']
  · by_cases h' : Vec.norm (node.box.center - cn.box.center) < 199 / 100 * node.box.len
    · simp [h, h']
    · simp [h, h']

end PropsFailures
end FMM
