import Verif.Vec

/-!
# `fields.hpp`: kernels, direct sums, and the two parallel all-pairs loops

A non-finite kernel value (coincident source, unguarded variant) is the outcome `nonFinite`.

Parallel loops: the iterations of an OpenMP loop are distributed over threads and interleaved arbitrarily.
Each iteration is the list of its *atomic* accesses to the shared result vector (everything else an
iteration does is private to it); an execution is an arbitrary interleaving of those lists.
-/

namespace FMM
variable {d : ℕ}

/-- `potential<d, grav, safe>(src, eval_point)`, fields.hpp:13-27. -/
noncomputable def potential (grav safe : Bool) (src : Source d) (x : Vec d) : Outcome ℝ :=
  let r := Vec.norm (Vec.sub src.pos x)
  if safe = true ∧ r = 0 then .ok 0
  else if r = 0 then .error .nonFinite
  else
    let pot := if d = 2 then src.q * Real.log r else -src.q / r
    .ok (if grav then pot else -pot)

/-- `potential<d, grav, safe>(sources, eval_point)`, fields.hpp:30-42. -/
noncomputable def potentialSum (grav safe : Bool) (sources : List (Source d)) (x : Vec d) : Outcome ℝ :=
  sources.foldlM (fun pot src => do
    let p ← potential grav safe src x
    .ok (pot + p)) 0

/-- `forcefield<d, grav, safe>(src, eval_point, eps)`, fields.hpp:48-66. -/
noncomputable def forcefield (grav safe : Bool) (src : Source d) (x : Vec d) (eps : ℝ) : Outcome (Vec d) :=
  let diff := Vec.sub src.pos x
  let rpow := if d = 2 then Vec.normSq diff else Vec.norm diff * Vec.norm diff * Vec.norm diff
  let atSource := if d = 2 then Vec.normSq diff = 0 else Vec.norm diff = 0
  if safe = true ∧ atSource then .ok (Vec.fill 0)
  else if rpow + eps = 0 then .error .nonFinite
  else
    let frc := Vec.scale diff (src.q / (rpow + eps))
    .ok (if grav then frc else Vec.neg frc)

/-- `forcefield<d, grav, safe>(sources, eval_point, eps)`, fields.hpp:69-81. -/
noncomputable def forcefieldSum (grav safe : Bool) (sources : List (Source d)) (x : Vec d) (eps : ℝ) :
    Outcome (Vec d) :=
  sources.foldlM (fun frc src => do
    let f ← forcefield grav safe src x eps
    .ok (Vec.add frc f)) (Vec.fill 0)

/-! ## Interleavings -/

/-- `Interleaves p tr`: the trace `tr` is an interleaving of the action lists `p i`, `i : ι`. -/
inductive Interleaves {ι α : Type*} [DecidableEq ι] : (ι → List α) → List α → Prop
  | done (p : ι → List α) (h : ∀ i, p i = []) : Interleaves p []
  | step (p : ι → List α) (i : ι) (a : α) (rest tr : List α) (h : p i = a :: rest)
      (next : Interleaves (Function.update p i rest) tr) : Interleaves p (a :: tr)

/-- In every interleaving the contributions of all actions add up to the same total. -/
theorem Interleaves.sum_eq {ι α M : Type*} [DecidableEq ι] [Fintype ι] [AddCommMonoid M]
    {p : ι → List α} {tr : List α} (h : Interleaves p tr) (g : α → M) :
    (tr.map g).sum = ∑ i, ((p i).map g).sum := by
  induction h with
  | done p h => simp [h]
  | step p i a rest tr hp _ ih =>
    rw [List.map_cons, List.sum_cons, ih,
      ← Finset.add_sum_erase Finset.univ _ (Finset.mem_univ i),
      ← Finset.add_sum_erase Finset.univ (fun j => ((p j).map g).sum) (Finset.mem_univ i)]
    rw [Function.update_self, hp, List.map_cons, List.sum_cons, ← add_assoc]
    congr 1
    refine Finset.sum_congr rfl fun j hj => ?_
    rw [Function.update_of_ne (Finset.ne_of_mem_erase hj)]

/-- The actions of an interleaving are those of the lists. -/
theorem Interleaves.mem_iff {ι α : Type*} [DecidableEq ι] {p : ι → List α} {tr : List α}
    (h : Interleaves p tr) (a : α) : a ∈ tr ↔ ∃ i, a ∈ p i := by
  induction h with
  | done p h => simp [h]
  | step p i b rest tr hp _ ih =>
    rw [List.mem_cons, ih]
    constructor
    · rintro (rfl | ⟨j, hj⟩)
      · exact ⟨i, by simp [hp]⟩
      · rcases eq_or_ne j i with rfl | hne
        · rw [Function.update_self] at hj; exact ⟨j, by simp [hp, hj]⟩
        · rw [Function.update_of_ne hne] at hj; exact ⟨j, hj⟩
    · rintro ⟨j, hj⟩
      rcases eq_or_ne j i with rfl | hne
      · rw [hp, List.mem_cons] at hj
        rcases hj with rfl | hj
        · exact Or.inl rfl
        · exact Or.inr ⟨j, by rwa [Function.update_self]⟩
      · exact Or.inr ⟨j, by rwa [Function.update_of_ne hne]⟩

/-- Every family of lists over a finite set of iterations has an interleaving (run them one after another). -/
theorem Interleaves.exists {N : ℕ} {α : Type*} (p : Fin N → List α) : ∃ tr, Interleaves p tr := by
  generalize hn : ∑ i, (p i).length = n
  induction n generalizing p with
  | zero =>
    refine ⟨[], .done p fun i => ?_⟩
    have := (Finset.sum_eq_zero_iff.mp hn) i (Finset.mem_univ i)
    exact List.eq_nil_of_length_eq_zero this
  | succ n ih =>
    obtain ⟨i, hi⟩ : ∃ i, p i ≠ [] := by
      by_contra hc
      push Not at hc
      simp [hc] at hn
    obtain ⟨a, rest, hp⟩ := List.exists_cons_of_ne_nil hi
    obtain ⟨tr, htr⟩ := ih (Function.update p i rest) (by
      rw [← Finset.add_sum_erase Finset.univ _ (Finset.mem_univ i)] at hn ⊢
      rw [Function.update_self]
      rw [hp, List.length_cons] at hn
      have : ∑ x ∈ Finset.univ.erase i, (Function.update p i rest x).length
          = ∑ x ∈ Finset.univ.erase i, (p x).length :=
        Finset.sum_congr rfl fun j hj => by rw [Function.update_of_ne (Finset.ne_of_mem_erase hj)]
      omega)
    exact ⟨a :: tr, .step p i a rest tr hp htr⟩

/-- One atomic `result[cell] += value`. -/
def atomicAdd {κ : Type*} [DecidableEq κ] (mem : κ → ℝ) (a : κ × ℝ) : κ → ℝ :=
  Function.update mem a.1 (mem a.1 + a.2)

/-- Final contents of the result vector (zero-initialised) after a trace of atomic additions. -/
def runTrace {κ : Type*} [DecidableEq κ] (tr : List (κ × ℝ)) : κ → ℝ :=
  tr.foldl atomicAdd fun _ => 0

theorem runTrace_apply {κ : Type*} [DecidableEq κ] (tr : List (κ × ℝ)) (c : κ) :
    runTrace tr c = (tr.map fun a => if a.1 = c then a.2 else 0).sum := by
  have key : ∀ (tr : List (κ × ℝ)) (m : κ → ℝ),
      tr.foldl atomicAdd m c = m c + (tr.map fun a => if a.1 = c then a.2 else 0).sum := by
    intro tr
    induction tr with
    | nil => intro m; simp
    | cons a tr ih =>
      intro m
      rw [List.foldl_cons, ih]
      simp only [List.map_cons, List.sum_cons, atomicAdd]
      by_cases h : a.1 = c
      · subst h; simp [add_assoc]
      · rw [Function.update_of_ne (Ne.symm h)]; simp [h]
  unfold runTrace
  rw [key]; simp

/-! ## The all-pairs loops -/

/-- `sources[i]`. -/
def srd {α : Type*} (l : List α) (i : ℕ) : Outcome α :=
  match l[i]? with
  | some a => .ok a
  | none => .error .ub

theorem srd_ok {α : Type*} (l : List α) {i : ℕ} (h : i < l.length) : srd l i = .ok l[i] := by
  unfold srd; rw [List.getElem?_eq_getElem h]

/-- Iteration `i` of `particlePotentialEnergies`, fields.hpp:91-109: the atomic additions it performs, in
program order. The accumulator `particle_epot` is private. -/
noncomputable def energyIteration (grav : Bool) (sources : List (Source d)) (i : ℕ) :
    Outcome (List (ℕ × ℝ)) := do
  let si ← srd sources i
  let (acts, epot) ← loopM i (fun j (st : List (ℕ × ℝ) × ℝ) => do
    let sj ← srd sources j
    let p ← potential grav false sj si.pos
    let temp := si.q * p
    .ok (st.1 ++ [(j, temp)], st.2 + temp)) ([], 0)
  .ok (acts ++ [(i, epot)])

/-- `particlePotentialEnergies`, fields.hpp:83-113, as the set of possible results: `res` is a result iff
every iteration runs without failure and `res` is the memory after some interleaving. -/
def EnergyResult (grav : Bool) (sources : List (Source d)) (res : ℕ → ℝ) : Prop :=
  ∃ p : Fin sources.length → List (ℕ × ℝ),
    (∀ i : Fin sources.length, energyIteration grav sources i = .ok (p i)) ∧
    ∃ tr, Interleaves p tr ∧ res = runTrace tr

/-- Iteration `i` of `particleForces`, fields.hpp:126-161; cells are (particle, component). -/
noncomputable def forceIteration (grav : Bool) (sources : List (Source d)) (eps : ℝ) (i : ℕ) :
    Outcome (List ((ℕ × Fin d) × ℝ)) := do
  let si ← srd sources i
  let (acts, force) ← loopM i (fun j (st : List ((ℕ × Fin d) × ℝ) × Vec d) => do
    let sj ← srd sources j
    let f ← forcefield grav false sj si.pos eps
    let temp := Vec.scale f si.q
    .ok (st.1 ++ (List.finRange d).map (fun k => ((j, k), -temp k)), Vec.add st.2 temp)) ([], Vec.fill 0)
  .ok (acts ++ (List.finRange d).map (fun k => ((i, k), force k)))

/-- `particleForces`, fields.hpp:118-164, as the set of possible results. -/
def ForceResult (grav : Bool) (sources : List (Source d)) (eps : ℝ) (res : ℕ × Fin d → ℝ) : Prop :=
  ∃ p : Fin sources.length → List ((ℕ × Fin d) × ℝ),
    (∀ i : Fin sources.length, forceIteration grav sources eps i = .ok (p i)) ∧
    ∃ tr, Interleaves p tr ∧ res = runTrace tr

end FMM
