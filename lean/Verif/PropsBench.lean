import Verif.BenchProgs
import Verif.PropsTestProgs
import Verif.Tables

/-!
# What the benchmark programs leave behind (C122)
-/

namespace FMM.TestProgs
open FMM

/-- The row of an iteration with `i` threads during which the clock is read for the first time after `c` readings. -/
noncomputable def effRow (clock : ℕ → ℝ) (c i : ℕ) : List ℝ :=
  [(i : ℝ), clock (c + 1) - clock c, clock (c + 2) - clock (c + 1), clock (c + 3) - clock (c + 2), clock (c + 3) - clock c,
    clock (c + 4) - clock (c + 3), clock (c + 5) - clock (c + 4), clock (c + 5) - clock (c + 3)]

noncomputable def seqRow (clock : ℕ → ℝ) (c i : ℕ) : List ℝ :=
  [(i : ℝ), clock (c + 1) - clock c, clock (c + 2) - clock (c + 1), clock (c + 3) - clock (c + 2), clock (c + 3) - clock c]

/-- The rows of a run with the numbers of threads `l`; `w` readings per iteration. -/
def runRows (row : ℕ → ℕ → List ℝ) (w : ℕ) : ℕ → List ℕ → List (List ℝ)
  | _, [] => []
  | c, i :: l => row c i :: runRows row w (c + w) l

/-- One thread, then the multiples of `k` up to `M`. -/
def effThreads (M k : ℕ) : List ℕ := 1 :: (List.range (M / k)).map fun i => (i + 1) * k

/-- `1, 1 + k, …` up to `M`. -/
def seqThreads (M k : ℕ) : List ℕ := (List.range ((M - 1) / k + 1)).map fun i => 1 + i * k

/-! ## Lemmas -/

theorem atR_map {α : Type} (l : List α) (f : α → ℝ) (i : ℕ) (h : i < l.length) : atR (l.map f) i = .ok (f l[i]) := by
  unfold atR
  rw [List.getElem?_map, List.getElem?_eq_getElem h]
  rfl

/-- The vectors after iterations with the given readings and numbers of threads. -/
noncomputable def Timings.of (clock : ℕ → ℝ) (l : List (ℕ × ℕ)) : Timings :=
  ⟨l.map fun a => (a.2 : ℝ), l.map fun a => clock (a.1 + 1) - clock a.1, l.map fun a => clock (a.1 + 2) - clock (a.1 + 1),
    l.map fun a => clock (a.1 + 3) - clock (a.1 + 2), l.map fun a => clock (a.1 + 3) - clock a.1, l.map fun a => clock (a.1 + 4) - clock (a.1 + 3),
    l.map fun a => clock (a.1 + 5) - clock (a.1 + 4), l.map fun a => clock (a.1 + 5) - clock (a.1 + 3)⟩

theorem Timings.of_push (clock : ℕ → ℝ) (l : List (ℕ × ℕ)) (c i : ℕ) : (Timings.of clock l).push clock c i = Timings.of clock (l ++ [(c, i)]) := by
  simp [Timings.of, Timings.push]

theorem logRow_of (clock : ℕ → ℝ) (l : List (ℕ × ℕ)) (i : ℕ) (hi : i < l.length) :
    logRow (Timings.of clock l) i = .ok (effRow clock l[i].1 l[i].2) := by
  simp only [logRow, Timings.of]
  rw [atR_map l _ i hi, ok_bind, atR_map l _ i hi, ok_bind, atR_map l _ i hi, ok_bind, atR_map l _ i hi, ok_bind, atR_map l _ i hi, ok_bind, atR_map l _ i hi, ok_bind, atR_map l _ i hi, ok_bind, atR_map l _ i hi, ok_bind]
  rfl

theorem logRows_of (clock : ℕ → ℝ) (l : List (ℕ × ℕ)) : logRows (Timings.of clock l) = .ok (l.map fun a => effRow clock a.1 a.2) := by
  have hl : (Timings.of clock l).tree.length = l.length := by simp [Timings.of]
  unfold logRows
  rw [hl]
  obtain ⟨t, h1, h2⟩ := loopM_invariant (fun i (acc : List (List ℝ)) => acc = (l.take i).map fun a => effRow clock a.1 a.2)
    (fun i (acc : List (List ℝ)) => do
      let r ← logRow (Timings.of clock l) i
      .ok (acc ++ [r])) [] l.length (by simp)
    fun i hi acc hacc => by
      refine ⟨acc ++ [effRow clock l[i].1 l[i].2], ?_, ?_⟩
      · rw [logRow_of clock l i hi, ok_bind]
      · rw [hacc, List.take_succ_eq_append_getElem hi, List.map_append]
        rfl
  rw [h1, h2, List.take_length]

noncomputable def Timings5.of (clock : ℕ → ℝ) (l : List (ℕ × ℕ)) : Timings5 :=
  ⟨l.map fun a => (a.2 : ℝ), l.map fun a => clock (a.1 + 1) - clock a.1, l.map fun a => clock (a.1 + 2) - clock (a.1 + 1),
    l.map fun a => clock (a.1 + 3) - clock (a.1 + 2), l.map fun a => clock (a.1 + 3) - clock a.1⟩

theorem Timings5.of_push (clock : ℕ → ℝ) (l : List (ℕ × ℕ)) (c i : ℕ) : (Timings5.of clock l).push clock c i = Timings5.of clock (l ++ [(c, i)]) := by
  simp [Timings5.of, Timings5.push]

theorem logRow5_of (clock : ℕ → ℝ) (l : List (ℕ × ℕ)) (i : ℕ) (hi : i < l.length) :
    logRow5 (Timings5.of clock l) i = .ok (seqRow clock l[i].1 l[i].2) := by
  simp only [logRow5, Timings5.of]
  rw [atR_map l _ i hi, ok_bind, atR_map l _ i hi, ok_bind, atR_map l _ i hi, ok_bind, atR_map l _ i hi, ok_bind, atR_map l _ i hi, ok_bind]
  rfl

theorem logRows5_of (clock : ℕ → ℝ) (l : List (ℕ × ℕ)) : logRows5 (Timings5.of clock l) = .ok (l.map fun a => seqRow clock a.1 a.2) := by
  have hl : (Timings5.of clock l).tree.length = l.length := by simp [Timings5.of]
  unfold logRows5
  rw [hl]
  obtain ⟨t, h1, h2⟩ := loopM_invariant (fun i (acc : List (List ℝ)) => acc = (l.take i).map fun a => seqRow clock a.1 a.2)
    (fun i (acc : List (List ℝ)) => do
      let r ← logRow5 (Timings5.of clock l) i
      .ok (acc ++ [r])) [] l.length (by simp)
    fun i hi acc hacc => by
      refine ⟨acc ++ [seqRow clock l[i].1 l[i].2], ?_, ?_⟩
      · rw [logRow5_of clock l i hi, ok_bind]
      · rw [hacc, List.take_succ_eq_append_getElem hi, List.map_append]
        rfl
  rw [h1, h2, List.take_length]

/-- Positions of the clock during a run. -/
def runTicks (w : ℕ) : ℕ → List ℕ → List (ℕ × ℕ)
  | _, [] => []
  | c, i :: l => (c, i) :: runTicks w (c + w) l

theorem runRows_eq (row : ℕ → ℕ → List ℝ) (w : ℕ) : ∀ (c : ℕ) (l : List ℕ), (runTicks w c l).map (fun a => row a.1 a.2) = runRows row w c l
  | _, [] => rfl
  | c, i :: l => by simp [runTicks, runRows, runRows_eq row w (c + w) l]

theorem procLoop_mono (M k : ℕ) : ∀ (f i : ℕ) (l : List ℕ), procLoop M k f i = some l → ∀ f' ≥ f, procLoop M k f' i = some l
  | 0, _, _, h, _, _ => by simp [procLoop] at h
  | f + 1, i, l, h, f', hf => by
    obtain ⟨g, rfl⟩ : ∃ g, f' = g + 1 := ⟨f' - 1, by omega⟩
    rw [procLoop] at h ⊢
    by_cases hi : i ≤ M
    · rw [if_pos hi] at h ⊢
      simp only [Option.map_eq_some_iff] at h ⊢
      obtain ⟨a, ha, rfl⟩ := h
      exact ⟨a, procLoop_mono M k f _ a ha g (by omega), rfl⟩
    · rw [if_neg hi] at h ⊢
      exact h

theorem effLoop_ok (clock : ℕ → ℝ) {work : ℕ → Outcome Unit} (hw : ∀ i, work i = .ok ()) (M k : ℕ) : ∀ (fuel i : ℕ) (l : List ℕ),
    procLoop M k fuel i = some l → ∀ (L : List (ℕ × ℕ)) (c : ℕ),
      effLoop clock work M k fuel i (Timings.of clock L) c = .ok (Timings.of clock (L ++ runTicks 6 c l), c + 6 * l.length)
  | 0, _, _, h, _, _ => by simp [procLoop] at h
  | fuel + 1, i, l, h, L, c => by
    rw [procLoop] at h
    rw [effLoop]
    by_cases hi : i ≤ M
    · rw [if_pos hi] at h ⊢
      simp only [Option.map_eq_some_iff] at h
      obtain ⟨a, ha, rfl⟩ := h
      have e : (if i = 1 then i - 1 else i) = if i = 1 then 0 else i := by
        by_cases h1 : i = 1
        · rw [if_pos h1, if_pos h1, h1]
        · rw [if_neg h1, if_neg h1]
      rw [hw, ok_bind]
      simp only [e, Timings.of_push]
      rw [effLoop_ok clock hw M k fuel _ a ha (L ++ [(c, i)]) (c + 6)]
      simp only [runTicks, List.append_assoc, List.singleton_append, List.length_cons]
      congr 2
      ring
    · rw [if_neg hi] at h ⊢
      obtain rfl : [] = l := Option.some.inj h
      simp [runTicks]

theorem seqLoop_ok (clock : ℕ → ℝ) {work : ℕ → Outcome Unit} (hw : ∀ i, work i = .ok ()) (M k : ℕ) (hk : 1 ≤ k) : ∀ (n fuel i : ℕ), n < fuel →
    (∀ j, i + j * k ≤ M ↔ j < n) → ∀ (L : List (ℕ × ℕ)) (c : ℕ),
      seqLoop clock work M k fuel i (Timings5.of clock L) c
        = .ok (Timings5.of clock (L ++ runTicks 4 c ((List.range n).map fun j => i + j * k)), c + 4 * n)
  | n, 0, _, h, _, _, _ => absurd h (by omega)
  | 0, fuel + 1, i, _, hi, L, c => by
    have := (hi 0).not.mpr (by omega)
    rw [seqLoop, if_neg (by simpa using this)]
    simp [runTicks]
  | n + 1, fuel + 1, i, hf, hi, L, c => by
    have h0 := (hi 0).mpr (by omega)
    rw [seqLoop, if_pos (by simpa using h0), hw, ok_bind, Timings5.of_push]
    rw [seqLoop_ok clock hw M k hk n fuel (i + k) (by omega) (fun j => by
      have := hi (j + 1)
      rw [show i + (j + 1) * k = i + k + j * k by ring] at this
      rw [this]; omega) (L ++ [(c, i)]) (c + 4)]
    rw [List.range_succ_eq_map, List.map_cons, List.map_map]
    simp only [runTicks, List.append_assoc, List.singleton_append, Nat.zero_mul, Nat.add_zero]
    have e : ((fun j => i + j * k) ∘ Nat.succ) = fun j => i + k + j * k := by funext j; simp only [Function.comp, Nat.succ_eq_add_one]; ring
    rw [e, show c + 4 + 4 * n = c + 4 * (n + 1) by ring]

theorem logName_inj {grav : Bool} {d n : ℕ} {a b a' b' : Bool} (h : logName grav d n a b = logName grav d n a' b') : a = a' ∧ b = b' := by
  unfold logName at h
  have := congrArg String.toList h
  cases a <;> cases a' <;> cases b <;> cases b' <;> simp [String.toList_append] at this ⊢

theorem runTicks_length (w : ℕ) : ∀ (c : ℕ) (l : List ℕ), (runTicks w c l).length = l.length
  | _, [] => rfl
  | c, i :: l => by simp [runTicks, runTicks_length w (c + w) l]

section
variable {d : ℕ} {R clock : ℕ → ℝ} {work : Bool → List (Source d) → ℕ → Outcome Unit} {grav : Bool} {centers : List (Vec d)} {nExp : ℕ} {N : ℤ} {M k : ℕ}

theorem effCase_ok (hw : ∀ b S i, work b S i = .ok ()) {fuel : ℕ} (hf : procLoop M k fuel 1 = some (effThreads M k)) (exist us ut : Bool)
    (hc : (!us && ut) = false) (s : BenchState) :
    effCase R clock work exist grav centers nExp N M k fuel us ut s
      = .ok ⟨s.files.write exist (logName grav d nExp us ut) ⟨effHead, runRows (effRow clock) 6 s.ticks (effThreads M k)⟩,
          s.ticks + 6 * (effThreads M k).length, (benchSources R grav centers N us s.rands).2⟩ := by
  unfold effCase
  rw [if_neg (by simp [hc])]
  have e := effLoop_ok clock (work := work ut (benchSources R grav centers N us s.rands).1) (fun i => hw _ _ i) M k fuel 1 _ hf [] s.ticks
  simp only
  rw [show (⟨[], [], [], [], [], [], [], []⟩ : Timings) = Timings.of clock [] from rfl, e, ok_bind]
  simp only [List.nil_append]
  rw [logRows_of, ok_bind, runRows_eq]

theorem seqCase_ok (hw : ∀ b S i, work b S i = .ok ()) {fuel : ℕ} (hM : 1 ≤ M) (hk : 1 ≤ k) (hf : (M - 1) / k + 1 < fuel) (exist us ut : Bool)
    (s : BenchState) :
    seqCase R clock work exist grav centers nExp N M k fuel us ut s
      = .ok ⟨(s.files.write exist "source_locs.dat" (locsFile (benchSources R grav centers N us s.rands).1)).write exist
          (logName grav d nExp us ut) ⟨seqHead, runRows (seqRow clock) 4 s.ticks (seqThreads M k)⟩,
          s.ticks + 4 * ((M - 1) / k + 1), (benchSources R grav centers N us s.rands).2⟩ := by
  have e := seqLoop_ok clock (work := work ut (benchSources R grav centers N us s.rands).1) (fun i => hw _ _ i) M k hk _ fuel 1 hf (fun j => by
    rw [Nat.lt_succ_iff, Nat.le_div_iff_mul_le (by omega)]
    omega) [] s.ticks
  unfold seqCase
  simp only
  rw [show (⟨[], [], [], [], []⟩ : Timings5) = Timings5.of clock [] from rfl, e, ok_bind]
  simp only [List.nil_append]
  rw [logRows5_of, ok_bind, runRows_eq]
  rfl

theorem effMain_ok (hw : ∀ b S i, work b S i = .ok ()) {fuel : ℕ} (hf : procLoop M k fuel 1 = some (effThreads M k)) (exist : Bool) (files : LogDir) :
    ∃ s, effMain R clock work exist grav centers nExp N M k fuel files = .ok s ∧
      s.files = ((files.write exist (logName grav d nExp true true) ⟨effHead, runRows (effRow clock) 6 0 (effThreads M k)⟩).write exist
        (logName grav d nExp true false) ⟨effHead, runRows (effRow clock) 6 (6 * (effThreads M k).length) (effThreads M k)⟩).write exist
        (logName grav d nExp false false)
          ⟨effHead, runRows (effRow clock) 6 (6 * (effThreads M k).length + 6 * (effThreads M k).length) (effThreads M k)⟩ := by
  have es : ∀ s, effCase R clock work exist grav centers nExp N M k fuel false true s = .ok s := fun s => rfl
  have e0 : ∀ (f : BenchState → Bool → Outcome BenchState) (s : BenchState),
      [true, false].foldlM f s = (f s true >>= fun s => f s false) := by
    intro f s
    simp only [List.foldlM_cons, List.foldlM_nil]
    congr 1
    funext t
    exact bind_pure _
  unfold effMain
  rw [e0, e0, effCase_ok hw hf exist true true rfl, ok_bind, effCase_ok hw hf exist true false rfl, ok_bind, e0, es, ok_bind,
    effCase_ok hw hf exist false false rfl]
  exact ⟨_, rfl, by simp only [Nat.zero_add]⟩

theorem logName_ne (grav : Bool) (d n : ℕ) (a b : Bool) : logName grav d n a b ≠ "source_locs.dat" := by
  intro h
  have := congrArg (fun s => s.toList.head?) h
  unfold logName at this
  simp [String.toList_append] at this

/-- **C122** `fmm_efficiency.cpp`, if no computation fails and the directory exists: three files, for uniform sources with both trees and for clusters with
the adaptive tree, each with one row for every number of threads, the timings of its own run in it; all other files are unchanged. -/
theorem C122_efficiency (hw : ∀ b S i, work b S i = .ok ()) (hM : 1 ≤ M) (hk : 2 ≤ k) (files : LogDir) :
    ∃ fuel0, ∀ fuel ≥ fuel0, ∃ s, effMain R clock work true grav centers nExp N M k fuel files = .ok s ∧
      s.files (logName grav d nExp true true) = some ⟨effHead, runRows (effRow clock) 6 0 (effThreads M k)⟩ ∧
      s.files (logName grav d nExp true false) = some ⟨effHead, runRows (effRow clock) 6 (6 * (M / k + 1)) (effThreads M k)⟩ ∧
      s.files (logName grav d nExp false false) = some ⟨effHead, runRows (effRow clock) 6 (12 * (M / k + 1)) (effThreads M k)⟩ ∧
      ∀ name, name ≠ logName grav d nExp true true → name ≠ logName grav d nExp true false → name ≠ logName grav d nExp false false →
        s.files name = files name := by
  obtain ⟨f0, h0⟩ := (C94_threads M hM).1 k hk
  refine ⟨f0, fun fuel hf => ?_⟩
  have hp := procLoop_mono M k f0 1 _ h0 fuel hf
  have hlen : (effThreads M k).length = M / k + 1 := by simp [effThreads]
  obtain ⟨s, h1, h2⟩ := effMain_ok (R := R) (clock := clock) (grav := grav) (centers := centers) (nExp := nExp) (N := N) hw hp true files
  have n1 : logName grav d nExp true false ≠ logName grav d nExp true true := fun h => by simpa using logName_inj h
  have n2 : logName grav d nExp false false ≠ logName grav d nExp true true := fun h => by simpa using logName_inj h
  have n3 : logName grav d nExp false false ≠ logName grav d nExp true false := fun h => by simpa using logName_inj h
  refine ⟨s, h1, ?_, ?_, ?_, fun name h3 h4 h5 => ?_⟩
  · rw [h2]
    simp [LogDir.write, n1.symm, n2.symm]
  · rw [h2]
    simp [LogDir.write, n3.symm, hlen]
  · rw [h2]
    simp only [LogDir.write, if_true, hlen]
    rw [show 6 * (M / k + 1) + 6 * (M / k + 1) = 12 * (M / k + 1) by ring]
  · rw [h2]
    simp [LogDir.write, h3, h4, h5]

/-- **C122** Without the directory `logs` both programs write nothing and report no error. -/
theorem C122_no_directory (hw : ∀ b S i, work b S i = .ok ()) (hM : 1 ≤ M) (files : LogDir) :
    (2 ≤ k → ∃ fuel0, ∀ fuel ≥ fuel0, ∃ s, effMain R clock work false grav centers nExp N M k fuel files = .ok s ∧ s.files = files) ∧
    (1 ≤ k → ∃ fuel0, ∀ fuel ≥ fuel0, ∃ s, seqMain R clock work false grav centers nExp N M k fuel files = .ok s ∧ s.files = files) := by
  refine ⟨fun hk => ?_, fun hk => ⟨M + 2, fun fuel hf => ?_⟩⟩
  · obtain ⟨f0, h0⟩ := (C94_threads M hM).1 k hk
    refine ⟨f0, fun fuel hf => ?_⟩
    obtain ⟨s, h1, h2⟩ := effMain_ok (R := R) (clock := clock) (grav := grav) (centers := centers) (nExp := nExp) (N := N) hw
      (procLoop_mono M k f0 1 _ h0 fuel hf) false files
    exact ⟨s, h1, h2⟩
  · have : (M - 1) / k ≤ M - 1 := Nat.div_le_self _ _
    unfold seqMain
    rw [seqCase_ok hw hM hk (by omega), ok_bind, seqCase_ok hw hM hk (by omega)]
    exact ⟨_, rfl, rfl⟩

/-- **C122** `accuracy_seq_speedup.cpp` measures the same configuration twice and writes both results to the same file: what remains are the timings of the
second run, taken for other sources than the first, and the positions of these sources. -/
theorem C122_sequential (hw : ∀ b S i, work b S i = .ok ()) (hM : 1 ≤ M) (hk : 1 ≤ k) (files : LogDir) :
    ∃ fuel0, ∀ fuel ≥ fuel0, ∃ s, seqMain R clock work true grav centers nExp N M k fuel files = .ok s ∧
      s.files (logName grav d nExp true true) = some ⟨seqHead, runRows (seqRow clock) 4 (4 * ((M - 1) / k + 1)) (seqThreads M k)⟩ ∧
      s.files "source_locs.dat" = some (locsFile (genUniform R grav (0 : Vec d) 10 N (genUniform R grav (0 : Vec d) 10 N 0).2).1) ∧
      ∀ name, name ≠ logName grav d nExp true true → name ≠ "source_locs.dat" → s.files name = files name := by
  refine ⟨M + 2, fun fuel hf => ?_⟩
  have : (M - 1) / k ≤ M - 1 := Nat.div_le_self _ _
  unfold seqMain
  rw [seqCase_ok hw hM hk (by omega), ok_bind, seqCase_ok hw hM hk (by omega)]
  refine ⟨_, rfl, ?_, ?_, fun name h h' => ?_⟩
  · simp [LogDir.write]
  · simp only [LogDir.write, if_true, if_neg (logName_ne grav d nExp true true).symm]
    rfl
  · simp [LogDir.write, h, h']

theorem runRows_congr {row row' : ℕ → ℕ → List ℝ} {w : ℕ} : ∀ (c : ℕ) (l : List ℕ), (∀ c' ≥ c, ∀ i, row c' i = row' c' i) →
    runRows row w c l = runRows row' w c l
  | _, [], _ => rfl
  | c, i :: l, h => by rw [runRows, runRows, h c le_rfl, runRows_congr (c + w) l fun c' hc => h c' (by omega)]

/-- **C122** Whatever the first half of `accuracy_seq_speedup.cpp` measures, the files are the same. -/
theorem C122_first_run_lost (hw : ∀ b S i, work b S i = .ok ()) (hM : 1 ≤ M) (hk : 1 ≤ k) (files : LogDir) (clock' : ℕ → ℝ)
    (hc : ∀ n ≥ 4 * ((M - 1) / k + 1), clock n = clock' n) :
    ∃ fuel0, ∀ fuel ≥ fuel0, ∃ s s', seqMain R clock work true grav centers nExp N M k fuel files = .ok s ∧
      seqMain R clock' work true grav centers nExp N M k fuel files = .ok s' ∧ s.files = s'.files := by
  obtain ⟨f1, h1⟩ := C122_sequential (R := R) (clock := clock) (grav := grav) (centers := centers) (nExp := nExp) (N := N) hw hM hk files
  obtain ⟨f2, h2⟩ := C122_sequential (R := R) (clock := clock') (grav := grav) (centers := centers) (nExp := nExp) (N := N) hw hM hk files
  refine ⟨f1 + f2, fun fuel hf => ?_⟩
  obtain ⟨s, a1, a2, a4, a3⟩ := h1 fuel (by omega)
  obtain ⟨s', b1, b2, b4, b3⟩ := h2 fuel (by omega)
  refine ⟨s, s', a1, b1, funext fun name => ?_⟩
  by_cases h : name = logName grav d nExp true true
  · rw [h, a2, b2, runRows_congr _ _ fun c hc' i => ?_]
    unfold seqRow
    rw [hc c hc', hc (c + 1) (by omega), hc (c + 2) (by omega), hc (c + 3) (by omega)]
  · by_cases h' : name = "source_locs.dat"
    · rw [h', a4, b4]
    · rw [a3 name h h', b3 name h h']

end

/-- **C122** The columns of a row: the totals are the sums of the parts, and with a clock that does not run backwards no time is negative. -/
theorem C122_columns (clock : ℕ → ℝ) (c i : ℕ) :
    (∃ a b e f g : ℝ, effRow clock c i = [(i : ℝ), a, b, e, a + b + e, f, g, f + g] ∧
      (Monotone clock → 0 ≤ a ∧ 0 ≤ b ∧ 0 ≤ e ∧ 0 ≤ f ∧ 0 ≤ g)) ∧
    ∃ a b e : ℝ, seqRow clock c i = [(i : ℝ), a, b, e, a + b + e] ∧ (Monotone clock → 0 ≤ a ∧ 0 ≤ b ∧ 0 ≤ e) := by
  have h : ∀ n m, n ≤ m → Monotone clock → 0 ≤ clock m - clock n := fun n m hnm hc => sub_nonneg.mpr (hc hnm)
  refine ⟨⟨clock (c + 1) - clock c, clock (c + 2) - clock (c + 1), clock (c + 3) - clock (c + 2), clock (c + 4) - clock (c + 3),
    clock (c + 5) - clock (c + 4), ?_, fun hc => ⟨h _ _ (by omega) hc, h _ _ (by omega) hc, h _ _ (by omega) hc, h _ _ (by omega) hc,
      h _ _ (by omega) hc⟩⟩, clock (c + 1) - clock c, clock (c + 2) - clock (c + 1), clock (c + 3) - clock (c + 2), ?_,
    fun hc => ⟨h _ _ (by omega) hc, h _ _ (by omega) hc, h _ _ (by omega) hc⟩⟩
  · simp only [effRow, List.cons.injEq, true_and, and_true]
    constructor <;> ring
  · simp only [seqRow, List.cons.injEq, true_and, and_true]
    ring

/-- The headings of a line of tab separated names. -/
def headings (l : List Char) : List (List Char) := (l.filter (· ≠ '\n')).splitOn '\t'

/-- **C122** There is one heading for every column, the first one that of the number of threads. -/
theorem C122_headings (clock : ℕ → ℝ) (c i : ℕ) :
    (headings effHead.toList).length = (effRow clock c i).length ∧ (headings seqHead.toList).length = (seqRow clock c i).length ∧
    (headings effHead.toList).head? = some "nprocs".toList ∧ (headings seqHead.toList).head? = some "nprocs".toList :=
  ⟨show (headings effHead.toList).length = 8 by decide, show (headings seqHead.toList).length = 5 by decide, by decide, by decide⟩

/-- **C122** `source_locs.dat` is the file of `sourceLocationsToFile`, whose model for C61 has the formatting of numbers in addition: the coordinates of
one source after the other. -/
theorem C122_positions {d : ℕ} (fmt : ℝ → ℝ) (S : List (Source d)) :
    FileIO.sourceLocationsToFile fmt S = (locsFile S).rows.map (fun r => r.map fun v => some (fmt v)) ∧ (locsFile S).head = "" ∧
    ∀ k (h : k < S.length) (j : Fin d), ((locsFile S).rows[k]?).bind (·[j.val]?) = some (S[k].pos j) := by
  refine ⟨?_, rfl, fun k h j => ?_⟩
  · unfold FileIO.sourceLocationsToFile locsFile
    simp only [List.map_map]
    refine List.map_congr_left fun s _ => ?_
    simp [List.ofFn_eq_map]
  · unfold locsFile
    simp [h]

/-! ## Vectors of different lengths -/

theorem atR_cases (v : List ℝ) (i : ℕ) : (∃ a, atR v i = .ok a ∧ i < v.length) ∨ atR v i = .error .ub ∧ v.length ≤ i := by
  unfold atR
  rcases Nat.lt_or_ge i v.length with h | h
  · exact .inl ⟨v[i], by rw [List.getElem?_eq_getElem h], h⟩
  · exact .inr ⟨by rw [List.getElem?_eq_none h], h⟩

theorem rows_ub (n : ℕ) (f : ℕ → Outcome (List ℝ)) (hf : ∀ i, (∃ r, f i = .ok r) ∨ f i = .error .ub) :
    loopM n (fun i (acc : List (List ℝ)) => do
      let r ← f i
      .ok (acc ++ [r])) [] = .error .ub ↔ ∃ i < n, f i = .error .ub := by
  induction n with
  | zero => simp
  | succ n ih =>
    rw [loopM_succ]
    constructor
    · intro h
      by_cases h1 : ∃ i < n, f i = .error .ub
      · obtain ⟨i, hi, h2⟩ := h1
        exact ⟨i, by omega, h2⟩
      · refine ⟨n, by omega, ?_⟩
        rcases hf n with ⟨r, hr⟩ | hr
        · exfalso
          cases hl : loopM n (fun i (acc : List (List ℝ)) => do
              let r ← f i
              .ok (acc ++ [r])) [] with
          | error e =>
            rw [hl] at h
            obtain rfl : e = .ub := by simpa [Except.bind] using h
            exact h1 (ih.mp hl)
          | ok t =>
            rw [hl] at h
            simp [Except.bind, hr, ok_bind] at h
        · exact hr
    · rintro ⟨i, hi, h⟩
      rcases Nat.lt_or_ge i n with h1 | h1
      · rw [ih.mpr ⟨i, h1, h⟩]; rfl
      · obtain rfl : i = n := by omega
        cases hl : loopM i (fun i (acc : List (List ℝ)) => do
              let r ← f i
              .ok (acc ++ [r])) [] with
        | error e =>
          obtain ⟨-, rfl⟩ | h2 : (False ∧ e = .ub) ∨ e = .ub := by
            right
            by_contra he
            have := loopM_or (fun _ => True) .ub (fun i (acc : List (List ℝ)) => do
              let r ← f i
              .ok (acc ++ [r])) [] i trivial (fun j _ t _ => by
                rcases hf j with ⟨r, hr⟩ | hr
                · exact .inl ⟨_, by rw [hr, ok_bind], trivial⟩
                · exact .inr (by rw [hr, err_bind]))
            rw [hl] at this
            simp [he] at this
          · rfl
          · rw [h2]; rfl
        | ok t => simp [Except.bind, h, err_bind]

/-- **C122** The functions that write the rows index all vectors up to the length of `tree_timings`, without a check: they leave the bounds of a vector
exactly if one of the others is shorter. -/
theorem C122_short (T : Timings) (T5 : Timings5) :
    (logRows T = .error .ub ↔ ∃ v ∈ [T.nprocs, T.pot, T.frc, T.total, T.dirPot, T.dirFrc, T.totalDir], v.length < T.tree.length) ∧
    (logRows5 T5 = .error .ub ↔ ∃ v ∈ [T5.nprocs, T5.pot, T5.frc, T5.total], v.length < T5.tree.length) := by
  constructor
  · have key : ∀ i, (∃ r, logRow T i = .ok r ∧ ∀ v ∈ [T.nprocs, T.tree, T.pot, T.frc, T.total, T.dirPot, T.dirFrc, T.totalDir], i < v.length) ∨
        logRow T i = .error .ub ∧ ∃ v ∈ [T.nprocs, T.tree, T.pot, T.frc, T.total, T.dirPot, T.dirFrc, T.totalDir], v.length ≤ i := by
      intro i
      unfold logRow
      rcases atR_cases T.nprocs i with ⟨a, h, h1⟩ | ⟨h, h1⟩ <;> rw [h]
      swap; · exact .inr ⟨rfl, _, by simp, h1⟩
      rw [ok_bind]
      rcases atR_cases T.tree i with ⟨a, h, h2⟩ | ⟨h, h2⟩ <;> rw [h]
      swap; · exact .inr ⟨rfl, T.tree, by simp, h2⟩
      rw [ok_bind]
      rcases atR_cases T.pot i with ⟨a, h, h3⟩ | ⟨h, h3⟩ <;> rw [h]
      swap; · exact .inr ⟨rfl, T.pot, by simp, h3⟩
      rw [ok_bind]
      rcases atR_cases T.frc i with ⟨a, h, h4⟩ | ⟨h, h4⟩ <;> rw [h]
      swap; · exact .inr ⟨rfl, T.frc, by simp, h4⟩
      rw [ok_bind]
      rcases atR_cases T.total i with ⟨a, h, h5⟩ | ⟨h, h5⟩ <;> rw [h]
      swap; · exact .inr ⟨rfl, T.total, by simp, h5⟩
      rw [ok_bind]
      rcases atR_cases T.dirPot i with ⟨a, h, h6⟩ | ⟨h, h6⟩ <;> rw [h]
      swap; · exact .inr ⟨rfl, T.dirPot, by simp, h6⟩
      rw [ok_bind]
      rcases atR_cases T.dirFrc i with ⟨a, h, h7⟩ | ⟨h, h7⟩ <;> rw [h]
      swap; · exact .inr ⟨rfl, T.dirFrc, by simp, h7⟩
      rw [ok_bind]
      rcases atR_cases T.totalDir i with ⟨a, h, h8⟩ | ⟨h, h8⟩ <;> rw [h]
      swap; · exact .inr ⟨rfl, T.totalDir, by simp, h8⟩
      exact .inl ⟨_, rfl, by simp [h1, h2, h3, h4, h5, h6, h7, h8]⟩
    unfold logRows
    rw [rows_ub _ _ fun i => (key i).imp (fun ⟨r, h, _⟩ => ⟨r, h⟩) fun h => h.1]
    constructor
    · rintro ⟨i, hi, h⟩
      rcases key i with ⟨r, h', -⟩ | ⟨-, v, hv, hl⟩
      · rw [h] at h'; simp at h'
      · refine ⟨v, ?_, by omega⟩
        simp only [List.mem_cons, List.not_mem_nil, or_false] at hv ⊢
        rcases hv with rfl | rfl | rfl | rfl | rfl | rfl | rfl | rfl <;> first | omega | simp
    · rintro ⟨v, hv, hl⟩
      refine ⟨v.length, hl, ?_⟩
      rcases key v.length with ⟨r, -, h'⟩ | ⟨h, -⟩
      · refine absurd (h' v ?_) (lt_irrefl _)
        simp only [List.mem_cons, List.not_mem_nil, or_false] at hv ⊢
        tauto
      · exact h
  · have key : ∀ i, (∃ r, logRow5 T5 i = .ok r ∧ ∀ v ∈ [T5.nprocs, T5.tree, T5.pot, T5.frc, T5.total], i < v.length) ∨
        logRow5 T5 i = .error .ub ∧ ∃ v ∈ [T5.nprocs, T5.tree, T5.pot, T5.frc, T5.total], v.length ≤ i := by
      intro i
      unfold logRow5
      rcases atR_cases T5.nprocs i with ⟨a, h, h1⟩ | ⟨h, h1⟩ <;> rw [h]
      swap; · exact .inr ⟨rfl, _, by simp, h1⟩
      rw [ok_bind]
      rcases atR_cases T5.tree i with ⟨a, h, h2⟩ | ⟨h, h2⟩ <;> rw [h]
      swap; · exact .inr ⟨rfl, T5.tree, by simp, h2⟩
      rw [ok_bind]
      rcases atR_cases T5.pot i with ⟨a, h, h3⟩ | ⟨h, h3⟩ <;> rw [h]
      swap; · exact .inr ⟨rfl, T5.pot, by simp, h3⟩
      rw [ok_bind]
      rcases atR_cases T5.frc i with ⟨a, h, h4⟩ | ⟨h, h4⟩ <;> rw [h]
      swap; · exact .inr ⟨rfl, T5.frc, by simp, h4⟩
      rw [ok_bind]
      rcases atR_cases T5.total i with ⟨a, h, h5⟩ | ⟨h, h5⟩ <;> rw [h]
      swap; · exact .inr ⟨rfl, T5.total, by simp, h5⟩
      exact .inl ⟨_, rfl, by simp [h1, h2, h3, h4, h5]⟩
    unfold logRows5
    rw [rows_ub _ _ fun i => (key i).imp (fun ⟨r, h, _⟩ => ⟨r, h⟩) fun h => h.1]
    constructor
    · rintro ⟨i, hi, h⟩
      rcases key i with ⟨r, h', -⟩ | ⟨-, v, hv, hl⟩
      · rw [h] at h'; simp at h'
      · refine ⟨v, ?_, by omega⟩
        simp only [List.mem_cons, List.not_mem_nil, or_false] at hv ⊢
        rcases hv with rfl | rfl | rfl | rfl | rfl <;> first | omega | simp
    · rintro ⟨v, hv, hl⟩
      refine ⟨v.length, hl, ?_⟩
      rcases key v.length with ⟨r, -, h'⟩ | ⟨h, -⟩
      · refine absurd (h' v ?_) (lt_irrefl _)
        simp only [List.mem_cons, List.not_mem_nil, or_false] at hv ⊢
        tauto
      · exact h

/-- One time of the force is missing. -/
example : logRows5 ⟨[1, 2], [3, 4], [5, 6], [7], [8, 9]⟩ = .error .ub :=
  (C122_short ⟨[], [], [], [], [], [], [], []⟩ _).2.mpr ⟨[7], by simp, by simp⟩

/-! ## Non-vacuity -/

/-- The constants of `fmm_efficiency.cpp`: 32 rows per file, for 1, 4, 8, …, 124 threads. -/
example : (effThreads 124 4).length = 32 ∧ effThreads 12 4 = [1, 4, 8, 12] := by
  constructor
  · simp [effThreads]
  · decide

example (R clock : ℕ → ℝ) : ∃ fuel s, effMain R clock (fun _ (_ : List (Source 2)) _ => .ok ()) true true clusterCenters2 6 1000000 124 4 fuel (fun _ => none)
    = .ok s ∧ s.files "Eff_gr_d2_N6_us_at" = some ⟨effHead, runRows (effRow clock) 6 192 (effThreads 124 4)⟩ ∧ s.files "Eff_gr_d2_N6_ns_bt" = none := by
  obtain ⟨f, h⟩ := C122_efficiency (R := R) (clock := clock) (work := fun _ (_ : List (Source 2)) _ => .ok ()) (grav := true) (centers := clusterCenters2)
    (nExp := 6) (N := 1000000) (M := 124) (k := 4) (fun _ _ _ => rfl) (by norm_num) (by norm_num) fun _ => none
  obtain ⟨s, h1, -, h3, -, h5⟩ := h f le_rfl
  exact ⟨f, s, h1, h3, h5 "Eff_gr_d2_N6_ns_bt" (by decide) (by decide) (by decide)⟩

/-- `accuracy_seq_speedup.cpp`: the first reading of the clock in the file is the 17th. -/
example (R clock : ℕ → ℝ) : ∃ fuel s, seqMain R clock (fun _ (_ : List (Source 3)) _ => .ok ()) true true clusterCenters3 5 100000 4 1 fuel (fun _ => none)
    = .ok s ∧ s.files "Eff_gr_d3_N5_us_bt" = some ⟨seqHead, [seqRow clock 16 1, seqRow clock 20 2, seqRow clock 24 3, seqRow clock 28 4]⟩ := by
  obtain ⟨f, h⟩ := C122_sequential (R := R) (clock := clock) (work := fun _ (_ : List (Source 3)) _ => .ok ()) (grav := true) (centers := clusterCenters3)
    (nExp := 5) (N := 100000) (M := 4) (k := 1) (fun _ _ _ => rfl) (by norm_num) (by norm_num) fun _ => none
  obtain ⟨s, h1, h2, -⟩ := h f le_rfl
  exact ⟨f, s, h1, h2⟩

end FMM.TestProgs
