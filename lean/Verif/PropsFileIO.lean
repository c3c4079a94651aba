import Verif.FileIO
import Verif.PropsGlue

/-!
# File input: C61

Specification: `field l k old` is the value of variable number `k` after reading line `l`, `column` its value after some lines.
-/

namespace FMM.FileIO
variable {d : ℕ}

/-- The value of the `k`-th variable after reading line `l`: the `k`-th number; `0` if the conversion fails exactly there; its old
value if the line has ended or a conversion has failed before. -/
def field : Line → ℕ → Option ℝ → Option ℝ
  | [], _, old => old
  | some v :: _, 0, _ => some v
  | none :: _, 0, _ => some 0
  | some _ :: r, k + 1, old => field r k old
  | none :: _, _ + 1, old => old

/-- The value of the `k`-th variable after reading all of `lines`. -/
def column (lines : List Line) (k : ℕ) : Option ℝ := lines.foldl (fun old l => field l k old) none

/-! ## Lemmas -/

/-- The stream after `k` extractions. -/
def adv (s : Stream) : ℕ → Stream
  | 0 => s
  | k + 1 => (extract (adv s k) none).1

theorem extract_fst (s : Stream) (a b : Option ℝ) : (extract s a).1 = (extract s b).1 := by
  unfold extract
  by_cases h : s.fail = true
  · rw [if_pos h, if_pos h]
  · rw [if_neg h, if_neg h]
    rcases s.toks with _ | ⟨_ | v, r⟩ <;> rfl

theorem adv_fail (toks : List Tok) (k : ℕ) : adv ⟨true, toks⟩ k = ⟨true, toks⟩ := by
  induction k with
  | zero => rfl
  | succ k ih => rw [adv, ih]; rfl

theorem adv_shift (s : Stream) (k : ℕ) : adv s (k + 1) = adv (extract s none).1 k := by
  induction k with
  | zero => rfl
  | succ k ih => rw [adv, ih]; rfl

theorem extract_adv (l : Line) (k : ℕ) (old : Option ℝ) :
    extract (adv ⟨false, l⟩ k) old = (adv ⟨false, l⟩ (k + 1), field l k old) := by
  have h : (extract (adv ⟨false, l⟩ k) old).2 = field l k old := by
    induction k generalizing l with
    | zero => rcases l with _ | ⟨_ | v, r⟩ <;> rfl
    | succ k ih =>
      rw [adv_shift]
      rcases l with _ | ⟨_ | v, r⟩
      · show (extract (adv ⟨true, []⟩ k) old).2 = old
        rw [adv_fail]; rfl
      · show (extract (adv ⟨true, r⟩ k) old).2 = old
        rw [adv_fail]; rfl
      · exact ih r
  exact Prod.ext (extract_fst _ _ _) h

theorem readLine_eq (st : ReadState d) (l : Line) :
    readLine st l = ⟨fun i => field l i (st.pos i), field l d st.charge⟩ := by
  have key : ∀ m ≤ d, ((List.finRange d).take m).foldl (fun (acc : Stream × (Fin d → Option ℝ)) i =>
      let (s, v) := extract acc.1 (acc.2 i)
      (s, Function.update acc.2 i v)) (⟨false, l⟩, st.pos)
      = (adv ⟨false, l⟩ m, fun i : Fin d => if i.1 < m then field l i (st.pos i) else st.pos i) := by
    intro m hm
    induction m with
    | zero => simp [adv]
    | succ m ih =>
      have hm' : m < d := by omega
      rw [List.take_add_one, List.foldl_append, ih (by omega), List.getElem?_eq_getElem (by simpa using hm')]
      simp only [Option.toList_some, List.foldl_cons, List.foldl_nil, List.getElem_finRange, Fin.cast_mk]
      rw [extract_adv]
      simp only [lt_irrefl, if_false]
      congr 1
      funext i
      by_cases h : i = ⟨m, hm'⟩
      · subst h; simp
      · have : i.1 ≠ m := fun h' => h (Fin.ext h')
        rw [Function.update_of_ne h]
        by_cases h1 : i.1 < m
        · rw [if_pos h1, if_pos (by omega)]
        · rw [if_neg h1, if_neg (by omega)]
  have := key d le_rfl
  rw [List.take_of_length_le (by simp)] at this
  unfold readLine
  simp only at this ⊢
  rw [this]
  simp only [extract_adv, Fin.is_lt, if_true]

theorem mkSource_ok (st : ReadState d) (s : Source d) :
    mkSource st = .ok s ↔ (∀ i, st.pos i = some (s.pos i)) ∧ st.charge = some s.q := by
  unfold mkSource
  rcases hq : st.charge with _ | q
  · simp
  · simp only
    by_cases h : ∀ i, (st.pos i).isSome
    · rw [if_pos h]
      have hg : ∀ i, st.pos i = some ((st.pos i).getD 0) := fun i => by
        obtain ⟨v, hv⟩ := Option.isSome_iff_exists.mp (h i); rw [hv]; rfl
      constructor
      · intro he
        injection he with he
        subst he
        exact ⟨hg, rfl⟩
      · rintro ⟨h1, h2⟩
        injection h2 with h2
        congr 1
        rcases s with ⟨p, q'⟩
        simp only at h1 h2
        subst h2
        congr 1
        funext i
        rw [h1 i]; rfl
    · rw [if_neg h]
      constructor
      · intro he; simp at he
      · rintro ⟨h1, -⟩
        exact absurd (fun i => by rw [h1 i]; rfl) h

theorem mkSource_err (st : ReadState d) : (∃ s, mkSource st = .ok s) ∨ mkSource st = .error .ub := by
  unfold mkSource
  rcases st.charge with _ | q
  · exact .inr rfl
  · simp only
    by_cases h : ∀ i, (st.pos i).isSome
    · rw [if_pos h]; exact .inl ⟨_, rfl⟩
    · rw [if_neg h]; exact .inr rfl

/-- One source per line, from the columns. -/
def Reads (lines : List Line) (S : List (Source d)) : Prop :=
  S.length = lines.length ∧ ∀ i (h : i < S.length),
    (∀ j : Fin d, column (lines.take (i + 1)) j = some (S[i].pos j)) ∧ column (lines.take (i + 1)) d = some S[i].q

theorem column_append (a b : List Line) (k : ℕ) : column (a ++ b) k = b.foldl (fun old l => field l k old) (column a k) := by
  unfold column; rw [List.foldl_append]

theorem loop_spec (lines : List Line) :
    (∃ S : List (Source d), lines.foldlM (fun (acc : List (Source d) × ReadState d) l => do
        let st := readLine acc.2 l
        let s ← mkSource st
        .ok (acc.1 ++ [s], st)) ([], ⟨fun _ => none, none⟩)
        = .ok (S, ⟨fun j => column lines j, column lines d⟩) ∧ Reads lines S) ∨
    (lines.foldlM (fun (acc : List (Source d) × ReadState d) l => do
        let st := readLine acc.2 l
        let s ← mkSource st
        .ok (acc.1 ++ [s], st)) ([], ⟨fun _ => none, none⟩) = .error .ub ∧ ¬ ∃ S : List (Source d), Reads lines S) := by
  induction lines using List.reverseRecOn with
  | nil => exact .inl ⟨[], rfl, rfl, by simp⟩
  | append_singleton ls l ih =>
    rw [List.foldlM_append]
    have hcol : ∀ k, column (ls ++ [l]) k = field l k (column ls k) := fun k => by rw [column_append]; rfl
    have htake : ∀ i, i < ls.length → (ls ++ [l]).take (i + 1) = ls.take (i + 1) := fun i hi =>
      List.take_append_of_le_length (by omega)
    rcases ih with ⟨S, h1, h2, h3⟩ | ⟨h1, h2⟩
    · rw [h1, ok_bind]
      simp only [List.foldlM_cons, List.foldlM_nil, readLine_eq]
      rcases mkSource_err (⟨fun i : Fin d => field l i (column ls i), field l d (column ls d)⟩ : ReadState d) with ⟨s, hs⟩ | hs
      · left
        refine ⟨S ++ [s], ?_, by simp [h2], ?_⟩
        · rw [hs]; simp only [ok_bind, hcol]; rfl
        · intro i hi
          by_cases hiS : i < S.length
          · rw [List.getElem_append_left hiS, htake i (by omega)]
            exact h3 i hiS
          · have : i = S.length := by simp at hi; omega
            subst this
            rw [List.getElem_append_right (by omega), List.take_of_length_le (by simp; omega)]
            simp only [Nat.sub_self, List.getElem_singleton, hcol]
            exact (mkSource_ok _ _).mp hs
      · right
        refine ⟨by rw [hs]; rfl, ?_⟩
        rintro ⟨S', e1, e2⟩
        have hl : ls.length < S'.length := by rw [e1]; simp
        obtain ⟨a, b⟩ := e2 ls.length hl
        rw [List.take_of_length_le (by simp)] at a b
        simp only [hcol] at a b
        have := (mkSource_ok (⟨fun i : Fin d => field l i (column ls i), field l d (column ls d)⟩ : ReadState d) S'[ls.length]).mpr ⟨a, b⟩
        rw [hs] at this
        simp at this
    · right
      refine ⟨by rw [h1]; rfl, ?_⟩
      rintro ⟨S', e1, e2⟩
      have hl : S'.length = ls.length + 1 := by rw [e1]; simp
      refine h2 ⟨S'.take ls.length, by rw [List.length_take]; omega, fun i hi => ?_⟩
      have hi' : i < ls.length := by rw [List.length_take] at hi; omega
      have := e2 i (by omega)
      rw [htake i hi'] at this
      rw [List.getElem_take]
      exact this

/-! ## C61 -/

/-- **C61** `readSourcesFromFile` returns exactly one source per line, whose coordinates and strength are the current values of the
columns; if some value is still indeterminate the behaviour is undefined. -/
theorem C61_read (lines : List Line) :
    (∀ S : List (Source d), readSources lines = .ok S ↔ Reads lines S) ∧
    ((¬ ∃ S : List (Source d), Reads lines S) → readSources (d := d) lines = .error .ub) := by
  have huniq : ∀ S S' : List (Source d), Reads lines S → Reads lines S' → S = S' := by
    rintro S S' ⟨a1, a2⟩ ⟨b1, b2⟩
    refine List.ext_getElem (by omega) fun i h h' => ?_
    obtain ⟨c1, c2⟩ := a2 i h
    obtain ⟨d1, d2⟩ := b2 i h'
    have e1 : S[i].pos = S'[i].pos := funext fun j => by
      have := (c1 j).symm.trans (d1 j); injection this
    have e2 : S[i].q = S'[i].q := by have := c2.symm.trans d2; injection this
    rcases hS : S[i] with ⟨p, q⟩
    rcases hS' : S'[i] with ⟨p', q'⟩
    rw [hS, hS'] at e1 e2
    simp only at e1 e2
    rw [e1, e2]
  unfold readSources
  rcases loop_spec (d := d) lines with ⟨S, h1, h2⟩ | ⟨h1, h2⟩
  · rw [h1, ok_bind]
    refine ⟨fun S' => ⟨fun h => ?_, fun h => ?_⟩, fun h => absurd ⟨S, h2⟩ h⟩
    · injection h with h; subst h; exact h2
    · simp only; rw [huniq S S' h2 h]
  · rw [h1]
    refine ⟨fun S' => ⟨fun h => ?_, fun h => absurd ⟨S', h⟩ h2⟩, fun _ => rfl⟩
    rw [err_bind] at h; simp at h

/-- The text of a source: its coordinates, its strength, and possibly more. -/
def sourceLine (s : Source d) (rest : Line) : Line := (List.finRange d).map (fun i => some (s.pos i)) ++ some s.q :: rest

theorem field_get (vs : List ℝ) (rest : Line) (k : ℕ) (hk : k < vs.length) (old : Option ℝ) :
    field (vs.map some ++ rest) k old = some vs[k] := by
  induction vs generalizing k with
  | nil => simp at hk
  | cons v vs ih =>
    rcases k with _ | k
    · rfl
    · exact ih k (by simpa using hk)

theorem field_sourceLine (s : Source d) (rest : Line) (old : Option ℝ) :
    (∀ j : Fin d, field (sourceLine s rest) j old = some (s.pos j)) ∧ field (sourceLine s rest) d old = some s.q := by
  have : sourceLine s rest = ((List.finRange d).map s.pos ++ [s.q]).map some ++ rest := by simp [sourceLine, Function.comp_def]
  rw [this]
  constructor
  · intro j
    rw [field_get _ _ _ (by simp), List.getElem_append_left (by simp)]
    simp
  · rw [field_get _ _ _ (by simp), List.getElem_append_right (by simp)]
    simp

theorem column_take_succ (lines : List Line) (i : ℕ) (h : i < lines.length) (k : ℕ) :
    column (lines.take (i + 1)) k = field lines[i] k (column (lines.take i) k) := by
  rw [List.take_add_one, List.getElem?_eq_getElem h, column_append]; rfl

/-- **C61** A file with one source per line, anything after the `d + 1` numbers, is read correctly. -/
theorem C61_read_wellformed (S : List (Source d)) (rest : ℕ → Line) :
    readSources (S.mapIdx fun i s => sourceLine s (rest i)) = .ok S := by
  rw [(C61_read _).1]
  refine ⟨by simp, fun i h => ?_⟩
  constructor
  · intro j
    rw [column_take_succ _ _ (by simpa using h), List.getElem_mapIdx]
    exact (field_sourceLine _ _ _).1 j
  · rw [column_take_succ _ _ (by simpa using h), List.getElem_mapIdx]
    exact (field_sourceLine _ _ _).2

/-- **C61** An empty line, e.g. at the end of the file, repeats the source before it. -/
theorem C61_blank_line_duplicates (lines : List Line) (S : List (Source d)) (hS : S ≠ []) (h : readSources lines = .ok S) :
    readSources (lines ++ [[]]) = .ok (S ++ [S.getLast hS]) := by
  obtain ⟨h1, h2⟩ := ((C61_read lines).1 S).mp h
  have hpos := List.length_pos_of_ne_nil hS
  rw [(C61_read _).1]
  refine ⟨by simp [h1], fun i hi => ?_⟩
  by_cases hiS : i < S.length
  · rw [List.getElem_append_left hiS, List.take_append_of_le_length (by omega)]
    exact h2 i hiS
  · have hiS' : i = S.length := by simp at hi; omega
    subst hiS'
    rw [List.getElem_append_right (by omega), List.take_of_length_le (by simp; omega)]
    simp only [Nat.sub_self, List.getElem_singleton, column_append, List.foldl_cons, List.foldl_nil, field]
    have := h2 (S.length - 1) (by omega)
    rw [List.take_of_length_le (by omega)] at this
    rw [List.getLast_eq_getElem]
    exact this

/-- **C61** Consequence: an empty line at the end of the file makes the adaptive tree with one source per leaf refine forever. -/
theorem C61_blank_line_hangs (lines : List Line) (S : List (Source d)) (hS : S ≠ []) (h : readSources lines = .ok S)
    (r : Box d) (fuel : ℕ) : ∃ S', readSources (lines ++ [[]]) = .ok S' ∧ adaptiveBuild fuel Source.pos r S' 1 = .error .fuel := by
  refine ⟨_, C61_blank_line_duplicates lines S hS h, (C12_diverges Source.pos r _ 1 (S.getLast hS).pos ?_ fuel).1⟩
  rw [List.filter_append, List.length_append]
  have h1 : 0 < (S.filter fun s => decide (s.pos = (S.getLast hS).pos)).length :=
    List.length_pos_of_mem (List.mem_filter.mpr ⟨List.getLast_mem hS, by simp⟩)
  simp
  simpa using h1

theorem field_short (l : Line) (k : ℕ) (h : l.length ≤ k) (old : Option ℝ) : field l k old = old := by
  induction l generalizing k with
  | nil => rcases k with _ | k <;> rfl
  | cons a l ih =>
    rcases k with _ | k
    · simp at h
    · rcases a with _ | v
      · rfl
      · exact ih k (by simpa using h)

/-- **C61** If the first line has fewer than `d + 1` entries the behaviour is undefined. -/
theorem C61_first_line_short (l : Line) (lines : List Line) (h : l.length ≤ d) :
    readSources (d := d) (l :: lines) = .error .ub := by
  refine (C61_read _).2 ?_
  rintro ⟨S, h1, h2⟩
  have := (h2 0 (by rw [h1]; simp)).2
  rw [column_take_succ _ _ (by simp)] at this
  simp only [List.getElem_cons_zero, List.take_zero] at this
  rw [field_short l d h] at this
  simp [column] at this

/-- **C61** Files written by `sourceLocationsToFile` contain no strengths and cannot be read back. -/
theorem C61_locations_unreadable (fmt : ℝ → ℝ) (S : List (Source d)) (hS : S ≠ []) :
    readSources (d := d) (sourceLocationsToFile fmt S) = .error .ub := by
  obtain ⟨s, S', rfl⟩ := List.exists_cons_of_ne_nil hS
  exact C61_first_line_short _ _ (by simp)

/-- **C61** Reading a vector stops at the first token that is no number (or at the end of the file), and line breaks do not matter. -/
theorem C61_vector_stops (lines : List Line) (vs : List ℝ) :
    vectorFromFile lines = vs ↔ ∃ rest, lines.flatten = vs.map some ++ rest ∧ (rest = [] ∨ ∃ r, rest = none :: r) := by
  unfold vectorFromFile
  generalize lines.flatten = l
  induction l generalizing vs with
  | nil =>
    constructor
    · rintro rfl; exact ⟨[], rfl, Or.inl rfl⟩
    · rintro ⟨rest, h, -⟩
      have := (List.append_eq_nil_iff.mp h.symm).1
      exact (List.map_eq_nil_iff.mp this).symm
  | cons a l ih =>
    cases a with
    | none =>
      constructor
      · rintro rfl; exact ⟨none :: l, rfl, Or.inr ⟨l, rfl⟩⟩
      · rintro ⟨rest, h, -⟩
        cases vs with
        | nil => rfl
        | cons v vs => simp at h
    | some v =>
      constructor
      · rintro rfl
        obtain ⟨rest, h, hr⟩ := (ih _).mp rfl
        exact ⟨rest, congrArg (List.cons (some v)) h, hr⟩
      · rintro ⟨rest, h, hr⟩
        cases vs with
        | nil => rcases hr with rfl | ⟨r, rfl⟩ <;> simp at h
        | cons w vs =>
          simp only [List.map_cons, List.cons_append, List.cons.injEq, Option.some.injEq] at h
          obtain ⟨rfl, h⟩ := h
          show v :: numbers l = v :: vs
          rw [(ih vs).mpr ⟨rest, h, hr⟩]

example : vectorFromFile [[some 1], [some 2, none], [some 3]] = [1, 2] :=
  (C61_vector_stops _ _).mpr ⟨[none, some 3], rfl, Or.inr ⟨_, rfl⟩⟩

/-- **C61** The numbers of a file, written to an array from element `off`: complete if they fit, undefined otherwise. -/
theorem C61_vector (lines : List Line) (dest : Arr ℝ) (off : ℕ) (h32 : (vectorFromFile lines).length ≤ 2 ^ 32) :
    (off + (vectorFromFile lines).length ≤ dest.size → ∃ out, vectorFromFileTo lines dest off = .ok out ∧ out.size = dest.size ∧
      (∀ k (hk : k < (vectorFromFile lines).length), out.val (off + k) = (vectorFromFile lines)[k]) ∧
      ∀ k, (k < off ∨ off + (vectorFromFile lines).length ≤ k) → out.val k = dest.val k) ∧
    (dest.size < off + (vectorFromFile lines).length → vectorFromFile lines ≠ [] → vectorFromFileTo lines dest off = .error .ub) := by
  set vs := vectorFromFile lines with hvs
  have key : ∀ (ws : List ℝ) (a : Arr ℝ) (idx : ℕ), idx + ws.length ≤ 2 ^ 32 →
      (off + idx + ws.length ≤ a.size → ∃ out n, ws.foldlM (fun (acc : Arr ℝ × ℕ) temp => do
        let dest ← acc.1.wr (off + acc.2) temp
        .ok (dest, (acc.2 + 1) % 2 ^ 32)) (a, idx) = .ok (out, n) ∧ out.size = a.size ∧
        (∀ k (hk : k < ws.length), out.val (off + idx + k) = ws[k]) ∧
        ∀ k, (k < off + idx ∨ off + idx + ws.length ≤ k) → out.val k = a.val k) ∧
      (a.size < off + idx + ws.length → ws ≠ [] → ws.foldlM (fun (acc : Arr ℝ × ℕ) temp => do
        let dest ← acc.1.wr (off + acc.2) temp
        .ok (dest, (acc.2 + 1) % 2 ^ 32)) (a, idx) = .error .ub) := by
    intro ws
    induction ws with
    | nil => intro a idx _; exact ⟨fun _ => ⟨a, idx, rfl, rfl, by simp, fun _ _ => rfl⟩, fun _ h => absurd rfl h⟩
    | cons w ws ih =>
      intro a idx hidx
      simp only [List.length_cons] at hidx ⊢
      constructor
      · intro hfit
        rw [List.foldlM_cons, Arr.wr_ok _ (by simp only; omega), ok_bind, ok_bind]
        simp only
        rcases ws with _ | ⟨w', ws'⟩
        · refine ⟨_, _, rfl, rfl, ?_, ?_⟩
          · intro k hk; have : k = 0 := by simpa using hk
            subst this; simp
          · intro k hk; simp only [List.length_nil] at hk; simp only; rw [Function.update_of_ne (by omega)]
        · rw [Nat.mod_eq_of_lt (by simp only [List.length_cons] at hidx; omega)]
          obtain ⟨out, n, e1, e2, e3, e4⟩ := (ih ⟨a.size, Function.update a.val (off + idx) w⟩ (idx + 1) (by omega)).1
            (by simp only; omega)
          refine ⟨out, n, e1, e2, ?_, ?_⟩
          · intro k hk
            rcases k with _ | k
            · rw [e4 _ (by omega)]; simp
            · have := e3 k (by simpa using hk)
              rw [show off + idx + (k + 1) = off + (idx + 1) + k by omega, this]; rfl
          · intro k hk
            rw [e4 k (by simp only [List.length_cons] at hk ⊢; omega)]
            simp only
            rw [Function.update_of_ne (by omega)]
      · intro hover _
        rw [List.foldlM_cons]
        by_cases h0 : off + idx < a.size
        · rw [Arr.wr_ok _ (by simp only; omega), ok_bind, ok_bind]
          simp only
          rcases ws with _ | ⟨w', ws'⟩
          · simp only [List.length_nil] at hover; omega
          · rw [Nat.mod_eq_of_lt (by simp only [List.length_cons] at hidx; omega)]
            exact (ih ⟨a.size, Function.update a.val (off + idx) w⟩ (idx + 1) (by omega)).2 (by simp only; omega) (by simp)
        · rw [show a.wr (off + idx) w = .error .ub from if_neg h0]; rfl
  obtain ⟨k1, k2⟩ := key vs dest 0 (by omega)
  constructor
  · intro h
    obtain ⟨out, n, e1, e2, e3, e4⟩ := k1 (by omega)
    refine ⟨out, ?_, e2, fun k hk => by simpa using e3 k hk, fun k hk => e4 k (by omega)⟩
    unfold vectorFromFileTo
    rw [← hvs, e1]; rfl
  · intro h h'
    unfold vectorFromFileTo
    rw [← hvs, k2 (by omega) h']; rfl

/-- **C61** Setup of the integrator: with `N` sources, `2 N` velocities and `N` masses the arrays hold positions, velocities,
strengths and masses, and no element is left uninitialised. -/
theorem C61_setup (junk : ℕ → ℝ) (fs fv fm : List Line) (S : List (Source 2)) (hS : readSources fs = .ok S)
    (h32 : 4 * S.length < 2 ^ 32) (hv : (vectorFromFile fv).length = 2 * S.length) (hm : (vectorFromFile fm).length = S.length) :
    ∃ pos chg mass, setup junk fs fv fm = .ok (pos, chg, mass) ∧ pos.size = 4 * S.length ∧ chg.size = S.length ∧
      mass.size = S.length ∧ Glue.unflatten 2 S.length pos.val chg.val = S ∧
      (∀ k (hk : k < (vectorFromFile fv).length), pos.val (2 * S.length + k) = (vectorFromFile fv)[k]) ∧
      ∀ k (hk : k < (vectorFromFile fm).length), mass.val k = (vectorFromFile fm)[k] := by
  obtain ⟨pos, chg, h1, h2, h3, h4, -⟩ := Glue.C48_to_array S ⟨2 * 2 * S.length, junk⟩ ⟨S.length, junk⟩ (by simp only; omega) le_rfl
  obtain ⟨pos', g1, g2, g3, g4⟩ := (C61_vector fv pos (2 * S.length) (by omega)).1 (by rw [h2]; simp only; omega)
  obtain ⟨mass, m1, m2, m3, -⟩ := (C61_vector fm ⟨S.length, junk⟩ 0 (by omega)).1 (by simp only; omega)
  refine ⟨pos', chg, mass, ?_, by rw [g2, h2], h3, m2, ?_, g3, fun k hk => by simpa using m3 k hk⟩
  · unfold setup
    rw [hS, ok_bind]
    simp only
    rw [Nat.mod_eq_of_lt (show S.length < 2 ^ 32 by omega), Nat.mod_eq_of_lt (show 2 * 2 * S.length < 2 ^ 32 by omega),
      Nat.mod_eq_of_lt (show 2 * S.length < 2 ^ 32 by omega), h1, ok_bind]
    simp only
    rw [g1, ok_bind, m1, ok_bind]
  · refine Eq.trans ?_ h4
    unfold Glue.unflatten
    refine List.map_congr_left fun i hi => ?_
    have hi : i < S.length := by simpa using hi
    congr 1
    funext j
    exact g4 _ (.inl (by have := j.isLt; omega))

/-- **C61** Too many velocities or masses overflow the heap arrays. -/
theorem C61_setup_overflow (junk : ℕ → ℝ) (fs fv fm : List Line) (S : List (Source 2)) (hS : readSources fs = .ok S)
    (h32 : 4 * S.length < 2 ^ 32) (hv32 : (vectorFromFile fv).length ≤ 2 ^ 32) (hm32 : (vectorFromFile fm).length ≤ 2 ^ 32)
    (h : 2 * S.length < (vectorFromFile fv).length ∨ S.length < (vectorFromFile fm).length) :
    setup junk fs fv fm = .error .ub := by
  obtain ⟨pos, chg, h1, h2, h3, h4, -⟩ := Glue.C48_to_array S ⟨2 * 2 * S.length, junk⟩ ⟨S.length, junk⟩ (by simp only; omega) le_rfl
  unfold setup
  rw [hS, ok_bind]
  simp only
  rw [Nat.mod_eq_of_lt (show S.length < 2 ^ 32 by omega), Nat.mod_eq_of_lt (show 2 * 2 * S.length < 2 ^ 32 by omega),
      Nat.mod_eq_of_lt (show 2 * S.length < 2 ^ 32 by omega), h1, ok_bind]
  simp only
  have hne : ∀ l : List ℝ, 0 < l.length → l ≠ [] := fun l h => List.ne_nil_of_length_pos h
  by_cases hv : 2 * S.length < (vectorFromFile fv).length
  · rw [(C61_vector fv pos (2 * S.length) hv32).2 (by rw [h2]; simp only; omega) (hne _ (by omega))]; rfl
  · obtain ⟨pos', g1, -⟩ := (C61_vector fv pos (2 * S.length) hv32).1 (by rw [h2]; simp only; omega)
    rw [g1, ok_bind, (C61_vector fm ⟨S.length, junk⟩ 0 hm32).2 (by simp only; omega) (hne _ (by omega))]; rfl

/-- **C61** Too few velocities leave uninitialised memory in the state vector. -/
theorem C61_setup_missing (junk : ℕ → ℝ) (fs fv fm : List Line) (S : List (Source 2)) (hS : readSources fs = .ok S)
    (h32 : 4 * S.length < 2 ^ 32) (hv : (vectorFromFile fv).length < 2 * S.length) (hm : (vectorFromFile fm).length ≤ S.length) :
    ∃ pos chg mass, setup junk fs fv fm = .ok (pos, chg, mass) ∧ pos.size = 4 * S.length ∧
      pos.val (4 * S.length - 1) = junk (4 * S.length - 1) := by
  obtain ⟨pos, chg, h1, h2, h3, h4, h5, -⟩ :=
    Glue.C48_to_array S ⟨2 * 2 * S.length, junk⟩ ⟨S.length, junk⟩ (by simp only; omega) le_rfl
  obtain ⟨pos', g1, g2, g3, g4⟩ := (C61_vector fv pos (2 * S.length) (by omega)).1 (by rw [h2]; simp only; omega)
  obtain ⟨mass, m1, -⟩ := (C61_vector fm ⟨S.length, junk⟩ 0 (by omega)).1 (by simp only; omega)
  refine ⟨pos', chg, mass, ?_, by rw [g2, h2], ?_⟩
  · unfold setup
    rw [hS, ok_bind]
    simp only
    rw [Nat.mod_eq_of_lt (show S.length < 2 ^ 32 by omega), Nat.mod_eq_of_lt (show 2 * 2 * S.length < 2 ^ 32 by omega),
      Nat.mod_eq_of_lt (show 2 * S.length < 2 ^ 32 by omega), h1, ok_bind]
    simp only
    rw [g1, ok_bind, m1, ok_bind]
  · rw [g4 _ (.inr (by omega)), h5 _ (by omega)]

/-- Two sources with a trailing comment; then with an empty line at the end. -/
example : readSources (d := 2) [[some 1, some 2, some 3, none], [some 4, some 5, some 6], []]
    = .ok [⟨![1, 2], 3⟩, ⟨![4, 5], 6⟩, ⟨![4, 5], 6⟩] := by
  have h := C61_read_wellformed (d := 2) [⟨![1, 2], 3⟩, ⟨![4, 5], 6⟩] (fun i => if i = 0 then [none] else [])
  exact C61_blank_line_duplicates _ _ (by simp) h

/-- One source, its velocity and mass. -/
example : ∃ pos chg mass, setup (fun _ => 7) [[some 1, some 2, some 3]] [[some 4], [some 5]] [[some 6]] = .ok (pos, chg, mass) ∧
    pos.val 3 = 5 ∧ mass.val 0 = 6 := by
  have hS : readSources (d := 2) [[some 1, some 2, some 3]] = .ok [⟨![1, 2], 3⟩] :=
    C61_read_wellformed (d := 2) [⟨![1, 2], 3⟩] (fun _ => [])
  obtain ⟨pos, chg, mass, h1, -, -, -, -, h2, h3⟩ := C61_setup (fun _ => 7) _ [[some 4], [some 5]] [[some 6]] _ hS (by simp)
    (by simp [vectorFromFile, numbers]) (by simp [vectorFromFile, numbers])
  exact ⟨pos, chg, mass, h1, h2 1 (by simp [vectorFromFile, numbers]), h3 0 (by simp [vectorFromFile, numbers])⟩

end FMM.FileIO
