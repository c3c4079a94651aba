import Verif.GlueLemmas

/-!
# File input and output: `fmm_general.hpp` 76-143 and the setup of `examples/integrator.cpp`

A text file is a list of lines, a line is a list of tokens: `some v` where formatted extraction of a `double` succeeds with value `v`,
`none` where the next characters are no number. `fmt` is what is left of a number after printing 15 digits.
-/

namespace FMM.FileIO
variable {d : ℕ}

abbrev Tok := Option ℝ
abbrev Line := List Tok

/-- An input string stream: its failbit and the remaining tokens. -/
structure Stream where
  fail : Bool
  toks : List Tok

/-- `ss >> x` with `x` of type `double`; `old`: the previous value (`none`: indeterminate). When the stream has failed before or is
exhausted nothing is extracted and `x` keeps its value; a failing conversion stores `0`. -/
def extract (s : Stream) (old : Option ℝ) : Stream × Option ℝ :=
  if s.fail then (s, old)
  else match s.toks with
    | [] => (⟨true, []⟩, old)
    | some v :: r => (⟨false, r⟩, some v)
    | none :: r => (⟨true, r⟩, some 0)

/-- Variables `pos`, `charge` of `readSourcesFromFile` (fmm_general.hpp:83-84), declared outside of the loop and uninitialised. -/
structure ReadState (d : ℕ) where
  pos : Fin d → Option ℝ
  charge : Option ℝ

/-- The extractions of one line (fmm_general.hpp:88-93). -/
def readLine (st : ReadState d) (l : Line) : ReadState d :=
  let (s, pos) := (List.finRange d).foldl (fun (acc : Stream × (Fin d → Option ℝ)) i =>
    let (s, v) := extract acc.1 (acc.2 i)
    (s, Function.update acc.2 i v)) (⟨false, l⟩, st.pos)
  let (_, q) := extract s st.charge
  ⟨pos, q⟩

/-- `{{pos}, charge}` (fmm_general.hpp:95): copying an indeterminate `double` is undefined. -/
def mkSource (st : ReadState d) : Outcome (Source d) :=
  match st.charge with
  | none => .error .ub
  | some q => if (∀ i, (st.pos i).isSome) then .ok ⟨fun i => (st.pos i).getD 0, q⟩ else .error .ub

/-- `readSourcesFromFile` (fmm_general.hpp:76-99). A file that cannot be opened has no lines. -/
def readSources (lines : List Line) : Outcome (List (Source d)) := do
  let (out, _) ← lines.foldlM (fun (acc : List (Source d) × ReadState d) l => do
    let st := readLine acc.2 l
    let s ← mkSource st
    .ok (acc.1 ++ [s], st)) ([], ⟨fun _ => none, none⟩)
  .ok out

/-- `sourceLocationsToFile` (fmm_general.hpp:101-117). -/
def sourceLocationsToFile (fmt : ℝ → ℝ) (S : List (Source d)) : List Line :=
  S.map fun s => (List.finRange d).map fun i => some (fmt (s.pos i))

/-- The numbers read by `while(ifile >> temp)` (fmm_general.hpp:126, 140); line breaks are white space. -/
def numbers : List Tok → List ℝ
  | some v :: r => v :: numbers r
  | _ => []

/-- `vectorFromFile(filename)` (fmm_general.hpp:119-131). -/
def vectorFromFile (lines : List Line) : List ℝ := numbers lines.flatten

/-- `vectorFromFile(filename, dest_array)` (fmm_general.hpp:133-143), `dest_array` pointing to element `off` of `dest`. The
counter `index` is a 32-bit `unsigned`. -/
def vectorFromFileTo (lines : List Line) (dest : Arr ℝ) (off : ℕ) : Outcome (Arr ℝ) := do
  let (dest, _) ← (vectorFromFile lines).foldlM (fun (acc : Arr ℝ × ℕ) temp => do
    let dest ← acc.1.wr (off + acc.2) temp
    .ok (dest, (acc.2 + 1) % 2 ^ 32)) (dest, 0)
  .ok dest

/-- The arrays set up by `main` of the integrator (integrator.cpp:115-136, `d = 2`): `positions`, `charges`, `masses`. `N` and
the products with `N` are 32-bit `unsigned`. Elements of `new double[n]` hold arbitrary values `junk`. -/
def setup (junk : ℕ → ℝ) (sourcesFile velocitiesFile massesFile : List Line) : Outcome (Arr ℝ × Arr ℝ × Arr ℝ) := do
  let sources ← readSources (d := 2) sourcesFile
  let N := sources.length % 2 ^ 32
  let (positions, charges) ← Glue.sourcesToArray sources ⟨2 * 2 * N % 2 ^ 32, junk⟩ ⟨N, junk⟩
  let positions ← vectorFromFileTo velocitiesFile positions (2 * N % 2 ^ 32)
  let masses ← vectorFromFileTo massesFile ⟨N, junk⟩ 0
  .ok (positions, charges, masses)

end FMM.FileIO
