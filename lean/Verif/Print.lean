import Verif.Exp3
import Verif.Exp2
import Verif.FileIO
import Mathlib.Data.Nat.Digits.Defs

/-!
# Text output

The `operator<<` of `vector.hpp` and `series_expansion.hpp` and the functions of `debugging.hpp`.  A stream is the list of the characters
written so far; how a `double` is written depends on the flags of the stream and is a parameter `fmt`.
-/

namespace FMM.Print

abbrev Text := List Char

/-- `o << n` for an unsigned integer: decimal digits. -/
def nat (n : ℕ) : Text := if n = 0 then ['0'] else ((Nat.digits 10 n).map Nat.digitChar).reverse

/-- `o << n` for a signed integer. -/
def int : ℤ → Text
  | .ofNat n => nat n
  | .negSucc n => '-' :: nat (n + 1)

/-- `operator<<(o, Vector_<d>)`, vector.hpp:45-49; `d - 1` is the index of the last coordinate. -/
def vector {d : ℕ} (fmt : ℝ → Text) (o : Text) (v : Vec (d + 1)) : Text :=
  let o := (List.finRange d).foldl (fun o i => o ++ fmt (v i.castSucc) ++ ", ".toList) o
  o ++ fmt (v (Fin.last d))

/-- `operator<<(o, PointSource_<d>)`, vector.hpp:202-205. -/
def source {d : ℕ} (fmt : ℝ → Text) (o : Text) (s : Source (d + 1)) : Text :=
  vector fmt o s.pos ++ ", q = ".toList ++ fmt s.q

/-- `operator<<(o, SeriesExpansion<2>)`, series_expansion.hpp:85-95. -/
def exp2 (fmt : ℝ → Text) (o : Text) (e : Exp2) : Outcome Text := do
  let o := o ++ "n\tRe a_n\tIm a_n\n".toList
  let o ← loopM (e.order + 1) (fun n o => do
    let re ← e.coeffs.rd n
    let im ← e.coeffs.rd n
    .ok (o ++ nat n ++ "\t".toList ++ fmt re.re ++ "\t".toList ++ fmt im.im ++ "\n".toList)) o
  .ok (o ++ "\n".toList)

/-- `operator<<(o, SeriesExpansion<3>)`, series_expansion.hpp:177-193. -/
def exp3 (fmt : ℝ → Text) (o : Text) (e : Exp3) : Outcome Text := do
  let o := o ++ "n\tm\tRe M_l^m\tIm M_l^m\n".toList
  let (o, _) ← loopM (e.order + 1) (fun n (s : Text × ℕ) =>
    loopZ (-(n : ℤ)) n (fun m (s : Text × ℕ) => do
      let re ← e.coeffs.rd s.2
      let im ← e.coeffs.rd s.2
      .ok (s.1 ++ nat n ++ "\t".toList ++ int m ++ "\t".toList ++ fmt re.re ++ "\t\t".toList ++ fmt im.im ++ "\n".toList, s.2 + 1)) s) (o, 0)
  .ok (o ++ "\n".toList)

/-- `time_proc_stamp`, debugging.hpp:18-24: the width applies to the next number only. -/
def stamp (iteration procId : ℕ) : Text :=
  "[".toList ++ List.replicate (4 - (nat iteration).length) '0' ++ nat iteration ++ "][p".toList ++ nat procId ++ "]: ".toList

/-- `chrono_duration`, debugging.hpp:13-16, for a duration of `ticks` ticks of `num / den` seconds: the conversion to nanoseconds truncates towards zero. -/
noncomputable def chronoDuration (num den : ℕ) (ticks : ℤ) : ℝ := ((ticks * (num * 10 ^ 9)).tdiv den : ℤ) / 1e9

/-- `printIterable`, debugging.hpp:26-33. -/
def iterable {α : Type} (pr : α → Text) (sep : Text) (v : List α) : Text :=
  v.foldl (fun o i => o ++ pr i ++ sep ++ " ".toList) "[ ".toList ++ "]\n".toList

/-- `printVec`, debugging.hpp:35-42. -/
def vec {α : Type} (pr : α → Text) (sep : Text) (v : Arr α) (len : ℕ) : Outcome Text := do
  let o ← loopM len (fun i o => do
    let x ← v.rd i
    .ok (o ++ pr x ++ sep ++ " ".toList)) "[ ".toList
  .ok (o ++ "]\n".toList)

/-- `iterableToFile`, debugging.hpp:44-56: what the file contains, if it could be opened. -/
def iterableToFile {α : Type} (pr : α → Text) (sep : Text) (v : List α) : Text := v.foldl (fun o el => o ++ pr el ++ sep) []

/-- `vecToFile`, debugging.hpp:59-73. -/
def vecToFile {α : Type} (pr : α → Text) (sep : Text) (v : Arr α) (len : ℕ) : Outcome Text :=
  loopM len (fun i o => do
    let x ← v.rd i
    .ok (o ++ pr x ++ sep)) []

end FMM.Print
