import Verif.Basic

/-!
# Input streams

`std::istream` as far as dune/istl/matrixmarket.hh uses it: the characters not read yet, `eofbit` and `failbit`. Contract of the C++ standard
library (not code of /repo): an operation on a stream that is not good sets `failbit` and does nothing else.
-/

namespace Istl
namespace MM

/-- An input stream; `all` are all characters of the file, for `seekg(0)`. -/
structure In where
  all : List Char
  rest : List Char
  eof : Bool
  fail : Bool
  deriving DecidableEq, Repr

/-- A freshly opened stream. -/
def In.ofText (t : List Char) : In := ⟨t, t, false, false⟩

/-- `peek()`; `none` is end of file. -/
def peek (s : In) : Option Char × In :=
  if s.eof || s.fail then (none, { s with fail := true })
  else match s.rest with
    | [] => (none, { s with eof := true })
    | c :: _ => (some c, s)

/-- `get()`, the value not being used. -/
def skipChar (s : In) : In :=
  if s.eof || s.fail then { s with fail := true }
  else match s.rest with
    | [] => { s with eof := true, fail := true }
    | _ :: t => { s with rest := t }

/-- What `ignore(max,'\n')` leaves, and whether the end was reached. -/
def dropLine : List Char → List Char × Bool
  | [] => ([], true)
  | c :: t => if c = '\n' then (t, false) else dropLine t

/-- `ignore(std::numeric_limits<std::streamsize>::max(),'\n')`. -/
def ignoreLine (s : In) : In :=
  if s.eof || s.fail then { s with fail := true }
  else { s with rest := (dropLine s.rest).1, eof := (dropLine s.rest).2 }

/-- `isspace` in the C locale. -/
def isSpace (c : Char) : Bool := c = ' ' || c = '\n' || c = '\t' || c = '\r' || c.toNat = 11 || c.toNat = 12

/-- Formatted input: skip white space; nothing left sets `eofbit` and `failbit` and leaves the variable unchanged (`none`). -/
def formatted {α : Type} (f : List Char → Option α × List Char × Bool) (s : In) : Option α × In :=
  if s.eof || s.fail then (none, { s with fail := true })
  else
    match s.rest.dropWhile isSpace with
    | [] => (none, { s with rest := [], eof := true, fail := true })
    | c :: t =>
      let r := f (c :: t)
      (r.1, { s with rest := r.2.1, eof := r.2.1.isEmpty, fail := r.2.2 })

/-- `file >> buffer`: a word ends before the next white space. -/
def getWord : In → Option (List Char) × In :=
  formatted fun l => (some (l.takeWhile (fun c => !isSpace c)), l.dropWhile (fun c => !isSpace c), false)

/-- A decimal digit. -/
def isDigit (c : Char) : Bool := 48 ≤ c.toNat && c.toNat ≤ 57

/-- The number written by decimal digits. -/
def ofDigits (l : List Char) : Nat := l.foldl (fun n c => 10 * n + (c.toNat - 48)) 0

/-- `file >> n` for `std::size_t n`: the longest run of digits; none gives `0` and `failbit`. Simplifications: no overflow, no sign. -/
def getNat : In → Option Nat × In :=
  formatted fun l =>
    if (l.takeWhile isDigit).isEmpty then (some 0, l, true)
    else (some (ofDigits (l.takeWhile isDigit)), l.dropWhile isDigit, false)

/-- How numbers of the field type are written to and read from a stream (contract of the standard library): `print v` are the characters
of `ostr << v`, `scan l` the number at the beginning of `l` and what is left; `none` is a failure. -/
structure Codec (K : Type) where
  print : K → List Char
  scan : List Char → Option (K × List Char)

/-- `file >> v` for a number; a failed conversion stores zero. -/
def getVal {K : Type} [Zero K] (cd : Codec K) : In → Option K × In :=
  formatted fun l =>
    match cd.scan l with
    | some (v, t) => (some v, t, false)
    | none => (some 0, l, true)

/-- Decimal digits of a number, most significant first. -/
def decAux : Nat → Nat → List Char → List Char
  | 0, _, acc => acc
  | f + 1, n, acc => if n < 10 then Char.ofNat (48 + n) :: acc else decAux f (n / 10) (Char.ofNat (48 + n % 10) :: acc)

/-- `ostr << n` for an unsigned integer. -/
def dec (n : Nat) : List Char := decAux (n + 1) n []

end MM
end Istl
