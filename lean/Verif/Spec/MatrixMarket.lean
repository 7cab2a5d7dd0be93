import Verif.Model.MatrixMarket
import Verif.Spec.SpMat

/-!
# Specification: what a Matrix Market file means
-/

namespace Istl
namespace MM
variable {K : Type}

/-- Numbers survive writing and reading: contract of the standard library for a sufficient precision of the stream. -/
structure Codec.Lossless (cd : Codec K) : Prop where
  head : ∀ v, ∃ ch t, cd.print v = ch :: t ∧ isSpace ch = false
  scan : ∀ v c t, isSpace c = true → cd.scan (cd.print v ++ c :: t) = some (v, c :: t)

/-- A comment line. -/
def commentText (t : List Char) : List Char := '%' :: t ++ ['\n']

/-- A line of a coordinate file, preceded by comments: the entry in row `i` and column `j` (counted from zero) is `v`. -/
structure Line (K : Type) where
  comments : List (List Char)
  i : Nat
  j : Nat
  v : K

/-- The text of the line; the file counts from one. -/
def Line.text (print : K → List Char) (l : Line K) : List Char :=
  l.comments.flatMap commentText ++ (dec (l.i + 1) ++ ' ' :: (dec (l.j + 1) ++ ' ' :: (print l.v ++ ['\n'])))

/-- The word for the structure in the banner. -/
def Structure.name : Structure → List Char
  | .general => "general".toList
  | .symmetric => "symmetric".toList
  | .skewSymmetric => "skew-symmetric".toList
  | .hermitian => "hermitian".toList

/-- The banner line. -/
def banner (ct : CType) (st : Structure) : List Char :=
  "%%MatrixMarket matrix coordinate ".toList ++ ct.name ++ ' ' :: (st.name ++ ['\n'])

/-- The size line. -/
def sizeLine (N M E : Nat) : List Char := dec N ++ ' ' :: (dec M ++ ' ' :: (dec E ++ ['\n']))

/-- A coordinate file: banner, comments, size line, entries. -/
def fileText (ct : CType) (st : Structure) (comments : List (List Char)) (N M : Nat) (print : K → List Char) (ls : List (Line K)) : List Char :=
  banner ct st ++ (comments.flatMap commentText ++ (sizeLine N M ls.length ++ ls.flatMap (Line.text print)))

/-- The entries a line stands for: off the diagonal a structured matrix also has the mirrored one. -/
def Line.entries [Neg K] (st : Structure) (conj : K → K) (l : Line K) : List (Nat × Nat × K) :=
  (l.i, l.j, l.v) ::
    (if l.i = l.j then [] else
      match st with
      | .general => []
      | .symmetric => [(l.j, l.i, l.v)]
      | .skewSymmetric => [(l.j, l.i, -l.v)]
      | .hermitian => [(l.j, l.i, conj l.v)])

/-- All entries of the matrix described by the file, in the order of the file. -/
def allEntries [Neg K] (st : Structure) (conj : K → K) (ls : List (Line K)) : List (Nat × Nat × K) := ls.flatMap (Line.entries st conj)

/-- The value of position `(i,j)`: the first entry listed for it. -/
def firstAt (L : List (Nat × Nat × K)) (i j : Nat) : Option K := (L.find? fun t => t.1 = i ∧ t.2.1 = j).map fun t => t.2.2

/-- The block columns with an entry in block row `I`. -/
def touched (L : List (Nat × Nat × K)) (r c I : Nat) : Finset Nat :=
  ((L.filter fun t => t.1 / r = I).map fun t => t.2.1 / c).toFinset

/-- The matrix the file describes, blocked into `r × c` blocks. -/
def described [Zero K] (r c nb mb : Nat) (L : List (Nat × Nat × K)) : SpMat (Fin r → Fin c → K) where
  n := nb
  m := mb
  row := fun I => (touched L r c I).sort.map fun J => (J, fun a b => (firstAt L (I * r + a.val) (J * c + b.val)).getD 0)

/-- The number of blocks the reader reserves. -/
def reserved (st : Structure) (r c N E : Nat) : Nat :=
  match st with
  | .general => E / (r * c)
  | .skewSymmetric => 2 * E / (r * c)
  | .symmetric => (2 * E - N) / (r * c)
  | .hermitian => (2 * E - N) / (r * c)

/-- Same size, same rows. -/
def SameMat {B : Type} (A A' : SpMat B) : Prop := A.n = A'.n ∧ A.m = A'.m ∧ ∀ i < A.n, A.row i = A'.row i

end MM
end Istl
