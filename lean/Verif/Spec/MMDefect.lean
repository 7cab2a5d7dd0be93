import Verif.Lemmas.MatrixMarket3

/-!
# Specification: Matrix Market files that are not as the format demands
-/

namespace Istl
namespace MM
variable {K : Type}

/-- A word: not empty, no white space. -/
def IsWord (w : List Char) : Prop := w ≠ [] ∧ ∀ x ∈ w, isSpace x = false

/-- The rest of a line after a word: more words, each after one or more blanks, blanks, the end of the line. -/
def tailText : List (Nat × List Char) → Nat → List Char
  | [], k => List.replicate k ' ' ++ ['\n']
  | (g, w) :: ws, k => List.replicate (g + 1) ' ' ++ (w ++ tailText ws k)

/-- A line of words: the first one, further ones with the number of additional blanks before them, the number of trailing blanks. -/
structure WordLine where
  first : List Char
  more : List (Nat × List Char)
  trail : Nat

/-- The words are words. -/
def WordLine.Ok (l : WordLine) : Prop := IsWord l.first ∧ ∀ e ∈ l.more, IsWord e.2

/-- The characters of the line. -/
def WordLine.text (l : WordLine) : List Char := l.first ++ tailText l.more l.trail

/-- The structure named by a word, upper and lower case not being distinguished. -/
def structureNamed (w : List Char) : Option Structure :=
  [Structure.general, .symmetric, .skewSymmetric, .hermitian].find? fun st => st.name = w.map Char.toLower
/-- The type of numbers named by a word. -/
def ctypeNamed (w : List Char) : Option CType :=
  [CType.integer, .double, .complex, .pattern].find? fun ct => ct.name = w.map Char.toLower
/-- The type of file named by a word. -/
def mtypeNamed (w : List Char) : Option MType :=
  [MType.coordinate, .array].find? fun ty => ty.name = w.map Char.toLower

/-- What the words after the type of numbers say: the first one, if it is known. -/
def saidStructure (h : Header) : List (List Char) → Header
  | [] => h
  | w :: _ => match structureNamed w with
    | none => h
    | some st => { h with structure_ := st }
/-- What the words after the type of file say. -/
def saidCType (h : Header) : List (List Char) → Header
  | [] => h
  | w :: ws => match ctypeNamed w with
    | none => h
    | some ct => saidStructure { h with ctype := ct } ws
/-- What the words after `matrix` say. -/
def saidType (h : Header) : List (List Char) → Header
  | [] => h
  | w :: ws => match mtypeNamed w with
    | none => h
    | some ty => saidCType { h with type := ty } ws

/-- What a first line says: everything up to the first word that is not understood, the default (coordinates, real, general) for the rest. -/
def WordLine.said (l : WordLine) : Header :=
  if l.first = "%%MatrixMarket".toList then
    match l.more.map Prod.snd with
    | [] => {}
    | w :: ws => if w = "matrix".toList then saidType {} ws else {}
  else {}

/-- Every word of the banner is understood. -/
def WordLine.Understood (l : WordLine) : Prop :=
  ∃ w1 w2 w3 w4 ws, l.first = "%%MatrixMarket".toList ∧ l.more.map Prod.snd = w1 :: w2 :: w3 :: w4 :: ws ∧ w1 = "matrix".toList ∧
    (mtypeNamed w2).isSome ∧ (ctypeNamed w3).isSome ∧ (structureNamed w4).isSome

/-- The text before the size line: nothing, or a first line beginning with `%` followed by comments. -/
inductive Preamble where
  | nothing
  | line (l : WordLine) (comments : List (List Char))

/-- The characters of the preamble. -/
def Preamble.text : Preamble → List Char
  | .nothing => []
  | .line l comments => l.text ++ comments.flatMap commentText

/-- A first line of words beginning with `%`, comments without line breaks. -/
def Preamble.Ok : Preamble → Prop
  | .nothing => True
  | .line l comments => l.Ok ∧ l.first.head? = some '%' ∧ ∀ x ∈ comments, '\n' ∉ x

/-- What the preamble says. -/
def Preamble.said : Preamble → Header
  | .nothing => {}
  | .line l _ => l.said

/-- The preamble is a complete banner. -/
def Preamble.Complete : Preamble → Prop
  | .nothing => False
  | .line l _ => l.Understood

/-- A line of a coordinate file as it stands there, row and column counted from one. -/
structure RawLine (K : Type) where
  comments : List (List Char)
  row : Nat
  col : Nat
  v : K

/-- The characters of the line. -/
def RawLine.text (print : K → List Char) (l : RawLine K) : List Char :=
  l.comments.flatMap commentText ++ (dec l.row ++ ' ' :: (dec l.col ++ ' ' :: (print l.v ++ ['\n'])))

end MM
end Istl
