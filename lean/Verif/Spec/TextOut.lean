import Verif.Model.TextOut
import Verif.Spec.MatrixDim
import Verif.Spec.ForEach

/-! # What a reader of the text sees -/

namespace Istl
namespace TextOut
open MatDim ForEach
variable {S : Type}

/-- The number of blocks of a vector: a number counts as one. -/
def blockCount (v : NVec S) : Nat :=
  match v with
  | .scalar _ => 1
  | .node n _ => n

/-- The numbers of rows and columns of blocks of a matrix: a number counts as one by one. -/
def blockSizes (A : MMat S) : Nat × Nat :=
  match A with
  | .scalar _ => (1, 1)
  | .node _ n m _ _ => (n, m)

/-- The format the numbers are printed with: that of the stream, but scientific with the precision asked for. -/
def sciFmt (f : Fmt) (p : Int) : Fmt := { f with sci := true, fixed := false, prec := p }

/-- The numbers `k*c, k*c+1, ...` of the list, at most `c`. -/
def group {Y : Type} (c k : Nat) (l : List Y) : List Y := (l.drop (k * c)).take c

/-- The number of lines with at most `c` numbers each that are needed for `n` numbers. -/
def lineCount (c n : Nat) : Nat := (n + c - 1) / c

/-- Line `k` of a printed vector: the text, the index of the first number, at most `c` numbers. -/
def vecLine (rowtext : String) (c : Nat) (width : Int) (f : Fmt) (l : List S) (k : Nat) : List (Item S) :=
  [.text 0 rowtext, .text 0 " ", .idx 4 (k * c)] ++ (group c k l).flatMap (fun x => [.text 0 " ", .val width f x]) ++ [.endl]

/-- The fields show row `r` of the flat matrix with `C` columns: a number where one is stored, a dot elsewhere. -/
def RowShows (P : Nat → Nat → S → Prop) (r C : Nat) (cells : List (Option S)) : Prop :=
  cells.length = C ∧ ∀ c, c < C → ∀ s, cells[c]? = some (some s) ↔ P r c s

/-- A printed matrix row: the text, the number of the row, the fields. -/
def matLine (rowtext : String) (width : Int) (f : Fmt) (r : Nat) (cells : List (Option S)) : List (Item S) :=
  [.text 0 rowtext, .text 0 " ", .idx 4 r] ++ cells.flatMap (fun x => match x with
    | some x => [.text 0 " ", .val width f x]
    | none => [.text 0 " ", .text width.toNat "."]) ++ [.endl]

/-- The blocks of a row of a sparse matrix that are printed side by side. -/
def sparseGroup (c : Nat) (cols : List Nat) (k : Nat) : List Nat := group c k cols

/-- Their number of groups: a row without blocks has one (empty) group. -/
def groupCount (c n : Nat) : Nat := max 1 (lineCount c n)

/-- One entry of a block. -/
def showElement (f : Fmt) : Option S → List (Item S)
  | some x => [.val 9 f x, .text 0 " "]
  | none => [.text 9 "-"]

/-- Line `ir` of blocks printed side by side: in the first line row and column numbers, in the others spaces of the same width. -/
def blockLine (f : Fmt) (rowtext : String) (mb row : Nat) (elt : Nat → Nat → Nat → Option S) (ir : Nat) (cols : List Nat) : List (Item S) :=
  (if cols = [] then [] else if ir = 0 then [.text 0 rowtext, .text 0 " ", .idx 4 row, .text 0 ": "]
    else List.replicate rowtext.length (.text 0 " ") ++ [.text 0 "       "]) ++
  cols.flatMap (fun col => (if ir = 0 then [.idx 4 col, .text 0 ": |"] else [.text 0 "      |"]) ++
    (List.range mb).flatMap (fun ic => showElement f (elt col ir ic)) ++ [.text 0 "|"]) ++ [.endl]

/-- A row of a sparse matrix: group by group, `nb` lines and an empty line. -/
def sparseRow (f : Fmt) (rowtext : String) (nb mb row : Nat) (elt : Nat → Nat → Nat → Option S) (c : Nat) (cols : List Nat) : List (Item S) :=
  (List.range (groupCount c cols.length)).flatMap (fun k =>
    (List.range nb).flatMap (fun ir => blockLine f rowtext mb row elt ir (group c k cols)) ++ [.endl])

end TextOut
end Istl
