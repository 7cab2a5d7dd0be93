import Verif.Model.MatrixDim
import Verif.Model.ForEach

/-!
# Text output of vectors and matrices (dune/istl/io.hh)

The stream is the list of what is written to it: texts, indices and numbers, each with the field width set before it and, for numbers, the
format in force. How a number becomes characters is not modelled. The counters of type `int` are not bounded.
-/

namespace Istl
namespace TextOut
open MatDim ForEach

/-- The format of floating point numbers of a stream: the two flags of `floatfield`, the other flags, the precision. -/
structure Fmt where
  sci : Bool
  fixed : Bool
  other : Nat
  prec : Int
deriving DecidableEq

/-- One item written. The number in front is the field width (0 if none is set). -/
inductive Item (S : Type) where
  | text (w : Nat) (s : String)
  | idx (w : Nat) (n : Nat)
  | val (w : Int) (f : Fmt) (x : S)
  | endl
deriving DecidableEq

/-- An output stream. -/
structure Stream (S : Type) where
  fmt : Fmt
  out : List (Item S)

variable {S : Type}

/-- `s << ...`. -/
def Stream.put (st : Stream S) (l : List (Item S)) : Stream S := { st with out := st.out ++ l }

/-- `oldflags = flags(); setf(scientific, floatfield); oldprec = precision(); precision(p)`. dune/istl/io.hh:97-102, 218-222, 308-312. -/
def Stream.setScientific (st : Stream S) (p : Int) : Stream S := { st with fmt := { st.fmt with sci := true, fixed := false, prec := p } }

/-- `s.flags(oldflags); s.precision(oldprec);`. dune/istl/io.hh:115-117, 245-247, 373-375. -/
def Stream.restore (st : Stream S) (old : Fmt) : Stream S := { st with fmt := old }

/-- Printing one number: a new row begins when the counter is a multiple of `columns`, and ends when the next one is. Remainder by zero is
undefined. dune/istl/io.hh:55-71. -/
def printNumber (rowtext : String) (columns width : Int) (x : S) (st : Stream S × Nat) : Res (Stream S × Nat) :=
  if columns = 0 then .ub
  else
    let s := if Int.tmod st.2 columns = 0 then st.1.put [.text 0 rowtext, .text 0 " ", .idx 4 st.2] else st.1
    let s := s.put [.text 0 " ", .val width s.fmt x]
    let c := st.2 + 1
    let s := if Int.tmod c columns = 0 then s.put [.endl] else s
    .ok (s, c)

/-- `recursive_printvector`. dune/istl/io.hh:51-79. -/
def recursivePrintvector (rowtext : String) (columns width : Int) : NVec S → Stream S × Nat → Res (Stream S × Nat)
  | .scalar x, st => printNumber rowtext columns width x st
  | .node n child, st => forRangeM n (fun i st => recursivePrintvector rowtext columns width (child i) st) st

/-- `v.N()`. dune/istl/bvector.hh:320-323. -/
def blocks : NVec S → Nat
  | .scalar _ => 1
  | .node n _ => n

/-- `v.dim()`. dune/istl/bvector.hh:326-334. -/
def dim : NVec S → Nat
  | .scalar _ => 1
  | .node n child => forRange n (fun i d => d + dim (child i)) 0

/-- `printvector`. dune/istl/io.hh:88-118. -/
def printvector (title rowtext : String) (columns width prec : Int) (v : NVec S) (st : Stream S) : Res (Stream S) := do
  let s := st.setScientific prec
  let s := s.put [.text 0 title, .text 0 " [blocks=", .idx 0 (blocks v), .text 0 ",dimension=", .idx 0 (dim v), .text 0 "]", .endl]
  let r ← recursivePrintvector rowtext columns width v (s, 0)
  if columns = 0 then .ub
  else
    let s := if Int.tmod r.2 columns ≠ 0 then r.1.put [.endl] else r.1
    .ok (s.restore st.fmt)

/-- `print_row`: the fields written, `none` is the `.` of `fill_row`; the row and column counters `i0`, `j0` of the code, of which only the
first is used. dune/istl/io.hh:133-141, 150-162, 171-202. -/
def printRow : MMat S → Nat → Nat → Res (List (Option S))
  | .scalar s, _, _ => .ok [some s]
  | .node k n m pat entry, I, r => do
    let st ← forRangeM n (fun i (st : List (Option S) × Nat) => do
      let d ← rowdimAt k m pat entry i
      let out ←
        if st.2 ≤ r ∧ r < st.2 + d then
          forRangeM m (fun j out => do
            let c ← coldimAt k n pat entry j
            if j ∈ pat i then do
              let l ← printRow (entry i j) st.2 r
              .ok (out ++ l)
            else .ok (out ++ List.replicate c none)) st.1
        else .ok st.1
      .ok (out, st.2 + d)) ([], I)
    .ok st.1

/-- A field: a space, then the number or a dot. dune/istl/io.hh:137-139, 159-161. -/
def field (width : Int) (f : Fmt) : Option S → List (Item S)
  | some x => [.text 0 " ", .val width f x]
  | none => [.text 0 " ", .text width.toNat "."]

/-- `A.N()` and `A.M()`. -/
def sizeOf2 : MMat S → Nat × Nat
  | .scalar _ => (1, 1)
  | .node _ n m _ _ => (n, m)

/-- `printmatrix`. dune/istl/io.hh:212-248. -/
def printmatrix (title rowtext : String) (width prec : Int) (A : MMat S) (st : Stream S) : Res (Stream S) := do
  let s := st.setScientific prec
  let rd ← rowdim A
  let cd ← coldim A
  let s := s.put [.text 0 title, .text 0 " [n=", .idx 0 (sizeOf2 A).1, .text 0 ",m=", .idx 0 (sizeOf2 A).2, .text 0 ",rowdim=", .idx 0 rd,
    .text 0 ",coldim=", .idx 0 cd, .text 0 "]", .endl]
  let s ← forRangeM rd (fun i (s : Stream S) => do
    let l ← printRow A 0 i
    .ok (s.put ([.text 0 rowtext, .text 0 " ", .idx 4 i] ++ l.flatMap (field width s.fmt) ++ [.endl]))) s
  .ok (s.restore st.fmt)

/-- What `printInnerMatrixElement` writes for the entry `(innerrow, innercol)` of a block: a number and a space, or a dash for the zeros of a
`ScaledIdentityMatrix`. dune/istl/io.hh:252-278. -/
def innerElement (f : Fmt) : Option S → List (Item S)
  | some x => [.val 9 f x, .text 0 " "]
  | none => [.text 9 "-"]

/-- The block at one position of the row, for the line `ir` of the blocks; `count` is its position, `skip` that of the first block of this
round. dune/istl/io.hh:340-360. -/
def sparseBlock (f : Fmt) (rowtext : String) (mb row : Nat) (elt : Nat → Nat → Nat → Option S) (ir : Nat) (first : Bool) (col : Nat) : List (Item S) :=
  (if ir = 0 then
    (if first then [.text 0 rowtext, .text 0 " ", .idx 4 row, .text 0 ": "] else []) ++ [.idx 4 col, .text 0 ": |"]
  else
    (if first then List.replicate rowtext.length (.text 0 " ") ++ [.text 0 "       "] else []) ++ [.text 0 "      |"]) ++
  (List.range mb).flatMap (fun ic => innerElement f (elt col ir ic)) ++ [.text 0 "|"]

/-- The loop over the stored blocks of the row; also tells if the end was reached. dune/istl/io.hh:335-361. -/
def sparseLine (f : Fmt) (rowtext : String) (mb row : Nat) (elt : Nat → Nat → Nat → Option S) (ir : Nat) (skip width : Int) :
    List Nat → Int → List (Item S) × Bool
  | [], _ => ([], true)
  | col :: l, count =>
    if count < skip then sparseLine f rowtext mb row elt ir skip width l (count + 1)
    else if skip + width ≤ count then ([], false)
    else
      let r := sparseLine f rowtext mb row elt ir skip width l (count + 1)
      (sparseBlock f rowtext mb row elt ir (decide (count = skip)) col ++ r.1, r.2)

/-- `for (innerrow ...)`: the lines of one round, and `reachedEnd`. dune/istl/io.hh:333-366. -/
def sparseRound (f : Fmt) (rowtext : String) (nb mb row : Nat) (elt : Nat → Nat → Nat → Option S) (cols : List Nat) (skip width : Int) :
    List (Item S) × Bool :=
  forRange nb (fun ir (st : List (Item S) × Bool) =>
    let r := sparseLine f rowtext mb row elt ir skip width cols 0
    if ir + 1 = nb ∧ r.2 = true then (st.1 ++ r.1, true) else (st.1 ++ r.1 ++ [.endl], st.2)) ([], false)

/-- `while (!reachedEnd)`, with a bound on the number of rounds; `none` if they do not suffice. dune/istl/io.hh:329-369. -/
def sparseRounds (f : Fmt) (rowtext : String) (nb mb row : Nat) (elt : Nat → Nat → Nat → Option S) (cols : List Nat) (width : Int) :
    Nat → Int → List (Item S) → Option (List (Item S))
  | 0, _, _ => none
  | fuel + 1, skip, out =>
    let r := sparseRound f rowtext nb mb row elt cols skip width
    let out := out ++ r.1 ++ [.endl]
    if r.2 then some out else sparseRounds f rowtext nb mb row elt cols width fuel (skip + width) out

/-- The rows of `printSparseMatrix`. dune/istl/io.hh:327-371. -/
def sparseRows (f : Fmt) (rowtext : String) (nb mb : Nat) (pat : Nat → List Nat) (elt : Nat → Nat → Nat → Nat → Option S) (width : Int) (fuel : Nat) :
    List Nat → List (Item S) → Option (List (Item S))
  | [], out => some out
  | i :: rows, out =>
    match sparseRounds f rowtext nb mb i (elt i) (pat i) width fuel 0 out with
    | none => none
    | some out => sparseRows f rowtext nb mb pat elt width fuel rows (out ++ [.endl])

/-- `printSparseMatrix` for a matrix with `n` rows and `m` columns of blocks of size `nb` times `mb`. dune/istl/io.hh:300-376. -/
def printSparseMatrix (title rowtext : String) (width prec : Int) (n m nb mb : Nat) (pat : Nat → List Nat) (elt : Nat → Nat → Nat → Nat → Option S)
    (fuel : Nat) (st : Stream S) : Option (Stream S) :=
  let s := st.setScientific prec
  let s := s.put [.text 0 title, .text 0 " [n=", .idx 0 n, .text 0 ",m=", .idx 0 m, .text 0 ",rowdim=", .idx 0 (n * nb), .text 0 ",coldim=",
    .idx 0 (m * mb), .text 0 "]", .endl]
  match sparseRows s.fmt rowtext nb mb pat elt width fuel (List.range n) [] with
  | none => none
  | some l => some ((s.put l).restore st.fmt)

/-- `writeVectorToMatlabHelper`. dune/istl/io.hh:495-504. -/
def matlabVector : NVec S → Stream S → Stream S
  | .scalar x, st => st.put [.val 0 st.fmt x, .endl]
  | .node n child, st => forRange n (fun i st => matlabVector (child i) st) st

/-- `writeVectorToMatlab`, the file opened with the default format. dune/istl/io.hh:523-533. -/
def writeVectorToMatlab (prec : Int) (v : NVec S) : Stream S :=
  matlabVector v ⟨⟨false, false, 0, prec⟩, []⟩

end TextOut
end Istl
