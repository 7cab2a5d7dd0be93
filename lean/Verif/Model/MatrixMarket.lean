import Verif.Model.Stream
import Verif.Model.MatMat

/-!
# Matrix Market files: dune/istl/matrixmarket.hh

Matrices are `BCRSMatrix<FieldMatrix<K,r,c>>`; `BCRSMatrix<K>` behaves as `r = c = 1` (its printing and value setting code is the same
for one entry per block, dune/istl/matrixmarket.hh:683-694, 1035-1036). Simplifications: `std::size_t` has 64 bits, `int` counters do not overflow,
one SIMD lane, asserts off, messages dropped.
-/

namespace Istl
namespace MM
open Bcrs MatMat

/-- `MM_TYPE`. dune/istl/matrixmarket.hh:299. -/
inductive MType where
  | coordinate | array
  deriving DecidableEq, Repr
/-- `MM_CTYPE`. dune/istl/matrixmarket.hh:301. -/
inductive CType where
  | integer | double | complex | pattern
  deriving DecidableEq, Repr
/-- `MM_STRUCTURE`. dune/istl/matrixmarket.hh:303. -/
inductive Structure where
  | general | symmetric | skewSymmetric | hermitian
  deriving DecidableEq, Repr

/-- `MMHeader` with its default. dune/istl/matrixmarket.hh:305-313. -/
structure Header where
  type : MType := .coordinate
  ctype : CType := .double
  structure_ : Structure := .general
  deriving DecidableEq, Repr

/-- The loop of `lineFeed`. dune/istl/matrixmarket.hh:323-336. The first argument bounds the iterations. -/
def lineFeedLoop : Nat → Option Char → In → Bool × In
  | 0, _, s => (false, s)
  | k + 1, c, s =>
    if c = some ' ' then
      let s := skipChar s
      if s.eof then (false, s)
      else
        let p := peek s
        lineFeedLoop k p.1 p.2
    else if c = some '\n' then (true, skipChar s)
    else (false, s)

/-- `lineFeed`. dune/istl/matrixmarket.hh:315-337. -/
def lineFeed (s : In) : Bool × In :=
  if s.eof then (false, s)
  else
    let p := peek s
    lineFeedLoop (s.rest.length + 1) p.1 p.2

/-- The loop of `skipComments`. dune/istl/matrixmarket.hh:344-349. -/
def skipLoop : Nat → In → In
  | 0, s => s
  | k + 1, s =>
    let p := peek s
    if p.1 = some '%' then skipLoop k (ignoreLine p.2) else p.2

/-- `skipComments`. dune/istl/matrixmarket.hh:339-350. -/
def skipComments (s : In) : In :=
  let s := (lineFeed s).2
  skipLoop (s.rest.length + 1) s

/-- Lower case, `std::transform(..., ::tolower)`. -/
def lower (l : List Char) : List Char := l.map Char.toLower

/-- The third part of the banner: general, hermitian, symmetric, skew-symmetric. dune/istl/matrixmarket.hh:480-541. -/
def readStructure (h : Header) (buffer : List Char) (s : In) : Bool × Header × In :=
  let w := getWord s
  let b := lower (w.1.getD buffer)
  let s := w.2
  if b = "general".toList then (true, { h with structure_ := .general }, (peek (ignoreLine s)).2)
  else if b = "hermitian".toList then (true, { h with structure_ := .hermitian }, (peek (ignoreLine s)).2)
  else if b = "symmetric".toList then (true, { h with structure_ := .symmetric }, (peek (ignoreLine s)).2)
  else if b = "skew-symmetric".toList then (true, { h with structure_ := .skewSymmetric }, (peek (ignoreLine s)).2)
  else (false, h, ignoreLine s)

/-- The numeric type. dune/istl/matrixmarket.hh:426-478. -/
def readCType (h : Header) (buffer : List Char) (s : In) : Bool × Header × In :=
  let w := getWord s
  let b := lower (w.1.getD buffer)
  let s := w.2
  let go := fun (h : Header) => let f := lineFeed s; if f.1 then (false, h, f.2) else readStructure h b f.2
  if b = "integer".toList then go { h with ctype := .integer }
  else if b = "real".toList then go { h with ctype := .double }
  else if b = "complex".toList then go { h with ctype := .complex }
  else if b = "pattern".toList then go { h with ctype := .pattern }
  else (false, h, ignoreLine s)

/-- The type of the matrix. dune/istl/matrixmarket.hh:388-424. -/
def readType (h : Header) (buffer : List Char) (s : In) : Bool × Header × In :=
  let w := getWord s
  let b := lower (w.1.getD buffer)
  let s := w.2
  let go := fun (h : Header) => let f := lineFeed s; if f.1 then (false, h, f.2) else readCType h b f.2
  if b = "array".toList then go { h with type := .array }
  else if b = "coordinate".toList then go { h with type := .coordinate }
  else (false, h, ignoreLine s)

/-- `readMatrixMarketBanner`: success, header (possibly half filled), stream. dune/istl/matrixmarket.hh:353-543. -/
def readBanner (s : In) : Bool × Header × In :=
  let w := getWord s
  let b := w.1.getD []
  let s := w.2
  let h : Header := {}
  if b.head? ≠ some '%' then (false, h, s)
  else if b ≠ "%%MatrixMarket".toList then (false, h, ignoreLine s)
  else
    let f := lineFeed s
    if f.1 then (false, h, f.2)
    else
      let w := getWord f.2
      let b := w.1.getD b
      let s := w.2
      if b ≠ "matrix".toList then (false, h, ignoreLine s)
      else
        let f := lineFeed s
        if f.1 then (false, h, f.2) else readType h b f.2

/-- Banner, or back to the beginning with whatever header has been filled in. dune/istl/matrixmarket.hh:982-989. -/
def readHeader (s : In) : Header × In :=
  let r := readBanner s
  if r.1 then (r.2.1, r.2.2) else (r.2.1, In.ofText s.all)

/-- `calculateNNZ`: block rows, block columns, announced blocks; subtraction of 64 bit unsigned numbers.
dune/istl/matrixmarket.hh:545-568. -/
def calculateNNZ (r c rows cols entries : Nat) (st : Structure) : Nat × Nat × Nat :=
  let full := match st with
    | .general => entries
    | .skewSymmetric => 2 * entries
    | .symmetric => if rows ≤ 2 * entries then 2 * entries - rows else 2 ^ 64 + 2 * entries - rows
    | .hermitian => if rows ≤ 2 * entries then 2 * entries - rows else 2 ^ 64 + 2 * entries - rows
  (rows / r, cols / c, full / (r * c))

/-- `--i` on `std::size_t`. -/
def pred64 (i : Nat) : Nat := if i = 0 then 2 ^ 64 - 1 else i - 1

section
variable {K : Type} [Zero K] [Neg K]

/-- `std::set<IndexData<D>>::insert`: ordered by the index only, the first element with an index stays. dune/istl/matrixmarket.hh:629-633, 790. -/
def setAdd (j : Nat) (v : K) (l : List (Nat × K)) : List (Nat × K) :=
  if l.any (fun e => e.1 = j) then l
  else l.takeWhile (fun e => e.1 < j) ++ (j, v) :: l.dropWhile (fun e => e.1 < j)

/-- `rows[row].insert(data)`. dune/istl/matrixmarket.hh:790. -/
def rowsAdd (rows : List (List (Nat × K))) (i j : Nat) (v : K) : Res (List (List (Nat × K))) := do
  let r ← rd rows i
  wr rows i (setAdd j v r)

/-- The second insertion for structured matrices. dune/istl/matrixmarket.hh:791-827. -/
def fixup (st : Structure) (conj : K → K) (row col : Nat) (v : K) (rows : List (List (Nat × K))) : Res (List (List (Nat × K))) :=
  match st with
  | .general => .ok rows
  | .symmetric => rowsAdd rows col row v
  | .skewSymmetric => rowsAdd rows col row (-v)
  | .hermitian => rowsAdd rows col row (conj v)

/-- `readloop`, `k` entries left: `row` is not initialised, index and number of `data` are. dune/istl/matrixmarket.hh:780-794, 640-647.
`value` reads the number. -/
def readLoop (value : In → Option K × In) (st : Structure) (conj : K → K) :
    Nat → In → List (List (Nat × K)) → Res (In × List (List (Nat × K)))
  | 0, s, rows => .ok (s, rows)
  | k + 1, s, rows =>
    let s := skipComments s
    let a := getNat s
    match a.1 with
    | none => .ub
    | some row1 => do
      let row := pred64 row1
      let b := getNat a.2
      let col := pred64 (b.1.getD 0)
      let v := value b.2
      let x := v.1.getD 0
      let rows ← rowsAdd rows row col x
      let rows ← if row = col then .ok rows else fixup st conj row col x rows
      readLoop value st conj k v.2 rows

/-- The columns inserted into block row `I`. dune/istl/matrixmarket.hh:834-841. -/
def blockCols (r c : Nat) (rows : List (List (Nat × K))) (I : Nat) : List Nat :=
  (List.range r).flatMap fun a => (rows.getD (I * r + a) []).map fun e => e.1 / c

variable {r c : Nat}

/-- A block with one entry changed, `block[a][b] = v`. -/
def setEntry (a b : Nat) (v : K) (blk : Fin r → Fin c → K) : Fin r → Fin c → K :=
  fun a' b' => if a'.val = a ∧ b'.val = b then v else blk a' b'

/-- The assignments of block row `I` in the order of the loops. dune/istl/matrixmarket.hh:707-714. -/
def assignments (r : Nat) (rows : List (List (Nat × K))) (I : Nat) : List (Nat × Nat × K) :=
  (List.range r).flatMap fun a => (rows.getD (I * r + a) []).map fun e => (a, e.1, e.2)

/-- `MatrixValuesSetter::operator()` for one block row. dune/istl/matrixmarket.hh:707-714. -/
def setRowValues (r c : Nat) (rows : List (List (Nat × K))) (I : Nat) (row : Row (Fin r → Fin c → K)) : Res (Row (Fin r → Fin c → K)) :=
  (assignments r rows I).foldlM (fun row x => row.modify (x.2.1 / c) (setEntry x.1 (x.2.1 % c) x.2.2)) row

/-- `MatrixValuesSetter::operator()`. dune/istl/matrixmarket.hh:701-716. -/
def setValues (r c : Nat) (rows : List (List (Nat × K))) (A : SpMat (Fin r → Fin c → K)) : Res (SpMat (Fin r → Fin c → K)) :=
  (List.range A.n).foldlM (fun A I => do
    let row ← setRowValues r c rows I (A.row I)
    .ok { A with row := upd A.row I row }) A

/-- `readSparseEntries`. dune/istl/matrixmarket.hh:764-850. -/
def readSparseEntries (r c : Nat) (value : In → Option K × In) (conj : K → K) (st : Structure) (entries : Nat) (s : In) :
    BC (Fin r → Fin c → K) (SpMat (Fin r → Fin c → K)) := do
  let x ← Cmd.get
  let t ← Cmd.lift (readLoop value st conj entries s (List.replicate (x.o.n * r) []))
  let it ← createbegin
  buildRows it ((List.range x.o.n).map (blockCols r c t.2))
  let x ← Cmd.get
  let v ← Cmd.lift (view x)
  Cmd.lift (setValues r c t.2 (zeroed v))

/-- A number that must have been read: an uninitialised variable otherwise. -/
def need (x : Option Nat) : Res Nat :=
  match x with
  | some n => .ok n
  | none => .ub

/-- `readMatrixMarket(matrix, istr)`. dune/istl/matrixmarket.hh:975-1026. -/
def readMatrix (r c : Nat) (value : In → Option K × In) (conj : K → K) (s : In) : BC (Fin r → Fin c → K) (SpMat (Fin r → Fin c → K)) := do
  let h := readHeader s
  let s := skipComments h.2
  let f := lineFeed s
  if f.1 then Cmd.raise .formatError
  else do
    let n := getNat f.2
    let rows ← Cmd.lift (need n.1)
    let f := lineFeed n.2
    if f.1 then Cmd.raise .formatError
    else do
      let m := getNat f.2
      let cols ← Cmd.lift (need m.1)
      let f := lineFeed m.2
      if f.1 then Cmd.raise .formatError
      else do
        let e := getNat f.2
        let entries ← Cmd.lift (need e.1)
        let dims := calculateNNZ r c rows cols entries h.1.structure_
        let s := ignoreLine e.2
        setSize dims.1 dims.2.1 dims.2.2
        setBuildMode .rowWise
        if h.1.type = .array then Cmd.raise .notImplemented
        else readSparseEntries r c value conj h.1.structure_ entries s

/-- The number of a complex matrix entry: two numbers. dune/istl/matrixmarket.hh:654-667. -/
def getComplex (cd : Codec K) (s : In) : Option (K × K) × In :=
  let re := getVal cd s
  let im := getVal cd re.2
  (some (re.1.getD 0, im.1.getD 0), im.2)

end

/-! ### Writing -/
section
variable {K : Type} {r c : Nat}

/-- `mm_numeric_type<T>::str()`. dune/istl/matrixmarket.hh:85-163. -/
def CType.name : CType → List Char
  | .integer => "integer".toList
  | .double => "real".toList
  | .complex => "complex".toList
  | .pattern => "pattern".toList

/-- `ostr << i << " " << j << " " << v << std::endl`. dune/istl/matrixmarket.hh:1036, 1042. -/
def printTriple (print : K → List Char) (i j : Nat) (v : K) : List Char :=
  dec i ++ ' ' :: dec j ++ ' ' :: print v ++ ['\n']

/-- `mm_print_entry`. dune/istl/matrixmarket.hh:1028-1045. -/
def printEntry (print : K → List Char) (blk : Fin r → Fin c → K) (rowidx colidx : Nat) : List Char :=
  (List.finRange r).flatMap fun a => (List.finRange c).flatMap fun b => printTriple print (rowidx + a.val) (colidx + b.val) (blk a b)

/-- `countNonZeros`. dune/istl/matrixutils.hh:118-134. -/
def countNonZeros (A : SpMat (Fin r → Fin c → K)) : Nat :=
  (List.range A.n).foldl (fun s i => (A.row i).foldl (fun s _ => s + r * c) s) 0

/-- `writeMatrixMarket(matrix, ostr)`. dune/istl/matrixmarket.hh:176-184, 265-275, 1103-1136. -/
def writeMatrix (ct : CType) (print : K → List Char) (A : SpMat (Fin r → Fin c → K)) : List Char :=
  "%%MatrixMarket matrix coordinate ".toList ++ ct.name ++ " general\n".toList ++
  "% ISTL_STRUCT blocked ".toList ++ dec r ++ ' ' :: dec c ++ ['\n'] ++
  dec (A.n * r) ++ ' ' :: dec (A.m * c) ++ ' ' :: dec (countNonZeros A) ++ ['\n'] ++
  (List.range A.n).flatMap fun i => (A.row i).flatMap fun e => printEntry print e.2 (i * r + 1) (e.1 * c + 1)

/-- `ostr << z` for `std::complex`: `(re,im)`; used by `mm_print_entry` for complex entries. dune/istl/matrixmarket.hh:1036, 1042. -/
def printComplex (print : K → List Char) (z : K × K) : List Char := '(' :: print z.1 ++ ',' :: print z.2 ++ [')']

end

/-! ### Vectors -/
section
variable {K : Type} [Zero K] {k : Nat}

/-- `mm_read_vector_entries`: `i` entries read, `size` left. A number that is not read (stream not good) is uninitialised.
dune/istl/matrixmarket.hh:909-920. For scalar blocks (hh:899-907)
the number is read into the vector directly: there a failed stream leaves the old entry. -/
def readVectorLoop (k : Nat) (cd : Codec K) : Nat → Nat → In → List (Fin k → K) → Res (In × List (Fin k → K))
  | _, 0, s, v => .ok (s, v)
  | i, size + 1, s, v => do
    let x := getVal cd s
    match x.1 with
    | none => .ub
    | some x1 => do
      let blk ← rd v (i / k)
      let v ← wr v (i / k) (fun b => if b.val = i % k then x1 else blk b)
      readVectorLoop k cd (i + 1) size x.2 v

/-- `readMatrixMarket(vector, istr)` for `BlockVector<FieldVector<K,k>>` (`k = 1` for scalars); `vector.resize` makes blocks with the given
content. dune/istl/matrixmarket.hh:871-897, 929-967. -/
def readVector (k : Nat) (fresh : Fin k → K) (cd : Codec K) (s : In) : Res (List (Fin k → K)) := do
  let b := readBanner s
  let h := if b.1 then b.2.1 else { b.2.1 with type := .array }
  let s := if b.1 then b.2.2 else In.ofText s.all
  let s := skipComments s
  let f := lineFeed s
  if f.1 then .throw .formatError
  else do
    let n := getNat f.2
    let rows ← need n.1
    let f := lineFeed n.2
    if f.1 then .throw .formatError
    else do
      let m := getNat f.2
      let cols ← need m.1
      if cols ≠ 1 then .throw .formatError
      else if h.type ≠ .array then .throw .formatError
      else if rows / k * k ≠ rows then .throw .formatError
      else do
        let s := ignoreLine m.2
        let r ← readVectorLoop k cd 0 rows s (List.replicate (rows / k) fresh)
        .ok r.2

/-- `writeMatrixMarket(vector, ostr)`. dune/istl/matrixmarket.hh:186-194, 240-250, 1047-1100. -/
def writeVector (ct : CType) (print : K → List Char) (v : List (Fin k → K)) : List Char :=
  "%%MatrixMarket matrix array ".toList ++ ct.name ++ " general\n".toList ++
  "% ISTL_STRUCT blocked ".toList ++ dec k ++ " 1\n".toList ++
  dec (v.length * k) ++ " 1\n".toList ++
  v.flatMap fun blk => (List.finRange k).flatMap fun b => print (blk b) ++ ['\n']

end
end MM
end Istl
