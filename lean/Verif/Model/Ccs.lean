import Verif.Model.Gsetc

/-!
# Conversion to compressed column storage: dune/istl/bccsmatrixinitializer.hh

`ent b i j` is the scalar `Impl::asMatrix(b)[i][j]` of a block with `n` rows and `m` columns (both 1 for numbers).
A failing `assert` is not modelled (asserts are off in release builds); an access outside an array is `ub`.
-/

namespace Istl
namespace Ccs

/-- `BCCSMatrix<K>`: dune/istl/bccsmatrix.hh:28-148; the three arrays as lists. -/
structure Mat (K : Type) where
  N : Nat
  M : Nat
  nnz : Nat
  values : List K
  rowindex : List Nat
  colstart : List Nat
  deriving DecidableEq

/-- The changing part of a `BCCSMatrixInitializer`: the matrix under construction and the `marker` array. Its constants,
the scalar column count `cols` and the block size `n x m`, are passed as parameters.
dune/istl/bccsmatrixinitializer.hh:119-264. -/
structure Init (K : Type) where
  mat : Mat K
  marker : List Nat
  deriving DecidableEq

variable {B K : Type}

/-- Constructor `BCCSMatrixInitializer(mat)`: `cols = mat.M()`, `Nnz_ = 0`. dune/istl/bccsmatrixinitializer.hh:129-145. -/
def start (mat : Mat K) : Init K := ⟨{ mat with nnz := 0 }, []⟩

/-- `addRowNnz(row)`. dune/istl/bccsmatrixinitializer.hh:155-159. -/
def addRowNnz (row : Row B) (s : Init K) : Init K := { s with mat := { s.mat with nnz := s.mat.nnz + row.length } }

/-- One entry of `addRowNnz(row, subMatrixIndex)`. dune/istl/bccsmatrixinitializer.hh:180-181. -/
def addNnzStep (idx : List (Option Nat)) (s : Init K) (e : Nat × B) : Res (Init K) := do
  let t ← rd idx e.1
  match t with
  | some _ => .ok { s with mat := { s.mat with nnz := s.mat.nnz + 1 } }
  | none => .ok s

/-- `addRowNnz(row, subMatrixIndex)` with a vector; `none` is the value `numeric_limits::max()`.
dune/istl/bccsmatrixinitializer.hh:176-182. -/
def addRowNnzSub (idx : List (Option Nat)) (row : Row B) (s : Init K) : Res (Init K) := row.foldlM (addNnzStep idx) s

/-- `addRowNnz(row, set)`: the number added to `Nnz_` by the merge of the row with the index set, `siter` onwards being
the second list. dune/istl/bccsmatrixinitializer.hh:161-174. -/
def countSet : Row B → List Nat → Nat
  | [], _ => 0
  | e :: row, siter =>
    match siter.dropWhile (fun t => t < e.1) with
    | [] => 0
    | t :: rest => (if t = e.1 then 1 else 0) + countSet row (t :: rest)

/-- `allocate()`. dune/istl/bccsmatrixinitializer.hh:184-188, 242-255. Fresh arrays hold arbitrary values `v0`, `i0`. -/
def allocate (v0 : Nat → K) (i0 : Nat → Nat) (cols n m : Nat) (s : Init K) : Init K :=
  let nnz := s.mat.nnz * (n * m)
  let mat : Mat K := ⟨s.mat.N, s.mat.M, nnz, (List.range nnz).map v0, (List.range nnz).map i0,
    (List.range (cols + 1)).map i0⟩
  ⟨mat, List.replicate cols 0⟩

/-- One pass of `countEntries`: `marker[colindex*m+i]+=n`. dune/istl/bccsmatrixinitializer.hh:201. -/
def countStep (n m colindex i : Nat) (s : Init K) : Res (Init K) := do
  let c ← rd s.marker (colindex * m + i)
  let mk ← wr s.marker (colindex * m + i) (c + n)
  .ok { s with marker := mk }

/-- `countEntries(colindex)`. dune/istl/bccsmatrixinitializer.hh:196-203. -/
def countEntries (n m colindex : Nat) (s : Init K) : Res (Init K) :=
  forRangeM m (fun i s => countStep n m colindex i s) s

/-- One pass of `calcColstart`. dune/istl/bccsmatrixinitializer.hh:208-212. -/
def calcStep (i : Nat) (s : Init K) : Res (Init K) := do
  let cs ← rd s.mat.colstart i
  let mk ← rd s.marker i
  let colstart ← wr s.mat.colstart (i + 1) (cs + mk)
  let cs' ← rd colstart i
  let marker ← wr s.marker i cs'
  .ok ⟨{ s.mat with colstart := colstart }, marker⟩

/-- `calcColstart()`. dune/istl/bccsmatrixinitializer.hh:205-213. -/
def calcColstart (cols : Nat) (s : Init K) : Res (Init K) := do
  let colstart ← wr s.mat.colstart 0 0
  forRangeM cols (fun i s => calcStep i s) { s with mat := { s.mat with colstart := colstart } }

/-- One scalar of `copyValue`: write row index and value at the column's marker, advance the marker.
dune/istl/bccsmatrixinitializer.hh:228-230. -/
def put (r c : Nat) (v : K) (s : Init K) : Res (Init K) := do
  let k ← rd s.marker c
  let ri ← wr s.mat.rowindex k r
  let vs ← wr s.mat.values k v
  let mk ← wr s.marker c (k + 1)
  .ok ⟨{ s.mat with rowindex := ri, values := vs }, mk⟩

/-- `copyValue(col, rowindex, colindex)`. dune/istl/bccsmatrixinitializer.hh:222-233. -/
def copyValue (ent : B → Nat → Nat → K) (n m : Nat) (b : B) (rowindex colindex : Nat) (s : Init K) : Res (Init K) :=
  forRangeM n (fun i s => forRangeM m (fun j s => put (rowindex * n + i) (colindex * m + j) (ent b i j) s) s) s

/-- `copyToBCCSMatrix(initializer, matrix)`. dune/istl/bccsmatrixinitializer.hh:267-290. -/
def copyTo (v0 : Nat → K) (i0 : Nat → Nat) (ent : B → Nat → Nat → K) (n m : Nat) (mat : Mat K) (A : SpMat B) :
    Res (Mat K) := do
  let s := forRange A.n (fun i s => addRowNnz (A.row i) s) (start mat)
  let s := allocate v0 i0 mat.M n m s
  let s ← forRangeM A.n (fun i s => (A.row i).foldlM (fun s e => countEntries n m e.1 s) s) s
  let s ← calcColstart mat.M s
  let s ← forRangeM A.n (fun i s => (A.row i).foldlM (fun s e => copyValue ent n m e.2 i e.1 s) s) s
  .ok s.mat

/-- One pass of `subMatrixIndex[*index]=s++`. dune/istl/bccsmatrixinitializer.hh:312. -/
def subIndexStep (st : List (Option Nat) × Nat) (t : Nat) : Res (List (Option Nat) × Nat) := do
  let l ← wr st.1 t (some st.2)
  .ok (l, st.2 + 1)

/-- The index vector of the subset variant over the ordered index set. dune/istl/bccsmatrixinitializer.hh:308-312. -/
def subIndex (N : Nat) (S : List Nat) : Res (List (Option Nat)) := do
  let r ← S.foldlM subIndexStep (List.replicate N none, 0)
  .ok r.1

/-- Row `t` of the matrix, `*(firstRow_ + *pos_)`. dune/istl/bccsmatrixinitializer.hh:70-73. -/
def rowAt (A : SpMat B) (t : Nat) : Res (Row B) := if t < A.n then .ok (A.row t) else .ub

/-- Body of the counting loop of the subset variant. dune/istl/bccsmatrixinitializer.hh:321-325. -/
def countSub (n m : Nat) (idx : List (Option Nat)) (s : Init K) (e : Nat × B) : Res (Init K) := do
  let t ← rd idx e.1
  match t with
  | some c => countEntries n m c s
  | none => .ok s

/-- Body of the copying loop of the subset variant. dune/istl/bccsmatrixinitializer.hh:330-334; `r` is the row's index
in the full matrix. -/
def copySub (ent : B → Nat → Nat → K) (n m : Nat) (idx : List (Option Nat)) (r : Nat) (s : Init K) (e : Nat × B) :
    Res (Init K) := do
  let t ← rd idx e.1
  match t with
  | some c => do
    let rr ← rd idx r
    match rr with
    | some r' => copyValue ent n m e.2 r' c s
    | none => .ub
  | none => .ok s

/-- `copyToBCCSMatrix(initializer, MatrixRowSubset(A,S))`, `S` the `std::set` in ascending order.
dune/istl/bccsmatrixinitializer.hh:292-336. -/
def copyToSub (v0 : Nat → K) (i0 : Nat → Nat) (ent : B → Nat → Nat → K) (n m : Nat) (mat : Mat K) (A : SpMat B)
    (S : List Nat) : Res (Mat K) := do
  let idx ← subIndex A.n S
  let s ← S.foldlM (fun s t => do let row ← rowAt A t; addRowNnzSub idx row s) (start mat)
  let s := allocate v0 i0 mat.M n m s
  let s ← S.foldlM (fun s t => do let row ← rowAt A t; row.foldlM (countSub n m idx) s) s
  let s ← calcColstart mat.M s
  let s ← S.foldlM (fun s t => do let row ← rowAt A t; row.foldlM (copySub ent n m idx t) s) s
  .ok s.mat

end Ccs
end Istl
