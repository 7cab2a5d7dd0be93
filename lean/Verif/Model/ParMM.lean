import Verif.Model.MatrixMarket
import Verif.Model.MatMat
import Verif.Model.Parallel
import Mathlib.Data.List.Sort

/-!
# Parallel MatrixMarket files

Model of `storeMatrixMarket(matrix, filename, comm)` and `loadMatrixMarket(matrix, filename, comm)` of dune/istl/matrixmarket.hh: every
process writes its matrix (or vector) to one file and its part of the parallel index set and its neighbours to another.
Simplifications: global indices are natural numbers; reading an uninitialised variable is undefined behaviour (`Res.ub`). File system: a
map from names to contents.
-/

namespace Istl
namespace MM
open Par

/-- Names and contents of the files. -/
abbrev FS := List Char → Option (List Char)

/-- An entry of a parallel index set as it is stored: global index, local index, attribute, public flag. -/
structure IdxRec where
  g : Nat
  loc : Nat
  attr : Nat
  pub : Bool
  deriving DecidableEq, Repr

/-- The position of the last dot: what stands before it and the rest including the dot. `find_last_of(".")`, `substr`.
dune/istl/matrixmarket.hh:853, 857. -/
def lastDot : List Char → Option (List Char × List Char)
  | [] => none
  | c :: t =>
    match lastDot t with
    | some p => some (c :: p.1, p.2)
    | none => if c = '.' then some ([], c :: t) else none

/-- `splitFilename`. dune/istl/matrixmarket.hh:852-863. -/
def splitFilename (f : List Char) : List Char × List Char :=
  match lastDot f with
  | none => (f, [])
  | some p => if p.2 = ".mm".toList ∨ p.2 = ".mtx".toList then p else (f, [])

/-- `pureFilename + "_" + std::to_string(rank) + extension`. dune/istl/matrixmarket.hh:1208, 1216, 1232, 1285, 1293, 1296, 1312. -/
def rankFile (pureName : List Char) (rank : Nat) (ext : List Char) : List Char := pureName ++ '_' :: (dec rank ++ ext)

/-- The number written for the public flag: `(int) isPublic()`. dune/istl/matrixmarket.hh:1242. -/
def pubCode (b : Bool) : Nat := if b then 1 else 0

/-- One line of the index file. dune/istl/matrixmarket.hh:1241-1242. -/
def printRec (e : IdxRec) : List Char :=
  dec e.g ++ ' ' :: (dec e.loc ++ ' ' :: (dec e.attr ++ ' ' :: (dec (pubCode e.pub) ++ ['\n'])))

/-- The index file: the index set, then the neighbours. dune/istl/matrixmarket.hh:1239-1250. -/
def indexText (pis : List IdxRec) (nb : List Nat) : List Char :=
  pis.flatMap printRec ++ ("neighbours:".toList ++ nb.flatMap fun n => ' ' :: dec n)

/-- The files a process writes in `storeMatrixMarket(matrix, filename, comm, storeIndices)`, in this order; `text` is what
`writeMatrixMarket(matrix, file)` writes. dune/istl/matrixmarket.hh:1195-1252. -/
def storeWrites (filename : List Char) (rank : Nat) (text : List Char) (pis : List IdxRec) (nb : List Nat) (storeIndices : Bool) :
    List (List Char × List Char) :=
  let s := splitFilename filename
  let name := if s.2 ≠ [] then rankFile s.1 rank s.2 else rankFile s.1 rank ".mm".toList
  if storeIndices then [(name, text), (rankFile s.1 rank ".idx".toList, indexText pis nb)] else [(name, text)]

/-- Open a file for writing and write it; `canOpen` tells which names can be opened. dune/istl/matrixmarket.hh:1209-1212, 1217-1220, 1233-1235. -/
def writeFile (canOpen : List Char → Bool) (fs : FS) (w : List Char × List Char) : Res FS :=
  if canOpen w.1 then .ok (fun n => if n = w.1 then some w.2 else fs n) else .throw .ioError

/-- `storeMatrixMarket(matrix, filename, comm, storeIndices)` on one process. dune/istl/matrixmarket.hh:1195-1252. -/
def storePar (canOpen : List Char → Bool) (filename : List Char) (rank : Nat) (text : List Char) (pis : List IdxRec) (nb : List Nat)
    (storeIndices : Bool) (fs : FS) : Res FS :=
  (storeWrites filename rank text pis nb storeIndices).foldlM (writeFile canOpen) fs

/-- Open a file for reading. dune/istl/matrixmarket.hh:1286-1289, 1313-1315. -/
def openFile (fs : FS) (name : List Char) : Res In :=
  match fs name with
  | some t => .ok (In.ofText t)
  | none => .throw .ioError

/-- Open the file of the matrix: without extension `.mm` is tried before `.mtx`. dune/istl/matrixmarket.hh:1281-1302. -/
def openMatrix (fs : FS) (filename : List Char) (rank : Nat) : Res In :=
  let s := splitFilename filename
  if s.2 ≠ [] then openFile fs (rankFile s.1 rank s.2)
  else
    match fs (rankFile s.1 rank ".mm".toList) with
    | some t => .ok (In.ofText t)
    | none => openFile fs (rankFile s.1 rank ".mtx".toList)

/-- `file >> b` for `bool b`: a number; other than 0 and 1 sets `failbit` (contract of the standard library). -/
def getBool (s : In) : Option Bool × In :=
  let n := getNat s
  (n.1.map (· != 0), if n.1.any (1 < ·) then { n.2 with fail := true } else n.2)

/-- Read one entry of the index set and finish the line. dune/istl/matrixmarket.hh:1321-1330. -/
def readRec (s : In) : Res (IdxRec × In) := do
  let g := getNat s
  let l := getNat g.2
  let c := getNat l.2
  let b := getBool c.2
  let gv ← need g.1
  let lv ← need l.1
  let cv ← need c.1
  match b.1 with
  | some bv => .ok (⟨gv, lv, cv, bv⟩, (lineFeed b.2).2)
  | none => .ub

/-- The loop over the entries of the index set. dune/istl/matrixmarket.hh:1320-1331. The first argument bounds the iterations. -/
def idxLoop : Nat → List IdxRec → In → Res (List IdxRec × In)
  | 0, _, _ => .ub
  | k + 1, acc, s =>
    if s.eof then .ok (acc, s)
    else
      let p := peek s
      if p.1 = some 'n' then .ok (acc, p.2)
      else do
        let r ← readRec p.2
        idxLoop k (acc ++ [r.1]) r.2

/-- The loop over the neighbours, `std::set<int>`. dune/istl/matrixmarket.hh:1340-1344. The first argument bounds the iterations. -/
def nbLoop : Nat → List Nat → In → Res (List Nat)
  | 0, _, _ => .ub
  | k + 1, nb, s =>
    if s.eof then .ok nb
    else do
      let n := getNat s
      let v ← need n.1
      nbLoop k (MatMat.setInsert v nb) n.2

/-- What `loadMatrixMarket` does with the index file: the new index set, sorted by global index in `endResize` (contract of dune-common), and
the set of neighbours, if it is set. dune/istl/matrixmarket.hh:1310-1347. Left out: `ri.rebuild` (contract of dune-common). -/
def loadIndices (fs : FS) (filename : List Char) (rank : Nat) (pis : List IdxRec) : Res (List IdxRec × Option (List Nat)) := do
  let s ← openFile fs (rankFile (splitFilename filename).1 rank ".idx".toList)
  if pis.length ≠ 0 then .throw .invalidState
  else do
    let r ← idxLoop (s.rest.length + 1) [] s
    let pis := r.1.insertionSort (fun a b => a.g ≤ b.g)
    if r.2.eof then .ok (pis, none)
    else
      let w := getWord r.2
      if w.1.getD [] ≠ "neighbours:".toList then .throw .formatError
      else do
        let nb ← nbLoop (w.2.rest.length + 1) [] w.2
        .ok (pis, some nb)

/-- `loadMatrixMarket(matrix, filename, comm)` on one process; `pis` is the index set `comm` had before. dune/istl/matrixmarket.hh:1269-1350. -/
def loadMatrixPar {K : Type} [Zero K] [Neg K] (r c : Nat) (value : In → Option K × In) (conj : K → K) (fs : FS) (filename : List Char) (rank : Nat) (pis : List IdxRec) :
    BC (Fin r → Fin c → K) (SpMat (Fin r → Fin c → K) × List IdxRec × Option (List Nat)) := do
  let s ← Cmd.lift (openMatrix fs filename rank)
  let A ← readMatrix r c value conj s
  let x ← Cmd.lift (loadIndices fs filename rank pis)
  pure (A, x)

/-- `loadMatrixMarket(vector, filename, comm)` on one process. dune/istl/matrixmarket.hh:1269-1350. -/
def loadVectorPar {K : Type} [Zero K] (k : Nat) (fresh : Fin k → K) (cd : Codec K) (fs : FS) (filename : List Char) (rank : Nat) (pis : List IdxRec) :
    Res (List (Fin k → K) × List IdxRec × Option (List Nat)) := do
  let s ← openMatrix fs filename rank
  let v ← readVector k fresh cd s
  let x ← loadIndices fs filename rank pis
  .ok (v, x)

/-- The number of an attribute. dune/istl/owneroverlapcopy.hh:58-63, matrixmarket.hh:1242. -/
def attrCode : Attr → Nat
  | .owner => 1
  | .overlap => 2
  | .copy => 3

/-- `Attribute(c)`. dune/istl/matrixmarket.hh:1329. -/
def attrOf : Nat → Option Attr
  | 1 => some .owner
  | 2 => some .overlap
  | 3 => some .copy
  | _ => none

/-- What is stored for an index set; `pub` are the public flags. dune/istl/matrixmarket.hh:1239-1243. -/
def recsOf (pub : Idx → Bool) (A : PIS) : List IdxRec := A.map fun e => ⟨e.g, e.loc, attrCode e.attr, pub e⟩

/-- The index set of stored records. dune/istl/matrixmarket.hh:1329. -/
def pisOf (l : List IdxRec) : Option PIS := l.mapM fun e => (attrOf e.attr).map fun a => ⟨e.g, e.loc, a⟩

end MM
end Istl
