import Verif.Model.ParMM

/-!
# MatrixMarket files without index sets

Model of the sequential `storeMatrixMarket(matrix, filename, prec)` and `loadMatrixMarket(matrix, filename)` of dune/istl/matrixmarket.hh.
Simplifications: a file is opened, written and closed without other accesses in between; writing an opened file does not fail.
-/

namespace Istl
namespace MM

/-- The digits the stream prints: `file.precision(prec)` only for positive `prec`, 6 is the precision of a new stream (contract of the
standard library). dune/istl/matrixmarket.hh:1173-1174. -/
def digits (prec : Int) : Nat := if prec > 0 then prec.toNat else 6

/-- The file that is opened for writing. dune/istl/matrixmarket.hh:1155-1170. -/
def storeName (filename : List Char) : List Char :=
  let s := splitFilename filename
  if s.2 ≠ [] then s.1 ++ s.2 else s.1 ++ ".mm".toList

/-- `storeMatrixMarket(matrix, filename, prec)`; `text p` is what `writeMatrixMarket(matrix, file)` writes with precision `p`.
dune/istl/matrixmarket.hh:1151-1177. -/
def storeSeq (canOpen : List Char → Bool) (filename : List Char) (prec : Int) (text : Nat → List Char) (fs : FS) : Res FS :=
  writeFile canOpen fs (storeName filename, text (digits prec))

/-- Open the file to be read: without extension `.mm` is tried before `.mtx`. dune/istl/matrixmarket.hh:1367-1386. -/
def openSeq (fs : FS) (filename : List Char) : Res In :=
  let s := splitFilename filename
  if s.2 ≠ [] then openFile fs (s.1 ++ s.2)
  else
    match fs (s.1 ++ ".mm".toList) with
    | some t => .ok (In.ofText t)
    | none => openFile fs (s.1 ++ ".mtx".toList)

/-- `loadMatrixMarket(matrix, filename)`. dune/istl/matrixmarket.hh:1364-1389. -/
def loadMatrixSeq {K : Type} [Zero K] [Neg K] (r c : Nat) (value : In → Option K × In) (conj : K → K) (fs : FS) (filename : List Char) :
    BC (Fin r → Fin c → K) (SpMat (Fin r → Fin c → K)) := do
  let s ← Cmd.lift (openSeq fs filename)
  readMatrix r c value conj s

/-- `loadMatrixMarket(vector, filename)`. dune/istl/matrixmarket.hh:1364-1389. -/
def loadVectorSeq {K : Type} [Zero K] (k : Nat) (fresh : Fin k → K) (cd : Codec K) (fs : FS) (filename : List Char) : Res (List (Fin k → K)) := do
  let s ← openSeq fs filename
  readVector k fresh cd s

end MM
end Istl
