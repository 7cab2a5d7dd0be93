import Verif.Model.ForEach
import Verif.Model.Ccs

/-!
# Loading a matrix into the direct solver: `UMFPack::setMatrix`, dune/istl/umfpack.hh

The matrix and the bit vector are nested containers (dune/istl/foreach.hh). The functors handed to the traversals capture local
arrays; their state is that of the arrays, with `ub` once an access was out of bounds. Integers are unbounded.
-/

namespace Istl
namespace Umf
open ForEach

variable {K : Type}

/-- Second functor on the bit vector: `flatBitVector[offset] = entry; if (entry) numberOfIgnoredDofs++;`.
dune/istl/umfpack.hh:545-552. -/
def putBit (b : Bool) (off : Nat) (st : Res (List Bool × Nat)) : Res (List Bool × Nat) := do
  let p ← st
  let l ← wr p.1 off b
  .ok (l, if b then p.2 + 1 else p.2)

/-- The flat bit vector and the number of ignored degrees of freedom. dune/istl/umfpack.hh:540-553. -/
def flatBits (v : NVec Bool) : Res (List Bool × Nat) :=
  let size := (flatVector (fun (_ : Bool) _ (u : Unit) => u) v 0 ()).2
  (flatVector putBit v 0 (.ok (List.replicate size false, 0))).1

/-- `flatBitVector[row] or flatBitVector[col]` (false without a bit vector). dune/istl/umfpack.hh:558-560, 599-601, 623-625. -/
def skip (bits : Option (List Bool)) (row col : Nat) : Res Bool :=
  match bits with
  | none => .ok false
  | some l => do
    let a ← rd l row
    if a then .ok true else rd l col

/-- `useBitVector ? subIndices[i] : i`; the value `numeric_limits::max()` is `none`, using it as an index is undefined.
dune/istl/umfpack.hh:605, 629-630. -/
def pick (bits : Option (List Bool)) (sub : List (Option Nat)) (i : Nat) : Res Nat :=
  match bits with
  | none => .ok i
  | some _ => do
    let o ← rd sub i
    match o with
    | some k => .ok k
    | none => .ub

/-- First functor on the matrix: count the entries that are not ignored. dune/istl/umfpack.hh:556-563. -/
def countOne (bits : Option (List Bool)) (row col : Nat) (st : Res Nat) : Res Nat := do
  let k ← st
  let b ← skip bits row col
  .ok (if b then k else k + 1)

/-- Loop body computing `subIndices`. dune/istl/umfpack.hh:571-573. -/
def subStep (bits : List Bool) (i : Nat) (p : List (Option Nat) × Nat) : Res (List (Option Nat) × Nat) := do
  let b ← rd bits i
  if b then .ok p else do
    let l ← wr p.1 i (some p.2)
    .ok (l, p.2 + 1)

/-- `subIndices`. dune/istl/umfpack.hh:568-573. -/
def subIndices (bits : List Bool) (flatRows : Nat) : Res (List (Option Nat)) := do
  let p ← forRangeM flatRows (fun i p => subStep bits i p) (List.replicate flatRows none, 0)
  .ok p.1

/-- `subIndices` stays empty without a bit vector. dune/istl/umfpack.hh:534, 565-574. -/
def subsOf (bits : Option (List Bool)) (flatRows : Nat) : Res (List (Option Nat)) :=
  match bits with
  | none => .ok []
  | some l => subIndices l flatRows

/-- Second functor on the matrix: `colstart[colIdx+1]++`. dune/istl/umfpack.hh:596-608. -/
def countCol (bits : Option (List Bool)) (sub : List (Option Nat)) (row col : Nat) (st : Res (List Nat)) :
    Res (List Nat) := do
  let cs ← st
  let b ← skip bits row col
  if b then .ok cs else do
    let c ← pick bits sub col
    let k ← rd cs (c + 1)
    wr cs (c + 1) (k + 1)

/-- `colstart[i+1] += colstart[i]`. dune/istl/umfpack.hh:613. -/
def accStep (i : Nat) (cs : List Nat) : Res (List Nat) := do
  let a ← rd cs i
  let b ← rd cs (i + 1)
  wr cs (i + 1) (b + a)

/-- State of the third functor: the entry arrays and `colPosition`. -/
structure Fill (K : Type) where
  rowindex : List Nat
  values : List K
  pos : List Nat

/-- Writing one entry. dune/istl/umfpack.hh:633-640. -/
def fillAt (cs : List Nat) (v : K) (r c : Nat) (s : Fill K) : Res (Fill K) := do
  let a ← rd cs c
  let p ← rd s.pos c
  let ri ← wr s.rowindex (a + p) r
  let vs ← wr s.values (a + p) v
  let pos ← wr s.pos c (p + 1)
  .ok ⟨ri, vs, pos⟩

/-- Third functor on the matrix. dune/istl/umfpack.hh:620-641. -/
def fillOne (bits : Option (List Bool)) (sub : List (Option Nat)) (cs : List Nat) (v : K) (row col : Nat)
    (st : Res (Fill K)) : Res (Fill K) := do
  let s ← st
  let b ← skip bits row col
  if b then .ok s else do
    let r ← pick bits sub row
    let c ← pick bits sub col
    fillAt cs v r c s

/-- Everything after the bit vector has been flattened (`bits = none` without a bit vector); `v0`, `i0` are the arbitrary initial
contents of the entry arrays. dune/istl/umfpack.hh:555-641. -/
def load (v0 : Nat → K) (i0 : Nat → Nat) (A : NMat K) (bits : Option (List Bool)) (ignored : Nat) : Res (Ccs.Mat K) := do
  let c ← flatMatrix A (fun _ r c st => countOne bits r c st) 0 0 (.ok 0)
  let nonZeros ← c.1
  let sub ← subsOf bits c.2.1
  let rows := c.2.1 - ignored
  let cols := c.2.2 - ignored
  let d ← flatMatrix A (fun _ r c st => countCol bits sub r c st) 0 0 (.ok (List.replicate (cols + 1) 0))
  let cs ← d.1
  let cs ← forRangeM cols (fun i cs => accStep i cs) cs
  let e ← flatMatrix A (fun v r c st => fillOne bits sub cs v r c st) 0 0
    (.ok ⟨(List.range nonZeros).map i0, (List.range nonZeros).map v0, List.replicate cols 0⟩)
  let s ← e.1
  .ok ⟨rows, cols, nonZeros, s.values, s.rowindex, cs⟩

/-- `matrix.N()` and `matrix.M()`. -/
def topSize : NMat K → Nat × Nat
  | .scalar _ => (1, 1)
  | .sparse n m _ _ _ => (n, m)
  | .dense n m _ => (n, m)

/-- `setMatrix(matrix)` and `setMatrix(matrix, bitVector)`: the matrix handed to the decomposition, or nothing for a matrix without
rows or columns. dune/istl/umfpack.hh:520-644. -/
def setMatrix (v0 : Nat → K) (i0 : Nat → Nat) (A : NMat K) (bv : Option (NVec Bool)) : Res (Option (Ccs.Mat K)) :=
  if (topSize A).1 = 0 ∨ (topSize A).2 = 0 then .ok none
  else
    match bv with
    | none => do
      let X ← load v0 i0 A none 0
      .ok (some X)
    | some v => do
      let p ← flatBits v
      let X ← load v0 i0 A (some p.1) p.2
      .ok (some X)

end Umf
end Istl
