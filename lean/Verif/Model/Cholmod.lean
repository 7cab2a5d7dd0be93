import Verif.Model.Umf

/-!
# The wrapper of the sparse Cholesky solver: `Cholmod`, dune/istl/cholmod.hh

The matrix, the ignore field and the vectors are nested containers (dune/istl/foreach.hh). The scalars of the vectors are references
into a memory `Nat → K`. The library itself (`analyze`, `factorize`, `solve`) is a parameter: what a factor solves is a function of the
sparse matrix it was computed from. Integers are unbounded; numbers are exact.
-/

namespace Istl
namespace Cholmod
open ForEach

variable {K : Type}

/-- The members of the wrapper. `factor` is the matrix the factor `L_` was computed from (`none`: null pointer), `sub` the vector
`subIndices_` with `none` for `numeric_limits::max()`; `live` counts the factors the library has allocated and not freed.
dune/istl/cholmod.hh:515-524. -/
structure Obj (K : Type) where
  factor : Option (Ccs.Mat K)
  nIsZero : Bool
  sub : List (Option Nat)
  live : Nat

/-- Default constructor. dune/istl/cholmod.hh:229-232, 517-524. -/
def fresh : Obj K := ⟨none, false, [], 0⟩

/-- Destructor: frees `L_` if it is set. Result: the factors that stay allocated. dune/istl/cholmod.hh:239-244. -/
def destroy (o : Obj K) : Nat := if o.factor.isSome then o.live - 1 else o.live

/-- First functor: `if (row <= col) nonZeros++`. dune/istl/cholmod.hh:350-353. -/
def countUpper (row col : Nat) (k : Nat) : Nat := if row ≤ col then k + 1 else k

/-- `v.resize(n, max)`: existing elements keep their value. dune/istl/cholmod.hh:401. -/
def resize (l : List (Option Nat)) (n : Nat) : List (Option Nat) := l.take n ++ List.replicate (n - l.length) none

/-- `subIndices_` after the numbering of the rows that are not ignored. dune/istl/cholmod.hh:398-412. -/
def number (old : List (Option Nat)) (bits : Option (List Bool)) (flatRows : Nat) : Res (List (Option Nat)) :=
  match bits with
  | none => .ok old
  | some l => do
    let p ← forRangeM flatRows (fun i p => Umf.subStep l i p) (resize old flatRows, 0)
    .ok p.1

/-- Second functor: `Ap[idx+1]++`. dune/istl/cholmod.hh:416-430. -/
def countRow (bits : Option (List Bool)) (sub : List (Option Nat)) (row col : Nat) (st : Res (List Nat)) : Res (List Nat) := do
  let ap ← st
  let b ← Umf.skip bits row col
  if b then .ok ap
  else if col < row then .ok ap
  else do
    let i ← Umf.pick bits sub row
    let k ← rd ap (i + 1)
    wr ap (i + 1) (k + 1)

/-- Third functor: the column index and the value go to the next free place of the row; `Ai` is `rowindex` of the result.
dune/istl/cholmod.hh:443-462. -/
def fillRow (bits : Option (List Bool)) (sub : List (Option Nat)) (ap : List Nat) (v : K) (row col : Nat)
    (st : Res (Umf.Fill K)) : Res (Umf.Fill K) := do
  let s ← st
  let b ← Umf.skip bits row col
  if b then .ok s
  else if col < row then .ok s
  else do
    let r ← Umf.pick bits sub row
    let c ← Umf.pick bits sub col
    Umf.fillAt ap v c r s

/-- The three arrays: `Ap`, which the library hands out filled with zeros, `Ai` and `Ax` with room for `nonZeros` entries and
arbitrary contents `i0`, `v0`. dune/istl/cholmod.hh:373-395, 414-462. -/
def arrays (v0 : Nat → K) (i0 : Nat → Nat) (A : NMat K) (bits : Option (List Bool)) (sub : List (Option Nat)) (N nonZeros : Nat) :
    Res (Ccs.Mat K) := do
  let d ← flatMatrix A (fun _ r c st => countRow bits sub r c st) 0 0 (.ok (List.replicate (N + 1) 0))
  let ap ← d.1
  let ap ← wr ap 0 0
  let ap ← forRangeM N (fun i ap => Umf.accStep i ap) ap
  let e ← flatMatrix A (fun v r c st => fillRow bits sub ap v r c st) 0 0
    (.ok ⟨(List.range nonZeros).map i0, (List.range nonZeros).map v0, List.replicate N 0⟩)
  let s ← e.1
  .ok ⟨N, N, nonZeros, s.values, s.rowindex, ap⟩

/-- The flat ignore field (`flatIgnore`, empty without one) and the number of ignored degrees of freedom.
dune/istl/cholmod.hh:43-61, 355-361. -/
def ignored (ign : Option (NVec Bool)) : Res (Option (List Bool) × Nat) :=
  match ign with
  | none => .ok (none, 0)
  | some v => do
    let p ← Umf.flatBits v
    .ok (some p.1, p.2)

/-- `setMatrix(matrix)` and `setMatrix(matrix, ignore)`. dune/istl/cholmod.hh:321-469. -/
def setMatrix (v0 : Nat → K) (i0 : Nat → Nat) (o : Obj K) (A : NMat K) (ign : Option (NVec Bool)) : Res (Obj K) := do
  let c ← flatMatrix A (fun _ r c k => countUpper r c k) 0 0 0
  let p ← ignored ign
  if c.2.1 ≤ p.2 then .ok { o with nIsZero := true }
  else do
    let sub ← number o.sub p.1 c.2.1
    let M ← arrays v0 i0 A p.1 sub (c.2.1 - p.2) c.1
    .ok ⟨some M, false, sub, o.live + 1⟩

/-- Functor copying one scalar of the right hand side. dune/istl/cholmod.hh:281-287. -/
def putB (sub : List (Option Nat)) (mem : Nat → K) (a flat : Nat) (st : Res (List K)) : Res (List K) := do
  let bp ← st
  if sub = [] then wr bp flat (mem a)
  else do
    let o ← rd sub flat
    match o with
    | none => .ok bp
    | some k => wr bp k (mem a)

/-- Functor writing one scalar of the solution. dune/istl/cholmod.hh:302-308. -/
def getX (sub : List (Option Nat)) (xp : List K) (a flat : Nat) (st : Res (Nat → K)) : Res (Nat → K) := do
  let mem ← st
  if sub = [] then do
    let v ← rd xp flat
    .ok (fun q => if q = a then v else mem q)
  else do
    let o ← rd sub flat
    match o with
    | none => .ok mem
    | some k => do
      let v ← rd xp k
      .ok (fun q => if q = a then v else mem q)

/-- `v.size()` of the outermost container. -/
def topLen {S : Type} : NVec S → Nat
  | .scalar _ => 1
  | .node n _ => n

/-- What a call of `apply` leaves in the result structure: nothing at all, or `iterations = 1, converged = true`. -/
structure Applied (K : Type) where
  mem : Nat → K
  stats : Option (Nat × Bool)

/-- `apply(x, b, res)`, `x` and `b` being references into the memory. `solve M` is the library's answer for the factor of `M`.
dune/istl/cholmod.hh:262-313. The entries of the work array start as 0. -/
def apply (zero : K) (solve : Ccs.Mat K → List K → List K) (o : Obj K) (x b : NVec Nat) (mem : Nat → K) : Res (Applied K) :=
  if o.nIsZero then .ok ⟨mem, none⟩
  else if topLen x ≠ topLen b then .throw .exception
  else match o.factor with
    | none => .ub
    | some M => do
      let bp ← (flatVector (putB o.sub mem) b 0 (.ok (List.replicate M.N zero))).1
      let mem' ← (flatVector (getX o.sub (solve M bp)) x 0 (.ok mem)).1
      .ok ⟨mem', some (1, true)⟩

end Cholmod
end Istl
