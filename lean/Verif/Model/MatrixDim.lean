import Verif.Model.Gsetc

/-!
# `MatrixDimension` (dune/istl/matrixutils.hh) and `writeMatrixToMatlab` (dune/istl/io.hh)

A matrix type is described by the case of `MatrixDimension` it selects. Sizes are natural numbers; only the sentinel
`numeric_limits<size_type>::max()` in `coldim` is added modulo `2^64`, as the code does. Rows of a `BCRSMatrix` without entries have
a null pointer (`r[i].set(0,nullptr,nullptr)`, bcrsmatrix.hh:1015, 2096, 2119, 2142); matrices built in implicit mode, where an empty row
keeps a pointer to some other row's data, are not modelled. The stream is the list of triples written to it.
-/

namespace Istl
namespace MatDim

/-- The specialisation of `MatrixDimension` selected by the matrix type: `flat` is `FieldMatrix`, `DynamicMatrix`, `DiagonalMatrix`
and `ScaledIdentityMatrix` (dune/istl/matrixutils.hh:364-416, 445-497), `bcrsField br bc` is `BCRSMatrix<FieldMatrix<K,br,bc>>` (339-362),
`bcrs` any other `BCRSMatrix` (260-336), `denseField br bc` is `Matrix<FieldMatrix<K,br,bc>>` (418-443), `dense` any other `Matrix`
(226-257). -/
inductive Kind where
  | flat
  | bcrs
  | bcrsField (br bc : Nat)
  | dense
  | denseField (br bc : Nat)

/-- A nested matrix: a number, or a matrix whose row `i` has the blocks `entry i j`, `j ∈ pat i`, in iteration order.
dune/istl/io.hh:410-461 (the two cases of the recursion). -/
inductive MMat (S : Type) where
  | scalar (s : S)
  | node (k : Kind) (n m : Nat) (pat : Nat → List Nat) (entry : Nat → Nat → MMat S)

variable {S : Type}

/-- `size_type` has 64 bits. -/
def W : Nat := 2 ^ 64

/-- `rowdim(A)`. dune/istl/matrixutils.hh:213-216, 242-248, 304-309, 355-357, 380-383, 407-410, 432-435. -/
def rowdim : MMat S → Res Nat
  | .scalar _ => .ok 1
  | .node .flat n _ _ _ => .ok n
  | .node (.bcrsField br _) n _ _ _ => .ok (n * br)
  | .node (.denseField br _) n _ _ _ => .ok (n * br)
  | .node .bcrs n _ pat entry =>
    forRangeM n (fun i nn =>
      match pat i with
      | [] => .ok nn
      | j :: _ => do
        let d ← rowdim (entry i j)
        .ok (nn + d)) 0
  | .node .dense n m _ entry =>
    forRangeM n (fun i nn =>
      match m with
      | 0 => .ub
      | _ + 1 => do
        let d ← rowdim (entry i 0)
        .ok (nn + d)) 0

/-- Summing up `coldims`: a column whose size was not found still holds the maximal value, and `(*it) >= 0` is true for it.
dune/istl/matrixutils.hh:327-334. -/
def sumColdims (m : Nat) (d : Nat → Option Nat) : Nat :=
  forRange m (fun j s =>
    match d j with
    | some c => (s + c) % W
    | none => (s + (W - 1)) % W) 0

/-- `coldim(A)`. dune/istl/matrixutils.hh:218-221, 250-256, 311-335, 359-361, 385-388, 412-415, 437-440. -/
def coldim : MMat S → Res Nat
  | .scalar _ => .ok 1
  | .node .flat _ m _ _ => .ok m
  | .node (.bcrsField _ bc) _ m _ _ => .ok (m * bc)
  | .node (.denseField _ bc) _ m _ _ => .ok (m * bc)
  | .node .bcrs n m pat entry => do
    let d ← forRangeM n (fun i (d : Nat → Option Nat) =>
      (pat i).foldlM (fun d j =>
        if j < m then
          match d j with
          | some _ => .ok d
          | none => do
            let c ← coldim (entry i j)
            .ok (upd d j (some c))
        else .ub) d) fun _ => none
    .ok (sumColdims m d)
  | .node .dense n m _ entry =>
    forRangeM m (fun j nn =>
      match n with
      | 0 => .ub
      | _ + 1 => do
        let d ← coldim (entry 0 j)
        .ok (nn + d)) 0

/-- `rowdim(A, i)`. dune/istl/matrixutils.hh:232-235, 267-274, 345-348, 370-373, 397-400, 422-425. -/
def rowdimAt (k : Kind) (m : Nat) (pat : Nat → List Nat) (entry : Nat → Nat → MMat S) (i : Nat) : Res Nat :=
  match k with
  | .flat => .ok 1
  | .bcrsField br _ => .ok br
  | .denseField br _ => .ok br
  | .bcrs =>
    match pat i with
    | [] => .ok 0
    | j :: _ => rowdim (entry i j)
  | .dense => if m = 0 then .ub else rowdim (entry i 0)

/-- `coldim(A, c)`: for a general `BCRSMatrix` the first stored block in column `c`, row by row, is measured; `0` if there is none.
dune/istl/matrixutils.hh:237-240, 276-302, 350-353, 375-378, 402-405, 427-430. -/
def coldimAt (k : Kind) (n : Nat) (pat : Nat → List Nat) (entry : Nat → Nat → MMat S) (c : Nat) : Res Nat :=
  match k with
  | .flat => .ok 1
  | .bcrsField _ bc => .ok bc
  | .denseField _ bc => .ok bc
  | .bcrs =>
    match (List.range n).find? fun i => decide (c ∈ pat i) with
    | some i => coldim (entry i c)
    | none => .ok 0
  | .dense => if n = 0 then .ub else coldim (entry 0 c)

/-- The table `colOffset`; for `M() == 0` the bound `M()-1` wraps around and the loop writes past the empty vector.
dune/istl/io.hh:435-441. -/
def colOffsets (k : Kind) (n m : Nat) (pat : Nat → List Nat) (entry : Nat → Nat → MMat S) : Res (Nat → Nat) :=
  if m = 0 then .ub
  else forRangeM (m - 1) (fun i o => do
    let d ← coldimAt k n pat entry i
    .ok (upd o (i + 1) (o i + d))) fun _ => 0

/-- `writeMatrixToMatlabHelper`: the lines written, each a row number, a column number and a value. dune/istl/io.hh:410-461. -/
def matlab : MMat S → Nat → Nat → Res (List (Nat × Nat × S))
  | .scalar s, ro, co => .ok [(ro + 1, co + 1, s)]
  | .node k n m pat entry, ro, co => do
    let offs ← colOffsets k n m pat entry
    let st ← forRangeM n (fun i (st : List (Nat × Nat × S) × Nat) => do
      let out ← (pat i).foldlM (fun out j =>
        if j < m then do
          let l ← matlab (entry i j) (ro + st.2) (co + offs j)
          .ok (out ++ l)
        else .ub) st.1
      let d ← rowdimAt k m pat entry i
      .ok (out, st.2 + d)) ([], 0)
    .ok st.1

end MatDim
end Istl
