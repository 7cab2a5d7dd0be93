import Verif.Model.Ilu

/-!
# Incomplete LDL^T: dune/istl/ildl.hh

`tr` is the transposition of a block; `bildl_subtractBCT(B,C,A)` computes `A -= B * C^T` (dune/istl/ildl.hh:26-72), for nested
blocks by the same merge loop one level below; here it is the ring operation `A - B * tr C`.
-/

namespace Istl
namespace Ildl
variable {R V : Type} [Ring R]

/-- The merge loop over `ik` (entries already passed in row `i`) and `jk` (row `j`), subtracting `A_ik * A_jk^T`; `jk.index()` is
read without testing for the end of row `j`. dune/istl/ildl.hh:103-117. -/
def subBCT (tr : R → R) (j : Nat) : List (Nat × R) → List (Nat × R) → R → Res R
  | [], _, acc => .ok acc
  | _ :: _, [], _ => .ub
  | (k, b) :: ik, (k', c) :: jk, acc =>
    if k' < j then
      if k = k' then subBCT tr j ik jk (acc - b * tr c)
      else if k < k' then subBCT tr j ik ((k', c) :: jk) acc
      else subBCT tr j ((k, b) :: ik) jk acc
    else .ok acc
termination_by ik jk => ik.length + jk.length

/-- First inner loop: turns the entries left of the diagonal into `L_ij D_j`. `done` are the entries passed so far; the loop
condition reads `ij.index()` without testing for the end of the row. dune/istl/ildl.hh:95-118. -/
def phase1 (tr : R → R) (rows : Nat → Row R) (i : Nat) (done : List (Nat × R)) : List (Nat × R) →
    Res (List (Nat × R) × List (Nat × R))
  | [] => .ub
  | (j, a) :: rest =>
    if j < i then do
      let a' ← subBCT tr j done (rows j) a
      phase1 tr rows i (done ++ [(j, a')]) rest
    else .ok (done, (j, a) :: rest)

/-- Second inner loop, one entry: `B = A_ik; A_ik *= D_k^{-1}; A_ii -= B A_ik^T`. dune/istl/ildl.hh:125-133. -/
def phase2 (tr : R → R) (rows : Nat → Row R) (s : List (Nat × R) × R) (e : Nat × R) : Res (List (Nat × R) × R) := do
  let p ← (rows e.1).find e.1
  match p with
  | none => .ub
  | some q => do
    let d ← rd (rows e.1) q
    let l := e.2 * d.2
    .ok (s.1 ++ [(e.1, l)], s.2 - e.2 * tr l)

/-- One row of `bildl_decompose`. dune/istl/ildl.hh:91-151. -/
def rowStep (I : BlockInv R) (tr : R → R) (rows : Nat → Row R) (i : Nat) (r : Row R) : Res (Row R) := do
  let s ← phase1 tr rows i [] r
  match s.2 with
  | [] => .ub
  | (j, a) :: rest =>
    if j ≠ i then .throw .istlError
    else do
      let t ← s.1.foldlM (phase2 tr rows) ([], a)
      match I.inv t.2 with
      | some b => .ok (t.1 ++ (j, b) :: rest)
      | none => .throw .matrixBlockError

/-- `bildl_decompose(A)`. dune/istl/ildl.hh:88-152. -/
def decompose (I : BlockInv R) (tr : R → R) (A : SpMat R) : Res (SpMat R) := do
  let rows ← forRangeM A.n (fun i rows => do
    let r ← rowStep I tr rows i (rows i)
    .ok (upd rows i r)) A.row
  .ok { A with row := rows }

/-- The check of one row in the constructor of `SeqILDL`. dune/istl/preconditioners.hh:1037-1045. -/
def diagCheck (A : SpMat R) (i : Nat) (_ : Unit) : Res Unit := do
  let p ← (A.row i).find i
  match p with
  | none => .throw .istlError
  | some _ => .ok ()

/-- The matrix set up by the constructor of `SeqILDL`: the lower triangle of `A` including the diagonal (random build mode, C02).
dune/istl/preconditioners.hh:1031-1065. -/
def lowerTriangle (A : SpMat R) : Res (SpMat R) := do
  forRangeM A.n (diagCheck A) ()
  .ok { n := A.n, m := A.m, row := fun i => (A.row i).filter fun e => decide (e.1 ≤ i) }

variable [AddCommGroup V] [Module R V]

/-- One row of `L v = d`; the loop condition reads `ij.index()` without testing for the end. dune/istl/ildl.hh:166-172. -/
def solveLStep (F : SpMat R) (d : Nat → V) (i : Nat) (v : Nat → V) : Res (Nat → V) :=
  match (F.row i).dropWhile (fun e => decide (e.1 < i)) with
  | [] => .ub
  | _ => .ok (((F.row i).takeWhile fun e => decide (e.1 < i)).foldl (fun v e => upd v i (v i - e.2 • v e.1)) (upd v i (d i)))

/-- `L v = d`, in place. dune/istl/ildl.hh:164-173. -/
def solveL (F : SpMat R) (v d : Nat → V) : Res (Nat → V) :=
  forRangeM F.n (solveLStep F d) v

/-- `D w = v` with the stored inverses; the diagonal entry is the last one (`isLowerTriangular`) or searched for.
dune/istl/ildl.hh:175-215. -/
def solveD (F : SpMat R) (isLower : Bool) (v : Nat → V) : Res (Nat → V) :=
  forRangeM F.n (fun i v =>
    if isLower then
      match (F.row i).getLast? with
      | none => .ub
      | some e => .ok (upd v i (e.2 • v i))
    else do
      let p ← (F.row i).find i
      match p with
      | none => .ub
      | some q => do
        let e ← rd (F.row i) q
        .ok (upd v i (e.2 • v i))) v

/-- One row of `L^T v = w`. dune/istl/ildl.hh:221-227. -/
def solveLTStep (tr : R → R) (F : SpMat R) (i : Nat) (v : Nat → V) : Res (Nat → V) :=
  match (F.row i).dropWhile (fun e => decide (e.1 < i)) with
  | [] => .ub
  | _ => .ok (((F.row i).takeWhile fun e => decide (e.1 < i)).foldl (fun v e => upd v e.1 (v e.1 - tr e.2 • v i)) v)

/-- `L^T v = w`, column-wise from right to left. dune/istl/ildl.hh:217-228. -/
def solveLT (tr : R → R) (F : SpMat R) (v : Nat → V) : Res (Nat → V) :=
  forDownM F.n (solveLTStep tr F) v

/-- `bildl_backsolve(A,v,d,isLowerTriangular)`. dune/istl/ildl.hh:160-229. -/
def backsolve (tr : R → R) (F : SpMat R) (isLower : Bool) (v d : Nat → V) : Res (Nat → V) := do
  let v ← solveL F v d
  let v ← solveD F isLower v
  solveLT tr F v

end Ildl
end Istl
