import Verif.Model.Ilu

/-!
# Diagonal incomplete LU: dune/istl/dilu.hh

`Dinv_` is a `std::vector` of `N()` blocks, modelled as a function on indices.
-/

namespace Istl
namespace Dilu
variable {R V : Type} [Ring R]

/-- First loop of `blockDILUDecomposition`: `Dinv_[i] = A_ii`; the result of `find` is dereferenced unchecked.
dune/istl/dilu.hh:56-63. -/
def init (A : SpMat R) (D : Nat → R) : Res (Nat → R) :=
  forRangeM A.n (fun i D => do
    let p ← (A.row i).find i
    match p with
    | none => .ub
    | some q => do
      let e ← rd (A.row i) q
      .ok (upd D i e.2)) D

/-- One entry left of the diagonal: `Dinv[i] -= A_ij * Dinv[j] * A_ji` if `A_ji` is stored. dune/istl/dilu.hh:68-79. -/
def couple (A : SpMat R) (D : Nat → R) (i : Nat) (acc : R) (e : Nat × R) : Res R := do
  let p ← (A.row e.1).find i
  match p with
  | none => .ok acc
  | some q => do
    let t ← rd (A.row e.1) q
    .ok (acc - e.2 * D e.1 * t.2)

/-- Second loop: subtract the couplings, invert. The column loop has no end test. dune/istl/dilu.hh:65-95. -/
def rowStep (I : BlockInv R) (A : SpMat R) (i : Nat) (D : Nat → R) : Res (Nat → R) :=
  match (A.row i).dropWhile (fun e => e.1 < i) with
  | [] => .ub
  | _ => do
    let x ← ((A.row i).takeWhile fun e => e.1 < i).foldlM (couple A D i) (D i)
    match I.inv x with
    | some b => .ok (upd D i b)
    | none => .throw .matrixBlockError

/-- `blockDILUDecomposition(A,Dinv_)`. dune/istl/dilu.hh:53-96. -/
def decompose (I : BlockInv R) (A : SpMat R) (D : Nat → R) : Res (Nat → R) := do
  let D ← init A D
  forRangeM A.n (rowStep I A) D

variable [AddCommGroup V] [Module R V]

/-- Lower solve `(D + L) y = d`. dune/istl/dilu.hh:119-137. -/
def lower (A : SpMat R) (Dinv : Nat → R) (d v : Nat → V) : Res (Nat → V) :=
  forRangeM A.n (fun i v =>
    match (A.row i).dropWhile (fun e => e.1 < i) with
    | [] => .ub
    | _ =>
      let rhs := Gsetc.residual Ilu.act ((A.row i).takeWhile fun e => e.1 < i) v (d i)
      .ok (upd v i (Dinv i • rhs))) v

/-- Upper solve `(D + U) v = D y`: `rhs` collects `A_ij v_j`, then `v_i -= Dinv_i rhs`. dune/istl/dilu.hh:139-158. -/
def upper (A : SpMat R) (Dinv : Nat → R) (v : Nat → V) : Res (Nat → V) :=
  forDownM A.n (fun i v =>
    match (A.row i).reverse.dropWhile (fun e => i < e.1) with
    | [] => .ub
    | _ =>
      let rhs := ((A.row i).reverse.takeWhile fun e => i < e.1).foldl (fun rhs e => rhs + e.2 • v e.1) 0
      .ok (upd v i (v i - Dinv i • rhs))) v

/-- `blockDILUBacksolve(A,Dinv_,v,d)`. dune/istl/dilu.hh:112-160. -/
def backsolve (A : SpMat R) (Dinv : Nat → R) (v d : Nat → V) : Res (Nat → V) := do
  let y ← lower A Dinv d v
  upper A Dinv y

end Dilu
end Istl
