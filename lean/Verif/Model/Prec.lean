import Verif.Model.Dilu
import Verif.Model.Ildl
import Verif.Model.IluN

/-!
# Sequential preconditioners: dune/istl/preconditioners.hh

A preconditioner object is modelled by the members its `apply` reads. `pre` and `post` are empty in all of these classes
(preconditioners.hh:206-208, 227-229, 326-328, 372-374, 477-479, 500-502, 640-642, 662-664, 813-814, 845-846, 918-919, 939-940,
1071-1072, 1082-1083) and do not appear. Vectors are total functions on indices; `v *= w` touches the `N` components.
-/

namespace Istl
namespace Prec
variable {R V K : Type} [Ring R] [AddCommGroup V] [Module R V] [CommRing K] [Module K V]

/-- A constructed preconditioner. `SeqGS` is `SeqSOR` (preconditioners.hh:399). `ilu` is `SeqILU` with `resort=false`
(`ILU_` set), `iluCRS` with `resort=true`. dune/istl/preconditioners.hh:142, 262, 413, 563, 697, 878, 971. -/
inductive Obj (R K : Type) where
  | ssor (A : SpMat R) (n : Nat) (w : K)
  | sor (A : SpMat R) (n : Nat) (w : K)
  | jac (A : SpMat R) (n : Nat) (w : K)
  | dilu (A : SpMat R) (Dinv : Nat → R) (w : K)
  | ilu (F : SpMat R) (w : K)
  | iluCRS (lower upper : Ilu.CRS R) (inv : List R) (w : K)
  | richardson (w : K)
  | ildl (F : SpMat R) (w : K)

/-- `CheckIfDiagonalPresent<M,1>::check`: active only with `DUNE_ISTL_WITH_CHECKING` (`checking`).
dune/istl/matrixutils.hh:47-70. -/
def checkDiag (checking : Bool) (A : SpMat R) : Res Unit :=
  if checking then forRangeM A.n (Ildl.diagCheck A) () else .ok ()

/-- `SeqSSOR(A,n,w)`. dune/istl/preconditioners.hh:164-168. -/
def mkSSOR (checking : Bool) (A : SpMat R) (n : Nat) (w : K) : Res (Obj R K) := do
  checkDiag checking A
  .ok (.ssor A n w)

/-- `SeqSOR(A,n,w)`. dune/istl/preconditioners.hh:284-288. -/
def mkSOR (checking : Bool) (A : SpMat R) (n : Nat) (w : K) : Res (Obj R K) := do
  checkDiag checking A
  .ok (.sor A n w)

/-- `SeqJac(A,n,w)`. dune/istl/preconditioners.hh:435-439. -/
def mkJac (checking : Bool) (A : SpMat R) (n : Nat) (w : K) : Res (Obj R K) := do
  checkDiag checking A
  .ok (.jac A n w)

/-- `SeqDILU(A,w)`. dune/istl/preconditioners.hh:588-598. -/
def mkDILU (I : BlockInv R) (checking : Bool) (A : SpMat R) (w : K) : Res (Obj R K) := do
  checkDiag checking A
  let D ← Dilu.decompose I A fun _ => 0
  .ok (.dilu A D w)

/-- `SeqILU(A,n,w,resort)`. dune/istl/preconditioners.hh:776-807. -/
def mkILU (I : BlockInv R) (A : SpMat R) (n : Nat) (w : K) (resort : Bool) : Res (Obj R K) := do
  let F ← (if n = 0 then Ilu.ilu0 I A else IluN.ilun I n A : Res (SpMat R))
  if resort then do
    let c ← Ilu.convertToCRS F
    .ok (.iluCRS c.1 c.2.1 c.2.2 w)
  else .ok (.ilu F w)

/-- `SeqILDL(A,relax)`. dune/istl/preconditioners.hh:1028-1068. -/
def mkILDL (I : BlockInv R) (tr : R → R) (A : SpMat R) (w : K) : Res (Obj R K) := do
  let L ← Ildl.lowerTriangle A
  let F ← Ildl.decompose I tr L
  .ok (.ildl F w)

/-- `v *= w` for a vector with `n` blocks. dune/istl/bvector.hh:112-121. -/
def scaleVec (n : Nat) (w : K) (v : Nat → V) : Nat → V := fun k => if k < n then w • v k else v k

/-- `for (int i=0; i<_n; i++) step`. dune/istl/preconditioners.hh:219-222. -/
def iterate {S : Type} (n : Nat) (step : S → Res S) (s : S) : Res S := forRangeM n (fun _ => step) s

/-- `apply<forward>(v,d)` of `SeqSOR`. dune/istl/preconditioners.hh:350-361. -/
def sorDir (β : BlockSolve R V V) (forward : Bool) (A : SpMat R) (n : Nat) (w : K) (v d : Nat → V) : Res (Nat → V) :=
  if forward then iterate n (Gsetc.bsorf β.act (Gsetc.solveLoc β) w A d) v
  else iterate n (Gsetc.bsorb β.act (Gsetc.solveLoc β) w A d) v

/-- One pass of `SeqSSOR::apply`: forward then backward sweep. dune/istl/preconditioners.hh:219-222. -/
def ssorStep (β : BlockSolve R V V) (w : K) (A : SpMat R) (d v : Nat → V) : Res (Nat → V) := do
  let v ← Gsetc.bsorf β.act (Gsetc.solveLoc β) w A d v
  Gsetc.bsorb β.act (Gsetc.solveLoc β) w A d v

/-- `apply(v,d)`; returns the object after the call and the new `v`. `nid w` is the test `abs(w-1) > 1e-15`
(preconditioners.hh:592, 783). dune/istl/preconditioners.hh:217-223, 337-361, 488-493, 648-655, 821-837, 928-932, 1075-1079. -/
def apply (β : BlockSolve R V V) (tr : R → R) (nid : K → Bool) (P : Obj R K) (v d : Nat → V) : Res (Obj R K × (Nat → V)) :=
  match P with
  | .ssor A n w => do
    let v ← iterate n (ssorStep β w A d) v
    .ok (P, v)
  | .sor A n w => do
    let v ← sorDir β true A n w v d
    .ok (P, v)
  | .jac A n w => do
    let v ← iterate n (Gsetc.dbjac β.act (Gsetc.solveLoc β) w A d) v
    .ok (P, v)
  | .dilu A D w => do
    let v ← Dilu.backsolve A D v d
    .ok (P, if nid w then scaleVec A.n w v else v)
  | .ilu F w => do
    let v ← Ilu.backsolve F v d
    .ok (P, if nid w then scaleVec F.n w v else v)
  | .iluCRS lower upper inv w => do
    let v ← Ilu.crsBacksolve lower upper inv v d
    .ok (P, if nid w then scaleVec lower.nRows w v else v)
  | .richardson w => .ok (P, fun k => w • d k)
  | .ildl F w => do
    let v ← Ildl.backsolve tr F true v d
    .ok (P, scaleVec F.n w v)

/-- A sequence of `apply` calls on one object, each with its own start vector and defect; the results are dropped. -/
def calls (β : BlockSolve R V V) (tr : R → R) (nid : K → Bool) : List ((Nat → V) × (Nat → V)) → Obj R K → Res (Obj R K)
  | [], P => .ok P
  | (v, d) :: h, P => do
    let s ← apply β tr nid P v d
    calls β tr nid h s.1

end Prec
end Istl
