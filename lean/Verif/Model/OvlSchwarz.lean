import Verif.Model.IluN
import Verif.Model.Bcrs
import Verif.Model.MatMat

/-!
# The sequential overlapping Schwarz preconditioner: dune/istl/overlappingschwarz.hh, dune/istl/ilusubdomainsolver.hh

Vectors are functions from block numbers to blocks; a local vector has `maxlength` blocks and every access outside is undefined behaviour, as
is a subdomain index that is no row of the matrix. Matrix blocks `R` act on vector blocks `V`; the relaxation factor is a `K`. The loops over the
scalars inside a block are not modelled. A `std::set` is the ascending list of its elements.
-/

namespace Istl
namespace Ovl
open Bcrs

variable {R K V : Type}

/-! ### The subdomains -/

/-- The number of domains: the largest number mentioned plus one. dune/istl/overlappingschwarz.hh:1023-1028. -/
def countDomains (r2d : List (List Nat)) : Nat :=
  r2d.foldl (fun m ds => ds.foldl (fun m d => max m d) m) 0 + 1

/-- `subDomains[d].insert(row)` for the domains `ds` of one row. dune/istl/overlappingschwarz.hh:1036-1037. -/
def insertRow (row : Nat) (ds : List Nat) (sub : List (List Nat)) : Res (List (List Nat)) :=
  ds.foldlM (fun sub d => do
    let s ← rd sub d
    wr sub d (MatMat.setInsert row s)) sub

/-- The loop over the rows, `row` being the number of the first one. dune/istl/overlappingschwarz.hh:1034-1037. -/
def insertRows : Nat → List (List Nat) → List (List Nat) → Res (List (List Nat))
  | _, [], sub => .ok sub
  | row, ds :: rest, sub => do
    let sub ← insertRow row ds sub
    insertRows (row + 1) rest sub

/-- The subdomains from the row to domain mapping. dune/istl/overlappingschwarz.hh:1023-1037. -/
def domainsOfRows (r2d : List (List Nat)) : Res (List (List Nat)) :=
  insertRows 0 r2d (List.replicate (countDomains r2d) [])

/-- `maxlength`: the size of the largest subdomain, in blocks. dune/istl/overlappingschwarz.hh:1131-1135, 1208-1218. -/
def maxLength (doms : List (List Nat)) : Nat := doms.foldl (fun m d => max m d.length) 0

/-! ### Subdomain matrices -/

/-- `indexMap.find(g)`: the position of `g` in the ordered row set. dune/istl/ilusubdomainsolver.hh:152-166. -/
def findLocal (D : List Nat) (g : Nat) : Option Nat := D.findIdx? (· == g)

/-- `A[g]`, undefined for rows that do not exist. -/
def rowOf (A : SpMat R) (g : Nat) : Res (Row R) := if g < A.n then .ok (A.row g) else .ub

/-- The sparsity pattern of one local row: the local indices inserted, in the order of the global row.
dune/istl/ilusubdomainsolver.hh:177-192. -/
def localCols (D : List Nat) (r : Row R) : List Nat := r.filterMap fun e => findLocal D e.1

/-- The copied values, in the order of the global row. dune/istl/ilusubdomainsolver.hh:203-213. -/
def localVals (D : List Nat) (r : Row R) : List R := (r.filter fun e => (findLocal D e.1).isSome).map Prod.snd

/-- `*localCol = *col; ++localCol` for all copied values; running past the end of the local row is undefined. The pattern `cols` is the `std::set`
the create iterator stored. dune/istl/ilusubdomainsolver.hh:198-215. -/
def fillRow : List Nat → List R → Res (Row R)
  | _, [] => .ok []
  | [], _ :: _ => .ub
  | c :: cs, v :: vs => do
    let r ← fillRow cs vs
    .ok ((c, v) :: r)

/-- The inserted columns as a set. -/
def asSet (l : List Nat) : List Nat := l.foldl (fun s c => MatMat.setInsert c s) []

/-- Local row `k`. dune/istl/ilusubdomainsolver.hh:173-215. -/
def localRow (A : SpMat R) (D : List Nat) (g : Nat) : Res (Row R) := do
  let r ← rowOf A g
  fillRow (asSet (localCols D r)) (localVals D r)

/-- `|local column - local row|`, the largest for one row. dune/istl/ilusubdomainsolver.hh:190. -/
def rowOffset (k : Nat) (cols : List Nat) : Nat := cols.foldl (fun m c => max m ((c - k) + (k - c))) 0

/-- `copyToLocalMatrix(A, rowset)`: the matrix and the bandwidth. dune/istl/ilusubdomainsolver.hh:145-217. The memory of the local matrix is the
subject of `localPattern`. -/
def copyToLocal (A : SpMat R) (D : List Nat) : Res (SpMat R × Nat) := do
  let rows ← D.mapM (localRow A D)
  .ok ({ n := D.length, m := D.length, row := fun k => rows.getD k [] },
    (List.range D.length).foldl (fun m k => max m (rowOffset k ((rows.getD k []).map Prod.fst))) 0)

/-- The part of `copyToLocalMatrix` that sets up the memory of the local matrix. dune/istl/ilusubdomainsolver.hh:168-194. -/
def localPattern (A : SpMat R) (D : List Nat) : BC R Unit := do
  let todo ← Cmd.lift (D.mapM fun g => do let r ← rowOf A g; .ok (localCols D r))
  MatMat.setup { rows := D.length, cols := D.length, nnz := 0, todo := todo }

/-- A subdomain solver with its matrix set: `apply(lhs, rhs)`. -/
abbrev Solver (V : Type) := (Nat → V) → (Nat → V) → Res (Nat → V)

section Ilu
variable [Ring R] [AddCommGroup V] [Module R V]

/-- `ILU0SubdomainSolver::setSubMatrix`, then `apply`. dune/istl/ilusubdomainsolver.hh:92-95, 219-225. -/
def ilu0Solver (I : BlockInv R) (A : SpMat R) (D : List Nat) : Res (Solver V) := do
  let L ← copyToLocal A D
  let F ← Ilu.ilu0 I L.1
  .ok (Ilu.backsolve F)

/-- `ILUNSubdomainSolver::setSubMatrix`, then `apply`: `(offset+1)/2` generations of fill-in.
dune/istl/ilusubdomainsolver.hh:125-128, 227-235. -/
def ilunSolver (I : BlockInv R) (A : SpMat R) (D : List Nat) : Res (Solver V) := do
  let L ← copyToLocal A D
  let F ← IluN.ilun I ((L.2 + 1) / 2) L.1
  .ok (Ilu.backsolve F)

end Ilu

/-- The dense local matrix: the entries found in the rows, zero otherwise. dune/istl/overlappingschwarz.hh:183-207. -/
def denseLocal [Zero R] (A : SpMat R) (D : List Nat) : Res (List (List R)) :=
  D.mapM fun g => do
    let r ← rowOf A g
    D.mapM fun c => do
      let f ← r.find c
      match f with
      | some _ => r.get c
      | none => .ok 0

/-- `DynamicMatrixSubdomainSolver`: `setSubMatrix`, then `apply`; `dense` is `DynamicMatrix::solve` of dune-common.
dune/istl/overlappingschwarz.hh:162-207. -/
def denseSolver [Zero R] (dense : List (List R) → (Nat → V) → Res (Nat → V)) (A : SpMat R) (D : List Nat) : Res (Solver V) := do
  let M ← denseLocal A D
  .ok fun _ d => dense M d

/-! ### The preconditioner -/

/-- The Schwarz modes. dune/istl/overlappingschwarz.hh:116-131. -/
inductive Mode where
  | additive
  | multiplicative
  | symmetric

/-- The members. `solvers = none` stands for `onTheFly == true`; `dyn`: the subdomain solver is `DynamicMatrixSubdomainSolver`, whose
`relaxResult` scales the whole local vector. dune/istl/overlappingschwarz.hh:874-882. -/
structure Obj (R K V : Type) where
  mat : SpMat R
  domains : List (List Nat)
  relax : K
  maxlength : Nat
  solvers : Option (List (Solver V))
  dyn : Bool

/-- Set up the local problems: nothing when they are solved on the fly. dune/istl/overlappingschwarz.hh:1118-1222. -/
def assemble (mk : SpMat R → List Nat → Res (Solver V)) (A : SpMat R) (doms : List (List Nat)) (fly : Bool) : Res (Option (List (Solver V))) :=
  if fly then .ok none else do
    let l ← doms.mapM (mk A)
    .ok (some l)

/-- Constructor with the subdomains. dune/istl/overlappingschwarz.hh:1055-1094. -/
def ctorDomains (mk : SpMat R → List Nat → Res (Solver V)) (dyn : Bool) (A : SpMat R) (doms : List (List Nat)) (relax : K) (fly : Bool) :
    Res (Obj R K V) := do
  let s ← assemble mk A doms fly
  .ok { mat := A, domains := doms, relax := relax, maxlength := maxLength doms, solvers := s, dyn := dyn }

/-- Constructor with the row to domain mapping. dune/istl/overlappingschwarz.hh:1008-1053. -/
def ctorRows (mk : SpMat R → List Nat → Res (Solver V)) (dyn : Bool) (A : SpMat R) (r2d : List (List Nat)) (relax : K) (fly : Bool) :
    Res (Obj R K V) := do
  let doms ← domainsOfRows r2d
  ctorDomains mk dyn A doms relax fly

section Apply
variable [AddCommGroup V] [SMul K V]

/-- The vectors of one call of `apply`: the iterate, the update of the additive version, the local right and left hand side. -/
structure Work (V : Type) where
  x : Nat → V
  v : Nat → V
  rhs : Nat → V
  lhs : Nat → V

/-- Undefined behaviour for local positions outside the local vectors. -/
def inLocal (ml i : Nat) : Res Unit := if i < ml then .ok () else .ub

/-- The assigner called for one index after the other; `i` is its local index. `lhs() = 0.0` only in the dense version.
dune/istl/overlappingschwarz.hh:1330-1372, 1411-1437, 1502-1516. -/
def assign (act : R → V →+ V) (o : Obj R K V) (b : Nat → V) : Nat → List Nat → Work V → Res (Work V)
  | _, [], w => .ok w
  | i, g :: gs, w => do
    let r ← rowOf o.mat g
    inLocal o.maxlength i
    let w' := { w with rhs := upd w.rhs i (Gsetc.residual act r w.x (b g)), lhs := if o.dyn then 0 else w.lhs }
    assign act o b (i + 1) gs w'

/-- `relaxResult(relax)`: one block, or the whole vector in the dense version. dune/istl/overlappingschwarz.hh:1322-1328, 1440-1448,
1518-1522. -/
def relaxResult (o : Obj R K V) (i : Nat) (lhs : Nat → V) : Nat → V :=
  if o.dyn then fun k => o.relax • lhs k else upd lhs i (o.relax • lhs i)

/-- The adder called for one index after the other. dune/istl/overlappingschwarz.hh:1374-1385, 1450-1458, 1524-1528, 1556-1561, 1581-1587 (`assignResult`, the two
`operator()`). -/
def add (mode : Mode) (o : Obj R K V) : Nat → List Nat → Work V → Res (Work V)
  | _, [], w => .ok w
  | i, g :: gs, w => do
    inLocal o.maxlength i
    let _ ← rowOf o.mat g
    match mode with
    | .additive => add mode o (i + 1) gs { w with v := upd w.v g (w.v g + w.lhs i) }
    | _ =>
      let l := relaxResult o i w.lhs
      add mode o (i + 1) gs { w with lhs := l, x := upd w.x g (w.x g + l i) }

/-- The solver used for a domain: a new one, or the stored one at the position of the solver iterator. -/
def solverFor (mk : SpMat R → List Nat → Res (Solver V)) (o : Obj R K V) (D : List Nat) (s : Option (Solver V)) : Res (Solver V) :=
  match o.solvers with
  | none => mk o.mat D
  | some _ => match s with
    | some S => .ok S
    | none => .ub

/-- The loop over the domains; the second list is the rest of the stored solvers. dune/istl/overlappingschwarz.hh:1251-1270. -/
def domainLoop (mk : SpMat R → List Nat → Res (Solver V)) (act : R → V →+ V) (mode : Mode) (o : Obj R K V) (b : Nat → V) :
    List (List Nat) → List (Solver V) → Work V → Res (Work V)
  | [], _, w => .ok w
  | D :: doms, ss, w => do
    let w ← assign act o b 0 D w
    let S ← solverFor mk o D ss.head?
    let l ← S w.lhs w.rhs
    let w ← add mode o 0 D { w with lhs := l }
    domainLoop mk act mode o b doms ss.tail w

/-- `apply<forward>(x, b)`; `init` are the arbitrary contents of the new local vectors. dune/istl/overlappingschwarz.hh:1232-1274. -/
def applyDir (mk : SpMat R → List Nat → Res (Solver V)) (act : R → V →+ V) (mode : Mode) (o : Obj R K V) (fwd : Bool) (init : Nat → V)
    (x b : Nat → V) : Res (Nat → V) := do
  let doms := if fwd then o.domains else o.domains.reverse
  let ss := if fwd then o.solvers.getD [] else (o.solvers.getD []).reverse
  let w ← domainLoop mk act mode o b doms ss ⟨x, 0, init, init⟩
  match mode with
  | .additive => .ok fun g => w.x g + o.relax • w.v g
  | _ => .ok w.x

/-- `apply(x, b)`: forward, in the symmetric mode followed by a backward sweep. dune/istl/overlappingschwarz.hh:667-691, 1225-1230. -/
def apply (mk : SpMat R → List Nat → Res (Solver V)) (act : R → V →+ V) (mode : Mode) (o : Obj R K V) (init : Nat → V) (x b : Nat → V) :
    Res (Nat → V) := do
  let y ← applyDir mk act mode o true init x b
  match mode with
  | .symmetric => applyDir mk act mode o false init y b
  | _ => .ok y

end Apply

end Ovl
end Istl
