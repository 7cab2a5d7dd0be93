import Verif.Model.AmgConfig
import Verif.Model.SolverObj

/-!
# The factories of solvers and preconditioners

dune/istl/solverfactory.hh, dune/istl/solverregistry.hh, dune/istl/common/registry.hh, and the constructors with a `ParameterTree` of
dune/istl/preconditioners.hh and dune/istl/solvers.hh. The factories of one operator type are global objects: here a state. A tree is flat,
with keys like `preconditioner.type`. Not modelled: the numerical part of a construction (decompositions), which is the parameter `Env`;
data races.
-/

namespace Istl
namespace Factory

open Amg Solver

/-- `sub(key)`. A missing subtree is empty. dune-common (contract). -/
def PTree.sub (t : PTree) (name : String) : PTree := fun k => t (name ++ "." ++ k)

/-- `sub(...)[key] = value`. dune-common (contract). -/
def PTree.put (t : PTree) (k v : String) : PTree := fun k' => if k' = k then some v else t k'

/-- The direct solvers. dune/istl/umfpack.hh:807; ldl.hh:373; spqr.hh:333; superlu.hh:728; cholmod.hh:527. -/
inductive DirectKind where
  | umfpack | ldl | spqr | superlu | cholmod
  deriving DecidableEq, Repr

/-- An operator as the factory sees it. `parallel` is `OperatorTraits::isParallel`, `assembled` says that the operator has a matrix and is
an `AssembledLinearOperator`. dune/istl/solverfactory.hh:43-88. -/
structure OpInfo where
  kind : OpKind
  cat : Category
  commCat : Category
  parallel : Bool
  procs : Nat
  assembled : Bool
  amgBlocks : Bool
  direct : DirectKind → Bool

/-- Preconditioner objects: those of the factory, one passed by the user, and the two parallel wrappers. dune/istl/preconditioners.hh;
dune/istl/paamg/amg.hh; dune/istl/schwarz.hh:278-360; dune/istl/novlpschwarz.hh:274-350. -/
inductive PrecObj where
  | ssor (iterations : Int) (w : ℚ)
  | sor (iterations : Int) (w : ℚ)
  | jac (iterations : Int) (w : ℚ)
  | dilu (w : ℚ)
  | ilu (n : Int) (w : ℚ) (resort : Bool)
  | richardson (w : ℚ)
  | ildl (w : ℚ)
  | amg (cat : Category) (smoother : SmootherKind) (wrap : Wrap) (choice : AmgChoice)
  | user (id : Nat) (cat : Category)
  | block (p : PrecObj)
  | novlp (p : PrecObj)
  deriving DecidableEq

/-- `category()`. dune/istl/preconditioners.hh (sequential); paamg/amg.hh:195-198 (of the communication: 458); schwarz.hh:361-364; novlpschwarz.hh:352-355. -/
def PrecObj.category : PrecObj → Category
  | .amg c _ _ _ => c
  | .user _ c => c
  | .block _ => .overlapping
  | .novlp _ => .nonoverlapping
  | _ => .sequential

/-- The names of dune/istl/preconditioners.hh:247, 385, 400, 517, 683, 866, 952, 1092 and paamg/amg.hh:1279. -/
inductive PrecKind where
  | ssor | sor | gs | jac | dilu | ilu | richardson | ildl | amg
  deriving DecidableEq, Repr

/-- Creators in the preconditioner factory: a registered one, or the closure that returns the preconditioner passed by the user.
dune/istl/solverfactory.hh:156-159. -/
inductive PrecCreator where
  | builtin (k : PrecKind)
  | passed (p : PrecObj)
  deriving DecidableEq

/-- The iterative solvers. dune/istl/solvers.hh:118, 189, 414, 600, 810, 1122, 1290, 1486, 1670, 1733. -/
inductive IterKind where
  | loop | gradient | cg | bicgstab | minres | gmres | fgmres | gpcg | fcg | cfcg
  deriving DecidableEq, Repr

/-- Creators in the solver factory. -/
inductive SolverCreator where
  | iterative (k : IterKind)
  | direct (k : DirectKind)
  deriving DecidableEq

/-- A solver object: what its constructor stored. `extra` is `_restart` or `_mmax`. -/
inductive SolverOf where
  | iterative (k : IterKind) (cat : Category) (sp : ScalarProductObj) (prec : PrecObj) (reduction : ℚ) (maxit verbose : Int) (extra : Option Int)
  | direct (k : DirectKind) (verbose : Int)
  deriving DecidableEq

/-- The numerical part of constructions: it may throw (a singular block, say). -/
structure Env where
  build : PrecObj → Res Unit
  factor : DirectKind → Res Unit

/-- The two factories of one operator type. dune/istl/solverfactory.hh:29-39. -/
structure Fac where
  prec : String → Option PrecCreator
  solver : String → Option SolverCreator

/-- `define` of the preconditioner factory: replaces. dune-common (contract). -/
def Fac.defP (F : Fac) (name : String) (c : PrecCreator) : Fac := { F with prec := fun n => if n = name then some c else F.prec n }

/-- `define` of the solver factory. dune-common (contract). -/
def Fac.defS (F : Fac) (name : String) (c : SolverCreator) : Fac := { F with solver := fun n => if n = name then some c else F.solver n }

/-- The registered preconditioners in the order of inclusion. dune/istl/preconditioners.hh:247-1092; paamg/amg.hh:1279. -/
def registryP : List (String × PrecKind) :=
  [("ssor", .ssor), ("sor", .sor), ("gs", .gs), ("jac", .jac), ("dilu", .dilu), ("ilu", .ilu), ("richardson", .richardson), ("ildl", .ildl),
    ("amg", .amg)]

/-- The registered solvers. dune/istl/solvers.hh:118-1733; umfpack.hh:807; ldl.hh:373; spqr.hh:333; superlu.hh:728; cholmod.hh:527. -/
def registryS : List (String × SolverCreator) :=
  [("loopsolver", .iterative .loop), ("gradientsolver", .iterative .gradient), ("cgsolver", .iterative .cg),
    ("bicgstabsolver", .iterative .bicgstab), ("minressolver", .iterative .minres), ("restartedgmressolver", .iterative .gmres),
    ("restartedflexiblegmressolver", .iterative .fgmres), ("generalizedpcgsolver", .iterative .gpcg), ("restartedfcgsolver", .iterative .fcg),
    ("completefcgsolver", .iterative .cfcg), ("umfpack", .direct .umfpack), ("ldl", .direct .ldl), ("spqr", .direct .spqr),
    ("superlu", .direct .superlu), ("cholmod", .direct .cholmod)]

/-- `initSolverFactories<O>()`: `addRegistryToFactory` for both registries. dune/istl/solverfactory.hh:115-123; common/registry.hh:60-78. -/
def initFactories (F : Fac) : Fac :=
  let F := registryP.foldl (fun F r => F.defP r.1 (.builtin r.2)) F
  registryS.foldl (fun F r => F.defS r.1 r.2) F

/-- The numerical construction, then the object. -/
def finish (E : Env) (p : PrecObj) : Res PrecObj := do
  E.build p
  .ok p

/-- `getAssembledOpOrThrow`, and the branch for operators without matrix. dune/istl/solverfactory.hh:58-65; solverregistry.hh:63-71. -/
def needMatrix (op : OpInfo) : Res Unit := if op.assembled then .ok () else .throw .noAssembledOperator

/-- A creator applied to operator and tree. dune/istl/solverregistry.hh:54-96; preconditioners.hh:200-202, 320-322, 471-473, 629-632, 763-767,
911-913, 952-957, 1019-1021; paamg/amg.hh:1246-1276. -/
def createPrec (V : Conv) (E : Env) (op : OpInfo) (c : PrecCreator) (t : PTree) : Res PrecObj :=
  match c with
  | .passed p => .ok p
  | .builtin .ssor => do
    needMatrix op
    let n ← t.getOr V.int "iterations" 1
    let w ← t.getOr V.double "relaxation" 1
    finish E (.ssor n w)
  | .builtin .sor => do
    needMatrix op
    let n ← t.getOr V.int "iterations" 1
    let w ← t.getOr V.double "relaxation" 1
    finish E (.sor n w)
  | .builtin .gs => do
    needMatrix op
    let n ← t.getOr V.int "iterations" 1
    let w ← t.getOr V.double "relaxation" 1
    finish E (.sor n w)
  | .builtin .jac => do
    needMatrix op
    let n ← t.getOr V.int "iterations" 1
    let w ← t.getOr V.double "relaxation" 1
    finish E (.jac n w)
  | .builtin .dilu => do
    needMatrix op
    let w ← t.getOr V.double "relaxation" 1
    finish E (.dilu w)
  | .builtin .ilu => do
    needMatrix op
    let n ← t.getOr V.int "n" 0
    let w ← t.getOr V.double "relaxation" 1
    let r ← t.getOr V.bool "resort" false
    finish E (.ilu n w r)
  | .builtin .richardson => do
    let w ← t.getOr V.double "relaxation" 1
    finish E (.richardson w)
  | .builtin .ildl => do
    needMatrix op
    let w ← t.getOr V.double "relaxation" 1
    finish E (.ildl w)
  | .builtin .amg => do
    let r ← amgCreator V op.amgBlocks op.kind t
    finish E (.amg (if op.kind = .matrixAdapter then .sequential else op.commCat) r.1 r.2.1 r.2.2)

/-- The wrapping at the end of `getPreconditionerFromFactory`. dune/istl/solverfactory.hh:184-191. -/
def wrapFor (op : OpInfo) (p : PrecObj) : PrecObj :=
  if op.parallel then
    if op.cat = .overlapping ∧ p.category = .sequential then .block p
    else if op.cat = .nonoverlapping ∧ p.category = .sequential then .novlp p
    else p
  else p

/-- `getPreconditionerFromFactory(op, config)`; an unknown key makes `create` throw (dune-common, contract).
dune/istl/solverfactory.hh:174-193. -/
def getPrec (V : Conv) (E : Env) (F : Fac) (op : OpInfo) (t : PTree) : Res PrecObj := do
  let name ← t.get some "type"
  match F.prec name with
  | none => .throw .invalidState
  | some c => do
    let p ← createPrec V E op c t
    .ok (wrapFor op p)

/-- The additional parameter of some solvers. dune/istl/solvers.hh:878-886, 1361-1369, 1558-1569. -/
def extraOf (V : Conv) (k : IterKind) (t : PTree) : Res (Option Int) :=
  match k with
  | .gmres => do let n ← t.get V.int "restart"; .ok (some n)
  | .fgmres => do let n ← t.get V.int "restart"; .ok (some n)
  | .gpcg => do let n ← t.get V.int "restart"; .ok (some n)
  | .fcg => do let n ← t.getOr V.int "mmax" 10; .ok (some n)
  | .cfcg => do let n ← t.getOr V.int "mmax" 10; .ok (some n)
  | _ => .ok none

/-- The scalar product. dune/istl/solverfactory.hh:79-87. -/
def spFor (op : OpInfo) : ScalarProductObj := if op.parallel then makeScalarProduct op.cat else .seq

/-- `defaultIterativeSolverCreator` and the constructor of the solver. dune/istl/solverregistry.hh:98-116; solver.hh:315-320, 341-358. -/
def createIterative (V : Conv) (E : Env) (F : Fac) (op : OpInfo) (k : IterKind) (t : PTree) : Res SolverOf := do
  let p ← getPrec V E F op (PTree.sub t "preconditioner")
  let red ← t.get V.double "reduction"
  let maxit ← t.get V.int "maxit"
  let verbose ← t.get V.int "verbose"
  if op.cat ≠ p.category then .throw .invalidSolverCategory
  else if op.cat ≠ (spFor op).category then .throw .invalidSolverCategory
  else do
    let x ← extraOf V k t
    .ok (.iterative k op.cat (spFor op) p red maxit verbose x)

/-- The creators of the direct solvers; CHOLMOD does not read `verbose`. dune/istl/umfpack.hh:807-834; ldl.hh:373-400; spqr.hh:333-360;
superlu.hh:728-755; cholmod.hh:527-552. -/
def createDirect (V : Conv) (E : Env) (op : OpInfo) (k : DirectKind) (t : PTree) : Res SolverOf :=
  if op.parallel = true ∧ 1 < op.procs then .throw .invalidState
  else if op.direct k = true then do
    needMatrix op
    let v ← if k = .cholmod then .ok 0 else t.getOr V.int "verbose" 0
    E.factor k
    .ok (.direct k v)
  else .throw .unsupportedType

/-- `create(type, op, config)` of the solver factory. dune-common (contract). -/
def create (V : Conv) (E : Env) (F : Fac) (op : OpInfo) (name : String) (t : PTree) : Res SolverOf :=
  match F.solver name with
  | none => .throw .invalidState
  | some (.iterative k) => createIterative V E F op k t
  | some (.direct k) => createDirect V E op k t

/-- The reserved name. dune/istl/solverfactory.hh:156. -/
def passedName : String := "__passed at runtime__"

/-- First half of `getSolverFromFactory`: the definition. dune/istl/solverfactory.hh:155-159. -/
def register (F : Fac) (prec : Option PrecObj) : Fac :=
  match prec with
  | none => F
  | some p => F.defP passedName (.passed p)

/-- Second half: the creation. dune/istl/solverfactory.hh:160-166. -/
def createFrom (V : Conv) (E : Env) (F : Fac) (op : OpInfo) (t : PTree) (given : Bool) : Res SolverOf := do
  let name ← t.get some "type"
  create V E F op name (if given then PTree.put t "preconditioner.type" passedName else t)

/-- `getSolverFromFactory(op, config, prec)`: result, and the factories afterwards (also after an exception).
dune/istl/solverfactory.hh:149-167. -/
def getSolver (V : Conv) (E : Env) (F : Fac) (op : OpInfo) (t : PTree) (prec : Option PrecObj) : Res SolverOf × Fac :=
  (createFrom V E (register F prec) op t prec.isSome, register F prec)

/-- What a program does with the factories of one operator type. -/
inductive Call where
  | solver (op : OpInfo) (t : PTree) (prec : Option PrecObj)
  | prec (op : OpInfo) (t : PTree)
  | init

/-- The factories after a call. dune/istl/solverfactory.hh:115-123, 149-193. -/
def Call.after (F : Fac) : Call → Fac
  | .solver _ _ p => register F p
  | .prec _ _ => F
  | .init => initFactories F

/-- The factories after a history. -/
def runCalls (F : Fac) (cs : List Call) : Fac := cs.foldl Call.after F

end Factory
end Istl
