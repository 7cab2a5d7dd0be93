import Verif.Model.Krylov

/-!
# The solver object: constructors, settings, and the two `apply` functions

`dune/istl/solver.hh`, class `IterativeSolver`; `dune/istl/solvercategory.hh`; `dune/istl/scalarproducts.hh`. The numerical part of a
solve is a parameter `run` (any of the solvers of `Model/Solver.lean` and `Model/Krylov.lean`, or any other).
-/

namespace Istl
namespace Solver

/-- `SolverCategory::Category`. dune/istl/solvercategory.hh:24-31. -/
inductive Category where
  | sequential
  | nonoverlapping
  | overlapping
  deriving DecidableEq

/-- A scalar product object as far as construction is concerned: the sequential one or a parallel one built for a category.
dune/istl/scalarproducts.hh:51-83, 97-168. -/
inductive ScalarProductObj where
  | seq
  | parallel (cat : Category)
  deriving DecidableEq

/-- `category()` of the two classes. dune/istl/scalarproducts.hh:75-79, 156-160. -/
def ScalarProductObj.category : ScalarProductObj → Category
  | .seq => .sequential
  | .parallel c => c

/-- `makeScalarProduct(comm, category)` and `createScalarProduct`. dune/istl/scalarproducts.hh:223-245. -/
def makeScalarProduct : Category → ScalarProductObj
  | .sequential => .seq
  | c => .parallel c

/-- Data members of `IterativeSolver` that a user can observe. dune/istl/solver.hh:535-545. -/
structure Settings (Rl : Type) where
  reduction : Rl
  maxit : Nat
  verbose : Nat
  category : Category
  sp : ScalarProductObj
  deriving DecidableEq

variable {Rl : Type}

/-- `IterativeSolver(op, prec, reduction, maxit, verbose)`: operator and preconditioner are looked at through their categories only.
dune/istl/solver.hh:232-242. -/
def mkSeq (op prec : Category) (reduction : Rl) (maxit verbose : Nat) : Res (Settings Rl) :=
  if op ≠ .sequential then .throw .invalidSolverCategory
  else if prec ≠ .sequential then .throw .invalidSolverCategory
  else .ok { reduction := reduction, maxit := maxit, verbose := verbose, category := .sequential, sp := .seq }

/-- `IterativeSolver(op, sp, prec, reduction, maxit, verbose)`, for references and for shared pointers.
dune/istl/solver.hh:262-275, 344-357. -/
def mkGeneral (op : Category) (sp : ScalarProductObj) (prec : Category) (reduction : Rl) (maxit verbose : Nat) : Res (Settings Rl) :=
  if op ≠ prec then .throw .invalidSolverCategory
  else if op ≠ sp.category then .throw .invalidSolverCategory
  else .ok { reduction := reduction, maxit := maxit, verbose := verbose, category := op, sp := sp }

/-- The keys of a `ParameterTree` the solver reads; a missing (or unparsable) key makes `get` throw `RangeError`. -/
structure Config (Rl : Type) where
  reduction : Option Rl
  maxit : Option Nat
  verbose : Option Nat

/-- `configuration.get<T>(key)`. -/
def Config.get {α : Type} : Option α → Res α
  | some a => .ok a
  | none => .throw .rangeError

/-- `IterativeSolver(op, sp, prec, configuration)`. dune/istl/solver.hh:313-318. -/
def mkConfigSp (op : Category) (sp : ScalarProductObj) (prec : Category) (c : Config Rl) : Res (Settings Rl) := do
  let red ← Config.get c.reduction
  let maxit ← Config.get c.maxit
  let verbose ← Config.get c.verbose
  mkGeneral op sp prec red maxit verbose

/-- `IterativeSolver(op, prec, configuration)`: uses a new `SeqScalarProduct`. dune/istl/solver.hh:291-296. -/
def mkConfig (op prec : Category) (c : Config Rl) : Res (Settings Rl) := mkConfigSp op .seq prec c

variable {X : Type}

/-- The numerical part of a solve: settings, `x`, `b` to the state left behind. The index is the number of the call, so that nothing is
assumed about the state of operator and preconditioner between calls. -/
abbrev Run (Rl X : Type) := Nat → Settings Rl → X → X → Exit X Rl

/-- A call by the user. -/
inductive Call (Rl X : Type) where
  | three (x b : X)
  | four (x b : X) (reduction : Rl)

/-- `apply(x,b,res)` of all solvers, and `apply(x,b,reduction,res)` of `IterativeSolver`: `_reduction` is saved, set, and restored by the
statement after the solve, which an exception skips. dune/istl/solver.hh:376-382. -/
def call (run : Run Rl X) (k : Nat) (s : Settings Rl) : Call Rl X → Exit X Rl × Settings Rl
  | .three x b => (run k s x b, s)
  | .four x b red =>
    let s' := { s with reduction := red }
    let e := run k s' x b
    match e.exc with
    | some _ => (e, s')
    | none => (e, { s' with reduction := s.reduction })

/-- The same for `RestartedGMResSolver` and `RestartedFlexibleGMResSolver`, which override the four argument version and ignore its
argument. dune/istl/solvers.hh:910-923, 1169. -/
def callGmres (run : Run Rl X) (k : Nat) (s : Settings Rl) : Call Rl X → Exit X Rl × Settings Rl
  | .three x b => (run k s x b, s)
  | .four x b _ => (run k s x b, s)

/-- A history of calls, the user catching every exception; returns what the calls left behind and the settings at the end. -/
def history (c : Nat → Settings Rl → Call Rl X → Exit X Rl × Settings Rl) : Nat → Settings Rl → List (Call Rl X) →
    List (Exit X Rl) × Settings Rl
  | _, s, [] => ([], s)
  | k, s, a :: rest =>
    let r := c k s a
    let q := history c (k + 1) r.2 rest
    (r.1 :: q.1, q.2)

end Solver
end Istl
