import Verif.Model.SolverFactory
import Verif.Spec.AmgConfig

/-!
# Specification: what a user expects from the factories
-/

namespace Istl
namespace Factory

open Amg Solver

/-- An operator that knows no communication is sequential. -/
def OpOk (op : OpInfo) : Prop := op.parallel = false → op.cat = .sequential

/-- The preconditioner a solver for `op` works with, if the user or the tree chooses `p`: `p` itself, or `p` made parallel. -/
def Serves (op : OpInfo) (p q : PrecObj) : Prop :=
  (q = p ∧ p.category = op.cat) ∨
  (p.category = .sequential ∧ op.parallel = true ∧
    (op.cat = .overlapping ∧ q = .block p ∨ op.cat = .nonoverlapping ∧ q = .novlp p))

/-- `p` can serve for `op`. -/
def Usable (op : OpInfo) (p : PrecObj) : Prop :=
  p.category = op.cat ∨ (p.category = .sequential ∧ op.parallel = true)

/-- The table of parameters of the preconditioners. -/
inductive PrecIs (V : Conv) (op : OpInfo) (t : PTree) : String → PrecObj → Prop where
  | ssor {n w} : op.assembled = true → Reads V.int t "iterations" 1 n → Reads V.double t "relaxation" 1 w → PrecIs V op t "ssor" (.ssor n w)
  | sor {n w} : op.assembled = true → Reads V.int t "iterations" 1 n → Reads V.double t "relaxation" 1 w → PrecIs V op t "sor" (.sor n w)
  | gs {n w} : op.assembled = true → Reads V.int t "iterations" 1 n → Reads V.double t "relaxation" 1 w → PrecIs V op t "gs" (.sor n w)
  | jac {n w} : op.assembled = true → Reads V.int t "iterations" 1 n → Reads V.double t "relaxation" 1 w → PrecIs V op t "jac" (.jac n w)
  | dilu {w} : op.assembled = true → Reads V.double t "relaxation" 1 w → PrecIs V op t "dilu" (.dilu w)
  | ilu {n w r} : op.assembled = true → Reads V.int t "n" 0 n → Reads V.double t "relaxation" 1 w → Reads V.bool t "resort" false r →
      PrecIs V op t "ilu" (.ilu n w r)
  | richardson {w} : Reads V.double t "relaxation" 1 w → PrecIs V op t "richardson" (.richardson w)
  | ildl {w} : op.assembled = true → Reads V.double t "relaxation" 1 w → PrecIs V op t "ildl" (.ildl w)
  | amg {r} : amgCreator V op.amgBlocks op.kind t = .ok r →
      PrecIs V op t "amg" (.amg (if op.kind = .matrixAdapter then .sequential else op.commCat) r.1 r.2.1 r.2.2)

/-- The solvers that need a parameter `restart`, and those that have a parameter `mmax`. -/
def ExtraIs (V : Conv) (k : IterKind) (t : PTree) (x : Option Int) : Prop :=
  (k ∈ [IterKind.gmres, .fgmres, .gpcg] ∧ ∃ s n, t "restart" = some s ∧ V.int s = some n ∧ x = some n) ∨
  (k ∈ [IterKind.fcg, .cfcg] ∧ ∃ n, Reads V.int t "mmax" 10 n ∧ x = some n) ∨
  (k ∈ [IterKind.loop, .gradient, .cg, .bicgstab, .minres] ∧ x = none)

/-- The parameters of an iterative solver. -/
structure SolverIs (V : Conv) (op : OpInfo) (k : IterKind) (t : PTree) (q : PrecObj) (s : SolverOf) : Prop where
  ex : ∃ red maxit verbose x a b c, s = .iterative k op.cat (makeScalarProduct op.cat) q red maxit verbose x ∧
    t "reduction" = some a ∧ V.double a = some red ∧ t "maxit" = some b ∧ V.int b = some maxit ∧ t "verbose" = some c ∧ V.int c = some verbose ∧
    ExtraIs V k t x

/-- The three required keys and, if needed, the additional one are readable. -/
def SolverKeys (V : Conv) (k : IterKind) (t : PTree) : Prop :=
  (∃ a red, t "reduction" = some a ∧ V.double a = some red) ∧ (∃ b m, t "maxit" = some b ∧ V.int b = some m) ∧
  (∃ c v, t "verbose" = some c ∧ V.int c = some v) ∧ ∃ x, ExtraIs V k t x

end Factory
end Istl
