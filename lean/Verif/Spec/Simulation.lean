import Verif.Model.Krylov

/-!
# When a solver run on one kind of vectors is the same as a run on another kind

`E` works on vectors `X` (all local parts of distributed vectors) and `F` on vectors `Y` (global vectors).
-/

namespace Istl
namespace Solver

variable {K Rl X Y : Type}

/-- The ways a distributed vector can represent a global one: `start` for the initial guess, `rhs` for the right hand side as given by
the user, `primal` for iterates and corrections, `dual` for defects, and `any`, the weakest one, which the scalar product needs. -/
structure Rel (X Y : Type) where
  start : X → Y → Prop
  rhs : X → Y → Prop
  primal : X → Y → Prop
  dual : X → Y → Prop
  any : X → Y → Prop

/-- The components given to the solver respect the representation. -/
structure Sim [Add X] [SMul K X] [Zero X] [Add Y] [SMul K Y] [Zero Y] (R : Rel X Y) (E : Env K Rl X) (F : Env K Rl Y) : Prop where
  primal_any : ∀ {x y}, R.primal x y → R.any x y
  dual_any : ∀ {x y}, R.dual x y → R.any x y
  pre : ∀ {x y b c}, R.start x y → R.rhs b c → R.primal (E.pre x b).1 (F.pre y c).1 ∧ R.rhs (E.pre x b).2 (F.pre y c).2
  post : ∀ {x y}, R.primal x y → R.primal (E.post x) (F.post y)
  subRhs : ∀ {x y b c}, R.primal x y → R.rhs b c → R.dual (E.subOp x b) (F.subOp y c)
  subOp : ∀ {x y b c}, R.primal x y → R.dual b c → R.dual (E.subOp x b) (F.subOp y c)
  op : ∀ {x y}, R.primal x y → R.dual (E.op x) (F.op y)
  prec : ∀ {b c} k, R.dual b c → R.primal (E.prec k b) (F.prec k c)
  dot : ∀ {x y v w}, R.any x y → R.any v w → E.dot x v = F.dot y w
  norm : ∀ {x y}, R.any x y → E.norm x = F.norm y
  primal_add : ∀ {x y v w}, R.primal x y → R.primal v w → R.primal (x + v) (y + w)
  primal_smul : ∀ {x y} (a : K), R.primal x y → R.primal (a • x) (a • y)
  primal_zero : R.primal 0 0
  dual_add : ∀ {x y v w}, R.dual x y → R.dual v w → R.dual (x + v) (y + w)
  dual_smul : ∀ {x y} (a : K), R.dual x y → R.dual (a • x) (a • y)
  dual_zero : R.dual 0 0
  lt : E.lt = F.lt
  finite : E.finite = F.finite
  isZero : E.isZero = F.isZero
  abs : E.abs = F.abs
  ofReal : E.ofReal = F.ofReal
  sqrt : E.sqrt = F.sqrt
  conj : E.conj = F.conj
  rsqrt : E.rsqrt = F.rsqrt
  tiny : E.tiny = F.tiny
  eps : E.eps = F.eps
  rotEps : E.rotEps = F.rotEps

/-- The two runs end the same way: same exception or none, same iteration record (so same statistics), and solutions that represent
each other. -/
structure SameExit (R : Rel X Y) (e : Exit X Rl) (f : Exit Y Rl) : Prop where
  x : R.primal e.x f.x
  it : e.it = f.it
  exc : e.exc = f.exc

/-- The same for solvers with an unbounded loop: both still run after the given number of passes, or both end the same way. -/
def SameRun (R : Rel X Y) : Option (Exit X Rl) → Option (Exit Y Rl) → Prop
  | none, none => True
  | some e, some f => SameExit R e f
  | _, _ => False

end Solver
end Istl
