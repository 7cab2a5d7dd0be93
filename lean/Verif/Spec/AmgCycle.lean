import Verif.Model.AmgCycle

/-!
# Specification: the multigrid cycle as a recursively defined iteration
-/

namespace Istl
namespace Amg
variable {K V : Type} [AddCommGroup V] [SMul K V]

/-- `k` steps of the stationary iteration `u ← u + S (b - A u)`. -/
def relax (A S : V → V) (b : V) : Nat → V → V
  | 0, u => u
  | k + 1, u => relax A S b k (u + S (b - A u))

/-- The multigrid cycle for the right hand side `b` on level `l` with `d` coarser levels below, starting from `0`:
pre-smoothing, coarse grid correction by `gamma` cycles for the restricted defect (one exact solve if the next level is the
coarsest), damped prolongation of the correction, post-smoothing. -/
def mg (S : Setup K V) : Nat → Nat → V → V
  | 0, _, b => (S.solve 0 b).1
  | d + 1, l, b =>
    let u := relax (S.mat l) (S.pre l 0) b S.preSteps 0
    let r := S.restr l (b - S.mat l u)
    let c := if d = 0 then (if S.gamma = 0 then 0 else (S.solve 0 r).1) else relax (S.mat (l + 1)) (mg S d (l + 1)) r S.gamma 0
    relax (S.mat l) (S.post l 0) b S.postSteps (u + S.prol l (S.damp • c))

/-- The additive variant: all levels smoothed independently, the corrections summed up; `solve` gives the coarse solution. -/
def additive (solve : V → V) (S : Setup K V) : Nat → Nat → V → V
  | 0, _, b => solve b
  | d + 1, l, b => S.pre l 0 b + S.prol l (additive solve S d (l + 1) (S.restr l b))

/-- The coarse solver always reports convergence. -/
def Setup.Converges (S : Setup K V) : Prop := ∀ b, (S.solve 0 b).2.2 = true

/-- The vector hierarchies have one vector per level. -/
def State.Sized (s : State V) (S : Setup K V) : Prop :=
  s.lhs.length = S.coarsest + 1 ∧ s.upd.length = S.coarsest + 1 ∧ s.rhs.length = S.coarsest + 1

end Amg
end Istl
