import Verif.Model.Gsetc
import Verif.Model.Heap
import Mathlib.Algebra.Module.Basic

/-!
# FastAMG: dune/istl/paamg/fastamg.hh, dune/istl/paamg/fastamgsmoother.hh

Sequential (the only case the class supports, fastamg.hh:336): `copyOwnerToAll` does nothing, nothing is redistributed,
`levels()==maxlevels()`. The number of smoothing steps is only read for a warning. `presmooth` and `postsmooth` always do one step.
-/

namespace Istl
namespace FastAmg
variable {B X K : Type} [AddCommGroup X] [SMul K X]

/-- Row `i` of `GaussSeidelPresmoothDefect::apply`: `d_i = b_i - sum_{j<i} a_ij x_j`, solve with the diagonal, `d_i = 0`, then
`d_j -= a_ij x_i` for the stored `j<i`. No test for the end of the row; an entry other than the diagonal after the loop fails the
assertion. dune/istl/paamg/fastamgsmoother.hh:29-47. -/
def preRow (β : BlockSolve B X X) (A : SpMat B) (b : Nat → X) (i : Nat) (s : (Nat → X) × (Nat → X)) : Res ((Nat → X) × (Nat → X)) :=
  match (A.row i).dropWhile (fun e => e.1 < i) with
  | [] => .ub
  | dg :: _ =>
    if dg.1 = i then do
      let low := (A.row i).takeWhile fun e => e.1 < i
      let d := upd s.2 i (Gsetc.residual β.act low s.1 (b i))
      let v ← Gsetc.solveLoc β dg.2 (s.1 i) (d i)
      let x := upd s.1 i v
      let d := upd d i 0
      .ok (x, low.foldl (fun d e => upd d e.1 (d e.1 - β.act e.2 (x i))) d)
    else .ub

/-- `GaussSeidelPresmoothDefect::apply(A,x,d,b)`; returns `x` and `d`. dune/istl/paamg/fastamgsmoother.hh:19-48. -/
def presmooth (β : BlockSolve B X X) (A : SpMat B) (b : Nat → X) (x d : Nat → X) : Res ((Nat → X) × (Nat → X)) :=
  forRangeM A.n (preRow β A b) (x, d)

/-- Row `i` of `GaussSeidelPostsmoothDefect::apply`: the columns are visited from the right. `d_i = b_i - sum_{j>i} a_ij x_j`,
`v = d_i - sum_{j<i} a_ij x_j`, `x_i` solves with the diagonal, `d_i -= v`. dune/istl/paamg/fastamgsmoother.hh:66-91. -/
def postRow (β : BlockSolve B X X) (A : SpMat B) (b : Nat → X) (i : Nat) (s : (Nat → X) × (Nat → X)) : Res ((Nat → X) × (Nat → X)) :=
  match (A.row i).reverse.dropWhile (fun e => i < e.1) with
  | [] => .ub
  | dg :: low =>
    if dg.1 = i then do
      let up := (A.row i).reverse.takeWhile fun e => i < e.1
      let d := upd s.2 i (Gsetc.residual β.act up s.1 (b i))
      let v := Gsetc.residual β.act low s.1 (d i)
      let y ← Gsetc.solveLoc β dg.2 (s.1 i) v
      .ok (upd s.1 i y, upd d i (d i - v))
    else .ub

/-- `GaussSeidelPostsmoothDefect::apply(A,x,d,b)`. dune/istl/paamg/fastamgsmoother.hh:55-93. -/
def postsmooth (β : BlockSolve B X X) (A : SpMat B) (b : Nat → X) (x d : Nat → X) : Res ((Nat → X) × (Nat → X)) :=
  forDownM A.n (postRow β A b) (x, d)

/-- What `FastAMG` holds besides vectors. `restr l` restricts from level `l` to `l+1`, `prol l` prolongates back; `solve x b` is what
the coarse solver makes of `x` and `b`, and whether it converged. dune/istl/paamg/fastamg.hh:279-306. -/
structure Setup (B X K : Type) where
  coarsest : Nat
  mat : Nat → SpMat B
  restr : Nat → (Nat → X) → (Nat → X)
  prol : Nat → (Nat → X) → (Nat → X)
  solve : (Nat → X) → (Nat → X) → (Nat → X) × (Nat → X) × Bool
  damp : K
  gamma : Nat

/-- `LevelContext`: iterators into the hierarchies (`pinfo`, `redist` and `level` have no sequential meaning).
dune/istl/paamg/fastamg.hh:202-236. -/
structure Cursor where
  matrix : Nat
  aggregates : Nat
  lhs : Nat
  residual : Nat
  rhs : Nat
  deriving DecidableEq, Repr

/-- A reference `Domain&` handed to `mgc`: the vector of the caller of `apply` or one of the hierarchy `lhs`. -/
inductive XRef where
  | user
  | lhs (k : Nat)
  deriving DecidableEq, Repr

/-- A reference `const Range&` handed to `mgc`. -/
inductive BRef where
  | user
  | rhs (k : Nat)
  deriving DecidableEq, Repr

/-- The cursor, the three hierarchies (`coarsest+1` vectors each), the arguments `v` and `d` of `apply` (a copy of `d` if there is a
single level, fastamg.hh:519-521) and the flag `coarsesolverconverged`. -/
structure State (X : Type) where
  cur : Cursor
  lhs : Nat → Nat → X
  residual : Nat → Nat → X
  rhs : Nat → Nat → X
  v : Nat → X
  d : Nat → X
  conv : Bool

/-- Parts of the cycle. -/
abbrev MG (X α : Type) := Cmd (State X) α

/-- Dereferencing an iterator of a hierarchy with `coarsest+1` levels. -/
def inside (S : Setup B X K) (k : Nat) : MG X Unit := if k ≤ S.coarsest then pure () else Cmd.undef

/-- Read through a `Domain&`. -/
def getX (S : Setup B X K) : XRef → MG X (Nat → X)
  | .user => do
    let s ← Cmd.get
    pure s.v
  | .lhs k => do
    inside S k
    let s ← Cmd.get
    pure (s.lhs k)

/-- Write through a `Domain&`. -/
def setX (S : Setup B X K) (x : Nat → X) : XRef → MG X Unit
  | .user => Cmd.modify fun s => { s with v := x }
  | .lhs k => do
    inside S k
    Cmd.modify fun s => { s with lhs := fun j => if j = k then x else s.lhs j }

/-- Read through a `Range&`. -/
def getB (S : Setup B X K) : BRef → MG X (Nat → X)
  | .user => do
    let s ← Cmd.get
    pure s.d
  | .rhs k => do
    inside S k
    let s ← Cmd.get
    pure (s.rhs k)

/-- Write through a `Range&` (the coarse solver gets `const_cast<Range&>(b)`, fastamg.hh:678). -/
def setB (S : Setup B X K) (x : Nat → X) : BRef → MG X Unit
  | .user => Cmd.modify fun s => { s with d := x }
  | .rhs k => do
    inside S k
    Cmd.modify fun s => { s with rhs := fun j => if j = k then x else s.rhs j }

/-- `*levelContext.residual = x` -/
def setRes (S : Setup B X K) (x : Nat → X) : MG X Unit := do
  let s ← Cmd.get
  inside S s.cur.residual
  Cmd.modify fun s => { s with residual := fun j => if j = s.cur.residual then x else s.residual j }

/-- `*levelContext.residual` -/
def getRes (S : Setup B X K) : MG X (Nat → X) := do
  let s ← Cmd.get
  inside S s.cur.residual
  pure (s.residual s.cur.residual)

/-- `presmooth`. dune/istl/paamg/fastamg.hh:632-640. -/
def doPre (β : BlockSolve B X X) (S : Setup B X K) (xr : XRef) (br : BRef) : MG X Unit := do
  let s ← Cmd.get
  let x ← getX S xr
  let b ← getB S br
  let d ← getRes S
  let r ← Cmd.lift (presmooth β (S.mat s.cur.matrix) b x d)
  setX S r.1 xr
  setRes S r.2

/-- `postsmooth`. dune/istl/paamg/fastamg.hh:643-650. -/
def doPost (β : BlockSolve B X X) (S : Setup B X K) (xr : XRef) (br : BRef) : MG X Unit := do
  let s ← Cmd.get
  let x ← getX S xr
  let b ← getB S br
  let d ← getRes S
  let r ← Cmd.lift (postsmooth β (S.mat s.cur.matrix) b x d)
  setX S r.1 xr
  setRes S r.2

/-- `moveToCoarseLevel`. dune/istl/paamg/fastamg.hh:543-588. -/
def moveToCoarse (S : Setup B X K) : MG X Unit := do
  let fine ← getRes S
  let s ← Cmd.get
  Cmd.modify fun s => { s with cur := { s.cur with rhs := s.cur.rhs + 1 } }
  setB S (S.restr s.cur.aggregates fine) (.rhs (s.cur.rhs + 1))
  Cmd.modify fun s => { s with cur := { s.cur with residual := s.cur.residual + 1, lhs := s.cur.lhs + 1, matrix := s.cur.matrix + 1 } }
  Cmd.modify fun s =>
    if s.cur.matrix ≠ S.coarsest then { s with cur := { s.cur with aggregates := s.cur.aggregates + 1 } } else s
  let s ← Cmd.get
  setX S 0 (.lhs s.cur.lhs)
  setRes S 0

/-- `moveToFineLevel`; `prolongateVector` scales the coarse vector in place and adds its prolongation to `x`
(dune/istl/paamg/transfer.hh:110-130). dune/istl/paamg/fastamg.hh:590-629. -/
def moveToFine (S : Setup B X K) (xr : XRef) : MG X Unit := do
  Cmd.modify fun s =>
    if s.cur.matrix ≠ S.coarsest then { s with cur := { s.cur with aggregates := s.cur.aggregates - 1 } } else s
  Cmd.modify fun s => { s with cur := { s.cur with matrix := s.cur.matrix - 1, residual := s.cur.residual - 1 } }
  let s ← Cmd.get
  Cmd.modify fun s => { s with cur := { s.cur with lhs := s.cur.lhs - 1 } }
  let c ← getX S (.lhs s.cur.lhs)
  setX S (S.damp • c) (.lhs s.cur.lhs)
  let x ← getX S xr
  setX S (x + S.prol s.cur.aggregates (S.damp • c)) xr
  Cmd.modify fun s => { s with cur := { s.cur with rhs := s.cur.rhs - 1 } }

/-- The solve on the coarsest level. dune/istl/paamg/fastamg.hh:664-685. -/
def coarseSolve (S : Setup B X K) (xr : XRef) (br : BRef) : MG X Unit := do
  let x ← getX S xr
  let b ← getB S br
  let r := S.solve x b
  setX S r.1 xr
  setB S r.2.1 br
  if r.2.2 = false then Cmd.modify fun s => { s with conv := false }

/-- `for (i=0; i<gamma; i++) mgc(levelContext, *levelContext.lhs, *levelContext.rhs)`. dune/istl/paamg/fastamg.hh:695-697. -/
def gammaLoop (rec : XRef → BRef → MG X Unit) : Nat → MG X Unit
  | 0 => pure ()
  | k + 1 => do
    let s ← Cmd.get
    rec (.lhs s.cur.lhs) (.rhs s.cur.rhs)
    gammaLoop rec k

/-- The test for convergence of the coarse solver on the finest level. dune/istl/paamg/fastamg.hh:704-708. -/
def checkCoarse : MG X Unit := do
  let s ← Cmd.get
  if s.cur.matrix = 0 ∧ s.conv = false then Cmd.raise .mathError
  else pure ()

/-- `mgc(levelContext,v,b)`. dune/istl/paamg/fastamg.hh:659-714. The first argument bounds the recursion. -/
def mgc (β : BlockSolve B X X) (S : Setup B X K) : Nat → XRef → BRef → MG X Unit
  | 0, _, _ => Cmd.undef
  | fuel + 1, xr, br => do
    let s ← Cmd.get
    if s.cur.matrix = S.coarsest then coarseSolve S xr br
    else do
      doPre β S xr br
      moveToCoarse S
      gammaLoop (mgc β S fuel) S.gamma
      moveToFine S xr
      checkCoarse
      doPost β S xr br

/-- `initIteratorsWithFineLevel`. dune/istl/paamg/fastamg.hh:529-541. -/
def fineCursor : Cursor := ⟨0, 0, 0, 0, 0⟩

/-- `apply(v,d)`; returns the new `v`. dune/istl/paamg/fastamg.hh:508-526. -/
def fastApply (β : BlockSolve B X X) (S : Setup B X K) (v d : Nat → X) : MG X (Nat → X) := do
  Cmd.modify fun s => { s with cur := fineCursor, v := v, d := d }
  mgc β S (S.coarsest + 1) .user .user
  let s ← Cmd.get
  pure s.v

end FastAmg
end Istl
