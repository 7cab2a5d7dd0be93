import Verif.Model.Heap
import Mathlib.Algebra.Module.Basic

/-!
# The multigrid cycle: dune/istl/paamg/amg.hh, dune/istl/paamg/smoother.hh, dune/istl/paamg/twolevelmethod.hh

Sequential case: no redistribution, `copyOwnerToAll` and `project` do nothing, all levels up to the coarsest exist
(`levels()==maxlevels()`). Vectors of all levels are elements of one module `V`; matrix, smoothers, transfer operators and
coarse solver are arbitrary functions (transfer operators on arrays: Model/AmgTransfer.lean).
-/

namespace Istl
namespace Amg

/-- What `AMG` holds besides vectors. dune/istl/paamg/amg.hh:340-378.
`mat l` applies the matrix of level `l`; `pre l v d`, `post l v d` are the vector `v` after `preSmooth(v,d)`, `postSmooth(v,d)`
(dune/istl/paamg/smoother.hh:372-398); `restr l` restricts from level `l` to `l+1`, `prol l` prolongates from `l+1` to `l`
(dune/istl/paamg/transfer.hh:106-151); `solve v d` is what the coarse solver makes of `v` and `d`, and whether it converged.
The aggregates map used is number `l`, hence `restr` and `prol` are selected by the aggregates cursor. -/
structure Setup (K V : Type) where
  coarsest : Nat
  mat : Nat → V → V
  pre : Nat → V → V → V
  post : Nat → V → V → V
  restr : Nat → V → V
  prol : Nat → V → V
  solve : V → V → V × V × Bool
  damp : K
  preSteps : Nat
  postSteps : Nat
  gamma : Nat

/-- `LevelContext`: iterators into the hierarchies. dune/istl/paamg/amg.hh:260-309 (`pinfo` and `redist` have no sequential
meaning and are left out). -/
structure Cursor where
  smoother : Nat
  matrix : Nat
  aggregates : Nat
  lhs : Nat
  update : Nat
  rhs : Nat
  level : Nat
  deriving DecidableEq, Repr

/-- The cursor, the three hierarchies of vectors and the flag `coarsesolverconverged`. -/
structure State (V : Type) where
  cur : Cursor
  lhs : List V
  upd : List V
  rhs : List V
  conv : Bool

/-- Parts of the multigrid cycle. -/
abbrev MG (V α : Type) := Cmd (State V) α

variable {K V : Type} [Zero V] [Add V] [Sub V] [SMul K V]

/-- `*levelContext.lhs` -/
def getLhs : MG V V := fun s => (Cmd.lift (rd s.lhs s.cur.lhs) : MG V V) s
/-- `*levelContext.update` -/
def getUpd : MG V V := fun s => (Cmd.lift (rd s.upd s.cur.update) : MG V V) s
/-- `*levelContext.rhs` -/
def getRhs : MG V V := fun s => (Cmd.lift (rd s.rhs s.cur.rhs) : MG V V) s
/-- `*levelContext.lhs = v` -/
def setLhs (v : V) : MG V Unit := fun s =>
  match wr s.lhs s.cur.lhs v with
  | .ok l => .ok () { s with lhs := l }
  | .throw e => .throw e s
  | .ub => .ub
/-- `*levelContext.update = v` -/
def setUpd (v : V) : MG V Unit := fun s =>
  match wr s.upd s.cur.update v with
  | .ok l => .ok () { s with upd := l }
  | .throw e => .throw e s
  | .ub => .ub
/-- `*levelContext.rhs = v` -/
def setRhs (v : V) : MG V Unit := fun s =>
  match wr s.rhs s.cur.rhs v with
  | .ok l => .ok () { s with rhs := l }
  | .throw e => .throw e s
  | .ub => .ub

/-- `*levelContext.update += *levelContext.lhs`. dune/istl/paamg/smoother.hh:414, amg.hh:1020. -/
def addLhs : MG V Unit := do
  let v ← getLhs
  let u ← getUpd
  setUpd (u + v)

/-- `levelContext.matrix->applyscaleadd(-1, *levelContext.lhs, *levelContext.rhs)`. dune/istl/paamg/smoother.hh:417. -/
def updateDefect (S : Setup K V) : MG V Unit := do
  let s ← Cmd.get
  let v ← getLhs
  let r ← getRhs
  setRhs (r - S.mat s.cur.matrix v)

/-- The loop body of `presmooth`. dune/istl/paamg/smoother.hh:409-418. -/
def preStep (S : Setup K V) : MG V Unit := do
  setLhs 0
  let s ← Cmd.get
  let v ← getLhs
  let d ← getRhs
  setLhs (S.pre s.cur.smoother v d)
  addLhs
  updateDefect S

/-- The loop body of `postsmooth`. dune/istl/paamg/smoother.hh:431-439. -/
def postStep (S : Setup K V) : MG V Unit := do
  updateDefect S
  setLhs 0
  let s ← Cmd.get
  let v ← getLhs
  let d ← getRhs
  setLhs (S.post s.cur.smoother v d)
  addLhs

/-- Do something a number of times. -/
def times (c : MG V Unit) : Nat → MG V Unit
  | 0 => pure ()
  | k + 1 => do
    c
    times c k

/-- `moveToCoarseLevel`. dune/istl/paamg/amg.hh:934-984. -/
def moveToCoarse (S : Setup K V) : MG V Unit := do
  let fine ← getRhs
  let s ← Cmd.get
  Cmd.modify fun s => { s with cur := { s.cur with rhs := s.cur.rhs + 1 } }
  setRhs (S.restr s.cur.aggregates fine)
  Cmd.modify fun s => { s with cur := { s.cur with lhs := s.cur.lhs + 1, update := s.cur.update + 1, matrix := s.cur.matrix + 1, level := s.cur.level + 1 } }
  Cmd.modify fun s =>
    if s.cur.matrix ≠ S.coarsest then { s with cur := { s.cur with smoother := s.cur.smoother + 1, aggregates := s.cur.aggregates + 1 } }
    else s
  setUpd 0

/-- `moveToFineLevel`. dune/istl/paamg/amg.hh:986-1021. `prolongateVector` first scales the coarse vector by the damping factor
(dune/istl/paamg/transfer.hh:117-118), then adds the prolongation to the fine one. -/
def moveToFine (S : Setup K V) : MG V Unit := do
  Cmd.modify fun s =>
    if s.cur.matrix ≠ S.coarsest then { s with cur := { s.cur with smoother := s.cur.smoother - 1, aggregates := s.cur.aggregates - 1 } }
    else s
  Cmd.modify fun s => { s with cur := { s.cur with level := s.cur.level - 1, matrix := s.cur.matrix - 1, lhs := s.cur.lhs - 1 } }
  setLhs 0
  let c ← getUpd
  setUpd (S.damp • c)
  let c ← getUpd
  let v ← getLhs
  let s ← Cmd.get
  setLhs (v + S.prol s.cur.aggregates c)
  Cmd.modify fun s => { s with cur := { s.cur with update := s.cur.update - 1, rhs := s.cur.rhs - 1 } }
  addLhs

/-- The solve on the coarsest level. dune/istl/paamg/amg.hh:1033-1053. -/
def coarseSolve (S : Setup K V) : MG V Unit := do
  let u ← getUpd
  let d ← getRhs
  let r := S.solve u d
  setUpd r.1
  setRhs r.2.1
  if r.2.2 = false then Cmd.modify fun s => { s with conv := false }

/-- The loop over `gamma`, `k` passes left. dune/istl/paamg/amg.hh:1062-1070. `rec` is the recursive call. -/
def gammaLoop (S : Setup K V) (rec : MG V Unit) : Nat → MG V Unit
  | 0 => pure ()
  | k + 1 => do
    rec
    let s ← Cmd.get
    if s.cur.matrix = S.coarsest then pure ()
    else do
      if 0 < k then updateDefect S
      gammaLoop S rec k

/-- The test for convergence of the coarse solver on the finest level. dune/istl/paamg/amg.hh:1077-1082. -/
def checkCoarse : MG V Unit := do
  let s ← Cmd.get
  if s.cur.matrix = 0 ∧ s.conv = false then Cmd.raise .mathError
  else pure ()

/-- `mgc`. dune/istl/paamg/amg.hh:1030-1087. The first argument bounds the recursion; running out of it would be an infinite
recursion. -/
def mgc (S : Setup K V) : Nat → MG V Unit
  | 0 => Cmd.undef
  | fuel + 1 => do
    let s ← Cmd.get
    if s.cur.matrix = S.coarsest then coarseSolve S
    else do
      times (preStep S) S.preSteps
      moveToCoarse S
      gammaLoop S (mgc S fuel) S.gamma
      moveToFine S
      checkCoarse
      times (postStep S) S.postSteps

/-- `initIteratorsWithFineLevel`. dune/istl/paamg/amg.hh:917-930. -/
def fineCursor : Cursor := ⟨0, 0, 0, 0, 0, 0, 0⟩

/-- `apply(v,d)`, multiplicative case; returns the new `v`. dune/istl/paamg/amg.hh:889-914. -/
def amgApply (S : Setup K V) (v d : V) : MG V V := do
  Cmd.modify fun s => { s with cur := fineCursor }
  setLhs v
  setRhs d
  setUpd 0
  mgc S (S.coarsest + 1)
  getUpd

/-! ### Additive variant -/

/-- Restriction of the defect to all levels. dune/istl/paamg/amg.hh:1098-1102. -/
def addRestrict (S : Setup K V) : Nat → List V → Res (List V)
  | 0, rhs => .ok rhs
  | k + 1, rhs => do
    let l := S.coarsest - (k + 1)
    let f ← rd rhs l
    let rhs ← wr rhs (l + 1) (S.restr l f)
    addRestrict S k rhs

/-- Smoothing on all levels but the coarsest: `lhs = 0; smoother->apply(lhs, rhs)`. dune/istl/paamg/amg.hh:1109-1113. -/
def addSmooth (S : Setup K V) (rhs : List V) : Nat → List V → Res (List V)
  | 0, lhs => .ok lhs
  | k + 1, lhs => do
    let l := S.coarsest - (k + 1)
    let f ← rd rhs l
    let lhs ← wr lhs l (S.pre l 0 f)
    addSmooth S rhs k lhs

/-- Prolongation from the coarsest level upwards. dune/istl/paamg/amg.hh:1127-1134. -/
def addProlong (S : Setup K V) : Nat → List V → Res (List V)
  | 0, lhs => .ok lhs
  | k + 1, lhs => do
    let c ← rd lhs (k + 1)
    let f ← rd lhs k
    let lhs ← wr lhs k (f + S.prol k c)
    addProlong S k lhs

/-- `apply(v,d)` with `additive` set. dune/istl/paamg/amg.hh:893-896, 1089-1135; the coarse solver starts from what the coarsest
`lhs` contains. Returns the three hierarchies' new `lhs`, `rhs` and the result. -/
def additiveApply (S : Setup K V) (lhs rhs : List V) (d : V) : Res (List V × List V × V) := do
  let rhs ← wr rhs 0 d
  let rhs ← addRestrict S S.coarsest rhs
  let lhs ← addSmooth S rhs S.coarsest lhs
  let c ← rd lhs S.coarsest
  let f ← rd rhs S.coarsest
  let r := S.solve c f
  let lhs ← wr lhs S.coarsest r.1
  let rhs ← wr rhs S.coarsest r.2.1
  if r.2.2 = false then .throw .mathError
  else do
    let lhs ← addProlong S S.coarsest lhs
    let v ← rd lhs 0
    .ok (lhs, rhs, v)

/-! ### Two-level method -/

/-- `TwoLevelMethod::apply(v,d)`: the vectors `u`, `v`, `rhs` are the level context of one level; the policy sets the coarse
left hand side to zero (line 204). dune/istl/paamg/twolevelmethod.hh:438-463. -/
def twoLevelApply (S : Setup K V) (v d : V) : MG V V := do
  Cmd.set { cur := fineCursor, lhs := [v], upd := [v], rhs := [d], conv := true }
  times (preStep S) S.preSteps
  let r ← getRhs
  let c := (S.solve 0 (S.restr 0 r)).1
  setLhs 0
  let l ← getLhs
  setLhs (l + S.prol 0 (S.damp • c))
  addLhs
  times (postStep S) S.postSteps
  getUpd

end Amg
end Istl
