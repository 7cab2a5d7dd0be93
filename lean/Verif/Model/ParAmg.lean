import Verif.Model.AmgCycle
import Verif.Model.AmgTransfer
import Verif.Model.Schwarz
import Verif.Model.Redistribute

/-!
# The multigrid cycle on several processes: dune/istl/paamg/amg.hh, dune/istl/paamg/transfer.hh, dune/istl/paamg/smoother.hh

`AMG` with `OwnerOverlapCopyCommunication` and `OverlappingSchwarzOperator`. All processes execute the same program; their vectors
together are one distributed vector (a function of process and local index), so the state and the cursor of `Model/AmgCycle` are used
with distributed vectors. A process that has no unknowns after a redistribution (`processNextLevel==false`) takes no part in the coarser
levels; here its index sets there are empty and what it does has no effect. `conv` is the conjunction of the flags
`coarsesolverconverged` of all processes: between two reductions a process only ever clears its own flag. The messages of a
communication arrive in any order, which may depend on the level.
-/

namespace Istl
namespace Amg
open Par

/-- A distributed vector. -/
abbrev DVec (V : Type) := Nat → Nat → V

/-- What the parallel cycle uses, on all processes together: `defect l v r` is `r` after `matrix->applyscaleadd(-1,v,r)`, `proj l` is
`pinfo->project`, `pre`, `post` are the smoothers, `restr l` the restriction with the redistribution before it, `prol l v c` what the
prolongation of the (damped) `c` and the redistribution after it make of the left hand side `v`, `solve` the coarse solver with the
communication around it, `copyAll` is `copyOwnerToAll` on the finest level. dune/istl/paamg/amg.hh:340-378. -/
structure ParSetup (K X : Type) where
  coarsest : Nat
  defect : Nat → X → X → X
  proj : Nat → X → X
  pre : Nat → X → X → X
  post : Nat → X → X → X
  restr : Nat → X → X
  prol : Nat → X → X → X
  solve : X → X → X × X × Bool
  copyAll : X → X
  damp : K
  preSteps : Nat
  postSteps : Nat
  gamma : Nat

section Program
variable {K X : Type} [Zero X] [Add X] [Sub X] [SMul K X]

/-- `matrix->applyscaleadd(-1, *lhs, *rhs)`. dune/istl/paamg/smoother.hh:417, 432; amg.hh:1068. -/
def pDefect (T : ParSetup K X) : MG X Unit := do
  let s ← Cmd.get
  let v ← getLhs
  let r ← getRhs
  setRhs (T.defect s.cur.matrix v r)

/-- `pinfo->project(*rhs)`; `pinfo` moves with the matrix. dune/istl/paamg/smoother.hh:418, 435. -/
def pProject (T : ParSetup K X) : MG X Unit := do
  let s ← Cmd.get
  let r ← getRhs
  setRhs (T.proj s.cur.matrix r)

/-- The loop body of `presmooth`. dune/istl/paamg/smoother.hh:409-418. -/
def pPreStep (T : ParSetup K X) : MG X Unit := do
  setLhs 0
  let s ← Cmd.get
  let v ← getLhs
  let d ← getRhs
  setLhs (T.pre s.cur.smoother v d)
  addLhs
  pDefect T
  pProject T

/-- The loop body of `postsmooth`. dune/istl/paamg/smoother.hh:431-439. -/
def pPostStep (T : ParSetup K X) : MG X Unit := do
  pDefect T
  setLhs 0
  pProject T
  let s ← Cmd.get
  let v ← getLhs
  let d ← getRhs
  setLhs (T.post s.cur.smoother v d)
  addLhs

/-- `moveToCoarseLevel`. dune/istl/paamg/amg.hh:934-984. -/
def pMoveToCoarse (T : ParSetup K X) : MG X Unit := do
  let fine ← getRhs
  let s ← Cmd.get
  Cmd.modify fun s => { s with cur := { s.cur with rhs := s.cur.rhs + 1 } }
  setRhs (T.restr s.cur.aggregates fine)
  Cmd.modify fun s => { s with cur := { s.cur with lhs := s.cur.lhs + 1, update := s.cur.update + 1, matrix := s.cur.matrix + 1, level := s.cur.level + 1 } }
  Cmd.modify fun s =>
    if s.cur.matrix ≠ T.coarsest then { s with cur := { s.cur with smoother := s.cur.smoother + 1, aggregates := s.cur.aggregates + 1 } }
    else s
  setUpd 0

/-- `moveToFineLevel`. dune/istl/paamg/amg.hh:986-1021; scaling of the coarse vector: transfer.hh:117-118. -/
def pMoveToFine (T : ParSetup K X) : MG X Unit := do
  Cmd.modify fun s =>
    if s.cur.matrix ≠ T.coarsest then { s with cur := { s.cur with smoother := s.cur.smoother - 1, aggregates := s.cur.aggregates - 1 } }
    else s
  Cmd.modify fun s => { s with cur := { s.cur with level := s.cur.level - 1, matrix := s.cur.matrix - 1, lhs := s.cur.lhs - 1 } }
  let c ← getUpd
  setUpd (T.damp • c)
  let c ← getUpd
  let v ← getLhs
  let s ← Cmd.get
  setLhs (T.prol s.cur.aggregates v c)
  Cmd.modify fun s => { s with cur := { s.cur with update := s.cur.update - 1, rhs := s.cur.rhs - 1 } }
  addLhs

/-- The solve on the coarsest level. dune/istl/paamg/amg.hh:1031-1053. -/
def pCoarseSolve (T : ParSetup K X) : MG X Unit := do
  let u ← getUpd
  let d ← getRhs
  let r := T.solve u d
  setUpd r.1
  setRhs r.2.1
  if r.2.2 = false then Cmd.modify fun s => { s with conv := false }

/-- The loop over `gamma`, `k` passes left; no projection here. dune/istl/paamg/amg.hh:1062-1070. `rec` is the recursive call. -/
def pGammaLoop (T : ParSetup K X) (rec : MG X Unit) : Nat → MG X Unit
  | 0 => pure ()
  | k + 1 => do
    rec
    let s ← Cmd.get
    if s.cur.matrix = T.coarsest then pure ()
    else do
      if 0 < k then pDefect T
      pGammaLoop T rec k

/-- `mgc`; the test on the finest level is made after the product of the flags of all processes. The first argument bounds the recursion.
dune/istl/paamg/amg.hh:1030-1087. -/
def pMgc (T : ParSetup K X) : Nat → MG X Unit
  | 0 => Cmd.undef
  | fuel + 1 => do
    let s ← Cmd.get
    if s.cur.matrix = T.coarsest then pCoarseSolve T
    else do
      times (pPreStep T) T.preSteps
      pMoveToCoarse T
      pGammaLoop T (pMgc T fuel) T.gamma
      pMoveToFine T
      checkCoarse
      times (pPostStep T) T.postSteps

/-- The communication at the end of `apply`. dune/istl/paamg/amg.hh:909-910. -/
def pFinish (T : ParSetup K X) : MG X Unit :=
  if T.postSteps = 0 ∨ T.coarsest = 0 then do
    let u ← getUpd
    setUpd (T.copyAll u)
  else pure ()

/-- `apply(v,d)`, multiplicative case; returns the new `v`. dune/istl/paamg/amg.hh:889-914. -/
def pApply (T : ParSetup K X) (v d : X) : MG X X := do
  Cmd.modify fun s => { s with cur := fineCursor }
  setLhs v
  setRhs d
  setUpd 0
  pMgc T (T.coarsest + 1)
  pFinish T
  getUpd

end Program

/-! ### The parts, for an overlapping decomposition -/

section Parts
variable {B V K : Type}

/-- `Transfer::restrictVector`, sequential: `coarse = 0`, then every vertex is added to its aggregate; vectors as functions, `n` fine
vertices, all of them aggregated or isolated. dune/istl/paamg/transfer.hh:134-151. -/
def restrictOn [Zero V] [Add V] (agg : Nat → Agg) (n : Nat) (fine : Nat → V) : Nat → V :=
  (List.range n).foldl (fun c i => match agg i with
    | .id a => upd c a (c a + fine i)
    | _ => c) fun _ => 0

/-- `Transfer::prolongateVector`, sequential, after the damping. dune/istl/paamg/transfer.hh:120-128. -/
def prolongOn [Add V] (agg : Nat → Agg) (n : Nat) (coarse fine : Nat → V) : Nat → V :=
  (List.range n).foldl (fun f i => match agg i with
    | .id a => upd f i (f i + coarse a)
    | _ => f) fine

/-- One level on all processes: index sets, numbers of unknowns, matrices, the sequential preconditioners inside the smoothers, the
redistributed index sets and their sizes if data is redistributed before coarsening, the aggregates maps (of the redistributed
vertices in this case), the orders of arrival, and the previous contents of the redistributed right hand side.
dune/istl/paamg/amg.hh:262-305. -/
structure ParLevel (B V : Type) where
  pis : Nat → PIS
  sz : Nat → Nat
  mat : Nat → SpMat B
  pre : Nat → (Nat → V) → (Nat → V) → (Nat → V)
  post : Nat → (Nat → V) → (Nat → V) → (Nat → V)
  redist : Option ((Nat → PIS) × (Nat → Nat))
  agg : Nat → Nat → Agg
  order : Nat → List Nat
  orderR : Nat → List Nat
  orderB : Nat → List Nat
  stale : Nat → Nat → V

/-- The index sets the aggregates map is for. dune/istl/paamg/amg.hh:940-968. -/
def ParLevel.fine (L : ParLevel B V) : Nat → PIS := match L.redist with
  | none => L.pis
  | some R => R.1
/-- The number of unknowns in them. dune/istl/paamg/amg.hh:940-968. -/
def ParLevel.fineSz (L : ParLevel B V) : Nat → Nat := match L.redist with
  | none => L.sz
  | some R => R.2

/-- Restriction of the right hand side: redistribute if necessary, restrict, project. dune/istl/paamg/amg.hh:940-968, transfer.hh:194-204. -/
def parRestrict [Zero V] [Add V] (L : ParLevel B V) (coarse : Nat → PIS) (y : DVec V) : DVec V :=
  let r : DVec V := match L.redist with
    | none => y
    | some R => fun q => redistributeOn L.pis R.1 y (L.stale q) q (L.orderR q)
  fun q => project (coarse q) (restrictOn (L.agg q) (L.fineSz q) (r q))

/-- Prolongation: without redistribution into `*lhs=0`; otherwise into the redistributed vector, which is then sent back into `lhs`, and
the owners tell the others. dune/istl/paamg/amg.hh:1006-1021, transfer.hh:158-193. -/
def parProlong [Zero V] [Add V] (L : ParLevel B V) (lhs c : DVec V) : DVec V :=
  match L.redist with
  | none => fun q => prolongOn (L.agg q) (L.sz q) (c q) fun _ => 0
  | some R =>
    let f : DVec V := fun q => prolongOn (L.agg q) (R.2 q) (c q) fun _ => 0
    let b : DVec V := fun p => redistributeBackwardOn L.pis R.1 f (lhs p) p (L.orderB p)
    fun p => copyOwnerToAll L.pis b b p (L.order p)

/-- The coarse solve without redistribution: the owners tell the others the right hand side, then the solver is called.
dune/istl/paamg/amg.hh:1047-1050. -/
def parCoarse (L : ParLevel B V) (solver : DVec V → DVec V → DVec V × DVec V × Bool) (u r : DVec V) : DVec V × DVec V × Bool :=
  solver u fun q => copyOwnerToAll L.pis r r q (L.order q)

/-- The coarse solve with redistribution; `old` is what is in `update.getRedistributed()` before the call. The right hand side of the level
keeps its value. dune/istl/paamg/amg.hh:1034-1046. -/
def parCoarseRedist (L : ParLevel B V) (R : Nat → PIS) (orderN : Nat → List Nat) (old : DVec V)
    (solver : DVec V → DVec V → DVec V × DVec V × Bool) (u r : DVec V) : DVec V × DVec V × Bool :=
  let r1 : DVec V := fun q => redistributeOn L.pis R r (L.stale q) q (L.orderR q)
  let r2 : DVec V := fun q => copyOwnerToAll R r1 r1 q (orderN q)
  let x := solver old r2
  let u1 : DVec V := fun p => redistributeBackwardOn L.pis R x.1 (u p) p (L.orderB p)
  (fun p => copyOwnerToAll L.pis u1 u1 p (L.order p), r, x.2.2)

/-- `AMG` on an overlapping decomposition: operator `OverlappingSchwarzOperator`, smoothers `BlockPreconditioner`.
dune/istl/paamg/amg.hh:340-378. -/
def overlapAmg [Ring K] [AddCommGroup B] [AddCommGroup V] [Module K V] (β : BlockAct B V V) (L : Nat → ParLevel B V) (coarsest : Nat)
    (solve : DVec V → DVec V → DVec V × DVec V × Bool) (damp : K) (preSteps postSteps gamma : Nat) : ParSetup K (DVec V) where
  coarsest := coarsest
  defect l v r := fun p => ovlpScaleAddOn β ((L l).mat p) ((L l).pis p) (-1 : K) (v p) (r p)
  proj l r := fun p => project ((L l).pis p) (r p)
  pre l := blockPrecApply (L l).pre (L l).pis (L l).order
  post l := blockPrecApply (L l).post (L l).pis (L l).order
  restr l := parRestrict (L l) (L (l + 1)).pis
  prol l := parProlong (L l)
  solve := solve
  copyAll u := fun q => copyOwnerToAll (L 0).pis u u q ((L 0).order q)
  damp := damp
  preSteps := preSteps
  postSteps := postSteps
  gamma := gamma

end Parts

end Amg
end Istl
