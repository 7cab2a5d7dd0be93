import Verif.Basic

/-!
# Iterative solvers: dune/istl/solver.hh, dune/istl/solvers.hh

The models are polymorphic in vectors `X`, scalars `K` (`field_type`) and reals `Rl` (`real_type`) and use only the operations
`+`, `-`, `*`, `/`, scaling and comparison, without any algebraic law: statements about them that assume no law hold for floating
point arithmetic as well. Simd vectors have one lane. Output and timing are dropped.
-/

namespace Istl
namespace Solver

/-- What a solver calls: preconditioner, operator, scalar product, and comparisons of reals.
`prec k b` is the content of `v` after `v = 0; _prec->apply(v,b)` in the call number `k` (a preconditioner may change from call to
call). dune/istl/preconditioner.hh:32-90, dune/istl/operators.hh:67-98, dune/istl/scalarproducts.hh:50-98. -/
structure Env (K Rl X : Type) where
  pre : X → X → X × X
  post : X → X
  /-- `applyscaleadd(-1,x,b)`, the new `b` -/
  subOp : X → X → X
  /-- `apply(x,y)`, the new `y` -/
  op : X → X
  prec : Nat → X → X
  dot : X → X → K
  norm : X → Rl
  lt : Rl → Rl → Bool
  finite : Rl → Bool
  isZero : Rl → Bool
  abs : K → Rl
  ofReal : Rl → K
  sqrt : K → K
  /-- `conjugate` -/
  conj : K → K
  /-- `sqrt` of a real -/
  rsqrt : Rl → Rl
  /-- `1e-30` in the convergence check -/
  tiny : Rl
  /-- `1e-80` in the breakdown checks -/
  eps : Rl
  /-- `1e-15` in the plane rotations -/
  rotEps : Rl

/-- The data of `IterativeSolver::Iteration`; `trace` lists the steps registered so far (model only). `i` counts in the unit of the
solver (BiCGSTAB: half steps). dune/istl/solver.hh:495-502. -/
structure It (Rl : Type) where
  def0 : Rl
  cur : Rl
  i : Nat
  converged : Bool
  trace : List (Nat × Rl)

/-- What `apply` leaves behind: solution, right hand side, iteration data, and the exception if one is thrown. -/
structure Exit (X Rl : Type) where
  x : X
  b : X
  it : It Rl
  exc : Option Exc

variable {K Rl X : Type}

/-- `Iteration(parent,res)`: `_def0 = _def = 0`, `res.converged = false`. dune/istl/solver.hh:416-427, 495. -/
def It.start [Zero Rl] : It Rl := { def0 := 0, cur := 0, i := 0, converged := false, trace := [] }

/-- The test `def < def0*reduction || def < 1e-30`. dune/istl/solver.hh:475. -/
def small [Mul Rl] (E : Env K Rl X) (red d0 d : Rl) : Bool := E.lt d (d0 * red) || E.lt d E.tiny

/-- `Iteration::step(i,def)`; `none`: `SolverAbort` is thrown. dune/istl/solver.hh:453-477. -/
def It.step [Mul Rl] (E : Env K Rl X) (red : Rl) (it : It Rl) (i : Nat) (d : Rl) : Option (It Rl) :=
  if E.finite d then
    let d0 := if i = 0 then d else it.def0
    some { def0 := d0, cur := d, i := i, converged := small E red d0 d, trace := it.trace ++ [(i, d)] }
  else none

/-- The statistics. `conv_rate`, `elapsed` and `condition_estimate` are dropped. dune/istl/solver.hh:48-80. -/
structure Result (Rl : Type) where
  iterations : Nat
  reduction : Rl
  converged : Bool

/-- `Iteration::finalize()`, run by the destructor on every exit. dune/istl/solver.hh:439-442, 480-485. -/
def It.finalize [Mul Rl] [Div Rl] (E : Env K Rl X) (red : Rl) (it : It Rl) : Result Rl :=
  { iterations := it.i, reduction := it.cur / it.def0, converged := small E red it.def0 it.cur }

/-- Same for `Iteration<double>` counting half steps: the count is converted to `int`. dune/istl/solver.hh:482. -/
def It.finalizeHalf [Mul Rl] [Div Rl] (E : Env K Rl X) (red : Rl) (it : It Rl) : Result Rl :=
  { it.finalize E red with iterations := it.i / 2 }

/-- `for ( ; i<=_maxit; i++) { advance; if (iteration.step(i,def)) break; after; }`, with `n` iterations left.
dune/istl/solvers.hh:95-104, 162-177, 306-337, 685-763. -/
def forIt [Mul Rl] {σ : Type} (E : Env K Rl X) (red : Rl) (advance : Nat → σ → σ) (defect : σ → Rl) (after : Nat → σ → σ) :
    Nat → Nat → σ → It Rl → σ × It Rl × Option Exc
  | 0, _, s, it => (s, it, none)
  | n + 1, i, s, it =>
    let s := advance i s
    match it.step E red i (defect s) with
    | none => (s, it, some .solverAbort)
    | some it => if it.converged then (s, it, none) else forIt E red advance defect after n (i + 1) (after i s) it

/-- Common frame: `pre`, defect, step 0, loop, `post`. `maxit` is `max(_maxit,0)`; `meas` measures the initial defect vector.
dune/istl/solvers.hh:75-109, 144-180, 281-340. -/
def frame [Mul Rl] [Zero Rl] {σ : Type} (E : Env K Rl X) (red : Rl) (maxit : Nat) (meas : X → Rl) (advance : Nat → σ → σ)
    (defect : σ → Rl) (after : Nat → σ → σ) (init : X → X → Rl → σ) (getx getb : σ → X) (x b : X) : Exit X Rl :=
  let p := E.pre x b
  let b := E.subOp p.1 p.2
  let d := meas b
  match It.start.step E red 0 d with
  | none => { x := p.1, b := b, it := It.start, exc := some .solverAbort }
  | some it =>
    if it.converged then { x := E.post p.1, b := b, it := it, exc := none }
    else
      let r := forIt E red advance defect after maxit 1 (init p.1 b d) it
      match r.2.2 with
      | some e => { x := getx r.1, b := getb r.1, it := r.2.1, exc := some e }
      | none => { x := E.post (getx r.1), b := getb r.1, it := r.2.1, exc := none }

section Simple
variable [Add X] [SMul K X] [Mul Rl] [Zero Rl]

/-- Loop body of `LoopSolver::apply`: `x += v; b -= A v`. dune/istl/solvers.hh:97-102. -/
def loopAdvance (E : Env K Rl X) (i : Nat) (s : X × X) : X × X :=
  let v := E.prec i s.2
  (s.1 + v, E.subOp v s.2)

/-- `LoopSolver::apply(x,b,res)`. dune/istl/solvers.hh:73-109. -/
def loopApply (E : Env K Rl X) (red : Rl) (maxit : Nat) (x b : X) : Exit X Rl :=
  frame E red maxit E.norm (loopAdvance E) (fun s => E.norm s.2) (fun _ s => s) (fun x b _ => (x, b)) Prod.fst Prod.snd x b

variable [Zero K] [Neg K] [Div K]

/-- State of `GradientSolver::apply` in the loop; `p`, `q` hold the values of the last step. dune/istl/solvers.hh:156-161. -/
structure GradSt (K X Rl : Type) where
  x : X
  b : X
  d : Rl

/-- Loop body of `GradientSolver::apply`. dune/istl/solvers.hh:164-174. -/
def gradAdvance (E : Env K Rl X) (i : Nat) (s : GradSt K X Rl) : GradSt K X Rl :=
  let p := E.prec i s.b
  let q := E.op p
  let alpha := E.dot q p
  let lambda : K := if E.isZero s.d then 0 else E.dot p s.b / alpha
  let b := s.b + (-lambda) • q
  { x := s.x + lambda • p, b := b, d := E.norm b }

/-- `GradientSolver::apply(x,b,res)`. dune/istl/solvers.hh:142-181. -/
def gradApply (E : Env K Rl X) (red : Rl) (maxit : Nat) (x b : X) : Exit X Rl :=
  frame E red maxit E.norm (gradAdvance E) (fun s => s.d) (fun _ s => s) (fun x b d => ({ x := x, b := b, d := d } : GradSt K X Rl))
    (fun s => s.x) (fun s => s.b) x b

/-- State of `CGSolver::apply` in the loop; `lambdas`, `betas` are the vectors kept for the condition estimate.
dune/istl/solvers.hh:292-303. -/
structure CgSt (K X Rl : Type) where
  x : X
  b : X
  p : X
  rholast : K
  d : Rl
  lambdas : List K
  betas : List K

/-- First part of the loop body of `CGSolver::apply`: minimise along `p`. dune/istl/solvers.hh:309-322. -/
def cgAdvance (E : Env K Rl X) (_i : Nat) (s : CgSt K X Rl) : CgSt K X Rl :=
  let q := E.op s.p
  let alpha := E.dot s.p q
  let lambda : K := if E.isZero s.d then 0 else s.rholast / alpha
  let b := s.b + (-lambda) • q
  { s with x := s.x + lambda • s.p, b := b, d := E.norm b, lambdas := s.lambdas ++ [lambda] }

/-- Second part: new search direction `p = beta p + q`. dune/istl/solvers.hh:326-336. -/
def cgAfter (E : Env K Rl X) (i : Nat) (s : CgSt K X Rl) : CgSt K X Rl :=
  let q := E.prec i s.b
  let rho := E.dot q s.b
  let beta : K := if E.isZero s.d then 0 else rho / s.rholast
  { s with p := beta • s.p + q, rholast := rho, betas := s.betas ++ [beta] }

/-- Initial search direction. dune/istl/solvers.hh:300-303. -/
def cgInit (E : Env K Rl X) (x b : X) (d : Rl) : CgSt K X Rl :=
  let p := E.prec 0 b
  { x := x, b := b, p := p, rholast := E.dot p b, d := d, lambdas := [], betas := [] }

/-- `CGSolver::apply(x,b,res)` without the eigenvalue computation. dune/istl/solvers.hh:279-340. -/
def cgApply (E : Env K Rl X) (red : Rl) (maxit : Nat) (x b : X) : Exit X Rl :=
  frame E red maxit E.norm (cgAdvance E) (fun s => s.d) (cgAfter E) (cgInit E) (fun s => s.x) (fun s => s.b) x b

variable [One K] [Mul K]

/-- State of `BiCGSTABSolver::apply` at the head of the loop. dune/istl/solvers.hh:444-480. -/
structure BiSt (K X Rl : Type) where
  x : X
  r : X
  p : X
  v : X
  rt : X
  rho : K
  alpha : K
  omega : K
  norm : Rl

/-- The new search direction. dune/istl/solvers.hh:515-532. -/
def biDir (E : Env K Rl X) (k : Nat) (s : BiSt K X Rl) (rhoNew : K) : X :=
  if k = 0 then s.r
  else
    let beta : K := if E.isZero s.norm then 0 else (rhoNew / s.rho) * (s.alpha / s.omega)
    beta • (s.p + (-s.omega) • s.v) + s.r

/-- First half of the loop body (half step number `2 k + 1`) up to the stopping test; `none`: breakdown, `SolverAbort`.
dune/istl/solvers.hh:492-553. -/
def biFirst (E : Env K Rl X) (k : Nat) (s : BiSt K X Rl) : Option (BiSt K X Rl × K) :=
  let rhoNew := E.dot s.rt s.r
  if !E.lt E.eps (E.abs s.rho) then none
  else if !E.lt E.eps (E.abs s.omega) then none
  else
    let p := biDir E k s rhoNew
    let y := E.prec (2 * k) p
    let v := E.op y
    let h := E.dot s.rt v
    if E.lt (E.abs h) E.eps then none
    else
      let alpha : K := if E.isZero s.norm then 0 else rhoNew / h
      let r := s.r + (-alpha) • v
      some ({ s with x := s.x + alpha • y, r := r, p := p, v := v, alpha := alpha, norm := E.norm r }, rhoNew)

/-- Second half (half step number `2 k + 2`). dune/istl/solvers.hh:560-590. -/
def biSecond (E : Env K Rl X) (k : Nat) (s : BiSt K X Rl) (rhoNew : K) : BiSt K X Rl :=
  let y := E.prec (2 * k + 1) s.r
  let t := E.op y
  let h := E.dot t t
  let omega : K := if E.isZero s.norm then 0 else E.dot t s.r / h
  let r := s.r + (-omega) • t
  { s with x := s.x + omega • y, r := r, omega := omega, rho := rhoNew, norm := E.norm r }

/-- `for (it = 0.5; it < _maxit; it+=.5)` with `n` passes left, `k` passes done; `it` counts half steps.
dune/istl/solvers.hh:486-595. -/
def biLoop (E : Env K Rl X) (red : Rl) : Nat → Nat → BiSt K X Rl → It Rl → BiSt K X Rl × It Rl × Option Exc
  | 0, _, s, it => (s, it, none)
  | n + 1, k, s, it =>
    match biFirst E k s with
    | none => (s, it, some .solverAbort)
    | some (s, rhoNew) =>
      match it.step E red (2 * k + 1) s.norm with
      | none => (s, it, some .solverAbort)
      | some it =>
        if it.converged then (s, it, none)
        else
          let s := biSecond E k s rhoNew
          match it.step E red (2 * k + 2) s.norm with
          | none => (s, it, some .solverAbort)
          | some it => if it.converged then (s, it, none) else biLoop E red n (k + 1) s it

/-- `BiCGSTABSolver::apply(x,b,res)`. dune/istl/solvers.hh:439-598. -/
def biApply [Zero X] (E : Env K Rl X) (red : Rl) (maxit : Nat) (x b : X) : Exit X Rl :=
  let p := E.pre x b
  let r := E.subOp p.1 p.2
  let d := E.norm r
  match It.start.step E red 0 d with
  | none => { x := p.1, b := r, it := It.start, exc := some .solverAbort }
  | some it =>
    if it.converged then { x := E.post p.1, b := r, it := it, exc := none }
    else
      let s := biLoop E red maxit 0 { x := p.1, r := r, p := 0, v := 0, rt := r, rho := 1, alpha := 1, omega := 1, norm := d } it
      match s.2.2 with
      | some e => { x := s.1.x, b := s.1.r, it := s.2.1, exc := some e }
      | none => { x := E.post s.1.x, b := s.1.r, it := s.2.1, exc := none }

end Simple
end Solver
end Istl
