import Verif.Model.SpMat

/-!
# Iterative eigenvalue algorithms

`PowerIteration_Algorithms` and the two operator classes it is built from, dune/istl/eigenvalue/poweriteration.hh.
Everything the class needs from the scalar and vector types is a field of `PEnv`, so the same program runs on exact
real vectors and on numbers with NaN. Output (`verbosity_level_`) is not modelled.
-/

namespace Istl

/-- Operations of `BlockVector`, of `m_` and of the scalar type used by dune/istl/eigenvalue/poweriteration.hh:260-876:
`mv x` is `m_.mv(x,·)`, `smul a x` is `x *= a`, `axpy a x y` is `y.axpy(a,x)`, `dot` is `x*y`, `norm` is `two_norm`,
`gt`, `ge`, `eq` are `>`, `>=`, `==` on scalars, `maxv` is `std::numeric_limits<Real>::max()`. -/
structure PEnv (K X : Type) where
  mv : X → X
  smul : K → X → X
  axpy : K → X → X → X
  dot : X → X → K
  norm : X → K
  gt : K → K → Bool
  ge : K → K → Bool
  eq : K → K → Bool
  abs : K → K
  sqrt : K → K
  maxv : K

/-- `FieldMatrix<K,b,b>`, entries by row and column. -/
abbrev PBlock (K : Type) := Nat → Nat → K

/-- Mutable members: `mu_`, `itMatrix_` (null before the first `getIterationMatrix()`), `nIterations_`.
dune/istl/eigenvalue/poweriteration.hh:1025, 1034, 1039. -/
structure PObj (K : Type) where
  mu : K
  itMat : Option (SpMat (PBlock K))
  nIt : Nat

/-- Locals and reference parameters of the algorithms together with the object: `x`, `y`, `lambda`, `r_norm`, `doRQI`,
`extrnl`; `asserted` becomes false when the `assert` of dune/istl/eigenvalue/poweriteration.hh:866 fails. -/
structure PState (K X : Type) where
  x : X
  y : X
  lam : K
  r : K
  doRQI : Bool
  extrnl : Bool
  asserted : Bool
  obj : PObj K

section Operators
variable {K X : Type} [Mul K] [One K]

/-- `ScalingLinearOperator::apply`, dune/istl/eigenvalue/poweriteration.hh:59-63. -/
def scalingApply (env : PEnv K X) (imm mu : K) (x : X) : X := env.smul (imm * mu) x

/-- `ScalingLinearOperator::applyscaleadd`, dune/istl/eigenvalue/poweriteration.hh:65-70. -/
def scalingApplyScaleAdd (env : PEnv K X) (imm mu alpha : K) (x y : X) : X :=
  let temp := env.smul (imm * mu) x
  env.axpy alpha temp y

/-- `LinearOperatorSum::apply`, dune/istl/eigenvalue/poweriteration.hh:111-115; `op1` is `op1_.apply`, `op2` is
`op2_.applyscaleadd`. -/
def sumApply (op1 : X → X) (op2 : K → X → X → X) (x : X) : X :=
  let y := op1 x
  op2 1 x y

/-- `LinearOperatorSum::applyscaleadd`, dune/istl/eigenvalue/poweriteration.hh:117-124. -/
def sumApplyScaleAdd (env : PEnv K X) (op1 : X → X) (op2 : K → X → X → X) (alpha : K) (x y : X) : X :=
  let temp := op1 x
  let temp := op2 1 x temp
  env.axpy alpha temp y

/-- `getIterationOperator().apply(x,·)`: the sum of the matrix and of the scaling by `-1.0 * mu_`, `mu_` read at the
time of the call. dune/istl/eigenvalue/poweriteration.hh:212-214, 925-929. -/
def itApply [Neg K] (env : PEnv K X) (o : PObj K) (x : X) : X :=
  sumApply env.mv (scalingApplyScaleAdd env (-1) o.mu) x

/-- `getIterationOperator().applyscaleadd(alpha,x,y)`. dune/istl/eigenvalue/poweriteration.hh:212-214, 925-929. -/
def itApplyScaleAdd [Neg K] (env : PEnv K X) (o : PObj K) (alpha : K) (x y : X) : X :=
  sumApplyScaleAdd env env.mv (scalingApplyScaleAdd env (-1) o.mu) alpha x y

end Operators

section Shift
variable {K : Type} [Sub K]

/-- Constructor: `mu_(0.0)`, `itMatrix_` null, `nIterations_(0)`; throws if `M()*rows != N()*cols`.
dune/istl/eigenvalue/poweriteration.hh:206-235. -/
def powCtor [Zero K] (b : Nat) (m : SpMat (PBlock K)) : Res (PObj K) :=
  if m.m * b ≠ m.n * b then .throw .istlError else .ok ⟨0, none, 0⟩

/-- `getIterationMatrix()`: copy of `m_` on first use. dune/istl/eigenvalue/poweriteration.hh:945-953. -/
def getIterationMatrix (m : SpMat (PBlock K)) (o : PObj K) : PObj K × SpMat (PBlock K) :=
  match o.itMat with
  | some C => (o, C)
  | none => ({ o with itMat := some m }, m)

/-- `getIterationCount()`. dune/istl/eigenvalue/poweriteration.hh:959-965. -/
def getIterationCount (o : PObj K) : Res Nat := if o.nIt = 0 then .throw .istlError else .ok o.nIt

/-- One pass of the diagonal loop of `updateShiftMu`: `entry = m_entry - mu_`.
dune/istl/eigenvalue/poweriteration.hh:1001-1008. -/
def shiftEntry (m : SpMat (PBlock K)) (b : Nat) (mu : K) (i : Nat) (C : SpMat (PBlock K)) : Res (SpMat (PBlock K)) := do
  let mb ← (m.row (i / b)).get (i / b)
  let r ← (C.row (i / b)).modify (i / b)
    (fun e => fun k l => if k = i % b ∧ l = i % b then mb (i % b) (i % b) - mu else e k l)
  .ok { C with row := upd C.row (i / b) r }

/-- The diagonal loop; an exception leaves the matrix as it is. dune/istl/eigenvalue/poweriteration.hh:998-1009. -/
def shiftLoop (m : SpMat (PBlock K)) (b : Nat) (mu : K) : List Nat → SpMat (PBlock K) → SpMat (PBlock K) × Res Unit
  | [], C => (C, .ok ())
  | i :: is, C =>
    match shiftEntry m b mu i C with
    | .ok C' => shiftLoop m b mu is C'
    | .throw e => (C, .throw e)
    | .ub => (C, .ub)

/-- `updateShiftMu(mu,solver)`. dune/istl/eigenvalue/poweriteration.hh:982-1014. The notification of the solver
(line 1011) is not an action here: the solver of `solveWith` always reads the current object. -/
def updateShiftMu {X : Type} (env : PEnv K X) (m : SpMat (PBlock K)) (b : Nat) (mu : K) (o : PObj K) :
    PObj K × Res Unit :=
  if env.eq mu o.mu then (o, .ok ())
  else
    match o.itMat with
    | none => ({ o with mu := mu }, .ok ())
    | some C =>
      let p := shiftLoop m b mu (List.range (C.m * b)) C
      ({ o with mu := mu, itMat := some p.1 }, p.2)

end Shift

section Algorithms
variable {K X : Type} [Zero K] [One K] [Neg K] [Add K] [Sub K] [Mul K] [Div K]

/-- `++nIterations_`. -/
def PState.bump (s : PState K X) : PState K X := { s with obj := { s.obj with nIt := s.obj.nIt + 1 } }

/-- The loop common to all algorithms: `while (r_norm > epsilon) { if (++nIterations_ > nIterationsMax_) throw; step }`,
dune/istl/eigenvalue/poweriteration.hh:278-286, 428-437, 556-563, 729-736. The first argument is the number of passes
still allowed, `nIterationsMax_ - nIterations_`. Simplification: `nIterationsMax_` is less than the largest
`unsigned int` (for that value the counter wraps and the loop has no bound). -/
def powLoop (env : PEnv K X) (eps : K) (step : PState K X → PState K X × Res Unit) :
    Nat → PState K X → PState K X × Res Unit
  | 0, s => if env.gt s.r eps then (s.bump, .throw .istlError) else (s, .ok ())
  | fuel + 1, s =>
    if env.gt s.r eps then
      match step s.bump with
      | (s', .ok ()) => powLoop env eps step fuel s'
      | (s', .throw e) => (s', .throw e)
      | (s', .ub) => (s', .ub)
    else (s, .ok ())

/-- Start of every algorithm: `y(x)`, `x *= 1/x.two_norm()`, `r_norm = max`, `nIterations_ = 0`,
dune/istl/eigenvalue/poweriteration.hh:270-277, 420-427, 547-555, 716-728. -/
def powStart (env : PEnv K X) (o : PObj K) (x : X) (lam : K) : PState K X :=
  { x := env.smul (1 / env.norm x) x, y := x, lam := lam, r := env.maxv, doRQI := false, extrnl := true,
    asserted := true, obj := { o with nIt := 0 } }

/-- Body of the power iteration loop. dune/istl/eigenvalue/poweriteration.hh:287-299. -/
def powStep (env : PEnv K X) (s : PState K X) : PState K X × Res Unit :=
  let x := env.smul (1 / env.norm s.y) s.y
  let y := env.mv x
  let lam := env.dot x y
  let temp := env.axpy (-lam) x y
  ({ s with x := x, y := y, lam := lam, r := env.norm temp }, .ok ())

/-- `applyPowerIteration(epsilon,x,lambda)`. dune/istl/eigenvalue/poweriteration.hh:260-324. -/
def applyPowerIteration (env : PEnv K X) (maxIt : Nat) (eps : K) (o : PObj K) (x : X) (lam : K) :
    PState K X × Res Unit :=
  let s := powStart env o x lam
  powLoop env eps (powStep env) maxIt { s with y := env.mv s.x }

/-- `updateShiftMu(mu,solver)` on the object inside an algorithm's state, then `solver.apply(y,temp,stat)` with
`temp = x`. `sol o y x` is the vector the solver leaves in `y`; it may depend on the object, through
`getIterationOperator()` or `getIterationMatrix()`. dune/istl/eigenvalue/poweriteration.hh:442-443, 567-573, 747-752.
The right-hand side `temp` left by the solver is overwritten before it is read again. -/
def solveWith (sol : PObj K → X → X → Res X) (s : PState K X) : PState K X × Res Unit :=
  match sol s.obj s.y s.x with
  | .ok y => ({ s with y := y }, .ok ())
  | .throw e => (s, .throw e)
  | .ub => (s, .ub)

/-- `lambda` and `r_norm` of the branch `avoidLinSolverCrime`: dune/istl/eigenvalue/poweriteration.hh:450-458, 581-589. -/
def crimeFree (env : PEnv K X) (s : PState K X) : K × K :=
  let yn := env.norm s.y
  let temp := env.mv s.y
  let lam := env.dot s.y temp / (yn * yn)
  let temp := env.axpy (-lam) s.y temp
  (lam, env.norm temp / yn)

/-- `lambda` and `r_norm` of the other branch of the inverse iteration:
dune/istl/eigenvalue/poweriteration.hh:462-469. -/
def invCrime (env : PEnv K X) (gamma : K) (s : PState K X) : K × K :=
  let yn := env.norm s.y
  let lam := gamma + env.dot s.y s.x / (yn * yn)
  let temp := env.axpy (gamma - lam) s.y s.x
  (lam, env.norm temp / yn)

/-- Update of `lambda`, `r_norm` and `x = y; x *= 1/y_norm`: dune/istl/eigenvalue/poweriteration.hh:474-475, 606-607. -/
def accept (env : PEnv K X) (p : K × K) (s : PState K X) : PState K X :=
  { s with lam := p.1, r := p.2, x := env.smul (1 / env.norm s.y) s.y }

/-- Continue after a sub-step that may have thrown. -/
def andThen (p : PState K X × Res Unit) (f : PState K X → PState K X × Res Unit) : PState K X × Res Unit :=
  match p with
  | (s, .ok ()) => f s
  | (s, .throw e) => (s, .throw e)
  | (s, .ub) => (s, .ub)

/-- Body of the inverse iteration loop. dune/istl/eigenvalue/poweriteration.hh:438-475. -/
def invStep (env : PEnv K X) (avoid : Bool) (gamma : K) (sol : PObj K → X → X → Res X) (s : PState K X) :
    PState K X × Res Unit :=
  andThen (solveWith sol s) (fun s =>
    (accept env (if avoid then crimeFree env s else invCrime env gamma s) s, .ok ()))

/-- `updateShiftMu` on the object inside an algorithm's state. -/
def withShift (env : PEnv K X) (m : SpMat (PBlock K)) (b : Nat) (mu : K) (s : PState K X) : PState K X × Res Unit :=
  let p := updateShiftMu env m b mu s.obj
  ({ s with obj := p.1 }, p.2)

/-- `applyInverseIteration<Solver,avoid>(gamma,epsilon,solver,x,lambda)`.
dune/istl/eigenvalue/poweriteration.hh:394-499. `updateShiftMu` runs before `x` is normalised. -/
def applyInverseIterationShift (env : PEnv K X) (m : SpMat (PBlock K)) (b maxIt : Nat) (avoid : Bool) (gamma eps : K)
    (sol : PObj K → X → X → Res X) (o : PObj K) (x : X) (lam : K) : PState K X × Res Unit :=
  match updateShiftMu env m b gamma o with
  | (o, .ok ()) => powLoop env eps (invStep env avoid gamma sol) maxIt (powStart env o x lam)
  | (o, e) => ({ powStart env o x lam with x := x, obj := o }, e)

/-- `applyInverseIteration<Solver,avoid>(epsilon,solver,x,lambda)`: calls the shifted version with `gamma = 0` and
without its template arguments, so `avoid` is not passed on. dune/istl/eigenvalue/poweriteration.hh:353-361. -/
def applyInverseIteration (env : PEnv K X) (m : SpMat (PBlock K)) (b maxIt : Nat) (_avoid : Bool) (eps : K)
    (sol : PObj K → X → X → Res X) (o : PObj K) (x : X) (lam : K) : PState K X × Res Unit :=
  applyInverseIterationShift env m b maxIt false 0 eps sol o x lam

/-- `lambda` and `r_norm` of the efficient branch of the Rayleigh quotient iteration:
dune/istl/eigenvalue/poweriteration.hh:593-601. -/
def rqiCrime (env : PEnv K X) (s : PState K X) : K × K :=
  let yn := env.norm s.y
  let upd := env.dot s.y s.x / (yn * yn)
  let temp := env.axpy (-upd) s.y s.x
  (s.lam + upd, env.norm temp / yn)

/-- Body of the Rayleigh quotient loop. dune/istl/eigenvalue/poweriteration.hh:565-607. -/
def rqiStep (env : PEnv K X) (m : SpMat (PBlock K)) (b : Nat) (avoid : Bool) (sol : PObj K → X → X → Res X)
    (s : PState K X) : PState K X × Res Unit :=
  andThen (withShift env m b s.lam s) (fun s => andThen (solveWith sol s) (fun s =>
    (accept env (if avoid then crimeFree env s else rqiCrime env s) s, .ok ())))

/-- `applyRayleighQuotientIteration<Solver,avoid>(epsilon,solver,x,lambda)`.
dune/istl/eigenvalue/poweriteration.hh:531-631. -/
def applyRayleighQuotientIteration (env : PEnv K X) (m : SpMat (PBlock K)) (b maxIt : Nat) (avoid : Bool) (eps : K)
    (sol : PObj K → X → X → Res X) (o : PObj K) (x : X) (lam : K) : PState K X × Res Unit :=
  powLoop env eps (rqiStep env m b avoid sol) maxIt (powStart env o x lam)

/-- `mu_s`, `q_norm`, `r_norm` of TLIME with `avoidLinSolverCrime`.
dune/istl/eigenvalue/poweriteration.hh:762-791. -/
def tlimeCrimeFree (env : PEnv K X) (gamma : K) (s : PState K X) : K × K × K :=
  let omega := 1 / env.norm s.y
  let temp := env.mv s.y
  let mus := env.dot s.y temp * (omega * omega)
  let temp := env.axpy (-gamma) s.y temp
  let q := env.norm temp * omega
  let r := q * q - (gamma - mus) * (gamma - mus)
  if env.ge r 0 then (mus, q, env.sqrt r)
  else
    let temp := env.axpy (gamma - mus) s.y temp
    (mus, q, env.norm temp * omega)

/-- `mu_s`, `q_norm`, `r_norm` of TLIME with linear solver crime admitted, inverse iteration case.
dune/istl/eigenvalue/poweriteration.hh:795-799, 808-813, 826-831. -/
def tlimeII (env : PEnv K X) (gamma : K) (s : PState K X) : K × K × K :=
  let omega := 1 / env.norm s.y
  let mus := gamma + env.dot s.y s.x * (omega * omega)
  let temp := env.axpy (gamma - mus) s.y s.x
  (mus, omega, env.norm temp * omega)

/-- The same in the Rayleigh quotient case. dune/istl/eigenvalue/poweriteration.hh:800-805, 814-820, 832-837. -/
def tlimeRQI (env : PEnv K X) (gamma : K) (s : PState K X) : K × K × K :=
  let omega := 1 / env.norm s.y
  let upd := env.dot s.y s.x * (omega * omega)
  let mus := s.lam + upd
  let temp := env.axpy (mus - gamma) s.y s.x
  let q := env.norm temp * omega
  let temp := env.axpy (-upd) s.y s.x
  (mus, q, env.norm temp * omega)

/-- The switching logic at the end of the TLIME loop, `q` being `q_norm` and `muOld` being `mu_s_old`.
dune/istl/eigenvalue/poweriteration.hh:859-887. -/
def tlimeSwitch (env : PEnv K X) (gamma eta delta : K) (m : Nat) (q muOld : K) (s : PState K X) : PState K X :=
  let s := if !s.doRQI && env.gt eta q then
      { s with extrnl := false, asserted := s.asserted && env.gt eta (env.abs (s.lam - gamma)), doRQI := true }
    else s
  let s := if !s.extrnl && s.doRQI && env.ge (env.abs (s.lam - gamma)) eta then { s with doRQI := false } else s
  if s.extrnl && !s.doRQI then
    if decide (m ≤ s.obj.nIt) && env.gt delta (env.abs (s.lam - muOld) / env.abs s.lam) then { s with doRQI := true }
    else s
  else s

/-- `mu_s`, `q_norm`, `r_norm`: the compile time switch of TLIME. dune/istl/eigenvalue/poweriteration.hh:761-838. -/
def tlimeNums (env : PEnv K X) (avoid : Bool) (gamma : K) (s : PState K X) : K × K × K :=
  if avoid then tlimeCrimeFree env gamma s
  else if s.doRQI then tlimeRQI env gamma s else tlimeII env gamma s

/-- Body of the TLIME loop. dune/istl/eigenvalue/poweriteration.hh:738-887. In the first pass `s.lam`, hence
`mu_s_old`, is what the caller left in `lambda`. -/
def tlimeStep (env : PEnv K X) (mat : SpMat (PBlock K)) (b : Nat) (avoid : Bool) (gamma eta delta : K) (m : Nat)
    (sol : PObj K → X → X → Res X) (s : PState K X) : PState K X × Res Unit :=
  andThen (withShift env mat b (if s.doRQI then s.lam else gamma) s) (fun s => andThen (solveWith sol s) (fun s =>
    let muOld := s.lam
    let p := tlimeNums env avoid gamma s
    (tlimeSwitch env gamma eta delta m p.2.1 muOld (accept env (p.1, p.2.2) s), .ok ())))

/-- `applyTLIMEIteration<Solver,avoid>(gamma,eta,epsilon,solver,delta,m,extrnl,x,lambda)`.
dune/istl/eigenvalue/poweriteration.hh:689-917. -/
def applyTLIMEIteration (env : PEnv K X) (mat : SpMat (PBlock K)) (b maxIt : Nat) (avoid : Bool)
    (gamma eta eps delta : K) (m : Nat) (sol : PObj K → X → X → Res X) (o : PObj K) (x : X) (lam : K) :
    PState K X × Res Unit :=
  powLoop env eps (tlimeStep env mat b avoid gamma eta delta m sol) maxIt (powStart env o x lam)

end Algorithms

end Istl
