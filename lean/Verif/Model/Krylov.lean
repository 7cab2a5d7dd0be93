import Verif.Model.Solver
import Verif.Model.SpMat

/-!
# MINRES, GMRes, flexible GMRes, generalised PCG and flexible CG: dune/istl/solvers.hh

Same conventions as `Verif.Model.Solver`. Work arrays are functions of the index. `while` loops without a syntactic bound take a
fuel argument counting the passes of the outer loop; `none` means that the loop still runs after that many passes.
-/

namespace Istl
namespace Solver

variable {K Rl X : Type}

section Rot
variable [Zero K] [One K] [Neg K] [Add K] [Mul K] [Div K] [Zero Rl] [One Rl] [Add Rl] [Mul Rl] [Div Rl]

/-- `generateGivensRotation` (MINRES, `cj` the identity) and `generatePlaneRotation` (GMRes, `cj = conjugate`): `(cs,sn)`.
dune/istl/solvers.hh:764-800, 1061-1096. -/
def planeRotation (E : Env K Rl X) (cj : K → K) (dx dy : K) : Rl × K :=
  let ndx := E.abs dx
  let ndy := E.abs dy
  let nmax := if E.lt ndx ndy then ndy else ndx
  let nmin := if E.lt ndy ndx then ndy else ndx
  let temp := nmin / nmax
  let root := E.rsqrt (1 + temp * temp)
  let cs := if E.lt ndy E.rotEps then 1 else if E.lt ndx E.rotEps then 0
    else if E.lt ndx ndy then 1 / root * temp else 1 / root
  let sn := if E.lt ndy E.rotEps then 0 else if E.lt ndx E.rotEps then 1
    else if E.lt ndx ndy then 1 / E.ofReal root * dx * cj dy / E.ofReal ndx / E.ofReal ndy
    else 1 / E.ofReal root * cj (dy / dx)
  (cs, sn)

/-- `applyPlaneRotation(dx,dy,cs,sn)`: the new `(dx,dy)`. dune/istl/solvers.hh:1099-1105. -/
def applyRotation (E : Env K Rl X) (dx dy : K) (cs : Rl) (sn : K) : K × K :=
  (E.ofReal cs * dx + sn * dy, -(E.conj sn) * dx + E.ofReal cs * dy)

end Rot

section Minres
variable [Add X] [SMul K X] [Zero X] [Zero K] [One K] [Neg K] [Add K] [Sub K] [Mul K] [Div K]
  [Zero Rl] [One Rl] [Add Rl] [Mul Rl] [Div Rl]

/-- State of `MINRESSolver::apply` in the loop; `T2` is `T[2]`, the other entries of `T` do not live across iterations.
dune/istl/solvers.hh:636-684. -/
structure MinSt (K X Rl : Type) where
  x : X
  b : X
  z : X
  q : Nat → X
  p : Nat → X
  beta : K
  beta0 : K
  c : Nat → Rl
  s : Nat → K
  T2 : K
  xi : Nat → K
  d : Rl

/-- The Lanczos step of iteration `i`: `(alpha, w, W w, beta)` with the new vector `w` before normalisation.
dune/istl/solvers.hh:695-709. -/
def minLanczos (E : Env K Rl X) (i : Nat) (st : MinSt K X Rl) : K × X × X × K :=
  let i1 := i % 3
  let i0 := (i1 + 2) % 3
  let qa := E.op st.z + (-st.beta) • st.q i0
  let alpha := E.dot st.z qa
  let qb := qa + (-alpha) • st.q i1
  let z := E.prec i qb
  (alpha, qb, z, E.sqrt (E.dot qb z))

/-- The earlier rotations applied to the new column of the tridiagonal matrix: `(T[0],T[1],T[2])`. dune/istl/solvers.hh:720-730. -/
def minColumn (E : Env K Rl X) (i : Nat) (st : MinSt K X Rl) (alpha : K) : K × K × K :=
  let t1 := st.T2
  let t0 : K := if 2 < i then st.s (i % 2) * t1 else 0
  let t1 := if 2 < i then E.ofReal (st.c (i % 2)) * t1 else t1
  let t2 := if 1 < i then E.ofReal (st.c ((i + 1) % 2)) * alpha - st.s ((i + 1) % 2) * t1 else alpha
  let t1 := if 1 < i then E.ofReal (st.c ((i + 1) % 2)) * t1 + st.s ((i + 1) % 2) * alpha else t1
  (t0, t1, t2)

/-- Loop body of `MINRESSolver::apply`. dune/istl/solvers.hh:687-757. -/
def minAdvance (E : Env K Rl X) (i : Nat) (st : MinSt K X Rl) : MinSt K X Rl :=
  let i1 := i % 3
  let i0 := (i1 + 2) % 3
  let i2 := (i1 + 1) % 3
  let l := minLanczos E i st
  let beta := l.2.2.2
  let f : K := if E.isZero st.d then 0 else 1 / beta
  let t := minColumn E i st l.1
  let r := planeRotation E id t.2.2 beta
  let t2 := E.ofReal r.1 * t.2.2 + r.2 * beta
  let xi := upd st.xi (i % 2) (-r.2 * st.xi ((i + 1) % 2))
  let xi := upd xi ((i + 1) % 2) (xi ((i + 1) % 2) * E.ofReal r.1)
  let p2 := ((1 : K) / t2) • (st.z + (-t.2.1) • st.p i1 + (-t.1) • st.p i0)
  { st with
    x := st.x + (st.beta0 * xi ((i + 1) % 2)) • p2
    z := f • l.2.2.1, q := upd st.q i2 (f • l.2.1), p := upd st.p i2 p2, beta := beta
    c := upd st.c (i % 2) r.1, s := upd st.s (i % 2) r.2, T2 := beta, xi := xi
    d := E.abs (st.beta0 * xi (i % 2)) }

/-- State before the loop. dune/istl/solvers.hh:652-682. -/
def minInit (E : Env K Rl X) (x b : X) (d : Rl) : MinSt K X Rl :=
  let z := E.prec 0 b
  let beta := E.sqrt (E.dot b z)
  let f : K := if E.isZero d then 0 else 1 / beta
  { x := x, b := b, z := f • z, q := fun k => if k = 1 then f • b else 0, p := fun _ => 0, beta := beta, beta0 := beta,
    c := fun _ => 0, s := fun _ => 0, T2 := 0, xi := fun k => if k = 0 then 1 else 0, d := d }

/-- `MINRESSolver::apply(x,b,res)`: the defect is the norm of the preconditioned residual. dune/istl/solvers.hh:627-760. -/
def minApply (E : Env K Rl X) (red : Rl) (maxit : Nat) (x b : X) : Exit X Rl :=
  frame E red maxit (fun b => E.norm (E.prec 0 b)) (minAdvance E) (fun s => s.d) (fun _ s => s) (minInit E)
    (fun s => s.x) (fun s => s.b) x b

end Minres

section Gmres
variable [Add X] [SMul K X] [Zero X] [Zero K] [One K] [Neg K] [Add K] [Sub K] [Mul K] [Div K] [DecidableEq K]
  [Zero Rl] [One Rl] [Add Rl] [Mul Rl] [Div Rl]

/-- State of the GMRes solvers: `v` the basis, `y` (flexible GMRes: `w`) the vectors the correction is built from, `calls` the number
of preconditioner calls so far. dune/istl/solvers.hh:926-936, 1173-1182. -/
structure GmSt (K X Rl : Type) where
  x : X
  b : X
  v : Nat → X
  y : Nat → X
  H : Nat → Nat → K
  s : Nat → K
  cs : Nat → Rl
  sn : Nat → K
  norm : Rl
  calls : Nat

/-- Modified Gram-Schmidt of `w` against `v[0],...,v[i]`, filling column `i` of `H`. dune/istl/solvers.hh:969-977. -/
def gramSchmidt (E : Env K Rl X) (v : Nat → X) (i : Nat) (w : X) (col : Nat → K) : X × (Nat → K) :=
  forRange (i + 1) (fun k wc => let h := E.dot (v k) wc.1; (wc.1 + (-h) • v k, upd wc.2 k h)) (w, col)

/-- Apply the earlier rotations to a column of `H`. dune/istl/solvers.hh:990-991. -/
def rotateColumn (E : Env K Rl X) (cs : Nat → Rl) (sn : Nat → K) (i : Nat) (col : Nat → K) : Nat → K :=
  forRange i (fun k col => let r := applyRotation E (col k) (col (k + 1)) (cs k) (sn k); upd (upd col k r.1) (k + 1) r.2) col

/-- Column `i` of a matrix. -/
def setCol (H : Nat → Nat → K) (i : Nat) (col : Nat → K) : Nat → Nat → K := fun a b => if b = i then col a else H a b

/-- QR update with column `i`: rotate, generate the new rotation, apply it to the column and to `s`; new `norm`.
dune/istl/solvers.hh:989-1001, 1232-1245. -/
def qrUpdate (E : Env K Rl X) (i : Nat) (col : Nat → K) (st : GmSt K X Rl) : GmSt K X Rl :=
  let col := rotateColumn E st.cs st.sn i col
  let r := planeRotation E E.conj (col i) (col (i + 1))
  let h := applyRotation E (col i) (col (i + 1)) r.1 r.2
  let col := upd (upd col i h.1) (i + 1) h.2
  let t := applyRotation E (st.s i) (st.s (i + 1)) r.1 r.2
  { st with H := setCol st.H i col, cs := upd st.cs i r.1, sn := upd st.sn i r.2,
            s := upd (upd st.s i t.1) (i + 1) t.2, norm := E.abs t.2 }

/-- One pass of the inner loop of `RestartedGMResSolver`; `none`: breakdown, `SolverAbort`. dune/istl/solvers.hh:962-1001. -/
def gmStep (E : Env K Rl X) (i : Nat) (st : GmSt K X Rl) : Option (GmSt K X Rl) :=
  let w := E.prec st.calls (E.op (st.v i))
  let g := gramSchmidt E st.v i w (fun a => st.H a i)
  let h := E.ofReal (E.norm g.1)
  if E.lt (E.abs h) E.eps then none
  else
    let f : K := if E.isZero st.norm then 0 else 1 / h
    let v := upd st.v (i + 1) (f • g.1)
    some (qrUpdate E i (upd g.2 (i + 1) h) { st with v := v, y := v, calls := st.calls + 1 })

/-- One pass of the inner loop of `RestartedFlexibleGMResSolver`. dune/istl/solvers.hh:1202-1247. -/
def fgmStep (E : Env K Rl X) (i : Nat) (st : GmSt K X Rl) : Option (GmSt K X Rl) :=
  let w := E.prec st.calls (st.v i)
  let g := gramSchmidt E st.v i (E.op w) (fun a => st.H a i)
  let h := E.ofReal (E.norm g.1)
  if E.lt (E.abs h) E.eps then none
  else
    let v := upd st.v (i + 1) (((1 : K) / h) • g.1)
    some (qrUpdate E i (upd g.2 (i + 1) h) { st with v := v, y := upd st.y i w, calls := st.calls + 1 })

/-- The inner loop `for(i=0; i < m && j <= _maxit && res.converged != true; i++, j++)` with `n = m - i` passes left; returns the final
`i` and `j`. dune/istl/solvers.hh:961-1005, 1200-1249. -/
def gmInner (E : Env K Rl X) (red : Rl) (maxit : Nat) (stp : Nat → GmSt K X Rl → Option (GmSt K X Rl)) :
    Nat → Nat → Nat → GmSt K X Rl → It Rl → GmSt K X Rl × It Rl × Nat × Nat × Option Exc
  | 0, i, j, st, it => (st, it, i, j, none)
  | n + 1, i, j, st, it =>
    if j ≤ maxit ∧ it.converged = false then
      match stp i st with
      | none => (st, it, i, j, some .solverAbort)
      | some st =>
        match it.step E red j st.norm with
        | none => (st, it, i, j, some .solverAbort)
        | some it => gmInner E red maxit stp n (i + 1) (j + 1) st it
    else (st, it, i, j, none)

/-- Back substitution in `update`: the coefficients `y[a]`, `a < i`. dune/istl/solvers.hh:1036-1047. -/
def backSubst (i : Nat) (H : Nat → Nat → K) (s : Nat → K) : Nat → K :=
  forDown i (fun a y =>
    let rhs := (List.range (i - (a + 1))).foldl (fun rhs t => rhs - H a (a + 1 + t) * y (a + 1 + t)) (s a)
    upd y a (if rhs = 0 then 0 else rhs / H a a)) s

/-- `update(w,i,H,s,v)` with `w = 0`: `w += y[a] v[a]` for `a = i-1,...,0`. dune/istl/solvers.hh:1028-1052. -/
def gmUpdate (i : Nat) (H : Nat → Nat → K) (s : Nat → K) (v : Nat → X) : X :=
  let y := backSubst i H s
  forDown i (fun a w => w + y a • v a) 0

/-- `s[0] = norm; for(i=1; i<m+1; i++) s[i] = 0.0;`. dune/istl/solvers.hh:956-958, 1193-1195. -/
def gmResetS (E : Env K Rl X) (m : Nat) (st : GmSt K X Rl) : GmSt K X Rl :=
  { st with s := fun k => if k = 0 then E.ofReal st.norm else if k < m + 1 then 0 else st.s k }

/-- The outer `while(j <= _maxit && res.converged != true)` loop. `start` normalises `v[0]`, `restart` recomputes defect and norm.
dune/istl/solvers.hh:949-1024, 1188-1270. -/
def gmOuter (E : Env K Rl X) (red : Rl) (maxit m : Nat) (stp : Nat → GmSt K X Rl → Option (GmSt K X Rl))
    (start restart : GmSt K X Rl → GmSt K X Rl) :
    Nat → Nat → GmSt K X Rl → It Rl → Option (GmSt K X Rl × It Rl × Option Exc)
  | 0, j, st, it => if j ≤ maxit ∧ it.converged = false then none else some (st, it, none)
  | fuel + 1, j, st, it =>
    if j ≤ maxit ∧ it.converged = false then
      let st := gmResetS E m (start st)
      let r := gmInner E red maxit stp m 0 j st it
      match r.2.2.2.2 with
      | some e => some (r.1, r.2.1, some e)
      | none =>
        let st := { r.1 with x := r.1.x + gmUpdate r.2.2.1 r.1.H r.1.s r.1.y }
        let st := if r.2.1.converged = false ∧ r.2.2.2.1 < maxit then restart st else st
        gmOuter E red maxit m stp start restart fuel r.2.2.2.1 st r.2.1
    else some (st, it, none)

/-- Work arrays before the first pass. dune/istl/solvers.hh:926-936. -/
def gmInit (x b v0 b2 : X) (d : Rl) (calls : Nat) : GmSt K X Rl :=
  { x := x, b := b, v := upd (fun _ => b2) 0 v0, y := fun _ => b2, H := fun _ _ => 0, s := fun _ => 0, cs := fun _ => 0,
    sn := fun _ => 0, norm := d, calls := calls }

/-- Finish: `post` on normal return. dune/istl/solvers.hh:1022-1024. -/
def gmExit (E : Env K Rl X) (r : GmSt K X Rl × It Rl × Option Exc) : Exit X Rl :=
  match r.2.2 with
  | some e => { x := r.1.x, b := r.1.b, it := r.2.1, exc := some e }
  | none => { x := E.post r.1.x, b := r.1.b, it := r.2.1, exc := none }

/-- `v[0] *= cond(norm==0, 0, 1/norm)`. dune/istl/solvers.hh:952-955. -/
def gmStart (E : Env K Rl X) (st : GmSt K X Rl) : GmSt K X Rl :=
  let f : K := if E.isZero st.norm then 0 else 1 / E.ofReal st.norm
  let v := upd st.v 0 (f • st.v 0)
  { st with v := v, y := v }

/-- Restart of GMRes from the saved right hand side `b2`. dune/istl/solvers.hh:1014-1023. -/
def gmRestart (E : Env K Rl X) (b2 : X) (st : GmSt K X Rl) : GmSt K X Rl :=
  let b := E.subOp st.x b2
  let v0 := E.prec st.calls b
  let v := upd st.v 0 v0
  { st with b := b, v := v, y := v, norm := E.norm v0, calls := st.calls + 1 }

/-- `RestartedGMResSolver::apply(x,b,reduction,res)` with the body `stp` of the inner loop; the argument `reduction` is not used, the
test uses `_reduction` (`red`). The copy `b2` is taken before `pre`. dune/istl/solvers.hh:923-1026. -/
def gmApplyWith (E : Env K Rl X) (stp : Nat → GmSt K X Rl → Option (GmSt K X Rl)) (red : Rl) (maxit m fuel : Nat) (x b : X) :
    Option (Exit X Rl) :=
  let b2 := b
  let p := E.pre x b
  let b := E.subOp p.1 p.2
  let v0 := E.prec 0 b
  let d := E.norm v0
  match It.start.step E red 0 d with
  | none => some { x := p.1, b := b, it := It.start, exc := some .solverAbort }
  | some it =>
    if it.converged then some { x := E.post p.1, b := b, it := it, exc := none }
    else (gmOuter E red maxit m stp (gmStart E) (gmRestart E b2) fuel 1 (gmInit p.1 b v0 b2 d 1) it).map (gmExit E)

/-- `RestartedGMResSolver::apply(x,b,reduction,res)`. dune/istl/solvers.hh:923-1026. -/
def gmApply (E : Env K Rl X) (red : Rl) (maxit m fuel : Nat) (x b : X) : Option (Exit X Rl) :=
  gmApplyWith E (gmStep E) red maxit m fuel x b

/-- `v[0] *= (1.0 / norm)`. dune/istl/solvers.hh:1192. -/
def fgmStart (E : Env K Rl X) (st : GmSt K X Rl) : GmSt K X Rl :=
  { st with v := upd st.v 0 (((1 : K) / E.ofReal st.norm) • st.v 0) }

/-- Restart of flexible GMRes. dune/istl/solvers.hh:1263-1268. -/
def fgmRestart (E : Env K Rl X) (st : GmSt K X Rl) : GmSt K X Rl :=
  let v0 := E.subOp st.x st.b
  { st with v := upd st.v 0 v0, norm := E.norm v0 }

/-- `RestartedFlexibleGMResSolver::apply(x,b,reduction,res)` with the body `stp` of the inner loop; `b` is left unchanged except by
`pre`. dune/istl/solvers.hh:1169-1275. -/
def fgmApplyWith (E : Env K Rl X) (stp : Nat → GmSt K X Rl → Option (GmSt K X Rl)) (red : Rl) (maxit m fuel : Nat) (x b : X) :
    Option (Exit X Rl) :=
  let b2 := b
  let p := E.pre x b
  let v0 := E.subOp p.1 p.2
  let d := E.norm v0
  match It.start.step E red 0 d with
  | none => some { x := p.1, b := p.2, it := It.start, exc := some .solverAbort }
  | some it =>
    if it.converged then some { x := E.post p.1, b := p.2, it := it, exc := none }
    else (gmOuter E red maxit m stp (fgmStart E) (fgmRestart E) fuel 1 (gmInit p.1 p.2 v0 b2 d 0) it).map (gmExit E)

/-- `RestartedFlexibleGMResSolver::apply(x,b,reduction,res)`. dune/istl/solvers.hh:1169-1275. -/
def fgmApply (E : Env K Rl X) (red : Rl) (maxit m fuel : Nat) (x b : X) : Option (Exit X Rl) :=
  fgmApplyWith E (fgmStep E) red maxit m fuel x b

end Gmres

section Flexible
variable [Add X] [SMul K X] [Zero X] [Zero K] [One K] [Neg K] [Mul K] [Div K] [Zero Rl] [Mul Rl]

/-- State of `GeneralizedPCGSolver::apply`. dune/istl/solvers.hh:1397-1402. -/
structure GpSt (K X Rl : Type) where
  x : X
  b : X
  p : Nat → X
  pp : Nat → K
  d : Rl

/-- Minimise along `p[ii]`. dune/istl/solvers.hh:1417-1421, 1446-1454. -/
def gpMinimise (E : Env K Rl X) (ii : Nat) (st : GpSt K X Rl) : GpSt K X Rl :=
  let q := E.op (st.p ii)
  let ppi := E.dot (st.p ii) q
  let rho := E.dot (st.p ii) st.b
  let lambda := rho / ppi
  let b := st.b + (-lambda) • q
  { st with x := st.x + lambda • st.p ii, b := b, pp := upd st.pp ii ppi, d := E.norm b }

/-- The preconditioned residual made conjugate to `p[0],...,p[ii-1]`. dune/istl/solvers.hh:1434-1444. -/
def gpDirection (E : Env K Rl X) (k ii : Nat) (st : GpSt K X Rl) : GpSt K X Rl :=
  let r := E.prec k st.b
  let q := E.op r
  let pi := forRange ii (fun j pi => pi + (-(E.dot q (st.p j) / st.pp j)) • st.p j) r
  { st with p := upd st.p ii pi }

/-- The inner loop `for (int ii = 1; ii < end; ++ii)` with `n = end - ii` passes left; the global counter `i` is incremented before
each step. dune/istl/solvers.hh:1430-1459. -/
def gpInner (E : Env K Rl X) (red : Rl) : Nat → Nat → Nat → GpSt K X Rl → It Rl → GpSt K X Rl × It Rl × Nat × Option Exc
  | 0, _, i, st, it => (st, it, i, none)
  | n + 1, ii, i, st, it =>
    let st := gpMinimise E ii (gpDirection E i ii st)
    match it.step E red (i + 1) st.d with
    | none => (st, it, i + 1, some .solverAbort)
    | some it => gpInner E red n (ii + 1) (i + 1) st it

/-- The loop `while(i<_maxit)`. dune/istl/solvers.hh:1427-1466. -/
def gpOuter (E : Env K Rl X) (red : Rl) (maxit restart : Nat) :
    Nat → Nat → GpSt K X Rl → It Rl → Option (GpSt K X Rl × It Rl × Option Exc)
  | 0, i, st, it => if i < maxit then none else some (st, it, none)
  | fuel + 1, i, st, it =>
    if i < maxit then
      let e := min restart (maxit - i + 1)
      let r := gpInner E red (e - 1) 1 i st it
      match r.2.2.2 with
      | some ex => some (r.1, r.2.1, some ex)
      | none =>
        if r.2.1.converged then some (r.1, r.2.1, none)
        else
          let st := r.1
          let st := if e = restart then
            { st with p := upd st.p 0 (st.p (restart - 1)), pp := upd st.pp 0 (st.pp (restart - 1)) } else st
          gpOuter E red maxit restart fuel r.2.2.1 st r.2.1
    else some (st, it, none)

/-- `GeneralizedPCGSolver::apply(x,b,res)` for `_restart ≥ 1` (with `_restart = 0` the code writes `p[0]` of an empty vector). The first
step is done in every case, also for `_maxit = 0`. dune/istl/solvers.hh:1391-1470. -/
def gpApply (E : Env K Rl X) (red : Rl) (maxit restart fuel : Nat) (x b : X) : Option (Exit X Rl) :=
  let p := E.pre x b
  let b := E.subOp p.1 p.2
  let d := E.norm b
  match It.start.step E red 0 d with
  | none => some { x := p.1, b := b, it := It.start, exc := some .solverAbort }
  | some it =>
    if it.converged then some { x := E.post p.1, b := b, it := it, exc := none }
    else
      let st := gpMinimise E 0 { x := p.1, b := b, p := fun _ => E.prec 0 b, pp := fun _ => 0, d := d }
      match it.step E red 1 st.d with
      | none => some { x := st.x, b := st.b, it := it, exc := some .solverAbort }
      | some it =>
        if it.converged then some { x := E.post st.x, b := st.b, it := it, exc := none }
        else
          (gpOuter E red maxit restart fuel 1 st it).map fun r =>
            match r.2.2 with
            | some e => { x := r.1.x, b := r.1.b, it := r.2.1, exc := some e }
            | none => { x := E.post r.1.x, b := r.1.b, it := r.2.1, exc := none }

/-- State of `RestartedFCGSolver::apply`; `lim` is `_k_limit` of `CompleteFCGSolver`. dune/istl/solvers.hh:1591-1596, 1722. -/
structure FcSt (K X Rl : Type) where
  x : X
  b : X
  d : Nat → X
  ad : Nat → X
  dad : Nat → K
  lim : Nat
  def' : Rl

/-- `orthogonalizations` of `RestartedFCGSolver`: against all lower indices. dune/istl/solvers.hh:1645-1650. -/
def fcOrthRestarted (E : Env K Rl X) (ib : Nat) (w : X) (st : FcSt K X Rl) : FcSt K X Rl :=
  { st with d := forRange ib (fun k d => upd d ib (d ib + (-(E.dot (st.ad k) w / st.dad k)) • d k)) st.d }

/-- `cycle` of `RestartedFCGSolver`: swap first and last arrays, continue at index 1. dune/istl/solvers.hh:1653-1659. -/
def fcCycleRestarted (mmax : Nat) (st : FcSt K X Rl) : Nat × FcSt K X Rl :=
  (1, { st with d := upd (upd st.d 0 (st.d mmax)) mmax (st.d 0), ad := upd (upd st.ad 0 (st.ad mmax)) mmax (st.ad 0),
                dad := upd (upd st.dad 0 (st.dad mmax)) mmax (st.dad 0) })

/-- `orthogonalizations` of `CompleteFCGSolver`. dune/istl/solvers.hh:1703-1713. -/
def fcOrthComplete (E : Env K Rl X) (ib : Nat) (w : X) (st : FcSt K X Rl) : FcSt K X Rl :=
  { st with
    d := forRange st.lim (fun k d => if ib ≠ k then upd d ib (d ib + (-(E.dot (st.ad k) w / st.dad k)) • d k) else d) st.d
    lim := if st.lim ≤ ib then st.lim + 1 else st.lim }

/-- `cycle` of `CompleteFCGSolver`. dune/istl/solvers.hh:1716-1721. -/
def fcCycleComplete (mmax : Nat) (st : FcSt K X Rl) : Nat × FcSt K X Rl := (0, { st with lim := mmax + 1 })

/-- Body of the inner loop of the FCG solvers. dune/istl/solvers.hh:1611-1629. -/
def fcStep (E : Env K Rl X) (orth : Nat → X → FcSt K X Rl → FcSt K X Rl) (i ib : Nat) (st : FcSt K X Rl) : FcSt K X Rl :=
  let w := E.prec (i - 1) st.b
  let st := orth ib w { st with d := upd st.d ib w }
  let di := st.d ib
  let ad := E.op di
  let dd := E.dot di ad
  let alpha := E.dot di st.b / dd
  let b := st.b + (-alpha) • ad
  { st with ad := upd st.ad ib ad, dad := upd st.dad ib dd, x := st.x + alpha • di, b := b, def' := E.norm b }

/-- The inner loop `for (; i_bounded <= _mmax && i<= _maxit; i_bounded++)` with `n = _maxit + 1 - i` steps left. It does not stop when
the solver has converged. dune/istl/solvers.hh:1610-1632. -/
def fcInner (E : Env K Rl X) (red : Rl) (mmax : Nat) (orth : Nat → X → FcSt K X Rl → FcSt K X Rl) :
    Nat → Nat → Nat → FcSt K X Rl → It Rl → FcSt K X Rl × It Rl × Nat × Nat × Option Exc
  | 0, i, ib, st, it => (st, it, i, ib, none)
  | n + 1, i, ib, st, it =>
    if ib ≤ mmax then
      let st := fcStep E orth i ib st
      match it.step E red i st.def' with
      | none => (st, it, i, ib, some .solverAbort)
      | some it => fcInner E red mmax orth n (i + 1) (ib + 1) st it
    else (st, it, i, ib, none)

/-- The loop `while(i<=_maxit && !res.converged)`. dune/istl/solvers.hh:1609-1635. -/
def fcOuter (E : Env K Rl X) (red : Rl) (maxit mmax : Nat) (orth : Nat → X → FcSt K X Rl → FcSt K X Rl)
    (cycle : FcSt K X Rl → Nat × FcSt K X Rl) :
    Nat → Nat → Nat → FcSt K X Rl → It Rl → Option (FcSt K X Rl × It Rl × Option Exc)
  | 0, i, _, st, it => if i ≤ maxit ∧ it.converged = false then none else some (st, it, none)
  | fuel + 1, i, ib, st, it =>
    if i ≤ maxit ∧ it.converged = false then
      let r := fcInner E red mmax orth (maxit + 1 - i) i ib st it
      match r.2.2.2.2 with
      | some e => some (r.1, r.2.1, some e)
      | none =>
        let c := cycle r.1
        fcOuter E red maxit mmax orth cycle fuel r.2.2.1 c.1 c.2 r.2.1
    else some (st, it, none)

/-- `apply(x,b,res)` of the FCG solvers with the given `orthogonalizations` and `cycle`. dune/istl/solvers.hh:1583-1640. -/
def fcApply (E : Env K Rl X) (orth : Nat → X → FcSt K X Rl → FcSt K X Rl) (cycle : FcSt K X Rl → Nat × FcSt K X Rl)
    (red : Rl) (maxit mmax fuel : Nat) (x b : X) : Option (Exit X Rl) :=
  let p := E.pre x b
  let b := E.subOp p.1 p.2
  let d := E.norm b
  match It.start.step E red 0 d with
  | none => some { x := p.1, b := b, it := It.start, exc := some .solverAbort }
  | some it =>
    if it.converged then some { x := E.post p.1, b := b, it := it, exc := none }
    else
      (fcOuter E red maxit mmax orth cycle fuel 1 0
          { x := p.1, b := b, d := fun _ => p.1, ad := fun _ => p.1, dad := fun _ => 0, lim := 0, def' := d } it).map fun r =>
        match r.2.2 with
        | some e => { x := r.1.x, b := r.1.b, it := r.2.1, exc := some e }
        | none => { x := E.post r.1.x, b := r.1.b, it := r.2.1, exc := none }

/-- `RestartedFCGSolver::apply(x,b,res)`. dune/istl/solvers.hh:1583-1640. -/
def rfcgApply (E : Env K Rl X) (red : Rl) (maxit mmax fuel : Nat) (x b : X) : Option (Exit X Rl) :=
  fcApply E (fcOrthRestarted E) (fcCycleRestarted mmax) red maxit mmax fuel x b

/-- `CompleteFCGSolver::apply(x,b,res)`. dune/istl/solvers.hh:1693-1700. -/
def cfcgApply (E : Env K Rl X) (red : Rl) (maxit mmax fuel : Nat) (x b : X) : Option (Exit X Rl) :=
  fcApply E (fcOrthComplete E) (fcCycleComplete mmax) red maxit mmax fuel x b

end Flexible
end Solver
end Istl
