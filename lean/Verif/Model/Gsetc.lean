import Verif.Model.SpMat

/-!
# Block recursive kernels of dune/istl/gsetc.hh

Vectors are total functions on indices. `act a x` is `a.mv(x)`, `loc` is the solver called for the diagonal block: at block
level 1 `FieldMatrix::solve` (recursion end, gsetc.hh:103-155, 299-316, 534-557), at higher levels the same kernel on the
nested block. A column iterator that runs past the end of its row is `ub`.
-/

namespace Istl

/-- Row loop from `0` to `n-1` whose body may throw: `for (i=A.begin(); i!=A.end(); ++i)`, e.g. dune/istl/gsetc.hh:77. -/
def forRangeM {S : Type} (n : Nat) (f : Nat → S → Res S) (s : S) : Res S := (List.range n).foldlM (fun s i => f i s) s

/-- Row loop from `n-1` down to `0` whose body may throw: `for (i=A.beforeEnd(); i!=A.beforeBegin(); --i)`, e.g.
dune/istl/gsetc.hh:96. -/
def forDownM {S : Type} (n : Nat) (f : Nat → S → Res S) (s : S) : Res S :=
  (List.range n).reverse.foldlM (fun s i => f i s) s

/-- Contract of a matrix block (dune-common `FieldMatrix`, scalar, or nested matrix): `act a x = a x`, and `a.solve(x,y)`,
where `none` stands for the `FMatrixError` of a singular block. -/
structure BlockSolve (B X Y : Type) [AddCommGroup X] [AddCommGroup Y] where
  act : B → X →+ Y
  solve : B → Y → Option X
  solve_iff : ∀ a y x, solve a y = some x ↔ Function.Bijective (act a) ∧ act a x = y

namespace Gsetc
variable {B X Y K : Type} [AddCommGroup X] [AddCommGroup Y]

/-- `A.solve(v,d)` on a diagonal block: recursion end `withdiag,norelax`, dune/istl/gsetc.hh:119-131; the old content of `v`
is overwritten. -/
def solveLoc (β : BlockSolve B X Y) : B → X → Y → Res X := fun a _ y =>
  match β.solve a y with
  | some x => .ok x
  | none => .throw .fmatrixError

/-- `A.solve(v,d); v *= w`: recursion end `withdiag,withrelax`, dune/istl/gsetc.hh:103-117, 299-308. -/
def solveRelaxLoc [SMul K X] (β : BlockSolve B X Y) (w : K) : B → X → Y → Res X := fun a v y => do
  let x ← solveLoc β a v y
  .ok (w • x)

/-- `v = d`: recursion end `nodiag,norelax`, dune/istl/gsetc.hh:146-158. -/
def copyLoc : B → X → X → Res X := fun _ _ y => .ok y

/-- `v = d; v *= w`: recursion end `nodiag,withrelax`, dune/istl/gsetc.hh:132-145. -/
def copyRelaxLoc [SMul K X] (w : K) : B → X → X → Res X := fun _ _ y => .ok (w • y)

/-- `for (...) (*j).mmv(v[j.index()],rhs)` over a range of entries of a row. dune/istl/gsetc.hh:81-82. -/
def residual (act : B → X →+ Y) (es : List (Nat × B)) (v : Nat → X) (rhs : Y) : Y :=
  es.foldl (fun rhs e => rhs - act e.2 (v e.1)) rhs

/-- `algmeta_btsolve::bltsolve`, one level. dune/istl/gsetc.hh:66-85. -/
def bltsolve (act : B → X →+ Y) (loc : B → X → Y → Res X) (A : SpMat B) (d : Nat → Y) (v : Nat → X) : Res (Nat → X) :=
  forRangeM A.n (fun i v =>
    match (A.row i).dropWhile (fun e => e.1 < i) with
    | [] => .ub
    | dg :: _ => do
      let rhs := residual act ((A.row i).takeWhile fun e => e.1 < i) v (d i)
      let x ← loc dg.2 (v i) rhs
      .ok (upd v i x)) v

/-- `algmeta_btsolve::butsolve`, one level; the column loop runs from the last entry backwards.
dune/istl/gsetc.hh:86-104. -/
def butsolve (act : B → X →+ Y) (loc : B → X → Y → Res X) (A : SpMat B) (d : Nat → Y) (v : Nat → X) : Res (Nat → X) :=
  forDownM A.n (fun i v =>
    match (A.row i).reverse.dropWhile (fun e => i < e.1) with
    | [] => .ub
    | dg :: _ => do
      let rhs := residual act ((A.row i).reverse.takeWhile fun e => i < e.1) v (d i)
      let x ← loc dg.2 (v i) rhs
      .ok (upd v i x)) v

/-- `algmeta_bdsolve::bdsolve`, one level; `find` returns the end iterator when there is no diagonal entry and is
dereferenced unchecked. dune/istl/gsetc.hh:277-296. -/
def bdsolve (loc : B → X → Y → Res X) (A : SpMat B) (d : Nat → Y) (v : Nat → X) : Res (Nat → X) :=
  forDownM A.n (fun i v => do
    let p ← (A.row i).find i
    match p with
    | none => .ub
    | some q => do
      let e ← rd (A.row i) q
      let x ← loc e.2 (v i) (d i)
      .ok (upd v i x)) v

section Steps
variable [Ring K] [Module K X]

/-- The Gauss-Seidel row loop of `algmeta_itsteps::dbgs`. dune/istl/gsetc.hh:381-408. -/
def dbgsLoop (act : B → X →+ Y) (loc : B → X → Y → Res X) (A : SpMat B) (b : Nat → Y) (x : Nat → X) : Res (Nat → X) :=
  forRangeM A.n (fun i x =>
    match (A.row i).dropWhile (fun e => e.1 < i) with
    | [] => .ub
    | dg :: up => do
      let rhs := residual act ((A.row i).takeWhile fun e => e.1 < i) x (b i)
      let rhs := residual act up x rhs
      let y ← loc dg.2 (x i) rhs
      .ok (upd x i y)) x

/-- `algmeta_itsteps::dbgs`: the loop, then `x *= w; x.axpy(1-w, xold)`. dune/istl/gsetc.hh:369-412. -/
def dbgs (act : B → X →+ Y) (loc : B → X → Y → Res X) (w : K) (A : SpMat B) (b : Nat → Y) (x : Nat → X) :
    Res (Nat → X) := do
  let y ← dbgsLoop act loc A b x
  .ok fun k => if k < A.n then w • y k + (1 - w) • x k else y k

/-- One row of `bsorf`/`bsorb`; the state is `x` and the temporary `v`, which is *not* reset between rows.
dune/istl/gsetc.hh:431-456, 478-501. -/
def sorRow (act : B → X →+ Y) (loc : B → X → Y → Res X) (w : K) (A : SpMat B) (b : Nat → Y) (i : Nat)
    (s : (Nat → X) × X) : Res ((Nat → X) × X) :=
  match (A.row i).dropWhile (fun e => e.1 < i) with
  | [] => .ub
  | dg :: up => do
    let rhs := residual act ((A.row i).takeWhile fun e => e.1 < i) s.1 (b i)
    let rhs := residual act (dg :: up) s.1 rhs
    let v ← loc dg.2 s.2 rhs
    .ok (upd s.1 i (s.1 i + w • v), v)

/-- `algmeta_itsteps::bsorf`; `v` starts as `x[0]`. dune/istl/gsetc.hh:414-458. -/
def bsorf (act : B → X →+ Y) (loc : B → X → Y → Res X) (w : K) (A : SpMat B) (b : Nat → Y) (x : Nat → X) :
    Res (Nat → X) := do
  let s ← forRangeM A.n (sorRow act loc w A b) (x, x 0)
  .ok s.1

/-- `algmeta_itsteps::bsorb`. dune/istl/gsetc.hh:460-503. -/
def bsorb (act : B → X →+ Y) (loc : B → X → Y → Res X) (w : K) (A : SpMat B) (b : Nat → Y) (x : Nat → X) :
    Res (Nat → X) := do
  let s ← forDownM A.n (sorRow act loc w A b) (x, x 0)
  .ok s.1

/-- `algmeta_itsteps::dbjac`: `v` starts as a copy of `x`; at the end `x.axpy(w,v)`. dune/istl/gsetc.hh:505-540. -/
def dbjac (act : B → X →+ Y) (loc : B → X → Y → Res X) (w : K) (A : SpMat B) (b : Nat → Y) (x : Nat → X) :
    Res (Nat → X) := do
  let v ← forRangeM A.n (fun i v =>
    match (A.row i).dropWhile (fun e => e.1 < i) with
    | [] => .ub
    | dg :: up => do
      let rhs := residual act ((A.row i).takeWhile fun e => e.1 < i) x (b i)
      let rhs := residual act (dg :: up) x rhs
      let y ← loc dg.2 (v i) rhs
      .ok (upd v i y)) x
  .ok fun k => if k < A.n then x k + w • v k else x k

end Steps
end Gsetc
end Istl
