import Verif.Model.Gsetc
import Mathlib.Algebra.Module.Defs

/-!
# Incomplete LU factorisations: dune/istl/ilu.hh

Blocks form an arbitrary ring `R` (not necessarily commutative), vector blocks an `R`-module.
-/

namespace Istl

/-- Contract of block inversion (`FieldMatrix::invert`, dune-common): `none` stands for the `FMatrixError` of a singular
block. -/
structure BlockInv (R : Type) [Ring R] where
  inv : R → Option R
  inv_iff : ∀ a b, inv a = some b ↔ a * b = 1 ∧ b * a = 1

namespace Ilu
variable {R V : Type} [Ring R]

/-- The merge loop `while (ik!=endij && jk!=endjk)`: subtract `l * A_jk` from the matching entries `A_ik`.
dune/istl/ilu.hh:63-78. -/
def mergeSub (l : R) : List (Nat × R) → List (Nat × R) → List (Nat × R)
  | [], _ => []
  | ik, [] => ik
  | (k, a) :: ik, (k', b) :: jk =>
    if k = k' then (k, a - l * b) :: mergeSub l ik jk
    else if k < k' then (k, a) :: mergeSub l ik ((k', b) :: jk)
    else mergeSub l ((k, a) :: ik) jk
termination_by ik jk => ik.length + jk.length

theorem mergeSub_length (l : R) (ik jk : List (Nat × R)) : (mergeSub l ik jk).length = ik.length := by
  fun_induction mergeSub l ik jk <;> simp_all

/-- Elimination of row `i`: `fin` are the entries already passed, the argument list the entries from `ij` on; `rows` gives the
finished rows above. The loop condition reads `ij.index()` without testing for the end of the row.
dune/istl/ilu.hh:48-95. -/
def elimRow (I : BlockInv R) (rows : Nat → Row R) (i : Nat) : List (Nat × R) → List (Nat × R) → Res (Row R)
  | _, [] => .ub
  | fin, (j, a) :: rest =>
    if j < i then
      match (rows j).find j with
      | .ok (some q) =>
        match rd (rows j) q with
        | .ok jj =>
          let l := a * jj.2
          elimRow I rows i (fin ++ [(j, l)]) (mergeSub l rest ((rows j).drop (q + 1)))
        | _ => .ub
      | _ => .ub
    else if j ≠ i then .throw .istlError
    else
      match I.inv a with
      | some b => .ok (fin ++ (j, b) :: rest)
      | none => .throw .matrixBlockError
termination_by _ l => l.length
decreasing_by
  all_goals
    simp only [List.length_cons, mergeSub_length]
    omega

/-- `blockILU0Decomposition(A)`. dune/istl/ilu.hh:35-97. -/
def ilu0 (I : BlockInv R) (A : SpMat R) : Res (SpMat R) := do
  let rows ← forRangeM A.n (fun i rows => do
    let r ← elimRow I rows i [] (rows i)
    .ok (upd rows i r)) A.row
  .ok { A with row := rows }

section Backsolve
variable [AddCommGroup V] [Module R V]

/-- A block acting on a vector block. -/
def act : R → V →+ V := fun a => DistribSMul.toAddMonoidHom V a

/-- Second loop of `blockILUBacksolve`: rows from the last to the first, right hand side read from the current `v`, product with
the stored inverse. dune/istl/ilu.hh:127-144. -/
def upperSolve (F : SpMat R) (v : Nat → V) : Res (Nat → V) :=
  forDownM F.n (fun i v =>
    match (F.row i).reverse.dropWhile (fun e => i < e.1) with
    | [] => .ub
    | dg :: _ =>
      let rhs := Gsetc.residual act ((F.row i).reverse.takeWhile fun e => i < e.1) v (v i)
      .ok (upd v i (dg.2 • rhs))) v

/-- `blockILUBacksolve(A,v,d)`: the first loop has the shape of `bltsolve` with `v_i = rhs` (unit diagonal).
dune/istl/ilu.hh:101-145. -/
def backsolve (F : SpMat R) (v d : Nat → V) : Res (Nat → V) := do
  let y ← Gsetc.bltsolve act Gsetc.copyLoc F d v
  upperSolve F y

end Backsolve

/-! ### Compressed row storage of the factors -/

/-- `struct CRS`: dune/istl/ilu.hh:266-313. -/
structure CRS (R : Type) where
  rows : List Nat
  values : List R
  cols : List Nat
  nRows : Nat

/-- What `resize` fills new row starts with: `size_type(-1)`. dune/istl/ilu.hh:286. -/
def sizeMax : Nat := 2 ^ 64 - 1

/-- Default constructor followed by `resize(n)`: for `n = 0` nothing is allocated. dune/istl/ilu.hh:272, 282-289. -/
def CRS.sized (n : Nat) : CRS R :=
  { rows := if n = 0 then [] else List.replicate (n + 1) sizeMax, values := [], cols := [], nRows := n }

/-- `push_back` of a list of entries. dune/istl/ilu.hh:302-306. -/
def CRS.push (c : CRS R) (es : List (Nat × R)) : CRS R :=
  { c with values := c.values ++ es.map Prod.snd, cols := c.cols ++ es.map Prod.fst }

/-- `rows_[k] = cnt`. -/
def CRS.setRow (c : CRS R) (k cnt : Nat) : Res (CRS R) := do
  let r ← wr c.rows k cnt
  .ok { c with rows := r }

/-- Lower part of `convertToCRS`; the counter `colcount` is threaded. dune/istl/ilu.hh:331-347. -/
def crsLower (A : SpMat R) : Res (CRS R × Nat) := do
  let c ← (CRS.sized A.n).setRow 0 0
  forRangeM A.n (fun i s =>
    match (A.row i).dropWhile fun e => e.1 < i with
    | [] => .ub
    | _ => do
      let es := (A.row i).takeWhile fun e => e.1 < i
      let c ← (s.1.push es).setRow (i + 1) (s.2 + es.length)
      .ok (c, s.2 + es.length)) (c, 0)

/-- The column loop of the upper part, from the last entry backwards: entries above the diagonal are pushed, the diagonal
entry ends the loop, others are skipped. dune/istl/ilu.hh:363-375. -/
def crsUpperRow (i : Nat) : List (Nat × R) → List (Nat × R) × Option R
  | [] => ([], none)
  | (j, a) :: es =>
    if j = i then ([], some a)
    else
      let r := crsUpperRow i es
      if i ≤ j then ((j, a) :: r.1, r.2) else r

/-- Upper part of `convertToCRS`; rows from the last to the first. `inv` starts with default blocks.
dune/istl/ilu.hh:349-377. -/
def crsUpper (A : SpMat R) : Res (CRS R × List R × Nat) := do
  let c ← (CRS.sized A.n).setRow 0 0
  forRangeM A.n (fun row s => do
    let i := A.n - 1 - row
    let u := crsUpperRow i (A.row i).reverse
    let inv ← match u.2 with
      | some a => wr s.2.1 row a
      | none => .ok s.2.1
    let c ← (s.1.push u.1).setRow (row + 1) (s.2.2 + u.1.length)
    .ok (c, inv, s.2.2 + u.1.length)) (c, List.replicate A.n 0, 0)

/-- `convertToCRS(A,lower,upper,inv)`; memory reservation has no effect. dune/istl/ilu.hh:315-378. -/
def convertToCRS (A : SpMat R) : Res (CRS R × CRS R × List R) := do
  let l ← crsLower A
  let u ← crsUpper A
  .ok (l.1, u.1, u.2.1)

section CrsBacksolve
variable [AddCommGroup V] [Module R V]

/-- `for (col=rowI; col<rowINext; ++col) values_[col].mmv(v[cols_[col]],rhs)`. dune/istl/ilu.hh:410-411. -/
def crsResidual (c : CRS R) (i : Nat) (v : Nat → V) (rhs : V) : Res V := do
  let b ← rd c.rows i
  let e ← rd c.rows (i + 1)
  (List.range' b (e - b)).foldlM (fun rhs col => do
    let a ← rd c.values col
    let j ← rd c.cols col
    .ok (rhs - a • v j)) rhs

/-- `blockILUBacksolve(lower,upper,inv,v,d)`. dune/istl/ilu.hh:381-437. -/
def crsBacksolve (lower upper : CRS R) (inv : List R) (v d : Nat → V) : Res (Nat → V) :=
  if lower.nRows ≠ upper.nRows then .throw .istlError
  else do
    let v ← forRangeM lower.nRows (fun i v => do
      let rhs ← crsResidual lower i v (d i)
      .ok (upd v i rhs)) v
    forRangeM lower.nRows (fun i v => do
      let k := lower.nRows - 1 - i
      let rhs ← crsResidual upper i v (v k)
      let a ← rd inv i
      .ok (upd v k (a • rhs))) v

end CrsBacksolve
end Ilu
end Istl
