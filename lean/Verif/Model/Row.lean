import Verif.Basic

/-!
# Compressed rows: look-up by column index

Model of `Imp::compressed_base_array_unmanaged` (dune/istl/basearray.hh) and of the arithmetic of
`Imp::compressed_block_vector_unmanaged` (dune/istl/bvector.hh).
A row is the list of its `(index(), value)` pairs from `begin()` to `end()`.
-/

namespace Istl

/-- A compressed row: `(column index, value)` in storage order.
Models the arrays `j` and `p` of length `n` of dune/istl/basearray.hh:540-542 (zipped). -/
abbrev Row (B : Type) := List (Nat × B)

/-- The halving loop of `std::lower_bound` on the index array `j`, as called at dune/istl/basearray.hh:333,342,482,520.
`first` and `len` are the loop variables; a read outside the array is `ub`. -/
def lowerBoundGo (j : List Nat) (v : Nat) (first len : Nat) : Res Nat :=
  if _h : len = 0 then .ok first
  else
    let half := len / 2
    let mid := first + half
    match j[mid]? with
    | none => .ub
    | some x =>
      if x < v then lowerBoundGo j v (mid + 1) (len - half - 1)
      else lowerBoundGo j v first half
termination_by len
decreasing_by all_goals omega

/-- `std::lower_bound(j, j+n, v) - j`. dune/istl/basearray.hh:333. -/
def lowerBound (j : List Nat) (n v : Nat) : Res Nat := lowerBoundGo j v 0 n

/-- `find(i)`: offset of the entry with index `i`, or `none` for `end()`. dune/istl/basearray.hh:480-486, 518-524.
The short-circuit `lb != j+n && *lb == i` is kept. -/
def Row.find {B : Type} (r : Row B) (i : Nat) : Res (Option Nat) := do
  let j := r.map Prod.fst
  let lb ← lowerBound j r.length i
  if lb = r.length then .ok none
  else do
    let x ← rd j lb
    if x = i then .ok (some lb) else .ok none

/-- `operator[](i)` (read). dune/istl/basearray.hh:331-337, 340-346. -/
def Row.get {B : Type} (r : Row B) (i : Nat) : Res B := do
  let j := r.map Prod.fst
  let lb ← lowerBound j r.length i
  if lb = r.length then .throw .istlError
  else do
    let x ← rd j lb
    if x ≠ i then .throw .istlError
    else do
      let e ← rd r lb
      .ok e.2

/-- `operator[](i) = f(operator[](i))` (write through the returned reference). dune/istl/basearray.hh:331-337. -/
def Row.modify {B : Type} (r : Row B) (i : Nat) (f : B → B) : Res (Row B) := do
  let j := r.map Prod.fst
  let lb ← lowerBound j r.length i
  if lb = r.length then .throw .istlError
  else do
    let x ← rd j lb
    if x ≠ i then .throw .istlError
    else do
      let e ← rd r lb
      wr r lb (e.1, f e.2)

/-- `exists(i,j)` restricted to the row `r[i]`: `r[i].size() && r[i].find(j) != r[i].end()`.
dune/istl/bcrsmatrix.hh:2036-2043 (non-checking build). -/
def Row.exists {B : Type} (r : Row B) (j : Nat) : Res Bool :=
  if r.length = 0 then .ok false
  else do
    let p ← r.find j
    .ok p.isSome

/-- `operator+=(y)`, `operator-=(y)` and `axpy(a,y)` on rows: for each entry of `y` in order, combine into the entry of
the same index. `f old new` is `old + new`, `old - new` or `old + a*new`. dune/istl/bvector.hh:777-807. -/
def Row.combine {B : Type} (f : B → B → B) (r y : Row B) : Res (Row B) :=
  y.foldlM (fun r e => r.modify e.1 (fun b => f b e.2)) r

end Istl
