import Verif.Spec.Build

/-!
# Programs over several `BCRSMatrix` variables
All matrices of a program share one memory. A program is a list of statements; each constructs, copies, assigns, changes or
destroys a variable.
-/

namespace Istl
namespace BcrsWorld
open Bcrs
variable {B : Type}

/-- The memory and the variables (`none`: destroyed). -/
structure World (B : Type) where
  h : Heap B
  objs : List (Option (Obj B))

/-- Statements. -/
inductive Op (B : Type) where
  /-- `BCRSMatrix A;` -/
  | new (mode : BuildMode)
  /-- build a new matrix in random mode -/
  | random (n m nnz : Nat) (sizes : List SizeOp) (calls : List (Nat × Nat))
  /-- build a new matrix row by row -/
  | rowWise (n m nnz : Nat) (bm : BuildMode) (todo : List (List Nat))
  /-- build a new matrix in implicit mode -/
  | implicit (n m avg : Nat) (cbs : ℚ) (acc : List (Access B))
  /-- `BCRSMatrix C(A_j);` -/
  | copy (j : Nat)
  /-- `A_i = A_j;` -/
  | assign (i j : Nat)
  /-- `A_i[r][c] = f(A_i[r][c]);` -/
  | modify (i r c : Nat) (f : B → B)
  /-- `A_i *= k;` and the like -/
  | scale (i : Nat) (f : B → B)
  /-- `A_i = k;` -/
  | fill (i : Nat) (k : B)
  /-- `A_i.nonzeroes();` -/
  | count (i : Nat)
  /-- end of the life of `A_i` -/
  | destroy (i : Nat)

/-- The variable `A_i`. -/
def obj (w : World B) (i : Nat) : Res (Obj B) :=
  match w.objs[i]? with
  | some (some o) => .ok o
  | _ => .ub

/-- Result of a call on the object `o`. -/
def call (w : World B) (o : Obj B) (c : BC B Unit) : Res (St B) :=
  match c ⟨w.h, o⟩ with
  | .ok _ s => .ok s
  | .throw e _ => .throw e
  | .ub => .ub

/-- A call that constructs a new variable. -/
def create (w : World B) (c : BC B Unit) : Res (World B) := do
  let s ← call w (Bcrs.empty .unknown) c
  .ok ⟨s.h, w.objs ++ [some s.o]⟩

/-- A call on variable `A_i`. -/
def on (w : World B) (i : Nat) (c : BC B Unit) : Res (World B) := do
  let o ← obj w i
  let s ← call w o c
  .ok ⟨s.h, w.objs.set i (some s.o)⟩

/-- `nonzeroes()` on `o`: the number and the object with the number cached. dune/istl/bcrsmatrix.hh:2008-2014. -/
def counted (o : Obj B) : Nat × Obj B :=
  let k := if o.nnz = 0 then totalSize o else o.nnz
  (k, { o with nnz := k })

/-- One statement. Copy construction and assignment call `Mat.nonzeroes()` on the source, which is remembered in the source's
mutable member. dune/istl/bcrsmatrix.hh:802-821 (copy), 821-824 (destructor), 902-933 (assignment, self-assignment returns at
once), 936-944, 1517-1567, 2008-2014. -/
def step (w : World B) : Op B → Res (World B)
  | .new mode => .ok ⟨w.h, w.objs ++ [some (Bcrs.empty mode)]⟩
  | .random n m nnz sizes calls => create w (randomProgram n m nnz sizes calls)
  | .rowWise n m nnz bm todo => create w (rowWiseProgram n m nnz bm todo)
  | .implicit n m avg cbs acc => create w (implicitProgram n m avg cbs acc)
  | .copy j => do
    let src ← obj w j
    create { w with objs := w.objs.set j (some (counted src).2) } (copyCtor (counted src).2 (counted src).1)
  | .assign i j =>
    if i = j then .ok w
    else do
      let src ← obj w j
      on { w with objs := w.objs.set j (some (counted src).2) } i (assign (counted src).2 (counted src).1)
  | .modify i r c f => on w i (modifyEntry r c f)
  | .scale i f => on w i (scale f)
  | .fill i k => on w i (fill k)
  | .count i => do
    let o ← obj w i
    .ok { w with objs := w.objs.set i (some (counted o).2) }
  | .destroy i => do
    let o ← obj w i
    let s ← call w o (deallocate true)
    .ok ⟨s.h, w.objs.set i none⟩

/-- What is seen through variable `A_i`: `N()`, `M()` and the rows. -/
def see (w : World B) (i : Nat) : Res (Nat × Nat × List (Row B)) := do
  let o ← obj w i
  view ⟨w.h, o⟩

end BcrsWorld
end Istl
