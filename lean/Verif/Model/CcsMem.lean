import Verif.Model.Heap

/-!
# Storage of `BCCSMatrix` objects: dune/istl/bccsmatrix.hh

All arrays live in one memory; a cell is a row index, a column start or a value, which the code below only copies.
-/

namespace Istl
namespace CcsMem

variable {α : Type}

/-- The data members of a `BCCSMatrix`. dune/istl/bccsmatrix.hh:149-153. -/
structure Obj where
  N : Nat
  M : Nat
  nnz : Nat
  values : Option Ptr
  rowindex : Option Ptr
  colstart : Option Ptr
  deriving DecidableEq, Repr

/-- Default constructor. dune/istl/bccsmatrix.hh:36-38. -/
def ctor : Obj := ⟨0, 0, 0, none, none, none⟩

/-- `free()`: the three arrays are deleted, the sizes become 0; the pointers keep their (now dangling) values.
dune/istl/bccsmatrix.hh:139-147. -/
def free (H : Mem α) (o : Obj) : Res (Mem α × Obj) := do
  let H ← H.free o.values
  let H ← H.free o.rowindex
  let H ← H.free o.colstart
  .ok (H, { o with N := 0, M := 0, nnz := 0 })

/-- `if(N_+M_+Nnz_!=0) free();` dune/istl/bccsmatrix.hh:43-44, 114-115. -/
def freeIf (H : Mem α) (o : Obj) : Res (Mem α × Obj) :=
  if o.N + o.M + o.nnz ≠ 0 then free H o else .ok (H, o)

/-- Destructor. dune/istl/bccsmatrix.hh:41-45. -/
def destroy (H : Mem α) (o : Obj) : Res (Mem α) := do
  let r ← freeIf H o
  .ok r.1

/-- `q=new T[k]; for(i<k) q[i]=p[i];`: allocate an array and copy `k` elements into it. `z` is what a fresh element holds.
dune/istl/bccsmatrix.hh:120-122, 126-133. -/
def newCopy (z : α) (H : Mem α) (p : Option Ptr) (k : Nat) : Res (Mem α × Option Ptr) := do
  let r := H.alloc (List.replicate k z)
  let l ← r.1.read p k
  let H ← r.1.write (some ⟨r.2, 0⟩) l
  .ok (H, some ⟨r.2, 0⟩)

/-- The column start part of `operator=`. dune/istl/bccsmatrix.hh:119-123. -/
def assignCols (z : α) (H : Mem α) (o src : Obj) : Res (Mem α × Obj) :=
  if 0 < o.M then do
    let r ← newCopy z H src.colstart (o.M + 1)
    .ok (r.1, { o with colstart := r.2 })
  else .ok (H, o)

/-- The entries part of `operator=` (simplification: the arrays are allocated and filled one after the other, in the
code both are allocated first). dune/istl/bccsmatrix.hh:125-134. -/
def assignEntries (z : α) (H : Mem α) (o src : Obj) : Res (Mem α × Obj) :=
  if 0 < o.nnz then do
    let r ← newCopy z H src.values o.nnz
    let t ← newCopy z r.1 src.rowindex o.nnz
    .ok (t.1, { o with values := r.2, rowindex := t.2 })
  else .ok (H, o)

/-- `operator=` between two different objects. dune/istl/bccsmatrix.hh:112-136. -/
def assign (z : α) (H : Mem α) (o src : Obj) : Res (Mem α × Obj) := do
  let r ← freeIf H o
  let o1 : Obj := { r.2 with N := src.N, M := src.M, nnz := src.nnz }
  let c ← assignCols z r.1 o1 src
  assignEntries z c.1 c.2 src

/-- `a = a`: the source is the object that has just been freed. dune/istl/bccsmatrix.hh:112-136. -/
def assignSelf (z : α) (H : Mem α) (o : Obj) : Res (Mem α × Obj) := do
  let r ← freeIf H o
  let c ← assignCols z r.1 r.2 r.2
  assignEntries z c.1 c.2 c.2

/-- Filling the matrix: what `setMatrix` of the direct solvers does with it: free the old storage, `setSize`, allocate the
three arrays, fill them. dune/istl/ldl.hh:196-201, dune/istl/bccsmatrixinitializer.hh:242-249. -/
def build (H : Mem α) (o : Obj) (N M : Nat) (vals rows cols : List α) : Res (Mem α × Obj) := do
  let r ← freeIf H o
  let a := r.1.alloc vals
  let b := a.1.alloc rows
  let c := b.1.alloc cols
  .ok (c.1, ⟨N, M, vals.length, some ⟨a.2, 0⟩, some ⟨b.2, 0⟩, some ⟨c.2, 0⟩⟩)

/-- `getValues()[k] = v`. dune/istl/bccsmatrix.hh:86-89. -/
def setValue (H : Mem α) (o : Obj) (k : Nat) (v : α) : Res (Mem α) :=
  H.write (o.values.map fun p => { p with off := p.off + k }) [v]

/-- All matrices of a program, in one memory; a destroyed matrix is `none`. -/
structure World (α : Type) where
  mem : Mem α
  objs : List (Option Obj)

/-- One statement of a program using these matrices. -/
inductive Op (α : Type) where
  | new
  | build (i N M : Nat) (vals rows cols : List α)
  | assign (i j : Nat)
  | setValue (i k : Nat) (v : α)
  | free (i : Nat)
  | destroy (i : Nat)

/-- The object numbered `i`; using a destroyed one is undefined. -/
def World.obj (w : World α) (i : Nat) : Res Obj :=
  match w.objs[i]? with
  | some (some o) => .ok o
  | _ => .ub

/-- Execute one statement. dune/istl/bccsmatrix.hh:36-147. -/
def step (z : α) (w : World α) : Op α → Res (World α)
  | .new => .ok { w with objs := w.objs ++ [some ctor] }
  | .build i N M vals rows cols => do
    let o ← w.obj i
    let r ← build w.mem o N M vals rows cols
    .ok ⟨r.1, w.objs.set i (some r.2)⟩
  | .assign i j => do
    let o ← w.obj i
    let src ← w.obj j
    let r ← if i = j then assignSelf z w.mem o else assign z w.mem o src
    .ok ⟨r.1, w.objs.set i (some r.2)⟩
  | .setValue i k v => do
    let o ← w.obj i
    let H ← setValue w.mem o k v
    .ok { w with mem := H }
  | .free i => do
    let o ← w.obj i
    let r ← freeIf w.mem o
    .ok ⟨r.1, w.objs.set i (some r.2)⟩
  | .destroy i => do
    let o ← w.obj i
    let H ← destroy w.mem o
    .ok ⟨H, w.objs.set i none⟩

/-- What is seen through the public interface of matrix `i`: `N()`, `M()`, `nonzeroes()` and the elements of the three
arrays that belong to the matrix. -/
def view (w : World α) (i : Nat) : Res (Nat × Nat × Nat × List α × List α × List α) := do
  let o ← w.obj i
  let vals ← w.mem.read o.values o.nnz
  let rows ← w.mem.read o.rowindex o.nnz
  let cols ← w.mem.read o.colstart (if o.M = 0 then 0 else o.M + 1)
  .ok (o.N, o.M, o.nnz, vals, rows, cols)

end CcsMem
end Istl
