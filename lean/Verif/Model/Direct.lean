import Verif.Basic

/-!
# Life cycle of the direct solver wrappers: dune/istl/umfpack.hh, ldl.hh, spqr.hh, superlu.hh

What is modelled is the storage: which blocks of memory (arrays obtained by `new[]`, objects handed out by the
libraries) a wrapper object allocates, uses and releases, and what its member functions report. The numerical content of
the blocks is not modelled; what a library call can do (succeed, fail) is an argument of the operation.
-/

namespace Istl
namespace Direct

/-- The heap: number of the next block, and the blocks that are allocated now with their sizes in elements. -/
structure Heap where
  next : Nat
  live : List (Nat × Nat)

/-- A pointer member: never initialised (or pointing to a dead local variable), null, or the address of a block. -/
inductive Pt where
  | wild
  | null
  | at (id : Nat)
  deriving DecidableEq, Repr

/-- `new T[n]` (also for `n = 0`) or a library object of size `n`. -/
def Heap.alloc (H : Heap) (n : Nat) : Heap × Pt := (⟨H.next + 1, (H.next, n) :: H.live⟩, .at H.next)

/-- `delete[] p`, or a library function releasing `p`: nothing for null, undefined unless `p` is allocated. -/
def Heap.free (H : Heap) : Pt → Res Heap
  | .null => .ok H
  | .wild => .ub
  | .at i => if i ∈ H.live.map Prod.fst then .ok { H with live := H.live.filter fun b => b.1 ≠ i } else .ub

/-- Release several blocks, one after the other. -/
def Heap.freeAll (H : Heap) : List Pt → Res Heap
  | [] => .ok H
  | p :: ps => do
    let H ← H.free p
    H.freeAll ps

/-- Access to the first `n` elements of the block `p`: undefined unless they exist. Accessing nothing is always fine. -/
def Heap.touch (H : Heap) (p : Pt) (n : Nat) : Res Unit :=
  if n = 0 then .ok ()
  else
    match p with
    | .at i =>
      match H.live.lookup i with
      | some k => if n ≤ k then .ok () else .ub
      | none => .ub
    | _ => .ub

/-- Access several blocks. -/
def Heap.touchAll (H : Heap) : List (Pt × Nat) → Res Unit
  | [] => .ok ()
  | p :: ps => do
    H.touch p.1 p.2
    H.touchAll ps

/-- The column compressed matrix inside a wrapper. dune/istl/bccsmatrix.hh:149-153. -/
structure Ccs where
  N : Nat
  M : Nat
  nnz : Nat
  values : Pt
  rowindex : Pt
  colstart : Pt
  deriving DecidableEq, Repr

/-- Default constructor. dune/istl/bccsmatrix.hh:36-38. -/
def Ccs.empty : Ccs := ⟨0, 0, 0, .null, .null, .null⟩

/-- `free()`: the arrays are deleted and the sizes become 0, the pointers keep their values.
dune/istl/bccsmatrix.hh:139-147. -/
def Ccs.free (H : Heap) (c : Ccs) : Res (Heap × Ccs) := do
  let H ← H.freeAll [c.values, c.rowindex, c.colstart]
  .ok (H, { c with N := 0, M := 0, nnz := 0 })

/-- `if (N() + M() + nonzeroes() != 0) free();` dune/istl/ldl.hh:195-196; the destructor, bccsmatrix.hh:41-45. -/
def Ccs.freeIf (H : Heap) (c : Ccs) : Res (Heap × Ccs) :=
  if c.N + c.M + c.nnz ≠ 0 then c.free H else .ok (H, c)

/-- `setSize` followed by `copyToBCCSMatrix`: all three arrays are allocated, whatever the sizes.
dune/istl/bccsmatrixinitializer.hh:242-249. -/
def Ccs.fill (H : Heap) (N M nnz : Nat) : Heap × Ccs :=
  let v := H.alloc nnz
  let r := v.1.alloc nnz
  let c := r.1.alloc (M + 1)
  (c.1, ⟨N, M, nnz, v.2, r.2, c.2⟩)

/-- What a call reports: `done` (a call without result), `solved good` (`apply` returned with `res.iterations = 1` and
`res.converged = true`; `good` records whether the library had a complete factorization to solve with), `unchanged`
(`apply` returned without touching `res`), `threw`. -/
inductive Ret where
  | done
  | solved (good : Bool)
  | unchanged
  | threw (e : Exc)
  deriving DecidableEq, Repr

/-! ## LDL -/
namespace Ldl

/-- Data members (without the temporaries of `decompose`, which are never read between calls; `rankOk` records whether
`ldl_numeric` completed). dune/istl/ldl.hh:345-358. -/
structure Obj where
  mat : Ccs
  Lp : Pt
  P : Pt
  Pinv : Pt
  D : Pt
  Y : Pt
  Lx : Pt
  Li : Pt
  lnz : Nat
  rankOk : Bool
  deriving DecidableEq, Repr

/-- The outcome of the factorization: `amd_order` fails, `ldl_numeric` stops at a zero pivot, or success. -/
inductive Fact where
  | amdFails
  | zeroPivot
  | success
  deriving DecidableEq, Repr

/-- Default constructor: the pointers are not initialised. dune/istl/ldl.hh:141-142. -/
def ctor : Obj := ⟨.empty, .wild, .wild, .wild, .wild, .wild, .wild, .wild, 0, false⟩

/-- `free()`. dune/istl/ldl.hh:246-257. -/
def free (H : Heap) (o : Obj) : Res (Heap × Obj) := do
  let H ← H.freeAll [o.D, o.Y, o.Lp, o.Lx, o.Li, o.P, o.Pinv]
  let r ← o.mat.free H
  .ok (r.1, { o with mat := r.2 })

/-- `if ((N() + M() > 0) || matrixIsLoaded_) free();` (`matrixIsLoaded_` is never set). dune/istl/ldl.hh:145-149,
192-193. -/
def freeIf (H : Heap) (o : Obj) : Res (Heap × Obj) :=
  if 0 < o.mat.N + o.mat.M then free H o else .ok (H, o)

/-- The end of `decompose()`, after `amd_order` succeeded. `lnz` is `Lp_[dimMat]`, the number of entries of the factor;
`parent`, `lnzs`, `flag`, `pattern` are the temporaries. dune/istl/ldl.hh:329-343. -/
def factor (H : Heap) (o : Obj) (parent lnzs flag pattern : Pt) (lnz : Nat) (ok : Bool) :
    Res (Heap × Obj × Ret) := do
  let n := o.mat.N
  H.touchAll [(o.mat.colstart, n + 1), (o.mat.rowindex, o.mat.nnz), (o.Lp, n + 1), (parent, n), (lnzs, n), (flag, n),
    (o.P, n), (o.Pinv, n)]
  let lx := H.alloc lnz
  let li := lx.1.alloc lnz
  let o1 : Obj := { o with Lx := lx.2, Li := li.2, lnz := lnz, rankOk := ok }
  li.1.touchAll [(o.mat.colstart, n + 1), (o.mat.rowindex, o.mat.nnz), (o.mat.values, o.mat.nnz), (o.Lp, n + 1),
    (parent, n), (lnzs, n), (o1.Li, lnz), (o1.Lx, lnz), (o.D, n), (o.Y, n), (pattern, n), (flag, n), (o.P, n), (o.Pinv, n)]
  let H ← li.1.freeAll [flag, pattern, parent, lnzs]
  .ok (H, o1, if ok then .done else .threw .invalidState)

/-- `decompose()`. dune/istl/ldl.hh:308-343. -/
def decompose (H : Heap) (o : Obj) (lnz : Nat) (f : Fact) : Res (Heap × Obj × Ret) := do
  let n := o.mat.N
  let d := H.alloc n
  let y := d.1.alloc n
  let lp := y.1.alloc (n + 1)
  let parent := lp.1.alloc n
  let lnzs := parent.1.alloc n
  let flag := lnzs.1.alloc n
  let pattern := flag.1.alloc n
  let p := pattern.1.alloc n
  let pinv := p.1.alloc n
  let o1 : Obj := { o with D := d.2, Y := y.2, Lp := lp.2, P := p.2, Pinv := pinv.2 }
  pinv.1.touchAll [(o.mat.colstart, n + 1), (o.mat.rowindex, o.mat.nnz), (o1.P, n)]
  match f with
  | .amdFails => .ok (pinv.1, o1, .threw .invalidState)
  | .zeroPivot => factor pinv.1 o1 parent.2 lnzs.2 flag.2 pattern.2 lnz false
  | .success => factor pinv.1 o1 parent.2 lnzs.2 flag.2 pattern.2 lnz true

/-- `setMatrix` / `setSubMatrix` with a matrix of `N × M` scalars, `nnz` of them stored.
dune/istl/ldl.hh:190-204, 207-222. -/
def setMatrix (H : Heap) (o : Obj) (N M nnz lnz : Nat) (f : Fact) : Res (Heap × Obj × Ret) := do
  let r ← freeIf H o
  let r ← (fun (r : Heap × Obj) => do
    let c ← r.2.mat.freeIf r.1
    (.ok (c.1, { r.2 with mat := c.2 }) : Res (Heap × Obj))) r
  let c := Ccs.fill r.1 N M nnz
  decompose c.1 { r.2 with mat := c.2 } lnz f

/-- `apply(x, b, res)` with `bs` scalars in `b` and `xs` in `x`. dune/istl/ldl.hh:152-163. -/
def apply (H : Heap) (o : Obj) (bs xs : Nat) : Res Ret := do
  let n := o.mat.N
  H.touchAll [(o.Y, n), (o.P, n), (o.Lp, if n = 0 then 0 else n + 1), (o.Li, if n = 0 then 0 else o.lnz),
    (o.Lx, if n = 0 then 0 else o.lnz), (o.D, n)]
  if n ≤ bs ∧ n ≤ xs then .ok (.solved (decide (0 < n) && o.rankOk)) else .ub

/-- Destructor, followed by the one of the matrix member. dune/istl/ldl.hh:145-149, bccsmatrix.hh:41-45. -/
def destroy (H : Heap) (o : Obj) : Res Heap := do
  let r ← freeIf H o
  let c ← r.2.mat.freeIf r.1
  .ok c.1

/-- Calls on an object. -/
inductive Op where
  | setMatrix (N M nnz lnz : Nat) (f : Fact)
  | apply (bs xs : Nat)
  | free

/-- Execute one call. dune/istl/ldl.hh:152-257. -/
def step (H : Heap) (o : Obj) : Op → Res (Heap × Obj × Ret)
  | .setMatrix N M nnz lnz f => setMatrix H o N M nnz lnz f
  | .apply bs xs => do
    let r ← apply H o bs xs
    .ok (H, o, r)
  | .free => do
    let r ← free H o
    .ok (r.1, r.2, .done)

/-- Execute calls (exceptions are caught by the program) and collect what they report. -/
def exec (H : Heap) (o : Obj) : List Op → Res (Heap × Obj × List Ret)
  | [] => .ok (H, o, [])
  | c :: cs => do
    let r ← step H o c
    let t ← exec r.1 r.2.1 cs
    .ok (t.1, t.2.1, r.2.2 :: t.2.2)

/-- `LDL s; ...calls...; }`: default construction, calls, destruction. -/
def run (H : Heap) (cs : List Op) : Res (Heap × List Ret) := do
  let r ← exec H ctor cs
  let H ← destroy r.1 r.2.1
  .ok (H, r.2.2)

/-- The constructor taking a matrix: when `setMatrix` throws, only the members are destroyed and there is no object.
dune/istl/ldl.hh:104-125. -/
def construct (H : Heap) (N M nnz lnz : Nat) (f : Fact) : Res (Heap × Option Obj) := do
  let r ← setMatrix H ctor N M nnz lnz f
  match r.2.2 with
  | .threw _ => do
    let c ← r.2.1.mat.freeIf r.1
    .ok (c.1, none)
  | _ => .ok (r.1, some r.2.1)

end Ldl

/-! ## UMFPack -/
namespace Umf

/-- Data members. dune/istl/umfpack.hh:776-781. -/
structure Obj where
  mat : Ccs
  loaded : Bool
  sym : Pt
  num : Pt
  deriving DecidableEq, Repr

/-- Default constructor. dune/istl/umfpack.hh:333-339. -/
def ctor : Obj := ⟨.empty, false, .wild, .wild⟩

/-- `free()`; the library functions null the handles they are given. dune/istl/umfpack.hh:709-718. -/
def free (H : Heap) (o : Obj) : Res (Heap × Obj) :=
  if o.loaded then do
    let H ← H.free o.num
    .ok (H, { o with num := .null, loaded := false })
  else do
    let H ← H.free o.sym
    let r ← o.mat.free H
    let H ← r.1.free o.num
    .ok (H, { o with mat := r.2, sym := .null, num := .null, loaded := false })

/-- `if ((N() + M() > 0) || matrixIsLoaded_) free();` dune/istl/umfpack.hh:394-398, 522-523. -/
def freeIf (H : Heap) (o : Obj) : Res (Heap × Obj) :=
  if 0 < o.mat.N + o.mat.M ∨ o.loaded = true then free H o else .ok (H, o)

/-- A library function that returns a new object through a handle, or null when it fails. -/
def handle (H : Heap) (ok : Bool) : Heap × Pt := if ok then H.alloc 1 else (H, .null)

/-- `decompose()`: `symOk`, `numOk` tell whether the analysis and the factorization succeed (without an analysis the
factorization fails). Nothing is checked afterwards. dune/istl/umfpack.hh:730-762. -/
def decompose (H : Heap) (o : Obj) (symOk numOk : Bool) : Res (Heap × Obj) := do
  H.touchAll [(o.mat.colstart, o.mat.N + 1), (o.mat.rowindex, o.mat.nnz), (o.mat.values, o.mat.nnz)]
  let s := handle H symOk
  s.1.touchAll [(o.mat.colstart, o.mat.N + 1), (o.mat.rowindex, o.mat.nnz), (o.mat.values, o.mat.nnz)]
  let n := handle s.1 (symOk && numOk)
  .ok (n.1, { o with sym := s.2, num := n.2 })

/-- `setMatrix(matrix, bitVector)`: `empty` is `matrix.N() == 0 or matrix.M() == 0`; `N`, `M`, `nnz` are the sizes of
what is left when the ignored rows and columns are removed. dune/istl/umfpack.hh:520-645. -/
def setMatrix (H : Heap) (o : Obj) (empty : Bool) (N M nnz : Nat) (symOk numOk : Bool) : Res (Heap × Obj) := do
  let r ← freeIf H o
  if empty then .ok r
  else do
    let c ← r.2.mat.freeIf r.1
    let f := Ccs.fill c.1 N M nnz
    decompose f.1 { r.2 with mat := f.2 } symOk numOk

/-- `setSubMatrix`: as `setMatrix`, without the early return. dune/istl/umfpack.hh:651-666. -/
def setSubMatrix (H : Heap) (o : Obj) (N M nnz : Nat) (symOk numOk : Bool) : Res (Heap × Obj) :=
  setMatrix H o false N M nnz symOk numOk

/-- `Caller::solve`: needs the arrays of the matrix; a null factorization makes the library return an error code, which
nobody looks at. dune/istl/umfpack.hh:425-433, 469-477. -/
def solve (H : Heap) (o : Obj) : Res Ret :=
  match o.num with
  | .null => .ok (.solved false)
  | _ => do
    H.touchAll [(o.num, 1), (o.mat.colstart, o.mat.N + 1), (o.mat.rowindex, o.mat.nnz), (o.mat.values, o.mat.nnz)]
    .ok (.solved true)

/-- `apply(x, b, res)` where `b.dim() = bd`, `x.dim() = xd` and `b.size() = bs`. dune/istl/umfpack.hh:403-449. -/
def apply (H : Heap) (o : Obj) (bd xd bs : Nat) : Res Ret :=
  if o.mat.N ≠ bd then .ok (.threw .istlError)
  else if o.mat.M ≠ xd then .ok (.threw .istlError)
  else if bs = 0 then .ok .unchanged
  else solve H o

/-- `apply(T* x, T* b)`. dune/istl/umfpack.hh:466-479. -/
def applyC (H : Heap) (o : Obj) : Res Ret := solve H o

/-- `saveDecomposition(file)`: `io` tells whether the file can be written; a null factorization is refused by the library.
dune/istl/umfpack.hh:503-508. -/
def save (H : Heap) (o : Obj) (io : Bool) : Res Ret :=
  match o.num with
  | .null => .ok (.threw .exception)
  | _ => do
    H.touch o.num 1
    .ok (if io then .done else .threw .exception)

/-- Destructor, followed by the one of the matrix member. dune/istl/umfpack.hh:394-398, bccsmatrix.hh:41-45. -/
def destroy (H : Heap) (o : Obj) : Res Heap := do
  let r ← freeIf H o
  let c ← r.2.mat.freeIf r.1
  .ok c.1

/-- The constructor that loads a decomposition from a file; `ok` tells whether that succeeds, otherwise it throws.
dune/istl/umfpack.hh:378-392. -/
def ofFile (H : Heap) (ok : Bool) : Heap × Option Obj :=
  if ok then
    let n := H.alloc 1
    (n.1, some { ctor with num := n.2, loaded := true })
  else (H, none)

/-- The constructor that loads a decomposition or computes and saves it; `load` and `io` tell whether the file can be
read and written. dune/istl/umfpack.hh:351-371. -/
def ofFileOr (H : Heap) (load : Bool) (empty : Bool) (N M nnz : Nat) (symOk numOk io : Bool) :
    Res (Heap × Option Obj) :=
  if load then
    let n := H.alloc 1
    .ok (n.1, some { ctor with num := n.2, loaded := true })
  else do
    let r ← setMatrix H { ctor with num := .null } empty N M nnz symOk numOk
    let s ← save r.1 r.2 io
    match s with
    | .threw _ => do
      let c ← r.2.mat.freeIf r.1
      .ok (c.1, none)
    | _ => .ok (r.1, some r.2)

/-- How an object comes into being. -/
inductive Ctor where
  | default
  | matrix (empty : Bool) (N M nnz : Nat) (symOk numOk : Bool)
  | file (ok : Bool)
  | fileOr (load : Bool) (empty : Bool) (N M nnz : Nat) (symOk numOk io : Bool)

/-- Run a constructor. dune/istl/umfpack.hh:290-392. -/
def create (H : Heap) : Ctor → Res (Heap × Option Obj)
  | .default => .ok (H, some ctor)
  | .matrix e N M nnz s n => do
    let r ← setMatrix H ctor e N M nnz s n
    .ok (r.1, some r.2)
  | .file ok => .ok (ofFile H ok)
  | .fileOr l e N M nnz s n io => ofFileOr H l e N M nnz s n io

/-- Calls on an object. -/
inductive Op where
  | setMatrix (empty : Bool) (N M nnz : Nat) (symOk numOk : Bool)
  | setSubMatrix (N M nnz : Nat) (symOk numOk : Bool)
  | apply (bd xd bs : Nat)
  | applyC
  | save (io : Bool)
  | free

/-- Execute one call. dune/istl/umfpack.hh:403-718. -/
def step (H : Heap) (o : Obj) : Op → Res (Heap × Obj × Ret)
  | .setMatrix e N M nnz s n => do
    let r ← setMatrix H o e N M nnz s n
    .ok (r.1, r.2, .done)
  | .setSubMatrix N M nnz s n => do
    let r ← setSubMatrix H o N M nnz s n
    .ok (r.1, r.2, .done)
  | .apply bd xd bs => do
    let r ← apply H o bd xd bs
    .ok (H, o, r)
  | .applyC => do
    let r ← applyC H o
    .ok (H, o, r)
  | .save io => do
    let r ← save H o io
    .ok (H, o, r)
  | .free => do
    let r ← free H o
    .ok (r.1, r.2, .done)

/-- Execute calls and collect what they report. -/
def exec (H : Heap) (o : Obj) : List Op → Res (Heap × Obj × List Ret)
  | [] => .ok (H, o, [])
  | c :: cs => do
    let r ← step H o c
    let t ← exec r.1 r.2.1 cs
    .ok (t.1, t.2.1, r.2.2 :: t.2.2)

/-- Construction, calls, destruction; `none` when the constructor threw. -/
def run (H : Heap) (c : Ctor) (cs : List Op) : Res (Heap × Option (List Ret)) := do
  let r ← create H c
  match r.2 with
  | none => .ok (r.1, none)
  | some o => do
    let t ← exec r.1 o cs
    let H ← destroy t.1 t.2.1
    .ok (H, some t.2.2)

end Umf

/-! ## SPQR -/
namespace Spqr

/-- Data members. dune/istl/spqr.hh:312-319. -/
structure Obj where
  mat : Ccs
  cc : Pt
  A : Pt
  B : Pt
  fact : Pt
  deriving DecidableEq, Repr

/-- Default constructor: allocates the workspace object. dune/istl/spqr.hh:137-144. -/
def ctor (H : Heap) : Heap × Obj :=
  let c := H.alloc 1
  (c.1, ⟨.empty, c.2, .wild, .wild, .wild⟩)

/-- `free()`; the library functions null the handles they are given. dune/istl/spqr.hh:265-272. -/
def free (H : Heap) (o : Obj) : Res (Heap × Obj) := do
  H.touch o.cc 1
  let H ← H.freeAll [o.A, o.B, o.fact]
  let r ← o.mat.free H
  .ok (r.1, { o with mat := r.2, A := .null, B := .null, fact := .null })

/-- `if ((N() + M() > 0) || matrixIsLoaded_) free();` (`matrixIsLoaded_` is never set). dune/istl/spqr.hh:149-150,
202-203. -/
def freeIf (H : Heap) (o : Obj) : Res (Heap × Obj) :=
  if 0 < o.mat.N + o.mat.M then free H o else .ok (H, o)

/-- `decompose()`. `w` is the number of reals in a matrix entry: 1 for `double`, 2 for `std::complex<double>`. `A_` and `B_`
are allocated for real entries (`xtype` 1); simplification: only their entry arrays are modelled, as blocks of `nnz`
and `N` reals. dune/istl/spqr.hh:287-314. -/
def decompose (w : Nat) (H : Heap) (o : Obj) : Res (Heap × Obj) := do
  H.touch o.cc 1
  H.touchAll [(o.mat.colstart, o.mat.M + 1), (o.mat.rowindex, o.mat.nnz), (o.mat.values, o.mat.nnz)]
  let a := H.alloc o.mat.nnz
  a.1.touch a.2 (w * o.mat.nnz)
  let b := a.1.alloc o.mat.N
  let f := b.1.alloc 1
  .ok (f.1, { o with A := a.2, B := b.2, fact := f.2 })

/-- `setMatrix` / `setSubMatrix` with a matrix of `N × M` scalars, `nnz` of them stored. dune/istl/spqr.hh:200-232. -/
def setMatrix (w : Nat) (H : Heap) (o : Obj) (N M nnz : Nat) : Res (Heap × Obj) := do
  let r ← freeIf H o
  let c ← r.2.mat.freeIf r.1
  let f := Ccs.fill c.1 N M nnz
  decompose w f.1 { r.2 with mat := f.2 }

/-- `apply(x, b, res)` with `bs` scalars in `b` and `xs` in `x`: the right hand side is written to `B_`, which is replaced
by the product with `Qᵀ`; without a factorization the library returns null. dune/istl/spqr.hh:155-188. -/
def apply (w : Nat) (H : Heap) (o : Obj) (bs xs : Nat) : Res (Heap × Obj × Ret) := do
  let n := o.mat.N
  let m := o.mat.M
  H.touch o.B (w * n)
  if ¬ (n ≤ bs ∧ m ≤ xs) then .ub
  else
    match o.fact with
    | .wild => .ub
    | .null => do
      let H ← H.free o.B
      if m = 0 then .ok (H, { o with B := .null }, .solved false) else .ub
    | .at f => do
      H.touch (.at f) 1
      H.touch o.cc 1
      let q := H.alloc n
      let x := q.1.alloc m
      let H ← x.1.free o.B
      H.touch x.2 m
      let H ← H.free x.2
      .ok (H, { o with B := q.2 }, .solved true)

/-- Destructor, followed by the one of the matrix member: the workspace object is finished but not deleted.
dune/istl/spqr.hh:147-152, bccsmatrix.hh:41-45. -/
def destroy (H : Heap) (o : Obj) : Res Heap := do
  let r ← freeIf H o
  r.1.touch o.cc 1
  let c ← r.2.mat.freeIf r.1
  .ok c.1

/-- Calls on an object. -/
inductive Op where
  | setMatrix (N M nnz : Nat)
  | apply (bs xs : Nat)
  | free

/-- Execute one call. dune/istl/spqr.hh:155-272. -/
def step (w : Nat) (H : Heap) (o : Obj) : Op → Res (Heap × Obj × Ret)
  | .setMatrix N M nnz => do
    let r ← setMatrix w H o N M nnz
    .ok (r.1, r.2, .done)
  | .apply bs xs => apply w H o bs xs
  | .free => do
    let r ← free H o
    .ok (r.1, r.2, .done)

/-- Execute calls and collect what they report. -/
def exec (w : Nat) (H : Heap) (o : Obj) : List Op → Res (Heap × Obj × List Ret)
  | [] => .ok (H, o, [])
  | c :: cs => do
    let r ← step w H o c
    let t ← exec w r.1 r.2.1 cs
    .ok (t.1, t.2.1, r.2.2 :: t.2.2)

/-- Default construction, calls, destruction. The constructor taking a matrix is the default one followed by `setMatrix`.
dune/istl/spqr.hh:95-144. -/
def run (w : Nat) (H : Heap) (cs : List Op) : Res (Heap × List Ret) := do
  let c := ctor H
  let r ← exec w c.1 c.2 cs
  let H ← destroy r.1 r.2.1
  .ok (H, r.2.2)

end Spqr

/-! ## SuperLU -/
namespace Slu

/-- Data members: `aStore`, `bStore`, `xStore` are `A.Store` of the matrix and `B.Store`, `X.Store`; `L`, `U` stand for the
storage of the factors (`lwork` is always 0). `good` records whether the factorization succeeded. dune/istl/superlu.hh:380-389,
supermatrix.hh:309. -/
structure Obj where
  mat : Ccs
  aStore : Pt
  permc : Pt
  permr : Pt
  etree : Pt
  R : Pt
  C : Pt
  L : Pt
  U : Pt
  bStore : Pt
  xStore : Pt
  first : Bool
  reuse : Bool
  good : Bool
  deriving DecidableEq, Repr

/-- The constructors before any matrix is set (simplification: the value of `first`, which the default constructor does not
initialise, is taken to be `true`; it is assigned by `decompose` before it is read). dune/istl/superlu.hh:423-436. -/
def ctor (reuse : Bool) : Obj :=
  ⟨.empty, .wild, .wild, .wild, .wild, .wild, .wild, .wild, .wild, .wild, .wild, true, reuse, false⟩

/-- `SuperLUMatrix::free`. dune/istl/supermatrix.hh:303-307. -/
def matFree (H : Heap) (o : Obj) : Res (Heap × Obj) := do
  let r ← o.mat.free H
  let H ← r.1.free o.aStore
  .ok (H, { o with mat := r.2 })

/-- The vector headers are released when they were created. dune/istl/superlu.hh:415-418. -/
def freeVecs (H : Heap) (o : Obj) : Res Heap :=
  if ¬ o.first ∧ o.reuse then H.freeAll [o.bStore, o.xStore] else .ok H

/-- `free()`. dune/istl/superlu.hh:403-421. -/
def free (H : Heap) (o : Obj) : Res (Heap × Obj) := do
  let H ← H.freeAll [o.permc, o.permr, o.etree, o.R, o.C, o.L, o.U]
  let H ← freeVecs H o
  matFree H o

/-- `if (N_ + M_ + Nnz_ != 0) free();` of the matrix. dune/istl/supermatrix.hh:239-240, 283-284. -/
def matFreeIf (H : Heap) (o : Obj) : Res (Heap × Obj) :=
  if o.mat.N + o.mat.M + o.mat.nnz ≠ 0 then matFree H o else .ok (H, o)

/-- The destructor of the matrix (whose guard is `N_+M_*Nnz_`). dune/istl/supermatrix.hh:219-223. -/
def matDestroy (H : Heap) (o : Obj) : Res (Heap × Obj) :=
  if o.mat.N + o.mat.M * o.mat.nnz ≠ 0 then matFree H o else .ok (H, o)

/-- `if(mat.N()+mat.M()>0) free();` dune/istl/superlu.hh:398-399, 445-447. -/
def freeIf (H : Heap) (o : Obj) : Res (Heap × Obj) :=
  if 0 < o.mat.N + o.mat.M then free H o else .ok (H, o)

/-- `decompose()`; the library creates the factors (also for a singular matrix), `B.Store` and `X.Store` are left pointing to
a local variable. dune/istl/superlu.hh:471-559. -/
def decompose (H : Heap) (o : Obj) (good : Bool) : Res (Heap × Obj) := do
  let pc := H.alloc o.mat.M
  let pr := pc.1.alloc o.mat.N
  let et := pr.1.alloc o.mat.M
  let r := et.1.alloc o.mat.N
  let c := r.1.alloc o.mat.M
  c.1.touchAll [(o.aStore, 1), (o.mat.colstart, o.mat.M + 1), (o.mat.rowindex, o.mat.nnz), (o.mat.values, o.mat.nnz)]
  let l := c.1.alloc 1
  let u := l.1.alloc 1
  .ok (u.1, { o with permc := pc.2, permr := pr.2, etree := et.2, R := r.2, C := c.2, L := l.2, U := u.2,
                     bStore := .wild, xStore := .wild, first := true, good := good })

/-- `setMatrix(mat)` (`sub = false`) and `setSubMatrix(mat, rows)` (`sub = true`): the assignment reads `colstart[N_]`, the other
one `colstart[cols]`. dune/istl/superlu.hh:443-467, supermatrix.hh:237-254, 281-290, 329-336. -/
def setMatrix (H : Heap) (o : Obj) (sub : Bool) (N M nnz : Nat) (good : Bool) : Res (Heap × Obj) := do
  let r ← freeIf H o
  let r ← matFreeIf r.1 r.2
  let f := Ccs.fill r.1 N M nnz
  f.1.touch f.2.colstart (if sub then M + 1 else N + 1)
  let s := f.1.alloc 1
  decompose s.1 { r.2 with mat := f.2, aStore := s.2 } good

/-- The library call in `apply`. dune/istl/superlu.hh:604-606, 685-687. -/
def solve (H : Heap) (o : Obj) (b x : Pt) : Res Unit :=
  H.touchAll [(o.aStore, 1), (o.mat.colstart, o.mat.M + 1), (o.mat.rowindex, o.mat.nnz), (o.mat.values, o.mat.nnz),
    (o.permc, o.mat.M), (o.permr, o.mat.N), (o.etree, o.mat.M), (o.R, o.mat.N), (o.C, o.mat.M), (o.L, 1), (o.U, 1), (b, 1), (x, 1)]

/-- The part common to the two `apply`s, after the checks. dune/istl/superlu.hh:573-648, 657-709. -/
def solveWith (H : Heap) (o : Obj) : Res (Heap × Obj × Ret) :=
  if o.reuse then
    if o.first then do
      let b := H.alloc 1
      let x := b.1.alloc 1
      solve x.1 o b.2 x.2
      .ok (x.1, { o with bStore := b.2, xStore := x.2, first := false }, .solved o.good)
    else do
      H.touchAll [(o.bStore, 1), (o.xStore, 1)]
      solve H o o.bStore o.xStore
      .ok (H, o, .solved o.good)
  else do
    let b := H.alloc 1
    let x := b.1.alloc 1
    solve x.1 o b.2 x.2
    let H ← x.1.freeAll [b.2, x.2]
    .ok (H, o, .solved o.good)

/-- `apply(x, b, res)`: the status returned by the library is ignored. dune/istl/superlu.hh:563-648. -/
def apply (H : Heap) (o : Obj) (bd xd : Nat) : Res (Heap × Obj × Ret) :=
  if o.mat.N ≠ bd then .ok (H, o, .threw .istlError)
  else if o.mat.M ≠ xd then .ok (H, o, .threw .istlError)
  else if o.mat.M + o.mat.N = 0 then .ok (H, o, .threw .istlError)
  else solveWith H o

/-- `apply(T* x, T* b)`. dune/istl/superlu.hh:652-710. -/
def applyC (H : Heap) (o : Obj) : Res (Heap × Obj × Ret) :=
  if o.mat.N + o.mat.M = 0 then .ok (H, o, .threw .istlError)
  else solveWith H o

/-- Destructor, followed by the one of the matrix member and of its base class.
dune/istl/superlu.hh:396-400, supermatrix.hh:219-223, bccsmatrix.hh:41-45. -/
def destroy (H : Heap) (o : Obj) : Res Heap := do
  let r ← freeIf H o
  let r ← matDestroy r.1 r.2
  let c ← r.2.mat.freeIf r.1
  .ok c.1

/-- Calls on an object. -/
inductive Op where
  | setMatrix (sub : Bool) (N M nnz : Nat) (good : Bool)
  | apply (bd xd : Nat)
  | applyC
  | free

/-- Execute one call. dune/istl/superlu.hh:403-710. -/
def step (H : Heap) (o : Obj) : Op → Res (Heap × Obj × Ret)
  | .setMatrix sub N M nnz good => do
    let r ← setMatrix H o sub N M nnz good
    .ok (r.1, r.2, .done)
  | .apply bd xd => apply H o bd xd
  | .applyC => applyC H o
  | .free => do
    let r ← free H o
    .ok (r.1, r.2, .done)

/-- Execute calls and collect what they report. -/
def exec (H : Heap) (o : Obj) : List Op → Res (Heap × Obj × List Ret)
  | [] => .ok (H, o, [])
  | c :: cs => do
    let r ← step H o c
    let t ← exec r.1 r.2.1 cs
    .ok (t.1, t.2.1, r.2.2 :: t.2.2)

/-- Construction, calls, destruction. The constructor taking a matrix is this one followed by `setMatrix`.
dune/istl/superlu.hh:423-436. -/
def run (H : Heap) (reuse : Bool) (cs : List Op) : Res (Heap × List Ret) := do
  let r ← exec H (ctor reuse) cs
  let H ← destroy r.1 r.2.1
  .ok (H, r.2.2)

end Slu
end Direct
end Istl
