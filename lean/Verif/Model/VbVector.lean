import Verif.Model.Heap
import Verif.Model.Gsetc

/-!
# `VariableBlockVector`: dune/istl/vbvector.hh

Several vectors live in one memory. Build: DUNE_ISTL_WITH_CHECKING not defined; scalar elements.
Simplifications: `std::vector` reallocates on every `resize`, so pointers kept across a `resize` are dangling in the model;
an empty `std::vector` has `data() == nullptr`; `nullptr + k` is `nullptr`.
-/

namespace Istl
namespace VbV

variable {B : Type}

/-- A `std::vector<B>`: its buffer and size. -/
structure Vec where
  buf : Option Nat
  size : Nat
  deriving DecidableEq, Repr

/-- `data()`. -/
def Vec.data (v : Vec) : Option Ptr := v.buf.map fun b => ⟨b, 0⟩

/-- Construct a `std::vector` with the given contents. -/
def vecMake (M : Mem B) (l : List B) : Mem B × Vec :=
  if l = [] then (M, ⟨none, 0⟩) else (M ++ [some l], ⟨some M.length, l.length⟩)

/-- The contents. -/
def vecRead (M : Mem B) (v : Vec) : Res (List B) := M.read v.data v.size

/-- `resize(k)`: keeps the first elements, appends value-initialised ones. -/
def vecResize (M : Mem B) (v : Vec) (k : Nat) (z : B) : Res (Mem B × Vec) := do
  let l ← vecRead M v
  let r := vecMake M (l.take k ++ List.replicate (k - l.length) z)
  let M2 ← r.1.free v.data
  .ok (M2, r.2)

/-- `Imp::BlockVectorWindow`: size and pointer. dune/istl/bvector.hh:619-727. -/
structure Win where
  sz : Nat
  p : Option Ptr
  deriving DecidableEq, Repr

/-- The data members: base array `p`, `n`; `block`, `storage_`, `initialized`. dune/istl/vbvector.hh:547-549. -/
structure Obj where
  p : Option Ptr
  n : Nat
  block : List Win
  storage : Vec
  init : Bool
  deriving DecidableEq, Repr

/-- `syncBaseArray()`. dune/istl/vbvector.hh:541-545. -/
def sync (o : Obj) : Obj := { o with p := o.storage.data, n := o.storage.size }

/-- Default constructor. dune/istl/vbvector.hh:102-104. -/
def ctorEmpty : Obj := { p := none, n := 0, block := [], storage := ⟨none, 0⟩, init := false }

/-- Constructor with the number of blocks. dune/istl/vbvector.hh:112-115. -/
def ctorN (nb : Nat) : Obj := { ctorEmpty with block := List.replicate nb ⟨0, none⟩ }

/-- Pointer arithmetic. -/
def padd (p : Option Ptr) (k : Nat) : Option Ptr := p.map fun q => { q with off := q.off + k }

/-- The windows of `nb` blocks of constant size. dune/istl/vbvector.hh:134-135, 218-219. -/
def constWins (p : Option Ptr) (nb bs : Nat) : List Win := (List.range nb).map fun i => ⟨bs, padd p (i * bs)⟩

/-- Constructor with constant block size. dune/istl/vbvector.hh:125-139. -/
def ctorConst (M : Mem B) (z : B) (nb bs : Nat) : Mem B × Obj :=
  let r := vecMake M (List.replicate (nb * bs) z)
  let o := sync { ctorEmpty with storage := r.2 }
  (r.1, { o with block := constWins o.p nb bs, init := true })

/-- Windows are chained: each starts where its predecessor ends. dune/istl/vbvector.hh:150-154, 533-535. -/
def chain : Option Ptr → List Win → List Win
  | _, [] => []
  | p, w :: ws => ⟨w.sz, p⟩ :: chain (padd p w.sz) ws

/-- Copy constructor. dune/istl/vbvector.hh:142-158. -/
def copyCtor (M : Mem B) (a : Obj) : Res (Mem B × Obj) := do
  let l ← vecRead M a.storage
  let r := vecMake M l
  let o := sync { a with storage := r.2 }
  .ok (r.1, { o with block := chain o.p o.block, init := a.init })

/-- `swap(other)`: first the members, then both base arrays. dune/istl/vbvector.hh:178-187. -/
def swap (a b : Obj) : Obj × Obj :=
  (sync { a with storage := b.storage, block := b.block, init := b.init },
   sync { b with storage := a.storage, block := a.block, init := a.init })

/-- Destructor: the storage is released. dune/istl/vbvector.hh:167. -/
def dtor (M : Mem B) (a : Obj) : Res (Mem B) := M.free a.storage.data

/-- Copy assignment: copy and swap, the temporary then holds the old contents and dies. dune/istl/vbvector.hh:171-175. -/
def assign (M : Mem B) (a rhs : Obj) : Res (Mem B × Obj) := do
  let (M1, tmp) ← copyCtor M rhs
  let (tmp', a') := swap tmp a
  let M2 ← dtor M1 tmp'
  .ok (M2, a')

/-- Move constructor: returns the new object and what is left of the argument. dune/istl/vbvector.hh:161-165. -/
def moveCtor (tmp : Obj) : Obj × Obj :=
  let (tmp', this) := swap tmp ctorEmpty
  (this, tmp')

/-- `block.resize(numBlocks)`: `std::vector::resize` keeps the first windows. -/
def resizeBlocks (ws : List Win) (nb : Nat) : List Win := ws.take nb ++ List.replicate (nb - ws.length) ⟨0, none⟩

/-- `resize(numBlocks)`. dune/istl/vbvector.hh:196-207. -/
def resizeN (M : Mem B) (z : B) (o : Obj) (nb : Nat) : Res (Mem B × Obj) := do
  let (M1, st) ← vecResize M o.storage 0 z
  let o := sync { o with storage := st }
  .ok (M1, { o with block := resizeBlocks o.block nb, init := false })

/-- `resize(numBlocks, blockSize)`. dune/istl/vbvector.hh:210-223. -/
def resizeConst (M : Mem B) (z : B) (o : Obj) (nb bs : Nat) : Res (Mem B × Obj) := do
  let (M1, st) ← vecResize M o.storage (nb * bs) z
  let o := sync { o with storage := st, block := resizeBlocks o.block nb }
  .ok (M1, { o with block := constWins o.p o.block.length bs, init := true })

/-- `*it = k` / `it.setblocksize(k)` with the create iterator at position `i`. dune/istl/vbvector.hh:250-254, 351-357. -/
def setblocksize (o : Obj) (i k : Nat) : Res Obj :=
  match o.block[i]? with
  | none => .ub
  | some w => .ok { o with block := o.block.set i { w with sz := k } }

/-- `allocate()`; `block[0]` on an empty vector is undefined. dune/istl/vbvector.hh:519-539. -/
def allocate (M : Mem B) (z : B) (o : Obj) : Res (Mem B × Obj) :=
  if o.init then .throw .istlError
  else do
    let (M1, st) ← vecResize M o.storage (o.block.map Win.sz).sum z
    let o := sync { o with storage := st }
    if o.block = [] then .ub
    else .ok (M1, { o with block := chain o.p o.block, init := true })

/-- `~CreateIterator()` of an iterator at position `i` that is not the end iterator. dune/istl/vbvector.hh:304-313. -/
def dtorIter (M : Mem B) (z : B) (o : Obj) (i : Nat) : Res (Mem B × Obj) :=
  if i = o.block.length ∧ ¬ o.init then allocate M z o else .ok (M, o)

/-- The body of a building loop at block `i`: set the size, or leave it alone. -/
def createStep (o : Obj) (i : Nat) : Option Nat → Res Obj
  | none => .ok o
  | some k => setblocksize o i k

/-- A building loop `for (auto it = v.createbegin(); it != v.createend(); ++it) ...` whose body sets the size of block `i` to
`sizes[i]` (or leaves it, for `none`). dune/istl/vbvector.hh:298-390. -/
def createGo (o : Obj) : Nat → List (Option Nat) → Res Obj
  | _, [] => .ok o
  | i, k :: ks => do
    let o ← createStep o i k
    createGo o (i + 1) ks

/-- The building loop followed by the destruction of the iterator. -/
def create (M : Mem B) (z : B) (o : Obj) (sizes : List (Option Nat)) : Res (Mem B × Obj) := do
  let o ← createGo o 0 sizes
  dtorIter M z o sizes.length

/-- `v[i][k]`. dune/istl/vbvector.hh:397-413, dune/istl/basearray.hh:68-74. -/
def readElem (M : Mem B) (o : Obj) (i k : Nat) : Res B :=
  match o.block[i]? with
  | none => .ub
  | some w => do
    let l ← M.read (padd w.p k) 1
    rd l 0

/-- `v[i]`, all elements of a block. -/
def readBlock (M : Mem B) (o : Obj) (i : Nat) : Res (List B) :=
  match o.block[i]? with
  | none => .ub
  | some w => M.read w.p w.sz

/-- `v[i][k] = x`. dune/istl/vbvector.hh:397-413, dune/istl/basearray.hh:68-74. -/
def writeElem (M : Mem B) (o : Obj) (i k : Nat) (x : B) : Res (Mem B) :=
  match o.block[i]? with
  | none => .ub
  | some w => M.write (padd w.p k) [x]

/-- One step of an element-wise update of the flat array `p[0..n)`: `p[i] = f(p[i], y.p[i])`. -/
def flatStep (f : B → B → B) (p y : Option Ptr) (i : Nat) (M : Mem B) : Res (Mem B) := do
  let a ← M.read (padd p i) 1
  let b ← M.read (padd y i) 1
  match a, b with
  | [a], [b] => M.write (padd p i) [f a b]
  | _, _ => .ub

/-- Element-wise update with another vector: `operator+=`, `operator-=`, `axpy`; with itself as other argument also `operator*=`, `operator=`
(scalar). dune/istl/bvector.hh:115-167 on the base array. -/
def flatOp (f : B → B → B) (M : Mem B) (o y : Obj) : Res (Mem B) := forRangeM o.n (flatStep f o.p y.p) M

/-- Several vectors in one memory; `none`: destroyed. `z` is a value-initialised element. -/
structure World (B : Type) where
  mem : Mem B
  z : B
  objs : List (Option Obj)

/-- The object with number `i`; using a destroyed object is undefined. -/
def World.obj (w : World B) (i : Nat) : Res Obj :=
  match w.objs[i]? with
  | some (some o) => .ok o
  | _ => .ub

end VbV
end Istl
