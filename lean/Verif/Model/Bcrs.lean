import Verif.Model.Heap
import Verif.Model.Row
import Mathlib.Algebra.Order.Floor.Ring
import Mathlib.Data.Rat.Floor

/-!
# `BCRSMatrix`: memory, construction and copying

Function by function model of the storage side of dune/istl/bcrsmatrix.hh.
Build: DUNE_ISTL_WITH_CHECKING not defined, block type with trivial destructor.
-/

namespace Istl

/-- `BCRSMatrix::BuildMode`. dune/istl/bcrsmatrix.hh:506-539. -/
inductive BuildMode where
  | rowWise | random | implicit | unknown
  deriving DecidableEq, Repr

/-- `BCRSMatrix::BuildStage`. dune/istl/bcrsmatrix.hh:469-483 (`notbuilt` = `notAllocated`). -/
inductive Stage where
  | notAllocated | building | rowSizesBuilt | built
  deriving DecidableEq, Repr

/-- A row window: size `n`, data pointer `p`, index pointer `j`. `Imp::CompressedBlockVectorWindow`,
dune/istl/bvector.hh:993-1107 over dune/istl/basearray.hh:540-542. -/
structure Win where
  sz : Nat
  p : Option Ptr
  j : Option Ptr
  deriving DecidableEq, Repr

/-- The memory used by all matrices of a program: index arrays and data arrays, plus what fresh memory contains:
`junk` (uninitialised indices, arbitrary), `dflt` (a default-initialised block, `new (a) B[]`) and `vini` (a
value-initialised block, `B()` made by `std::map::operator[]`). -/
structure Heap (B : Type) where
  js : Mem Nat
  as : Mem B
  junk : Nat
  dflt : B
  vini : B

/-- The data members of a `BCRSMatrix`. dune/istl/bcrsmatrix.hh:2047-2080.
`rows` is the row array `r` (`none` = nullptr), `a` and `jarr` the blocks of the data and (shared) index array.
`cbs` is `compressionBufferSize_`, a double, modelled as a rational (-1 = not set). `ov` is the overflow `std::map`, as
its ordered list of key/value pairs. -/
structure Obj (B : Type) where
  mode : BuildMode
  ready : Stage
  n : Nat
  m : Nat
  nnz : Nat
  alloc : Nat
  rows : Option (List Win)
  a : Option Nat
  jarr : Option Nat
  avg : Nat
  cbs : ℚ
  ov : List ((Nat × Nat) × B)

/-- One matrix object together with the memory. -/
structure St (B : Type) where
  h : Heap B
  o : Obj B

/-- Calls on one matrix. -/
abbrev BC (B α : Type) := Cmd (St B) α

namespace Bcrs
variable {B : Type}

/-- Default constructor. dune/istl/bcrsmatrix.hh:735-739. -/
def empty (mode : BuildMode := .unknown) (avg : Nat := 0) (cbs : ℚ := -1) : Obj B :=
  { mode := mode, ready := .notAllocated, n := 0, m := 0, nnz := 0, alloc := 0, rows := none, a := none, jarr := none,
    avg := avg, cbs := cbs, ov := [] }

/-- Change the object. -/
def setO (f : Obj B → Obj B) : BC B Unit := Cmd.modify fun s => { s with o := f s.o }

/-- `allocateData()`. dune/istl/bcrsmatrix.hh:2286-2299. -/
def allocateData : BC B Unit := fun s =>
  if s.o.a.isSome then .throw .invalidState s
  else if 0 < s.o.alloc then
    let (as', b) := s.h.as.alloc (List.replicate s.o.alloc s.h.dflt)
    .ok () { h := { s.h with as := as' }, o := { s.o with a := some b } }
  else .ok () { s with o := { s.o with a := none } }

/-- The part of `allocate()` that creates the row array. dune/istl/bcrsmatrix.hh:2250-2262. -/
def allocateRows (rows : Nat) : BC B Unit := fun s =>
  if 0 < rows then
    if s.o.rows.isSome then .throw .invalidState s
    else .ok () { s with o := { s.o with rows := some (List.replicate rows ⟨0, none, none⟩) } }
  else .ok () { s with o := { s.o with rows := none } }

/-- The part of `allocate()` that creates the index array unless it is shared already. dune/istl/bcrsmatrix.hh:2268-2278. -/
def allocateIdx : BC B Unit := fun s =>
  if 0 < s.o.alloc then
    match s.o.jarr with
    | some _ => .ok () s
    | none =>
      let (js', b) := s.h.js.alloc (List.replicate s.o.alloc s.h.junk)
      .ok () { h := { s.h with js := js' }, o := { s.o with jarr := some b } }
  else .ok () { s with o := { s.o with jarr := none } }

/-- `allocate(rows, columns, allocationSize, allocateRows, allocate_data)`. dune/istl/bcrsmatrix.hh:2241-2283. -/
def allocate (rows cols asz : Nat) (allocRows allocData : Bool) : BC B Unit := do
  setO fun o => { o with n := rows, m := cols, nnz := asz, alloc := asz }
  if allocRows then allocateRows rows
  if allocData then allocateData
  allocateIdx
  setO fun o => { o with ready := .building }

/-- Release individually allocated rows. dune/istl/bcrsmatrix.hh:2192-2207 (destructors of blocks are trivial here). -/
def freeRows (h : Heap B) : List Win → Res (Heap B × List Win)
  | [] => .ok (h, [])
  | w :: ws =>
    if 0 < w.sz then do
      let js ← h.js.free w.j
      let as ← h.as.free w.p
      let (h', ws') ← freeRows { h with js := js, as := as } ws
      .ok (h', ⟨0, none, none⟩ :: ws')
    else do
      let (h', ws') ← freeRows h ws
      .ok (h', w :: ws')

/-- `deallocate(deallocateRows)`. dune/istl/bcrsmatrix.hh:2172-2219. The first `if` of the code tests an enumerator that is
zero and never returns. The shared index array stays alive as long as somebody refers to it (`std::shared_ptr`), so
resetting `j_` frees nothing in the model. -/
def deallocate (deallocRows : Bool) : BC B Unit := fun s =>
  let r : Res (St B) :=
    if 0 < s.o.alloc then
      match s.o.a with
      | some b =>
        match s.h.as.free (some ⟨b, 0⟩) with
        | .ok as => .ok { h := { s.h with as := as }, o := { s.o with jarr := none, a := none } }
        | .throw e => .throw e
        | .ub => .ub
      | none => .ok { s with o := { s.o with jarr := none } }
    else
      match s.o.rows with
      | some ws =>
        match freeRows s.h (ws.take s.o.n) with
        | .ok (h', ws') => .ok { h := h', o := { s.o with rows := some (ws' ++ ws.drop s.o.n) } }
        | .throw e => .throw e
        | .ub => .ub
      | none => .ok s
  match r with
  | .ok s' =>
    .ok () { s' with o := { s'.o with rows := if deallocRows ∧ 0 < s'.o.n then none else s'.o.rows,
                                      ready := .notAllocated } }
  | .throw e => .throw e s
  | .ub => .ub

/-- Overflow area size of `implicit_allocate`. dune/istl/bcrsmatrix.hh:2316; the double expression is evaluated exactly. -/
def osize (n avg : Nat) (cbs : ℚ) : Nat := ⌊(n * avg : ℚ) * cbs + 4 * avg⌋₊

/-- `implicit_allocate(_n,_m)`. dune/istl/bcrsmatrix.hh:2306-2334. -/
def implicitAllocate (n m : Nat) : BC B Unit := do
  let s ← Cmd.get
  if s.o.mode ≠ .implicit then Cmd.raise .invalidState
  else if s.o.ready ≠ .notAllocated then Cmd.raise .invalidState
  else if s.o.cbs < 0 then Cmd.raise .invalidState
  else do
    let os := osize n s.o.avg s.o.cbs
    allocate n m (n * s.o.avg + os) true true
    setO fun o => { o with
      rows := o.rows.map fun ws => (List.range ws.length).map fun i =>
        ⟨0, o.a.map fun b => ⟨b, os + i * o.avg⟩, o.jarr.map fun b => ⟨b, os + i * o.avg⟩⟩
      ready := .building }

/-- Constructors with size, optional nnz and build mode. dune/istl/bcrsmatrix.hh:742-758 (`nnz = 0`: not given). -/
def ctor (n m nnz : Nat) (bm : BuildMode) : BC B Unit := do
  setO fun _ => empty bm
  allocate n m nnz true false

/-- Constructor for implicit mode. dune/istl/bcrsmatrix.hh:771-786. -/
def ctorImplicit (n m avg : Nat) (cbs : ℚ) (bm : BuildMode) : BC B Unit := do
  setO fun _ => empty bm avg cbs
  if bm ≠ .implicit then Cmd.raise .bcrsMatrixError
  else if cbs < 0 then Cmd.raise .bcrsMatrixError
  else implicitAllocate n m

/-- `setBuildMode(bm)`. dune/istl/bcrsmatrix.hh:823-834. -/
def setBuildMode (bm : BuildMode) : BC B Unit := fun s =>
  if s.o.ready = .notAllocated then .ok () { s with o := { s.o with mode := bm } }
  else if s.o.ready = .building ∧ (s.o.mode = .unknown ∨ s.o.mode = .random ∨ s.o.mode = .rowWise) ∧
      (bm = .rowWise ∨ bm = .random) then .ok () { s with o := { s.o with mode := bm } }
  else .throw .invalidState s

/-- `setSize(rows,columns,nnz)`. dune/istl/bcrsmatrix.hh:851-870. -/
def setSize (rows cols nnz : Nat) : BC B Unit := do
  deallocate true
  let s ← Cmd.get
  if s.o.mode = .implicit then
    if 0 < nnz then Cmd.raise .bcrsMatrixError
    else implicitAllocate rows cols
  else allocate rows cols nnz true false

/-- `setImplicitBuildModeParameters(avg, cbs)`. dune/istl/bcrsmatrix.hh:880-894. -/
def setImplicitBuildModeParameters (avg : Nat) (cbs : ℚ) : BC B Unit := fun s =>
  if cbs < 0 then .throw .bcrsMatrixError s
  else if s.o.ready ≠ .notAllocated then .throw .invalidState s
  else .ok () { s with o := { s.o with avg := avg, cbs := cbs } }

/-- `r[i]`: access to the row array, undefined outside. -/
def row (i : Nat) : BC B Win := fun s =>
  match s.o.rows with
  | none => .ub
  | some ws => match ws[i]? with
    | some w => .ok w s
    | none => .ub

/-- Store the window `r[i]`. -/
def setRow (i : Nat) (w : Win) : BC B Unit := fun s =>
  match s.o.rows with
  | none => .ub
  | some ws => if i < ws.length then .ok () { s with o := { s.o with rows := some (ws.set i w) } } else .ub

/-! ### Random build mode -/

/-- `setrowsize(i,s)`. dune/istl/bcrsmatrix.hh:1103-1111. -/
def setrowsize (i sz : Nat) : BC B Unit := do
  let s ← Cmd.get
  if s.o.mode ≠ .random then Cmd.raise .bcrsMatrixError
  else if s.o.ready ≠ .building then Cmd.raise .bcrsMatrixError
  else do
    let w ← row i
    setRow i { w with sz := sz }

/-- `incrementrowsize(i,s)`. dune/istl/bcrsmatrix.hh:1124-1132. -/
def incrementrowsize (i sz : Nat) : BC B Unit := do
  let s ← Cmd.get
  if s.o.mode ≠ .random then Cmd.raise .bcrsMatrixError
  else if s.o.ready ≠ .building then Cmd.raise .bcrsMatrixError
  else do
    let w ← row i
    setRow i { w with sz := w.sz + sz }

/-- Sum of the sizes of the first `n` rows; `none` when the row array is missing although `n > 0`.
dune/istl/bcrsmatrix.hh:1142-1147, 2012. -/
def totalSize (o : Obj B) : Nat := (((o.rows.getD []).take o.n).map Win.sz).sum

/-- `setColumnPointers(begin())`: rows are laid out one after the other in the index array.
dune/istl/bcrsmatrix.hh:2109-2128. -/
def colPointers (jb : Option Nat) : Nat → List Win → List Win
  | _, [] => []
  | off, w :: ws =>
    (if 0 < w.sz then { w with j := jb.map fun b => ⟨b, off⟩ } else ⟨0, none, none⟩) :: colPointers jb (off + w.sz) ws

/-- Allocation or check of the index array in `endrowsizes()`. dune/istl/bcrsmatrix.hh:1149-1155. -/
def endrowsizesAlloc (o : Obj B) : BC B Unit :=
  if o.nnz = 0 then allocate o.n o.m (totalSize o) false false
  else if o.nnz < totalSize o then Cmd.raise .bcrsMatrixError
  else pure ()

/-- `endrowsizes()`. dune/istl/bcrsmatrix.hh:1135-1165. -/
def endrowsizes : BC B Unit := do
  let s ← Cmd.get
  if s.o.mode ≠ .random then Cmd.raise .bcrsMatrixError
  else if s.o.ready ≠ .building then Cmd.raise .bcrsMatrixError
  else do
    endrowsizesAlloc s.o
    setO fun o => { o with rows := o.rows.map (colPointers o.jarr 0) }
    let s ← Cmd.get
    let js ← Cmd.lift (s.h.js.write (s.o.jarr.map fun b => ⟨b, 0⟩) (List.replicate s.o.nnz s.o.m))
    Cmd.modify fun s => { s with h := { s.h with js := js } }
    setO fun o => { o with ready := .rowSizesBuilt }

/-- `pos != last && *pos == col`. dune/istl/bcrsmatrix.hh:1202. -/
def idxFound (xs : List Nat) (sz pos col : Nat) : Res Bool :=
  if pos = sz then .ok false
  else match xs[pos]? with
    | some x => .ok (decide (x = col))
    | none => .ub

/-- `addindex(row,col)`. dune/istl/bcrsmatrix.hh:1179-1212. `xs` is the row's part of the index array;
`copy_backward(pos,end,end+1); *pos = col` shifts `xs[pos..end)` by one. -/
def addindex (r col : Nat) : BC B Unit := do
  let s ← Cmd.get
  if s.o.mode ≠ .random then Cmd.raise .bcrsMatrixError
  else if s.o.ready = .built then Cmd.raise .bcrsMatrixError
  else if s.o.ready = .building then Cmd.raise .bcrsMatrixError
  else if s.o.ready = .notAllocated then Cmd.raise .bcrsMatrixError
  else if s.o.m ≤ col then Cmd.raise .bcrsMatrixError
  else do
    let w ← row r
    let xs ← Cmd.lift (s.h.js.read w.j w.sz)
    let pos ← Cmd.lift (lowerBound xs w.sz col)
    let found ← Cmd.lift (idxFound xs w.sz pos col)
    if found then pure ()
    else do
      let e ← Cmd.lift (lowerBoundGo xs s.o.m pos (w.sz - pos))
      if e = w.sz then Cmd.raise .bcrsMatrixError
      else do
        let js ← Cmd.lift (s.h.js.write w.j (xs.take pos ++ col :: (xs.take e).drop pos ++ xs.drop (e + 1)))
        Cmd.modify fun s => { s with h := { s.h with js := js } }

/-- `setIndicesNoSort(row,begin,end)`: the copy happens before the length check. dune/istl/bcrsmatrix.hh:1223-1235. -/
def setIndicesNoSort (r : Nat) (cols : List Nat) : BC B Unit := do
  let w ← row r
  let s ← Cmd.get
  let js ← Cmd.lift (s.h.js.write w.j cols)
  Cmd.modify fun s => { s with h := { s.h with js := js } }
  if cols.length ≠ w.sz then Cmd.raise .bcrsMatrixError

/-- `setIndices(row,begin,end)`: same, then `std::sort`. dune/istl/bcrsmatrix.hh:1247-1260. -/
def setIndices (r : Nat) (cols : List Nat) : BC B Unit := do
  let w ← row r
  let s ← Cmd.get
  let js ← Cmd.lift (s.h.js.write w.j cols)
  Cmd.modify fun s => { s with h := { s.h with js := js } }
  if cols.length ≠ w.sz then Cmd.raise .bcrsMatrixError
  else do
    let js ← Cmd.lift (js.write w.j (cols.mergeSort (· ≤ ·)))
    Cmd.modify fun s => { s with h := { s.h with js := js } }

/-- The loop of `endindices()` over the rows: cut every row at its first invalid index and lower `nnz_` by what was cut.
dune/istl/bcrsmatrix.hh:1275-1288. -/
def truncRows (js : Mem Nat) (m : Nat) : List Win → Nat → Res (List Win × Nat)
  | [], nnz => .ok ([], nnz)
  | w :: ws, nnz => do
    let xs ← js.read w.j w.sz
    let k := (xs.takeWhile (· < m)).length
    let (ws', nnz') ← truncRows js m ws (nnz - (w.sz - k))
    .ok ({ w with sz := k } :: ws', nnz')

/-- `setDataPointers()`. dune/istl/bcrsmatrix.hh:2135-2151. -/
def dataPointers (ab : Option Nat) : Nat → List Win → List Win
  | _, [] => []
  | off, w :: ws =>
    (if 0 < w.sz then { w with p := ab.map fun b => ⟨b, off⟩ } else ⟨0, none, none⟩) :: dataPointers ab (off + w.sz) ws

/-- `endindices()`. dune/istl/bcrsmatrix.hh:1263-1296. -/
def endindices : BC B Unit := do
  let s ← Cmd.get
  if s.o.mode ≠ .random then Cmd.raise .bcrsMatrixError
  else if s.o.ready = .built then Cmd.raise .bcrsMatrixError
  else if s.o.ready = .building then Cmd.raise .bcrsMatrixError
  else if s.o.ready = .notAllocated then Cmd.raise .bcrsMatrixError
  else do
    let (ws, nnz) ← Cmd.lift (truncRows s.h.js s.o.m (s.o.rows.getD []) s.o.nnz)
    setO fun o => { o with rows := o.rows.map fun _ => ws, nnz := nnz }
    allocateData
    setO fun o => { o with rows := o.rows.map (dataPointers o.a 0), ready := .built }

/-! ### Queries -/

/-- `nonzeroes()`: caches the sum of the row sizes in the mutable member. dune/istl/bcrsmatrix.hh:2008-2014. -/
def nonzeroes : BC B Nat := fun s =>
  let k := if s.o.nnz = 0 then totalSize s.o else s.o.nnz
  .ok k { s with o := { s.o with nnz := k } }

/-- The entries of row window `w`, as the iterators deliver them. dune/istl/basearray.hh:460-476. -/
def winRow (h : Heap B) (w : Win) : Res (Row B) := do
  let js ← h.js.read w.j w.sz
  let as ← h.as.read w.p w.sz
  .ok (js.zip as)

/-- All rows, as the iterators deliver them. -/
def rowsView (h : Heap B) : List Win → Res (List (Row B))
  | [] => .ok []
  | w :: ws => do
    let r ← winRow h w
    let rs ← rowsView h ws
    .ok (r :: rs)

/-- Everything a user sees of a built matrix: `N()`, `M()` and the rows. -/
def view (s : St B) : Res (Nat × Nat × List (Row B)) := do
  let rs ← rowsView s.h ((s.o.rows.getD []).take s.o.n)
  .ok (s.o.n, s.o.m, rs)

/-! ### Row-wise build mode -/

/-- `CreateIterator`: current row, number of entries so far, pattern of the current row (a `std::set`, as ascending list)
and the pointer `current_row.j` into the index array. dune/istl/bcrsmatrix.hh:1085-1092. -/
structure CIter where
  i : Nat
  nnz : Nat
  pat : List Nat
  cur : Option Ptr

/-- `createbegin()`: the constructor of `CreateIterator` with `i = 0`. dune/istl/bcrsmatrix.hh:960-975, 1079-1082. -/
def createbegin : BC B CIter := do
  setO fun o => if o.mode = .unknown ∧ o.ready = .building then { o with mode := .rowWise } else o
  let s ← Cmd.get
  if s.o.ready ≠ .building then Cmd.raise .bcrsMatrixError
  else if s.o.mode ≠ .rowWise then Cmd.raise .bcrsMatrixError
  else do
    if s.o.n = 0 then setO fun o => { o with ready := .built }
    pure { i := 0, nnz := 0, pat := [], cur := s.o.jarr.map fun b => ⟨b, 0⟩ }

/-- `CreateIterator::insert(j)`: insertion into an ordered set. dune/istl/bcrsmatrix.hh:1062-1065. -/
def CIter.insert (c : CIter) (j : Nat) : CIter :=
  { c with pat := c.pat.takeWhile (· < j) ++ j :: (c.pat.dropWhile (· < j)).dropWhile (· == j) }

/-- Memory and window for the current row. dune/istl/bcrsmatrix.hh:987-1018. Returns the new `current_row.j`. -/
def CIter.place (c : CIter) (nnz : Nat) : BC B (Option Ptr) := fun s =>
  let sz := c.pat.length
  if 0 < sz then
    if 0 < s.o.nnz then
      if s.o.nnz < nnz then .throw .bcrsMatrixError s
      else (do
        setRow c.i ⟨sz, none, c.cur⟩
        pure (c.cur.map fun p => { p with off := p.off + sz }) : BC B (Option Ptr)) s
    else
      let (as, ab) := s.h.as.alloc (List.replicate sz s.h.dflt)
      let (js, jb) := s.h.js.alloc (List.replicate sz s.h.junk)
      (do
        setRow c.i ⟨sz, some ⟨ab, 0⟩, some ⟨jb, 0⟩⟩
        pure c.cur : BC B (Option Ptr)) { s with h := { s.h with as := as, js := js } }
  else (do
    setRow c.i ⟨0, none, none⟩
    pure c.cur : BC B (Option Ptr)) s

/-- The actions after the last row. dune/istl/bcrsmatrix.hh:1027-1040. -/
def CIter.finish (c : CIter) (nnz : Nat) : BC B Unit := fun s =>
  if c.i + 1 = s.o.n then
    if 0 < s.o.nnz then
      (do
        setO fun o => { o with ready := .built, nnz := nnz }
        allocateData
        setO fun o => { o with rows := o.rows.map (dataPointers o.a 0) } : BC B Unit) s
    else .ok () { s with o := { s.o with ready := .built } }
  else .ok () s

/-- `CreateIterator::operator++`. dune/istl/bcrsmatrix.hh:978-1043. -/
def CIter.next (c : CIter) : BC B CIter := do
  let s ← Cmd.get
  if s.o.ready ≠ .building then Cmd.raise .bcrsMatrixError
  else do
    let nnz := c.nnz + c.pat.length
    let cur ← c.place nnz
    let w ← row c.i
    let s ← Cmd.get
    let js ← Cmd.lift (s.h.js.write w.j c.pat)
    Cmd.modify fun s => { s with h := { s.h with js := js } }
    c.finish nnz
    pure { i := c.i + 1, nnz := nnz, pat := [], cur := cur }

/-! ### Implicit build mode -/

/-- Ordering of the keys of the overflow map, `std::less<std::pair<size_type,size_type>>`. -/
def keyLt (a b : Nat × Nat) : Bool := decide (a.1 < b.1) || (a.1 == b.1 && decide (a.2 < b.2))

/-- `overflow[key] = f(overflow[key])` on the ordered list of pairs; a missing key is created with `vini`.
dune/istl/bcrsmatrix.hh:1344 (`std::map::operator[]`). -/
def ovModify (vini : B) (key : Nat × Nat) (f : B → B) : List ((Nat × Nat) × B) → List ((Nat × Nat) × B)
  | [] => [(key, f vini)]
  | e :: es =>
    if keyLt e.1 key then e :: ovModify vini key f es
    else if keyLt key e.1 then (key, f vini) :: e :: es
    else (e.1, f e.2) :: es

/-- `f` applied to the reference returned by `entry(row,col)`. dune/istl/bcrsmatrix.hh:1312-1361 (the stage tests are
compiled only with DUNE_ISTL_WITH_CHECKING, see `entryChecked`). -/
def entry (r col : Nat) (f : B → B) : BC B Unit := do
  let w ← row r
  let s ← Cmd.get
  let xs ← Cmd.lift (s.h.js.read w.j w.sz)
  let pos := xs.findIdx (· == col)
  if pos < w.sz then do
    let ap := w.p.map fun p => { p with off := p.off + pos }
    let v ← Cmd.lift (s.h.as.read ap 1)
    let as ← Cmd.lift (s.h.as.write ap (v.map f))
    Cmd.modify fun s => { s with h := { s.h with as := as } }
  else if w.sz = s.o.avg then setO fun o => { o with ov := ovModify s.h.vini (r, col) f o.ov }
  else do
    let js ← Cmd.lift (s.h.js.write (w.j.map fun p => { p with off := p.off + w.sz }) [col])
    setRow r { w with sz := w.sz + 1 }
    let ap := w.p.map fun p => { p with off := p.off + w.sz }
    let v ← Cmd.lift (s.h.as.read ap 1)
    let as ← Cmd.lift (s.h.as.write ap (v.map f))
    Cmd.modify fun s => { s with h := { s.h with js := js, as := as } }

/-- `entry(row,col)` in a build with DUNE_ISTL_WITH_CHECKING. dune/istl/bcrsmatrix.hh:1314-1328. -/
def entryChecked (r col : Nat) (f : B → B) : BC B Unit := do
  let s ← Cmd.get
  if s.o.mode ≠ .implicit then Cmd.raise .bcrsMatrixError
  else if s.o.ready = .built then Cmd.raise .bcrsMatrixError
  else if s.o.ready = .notAllocated then Cmd.raise .bcrsMatrixError
  else if s.o.ready ≠ .building then Cmd.raise .invalidState
  else if s.o.n ≤ r then Cmd.raise .bcrsMatrixError
  else if s.o.m ≤ col then Cmd.raise .bcrsMatrixError
  else entry r col f

/-- Loop variables of `compress()`: insertion offsets `jiit - j_`, `aiit - a`, remaining overflow entries. -/
structure Cmp (B : Type) where
  jit : Nat
  ait : Nat
  ov : List ((Nat × Nat) × B)

/-- Write one entry to the insertion position, after the check `jiit > begin`. dune/istl/bcrsmatrix.hh:1432-1442. -/
def cmpPut (begin_ col : Nat) (v : B) (c : Cmp B) : BC B (Cmp B) := do
  if begin_ < c.jit then Cmd.raise .compressionBufferExhausted
  else do
    let s ← Cmd.get
    let js ← Cmd.lift (s.h.js.write (s.o.jarr.map fun b => ⟨b, c.jit⟩) [col])
    let as ← Cmd.lift (s.h.as.write (s.o.a.map fun b => ⟨b, c.ait⟩) [v])
    Cmd.modify fun s => { s with h := { s.h with js := js, as := as } }
    pure { c with jit := c.jit + 1, ait := c.ait + 1 }

/-- `r[i].setsize(r[i].getsize()+1)`. dune/istl/bcrsmatrix.hh:1443, 1479. -/
def bumpRow (i : Nat) : BC B Unit := do
  let w ← row i
  setRow i { w with sz := w.sz + 1 }

/-- Condition of an overflow loop for the next overflow key `k`: with a current pointer `p` it is `k < (i, **it)`, `**it`
being read from the current memory; without, `k.first == i`. dune/istl/bcrsmatrix.hh:1429, 1466. -/
def cmpTakes (s : St B) (i : Nat) (src : Option Nat) (k : Nat × Nat) : Res Bool :=
  match src with
  | none => .ok (k.1 == i)
  | some p => do
    let x ← s.h.js.read (s.o.jarr.map fun b => ⟨b, p⟩) 1
    .ok (keyLt k (i, x.headD 0))

/-- The overflow loops. dune/istl/bcrsmatrix.hh:1429-1445 (`src` = current pointer), 1466-1481 (`src = none`). -/
def cmpOv (i begin_ : Nat) (src : Option Nat) : List ((Nat × Nat) × B) → Cmp B → BC B (Cmp B)
  | [], c => pure { c with ov := [] }
  | e :: es, c => do
    let s ← Cmd.get
    let t ← Cmd.lift (cmpTakes s i src e.1)
    if t then do
      let c ← cmpPut begin_ e.1.2 e.2 c
      bumpRow i
      cmpOv i begin_ src es c
    else pure { c with ov := e :: es }

/-- Copy the entry at offset `p` to the insertion position. dune/istl/bcrsmatrix.hh:1447-1460; the test for space precedes
the reads. -/
def cmpMove (begin_ p : Nat) (c : Cmp B) : BC B (Cmp B) := do
  if begin_ < c.jit then Cmd.raise .compressionBufferExhausted
  else do
    let s ← Cmd.get
    let x ← Cmd.lift (s.h.js.read (s.o.jarr.map fun b => ⟨b, p⟩) 1)
    let js ← Cmd.lift (s.h.js.write (s.o.jarr.map fun b => ⟨b, c.jit⟩) x)
    let v ← Cmd.lift (s.h.as.read (s.o.a.map fun b => ⟨b, p⟩) 1)
    let as ← Cmd.lift (s.h.as.write (s.o.a.map fun b => ⟨b, c.ait⟩) v)
    Cmd.modify fun s => { s with h := { s.h with js := js, as := as } }
    pure { c with jit := c.jit + 1, ait := c.ait + 1 }

/-- The loop over the sorted pointers `perm` (offsets into the index array). dune/istl/bcrsmatrix.hh:1426-1461. -/
def cmpPerm (i begin_ : Nat) : List Nat → Cmp B → BC B (Cmp B)
  | [], c => pure c
  | p :: ps, c => do
    let c ← cmpOv i begin_ (some p) c.ov c
    let c ← cmpMove begin_ p c
    cmpPerm i begin_ ps c

/-- One round of the row loop of `compress()`. dune/istl/bcrsmatrix.hh:1402-1485. `begin_` is the offset of the row's old
index pointer in the index array (irrelevant for a null pointer). `std::sort` with `PointerCompare` is modelled by
a (stable) sort of the pointers by the indices they point to. -/
def cmpRow (i : Nat) (c : Cmp B) : BC B (Cmp B) := do
  let w ← row i
  let s ← Cmd.get
  let xs ← Cmd.lift (s.h.js.read w.j w.sz)
  let begin_ := (w.j.map Ptr.off).getD 0
  let perm := ((xs.zipIdx begin_).mergeSort (fun a b => decide (a.1 ≤ b.1))).map Prod.snd
  setRow i { w with j := s.o.jarr.map fun b => ⟨b, c.jit⟩, p := s.o.a.map fun b => ⟨b, c.ait⟩ }
  let c ← cmpPerm i begin_ perm c
  cmpOv i begin_ none c.ov c

/-- The row loop. -/
def cmpRows : List Nat → Cmp B → BC B (Cmp B)
  | [], c => pure c
  | i :: is, c => do
    let c ← cmpRow i c
    cmpRows is c

/-- `nnz_` after compression: end of the last row. dune/istl/bcrsmatrix.hh:1493-1504. -/
def cmpNnz (n : Nat) : BC B Unit :=
  if n = 0 then pure ()
  else do
    let w ← row (n - 1)
    setO fun o => { o with nnz := ((w.j.map Ptr.off).getD 0) + w.sz }

/-- `compress()`. dune/istl/bcrsmatrix.hh:1376-1512. Simplification: the returned statistics are dropped. -/
def compress : BC B Unit := do
  let s ← Cmd.get
  if s.o.mode ≠ .implicit then Cmd.raise .bcrsMatrixError
  else if s.o.ready = .built then Cmd.raise .bcrsMatrixError
  else if s.o.ready = .notAllocated then Cmd.raise .bcrsMatrixError
  else if s.o.ready ≠ .building then Cmd.raise .invalidState
  else do
    let _ ← cmpRows (List.range s.o.n) { jit := 0, ait := 0, ov := s.o.ov }
    setO fun o => { o with ov := [] }
    cmpNnz s.o.n
    setO fun o => { o with ready := .built }

/-! ### Values: scalar updates, copies -/

/-- `operator*=(k)`, `operator/=(k)` with `f = (· * k)` etc.: over the data array if `nnz_ > 0`, over the rows otherwise.
dune/istl/bcrsmatrix.hh:1517-1567. -/
def scaleRows (f : B → B) (as : Mem B) : List Win → Res (Mem B)
  | [] => .ok as
  | w :: ws => do
    let v ← as.read w.p w.sz
    let as ← as.write w.p (v.map f)
    scaleRows f as ws

/-- see `scaleRows`. -/
def scale (f : B → B) : BC B Unit := do
  let s ← Cmd.get
  if 0 < s.o.nnz then do
    let p := s.o.a.map fun b => (⟨b, 0⟩ : Ptr)
    let v ← Cmd.lift (s.h.as.read p s.o.nnz)
    let as ← Cmd.lift (s.h.as.write p (v.map f))
    Cmd.modify fun s => { s with h := { s.h with as := as } }
  else do
    let as ← Cmd.lift (scaleRows f s.h.as ((s.o.rows.getD []).take s.o.n))
    Cmd.modify fun s => { s with h := { s.h with as := as } }

/-- `operator=(k)` (scalar assignment). dune/istl/bcrsmatrix.hh:936-944. -/
def fill (k : B) : BC B Unit := do
  let s ← Cmd.get
  if s.o.ready ≠ .notAllocated ∧ s.o.ready ≠ .built then Cmd.raise .invalidState
  else if s.o.rows = none ∧ 0 < s.o.n then Cmd.undef
  else do
    let as ← Cmd.lift (scaleRows (fun _ => k) s.h.as ((s.o.rows.getD []).take s.o.n))
    Cmd.modify fun s => { s with h := { s.h with as := as } }

/-- `A[i][j] = f(A[i][j])`: write through the reference returned by the row's `operator[]`.
dune/istl/basearray.hh:331-337. -/
def modifyEntry (i j : Nat) (f : B → B) : BC B Unit := do
  let w ← row i
  let s ← Cmd.get
  let xs ← Cmd.lift (s.h.js.read w.j w.sz)
  let lb ← Cmd.lift (lowerBound xs w.sz j)
  if lb = w.sz then Cmd.raise .istlError
  else do
    let x ← Cmd.lift (rd xs lb)
    if x ≠ j then Cmd.raise .istlError
    else do
      let ap := w.p.map fun p => { p with off := p.off + lb }
      let v ← Cmd.lift (s.h.as.read ap 1)
      let as ← Cmd.lift (s.h.as.write ap (v.map f))
      Cmd.modify fun s => { s with h := { s.h with as := as } }

/-- `setWindowPointers(row)`: packed windows of the given sizes. dune/istl/bcrsmatrix.hh:2082-2101. -/
def packWins (ab jb : Option Nat) : Nat → List Nat → List Win
  | _, [] => []
  | off, sz :: szs =>
    (if 0 < sz then ⟨sz, ab.map fun b => ⟨b, off⟩, jb.map fun b => ⟨b, off⟩⟩ else ⟨0, none, none⟩)
      :: packWins ab jb (off + sz) szs

/-- `r[i] = Mat.r[i]` for all rows: element-wise copy of values and indices. dune/istl/bvector.hh:1043-1058,
dune/istl/bcrsmatrix.hh:2159. Simplification: source and destination of one row are read before they are written (they
either coincide or overlap with the destination lying before the source, where copying upwards gives the same result). -/
def copyRows (h : Heap B) : List Win → List Win → Res (Heap B)
  | d :: ds, s :: ss => do
    let v ← h.as.read s.p d.sz
    let as ← h.as.write d.p v
    let c ← h.js.read s.j d.sz
    let js ← h.js.write d.j c
    copyRows { h with as := as, js := js } ds ss
  | _, _ => .ok h

/-- The window set-up and the copy loop of `copyWindowStructure(Mat)`. dune/istl/bcrsmatrix.hh:2156-2159. -/
def copyContents (src : Obj B) : BC B Unit := fun s =>
  if s.o.n = 0 then .ok () s
  else
    match s.o.rows, src.rows with
    | some _, some sw =>
      let dw := packWins s.o.a s.o.jarr 0 ((sw.take s.o.n).map Win.sz)
      match copyRows s.h dw (sw.take s.o.n) with
      | .ok h => .ok () { h := h, o := { s.o with rows := some dw } }
      | .throw e => .throw e s
      | .ub => .ub
    | _, _ => .ub

/-- `copyWindowStructure(Mat)` on the destination `s.o`. dune/istl/bcrsmatrix.hh:2154-2164. -/
def copyWindowStructure (src : Obj B) : BC B Unit := do
  copyContents src
  setO fun o => { o with mode := .rowWise, ready := .built }

/-- Copy constructor. dune/istl/bcrsmatrix.hh:795-814. The destination starts as `empty`; `src` already had `nonzeroes()`
called on it, whose result is `nnz`. -/
def copyCtor (src : Obj B) (nnz : Nat) : BC B Unit := do
  setO fun _ => empty src.mode src.avg src.cbs
  if ¬ (src.ready = .notAllocated ∨ src.ready = .built) then Cmd.raise .invalidState
  else do
    setO fun o => { o with jarr := src.jarr }
    allocate src.n src.m nnz true true
    copyWindowStructure src

/-- `operator=(Mat)` for two different objects. dune/istl/bcrsmatrix.hh:908-937. Simplification: the second row-destroying block
(lines 921-926) is left out; it runs on the row pointer that `deallocate(true)` has just set to null and only calls the trivial
destructor of a row and `deallocate(nullptr, n)`. -/
def assign (src : Obj B) (nnz : Nat) : BC B Unit := do
  let s ← Cmd.get
  if ¬ ((s.o.ready = .notAllocated ∨ s.o.ready = .built) ∧ (src.ready = .notAllocated ∨ src.ready = .built)) then
    Cmd.raise .invalidState
  else do
    let realloc := decide (s.o.n ≠ src.n)
    deallocate realloc
    setO fun o => { o with nnz := nnz, jarr := src.jarr }
    allocate src.n src.m nnz realloc true
    copyWindowStructure src

end Bcrs
end Istl
