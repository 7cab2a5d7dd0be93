import Verif.Model.Heap
import Verif.Model.Gsetc
import Mathlib.Logic.Function.Basic

/-!
# `BlockVector` objects, their storage, and the windows that look into it

Model of the memory management of `BlockVector` (dune/istl/bvector.hh:391-564) over `std::vector`, of the element access
of its base class (dune/istl/basearray.hh), and of `Imp::BlockVectorWindow` (dune/istl/bvector.hh:619-727).
A block of memory holds exactly the elements that are constructed at present, so that reading or assigning an element
that was not constructed, or was destroyed, is undefined behaviour. Elements of an array are numbered, addresses are
(block, offset) pairs. Simplifications: `data()` of a vector without capacity is null; `size_type` is unbounded; the
exceptions `std::length_error` and `std::bad_alloc`, and whatever the copy of an element throws, are all `lengthError`.
-/

namespace Istl.BVec
variable {B : Type}

/-- A `std::vector`: its allocation, `size()`, `capacity()`. The member `storage_` of dune/istl/bvector.hh:563. -/
structure Stor where
  blk : Option Nat
  size : Nat
  cap : Nat
  deriving DecidableEq, Repr

/-- A default constructed `std::vector`. dune/istl/bvector.hh:418, 563. -/
def Stor.empty : Stor := ⟨none, 0, 0⟩

/-- `storage_.data()`. dune/istl/bvector.hh:559. -/
def Stor.data (s : Stor) : Option Ptr := s.blk.map fun b => ⟨b, 0⟩

/-- A `BlockVector` object: `storage_` and the members `p`, `n` of its base class. dune/istl/bvector.hh:563,
dune/istl/basearray.hh:282-283. -/
structure Vec where
  st : Stor
  p : Option Ptr
  n : Nat
  deriving DecidableEq, Repr

/-- A `BlockVectorWindow` object: pointer and size. dune/istl/bvector.hh:619-727. -/
structure Window where
  p : Option Ptr
  n : Nat
  deriving DecidableEq, Repr

/-- All objects of a program, by name, and the memory. A name without an object belongs to no object yet, or to one whose
destructor ran. -/
structure World (B : Type) where
  mem : Mem B
  vec : Nat → Option Vec
  win : Nat → Option Window

/-- What the environment decides during one call: whether allocation succeeds, after how many copies or constructions of
elements one throws (if any), and how much more capacity than needed the allocation obtains. -/
structure Luck where
  alloc : Bool := true
  fails : Option Nat := none
  extra : Nat := 0

/-- Does the construction or copy of `k` elements end early, and after how many? -/
def Luck.stop (lk : Luck) (k : Nat) : Option Nat :=
  match lk.fails with
  | none => none
  | some j => if j < k then some j else none

/-! ### `std::vector` -/

/-- The elements `[0, size())`. Contract of `std::vector`, used by the members of dune/istl/bvector.hh:418-547. -/
def elems (M : Mem B) (s : Stor) : Res (List B) := M.read s.data s.size

/-- Allocate room for `cap` elements (or more) and construct `l` in it; on failure nothing is kept. Contract of
`std::vector`, used by dune/istl/bvector.hh:454, 472, 500, 524. -/
def fresh (lk : Luck) (M : Mem B) (l : List B) (cap : Nat) (made : Nat) : Out (Mem B) Stor :=
  if lk.alloc = false then .throw .lengthError M
  else
    match lk.stop made with
    | some _ => .throw .lengthError M
    | none => .ok ⟨some M.length, l.length, cap + lk.extra⟩ (M ++ [some l])

/-- Return the memory of a vector. Contract of `~std::vector`, used by dune/istl/bvector.hh:391. -/
def release (M : Mem B) (s : Stor) : Res (Mem B) := M.free s.data

/-- Take the new allocation of `fresh` and give back the old one. -/
def replace (M : Mem B) (s : Stor) (o : Out (Mem B) Stor) : Out (Mem B × Stor) Unit :=
  match o with
  | .throw e M' => .throw e (M', s)
  | .ub => .ub
  | .ok s' M' =>
    match release M' s with
    | .ok M'' => .ok () (M'', s')
    | .throw e => .throw e (M', s)
    | .ub => .ub

/-- Overwrite the list of constructed elements of a vector that keeps its allocation. -/
def inPlace (M : Mem B) (s : Stor) (l : List B) : Res (Mem B × Stor) :=
  match s.blk with
  | none => if l = [] then .ok (M, { s with size := 0 }) else .ub
  | some b =>
    match M[b]? with
    | some (some _) => .ok (M.set b (some l), { s with size := l.length })
    | _ => .ub

/-- Normal return of `inPlace`. -/
def settle (r : Res (Mem B × Stor)) : Out (Mem B × Stor) Unit :=
  match r with
  | .ok s => .ok () s
  | .throw e => .throw e (([], Stor.empty) : Mem B × Stor)
  | .ub => .ub

/-- `storage_.reserve(c)`: nothing below the capacity, otherwise a new allocation with copies of the elements.
Contract of `std::vector::reserve`, called at dune/istl/bvector.hh:454, 472. -/
def vReserve (lk : Luck) (c : Nat) : Cmd (Mem B × Stor) Unit := fun (M, s) =>
  if c ≤ s.cap then .ok () (M, s)
  else
    match elems M s with
    | .ok l => replace M s (fresh lk M l c l.length)
    | .throw e => .throw e (M, s)
    | .ub => .ub

/-- `storage_.resize(k)`: destroy the last elements, or append value-initialised ones, in place within the capacity; a
failing call has no effect. Contract of `std::vector::resize`, called at dune/istl/bvector.hh:455, 500 (and, on an empty
vector, of the constructor `storage_(_n)` at line 424). -/
def vResize (vini : B) (lk : Luck) (k : Nat) : Cmd (Mem B × Stor) Unit := fun (M, s) =>
  match elems M s with
  | .throw e => .throw e (M, s)
  | .ub => .ub
  | .ok l =>
    if k ≤ s.size then settle (inPlace M s (l.take k))
    else if k ≤ s.cap then
      match lk.stop (k - s.size) with
      | some _ => .throw .lengthError (M, s)
      | none => settle (inPlace M s (l ++ List.replicate (k - s.size) vini))
    else replace M s (fresh lk M (l ++ List.replicate (k - s.size) vini) k k)

/-- `storage_ = src` for the elements `src` of another vector (or of an initializer list): within the capacity the old
elements are assigned, further ones constructed, superfluous ones destroyed; if an element throws, the elements assigned so
far stay and elements constructed by the call are destroyed again. Beyond the capacity a failing call has no effect.
Contract of `std::vector::operator=`, called at dune/istl/bvector.hh:507, 524 (430 for the list). -/
def vAssign (lk : Luck) (src : List B) : Cmd (Mem B × Stor) Unit := fun (M, s) =>
  match elems M s with
  | .throw e => .throw e (M, s)
  | .ub => .ub
  | .ok l =>
    if src.length ≤ s.cap then
      match lk.stop src.length with
      | some j =>
        match inPlace M s (src.take (min j s.size) ++ l.drop (min j s.size)) with
        | .ok t => .throw .lengthError t
        | .throw e => .throw e (M, s)
        | .ub => .ub
      | none => settle (inPlace M s src)
    else replace M s (fresh lk M src src.length src.length)

/-! ### Members of `BlockVector` -/

/-- `syncBaseArray()`. dune/istl/bvector.hh:557-561. -/
def sync (s : Stor) : Vec := ⟨s, s.data, s.size⟩

/-- A name gets an object, or loses it. -/
def World.setVec (w : World B) (x : Nat) (v : Option Vec) : World B := { w with vec := Function.update w.vec x v }

/-- A name gets a window. -/
def World.setWin (w : World B) (k : Nat) (g : Window) : World B := { w with win := Function.update w.win k (some g) }

/-- A member of the object called `x`; calling a member of an object that does not exist is undefined.
dune/istl/bvector.hh:391. -/
def withVec (x : Nat) (f : Vec → World B → Out (World B) Unit) : Cmd (World B) Unit := fun w =>
  match w.vec x with
  | some v => f v w
  | none => .ub

/-- A member of the window called `k`. dune/istl/bvector.hh:619. -/
def withWin (k : Nat) (f : Window → World B → Out (World B) Unit) : Cmd (World B) Unit := fun w =>
  match w.win k with
  | some g => f g w
  | none => .ub

/-- A member whose scope guard calls `syncBaseArray()` on every way out, around an operation of `storage_`.
dune/istl/bvector.hh:349-372 (`ScopeGuard`), 470-471, 498-499, 522-523. -/
def guarded (x : Nat) (f : Cmd (Mem B × Stor) Unit) : Cmd (World B) Unit := withVec x fun v w =>
    match f (w.mem, v.st) with
    | .ok _ (M, s) => .ok () ({ w with mem := M }.setVec x (some (sync s)))
    | .throw e (M, s) => .throw e ({ w with mem := M }.setVec x (some (sync s)))
    | .ub => .ub

/-- A constructor: the operation `f` on the empty `storage_`, then `syncBaseArray()`; if `f` throws, `storage_` is
destroyed and there is no object. dune/istl/bvector.hh:418-456, 504-509. -/
def construct (x : Nat) (f : Cmd (Mem B × Stor) Unit) : Cmd (World B) Unit := fun w =>
  match w.vec x with
  | some _ => .ub
  | none =>
    match f (w.mem, Stor.empty) with
    | .ok _ (M, s) => .ok () ({ w with mem := M }.setVec x (some (sync s)))
    | .throw e (M, s) =>
      match release M s with
      | .ok M' => .throw e { w with mem := M' }
      | .throw e' => .throw e' { w with mem := M }
      | .ub => .ub
    | .ub => .ub

/-- `BlockVector()`. dune/istl/bvector.hh:418-421. -/
def ctor (x : Nat) : Cmd (World B) Unit := construct x (pure ())

/-- `BlockVector(n)`. dune/istl/bvector.hh:424-427. -/
def ctorSize (vini : B) (lk : Luck) (x n : Nat) : Cmd (World B) Unit := construct x (vResize vini lk n)

/-- `BlockVector{...}`. dune/istl/bvector.hh:430-433. -/
def ctorList (lk : Luck) (x : Nat) (l : List B) : Cmd (World B) Unit := construct x (vAssign lk l)

/-- `BlockVector(n, capacity)`. dune/istl/bvector.hh:447-456. The environment answers the two operations of `storage_`
separately. -/
def ctorCap (vini : B) (lk lk' : Luck) (x n c : Nat) : Cmd (World B) Unit :=
  construct x do
    if c > n then vReserve lk c
    vResize vini lk' n

/-- `BlockVector(const BlockVector& a)`. dune/istl/bvector.hh:504-509. -/
def ctorCopy (lk : Luck) (x y : Nat) : Cmd (World B) Unit := withVec y fun a w =>
    match elems w.mem a.st with
    | .ok l => construct x (vAssign lk l) w
    | .throw e => .throw e w
    | .ub => .ub

/-- `reserve(c)`. dune/istl/bvector.hh:468-473. -/
def reserve (lk : Luck) (x c : Nat) : Cmd (World B) Unit := guarded x (vReserve lk c)

/-- `capacity()`. dune/istl/bvector.hh:481-484. -/
def capacity (w : World B) (x : Nat) : Option Nat := (w.vec x).map fun v => v.st.cap

/-- `resize(k)`. dune/istl/bvector.hh:496-501. -/
def resize (vini : B) (lk : Luck) (x k : Nat) : Cmd (World B) Unit := guarded x (vResize vini lk k)

/-- `operator=(const BlockVector& a)`: `storage_ = a.storage_`, which does nothing when both are the same vector.
dune/istl/bvector.hh:519-526. -/
def assign (lk : Luck) (x y : Nat) : Cmd (World B) Unit := withVec y fun a w =>
    if x = y then guarded x (pure ()) w
    else
      match elems w.mem a.st with
      | .ok l => guarded x (vAssign lk l) w
      | .throw e => .throw e w
      | .ub => .ub

/-- `swap(other)`: exchange the storages, then synchronise both. dune/istl/bvector.hh:537-546. -/
def swap (x y : Nat) : Cmd (World B) Unit := withVec x fun v => withVec y fun u w =>
  if x = y then .ok () (w.setVec x (some (sync v.st)))
  else .ok () ((w.setVec x (some (sync u.st))).setVec y (some (sync v.st)))

/-- `BlockVector(BlockVector&& a)`: swap with the empty object. dune/istl/bvector.hh:512-516. -/
def ctorMove (x y : Nat) : Cmd (World B) Unit := do
  construct x (pure ())
  swap x y

/-- `operator=(BlockVector&& a)`. dune/istl/bvector.hh:529-534. -/
def assignMove (x y : Nat) : Cmd (World B) Unit := swap x y

/-- `~BlockVector()` (implicit): destroys `storage_`. dune/istl/bvector.hh:391, 563. -/
def dtor (x : Nat) : Cmd (World B) Unit := withVec x fun v w =>
    match release w.mem v.st with
    | .ok M => .ok () ({ w with mem := M }.setVec x none)
    | .throw e => .throw e w
    | .ub => .ub

/-! ### Members of the base class, for objects with a pointer and a size -/

/-- `p+i`. dune/istl/basearray.hh:74, 83. -/
def shift (p : Option Ptr) (i : Nat) : Option Ptr := p.map fun q => ⟨q.blk, q.off + i⟩

/-- `operator[](i)` (read). dune/istl/basearray.hh:78-84. -/
def load (M : Mem B) (p : Option Ptr) (i : Nat) : Res B :=
  match M.read (shift p i) 1 with
  | .ok (b :: _) => .ok b
  | .ok [] => .ub
  | .throw e => .throw e
  | .ub => .ub

/-- `operator[](i) = b`. dune/istl/basearray.hh:69-75. -/
def store (M : Mem B) (p : Option Ptr) (i : Nat) (b : B) : Res (Mem B) := M.write (shift p i) [b]

/-- `operator=(k)`: every block is assigned the scalar, here any value `b`. dune/istl/bvector.hh:115-120. -/
def fillBase (M : Mem B) (p : Option Ptr) (n : Nat) (b : B) : Res (Mem B) :=
  forRangeM n (fun i M => store M p i b) M

/-- A base class operation on the memory. -/
def onMem (f : Mem B → Res (Mem B)) : Cmd (World B) Unit := fun w =>
  match f w.mem with
  | .ok M => .ok () { w with mem := M }
  | .throw e => .throw e w
  | .ub => .ub

/-- `x.size()`. dune/istl/basearray.hh:256-259. -/
def size (w : World B) (x : Nat) : Option Nat := (w.vec x).map Vec.n

/-- `x[i]`. dune/istl/basearray.hh:78-84. -/
def get (w : World B) (x i : Nat) : Res B :=
  match w.vec x with
  | some v => load w.mem v.p i
  | none => .ub

/-- `x[i] = b`. dune/istl/basearray.hh:69-75. -/
def put (x i : Nat) (b : B) : Cmd (World B) Unit := withVec x fun v =>
  onMem fun M => store M v.p i b

/-- `x = k`. dune/istl/bvector.hh:549-554. -/
def fill (x : Nat) (b : B) : Cmd (World B) Unit := withVec x fun v =>
  onMem fun M => fillBase M v.p v.n b

/-! ### Windows -/

/-- `BlockVectorWindow(x.data()+off, len)`, and `set(len, x.data()+off)`. dune/istl/bvector.hh:650-654, 698-702;
`data()`: dune/istl/basearray.hh:262-271. -/
def winAt (k x off len : Nat) : Cmd (World B) Unit := withVec x fun v w =>
  .ok () (w.setWin k ⟨shift v.p off, len⟩)

/-- `BlockVectorWindow(const BlockVectorWindow& a)`. dune/istl/bvector.hh:657-661. -/
def winCopy (k g : Nat) : Cmd (World B) Unit := withWin g fun a w =>
  .ok () (w.setWin k ⟨a.p, a.n⟩)

/-- `setsize(n)`. dune/istl/bvector.hh:705-708. -/
def winSetsize (k n : Nat) : Cmd (World B) Unit := withWin k fun a w =>
  .ok () (w.setWin k { a with n := n })

/-- `setptr(x.data()+off)`. dune/istl/bvector.hh:711-714. -/
def winSetptr (k x off : Nat) : Cmd (World B) Unit := withVec x fun v => withWin k fun a w =>
  .ok () (w.setWin k { a with p := shift v.p off })

/-- The loop `this->p[i]=a.p[i]`. dune/istl/bvector.hh:674. -/
def copyLoop (M : Mem B) (p q : Option Ptr) (n : Nat) : Res (Mem B) :=
  forRangeM n (fun i M => do store M p i (← load M q i)) M

/-- `operator=(const BlockVectorWindow& a)`, without the check of the sizes (line 667 is compiled only with
DUNE_ISTL_WITH_CHECKING). dune/istl/bvector.hh:664-677. -/
def winAssign (k g : Nat) : Cmd (World B) Unit := withWin k fun t => withWin g fun a w =>
  if g ≠ k then onMem (fun M => copyLoop M t.p a.p t.n) w else .ok () w

/-- `operator=(k)` of a window. dune/istl/bvector.hh:680-684. -/
def winFill (k : Nat) (b : B) : Cmd (World B) Unit := withWin k fun t =>
  onMem fun M => fillBase M t.p t.n b

/-- `w.getsize()`. dune/istl/bvector.hh:723-726. -/
def winSize (w : World B) (k : Nat) : Option Nat := (w.win k).map Window.n

/-- `w[i]`. dune/istl/basearray.hh:78-84. -/
def winGet (w : World B) (k i : Nat) : Res B :=
  match w.win k with
  | some g => load w.mem g.p i
  | none => .ub

/-- `w[i] = b`. dune/istl/basearray.hh:69-75. -/
def winPut (k i : Nat) (b : B) : Cmd (World B) Unit := withWin k fun t =>
  onMem fun M => store M t.p i b

/-- `operator BlockVector() const`: a vector of the same size, then `std::copy`. dune/istl/bvector.hh:687-694.
Simplification: assigning a block to an existing one does not throw. -/
def winVector (vini : B) (lk : Luck) (x k : Nat) : Cmd (World B) Unit := withWin k fun t => Cmd.bind
  (ctorSize vini lk x t.n)
  fun _ => withVec x fun v => onMem fun M => copyLoop M v.p t.p t.n

end Istl.BVec
