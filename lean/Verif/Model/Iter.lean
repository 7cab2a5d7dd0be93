import Verif.Model.BcrsWorld

/-!
# Iterators over the rows and the entries of a `BCRSMatrix`
dune/istl/bcrsmatrix.hh:571-731, dune/istl/basearray.hh:348-524.

Numbers of type `size_type` live modulo `W` (one more than the largest value); nothing is assumed of `W` except that the
sizes fit. A row iterator holds the array of rows and a position; the array itself does not change while values are changed.
The `const` iterators have the same text and are the same functions here. The assertions on `p` are left out: with `NDEBUG`
they are not there.
-/

namespace Istl
namespace Iter
open Bcrs BcrsWorld
variable {B τ I σ : Type}

/-- `++i` for a `size_type`. dune/istl/bcrsmatrix.hh:635-638. -/
def inc (W i : Nat) : Nat := (i + 1) % W
/-- `--i`, `n-1` for a `size_type`: wraps at zero. dune/istl/bcrsmatrix.hh:641-644. -/
def dec (W i : Nat) : Nat := (i + (W - 1)) % W
/-- `i+=diff`: the difference is converted to `size_type` first. dune/istl/bcrsmatrix.hh:646-649. -/
def adv (W i : Nat) (d : Int) : Nat := (((i : Int) + d) % (W : Int)).toNat
/-- A `size_type` read as `std::ptrdiff_t`. dune/istl/bcrsmatrix.hh:607-611. -/
def signed (W k : Nat) : Int := if 2 * k < W then k else (k : Int) - W

/-- `RealRowIterator`: array of rows and position. dune/istl/bcrsmatrix.hh:662-663. -/
structure RowIt where
  p : Option (List Win)
  i : Nat

/-- `*i`: the row at the position. dune/istl/bcrsmatrix.hh:657-660. -/
def RowIt.deref (it : RowIt) : Res Win :=
  match it.p with
  | none => .ub
  | some ws =>
    match ws[it.i]? with
    | some w => .ok w
    | none => .ub

/-- `index()`. dune/istl/bcrsmatrix.hh:602-605. -/
def RowIt.index (it : RowIt) : Nat := it.i
/-- `increment()`. dune/istl/bcrsmatrix.hh:635-638. -/
def RowIt.increment (W : Nat) (it : RowIt) : RowIt := { it with i := inc W it.i }
/-- `decrement()`. dune/istl/bcrsmatrix.hh:641-644. -/
def RowIt.decrement (W : Nat) (it : RowIt) : RowIt := { it with i := dec W it.i }
/-- `advance(diff)`. dune/istl/bcrsmatrix.hh:646-649. -/
def RowIt.advance (W : Nat) (it : RowIt) (d : Int) : RowIt := { it with i := adv W it.i d }
/-- `elementAt(diff)`: `p[i+diff]`. dune/istl/bcrsmatrix.hh:651-654. -/
def RowIt.elementAt (W : Nat) (it : RowIt) (d : Int) : Res Win := RowIt.deref { it with i := adv W it.i d }
/-- `distanceTo(other)`: `other.i-i`. dune/istl/bcrsmatrix.hh:607-617. -/
def RowIt.distanceTo (W : Nat) (it other : RowIt) : Int := signed W ((other.i + (W - it.i)) % W)
/-- `equals(other)`. dune/istl/bcrsmatrix.hh:620-631. -/
def RowIt.equals (it other : RowIt) : Bool := it.i == other.i

/-- `A.begin()`. dune/istl/bcrsmatrix.hh:671-674, 708-711. -/
def rowBegin (o : Obj B) : RowIt := ⟨o.rows, 0⟩
/-- `A.end()`. dune/istl/bcrsmatrix.hh:677-680, 714-717. -/
def rowEnd (o : Obj B) : RowIt := ⟨o.rows, o.n⟩
/-- `A.beforeEnd()`. dune/istl/bcrsmatrix.hh:684-687, 721-724. -/
def rowBeforeEnd (W : Nat) (o : Obj B) : RowIt := ⟨o.rows, dec W o.n⟩
/-- `A.beforeBegin()`: `Iterator(r,-1)`. dune/istl/bcrsmatrix.hh:691-694, 728-731. -/
def rowBeforeBegin (W : Nat) (o : Obj B) : RowIt := ⟨o.rows, W - 1⟩

/-- Iterator over the entries of a row: values, indices, position. dune/istl/basearray.hh:445-447. -/
structure ColIt where
  p : Option Ptr
  j : Option Ptr
  i : Nat

/-- The address `k` elements behind `p`. -/
def shift (p : Option Ptr) (k : Nat) : Option Ptr := p.map fun p => { p with off := p.off + k }

/-- One element at `p[k]`. -/
def at1 {α : Type} (M : Mem α) (p : Option Ptr) (k : Nat) : Res α := do
  let l ← M.read (shift p k) 1
  match l with
  | [x] => .ok x
  | _ => .ub

/-- `index()`: `j[i]`. dune/istl/basearray.hh:403-406. -/
def ColIt.index (h : Heap B) (it : ColIt) : Res Nat := at1 h.js it.j it.i
/-- `offset()`. dune/istl/basearray.hh:421-424. -/
def ColIt.offset (it : ColIt) : Nat := it.i
/-- `*it` as a value. dune/istl/basearray.hh:440-443. -/
def ColIt.deref (h : Heap B) (it : ColIt) : Res B := at1 h.as it.p it.i
/-- `*it = y`: the data arrays after writing through the reference. dune/istl/basearray.hh:440-443. -/
def ColIt.store (h : Heap B) (it : ColIt) (y : B) : Res (Mem B) := h.as.write (shift it.p it.i) [y]
/-- `increment()`. dune/istl/basearray.hh:428-431. -/
def ColIt.increment (W : Nat) (it : ColIt) : ColIt := { it with i := inc W it.i }
/-- `decrement()`. dune/istl/basearray.hh:434-437. -/
def ColIt.decrement (W : Nat) (it : ColIt) : ColIt := { it with i := dec W it.i }
/-- `equals(it)`. dune/istl/basearray.hh:388-399. -/
def ColIt.equals (it other : ColIt) : Bool := it.i == other.i

/-- `row.begin()`. dune/istl/basearray.hh:454-457, 492-495. -/
def colBegin (w : Win) : ColIt := ⟨w.p, w.j, 0⟩
/-- `row.end()`. dune/istl/basearray.hh:460-463, 498-501. -/
def colEnd (w : Win) : ColIt := ⟨w.p, w.j, w.sz⟩
/-- `row.beforeEnd()`. dune/istl/basearray.hh:467-470, 505-508. -/
def colBeforeEnd (W : Nat) (w : Win) : ColIt := ⟨w.p, w.j, dec W w.sz⟩
/-- `row.beforeBegin()`. dune/istl/basearray.hh:474-477, 512-515. -/
def colBeforeBegin (W : Nat) (w : Win) : ColIt := ⟨w.p, w.j, W - 1⟩

/-- `row.find(c)`. dune/istl/basearray.hh:480-486, 518-524. -/
def colFind (h : Heap B) (w : Win) (c : Nat) : Res ColIt := do
  let xs ← h.js.read w.j w.sz
  let lb ← lowerBound xs w.sz c
  if lb = w.sz then .ok (colEnd w)
  else do
    let x ← rd xs lb
    if x = c then .ok ⟨w.p, w.j, lb⟩ else .ok (colEnd w)

/-- The two directions of a loop: `begin`, `end`, `++` or `beforeEnd`, `beforeBegin`, `--`. -/
inductive Dir where
  | up
  | down

/-- First iterator of a loop over rows. dune/istl/bcrsmatrix.hh:671-694. -/
def rowStart (W : Nat) (o : Obj B) : Dir → RowIt
  | .up => rowBegin o
  | .down => rowBeforeEnd W o
/-- Iterator that ends a loop over rows. dune/istl/bcrsmatrix.hh:671-694. -/
def rowStop (W : Nat) (o : Obj B) : Dir → RowIt
  | .up => rowEnd o
  | .down => rowBeforeBegin W o
/-- Step of a loop over rows. dune/istl/bcrsmatrix.hh:635-644. -/
def rowNext (W : Nat) : Dir → RowIt → RowIt
  | .up => RowIt.increment W
  | .down => RowIt.decrement W
/-- First iterator of a loop over entries. dune/istl/basearray.hh:454-477. -/
def colStart (W : Nat) (w : Win) : Dir → ColIt
  | .up => colBegin w
  | .down => colBeforeEnd W w
/-- Iterator that ends a loop over entries. dune/istl/basearray.hh:454-477. -/
def colStop (W : Nat) (w : Win) : Dir → ColIt
  | .up => colEnd w
  | .down => colBeforeBegin W w
/-- Step of a loop over entries. dune/istl/basearray.hh:428-437. -/
def colNext (W : Nat) : Dir → ColIt → ColIt
  | .up => ColIt.increment W
  | .down => ColIt.decrement W

/-- A loop `for (it; ne(it); it = next(it)) body(it)`: what outcomes it has when it ends. A loop that runs forever has none. -/
inductive Runs (ne : I → σ → Res Bool) (next : I → I) (body : I → σ → Res σ → Prop) : I → σ → Res σ → Prop where
  | done {it s} : ne it s = .ok false → Runs ne next body it s (.ok s)
  | step {it s s' r} : ne it s = .ok true → body it s (.ok s') → Runs ne next body (next it) s' r → Runs ne next body it s r
  | bodyThrows {it s e} : ne it s = .ok true → body it s (.throw e) → Runs ne next body it s (.throw e)
  | bodyUndef {it s} : ne it s = .ok true → body it s .ub → Runs ne next body it s .ub
  | testThrows {it s e} : ne it s = .throw e → Runs ne next body it s (.throw e)
  | testUndef {it s} : ne it s = .ub → Runs ne next body it s .ub

/-- The body of the loop: `f` is called with `i.index()`, `j.index()`, `*j` and a state of its own; it may ask for `*j` to be
overwritten. -/
def entryBody (f : Nat → Nat → B → τ → Option B × τ) (ri : RowIt) (ci : ColIt) (st : World B × τ) : Res (World B × τ) := do
  let c ← ci.index st.1.h
  let b ← ci.deref st.1.h
  match f ri.index c b st.2 with
  | (none, s) => .ok (st.1, s)
  | (some y, s) => do
    let as ← ci.store st.1.h y
    .ok ({ st.1 with h := { st.1.h with as := as } }, s)

/-- `for (j = start; j != i->end(); ++j)` (or downwards). dune/istl/basearray.hh:388-477. -/
def RowPassFrom (W : Nat) (d : Dir) (f : Nat → Nat → B → τ → Option B × τ) (ri : RowIt) (start : ColIt) :
    World B × τ → Res (World B × τ) → Prop :=
  Runs (fun ci _ => do
      let w ← ri.deref
      .ok (!(ci.equals (colStop W w d))))
    (colNext W d) (fun ci st r => r = entryBody f ri ci st) start

/-- `for (j = i->begin(); j != i->end(); ++j)` (or downwards). dune/istl/basearray.hh:388-477. -/
def RowPass (W : Nat) (d : Dir) (f : Nat → Nat → B → τ → Option B × τ) (ri : RowIt) (st : World B × τ)
    (r : Res (World B × τ)) : Prop :=
  match ri.deref with
  | .ok w => RowPassFrom W d f ri (colStart W w d) st r
  | .throw e => r = .throw e
  | .ub => r = .ub

/-- `for (i = A.begin(); i != A.end(); ++i) for (j = i->begin(); j != i->end(); ++j) body` for the matrix `A_x`; `dr` and `dc`
are the directions of the outer and of the inner loop. dune/istl/bcrsmatrix.hh:602-731. -/
def Pass (W : Nat) (dr dc : Dir) (x : Nat) (f : Nat → Nat → B → τ → Option B × τ) (w : World B) (s : τ)
    (r : Res (World B × τ)) : Prop :=
  match obj w x with
  | .ok o => Runs (fun ri st => do
      let o ← obj st.1 x
      .ok (!(ri.equals (rowStop W o dr))))
    (rowNext W dr) (RowPass W dc f) (rowStart W o dr) (w, s) r
  | .throw e => r = .throw e
  | .ub => r = .ub

end Iter
end Istl
