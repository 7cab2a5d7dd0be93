import Verif.Model.BlockVec
import Verif.Model.Iter

/-!
# Iterators of `BlockVector` and `BlockVectorWindow`
dune/istl/basearray.hh:87-250.

An iterator is the pointer `p` of the array and a pointer `i` into it; the latter is kept as its distance from `p`. Forming
the pointer `p-1` of `beforeBegin()` is undefined in the C++ standard; here, as on every flat machine, it is an address like
any other and only reading or writing through it is undefined. `const` iterators have the same text.
-/

namespace Istl.BVec
open Istl.Iter (Dir Runs)
variable {B τ : Type}

/-- A vector or a window. -/
inductive Name where
  | vec (x : Nat)
  | win (k : Nat)

/-- The members `p` and `n` of the object. dune/istl/basearray.hh:282-283. -/
def base (w : World B) : Name → Res (Option Ptr × Nat)
  | .vec x =>
    match w.vec x with
    | some v => .ok (v.p, v.n)
    | none => .ub
  | .win k =>
    match w.win k with
    | some g => .ok (g.p, g.n)
    | none => .ub

/-- `RealIterator`: `p`, and `i` as `i-p`. dune/istl/basearray.hh:177-178. -/
structure It where
  p : Option Ptr
  d : Int

/-- The address of the iterator, relative to its block of memory. -/
def It.addr (it : It) : Option Nat × Int :=
  match it.p with
  | none => (none, it.d)
  | some q => (some q.blk, q.off + it.d)

/-- `index()`: `i-p` as a `size_type`. dune/istl/basearray.hh:123-126. -/
def It.index (W : Nat) (it : It) : Nat := (it.d % (W : Int)).toNat
/-- `equals(other)`. dune/istl/basearray.hh:129-140. -/
def It.equals (it other : It) : Bool := it.addr = other.addr
/-- `distanceTo(o)`. dune/istl/basearray.hh:142-145. -/
def It.distanceTo (it o : It) : Int := o.addr.2 - it.addr.2
/-- `increment()`. dune/istl/basearray.hh:149-152. -/
def It.increment (it : It) : It := { it with d := it.d + 1 }
/-- `decrement()`. dune/istl/basearray.hh:155-158. -/
def It.decrement (it : It) : It := { it with d := it.d - 1 }
/-- `advance(d)`. dune/istl/basearray.hh:172-175. -/
def It.advance (it : It) (k : Int) : It := { it with d := it.d + k }
/-- `*it` as a value. dune/istl/basearray.hh:167-170. -/
def It.deref (M : Mem B) (it : It) : Res B := if it.d < 0 then .ub else load M it.p it.d.toNat
/-- `*it = b`. dune/istl/basearray.hh:167-170. -/
def It.write (M : Mem B) (it : It) (b : B) : Res (Mem B) := if it.d < 0 then .ub else store M it.p it.d.toNat b
/-- `elementAt(offset)`. dune/istl/basearray.hh:161-164. -/
def It.elementAt (M : Mem B) (it : It) (k : Int) : Res B := It.deref M { it with d := it.d + k }

/-- `begin()`. dune/istl/basearray.hh:186-189, 221-224. -/
def itBegin (a : Option Ptr × Nat) : It := ⟨a.1, 0⟩
/-- `end()`. dune/istl/basearray.hh:192-195, 227-230. -/
def itEnd (a : Option Ptr × Nat) : It := ⟨a.1, a.2⟩
/-- `beforeEnd()`. dune/istl/basearray.hh:199-202, 234-237. -/
def itBeforeEnd (a : Option Ptr × Nat) : It := ⟨a.1, (a.2 : Int) - 1⟩
/-- `beforeBegin()`. dune/istl/basearray.hh:206-209, 241-244. -/
def itBeforeBegin (a : Option Ptr × Nat) : It := ⟨a.1, -1⟩
/-- `find(i)`. dune/istl/basearray.hh:212-215, 247-250. -/
def itFind (a : Option Ptr × Nat) (i : Nat) : It := ⟨a.1, (min i a.2 : Nat)⟩

/-- First iterator of a loop. dune/istl/basearray.hh:186-202. -/
def itStart (a : Option Ptr × Nat) : Dir → It
  | .up => itBegin a
  | .down => itBeforeEnd a
/-- Iterator that ends a loop. dune/istl/basearray.hh:192-209. -/
def itStop (a : Option Ptr × Nat) : Dir → It
  | .up => itEnd a
  | .down => itBeforeBegin a
/-- Step of a loop. dune/istl/basearray.hh:149-158. -/
def itNext : Dir → It → It
  | .up => It.increment
  | .down => It.decrement

/-- The body: `f(i.index(), *i, s)` with a state `s` of its own, which may ask for `*i` to be overwritten. -/
def itBody (W : Nat) (f : Nat → B → τ → Option B × τ) (it : It) (st : World B × τ) : Res (World B × τ) := do
  let b ← It.deref st.1.mem it
  match f (it.index W) b st.2 with
  | (none, s) => .ok (st.1, s)
  | (some y, s) => do
    let M ← It.write st.1.mem it y
    .ok ({ st.1 with mem := M }, s)

/-- `for (it; it != a.end(); ++it) body` (or down to `beforeBegin()`), from the iterator `it`. -/
def PassFrom (W : Nat) (d : Dir) (a : Name) (f : Nat → B → τ → Option B × τ) (it : It) :
    World B × τ → Res (World B × τ) → Prop :=
  Runs (fun it st => do
      let q ← base st.1 a
      .ok (!(it.equals (itStop q d))))
    (itNext d) (fun it st r => r = itBody W f it st) it

/-- `for (i = a.begin(); i != a.end(); ++i) body`, or `for (i = a.beforeEnd(); i != a.beforeBegin(); --i) body`. -/
def Pass (W : Nat) (d : Dir) (a : Name) (f : Nat → B → τ → Option B × τ) (w : World B) (s : τ) (r : Res (World B × τ)) :
    Prop :=
  match base w a with
  | .ok q => PassFrom W d a f (itStart q d) (w, s) r
  | .throw e => r = .throw e
  | .ub => r = .ub

end Istl.BVec
