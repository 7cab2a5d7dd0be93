import Verif.Model.VbVector
import Verif.Model.Iter

/-!
# Iterators over the blocks of a `VariableBlockVector` (dune/istl/vbvector.hh)

`IndexedIterator` (dune-common, not in /repo; assumed): constructed from an iterator of the `std::vector` of windows it has index 0 whatever
the position; `++`, `--` and `+=` move the iterator and the index, a number of type `size_type` modulo `W`; `==` compares the iterators.
Simplification: the standard leaves `--block.begin()` undefined; here it is the position before the first window, as on flat memory.
`ConstIterator` has the same text.
-/

namespace Istl
namespace VbV
open Iter (Dir)
variable {τ : Type}

/-- `IndexedIterator`: position in `block`, `index()`. dune/istl/vbvector.hh:414, 446. -/
structure It where
  pos : Int
  idx : Nat

/-- `++it`. dune-common, dune/istl/vbvector.hh:414. -/
def It.inc (W : Nat) (it : It) : It := ⟨it.pos + 1, (it.idx + 1) % W⟩
/-- `--it`. dune-common, dune/istl/vbvector.hh:414. -/
def It.dec (W : Nat) (it : It) : It := ⟨it.pos - 1, (it.idx + (W - 1)) % W⟩
/-- `it == other`. dune-common, dune/istl/vbvector.hh:414. -/
def It.equals (it other : It) : Bool := it.pos == other.pos
/-- `*it`: the window at this position; undefined outside. dune/istl/vbvector.hh:414. -/
def It.deref (o : Obj) (it : It) : Res Win := if 0 ≤ it.pos then rd o.block it.pos.toNat else .ub

/-- `v.begin()`. dune/istl/vbvector.hh:417-420, 452-455. -/
def itBegin (_ : Obj) : It := ⟨0, 0⟩
/-- `v.end()`. dune/istl/vbvector.hh:423-426, 458-461. -/
def itEnd (o : Obj) : It := ⟨o.block.length, 0⟩
/-- `v.beforeEnd()`: `Iterator{--block.end()}`. dune/istl/vbvector.hh:430-433, 465-468. -/
def itBeforeEnd (o : Obj) : It := ⟨(o.block.length : Int) - 1, 0⟩
/-- `v.beforeBegin()`: `Iterator{--block.begin()}`. dune/istl/vbvector.hh:437-440, 472-475. -/
def itBeforeBegin (_ : Obj) : It := ⟨-1, 0⟩
/-- `v.find(i)`: `begin()` moved by `min(i, size)`. dune/istl/vbvector.hh:484-497. -/
def itFind (W : Nat) (o : Obj) (i : Nat) : It := ⟨(min i o.block.length : Nat), (0 + min i o.block.length) % W⟩

/-- Start of a loop. dune/istl/vbvector.hh:417-433. -/
def itStart (o : Obj) : Dir → It
  | .up => itBegin o
  | .down => itBeforeEnd o
/-- Iterator that ends the loop. dune/istl/vbvector.hh:423-440. -/
def itStop (o : Obj) : Dir → It
  | .up => itEnd o
  | .down => itBeforeBegin o
/-- Step of the loop. -/
def itStep (W : Nat) : Dir → It → It
  | .up => It.inc W
  | .down => It.dec W

/-- `body(it.index(), *it)`; the state `x` holds the memory and the other variables of the caller. -/
def itBody (o : Obj) (body : Nat → Win → τ → Res τ) (it : It) (x : τ) : Res τ := do
  let w ← it.deref o
  body it.idx w x

/-- `for (auto it = …; it != stop; ++it) body(it.index(), *it)` (or `--it`): how the loop can end. A loop that does not end has no result. -/
inductive BlockLoop (W : Nat) (o : Obj) (d : Dir) (body : Nat → Win → τ → Res τ) (stop : It) : It → τ → Res τ → Prop
  | done {it x} : it.equals stop = true → BlockLoop W o d body stop it x (.ok x)
  | next {it x y r} : it.equals stop = false → itBody o body it x = .ok y → BlockLoop W o d body stop (itStep W d it) y r →
      BlockLoop W o d body stop it x r
  | left {it x r} : it.equals stop = false → itBody o body it x = r → (∀ y, r ≠ .ok y) → BlockLoop W o d body stop it x r

end VbV
end Istl
