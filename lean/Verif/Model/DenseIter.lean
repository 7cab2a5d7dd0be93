import Verif.Model.Dense
import Verif.Model.Iter

/-!
# Iterators over the rows of a dense `Matrix` (dune/istl/matrix.hh)

An iterator is a row number and a window. Row numbers and positions in the flat array are numbers of type `size_type` modulo `W`; on flat
memory `p + (-1)*columns_` is the address `columns_` before `p`. `ConstIterator` has the same text. Iterators are compared by address only.
-/

namespace Istl
namespace DenseIter
open Iter (Dir)
variable {B τ : Type}

/-- `Iterator`: `i`, and `window_` by its position in the flat array and its size. dune/istl/matrix.hh:358-361. -/
structure It where
  i : Nat
  ptr : Nat
  sz : Nat

/-- `Iterator(data, columns, _i)`. dune/istl/matrix.hh:276-280. -/
def It.make (W columns i : Nat) : It := ⟨i, (i * columns) % W, columns⟩
/-- `++it`. dune/istl/matrix.hh:301-306. -/
def It.inc (W : Nat) (it : It) : It := ⟨(it.i + 1) % W, (it.ptr + it.sz) % W, it.sz⟩
/-- `--it`. dune/istl/matrix.hh:309-314. -/
def It.dec (W : Nat) (it : It) : It := ⟨(it.i + (W - 1)) % W, (it.ptr + (W - it.sz)) % W, it.sz⟩
/-- `it == other`: the addresses. dune/istl/matrix.hh:317-338. -/
def It.equals (it other : It) : Bool := it.ptr == other.ptr

/-- `A.begin()`. dune/istl/matrix.hh:364-367. -/
def first (W : Nat) (A : DMat B) : It := .make W A.columns 0
/-- `A.end()`. dune/istl/matrix.hh:370-373. -/
def last (W : Nat) (A : DMat B) : It := .make W A.columns A.rows
/-- `A.beforeEnd()`: row `rows_-1`. dune/istl/matrix.hh:377-380. -/
def beforeEnd (W : Nat) (A : DMat B) : It := .make W A.columns ((A.rows + (W - 1)) % W)
/-- `A.beforeBegin()`, `A.rend()`: row `-1`. dune/istl/matrix.hh:384-387, 531-534. -/
def beforeBegin (W : Nat) (A : DMat B) : It := .make W A.columns (W - 1)
/-- `A.find(i)`. dune/istl/matrix.hh:390-399. -/
def find (W : Nat) (A : DMat B) (i : Nat) : It := .make W A.columns (min i A.rows)

/-- Start of a loop. dune/istl/matrix.hh:364-380. -/
def start (W : Nat) (A : DMat B) : Dir → It
  | .up => first W A
  | .down => beforeEnd W A
/-- Iterator that ends the loop. dune/istl/matrix.hh:370-387. -/
def stop (W : Nat) (A : DMat B) : Dir → It
  | .up => last W A
  | .down => beforeBegin W A
/-- Step of the loop. dune/istl/matrix.hh:301-314. -/
def step (W : Nat) : Dir → It → It
  | .up => It.inc W
  | .down => It.dec W

/-- `(*it)[j] = f(it.index(), j, (*it)[j])` for all `j < it->size()`, with a state. dune/istl/matrix.hh:341-355. -/
def rowBody (f : Nat → Nat → B → τ → B × τ) (it : It) (x : DMat B × τ) : Res (DMat B × τ) :=
  forRangeM it.sz (fun j (x : DMat B × τ) => do
    let b ← rd x.1.p (it.ptr + j)
    let p ← wr x.1.p (it.ptr + j) (f it.i j b x.2).1
    .ok ({ x.1 with p := p }, (f it.i j b x.2).2)) x

/-- `for (auto it = …; it != stop; ++it) …` (or `--it`): how the loop can end. A loop that does not end has no result. -/
inductive Loop (W : Nat) (d : Dir) (f : Nat → Nat → B → τ → B × τ) (stop : It) : It → DMat B × τ → Res (DMat B × τ) → Prop
  | done {it x} : it.equals stop = true → Loop W d f stop it x (.ok x)
  | next {it x y r} : it.equals stop = false → rowBody f it x = .ok y → Loop W d f stop (step W d it) y r → Loop W d f stop it x r
  | throw {it x e} : it.equals stop = false → rowBody f it x = .throw e → Loop W d f stop it x (.throw e)
  | ub {it x} : it.equals stop = false → rowBody f it x = .ub → Loop W d f stop it x .ub

end DenseIter
end Istl
