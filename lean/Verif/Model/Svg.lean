import Verif.Model.Gsetc
import Mathlib.Data.Rat.Floor

/-!
# `writeSVGMatrix` (dune/istl/io.hh)

The picture is the list of the elements written. `std::size_t` arithmetic wraps; `double` arithmetic of the header is exact. Values, titles
and colours are not modelled.
-/

namespace Istl
namespace Svg

/-- A matrix of numbers, or of matrices. Row `i` has stored entries in the columns `pat i`, in iteration order. -/
inductive PMat where
  | leaf (n m : Nat) (pat : Nat → List Nat)
  | node (n m : Nat) (pat : Nat → List Nat) (entry : Nat → Nat → PMat)

/-- Number of values of `std::size_t`. -/
@[irreducible] def W : Nat := 2 ^ 64

/-- `std::numeric_limits<std::size_t>::max()`. dune/istl/io.hh:631. -/
def null : Nat := W - 1

/-- Addition in `std::size_t`. -/
def add (a b : Nat) : Nat := (a + b) % W

/-- Multiplication in `std::size_t`. -/
def mul (a b : Nat) : Nat := (a * b) % W

/-- Subtraction in `std::size_t`. -/
def sub (a b : Nat) : Nat := (a + (W - b % W)) % W

/-- An element of the picture: a rectangle for the matrix or number with the given row and column indices; the begin of a nested picture with
its own origin; its end. -/
inductive Tok where
  | rect (rp cp : List Nat) (number : Bool) (x y w h : Nat)
  | begin (x y w h : Nat)
  | finish
deriving DecidableEq

/-- The options the layout depends on. dune/istl/io.hh:711-722. -/
structure Opts where
  blockSize : Nat
  interspace : Nat

/-- `for_each_entry`: the stored positions, row by row. dune/istl/io.hh:592-598. -/
def positions (n : Nat) (pat : Nat → List Nat) : List (Nat × Nat) := (List.range n).flatMap fun i => (pat i).map fun j => (i, j)

/-- The numbers of a matrix of numbers. dune/istl/io.hh:609-617. -/
def leafRects (o : Opts) (n : Nat) (pat : Nat → List Nat) (rp cp : List Nat) : List Tok :=
  (positions n pat).map fun p => .rect (rp ++ [p.1]) (cp ++ [p.2]) true (add o.interspace (mul p.2 (add o.interspace o.blockSize)))
    (add o.interspace (mul p.1 (add o.interspace o.blockSize))) o.blockSize o.blockSize

/-- `col_offset` and `row_offset` of a matrix of numbers. dune/istl/io.hh:588-589, 618-619. -/
def leafSize (o : Opts) (n m : Nat) : Nat × Nat :=
  (add o.interspace (mul m (add o.blockSize o.interspace)), add o.interspace (mul n (add o.blockSize o.interspace)))

/-- `if (offsets[k+1] == null_offset) offsets[k+1] = s`, with the bound of the vector. dune/istl/io.hh:641-646. -/
def setFirst (m k s : Nat) (d : Nat → Nat) : Res (Nat → Nat) :=
  if k < m then .ok (if d (k + 1) = null then upd d (k + 1) s else d) else .ub

/-- `*std::min_element(begin, end)`. dune/istl/io.hh:650-653. -/
def minElem (m : Nat) (d : Nat → Nat) : Nat := forRange m (fun k s => if d (k + 1) < s then d (k + 1) else s) (d 0)

/-- `std::replace(begin, end, null_offset, min)`. dune/istl/io.hh:651, 653. -/
def fillNull (m : Nat) (d : Nat → Nat) : Nat → Nat := fun k => if d k = null then minElem m d else d k

/-- `offsets[0] = interspace` and the partial sums. dune/istl/io.hh:656-661. -/
def partialSums (o : Opts) (d : Nat → Nat) : Nat → Nat
  | 0 => o.interspace
  | k + 1 => add (d (k + 1)) (add (partialSums o d k) o.interspace)

/-- `Impl::writeSVGMatrix` without the header: the elements and the size `(col_offset, row_offset)`. dune/istl/io.hh:570-706. -/
def write (o : Opts) : PMat → List Nat → List Nat → Res (List Tok × (Nat × Nat))
  | .leaf n m pat, rp, cp =>
    let s := leafSize o n m
    .ok (.rect rp cp false 0 0 s.1 s.2 :: leafRects o n pat rp cp, s)
  | .node n m pat entry, rp, cp => do
    let d ← forRangeM n (fun i d => (pat i).foldlM (fun (d : (Nat → Nat) × (Nat → Nat)) j => do
      let r ← write o (entry i j) (rp ++ [0]) (cp ++ [0])
      let c ← setFirst m j r.2.1 d.1
      let w ← setFirst n i r.2.2 d.2
      .ok (c, w)) d) (fun _ => null, fun _ => null)
    let X := partialSums o (fillNull m d.1)
    let Y := partialSums o (fillNull n d.2)
    let l ← forRangeM n (fun i l => (pat i).foldlM (fun (l : List Tok) j => do
      let r ← write o (entry i j) (rp ++ [i]) (cp ++ [j])
      .ok (l ++ [.begin (X j) (Y i) (sub (sub (X (j + 1)) (X j)) o.interspace) (sub (sub (Y (i + 1)) (Y i)) o.interspace)] ++ r.1 ++ [.finish])) l) []
    .ok (.rect rp cp false 0 0 (X m) (Y n) :: l, (X m, Y n))

/-- The header: width and height of the picture, and the two scaling factors; `none` if they are not numbers. dune/istl/io.hh:549-568. -/
def header (width height : ℚ) (s : Nat × Nat) : Option ((ℤ × ℤ) × (ℚ × ℚ)) :=
  if s.1 = 0 ∨ s.2 = 0 then none
  else
    let w := width
    let h := height
    let wh := if width = 0 ∧ height = 0 then ((500 : ℚ), (500 : ℚ)) else (w, h)
    let w := if width = 0 then height * ((s.1 : ℚ) / s.2) else wh.1
    let h := if height = 0 then width * ((s.2 : ℚ) / s.1) else wh.2
    some ((⌈w⌉, ⌈h⌉), (w / s.1, h / s.2))

/-- `writeSVGMatrix(out, mat, opts)`: header and elements. dune/istl/io.hh:838-844, 684-703. -/
def writeSVGMatrix (o : Opts) (width height : ℚ) (A : PMat) : Res (Option ((ℤ × ℤ) × (ℚ × ℚ)) × List Tok) := do
  let r ← write o A [] []
  .ok (header width height r.2, r.1)

end Svg
end Istl
