import Mathlib.Algebra.Order.Field.Basic

/-!
# Maximum norms over a floating point type

`infinity_norm`/`infinity_norm_real` of `BlockVector`, `BCRSMatrix`, `Matrix` and `MultiTypeBlockVector` in the version selected for
field types that have NaN: a running maximum together with a running sum (`isNaN`, `nanTracker`) that keeps any NaN.

Numbers are the non-negative values of a floating point type: finite ones, `+∞` and NaN. Sums and products of finite numbers are
rounded by `rnd`, where `none` is overflow to `+∞`. The only quotient formed, `t/t`, is exact in IEEE arithmetic.
-/

namespace Istl
namespace NanNorm

/-- A non-negative floating point value, as returned by the entries' own `infinity_norm()`; dune/istl/bvector.hh:291. -/
inductive Fl (K : Type) where
  | fin (a : K)
  | inf
  | nan
deriving DecidableEq

variable {K : Type} [Field K] [LinearOrder K]

/-- Result of rounding a finite exact value; `none` is overflow. Models the arithmetic of `isNaN += a`, dune/istl/bvector.hh:293. -/
def ofRnd (r : Option K) : Fl K :=
  match r with
  | some a => .fin a
  | none => .inf

/-- `a + b` for non-negative values. dune/istl/bvector.hh:293. -/
def add (rnd : K → Option K) : Fl K → Fl K → Fl K
  | .fin a, .fin b => ofRnd (rnd (a + b))
  | .nan, _ => .nan
  | _, .nan => .nan
  | _, _ => .inf

/-- `a < b`: false if one of them is NaN. dune/istl/bvector.hh:292 (inside `std::max`). -/
def lt : Fl K → Fl K → Bool
  | .fin a, .fin b => decide (a < b)
  | .fin _, .inf => true
  | _, _ => false

/-- `std::max(a, b)`: `(a < b) ? b : a`. dune/istl/bvector.hh:292. -/
def fmax (a b : Fl K) : Fl K := if lt a b then b else a

/-- `a / b` for non-negative values; exact where finite (the code divides a number by itself). dune/istl/bvector.hh:295. -/
def div : Fl K → Fl K → Fl K
  | .fin a, .fin b => if b = 0 then (if a = 0 then .nan else .inf) else .fin (a / b)
  | .fin _, .inf => .fin 0
  | .inf, .fin _ => .inf
  | _, _ => .nan

/-- `a * b` for non-negative values. dune/istl/bvector.hh:295. -/
def mul (rnd : K → Option K) : Fl K → Fl K → Fl K
  | .fin a, .fin b => ofRnd (rnd (a * b))
  | .nan, _ => .nan
  | _, .nan => .nan
  | .fin a, .inf => if a = 0 then .nan else .inf
  | .inf, .fin b => if b = 0 then .nan else .inf
  | .inf, .inf => .inf

/-- The loop over the entries: `norm = max(a, norm); isNaN += a`, starting from `norm = 0`, `isNaN = 1`.
dune/istl/bvector.hh:287-294, dune/istl/multitypeblockvector.hh:261-272. -/
def loop (rnd : K → Option K) (l : List (Fl K)) : Fl K × Fl K :=
  l.foldl (fun s a => (fmax a s.1, add rnd s.2 a)) (.fin 0, .fin 1)

/-- `BlockVector::infinity_norm`, `infinity_norm_real` (also of a compressed and a variable block vector), where `l` are the
entries' norms: `norm * (isNaN / isNaN)`. dune/istl/bvector.hh:280-296, 299-314, 906-940,
dune/istl/multitypeblockvector.hh:256-282, 286-312. -/
def vecNorm (rnd : K → Option K) (l : List (Fl K)) : Fl K :=
  mul rnd (loop rnd l).1 (div (loop rnd l).2 (loop rnd l).2)

/-- The sum over one row: `sum = 0; sum += y.infinity_norm()`. dune/istl/bcrsmatrix.hh:1964-1966. -/
def rowSum (rnd : K → Option K) (r : List (Fl K)) : Fl K := r.foldl (add rnd) (.fin 0)

/-- `BCRSMatrix::infinity_norm`, `Matrix::infinity_norm` and the `_real` versions, where `rows` are the norms of the stored blocks
row by row. dune/istl/bcrsmatrix.hh:1952-1972, 1975-1996, dune/istl/matrix.hh:1022-1040, 1043-1060. -/
def matNorm (rnd : K → Option K) (rows : List (List (Fl K))) : Fl K := vecNorm rnd (rows.map (rowSum rnd))

/-- `one_norm`, `one_norm_real`, `two_norm2`, `frobenius_norm2`: plain sums. dune/istl/bvector.hh:215-248. -/
def sumNorm (rnd : K → Option K) (l : List (Fl K)) : Fl K := l.foldl (add rnd) (.fin 0)

/-- The version without tracking, selected for types without NaN; here applied to a type that has NaN.
dune/istl/bvector.hh:250-262. -/
def plainNorm (l : List (Fl K)) : Fl K := l.foldl (fun n a => fmax a n) (.fin 0)

end NanNorm
end Istl
