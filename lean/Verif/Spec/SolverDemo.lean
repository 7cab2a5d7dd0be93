import Verif.Spec.Solver
import Mathlib.Data.Rat.Defs
import Mathlib.Algebra.Order.Ring.Rat
import Mathlib.Algebra.Module.Prod

/-! # A concrete environment for the non-vacuity examples: the matrix `((2,1),(1,3))` over the rationals, `norm` the sum norm, the
identity as preconditioner. Numbers larger than `1000` play the role of `inf`. `sqrt` is not used for its meaning. -/

namespace Istl
namespace Solver

/-- `((2,1),(1,3))` applied to a vector. -/
def demoOp (x : ℚ × ℚ) : ℚ × ℚ := (2 * x.1 + x.2, x.1 + 3 * x.2)

/-- The environment of the examples. -/
def demoEnv : Env ℚ ℚ (ℚ × ℚ) where
  pre x b := (x, b)
  post x := x
  subOp x b := b - demoOp x
  op := demoOp
  prec _ b := b
  dot x y := x.1 * y.1 + x.2 * y.2
  norm x := |x.1| + |x.2|
  lt a b := decide (a < b)
  finite d := decide (d ≤ 1000)
  isZero d := decide (d = 0)
  abs x := |x|
  ofReal x := x
  sqrt x := x
  conj x := x
  rsqrt x := x
  tiny := 1 / 10 ^ 30
  eps := 1 / 10 ^ 80
  rotEps := 1 / 10 ^ 15

/-- Rationals with a NaN: `x/0 = NaN`, and every operation with NaN gives NaN. -/
inductive Fl where
  | nan
  | num (q : ℚ)
  deriving DecidableEq

/-- Binary operations propagate NaN. -/
def Fl.bin (f : ℚ → ℚ → ℚ) : Fl → Fl → Fl
  | .num a, .num b => .num (f a b)
  | _, _ => .nan

/-- Comparisons with NaN are false. -/
def Fl.blt : Fl → Fl → Bool
  | .num a, .num b => decide (a < b)
  | _, _ => false

instance : Zero Fl := ⟨.num 0⟩
instance : One Fl := ⟨.num 1⟩
instance : Add Fl := ⟨Fl.bin (· + ·)⟩
instance : Sub Fl := ⟨Fl.bin (· - ·)⟩
instance : Mul Fl := ⟨Fl.bin (· * ·)⟩
instance : SMul Fl Fl := ⟨Fl.bin (· * ·)⟩
instance : Neg Fl := ⟨fun | .num a => .num (-a) | .nan => .nan⟩
instance : Div Fl := ⟨fun | .num a, .num b => if b = 0 then .nan else .num (a / b) | _, _ => .nan⟩

/-- The scalar system `1 * x = b`. -/
def nanEnv : Env Fl Fl Fl where
  pre x b := (x, b)
  post x := x
  subOp x b := b - x
  op x := x
  prec _ b := b
  dot x y := x * y
  norm x := match x with | .num a => .num |a| | .nan => .nan
  lt := Fl.blt
  finite d := decide (d ≠ .nan)
  isZero d := decide (d = .num 0)
  abs x := match x with | .num a => .num |a| | .nan => .nan
  ofReal x := x
  sqrt x := x
  conj x := x
  rsqrt x := x
  tiny := .num (1 / 10 ^ 30)
  eps := .num (1 / 10 ^ 80)
  rotEps := .num (1 / 10 ^ 15)

end Solver
end Istl
