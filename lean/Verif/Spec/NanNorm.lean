import Verif.Model.NanNorm

/-! # What is assumed of rounding, and the vocabulary for norms with NaN -/

namespace Istl
namespace NanNorm
variable {K : Type} [Field K] [LinearOrder K]

/-- Rounding of non-negative numbers: monotone (and overflow is upward closed), leaves representable numbers alone, 0 and 1 are
representable. True of IEEE addition in every rounding mode. -/
structure Rounding (rnd : K → Option K) : Prop where
  zero : rnd 0 = some 0
  one : rnd 1 = some 1
  idem : ∀ a b, rnd a = some b → rnd b = some b
  mono : ∀ a b b', 0 ≤ a → a ≤ b → rnd b = some b' → ∃ a', rnd a = some a' ∧ a' ≤ b'

/-- A value that an entry's norm can have: NaN, infinite or a non-negative representable number. -/
def IsNorm (rnd : K → Option K) (x : Fl K) : Prop := ∀ a, x = .fin a → 0 ≤ a ∧ rnd a = some a

/-- The sum of finite numbers as the machine computes it from left to right, starting from `s`; `none` if it overflows. -/
def runningSum (rnd : K → Option K) (s : K) : List K → Option K
  | [] => some s
  | a :: l => (rnd (s + a)).bind fun s' => runningSum rnd s' l

end NanNorm
end Istl
