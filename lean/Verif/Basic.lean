/-!
# Outcomes of C++ calls

`Res α` is the outcome of a modelled C++ call: a normal return, a thrown exception, or undefined behaviour
(out-of-bounds access, null dereference...). It is a monad: the first `throw`/`ub` ends the computation.
-/

namespace Istl

/-- Exception classes thrown by the modelled code. Models dune/istl/istlexception.hh:17-57 (ISTLError,
BCRSMatrixError, ImplicitModeCompressionBufferExhausted, SolverAbort, MatrixBlockError) and the dune-common classes
RangeError, FMatrixError, InvalidStateException used by it; `lengthError` is `std::length_error`, `formatError` is `MatrixMarketFormatError`; `exception` is the
base class `Dune::Exception`, `unsupportedType` and `noAssembledOperator` (dune/istl/solverregistry.hh:51, 117) come from the solver factory,
`invalidFactoryConfiguration` is `InvalidSolverFactoryConfiguration` (line 119). -/
inductive Exc where
  | istlError
  | bcrsMatrixError
  | compressionBufferExhausted
  | solverAbort
  | matrixBlockError
  | rangeError
  | fmatrixError
  | invalidState
  | invalidSolverCategory
  | mathError
  | ioError
  | notImplemented
  | lengthError
  | formatError
  | exception
  | unsupportedType
  | noAssembledOperator
  | invalidFactoryConfiguration
  deriving DecidableEq, Repr

/-- Outcome of a call. Simplification: the message texts of exceptions are dropped. -/
inductive Res (α : Type) where
  | ok (a : α)
  | throw (e : Exc)
  | ub
  deriving DecidableEq, Repr

namespace Res

variable {α : Type} {β : Type}

/-- Sequencing: exceptions and undefined behaviour end the computation. -/
def bind (x : Res α) (f : α → Res β) : Res β :=
  match x with
  | ok a => f a
  | throw e => throw e
  | ub => ub

instance : Monad Res where
  pure := Res.ok
  bind := Res.bind

@[simp] theorem pure_eq (a : α) : (pure a : Res α) = ok a := rfl
@[simp] theorem ok_bind {α β : Type} (a : α) (f : α → Res β) : (ok a >>= f) = f a := rfl
@[simp] theorem throw_bind {α β : Type} (e : Exc) (f : α → Res β) : ((throw e : Res α) >>= f) = throw e := rfl
@[simp] theorem ub_bind {α β : Type} (f : α → Res β) : ((ub : Res α) >>= f) = ub := rfl

instance : LawfulMonad Res := LawfulMonad.mk'
  (id_map := by intro α x; cases x <;> rfl)
  (pure_bind := by intros; rfl)
  (bind_assoc := by intro α β γ x f g; cases x <;> rfl)

/-- The call returned normally. -/
def isOk : Res α → Bool
  | ok _ => true
  | _ => false

theorem bind_eq_ok {α β : Type} {x : Res α} {f : α → Res β} {b : β} :
    (x >>= f) = ok b ↔ ∃ a, x = ok a ∧ f a = ok b := by
  cases x <;> simp

end Res

/-- `std::vector::operator[]` / raw pointer read with explicit undefined behaviour outside the array. -/
def rd {α : Type} (l : List α) (i : Nat) : Res α :=
  match l[i]? with
  | some a => .ok a
  | none => .ub

/-- raw pointer write with explicit undefined behaviour outside the array. -/
def wr {α : Type} (l : List α) (i : Nat) (a : α) : Res (List α) :=
  if i < l.length then .ok (l.set i a) else .ub

end Istl
