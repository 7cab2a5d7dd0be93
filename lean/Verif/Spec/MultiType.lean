import Verif.Model.MultiType

/-! # Specification vocabulary for tuples of blocks of different types -/

namespace Istl
namespace MultiType
variable {R X Y : Type} [Ring R] [AddCommGroup X] [AddCommGroup Y] [Module R X] [Module R Y]

/-- The nine products of a block are those of the linear map `f`, the transposed map `t` and the Hermitian map `h`. -/
structure Implements (A : BlockOps R X Y) (f : X → Y) (t h : Y → X) : Prop where
  umv : ∀ x y, A.umv x y = y + f x
  mmv : ∀ x y, A.mmv x y = y - f x
  usmv : ∀ α x y, A.usmv α x y = y + α • f x
  umtv : ∀ x y, A.umtv x y = y + t x
  mmtv : ∀ x y, A.mmtv x y = y - t x
  usmtv : ∀ α x y, A.usmtv α x y = y + α • t x
  umhv : ∀ x y, A.umhv x y = y + h x
  mmhv : ∀ x y, A.mmhv x y = y - h x
  usmhv : ∀ α x y, A.usmhv α x y = y + α • h x

/-- The block matrix `f` applied to a tuple: `(f x)_i = Σ_j f_ij x_j`. -/
def app {n m : Nat} {X : Fin m → Type} {Y : Fin n → Type} [∀ i, AddCommGroup (Y i)] (f : ∀ i j, X j → Y i)
    (x : ∀ j, X j) : ∀ i, Y i := fun i => ∑ j, f i j (x j)

/-- `x` solves the block system `f x = b`. -/
def Solves {n : Nat} {X Y : Fin n → Type} [∀ i, AddCommGroup (Y i)] (f : ∀ i j, X j → Y i) (b : ∀ i, Y i)
    (x : ∀ i, X i) : Prop := ∀ i, ∑ j, f i j (x j) = b i

/-- The step used on the diagonal blocks solves exactly: `f_ii v = r` for the `v` it returns, whatever it started from. -/
def ExactInner {n : Nat} {X Y : Fin n → Type} (f : ∀ i j, X j → Y i) (inner : ∀ i, X i → Y i → X i) : Prop :=
  ∀ i v r, f i i (inner i v r) = r

end MultiType
end Istl
